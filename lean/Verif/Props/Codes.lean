/-
C50: every call reports only the error codes its documentation allows, from any state and for any arguments: the codes that belong to
lower layers (E_BAD_BLOCK, E_RECOVER, E_NOT_FOUND) do not leak.
-/
import Verif.Proofs.Codes
import Verif.Props.Failed
import Verif.Props.Example2
namespace Dhara

variable {c : Cfg}

/-- The error codes a map call may report. E_BAD_BLOCK and E_RECOVER are handled inside (map.c:270-306), E_NOT_FOUND only answers
lookups (map.h:66-68), E_MAP_FULL only calls that may add a sector, and E_CORRUPT_MAP is reserved. -/
def Documented : Op → Err → Prop
  | .write _ _, e | .copyPage _ _, e | .copySector _ _, e => e = .ecc ∨ e = .tooBad ∨ e = .journalFull ∨ e = .mapFull
  | .trim _, e | .sync, e | .gc, e => e = .ecc ∨ e = .tooBad ∨ e = .journalFull
  | .clear, _ => False

theorem map_reported : ∀ e, MapCode e → e.Reported → e = .ecc ∨ e = .tooBad ∨ e = .journalFull := by
  intro e
  unfold Err.Reported
  cases e <;> decide

theorem full_reported : ∀ e, FullCode e → e.Reported → e = .ecc ∨ e = .tooBad ∨ e = .journalFull ∨ e = .mapFull := by
  intro e
  unfold Err.Reported
  cases e <;> decide

/-- C50: the mutating map calls. -/
theorem map_error_codes (s s' : S) (op : Op) (e : Err) (hs : step c op s = (.error e, s')) (he : e.Reported) : Documented op e := by
  have h : ∀ P, Gives P (step c op s) → P e := fun P h => h e (by rw [hs])
  cases op with
  | write t d => exact full_reported _ (h _ (writeLoop_gv _ _ (fun _ _ => (enqueue_po _ _ _).gv) _ _)) he
  | copyPage p t => exact full_reported _ (h _ (mapCopyPage_gv _ _ _)) he
  | copySector a t => exact full_reported _ (h _ (mapCopySector_gv _ _ _)) he
  | trim t => exact map_reported _ (h _ (mapTrimLoop_gv _ _ _)) he
  | clear => exact h (fun _ => False) gv_ok
  | sync => exact map_reported _ (h _ (mapSyncLoop_gv _ _)) he
  | gc => exact map_reported _ (h _ (mapGc_gv _)) he

/-- C50: a lookup reports E_NOT_FOUND or E_ECC. -/
theorem find_error_codes (s : S) (t : Nat) (e : Err) (hs : mapFind c s t = .error e) (he : e.Reported) :
    e = .notFound ∨ e = .ecc := by
  have h := tracePath_gv (c := c) s t freshMeta e hs
  revert h he
  unfold Err.Reported
  cases e <;> decide

/-- C50: a read reports E_ECC and nothing else. -/
theorem read_error_codes (s : S) (t : Nat) (e : Err) (hs : mapRead c s t = .error e) (he : e.Reported) : e = .ecc := by
  have hf := tracePath_gv (c := c) s t freshMeta
  have h : ReadCode e := by
    revert hs
    unfold mapRead mapFind
    generalize (tracePath c s t freshMeta) = r at hf ⊢
    rcases r with ⟨e1 | p, nm⟩
    · have h1 := gv_err hf
      cases e1 <;> first | (intro h; cases h; done) | (intro h; cases h; revert h1; decide)
    · exact fun h => nandRead_err h
  revert h he
  unfold Err.Reported
  cases e <;> decide

/-- C50: appending to the journal. E_RECOVER is reported only with recovery pending (journal.h:190-199), so the caller's recovery
procedure always has something to do; E_BAD_BLOCK never reaches the caller, and E_ECC only from a copy. -/
theorem enqueue_error_codes (d m : Option Buf) (s s' : S) (e : Err) (hs : enqueue c d m s = (.error e, s')) :
    (e = .tooBad ∨ e = .journalFull ∨ (e = .recover ∧ s'.j.recovery = true) ∨ e = .powerLoss) := by
  have h := enqueue_po (c := c) (k := false) d m s e (by rw [hs])
  rw [hs] at h
  obtain ⟨h1, h2⟩ := h
  cases e with
  | recover => exact Or.inr (Or.inr (Or.inl ⟨rfl, h2 rfl⟩))
  | _ => generalize s'.j.recovery = b; revert h1; cases b <;> decide

/-- C50: copying a page to the journal. -/
theorem copy_error_codes (p : Nat) (b : Buf) (s s' : S) (e : Err) (hs : journalCopy c p b s = (.error e, s')) (he : e.Reported) :
    (e = .ecc ∨ e = .tooBad ∨ e = .journalFull ∨ (e = .recover ∧ s'.j.recovery = true)) := by
  have h := journalCopy_po (c := c) p b s e (by rw [hs])
  rw [hs] at h
  obtain ⟨h1, h2⟩ := h
  cases e with
  | recover => exact Or.inr (Or.inr (Or.inr ⟨rfl, h2 rfl⟩))
  | _ => generalize s'.j.recovery = b; revert h1 he; unfold Err.Reported; cases b <;> decide

/-- C50: resuming reports E_TOO_BAD and nothing else. -/
theorem resume_error_codes (hc : c.Valid) (s s' : S) (e : Err) (hs : mapResume c s = (.error e, s')) : e = .tooBad := by
  rcases resume_terminates hc s with h | h
  · rw [hs] at h; cases h
  · rw [hs] at h; cases h; rfl

/-- A case: the hypotheses are met with E_ECC (an unreadable page during sync) and with E_MAP_FULL (a chip without room). -/
theorem codes_example : Documented .sync .ecc ∧ Documented (.write 3 (Viol.data 1)) .mapFull ∧ ¬ Documented .sync .mapFull :=
  ⟨map_error_codes _ _ _ _ (Prod.ext ExF.failsF rfl) ⟨by decide, by decide, by decide⟩,
    map_error_codes _ _ _ _ (Prod.ext Ex2.tiny_full rfl) ⟨by decide, by decide, by decide⟩, by unfold Documented; decide⟩

end Dhara

/-
C51: E_ECC is reported only while some page cannot be read, provided that pages left over from failed or interrupted operations can be
read (with whatever contents). Without that proviso the claim is false: `Viol.torn_page_blocks_gc`.
-/
import Verif.Proofs.Readable
import Verif.Props.Stuck
import Verif.Props.Failed
namespace Dhara

variable {c : Cfg}

/-- C51: the mutating calls, from any state. -/
theorem ecc_means_read_failure (hj : ∀ t p, ∃ b, c.env.junk t p = some b) (s s' : S)
    (ha : ∀ p, p < c.pages → ∃ b, s.n.chip.page p = some b) (op : Op) (hs : step c op s = (.error .ecc, s')) :
    ∃ p, p < c.pages ∧ c.env.readFail s'.n.time p = true := by
  have h := (call_eo hj op (s := tick s) ha).2
  have hs' : call c op (tick s) = (.error .ecc, s') := hs
  rw [hs'] at h
  exact h rfl

/-- C51: the calls that only look. -/
theorem ecc_means_read_failure_lookup (s : S) (ha : ∀ p, p < c.pages → ∃ b, s.n.chip.page p = some b) (t : Nat)
    (hs : mapFind c s t = .error .ecc ∨ mapRead c s t = .error .ecc) : ∃ p, p < c.pages ∧ c.env.readFail s.n.time p = true := by
  rcases hs with hs | hs
  · exact tracePath_eq ha t freshMeta hs
  · have hf := tracePath_eq ha t freshMeta
    revert hs
    unfold mapRead mapFind
    generalize (tracePath c s t freshMeta) = r at hf ⊢
    rcases r with ⟨e1 | p, nm⟩
    · cases e1 <;> first
        | (intro h; cases h; done)
        | exact fun _ => hf rfl
    · exact fun h => nandRead_rf ha h

/-- C51: the proviso is kept by every call and by power failures, so it is one about the chip's initial state and the leftovers of failed
operations only. -/
theorem pages_stay_readable (hj : ∀ t p, ∃ b, c.env.junk t p = some b) (s : S)
    (ha : ∀ p, p < c.pages → ∃ b, s.n.chip.page p = some b) :
    (∀ op p, p < c.pages → ∃ b, (step c op s).2.n.chip.page p = some b) ∧
    ∀ buf cnt p, p < c.pages → ∃ b, (reboot c buf cnt s).2.n.chip.page p = some b := by
  refine ⟨fun op => (call_eo hj op (s := tick s) ha).1, fun buf cnt p hp => ?_⟩
  obtain ⟨b, hb⟩ := ha p hp
  refine ⟨b, ?_⟩
  unfold reboot mapResume
  generalize journalResume c _ _ = r
  rcases r with ⟨e | u, j⟩ <;> exact hb

end Dhara

namespace Dhara.ExF
open Viol

/-- `ExF` with readable leftovers. -/
def cG : Cfg := { cF with env := { cF.env with junk := fun _ _ => some fun _ => 7 } }
def sG : S := run cG opsF (start cG)

theorem failsG : (step cG .sync sG).1 = .error .ecc := isErr_iff (by decide +kernel)

theorem run_ar (c : Cfg) (hj : JunkRd c) : ∀ ops (s : S), AR c s.n → AR c (run c ops s).n := by
  intro ops
  induction ops with
  | nil => intro s h; exact h
  | cons op ops ih => intro s h; exact ih _ (call_eo hj op (s := tick s) h).1

/-- A case: an unreadable page during sync; the hypotheses are met and the page found is really unreadable. -/
theorem ecc_example : ∃ p, p < cG.pages ∧ cG.env.readFail (step cG .sync sG).2.n.time p = true :=
  ecc_means_read_failure (fun _ _ => ⟨_, rfl⟩) sG _
    (run_ar cG (fun _ _ => ⟨_, rfl⟩) opsF (start cG) (fun _ _ => ⟨_, rfl⟩)) .sync (Prod.ext failsG rfl)

end Dhara.ExF

/-
The sector count is changed by nothing but prepare_write, try_delete and clear (dhara/map.c).
-/
import Verif.Proofs.Trace
namespace Dhara

variable {c : Cfg}

/-- The count is as before. -/
def Ct {α : Type} (s : S) (r : α × S) : Prop := r.2.count = s.count

theorem Ct.of_eq {α : Type} {s s' : S} {r : α × S} {a : α} (h : Ct s r) (he : r = (a, s')) : s'.count = s.count := by
  rw [he] at h; exact h

theorem skipBlock_ct (s : S) : Ct s (skipBlock c s) := by
  unfold skipBlock Ct; simp only; split <;> rfl

theorem prepareHeadLoop_ct : ∀ i s, Ct s (prepareHeadLoop c i s) := by
  intro i
  induction i with
  | zero => intro s; rfl
  | succ i ih =>
    intro s
    unfold prepareHeadLoop
    simp only
    split
    · rfl
    · split
      · rename_i h; have h1 := (skipBlock_ct _).of_eq h; exact h1
      · rename_i h; have h1 := (skipBlock_ct _).of_eq h; exact (ih _).trans h1

theorem prepareHead_ct (s : S) : Ct s (prepareHead c s) := by
  unfold prepareHead
  simp only
  split
  · rfl
  · split
    · rfl
    · exact prepareHeadLoop_ct _ _

theorem progS_ct (p : Nat) (d : Buf) (s : S) : Ct s (progS c p d s) := rfl

theorem wrData_ct (d : Option Buf) (s : S) : Ct s (wrData c d s) := by
  unfold wrData; split <;> rfl

theorem wrCopy_ct (p : Nat) (s : S) : Ct s (wrCopy c p s) := rfl

theorem dumpMetaLoop_ct : ∀ i s, Ct s (dumpMetaLoop c i s) := by
  intro i
  induction i with
  | zero => intro s; rfl
  | succ i ih =>
    intro s
    unfold dumpMetaLoop
    have hr : Ct s (match prepareHead c s with
      | (.error e, s) => ((.error e, s) : Except Err Unit × S)
      | (.ok (), s) => progS c s.j.head s.j.pageBuf s) := by
      split
      · rename_i h; exact (prepareHead_ct _).of_eq h
      · rename_i h; exact (progS_ct _ _ _).trans ((prepareHead_ct _).of_eq h)
    simp only
    split
    · rename_i h; have h1 := hr.of_eq h; exact h1
    · rename_i h
      have h1 := hr.of_eq h
      split
      · exact h1
      · split
        · rename_i h2; have h3 := (skipBlock_ct _).of_eq h2; exact Eq.trans h3 h1
        · rename_i h2; have h3 := (skipBlock_ct _).of_eq h2; exact (ih _).trans (Eq.trans h3 h1)

theorem recoverFrom_ct (e : Err) (s : S) : Ct s (recoverFrom c e s) := by
  unfold recoverFrom
  simp only
  split
  · rfl
  · split
    · rename_i h; have h1 := (skipBlock_ct _).of_eq h; exact h1
    · rename_i s1 h
      have h1 : s1.count = s.count := by have h1 := (skipBlock_ct _).of_eq h; exact h1
      split
      · show (restartRecovery c _ s1).count = _
        rw [← h1]; unfold restartRecovery; simp only; repeat' split
        all_goals rfl
      · split
        · exact h1
        · split
          · rename_i h2
            split at h2
            · have h3 := (dumpMetaLoop_ct _ _).of_eq h2; exact Eq.trans h3 h1
            · cases h2
          · rename_i h2
            split at h2
            · have h3 := (dumpMetaLoop_ct _ _).of_eq h2; exact Eq.trans h3 h1
            · cases h2; exact h1

theorem commitPush_ct (h : Nat) (s : S) : (commitPush c h s).count = s.count := by
  unfold commitPush finishRecovery
  simp only
  repeat' split
  all_goals rfl

theorem pushMeta_ct (m : Option Buf) (s : S) : Ct s (pushMeta c m s) := by
  unfold pushMeta
  simp only
  split
  · rfl
  · split
    · rename_i h; exact (by have h1 := (progS_ct _ _ _).of_eq h; exact (recoverFrom_ct _ _).trans h1)
    · rename_i h; exact (by have h1 := (progS_ct _ _ _).of_eq h; exact (commitPush_ct _ _).trans h1)

theorem pushLoop_ct {wr : S → Except Err Unit × S} (hw : ∀ s, Ct s (wr s)) (m : Option Buf) : ∀ i s, Ct s (pushLoop c wr m i s) := by
  intro i
  induction i with
  | zero => intro s; rfl
  | succ i ih =>
    intro s
    unfold pushLoop
    have hr : Ct s (match prepareHead c s with
      | (.error e, s) => ((.error e, s) : Except Err Unit × S)
      | (.ok (), s) => wr s) := by
      split
      · rename_i h; exact (prepareHead_ct _).of_eq h
      · rename_i h; exact (hw _).trans ((prepareHead_ct _).of_eq h)
    simp only
    split
    · rename_i h; exact (pushMeta_ct _ _).trans (hr.of_eq h)
    · rename_i h
      split
      · rename_i h2; exact ((recoverFrom_ct _ _).of_eq h2).trans (hr.of_eq h)
      · rename_i h2; exact (ih _).trans (((recoverFrom_ct _ _).of_eq h2).trans (hr.of_eq h))

theorem enqueue_ct (d m : Option Buf) (s : S) : Ct s (enqueue c d m s) := pushLoop_ct (wrData_ct d) m _ s

theorem journalCopy_ct (p : Nat) (m : Buf) (s : S) : Ct s (journalCopy c p m s) := pushLoop_ct (wrCopy_ct p) _ _ s

theorem rawGc_ct (src : Nat) (s : S) : Ct s (rawGc c src s) := by
  unfold rawGc
  split
  · rfl
  · simp only
    split
    · rfl
    · split
      · rfl
      · rfl
      · split
        · rfl
        · exact journalCopy_ct _ _ _

theorem padQueue_ct (s : S) : Ct s (padQueue c s) := by
  unfold padQueue
  simp only
  split
  · exact enqueue_ct _ _ _
  · split
    · rfl
    · exact journalCopy_ct _ _ _

theorem peekLoop_ct : ∀ i k s, Ct s (peekLoop c i k s) := by
  intro i
  induction i with
  | zero => intro k s; rfl
  | succ i ih =>
    intro k s
    unfold peekLoop
    repeat' split
    all_goals first | rfl | exact ih _ _

theorem peek_ct (s : S) : Ct s (peek c s) := by
  unfold peek
  repeat' split
  all_goals first | rfl | exact peekLoop_ct _ _ _

theorem dequeue_ct (s : S) : (dequeue c s).count = s.count := by
  unfold dequeue
  simp only
  repeat' split
  all_goals rfl

theorem nextRecoverable_ct (s : S) : Ct s (nextRecoverable c s) := by
  unfold nextRecoverable
  simp only
  repeat' split
  all_goals rfl

theorem tryRecoverLoop_ct : ∀ f r s, Ct s (tryRecoverLoop c f r s) := by
  intro f
  induction f with
  | zero => intro r s; rfl
  | succ f ih =>
    intro r s
    unfold tryRecoverLoop
    split
    · rfl
    · simp only
      have hq : Ct s (if (nextRecoverable c s).1 = NONE then padQueue c (nextRecoverable c s).2
          else rawGc c (nextRecoverable c s).1 (nextRecoverable c s).2) := by
        split
        · exact (padQueue_ct _).trans (nextRecoverable_ct _)
        · exact (rawGc_ct _ _).trans (nextRecoverable_ct _)
      split
      · rename_i h; exact (ih _ _).trans (hq.of_eq h)
      · rename_i h
        split
        · exact hq.of_eq h
        · split
          · exact hq.of_eq h
          · exact (ih _ _).trans (hq.of_eq h)

theorem tryRecover_ct (e : Err) (s : S) : Ct s (tryRecover c e s) := by
  unfold tryRecover
  split
  · rfl
  · exact tryRecoverLoop_ct _ _ _

theorem mapGcLoop_ct : ∀ f s, Ct s (mapGcLoop c f s) := by
  intro f
  induction f with
  | zero => intro s; rfl
  | succ f ih =>
    intro s
    unfold mapGcLoop
    simp only
    split
    · exact peek_ct s
    · split
      · rename_i h; exact (dequeue_ct _).trans (((rawGc_ct _ _).of_eq h).trans (peek_ct s))
      · rename_i h
        have h1 := ((rawGc_ct (c := c) _ _).of_eq h).trans (peek_ct s)
        split
        · rename_i h2; exact ((tryRecover_ct _ _).of_eq h2).trans h1
        · rename_i h2; exact (ih _).trans (((tryRecover_ct _ _).of_eq h2).trans h1)

theorem mapGc_ct (s : S) : Ct s (mapGc c s) := by
  unfold mapGc
  split
  · rfl
  · exact mapGcLoop_ct _ _

theorem gcTimes_ct : ∀ k s, Ct s (gcTimes c k s) := by
  intro k
  induction k with
  | zero => intro s; rfl
  | succ k ih =>
    intro s
    unfold gcTimes
    split
    · rename_i h; exact (mapGc_ct _).of_eq h
    · rename_i h; exact (ih _).trans ((mapGc_ct _).of_eq h)

theorem autoGc_ct (s : S) : Ct s (autoGc c s) := by
  unfold autoGc
  split
  · rfl
  · exact gcTimes_ct _ _

theorem mapSyncLoop_ct : ∀ f s, Ct s (mapSyncLoop c f s) := by
  intro f
  induction f with
  | zero => intro s; rfl
  | succ f ih =>
    intro s
    unfold mapSyncLoop
    split
    · rfl
    · simp only
      have hq : Ct s (if (peek c s).1 = NONE then padQueue c (peek c s).2
        else match rawGc c (peek c s).1 (peek c s).2 with
          | (.ok (), s) => (.ok (), dequeue c s)
          | (.error e, s) => (.error e, s)) := by
        split
        · exact (padQueue_ct _).trans (peek_ct _)
        · split
          · rename_i h; exact (dequeue_ct _).trans (((rawGc_ct _ _).of_eq h).trans (peek_ct s))
          · rename_i h; exact ((rawGc_ct _ _).of_eq h).trans (peek_ct s)
      split
      · rename_i h; exact (ih _).trans (hq.of_eq h)
      · rename_i h
        split
        · rename_i h2; exact ((tryRecover_ct _ _).of_eq h2).trans (hq.of_eq h)
        · rename_i h2; exact (ih _).trans (((tryRecover_ct _ _).of_eq h2).trans (hq.of_eq h))

/-- If the result is an error, the count is as before. -/
def CtE {α : Type} (s : S) (r : Except Err α × S) : Prop := ∀ e, r.1 = .error e → r.2.count = s.count

theorem CtE.err {α : Type} {s s' : S} {e : Err} {r : Except Err α × S} (h : CtE s r) (he : r = (.error e, s')) : s'.count = s.count := by
  have := h e (by rw [he]); rw [he] at this; exact this

theorem prepareWrite_ct (dst : Nat) (s : S) : CtE s (prepareWrite c dst s) := by
  intro e he
  have hg := autoGc_ct (c := c) s
  unfold prepareWrite at he ⊢
  rcases h : autoGc c s with ⟨e1 | u, s1⟩
  · rw [h] at hg; exact hg
  · rw [h] at hg he
    simp only at he ⊢
    rcases ht : tracePath c s1 dst freshMeta with ⟨e2 | q, nm⟩
    · rw [ht] at he
      cases e2
      case notFound =>
        simp only at he ⊢
        by_cases hcp : s1.count ≥ mapCapacity c s1
        · rw [if_pos hcp]; exact hg
        · rw [if_neg hcp] at he; cases he
      all_goals exact hg
    · rw [ht] at he; cases he

theorem writeLoop_ct (dst : Nat) (push : Buf → S → Except Err Unit × S) : ∀ f s, CtE s (writeLoop c dst push f s) := by
  intro f
  induction f with
  | zero => intro s e _; rfl
  | succ f ih =>
    intro s e he
    unfold writeLoop at he ⊢
    simp only at he ⊢
    rcases hp : prepareWrite c dst s with ⟨e1 | mt, s1⟩
    · exact (prepareWrite_ct dst s).err hp
    · rw [hp] at he
      simp only at he ⊢
      rcases hq : push mt s1 with ⟨e2 | u, s2⟩
      · rw [hq] at he
        simp only at he ⊢
        have hr := tryRecover_ct (c := c) e2 { s2 with count := s.count }
        rcases htr : tryRecover c e2 { s2 with count := s.count } with ⟨e3 | u, s3⟩
        · rw [htr] at hr; exact hr
        · rw [htr] at hr he
          simp only at he ⊢
          exact (ih s3 e he).trans hr
      · rw [hq] at he; cases he

theorem tryDelete_ct (t : Nat) (s : S) : CtE s (tryDelete c t s) := by
  intro e he
  unfold tryDelete at he ⊢
  rcases hp : tracePath c s t freshMeta with ⟨e1 | q, nm⟩
  · rw [hp] at he
    cases e1 <;> rfl
  · rw [hp] at he
    simp only at he ⊢
    cases hl : lastAlt nm 32 with
    | none => rw [hl] at he; cases he
    | some level =>
      rw [hl] at he
      simp only at he ⊢
      cases hr : readMeta c s (metaGetAlt nm level) with
      | error e => rfl
      | ok am =>
        rw [hr] at he
        simp only at he ⊢
        split
        · rename_i h; have h1 := (journalCopy_ct _ _ _).of_eq h; exact h1
        · rename_i h; rw [h] at he; cases he

theorem mapTrimLoop_ct (t : Nat) : ∀ f s, CtE s (mapTrimLoop c t f s) := by
  intro f
  induction f with
  | zero => intro s e _; rfl
  | succ f ih =>
    intro s e he
    have hg := autoGc_ct (c := c) s
    unfold mapTrimLoop at he ⊢
    rcases h : autoGc c s with ⟨e1 | u, s1⟩
    · rw [h] at hg; exact hg
    · rw [h] at hg he
      simp only at he ⊢
      rcases hd : tryDelete c t s1 with ⟨e2 | u, s2⟩
      · have h2 := (tryDelete_ct t s1).err hd
        rw [hd] at he
        simp only at he ⊢
        have hr := tryRecover_ct (c := c) e2 s2
        rcases htr : tryRecover c e2 s2 with ⟨e3 | u, s3⟩
        · rw [htr] at hr; exact hr.trans (h2.trans hg)
        · rw [htr] at hr he
          simp only at he ⊢
          exact (ih s3 e he).trans (hr.trans (h2.trans hg))
      · rw [hd] at he; cases he

/-- A call that fails leaves the count alone. -/
theorem call_ct (op : Op) (s : S) : CtE s (call c op s) := by
  cases op with
  | write dst d => exact writeLoop_ct _ _ _ _
  | copyPage src dst => exact writeLoop_ct _ _ _ _
  | copySector src dst =>
    intro e he
    have he' : (mapCopySector c src dst s).1 = .error e := he
    show (mapCopySector c src dst s).2.count = _
    unfold mapCopySector at he' ⊢
    rcases hf : mapFind c s src with e1 | p
    · rw [hf] at he'
      cases e1
      case notFound => exact mapTrimLoop_ct _ _ _ e he'
      all_goals rfl
    · rw [hf] at he'; exact writeLoop_ct _ _ _ _ e he'
  | trim t => exact mapTrimLoop_ct _ _ _
  | clear => intro e he; cases he
  | sync => intro e _; exact mapSyncLoop_ct _ _
  | gc => intro e _; exact mapGc_ct _

end Dhara

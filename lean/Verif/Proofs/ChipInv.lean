/-
What the single operations of the driver keep true of the chip, every call of the library keeps true of it.
-/
import Verif.Proofs.Counters5
namespace Dhara

variable {c : Cfg} {P : Chip → Prop}

/-- Erasing, programming and marking keep `P`. -/
structure NCl (c : Cfg) (P : Chip → Prop) : Prop where
  erase : ∀ k (n : Nand), P n.chip → P (nandErase c k n).2.chip
  prog : ∀ p d (n : Nand), P n.chip → P (nandProg c p d n).2.chip
  mark : ∀ k (n : Nand), P n.chip → P (nandMarkBad c k n).chip

theorem skipBlock_ci {s : S} (h : P s.n.chip) : P (skipBlock c s).2.n.chip := by rw [skipBlock_chip]; exact h

theorem prepareHeadLoop_ci (hP : NCl c P) : ∀ i (s : S), P s.n.chip → P (prepareHeadLoop c i s).2.n.chip := by
  intro i
  induction i with
  | zero => intro s h; exact h
  | succ i ih =>
    intro s h
    unfold prepareHeadLoop
    simp only
    split
    · exact hP.erase _ _ h
    · have h1 := skipBlock_ci (c := c) (P := P) (s := { s with j := { s.j with bbCurrent := s.j.bbCurrent + 1 } }) h
      split
      · next h2 => rw [h2] at h1; exact h1
      · next h2 => rw [h2] at h1; exact ih _ h1

theorem prepareHead_ci (hP : NCl c P) {s : S} (h : P s.n.chip) : P (prepareHead c s).2.n.chip := by
  unfold prepareHead
  simp only
  split
  · exact h
  · split
    · exact h
    · exact prepareHeadLoop_ci hP _ _ h

theorem progS_ci (hP : NCl c P) (p : Nat) (d : Buf) {s : S} (h : P s.n.chip) : P (progS c p d s).2.n.chip := hP.prog p d _ h

theorem dumpMetaLoop_ci (hP : NCl c P) : ∀ i (s : S), P s.n.chip → P (dumpMetaLoop c i s).2.n.chip := by
  intro i
  induction i with
  | zero => intro s h; exact h
  | succ i ih =>
    intro s h
    unfold dumpMetaLoop
    simp only
    have fin : ∀ (e : Err) (s1 : S), P s1.n.chip →
        P (if e ≠ .badBlock then ((.error e, s1) : Except Err Unit × S)
          else match skipBlock c { { s1 with j := { s1.j with bbCurrent := s1.j.bbCurrent + 1 } } with
              n := nandMarkBad c (c.blk s1.j.head) s1.n } with
            | (.error e, s) => (.error e, s)
            | (.ok (), s) => dumpMetaLoop c i s).2.n.chip := by
      intro e s1 hd
      split
      · exact hd
      · have h3 := skipBlock_ci (c := c) (P := P)
          (s := { { s1 with j := { s1.j with bbCurrent := s1.j.bbCurrent + 1 } } with n := nandMarkBad c (c.blk s1.j.head) s1.n }) (hP.mark _ _ hd)
        split
        · next h2 => rw [h2] at h3; exact h3
        · next h2 => rw [h2] at h3; exact ih _ h3
    have d1 := prepareHead_ci hP h
    rcases hp : prepareHead c s with ⟨e | ⟨⟩, s1⟩
    · simp only
      rw [hp] at d1
      exact fin e s1 d1
    · rw [hp] at d1
      simp only at d1 ⊢
      have d2 := progS_ci hP s1.j.head s1.j.pageBuf d1
      rcases hq : progS c s1.j.head s1.j.pageBuf s1 with ⟨e | ⟨⟩, s2⟩
      · simp only
        rw [hq] at d2
        exact fin e s2 d2
      · rw [hq] at d2
        exact d2

theorem restartRecovery_ci (hP : NCl c P) (k : Nat) {s : S} (h : P s.n.chip) : P (restartRecovery c k s).n.chip := by
  unfold restartRecovery
  simp only
  split
  · exact hP.mark _ _ h
  · exact h

theorem recoverFrom_ci (hP : NCl c P) (e : Err) {s : S} (h : P s.n.chip) : P (recoverFrom c e s).2.n.chip := by
  unfold recoverFrom
  simp only
  split
  · exact h
  · have h3 := skipBlock_ci (c := c) (P := P) (s := { s with j := { s.j with bbCurrent := s.j.bbCurrent + 1 } }) h
    split
    · next h2 => rw [h2] at h3; exact h3
    · next s1 h1 =>
      rw [h1] at h3
      have hd : P s1.n.chip := h3
      split
      · exact restartRecovery_ci hP _ hd
      · split
        · exact hP.mark _ _ hd
        · generalize hr : (if ¬ (isAligned s.j.head c.log2Ppc = true) then
              dumpMeta c ⟨{ s1.j with recoverRoot := s1.j.root, recoverNext := c.blockStart s1.j.root }, s1.n, s1.count⟩
            else ((.ok (), ⟨{ s1.j with recoverRoot := s1.j.root, recoverNext := c.blockStart s1.j.root }, s1.n, s1.count⟩) : Except Err Unit × S)) = r
          have hk : P r.2.n.chip := by
            rw [← hr]
            split
            · exact dumpMetaLoop_ci hP _ _ hd
            · exact hd
          clear hr
          split
          · exact hk
          · exact hk

theorem finishRecovery_ci (hP : NCl c P) {s : S} (h : P s.n.chip) : P (finishRecovery c s).n.chip := by
  unfold finishRecovery
  simp only
  split
  · exact hP.mark _ _ (hP.mark _ _ h)
  · exact hP.mark _ _ h

theorem commitPush_ci (hP : NCl c P) (k : Nat) {s : S} (h : P s.n.chip) : P (commitPush c k s).n.chip := by
  have last : ∀ v : S, P v.n.chip → P (if ¬ v.j.recovery then { v with j := { v.j with tailSync := v.j.tail } } else v : S).n.chip := by
    intro v hv
    split <;> exact hv
  have mid : ∀ v : S, P v.n.chip → P (if v.j.enumDone then finishRecovery c v else v).n.chip := by
    intro v hv
    split
    · exact finishRecovery_ci hP hv
    · exact hv
  exact last _ (mid ⟨_, s.n, s.count⟩ h)

theorem pushMeta_ci (hP : NCl c P) (mt : Option Buf) {s : S} (h : P s.n.chip) : P (pushMeta c mt s).2.n.chip := by
  unfold pushMeta
  simp only
  split
  · exact h
  · have hd : P (progS c ((fillHeader (bufferMeta c mt s.j)).head + 1) (fillHeader (bufferMeta c mt s.j)).pageBuf
        ⟨fillHeader (bufferMeta c mt s.j), s.n, s.count⟩).2.n.chip := hP.prog _ _ _ h
    split
    · next heq =>
      rw [heq] at hd
      exact recoverFrom_ci hP _ hd
    · next heq =>
      rw [heq] at hd
      exact commitPush_ci hP _ hd

theorem pushLoop_ci (hP : NCl c P) {wr : S → Except Err Unit × S} (hwd : ∀ s, P s.n.chip → P (wr s).2.n.chip) (mt : Option Buf) :
    ∀ i (s : S), P s.n.chip → P (pushLoop c wr mt i s).2.n.chip := by
  intro i
  induction i with
  | zero => intro s h; exact h
  | succ i ih =>
    intro s h
    unfold pushLoop
    simp only
    have fin : ∀ (e : Err) (s1 : S), P s1.n.chip →
        P (match recoverFrom c e s1 with
            | (.error e, s) => ((.error e, s) : Except Err Unit × S)
            | (.ok (), s) => pushLoop c wr mt i s).2.n.chip := by
      intro e s1 hd
      have hd := recoverFrom_ci hP e hd
      split
      · next h2 => rw [h2] at hd; exact hd
      · next h2 => rw [h2] at hd; exact ih _ hd
    have d1 := prepareHead_ci hP h
    rcases hp : prepareHead c s with ⟨e | ⟨⟩, s1⟩
    · simp only
      rw [hp] at d1
      exact fin e s1 d1
    · rw [hp] at d1
      simp only at d1 ⊢
      have hd := hwd s1 d1
      rcases hq : wr s1 with ⟨e | ⟨⟩, s2⟩
      · rw [hq] at hd; simp only at hd ⊢
        exact fin e s2 hd
      · rw [hq] at hd; simp only at hd ⊢
        exact pushMeta_ci hP _ hd

theorem enqueue_ci (hP : NCl c P) (d m : Option Buf) {s : S} (h : P s.n.chip) : P (enqueue c d m s).2.n.chip := by
  refine pushLoop_ci hP (fun s h => ?_) _ _ _ h
  unfold wrData
  cases d with
  | none => exact h
  | some d => exact hP.prog _ _ _ h

theorem journalCopy_ci (hP : NCl c P) (p : Nat) (m : Buf) {s : S} (h : P s.n.chip) : P (journalCopy c p m s).2.n.chip := by
  refine pushLoop_ci hP (fun s h => ?_) _ _ _ h
  unfold wrCopy nandCopy
  simp only
  split
  · exact h
  · exact hP.prog _ _ _ h

theorem nextRecoverable_ci {s : S} (h : P s.n.chip) : P (nextRecoverable c s).2.n.chip := by
  unfold nextRecoverable
  simp only
  split
  · exact h
  · split
    · exact h
    · split <;> exact h

theorem jcall_ci (hP : NCl c P) (op : JOp) {s : S} (h : P s.n.chip) : P (jcall c op s).2.n.chip := by
  cases op with
  | enqueue d m => exact enqueue_ci hP d m h
  | copy p m => exact journalCopy_ci hP p m h
  | dequeue => show P (dequeue c s).n.chip; rw [dequeue_n]; exact h
  | peek => show P (peek c s).2.n.chip; rw [peek_n]; exact h
  | clear => exact h
  | next => exact nextRecoverable_ci h

theorem ci_closed (hP : NCl c P) : Cl2.JCl c (fun s => P s.n.chip) (fun s => P s.n.chip) where
  enq := fun d m _ h => .inr (enqueue_ci hP d m h)
  cpy := fun p m _ h => .inr (journalCopy_ci hP p m h)
  peek := fun s h => by show P (peek c s).2.n.chip; rw [peek_n]; exact h
  deq := fun s h => by show P (dequeue c s).n.chip; rw [dequeue_n]; exact h
  nxt := fun _ h => nextRecoverable_ci h
  clr := fun _ h => h
  ck := fun _ _ h => h
  cnt := fun _ _ h => h
  dcnt := fun _ _ h => h
  tick := fun _ h => h

theorem step_ci (hP : NCl c P) (op : Op) {s : S} (h : P s.n.chip) : P (step c op s).2.n.chip :=
  (Cl2.step_cl (ci_closed hP) op (s := s) h).elim And.right id

end Dhara

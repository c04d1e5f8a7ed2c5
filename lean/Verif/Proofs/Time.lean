/-
How many program and erase operations each function performs at most.
-/
import Verif.Proofs.Evo
namespace Dhara

variable {c : Cfg}

/-- At most `k` program or erase operations take the chip from `n` to `n'`. -/
def Tm (k : Nat) (n n' : Nand) : Prop := n'.time ≤ n.time + k

theorem Tm.of_eq {k : Nat} {f : S → Except Err Unit × S} (hf : ∀ s, Tm k s.n (f s).2.n) {s s' : S}
    {r : Except Err Unit} (h : f s = (r, s')) : Tm k s.n s'.n := by
  have := hf s; rw [h] at this; exact this

theorem Tm.trans {k l m : Nat} {n n1 n2 : Nand} (h : Tm k n n1) (h' : Tm l n1 n2) (hm : k + l ≤ m) : Tm m n n2 := by
  unfold Tm at *; omega

theorem Tm.le {k m : Nat} {n n1 : Nand} (h : Tm k n n1) (hm : k ≤ m) : Tm m n n1 := by
  unfold Tm at *; omega

theorem Tm.refl {k : Nat} (n : Nand) : Tm k n n := by unfold Tm; omega

theorem nandMarkBad_tm (b : Nat) (n : Nand) : Tm 0 n (nandMarkBad c b n) := by
  unfold nandMarkBad; split <;> exact Tm.refl _

theorem nandErase_tm (b : Nat) (n : Nand) : Tm 1 n (nandErase c b n).2 := by
  unfold nandErase
  split
  · exact Tm.refl _
  · simp only; split <;> exact Nat.le_refl _

theorem nandProg_tm (p : Nat) (d : Buf) (n : Nand) : Tm 1 n (nandProg c p d n).2 := by
  unfold nandProg
  split
  · exact Tm.refl _
  · simp only; split <;> exact Nat.le_refl _

theorem nandCopy_tm (p q : Nat) (n : Nand) : Tm 1 n (nandCopy c p q n).2 := by
  unfold nandCopy
  split
  · exact Tm.refl _
  · exact nandProg_tm _ _ _

theorem skipBlock_tm (s : S) : Tm 0 s.n (skipBlock c s).2.n := by
  rw [skipBlock_n]; exact Tm.refl _

theorem prepareHeadLoop_tm : ∀ i s, Tm 1 s.n (prepareHeadLoop c i s).2.n := by
  intro i
  induction i with
  | zero => intro s; exact Tm.refl _
  | succ i ih =>
    intro s
    unfold prepareHeadLoop
    simp only
    split
    · exact nandErase_tm _ _
    · split
      · next h => exact (Tm.of_eq skipBlock_tm h :).le (by omega)
      · next h => exact (Tm.of_eq skipBlock_tm h :).trans (ih _) (by omega)

theorem prepareHead_tm (s : S) : Tm 1 s.n (prepareHead c s).2.n := by
  unfold prepareHead
  simp only
  split
  · exact Tm.refl _
  · split
    · exact Tm.refl _
    · exact (prepareHeadLoop_tm 8 { s with j := { s.j with dirty := true } } :)

theorem progS_tm (p : Nat) (d : Buf) (s : S) : Tm 1 s.n (progS c p d s).2.n := nandProg_tm _ _ _

theorem dumpMetaLoop_tm : ∀ i s, Tm (2 * i) s.n (dumpMetaLoop c i s).2.n := by
  intro i
  induction i with
  | zero => intro s; exact Tm.refl _
  | succ i ih =>
    intro s
    unfold dumpMetaLoop
    simp only
    have fin : ∀ (e : Err) (s1 : S), Tm 2 s.n s1.n →
        Tm (2 * (i + 1)) s.n (if e ≠ .badBlock then ((.error e, s1) : Except Err Unit × S)
          else match skipBlock c { { s1 with j := { s1.j with bbCurrent := s1.j.bbCurrent + 1 } } with
              n := nandMarkBad c (c.blk s1.j.head) s1.n } with
            | (.error e, s) => (.error e, s)
            | (.ok (), s) => dumpMetaLoop c i s).2.n := by
      intro e s1 h0
      split
      · exact h0.le (by omega)
      · have h1 : Tm 2 s.n _ := h0.trans (nandMarkBad_tm (c := c) (c.blk s1.j.head) s1.n) (Nat.le_refl _)
        split
        · next h2 => exact h1.trans (Tm.of_eq skipBlock_tm h2 :) (by omega)
        · next h2 => exact Tm.trans (h1.trans (m := 2) (Tm.of_eq skipBlock_tm h2 :) (by omega)) (ih _) (by omega)
    rcases hp : prepareHead c s with ⟨e | ⟨⟩, s1⟩
    · simp only
      exact fin e s1 ((Tm.of_eq prepareHead_tm hp).le (by omega))
    · have h1 := Tm.of_eq prepareHead_tm hp
      simp only
      rcases hq : progS c s1.j.head s1.j.pageBuf s1 with ⟨e | ⟨⟩, s2⟩
      · simp only
        exact fin e s2 (h1.trans (Tm.of_eq (progS_tm _ _) hq) (by omega))
      · simp only
        exact h1.trans (Tm.of_eq (progS_tm _ _) hq) (by omega)

theorem restartRecovery_tm (o : Nat) (s : S) : Tm 0 s.n (restartRecovery c o s).n := by
  unfold restartRecovery
  simp only
  split
  · exact nandMarkBad_tm _ _
  · exact Tm.refl _

theorem recoverFrom_tm (e : Err) (s : S) : Tm 16 s.n (recoverFrom c e s).2.n := by
  unfold recoverFrom
  simp only
  split
  · exact Tm.refl _
  · split
    · next h => exact (Tm.of_eq skipBlock_tm h :).le (by omega)
    · next h =>
      have h1 := Tm.of_eq skipBlock_tm h
      split
      · exact h1.trans (restartRecovery_tm _ _) (by omega)
      · split
        · exact h1.trans (nandMarkBad_tm _ _) (by omega)
        · split
          · next h2 =>
            split at h2
            · exact h1.trans (Tm.of_eq (f := dumpMeta c) (fun s => dumpMetaLoop_tm _ s) h2 :) (by omega)
            · cases h2
          · next h2 =>
            split at h2
            · exact h1.trans (Tm.of_eq (f := dumpMeta c) (fun s => dumpMetaLoop_tm _ s) h2 :) (by omega)
            · cases h2; exact h1.le (by omega)

theorem finishRecovery_tm (s : S) : Tm 0 s.n (finishRecovery c s).n := by
  unfold finishRecovery
  simp only
  split
  · exact (nandMarkBad_tm _ _).trans (nandMarkBad_tm _ _) (by omega)
  · exact nandMarkBad_tm _ _

theorem commitPush_tm (o : Nat) (s : S) : Tm 0 s.n (commitPush c o s).n := by
  have h2 : ∀ s' : S, Tm 0 s'.n (if s'.j.enumDone then finishRecovery c s' else s').n := by
    intro s'; split
    · exact finishRecovery_tm _
    · exact Tm.refl _
  have h3 := h2 { s with j := rollIfZero { s.j with dirty := false, root := o, head := nextUpage c s.j.head } }
  unfold commitPush
  simp only at h3 ⊢
  by_cases h : (rollIfZero { s.j with dirty := false, root := o, head := nextUpage c s.j.head }).enumDone = true
  · rw [if_pos h] at h3
    simp only [if_pos h]
    split <;> exact h3
  · rw [if_neg h] at h3
    simp only [if_neg h]
    split <;> exact h3

theorem pushMeta_tm (m : Option Buf) (s : S) : Tm 17 s.n (pushMeta c m s).2.n := by
  unfold pushMeta
  simp only
  split
  · exact Tm.refl _
  · split
    · next h => exact (Tm.of_eq (progS_tm _ _) h :).trans (recoverFrom_tm _ _) (by omega)
    · next h => exact (Tm.of_eq (progS_tm _ _) h :).trans (commitPush_tm _ _) (by omega)

theorem pushLoop_tm (wr : S → Except Err Unit × S) (hw : ∀ s, Tm 1 s.n (wr s).2.n)
    (m : Option Buf) : ∀ i s, Tm (19 * i) s.n (pushLoop c wr m i s).2.n := by
  intro i
  induction i with
  | zero => intro s; exact Tm.refl _
  | succ i ih =>
    intro s
    unfold pushLoop
    simp only
    have fin : ∀ (e : Err) (s1 : S), Tm 2 s.n s1.n →
        Tm (19 * (i + 1)) s.n (match recoverFrom c e s1 with
            | (.error e, s) => ((.error e, s) : Except Err Unit × S)
            | (.ok (), s) => pushLoop c wr m i s).2.n := by
      intro e s1 h1
      split
      · next h2 => exact h1.trans (Tm.of_eq (recoverFrom_tm e) h2 :) (by omega)
      · next h2 => exact Tm.trans (h1.trans (m := 18) (Tm.of_eq (recoverFrom_tm e) h2 :) (by omega)) (ih _) (by omega)
    rcases hp : prepareHead c s with ⟨e | ⟨⟩, s1⟩
    · simp only
      exact fin e s1 ((Tm.of_eq prepareHead_tm hp).le (by omega))
    · have h1 := Tm.of_eq prepareHead_tm hp
      simp only
      rcases hq : wr s1 with ⟨e | ⟨⟩, s2⟩
      · simp only
        exact fin e s2 (h1.trans (Tm.of_eq hw hq) (by omega))
      · simp only
        exact Tm.trans (h1.trans (m := 2) (Tm.of_eq hw hq) (by omega)) (pushMeta_tm _ _) (by omega)

theorem wrData_tm (d : Option Buf) (s : S) : Tm 1 s.n (wrData c d s).2.n := by
  unfold wrData
  split
  · exact Tm.refl _
  · exact progS_tm _ _ _

theorem wrCopy_tm (p : Nat) (s : S) : Tm 1 s.n (wrCopy c p s).2.n := nandCopy_tm _ _ _

theorem enqueue_tm (d m : Option Buf) (s : S) : Tm 152 s.n (enqueue c d m s).2.n :=
  pushLoop_tm _ (wrData_tm d) m 8 _

theorem journalCopy_tm (p : Nat) (m : Buf) (s : S) : Tm 152 s.n (journalCopy c p m s).2.n :=
  pushLoop_tm _ (wrCopy_tm p) _ 8 _

theorem rawGc_tm (p : Nat) (s : S) : Tm 152 s.n (rawGc c p s).2.n := by
  unfold rawGc
  split
  · exact Tm.refl _
  · simp only
    split
    · exact Tm.refl _
    · split
      · exact Tm.refl _
      · exact Tm.refl _
      · split
        · exact Tm.refl _
        · exact (journalCopy_tm _ _ { s with j := ckSetCount s.j s.count } :)

theorem padQueue_tm (s : S) : Tm 152 s.n (padQueue c s).2.n := by
  unfold padQueue
  simp only
  split
  · exact (enqueue_tm none none { s with j := ckSetCount s.j s.count } :)
  · split
    · exact Tm.refl _
    · exact (journalCopy_tm _ _ { s with j := ckSetCount s.j s.count } :)

theorem tryRecoverLoop_tm : ∀ f r s, Tm (152 * f) s.n (tryRecoverLoop c f r s).2.n := by
  intro f
  induction f with
  | zero => intro r s; exact Tm.refl _
  | succ f ih =>
    intro r s
    unfold tryRecoverLoop
    simp only
    split
    · exact Tm.refl _
    · have h0 : Tm 152 s.n (if (nextRecoverable c s).1 = NONE then padQueue c (nextRecoverable c s).2
          else rawGc c (nextRecoverable c s).1 (nextRecoverable c s).2).2.n := by
        split
        · have := padQueue_tm (c := c) (nextRecoverable c s).2
          rw [nextRecoverable_n] at this; exact this
        · have := rawGc_tm (c := c) (nextRecoverable c s).1 (nextRecoverable c s).2
          rw [nextRecoverable_n] at this; exact this
      split
      · next h => rw [h] at h0; exact h0.trans (ih _ _) (by omega)
      · next h =>
        rw [h] at h0
        split
        · exact h0.le (by omega)
        · split
          · exact h0.le (by omega)
          · exact h0.trans (ih _ _) (by omega)

theorem tryRecover_tm (e : Err) (s : S) : Tm (152 * c.fuel) s.n (tryRecover c e s).2.n := by
  unfold tryRecover; split
  · exact Tm.refl _
  · exact tryRecoverLoop_tm _ _ _

/-- One collection with a recovery. -/
def Cfg.t1 (c : Cfg) : Nat := 152 + 152 * c.fuel

theorem mapGcLoop_tm : ∀ f s, Tm (f * c.t1) s.n (mapGcLoop c f s).2.n := by
  intro f
  induction f with
  | zero => intro s; exact Tm.refl _
  | succ f ih =>
    intro s
    have hf : (f + 1) * c.t1 = f * c.t1 + (152 + 152 * c.fuel) := by rw [Nat.add_mul, Nat.one_mul]; rfl
    unfold mapGcLoop
    simp only
    split
    · show Tm _ s.n (peek c s).2.n; rw [peek_n]; exact Tm.refl _
    · have h0 := rawGc_tm (c := c) (peek c s).1 (peek c s).2
      rw [peek_n] at h0
      split
      · next h => rw [h] at h0; show Tm _ s.n (dequeue c _).n; rw [dequeue_n]; exact h0.le (by omega)
      · next h =>
        rw [h] at h0
        split
        · next h2 => exact h0.trans (Tm.of_eq (tryRecover_tm _) h2 :) (by omega)
        · next h2 => exact Tm.trans (h0.trans (m := 152 + 152 * c.fuel) (Tm.of_eq (tryRecover_tm _) h2 :) (by omega)) (ih _) (by omega)

theorem mapGc_tm (s : S) : Tm (c.fuel * c.t1) s.n (mapGc c s).2.n := by
  unfold mapGc; split
  · exact Tm.refl _
  · exact mapGcLoop_tm _ _

theorem gcTimes_tm : ∀ k s, Tm (k * (c.fuel * c.t1)) s.n (gcTimes c k s).2.n := by
  intro k
  induction k with
  | zero => intro s; exact Tm.refl _
  | succ k ih =>
    intro s
    have hf : (k + 1) * (c.fuel * c.t1) = k * (c.fuel * c.t1) + c.fuel * c.t1 := by rw [Nat.add_mul, Nat.one_mul]
    unfold gcTimes
    split
    · next h => exact (Tm.of_eq mapGc_tm h :).le (by omega)
    · next h => exact (Tm.of_eq mapGc_tm h :).trans (ih _) (by omega)

theorem autoGc_tm (s : S) : Tm ((c.gcr + 1) * (c.fuel * c.t1)) s.n (autoGc c s).2.n := by
  unfold autoGc; split
  · exact Tm.refl _
  · exact gcTimes_tm _ _

theorem prepareWrite_tm (t : Nat) (s : S) : Tm ((c.gcr + 1) * (c.fuel * c.t1)) s.n (prepareWrite c t s).2.n := by
  have h0 := autoGc_tm (c := c) s
  unfold prepareWrite
  rcases hp : autoGc c s with ⟨e | ⟨⟩, s1⟩
  · rw [hp] at h0; exact h0
  · rw [hp] at h0
    simp only
    generalize mapCapacity c s1 = cap
    rcases tracePath c s1 t freshMeta with ⟨e | q, m⟩
    · cases e <;> try exact h0
      simp only
      by_cases hcap : s1.count ≥ cap
      · rw [if_pos hcap]; exact h0
      · rw [if_neg hcap]; exact h0
    · exact h0

/-- One attempt of a write or trim. -/
def Cfg.t2 (c : Cfg) : Nat := (c.gcr + 1) * (c.fuel * c.t1) + c.t1

theorem writeLoop_tm (t : Nat) (push : Buf → S → Except Err Unit × S)
    (hp : ∀ m s, Tm 152 s.n (push m s).2.n) : ∀ f s, Tm (f * c.t2) s.n (writeLoop c t push f s).2.n := by
  intro f
  induction f with
  | zero => intro s; exact Tm.refl _
  | succ f ih =>
    intro s
    have hf : (f + 1) * c.t2 = f * c.t2 + ((c.gcr + 1) * (c.fuel * c.t1) + (152 + 152 * c.fuel)) := by rw [Nat.add_mul, Nat.one_mul]; rfl
    unfold writeLoop
    have h0 := prepareWrite_tm (c := c) t s
    rcases hp1 : prepareWrite c t s with ⟨e | m, s1⟩
    · rw [hp1] at h0; exact h0.le (by omega)
    · rw [hp1] at h0
      have h1 := h0.trans (hp m s1) (Nat.le_refl _)
      simp only
      rcases hp2 : push m s1 with ⟨e | ⟨⟩, s2⟩
      · rw [hp2] at h1
        simp only
        have h2 := h1.trans (tryRecover_tm (c := c) e { s2 with count := s.count } :) (Nat.le_refl _)
        rcases hp3 : tryRecover c e { s2 with count := s.count } with ⟨e' | ⟨⟩, s3⟩
        · rw [hp3] at h2; exact h2.le (by omega)
        · rw [hp3] at h2; exact h2.trans (ih _) (by omega)
      · rw [hp2] at h1; exact h1.le (by omega)

theorem tryDelete_tm (t : Nat) (s : S) : Tm 152 s.n (tryDelete c t s).2.n := by
  unfold tryDelete
  split
  · exact Tm.refl _
  · exact Tm.refl _
  · split
    · exact Tm.refl _
    · simp only
      split
      · exact Tm.refl _
      · split
        · next h => exact (Tm.of_eq (journalCopy_tm _ _) h :)
        · next h =>
          exact (Tm.of_eq (journalCopy_tm _ _) h :)

theorem mapTrimLoop_tm (t : Nat) : ∀ f s, Tm (f * c.t2) s.n (mapTrimLoop c t f s).2.n := by
  intro f
  induction f with
  | zero => intro s; exact Tm.refl _
  | succ f ih =>
    intro s
    have hf : (f + 1) * c.t2 = f * c.t2 + ((c.gcr + 1) * (c.fuel * c.t1) + (152 + 152 * c.fuel)) := by rw [Nat.add_mul, Nat.one_mul]; rfl
    unfold mapTrimLoop
    split
    · next h => exact (Tm.of_eq autoGc_tm h :).le (by omega)
    · next h =>
      have h0 := Tm.of_eq autoGc_tm h
      split
      · next h1 => exact h0.trans (Tm.of_eq (tryDelete_tm _) h1 :) (by omega)
      · next h1 =>
        have h2 := h0.trans (Tm.of_eq (tryDelete_tm _) h1 :) (Nat.le_refl _)
        split
        · next h3 => exact h2.trans (Tm.of_eq (tryRecover_tm _) h3 :) (by omega)
        · next h3 => exact (h2.trans (Tm.of_eq (tryRecover_tm _) h3 :) (Nat.le_refl _)).trans (ih _) (by omega)

theorem mapSyncLoop_tm : ∀ f s, Tm (f * c.t1) s.n (mapSyncLoop c f s).2.n := by
  intro f
  induction f with
  | zero => intro s; exact Tm.refl _
  | succ f ih =>
    intro s
    have hf : (f + 1) * c.t1 = f * c.t1 + (152 + 152 * c.fuel) := by rw [Nat.add_mul, Nat.one_mul]; rfl
    unfold mapSyncLoop
    simp only
    split
    · exact Tm.refl _
    · have fin : ∀ (e : Err) (s1 : S), Tm 152 s.n s1.n →
          Tm ((f + 1) * c.t1) s.n (match tryRecover c e s1 with
            | (.error e, s) => ((.error e, s) : Except Err Unit × S)
            | (.ok (), s) => mapSyncLoop c f s).2.n := by
        intro e s1 h1
        split
        · next h2 => exact h1.trans (Tm.of_eq (tryRecover_tm e) h2 :) (by omega)
        · next h2 => exact (h1.trans (Tm.of_eq (tryRecover_tm e) h2 :) (Nat.le_refl _)).trans (ih _) (by omega)
      by_cases hn : (peek c s).1 = NONE
      · rw [if_pos hn]
        have h0 := padQueue_tm (c := c) (peek c s).2
        rw [peek_n] at h0
        rcases hq : padQueue c (peek c s).2 with ⟨e | ⟨⟩, s1⟩
        · rw [hq] at h0; exact fin e s1 h0
        · rw [hq] at h0; exact h0.trans (ih _) (by omega)
      · rw [if_neg hn]
        have h0 := rawGc_tm (c := c) (peek c s).1 (peek c s).2
        rw [peek_n] at h0
        rcases hq : rawGc c (peek c s).1 (peek c s).2 with ⟨e | ⟨⟩, s1⟩
        · rw [hq] at h0; simp only; exact fin e s1 h0
        · rw [hq] at h0; simp only
          refine Tm.trans (k := 152) ?_ (ih _) (by omega)
          rw [dequeue_n]; exact h0

theorem mul_t1_le (f : Nat) : f * c.t1 ≤ f * c.t2 :=
  Nat.mul_le_mul_left _ (by unfold Cfg.t2; omega)

/-- No call performs more program and erase operations than this. -/
theorem call_tm (op : Op) (s : S) : Tm (c.fuel * c.t2) s.n (call c op s).2.n := by
  cases op with
  | write d b => exact writeLoop_tm _ _ (fun m s => enqueue_tm _ _ s) _ _
  | copyPage a b => exact writeLoop_tm _ _ (fun m s => journalCopy_tm _ m s) _ _
  | copySector a b =>
    show Tm _ s.n (mapCopySector c a b s).2.n
    unfold mapCopySector
    split
    · exact mapTrimLoop_tm _ _ _
    · exact Tm.refl _
    · exact writeLoop_tm _ _ (fun m s => journalCopy_tm _ m s) _ _
  | trim t => exact mapTrimLoop_tm _ _ _
  | clear =>
    show Tm _ s.n (mapClear c s).n
    unfold mapClear; split <;> exact Tm.refl _
  | sync => exact (mapSyncLoop_tm _ _).le (mul_t1_le _)
  | gc => exact (mapGc_tm _).le (mul_t1_le _)

end Dhara

/-
What every call does to the chip, whatever the state: the clock and the erase counters only
grow, bad marks and contract violations are never taken back, and a programmed page of a block
that is not erased keeps its contents; a block is recorded as failed only if an operation failed.
-/
import Verif.Model.Map
import Verif.Props.FaultSpec
namespace Dhara

variable {c : Cfg}

structure Evo (c : Cfg) (n n' : Nand) : Prop where
  time : n.time ≤ n'.time
  erases : ∀ b, n.erases b ≤ n'.erases b
  ub : n.ub = true → n'.ub = true
  bad : ∀ b, n.chip.bad b = true → n'.chip.bad b = true
  keep : n'.ub = false → ∀ p, n.chip.free p = false → n'.erases (p / c.ppb) = n.erases (p / c.ppb) →
    n'.chip.page p = n.chip.page p ∧ n'.chip.free p = false
  fails : ∀ b, n'.failed b = true → n.failed b = true ∨
    ∃ t, n.time ≤ t ∧ t < n'.time ∧ (c.env.prog t = .fail ∨ c.env.erase t = .fail)
  read : Faultless c → Readable n → Readable n'

theorem Evo.refl (n : Nand) : Evo c n n :=
  ⟨Nat.le_refl _, fun _ => Nat.le_refl _, fun h => h, fun _ h => h, fun _ _ h _ => ⟨rfl, h⟩, fun _ h => Or.inl h,
   fun _ h => h⟩

theorem Evo.trans {n n1 n2 : Nand} (h : Evo c n n1) (h' : Evo c n1 n2) : Evo c n n2 := by
  refine ⟨Nat.le_trans h.time h'.time, fun b => Nat.le_trans (h.erases b) (h'.erases b),
    fun x => h'.ub (h.ub x), fun b x => h'.bad b (h.bad b x), ?_, ?_, fun x y => h'.read x (h.read x y)⟩
  rotate_left
  · intro b hb
    have t1 := h.time
    have t2 := h'.time
    rcases h'.fails b hb with hb | ⟨t, a1, a2, a3⟩
    · rcases h.fails b hb with hb | ⟨t, a1, a2, a3⟩
      · exact Or.inl hb
      · exact Or.inr ⟨t, a1, by omega, a3⟩
    · exact Or.inr ⟨t, by omega, a2, a3⟩
  intro hu p hf he
  have e1 := h.erases (p / c.ppb)
  have e2 := h'.erases (p / c.ppb)
  have hu1 : n1.ub = false := by
    cases hb : n1.ub with
    | false => rfl
    | true => rw [h'.ub hb] at hu; cases hu
  obtain ⟨a, b⟩ := h.keep hu1 p hf (by omega)
  obtain ⟨a', b'⟩ := h'.keep hu p b (by omega)
  exact ⟨a'.trans a, b'⟩

theorem mod_range_all {ch : Chip} {p : Nat} (h : ch.canProg c p = true) : ch.free p = true := by
  unfold Chip.canProg at h
  simp only [Bool.and_eq_true, decide_eq_true_eq, Bool.not_eq_true', List.all_eq_true,
    List.mem_range, Bool.or_eq_true] at h
  have hP : 0 < c.ppb := Nat.two_pow_pos _
  have := h.2 (p % c.ppb) (Nat.mod_lt _ hP)
  rcases this with h' | h'
  · omega
  · rwa [Nat.div_add_mod'] at h'

theorem nandMarkBad_evo (b : Nat) (n : Nand) : Evo c n (nandMarkBad c b n) := by
  unfold nandMarkBad
  split
  · exact Evo.refl _
  · refine ⟨Nat.le_refl _, fun _ => Nat.le_refl _, fun h => by simp [h], fun k h => ?_,
      fun _ _ h _ => ⟨rfl, h⟩, fun _ h => Or.inl h, fun _ h => h⟩
    simp only [Chip.marked, upd]; split <;> simp_all

theorem nandErase_evo (b : Nat) (n : Nand) : Evo c n (nandErase c b n).2 := by
  unfold nandErase
  split
  · exact Evo.refl _
  · have key : ∀ n' : Nand, n'.time = n.time + 1 → n'.ub = (n.ub || !n.chip.canErase c b) →
        n'.erases = upd n.erases b (n.erases b + 1) → n'.chip.bad = n.chip.bad →
        (∀ p, p / c.ppb ≠ b → n'.chip.page p = n.chip.page p ∧ n'.chip.free p = n.chip.free p) →
        (n'.failed = n.failed ∨ c.env.erase n.time = .fail) →
        ((∀ p, p / c.ppb = b → n'.chip.page p ≠ none) ∨ ¬ Faultless c) → Evo c n n' := by
      intro n' h1 h2 h3 h4 h5 h6 h7
      refine ⟨by omega, fun k => by rw [h3]; simp only [upd]; split <;> simp_all,
        fun h => by rw [h2, h]; rfl, fun k h => by rw [h4]; exact h, ?_, ?_, ?_⟩
      rotate_left
      · intro k hk
        rcases h6 with h6 | h6
        · rw [h6] at hk; exact Or.inl hk
        · exact Or.inr ⟨n.time, Nat.le_refl _, by omega, Or.inr h6⟩
      · intro hf hr p
        rcases h7 with h7 | h7
        · by_cases hp : p / c.ppb = b
          · exact h7 p hp
          · rw [(h5 p hp).1]; exact hr p
        · exact absurd hf h7
      intro _ p hf he
      have hne : p / c.ppb ≠ b := by
        intro e; rw [h3, e] at he; simp [upd] at he
      exact ⟨(h5 p hne).1, by rw [(h5 p hne).2]; exact hf⟩
    simp only
    split <;> apply key <;> first | rfl | exact Or.inl rfl | exact Or.inr (by assumption) |
      (refine Or.inr fun hF => ?_; have := (hF n.time).2.1; simp_all; done) | skip
    all_goals first
      | (intro p hp
         simp [Chip.erased, Chip.garbledBlock, Chip.tornBlock, hp]
         done)
      | (left; intro p hp
         simp [Chip.erased, hp])

theorem nandProg_evo (p : Nat) (d : Buf) (n : Nand) : Evo c n (nandProg c p d n).2 := by
  unfold nandProg
  split
  · exact Evo.refl _
  · have key : ∀ n' : Nand, n'.time = n.time + 1 → n'.ub = (n.ub || !n.chip.canProg c p) →
        n'.erases = n.erases → n'.chip.bad = n.chip.bad →
        (∀ q, q ≠ p → n'.chip.page q = n.chip.page q ∧ n'.chip.free q = n.chip.free q) →
        (n'.failed = n.failed ∨ c.env.prog n.time = .fail) →
        (n'.chip.page p ≠ none ∨ ¬ Faultless c) → Evo c n n' := by
      intro n' h1 h2 h3 h4 h5 h6 h7
      refine ⟨by omega, fun k => by rw [h3]; exact Nat.le_refl _,
        fun h => by rw [h2, h]; rfl, fun k h => by rw [h4]; exact h, ?_, ?_, ?_⟩
      rotate_left
      · intro k hk
        rcases h6 with h6 | h6
        · rw [h6] at hk; exact Or.inl hk
        · exact Or.inr ⟨n.time, Nat.le_refl _, by omega, Or.inl h6⟩
      · intro hf hr q
        rcases h7 with h7 | h7
        · by_cases hq : q = p
          · rw [hq]; exact h7
          · rw [(h5 q hq).1]; exact hr q
        · exact absurd hf h7
      intro hu q hf _
      have hne : q ≠ p := by
        intro e
        rw [h2] at hu
        simp at hu
        have := mod_range_all (c := c) hu.2
        rw [e, this] at hf; cases hf
      exact ⟨(h5 q hne).1, by rw [(h5 q hne).2]; exact hf⟩
    simp only
    split <;> apply key <;> first | rfl | exact Or.inl rfl | exact Or.inr (by assumption) |
      (refine Or.inr fun hF => ?_; have := (hF n.time).1; simp_all; done) | skip
    all_goals first
      | (intro q hq
         simp [Chip.programmed, Chip.garbledPage, upd, hq]
         done)
      | (left; simp [Chip.programmed, upd])

theorem nandProg_lost {p : Nat} {d : Buf} {n n' : Nand} (h : nandProg c p d n = (.error .powerLoss, n')) :
    n'.failed = n.failed := by
  unfold nandProg at h
  split at h
  · cases h; rfl
  · simp only at h
    split at h <;> cases h <;> rfl

theorem nandCopy_evo (p q : Nat) (n : Nand) : Evo c n (nandCopy c p q n).2 := by
  unfold nandCopy
  split
  · exact Evo.refl _
  · exact nandProg_evo _ _ _

/-- Close an `Evo` goal for a state reached by a call with a known result. -/
theorem Evo.of_eq {f : S → Except Err Unit × S} (hf : ∀ s, Evo c s.n (f s).2.n) {s s' : S}
    {r : Except Err Unit} (h : f s = (r, s')) : Evo c s.n s'.n := by
  have := hf s; rw [h] at this; exact this

theorem skipBlock_n (s : S) : (skipBlock c s).2.n = s.n := by
  unfold skipBlock; simp only; split <;> rfl

theorem skipBlock_evo (s : S) : Evo c s.n (skipBlock c s).2.n := by
  rw [skipBlock_n]; exact Evo.refl _

theorem prepareHeadLoop_evo : ∀ i s, Evo c s.n (prepareHeadLoop c i s).2.n := by
  intro i
  induction i with
  | zero => intro s; exact Evo.refl _
  | succ i ih =>
    intro s
    unfold prepareHeadLoop
    simp only
    split
    · exact nandErase_evo _ _
    · split
      · next h => exact (Evo.of_eq skipBlock_evo h :)
      · next h => exact (Evo.of_eq skipBlock_evo h :).trans (ih _)

theorem prepareHead_evo (s : S) : Evo c s.n (prepareHead c s).2.n := by
  unfold prepareHead
  simp only
  split
  · exact Evo.refl _
  · split
    · exact Evo.refl _
    · exact (prepareHeadLoop_evo 8 { s with j := { s.j with dirty := true } } :)

theorem progS_evo (p : Nat) (d : Buf) (s : S) : Evo c s.n (progS c p d s).2.n := nandProg_evo _ _ _

theorem dumpMetaLoop_evo : ∀ i s, Evo c s.n (dumpMetaLoop c i s).2.n := by
  intro i
  induction i with
  | zero => intro s; exact Evo.refl _
  | succ i ih =>
    intro s
    unfold dumpMetaLoop
    simp only
    have fin : ∀ (e : Err) (s1 : S), Evo c s.n s1.n →
        Evo c s.n (if e ≠ .badBlock then ((.error e, s1) : Except Err Unit × S)
          else match skipBlock c { { s1 with j := { s1.j with bbCurrent := s1.j.bbCurrent + 1 } } with
              n := nandMarkBad c (c.blk s1.j.head) s1.n } with
            | (.error e, s) => (.error e, s)
            | (.ok (), s) => dumpMetaLoop c i s).2.n := by
      intro e s1 h0
      split
      · exact h0
      · have h1 := h0.trans (nandMarkBad_evo (c.blk s1.j.head) s1.n)
        split
        · next h2 => exact h1.trans (Evo.of_eq skipBlock_evo h2 :)
        · next h2 => exact (h1.trans (Evo.of_eq skipBlock_evo h2 :)).trans (ih _)
    rcases hp : prepareHead c s with ⟨e | ⟨⟩, s1⟩
    · simp only
      exact fin e s1 (Evo.of_eq prepareHead_evo hp)
    · have h1 := Evo.of_eq prepareHead_evo hp
      simp only
      rcases hq : progS c s1.j.head s1.j.pageBuf s1 with ⟨e | ⟨⟩, s2⟩
      · simp only
        exact fin e s2 (h1.trans (Evo.of_eq (progS_evo _ _) hq))
      · simp only
        exact h1.trans (Evo.of_eq (progS_evo _ _) hq)

theorem restartRecovery_evo (o : Nat) (s : S) : Evo c s.n (restartRecovery c o s).n := by
  unfold restartRecovery
  simp only
  split
  · exact nandMarkBad_evo _ _
  · exact Evo.refl _

theorem recoverFrom_evo (e : Err) (s : S) : Evo c s.n (recoverFrom c e s).2.n := by
  unfold recoverFrom
  simp only
  split
  · exact Evo.refl _
  · split
    · next h => exact (Evo.of_eq skipBlock_evo h :)
    · next h =>
      have h1 := Evo.of_eq skipBlock_evo h
      split
      · exact h1.trans (restartRecovery_evo _ _)
      · split
        · exact h1.trans (nandMarkBad_evo _ _)
        · split
          · next h2 =>
            split at h2
            · exact h1.trans (Evo.of_eq (f := dumpMeta c) (fun s => dumpMetaLoop_evo _ s) h2 :)
            · cases h2
          · next h2 =>
            split at h2
            · exact h1.trans (Evo.of_eq (f := dumpMeta c) (fun s => dumpMetaLoop_evo _ s) h2 :)
            · cases h2; exact h1

theorem finishRecovery_evo (s : S) : Evo c s.n (finishRecovery c s).n := by
  unfold finishRecovery
  simp only
  split
  · exact (nandMarkBad_evo _ _).trans (nandMarkBad_evo _ _)
  · exact nandMarkBad_evo _ _

theorem commitPush_evo (o : Nat) (s : S) : Evo c s.n (commitPush c o s).n := by
  have h2 : ∀ s' : S, Evo c s'.n (if s'.j.enumDone then finishRecovery c s' else s').n := by
    intro s'; split
    · exact finishRecovery_evo _
    · exact Evo.refl _
  have h3 := h2 { s with j := rollIfZero { s.j with dirty := false, root := o, head := nextUpage c s.j.head } }
  unfold commitPush
  simp only at h3 ⊢
  by_cases h : (rollIfZero { s.j with dirty := false, root := o, head := nextUpage c s.j.head }).enumDone = true
  · rw [if_pos h] at h3
    simp only [if_pos h]
    split <;> exact h3
  · rw [if_neg h] at h3
    simp only [if_neg h]
    split <;> exact h3

theorem pushMeta_evo (m : Option Buf) (s : S) : Evo c s.n (pushMeta c m s).2.n := by
  unfold pushMeta
  simp only
  split
  · exact Evo.refl _
  · split
    · next h => exact (Evo.of_eq (progS_evo _ _) h :).trans (recoverFrom_evo _ _)
    · next h => exact (Evo.of_eq (progS_evo _ _) h :).trans (commitPush_evo _ _)

theorem pushLoop_evo (wr : S → Except Err Unit × S) (hw : ∀ s, Evo c s.n (wr s).2.n)
    (m : Option Buf) : ∀ i s, Evo c s.n (pushLoop c wr m i s).2.n := by
  intro i
  induction i with
  | zero => intro s; exact Evo.refl _
  | succ i ih =>
    intro s
    unfold pushLoop
    simp only
    have fin : ∀ (e : Err) (s1 : S), Evo c s.n s1.n →
        Evo c s.n (match recoverFrom c e s1 with
            | (.error e, s) => ((.error e, s) : Except Err Unit × S)
            | (.ok (), s) => pushLoop c wr m i s).2.n := by
      intro e s1 h1
      split
      · next h2 => exact h1.trans (Evo.of_eq (recoverFrom_evo e) h2 :)
      · next h2 => exact (h1.trans (Evo.of_eq (recoverFrom_evo e) h2 :)).trans (ih _)
    rcases hp : prepareHead c s with ⟨e | ⟨⟩, s1⟩
    · simp only
      exact fin e s1 (Evo.of_eq prepareHead_evo hp)
    · have h1 := Evo.of_eq prepareHead_evo hp
      simp only
      rcases hq : wr s1 with ⟨e | ⟨⟩, s2⟩
      · simp only
        exact fin e s2 (h1.trans (Evo.of_eq hw hq))
      · simp only
        exact (h1.trans (Evo.of_eq hw hq)).trans (pushMeta_evo _ _)

theorem wrData_evo (d : Option Buf) (s : S) : Evo c s.n (wrData c d s).2.n := by
  unfold wrData
  split
  · exact Evo.refl _
  · exact progS_evo _ _ _

theorem wrCopy_evo (p : Nat) (s : S) : Evo c s.n (wrCopy c p s).2.n := nandCopy_evo _ _ _

theorem enqueue_evo (d m : Option Buf) (s : S) : Evo c s.n (enqueue c d m s).2.n :=
  pushLoop_evo _ (wrData_evo d) m _ _

theorem journalCopy_evo (p : Nat) (m : Buf) (s : S) : Evo c s.n (journalCopy c p m s).2.n :=
  pushLoop_evo _ (wrCopy_evo p) (some m) _ _

theorem nextRecoverable_n (s : S) : (nextRecoverable c s).2.n = s.n := by
  unfold nextRecoverable; simp only; split
  · rfl
  · split
    · rfl
    · split <;> rfl

theorem peekLoop_n : ∀ i b (s : S), (peekLoop c i b s).2.n = s.n := by
  intro i
  induction i with
  | zero => intro b s; rfl
  | succ i ih =>
    intro b s; unfold peekLoop; split
    · rfl
    · exact ih _ _

theorem peek_n (s : S) : (peek c s).2.n = s.n := by
  unfold peek; split
  · rfl
  · split
    · exact peekLoop_n 8 _ _
    · rfl

theorem dequeue_n (s : S) : (dequeue c s).n = s.n := by
  unfold dequeue; split <;> rfl

theorem rawGc_evo (p : Nat) (s : S) : Evo c s.n (rawGc c p s).2.n := by
  unfold rawGc
  split
  · exact Evo.refl _
  · simp only
    split
    · exact Evo.refl _
    · split
      · exact Evo.refl _
      · exact Evo.refl _
      · split
        · exact Evo.refl _
        · exact (journalCopy_evo _ _ { s with j := ckSetCount s.j s.count } :)

theorem padQueue_evo (s : S) : Evo c s.n (padQueue c s).2.n := by
  unfold padQueue
  simp only
  split
  · exact (enqueue_evo none none { s with j := ckSetCount s.j s.count } :)
  · split
    · exact Evo.refl _
    · exact (journalCopy_evo _ _ { s with j := ckSetCount s.j s.count } :)

theorem tryRecoverLoop_evo : ∀ f r s, Evo c s.n (tryRecoverLoop c f r s).2.n := by
  intro f
  induction f with
  | zero => intro r s; exact Evo.refl _
  | succ f ih =>
    intro r s
    unfold tryRecoverLoop
    simp only
    split
    · exact Evo.refl _
    · have h0 : Evo c s.n (if (nextRecoverable c s).1 = NONE then padQueue c (nextRecoverable c s).2
          else rawGc c (nextRecoverable c s).1 (nextRecoverable c s).2).2.n := by
        split
        · have := padQueue_evo (c := c) (nextRecoverable c s).2
          rw [nextRecoverable_n] at this; exact this
        · have := rawGc_evo (c := c) (nextRecoverable c s).1 (nextRecoverable c s).2
          rw [nextRecoverable_n] at this; exact this
      split
      · next h => rw [h] at h0; exact h0.trans (ih _ _)
      · next h =>
        rw [h] at h0
        split
        · exact h0
        · split
          · exact h0
          · exact h0.trans (ih _ _)

theorem tryRecover_evo (e : Err) (s : S) : Evo c s.n (tryRecover c e s).2.n := by
  unfold tryRecover; split
  · exact Evo.refl _
  · exact tryRecoverLoop_evo _ _ _

theorem mapGcLoop_evo : ∀ f s, Evo c s.n (mapGcLoop c f s).2.n := by
  intro f
  induction f with
  | zero => intro s; exact Evo.refl _
  | succ f ih =>
    intro s
    unfold mapGcLoop
    simp only
    split
    · show Evo c s.n (peek c s).2.n; rw [peek_n]; exact Evo.refl _
    · have h0 := rawGc_evo (c := c) (peek c s).1 (peek c s).2
      rw [peek_n] at h0
      split
      · next h => rw [h] at h0; show Evo c s.n (dequeue c _).n; rw [dequeue_n]; exact h0
      · next h =>
        rw [h] at h0
        split
        · next h2 => exact h0.trans (Evo.of_eq (tryRecover_evo _) h2 :)
        · next h2 => exact (h0.trans (Evo.of_eq (tryRecover_evo _) h2 :)).trans (ih _)

theorem mapGc_evo (s : S) : Evo c s.n (mapGc c s).2.n := by
  unfold mapGc; split
  · exact Evo.refl _
  · exact mapGcLoop_evo _ _

theorem gcTimes_evo : ∀ k s, Evo c s.n (gcTimes c k s).2.n := by
  intro k
  induction k with
  | zero => intro s; exact Evo.refl _
  | succ k ih =>
    intro s
    unfold gcTimes
    split
    · next h => exact (Evo.of_eq mapGc_evo h :)
    · next h => exact (Evo.of_eq mapGc_evo h :).trans (ih _)

theorem autoGc_evo (s : S) : Evo c s.n (autoGc c s).2.n := by
  unfold autoGc; split
  · exact Evo.refl _
  · exact gcTimes_evo _ _

theorem prepareWrite_evo (t : Nat) (s : S) : Evo c s.n (prepareWrite c t s).2.n := by
  have h0 := autoGc_evo (c := c) s
  unfold prepareWrite
  rcases hp : autoGc c s with ⟨e | ⟨⟩, s1⟩
  · rw [hp] at h0; exact h0
  · rw [hp] at h0
    simp only
    generalize mapCapacity c s1 = cap
    rcases tracePath c s1 t freshMeta with ⟨e | q, m⟩
    · cases e <;> try exact h0
      simp only
      by_cases hcap : s1.count ≥ cap
      · rw [if_pos hcap]; exact h0
      · rw [if_neg hcap]; exact h0
    · exact h0

theorem writeLoop_evo (t : Nat) (push : Buf → S → Except Err Unit × S)
    (hp : ∀ m s, Evo c s.n (push m s).2.n) : ∀ f s, Evo c s.n (writeLoop c t push f s).2.n := by
  intro f
  induction f with
  | zero => intro s; exact Evo.refl _
  | succ f ih =>
    intro s
    unfold writeLoop
    have h0 := prepareWrite_evo (c := c) t s
    rcases hp1 : prepareWrite c t s with ⟨e | m, s1⟩
    · rw [hp1] at h0; exact h0
    · rw [hp1] at h0
      have h1 := h0.trans (hp m s1)
      simp only
      rcases hp2 : push m s1 with ⟨e | ⟨⟩, s2⟩
      · rw [hp2] at h1
        simp only
        have h2 := h1.trans (tryRecover_evo e { s2 with count := s.count } :)
        rcases hp3 : tryRecover c e { s2 with count := s.count } with ⟨e' | ⟨⟩, s3⟩
        · rw [hp3] at h2; exact h2
        · rw [hp3] at h2; exact h2.trans (ih _)
      · rw [hp2] at h1; exact h1

theorem tryDelete_evo (t : Nat) (s : S) : Evo c s.n (tryDelete c t s).2.n := by
  unfold tryDelete
  split
  · exact Evo.refl _
  · exact Evo.refl _
  · split
    · exact Evo.refl _
    · simp only
      split
      · exact Evo.refl _
      · split
        · next h => exact (Evo.of_eq (journalCopy_evo _ _) h :)
        · next h =>
          exact (Evo.of_eq (journalCopy_evo _ _) h :)

theorem mapTrimLoop_evo (t : Nat) : ∀ f s, Evo c s.n (mapTrimLoop c t f s).2.n := by
  intro f
  induction f with
  | zero => intro s; exact Evo.refl _
  | succ f ih =>
    intro s
    unfold mapTrimLoop
    split
    · next h => exact (Evo.of_eq autoGc_evo h :)
    · next h =>
      have h0 := Evo.of_eq autoGc_evo h
      split
      · next h1 => exact h0.trans (Evo.of_eq (tryDelete_evo _) h1 :)
      · next h1 =>
        have h2 := h0.trans (Evo.of_eq (tryDelete_evo _) h1 :)
        split
        · next h3 => exact h2.trans (Evo.of_eq (tryRecover_evo _) h3 :)
        · next h3 => exact (h2.trans (Evo.of_eq (tryRecover_evo _) h3 :)).trans (ih _)

theorem mapSyncLoop_evo : ∀ f s, Evo c s.n (mapSyncLoop c f s).2.n := by
  intro f
  induction f with
  | zero => intro s; exact Evo.refl _
  | succ f ih =>
    intro s
    unfold mapSyncLoop
    simp only
    split
    · exact Evo.refl _
    · have fin : ∀ (e : Err) (s1 : S), Evo c s.n s1.n →
          Evo c s.n (match tryRecover c e s1 with
            | (.error e, s) => ((.error e, s) : Except Err Unit × S)
            | (.ok (), s) => mapSyncLoop c f s).2.n := by
        intro e s1 h1
        split
        · next h2 => exact h1.trans (Evo.of_eq (tryRecover_evo e) h2 :)
        · next h2 => exact (h1.trans (Evo.of_eq (tryRecover_evo e) h2 :)).trans (ih _)
      by_cases hn : (peek c s).1 = NONE
      · rw [if_pos hn]
        have h0 := padQueue_evo (c := c) (peek c s).2
        rw [peek_n] at h0
        rcases hq : padQueue c (peek c s).2 with ⟨e | ⟨⟩, s1⟩
        · rw [hq] at h0; exact fin e s1 h0
        · rw [hq] at h0; exact h0.trans (ih _)
      · rw [if_neg hn]
        have h0 := rawGc_evo (c := c) (peek c s).1 (peek c s).2
        rw [peek_n] at h0
        rcases hq : rawGc c (peek c s).1 (peek c s).2 with ⟨e | ⟨⟩, s1⟩
        · rw [hq] at h0; simp only; exact fin e s1 h0
        · rw [hq] at h0; simp only
          refine Evo.trans ?_ (ih _)
          rw [dequeue_n]; exact h0

theorem mapCopySector_evo (a b : Nat) (s : S) : Evo c s.n (mapCopySector c a b s).2.n := by
  unfold mapCopySector
  split
  · exact mapTrimLoop_evo _ _ _
  · exact Evo.refl _
  · exact writeLoop_evo _ _ (fun m s => journalCopy_evo _ m s) _ _

theorem call_evo (op : Op) (s : S) : Evo c s.n (call c op s).2.n := by
  cases op with
  | write d b => exact writeLoop_evo _ _ (fun m s => enqueue_evo _ _ s) _ _
  | copyPage a b => exact writeLoop_evo _ _ (fun m s => journalCopy_evo _ m s) _ _
  | copySector a b => exact mapCopySector_evo _ _ _
  | trim t => exact mapTrimLoop_evo _ _ _
  | clear =>
    show Evo c s.n (mapClear c s).n
    unfold mapClear; split <;> exact Evo.refl _
  | sync => exact mapSyncLoop_evo _ _
  | gc => exact mapGc_evo _

end Dhara

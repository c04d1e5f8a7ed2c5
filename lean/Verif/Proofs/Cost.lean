/-
How many program and erase operations a call performs when none of them fails (C53).
-/
import Verif.Proofs.Time
import Verif.Proofs.Arith
import Verif.Proofs.Geom
namespace Dhara

variable {c : Cfg} {T : Nat}

/-- No program or erase operation started at clock `t` or later, but before `T`, fails (power may be lost). -/
def FaultFree (c : Cfg) (t T : Nat) : Prop := ∀ u, t ≤ u → u < T → c.env.prog u ≠ .fail ∧ c.env.erase u ≠ .fail

/-- No recovery going on, no faults from now until `T`. -/
structure At (c : Cfg) (T : Nat) (s : S) : Prop where
  nr : s.j.recovery = false
  ff : FaultFree c s.n.time T

/-- Not an error that starts a recovery. -/
def PlainE (e : Err) : Prop := e ≠ .badBlock ∧ e ≠ .recover

/-- At most `k` flash operations. -/
structure Ck (c : Cfg) (T k : Nat) (n : Nand) {α : Type} (r : Except Err α × S) : Prop where
  at' : At c T r.2
  hi : r.2.n.time ≤ n.time + k
  er : ∀ e, r.1 = .error e → PlainE e

theorem Ck.le {k l : Nat} {n : Nand} {α : Type} {r : Except Err α × S} (h : Ck c T k n r) (hl : k ≤ l) : Ck c T l n r :=
  ⟨h.at', Nat.le_trans h.hi (by omega), h.er⟩

theorem Ck.of {k : Nat} {n : Nand} {α : Type} {a : α} {s : S} (h : At c T s) (hn : s.n.time ≤ n.time + k) :
    Ck c T k n ((.ok a, s) : Except Err α × S) := ⟨h, hn, fun _ h => by cases h⟩

theorem Ck.err {k : Nat} {n : Nand} {α : Type} {e : Err} {s : S} (h : At c T s) (hn : s.n.time ≤ n.time + k) (he : PlainE e) :
    Ck c T k n ((.error e, s) : Except Err α × S) := ⟨h, hn, fun e' h => by cases h; exact he⟩

theorem FaultFree.later {t u : Nat} (h : FaultFree c t T) (hu : t ≤ u) : FaultFree c u T := fun v hv => h v (Nat.le_trans hu hv)

theorem nandProg_ck {p : Nat} {d : Buf} {n : Nand} (h : FaultFree c n.time T) (hT : n.time + 1 ≤ T) :
    FaultFree c (nandProg c p d n).2.time T ∧ (nandProg c p d n).2.time ≤ n.time + 1 ∧ ∀ e, (nandProg c p d n).1 = .error e → PlainE e := by
  have hn := (h n.time (Nat.le_refl _) hT).1
  unfold nandProg
  split
  · exact ⟨h, by simp, fun e he => by cases he; exact ⟨by decide, by decide⟩⟩
  · simp only
    split
    · exact ⟨h.later (Nat.le_succ _), Nat.le_refl _, fun e he => by cases he⟩
    · rename_i hf; exact absurd hf hn
    all_goals exact ⟨h.later (Nat.le_succ _), Nat.le_refl _, fun e he => by cases he; exact ⟨by decide, by decide⟩⟩

theorem nandErase_ck {b : Nat} {n : Nand} (h : FaultFree c n.time T) (hT : n.time + 1 ≤ T) :
    FaultFree c (nandErase c b n).2.time T ∧ (nandErase c b n).2.time ≤ n.time + 1 ∧ ∀ e, (nandErase c b n).1 = .error e → PlainE e := by
  have hn := (h n.time (Nat.le_refl _) hT).2
  unfold nandErase
  split
  · exact ⟨h, by simp, fun e he => by cases he; exact ⟨by decide, by decide⟩⟩
  · simp only
    split
    · exact ⟨h.later (Nat.le_succ _), Nat.le_refl _, fun e he => by cases he⟩
    · rename_i hf; exact absurd hf hn
    all_goals exact ⟨h.later (Nat.le_succ _), Nat.le_refl _, fun e he => by cases he; exact ⟨by decide, by decide⟩⟩

theorem nandRead_plain {n : Nand} {p off len : Nat} {e : Err} (h : nandRead c n p off len = .error e) : PlainE e := by
  unfold nandRead at h
  split at h
  · split at h
    · cases h; exact ⟨by decide, by decide⟩
    · split at h
      · cases h; exact ⟨by decide, by decide⟩
      · cases h
  · cases h; exact ⟨by decide, by decide⟩

theorem readMeta_plain {s : S} {p : Nat} {e : Err} (h : readMeta c s p = .error e) : PlainE e := by
  unfold readMeta at h
  simp only at h
  split at h
  · split at h
    · cases h
    · cases h; exact ⟨by decide, by decide⟩
  · split at h
    · exact nandRead_plain h
    · exact nandRead_plain h

/-- The place of the head in its group. -/
def slotOf (c : Cfg) (s : S) : Nat := s.j.head % c.ppc

/-- Erase operations needed for a page in this place of its group (at most). -/
def eraseCost (k : Nat) : Nat := if k = 0 then 1 else 0

/-- Checkpoint pages to be programmed after a page in this place of its group. -/
def ckCost (c : Cfg) (k : Nat) : Nat := if k + 2 = c.ppc then 1 else 0

theorem skipBlock_ck {s : S} (h : At c T s) : Ck c T 0 s.n (skipBlock c s) ∧ ((skipBlock c s).1 = .ok () → (skipBlock c s).2.j.head % c.ppb = 0) := by
  unfold skipBlock
  simp only
  split
  · exact ⟨.err h (Nat.le_refl _) ⟨by decide, by decide⟩, fun h => by cases h⟩
  · refine ⟨.of ⟨?_, h.ff⟩ (Nat.le_refl _), fun _ => ?_⟩
    · unfold rollIfZero; split <;> exact h.nr
    · have e : ∀ j : Journal, (rollIfZero j).head = j.head := by intro j; unfold rollIfZero; split <;> rfl
      rw [e]
      show (nextBlock c (c.blk s.j.head) <<< c.log2Ppb) % c.ppb = 0
      rw [shl_ppb]; exact Nat.mul_mod_left _ _

theorem prepareHeadLoop_ck : ∀ i (s : S), At c T s → s.j.head % c.ppb = 0 → s.n.time + 1 ≤ T →
    Ck c T 1 s.n (prepareHeadLoop c i s) ∧ ((prepareHeadLoop c i s).1 = .ok () → (prepareHeadLoop c i s).2.j.head % c.ppb = 0) := by
  intro i
  induction i with
  | zero => intro s h _ _; exact ⟨.err h (by show s.n.time ≤ _; omega) ⟨by decide, by decide⟩, fun h => by cases h⟩
  | succ i ih =>
    intro s h hal hT
    unfold prepareHeadLoop
    simp only
    split
    · obtain ⟨h1, h2, h3⟩ := nandErase_ck (c := c) (b := c.blk s.j.head) h.ff hT
      exact ⟨⟨⟨h.nr, h1⟩, h2, h3⟩, fun _ => hal⟩
    · have hk := skipBlock_ck (c := c) (s := { s with j := { s.j with bbCurrent := s.j.bbCurrent + 1 } }) ⟨h.nr, h.ff⟩
      rcases hs : skipBlock c { s with j := { s.j with bbCurrent := s.j.bbCurrent + 1 } } with ⟨e | u, s'⟩
      · rw [hs] at hk
        exact ⟨hk.1.le (by omega), fun h => by cases h⟩
      · rw [hs] at hk
        have := ih _ hk.1.at' (hk.2 rfl) (Nat.le_trans (Nat.add_le_add_right hk.1.hi 1) hT)
        exact ⟨⟨this.1.at', by have a := this.1.hi; have b : s'.n.time ≤ s.n.time + 0 := hk.1.hi; exact Nat.le_trans a (Nat.add_le_add_right b 1), this.1.er⟩, this.2⟩

/-- Making the head ready costs an erase at the start of a block, and nothing elsewhere. -/
theorem prepareHead_ck (hc : c.Valid) {s : S} (h : At c T s) (hT : s.n.time + eraseCost (slotOf c s) ≤ T) : Ck c T (eraseCost (slotOf c s)) s.n (prepareHead c s) ∧
    ((prepareHead c s).1 = .ok () → slotOf c (prepareHead c s).2 = slotOf c s) := by
  unfold prepareHead
  simp only
  split
  · exact ⟨.err h (Nat.le_add_right _ _) ⟨by decide, by decide⟩, fun h => by cases h⟩
  · split
    · exact ⟨.of ⟨h.nr, h.ff⟩ (Nat.le_add_right _ _), fun _ => rfl⟩
    · rename_i hal
      have hal : s.j.head % c.ppb = 0 := isAligned_iff.1 (by simpa using hal)
      have h0 : slotOf c s = 0 := mod_ppc_of_ppb_zero hc hal
      rw [show eraseCost (slotOf c s) = 1 from if_pos h0] at hT ⊢
      have := prepareHeadLoop_ck (c := c) maxRetries { s with j := { s.j with dirty := true } } ⟨h.nr, h.ff⟩ hal hT
      refine ⟨this.1, fun hk => ?_⟩
      rw [h0]
      exact mod_ppc_of_ppb_zero hc (this.2 hk)

theorem recoverFrom_ck {e : Err} (he : PlainE e) (s : S) :
    recoverFrom c e s = (.error e, s) := by
  unfold recoverFrom
  simp only
  rw [if_pos he.1]

theorem finishRecovery_nr (s : S) : (finishRecovery c s).j.recovery = false ∧ (finishRecovery c s).n.time = s.n.time ∧
    (finishRecovery c s).j.dirty = s.j.dirty := by
  have hm : ∀ b n, (nandMarkBad c b n).time = n.time := by
    intro b n; unfold nandMarkBad; split <;> rfl
  unfold finishRecovery
  simp only
  split
  · exact ⟨rfl, (hm _ _).trans (hm _ _), rfl⟩
  · exact ⟨rfl, hm _ _, rfl⟩

theorem commitPush_ck {s : S} (h : At c T s) (p : Nat) : At c T (commitPush c p s) ∧ (commitPush c p s).n.time = s.n.time ∧
    (commitPush c p s).j.dirty = false := by
  unfold commitPush
  simp only
  have h1 : At c T { s with j := rollIfZero { s.j with dirty := false, root := p, head := nextUpage c s.j.head } } := by
    refine ⟨?_, h.ff⟩
    unfold rollIfZero; split <;> exact h.nr
  have hd : (rollIfZero { s.j with dirty := false, root := p, head := nextUpage c s.j.head }).dirty = false := by
    unfold rollIfZero; split <;> rfl
  have h2 : ({ s with j := rollIfZero { s.j with dirty := false, root := p, head := nextUpage c s.j.head } } : S).n.time = s.n.time := rfl
  have h3 : ({ s with j := rollIfZero { s.j with dirty := false, root := p, head := nextUpage c s.j.head } } : S).j.dirty = false := hd
  generalize ({ s with j := rollIfZero { s.j with dirty := false, root := p, head := nextUpage c s.j.head } } : S) = s1 at h1 h2 h3 ⊢
  have key : ∀ s2, At c T s2 → s2.n.time = s.n.time → s2.j.dirty = false →
      At c T (if ¬ s2.j.recovery = true then { s2 with j := { s2.j with tailSync := s2.j.tail } } else s2) ∧
      (if ¬ s2.j.recovery = true then { s2 with j := { s2.j with tailSync := s2.j.tail } } else s2).n.time = s.n.time ∧
      (if ¬ s2.j.recovery = true then { s2 with j := { s2.j with tailSync := s2.j.tail } } else s2).j.dirty = false := by
    intro s2 h2 h3 h4
    split
    · exact ⟨⟨h2.nr, h2.ff⟩, h3, h4⟩
    · exact ⟨h2, h3, h4⟩
  split
  · obtain ⟨f1, f2, f3⟩ := finishRecovery_nr (c := c) s1
    exact key _ ⟨f1, by rw [f2]; exact h1.ff⟩ (f2.trans h2) (f3.trans h3)
  · exact key _ h1 h2 h3

theorem bufferMeta_ck (m : Option Buf) (j : Journal) : (bufferMeta c m j).recovery = j.recovery ∧ (bufferMeta c m j).head = j.head := by
  unfold bufferMeta; cases m <;> exact ⟨rfl, rfl⟩

/-- What a push of one page does to the head: it closes the group or moves one place on. -/
def Moved (c : Cfg) (s s' : S) : Prop := s'.j.dirty = false ∨ (slotOf c s + 1 < c.ppc → slotOf c s' = slotOf c s + 1 ∧ slotOf c s' + 1 < c.ppc)

theorem pushMeta_ck (hc : c.Valid) (m : Option Buf) {s : S} (h : At c T s) (hT : s.n.time + ckCost c (slotOf c s) ≤ T) :
    Ck c T (ckCost c (slotOf c s)) s.n (pushMeta c m s) ∧ ((pushMeta c m s).1 = .ok () → Moved c s (pushMeta c m s).2) := by
  obtain ⟨b1, b2⟩ := bufferMeta_ck (c := c) m s.j
  unfold pushMeta
  simp only
  split
  · rename_i hal
    refine ⟨.of ⟨b1.trans h.nr, h.ff⟩ (Nat.le_add_right _ _), fun _ => Or.inr fun hl => ?_⟩
    have hne : ¬ (s.j.head + 2) % c.ppc = 0 := by
      intro h0; apply hal; rw [b2]; exact isAligned_iff.2 h0
    have e : slotOf c { s with j := { bufferMeta c m s.j with root := (bufferMeta c m s.j).head, head := (bufferMeta c m s.j).head + 1 } } =
        (s.j.head + 1) % c.ppc := by
      show ((bufferMeta c m s.j).head + 1) % c.ppc = _
      rw [b2]
    rw [e]
    unfold slotOf at hl ⊢
    have h1 := (div_add_lt (v := s.j.head) (k := 1) hl).2
    rw [h1]
    refine ⟨rfl, ?_⟩
    apply Classical.byContradiction
    intro hn
    exact hne ((div_add_eq (v := s.j.head) (k := 2) (by omega) (ppc_pos c)).2)
  · rename_i hal
    have hal : (s.j.head + 2) % c.ppc = 0 := by
      have := isAligned_iff.1 (by simpa using hal)
      rw [b2] at this; exact this
    have hk : ∀ r : Except Err Unit × S, (At c T r.2 ∧ r.2.n.time ≤ s.n.time + 1 ∧ ∀ e, r.1 = .error e → PlainE e) →
        Ck c T 1 s.n (match r with
        | (.error e, s) => recoverFrom c e s
        | (.ok (), s') => ((.ok (), commitPush c s.j.head s') : Except Err Unit × S)) ∧ ((match r with
        | (.error e, s) => recoverFrom c e s
        | (.ok (), s') => ((.ok (), commitPush c s.j.head s') : Except Err Unit × S)).1 = .ok () → Moved c s (match r with
        | (.error e, s) => recoverFrom c e s
        | (.ok (), s') => ((.ok (), commitPush c s.j.head s') : Except Err Unit × S)).2) := by
      rintro ⟨e | u, s'⟩ ⟨h1, h2, h3⟩
      · have := recoverFrom_ck (c := c) (h3 e rfl) s'
        simp only
        rw [this]
        exact ⟨.err h1 h2 (h3 e rfl), fun h => by cases h⟩
      · obtain ⟨k1, k2, k3⟩ := commitPush_ck h1 s.j.head
        exact ⟨.of k1 (by rw [k2]; exact h2), fun _ => Or.inl k3⟩
    have h0 : slotOf c s + 2 = c.ppc := by
      unfold slotOf
      have hp := ppc_pos c
      have hp2 := hc.ppc_ge
      · skip
        have hlt := mod_ppc_lt c s.j.head
        rcases Nat.lt_trichotomy (s.j.head % c.ppc + 2) c.ppc with hh | hh | hh
        · have := (div_add_lt (v := s.j.head) (k := 2) hh).2
          omega
        · exact hh
        · exfalso
          have h1 := (div_add_eq (v := s.j.head) (k := 1) (by omega) hp).2
          have h2 := (div_add_lt (v := s.j.head + 1) (k := 1) (m := c.ppc) (by omega)).2
          rw [show s.j.head + 1 + 1 = s.j.head + 2 from rfl] at h2
          omega
    rw [show ckCost c (slotOf c s) = 1 from if_pos h0] at hT ⊢
    have hck := nandProg_ck (c := c) (p := (fillHeader (bufferMeta c m s.j)).head + 1) (d := (fillHeader (bufferMeta c m s.j)).pageBuf) h.ff hT
    have hr : At c T (progS c ((fillHeader (bufferMeta c m s.j)).head + 1) (fillHeader (bufferMeta c m s.j)).pageBuf
        { s with j := fillHeader (bufferMeta c m s.j) }).2 := ⟨b1.trans h.nr, hck.1⟩
    have := hk _ ⟨hr, hck.2.1, hck.2.2⟩
    exact this

/-- Flash operations needed to add a page in this place of its group (at most). -/
def pushCost (c : Cfg) (k : Nat) : Nat := 1 + eraseCost k + ckCost c k

theorem pushCost_le (hc : c.Valid) (k : Nat) : pushCost c k ≤ 2 := by
  have := hc.ppc_ge
  unfold pushCost eraseCost ckCost
  split <;> split <;> omega

/-- What is needed of the page write of a push. -/
def WrCk (c : Cfg) (T : Nat) (wr : S → Except Err Unit × S) : Prop := ∀ s, At c T s → s.n.time + 1 ≤ T → Ck c T 1 s.n (wr s) ∧ (wr s).2.j = s.j

theorem wrData_ck (d : Option Buf) : WrCk c T (wrData c d) := by
  intro s h hT
  cases d with
  | none => exact ⟨.of h (Nat.le_add_right _ _), rfl⟩
  | some b =>
    obtain ⟨h1, h2, h3⟩ := nandProg_ck (c := c) (p := s.j.head) (d := b) h.ff hT
    exact ⟨⟨⟨h.nr, h1⟩, h2, h3⟩, rfl⟩

theorem wrCopy_ck (p : Nat) : WrCk c T (wrCopy c p) := by
  intro s h hT
  refine ⟨?_, rfl⟩
  unfold wrCopy nandCopy
  cases hr : nandRead c s.n p 0 c.pageSize with
  | error e => exact .err h (Nat.le_add_right _ _) (nandRead_plain hr)
  | ok b =>
    obtain ⟨h1, h2, h3⟩ := nandProg_ck (c := c) (p := s.j.head) (d := b) h.ff hT
    exact ⟨⟨h.nr, h1⟩, h2, h3⟩

theorem pushLoop_ck (hc : c.Valid) {wr : S → Except Err Unit × S} (hw : WrCk c T wr) (m : Option Buf) (i : Nat) {s : S} (h : At c T s) (hT : s.n.time + pushCost c (slotOf c s) ≤ T) :
    Ck c T (pushCost c (slotOf c s)) s.n (pushLoop c wr m (i + 1) s) ∧
      ((pushLoop c wr m (i + 1) s).1 = .ok () → Moved c s (pushLoop c wr m (i + 1) s).2) := by
  unfold pushLoop
  have key : ∀ r : Except Err Unit × S, Ck c T (eraseCost (slotOf c s) + 1) s.n r → (r.1 = .ok () → slotOf c r.2 = slotOf c s) →
      Ck c T (pushCost c (slotOf c s)) s.n (match r with
      | (.ok (), s) => pushMeta c m s
      | (.error e, s) =>
        match recoverFrom c e s with
        | (.error e, s) => (.error e, s)
        | (.ok (), s) => pushLoop c wr m i s) ∧ ((match r with
      | (.ok (), s) => pushMeta c m s
      | (.error e, s) =>
        match recoverFrom c e s with
        | (.error e, s) => (.error e, s)
        | (.ok (), s) => pushLoop c wr m i s).1 = .ok () → Moved c s (match r with
      | (.ok (), s) => pushMeta c m s
      | (.error e, s) =>
        match recoverFrom c e s with
        | (.error e, s) => (.error e, s)
        | (.ok (), s) => pushLoop c wr m i s).2) := by
    rintro ⟨e | u, s'⟩ h1 h2
    · simp only
      rw [recoverFrom_ck (h1.er e rfl)]
      exact ⟨h1.le (by unfold pushCost; omega), fun h => by cases h⟩
    · have hs := h2 rfl
      obtain ⟨h3, h4⟩ := pushMeta_ck hc m h1.at' (by rw [hs]; have a := h1.hi; simp only at a ⊢; unfold pushCost at hT; omega)
      simp only at h3 h4 hs ⊢
      rw [hs] at h3
      refine ⟨⟨h3.at', ?_, h3.er⟩, fun hk => ?_⟩
      · have := h3.hi; have := h1.hi; simp only at this; unfold pushCost; omega
      · rcases h4 hk with h5 | h5
        · exact Or.inl h5
        · right; rw [hs] at h5; exact h5
  obtain ⟨h1, h2⟩ := prepareHead_ck hc h (by unfold pushCost at hT; omega)
  rcases hp : prepareHead c s with ⟨e | u, s'⟩
  · rw [hp] at h1
    exact key _ (h1.le (by omega)) (fun h => by cases h)
  · rw [hp] at h1 h2
    obtain ⟨h3, h4⟩ := hw _ h1.at' (by have a := h1.hi; simp only at a ⊢; unfold pushCost at hT; omega)
    refine key _ ⟨h3.at', ?_, h3.er⟩ fun _ => ?_
    · have := h3.hi; have := h1.hi; simp only at *; omega
    · show (wr s').2.j.head % c.ppc = _
      rw [h4]; exact h2 rfl

theorem journalCopy_ck (hc : c.Valid) (p : Nat) (m : Buf) {s : S} (h : At c T s) (hT : s.n.time + pushCost c (slotOf c s) ≤ T) :
    Ck c T (pushCost c (slotOf c s)) s.n (journalCopy c p m s) ∧ ((journalCopy c p m s).1 = .ok () → Moved c s (journalCopy c p m s).2) :=
  pushLoop_ck hc (wrCopy_ck p) _ 7 h hT

theorem enqueue_ck (hc : c.Valid) (d m : Option Buf) {s : S} (h : At c T s) (hT : s.n.time + pushCost c (slotOf c s) ≤ T) :
    Ck c T (pushCost c (slotOf c s)) s.n (enqueue c d m s) ∧ ((enqueue c d m s).1 = .ok () → Moved c s (enqueue c d m s).2) :=
  pushLoop_ck hc (wrData_ck d) _ 7 h hT

theorem traceLoop_plain {s : S} {t : Nat} : ∀ k d p mt nm e, (traceLoop c s t k d p mt nm).1 = .error e → PlainE e := by
  intro k
  induction k with
  | zero => intro d p mt nm e h; cases h
  | succ k ih =>
    intro d p mt nm e h
    unfold traceLoop at h
    simp only at h
    split at h
    · cases h; exact ⟨by decide, by decide⟩
    · split at h
      · split at h
        · cases h; exact ⟨by decide, by decide⟩
        · split at h
          · rename_i hr; cases h; exact readMeta_plain hr
          · exact ih _ _ _ _ _ h
      · exact ih _ _ _ _ _ h

theorem tracePath_plain {s : S} {t : Nat} {nm : Buf} {e : Err} (h : (tracePath c s t nm).1 = .error e) : PlainE e := by
  unfold tracePath at h
  simp only at h
  split at h
  · cases h; exact ⟨by decide, by decide⟩
  · split at h
    · rename_i hr; cases h; exact readMeta_plain hr
    · exact traceLoop_plain _ _ _ _ _ _ h

theorem rawGc_ck (hc : c.Valid) (p : Nat) {s : S} (h : At c T s) (hT : s.n.time + pushCost c (slotOf c s) ≤ T) : Ck c T (pushCost c (slotOf c s)) s.n (rawGc c p s) ∧
    ((rawGc c p s).1 = .ok () → (rawGc c p s).2 = s ∨ Moved c s (rawGc c p s).2) := by
  unfold rawGc
  cases hr : readMeta c s p with
  | error e => exact ⟨.err h (Nat.le_add_right _ _) (readMeta_plain hr), fun h => by cases h⟩
  | ok b =>
    simp only
    split
    · exact ⟨.of h (Nat.le_add_right _ _), fun _ => Or.inl rfl⟩
    · have h2 := fun e => tracePath_plain (c := c) (s := s) (t := metaGetId b) (nm := b) (e := e)
      rcases ht : tracePath c s (metaGetId b) b with ⟨e | q, nm⟩
      · rw [ht] at h2
        have h2 := h2 e rfl
        cases e <;> first
          | exact ⟨.of h (Nat.le_add_right _ _), fun _ => Or.inl rfl⟩
          | exact ⟨.err h (Nat.le_add_right _ _) h2, fun h => by cases h⟩
      · simp only
        split
        · exact ⟨.of h (Nat.le_add_right _ _), fun _ => Or.inl rfl⟩
        · obtain ⟨h3, h4⟩ := journalCopy_ck hc p nm (s := { s with j := ckSetCount s.j s.count }) ⟨h.nr, h.ff⟩ hT
          exact ⟨h3, fun hk => Or.inr (h4 hk)⟩

theorem padQueue_ck (hc : c.Valid) {s : S} (h : At c T s) (hT : s.n.time + pushCost c (slotOf c s) ≤ T) : Ck c T (pushCost c (slotOf c s)) s.n (padQueue c s) ∧
    ((padQueue c s).1 = .ok () → Moved c s (padQueue c s).2) := by
  unfold padQueue
  simp only
  split
  · exact enqueue_ck hc none none (s := { s with j := ckSetCount s.j s.count }) ⟨h.nr, h.ff⟩ hT
  · generalize hr : readMeta c _ s.j.root = r
    cases r with
    | error e => exact ⟨.err ⟨h.nr, h.ff⟩ (Nat.le_add_right _ _) (readMeta_plain hr), fun h => by cases h⟩
    | ok b => exact journalCopy_ck hc s.j.root b (s := { s with j := ckSetCount s.j s.count }) ⟨h.nr, h.ff⟩ hT

theorem tryRecover_ck {e : Err} (he : PlainE e) (s : S) : tryRecover c e s = (.error e, s) := by
  unfold tryRecover
  rw [if_pos he.2]

theorem peek_ck (s : S) : (peek c s).2.n = s.n ∧ (peek c s).2.j.head = s.j.head ∧ (peek c s).2.j.recovery = s.j.recovery ∧
    (peek c s).2.j.dirty = s.j.dirty := by
  have hl : ∀ i b, (peekLoop c i b s).2.n = s.n ∧ (peekLoop c i b s).2.j.head = s.j.head ∧ (peekLoop c i b s).2.j.recovery = s.j.recovery ∧
      (peekLoop c i b s).2.j.dirty = s.j.dirty := by
    intro i
    induction i with
    | zero => intro b; exact ⟨rfl, rfl, rfl, rfl⟩
    | succ i ih =>
      intro b
      unfold peekLoop
      split
      · simp only
        split <;> (refine ⟨?_, ?_, ?_, ?_⟩ <;> first | trivial | rfl)
      · exact ih _
  unfold peek
  split
  · exact ⟨rfl, rfl, rfl, rfl⟩
  · split
    · exact hl _ _
    · exact ⟨rfl, rfl, rfl, rfl⟩

theorem At.peek {s : S} (h : At c T s) : At c T (peek c s).2 := by
  obtain ⟨h1, _, h3, _⟩ := peek_ck (c := c) s
  exact ⟨h3.trans h.nr, by rw [h1]; exact h.ff⟩

theorem dequeue_ck (s : S) : (dequeue c s).n = s.n ∧ (dequeue c s).j.head = s.j.head ∧ (dequeue c s).j.recovery = s.j.recovery ∧
    (dequeue c s).j.dirty = s.j.dirty := by
  unfold dequeue
  split
  · exact ⟨rfl, rfl, rfl, rfl⟩
  · simp only
    split <;> split <;> (refine ⟨?_, ?_, ?_, ?_⟩ <;> first | trivial | rfl)

theorem At.deq {s : S} (h : At c T s) : At c T (dequeue c s) := by
  obtain ⟨h1, _, h3, _⟩ := dequeue_ck (c := c) s
  exact ⟨h3.trans h.nr, by rw [h1]; exact h.ff⟩

theorem mapGcLoop_ck (hc : c.Valid) (f : Nat) {s : S} (h : At c T s) (hT : s.n.time + 2 ≤ T) : Ck c T 2 s.n (mapGcLoop c f s) := by
  cases f with
  | zero => exact .err h (Nat.le_add_right _ _) ⟨by decide, by decide⟩
  | succ f =>
    unfold mapGcLoop
    simp only
    obtain ⟨p1, p2, p3, p4⟩ := peek_ck (c := c) s
    split
    · exact .of h.peek (by rw [p1]; exact Nat.le_add_right _ _)
    · have h1 := (rawGc_ck hc (peek c s).1 h.peek (by rw [p1]; have := pushCost_le hc (slotOf c (peek c s).2); omega)).1.le (pushCost_le hc _)
      rw [p1] at h1
      rcases hg : rawGc c (peek c s).1 (peek c s).2 with ⟨e | u, s1⟩
      · rw [hg] at h1
        simp only
        rw [tryRecover_ck (h1.er e rfl)]
        exact h1
      · rw [hg] at h1
        exact .of h1.at'.deq (by rw [(dequeue_ck s1).1]; exact h1.hi)

theorem mapGc_ck (hc : c.Valid) {s : S} (h : At c T s) (hT : s.n.time + 2 ≤ T) : Ck c T 2 s.n (mapGc c s) := by
  unfold mapGc
  split
  · exact .of h (Nat.le_add_right _ _)
  · exact mapGcLoop_ck hc _ h hT

theorem gcTimes_ck (hc : c.Valid) : ∀ k s, At c T s → s.n.time + 2 * k ≤ T → Ck c T (2 * k) s.n (gcTimes c k s) := by
  intro k
  induction k with
  | zero => intro s h _; exact .of h (Nat.le_add_right _ _)
  | succ k ih =>
    intro s h hT
    unfold gcTimes
    have h1 := mapGc_ck hc h (by omega)
    rcases hg : mapGc c s with ⟨e | u, s1⟩
    · rw [hg] at h1; exact h1.le (by omega)
    · rw [hg] at h1
      have h2 := ih _ h1.at' (by have a := h1.hi; simp only at a ⊢; omega)
      exact ⟨h2.at', by have := h2.hi; have := h1.hi; simp only at *; omega, h2.er⟩

theorem autoGc_ck (hc : c.Valid) {s : S} (h : At c T s) (hT : s.n.time + 2 * (c.gcr + 1) ≤ T) : Ck c T (2 * (c.gcr + 1)) s.n (autoGc c s) := by
  unfold autoGc
  split
  · exact .of h (Nat.le_add_right _ _)
  · exact gcTimes_ck hc _ _ h hT

theorem tryDelete_ck (hc : c.Valid) (t : Nat) {s : S} (h : At c T s) (hT : s.n.time + 2 ≤ T) : Ck c T 2 s.n (tryDelete c t s) := by
  unfold tryDelete
  have h2 := fun e => tracePath_plain (c := c) (s := s) (t := t) (nm := freshMeta) (e := e)
  rcases ht : tracePath c s t freshMeta with ⟨e | q, nm⟩
  · rw [ht] at h2
    have h2 := h2 e rfl
    cases e <;> first | exact .of h (Nat.le_add_right _ _) | exact .err h (Nat.le_add_right _ _) h2
  · simp only
    split
    · exact .of ⟨h.nr, h.ff⟩ (Nat.le_add_right _ _)
    · split
      · rename_i hr; exact .err h (Nat.le_add_right _ _) (readMeta_plain hr)
      · generalize hr : journalCopy c _ _ _ = r
        have : Ck c T 2 s.n r := by
          rw [← hr]
          exact (journalCopy_ck hc _ _ (s := { s with j := ckSetCount s.j (sub32 s.count 1) }) ⟨h.nr, h.ff⟩
            (Nat.le_trans (Nat.add_le_add_left (pushCost_le hc _) _) hT)).1.le (pushCost_le hc _)
        rcases r with ⟨e | u, s1⟩
        · exact this
        · exact .of ⟨this.at'.nr, this.at'.ff⟩ this.hi

theorem mapTrimLoop_ck (hc : c.Valid) (t f : Nat) {s : S} (h : At c T s) (hT : s.n.time + 2 * (c.gcr + 2) ≤ T) : Ck c T (2 * (c.gcr + 2)) s.n (mapTrimLoop c t f s) := by
  cases f with
  | zero => exact .err h (Nat.le_add_right _ _) ⟨by decide, by decide⟩
  | succ f =>
    unfold mapTrimLoop
    have h1 := autoGc_ck hc h (by omega)
    rcases hg : autoGc c s with ⟨e | u, s1⟩
    · rw [hg] at h1; exact h1.le (by omega)
    · rw [hg] at h1
      simp only
      have h2 := tryDelete_ck hc t h1.at' (by have a := h1.hi; simp only at a ⊢; omega)
      have ht : (tryDelete c t s1).2.n.time ≤ s.n.time + 2 * (c.gcr + 2) := by
        have := h2.hi; have := h1.hi; simp only at *; omega
      rcases hd : tryDelete c t s1 with ⟨e | u, s2⟩
      · rw [hd] at h2 ht
        simp only
        rw [tryRecover_ck (h2.er e rfl)]
        exact .err h2.at' ht (h2.er e rfl)
      · rw [hd] at h2 ht; exact .of h2.at' ht

theorem writeLoop_ck (hc : c.Valid) (dst : Nat) {push : Buf → S → Except Err Unit × S} (hp : ∀ m s, At c T s → s.n.time + 2 ≤ T → Ck c T 2 s.n (push m s))
    (f : Nat) {s : S} (h : At c T s) (hT : s.n.time + 2 * (c.gcr + 2) ≤ T) : Ck c T (2 * (c.gcr + 2)) s.n (writeLoop c dst push f s) := by
  cases f with
  | zero => exact .err h (Nat.le_add_right _ _) ⟨by decide, by decide⟩
  | succ f =>
    have hw : Ck c T (2 * (c.gcr + 1)) s.n (prepareWrite c dst s) := by
      unfold prepareWrite
      have h1 := autoGc_ck hc h (by omega)
      rcases hg : autoGc c s with ⟨e | u, s1⟩
      · rw [hg] at h1; exact .err h1.at' h1.hi (h1.er e rfl)
      · rw [hg] at h1
        have hi := h1.hi
        have h1 := h1.at'
        simp only at hi h1 ⊢
        have h2 := fun e => tracePath_plain (c := c) (s := s1) (t := dst) (nm := freshMeta) (e := e)
        rcases ht : tracePath c s1 dst freshMeta with ⟨e | q, nm⟩
        · rw [ht] at h2
          have h2 := h2 e rfl
          cases e
          case notFound =>
            simp only
            split
            · exact .err h1 hi ⟨by decide, by decide⟩
            · exact .of ⟨h1.nr, h1.ff⟩ hi
          all_goals exact .err h1 hi h2
        · exact .of ⟨h1.nr, h1.ff⟩ hi
    unfold writeLoop
    simp only
    rcases hq : prepareWrite c dst s with ⟨e | mt, s1⟩
    · rw [hq] at hw; exact .err hw.at' (by have := hw.hi; simp only at *; omega) (hw.er e rfl)
    · rw [hq] at hw
      simp only
      have h2 := hp mt _ hw.at' (by have a := hw.hi; simp only at a ⊢; omega)
      have ht : (push mt s1).2.n.time ≤ s.n.time + 2 * (c.gcr + 2) := by
        have := h2.hi; have := hw.hi; simp only at *; omega
      rcases hd : push mt s1 with ⟨e | u, s2⟩
      · rw [hd] at h2 ht
        simp only
        rw [tryRecover_ck (h2.er e rfl)]
        exact .err ⟨h2.at'.nr, h2.at'.ff⟩ ht (h2.er e rfl)
      · rw [hd] at h2 ht; exact .of h2.at' ht

/-- What is left to do until the group is complete. -/
def syncCost (c : Cfg) (k : Nat) : Nat := (c.ppc - 1 - k) + 1 + eraseCost k

theorem mapSyncLoop_ck (hc : c.Valid) : ∀ f s, At c T s → slotOf c s + 1 < c.ppc → s.n.time + syncCost c (slotOf c s) ≤ T → Ck c T (syncCost c (slotOf c s)) s.n (mapSyncLoop c f s) := by
  intro f
  induction f with
  | zero => intro s h _ _; exact .err h (Nat.le_add_right _ _) ⟨by decide, by decide⟩
  | succ f ih =>
    intro s h hsl hT
    unfold mapSyncLoop
    split
    · exact .of h (Nat.le_add_right _ _)
    · have hcost : pushCost c (slotOf c s) ≤ syncCost c (slotOf c s) := by
        unfold pushCost syncCost ckCost
        split <;> omega
      have fin : ∀ s' : S, At c T s' → s'.j.dirty = false → Ck c T 0 s'.n (mapSyncLoop c f s') := by
        intro s' h1 h2
        cases f with
        | zero => exact .err h1 (Nat.le_refl _) ⟨by decide, by decide⟩
        | succ f =>
          unfold mapSyncLoop
          rw [if_pos (by rw [h2]; exact Bool.false_ne_true)]
          exact .of h1 (Nat.le_refl _)
      have key : ∀ q : Except Err Unit × S, Ck c T (pushCost c (slotOf c s)) s.n q →
          (q.1 = .ok () → (q.2.n = s.n ∧ q.2.j.head = s.j.head) ∨ Moved c s q.2) →
          Ck c T (syncCost c (slotOf c s)) s.n (match q with
          | (.ok (), s) => mapSyncLoop c f s
          | (.error e, s) =>
            match tryRecover c e s with
            | (.error e, s) => (.error e, s)
            | (.ok (), s) => mapSyncLoop c f s) := by
        rintro ⟨e | u, s'⟩ h1 h2
        · simp only
          rw [tryRecover_ck (h1.er e rfl)]
          exact h1.le hcost
        · simp only
          have hi := h1.hi
          have ha := h1.at'
          simp only at hi ha h2
          rcases h2 trivial with ⟨h3, h4⟩ | h3 | h3
          · have e : slotOf c s' = slotOf c s := by unfold slotOf; rw [h4]
            have h5 := ih s' ha (by rw [e]; exact hsl) (by rw [e, h3]; exact hT)
            rw [e, h3] at h5
            exact h5
          · have h5 := fin s' ha h3
            exact ⟨h5.at', by have := h5.hi; omega, h5.er⟩
          · obtain ⟨h6, h7⟩ := h3 hsl
            have h9 : pushCost c (slotOf c s) + syncCost c (slotOf c s + 1) ≤ syncCost c (slotOf c s) := by
              unfold pushCost syncCost ckCost eraseCost
              rw [if_neg (by omega : ¬ slotOf c s + 2 = c.ppc), if_neg (by omega : ¬ slotOf c s + 1 = 0)]
              omega
            have h5 := ih s' ha h7 (by rw [h6]; omega)
            refine ⟨h5.at', ?_, h5.er⟩
            have h8 := h5.hi
            rw [h6] at h8
            omega
      obtain ⟨p1, p2, p3, p4⟩ := peek_ck (c := c) s
      have es : slotOf c (peek c s).2 = slotOf c s := by unfold slotOf; rw [p2]
      have mv : ∀ s', Moved c (peek c s).2 s' → Moved c s s' := by
        intro s' h
        unfold Moved at h ⊢
        rw [es] at h
        exact h
      have hT' : (peek c s).2.n.time + pushCost c (slotOf c (peek c s).2) ≤ T := by rw [p1, es]; omega
      apply key
      · split
        · have := (padQueue_ck hc h.peek hT').1
          rw [es, p1] at this; exact this
        · have h1 := (rawGc_ck hc (peek c s).1 h.peek hT').1
          rw [es, p1] at h1
          rcases hg : rawGc c (peek c s).1 (peek c s).2 with ⟨e | u, s1⟩
          · rw [hg] at h1; exact h1
          · rw [hg] at h1
            exact .of h1.at'.deq (by rw [(dequeue_ck s1).1]; exact h1.hi)
      · split
        · intro hk
          exact Or.inr (mv _ ((padQueue_ck hc h.peek hT').2 hk))
        · have h1 := (rawGc_ck hc (peek c s).1 h.peek hT').2
          rcases hg : rawGc c (peek c s).1 (peek c s).2 with ⟨e | u, s1⟩
          · intro hk; cases hk
          · rw [hg] at h1
            intro _
            obtain ⟨d1, d2, d3, d4⟩ := dequeue_ck (c := c) s1
            simp only
            rcases h1 rfl with h2 | h2
            · left
              simp only at h2
              subst h2
              exact ⟨d1.trans p1, d2.trans p2⟩
            · right
              rcases mv _ h2 with h3 | h3
              · exact Or.inl (d4.trans h3)
              · right
                intro hl
                have := h3 hl
                unfold slotOf at this ⊢
                rw [d2]; exact this

end Dhara

/-
Blocks that fail during a push: if the push succeeds they have been marked bad, if it asks for a recovery the
one not yet marked is known to the recovery (dhara/journal.c:598-866).
-/
import Verif.Proofs.Evo
import Verif.Proofs.Geom
import Verif.Proofs.Flags
namespace Dhara

variable {c : Cfg}

/-- Every block that has failed since `n0` is marked bad. -/
def FdOk (n0 n : Nand) : Prop := ∀ b, n.failed b = true → n0.failed b = true ∨ n.chip.bad b = true

/-- The same with one exception. -/
def FdBut (n0 n : Nand) (x : Nat) : Prop := ∀ b, n.failed b = true → n0.failed b = true ∨ n.chip.bad b = true ∨ b = x

theorem FdOk.refl (n : Nand) : FdOk n n := fun _ h => Or.inl h

theorem FdOk.same {n0 n n' : Nand} (h : FdOk n0 n) (hf : n'.failed = n.failed) (hE : Evo c n n') : FdOk n0 n' := by
  intro b hb
  rw [hf] at hb
  rcases h b hb with h | h
  · exact Or.inl h
  · exact Or.inr (hE.bad b h)

theorem FdBut.same {n0 n n' : Nand} {x : Nat} (h : FdBut n0 n x) (hf : n'.failed = n.failed) (hE : Evo c n n') : FdBut n0 n' x := by
  intro b hb
  rw [hf] at hb
  rcases h b hb with h | h | h
  · exact Or.inl h
  · exact Or.inr (Or.inl (hE.bad b h))
  · exact Or.inr (Or.inr h)

theorem mark_failed (k : Nat) (n : Nand) : (nandMarkBad c k n).failed = n.failed := by
  unfold nandMarkBad; split <;> rfl

theorem mark_bad {k : Nat} {n : Nand} (h : n.dead = false) : (nandMarkBad c k n).chip.bad k = true := by
  unfold nandMarkBad; rw [if_neg (by rw [h]; simp)]
  simp [Chip.marked, upd]

theorem mark_dead (k : Nat) (n : Nand) : (nandMarkBad c k n).dead = n.dead := by
  unfold nandMarkBad; split <;> rfl

theorem FdBut.mark {n0 n : Nand} {x : Nat} (h : FdBut n0 n x) (hd : n.dead = false) : FdOk n0 (nandMarkBad c x n) := by
  intro b hb
  rcases (h.same (c := c) (mark_failed _ _) (nandMarkBad_evo x n)) b hb with h | h | h
  · exact Or.inl h
  · exact Or.inr h
  · exact Or.inr (by rw [h]; exact mark_bad hd)

/-- One operation at the head: it reports a bad block, and that is the only new failed block, or there is none. -/
structure Fl (c : Cfg) (n0 : Nand) (s : S) (r : Except Err Unit × S) : Prop where
  rcv : r.2.j.recovery = s.j.recovery
  nrec : r.1 ≠ .error .recover
  ok : r.1 ≠ .error .badBlock → FdOk n0 r.2.n
  bad : r.1 = .error .badBlock → r.2.n.dead = false ∧ FdBut n0 r.2.n (c.blk r.2.j.head)

theorem prog_fd {n0 n : Nand} (h : FdOk n0 n) (p : Nat) (d : Buf) :
    (nandProg c p d n).1 ≠ .error .recover ∧
    ((nandProg c p d n).1 ≠ .error .badBlock → FdOk n0 (nandProg c p d n).2) ∧
    ((nandProg c p d n).1 = .error .badBlock → (nandProg c p d n).2.dead = false ∧ FdBut n0 (nandProg c p d n).2 (p / c.ppb)) := by
  have hE := nandProg_evo (c := c) p d n
  unfold nandProg at hE ⊢
  split
  · exact ⟨(fun h => by cases h), fun _ => h, (fun h => by cases h)⟩
  · next hd =>
    rw [if_neg hd] at hE
    simp only at hE ⊢
    split at hE
    · exact ⟨(fun h => by cases h), fun _ => h.same rfl hE, (fun h => by cases h)⟩
    · refine ⟨(fun h => by cases h), fun h => absurd rfl h, fun _ => ⟨by simpa using hd, fun b hb => ?_⟩⟩
      simp only [upd] at hb
      split at hb
      · next hh => exact Or.inr (Or.inr hh)
      · rcases h b hb with h | h
        · exact Or.inl h
        · exact Or.inr (Or.inl h)
    all_goals exact ⟨(fun h => by cases h), fun _ => h.same rfl hE, (fun h => by cases h)⟩

theorem erase_fd {n0 n : Nand} (h : FdOk n0 n) (k : Nat) :
    (nandErase c k n).1 ≠ .error .recover ∧
    ((nandErase c k n).1 ≠ .error .badBlock → FdOk n0 (nandErase c k n).2) ∧
    ((nandErase c k n).1 = .error .badBlock → (nandErase c k n).2.dead = false ∧ FdBut n0 (nandErase c k n).2 k) := by
  have hE := nandErase_evo (c := c) k n
  unfold nandErase at hE ⊢
  split
  · exact ⟨(fun h => by cases h), fun _ => h, (fun h => by cases h)⟩
  · next hd =>
    rw [if_neg hd] at hE
    simp only at hE ⊢
    split at hE
    · exact ⟨(fun h => by cases h), fun _ => h.same rfl hE, (fun h => by cases h)⟩
    · refine ⟨(fun h => by cases h), fun h => absurd rfl h, fun _ => ⟨by simpa using hd, fun b hb => ?_⟩⟩
      simp only [upd] at hb
      split at hb
      · next hh => exact Or.inr (Or.inr hh)
      · rcases h b hb with h | h
        · exact Or.inl h
        · exact Or.inr (Or.inl h)
    all_goals exact ⟨(fun h => by cases h), fun _ => h.same rfl hE, (fun h => by cases h)⟩

theorem roll_keep (j : Journal) : (rollIfZero j).recovery = j.recovery ∧ (rollIfZero j).badMeta = j.badMeta ∧
    (rollIfZero j).recoverMeta = j.recoverMeta ∧ (rollIfZero j).head = j.head := by
  unfold rollIfZero; split <;> exact ⟨rfl, rfl, rfl, rfl⟩

/-- skip_block touches only the head. -/
theorem skip_keep (s : S) {r : Except Err Unit} {s' : S} (h : skipBlock c s = (r, s')) :
    s'.n = s.n ∧ s'.j.recovery = s.j.recovery ∧ s'.j.recoverMeta = s.j.recoverMeta ∧
      r ≠ .error .recover ∧ r ≠ .error .badBlock ∧ (r = .ok () → s'.j.head % c.ppb = 0) := by
  unfold skipBlock at h
  simp only at h
  split at h
  · cases h; exact ⟨rfl, rfl, rfl, (fun h => by cases h), (fun h => by cases h), (fun h => by cases h)⟩
  · cases h
    obtain ⟨a, _, b, d⟩ := roll_keep { s.j with head := nextBlock c (c.blk s.j.head) <<< c.log2Ppb }
    refine ⟨rfl, a, b, (fun h => by cases h), (fun h => by cases h), fun _ => ?_⟩
    show (rollIfZero _).head % c.ppb = 0
    rw [d, shl_ppb]
    exact Nat.mul_mod_left _ _

theorem prepareHeadLoop_fd {n0 : Nand} : ∀ i s, FdOk n0 s.n → s.j.head % c.ppb = 0 →
    Fl c n0 s (prepareHeadLoop c i s) ∧ (prepareHeadLoop c i s).2.j.head % c.ppb = 0 := by
  intro i
  induction i with
  | zero => intro s h h0; exact ⟨⟨rfl, (fun h => by cases h), fun _ => h, (fun h => by cases h)⟩, h0⟩
  | succ i ih =>
    intro s h h0
    unfold prepareHeadLoop
    simp only
    split
    · obtain ⟨a, b, d⟩ := erase_fd (c := c) h (c.blk s.j.head)
      exact ⟨⟨rfl, a, b, d⟩, h0⟩
    · split
      · next e s' e1 =>
        unfold skipBlock at e1
        simp only at e1
        split at e1
        · cases e1
          exact ⟨⟨rfl, (fun h => by cases h), fun _ => h, (fun h => by cases h)⟩, h0⟩
        · cases e1
      · next s' e1 =>
        obtain ⟨k1, k2, _, _, _, k5⟩ := skip_keep _ e1
        obtain ⟨f1, f2⟩ := ih s' (by rw [k1]; exact h) (k5 rfl)
        exact ⟨⟨f1.rcv.trans k2, f1.nrec, f1.ok, f1.bad⟩, f2⟩

theorem prepareHead_fd {n0 : Nand} {s : S} (h : FdOk n0 s.n) : Fl c n0 s (prepareHead c s) ∧
    (s.j.head % c.ppb = 0 → (prepareHead c s).2.j.head % c.ppb = 0) ∧
    (s.j.head % c.ppb ≠ 0 → (prepareHead c s).2.j.head = s.j.head ∧ (prepareHead c s).1 ≠ .error .badBlock) := by
  unfold prepareHead
  simp only
  split
  · exact ⟨⟨rfl, (fun h => by cases h), fun _ => h, (fun h => by cases h)⟩, id, fun _ => ⟨rfl, (fun h => by cases h)⟩⟩
  · split
    · next hal =>
      exact ⟨⟨rfl, (fun h => by cases h), fun _ => h, (fun h => by cases h)⟩, id, fun _ => ⟨rfl, (fun h => by cases h)⟩⟩
    · next hal =>
      have hz : s.j.head % c.ppb = 0 := isAligned_iff.1 (by simpa using hal)
      obtain ⟨f1, f2⟩ := prepareHeadLoop_fd (c := c) (n0 := n0) maxRetries { s with j := { s.j with dirty := true } } h hz
      exact ⟨⟨f1.rcv, f1.nrec, f1.ok, f1.bad⟩, fun _ => f2, fun h => absurd hz h⟩

/-- Writing the user page at the head. -/
def WrFd (c : Cfg) (wr : S → Except Err Unit × S) : Prop :=
  ∀ n0 s, FdOk n0 s.n → Fl c n0 s (wr s) ∧ (wr s).2.j = s.j

theorem progS_fd {n0 : Nand} {s : S} (h : FdOk n0 s.n) {p : Nat} (hp : p / c.ppb = s.j.head / c.ppb) (d : Buf) :
    Fl c n0 s (progS c p d s) := by
  obtain ⟨a, b, e⟩ := prog_fd (c := c) h p d
  exact ⟨rfl, a, b, fun h => by rw [blk_eq]; show _ ∧ FdBut _ _ (s.j.head / c.ppb); rw [← hp]; exact e h⟩

theorem wrData_fd (d : Option Buf) : WrFd c (wrData c d) := by
  intro n0 s h
  unfold wrData
  split
  · exact ⟨⟨rfl, (fun h => by cases h), fun _ => h, (fun h => by cases h)⟩, rfl⟩
  · exact ⟨progS_fd h rfl _, rfl⟩

theorem wrCopy_fd (p : Nat) : WrFd c (wrCopy c p) := by
  intro n0 s h
  unfold wrCopy nandCopy
  split
  · next e he =>
    refine ⟨⟨rfl, ?_, fun _ => h, ?_⟩, rfl⟩ <;>
    · unfold nandRead at he
      split at he
      · split at he
        · cases he; intro h; cases h
        · split at he <;> cases he; intro h; cases h
      · cases he; intro h; cases h
  · exact ⟨progS_fd h rfl _, rfl⟩

theorem dumpMetaLoop_fd {n0 : Nand} : ∀ i s, FdOk n0 s.n →
    (dumpMetaLoop c i s).1 ≠ .error .recover ∧ ((dumpMetaLoop c i s).1 = .ok () → FdOk n0 (dumpMetaLoop c i s).2.n) := by
  intro i
  induction i with
  | zero => intro s h; exact ⟨(fun h => by cases h), (fun h => by cases h)⟩
  | succ i ih =>
    intro s h
    have fin : ∀ (e : Err) (s0 s1 : S), Fl c n0 s0 (.error e, s1) →
        let r := (if e ≠ .badBlock then ((.error e, s1) : Except Err Unit × S)
          else match skipBlock c { { s1 with j := { s1.j with bbCurrent := s1.j.bbCurrent + 1 } } with
              n := nandMarkBad c (c.blk s1.j.head) s1.n } with
            | (.error e, s) => (.error e, s)
            | (.ok (), s) => dumpMetaLoop c i s)
        r.1 ≠ .error .recover ∧ (r.1 = .ok () → FdOk n0 r.2.n) := by
      intro e s0 s1 f
      simp only
      split
      · exact ⟨f.nrec, (fun h => by cases h)⟩
      · next he =>
        obtain ⟨d1, d2⟩ := f.bad (by rw [Classical.not_not.1 he])
        have hm : FdOk n0 (nandMarkBad c (c.blk s1.j.head) s1.n) := d2.mark d1
        split
        · next e1 =>
          obtain ⟨_, _, _, k4, _⟩ := skip_keep _ e1
          exact ⟨k4, (fun h => by cases h)⟩
        · next e1 =>
          obtain ⟨k1, _⟩ := skip_keep _ e1
          exact ih _ (by rw [k1]; exact hm)
    unfold dumpMetaLoop
    simp only
    obtain ⟨f, _⟩ := prepareHead_fd (c := c) h
    rcases hq : prepareHead c s with ⟨e | ⟨⟩, s1⟩
    · rw [hq] at f
      exact fin e s s1 f
    · rw [hq] at f
      have f1 := f.ok (fun h => by cases h)
      have f2 := progS_fd (c := c) (s := s1) f1 rfl s1.j.pageBuf
      simp only at f2 ⊢
      rcases hr : progS c s1.j.head s1.j.pageBuf s1 with ⟨e | ⟨⟩, s2⟩
      · rw [hr] at f2
        exact fin e s1 s2 f2
      · rw [hr] at f2
        exact ⟨(fun h => by cases h), fun _ => f2.ok (fun h => by cases h)⟩

/-- Outcome of a push (or part of one) with respect to failed blocks; `hd` is where the head was. -/
structure Fd0 (c : Cfg) (n0 : Nand) (rcv : Bool) (hd : Nat) (r : Except Err Unit × S) : Prop where
  ok : r.1 = .ok () → FdOk n0 r.2.n
  again : r.1 = .error .recover → rcv = true → ∀ b, r.2.n.failed b = true → n0.failed b = true ∨ r.2.n.chip.bad b = true ∨
    (r.2.j.badMeta = true ∧ b = c.blk r.2.j.recoverMeta)
  start : r.1 = .error .recover → rcv = false → hd % c.ppb ≠ 0 ∧ FdBut n0 r.2.n (c.blk hd)

/-- Likewise; and what a power failure leaves. -/
structure Fd (c : Cfg) (n0 : Nand) (rcv : Bool) (hd : Nat) (r : Except Err Unit × S) : Prop extends Fd0 c n0 rcv hd r where
  pow : r.1 = .error .powerLoss → Recovering r.2 ∨ FdOk n0 r.2.n

theorem recoverFrom_fd0 {n0 : Nand} {e : Err} {s s0 : S} (f : Fl c n0 s0 (.error e, s)) :
    Fd0 c n0 s.j.recovery s.j.head (recoverFrom c e s) ∧
    ((recoverFrom c e s).1 = .ok () → (recoverFrom c e s).2.j.recovery = s.j.recovery ∧ s.j.recovery = false ∧
      s.j.head % c.ppb = 0 ∧ (recoverFrom c e s).2.j.head % c.ppb = 0) := by
  unfold recoverFrom
  simp only
  split
  · exact ⟨⟨(fun h => by cases h), fun h => absurd h f.nrec, fun h => absurd h f.nrec⟩, (fun h => by cases h)⟩
  · next he =>
    obtain ⟨d1, d2⟩ := f.bad (by rw [Classical.not_not.1 he])
    simp only at d1 d2
    split
    · next e1 =>
      obtain ⟨_, _, _, k4, _⟩ := skip_keep _ e1
      exact ⟨⟨(fun h => by cases h), fun h => absurd h k4, fun h => absurd h k4⟩, (fun h => by cases h)⟩
    · next s1 e1 =>
      obtain ⟨k1, k2, k3, _, _, k6⟩ := skip_keep _ e1
      simp only at k1 k2 k3
      split
      · next hr =>
        rw [k2] at hr
        refine ⟨⟨(fun h => by cases h), fun _ _ => ?_, (fun _ h => by rw [hr] at h; cases h)⟩, (fun h => by cases h)⟩
        unfold restartRecovery
        simp only
        split
        · intro b hb
          have hm : FdOk n0 (nandMarkBad c (c.blk s.j.head) s1.n) := by rw [k1]; exact d2.mark d1
          rcases hm b hb with h | h
          · exact Or.inl h
          · exact Or.inr (Or.inl h)
        · next hn =>
          intro b hb
          change s1.n.failed b = true at hb
          show _ ∨ s1.n.chip.bad b = true ∨ (true = true ∧ b = c.blk s1.j.recoverMeta)
          rw [k1] at hb
          rcases d2 b hb with h | h | h
          · exact Or.inl h
          · rw [k1]; exact Or.inr (Or.inl h)
          · refine Or.inr (Or.inr ⟨rfl, ?_⟩)
            rw [h, blk_eq, blk_eq]
            have : alignEq s1.j.recoverMeta s.j.head c.log2Ppb = true := by
              apply Classical.byContradiction; intro hh; exact hn (Or.inr hh)
            exact (alignEq_iff.1 this).symm
      · next hr =>
        rw [k2] at hr
        have hr : s.j.recovery = false := by simpa using hr
        split
        · next hal =>
          have hz : s.j.head % c.ppb = 0 := isAligned_iff.1 hal
          refine ⟨⟨fun _ => ?_, fun h => (by cases h), fun h => (by cases h)⟩, fun _ => ⟨k2, hr, hz, k6 rfl⟩⟩
          show FdOk n0 (nandMarkBad c (c.blk s.j.head) s1.n)
          rw [k1]; exact d2.mark d1
        · next hal =>
          have hz : s.j.head % c.ppb ≠ 0 := fun h => hal (isAligned_iff.2 h)
          have base : FdBut n0 s1.n (c.blk s.j.head) := by rw [k1]; exact d2
          -- dump_meta keeps track of its own failures
          have key := dumpMetaLoop_fd (c := c) (n0 := s1.n) maxRetries
            { s1 with j := { s1.j with recoverRoot := s1.j.root, recoverNext := c.blockStart s1.j.root } } (FdOk.refl _)
          have hEv := dumpMetaLoop_evo (c := c) maxRetries
            { s1 with j := { s1.j with recoverRoot := s1.j.root, recoverNext := c.blockStart s1.j.root } }
          split
          · next h2 =>
            split at h2
            · unfold dumpMeta at h2
              rw [h2] at key
              exact ⟨⟨(fun h => by cases h), fun h => absurd h key.1, fun h => absurd h key.1⟩, (fun h => by cases h)⟩
            · cases h2
          · next h2 =>
            split at h2
            · unfold dumpMeta at h2
              rw [h2] at key hEv
              refine ⟨⟨(fun h => by cases h), fun _ h => (by rw [hr] at h; cases h), fun _ _ => ⟨hz, fun b hb => ?_⟩⟩, (fun h => by cases h)⟩
              rcases key.2 rfl b hb with h | h
              · rcases base b h with h | h | h
                · exact Or.inl h
                · exact Or.inr (Or.inl (hEv.bad b h))
                · exact Or.inr (Or.inr h)
              · exact Or.inr (Or.inl h)
            · cases h2
              exact ⟨⟨(fun h => by cases h), fun _ h => (by rw [hr] at h; cases h), fun _ _ => ⟨hz, base⟩⟩, (fun h => by cases h)⟩

theorem recoverFrom_fd (hc : c.Valid) {n0 : Nand} {e : Err} {s s0 : S} (f : Fl c n0 s0 (.error e, s)) :
    Fd c n0 s.j.recovery s.j.head (recoverFrom c e s) ∧
    ((recoverFrom c e s).1 = .ok () → (recoverFrom c e s).2.j.recovery = s.j.recovery ∧ s.j.recovery = false ∧
      s.j.head % c.ppb = 0 ∧ (recoverFrom c e s).2.j.head % c.ppb = 0) := by
  obtain ⟨h1, h2⟩ := recoverFrom_fd0 f
  refine ⟨⟨h1, fun hp => ?_⟩, h2⟩
  by_cases he : e = .badBlock
  · subst he
    left; right
    rw [(recoverFrom_fg (c := c) s).2.2 hp]
    exact blockStart_ne hc _
  · rw [recoverFrom_ne he] at hp ⊢
    exact Or.inr (f.ok (by intro h; cases h; exact he rfl))

theorem commitPush_failed (o : Nat) (s : S) : (commitPush c o s).n.failed = s.n.failed := by
  unfold commitPush finishRecovery
  simp only
  split <;> split <;> (try split) <;> simp only [mark_failed]

theorem bufferMeta_rcv (m : Option Buf) (j : Journal) : (bufferMeta c m j).head = j.head ∧
    (bufferMeta c m j).recovery = j.recovery := by
  unfold bufferMeta; simp only; split <;> exact ⟨rfl, rfl⟩

theorem pushMeta_fd (hc : c.Valid) {n0 : Nand} (m : Option Buf) {s : S} (h : FdOk n0 s.n) :
    Fd c n0 s.j.recovery s.j.head (pushMeta c m s) := by
  obtain ⟨b1, b2⟩ := bufferMeta_rcv (c := c) m s.j
  unfold pushMeta
  simp only
  split
  · exact ⟨⟨fun _ => h, (fun h => by cases h), (fun h => by cases h)⟩, (fun h => by cases h)⟩
  · next hal =>
    have hz : (s.j.head + 2) % c.ppc = 0 := by
      have : isAligned ((bufferMeta c m s.j).head + 2) c.log2Ppc = true := by simpa using hal
      rw [b1] at this
      exact isAligned_iff.1 this
    have h4 := hc.ppc_ge
    have hb : (s.j.head + 1) / c.ppb = s.j.head / c.ppb := by
      have hne : (s.j.head + 1) % c.ppb ≠ 0 := by
        intro hh
        have h1 : (s.j.head + 1) % c.ppc = 0 :=
          Nat.mod_eq_zero_of_dvd (Nat.dvd_trans hc.ppc_dvd (Nat.dvd_of_mod_eq_zero hh))
        have h2 : (s.j.head + 1 + 1) % c.ppc = 1 := by
          rw [Nat.add_mod, h1, Nat.zero_add, Nat.mod_mod, Nat.mod_eq_of_lt (by omega)]
        have h3 : (1 : Nat) = 0 := h2.symm.trans hz
        omega
      have r1 := div_mod_range (s.j.head + 1) c.ppb
      have r2 := mod_ppb_lt c (s.j.head + 1)
      refine (Nat.div_eq_of_lt_le ?_ ?_).symm
      · omega
      · rw [Nat.add_mul, Nat.one_mul]; omega
    have f2 := progS_fd (c := c) (n0 := n0) (s := { s with j := fillHeader (bufferMeta c m s.j) }) h
      (p := (fillHeader (bufferMeta c m s.j)).head + 1) (by
        show ((bufferMeta c m s.j).head + 1) / c.ppb = (bufferMeta c m s.j).head / c.ppb
        rw [b1]; exact hb) (fillHeader (bufferMeta c m s.j)).pageBuf
    have hj : (progS c ((fillHeader (bufferMeta c m s.j)).head + 1) (fillHeader (bufferMeta c m s.j)).pageBuf
        { s with j := fillHeader (bufferMeta c m s.j) }).2.j = fillHeader (bufferMeta c m s.j) := rfl
    split
    · next e s2 e1 =>
      rw [e1] at f2 hj
      have hj : s2.j = fillHeader (bufferMeta c m s.j) := hj
      obtain ⟨k, _⟩ := recoverFrom_fd hc f2
      have e2 : s2.j.recovery = s.j.recovery := by rw [hj]; exact b2
      have e3 : s2.j.head = s.j.head := by rw [hj]; exact b1
      rw [e2, e3] at k
      exact k
    · next s2 e1 =>
      rw [e1] at f2
      exact ⟨⟨fun _ => (f2.ok fun h => by cases h).same (commitPush_failed _ _) (commitPush_evo _ _),
        (fun h => by cases h), (fun h => by cases h)⟩, (fun h => by cases h)⟩

theorem pushLoop_fd (hc : c.Valid) {n0 : Nand} {wr : S → Except Err Unit × S} (hw : WrFd c wr) (m : Option Buf) :
    ∀ i s, FdOk n0 s.n → Fd c n0 s.j.recovery s.j.head (pushLoop c wr m i s) := by
  intro i
  induction i with
  | zero => intro s h; exact ⟨⟨(fun h => by cases h), (fun h => by cases h), (fun h => by cases h)⟩, (fun h => by cases h)⟩
  | succ i ih =>
    intro s h
    have fin : ∀ (e : Err) (s1 : S), Fl c n0 s (.error e, s1) → (s.j.head % c.ppb = 0 → s1.j.head % c.ppb = 0) →
        (s.j.head % c.ppb ≠ 0 → s1.j.head = s.j.head) →
        Fd c n0 s.j.recovery s.j.head (match recoverFrom c e s1 with
            | (.error e, s) => ((.error e, s) : Except Err Unit × S)
            | (.ok (), s) => pushLoop c wr m i s) := by
      intro e s1 f ha hn
      obtain ⟨k1, k2⟩ := recoverFrom_fd hc f
      have hr : s1.j.recovery = s.j.recovery := f.rcv
      rw [hr] at k1
      split
      · next e1 =>
        rw [e1] at k1
        refine ⟨⟨k1.ok, k1.again, fun h1 h2 => ?_⟩, k1.pow⟩
        obtain ⟨a, b⟩ := k1.start h1 h2
        have hz : s.j.head % c.ppb ≠ 0 := fun h => a (ha h)
        rw [hn hz] at b
        exact ⟨hz, b⟩
      · next s2 e1 =>
        rw [e1] at k1 k2
        obtain ⟨a1, a2, a3, a4⟩ := k2 rfl
        have := ih s2 (k1.ok rfl)
        rw [show s2.j.recovery = s.j.recovery from a1.trans hr] at this
        exact ⟨⟨this.ok, this.again, fun h1 h2 => absurd a4 (this.start h1 h2).1⟩, this.pow⟩
    unfold pushLoop
    simp only
    obtain ⟨f, fa, fn⟩ := prepareHead_fd (c := c) h
    rcases hq : prepareHead c s with ⟨e | ⟨⟩, s1⟩
    · rw [hq] at f fa fn
      exact fin e s1 f fa (fun h => (fn h).1)
    · rw [hq] at f fa fn
      simp only at fa fn ⊢
      have f1 := f.ok (fun h => by cases h)
      have hr : s1.j.recovery = s.j.recovery := f.rcv
      obtain ⟨f2, hj⟩ := hw n0 s1 f1
      rcases hr2 : wr s1 with ⟨e | ⟨⟩, s2⟩
      · rw [hr2] at f2 hj
        have hj : s2.j = s1.j := hj
        exact fin e s2 ⟨f2.rcv.trans hr, f2.nrec, f2.ok, f2.bad⟩ (fun h => by rw [hj]; exact fa h)
          (fun h => by rw [hj]; exact (fn h).1)
      · rw [hr2] at f2 hj
        have hj : s2.j = s1.j := hj
        have k := pushMeta_fd hc m (f2.ok fun h => by cases h)
        simp only at k ⊢
        rw [show s2.j.recovery = s.j.recovery by rw [hj]; exact hr] at k
        refine ⟨⟨k.ok, k.again, fun h1 h2 => ?_⟩, k.pow⟩
        obtain ⟨a, b⟩ := k.start h1 h2
        rw [hj] at a b
        have hz : s.j.head % c.ppb ≠ 0 := fun h => a (fa h)
        rw [(fn hz).1] at b
        exact ⟨hz, b⟩

/-- A push. -/
theorem push_fd (hc : c.Valid) {wr : S → Except Err Unit × S} (hw : WrFd c wr) (m : Option Buf) (i : Nat) (s : S) :
    Fd c s.n s.j.recovery s.j.head (pushLoop c wr m i s) := pushLoop_fd hc hw m i s (FdOk.refl _)

end Dhara

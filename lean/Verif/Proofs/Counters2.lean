/-
The counters of bad blocks count no block that is not marked bad or about to be (C67).
-/
import Verif.Proofs.Counters
import Verif.Proofs.Retire
import Verif.Proofs.Disk2
namespace Dhara

variable {c : Cfg}

/-- How many of the first `m` blocks satisfy `f`. -/
def cnt (f : Nat → Bool) (m : Nat) : Nat := (List.range m).countP f

theorem cnt_succ (f : Nat → Bool) (m : Nat) : cnt f (m + 1) = cnt f m + if f m = true then 1 else 0 := by
  unfold cnt
  rw [List.range_succ, List.countP_append, List.countP_singleton]

theorem cnt_mono {f g : Nat → Bool} (h : ∀ k, f k = true → g k = true) (m : Nat) : cnt f m ≤ cnt g m :=
  List.countP_mono_left fun k _ => h k

theorem cnt_le {f : Nat → Bool} {m m' : Nat} (h : m ≤ m') : cnt f m ≤ cnt f m' := by
  induction m' with
  | zero => rw [Nat.le_zero.1 h]; exact Nat.le_refl _
  | succ k ih =>
    rcases Nat.lt_or_ge k m with h1 | h1
    · rw [show m = k + 1 by omega]; exact Nat.le_refl _
    · rw [cnt_succ]; have := ih h1; omega

/-- Marked bad, or one of `E`. -/
def Wb (n : Nand) (E : Nat → Bool) (k : Nat) : Bool := n.chip.bad k || E k

theorem Wb.mono {n n' : Nand} (h : Evo c n n') (E : Nat → Bool) (k : Nat) (hk : Wb n E k = true) : Wb n' E k = true := by
  unfold Wb at hk ⊢
  rw [Bool.or_eq_true] at hk ⊢
  exact hk.imp (h.bad k) id

/-- The counters count only blocks marked bad or in `E`. -/
structure CW (c : Cfg) (W0 : Nat → Bool) (E : Nat → Bool) (s : S) : Prop where
  head : s.j.head < c.pages
  user : c.isU s.j.head
  cur : s.j.bbCurrent ≤ cnt (Wb s.n E) (c.blk s.j.head)
  last : s.j.bbLast ≤ max (c.numBlocks >>> 6) (cnt (Wb s.n E) c.numBlocks)
  lb : ∀ k, W0 k = true → Wb s.n E k = true

theorem CW.mono {E E' : Nat → Bool} {s s' : S} (h : CW c W0 E s) (hm : ∀ k, Wb s.n E k = true → Wb s'.n E' k = true)
    (h1 : s'.j.head = s.j.head) (h2 : s'.j.bbCurrent = s.j.bbCurrent) (h3 : s'.j.bbLast = s.j.bbLast) : CW c W0 E' s' := by
  refine ⟨by rw [h1]; exact h.head, by rw [h1]; exact h.user, ?_, ?_, fun k hk => hm k (h.lb k hk)⟩
  · rw [h1, h2]; exact Nat.le_trans h.cur (cnt_mono hm _)
  · rw [h3]
    have := h.last
    have := cnt_mono hm c.numBlocks
    omega

theorem CW.jset {E : Nat → Bool} {s s' : S} (h : CW c W0 E s) (hn : s'.n = s.n)
    (h1 : s'.j.head = s.j.head) (h2 : s'.j.bbCurrent = s.j.bbCurrent) (h3 : s'.j.bbLast = s.j.bbLast) : CW c W0 E s' :=
  h.mono (fun k hk => by rw [hn]; exact hk) h1 h2 h3

/-- The head moves on, possibly round the end. -/
theorem CW.roll {E : Nat → Bool} {j : Journal} {n : Nand} {k : Nat} (h1 : j.head < c.pages) (h2 : c.isU j.head)
    (h3 : j.bbLast ≤ max (c.numBlocks >>> 6) (cnt (Wb n E) c.numBlocks)) (h4 : j.bbCurrent ≤ cnt (Wb n E) c.numBlocks)
    (h5 : j.head ≠ 0 → j.bbCurrent ≤ cnt (Wb n E) (c.blk j.head)) (h6 : ∀ k, W0 k = true → Wb n E k = true) : CW c W0 E ⟨rollIfZero j, n, k⟩ := by
  unfold rollIfZero rollStats
  split
  · refine ⟨h1, h2, Nat.zero_le _, ?_, h6⟩
    exact Nat.le_trans h4 (Nat.le_max_right _ _)
  · next h => exact ⟨h1, h2, h5 h, h3, h6⟩

theorem CW.next (hc : c.Valid) {E : Nat → Bool} {s : S} (h : CW c W0 E s) (j' : Journal) (k : Nat) (h1 : j'.head = nextUpage c s.j.head)
    (h2 : j'.bbCurrent = s.j.bbCurrent) (h3 : j'.bbLast = s.j.bbLast) : CW c W0 E ⟨rollIfZero j', s.n, k⟩ := by
  have hb := blk_ok h.head
  have hcur := h.cur
  refine .roll (by rw [h1]; exact nextUpage_ok hc h.head) (by rw [h1]; exact nextUpage_user hc h.head h.user) (by rw [h3]; exact h.last)
    (by rw [h2]; exact Nat.le_trans hcur (cnt_le (by omega))) ?_ h.lb
  intro h0
  rw [h1] at h0 ⊢
  rw [h2]
  refine Nat.le_trans h.cur (cnt_le (blk_mono ?_))
  revert h0
  unfold nextUpage
  simp only
  split <;> split <;> omega

/-- Skipping the head's block, which is bad or in `E`, and counting it. -/
theorem CW.skip (hc : c.Valid) {E : Nat → Bool} {s s' : S} (h : CW c W0 E s) (hk : Wb s.n E (c.blk s.j.head) = true)
    (e : skipBlock c { s with j := { s.j with bbCurrent := s.j.bbCurrent + 1 } } = (.ok (), s')) : CW c W0 E s' := by
  have hb := blk_ok h.head
  have hcur := h.cur
  have h1 : s.j.bbCurrent + 1 ≤ cnt (Wb s.n E) (c.blk s.j.head + 1) := by rw [cnt_succ, if_pos hk]; omega
  unfold skipBlock at e
  simp only at e
  split at e
  · cases e
  · cases e
    refine .roll (start_ok (nextBlock_ok hc _)) (start_user hc _) h.last (Nat.le_trans h1 (cnt_le hb)) ?_ h.lb
    intro h0
    simp only at h0 ⊢
    rw [blk_shl]
    unfold nextBlock at h0 ⊢
    split at h0 <;> split
    · simp only [Nat.zero_shiftLeft] at h0; omega
    · omega
    · omega
    · exact h1

/-- What stays the same while the head is looked for. -/
structure Kj (c : Cfg) (j j' : Journal) : Prop where
  root : j'.root = j.root
  rcv : j'.recovery = j.recovery
  rr : j'.recoverRoot = j.recoverRoot
  bm : j'.badMeta = j.badMeta
  rm : j'.recoverMeta = j.recoverMeta
  al : j.head % c.ppb = 0 → j'.head % c.ppb = 0
  na : j.head % c.ppb ≠ 0 → j'.head = j.head

theorem Kj.refl (j : Journal) : Kj c j j := ⟨rfl, rfl, rfl, rfl, rfl, id, fun _ => rfl⟩

theorem roll_kj (j : Journal) : (rollIfZero j).root = j.root ∧ (rollIfZero j).recoverRoot = j.recoverRoot := by
  unfold rollIfZero; split <;> exact ⟨rfl, rfl⟩

/-- skip_block touches only the head and the statistics. -/
theorem skip_kj {s s' : S} (h : skipBlock c s = (.ok (), s')) :
    s'.n = s.n ∧ s'.j.root = s.j.root ∧ s'.j.recovery = s.j.recovery ∧ s'.j.recoverRoot = s.j.recoverRoot ∧ s'.j.badMeta = s.j.badMeta ∧
      s'.j.recoverMeta = s.j.recoverMeta ∧ s'.j.head % c.ppb = 0 := by
  unfold skipBlock at h
  simp only at h
  split at h
  · cases h
  · cases h
    obtain ⟨a, b, d, e⟩ := roll_keep { s.j with head := nextBlock c (c.blk s.j.head) <<< c.log2Ppb }
    obtain ⟨f, g⟩ := roll_kj { s.j with head := nextBlock c (c.blk s.j.head) <<< c.log2Ppb }
    refine ⟨rfl, f, a, g, b, d, ?_⟩
    show (rollIfZero _).head % c.ppb = 0
    rw [e, shl_ppb]
    exact Nat.mul_mod_left _ _

theorem prepareHeadLoop_cw (hc : c.Valid) {E : Nat → Bool} : ∀ i (s : S), CW c W0 E s → s.j.head % c.ppb = 0 →
    (prepareHeadLoop c i s).1 ≠ .error .journalFull → CW c W0 E (prepareHeadLoop c i s).2 ∧ Kj c s.j (prepareHeadLoop c i s).2.j := by
  intro i
  induction i with
  | zero => intro s h _ _; exact ⟨h, .refl _⟩
  | succ i ih =>
    intro s h h0
    unfold prepareHeadLoop
    simp only
    split
    · intro _
      exact ⟨h.mono (Wb.mono (nandErase_evo _ _) E) rfl rfl rfl, .refl _⟩
    · next hbad =>
      have hk : Wb s.n E (c.blk s.j.head) = true := by
        unfold Wb; rw [Bool.or_eq_true]; left
        have : nandIsBad s.n (c.blk s.j.head) = true := by simpa using hbad
        exact this
      split
      · next e s1 e1 =>
        intro hne
        unfold skipBlock at e1
        simp only at e1
        split at e1
        · cases e1; exact absurd rfl hne
        · cases e1
      · next s1 e1 =>
        intro hne
        obtain ⟨k1, k2, k3, k4, k5, k6, k7⟩ := skip_kj e1
        obtain ⟨r1, r2⟩ := ih s1 (h.skip hc hk e1) k7 hne
        exact ⟨r1, r2.root.trans k2, r2.rcv.trans k3, r2.rr.trans k4, r2.bm.trans k5, r2.rm.trans k6, fun _ => r2.al k7, fun hn => absurd h0 hn⟩

theorem prepareHead_cw (hc : c.Valid) {E : Nat → Bool} {s : S} (h : CW c W0 E s) (hne : (prepareHead c s).1 ≠ .error .journalFull) :
    CW c W0 E (prepareHead c s).2 ∧ Kj c s.j (prepareHead c s).2.j := by
  revert hne
  unfold prepareHead
  simp only
  split
  · intro hne; exact absurd rfl hne
  · split
    · intro _; exact ⟨h.jset rfl rfl rfl rfl, ⟨rfl, rfl, rfl, rfl, rfl, id, fun _ => rfl⟩⟩
    · next hal =>
      have hz : s.j.head % c.ppb = 0 := isAligned_iff.1 (by simpa using hal)
      intro hne
      obtain ⟨r1, r2⟩ := prepareHeadLoop_cw hc (E := E) maxRetries { s with j := { s.j with dirty := true } } (h.jset rfl rfl rfl rfl) hz hne
      exact ⟨r1, r2.root, r2.rcv, r2.rr, r2.bm, r2.rm, r2.al, r2.na⟩

/-- dump_meta: only success matters. -/
theorem dumpMetaLoop_cw (hc : c.Valid) {E : Nat → Bool} : ∀ i (s : S), CW c W0 E s → (dumpMetaLoop c i s).1 = .ok () →
    CW c W0 E (dumpMetaLoop c i s).2 ∧ (dumpMetaLoop c i s).2.j.recoverRoot = s.j.recoverRoot := by
  intro i
  induction i with
  | zero => intro s h hk; cases hk
  | succ i ih =>
    intro s h
    unfold dumpMetaLoop
    simp only
    have fin : ∀ (e : Err) (s1 : S), (e = .badBlock → s1.n.dead = false ∧ CW c W0 E s1 ∧ s1.j.recoverRoot = s.j.recoverRoot) →
        let r := (if e ≠ .badBlock then ((.error e, s1) : Except Err Unit × S)
          else match skipBlock c { { s1 with j := { s1.j with bbCurrent := s1.j.bbCurrent + 1 } } with
              n := nandMarkBad c (c.blk s1.j.head) s1.n } with
            | (.error e, s) => (.error e, s)
            | (.ok (), s) => dumpMetaLoop c i s)
        r.1 = .ok () → CW c W0 E r.2 ∧ r.2.j.recoverRoot = s.j.recoverRoot := by
      intro e s1 hb
      simp only
      split
      · intro hk; cases hk
      · next he =>
        obtain ⟨d1, d2, d3⟩ := hb (Classical.not_not.1 he)
        split
        · intro hk; cases hk
        · next s2 e1 =>
          intro hk
          have hm : CW c W0 E { s1 with n := nandMarkBad c (c.blk s1.j.head) s1.n } := d2.mono (Wb.mono (nandMarkBad_evo (c := c) _ _) E) rfl rfl rfl
          have hx : Wb (nandMarkBad c (c.blk s1.j.head) s1.n) E (c.blk s1.j.head) = true := by
            unfold Wb; rw [mark_bad d1]; rfl
          obtain ⟨r1, r2⟩ := ih s2 (hm.skip hc hx e1) hk
          obtain ⟨_, _, _, k4, _⟩ := skip_kj e1
          exact ⟨r1, r2.trans (k4.trans d3)⟩
    have f := (prepareHead_fd (c := c) (n0 := s.n) (s := s) (FdOk.refl _)).1
    have h1 := prepareHead_cw hc h
    rcases hq : prepareHead c s with ⟨e | ⟨⟩, s1⟩
    · rw [hq] at f h1
      refine fin e s1 fun he => ?_
      subst he
      obtain ⟨a, b⟩ := h1 (by simp)
      exact ⟨(f.bad rfl).1, a, b.rr⟩
    · rw [hq] at f h1
      obtain ⟨a, b⟩ := h1 (by simp)
      simp only at a b ⊢
      have f2 := progS_fd (c := c) (n0 := s1.n) (s := s1) (FdOk.refl _) (p := s1.j.head) rfl s1.j.pageBuf
      have hE := progS_evo (c := c) s1.j.head s1.j.pageBuf s1
      rcases hr : progS c s1.j.head s1.j.pageBuf s1 with ⟨e | ⟨⟩, s2⟩
      · have hj : s2.j = s1.j := by have := congrArg (fun x => x.2.j) hr; exact this.symm
        rw [hr] at f2 hE
        refine fin e s2 fun he => ?_
        subst he
        exact ⟨(f2.bad rfl).1, a.mono (Wb.mono hE E) (by rw [hj]) (by rw [hj]) (by rw [hj]), by rw [hj]; exact b.rr⟩
      · have hj : s2.j = s1.j := by have := congrArg (fun x => x.2.j) hr; exact this.symm
        rw [hr] at hE
        intro _
        simp only
        have a2 : CW c W0 E s2 := a.mono (Wb.mono hE E) (by rw [hj]) (by rw [hj]) (by rw [hj])
        refine ⟨(a2.next hc { s2.j with recoverMeta := s2.j.head, head := nextUpage c s2.j.head } s2.count rfl rfl rfl).jset rfl rfl rfl rfl, ?_⟩
        show (rollIfZero _).recoverRoot = _
        rw [(roll_kj _).2]
        show s2.j.recoverRoot = _
        rw [hj]; exact b.rr

/-- The blocks that a recovery going on will mark bad when it ends. -/
def pend (c : Cfg) (j : Journal) (k : Nat) : Bool :=
  j.recovery && (k == c.blk j.recoverRoot || (j.badMeta && k == c.blk j.recoverMeta))

/-- The root is in the head's block. -/
def RB (c : Cfg) (j : Journal) : Prop := j.recovery = false → j.root ≠ NONE → j.head % c.ppb ≠ 0 → c.blk j.root = c.blk j.head

/-- The invariant. -/
structure KI (c : Cfg) (W0 : Nat → Bool) (s : S) : Prop where
  w : CW c W0 (pend c s.j) s
  rb : RB c s.j

theorem pend_congr {j j' : Journal} (h1 : j'.recovery = j.recovery) (h2 : j'.recoverRoot = j.recoverRoot) (h3 : j'.badMeta = j.badMeta)
    (h4 : j'.recoverMeta = j.recoverMeta) : pend c j' = pend c j := by
  funext k; unfold pend; rw [h1, h2, h3, h4]

theorem RB.kj {j j' : Journal} (h : RB c j) (k : Kj c j j') : RB c j' := by
  intro h1 h2 h3
  have hz : j.head % c.ppb ≠ 0 := fun h => h3 (k.al h)
  rw [k.root, k.na hz]
  rw [k.rcv] at h1; rw [k.root] at h2
  exact h h1 h2 hz

/-- `E` and one block more. -/
def plus (E : Nat → Bool) (b : Nat) (k : Nat) : Bool := E k || k == b

theorem Wb.plus_mark {n : Nand} {E E' : Nat → Bool} {b : Nat} (hd : n.dead = false) (hE : ∀ k, E k = true → E' k = true) (k : Nat)
    (h : Wb n (plus E b) k = true) : Wb (nandMarkBad c b n) E' k = true := by
  unfold Wb plus at h
  unfold Wb
  simp only [Bool.or_eq_true, beq_iff_eq] at h ⊢
  rcases h with h | h | h
  · exact .inl ((nandMarkBad_evo (c := c) b n).bad k h)
  · exact .inr (hE k h)
  · rw [h]; exact .inl (mark_bad hd)

theorem CW.plus {E : Nat → Bool} {s : S} (h : CW c W0 E s) (b : Nat) : CW c W0 (plus E b) s := by
  refine h.mono (fun k hk => ?_) rfl rfl rfl
  unfold Wb Dhara.plus at *
  simp only [Bool.or_eq_true] at hk ⊢
  exact hk.imp id .inl

theorem recoverFrom_ki (hc : c.Valid) {e : Err} {s : S} (h : KI c W0 s) (he : e ≠ .recover) (hd : e = .badBlock → s.n.dead = false) :
    ((recoverFrom c e s).1 = .ok () → KI c W0 (recoverFrom c e s).2 ∧ (recoverFrom c e s).2.j.root = s.j.root) ∧
    ((recoverFrom c e s).1 = .error .recover → s.j.root ≠ NONE → KI c W0 (recoverFrom c e s).2) := by
  unfold recoverFrom
  simp only
  split
  · exact ⟨(fun h => by cases h), fun h => absurd (Except.error.inj h) he⟩
  · next hb =>
    have hd := hd (Classical.not_not.1 hb)
    split
    · next e1 =>
      obtain ⟨_, _, _, k4, _⟩ := skip_keep _ e1
      exact ⟨(fun h => by cases h), fun h => absurd h k4⟩
    · next s1 e1 =>
      obtain ⟨k1, k2, k3, k4, k5, k6, k7⟩ := skip_kj e1
      simp only at k1 k2 k3 k4 k5 k6
      have h1 : CW c W0 (plus (pend c s.j) (c.blk s.j.head)) s1 :=
        (h.w.plus (c.blk s.j.head)).skip hc (by unfold Wb plus; simp) e1
      split
      · next hr =>
        refine ⟨(fun h => by cases h), fun _ _ => ⟨?_, ?_⟩⟩
        · unfold restartRecovery
          simp only
          split
          · refine h1.mono (fun k hk => ?_) rfl rfl rfl
            rw [k1] at hk ⊢
            exact Wb.plus_mark hd (fun k hk => (congrFun (pend_congr k3 k4 k5 k6) k).trans hk) k hk
          · next hn =>
            refine h1.mono (fun k hk => ?_) rfl rfl rfl
            have hal : alignEq s1.j.recoverMeta s.j.head c.log2Ppb = true := by
              apply Classical.byContradiction; intro hh; exact hn (Or.inr hh)
            have hbm : c.blk s1.j.recoverMeta = c.blk s.j.head := by rw [blk_eq, blk_eq]; exact alignEq_iff.1 hal
            have h0 := hk
            unfold Wb plus at hk
            unfold Wb
            simp only [Bool.or_eq_true, beq_iff_eq] at hk ⊢
            rcases hk with hk | hk | hk
            · exact .inl hk
            · right
              rw [← pend_congr k3 k4 k5 k6] at hk
              unfold pend at hk ⊢
              simp only [Bool.and_eq_true, Bool.or_eq_true, beq_iff_eq] at hk ⊢
              exact ⟨hk.1, hk.2.imp id fun h => ⟨trivial, h.2⟩⟩
            · right
              unfold pend
              simp only [Bool.and_eq_true, Bool.or_eq_true, beq_iff_eq]
              exact ⟨hr, .inr ⟨trivial, hk.trans hbm.symm⟩⟩
        · intro hf
          have : (restartRecovery c s.j.head s1).j.recovery = s1.j.recovery := by unfold restartRecovery; simp only; split <;> rfl
          rw [this, hr] at hf; cases hf
      · next hr =>
        have hr : s1.j.recovery = false := by simpa using hr
        have hp : ∀ k, pend c s.j k = false := by intro k; unfold pend; rw [← k3, hr]; rfl
        split
        · next hal =>
          refine ⟨fun _ => ⟨⟨?_, fun _ _ h3 => absurd k7 h3⟩, k2⟩, (fun h => by cases h)⟩
          refine h1.mono (fun k hk => ?_) rfl rfl rfl
          rw [k1] at hk ⊢
          exact Wb.plus_mark hd (fun k hk => by rw [hp k] at hk; cases hk) k hk
        · next hal =>
          have hz : s.j.head % c.ppb ≠ 0 := fun h => hal (isAligned_iff.2 h)
          have h2 : CW c W0 (plus (pend c s.j) (c.blk s.j.head)) ⟨{ s1.j with recoverRoot := s1.j.root, recoverNext := c.blockStart s1.j.root }, s1.n, s1.count⟩ :=
            h1.jset rfl rfl rfl rfl
          have fin : ∀ s2 : S, CW c W0 (plus (pend c s.j) (c.blk s.j.head)) s2 → s2.j.recoverRoot = s1.j.root → s.j.root ≠ NONE →
              KI c W0 { s2 with j := { s2.j with recovery := true } } := by
            intro s2 a b hroot
            refine ⟨a.mono (fun k hk => ?_) rfl rfl rfl, (fun hf => by cases hf)⟩
            unfold Wb plus at hk
            unfold Wb
            simp only [Bool.or_eq_true, beq_iff_eq] at hk ⊢
            rcases hk with hk | hk | hk
            · exact .inl hk
            · rw [hp k] at hk; cases hk
            · right
              unfold pend
              simp only [Bool.true_and, Bool.or_eq_true, beq_iff_eq]
              left
              rw [b, k2, hk]
              exact (h.rb (by rw [← k3]; exact hr) hroot hz).symm
          split
          · next e2 s2 heq =>
            refine ⟨(fun h => by cases h), fun hre => ?_⟩
            split at heq
            · unfold dumpMeta at heq
              have := (dumpMetaLoop_fd (c := c) (n0 := s1.n) maxRetries
                { s1 with j := { s1.j with recoverRoot := s1.j.root, recoverNext := c.blockStart s1.j.root } } (FdOk.refl _)).1
              rw [heq] at this
              exact absurd hre this
            · cases heq
          · next s2 heq =>
            refine ⟨(fun h => by cases h), fun _ hroot => ?_⟩
            split at heq
            · unfold dumpMeta at heq
              have := dumpMetaLoop_cw hc maxRetries _ h2
              rw [heq] at this
              obtain ⟨a, b⟩ := this rfl
              exact fin s2 a b hroot
            · cases heq
              exact fin _ h2 rfl hroot

theorem finishRecovery_ki {s : S} (hd : s.n.dead = false) (hw : CW c W0 (pend c s.j) s) (hrb : s.j.root ≠ NONE → s.j.head % c.ppb ≠ 0 → c.blk s.j.root = c.blk s.j.head) :
    KI c W0 (finishRecovery c s) := by
  have hE : ∀ k, pend c (clearRecovery s.j) k = false := fun k => rfl
  unfold finishRecovery
  simp only
  have h1 : ∀ k, Wb s.n (pend c s.j) k = true → (nandMarkBad c (c.blk s.j.recoverRoot) s.n).chip.bad k = true ∨ (s.j.badMeta = true ∧ k = c.blk s.j.recoverMeta) := by
    intro k hk
    unfold Wb pend at hk
    simp only [Bool.or_eq_true, Bool.and_eq_true, beq_iff_eq] at hk
    rcases hk with hk | ⟨_, hk | hk⟩
    · exact .inl ((nandMarkBad_evo (c := c) _ _).bad k hk)
    · rw [hk]; exact .inl (mark_bad hd)
    · exact .inr hk
  split
  · refine ⟨hw.mono (fun k hk => ?_) rfl rfl rfl, fun _ => hrb⟩
    unfold Wb; rw [Bool.or_eq_true]; left
    rcases h1 k hk with h | ⟨_, h⟩
    · exact (nandMarkBad_evo (c := c) _ _).bad k h
    · rw [h]; exact mark_bad (by rw [mark_dead]; exact hd)
  · next hb =>
    refine ⟨hw.mono (fun k hk => ?_) rfl rfl rfl, fun _ => hrb⟩
    unfold Wb; rw [Bool.or_eq_true]; left
    rcases h1 k hk with h | ⟨h, _⟩
    · exact h
    · exact absurd h hb

/-- After a push the root is in the head's block, unless the head is at the beginning of one. -/
theorem next_blk (hc : c.Valid) {p : Nat} (hp : p < c.pages) (hu : c.isU p) (h : nextUpage c p % c.ppb ≠ 0) : c.blk p = c.blk (nextUpage c p) := by
  have h1 := nextUpage_ph hc hu
  rw [ph_of_lt hp] at h1
  rcases nextV_blk hc hu with h2 | h2
  · rw [blk_eq, blk_eq, h1]
    have hlt := nextUpage_ok hc hp
    rw [h1] at hlt
    rcases Nat.lt_or_ge (c.nextV p) c.pages with h3 | h3
    · rw [ph_of_lt h3]; exact h2.1.symm
    · exfalso
      have h4 := (Nat.div_lt_iff_lt_mul (ppb_pos c)).2 (show p < c.numBlocks * c.ppb from hp)
      have h5 := (Nat.le_div_iff_mul_le (ppb_pos c)).2 (show c.numBlocks * c.ppb ≤ c.nextV p from h3)
      have h6 := h2.1
      omega
  · exfalso
    apply h
    rw [h1]
    have : (c.ph (c.nextV p)) % c.ppb = c.nextV p % c.ppb := by
      unfold Cfg.ph
      exact Nat.mod_mod_of_dvd _ (Nat.dvd_mul_left _ _)
    rw [this]; exact h2.2

theorem commitPush_ki (hc : c.Valid) {s : S} (hd : s.n.dead = false) (hw : CW c W0 (pend c s.j) s) : KI c W0 (commitPush c s.j.head s) := by
  have h1 := hw.next hc { s.j with dirty := false, root := s.j.head, head := nextUpage c s.j.head } s.count rfl rfl rfl
  obtain ⟨a, b, d, e⟩ := roll_keep { s.j with dirty := false, root := s.j.head, head := nextUpage c s.j.head }
  obtain ⟨g, i⟩ := roll_kj { s.j with dirty := false, root := s.j.head, head := nextUpage c s.j.head }
  unfold commitPush
  simp only
  generalize hj : rollIfZero { s.j with dirty := false, root := s.j.head, head := nextUpage c s.j.head } = j at *
  have hp : pend c j = pend c s.j := pend_congr a i b d
  have hrb : j.head % c.ppb ≠ 0 → c.blk j.root = c.blk j.head := by
    intro hz
    rw [e] at hz
    rw [e, g]
    exact next_blk hc hw.head hw.user hz
  have hm : KI c W0 (if j.enumDone = true then finishRecovery c ⟨j, s.n, s.count⟩ else ⟨j, s.n, s.count⟩) := by
    split
    · exact finishRecovery_ki hd (by rw [hp]; exact h1) (fun _ => hrb)
    · exact ⟨by rw [hp]; exact h1, fun _ _ => hrb⟩
  generalize (if j.enumDone = true then finishRecovery c ⟨j, s.n, s.count⟩ else ⟨j, s.n, s.count⟩) = v at hm
  split
  · exact ⟨hm.w.jset rfl rfl rfl rfl, hm.rb⟩
  · exact hm

/-- What a push leaves. -/
structure PK (c : Cfg) (W0 : Nat → Bool) (s : S) (r : Except Err Unit × S) : Prop where
  ok : r.1 = .ok () → KI c W0 r.2
  again : r.1 = .error .recover → s.j.root ≠ NONE → KI c W0 r.2

theorem progS_ok {p : Nat} {d : Buf} {s s' : S} (h : progS c p d s = (.ok (), s')) : s'.n.dead = false := by
  have h1 := congrArg Prod.fst h
  have h2 : (progS c p d s).2 = s' := congrArg Prod.snd h
  rw [← h2]
  unfold progS at h1 ⊢
  simp only at h1 ⊢
  revert h1
  unfold nandProg
  split
  · intro h; cases h
  · next hd =>
    simp only
    split <;> intro h <;> first | cases h; done | (simpa using hd)

theorem pushMeta_ki (hc : c.Valid) (m : Option Buf) {s : S} (h : KI c W0 s) : PK c W0 s (pushMeta c m s) := by
  obtain ⟨b1, b2⟩ := bufferMeta_rcv (c := c) m s.j
  have hb : ∃ b, bufferMeta c m s.j = { s.j with pageBuf := b } := by unfold bufferMeta; cases m <;> exact ⟨_, rfl⟩
  obtain ⟨b, hb⟩ := hb
  unfold pushMeta
  simp only
  rw [hb]
  simp only
  split
  · rename_i ha
    refine ⟨fun _ => ?_, (fun h => by cases h)⟩
    have hlt := succ_ok hc h.w.head h.w.user
    have hc1 : s.j.head % c.ppc + 2 < c.ppc ∧ nextUpage c s.j.head = s.j.head + 1 := by
      have h1 := nextUpage_ph hc h.w.user
      rw [ph_of_lt h.w.head] at h1
      rcases nextV_cases hc h.w.user with ⟨a1, a2, a3⟩ | ⟨a1, a2, a3⟩
      · rw [a2, ph_of_lt hlt] at h1; exact ⟨a1, h1⟩
      · exact absurd (isAligned_iff.2 a3) ha
    have hu := nextUpage_user hc h.w.head h.w.user
    rw [hc1.2] at hu
    refine ⟨⟨hlt, hu, ?_, h.w.last, h.w.lb⟩, fun _ _ hz => ?_⟩
    · exact Nat.le_trans h.w.cur (cnt_le (blk_mono (Nat.le_succ _)))
    · have := next_blk hc h.w.head h.w.user
      rw [hc1.2] at this
      exact this hz
  · have f2 : ∀ p d, (progS c p d { s with j := fillHeader { s.j with pageBuf := b } }).1 ≠ .error .recover ∧
        ((progS c p d { s with j := fillHeader { s.j with pageBuf := b } }).1 = .error .badBlock →
          (progS c p d { s with j := fillHeader { s.j with pageBuf := b } }).2.n.dead = false) := by
      intro p d
      obtain ⟨x, _, y⟩ := prog_fd (c := c) (FdOk.refl s.n) p d
      exact ⟨x, fun h => (y h).1⟩
    have hE : ∀ p d, Evo c s.n (progS c p d { s with j := fillHeader { s.j with pageBuf := b } }).2.n := fun p d => nandProg_evo _ _ _
    split
    · next e s2 e1 =>
      have hj : s2.j = fillHeader { s.j with pageBuf := b } := by have := congrArg (fun x => x.2.j) e1; exact this.symm
      have f := f2 ((fillHeader { s.j with pageBuf := b }).head + 1) (fillHeader { s.j with pageBuf := b }).pageBuf
      have hE := hE ((fillHeader { s.j with pageBuf := b }).head + 1) (fillHeader { s.j with pageBuf := b }).pageBuf
      rw [e1] at f hE
      have hp : pend c s2.j = pend c s.j := by rw [hj]; exact pend_congr rfl rfl rfl rfl
      have hk : KI c W0 s2 := by
        refine ⟨?_, ?_⟩
        · rw [hp]; exact h.w.mono (Wb.mono hE _) (by rw [hj]; rfl) (by rw [hj]; rfl) (by rw [hj]; rfl)
        · rw [hj]; exact h.rb
      obtain ⟨r1, r2⟩ := recoverFrom_ki hc (e := e) hk (fun he => f.1 (by rw [he])) (fun he => f.2 (by rw [he]))
      refine ⟨fun h => (r1 h).1, fun h hr => r2 h ?_⟩
      rw [hj]; exact hr
    · next s2 e1 =>
      have hj : s2.j = fillHeader { s.j with pageBuf := b } := by have := congrArg (fun x => x.2.j) e1; exact this.symm
      have hE := hE ((fillHeader { s.j with pageBuf := b }).head + 1) (fillHeader { s.j with pageBuf := b }).pageBuf
      rw [e1] at hE
      refine ⟨fun _ => ?_, (fun h => by cases h)⟩
      have hp : pend c s2.j = pend c s.j := by rw [hj]; exact pend_congr rfl rfl rfl rfl
      have hw : CW c W0 (pend c s2.j) s2 := by
        rw [hp]; exact h.w.mono (Wb.mono hE _) (by rw [hj]; rfl) (by rw [hj]; rfl) (by rw [hj]; rfl)
      have := commitPush_ki hc (progS_ok e1) hw
      rw [show s2.j.head = s.j.head by rw [hj]; rfl] at this
      exact this

/-- Writing the user page. -/
structure WrK (c : Cfg) (wr : S → Except Err Unit × S) : Prop where
  j : ∀ s, (wr s).2.j = s.j
  evo : ∀ s, Evo c s.n (wr s).2.n
  fd : WrFd c wr

theorem pushLoop_ki (hc : c.Valid) {wr : S → Except Err Unit × S} (hw : WrK c wr) (m : Option Buf) :
    ∀ i (s : S), KI c W0 s → PK c W0 s (pushLoop c wr m i s) := by
  intro i
  induction i with
  | zero => intro s h; exact ⟨(fun h => by cases h), (fun h => by cases h)⟩
  | succ i ih =>
    intro s h
    unfold pushLoop
    simp only
    have fin : ∀ (e : Err) (s1 : S), e ≠ .recover → (e = .badBlock → s1.n.dead = false) → (e ≠ .journalFull → KI c W0 s1 ∧ s1.j.root = s.j.root) →
        PK c W0 s (match recoverFrom c e s1 with
            | (.error e, s) => ((.error e, s) : Except Err Unit × S)
            | (.ok (), s) => pushLoop c wr m i s) := by
      intro e s1 h1 h2 h3
      by_cases hf : e = .journalFull
      · subst hf
        have : recoverFrom c .journalFull s1 = (.error .journalFull, s1) := rfl
        rw [this]
        exact ⟨(fun h => by cases h), (fun h => by cases h)⟩
      obtain ⟨k1, k2⟩ := h3 hf
      obtain ⟨r1, r2⟩ := recoverFrom_ki hc k1 h1 h2
      rcases hr : recoverFrom c e s1 with ⟨e' | ⟨⟩, s2⟩
      · rw [hr] at r1 r2
        exact ⟨(fun h => by cases h), fun h hn => r2 h (by rw [k2]; exact hn)⟩
      · rw [hr] at r1
        obtain ⟨a, b⟩ := r1 rfl
        have := ih s2 a
        exact ⟨this.ok, fun h hn => this.again h (by rw [b, k2]; exact hn)⟩
    have f := (prepareHead_fd (c := c) (n0 := s.n) (s := s) (FdOk.refl _)).1
    have h1 := prepareHead_cw hc h.w
    rcases hq : prepareHead c s with ⟨e | ⟨⟩, s1⟩
    · rw [hq] at f h1
      simp only
      refine fin e s1 (fun he => f.nrec (by rw [he])) (fun he => (f.bad (by rw [he])).1) fun he => ?_
      obtain ⟨a, k⟩ := h1 (fun h => he (Except.error.inj h))
      exact ⟨⟨by rw [pend_congr k.rcv k.rr k.bm k.rm]; exact a, h.rb.kj k⟩, k.root⟩
    · rw [hq] at h1
      obtain ⟨a, k⟩ := h1 (by simp)
      simp only at a k ⊢
      have hk1 : KI c W0 s1 := ⟨by rw [pend_congr k.rcv k.rr k.bm k.rm]; exact a, h.rb.kj k⟩
      have hj := hw.j s1
      have hE := hw.evo s1
      have f2 := (hw.fd s1.n s1 (FdOk.refl _)).1
      rcases hr : wr s1 with ⟨e | ⟨⟩, s2⟩
      · rw [hr] at hj hE f2
        simp only at hj hE ⊢
        refine fin e s2 (fun he => f2.nrec (by rw [he])) (fun he => (f2.bad (by rw [he])).1) fun _ => ?_
        exact ⟨⟨by rw [hj]; exact hk1.w.mono (Wb.mono hE _) (by rw [hj]) (by rw [hj]) (by rw [hj]), by rw [hj]; exact hk1.rb⟩, by rw [hj]; exact k.root⟩
      · rw [hr] at hj hE
        simp only at hj hE ⊢
        have := pushMeta_ki hc m (s := s2) ⟨by rw [hj]; exact hk1.w.mono (Wb.mono hE _) (by rw [hj]) (by rw [hj]) (by rw [hj]), by rw [hj]; exact hk1.rb⟩
        exact ⟨this.ok, fun h hn => this.again h (by rw [hj, k.root]; exact hn)⟩

theorem wrData_k (d : Option Buf) : WrK c (wrData c d) := ⟨fun s => by unfold wrData; cases d <;> rfl, wrData_evo d, wrData_fd d⟩

theorem wrCopy_k (p : Nat) : WrK c (wrCopy c p) := ⟨fun _ => rfl, wrCopy_evo p, wrCopy_fd p⟩

/-- Changes of the root to "none" only. -/
theorem KI.soft {s s' : S} (h : KI c W0 s) (hn : s'.n = s.n) (h1 : s'.j.head = s.j.head) (h2 : s'.j.bbCurrent = s.j.bbCurrent) (h3 : s'.j.bbLast = s.j.bbLast)
    (h4 : s'.j.recovery = s.j.recovery) (h5 : s'.j.recoverRoot = s.j.recoverRoot) (h6 : s'.j.badMeta = s.j.badMeta) (h7 : s'.j.recoverMeta = s.j.recoverMeta)
    (h8 : s'.j.root = s.j.root ∨ s'.j.root = NONE) : KI c W0 s' := by
  refine ⟨by rw [pend_congr h4 h5 h6 h7]; exact h.w.jset hn h1 h2 h3, ?_⟩
  intro r1 r2 r3
  rcases h8 with h8 | h8
  · rw [h8, h1]; rw [h4] at r1; rw [h8] at r2; rw [h1] at r3
    exact h.rb r1 r2 r3
  · exact absurd h8 r2

theorem peekLoop_ki : ∀ i b (s : S), KI c W0 s → KI c W0 (peekLoop c i b s).2 := by
  intro i
  induction i with
  | zero => intro b s h; exact h
  | succ i ih =>
    intro b s h
    unfold peekLoop
    simp only
    split
    · split
      · exact h.soft rfl rfl rfl rfl rfl rfl rfl rfl (.inr rfl)
      · exact h.soft rfl rfl rfl rfl rfl rfl rfl rfl (.inl rfl)
    · exact ih _ _ h

theorem jcall_ki (hc : c.Valid) (op : JOp) {s : S} (h : KI c W0 s) : PK c W0 s (jcall c op s) := by
  cases op with
  | enqueue d m => exact pushLoop_ki hc (wrData_k d) m _ s h
  | copy p m => exact pushLoop_ki hc (wrCopy_k p) _ _ s h
  | dequeue =>
    refine ⟨fun _ => ?_, (fun h => by cases h)⟩
    show KI c W0 (dequeue c s)
    unfold dequeue
    simp only
    split
    · exact h
    · split <;> split <;> first | exact h.soft rfl rfl rfl rfl rfl rfl rfl rfl (.inr rfl) | exact h.soft rfl rfl rfl rfl rfl rfl rfl rfl (.inl rfl)
  | peek =>
    refine ⟨fun _ => ?_, (fun h => by cases h)⟩
    show KI c W0 (peek c s).2
    unfold peek
    split
    · exact h
    · split
      · exact peekLoop_ki _ _ _ h
      · exact h
  | clear => exact ⟨fun _ => h.soft rfl rfl rfl rfl rfl rfl rfl rfl (.inr rfl), (fun h => by cases h)⟩
  | next =>
    refine ⟨fun _ => ?_, (fun h => by cases h)⟩
    show KI c W0 (nextRecoverable c s).2
    unfold nextRecoverable
    simp only
    split
    · exact h
    · split
      · exact h
      · split <;> exact h.soft rfl rfl rfl rfl rfl rfl rfl rfl (.inl rfl)

theorem reset_ki (hc : c.Valid) (j : Journal) (n : Nand) (k : Nat) : KI c (fun _ => false) ⟨resetJournal c j, n, k⟩ := by
  refine ⟨⟨hc.pages_pos, isU_of_aligned hc (Nat.zero_mod _), Nat.zero_le _, ?_, (fun _ h => by cases h)⟩, fun _ h => absurd rfl h⟩
  exact Nat.le_max_left _ _

end Dhara

/-
C58: every call depends on, and changes, only memory that exists (page buffer, chip). One pass
over all functions of the model, relating two runs that differ only beyond that memory.
-/
import Verif.Props.MemorySpec
import Verif.Proofs.Geom
import Verif.Proofs.Frame
namespace Dhara
variable {c : Cfg} {o o' : Buf}

/-- Page buffers: equal inside, fixed outside. -/
structure BSim (c : Cfg) (o o' b b' : Buf) : Prop where
  inn : SameBytes c.pageSize b b'
  out : SameBeyond c.pageSize b o
  out' : SameBeyond c.pageSize b' o'

inductive NSim (c : Cfg) : Nand → Nand → Prop
  | mk (n : Nand) (ch : Chip) (h : SameCells c n.chip ch) : NSim c n { n with chip := ch }

structure JP (c : Cfg) (j : Journal) : Prop where
  head : j.head < c.pages
  tail : j.tail < c.pages
  user : c.isU j.head

inductive JSim (c : Cfg) (o o' : Buf) : Journal → Journal → Prop
  | mk (j : Journal) (b : Buf) (hp : JP c j) (h : BSim c o o' j.pageBuf b) : JSim c o o' j { j with pageBuf := b }

structure Sim (c : Cfg) (o o' : Buf) (s s' : S) : Prop where
  j : JSim c o o' s.j s'.j
  n : NSim c s.n s'.n
  k : s.count = s'.count

structure RS {α : Type} (c : Cfg) (o o' : Buf) (r r' : α × S) : Prop where
  eq : r.1 = r'.1
  sim : Sim c o o' r.2 r'.2

/-! ### Buffers -/

theorem SameBytes.refl (n : Nat) (b : Buf) : SameBytes n b b := fun _ _ => rfl

theorem BSim.memset {b b' : Buf} (h : BSim c o o' b b') {off len : Nat} (v : UInt8) (hl : off + len ≤ c.pageSize) :
    BSim c o o' (b.memset off v len) (b'.memset off v len) := by
  refine ⟨fun i hi => ?_, fun i hi => ?_, fun i hi => ?_⟩
  · unfold Buf.memset; split
    · rfl
    · exact h.inn i hi
  · rw [memset_out (Or.inr (by omega))]; exact h.out i hi
  · rw [memset_out (Or.inr (by omega))]; exact h.out' i hi

theorem BSim.memcpy {b b' m m' : Buf} (h : BSim c o o' b b') {off len : Nat} (hm : SameBytes len m m') (hl : off + len ≤ c.pageSize) :
    BSim c o o' (b.memcpy off m 0 len) (b'.memcpy off m' 0 len) := by
  refine ⟨fun i hi => ?_, fun i hi => ?_, fun i hi => ?_⟩
  · unfold Buf.memcpy; split
    · exact hm _ (by omega)
    · exact h.inn i hi
  · rw [memcpy_out (Or.inr (by omega))]; exact h.out i hi
  · rw [memcpy_out (Or.inr (by omega))]; exact h.out' i hi

theorem BSim.upd {b b' : Buf} (h : BSim c o o' b b') {k : Nat} (v : UInt8) (hl : k < c.pageSize) :
    BSim c o o' (upd b k v) (upd b' k v) := by
  refine ⟨fun i hi => ?_, fun i hi => ?_, fun i hi => ?_⟩ <;> unfold Dhara.upd
  · split
    · rfl
    · exact h.inn i hi
  · rw [if_neg (by omega)]; exact h.out i hi
  · rw [if_neg (by omega)]; exact h.out' i hi

theorem BSim.w32 {b b' : Buf} (h : BSim c o o' b b') {k : Nat} (v : Nat) (hl : k + 4 ≤ c.pageSize) :
    BSim c o o' (w32 b k v) (w32 b' k v) := by
  refine ⟨fun i hi => ?_, fun i hi => ?_, fun i hi => ?_⟩
  · unfold Dhara.w32
    repeat' split
    all_goals first | rfl | exact h.inn i hi
  · rw [w32_other (Or.inr (by omega))]; exact h.out i hi
  · rw [w32_other (Or.inr (by omega))]; exact h.out' i hi

theorem BSim.clearUser (hc : c.Valid) {b b' : Buf} (h : BSim c o o' b b') : BSim c o o' (hdrClearUser c b) (hdrClearUser c b') := by
  have := hc.pageSize_ge
  exact h.memset _ (by omega)

theorem slice_same {b b' : Buf} (h : SameBytes n b b') {off len : Nat} (hl : off + len ≤ n) : b.slice off len = b'.slice off len := by
  funext i
  unfold Buf.slice
  split
  · exact h _ (by omega)
  · rfl

theorem clip_same {d d' : Buf} (h : SameBytes c.pageSize d d') : c.clip d = c.clip d' := slice_same h (by omega)

theorem isFF_same {d d' : Buf} (h : SameBytes c.pageSize d d') : c.isFF d = c.isFF d' := by
  unfold Cfg.isFF
  rw [Bool.eq_iff_iff, List.all_eq_true, List.all_eq_true]
  constructor <;> intro g i hi
  · rw [← h i (List.mem_range.1 hi)]; exact g i hi
  · rw [h i (List.mem_range.1 hi)]; exact g i hi

/-! ### The chip -/

theorem canProg_same {a b : Chip} (h : SameCells c a b) (p : Nat) : a.canProg c p = b.canProg c p := by
  unfold Chip.canProg
  by_cases hp : p < c.pages
  · have hk : p / c.ppb < c.numBlocks := (Nat.div_lt_iff_lt_mul (ppb_pos c)).2 hp
    rw [h.bad _ hk]
    congr 1
    rw [Bool.eq_iff_iff, List.all_eq_true, List.all_eq_true]
    have key : ∀ i ∈ List.range c.ppb, a.free (p / c.ppb * c.ppb + i) = b.free (p / c.ppb * c.ppb + i) := by
      intro i hi
      refine h.free _ ?_
      have := List.mem_range.1 hi
      have h2 : (p / c.ppb + 1) * c.ppb ≤ c.numBlocks * c.ppb := Nat.mul_le_mul_right _ hk
      rw [Nat.add_mul] at h2
      unfold Cfg.pages
      omega
    constructor <;> intro g i hi
    · rw [← key i hi]; exact g i hi
    · rw [key i hi]; exact g i hi
  · simp only [hp, decide_false, Bool.false_and]

theorem canErase_same {a b : Chip} (h : SameCells c a b) (k : Nat) : a.canErase c k = b.canErase c k := by
  unfold Chip.canErase
  by_cases hp : k < c.numBlocks
  · rw [h.bad _ hp]
  · simp only [hp, decide_false, Bool.false_and]

theorem SameCells.programmed {a b : Chip} (h : SameCells c a b) {p : Nat} {d d' : Buf} (hp : p < c.pages) (hd : SameBytes c.pageSize d d') :
    SameCells c (a.programmed c p d) (b.programmed c p d') := by
  refine ⟨fun q hq => ?_, fun q hq => ?_, fun k hk => h.bad k hk⟩
  · show upd a.page p _ q = upd b.page p _ q
    unfold Dhara.upd; rw [clip_same hd]; split
    · rfl
    · exact h.page q hq
  · show upd a.free p _ q = upd b.free p _ q
    unfold Dhara.upd; rw [isFF_same hd, h.free p hp]; split
    · rfl
    · exact h.free q hq

theorem SameCells.garbledPage {a b : Chip} (h : SameCells c a b) (t p : Nat) (f : Bool) :
    SameCells c (a.garbledPage c t p f) (b.garbledPage c t p f) := by
  refine ⟨fun q hq => ?_, fun q hq => ?_, fun k hk => h.bad k hk⟩
  · show upd a.page p _ q = upd b.page p _ q
    unfold Dhara.upd; split
    · rfl
    · exact h.page q hq
  · show upd a.free p _ q = upd b.free p _ q
    unfold Dhara.upd; split
    · rfl
    · exact h.free q hq

theorem SameCells.erased {a b : Chip} (h : SameCells c a b) (k : Nat) : SameCells c (a.erased c k) (b.erased c k) := by
  refine ⟨fun q hq => ?_, fun q hq => ?_, fun k hk => h.bad k hk⟩
  · show (if _ then _ else _) = (if _ then _ else _)
    split
    · rfl
    · exact h.page q hq
  · show (if _ then _ else _) = (if _ then _ else _)
    split
    · rfl
    · exact h.free q hq

theorem SameCells.garbledBlock {a b : Chip} (h : SameCells c a b) (t k : Nat) : SameCells c (a.garbledBlock c t k) (b.garbledBlock c t k) := by
  refine ⟨fun q hq => ?_, fun q hq => ?_, fun k hk => h.bad k hk⟩
  · show (if _ then _ else _) = (if _ then _ else _)
    split
    · rfl
    · exact h.page q hq
  · show (if _ then _ else _) = (if _ then _ else _)
    split
    · rfl
    · exact h.free q hq

theorem SameCells.tornBlock {a b : Chip} (h : SameCells c a b) (t k : Nat) : SameCells c (a.tornBlock c t k) (b.tornBlock c t k) := by
  refine ⟨fun q hq => ?_, fun q hq => ?_, fun k hk => h.bad k hk⟩
  · show (if _ then _ else _) = (if _ then _ else _)
    split
    · rfl
    · exact h.page q hq
  · show (if _ then _ else _) = (if _ then _ else _)
    split
    · rfl
    · exact h.free q hq

theorem SameCells.marked {a b : Chip} (h : SameCells c a b) (k : Nat) : SameCells c (a.marked k) (b.marked k) := by
  refine ⟨fun q hq => h.page q hq, fun q hq => h.free q hq, fun i hi => ?_⟩
  show upd a.bad k _ i = upd b.bad k _ i
  unfold Dhara.upd; split
  · rfl
  · exact h.bad i hi

theorem nandRead_sim {n n' : Nand} (h : NSim c n n') (p off len : Nat) : nandRead c n p off len = nandRead c n' p off len := by
  cases h with
  | mk ch h =>
    unfold nandRead
    split
    · rename_i hp; simp only [h.page p hp.1]
    · rfl

theorem nandMarkBad_sim {n n' : Nand} (h : NSim c n n') (k : Nat) : NSim c (nandMarkBad c k n) (nandMarkBad c k n') := by
  cases h with
  | mk ch h =>
    unfold nandMarkBad
    simp only
    split
    · exact .mk n ch h
    · exact .mk { n with chip := n.chip.marked k, ub := _ } _ (h.marked k)

theorem nandErase_sim {n n' : Nand} (h : NSim c n n') (k : Nat) :
    (nandErase c k n).1 = (nandErase c k n').1 ∧ NSim c (nandErase c k n).2 (nandErase c k n').2 := by
  cases h with
  | mk ch h =>
    unfold nandErase
    simp only [canErase_same h]
    split
    · exact ⟨rfl, .mk n ch h⟩
    · split
      · exact ⟨rfl, .mk { n with time := _, ub := _, erases := _, chip := n.chip.erased c k } _ (h.erased k)⟩
      · exact ⟨rfl, .mk { n with time := _, ub := _, erases := _, failed := _, chip := n.chip.garbledBlock c n.time k } _ (h.garbledBlock _ k)⟩
      · exact ⟨rfl, .mk { n with time := _, ub := _, erases := _, dead := true } _ h⟩
      · exact ⟨rfl, .mk { n with time := _, ub := _, erases := _, dead := true, chip := n.chip.erased c k } _ (h.erased k)⟩
      · exact ⟨rfl, .mk { n with time := _, ub := _, erases := _, dead := true, chip := n.chip.tornBlock c n.time k } _ (h.tornBlock _ k)⟩

theorem nandProg_sim {n n' : Nand} (h : NSim c n n') {p : Nat} {d d' : Buf} (hp : p < c.pages) (hd : SameBytes c.pageSize d d') :
    (nandProg c p d n).1 = (nandProg c p d' n').1 ∧ NSim c (nandProg c p d n).2 (nandProg c p d' n').2 := by
  cases h with
  | mk ch h =>
    unfold nandProg
    simp only [canProg_same h]
    split
    · exact ⟨rfl, .mk n ch h⟩
    · split
      · exact ⟨rfl, .mk { n with time := _, ub := _, chip := n.chip.programmed c p d } _ (h.programmed hp hd)⟩
      · exact ⟨rfl, .mk { n with time := _, ub := _, failed := _, chip := n.chip.garbledPage c n.time p _ } _ (h.garbledPage _ p _)⟩
      · exact ⟨rfl, .mk { n with time := _, ub := _, dead := true } _ h⟩
      · exact ⟨rfl, .mk { n with time := _, ub := _, dead := true, chip := n.chip.programmed c p d } _ (h.programmed hp hd)⟩
      · exact ⟨rfl, .mk { n with time := _, ub := _, dead := true, chip := n.chip.garbledPage c n.time p false } _ (h.garbledPage _ p _)⟩

theorem nandCopy_sim {n n' : Nand} (h : NSim c n n') {p : Nat} (src : Nat) (hp : p < c.pages) :
    (nandCopy c src p n).1 = (nandCopy c src p n').1 ∧ NSim c (nandCopy c src p n).2 (nandCopy c src p n').2 := by
  unfold nandCopy
  rw [← nandRead_sim h]
  split
  · exact ⟨rfl, h⟩
  · exact nandProg_sim h hp fun _ _ => rfl

/-! ### Journal -/

theorem nextUpage_ok (hc : c.Valid) {p : Nat} (hp : p < c.pages) : nextUpage c p < c.pages := by
  have := hc.pages_pos
  unfold nextUpage
  simp only
  split <;> split <;> omega

theorem nextUpage_user (hc : c.Valid) {p : Nat} (hp : p < c.pages) (hu : c.isU p) : c.isU (nextUpage c p) := by
  have h := nextUpage_ph hc hu
  rw [ph_of_lt hp] at h
  rw [h]
  have := nextV_isU hc hu
  unfold Cfg.isU at this ⊢
  rw [ph_mod_ppc hc]; exact this

theorem nextBlock_ok (hc : c.Valid) (k : Nat) : nextBlock c k < c.numBlocks := by
  have := hc.blocks_lo
  unfold nextBlock; split <;> omega

theorem blk_ok {p : Nat} (hp : p < c.pages) : c.blk p < c.numBlocks := by
  rw [blk_eq]; exact (Nat.div_lt_iff_lt_mul (ppb_pos c)).2 hp

theorem start_ok {k : Nat} (hk : k < c.numBlocks) : k <<< c.log2Ppb < c.pages := by
  rw [shl_ppb]; unfold Cfg.pages
  exact Nat.mul_lt_mul_of_pos_right hk (ppb_pos c)

theorem start_user (hc : c.Valid) (k : Nat) : c.isU (k <<< c.log2Ppb) := by
  rw [shl_ppb]; exact isU_of_aligned hc (Nat.mul_mod_left _ _)

theorem succ_ok (hc : c.Valid) {p : Nat} (hp : p < c.pages) (hu : c.isU p) : p + 1 < c.pages := by
  obtain ⟨k, hk⟩ := hc.ppc_dvd_pages
  apply Classical.byContradiction; intro hn
  have h1 : p + 1 = c.pages := by omega
  have hl := mod_ppc_lt c p
  unfold Cfg.isU at hu
  have h2 := (div_add_lt (v := p) (k := 1) (m := c.ppc) (by omega)).2
  rw [h1, hk, Nat.mul_mod_right] at h2; omega

/-- Change the buffer. -/
theorem Sim.setB {s s' : S} (h : Sim c o o' s s') {b b' : Buf} (hb : BSim c o o' b b') :
    Sim c o o' { s with j := { s.j with pageBuf := b } } { s' with j := { s'.j with pageBuf := b' } } := by
  obtain ⟨⟨sj, sn, sk⟩, hs⟩ : ∃ x, x = s := ⟨s, rfl⟩
  subst hs
  obtain ⟨hj, hn, hk⟩ := h
  refine ⟨?_, hn, hk⟩
  simp only at hj ⊢
  generalize hj' : s'.j = j' at hj
  cases hj with
  | mk b0 hp0 hb0 => exact .mk { sj with pageBuf := b } b' ⟨hp0.head, hp0.tail, hp0.user⟩ hb

theorem Sim.setN {s s' : S} (h : Sim c o o' s s') {n n' : Nand} (hn : NSim c n n') : Sim c o o' { s with n := n } { s' with n := n' } :=
  ⟨h.j, hn, h.k⟩

theorem Sim.setK {s s' : S} (h : Sim c o o' s s') (k : Nat) : Sim c o o' { s with count := k } { s' with count := k } :=
  ⟨h.j, h.n, rfl⟩

/-- Every field but the buffer is the same. -/
theorem Sim.elim {s s' : S} (h : Sim c o o' s s') : ∃ b ch, s' = { s with j := { s.j with pageBuf := b }, n := { s.n with chip := ch } } ∧
    JP c s.j ∧ BSim c o o' s.j.pageBuf b ∧ SameCells c s.n.chip ch := by
  obtain ⟨sj, sn, sk⟩ := s
  obtain ⟨tj, tn, tk⟩ := s'
  obtain ⟨hj, hn, hk⟩ := h
  simp only at hj hn hk
  cases hj with
  | mk b hp hb =>
    cases hn with
    | mk ch hh =>
      subst hk
      exact ⟨b, ch, rfl, hp, hb, hh⟩

theorem Sim.intro {s : S} {b : Buf} {ch : Chip} (hp : JP c s.j) (hb : BSim c o o' s.j.pageBuf b) (hh : SameCells c s.n.chip ch) :
    Sim c o o' s { s with j := { s.j with pageBuf := b }, n := { s.n with chip := ch } } :=
  ⟨.mk _ b hp hb, .mk _ ch hh, rfl⟩

theorem RS.err {s s' : S} {α : Type} (e : Err) (h : Sim c o o' s s') : RS (α := Except Err α) c o o' (.error e, s) (.error e, s') := ⟨rfl, h⟩

theorem RS.ret {s s' : S} {α : Type} (x : α) (h : Sim c o o' s s') : RS c o o' (x, s) (x, s') := ⟨rfl, h⟩

/-- Two related results, as related pairs. -/
theorem RS.cases {α : Type} {r r' : α × S} (h : RS c o o' r r') : ∃ x s s', r = (x, s) ∧ r' = (x, s') ∧ Sim c o o' s s' :=
  ⟨r.1, r.2, r'.2, rfl, Prod.ext h.eq.symm rfl, h.sim⟩

theorem isBad_sim {s s' : S} (h : Sim c o o' s s') {k : Nat} (hk : k < c.numBlocks) : nandIsBad s.n k = nandIsBad s'.n k := by
  obtain ⟨b, ch, rfl, _, _, hh⟩ := h.elim
  exact hh.bad k hk

theorem readMeta_sim {s s' : S} (h : Sim c o o' s s') (p : Nat) : readMeta c s p = readMeta c s' p := by
  have hn := h.n
  obtain ⟨b, ch, rfl, hp, hb, hh⟩ := h.elim
  unfold readMeta
  simp only at hn ⊢
  rw [← nandRead_sim hn, ← nandRead_sim hn]
  split
  · split
    · rename_i hf
      rw [slice_same hb.inn hf]
    · rfl
  · rfl

theorem progS_sim {s s' : S} (h : Sim c o o' s s') {p : Nat} {d d' : Buf} (hp : p < c.pages) (hd : SameBytes c.pageSize d d') :
    RS c o o' (progS c p d s) (progS c p d' s') := by
  obtain ⟨h1, h2⟩ := nandProg_sim h.n hp hd
  exact ⟨h1, h.setN h2⟩

/-- `roll_stats` on a journal. -/
theorem Sim.roll {s s' : S} (h : Sim c o o' s s') : Sim c o o' { s with j := rollIfZero s.j } { s' with j := rollIfZero s'.j } := by
  obtain ⟨b, ch, rfl, hp, hb, hh⟩ := h.elim
  unfold rollIfZero
  simp only
  split
  · exact Sim.intro (s := { s with j := rollStats s.j }) ⟨hp.head, hp.tail, hp.user⟩ hb hh
  · exact h

theorem skipBlock_sim (hc : c.Valid) {s s' : S} (h : Sim c o o' s s') : RS c o o' (skipBlock c s) (skipBlock c s') := by
  obtain ⟨b, ch, rfl, hp, hb, hh⟩ := h.elim
  unfold skipBlock
  simp only
  split
  · exact .err _ h
  · refine .ret _ (Sim.roll (s := { s with j := { s.j with head := nextBlock c (c.blk s.j.head) <<< c.log2Ppb } }) (Sim.intro ?_ hb hh))
    exact ⟨start_ok (nextBlock_ok hc _), hp.tail, start_user hc _⟩

theorem prepareHeadLoop_sim (hc : c.Valid) : ∀ i (s s' : S), Sim c o o' s s' → RS c o o' (prepareHeadLoop c i s) (prepareHeadLoop c i s') := by
  intro i
  induction i with
  | zero => intro s s' h; exact .err _ h
  | succ i ih =>
    intro s s' h
    have hn := h.n
    obtain ⟨b, ch, rfl, hp, hb, hh⟩ := h.elim
    have hbad := isBad_sim h (blk_ok hp.head)
    unfold prepareHeadLoop
    simp only [← hbad]
    split
    · obtain ⟨h1, h2⟩ := nandErase_sim hn (c.blk s.j.head)
      exact ⟨h1, h.setN h2⟩
    · generalize hr : skipBlock c _ = r
      generalize hr' : skipBlock c _ = r'
      obtain ⟨x, t, t', rfl, rfl, ht⟩ := RS.cases (show RS c o o' r r' by
        rw [← hr, ← hr']
        exact skipBlock_sim hc (Sim.intro (s := { s with j := { s.j with bbCurrent := s.j.bbCurrent + 1 } }) ⟨hp.head, hp.tail, hp.user⟩ hb hh))
      cases x with
      | error e => exact .err _ ht
      | ok u => exact ih _ _ ht

theorem prepareHead_sim (hc : c.Valid) {s s' : S} (h : Sim c o o' s s') : RS c o o' (prepareHead c s) (prepareHead c s') := by
  obtain ⟨b, ch, rfl, hp, hb, hh⟩ := h.elim
  have h1 := Sim.intro (s := { s with j := { s.j with dirty := true } }) ⟨hp.head, hp.tail, hp.user⟩ hb hh
  unfold prepareHead
  simp only
  split
  · exact .err _ h
  · split
    · exact .ret _ h1
    · exact prepareHeadLoop_sim hc _ _ _ h1

theorem restartRecovery_sim {s s' : S} (h : Sim c o o' s s') (k : Nat) : Sim c o o' (restartRecovery c k s) (restartRecovery c k s') := by
  have hn := nandMarkBad_sim h.n (c.blk k)
  obtain ⟨b, ch, rfl, hp, hb, hh⟩ := h.elim
  unfold restartRecovery
  simp only at hn ⊢
  split
  · exact ⟨.mk { s.j with enumDone := false, recoverNext := c.blockStart s.j.recoverRoot, root := s.j.recoverRoot } b ⟨hp.head, hp.tail, hp.user⟩ hb, hn, rfl⟩
  · exact Sim.intro (s := { s with j := { s.j with badMeta := true, enumDone := false, recoverNext := c.blockStart s.j.recoverRoot, root := s.j.recoverRoot } }) ⟨hp.head, hp.tail, hp.user⟩ hb hh

/-- `head = next_upage(head)`. -/
theorem JP.next (hc : c.Valid) {j : Journal} (h : JP c j) : JP c { j with head := nextUpage c j.head } :=
  ⟨nextUpage_ok hc h.head, h.tail, nextUpage_user hc h.head h.user⟩

theorem Sim.roll' {j : Journal} {n n' : Nand} {k : Nat} {b : Buf} (hp : JP c j) (hb : BSim c o o' j.pageBuf b) (hn : NSim c n n') :
    Sim c o o' ⟨rollIfZero j, n, k⟩ ⟨rollIfZero { j with pageBuf := b }, n', k⟩ :=
  Sim.roll (s := ⟨j, n, k⟩) (s' := ⟨{ j with pageBuf := b }, n', k⟩) ⟨.mk j b hp hb, hn, rfl⟩

theorem Sim.bsim {s s' : S} (h : Sim c o o' s s') : BSim c o o' s.j.pageBuf s'.j.pageBuf := by
  obtain ⟨b, ch, rfl, hp, hb, hh⟩ := h.elim
  exact hb

theorem Sim.jp {s s' : S} (h : Sim c o o' s s') : JP c s.j := by
  obtain ⟨b, ch, rfl, hp, hb, hh⟩ := h.elim
  exact hp

/-- `prepare_head`, then write. -/
def prepThen (c : Cfg) (wr : S → Except Err Unit × S) (s : S) : Except Err Unit × S :=
  match prepareHead c s with
  | (.error e, s) => (.error e, s)
  | (.ok (), s) => wr s

theorem prepThen_sim (hc : c.Valid) {wr wr' : S → Except Err Unit × S} (hw : ∀ s s', Sim c o o' s s' → RS c o o' (wr s) (wr' s')) {s s' : S} (h : Sim c o o' s s') :
    RS c o o' (prepThen c wr s) (prepThen c wr' s') := by
  unfold prepThen
  obtain ⟨x, t, t', e1, e2, ht⟩ := (prepareHead_sim hc h).cases
  rw [e1, e2]
  cases x with
  | error e => exact .err _ ht
  | ok u => exact hw _ _ ht

/-- What `dump_meta` does after trying. -/
def dumpK (c : Cfg) (i : Nat) (r : Except Err Unit × S) : Except Err Unit × S :=
  match r with
  | (.ok (), s) =>
    let j := { s.j with recoverMeta := s.j.head, head := nextUpage c s.j.head }
    let j := rollIfZero j
    (.ok (), { s with j := { j with pageBuf := hdrClearUser c j.pageBuf } })
  | (.error e, s) =>
    if e ≠ .badBlock then (.error e, s)
    else
      let s := { s with j := { s.j with bbCurrent := s.j.bbCurrent + 1 } }
      let s := { s with n := nandMarkBad c (c.blk s.j.head) s.n }
      match skipBlock c s with
      | (.error e, s) => (.error e, s)
      | (.ok (), s) => dumpMetaLoop c i s

theorem dumpMetaLoop_succ (i : Nat) (s : S) : dumpMetaLoop c (i + 1) s = dumpK c i (prepThen c (fun s => progS c s.j.head s.j.pageBuf s) s) := rfl

theorem progHead_sim {s s' : S} (h : Sim c o o' s s') : RS c o o' (progS c s.j.head s.j.pageBuf s) (progS c s'.j.head s'.j.pageBuf s') := by
  obtain ⟨b, ch, rfl, hp, hb, hh⟩ := h.elim
  exact progS_sim h hp.head hb.inn

theorem dumpMetaLoop_sim (hc : c.Valid) : ∀ i (s s' : S), Sim c o o' s s' → RS c o o' (dumpMetaLoop c i s) (dumpMetaLoop c i s') := by
  intro i
  induction i with
  | zero => intro s s' h; exact .err _ h
  | succ i ih =>
    intro s s' h
    rw [dumpMetaLoop_succ, dumpMetaLoop_succ]
    obtain ⟨x, t, t', e1, e2, ht⟩ := (prepThen_sim hc (fun _ _ => progHead_sim) h).cases
    rw [e1, e2]
    have hn := ht.n
    obtain ⟨b, ch, rfl, hp, hb, hh⟩ := ht.elim
    unfold dumpK
    cases x with
    | ok u =>
      refine .ret _ ?_
      have h1 := Sim.roll' (j := { t.j with recoverMeta := t.j.head, head := nextUpage c t.j.head }) (k := t.count) ⟨nextUpage_ok hc hp.head, hp.tail, nextUpage_user hc hp.head hp.user⟩ hb hn
      exact h1.setB (h1.bsim.clearUser hc)
    | error e =>
      simp only
      split
      · exact .err _ ht
      · generalize hr : skipBlock c _ = r
        generalize hr' : skipBlock c _ = r'
        obtain ⟨x, u, u', rfl, rfl, hu⟩ := RS.cases (show RS c o o' r r' by
          rw [← hr, ← hr']
          exact skipBlock_sim hc ⟨.mk { t.j with bbCurrent := t.j.bbCurrent + 1 } b ⟨hp.head, hp.tail, hp.user⟩ hb, nandMarkBad_sim hn (c.blk t.j.head), rfl⟩)
        cases x with
        | error e => exact .err _ hu
        | ok u => exact ih _ _ hu

theorem recoverFrom_sim (hc : c.Valid) (e : Err) {s s' : S} (h : Sim c o o' s s') : RS c o o' (recoverFrom c e s) (recoverFrom c e s') := by
  have e0 : s'.j.head = s.j.head := by obtain ⟨b, ch, rfl, hp, hb, hh⟩ := h.elim; rfl
  unfold recoverFrom
  simp only
  split
  · exact .err _ h
  · generalize hr : skipBlock c _ = r
    generalize hr' : skipBlock c _ = r'
    obtain ⟨x, u, u', rfl, rfl, hu⟩ := RS.cases (show RS c o o' r r' by
      rw [← hr, ← hr']
      obtain ⟨b, ch, rfl, hp, hb, hh⟩ := h.elim
      exact skipBlock_sim hc (Sim.intro (s := { s with j := { s.j with bbCurrent := s.j.bbCurrent + 1 } }) ⟨hp.head, hp.tail, hp.user⟩ hb hh))
    clear hr hr'
    cases x with
    | error e => exact .err _ hu
    | ok x =>
      rw [e0]
      have hn := nandMarkBad_sim hu.n (c.blk s.j.head)
      obtain ⟨b, ch, rfl, hp, hb, hh⟩ := hu.elim
      simp only
      split
      · exact .err _ (restartRecovery_sim hu _)
      · split
        · exact .ret _ (hu.setN hn)
        · have h3 := Sim.intro (s := { u with j := { u.j with recoverRoot := u.j.root, recoverNext := c.blockStart u.j.root } }) ⟨hp.head, hp.tail, hp.user⟩ hb hh
          have last : ∀ v v' : S, Sim c o o' v v' → RS (α := Except Err Unit) c o o' (.error .recover, { v with j := { v.j with recovery := true } })
              (.error .recover, { v' with j := { v'.j with recovery := true } }) := by
            intro v v' hv
            obtain ⟨b, ch, rfl, hp, hb, hh⟩ := hv.elim
            exact .err _ (Sim.intro (s := { v with j := { v.j with recovery := true } }) ⟨hp.head, hp.tail, hp.user⟩ hb hh)
          by_cases ha : isAligned s.j.head c.log2Ppc = true
          · simp only [ha, not_true_eq_false, if_false]
            exact last _ _ h3
          · simp only [ha, not_false_eq_true, if_true]
            generalize hr : dumpMeta c _ = r
            generalize hr' : dumpMeta c _ = r'
            obtain ⟨x, u, u', rfl, rfl, hu⟩ := RS.cases (show RS c o o' r r' by
              rw [← hr, ← hr']
              exact dumpMetaLoop_sim hc _ _ _ h3)
            cases x with
            | error e => exact .err _ hu
            | ok x => exact last _ _ hu

theorem finishRecovery_sim {s s' : S} (h : Sim c o o' s s') : Sim c o o' (finishRecovery c s) (finishRecovery c s') := by
  have hn := nandMarkBad_sim h.n (c.blk s.j.recoverRoot)
  have hn2 := nandMarkBad_sim hn (c.blk s.j.recoverMeta)
  obtain ⟨b, ch, rfl, hp, hb, hh⟩ := h.elim
  unfold finishRecovery
  simp only
  split
  · exact ⟨.mk (clearRecovery s.j) b ⟨hp.head, hp.tail, hp.user⟩ hb, hn2, rfl⟩
  · exact ⟨.mk (clearRecovery s.j) b ⟨hp.head, hp.tail, hp.user⟩ hb, hn, rfl⟩

theorem commitPush_sim (hc : c.Valid) (k : Nat) {s s' : S} (h : Sim c o o' s s') : Sim c o o' (commitPush c k s) (commitPush c k s') := by
  have hn := h.n
  obtain ⟨b, ch, rfl, hp, hb, hh⟩ := h.elim
  have h1 := Sim.roll' (j := { s.j with dirty := false, root := k, head := nextUpage c s.j.head }) (k := s.count) ⟨nextUpage_ok hc hp.head, hp.tail, nextUpage_user hc hp.head hp.user⟩ hb hn
  have last : ∀ v v' : S, Sim c o o' v v' → Sim c o o' (if ¬ v.j.recovery then { v with j := { v.j with tailSync := v.j.tail } } else v)
     (if ¬ v'.j.recovery then { v' with j := { v'.j with tailSync := v'.j.tail } } else v') := by
    intro v v' hv
    obtain ⟨b, ch, rfl, hp, hb, hh⟩ := hv.elim
    simp only
    split
    · exact Sim.intro (s := { v with j := { v.j with tailSync := v.j.tail } }) ⟨hp.head, hp.tail, hp.user⟩ hb hh
    · exact hv
  have mid : ∀ v v' : S, Sim c o o' v v' → Sim c o o' (if v.j.enumDone then finishRecovery c v else v) (if v'.j.enumDone then finishRecovery c v' else v') := by
    intro v v' hv
    have e : v'.j.enumDone = v.j.enumDone := by obtain ⟨b, ch, rfl, hp, hb, hh⟩ := hv.elim; rfl
    rw [e]
    split
    · exact finishRecovery_sim hv
    · exact hv
  exact last _ _ (mid _ _ h1)

theorem slot_in (hc : c.Valid) {p : Nat} (hu : c.isU p) : hdrUserOffset (p &&& (c.ppc - 1)) + metaSize ≤ c.pageSize := by
  have h1 := slot_fit hc hu
  rw [slot_eq, hdrUserOffset_lt (by have := mod_ppc_lt c p; have := hc.ppc_le; omega)]
  unfold Cfg.slot at h1
  exact h1

inductive SameMt : Option Buf → Option Buf → Prop
  | none : SameMt none none
  | some {m m' : Buf} (h : SameBytes metaSize m m') : SameMt (some m) (some m')

theorem bufferMeta_sim (hc : c.Valid) {mt mt' : Option Buf} (hm : SameMt mt mt') {s s' : S} (h : Sim c o o' s s') :
    Sim c o o' { s with j := bufferMeta c mt s.j } { s' with j := bufferMeta c mt' s'.j } := by
  obtain ⟨b, ch, rfl, hp, hb, hh⟩ := h.elim
  have hsl := slot_in hc hp.user
  unfold bufferMeta
  cases hm with
  | none => exact h.setB (hb.memset _ hsl)
  | some hm => exact h.setB (hb.memcpy hm hsl)

theorem fillHeader_sim (hc : c.Valid) {s s' : S} (h : Sim c o o' s s') : Sim c o o' { s with j := fillHeader s.j } { s' with j := fillHeader s'.j } := by
  have hp := hc.pageSize_ge
  obtain ⟨b, ch, rfl, hp, hb, hh⟩ := h.elim
  unfold fillHeader
  refine h.setB ?_
  unfold hdrSetBbLast hdrSetBbCurrent hdrSetTail hdrSetEpoch hdrPutMagic
  exact ((((((hb.upd _ (by omega)).upd _ (by omega)).upd _ (by omega)).upd _ (by omega)).w32 _ (by omega)).w32 _ (by omega)).w32 _ (by omega)

theorem pushMeta_sim (hc : c.Valid) {mt mt' : Option Buf} (hm : SameMt mt mt') {s s' : S} (h : Sim c o o' s s') : RS c o o' (pushMeta c mt s) (pushMeta c mt' s') := by
  have e0 : s'.j.head = s.j.head := by obtain ⟨b, ch, rfl, hp, hb, hh⟩ := h.elim; rfl
  have h1 := bufferMeta_sim hc hm h
  have eh : ∀ (m : Option Buf) (j : Journal), (bufferMeta c m j).head = j.head := by intro m j; unfold bufferMeta; cases m <;> rfl
  have ef : ∀ j : Journal, (fillHeader j).head = j.head := fun _ => rfl
  unfold pushMeta
  simp only [ef, eh, e0]
  split
  · rename_i ha
    obtain ⟨b, ch, e, hp, hb, hh⟩ := h1.elim
    refine .ret _ ?_
    have hlt := succ_ok hc h.jp.head h.jp.user
    have hu : c.isU (s.j.head + 1) := by
      rcases nextV_cases hc h.jp.user with ⟨a1, a2, a3⟩ | ⟨a1, a2, a3⟩
      · have := hc.ppc_ge; unfold Cfg.isU; omega
      · exact absurd (isAligned_iff.2 a3) ha
    have h5 := Sim.intro (c := c) (o := o) (o' := o') (s := { s with j := { bufferMeta c mt s.j with root := s.j.head, head := s.j.head + 1 } }) (b := b) (ch := ch) ⟨hlt, hp.tail, hu⟩ hb hh
    rw [S.mk.injEq] at e
    rw [e.1, e.2.1, e.2.2]
    exact h5
  · have h2 := fillHeader_sim hc h1
    generalize hr : progS c _ _ _ = r
    generalize hr' : progS c _ _ _ = r'
    obtain ⟨x, u, u', rfl, rfl, hu⟩ := RS.cases (show RS c o o' r r' by
      rw [← hr, ← hr']
      refine progS_sim h2 ?_ h2.bsim.inn
      exact succ_ok hc h.jp.head h.jp.user)
    cases x with
    | error e => exact recoverFrom_sim hc e hu
    | ok x => exact .ret _ (commitPush_sim hc _ hu)

/-- What a push does after trying. -/
def pushK (c : Cfg) (wr : S → Except Err Unit × S) (mt : Option Buf) (i : Nat) (r : Except Err Unit × S) : Except Err Unit × S :=
  match r with
  | (.ok (), s) => pushMeta c mt s
  | (.error e, s) =>
    match recoverFrom c e s with
    | (.error e, s) => (.error e, s)
    | (.ok (), s) => pushLoop c wr mt i s

theorem pushLoop_succ (wr : S → Except Err Unit × S) (mt : Option Buf) (i : Nat) (s : S) : pushLoop c wr mt (i + 1) s = pushK c wr mt i (prepThen c wr s) := rfl

theorem pushLoop_sim (hc : c.Valid) {wr wr' : S → Except Err Unit × S} (hw : ∀ s s', Sim c o o' s s' → RS c o o' (wr s) (wr' s'))
    {mt mt' : Option Buf} (hm : SameMt mt mt') : ∀ i (s s' : S), Sim c o o' s s' → RS c o o' (pushLoop c wr mt i s) (pushLoop c wr' mt' i s') := by
  intro i
  induction i with
  | zero => intro s s' h; exact .err _ h
  | succ i ih =>
    intro s s' h
    rw [pushLoop_succ, pushLoop_succ]
    obtain ⟨x, t, t', e1, e2, ht⟩ := (prepThen_sim hc hw h).cases
    rw [e1, e2]
    unfold pushK
    cases x with
    | ok u => exact pushMeta_sim hc hm ht
    | error e =>
      simp only
      obtain ⟨x, t, t', e1, e2, ht⟩ := (recoverFrom_sim hc e ht).cases
      rw [e1, e2]
      cases x with
      | error e => exact .err _ ht
      | ok u => exact ih _ _ ht

inductive SameData (c : Cfg) : Option Buf → Option Buf → Prop
  | none : SameData c none none
  | some {m m' : Buf} (h : SameBytes c.pageSize m m') : SameData c (some m) (some m')

theorem enqueue_sim (hc : c.Valid) {d d' mt mt' : Option Buf} (hd : SameData c d d') (hm : SameMt mt mt') {s s' : S} (h : Sim c o o' s s') :
    RS c o o' (enqueue c d mt s) (enqueue c d' mt' s') := by
  refine pushLoop_sim hc (fun t t' ht => ?_) hm _ _ _ h
  obtain ⟨b, ch, rfl, hp, hb, hh⟩ := ht.elim
  cases hd with
  | none => exact .ret _ ht
  | some hd => exact progS_sim ht hp.head hd

theorem journalCopy_sim (hc : c.Valid) (p : Nat) {mt mt' : Buf} (hm : SameBytes metaSize mt mt') {s s' : S} (h : Sim c o o' s s') :
    RS c o o' (journalCopy c p mt s) (journalCopy c p mt' s') := by
  refine pushLoop_sim hc (fun t t' ht => ?_) (.some hm) _ _ _ h
  have hn := ht.n
  obtain ⟨b, ch, rfl, hp, hb, hh⟩ := ht.elim
  obtain ⟨h1, h2⟩ := nandCopy_sim hn p hp.head
  exact ⟨h1, ht.setN h2⟩

theorem peekLoop_sim (hc : c.Valid) : ∀ i k (s s' : S), k < c.numBlocks → Sim c o o' s s' → RS c o o' (peekLoop c i k s) (peekLoop c i k s') := by
  intro i
  induction i with
  | zero => intro k s s' hk h; obtain ⟨b, ch, rfl, hp, hb, hh⟩ := h.elim; exact .ret _ h
  | succ i ih =>
    intro k s s' hk h
    have hbad := isBad_sim h hk
    obtain ⟨b, ch, rfl, hp, hb, hh⟩ := h.elim
    unfold peekLoop
    simp only [← hbad]
    split
    · split
      · exact .ret _ (Sim.intro (s := { s with j := { s.j with tail := k <<< c.log2Ppb, root := NONE } }) ⟨hp.head, start_ok hk, hp.user⟩ hb hh)
      · exact .ret _ (Sim.intro (s := { s with j := { s.j with tail := k <<< c.log2Ppb } }) ⟨hp.head, start_ok hk, hp.user⟩ hb hh)
    · exact ih _ _ _ (nextBlock_ok hc _) h

theorem peek_sim (hc : c.Valid) {s s' : S} (h : Sim c o o' s s') : RS c o o' (peek c s) (peek c s') := by
  obtain ⟨b, ch, rfl, hp, hb, hh⟩ := h.elim
  unfold peek
  simp only
  split
  · exact .ret _ h
  · split
    · exact peekLoop_sim hc _ _ _ _ (blk_ok hp.tail) h
    · exact .ret _ h

theorem dequeue_sim (hc : c.Valid) {s s' : S} (h : Sim c o o' s s') : Sim c o o' (dequeue c s) (dequeue c s') := by
  obtain ⟨b, ch, rfl, hp, hb, hh⟩ := h.elim
  unfold dequeue
  simp only
  have ht := nextUpage_ok hc hp.tail
  split
  · exact h
  · split
    · split
      · exact Sim.intro (s := { s with j := { s.j with tail := nextUpage c s.j.tail, tailSync := nextUpage c s.j.tail, root := NONE } }) ⟨hp.head, ht, hp.user⟩ hb hh
      · exact Sim.intro (s := { s with j := { s.j with tail := nextUpage c s.j.tail, tailSync := nextUpage c s.j.tail } }) ⟨hp.head, ht, hp.user⟩ hb hh
    · split
      · exact Sim.intro (s := { s with j := { s.j with tail := nextUpage c s.j.tail, root := NONE } }) ⟨hp.head, ht, hp.user⟩ hb hh
      · exact Sim.intro (s := { s with j := { s.j with tail := nextUpage c s.j.tail } }) ⟨hp.head, ht, hp.user⟩ hb hh

theorem journalClear_sim (hc : c.Valid) {s s' : S} (h : Sim c o o' s s') : Sim c o o' (journalClear c s) (journalClear c s') := by
  obtain ⟨b, ch, rfl, hp, hb, hh⟩ := h.elim
  unfold journalClear
  have h1 := Sim.intro (s := { s with j := { s.j with tail := s.j.head, root := NONE, dirty := true } }) ⟨hp.head, hp.head, hp.user⟩ hb hh
  exact h1.setB (hb.clearUser hc)

theorem nextRecoverable_sim {s s' : S} (h : Sim c o o' s s') : RS c o o' (nextRecoverable c s) (nextRecoverable c s') := by
  obtain ⟨b, ch, rfl, hp, hb, hh⟩ := h.elim
  unfold nextRecoverable
  simp only
  split
  · exact .ret _ h
  · split
    · exact .ret _ h
    · split
      · exact .ret _ (Sim.intro (s := { s with j := { s.j with enumDone := true } }) ⟨hp.head, hp.tail, hp.user⟩ hb hh)
      · exact .ret _ (Sim.intro (s := { s with j := { s.j with recoverNext := nextUpage c s.j.recoverNext } }) ⟨hp.head, hp.tail, hp.user⟩ hb hh)

/-! ### Map -/

theorem ckSetCount_sim (hc : c.Valid) (k m : Nat) {s s' : S} (h : Sim c o o' s s') :
    Sim c o o' { s with j := ckSetCount s.j k, count := m } { s' with j := ckSetCount s'.j k, count := m } := by
  have := hc.pageSize_ge
  exact (h.setB (h.bsim.w32 _ (by omega))).setK m

theorem journalSize_sim {s s' : S} (h : Sim c o o' s s') : journalSize c s.j = journalSize c s'.j := by
  obtain ⟨b, ch, rfl, hp, hb, hh⟩ := h.elim; rfl

theorem mapCapacity_sim {s s' : S} (h : Sim c o o' s s') : mapCapacity c s = mapCapacity c s' := by
  obtain ⟨b, ch, rfl, hp, hb, hh⟩ := h.elim; rfl

theorem root_sim {s s' : S} (h : Sim c o o' s s') : s.j.root = s'.j.root := by
  obtain ⟨b, ch, rfl, hp, hb, hh⟩ := h.elim; rfl

theorem traceLoop_sim {s s' : S} (h : Sim c o o' s s') (t : Nat) : ∀ k d p mt nm, traceLoop c s t k d p mt nm = traceLoop c s' t k d p mt nm := by
  intro k
  induction k with
  | zero => intros; rfl
  | succ k ih =>
    intro d p mt nm
    unfold traceLoop
    simp only [ih, readMeta_sim h]

theorem tracePath_sim {s s' : S} (h : Sim c o o' s s') (t : Nat) (nm : Buf) : tracePath c s t nm = tracePath c s' t nm := by
  unfold tracePath
  simp only [root_sim h, readMeta_sim h, traceLoop_sim h]

theorem mapFind_sim {s s' : S} (h : Sim c o o' s s') (t : Nat) : mapFind c s t = mapFind c s' t := by
  unfold mapFind; rw [tracePath_sim h]

theorem mapRead_sim {s s' : S} (h : Sim c o o' s s') (t : Nat) : mapRead c s t = mapRead c s' t := by
  unfold mapRead
  rw [mapFind_sim h]
  simp only [nandRead_sim h.n]

theorem rawGc_sim (hc : c.Valid) (p : Nat) {s s' : S} (h : Sim c o o' s s') : RS c o o' (rawGc c p s) (rawGc c p s') := by
  unfold rawGc
  rw [← readMeta_sim h]
  split
  · exact .err _ h
  · simp only [← tracePath_sim h]
    split
    · exact .ret _ h
    · split
      · exact .ret _ h
      · exact .err _ h
      · split
        · exact .ret _ h
        · rw [h.k]
          exact journalCopy_sim hc _ (fun _ _ => rfl) (ckSetCount_sim hc _ _ h)

theorem padQueue_sim (hc : c.Valid) {s s' : S} (h : Sim c o o' s s') : RS c o o' (padQueue c s) (padQueue c s') := by
  have h1 := ckSetCount_sim hc s.count s.count h
  unfold padQueue
  simp only [← root_sim h, ← h.k, ← readMeta_sim h1]
  split
  · exact enqueue_sim hc .none .none h1
  · split
    · exact .err _ h1
    · exact journalCopy_sim hc _ (fun _ _ => rfl) h1

theorem tryRecoverLoop_sim (hc : c.Valid) : ∀ f k (s s' : S), Sim c o o' s s' → RS c o o' (tryRecoverLoop c f k s) (tryRecoverLoop c f k s') := by
  intro f
  induction f with
  | zero => intro k s s' h; exact .err _ h
  | succ f ih =>
    intro k s s' h
    have e0 : s'.j.recovery = s.j.recovery := by obtain ⟨b, ch, rfl, hp, hb, hh⟩ := h.elim; rfl
    obtain ⟨x, t, t', e1, e2, ht⟩ := (nextRecoverable_sim h).cases
    unfold tryRecoverLoop
    simp only [e0, e1, e2]
    split
    · exact .ret _ h
    · have hq : RS c o o' (if x = NONE then padQueue c t else rawGc c x t) (if x = NONE then padQueue c t' else rawGc c x t') := by
        split
        · exact padQueue_sim hc ht
        · exact rawGc_sim hc x ht
      obtain ⟨y, u, u', e3, e4, hu⟩ := hq.cases
      rw [e3, e4]
      cases y with
      | ok _ => exact ih _ _ _ hu
      | error e =>
        simp only
        split
        · exact .err _ hu
        · split
          · exact .err _ hu
          · exact ih _ _ _ hu

theorem tryRecover_sim (hc : c.Valid) (e : Err) {s s' : S} (h : Sim c o o' s s') : RS c o o' (tryRecover c e s) (tryRecover c e s') := by
  unfold tryRecover
  split
  · exact .err _ h
  · exact tryRecoverLoop_sim hc _ _ _ _ h

theorem mapGcLoop_sim (hc : c.Valid) : ∀ f (s s' : S), Sim c o o' s s' → RS c o o' (mapGcLoop c f s) (mapGcLoop c f s') := by
  intro f
  induction f with
  | zero => intro s s' h; exact .err _ h
  | succ f ih =>
    intro s s' h
    obtain ⟨x, t, t', e1, e2, ht⟩ := (peek_sim hc h).cases
    unfold mapGcLoop
    simp only [e1, e2]
    split
    · exact .ret _ ht
    · obtain ⟨y, u, u', e3, e4, hu⟩ := (rawGc_sim hc x ht).cases
      rw [e3, e4]
      cases y with
      | ok _ => exact .ret _ (dequeue_sim hc hu)
      | error e =>
        simp only
        obtain ⟨y, u, u', e3, e4, hu⟩ := (tryRecover_sim hc e hu).cases
        rw [e3, e4]
        cases y with
        | ok _ => exact ih _ _ hu
        | error e => exact .err _ hu

theorem mapGc_sim (hc : c.Valid) {s s' : S} (h : Sim c o o' s s') : RS c o o' (mapGc c s) (mapGc c s') := by
  unfold mapGc
  rw [← h.k]
  split
  · exact .ret _ h
  · exact mapGcLoop_sim hc _ _ _ h

theorem gcTimes_sim (hc : c.Valid) : ∀ k (s s' : S), Sim c o o' s s' → RS c o o' (gcTimes c k s) (gcTimes c k s') := by
  intro k
  induction k with
  | zero => intro s s' h; exact .ret _ h
  | succ k ih =>
    intro s s' h
    unfold gcTimes
    obtain ⟨y, u, u', e3, e4, hu⟩ := (mapGc_sim hc h).cases
    rw [e3, e4]
    cases y with
    | ok _ => exact ih _ _ hu
    | error e => exact .err _ hu

theorem autoGc_sim (hc : c.Valid) {s s' : S} (h : Sim c o o' s s') : RS c o o' (autoGc c s) (autoGc c s') := by
  unfold autoGc
  rw [← journalSize_sim h, ← mapCapacity_sim h]
  split
  · exact .ret _ h
  · exact gcTimes_sim hc _ _ _ h

theorem prepareWrite_sim (hc : c.Valid) (t : Nat) {s s' : S} (h : Sim c o o' s s') : RS c o o' (prepareWrite c t s) (prepareWrite c t s') := by
  unfold prepareWrite
  obtain ⟨y, u, u', e3, e4, hu⟩ := (autoGc_sim hc h).cases
  rw [e3, e4]
  cases y with
  | error e => exact .err _ hu
  | ok _ =>
    simp only [← tracePath_sim hu, ← mapCapacity_sim hu, ← hu.k]
    split
    · split
      · exact .err _ hu
      · exact .ret _ (ckSetCount_sim hc _ _ hu)
    · exact .err _ hu
    · exact .ret _ (ckSetCount_sim hc _ _ hu)

theorem writeLoop_sim (hc : c.Valid) (t : Nat) {push push' : Buf → S → Except Err Unit × S}
    (hpu : ∀ m s s', Sim c o o' s s' → RS c o o' (push m s) (push' m s')) :
    ∀ f (s s' : S), Sim c o o' s s' → RS c o o' (writeLoop c t push f s) (writeLoop c t push' f s') := by
  intro f
  induction f with
  | zero => intro s s' h; exact .err _ h
  | succ f ih =>
    intro s s' h
    unfold writeLoop
    simp only
    obtain ⟨y, u, u', e3, e4, hu⟩ := (prepareWrite_sim hc t h).cases
    rw [e3, e4]
    cases y with
    | error e => exact .err _ hu
    | ok m =>
      simp only
      obtain ⟨y, u, u', e3, e4, hu⟩ := (hpu m _ _ hu).cases
      rw [e3, e4]
      cases y with
      | ok _ => exact .ret _ hu
      | error e =>
        simp only
        rw [← h.k]
        obtain ⟨y, u, u', e3, e4, hu⟩ := (tryRecover_sim hc e (hu.setK s.count)).cases
        rw [e3, e4]
        cases y with
        | ok _ => exact ih _ _ hu
        | error e => exact .err _ hu

theorem mapWrite_sim (hc : c.Valid) (t : Nat) {d d' : Buf} (hd : SameBytes c.pageSize d d') {s s' : S} (h : Sim c o o' s s') :
    RS c o o' (mapWrite c t d s) (mapWrite c t d' s') := by
  unfold mapWrite
  refine writeLoop_sim hc t (fun m s s' h => ?_) _ _ _ h
  exact enqueue_sim hc (.some hd) (.some (SameBytes.refl _ m)) h

theorem mapCopyPage_sim (hc : c.Valid) (p t : Nat) {s s' : S} (h : Sim c o o' s s') :
    RS c o o' (mapCopyPage c p t s) (mapCopyPage c p t s') := by
  unfold mapCopyPage
  refine writeLoop_sim hc t (fun m s s' h => ?_) _ _ _ h
  exact journalCopy_sim hc _ (SameBytes.refl _ m) h

theorem tryDelete_sim (hc : c.Valid) (t : Nat) {s s' : S} (h : Sim c o o' s s') : RS c o o' (tryDelete c t s) (tryDelete c t s') := by
  unfold tryDelete
  simp only [← tracePath_sim h, ← readMeta_sim h, ← h.k]
  split
  · exact .ret _ h
  · exact .err _ h
  · split
    · exact .ret _ (journalClear_sim hc (h.setK 0))
    · split
      · exact .err _ h
      · generalize hr : journalCopy c _ _ _ = r
        generalize hr' : journalCopy c _ _ _ = r'
        obtain ⟨x, u, u', rfl, rfl, hu⟩ := RS.cases (show RS c o o' r r' by
          rw [← hr, ← hr']
          exact journalCopy_sim hc _ (fun _ _ => rfl) (ckSetCount_sim hc _ _ h))
        cases x with
        | error e => exact .err _ hu
        | ok _ => simp only [← hu.k]; exact .ret _ (hu.setK _)

theorem mapTrimLoop_sim (hc : c.Valid) (t : Nat) : ∀ f (s s' : S), Sim c o o' s s' → RS c o o' (mapTrimLoop c t f s) (mapTrimLoop c t f s') := by
  intro f
  induction f with
  | zero => intro s s' h; exact .err _ h
  | succ f ih =>
    intro s s' h
    unfold mapTrimLoop
    obtain ⟨y, u, u', e3, e4, hu⟩ := (autoGc_sim hc h).cases
    rw [e3, e4]
    cases y with
    | error e => exact .err _ hu
    | ok _ =>
      simp only
      obtain ⟨y, u, u', e3, e4, hu⟩ := (tryDelete_sim hc t hu).cases
      rw [e3, e4]
      cases y with
      | ok _ => exact .ret _ hu
      | error e =>
        simp only
        obtain ⟨y, u, u', e3, e4, hu⟩ := (tryRecover_sim hc e hu).cases
        rw [e3, e4]
        cases y with
        | ok _ => exact ih _ _ hu
        | error e => exact .err _ hu

theorem mapCopySector_sim (hc : c.Valid) (p t : Nat) {s s' : S} (h : Sim c o o' s s') :
    RS c o o' (mapCopySector c p t s) (mapCopySector c p t s') := by
  unfold mapCopySector
  rw [← mapFind_sim h]
  split
  · exact mapTrimLoop_sim hc _ _ _ _ h
  · exact .err _ h
  · exact mapCopyPage_sim hc _ _ h

theorem mapClear_sim (hc : c.Valid) {s s' : S} (h : Sim c o o' s s') : Sim c o o' (mapClear c s) (mapClear c s') := by
  unfold mapClear
  rw [← h.k]
  split
  · exact journalClear_sim hc (h.setK 0)
  · exact h

/-- What `dhara_map_sync` does with the page at the tail. -/
def syncQ (c : Cfg) (r : Nat × S) : Except Err Unit × S :=
  if r.1 = NONE then padQueue c r.2
  else match rawGc c r.1 r.2 with
    | (.ok (), s) => (.ok (), dequeue c s)
    | (.error e, s) => (.error e, s)

def syncK (c : Cfg) (f : Nat) (q : Except Err Unit × S) : Except Err Unit × S :=
  match q with
  | (.ok (), s) => mapSyncLoop c f s
  | (.error e, s) =>
    match tryRecover c e s with
    | (.error e, s) => (.error e, s)
    | (.ok (), s) => mapSyncLoop c f s

theorem mapSyncLoop_succ (f : Nat) (s : S) : mapSyncLoop c (f + 1) s = if ¬ s.j.dirty then (.ok (), s) else syncK c f (syncQ c (peek c s)) := rfl

theorem syncQ_sim (hc : c.Valid) {r r' : Nat × S} (h : RS c o o' r r') : RS c o o' (syncQ c r) (syncQ c r') := by
  obtain ⟨x, t, t', rfl, rfl, ht⟩ := h.cases
  unfold syncQ
  simp only
  split
  · exact padQueue_sim hc ht
  · obtain ⟨y, u, u', e3, e4, hu⟩ := (rawGc_sim hc x ht).cases
    rw [e3, e4]
    cases y with
    | ok _ => exact .ret _ (dequeue_sim hc hu)
    | error e => exact .err _ hu

theorem mapSyncLoop_sim (hc : c.Valid) : ∀ f (s s' : S), Sim c o o' s s' → RS c o o' (mapSyncLoop c f s) (mapSyncLoop c f s') := by
  intro f
  induction f with
  | zero => intro s s' h; exact .err _ h
  | succ f ih =>
    intro s s' h
    have e0 : s'.j.dirty = s.j.dirty := by obtain ⟨b, ch, rfl, hp, hb, hh⟩ := h.elim; rfl
    rw [mapSyncLoop_succ, mapSyncLoop_succ, e0]
    split
    · exact .ret _ h
    · obtain ⟨x, t, t', e1, e2, ht⟩ := (syncQ_sim hc (peek_sim hc h)).cases
      rw [e1, e2]
      unfold syncK
      cases x with
      | ok _ => exact ih _ _ ht
      | error e =>
        simp only
        obtain ⟨y, u, u', e3, e4, hu⟩ := (tryRecover_sim hc e ht).cases
        rw [e3, e4]
        cases y with
        | ok _ => exact ih _ _ hu
        | error e => exact .err _ hu

theorem tick_sim {s s' : S} (h : Sim c o o' s s') : Sim c o o' (tick s) (tick s') := by
  obtain ⟨b, ch, rfl, hp, hb, hh⟩ := h.elim
  exact Sim.intro (s := tick s) hp hb hh

theorem step_sim (hc : c.Valid) {op op' : Op} (ho : SameCall c op op') {s s' : S} (h : Sim c o o' s s') : RS c o o' (step c op s) (step c op' s') := by
  have h := tick_sim h
  unfold step
  cases ho with
  | write t hd => exact mapWrite_sim hc t hd h
  | same =>
    cases op with
    | write t d => exact mapWrite_sim hc t (fun _ _ => rfl) h
    | copyPage p t => exact mapCopyPage_sim hc p t h
    | copySector p t => exact mapCopySector_sim hc p t h
    | trim t => exact mapTrimLoop_sim hc _ _ _ _ h
    | clear => exact .ret _ (mapClear_sim hc h)
    | sync => exact mapSyncLoop_sim hc _ _ _ h
    | gc => exact mapGc_sim hc h

end Dhara

/-
Journal invariant: queue geometry in virtual positions, and the exact effect of the
head-moving primitives (dhara/journal.c:598-648).
-/
import Verif.Proofs.Trace
namespace Dhara

variable {c : Cfg}

/-- The rest of the block of virtual position `v` is free and the block is good. -/
def HeadOK (c : Cfg) (s : S) (v : Nat) : Prop :=
  s.n.chip.bad (c.ph v / c.ppb) = false ∧
  ∀ i, v % c.ppb ≤ i → i < c.ppb → s.n.chip.free (c.ph v / c.ppb * c.ppb + i) = true

/-- Queue geometry, nothing said about the head block. Virtual positions count pages without
wrapping. -/
structure Geo0 (c : Cfg) (s : S) (vts vt vh : Nat) : Prop where
  ets : s.j.tailSync = c.ph vts
  et : s.j.tail = c.ph vt
  eh : s.j.head = c.ph vh
  uts : c.isU vts
  ut : c.isU vt
  uh : c.isU vh
  l1 : vts ≤ vt
  l2 : vt ≤ vh
  win : c.Win vts vh
  ep : s.j.epoch = UInt8.ofNat (vh / c.pages)
  alive : s.n.dead = false
  noub : s.n.ub = false

/-- Queue geometry with a writable head. -/
structure Geo (c : Cfg) (s : S) (vts vt vh : Nat) : Prop extends Geo0 c s vts vt vh where
  hfree : vh % c.ppb ≠ 0 → HeadOK c s vh

/-! ### Laps and epochs -/

theorem ofNat_succ8 (k : Nat) : UInt8.ofNat (k + 1) = UInt8.ofNat k + 1 := by
  apply UInt8.toNat_inj.1
  simp [UInt8.toNat_ofNat']

theorem lap_step (hc : c.Valid) {v w : Nat} (h1 : v < w) (h2 : w ≤ (v / c.ppb + 1) * c.ppb) :
    (c.ph w = 0 ∧ w / c.pages = v / c.pages + 1) ∨ (c.ph w ≠ 0 ∧ w / c.pages = v / c.pages) := by
  have hP := ppb_pos c
  have hp := hc.pages_pos
  have e := div_mod_range v c.pages
  have hm := Nat.mod_lt v hp
  -- (v/P+1)*P ≤ (v/pages+1)*pages
  have hb : v / c.ppb + 1 ≤ (v / c.pages + 1) * c.numBlocks := by
    have : v / c.ppb < (v / c.pages + 1) * c.numBlocks := by
      rw [Nat.div_lt_iff_lt_mul hP, Nat.mul_assoc]
      show v < (v / c.pages + 1) * c.pages
      rw [Nat.add_mul, Nat.one_mul]; omega
    omega
  have hb2 : (v / c.ppb + 1) * c.ppb ≤ (v / c.pages + 1) * c.pages := by
    have := Nat.mul_le_mul_right c.ppb hb
    rw [Nat.mul_assoc] at this; exact this
  rw [Nat.add_mul (v / c.pages), Nat.one_mul] at hb2
  by_cases hw : w = v / c.pages * c.pages + c.pages
  · left
    have ew : w = (v / c.pages + 1) * c.pages := by rw [Nat.add_mul, Nat.one_mul]; exact hw
    exact ⟨by unfold Cfg.ph; rw [ew]; exact Nat.mul_mod_left _ _,
      by rw [ew]; exact Nat.mul_div_cancel _ hp⟩
  · right
    have d := div_of_range (k := v / c.pages) (v := w) hp (by omega) (by omega)
    refine ⟨?_, d⟩
    unfold Cfg.ph
    rw [mod_of_range (k := v / c.pages) (by omega) (by omega)]; omega

/-- The journal with head, epoch and statistics replaced. -/
def Journal.moved (j : Journal) (d : Bool) (h : Nat) (e : UInt8) (x y : Nat) : Journal :=
  { j with dirty := d, head := h, epoch := e, bbCurrent := x, bbLast := y }

theorem rollIfZero_eq (hc : c.Valid) {j : Journal} {v w : Nat} (h1 : v < w)
    (h2 : w ≤ (v / c.ppb + 1) * c.ppb) (he : j.epoch = UInt8.ofNat (v / c.pages))
    (hh : j.head = c.ph w) :
    ∃ x y, rollIfZero j = j.moved j.dirty (c.ph w) (UInt8.ofNat (w / c.pages)) x y := by
  unfold rollIfZero
  rcases lap_step hc h1 h2 with ⟨a, b⟩ | ⟨a, b⟩
  · rw [if_pos (by rw [hh, a])]
    refine ⟨0, j.bbCurrent, ?_⟩
    rw [b, ofNat_succ8, ← he, ← hh]; rfl
  · rw [if_neg (by rw [hh]; exact a)]
    refine ⟨j.bbCurrent, j.bbLast, ?_⟩
    rw [b, ← he, ← hh]; rfl

/-- The journal after moving the head. -/
def JH (c : Cfg) (s s' : S) (vh' : Nat) : Prop :=
  (∃ d x y, s'.j = s.j.moved d (c.ph vh') (UInt8.ofNat (vh' / c.pages)) x y) ∧ s'.count = s.count

theorem JH.trans {s s1 s2 : S} {v1 v2 : Nat} (h1 : JH c s s1 v1) (h2 : JH c s1 s2 v2) :
    JH c s s2 v2 := by
  obtain ⟨⟨d, x, y, e⟩, k⟩ := h1
  obtain ⟨⟨d', x', y', e'⟩, k'⟩ := h2
  refine ⟨⟨d', x', y', ?_⟩, by rw [k', k]⟩
  rw [e', e]; rfl

section
variable {s s' : S} {v : Nat} (h : JH c s s' v)
include h
theorem JH.head : s'.j.head = c.ph v := by obtain ⟨⟨_, _, _, e⟩, _⟩ := h; rw [e]; rfl
theorem JH.epoch : s'.j.epoch = UInt8.ofNat (v / c.pages) := by
  obtain ⟨⟨_, _, _, e⟩, _⟩ := h; rw [e]; rfl
theorem JH.tail : s'.j.tail = s.j.tail := by obtain ⟨⟨_, _, _, e⟩, _⟩ := h; rw [e]; rfl
theorem JH.tailSync : s'.j.tailSync = s.j.tailSync := by
  obtain ⟨⟨_, _, _, e⟩, _⟩ := h; rw [e]; rfl
theorem JH.root : s'.j.root = s.j.root := by obtain ⟨⟨_, _, _, e⟩, _⟩ := h; rw [e]; rfl
theorem JH.pageBuf : s'.j.pageBuf = s.j.pageBuf := by
  obtain ⟨⟨_, _, _, e⟩, _⟩ := h; rw [e]; rfl
theorem JH.recovery : s'.j.recovery = s.j.recovery := by
  obtain ⟨⟨_, _, _, e⟩, _⟩ := h; rw [e]; rfl
theorem JH.enumDone : s'.j.enumDone = s.j.enumDone := by
  obtain ⟨⟨_, _, _, e⟩, _⟩ := h; rw [e]; rfl
theorem JH.badMeta : s'.j.badMeta = s.j.badMeta := by
  obtain ⟨⟨_, _, _, e⟩, _⟩ := h; rw [e]; rfl
theorem JH.recoverNext : s'.j.recoverNext = s.j.recoverNext := by
  obtain ⟨⟨_, _, _, e⟩, _⟩ := h; rw [e]; rfl
theorem JH.recoverRoot : s'.j.recoverRoot = s.j.recoverRoot := by
  obtain ⟨⟨_, _, _, e⟩, _⟩ := h; rw [e]; rfl
theorem JH.recoverMeta : s'.j.recoverMeta = s.j.recoverMeta := by
  obtain ⟨⟨_, _, _, e⟩, _⟩ := h; rw [e]; rfl
theorem JH.count : s'.count = s.count := h.2
end

theorem nextBlk_pos (hc : c.Valid) (v : Nat) :
    nextBlock c (c.blk (c.ph v)) <<< c.log2Ppb = c.ph ((v / c.ppb + 1) * c.ppb) ∧
    nextBlock c (c.blk (c.ph v)) = (v / c.ppb + 1) % c.numBlocks := by
  have h : nextBlock c (c.blk (c.ph v)) = (v / c.ppb + 1) % c.numBlocks := by
    rw [blk_eq, ph_div_ppb, nextBlock_ph hc]
  exact ⟨by rw [h, shl_ppb, mul_ppb_ph], h⟩

theorem lt_next_blk (c : Cfg) (v : Nat) : v < (v / c.ppb + 1) * c.ppb := by
  have := div_mod_range v c.ppb
  have := mod_ppb_lt c v
  rw [Nat.add_mul, Nat.one_mul]; omega

/-- journal.c:598-614 -/
theorem skipBlock_spec (hc : c.Valid) {s : S} {vts vh : Nat}
    (hts : s.j.tailSync = c.ph vts) (hh : s.j.head = c.ph vh)
    (hle : vts ≤ vh) (hwin : c.Win vts vh) (hep : s.j.epoch = UInt8.ofNat (vh / c.pages)) :
    skipBlock c s = (.error .journalFull, s) ∨
    (∃ s', skipBlock c s = (.ok (), s') ∧ JH c s s' ((vh / c.ppb + 1) * c.ppb) ∧ s'.n = s.n ∧
      s'.j.dirty = s.j.dirty ∧
      c.Win vts ((vh / c.ppb + 1) * c.ppb)) := by
  have hP := ppb_pos c
  obtain ⟨e1, e2⟩ := nextBlk_pos hc vh
  unfold skipBlock
  simp only
  rw [hh, hts, e1, e2]
  by_cases hb : c.blk (c.ph vts) = (vh / c.ppb + 1) % c.numBlocks
  · left; rw [if_pos hb]
  · right
    rw [if_neg hb]
    obtain ⟨x, y, hr⟩ := rollIfZero_eq hc (j := { s.j with head := c.ph ((vh / c.ppb + 1) * c.ppb) })
      (v := vh) (w := (vh / c.ppb + 1) * c.ppb) (lt_next_blk c vh) (Nat.le_refl _) hep rfl
    rw [← hts]
    refine ⟨_, rfl, ⟨⟨s.j.dirty, x, y, hr⟩, rfl⟩, rfl, ?_, ?_⟩
    · show (rollIfZero { s.j with head := c.ph ((vh / c.ppb + 1) * c.ppb) }).dirty = _
      rw [hr]; rfl
    · unfold Cfg.Win at *
      rw [Nat.mul_div_cancel _ hP]
      rw [blk_eq, ph_div_ppb] at hb
      have : vts / c.ppb ≤ vh / c.ppb := Nat.div_le_div_right hle
      apply Classical.byContradiction; intro hn
      have e : vh / c.ppb + 1 = vts / c.ppb + c.numBlocks := by omega
      rw [e, Nat.add_mod_right] at hb
      exact hb rfl

/-! ### NAND operations on a powered chip -/

/-- Bookkeeping of an erase of block `b` that leaves chip `ch`. -/
def Nand.eraseTo (n : Nand) (b : Nat) (ch : Chip) (f : Nat → Bool := n.failed) : Nand :=
  { n with time := n.time + 1, erases := upd n.erases b (n.erases b + 1), chip := ch, failed := f }

/-- Bookkeeping of a program operation that leaves chip `ch`. -/
def Nand.progTo (n : Nand) (ch : Chip) (f : Nat → Bool := n.failed) : Nand :=
  { n with time := n.time + 1, chip := ch, failed := f }

theorem nandErase_spec {n : Nand} {b : Nat} (hd : n.dead = false) (hu : n.ub = false)
    (hb : n.chip.canErase c b = true) :
    (c.env.erase n.time = .ok ∧ nandErase c b n = (.ok (), n.eraseTo b (n.chip.erased c b))) ∨
    (c.env.erase n.time = .fail ∧ nandErase c b n = (.error .badBlock, n.eraseTo b (n.chip.garbledBlock c n.time b) (upd n.failed b true))) ∨
    (∃ n', nandErase c b n = (.error .powerLoss, n') ∧ n'.ub = false ∧ n'.dead = true ∧
      n'.time = n.time + 1 ∧
      (n'.chip = n.chip ∨ n'.chip = n.chip.erased c b ∨ n'.chip = n.chip.tornBlock c n.time b)) := by
  unfold nandErase
  rw [hd, hu, hb]
  simp only [Bool.false_eq_true, if_false, Bool.not_true, Bool.or_false]
  cases he : c.env.erase n.time with
  | ok => left; exact ⟨rfl, by cases n; simp_all [Nand.eraseTo]⟩
  | fail => right; left; exact ⟨rfl, by cases n; simp_all [Nand.eraseTo]⟩
  | crash t =>
    right; right
    cases t
    · exact ⟨_, rfl, rfl, rfl, rfl, Or.inl rfl⟩
    · exact ⟨_, rfl, rfl, rfl, rfl, Or.inr (Or.inl rfl)⟩
    · exact ⟨_, rfl, rfl, rfl, rfl, Or.inr (Or.inr rfl)⟩

theorem nandProg_spec {n : Nand} {p : Nat} {d : Buf} (hd : n.dead = false) (hu : n.ub = false)
    (hb : n.chip.canProg c p = true) :
    (c.env.prog n.time = .ok ∧ nandProg c p d n = (.ok (), n.progTo (n.chip.programmed c p d))) ∨
    (c.env.prog n.time = .fail ∧ nandProg c p d n = (.error .badBlock,
      n.progTo (n.chip.garbledPage c n.time p (c.env.junkFree n.time p)) (upd n.failed (p / c.ppb) true))) ∨
    (∃ n', nandProg c p d n = (.error .powerLoss, n') ∧ n'.ub = false ∧ n'.dead = true ∧
      n'.time = n.time + 1 ∧
      (n'.chip = n.chip ∨ n'.chip = n.chip.programmed c p d ∨
        n'.chip = n.chip.garbledPage c n.time p false)) := by
  unfold nandProg
  rw [hd, hu, hb]
  simp only [Bool.false_eq_true, if_false, Bool.not_true, Bool.or_false]
  cases he : c.env.prog n.time with
  | ok => left; exact ⟨rfl, by cases n; simp_all [Nand.progTo]⟩
  | fail => right; left; exact ⟨rfl, by cases n; simp_all [Nand.progTo]⟩
  | crash t =>
    right; right
    cases t
    · exact ⟨_, rfl, rfl, rfl, rfl, Or.inl rfl⟩
    · exact ⟨_, rfl, rfl, rfl, rfl, Or.inr (Or.inl rfl)⟩
    · exact ⟨_, rfl, rfl, rfl, rfl, Or.inr (Or.inr rfl)⟩

/-- A page at or after a ready position can be programmed if the earlier ones are free as well. -/
theorem canProg_of {ch : Chip} {p : Nat} (h1 : p < c.pages) (h2 : ch.bad (p / c.ppb) = false)
    (h3 : ∀ i, p % c.ppb ≤ i → i < c.ppb → ch.free (p / c.ppb * c.ppb + i) = true) :
    ch.canProg c p = true := by
  unfold Chip.canProg
  simp only [Bool.and_eq_true, decide_eq_true_eq, Bool.not_eq_true', List.all_eq_true,
    List.mem_range, Bool.or_eq_true]
  refine ⟨⟨h1, h2⟩, fun i hi => ?_⟩
  by_cases h : i < p % c.ppb
  · exact Or.inl h
  · exact Or.inr (h3 i (by omega) hi)

/-! ### prepare_head -/

/-- Outcomes of prepare_head (journal.c:617-648). -/
inductive PrepOut (c : Cfg) (s : S) (vts vt vh : Nat) : Except Err Unit → S → Prop
  | stay (s' : S) (hv : vh % c.ppb ≠ 0) (hj : JH c s s' vh) (hn : s'.n = s.n)
      (hd : s'.j.dirty = true) (hw : c.Win vts (c.nextV vh)) : PrepOut c s vts vt vh (.ok ()) s'
  | erased (s' : S) (vh' : Nat) (hle : vh ≤ vh') (hv : vh % c.ppb = 0) (hv' : vh' % c.ppb = 0)
      (hj : JH c s s' vh') (hd : s'.j.dirty = true)
      (hskip : ∀ b, vh / c.ppb ≤ b → b < vh' / c.ppb → s.n.chip.bad (b % c.numBlocks) = true)
      (hgood : s.n.chip.bad (c.ph vh' / c.ppb) = false)
      (hn : s'.n = s.n.eraseTo (c.ph vh' / c.ppb) (s.n.chip.erased c (c.ph vh' / c.ppb)))
      (hfate : c.env.erase s.n.time = .ok)
      (hw : c.Win vts vh') : PrepOut c s vts vt vh (.ok ()) s'
  | failed (s' : S) (vh' : Nat) (hle : vh ≤ vh') (hv : vh % c.ppb = 0) (hv' : vh' % c.ppb = 0)
      (hj : JH c s s' vh')
      (hskip : ∀ b, vh / c.ppb ≤ b → b < vh' / c.ppb → s.n.chip.bad (b % c.numBlocks) = true)
      (hgood : s.n.chip.bad (c.ph vh' / c.ppb) = false)
      (hn : s'.n = s.n.eraseTo (c.ph vh' / c.ppb) (s.n.chip.garbledBlock c s.n.time (c.ph vh' / c.ppb))
        (upd s.n.failed (c.ph vh' / c.ppb) true))
      (hfate : c.env.erase s.n.time = .fail)
      (hw : c.Win vts vh') : PrepOut c s vts vt vh (.error .badBlock) s'
  | power (s' : S) (vh' : Nat) (hle : vh ≤ vh') (hv : vh % c.ppb = 0) (hv' : vh' % c.ppb = 0)
      (hskip : ∀ b, vh / c.ppb ≤ b → b < vh' / c.ppb → s.n.chip.bad (b % c.numBlocks) = true)
      (hgood : s.n.chip.bad (c.ph vh' / c.ppb) = false)
      (hub : s'.n.ub = false) (hdead : s'.n.dead = true) (ht : s'.n.time = s.n.time + 1)
      (hchip : s'.n.chip = s.n.chip ∨ s'.n.chip = s.n.chip.erased c (c.ph vh' / c.ppb) ∨
        s'.n.chip = s.n.chip.tornBlock c s.n.time (c.ph vh' / c.ppb))
      (hw : c.Win vts vh') : PrepOut c s vts vt vh (.error .powerLoss) s'
  | full (s' : S) (e : Err) (vh' : Nat) (he : e = .journalFull ∨ e = .tooBad) (hn : s'.n = s.n) (hle : vh ≤ vh')
      (hmv : vh' = vh ∨ (vh % c.ppb = 0 ∧ vh' % c.ppb = 0)) (hj : JH c s s' vh') (hd : s' = s ∨ s'.j.dirty = true)
      (hskip : ∀ b, vh / c.ppb ≤ b → b < vh' / c.ppb → s.n.chip.bad (b % c.numBlocks) = true)
      (hw : c.Win vts vh') :
      PrepOut c s vts vt vh (.error e) s'

theorem prepareHeadLoop_spec (hc : c.Valid) {vts vt : Nat} : ∀ i s vh,
    s.j.tailSync = c.ph vts → s.j.head = c.ph vh → vts ≤ vh → c.Win vts vh →
    s.j.epoch = UInt8.ofNat (vh / c.pages) → s.n.dead = false → s.n.ub = false →
    vh % c.ppb = 0 → s.j.dirty = true →
    PrepOut c s vts vt vh (prepareHeadLoop c i s).1 (prepareHeadLoop c i s).2 := by
  have hP := ppb_pos c
  intro i
  induction i with
  | zero =>
    intro s vh _ hh _ hwin hep _ _ _ _
    exact .full _ _ vh (Or.inr rfl) rfl (Nat.le_refl _) (Or.inl rfl)
      ⟨⟨s.j.dirty, s.j.bbCurrent, s.j.bbLast, by rw [← hh, ← hep]; rfl⟩, rfl⟩ (Or.inl rfl) (fun b h1 h2 => by omega) hwin
  | succ i ih =>
    intro s vh hts hh hle hwin hep hdead hub hal hdirty
    unfold prepareHeadLoop
    have hblk : c.blk s.j.head = c.ph vh / c.ppb := by rw [hh, blk_eq]
    simp only [hblk]
    by_cases hbad : s.n.chip.bad (c.ph vh / c.ppb) = true
    · -- skip a bad block
      have h1 : ¬ ¬ nandIsBad s.n (c.ph vh / c.ppb) = true := by unfold nandIsBad; rw [hbad]; simp
      rw [if_neg h1]
      rcases skipBlock_spec hc (s := { s with j := { s.j with bbCurrent := s.j.bbCurrent + 1 } })
        (vts := vts) (vh := vh) hts hh hle hwin hep with h | ⟨s1, h, hj, hn, hd, hw⟩
      · rw [h]
        exact .full _ _ vh (Or.inl rfl) rfl (Nat.le_refl _) (Or.inl rfl)
          ⟨⟨s.j.dirty, s.j.bbCurrent + 1, s.j.bbLast, by rw [← hh, ← hep]; rfl⟩, rfl⟩ (Or.inr hdirty) (fun b h1 h2 => by omega) hwin
      · rw [h]
        simp only
        have hlt := lt_next_blk c vh
        have hJ : JH c s s1 ((vh / c.ppb + 1) * c.ppb) := by
          obtain ⟨⟨d, x, y, e⟩, k⟩ := hj
          exact ⟨⟨d, x, y, e⟩, k⟩
        have key := ih s1 ((vh / c.ppb + 1) * c.ppb) (by rw [hJ.tailSync]; exact hts) hJ.head
          (by omega) hw hJ.epoch (by rw [hn]; exact hdead) (by rw [hn]; exact hub)
          (Nat.mul_mod_left _ _) (by rw [hd]; exact hdirty)
        have hdiv : (vh / c.ppb + 1) * c.ppb / c.ppb = vh / c.ppb + 1 := Nat.mul_div_cancel _ hP
        have hn' : s1.n = s.n := hn
        have hsk : ∀ vh', (∀ b, (vh / c.ppb + 1) * c.ppb / c.ppb ≤ b → b < vh' / c.ppb →
            s1.n.chip.bad (b % c.numBlocks) = true) →
            ∀ b, vh / c.ppb ≤ b → b < vh' / c.ppb → s.n.chip.bad (b % c.numBlocks) = true := by
          intro vh' h0 b hb1 hb2
          by_cases e : b = vh / c.ppb
          · rw [e, ← ph_div_ppb]; exact hbad
          · rw [← hn']; exact h0 b (by omega) hb2
        generalize prepareHeadLoop c i s1 = r at key ⊢
        obtain ⟨r1, r2⟩ := r
        cases key with
        | stay _ hv => exact absurd (Nat.mul_mod_left _ _) hv
        | erased s' vh' hle' hv hv' hj' hd' hskip hgood hn'' hfate hw' =>
          rw [hn'] at hgood hn'' hfate
          exact .erased _ vh' (by omega) hal hv' (hJ.trans hj') hd' (hsk vh' hskip) hgood hn'' hfate hw'
        | failed s' vh' hle' hv hv' hj' hskip hgood hn'' hfate hw' =>
          rw [hn'] at hgood hn'' hfate
          exact .failed _ vh' (by omega) hal hv' (hJ.trans hj') (hsk vh' hskip) hgood hn'' hfate hw'
        | power s' vh' hle' hv hv' hskip hgood hub' hdead' ht hchip hw' =>
          rw [hn'] at hgood ht hchip
          exact .power _ vh' (by omega) hal hv' (hsk vh' hskip) hgood hub' hdead' ht hchip hw'
        | full s' e vh' he hn'' hle' hmv hj' hd' hskip hw' =>
          refine .full _ e vh' he (by rw [hn'', hn']) (by omega) (Or.inr ⟨hal, ?_⟩) (hJ.trans hj') (Or.inr ?_) (hsk vh' hskip) hw'
          · rcases hmv with h | h
            · rw [h]; exact Nat.mul_mod_left _ _
            · exact h.2
          · rcases hd' with h | h
            · rw [h, hd]; exact hdirty
            · exact h
    · have h1 : ¬ nandIsBad s.n (c.ph vh / c.ppb) = true := hbad
      rw [if_pos h1]
      have hgood : s.n.chip.bad (c.ph vh / c.ppb) = false := by simpa using hbad
      have hcan : s.n.chip.canErase c (c.ph vh / c.ppb) = true := by
        unfold Chip.canErase
        rw [hgood, ph_div_ppb]
        have := Nat.mod_lt (vh / c.ppb) (show 0 < c.numBlocks by have := hc.blocks_lo; omega)
        simp [this]
      have hJ : ∀ n', JH c s { s with n := n' } vh := fun n' =>
        ⟨⟨s.j.dirty, s.j.bbCurrent, s.j.bbLast, by rw [← hh, ← hep]; rfl⟩, rfl⟩
      have hsk : ∀ b, vh / c.ppb ≤ b → b < vh / c.ppb →
          s.n.chip.bad (b % c.numBlocks) = true := fun b h1 h2 => by omega
      rcases nandErase_spec (c := c) hdead hub hcan with ⟨hf, h⟩ | ⟨hf, h⟩ | ⟨n', h, h2, h3, h4, h5⟩
      · rw [h]; exact .erased _ vh (Nat.le_refl _) hal hal (hJ _) hdirty hsk hgood rfl hf hwin
      · rw [h]; exact .failed _ vh (Nat.le_refl _) hal hal (hJ _) hsk hgood rfl hf hwin
      · rw [h]; exact .power _ vh (Nat.le_refl _) hal hal hsk hgood h2 h3 h4 h5 hwin

theorem prepareHead_spec (hc : c.Valid) {s : S} {vts vt vh : Nat} (g : Geo c s vts vt vh) :
    PrepOut c s vts vt vh (prepareHead c s).1 (prepareHead c s).2 := by
  have e1 : nextUpage c s.j.head = c.ph (c.nextV vh) := by rw [g.eh, nextUpage_ph hc g.uh]
  unfold prepareHead
  simp only [e1]
  by_cases hfull : alignEq (c.ph (c.nextV vh)) s.j.tailSync c.log2Ppb = true ∧
      ¬ alignEq (c.ph (c.nextV vh)) s.j.head c.log2Ppb = true
  · rw [if_pos hfull]
    exact .full _ _ vh (Or.inl rfl) rfl (Nat.le_refl _) (Or.inl rfl)
      ⟨⟨s.j.dirty, s.j.bbCurrent, s.j.bbLast, by rw [← g.eh, ← g.ep]; rfl⟩, rfl⟩ (Or.inl rfl) (fun b h1 h2 => by omega) g.win
  · rw [if_neg hfull]
    have hts : vts ≤ vh := Nat.le_trans g.l1 g.l2
    by_cases hal : isAligned s.j.head c.log2Ppb = true
    · rw [if_neg (by simp [hal])]
      have hal' : vh % c.ppb = 0 := by
        have := isAligned_iff.1 hal; rw [g.eh] at this; rw [← ph_mod_ppb]; exact this
      have key := prepareHeadLoop_spec hc (vts := vts) (vt := vt) 8
        { s with j := { s.j with dirty := true } } vh g.ets g.eh hts g.win g.ep g.alive g.noub hal' rfl
      have hJ : ∀ s' v, JH c { s with j := { s.j with dirty := true } } s' v → JH c s s' v := by
        intro s' v ⟨⟨d, x, y, e⟩, k⟩; exact ⟨⟨d, x, y, e⟩, k⟩
      generalize prepareHeadLoop c 8 { s with j := { s.j with dirty := true } } = r at key ⊢
      obtain ⟨r1, r2⟩ := r
      cases key with
      | stay _ hv => exact absurd hal' hv
      | erased s' vh' hle' hv hv' hj' hd' hskip hgood hn'' hfate hw' =>
        exact .erased _ vh' hle' hv hv' (hJ _ _ hj') hd' hskip hgood hn'' hfate hw'
      | failed s' vh' hle' hv hv' hj' hskip hgood hn'' hfate hw' =>
        exact .failed _ vh' hle' hv hv' (hJ _ _ hj') hskip hgood hn'' hfate hw'
      | power s' vh' hle' hv hv' hskip hgood hub' hdead' ht hchip hw' =>
        exact .power _ vh' hle' hv hv' hskip hgood hub' hdead' ht hchip hw'
      | full s' e vh' he hn'' hle' hmv hj' hd' hskip hw' =>
        refine .full _ e vh' he hn'' hle' hmv (hJ _ _ hj') (Or.inr ?_) hskip hw'
        rcases hd' with h | h
        · rw [h]
        · exact h
    · rw [if_pos hal]
      have hal' : vh % c.ppb ≠ 0 := by
        intro h; apply hal; apply isAligned_iff.2; rw [g.eh, ← h, ← ph_mod_ppb]; rfl
      refine .stay _ hal' ⟨⟨true, s.j.bbCurrent, s.j.bbLast, ?_⟩, rfl⟩ rfl rfl ?_
      · rw [← g.eh, ← g.ep]; rfl
      · -- the next position does not reach the block of the synchronised tail
        rcases nextV_blk hc g.uh with ⟨h1, _⟩ | ⟨h1, _⟩
        · unfold Cfg.Win; rw [h1]; exact g.win
        · unfold Cfg.Win
          have hw := g.win
          unfold Cfg.Win at hw
          apply Classical.byContradiction; intro hn
          have e : c.nextV vh / c.ppb = vts / c.ppb + c.numBlocks := by omega
          apply hfull
          rw [g.ets, g.eh]
          constructor
          · apply alignEq_iff.2
            show c.ph _ / c.ppb = c.ph _ / c.ppb
            rw [ph_div_ppb, ph_div_ppb, e, Nat.add_mod_right]
          · intro h2
            have h2' : c.ph (c.nextV vh) / c.ppb = c.ph vh / c.ppb := alignEq_iff.1 h2
            rw [ph_div_ppb, ph_div_ppb, h1] at h2'
            have hN := hc.blocks_lo
            have := mod_inj (base := vh / c.ppb) (a := vh / c.ppb + 1) (b := vh / c.ppb)
              (m := c.numBlocks) (by omega) (by omega) (by omega) (by omega) h2'
            omega

end Dhara

/-
push_meta (dhara/journal.c:775-825): the buffered metadata and the checkpoint page.
-/
import Verif.Proofs.Recov
import Verif.Proofs.Evo
namespace Dhara

variable {c : Cfg}

/-! ### Buffers -/

/-- The metadata stored for a page pushed with `m` (`NULL`: all 0xff). -/
def metaOf : Option Buf → Buf
  | some m => m.slice 0 132
  | none => Buf.ff.slice 0 132

/-- Offset 20 onwards is user metadata; the first 20 bytes are header and cookie. -/
theorem bufferMeta_slot (hc : c.Valid) {j : Journal} {m : Option Buf} {v : Nat}
    (hh : j.head = c.ph v) : (bufferMeta c m j).pageBuf.slice (c.slot v) 132 = metaOf m := by
  unfold bufferMeta
  simp only [hh, slot_off hc]
  cases m with
  | none =>
    apply slice_congr; intro i hi
    simp only [Buf.ff]; rw [memset_in (by omega)]
  | some m =>
    apply slice_congr; intro i hi
    simp only; rw [memcpy_in (by omega)]; congr 1; omega

theorem bufferMeta_out (hc : c.Valid) {j : Journal} {m : Option Buf} {v i : Nat}
    (hh : j.head = c.ph v) (hi : i < c.slot v ∨ c.slot v + 132 ≤ i) :
    (bufferMeta c m j).pageBuf i = j.pageBuf i := by
  unfold bufferMeta
  simp only [hh, slot_off hc]
  cases m with
  | none => simp only; rw [memset_out hi]
  | some m => simp only; rw [memcpy_out hi]

theorem bufferMeta_other (hc : c.Valid) {j : Journal} {m : Option Buf} {v w : Nat}
    (hh : j.head = c.ph v) (h : w % c.ppc ≠ v % c.ppc) :
    (bufferMeta c m j).pageBuf.slice (c.slot w) 132 = j.pageBuf.slice (c.slot w) 132 := by
  apply slice_congr; intro i hi
  rw [bufferMeta_out hc hh]
  rcases slot_disj h with h | h <;> omega

theorem bufferMeta_fields (m : Option Buf) (j : Journal) :
    bufferMeta c m j = { j with pageBuf := (bufferMeta c m j).pageBuf } := by
  unfold bufferMeta; cases m <;> rfl

theorem fillHeader_fields (j : Journal) : fillHeader j = { j with pageBuf := (fillHeader j).pageBuf } :=
  rfl

theorem fillHeader_out {j : Journal} {i : Nat} (hi : 16 ≤ i) : (fillHeader j).pageBuf i = j.pageBuf i := by
  unfold fillHeader hdrSetBbLast hdrSetBbCurrent hdrSetTail hdrSetEpoch hdrPutMagic
  simp only
  rw [w32_other (by omega), w32_other (by omega), w32_other (by omega)]
  simp only [upd]
  rw [if_neg (by omega), if_neg (by omega), if_neg (by omega), if_neg (by omega)]

/-- A checkpoint page: magic, epoch, tail pointer and cookie. -/
structure CpPage (b : Buf) (e : UInt8) (tail cookie : Nat) : Prop where
  magic : hdrHasMagic b = true
  epoch : hdrGetEpoch b = e
  tail : hdrGetTail b = tail
  cookie : r32 b 16 = cookie

theorem fillHeader_cp {j : Journal} (ht : j.tail < 2 ^ 32) :
    CpPage (fillHeader j).pageBuf j.epoch j.tail (r32 j.pageBuf 16) := by
  refine ⟨?_, ?_, ?_, ?_⟩
  · unfold fillHeader hdrSetBbLast hdrSetBbCurrent hdrSetTail hdrSetEpoch hdrPutMagic hdrHasMagic
    simp only
    rw [w32_other (by omega), w32_other (by omega), w32_other (by omega), w32_other (by omega),
      w32_other (by omega), w32_other (by omega), w32_other (by omega), w32_other (by omega),
      w32_other (by omega)]
    simp [upd]
  · unfold fillHeader hdrSetBbLast hdrSetBbCurrent hdrSetTail hdrSetEpoch hdrGetEpoch
    simp only
    rw [w32_other (by omega), w32_other (by omega), w32_other (by omega)]
    simp [upd]
  · unfold fillHeader hdrSetBbLast hdrSetBbCurrent hdrSetTail hdrGetTail
    simp only
    rw [r32_w32_other (by omega), r32_w32_other (by omega), r32_w32_same ht]
  · exact r32_congr fun i hi => fillHeader_out (by omega)

theorem cpPage_clip (hc : c.Valid) {b : Buf} {e : UInt8} {t k : Nat} (h : CpPage b e t k) :
    CpPage (c.clip b) e t k := by
  have hs : 512 ≤ c.pageSize := hc.pageSize_ge
  have hb : ∀ i, i < 512 → c.clip b i = b i := by
    intro i hi; unfold Cfg.clip Buf.slice; rw [if_pos (by omega), Nat.zero_add]
  refine ⟨?_, ?_, ?_, ?_⟩
  · have := h.magic; unfold hdrHasMagic at *
    rw [hb 0 (by omega), hb 1 (by omega), hb 2 (by omega)]; exact this
  · have := h.epoch; unfold hdrGetEpoch at *; rw [hb 3 (by omega)]; exact this
  · rw [← h.tail]; exact r32_congr fun i hi => hb _ (by omega)
  · rw [← h.cookie]; exact r32_congr fun i hi => hb _ (by omega)

/-! ### Recovery bookkeeping -/

/-- During a recovery: `vR` is the root of the failed block, `vn` the next page to look at, `vM`
holds the dumped metadata, if any. -/
structure RGeo (c : Cfg) (s : S) (vt vh vR vM vn : Nat) : Prop where
  rr : s.j.recoverRoot = c.ph vR
  uR : c.isU vR
  tR : vt ≤ vR
  bR : vR / c.ppb < vh / c.ppb
  rn : s.j.recoverNext = c.ph vn
  un : c.isU vn
  nR : vn ≤ vR
  nb : vn / c.ppb = vR / c.ppb
  rm : s.j.recoverMeta = NONE ∨
    (s.j.recoverMeta = c.ph vM ∧ vM % c.ppb = 0 ∧ vR / c.ppb < vM / c.ppb ∧ vM < vh)
  bm : s.j.badMeta = true → s.j.recoverMeta ≠ NONE ∧ vM / c.ppb < vh / c.ppb

/-- No recovery is going on. -/
structure Calm (s : S) : Prop where
  nr : s.j.recovery = false
  rm : s.j.recoverMeta = NONE
  ed : s.j.enumDone = false
  bm : s.j.badMeta = false

/-- Recovery state. -/
def RSt (c : Cfg) (s : S) (vt vh vR vM vn : Nat) : Prop :=
  Calm s ∨ (s.j.recovery = true ∧ RGeo c s vt vh vR vM vn)

theorem RGeo.mono {s s' : S} {vt vt' vh vh' vR vM vn : Nat} (r : RGeo c s vt vh vR vM vn)
    (h : vh ≤ vh') (e1 : s'.j.recoverRoot = s.j.recoverRoot) (e2 : s'.j.recoverNext = s.j.recoverNext)
    (e3 : s'.j.recoverMeta = s.j.recoverMeta) (e4 : s'.j.badMeta = s.j.badMeta) (ht : vt' ≤ vR) :
    RGeo c s' vt' vh' vR vM vn := by
  have hd : vh / c.ppb ≤ vh' / c.ppb := Nat.div_le_div_right h
  have := r.bR
  refine ⟨by rw [e1]; exact r.rr, r.uR, ht, by omega, by rw [e2]; exact r.rn, r.un, r.nR, r.nb, ?_, ?_⟩
  · rw [e3]
    rcases r.rm with h | ⟨a, b, d, e⟩
    · exact Or.inl h
    · exact Or.inr ⟨a, b, d, by omega⟩
  · rw [e3, e4]; intro hb
    have := r.bm hb
    exact ⟨this.1, by omega⟩

/-- Metadata of queue positions is unaffected by a change that keeps the pages and moves the head
out of the groups concerned. -/
theorem metaBuf_move (hc : c.Valid) {s s' : S} {lo v vh vh' : Nat}
    (hh : s.j.head = c.ph vh) (hh' : s'.j.head = c.ph vh') (hw' : c.Win lo vh')
    (h1 : lo ≤ v) (h2 : v < vh) (hle : vh ≤ vh')
    (hg : v / c.ppc ≠ vh / c.ppc) (hg' : v / c.ppc ≠ vh' / c.ppc)
    (hm : s'.j.recoverMeta = s.j.recoverMeta)
    (hr : s.j.recoverMeta ≠ NONE → s'.j.recoverRoot = s.j.recoverRoot ∧
      s'.n.chip.page s.j.recoverMeta = s.n.chip.page s.j.recoverMeta)
    (hp : s'.n.chip.page (c.ph (c.cpV v)) = s.n.chip.page (c.ph (c.cpV v))) :
    metaBuf c s' (c.ph v) = metaBuf c s (c.ph v) := by
  have hw : c.Win lo vh := hw'.mono (Nat.le_refl _) hle
  unfold metaBuf
  simp only [slot_off hc, hh, hh']
  rw [if_neg (fun h => hg' ((grp_eq_iff hc hw' h1 (by omega) (by omega) (Nat.le_refl _)).1 h)),
    if_neg (fun h => hg ((grp_eq_iff hc hw h1 (by omega) (by omega) (Nat.le_refl _)).1 h)), hm]
  by_cases hn : s.j.recoverMeta = NONE
  · rw [if_neg (fun h => h.1 hn), if_neg (fun h => h.1 hn), ph_cp hc, hp]
  · obtain ⟨a, b⟩ := hr hn
    rw [a, b, ph_cp hc, hp]

/-- Does the push at `vq` complete a checkpoint group? -/
def Cfg.last (c : Cfg) (vq : Nat) : Prop := vq % c.ppc + 2 = c.ppc

/-- Does it also complete a recovery? -/
def finishes (c : Cfg) (s : S) (vq : Nat) : Prop := c.last vq ∧ s.j.enumDone = true

/-- The synchronised tail after the push. -/
noncomputable def newTs (c : Cfg) (s : S) (vts vt vq : Nat) : Nat :=
  open Classical in if c.last vq ∧ (s.j.recovery = false ∨ s.j.enumDone = true) then vt else vts

/-- The blocks a finished recovery retires. -/
def retires (c : Cfg) (s : S) (vR vM : Nat) : Nat → Prop := fun k =>
  k = c.ph vR / c.ppb ∨ (s.j.badMeta = true ∧ k = c.ph vM / c.ppb)

/-- push_meta succeeded. -/
structure PMOk (c : Cfg) (s s' : S) (m : Option Buf) (vts vt vq vR vM : Nat) : Prop where
  root : s'.j.root = c.ph vq
  cnt : s'.count = s.count
  geo : Geo c s' (newTs c s vts vt vq) vt (c.nextV vq)
  at_ : ∀ p, p ≠ c.ph (vq + 1) → s'.n.chip.page p = s.n.chip.page p ∧ s'.n.chip.free p = s.n.chip.free p
  same : ¬ c.last vq → s'.n = s.n
  badm : ∀ k, s.n.chip.bad k = true → s'.n.chip.bad k = true
  badn : ∀ k, s'.n.chip.bad k = true → s.n.chip.bad k = true ∨ (finishes c s vq ∧ retires c s vR vM k)
  metaq : metaBuf c s' (c.ph vq) = some (metaOf m)
  mkeep : ∀ v, vts ≤ v → v < vq → c.isU v → ¬ (finishes c s vq ∧ v / c.ppb = vR / c.ppb) →
    metaBuf c s' (c.ph v) = metaBuf c s (c.ph v)
  going : ¬ finishes c s vq → s'.j.recovery = s.j.recovery ∧ s'.j.enumDone = s.j.enumDone ∧
    s'.j.recoverRoot = s.j.recoverRoot ∧ s'.j.recoverNext = s.j.recoverNext ∧
    s'.j.recoverMeta = s.j.recoverMeta ∧ s'.j.badMeta = s.j.badMeta
  done : finishes c s vq → Calm s' ∧ ∀ k, retires c s vR vM k → s'.n.chip.bad k = true
  dirtyL : c.last vq → s'.j.dirty = false
  dirtyN : ¬ c.last vq → s'.j.dirty = s.j.dirty
  cp : c.last vq → ∃ b, s'.n.chip.page (c.ph (vq + 1)) = some b ∧
    CpPage b (UInt8.ofNat (vq / c.pages)) (c.ph vt) (r32 s.j.pageBuf 16)
  buf : ∀ i, 16 ≤ i → i < 20 → s'.j.pageBuf i = s.j.pageBuf i
  cpnf : c.last vq → s'.n.chip.free (c.ph (vq + 1)) = false

theorem not_last {v : Nat} (hc : c.Valid) (hu : c.isU v) (h : ¬ c.last v) :
    c.nextV v = v + 1 ∧ (v + 1) % c.ppc = v % c.ppc + 1 ∧ (v + 1) / c.ppc = v / c.ppc ∧
    (v + 1) / c.ppb = v / c.ppb := by
  rcases nextV_cases hc hu with ⟨a, b, d⟩ | ⟨a, b, d⟩
  · have h2 := (div_add_lt (v := v) (k := 1) (m := c.ppc) (by omega)).1
    exact ⟨b, d, h2, div_ppb_of_div_ppc hc h2⟩
  · exact absurd a h

theorem is_last {v : Nat} (hc : c.Valid) (h : c.last v) :
    c.nextV v = v + 2 ∧ (v + 2) % c.ppc = 0 ∧ (v + 2) / c.ppc = v / c.ppc + 1 ∧
    (v + 1) / c.ppc = v / c.ppc ∧ (v + 1) / c.ppb = v / c.ppb ∧ c.cpV v = v + 1 ∧ v % c.ppb ≠ 0 := by
  unfold Cfg.last at h
  have h4 := hc.ppc_ge
  have h1 := div_add_eq h (ppc_pos c)
  have h2 := (div_add_lt (v := v) (k := 1) (m := c.ppc) (by omega)).1
  refine ⟨by unfold Cfg.nextV; rw [if_pos h1.2], h1.2, h1.1, h2, div_ppb_of_div_ppc hc h2, ?_, ?_⟩
  · have := div_mod_range v c.ppc; unfold Cfg.cpV; omega
  · intro hz; have := mod_ppc_of_ppb_zero hc hz; omega

theorem grp_lt_of_blk {v w : Nat} (hc : c.Valid) (h : v / c.ppb < w / c.ppb) : v / c.ppc < w / c.ppc := by
  apply Classical.byContradiction; intro hn
  have h1 : w / c.ppc ≤ v / c.ppc := by omega
  obtain ⟨g, hg⟩ := hc.ppc_dvd
  have : w / c.ppc / g ≤ v / c.ppc / g := Nat.div_le_div_right h1
  rw [Nat.div_div_eq_div_mul, Nat.div_div_eq_div_mul, ← hg] at this
  omega

/-- Outcome of push_meta. -/
inductive PMOut (c : Cfg) (s : S) (m : Option Buf) (vts vt vq vR vM : Nat) : Except Err Unit × S → Prop
  | ok (s' : S) (h : PMOk c s s' m vts vt vq vR vM) : PMOut c s m vts vt vq vR vM (.ok (), s')
  | bad (s1 : S) (r : Except Err Unit × S) (hl : c.last vq)
      (hj : ∃ b, s1.j = { s.j with pageBuf := b } ∧
        ∀ w, w % c.ppc ≠ vq % c.ppc → b.slice (c.slot w) 132 = s.j.pageBuf.slice (c.slot w) 132)
      (hcnt : s1.count = s.count) (hg : Geo0 c s1 vts vt vq)
      (hat : OnlyAt s.n s1.n (c.ph (vq + 1))) (hf : c.env.prog s.n.time = .fail)
      (ht : s1.n.time = s.n.time + 1)
      (h : RecOut c s1 vts vt vq r) (hr : r = recoverFrom c .badBlock s1) :
      PMOut c s m vts vt vq vR vM r
  | stop (s' : S) (e : Err) (he : e ≠ .recover) (hub : s'.n.ub = false) (hpl : e = .powerLoss)
      (hcr : e = .powerLoss → c.last vq ∧ s'.n.time = s.n.time + 1 ∧
        ((OnlyAt s.n s'.n (c.ph (vq + 1)) ∧
          (s'.n.chip.page (c.ph (vq + 1)) = s.n.chip.page (c.ph (vq + 1)) ∨
            ∃ t, s'.n.chip.page (c.ph (vq + 1)) = c.env.junk t (c.ph (vq + 1))) ∧
          (s'.n.chip.free (c.ph (vq + 1)) = true → s.n.chip.free (c.ph (vq + 1)) = true)) ∨
         (Calm s → ∃ s'', PMOk c s s'' m vts vt vq vR vM ∧ s''.n.chip = s'.n.chip ∧
            s''.n.time = s'.n.time ∧ Evo c s.n s''.n ∧ Evo c s''.n s'.n))) :
      PMOut c s m vts vt vq vR vM (.error e, s')

/-- Journal after a checkpoint was written, before recovery and tail are dealt with. -/
def Journal.stepped (c : Cfg) (j : Journal) (vq x y : Nat) : Journal :=
  { j.moved false (c.ph (c.nextV vq)) (UInt8.ofNat (c.nextV vq / c.pages)) x y with root := c.ph vq }

/-- Chip after finish_recovery. -/
def retired (c : Cfg) (s : S) : Nand :=
  let n := nandMarkBad c (c.blk s.j.recoverRoot) s.n
  if s.j.badMeta = true then nandMarkBad c (c.blk s.j.recoverMeta) n else n

theorem commitPush_eq (hc : c.Valid) {s : S} {vq : Nat} (hh : s.j.head = c.ph vq) (hu : c.isU vq)
    (hep : s.j.epoch = UInt8.ofNat (vq / c.pages)) :
    ∃ x y,
      (s.j.enumDone = true → commitPush c (c.ph vq) s =
        { j := { clearRecovery (s.j.stepped c vq x y) with tailSync := s.j.tail },
          n := retired c s, count := s.count }) ∧
      (s.j.enumDone = false → s.j.recovery = false → commitPush c (c.ph vq) s =
        { s with j := { s.j.stepped c vq x y with tailSync := s.j.tail } }) ∧
      (s.j.enumDone = false → s.j.recovery = true → commitPush c (c.ph vq) s =
        { s with j := s.j.stepped c vq x y }) := by
  have hb : c.nextV vq ≤ (vq / c.ppb + 1) * c.ppb := by
    rcases nextV_blk hc hu with ⟨h1, _⟩ | ⟨h1, h2⟩
    · have := lt_next_blk c (c.nextV vq); rw [h1] at this; omega
    · have := div_mod_range (c.nextV vq) c.ppb; rw [h1] at this; omega
  obtain ⟨x, y, hr⟩ := rollIfZero_eq hc
    (j := { s.j with dirty := false, root := c.ph vq, head := nextUpage c s.j.head })
    (v := vq) (w := c.nextV vq) (lt_nextV c vq) hb hep
    (by show nextUpage c s.j.head = _; rw [hh, nextUpage_ph hc hu])
  have hr' : rollIfZero { s.j with dirty := false, root := c.ph vq, head := nextUpage c s.j.head } =
      s.j.stepped c vq x y := by rw [hr]; rfl
  refine ⟨x, y, ?_, ?_, ?_⟩
  · intro he
    unfold commitPush
    simp only [hr']
    have he' : (s.j.stepped c vq x y).enumDone = true := he
    simp only [he', if_true]
    have h2 : ¬ (finishRecovery c { s with j := s.j.stepped c vq x y }).j.recovery = true := by
      unfold finishRecovery; simp only; split <;> simp [clearRecovery]
    simp only [if_pos h2]
    unfold finishRecovery retired
    have e1 : (s.j.stepped c vq x y).recoverRoot = s.j.recoverRoot := rfl
    have e2 : (s.j.stepped c vq x y).badMeta = s.j.badMeta := rfl
    have e3 : (s.j.stepped c vq x y).recoverMeta = s.j.recoverMeta := rfl
    simp only [e1, e2, e3]
    split <;> rfl
  · intro he hrec
    unfold commitPush
    simp only [hr']
    have he' : (s.j.stepped c vq x y).enumDone = false := he
    have h2 : (s.j.stepped c vq x y).recovery = false := hrec
    simp only [he', h2, if_true, Bool.false_eq_true, if_false, not_false_eq_true]
    rfl
  · intro he hrec
    unfold commitPush
    simp only [hr']
    have he' : (s.j.stepped c vq x y).enumDone = false := he
    have h2 : (s.j.stepped c vq x y).recovery = true := hrec
    simp only [he', h2, if_true, Bool.false_eq_true, if_false, not_true_eq_false]

theorem retired_eq (hc : c.Valid) {s : S} {vR vM : Nat} (hal : s.n.dead = false)
    (h1 : s.j.recoverRoot = c.ph vR) (h2 : s.j.badMeta = true → s.j.recoverMeta = c.ph vM) :
    (retired c s).dead = false ∧ (retired c s).ub = s.n.ub ∧
    (retired c s).chip.page = s.n.chip.page ∧ (retired c s).chip.free = s.n.chip.free ∧
    (∀ k, (retired c s).chip.bad k = true ↔ (s.n.chip.bad k = true ∨ retires c s vR vM k)) := by
  unfold retired retires
  simp only [h1, blk_eq]
  have hR := nandMarkBad_eq hc hal vR
  by_cases hb : s.j.badMeta = true
  · simp only [hb, if_true, h2 hb]
    rw [nandMarkBad_eq hc (n := nandMarkBad c (c.ph vR / c.ppb) s.n) (by rw [hR]; exact hal), hR]
    refine ⟨hal, rfl, rfl, rfl, fun k => ?_⟩
    simp only [Chip.marked]
    unfold upd
    by_cases h3 : k = c.ph vM / c.ppb <;> by_cases h4 : k = c.ph vR / c.ppb <;> simp [h3, h4]
    all_goals (first | (subst h3; simp_all; done) | simp_all)
  · have hb' : s.j.badMeta = false := by simpa using hb
    simp only [hb', Bool.false_eq_true, if_false, false_and, or_false]
    rw [hR]
    refine ⟨hal, rfl, rfl, rfl, fun k => ?_⟩
    simp only [Chip.marked]
    unfold upd
    by_cases h4 : k = c.ph vR / c.ppb <;> simp [h4]


theorem aligned2 (hc : c.Valid) {s : S} {vq : Nat} (hh : s.j.head = c.ph vq) (hu : c.isU vq) :
    isAligned (s.j.head + 2) c.log2Ppc = true ↔ c.last vq := by
  rw [isAligned_iff, hh]
  show (c.ph vq + 2) % c.ppc = 0 ↔ c.last vq
  unfold Cfg.last
  have h1 := ph_mod_ppc hc vq
  have h4 := hc.ppc_ge
  have hl := mod_ppc_lt c vq
  have e : (c.ph vq + 2) % c.ppc = (vq % c.ppc + 2) % c.ppc := by rw [Nat.add_mod, h1, Nat.add_mod_mod]
  rw [e]
  unfold Cfg.isU at hu
  constructor
  · intro h
    apply Classical.byContradiction; intro hn
    rw [Nat.mod_eq_of_lt (by omega)] at h; omega
  · intro h; rw [h]; exact Nat.mod_self _

theorem finishes_rec {s : S} {vts vt vq vR vM vn : Nat} (hr : RSt c s vt vq vR vM vn)
    (h : s.j.enumDone = true) : s.j.recovery = true ∧ RGeo c s vt vq vR vM vn := by
  rcases hr with h' | h'
  · rw [h'.ed] at h; cases h
  · exact h'

theorem newTs_ge {s : S} {vts vt vq : Nat} (h : vts ≤ vt) : vts ≤ newTs c s vts vt vq ∧ newTs c s vts vt vq ≤ vt := by
  unfold newTs; split <;> omega

/-- The push did not complete a checkpoint group. -/
theorem pushMeta_mid (hc : c.Valid) {s : S} {m : Option Buf} {vts vt vq vR vM vn : Nat}
    (g : Geo0 c s vts vt vq) (hw : c.Win vts (c.nextV vq)) (hok : HeadOK c s (vq + 1))
    (hr : RSt c s vt vq vR vM vn) (hl : ¬ c.last vq) :
    PMOut c s m vts vt vq vR vM (pushMeta c m s) := by
  obtain ⟨n1, n2, n3, n4⟩ := not_last hc g.uh hl
  have h4 := hc.ppc_ge
  have hlt := mod_ppc_lt c vq
  have hlC : vq % c.ppc + 1 < c.ppc := by have := g.uh; unfold Cfg.isU at this; omega
  unfold pushMeta
  have hh1 : (bufferMeta c m s.j).head = c.ph vq := by rw [bufferMeta_fields]; exact g.eh
  simp only [hh1]
  have hal : ¬ isAligned (c.ph vq + 2) c.log2Ppc = true := by
    rw [← g.eh, aligned2 hc g.eh g.uh]; exact hl
  rw [if_pos hal]
  have hfin : ¬ finishes c s vq := fun h => hl h.1
  have hts : newTs c s vts vt vq = vts := by unfold newTs; rw [if_neg (fun h => hl h.1)]
  have hph : c.ph vq + 1 = c.ph (vq + 1) := (ph_add hc hlC).symm
  refine .ok _ ⟨rfl, rfl, ?_, fun p _ => ⟨rfl, rfl⟩, fun _ => rfl, fun _ h => h, fun _ h => Or.inl h, ?_, ?_,
    ?_, fun h => absurd h hfin, fun h => absurd h hl, ?_, fun h => absurd h hl, ?_, fun h => absurd h hl⟩
  · rw [hts, n1]
    have hb := bufferMeta_fields (c := c) m s.j
    refine ⟨⟨?_, ?_, hph, g.uts, g.ut, n1 ▸ nextV_isU hc g.uh, g.l1, by have := g.l2; omega, n1 ▸ hw, ?_,
      g.alive, g.noub⟩, fun _ => hok⟩
    · simp only; rw [hb]; exact g.ets
    · simp only; rw [hb]; exact g.et
    · simp only; rw [hb]
      have : (vq + 1) / c.pages = vq / c.pages := by
        rcases lap_step hc (v := vq) (w := vq + 1) (by omega) (lt_next_blk c vq) with ⟨a, _⟩ | ⟨_, a⟩
        · exfalso
          have := ph_mod_ppb c (vq + 1); rw [a] at this
          have h3 := div_mod_range (vq + 1) c.ppb
          have h5 := div_mod_range vq c.ppb
          rw [n4] at h3
          simp at this
          omega
        · exact a
      rw [this]; exact g.ep
  · rw [metaBuf_head hc (vh := vq + 1) (lo := vts) hph (n1 ▸ hw) (Nat.le_trans g.l1 g.l2) (by omega) n3.symm]
    rw [← bufferMeta_slot hc (m := m) g.eh]
  · intro v h1 h2 hu _
    by_cases hg : v / c.ppc = vq / c.ppc
    · rw [metaBuf_head hc (vh := vq + 1) (lo := vts) hph (n1 ▸ hw) h1 (by omega) (hg.trans n3.symm),
        metaBuf_head hc (vh := vq) (lo := vts) g.eh g.win h1 (by omega) hg]
      congr 1
      refine bufferMeta_other hc g.eh ?_
      have := div_mod_range v c.ppc; have := div_mod_range vq c.ppc
      intro h; rw [hg] at *; omega
    · refine metaBuf_move hc (lo := vts) g.eh (vh' := vq + 1) hph (n1 ▸ hw) h1 h2 (by omega) hg (by rw [n3]; exact hg)
        (by simp only; rw [bufferMeta_fields]) ?_ rfl
      intro _; exact ⟨by simp only; rw [bufferMeta_fields], rfl⟩
  · intro _
    rw [bufferMeta_fields]; exact ⟨rfl, rfl, rfl, rfl, rfl, rfl⟩
  · intro _; rw [bufferMeta_fields]
  · intro i hi hi'
    refine bufferMeta_out hc g.eh (Or.inl ?_)
    unfold Cfg.slot; omega

/-- Facts about a push that completed a checkpoint group. -/
theorem pushMeta_last (hc : c.Valid) {s s' : S} {m : Option Buf} {vts vt vq vR vM vn : Nat}
    (g : Geo0 c s vts vt vq) (hw : c.Win vts (c.nextV vq)) (hok : HeadOK c s (vq + 1))
    (hr : RSt c s vt vq vR vM vn) (hl : c.last vq)
    (hroot : s'.j.root = c.ph vq) (hcnt : s'.count = s.count) (hhead : s'.j.head = c.ph (c.nextV vq))
    (hts : s'.j.tailSync = c.ph (newTs c s vts vt vq)) (htl : s'.j.tail = c.ph vt)
    (hep : s'.j.epoch = UInt8.ofNat (c.nextV vq / c.pages)) (hal : s'.n.dead = false)
    (hub : s'.n.ub = false)
    (hpage : s'.n.chip.page = upd s.n.chip.page (c.ph (vq + 1)) (some (c.clip (fillHeader (bufferMeta c m s.j)).pageBuf)))
    (hfree : ∀ p, p ≠ c.ph (vq + 1) → s'.n.chip.free p = s.n.chip.free p)
    (hbuf : s'.j.pageBuf = (fillHeader (bufferMeta c m s.j)).pageBuf) (hdirty : s'.j.dirty = false)
    (hbad : ∀ k, s'.n.chip.bad k = true ↔ (s.n.chip.bad k = true ∨ (s.j.enumDone = true ∧ retires c s vR vM k)))
    (hgo : s.j.enumDone = false → s'.j.recovery = s.j.recovery ∧ s'.j.enumDone = s.j.enumDone ∧
      s'.j.recoverRoot = s.j.recoverRoot ∧ s'.j.recoverNext = s.j.recoverNext ∧
      s'.j.recoverMeta = s.j.recoverMeta ∧ s'.j.badMeta = s.j.badMeta)
    (hdone : s.j.enumDone = true → Calm s') (hcpf : s'.n.chip.free (c.ph (vq + 1)) = false) :
    PMOk c s s' m vts vt vq vR vM := by
  obtain ⟨l1, l2, l3, l4, l5, l6, l7⟩ := is_last hc hl
  have hle := Nat.le_trans g.l1 g.l2
  have hpq : ∀ v, vts ≤ v → v < vq → s'.n.chip.page (c.ph v) = s.n.chip.page (c.ph v) := by
    intro v h1 h2
    rw [hpage]; unfold upd; rw [if_neg]
    intro he
    have := hw.inj h1 (by omega) (by omega : vts ≤ vq + 1) (by omega) he
    omega
  -- the dumped metadata and the recovery root are elsewhere
  have hR : s.j.recoverMeta = NONE ∨ (∃ vR', s.j.recoverRoot = c.ph vR' ∧ vR' = vR ∧ vts ≤ vR' ∧ vR' ≤ vq ∧
      vR' / c.ppc < vq / c.ppc ∧ s.j.recoverMeta = c.ph vM ∧ vts ≤ vM ∧ vM < vq) := by
    rcases hr with h | ⟨_, h⟩
    · exact Or.inl h.rm
    · rcases h.rm with h' | ⟨h1, h2, h3, h4⟩
      · exact Or.inl h'
      · refine Or.inr ⟨vR, h.rr, rfl, Nat.le_trans g.l1 h.tR, ?_, grp_lt_of_blk hc h.bR, h1, ?_, h4⟩
        · apply Classical.byContradiction; intro hn
          have := Nat.div_le_div_right (c := c.ppb) (by omega : vq ≤ vR)
          have := h.bR; omega
        · apply Classical.byContradiction; intro hn
          have h5 : vM ≤ vR := by have := h.tR; have := g.l1; omega
          have := Nat.div_le_div_right (c := c.ppb) h5
          omega
  have hvM : s.j.recoverMeta ≠ NONE → s'.n.chip.page s.j.recoverMeta = s.n.chip.page s.j.recoverMeta := by
    intro hn
    rcases hR with h | ⟨_, _, _, _, _, _, h, h1, h2⟩
    · exact absurd h hn
    · rw [h]; exact hpq _ h1 h2
  have hcp : s'.n.chip.page (c.ph (vq + 1)) = some (c.clip (fillHeader (bufferMeta c m s.j)).pageBuf) := by
    rw [hpage]; unfold upd; rw [if_pos rfl]
  have hgrp : vq / c.ppc ≠ c.nextV vq / c.ppc := by rw [l1, l3]; omega
  -- the group just completed: read from the checkpoint page
  have hsame : ∀ v, vts ≤ v → v ≤ vq → c.isU v → v / c.ppc = vq / c.ppc →
      metaBuf c s' (c.ph v) = some ((bufferMeta c m s.j).pageBuf.slice (c.slot v) 132) := by
    intro v h1 h2 hu hg
    have hcpv : c.cpV v = vq + 1 := by
      rw [← l6]; unfold Cfg.cpV; rw [hg]
    rw [metaBuf_cp hc (lo := vts) hhead hw h1 (by omega) (by rw [hg]; exact hgrp), hcpv, hcp]
    · simp only [Option.map_some]
      congr 1
      rw [clip_slice (slot_fit hc hu)]
      apply slice_congr; intro i hi
      rw [fillHeader_out (by unfold Cfg.slot; omega)]
    · cases hed : s.j.enumDone with
      | true => exact Or.inl (hdone hed).rm
      | false =>
        obtain ⟨_, _, e1, _, e2, _⟩ := hgo hed
        rcases hR with h | ⟨vR', h, _, h2, h3, h4, _⟩
        · left; rw [e2, h]
        · right; exact ⟨vR', by rw [e1, h], h2, by omega, by omega⟩
  refine ⟨hroot, hcnt, ?_, ?_, fun h => absurd hl h, fun k hk => (hbad k).2 (Or.inl hk), ?_, ?_, ?_, ?_, ?_,
    fun _ => hdirty, fun h => absurd hl h, ?_, ?_, fun _ => hcpf⟩
  · obtain ⟨t1, t2⟩ := newTs_ge (c := c) (s := s) (vq := vq) g.l1
    refine ⟨⟨hts, htl, hhead, ?_, g.ut, nextV_isU hc g.uh, t2, by have := g.l2; omega,
      hw.mono t1 (Nat.le_refl _), hep, hal, hub⟩, ?_⟩
    · unfold newTs; split
      · exact g.ut
      · exact g.uts
    · intro hn
      have hb : c.nextV vq / c.ppb = vq / c.ppb := by
        rcases nextV_blk hc g.uh with h | h
        · exact h.1
        · exact absurd h.2 hn
      have hOA : HeadOK c { s' with n := { s'.n with chip := { s'.n.chip with bad := s.n.chip.bad } } } (c.nextV vq) := by
        refine headOK_advance (w := vq + 1) hok ⟨?_, hfree, rfl⟩ (Nat.le_refl _) (by omega) (by rw [hb, l5])
        intro x hx
        show s'.n.chip.page x = _
        rw [hpage]; unfold upd; rw [if_neg hx]
      refine ⟨?_, hOA.2⟩
      have hb0 : s.n.chip.bad (c.ph (c.nextV vq) / c.ppb) = false := hOA.1
      cases hbb : s'.n.chip.bad (c.ph (c.nextV vq) / c.ppb) with
      | false => rfl
      | true =>
        exfalso
        rcases (hbad _).1 hbb with h | ⟨h1, h2⟩
        · rw [hb0] at h; cases h
        · obtain ⟨_, hg⟩ := finishes_rec (vts := vts) hr h1
          rcases h2 with h2 | ⟨h3, h2⟩
          · have := hw.blk_inj (by omega) (Nat.le_refl _) (Nat.le_trans g.l1 hg.tR) ?_ h2
            · have := hg.bR; omega
            · apply Classical.byContradiction; intro hn
              have := Nat.div_le_div_right (c := c.ppb) (by omega : c.nextV vq ≤ vR)
              have := hg.bR; omega
          · rcases hg.rm with h' | ⟨e1, e2, e3, e4⟩
            · exact absurd h' (hg.bm h3).1
            · have := hw.blk_inj (by omega) (Nat.le_refl _) ?_ (by omega) h2
              · have := (hg.bm h3).2; omega
              · rcases hR with h | ⟨_, _, _, _, _, _, _, h5, _⟩
                · exact absurd h (hg.bm h3).1
                · exact h5
  · intro p hp
    refine ⟨?_, hfree p hp⟩
    rw [hpage]; unfold upd; rw [if_neg hp]
  · intro k hk
    rcases (hbad k).1 hk with h | h
    · exact Or.inl h
    · exact Or.inr ⟨⟨hl, h.1⟩, h.2⟩
  · rw [hsame vq hle (Nat.le_refl _) g.uh rfl, bufferMeta_slot hc g.eh]
  · intro v h1 h2 hu hnf
    by_cases hg : v / c.ppc = vq / c.ppc
    · rw [hsame v h1 (by omega) hu hg, metaBuf_head hc (vh := vq) (lo := vts) g.eh g.win h1 (by omega) hg]
      congr 1
      refine bufferMeta_other hc g.eh ?_
      have := div_mod_range v c.ppc; have := div_mod_range vq c.ppc
      intro h; rw [hg] at *; omega
    · have hg' : v / c.ppc ≠ c.nextV vq / c.ppc := by
        have := Nat.div_le_div_right (c := c.ppc) (Nat.le_of_lt h2); rw [l1, l3]; omega
      have hlt : v / c.ppc < vq / c.ppc := by
        have := Nat.div_le_div_right (c := c.ppc) (Nat.le_of_lt h2); omega
      have hpg : s'.n.chip.page (c.ph (c.cpV v)) = s.n.chip.page (c.ph (c.cpV v)) :=
        hpq _ (Nat.le_trans h1 (cpV_ge c v)) (cpV_lt hlt)
      cases hed : s.j.enumDone with
      | false =>
        obtain ⟨_, _, e1, _, e2, _⟩ := hgo hed
        exact metaBuf_move hc (lo := vts) g.eh hhead hw h1 h2 (by omega) hg hg' e2 (fun hn => ⟨e1, hvM hn⟩) hpg
      | true =>
        obtain ⟨_, hgeo⟩ := finishes_rec (vts := vts) hr hed
        have hvR : v / c.ppc ≠ vR / c.ppc := fun h => hnf ⟨⟨hl, hed⟩, div_ppb_of_div_ppc hc h⟩
        rw [metaBuf_cp hc (lo := vts) hhead hw h1 (by omega) hg' (Or.inl (hdone hed).rm),
          metaBuf_cp hc (lo := vts) g.eh g.win h1 (by omega) hg ?_, hpg]
        right
        refine ⟨vR, hgeo.rr, Nat.le_trans g.l1 hgeo.tR, ?_, hvR⟩
        apply Classical.byContradiction; intro hn
        have := Nat.div_le_div_right (c := c.ppb) (by omega : vq ≤ vR)
        have := hgeo.bR; omega
  · intro hf
    have hed : s.j.enumDone = false := by
      cases h : s.j.enumDone with
      | false => rfl
      | true => exact absurd ⟨hl, h⟩ hf
    exact hgo hed
  · intro hf
    exact ⟨hdone hf.2, fun k hk => (hbad k).2 (Or.inr ⟨hf.2, hk⟩)⟩
  · intro _
    refine ⟨_, hcp, cpPage_clip hc ?_⟩
    have h1 := fillHeader_cp (j := bufferMeta c m s.j) (by rw [bufferMeta_fields]; show s.j.tail < _; rw [g.et]; exact ph_lt32 hc _)
    have e1 : (bufferMeta c m s.j).epoch = UInt8.ofNat (vq / c.pages) := by rw [bufferMeta_fields]; exact g.ep
    have e2 : (bufferMeta c m s.j).tail = c.ph vt := by rw [bufferMeta_fields]; exact g.et
    have e3 : r32 (bufferMeta c m s.j).pageBuf 16 = r32 s.j.pageBuf 16 :=
      r32_congr fun i hi => bufferMeta_out hc g.eh (Or.inl (by unfold Cfg.slot; omega))
    rw [e1, e2, e3] at h1; exact h1
  · intro i hi hi'
    rw [hbuf, fillHeader_out hi]
    exact bufferMeta_out hc g.eh (Or.inl (by unfold Cfg.slot; omega))

theorem isFF_magic (hc : c.Valid) {b : Buf} (h : hdrHasMagic b = true) : c.isFF b = false := by
  have hs : 512 ≤ c.pageSize := hc.pageSize_ge
  unfold hdrHasMagic at h
  simp only [Bool.and_eq_true, beq_iff_eq] at h
  cases hf : c.isFF b with
  | false => rfl
  | true =>
    unfold Cfg.isFF at hf
    rw [List.all_eq_true] at hf
    have := hf 0 (List.mem_range.2 (by omega))
    rw [beq_iff_eq, h.1.1] at this
    exact absurd this (by decide)

theorem programmed_evo {n : Nand} {p : Nat} {d : Buf} (h : n.chip.free p = true) :
    Evo c n (n.progTo (n.chip.programmed c p d)) := by
  refine ⟨by simp [Nand.progTo], fun _ => Nat.le_refl _, fun h => h, fun _ h => h, ?_, fun _ h => Or.inl h, ?_⟩
  rotate_left
  · intro _ hr q
    show (n.chip.programmed c p d).page q ≠ none
    by_cases hq : q = p
    · simp [Chip.programmed, upd, hq]
    · simp only [Chip.programmed, upd, if_neg hq]; exact hr q
  intro _ q hq _
  have hne : q ≠ p := by intro e; rw [e, h] at hq; cases hq
  simp [Nand.progTo, Chip.programmed, upd, hne, hq]

/-- The state after the checkpoint page was programmed, before journal.c:811. -/
def cpDone (c : Cfg) (m : Option Buf) (vq : Nat) (s : S) : S :=
  { j := fillHeader (bufferMeta c m s.j),
    n := s.n.progTo (s.n.chip.programmed c (c.ph (vq + 1)) (fillHeader (bufferMeta c m s.j)).pageBuf),
    count := s.count }

theorem pushMeta_commit (hc : c.Valid) {s : S} {m : Option Buf} {vts vt vq vR vM vn : Nat}
    (g : Geo0 c s vts vt vq) (hw : c.Win vts (c.nextV vq)) (hok : HeadOK c s (vq + 1))
    (hr : RSt c s vt vq vR vM vn) (hl : c.last vq) :
    PMOk c s (commitPush c (c.ph vq) (cpDone c m vq s)) m vts vt vq vR vM ∧
    (Calm s → (commitPush c (c.ph vq) (cpDone c m vq s)).n = (cpDone c m vq s).n) := by
  have hh1 : (bufferMeta c m s.j).head = c.ph vq := by rw [bufferMeta_fields]; exact g.eh
  let s2 : S := cpDone c m vq s
  show PMOk c s (commitPush c (c.ph vq) s2) m vts vt vq vR vM ∧ (Calm s → (commitPush c (c.ph vq) s2).n = s2.n)
  have hj2 : s2.j = { s.j with pageBuf := (fillHeader (bufferMeta c m s.j)).pageBuf } := by
    show fillHeader (bufferMeta c m s.j) = _
    rw [fillHeader_fields]
    generalize (fillHeader (bufferMeta c m s.j)).pageBuf = B
    rw [bufferMeta_fields]
  obtain ⟨x, y, c1, c2, c3⟩ := commitPush_eq hc (s := s2) (vq := vq) (by rw [hj2]; exact g.eh) g.uh (by rw [hj2]; exact g.ep)
  have hed2 : s2.j.enumDone = s.j.enumDone := by rw [hj2]
  have hrec2 : s2.j.recovery = s.j.recovery := by rw [hj2]
  have hts2 : s2.j.tailSync = s.j.tailSync := by rw [hj2]
  have htl2 : s2.j.tail = s.j.tail := by rw [hj2]
  have hrr2 : s2.j.recoverRoot = s.j.recoverRoot := by rw [hj2]
  have hrn2 : s2.j.recoverNext = s.j.recoverNext := by rw [hj2]
  have hrm2 : s2.j.recoverMeta = s.j.recoverMeta := by rw [hj2]
  have hbm2 : s2.j.badMeta = s.j.badMeta := by rw [hj2]
  have hdead2 : s2.n.dead = false := g.alive
  have hub2 : s2.n.ub = false := g.noub
  have hpg2 : s2.n.chip.page = upd s.n.chip.page (c.ph (vq + 1)) (some (c.clip (fillHeader (bufferMeta c m s.j)).pageBuf)) := rfl
  have hfr2 : ∀ p, p ≠ c.ph (vq + 1) → s2.n.chip.free p = s.n.chip.free p := by
    intro p hp; show upd _ _ _ p = _; unfold upd; rw [if_neg hp]
  have hbd2 : s2.n.chip.bad = s.n.chip.bad := rfl
  have hcf2 : s2.n.chip.free (c.ph (vq + 1)) = false := by
    show upd _ _ _ _ = _
    unfold upd; rw [if_pos rfl, isFF_magic hc (fillHeader_cp (j := bufferMeta c m s.j)
      (by rw [bufferMeta_fields]; show s.j.tail < _; rw [g.et]; exact ph_lt32 hc _)).magic]
    simp
  have hfin : Calm s → (commitPush c (c.ph vq) s2).n = s2.n := by
    intro hcalm
    rw [c2 (by rw [hed2, hcalm.ed]) (by rw [hrec2, hcalm.nr])]
  have hct2 : s2.count = s.count := rfl
  have hpb2 : s2.j.pageBuf = (fillHeader (bufferMeta c m s.j)).pageBuf := rfl
  refine ⟨?_, hfin⟩
  clear hfin
  generalize s2 = s2 at *
  cases hed : s.j.enumDone with
  | true =>
    obtain ⟨hrc, hgeo⟩ := finishes_rec (vts := vts) hr hed
    obtain ⟨r1, r2, r3, r4, r5⟩ := retired_eq hc (s := s2) (vR := vR) (vM := vM) hdead2 (by rw [hrr2]; exact hgeo.rr)
      (by rw [hbm2, hrm2]; intro hb
          rcases hgeo.rm with h' | h'
          · exact absurd h' (hgeo.bm hb).1
          · exact h'.1)
    rw [c1 (by rw [hed2, hed])]
    refine pushMeta_last hc g hw hok hr hl rfl hct2 rfl ?_ ?_ rfl r1 (r2.trans hub2) (r3.trans hpg2)
      (fun p hp => by show (retired c s2).chip.free p = _; rw [r4]; exact hfr2 p hp) hpb2 rfl ?_ ?_ ?_
      (by show (retired c s2).chip.free _ = _; rw [r4]; exact hcf2)
    · show s2.j.tail = _
      unfold newTs; rw [if_pos ⟨hl, Or.inr hed⟩, htl2]; exact g.et
    · show s2.j.tail = _; rw [htl2]; exact g.et
    · intro k
      show (retired c s2).chip.bad k = true ↔ _
      rw [r5, hbd2, hed]
      unfold retires; rw [hbm2]; simp
    · intro h; rw [hed] at h; cases h
    · intro _; exact ⟨rfl, rfl, rfl, rfl⟩
  | false =>
    cases hrc : s.j.recovery with
    | false =>
      rw [c2 (by rw [hed2, hed]) (by rw [hrec2, hrc])]
      refine pushMeta_last hc g hw hok hr hl rfl hct2 rfl ?_ ?_ rfl hdead2 hub2 hpg2 hfr2 hpb2 rfl ?_ ?_ ?_ hcf2
      · show s2.j.tail = _
        unfold newTs; rw [if_pos ⟨hl, Or.inl hrc⟩, htl2]; exact g.et
      · show s2.j.tail = _; rw [htl2]; exact g.et
      · intro k; simp only [hbd2, hed]; simp
      · intro _; exact ⟨hrec2, hed2, hrr2, hrn2, hrm2, hbm2⟩
      · intro h; rw [hed] at h; cases h
    | true =>
      rw [c3 (by rw [hed2, hed]) (by rw [hrec2, hrc])]
      refine pushMeta_last hc g hw hok hr hl rfl hct2 rfl ?_ ?_ rfl hdead2 hub2 hpg2 hfr2 hpb2 rfl ?_ ?_ ?_ hcf2
      · show s2.j.tailSync = _
        unfold newTs; rw [if_neg (by rintro ⟨_, h | h⟩ <;> simp_all), hts2]; exact g.ets
      · show s2.j.tail = _; rw [htl2]; exact g.et
      · intro k; simp only [hbd2, hed]; simp
      · intro _; exact ⟨hrec2, hed2, hrr2, hrn2, hrm2, hbm2⟩
      · intro h; rw [hed] at h; cases h

theorem pushMeta_spec (hc : c.Valid) {s : S} {m : Option Buf} {vts vt vq vR vM vn : Nat}
    (g : Geo0 c s vts vt vq) (hw : c.Win vts (c.nextV vq)) (hok : HeadOK c s (vq + 1))
    (hr : RSt c s vt vq vR vM vn) : PMOut c s m vts vt vq vR vM (pushMeta c m s) := by
  by_cases hl : c.last vq
  · unfold pushMeta
    have hh1 : (bufferMeta c m s.j).head = c.ph vq := by rw [bufferMeta_fields]; exact g.eh
    have hlC : vq % c.ppc + 1 < c.ppc := by unfold Cfg.last at hl; omega
    have hph : c.ph vq + 1 = c.ph (vq + 1) := (ph_add hc hlC).symm
    simp only [hh1]
    have hal : isAligned (c.ph vq + 2) c.log2Ppc = true := by
      rw [← g.eh, aligned2 hc g.eh g.uh]; exact hl
    rw [if_neg (by simpa using hal)]
    have hh2 : (fillHeader (bufferMeta c m s.j)).head = c.ph vq := hh1
    simp only [hh2, hph]
    obtain ⟨l1, l2, l3, l4, l5, l6, l7⟩ := is_last hc hl
    have hcan := headOK_canProg hc hok (k := 0) (by
      rw [Nat.add_zero]; have := div_add_lt hlC; omega)
    rw [Nat.add_zero] at hcan
    unfold progS
    rw [g.eh]
    rcases nandProg_spec (c := c) (d := (fillHeader (bufferMeta c m s.j)).pageBuf) g.alive g.noub hcan with
      ⟨hf, h⟩ | ⟨hf, h⟩ | ⟨n', h, h2, h3, h4, h5⟩
    · simp only [h]
      refine .ok _ ?_
      exact (pushMeta_commit hc g hw hok hr hl).1
    · simp only [h]
      have hg1 : ∀ s1 : S, s1.j = { s.j with pageBuf := (fillHeader (bufferMeta c m s.j)).pageBuf } →
          s1.n.dead = false → s1.n.ub = false → Geo0 c s1 vts vt vq := by
        intro s1 e1 e2 e3
        exact ⟨by rw [e1]; exact g.ets, by rw [e1]; exact g.et, by rw [e1]; exact g.eh, g.uts, g.ut, g.uh, g.l1,
          g.l2, g.win, by rw [e1]; exact g.ep, e2, e3⟩
      have hj2 : fillHeader (bufferMeta c m s.j) = { s.j with pageBuf := (fillHeader (bufferMeta c m s.j)).pageBuf } := by
        rw [fillHeader_fields]
        generalize (fillHeader (bufferMeta c m s.j)).pageBuf = B
        rw [bufferMeta_fields]
      let s1 : S := { j := fillHeader (bufferMeta c m s.j), n := s.n.progTo (s.n.chip.garbledPage c s.n.time (c.ph (vq + 1)) (c.env.junkFree s.n.time (c.ph (vq + 1)))) (upd s.n.failed (c.ph (vq + 1) / c.ppb) true), count := s.count }
      have G : Geo0 c s1 vts vt vq := hg1 s1 hj2 g.alive g.noub
      refine .bad s1 _ hl ⟨_, hj2, ?_⟩ rfl G (onlyAt_garbled _ _ _ _) hf rfl (recoverFrom_spec hc G) rfl
      intro w hw
      rw [show (fillHeader (bufferMeta c m s.j)).pageBuf.slice (c.slot w) 132 = (bufferMeta c m s.j).pageBuf.slice (c.slot w) 132 from
        slice_congr fun i hi => fillHeader_out (by unfold Cfg.slot; omega)]
      exact bufferMeta_other hc g.eh hw
    · simp only [h]
      rw [recoverFrom_ne (by decide)]
      refine .stop _ _ (by decide) h2 rfl (fun _ => ⟨hl, h4, ?_⟩)
      rcases h5 with h5 | h5 | h5
      · left
        refine ⟨⟨fun _ _ => by simp only [h5], fun _ _ => by simp only [h5], by simp only [h5]⟩, Or.inl (by simp only [h5]), ?_⟩
        simp only [h5]; exact id
      · right
        intro hcalm
        obtain ⟨k1, k2⟩ := pushMeta_commit (m := m) hc g hw hok hr hl
        have hev := nandProg_evo (c := c) (c.ph (vq + 1)) (fillHeader (bufferMeta c m s.j)).pageBuf s.n
        rw [h] at hev
        refine ⟨_, k1, ?_, ?_, ?_, ?_⟩
        · rw [k2 hcalm]; exact h5.symm
        · rw [k2 hcalm]; exact h4.symm
        · rw [k2 hcalm]; exact programmed_evo (mod_range_all hcan)
        · rw [k2 hcalm]
          refine ⟨by rw [h4]; exact Nat.le_refl _, hev.erases, hev.ub, ?_, ?_, fun b hb => Or.inl (by rw [nandProg_lost h] at hb; exact hb),
            fun _ hr p => by rw [h5]; exact hr p⟩
          · intro b hb; rw [h5]; exact hb
          · intro _ p hp _; rw [h5]; exact ⟨rfl, hp⟩
      · left
        have := onlyAt_garbled (f := s.n.failed) (c := c) s.n s.n.time (c.ph (vq + 1)) false
        refine ⟨⟨fun x hx => by simp only [h5]; exact this.page x hx,
          fun x hx => by simp only [h5]; exact this.free x hx, by simp only [h5]; exact this.bad⟩,
          Or.inr ⟨s.n.time, by simp only [h5, Chip.garbledPage, upd, if_true]⟩, ?_⟩
        simp only [h5, Chip.garbledPage, upd]; simp
  · exact pushMeta_mid hc g hw hok hr hl

end Dhara

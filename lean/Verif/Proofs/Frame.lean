/-
Frame conditions: which pages a journal operation leaves alone, and how stored metadata
is located.
-/
import Verif.Proofs.Jrn
namespace Dhara

variable {c : Cfg}

theorem ph_add (hc : c.Valid) {v k : Nat} (h : v % c.ppc + k < c.ppc) : c.ph (v + k) = c.ph v + k := by
  obtain ⟨m, hm⟩ := hc.ppc_dvd_pages
  have hp := hc.pages_pos
  have h1 := ph_mod_ppc hc v
  have h2 := ph_lt hc v
  have h3 := div_mod_range (c.ph v) c.ppc
  have h4 : c.ph v / c.ppc < m := by
    rw [Nat.div_lt_iff_lt_mul (ppc_pos c), Nat.mul_comm, ← hm]; exact h2
  have h5 : (c.ph v / c.ppc + 1) * c.ppc ≤ m * c.ppc := Nat.mul_le_mul_right _ h4
  rw [Nat.add_mul, Nat.one_mul] at h5
  have h6 : m * c.ppc = c.pages := by rw [hm, Nat.mul_comm]
  have h7 : c.ph v + k < c.pages := by omega
  show (v + k) % c.pages = _
  have h8 := div_mod_range v c.pages
  rw [mod_of_range (k := v / c.pages) (by omega)]
  · show _ = v % c.pages + k; omega
  · have : c.ph v = v % c.pages := rfl
    omega

theorem ph_ne_none (hc : c.Valid) (v : Nat) : c.ph v ≠ NONE := by
  have := ph_lt hc v; have := hc.pages_hi; omega

theorem ph_lt32 (hc : c.Valid) (v : Nat) : c.ph v < 2 ^ 32 := by
  have := ph_lt hc v; have := hc.pages_hi; omega

/-- Position of the checkpoint page of the group of `v`. -/
def Cfg.cpV (c : Cfg) (v : Nat) : Nat := v / c.ppc * c.ppc + (c.ppc - 1)

theorem cpV_ge (c : Cfg) (v : Nat) : v ≤ c.cpV v := by
  have := div_mod_range v c.ppc; have := mod_ppc_lt c v; unfold Cfg.cpV; omega

theorem cpV_lt {v w : Nat} (h : v / c.ppc < w / c.ppc) : c.cpV v < w := by
  have h1 := div_mod_range w c.ppc
  have h2 : (v / c.ppc + 1) * c.ppc ≤ w / c.ppc * c.ppc := Nat.mul_le_mul_right _ h
  rw [Nat.add_mul, Nat.one_mul] at h2
  have := ppc_pos c
  unfold Cfg.cpV; omega

theorem ph_cp (hc : c.Valid) (v : Nat) : c.ph v ||| (c.ppc - 1) = c.ph (c.cpV v) := by
  have h0 := ppc_pos c
  have h1 := div_mod_range v c.ppc
  have hl := mod_ppc_lt c v
  have e : c.cpV v = v + (c.ppc - 1 - v % c.ppc) := by unfold Cfg.cpV; omega
  rw [or_mask, e, ph_add hc (by omega)]
  have h3 := div_mod_range (c.ph v) c.ppc
  rw [ph_mod_ppc hc] at h3
  omega

theorem cpV_div {v : Nat} : c.cpV v / c.ppc = v / c.ppc := by
  have := ppc_pos c
  apply div_of_range this <;> unfold Cfg.cpV <;> omega

/-- `p` is not a page at or after position `v`, up to the block of `v'`. -/
def Outside (c : Cfg) (v v' p : Nat) : Prop :=
  ∀ b, v / c.ppb ≤ b → b ≤ v' / c.ppb → p / c.ppb = b % c.numBlocks →
    b = v / c.ppb ∧ p % c.ppb < v % c.ppb

theorem outside_ph (_hc : c.Valid) {lo v v' w : Nat} (hw : c.Win lo v') (h1 : lo ≤ w) (h2 : w < v)
    (_h3 : v ≤ v') : Outside c v v' (c.ph w) := by
  intro b hb1 hb2 he
  rw [ph_div_ppb] at he
  unfold Cfg.Win at hw
  have a1 : lo / c.ppb ≤ w / c.ppb := Nat.div_le_div_right h1
  have a2 : w / c.ppb ≤ v / c.ppb := Nat.div_le_div_right (Nat.le_of_lt h2)
  have e := mod_inj (base := lo / c.ppb) (m := c.numBlocks) (a := w / c.ppb) (b := b)
    (by omega) (by omega) (by omega) (by omega) he
  refine ⟨by omega, ?_⟩
  rw [ph_mod_ppb]
  have e1 := div_mod_range w c.ppb
  have e2 := div_mod_range v c.ppb
  have : w / c.ppb = v / c.ppb := by omega
  rw [this] at e1; omega

theorem outside_mono {v0 v1 v2 p : Nat} (h : v0 ≤ v1) (h' : v1 ≤ v2) (ho : Outside c v0 v2 p) :
    Outside c v0 v1 p ∧ Outside c v1 v2 p := by
  have a := Nat.div_le_div_right (c := c.ppb) h
  have b := Nat.div_le_div_right (c := c.ppb) h'
  constructor
  · intro k h1 h2 e; exact ho k h1 (by omega) e
  · intro k h1 h2 e
    obtain ⟨e1, e2⟩ := ho k (by omega) h2 e
    have e3 : v1 / c.ppb = v0 / c.ppb := by omega
    refine ⟨by omega, ?_⟩
    have d0 := div_mod_range v0 c.ppb
    have d1 := div_mod_range v1 c.ppb
    rw [e3] at d1; omega

/-- The chip changed only at or after position `v`, up to the block of `v'`; blocks were marked bad
only if they satisfy `ex`. -/
structure CKeep (c : Cfg) (n n' : Nand) (v v' : Nat) (ex : Nat → Prop) : Prop where
  le : v ≤ v'
  page : ∀ p, Outside c v v' p → n'.chip.page p = n.chip.page p
  free : ∀ p, Outside c v v' p → n'.chip.free p = n.chip.free p
  badm : ∀ k, n.chip.bad k = true → n'.chip.bad k = true
  badn : ∀ k, n'.chip.bad k = true → n.chip.bad k = true ∨ ex k

/-- No blocks. -/
def noEx : Nat → Prop := fun _ => False

/-- The physical blocks of virtual blocks `b0 .. b1 - 1`. -/
def inBlks (c : Cfg) (b0 b1 : Nat) : Nat → Prop := fun k => ∃ b, b0 ≤ b ∧ b < b1 ∧ k = b % c.numBlocks

theorem CKeep.refl (n : Nand) (v : Nat) : CKeep c n n v v noEx :=
  ⟨Nat.le_refl _, fun _ _ => rfl, fun _ _ => rfl, fun _ h => h, fun _ h => Or.inl h⟩

theorem CKeep.trans {n n1 n2 : Nand} {v v1 v2 : Nat} {ex ex' ex'' : Nat → Prop}
    (h : CKeep c n n1 v v1 ex) (h' : CKeep c n1 n2 v1 v2 ex')
    (hex : ∀ k, ex k ∨ ex' k → ex'' k) : CKeep c n n2 v v2 ex'' := by
  refine ⟨Nat.le_trans h.le h'.le, ?_, ?_, fun k hk => h'.badm k (h.badm k hk), ?_⟩
  · intro p ho
    obtain ⟨o1, o2⟩ := outside_mono h.le h'.le ho
    rw [h'.page p o2, h.page p o1]
  · intro p ho
    obtain ⟨o1, o2⟩ := outside_mono h.le h'.le ho
    rw [h'.free p o2, h.free p o1]
  · intro k hk
    rcases h'.badn k hk with h1 | h1
    · rcases h.badn k h1 with h2 | h2
      · exact Or.inl h2
      · exact Or.inr (hex k (Or.inl h2))
    · exact Or.inr (hex k (Or.inr h1))

theorem CKeep.mono {n n' : Nand} {v v' w : Nat} {ex ex' : Nat → Prop} (h : CKeep c n n' v v' ex)
    (hw : v' ≤ w) (hex : ∀ k, ex k → ex' k) : CKeep c n n' v w ex' := by
  refine ⟨Nat.le_trans h.le hw, ?_, ?_, h.badm, ?_⟩
  · intro p ho; exact h.page p (outside_mono h.le hw ho).1
  · intro p ho; exact h.free p (outside_mono h.le hw ho).1
  · intro k hk
    rcases h.badn k hk with h1 | h1
    · exact Or.inl h1
    · exact Or.inr (hex k h1)

/-- Blocks outside `ex` keep their status. -/
theorem CKeep.bad_eq {n n' : Nand} {v v' k : Nat} {ex : Nat → Prop}
    (h : CKeep c n n' v v' ex) (hex : ¬ ex k) : n'.chip.bad k = n.chip.bad k := by
  cases hb : n.chip.bad k with
  | true => exact h.badm _ hb
  | false =>
    cases hb' : n'.chip.bad k with
    | false => rfl
    | true =>
      rcases h.badn _ hb' with h3 | h3
      · rw [hb] at h3; cases h3
      · exact absurd h3 hex

/-- Live positions keep their contents. -/
theorem CKeep.live (hc : c.Valid) {n n' : Nand} {v v' lo w : Nat} {ex : Nat → Prop}
    (h : CKeep c n n' v v' ex) (hw : c.Win lo v') (h1 : lo ≤ w) (h2 : w < v) :
    n'.chip.page (c.ph w) = n.chip.page (c.ph w) :=
  h.page _ (outside_ph hc hw h1 h2 h.le)

/-- A position before block `b0` is not in blocks `b0 .. b1 - 1`. -/
theorem not_inBlks {lo hi w b0 b1 : Nat} (hw : c.Win lo hi) (h1 : lo ≤ w) (h2 : w / c.ppb < b0)
    (h3 : b1 ≤ hi / c.ppb + 1) : ¬ inBlks c b0 b1 (c.ph w / c.ppb) := by
  intro ⟨b, hb1, hb2, hb3⟩
  rw [ph_div_ppb] at hb3
  unfold Cfg.Win at hw
  have a1 : lo / c.ppb ≤ w / c.ppb := Nat.div_le_div_right h1
  have e := mod_inj (base := lo / c.ppb) (m := c.numBlocks) (a := w / c.ppb) (b := b)
    (by omega) (by omega) (by omega) (by omega) hb3
  omega

theorem inBlks_mono {b0 b1 b0' b1' k : Nat} (h : inBlks c b0 b1 k) (h0 : b0' ≤ b0) (h1 : b1 ≤ b1') :
    inBlks c b0' b1' k := by
  obtain ⟨b, x, y, z⟩ := h; exact ⟨b, by omega, by omega, z⟩

/-! ### Locating metadata -/

theorem grp_eq_iff (hc : c.Valid) {lo hi v w : Nat} (hw : c.Win lo hi) (h1 : lo ≤ v) (h2 : v ≤ hi)
    (h3 : lo ≤ w) (h4 : w ≤ hi) :
    alignEq (c.ph v) (c.ph w) c.log2Ppc = true ↔ v / c.ppc = w / c.ppc := by
  rw [alignEq_iff]
  constructor
  · intro h; exact hw.grp_inj hc h1 h2 h3 h4 h
  · intro h
    show c.ph v / c.ppc = c.ph w / c.ppc
    rw [ph_div_ppc hc, ph_div_ppc hc, h]

/-- Offset of the metadata slot of position `v`. -/
def Cfg.slot (c : Cfg) (v : Nat) : Nat := 20 + v % c.ppc * 132

theorem slot_off (hc : c.Valid) (v : Nat) : hdrUserOffset (c.ph v &&& (c.ppc - 1)) = c.slot v := by
  rw [slot_eq, ph_mod_ppc hc]
  have := mod_ppc_lt c v; have := hc.ppc_le
  exact hdrUserOffset_lt (by omega)

theorem slot_fit (hc : c.Valid) {v : Nat} (hu : c.isU v) : c.slot v + 132 ≤ c.pageSize := by
  have h1 := hc.slots_fit
  unfold Cfg.isU at hu
  have h2 := mod_ppc_lt c v
  have : v % c.ppc + 1 ≤ c.ppc - 1 := by omega
  have := Nat.mul_le_mul_right 132 this
  unfold Cfg.slot; omega

theorem slot_disj {v w : Nat} (h : v % c.ppc ≠ w % c.ppc) :
    c.slot v + 132 ≤ c.slot w ∨ c.slot w + 132 ≤ c.slot v := by
  unfold Cfg.slot
  rcases Nat.lt_or_gt_of_ne h with h | h <;> omega

/-- Metadata of a position in the head's group is in the buffer. -/
theorem metaBuf_head (hc : c.Valid) {s : S} {lo v vh : Nat} (hh : s.j.head = c.ph vh)
    (hw : c.Win lo vh) (h1 : lo ≤ v) (h2 : v ≤ vh) (hg : v / c.ppc = vh / c.ppc) :
    metaBuf c s (c.ph v) = some (s.j.pageBuf.slice (c.slot v) 132) := by
  unfold metaBuf
  simp only [slot_off hc, hh]
  rw [if_pos ((grp_eq_iff hc hw h1 h2 (by omega) (Nat.le_refl _)).2 hg)]

/-- Metadata of a position in a completed group is in the group's checkpoint page. -/
theorem metaBuf_cp (hc : c.Valid) {s : S} {lo v vh : Nat} (hh : s.j.head = c.ph vh)
    (hw : c.Win lo vh) (h1 : lo ≤ v) (h2 : v ≤ vh) (hg : v / c.ppc ≠ vh / c.ppc)
    (hr : s.j.recoverMeta = NONE ∨ ∃ vR, s.j.recoverRoot = c.ph vR ∧ lo ≤ vR ∧ vR ≤ vh ∧
      v / c.ppc ≠ vR / c.ppc) :
    metaBuf c s (c.ph v) = (s.n.chip.page (c.ph (c.cpV v))).map (·.slice (c.slot v) 132) := by
  unfold metaBuf
  simp only [slot_off hc, hh]
  rw [if_neg (fun h => hg ((grp_eq_iff hc hw h1 h2 (by omega) (Nat.le_refl _)).1 h))]
  rw [if_neg, ph_cp hc]
  intro ⟨ha, hb⟩
  rcases hr with hr | ⟨vR, e, hR1, hR2, hne⟩
  · exact ha hr
  · rw [e] at hb
    exact hne ((grp_eq_iff hc hw h1 h2 hR1 hR2).1 hb)

/-- During a recovery with dumped metadata, metadata of the recovery root's group is in the dump. -/
theorem metaBuf_dump (hc : c.Valid) {s : S} {lo v vh vR : Nat} (hh : s.j.head = c.ph vh)
    (hw : c.Win lo vh) (h1 : lo ≤ v) (h2 : v ≤ vh) (hg : v / c.ppc ≠ vh / c.ppc)
    (hm : s.j.recoverMeta ≠ NONE) (hR : s.j.recoverRoot = c.ph vR) (hR1 : lo ≤ vR) (hR2 : vR ≤ vh)
    (he : v / c.ppc = vR / c.ppc) :
    metaBuf c s (c.ph v) = (s.n.chip.page s.j.recoverMeta).map (·.slice (c.slot v) 132) := by
  unfold metaBuf
  simp only [slot_off hc, hh]
  rw [if_neg (fun h => hg ((grp_eq_iff hc hw h1 h2 (by omega) (Nat.le_refl _)).1 h))]
  rw [if_pos ⟨hm, by rw [hR]; exact (grp_eq_iff hc hw h1 h2 hR1 hR2).2 he⟩]

/-! ### Buffers -/

theorem clip_slice {b : Buf} {off len : Nat} (h : off + len ≤ c.pageSize) :
    (c.clip b).slice off len = b.slice off len := by
  apply slice_congr
  intro i hi
  unfold Cfg.clip Buf.slice
  rw [if_pos (by omega), Nat.zero_add]

theorem slice_slice {b : Buf} {off len : Nat} : (b.slice off len).slice 0 len = b.slice off len := by
  funext i; simp only [Buf.slice]
  split
  · rw [if_pos (by omega), Nat.zero_add]
  · rfl

theorem clip_slice_full {b : Buf} : c.clip (b.slice 0 c.pageSize) = c.clip b := by
  unfold Cfg.clip; exact slice_slice

theorem clip_clip {b : Buf} : c.clip (c.clip b) = c.clip b := clip_slice_full

end Dhara

/-
Virtual positions: an unbounded page counter `v` stands for the physical page
`v % pages`, so that queue order is the order of natural numbers.
-/
import Verif.Proofs.Arith
namespace Dhara

/-- Physical page of a virtual position. -/
def Cfg.ph (c : Cfg) (v : Nat) : Nat := v % c.pages
/-- Is this position a user page (not the last page of its checkpoint group)? -/
def Cfg.isU (c : Cfg) (v : Nat) : Prop := v % c.ppc ≠ c.ppc - 1
/-- Successor user page, unwrapped. -/
def Cfg.nextV (c : Cfg) (v : Nat) : Nat := if (v + 2) % c.ppc = 0 then v + 2 else v + 1

theorem mod_inj {a b base m : Nat} (ha : base ≤ a) (ha' : a < base + m)
    (hb : base ≤ b) (hb' : b < base + m) (h : a % m = b % m) : a = b := by
  apply Classical.byContradiction; intro hne
  have key : ∀ x y : Nat, base ≤ x → y < base + m → x < y → x % m = y % m → False := by
    intro x y hx hy hxy hm
    have h1 : (y - x) % m = 0 := by
      have := Nat.sub_mod_eq_zero_of_mod_eq hm.symm
      exact this
    have h2 : y - x < m := by omega
    rw [Nat.mod_eq_of_lt h2] at h1; omega
  rcases Nat.lt_or_gt_of_ne hne with h1 | h1
  · exact key a b ha hb' h1 h
  · exact key b a hb ha' h1 h.symm

theorem ppb_pos (c : Cfg) : 0 < c.ppb := Nat.two_pow_pos _
theorem ppc_pos (c : Cfg) : 0 < c.ppc := Nat.two_pow_pos _

theorem ph_lt {c : Cfg} (hc : c.Valid) (v : Nat) : c.ph v < c.pages := Nat.mod_lt _ hc.pages_pos

theorem ph_of_lt {c : Cfg} {v : Nat} (h : v < c.pages) : c.ph v = v := Nat.mod_eq_of_lt h

theorem ph_div_ppb (c : Cfg) (v : Nat) : c.ph v / c.ppb = v / c.ppb % c.numBlocks := by
  unfold Cfg.ph Cfg.pages; rw [Nat.mul_comm]; exact Nat.mod_mul_right_div_self v c.ppb c.numBlocks

theorem ph_mod_ppb (c : Cfg) (v : Nat) : c.ph v % c.ppb = v % c.ppb := by
  unfold Cfg.ph; exact Nat.mod_mod_of_dvd v (Nat.dvd_mul_left _ _)

theorem ph_mod_ppc {c : Cfg} (hc : c.Valid) (v : Nat) : c.ph v % c.ppc = v % c.ppc := by
  unfold Cfg.ph; exact Nat.mod_mod_of_dvd v hc.ppc_dvd_pages

theorem ph_div_ppc {c : Cfg} (hc : c.Valid) (v : Nat) :
    c.ph v / c.ppc = v / c.ppc % (c.pages / c.ppc) := by
  have h : c.pages = c.ppc * (c.pages / c.ppc) := (Nat.mul_div_cancel' hc.ppc_dvd_pages).symm
  unfold Cfg.ph; rw [h, Nat.mod_mul_right_div_self, ← h]

theorem ph_eq_div_mod (c : Cfg) (v : Nat) :
    c.ph v = v / c.ppb % c.numBlocks * c.ppb + v % c.ppb := by
  have h := Nat.div_add_mod (c.ph v) c.ppb
  rw [ph_div_ppb, ph_mod_ppb, Nat.mul_comm] at h; exact h.symm

theorem mul_ppb_ph (c : Cfg) (b : Nat) : b % c.numBlocks * c.ppb = c.ph (b * c.ppb) := by
  unfold Cfg.ph Cfg.pages; rw [Nat.mul_mod_mul_right]

/-- The positions `lo ≤ v ≤ hi` stay within one lap, block-wise. -/
def Cfg.Win (c : Cfg) (lo hi : Nat) : Prop := hi / c.ppb < lo / c.ppb + c.numBlocks

theorem Cfg.Win.mono {c : Cfg} {lo hi lo' hi' : Nat} (h : c.Win lo hi) (h1 : lo ≤ lo')
    (h2 : hi' ≤ hi) : c.Win lo' hi' := by
  have := Nat.div_le_div_right (c := c.ppb) h1
  have := Nat.div_le_div_right (c := c.ppb) h2
  unfold Cfg.Win at *; omega

theorem Cfg.Win.base {c : Cfg} {lo hi v : Nat} (h : c.Win lo hi) (h1 : lo ≤ v) (h2 : v ≤ hi) :
    lo / c.ppb * c.ppb ≤ v ∧ v < lo / c.ppb * c.ppb + c.pages := by
  have hp := ppb_pos c
  constructor
  · have := Nat.div_mul_le_self lo c.ppb; omega
  · have a1 : v / c.ppb < lo / c.ppb + c.numBlocks := by
      have := Nat.div_le_div_right (c := c.ppb) h2; unfold Cfg.Win at h; omega
    have a2 := (Nat.div_lt_iff_lt_mul hp).1 a1
    rw [Nat.add_mul] at a2; exact a2

theorem Cfg.Win.inj {c : Cfg} {lo hi v w : Nat} (h : c.Win lo hi) (h1 : lo ≤ v) (h2 : v ≤ hi)
    (h3 : lo ≤ w) (h4 : w ≤ hi) (he : c.ph v = c.ph w) : v = w := by
  have a := h.base h1 h2; have b := h.base h3 h4
  exact mod_inj a.1 a.2 b.1 b.2 he

theorem Cfg.Win.blk_inj {c : Cfg} {lo hi v w : Nat} (h : c.Win lo hi) (h1 : lo ≤ v) (h2 : v ≤ hi)
    (h3 : lo ≤ w) (h4 : w ≤ hi) (he : c.ph v / c.ppb = c.ph w / c.ppb) :
    v / c.ppb = w / c.ppb := by
  rw [ph_div_ppb, ph_div_ppb] at he
  unfold Cfg.Win at h
  have := Nat.div_le_div_right (c := c.ppb) h1
  have := Nat.div_le_div_right (c := c.ppb) h2
  have := Nat.div_le_div_right (c := c.ppb) h3
  have := Nat.div_le_div_right (c := c.ppb) h4
  exact mod_inj (base := lo / c.ppb) (m := c.numBlocks) (by omega) (by omega) (by omega)
    (by omega) he

theorem Cfg.Win.grp_inj {c : Cfg} (hc : c.Valid) {lo hi v w : Nat} (h : c.Win lo hi) (h1 : lo ≤ v)
    (h2 : v ≤ hi) (h3 : lo ≤ w) (h4 : w ≤ hi) (he : c.ph v / c.ppc = c.ph w / c.ppc) :
    v / c.ppc = w / c.ppc := by
  rw [ph_div_ppc hc, ph_div_ppc hc] at he
  have a := h.base h1 h2; have b := h.base h3 h4
  obtain ⟨g, hg⟩ := hc.ppc_dvd
  obtain ⟨k, hk⟩ := hc.ppc_dvd_pages
  have hC := ppc_pos c
  have e1 : lo / c.ppb * c.ppb = (lo / c.ppb * g) * c.ppc := by
    rw [Nat.mul_assoc, Nat.mul_comm g, ← hg]
  have e2 : c.pages / c.ppc = k := by rw [hk]; exact Nat.mul_div_cancel_left _ hC
  rw [e2] at he
  rw [e1, hk] at a b
  apply mod_inj (base := lo / c.ppb * g) (m := k) _ _ _ _ he
  · exact (Nat.le_div_iff_mul_le hC).2 a.1
  · rw [Nat.div_lt_iff_lt_mul hC, Nat.add_mul, Nat.mul_comm k]; exact a.2
  · exact (Nat.le_div_iff_mul_le hC).2 b.1
  · rw [Nat.div_lt_iff_lt_mul hC, Nat.add_mul, Nat.mul_comm k]; exact b.2

/-! ### Division and remainder of successive positions -/

theorem div_of_range {k v m : Nat} (_hm : 0 < m) (h1 : k * m ≤ v) (h2 : v < k * m + m) :
    v / m = k := by
  apply Nat.div_eq_of_lt_le h1; rw [Nat.add_mul, Nat.one_mul]; exact h2

theorem mod_of_range {k v m : Nat} (h1 : k * m ≤ v) (h2 : v < k * m + m) : v % m = v - k * m := by
  have hm : 0 < m := by omega
  have := div_of_range hm h1 h2
  have h3 := Nat.div_add_mod v m
  rw [this, Nat.mul_comm] at h3; omega

theorem div_mod_range (v m : Nat) : v = v / m * m + v % m := by
  have := Nat.div_add_mod v m; rw [Nat.mul_comm] at this; omega

/-- Advance within a group/block. -/
theorem div_add_lt {v k m : Nat} (h : v % m + k < m) : (v + k) / m = v / m ∧
    (v + k) % m = v % m + k := by
  have h0 := div_mod_range v m
  constructor
  · apply div_of_range (by omega) <;> omega
  · rw [mod_of_range (k := v / m) (by omega) (by omega)]; omega

theorem div_add_eq {v k m : Nat} (h : v % m + k = m) (hm : 0 < m) : (v + k) / m = v / m + 1 ∧
    (v + k) % m = 0 := by
  have h0 := div_mod_range v m
  have e : v + k = (v / m + 1) * m := by rw [Nat.add_mul, Nat.one_mul]; omega
  rw [e]; exact ⟨Nat.mul_div_cancel _ hm, Nat.mul_mod_left _ _⟩

variable {c : Cfg}

theorem mod_ppc_of_ppb_zero (hc : c.Valid) {v : Nat} (h : v % c.ppb = 0) : v % c.ppc = 0 := by
  rw [← Nat.mod_mod_of_dvd v hc.ppc_dvd, h]; simp

theorem mod_mod_ppc (hc : c.Valid) (v : Nat) : v % c.ppb % c.ppc = v % c.ppc :=
  Nat.mod_mod_of_dvd v hc.ppc_dvd

theorem isU_of_aligned (hc : c.Valid) {v : Nat} (h : v % c.ppb = 0) : c.isU v := by
  have := mod_ppc_of_ppb_zero hc h; have := hc.ppc_ge; unfold Cfg.isU; omega

theorem mod_ppc_lt (c : Cfg) (v : Nat) : v % c.ppc < c.ppc := Nat.mod_lt _ (ppc_pos c)
theorem mod_ppb_lt (c : Cfg) (v : Nat) : v % c.ppb < c.ppb := Nat.mod_lt _ (ppb_pos c)

/-- For a user page the two cases of `nextV`. -/
theorem nextV_cases (hc : c.Valid) {v : Nat} (hu : c.isU v) :
    (v % c.ppc + 2 < c.ppc ∧ c.nextV v = v + 1 ∧ (v + 1) % c.ppc = v % c.ppc + 1) ∨
    (v % c.ppc + 2 = c.ppc ∧ c.nextV v = v + 2 ∧ (v + 2) % c.ppc = 0) := by
  have h4 := hc.ppc_ge
  have hl := mod_ppc_lt c v
  unfold Cfg.isU at hu
  by_cases h : v % c.ppc + 2 = c.ppc
  · right
    have := (div_add_eq h (ppc_pos c)).2
    exact ⟨h, by unfold Cfg.nextV; rw [if_pos this], this⟩
  · left
    have h2 := (div_add_lt (v := v) (k := 2) (m := c.ppc) (by omega)).2
    have h1 := (div_add_lt (v := v) (k := 1) (m := c.ppc) (by omega)).2
    exact ⟨by omega, by unfold Cfg.nextV; rw [if_neg (by omega)], h1⟩

theorem nextV_isU (hc : c.Valid) {v : Nat} (hu : c.isU v) : c.isU (c.nextV v) := by
  have h4 := hc.ppc_ge
  unfold Cfg.isU
  rcases nextV_cases hc hu with ⟨a, b, d⟩ | ⟨a, b, d⟩ <;> rw [b, d] <;> omega

theorem lt_nextV (c : Cfg) (v : Nat) : v < c.nextV v := by
  unfold Cfg.nextV; split <;> omega

theorem nextV_le_add (c : Cfg) (v : Nat) : c.nextV v ≤ v + 2 := by
  unfold Cfg.nextV; split <;> omega

theorem nextV_le (hc : c.Valid) {v w : Nat} (hu : c.isU v) (hw : c.isU w) (h : v < w) :
    c.nextV v ≤ w := by
  rcases nextV_cases hc hu with ⟨a, b, d⟩ | ⟨a, b, d⟩
  · omega
  · apply Classical.byContradiction; intro hn
    have : w = v + 1 := by omega
    subst this
    have h1 := (div_add_lt (v := v) (k := 1) (m := c.ppc) (by omega)).2
    unfold Cfg.isU at hw; omega

theorem nextUpage_ph (hc : c.Valid) {v : Nat} (hu : c.isU v) :
    nextUpage c (c.ph v) = c.ph (c.nextV v) := by
  have hm := ph_mod_ppc hc v
  have hl := ph_lt hc v
  have hpu : c.isU (c.ph v) := by unfold Cfg.isU; rw [hm]; exact hu
  obtain ⟨k, hk⟩ := hc.ppc_dvd_pages
  have hC := ppc_pos c
  -- the position after `ph v` in the lap
  have key : nextUpage c (c.ph v) = c.ph (c.nextV (c.ph v)) := by
    unfold nextUpage
    have e1 : isAligned (c.ph v + 1 + 1) c.log2Ppc = decide ((c.ph v + 2) % c.ppc = 0) := by
      rw [Bool.eq_iff_iff, isAligned_iff, decide_eq_true_iff]; rfl
    simp only [e1, decide_eq_true_eq]
    have hnv : (if (c.ph v + 2) % c.ppc = 0 then c.ph v + 1 + 1 else c.ph v + 1)
        = c.nextV (c.ph v) := by
      unfold Cfg.nextV; split <;> rfl
    rw [hnv]
    have hle : c.nextV (c.ph v) ≤ c.pages := by
      rcases nextV_cases hc hpu with ⟨a, b, d⟩ | ⟨a, b, d⟩
      · omega
      · apply Classical.byContradiction; intro hn
        have h1 : c.ph v + 1 = c.pages := by omega
        have h2 := (div_add_lt (v := c.ph v) (k := 1) (m := c.ppc) (by omega)).2
        rw [h1, hk, Nat.mul_mod_right] at h2; omega
    split
    · have : c.nextV (c.ph v) = c.pages := by omega
      rw [this]; unfold Cfg.ph; simp
    · have hlt : c.nextV (c.ph v) < c.pages := by omega
      exact (ph_of_lt hlt).symm
  rw [key]
  have e2 : (c.ph v + 2) % c.ppc = (v + 2) % c.ppc := by
    rw [Nat.add_mod, hm, ← Nat.add_mod]
  unfold Cfg.nextV; rw [e2]
  unfold Cfg.ph
  split <;> rw [Nat.mod_add_mod]

theorem nextBlock_ph (hc : c.Valid) (b : Nat) :
    nextBlock c (b % c.numBlocks) = (b + 1) % c.numBlocks := by
  have hN := hc.blocks_lo
  have hl : b % c.numBlocks < c.numBlocks := Nat.mod_lt _ (by omega)
  unfold nextBlock
  split
  · have e : b % c.numBlocks + 1 = c.numBlocks := by omega
    rw [← Nat.mod_add_mod, e]; simp
  · have hlt : b % c.numBlocks + 1 < c.numBlocks := by omega
    rw [← Nat.mod_add_mod, Nat.mod_eq_of_lt hlt]

/-- Block of the successor. -/
theorem nextV_blk (hc : c.Valid) {v : Nat} (hu : c.isU v) :
    (c.nextV v / c.ppb = v / c.ppb ∧ c.nextV v % c.ppb ≠ 0) ∨
    (c.nextV v / c.ppb = v / c.ppb + 1 ∧ c.nextV v % c.ppb = 0) := by
  have hP := ppb_pos c
  have hl := mod_ppb_lt c v
  have hm := mod_mod_ppc hc v
  obtain ⟨g, hg⟩ := hc.ppc_dvd
  rcases nextV_cases hc hu with ⟨a, b, d⟩ | ⟨a, b, d⟩
  · left
    rw [b]
    have : v % c.ppb + 1 < c.ppb := by
      apply Classical.byContradiction; intro hn
      have e : v % c.ppb + 1 = c.ppb := by omega
      have := (div_add_eq (v := v) e hP).2
      have := mod_ppc_of_ppb_zero hc this
      omega
    have := div_add_lt (v := v) (k := 1) (m := c.ppb) this
    omega
  · rw [b]
    have hne : v % c.ppb + 1 ≠ c.ppb := by
      intro e
      have := (div_add_eq (v := v) e hP).2
      have := mod_ppc_of_ppb_zero hc this
      have h2 := (div_add_lt (v := v) (k := 1) (m := c.ppc) (by omega)).2
      omega
    by_cases e : v % c.ppb + 2 = c.ppb
    · right; exact div_add_eq e hP
    · left
      have := div_add_lt (v := v) (k := 2) (m := c.ppb) (by omega)
      omega

theorem nextV_blk_aligned (hc : c.Valid) {v : Nat} (h : v % c.ppb = 0) :
    c.nextV v = v + 1 ∧ c.nextV v / c.ppb = v / c.ppb := by
  have h4 := hc.ppc_ge
  have hz := mod_ppc_of_ppb_zero hc h
  rcases nextV_cases hc (isU_of_aligned hc h) with ⟨a, b, d⟩ | ⟨a, b, d⟩
  · refine ⟨b, ?_⟩
    rw [b]
    have := div_add_lt (v := v) (k := 1) (m := c.ppb) (by have := hc.ppb_ge; omega)
    exact this.1
  · omega

theorem div_ppb_of_div_ppc (hc : c.Valid) {v w : Nat} (h : v / c.ppc = w / c.ppc) :
    v / c.ppb = w / c.ppb := by
  obtain ⟨g, hg⟩ := hc.ppc_dvd
  rw [hg, ← Nat.div_div_eq_div_mul, ← Nat.div_div_eq_div_mul, h]

end Dhara

/-
Proofs about the model of tools/gftool.c: polynomials as words, the shift register, primitive polynomials.
-/
import Verif.Ecc.Gftool
import Verif.Ecc.Gf13Proofs
import Mathlib.Algebra.Polynomial.Reverse
namespace Dhara.Gftool
open Polynomial
open Dhara.Gf13 (wordPoly_pow wordPoly_shl exists_word)

/-! ### Words -/

theorem degreeLoop_eq : ∀ k p d, p < 2 ^ k → degreeLoop k p d = d + p.log2 := by
  intro k
  induction k with
  | zero => intro p d h; rw [show p = 0 by simpa using h]; rfl
  | succ k ih =>
    intro p d h
    rw [degreeLoop, Nat.log2_def]
    by_cases hp : p > 1
    · rw [if_pos hp, if_pos (by omega), ih _ _ (by rw [Nat.shiftRight_eq_div_pow, Nat.pow_one]; rw [Nat.pow_succ] at h; omega),
        Nat.shiftRight_eq_div_pow, Nat.pow_one]; omega
    · rw [if_neg hp, if_neg (by omega)]; rfl

theorem degree_eq {p : Nat} (h : p < 2 ^ 64) : degree p = p.log2 := by
  rw [degree, degreeLoop_eq _ _ _ h, Nat.zero_add]

/-- `g` is a word of degree `d`. -/
structure Deg (g d : Nat) : Prop where
  top : g.testBit d = true
  lt : g < 2 ^ (d + 1)

theorem Deg.ge {g d : Nat} (h : Deg g d) : 2 ^ d ≤ g := by
  apply Classical.byContradiction
  intro hn
  have := Nat.testBit_lt_two_pow (i := d) (Nat.lt_of_not_le hn)
  rw [h.top] at this; cases this

theorem deg_iff {g d : Nat} : Deg g d ↔ 2 ^ d ≤ g ∧ g < 2 ^ (d + 1) := by
  refine ⟨fun h => ⟨h.ge, h.lt⟩, fun h => ⟨?_, h.2⟩⟩
  rw [Nat.testBit_eq_decide_div_mod_eq, Nat.div_eq_of_lt_le (k := 1) (by omega) (by rw [Nat.pow_succ] at h; omega)]
  rfl

theorem deg_log2 {g : Nat} (h : g ≠ 0) : Deg g g.log2 := deg_iff.2 ⟨Nat.log2_self_le h, Nat.lt_log2_self⟩

theorem Deg.eq {g d : Nat} (h : Deg g d) : g.log2 = d := by
  have h0 : g ≠ 0 := by
    have := h.ge; have := Nat.two_pow_pos d; omega
  have h1 := deg_log2 h0
  have h2 : d < g.log2 + 1 := (Nat.pow_lt_pow_iff_right (by decide)).1 (Nat.lt_of_le_of_lt h.ge h1.lt)
  have h3 : g.log2 < d + 1 := (Nat.pow_lt_pow_iff_right (by decide)).1 (Nat.lt_of_le_of_lt h1.ge h.lt)
  omega

theorem Deg.lt64 {g d : Nat} (h : Deg g d) (hd : d ≤ 63) : g < 2 ^ 64 :=
  Nat.lt_of_lt_of_le h.lt (Nat.pow_le_pow_right (by decide) (by omega))

theorem wordPoly_natDegree {g d : Nat} (h : Deg g d) (hd : d ≤ 63) : (wordPoly g).natDegree = d := by
  apply natDegree_eq_of_le_of_coeff_ne_zero
  · have := wordPoly_degree h.lt
    apply Nat.le_of_lt_succ
    by_cases h0 : wordPoly g = 0
    · rw [h0, natDegree_zero]; omega
    · exact (natDegree_lt_iff_degree_lt h0).2 this
  · rw [wordPoly_coeff, if_pos ⟨by omega, h.top⟩]; exact one_ne_zero

theorem wordPoly_deg {g d : Nat} (h : Deg g d) (hd : d ≤ 63) : (wordPoly g).degree = d := by
  have h0 : wordPoly g ≠ 0 := by
    intro h0
    have := congrArg (fun p => p.coeff d) h0
    simp only [wordPoly_coeff, coeff_zero] at this
    rw [if_pos ⟨by omega, h.top⟩] at this; exact one_ne_zero this
  rw [degree_eq_natDegree h0, wordPoly_natDegree h hd]

theorem wordPoly_eq_zero {a : Nat} (h : a < 2 ^ 64) (h0 : wordPoly a = 0) : a = 0 :=
  wordPoly_inj h (by decide) (by rw [h0, wordPoly_zero])

theorem wordPoly_one : wordPoly 1 = 1 := by
  rw [show (1:Nat) = 2 ^ 0 from rfl, wordPoly_pow (by decide), pow_zero]

theorem wordPoly_half (a : Nat) (h : a < 2 ^ 64) : wordPoly a = ((if a &&& 1 ≠ 0 then 1 else 0 : (ZMod 2)[X])) + X * wordPoly (a >>> 1) := by
  have hx : a = (if a &&& 1 ≠ 0 then 1 else 0 : Nat) ^^^ ((a >>> 1) <<< 1) := by
    apply Nat.eq_of_testBit_eq
    intro i
    cases i with
    | zero =>
      rw [Nat.testBit_xor, Nat.testBit_shiftLeft]
      by_cases hb : a.testBit 0 = true
      · rw [if_pos ((and_one_ne a).2 hb), hb]; simp
      · rw [if_neg (fun hc => hb ((and_one_ne a).1 hc))]; simp only [Bool.not_eq_true] at hb; rw [hb]; simp
    | succ i =>
      rw [Nat.testBit_xor, Nat.testBit_shiftLeft, Nat.testBit_shiftRight]
      have : (if a &&& 1 ≠ 0 then 1 else 0 : Nat).testBit (i + 1) = false := by
        split
        · rw [Nat.testBit_succ]; simp
        · simp
      rw [this]; simp [Nat.add_comm]
  have h2 : a >>> 1 < 2 ^ 63 := by rw [Nat.shiftRight_eq_div_pow]; omega
  conv_lhs => rw [hx]
  rw [wordPoly_xor, wordPoly_shl h2]
  congr 1
  split
  · exact wordPoly_one
  · exact wordPoly_zero

theorem mulPolyLoop_poly : ∀ k e a b r, e < k → e ≤ 63 → a < 2 ^ (e + 1) → b < 2 ^ (64 - e) →
    wordPoly (mulPolyLoop k a b r) = wordPoly r + wordPoly a * wordPoly b := by
  intro k
  induction k with
  | zero => intro e a b r h; omega
  | succ k ih =>
    intro e a b r hk he ha hb
    rw [mulPolyLoop]
    by_cases h0 : a ≠ 0
    · rw [if_pos h0]
      have h64 : a < 2 ^ 64 := Nat.lt_of_lt_of_le ha (Nat.pow_le_pow_right (by decide) (by omega))
      have hr : wordPoly (if a &&& 1 ≠ 0 then r ^^^ b else r) = wordPoly r + (if a &&& 1 ≠ 0 then 1 else 0 : (ZMod 2)[X]) * wordPoly b := by
        split
        · rw [wordPoly_xor, one_mul]
        · rw [zero_mul, add_zero]
      rw [wordPoly_half a h64]
      cases e with
      | zero =>
        have h1 : a = 1 := by simp at ha; omega
        subst h1
        have hz : ∀ b r, mulPolyLoop k (1 >>> 1) b r = r := by
          intro b r; cases k <;> simp [mulPolyLoop]
        show wordPoly (mulPolyLoop k (1 >>> 1) _ (if 1 &&& 1 ≠ 0 then r ^^^ b else r)) = _
        rw [hz, hr]; simp [wordPoly_zero]
      | succ e =>
        have hb2 : b < 2 ^ 63 := Nat.lt_of_lt_of_le hb (Nat.pow_le_pow_right (by decide) (by omega))
        have hsh : (b <<< 1) % 2 ^ 64 = b <<< 1 := Nat.mod_eq_of_lt (by rw [Nat.shiftLeft_eq]; omega)
        show wordPoly (mulPolyLoop k (a >>> 1) ((b <<< 1) % 2 ^ 64) (if a &&& 1 ≠ 0 then r ^^^ b else r)) = _
        rw [hsh, ih e _ _ _ (by omega) (by omega) (by rw [Nat.shiftRight_eq_div_pow, Nat.pow_one]; rw [Nat.pow_succ] at ha; omega)
          (by
            rw [Nat.shiftLeft_eq, show 64 - e = 64 - (e + 1) + 1 by omega, Nat.pow_succ]
            omega), hr, wordPoly_shl hb2]
        ring
    · have : a = 0 := by omega
      subst this
      rw [if_neg h0, wordPoly_zero, zero_mul, add_zero]

theorem mulPolyLoop_lt : ∀ k a b r, b < 2 ^ 64 → r < 2 ^ 64 → mulPolyLoop k a b r < 2 ^ 64 := by
  intro k
  induction k with
  | zero => intro a b r _ h; exact h
  | succ k ih =>
    intro a b r hb hr
    rw [mulPolyLoop]
    split
    · refine ih _ _ _ (Nat.mod_lt _ (by decide)) ?_
      split
      · exact Nat.xor_lt_two_pow hr hb
      · exact hr
    · exact hr

theorem mulPoly_poly {a b : Nat} (ha : a < 2 ^ 64) (hb : b < 2 ^ 64) (h : degree a + degree b ≤ 63) :
    wordPoly (mulPoly a b) = wordPoly a * wordPoly b := by
  rw [degree_eq ha, degree_eq hb] at h
  have h1 : a < 2 ^ (a.log2 + 1) := Nat.lt_log2_self
  have h2 : b < 2 ^ (64 - a.log2) := Nat.lt_of_lt_of_le Nat.lt_log2_self (Nat.pow_le_pow_right (by decide) (by omega))
  rw [mulPoly, mulPolyLoop_poly 64 a.log2 a b 0 (by omega) (by omega) h1 h2, wordPoly_zero, zero_add]

theorem reciprocalLoop_bit : ∀ e k p r, e < k → Deg p e → e ≤ 63 → r < 2 ^ (63 - e) → ∀ i,
    (reciprocalLoop k p r).testBit i = if i ≤ e then p.testBit (e - i) else r.testBit (i - e - 1) := by
  intro e
  induction e with
  | zero =>
    intro k p r hk hp _ hr i
    cases k with
    | zero => omega
    | succ k =>
      have h1 : p = 1 := by have := hp.ge; have := hp.lt; simp at *; omega
      subst h1
      rw [reciprocalLoop, if_pos (by decide)]
      have hz : ∀ r, reciprocalLoop k (1 >>> 1) r = r := by intro r; cases k <;> simp [reciprocalLoop]
      rw [hz, Nat.mod_eq_of_lt (by rw [Nat.shiftLeft_eq]; simp at hr; omega), Nat.testBit_or, Nat.testBit_shiftLeft]
      cases i with
      | zero => simp
      | succ i =>
        have : Nat.testBit 1 (i + 1) = false := by rw [Nat.testBit_succ]; simp
        simp [this]
  | succ e ih =>
    intro k p r hk hp he hr i
    cases k with
    | zero => omega
    | succ k =>
      have hp0 : p ≠ 0 := by have := hp.ge; have := Nat.two_pow_pos (e + 1); omega
      rw [reciprocalLoop, if_pos hp0]
      have hr2 : r < 2 ^ 62 := Nat.lt_of_lt_of_le hr (Nat.pow_le_pow_right (by decide) (by omega))
      have hp' : Deg (p >>> 1) e := by
        have h1 := hp.ge; have h2 := hp.lt
        rw [Nat.pow_succ] at h1 h2
        refine deg_iff.2 ⟨?_, ?_⟩ <;> rw [Nat.shiftRight_eq_div_pow, Nat.pow_one] <;> omega
      rw [Nat.mod_eq_of_lt (by rw [Nat.shiftLeft_eq]; omega),
        ih k _ _ (by omega) hp' (by omega) (by
          apply Nat.or_lt_two_pow
          · rw [Nat.shiftLeft_eq, show 63 - e = 63 - (e + 1) + 1 by omega, Nat.pow_succ]; omega
          · refine Nat.lt_of_le_of_lt Nat.and_le_right ?_
            exact Nat.lt_of_lt_of_le (by decide : 1 < 2 ^ 1) (Nat.pow_le_pow_right (by decide) (by omega)))]
      by_cases h1 : i ≤ e
      · rw [if_pos h1, if_pos (by omega), Nat.testBit_shiftRight]; congr 1; omega
      · rw [if_neg h1, Nat.testBit_or, Nat.testBit_shiftLeft]
        by_cases h2 : i ≤ e + 1
        · rw [if_pos h2, show i = e + 1 by omega]; simp
        · rw [if_neg h2, show i - e - 1 = (i - (e + 1) - 1) + 1 by omega]
          have : Nat.testBit 1 (i - (e + 1) - 1 + 1) = false := by rw [Nat.testBit_succ]; simp
          rw [Nat.testBit_and, this, Bool.and_false, Bool.or_false, Nat.add_sub_cancel]
          simp

theorem reciprocal_bit {p d : Nat} (hp : Deg p d) (hd : d ≤ 63) (i : Nat) :
    (reciprocal p).testBit i = (decide (i ≤ d) && p.testBit (d - i)) := by
  rw [reciprocal, reciprocalLoop_bit d 64 p 0 (by omega) hp hd (Nat.two_pow_pos _)]
  by_cases h : i ≤ d
  · simp [h]
  · simp [h]

theorem reciprocal_lt {p d : Nat} (hp : Deg p d) (hd : d ≤ 63) : reciprocal p < 2 ^ (d + 1) := by
  apply Nat.lt_pow_two_of_testBit
  intro i hi
  rw [reciprocal_bit hp hd]; simp; omega

theorem reciprocal_reverse {p d : Nat} (hp : Deg p d) (hd : d ≤ 63) : wordPoly (reciprocal p) = (wordPoly p).reverse := by
  ext i
  rw [coeff_reverse, wordPoly_natDegree hp hd, wordPoly_coeff, wordPoly_coeff, reciprocal_bit hp hd]
  by_cases h : i ≤ d
  · rw [revAt_le h]
    simp only [h, decide_true, Bool.true_and, show i < 64 by omega, show d - i < 64 by omega]
  · rw [revAt_eq_self_of_lt (by omega)]
    have : p.testBit i = false := Nat.testBit_lt_two_pow (Nat.lt_of_lt_of_le hp.lt (Nat.pow_le_pow_right (by decide) (by omega)))
    simp [h, this]

/-! ### The shift register -/

theorem mulx_spec {g d a : Nat} (hg : Deg g d) (hd : d ≤ 62) (ha : a < 2 ^ d) :
    mulx g d a < 2 ^ d ∧ wordPoly (mulx g d a) = X * wordPoly a + (if 2 ^ d ≤ 2 * a then wordPoly g else 0) := by
  have ha2 : a < 2 ^ 62 := Nat.lt_of_lt_of_le ha (Nat.pow_le_pow_right (by decide) hd)
  have e1 : (a <<< 1) % 2 ^ 64 = 2 * a := by rw [Nat.shiftLeft_eq, Nat.mod_eq_of_lt] <;> omega
  have e2 : wordPoly (2 * a) = X * wordPoly a := by
    rw [← wordPoly_shl (by omega), Nat.shiftLeft_eq, Nat.pow_one, Nat.mul_comm]
  have e3 : (2 * a) >>> d ≠ 0 ↔ 2 ^ d ≤ 2 * a := by
    rw [Nat.shiftRight_eq_div_pow, Ne, Nat.div_eq_zero_iff]
    have := Nat.two_pow_pos d
    omega
  show (if ((a <<< 1) % 2 ^ 64) >>> d ≠ 0 then ((a <<< 1) % 2 ^ 64) ^^^ g else (a <<< 1) % 2 ^ 64) < 2 ^ d ∧
    wordPoly (if ((a <<< 1) % 2 ^ 64) >>> d ≠ 0 then ((a <<< 1) % 2 ^ 64) ^^^ g else (a <<< 1) % 2 ^ 64) = _
  rw [e1]
  by_cases h : 2 ^ d ≤ 2 * a
  · rw [if_pos (e3.2 h), if_pos h, wordPoly_xor, e2]
    refine ⟨?_, rfl⟩
    have h2 : Deg (2 * a) d := deg_iff.2 ⟨h, by rw [Nat.pow_succ]; omega⟩
    apply Nat.lt_pow_two_of_testBit
    intro i hi
    rw [Nat.testBit_xor]
    rcases Nat.eq_or_lt_of_le hi with rfl | hi
    · rw [h2.top, hg.top]; rfl
    · rw [Nat.testBit_lt_two_pow (Nat.lt_of_lt_of_le h2.lt (Nat.pow_le_pow_right (by decide) hi)),
        Nat.testBit_lt_two_pow (Nat.lt_of_lt_of_le hg.lt (Nat.pow_le_pow_right (by decide) hi))]; rfl
  · rw [if_neg (fun hc => h (e3.1 hc)), if_neg h, e2, add_zero]
    exact ⟨by omega, rfl⟩

/-- Residue of the polynomial a word stands for. -/
noncomputable def el (g a : Nat) : AdjoinRoot (wordPoly g) := AdjoinRoot.mk (wordPoly g) (wordPoly a)

/-- The class of X. -/
noncomputable def α (g : Nat) : AdjoinRoot (wordPoly g) := AdjoinRoot.root (wordPoly g)

variable {g d : Nat}

theorem el_xor (a b : Nat) : el g (a ^^^ b) = el g a + el g b := by
  unfold el; rw [wordPoly_xor, map_add]

theorem el_zero : el g 0 = 0 := by unfold el; rw [wordPoly_zero, map_zero]

theorem el_one : el g 1 = 1 := by unfold el; rw [wordPoly_one, map_one]

theorem el_mulx (hg : Deg g d) (hd : d ≤ 62) {a : Nat} (ha : a < 2 ^ d) : el g (mulx g d a) = α g * el g a := by
  unfold el α
  rw [(mulx_spec hg hd ha).2, map_add, map_mul, AdjoinRoot.mk_X]
  split
  · rw [AdjoinRoot.mk_self, add_zero]
  · rw [map_zero, add_zero]

theorem el_inj (hg : Deg g d) (hd : d ≤ 62) {a b : Nat} (ha : a < 2 ^ d) (hb : b < 2 ^ d) (h : el g a = el g b) : a = b := by
  unfold el at h
  rw [AdjoinRoot.mk_eq_mk] at h
  have h1 : wordPoly a - wordPoly b = wordPoly (a ^^^ b) := by
    rw [wordPoly_xor]; linear_combination -(poly_self_add (wordPoly b))
  rw [h1] at h
  have hx := Nat.xor_lt_two_pow ha hb
  have h2 : wordPoly (a ^^^ b) = 0 :=
    eq_zero_of_dvd_of_degree_lt h (lt_of_lt_of_le (wordPoly_degree hx) (le_of_eq (wordPoly_deg hg (by omega)).symm))
  have h3 := wordPoly_eq_zero (Nat.lt_of_lt_of_le hx (Nat.pow_le_pow_right (by decide) (by omega))) h2
  have h7 := congrArg (fun x => x ^^^ b) h3
  simp only [Nat.xor_assoc, Nat.xor_self, Nat.xor_zero, Nat.zero_xor] at h7
  exact h7

/-- The states of the register, starting from 1. -/
def pw (g d : Nat) : Nat → Nat
  | 0 => 1
  | k + 1 => mulx g d (pw g d k)

theorem pw_lt (hg : Deg g d) (hd : d ≤ 62) (h1 : 1 ≤ d) : ∀ k, pw g d k < 2 ^ d := by
  intro k
  induction k with
  | zero => exact Nat.one_lt_two_pow (by omega)
  | succ k ih => exact (mulx_spec hg hd ih).1

theorem pw_el (hg : Deg g d) (hd : d ≤ 62) (h1 : 1 ≤ d) : ∀ k, el g (pw g d k) = α g ^ k := by
  intro k
  induction k with
  | zero => rw [pw, el_one, pow_zero]
  | succ k ih => rw [pw, el_mulx hg hd (pw_lt hg hd h1 k), ih, pow_succ']

theorem mulxTimes_pw : ∀ k j, mulxTimes g d k (pw g d j) = pw g d (j + k) := by
  intro k
  induction k with
  | zero => intro j; rfl
  | succ k ih => intro j; rw [mulxTimes, show mulx g d (pw g d j) = pw g d (j + 1) from rfl, ih]; congr 1; omega

theorem pw_shift {i j : Nat} (h : pw g d i = pw g d j) : ∀ t, pw g d (i + t) = pw g d (j + t) := by
  intro t
  induction t with
  | zero => exact h
  | succ t ih => rw [← Nat.add_assoc, ← Nat.add_assoc, pw, pw, ih]

end Dhara.Gftool

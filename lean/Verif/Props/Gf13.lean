/-
Property C32: the arithmetic of ecc/gf13.h and ecc/gf13.c is that of the field of polynomials over GF(2) modulo
x^13 + x^4 + x^3 + x + 1.

`wordPoly a` is the polynomial whose coefficient at x^i is bit i of `a` (Verif/Ecc/Lfsr.lean). Two polynomials over GF(2)
are congruent modulo p when p divides their sum.
-/
import Verif.Ecc.Gf13Proofs
namespace Dhara.Gf13
open Polynomial Dhara

/-- The modulus, written out. -/
noncomputable def modulus : (ZMod 2)[X] := X ^ 13 + X ^ 4 + X ^ 3 + X + 1

/-- Congruence modulo the field polynomial. -/
def Cong (p q : (ZMod 2)[X]) : Prop := modulus ∣ p - q

theorem cong_iff (p q : (ZMod 2)[X]) : Cong p q ↔ AdjoinRoot.mk P p = AdjoinRoot.mk P q := by
  unfold Cong modulus
  rw [← P_eq, AdjoinRoot.mk_eq_mk]

/-- C32: the modulus is irreducible, so the residue classes are a field; x generates all 8191 non-zero elements. -/
theorem gf13_field : Irreducible modulus ∧
    (∀ a, a ≠ 0 → a < 8192 → ∃ i, 1 ≤ i ∧ i ≤ 8191 ∧ Cong (wordPoly a) (X ^ i)) := by
  refine ⟨by unfold modulus; rw [← P_eq]; exact P_irreducible, fun a ha hb => ?_⟩
  obtain ⟨_, h2, h3⟩ := log_spec ha hb
  refine ⟨log a, h3, h2, ?_⟩
  rw [cong_iff, map_pow, AdjoinRoot.mk_X]
  exact el_log ha hb

/-- C32: distinct 13-bit words are distinct residue classes. -/
theorem gf13_distinct {a b : Nat} (ha : a < 8192) (hb : b < 8192) (h : Cong (wordPoly a) (wordPoly b)) : a = b :=
  el_inj ha hb ((cong_iff _ _).1 h)

/-- C32: table-driven multiplication of non-zero elements. -/
theorem gf13_mul_tables {a b : Nat} (ha : a ≠ 0) (ha' : a < 8192) (hb : b ≠ 0) (hb' : b < 8192) :
    mulT a b < 8192 ∧ Cong (wordPoly (mulT a b)) (wordPoly a * wordPoly b) := by
  obtain ⟨h1, h2⟩ := mulT_el ha ha' hb hb'
  refine ⟨h2, ?_⟩
  rw [cong_iff, map_mul]; exact h1

/-- C32: table-driven division of non-zero elements. -/
theorem gf13_div_tables {a b : Nat} (ha : a ≠ 0) (ha' : a < 8192) (hb : b ≠ 0) (hb' : b < 8192) :
    divT a b < 8192 ∧ Cong (wordPoly (divT a b) * wordPoly b) (wordPoly a) := by
  obtain ⟨h1, h2⟩ := divT_el ha ha' hb hb'
  refine ⟨h2, ?_⟩
  rw [cong_iff, map_mul]; exact h1

/-- C32: table-driven multiplication by x. -/
theorem gf13_mulx_tables {a : Nat} (ha : a ≠ 0) (ha' : a < 8192) :
    mulxT a < 8192 ∧ Cong (wordPoly (mulxT a)) (X * wordPoly a) := by
  obtain ⟨h1, h2⟩ := mulxT_el ha ha'
  refine ⟨h2, ?_⟩
  rw [cong_iff, map_mul, AdjoinRoot.mk_X]; exact h1

/-- C32: table-driven division by x. -/
theorem gf13_divx_tables {a : Nat} (ha : a ≠ 0) (ha' : a < 8192) :
    divxT a < 8192 ∧ Cong (X * wordPoly (divxT a)) (wordPoly a) := by
  obtain ⟨h1, h2⟩ := divxT_el ha ha'
  refine ⟨h2, ?_⟩
  rw [cong_iff, map_mul, AdjoinRoot.mk_X]; exact h1

/-- C32: table-free multiplication, zero included. -/
theorem gf13_mul_plain {a b : Nat} (ha : a < 8192) (hb : b < 8192) :
    mulN a b < 8192 ∧ Cong (wordPoly (mulN a b)) (wordPoly a * wordPoly b) := by
  obtain ⟨h1, h2⟩ := mulN_el ha hb
  refine ⟨h2, ?_⟩
  rw [cong_iff, map_mul]; exact h1

/-- C32: table-free division, by a non-zero element. -/
theorem gf13_div_plain {a b : Nat} (ha : a < 8192) (hb : b ≠ 0) (hb' : b < 8192) :
    divN a b < 8192 ∧ Cong (wordPoly (divN a b) * wordPoly b) (wordPoly a) := by
  obtain ⟨h1, h2⟩ := divN_el ha hb hb'
  refine ⟨h2, ?_⟩
  rw [cong_iff, map_mul]; exact h1

/-- C32: table-free multiplication by x. -/
theorem gf13_mulx_plain {a : Nat} (ha : a < 8192) :
    mulxN a < 8192 ∧ Cong (wordPoly (mulxN a)) (X * wordPoly a) := by
  obtain ⟨h1, h2⟩ := mulxN_el ha
  refine ⟨h2, ?_⟩
  rw [cong_iff, map_mul, AdjoinRoot.mk_X]; exact h1

/-- C32: table-free division by x. -/
theorem gf13_divx_plain {a : Nat} (ha : a < 8192) :
    divxN a < 8192 ∧ Cong (X * wordPoly (divxN a)) (wordPoly a) := by
  obtain ⟨h1, h2⟩ := divxN_el ha
  refine ⟨h2, ?_⟩
  rw [cong_iff, map_mul, AdjoinRoot.mk_X]; exact h1

/-- C32: the two builds of the library compute the same results on non-zero elements. -/
theorem gf13_builds_agree {a b : Nat} (ha : a ≠ 0) (ha' : a < 8192) (hb : b ≠ 0) (hb' : b < 8192) :
    mulT a b = mulN a b ∧ divT a b = divN a b ∧ mulxT a = mulxN a ∧ divxT a = divxN a := by
  have hb0 : el b ≠ 0 := fun h => hb ((el_eq_zero hb').1 h)
  refine ⟨?_, ?_, ?_, ?_⟩
  · obtain ⟨h1, h2⟩ := mulT_el ha ha' hb hb'
    obtain ⟨h3, h4⟩ := mulN_el ha' hb'
    exact el_inj h2 h4 (by rw [h1, h3])
  · obtain ⟨h1, h2⟩ := divT_el ha ha' hb hb'
    obtain ⟨h3, h4⟩ := divN_el ha' hb hb'
    exact el_inj h2 h4 (mul_right_cancel₀ hb0 (by rw [h1, h3]))
  · obtain ⟨h1, h2⟩ := mulxT_el ha ha'
    obtain ⟨h3, h4⟩ := mulxN_el ha'
    exact el_inj h2 h4 (by rw [h1, h3])
  · obtain ⟨h1, h2⟩ := divxT_el ha ha'
    obtain ⟨h3, h4⟩ := divxN_el ha'
    exact el_inj h2 h4 (mul_left_cancel₀ α_ne (by rw [h1, h3]))

/-- C32: exp and log are mutually inverse: log maps the non-zero words to 1..8191, and exp maps those back. (exp has a
spare entry: exp 0 = exp 8191 = 1.) -/
theorem gf13_exp_log :
    (∀ a, a ≠ 0 → a < 8192 → 1 ≤ log a ∧ log a ≤ 8191 ∧ exp (log a) = a) ∧
    (∀ i, 1 ≤ i → i ≤ 8191 → exp i ≠ 0 ∧ exp i < 8192 ∧ log (exp i) = i) ∧ exp 0 = 1 := by
  refine ⟨fun a h0 h => ?_, fun i h0 h => ?_, exp_zero⟩
  · obtain ⟨h1, h2, h3⟩ := log_spec h0 h
    exact ⟨h3, h2, h1⟩
  · obtain ⟨h1, h2⟩ := exp_el i h
    have hne : exp i ≠ 0 := by
      intro e
      rw [e, el_zero] at h1
      exact pow_ne_zero i α_ne h1.symm
    obtain ⟨h3, h4, h5⟩ := log_spec hne h2
    exact ⟨hne, h2, exp_inj h5 h4 h0 h h3⟩

/-- C32: why the restriction to non-zero elements: the tables take zero for an element with logarithm zero, so a table
product with zero is the other factor; the table-free product is zero. -/
theorem gf13_mul_zero : (∀ a, a ≠ 0 → a < 8192 → mulT 0 a = a ∧ mulT a 0 = a) ∧
    (∀ a, a < 8192 → mulN 0 a = 0 ∧ mulN a 0 = 0) := by
  have l0 : log 0 = 0 := by decide +kernel
  refine ⟨fun a h0 h => ?_, fun a h => ?_⟩
  · obtain ⟨h1, h2, h3⟩ := log_spec h0 h
    have hw : exp (wrap (log a)) = a := by
      unfold wrap
      split
      · have : log a = 8191 := by omega
        rw [this, exp_last] at h1
        rw [this, Nat.sub_self, exp_zero, h1]
      · exact h1
    unfold mulT
    rw [l0, Nat.zero_add, Nat.add_zero]
    exact ⟨hw, hw⟩
  · refine ⟨?_, ?_⟩
    · obtain ⟨h1, h2⟩ := mulN_el (by decide : 0 < 8192) h
      rw [el_zero, zero_mul] at h1
      exact (el_eq_zero h2).1 h1
    · obtain ⟨h1, h2⟩ := mulN_el h (by decide : 0 < 8192)
      rw [el_zero, mul_zero] at h1
      exact (el_eq_zero h2).1 h1

/-- Concrete values: products that wrap around the modulus, in both builds. -/
example : mulT 0x1abc 0x0def = mulN 0x1abc 0x0def ∧ mulT 0x1abc 0x0def ≠ 0 ∧ mulT 0x1000 2 = 0x1b ∧ divT 0x1b 2 = 0x1000 := by
  decide +kernel

end Dhara.Gf13

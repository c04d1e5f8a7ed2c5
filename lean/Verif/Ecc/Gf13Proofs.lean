/-
GF(2^13): the field in which ecc/gf13.{h,c} calculates.
-/
import Verif.Ecc.Gf13
import Verif.Ecc.Lfsr
import Mathlib.RingTheory.AdjoinRoot
import Mathlib.Tactic.NormNum
namespace Dhara.Gf13
open Polynomial

/-- The modulus x^13 + x^4 + x^3 + x + 1. -/
noncomputable def P : (ZMod 2)[X] := wordPoly 0x201b

theorem feedback : Feedback 0x201b 13 := ⟨by decide, by decide, by decide, by decide⟩

theorem P_eq : P = X ^ 13 + X ^ 4 + X ^ 3 + X + 1 := by
  ext i
  unfold P
  rw [wordPoly_coeff]
  simp only [coeff_add, coeff_X_pow, coeff_X, coeff_one]
  by_cases h : i < 14
  · have : ∀ j : Fin 14, (if (j : Nat) < 64 ∧ Nat.testBit 0x201b j = true then (1 : ZMod 2) else 0) =
        (if (j : Nat) = 13 then 1 else 0) + (if (j : Nat) = 4 then 1 else 0) + (if (j : Nat) = 3 then 1 else 0) +
        (if 1 = (j : Nat) then 1 else 0) + (if (j : Nat) = 0 then 1 else 0) := by decide
    exact this ⟨i, h⟩
  · have : Nat.testBit 0x201b i = false := Nat.testBit_lt_two_pow (Nat.lt_of_lt_of_le (by decide : 0x201b < 2 ^ 14) (Nat.pow_le_pow_right (by decide) (by omega)))
    rw [this, if_neg (by simp), if_neg (by omega), if_neg (by omega), if_neg (by omega), if_neg (by omega), if_neg (by omega)]
    decide

theorem wordPoly_pow {n : Nat} (h : n < 64) : wordPoly (2 ^ n) = X ^ n := by
  ext i
  rw [wordPoly_coeff, coeff_X_pow, Nat.testBit_two_pow]
  by_cases hi : i = n
  · subst hi; simp [h]
  · rw [if_neg hi, if_neg (by simp; omega)]

/-- Every polynomial of small degree is a word. -/
theorem exists_word : ∀ n : Nat, n ≤ 64 → ∀ p : (ZMod 2)[X], p.degree < n → ∃ a, a < 2 ^ n ∧ wordPoly a = p := by
  intro n
  induction n with
  | zero =>
    intro _ p h
    refine ⟨0, by decide, ?_⟩
    rw [wordPoly_zero]
    symm; rw [← degree_eq_bot]
    exact Nat.WithBot.lt_zero_iff.1 h
  | succ n ih =>
    intro hn p h
    have key : ∀ q : (ZMod 2)[X], q.degree < ↑(n + 1) → q.coeff n = 0 → q.degree < n := by
      intro q hq h0
      rw [degree_lt_iff_coeff_zero] at hq ⊢
      intro m hm
      rcases Nat.lt_or_ge n m with h1 | h1
      · exact hq m h1
      · have : m = n := by omega
        rw [this]; exact h0
    have h01 : ∀ x : ZMod 2, x = 0 ∨ x = 1 := by decide
    rcases h01 (p.coeff n) with h0 | h1
    · obtain ⟨a, h2, h3⟩ := ih (by omega) p (key p h h0)
      exact ⟨a, Nat.lt_of_lt_of_le h2 (Nat.pow_le_pow_right (by decide) (by omega)), h3⟩
    · have hx : (X ^ n : (ZMod 2)[X]).degree < ↑(n + 1) := by
        rw [degree_X_pow]; exact_mod_cast Nat.lt_succ_self n
      obtain ⟨a, h2, h3⟩ := ih (by omega) (p + X ^ n) (key _ (lt_of_le_of_lt (degree_add_le _ _) (max_lt h hx)) (by
        rw [coeff_add, coeff_X_pow, if_pos rfl, h1]; decide))
      refine ⟨a ^^^ 2 ^ n, Nat.xor_lt_two_pow (Nat.lt_of_lt_of_le h2 (Nat.pow_le_pow_right (by decide) (by omega)))
        (Nat.pow_lt_pow_right (by decide) (Nat.lt_succ_self _)), ?_⟩
      rw [wordPoly_xor, h3, wordPoly_pow (by omega)]
      linear_combination poly_self_add (X ^ n)

/-- The ring of polynomials modulo `P`. -/
abbrev F : Type := AdjoinRoot P

/-- The residue class of the polynomial that a word stands for. -/
noncomputable def el (a : Nat) : F := AdjoinRoot.mk P (wordPoly a)

/-- The class of X. -/
noncomputable def α : F := AdjoinRoot.root P

theorem el_xor (a b : Nat) : el (a ^^^ b) = el a + el b := by
  unfold el; rw [wordPoly_xor, map_add]

theorem el_zero : el 0 = 0 := by unfold el; rw [wordPoly_zero, map_zero]

theorem el_one : el 1 = 1 := by
  unfold el; rw [show (1:Nat) = 2 ^ 0 from rfl, wordPoly_pow (by decide), pow_zero, map_one]

theorem el_two : el 2 = α := by
  have h := wordPoly_pow (n := 1) (by decide)
  rw [pow_one, pow_one] at h
  unfold el α; rw [h, AdjoinRoot.mk_X]

theorem el_inj {a b : Nat} (ha : a < 8192) (hb : b < 8192) (h : el a = el b) : a = b := by
  unfold el at h
  rw [AdjoinRoot.mk_eq_mk] at h
  have h1 : wordPoly a - wordPoly b = wordPoly (a ^^^ b) := by
    rw [wordPoly_xor]; linear_combination -(poly_self_add (wordPoly b))
  rw [h1] at h
  have h2 : wordPoly (a ^^^ b) = 0 :=
    eq_zero_of_dvd_of_degree_lt h (lt_of_lt_of_le (wordPoly_degree (Nat.xor_lt_two_pow (n := 13) ha hb)) (gen_degree feedback))
  have h3 : a ^^^ b = 0 := wordPoly_inj (Nat.lt_of_lt_of_le (Nat.xor_lt_two_pow (n := 13) ha hb) (by decide)) (by decide) (by rw [h2, wordPoly_zero])
  have h7 := congrArg (fun x => x ^^^ b) h3
  simp only [Nat.xor_assoc, Nat.xor_self, Nat.xor_zero, Nat.zero_xor] at h7
  exact h7

theorem el_P : el 0x201b = 0 := AdjoinRoot.mk_self

theorem wordPoly_shl {a : Nat} (h : a < 2 ^ 63) : wordPoly (a <<< 1) = X * wordPoly a := by
  ext i
  cases i with
  | zero =>
    rw [wordPoly_coeff, Nat.testBit_shiftLeft, coeff_X_mul_zero]; simp
  | succ i =>
    rw [coeff_X_mul, wordPoly_coeff, wordPoly_coeff, Nat.testBit_shiftLeft]
    simp only [show decide (i + 1 ≥ 1) = true by simp, Bool.true_and, Nat.add_sub_cancel]
    by_cases hi : i < 63
    · simp only [show i + 1 < 64 by omega, show i < 64 by omega]
    · rw [Nat.testBit_lt_two_pow (Nat.lt_of_lt_of_le h (Nat.pow_le_pow_right (by decide) (by omega)))]
      simp

theorem and_pow (r k : Nat) : r &&& 2 ^ k ≠ 0 ↔ r.testBit k = true := by
  constructor
  · intro h
    apply Classical.byContradiction
    intro hb
    apply h
    apply Nat.eq_of_testBit_eq
    intro i
    rw [Nat.testBit_and, Nat.testBit_two_pow, Nat.zero_testBit]
    by_cases hi : k = i
    · subst hi; simp only [Bool.not_eq_true] at hb; rw [hb]; rfl
    · simp [hi]
  · intro h h0
    have := congrArg (fun x => x.testBit k) h0
    simp only [Nat.testBit_and, Nat.testBit_two_pow, Nat.zero_testBit, h] at this
    simp at this

theorem and_8192 (r : Nat) : r &&& 8192 ≠ 0 ↔ r.testBit 13 = true := and_pow r 13

theorem and_4096 (r : Nat) : r &&& 4096 ≠ 0 ↔ r.testBit 12 = true := and_pow r 12

theorem mulxN_el {a : Nat} (h : a < 8192) : el (mulxN a) = α * el a ∧ mulxN a < 8192 := by
  have h1 : el (a <<< 1) = α * el a := by
    unfold el α; rw [wordPoly_shl (by omega), map_mul, AdjoinRoot.mk_X]
  have h2 : a <<< 1 < 2 ^ 14 := by rw [Nat.shiftLeft_eq]; omega
  unfold mulxN
  simp only
  split
  · rename_i hb
    rw [and_8192] at hb
    refine ⟨by rw [el_xor, el_P, h1, add_zero], ?_⟩
    apply Nat.lt_pow_two_of_testBit (n := 13)
    intro i hi
    rw [Nat.testBit_xor]
    rcases Nat.lt_or_ge i 14 with h3 | h3
    · have : i = 13 := by omega
      subst this; rw [hb]; rfl
    · rw [Nat.testBit_lt_two_pow (Nat.lt_of_lt_of_le h2 (Nat.pow_le_pow_right (by decide) h3)),
        Nat.testBit_lt_two_pow (Nat.lt_of_lt_of_le (by decide : 0x201b < 2 ^ 14) (Nat.pow_le_pow_right (by decide) h3))]
      rfl
  · rename_i hb
    rw [and_8192] at hb
    refine ⟨h1, ?_⟩
    apply Nat.lt_pow_two_of_testBit (n := 13)
    intro i hi
    rcases Nat.lt_or_ge i 14 with h3 | h3
    · have : i = 13 := by omega
      subst this; simpa using hb
    · exact Nat.testBit_lt_two_pow (Nat.lt_of_lt_of_le h2 (Nat.pow_le_pow_right (by decide) h3))

/-! ### The tables, checked entry by entry by the kernel -/

theorem exp_chk : ((List.range 64).all fun a => (List.range 128).all fun b =>
    (a * 128 + b == 8191) || exp (a * 128 + b + 1) == mulxN (exp (a * 128 + b))) = true := by decide +kernel

theorem log_chk : ((List.range 64).all fun a => (List.range 128).all fun b =>
    (a * 128 + b == 0) || (exp (log (a * 128 + b)) == (a * 128 + b) && decide (log (a * 128 + b) ≤ 8191) &&
      decide (1 ≤ log (a * 128 + b)))) = true := by decide +kernel

theorem exp_zero : exp 0 = 1 := by decide +kernel
theorem exp_last : exp 8191 = 1 := by decide +kernel

theorem exp_succ {i : Nat} (h : i < 8191) : exp (i + 1) = mulxN (exp i) := by
  have h1 := List.all_eq_true.1 exp_chk (i / 128) (List.mem_range.2 (by omega))
  have h2 := List.all_eq_true.1 h1 (i % 128) (List.mem_range.2 (by omega))
  have e : i / 128 * 128 + i % 128 = i := by omega
  simp only [e] at h2
  rw [Bool.or_eq_true, beq_iff_eq, beq_iff_eq] at h2
  rcases h2 with h2 | h2
  · omega
  · exact h2

theorem log_spec {a : Nat} (h0 : a ≠ 0) (h : a < 8192) : exp (log a) = a ∧ log a ≤ 8191 ∧ 1 ≤ log a := by
  have h1 := List.all_eq_true.1 log_chk (a / 128) (List.mem_range.2 (by omega))
  have h2 := List.all_eq_true.1 h1 (a % 128) (List.mem_range.2 (by omega))
  have e : a / 128 * 128 + a % 128 = a := by omega
  simp only [e] at h2
  rw [Bool.or_eq_true, Bool.and_eq_true, Bool.and_eq_true, beq_iff_eq, beq_iff_eq] at h2
  rcases h2 with h2 | ⟨⟨h2, h3⟩, h4⟩
  · omega
  · exact ⟨h2, of_decide_eq_true h3, of_decide_eq_true h4⟩

theorem exp_el : ∀ i, i ≤ 8191 → el (exp i) = α ^ i ∧ exp i < 8192 := by
  intro i
  induction i with
  | zero => intro _; rw [exp_zero, el_one, pow_zero]; exact ⟨rfl, by decide⟩
  | succ i ih =>
    intro h
    obtain ⟨h1, h2⟩ := ih (by omega)
    obtain ⟨h3, h4⟩ := mulxN_el h2
    rw [exp_succ (by omega)]
    exact ⟨by rw [h3, h1, pow_succ, mul_comm], h4⟩

theorem α_order : α ^ 8191 = 1 := by
  rw [← (exp_el 8191 (Nat.le_refl _)).1, exp_last, el_one]

theorem α_unit : IsUnit α := IsUnit.of_mul_eq_one (α ^ 8190) (by rw [← pow_succ']; exact α_order)

theorem el_log {a : Nat} (h0 : a ≠ 0) (h : a < 8192) : el a = α ^ log a := by
  obtain ⟨h1, h2, _⟩ := log_spec h0 h
  rw [← (exp_el _ h2).1, h1]

theorem α_pow_mod (i : Nat) : α ^ (i % 8191) = α ^ i := by
  conv => rhs; rw [← Nat.div_add_mod i 8191, pow_add, pow_mul, α_order, one_pow, one_mul]

theorem P_degree : P.degree = 13 := by
  apply le_antisymm
  · rw [degree_le_iff_coeff_zero]
    intro m hm
    have hm : 13 < m := by exact_mod_cast hm
    unfold P
    rw [wordPoly_coeff, Nat.testBit_lt_two_pow (Nat.lt_of_lt_of_le (by decide : 0x201b < 2 ^ 14) (Nat.pow_le_pow_right (by decide) hm))]
    simp
  · exact gen_degree feedback

/-- Every non-zero element is a power of `α`, so `P` is irreducible. -/
theorem P_irreducible : Irreducible P := by
  have hd := P_degree
  refine ⟨fun hu => ?_, fun {f g} hfg => ?_⟩
  · have := degree_eq_zero_of_isUnit hu
    rw [hd] at this; cases this
  · have h0 : P ≠ 0 := by intro h; rw [h, degree_zero] at hd; cases hd
    have hf0 : f ≠ 0 := by rintro rfl; rw [zero_mul] at hfg; exact h0 hfg
    have hg0 : g ≠ 0 := by rintro rfl; rw [mul_zero] at hfg; exact h0 hfg
    have hdeg : f.natDegree + g.natDegree = 13 := by
      rw [← natDegree_mul hf0 hg0, ← hfg]; exact natDegree_eq_of_degree_eq_some hd
    rcases Nat.eq_zero_or_pos g.natDegree with hz | hz
    · right
      rw [isUnit_iff_degree_eq_zero, degree_eq_natDegree hg0, hz]; rfl
    · left
      rw [isUnit_iff_degree_eq_zero, degree_eq_natDegree hf0]
      apply Classical.byContradiction
      intro hn
      have hfp : 0 < f.natDegree := Nat.pos_of_ne_zero (fun h => hn (by rw [h]; rfl))
      obtain ⟨a, ha, hfa⟩ := exists_word 13 (by decide) f (by
        rw [degree_eq_natDegree hf0]; exact_mod_cast (show f.natDegree < 13 by omega))
      have ha0 : a ≠ 0 := by rintro rfl; rw [wordPoly_zero] at hfa; exact hf0 hfa.symm
      have hu : IsUnit (AdjoinRoot.mk P f) := by
        rw [← hfa]; show IsUnit (el a); rw [el_log ha0 ha]; exact α_unit.pow _
      have hm : AdjoinRoot.mk P f * AdjoinRoot.mk P g = 0 := by rw [← map_mul, ← hfg, AdjoinRoot.mk_self]
      have hg1 : AdjoinRoot.mk P g = 0 := by rwa [hu.mul_right_eq_zero] at hm
      rw [AdjoinRoot.mk_eq_zero] at hg1
      have := eq_zero_of_dvd_of_degree_lt hg1 (by
        rw [hd, degree_eq_natDegree hg0]; exact_mod_cast (show g.natDegree < 13 by omega))
      exact hg0 this

instance : Fact (Irreducible P) := ⟨P_irreducible⟩

theorem el_eq_zero {a : Nat} (h : a < 8192) : el a = 0 ↔ a = 0 :=
  ⟨fun h1 => el_inj h (by decide) (by rw [h1, el_zero]), fun h1 => by rw [h1, el_zero]⟩

theorem α_ne : α ≠ 0 := α_unit.ne_zero

/-! ### The operations -/

theorem wrap_el {i : Nat} (h : i ≤ 16382) : wrap i ≤ 8191 ∧ α ^ wrap i = α ^ i := by
  unfold wrap
  split
  · rename_i h1
    have h1 : 8191 ≤ i := h1
    refine ⟨by omega, ?_⟩
    conv => rhs; rw [show i = (i - 8191) + 8191 by omega, pow_add, α_order, mul_one]
  · rename_i h1
    exact ⟨by omega, rfl⟩

theorem mulT_el {a b : Nat} (ha : a ≠ 0) (ha' : a < 8192) (hb : b ≠ 0) (hb' : b < 8192) :
    el (mulT a b) = el a * el b ∧ mulT a b < 8192 := by
  obtain ⟨_, h1, _⟩ := log_spec ha ha'
  obtain ⟨_, h2, _⟩ := log_spec hb hb'
  obtain ⟨h3, h4⟩ := wrap_el (i := log a + log b) (by omega)
  obtain ⟨h5, h6⟩ := exp_el _ h3
  exact ⟨by unfold mulT; rw [h5, h4, pow_add, el_log ha ha', el_log hb hb'], h6⟩

theorem divT_el {a b : Nat} (ha : a ≠ 0) (ha' : a < 8192) (hb : b ≠ 0) (hb' : b < 8192) :
    el (divT a b) * el b = el a ∧ divT a b < 8192 := by
  obtain ⟨_, h1, _⟩ := log_spec ha ha'
  obtain ⟨_, h2, h2'⟩ := log_spec hb hb'
  obtain ⟨h3, h4⟩ := wrap_el (i := log a + 8191 - log b) (by omega)
  obtain ⟨h5, h6⟩ := exp_el _ h3
  refine ⟨?_, h6⟩
  unfold divT
  rw [h5, h4, el_log ha ha', el_log hb hb', ← pow_add, show log a + 8191 - log b + log b = log a + 8191 by omega, pow_add, α_order, mul_one]

theorem mulxT_el {a : Nat} (ha : a ≠ 0) (ha' : a < 8192) : el (mulxT a) = α * el a ∧ mulxT a < 8192 := by
  obtain ⟨_, h1, _⟩ := log_spec ha ha'
  obtain ⟨h3, h4⟩ := wrap_el (i := log a + 1) (by omega)
  obtain ⟨h5, h6⟩ := exp_el _ h3
  exact ⟨by unfold mulxT; rw [h5, h4, pow_succ, el_log ha ha', mul_comm], h6⟩

theorem divxT_el {a : Nat} (ha : a ≠ 0) (ha' : a < 8192) : α * el (divxT a) = el a ∧ divxT a < 8192 := by
  obtain ⟨_, h1, _⟩ := log_spec ha ha'
  obtain ⟨h3, h4⟩ := wrap_el (i := log a + 8191 - 1) (by omega)
  obtain ⟨h5, h6⟩ := exp_el _ h3
  refine ⟨?_, h6⟩
  unfold divxT
  rw [h5, h4, el_log ha ha', ← pow_succ', show log a + 8191 - 1 + 1 = log a + 8191 by omega, pow_add, α_order, mul_one]

/-- The top bit first: Horner's rule. -/
theorem mulLoop_el {a : Nat} (ha : a < 8192) : ∀ k r b, k ≤ 13 → r < 8192 →
    el (mulLoop a k r b) = α ^ k * el r + el a * ∑ i ∈ Finset.range k, (if b.testBit (12 - i) then α ^ (k - 1 - i) else 0) ∧
      mulLoop a k r b < 8192 := by
  intro k
  induction k with
  | zero => intro r b _ hr; refine ⟨?_, hr⟩; simp [mulLoop]
  | succ k ih =>
    intro r b hk hr
    unfold mulLoop
    simp only
    obtain ⟨h1, h2⟩ := mulxN_el hr
    have hr' : (if b &&& 4096 ≠ 0 then mulxN r ^^^ a else mulxN r) < 8192 := by
      split
      · exact Nat.xor_lt_two_pow (n := 13) h2 ha
      · exact h2
    obtain ⟨h3, h4⟩ := ih _ ((b <<< 1) % 65536) (by omega) hr'
    refine ⟨?_, h4⟩
    rw [h3, Finset.sum_range_succ' (n := k)]
    have e1 : el (if b &&& 4096 ≠ 0 then mulxN r ^^^ a else mulxN r) = α * el r + el a * (if b.testBit 12 = true then 1 else 0) := by
      by_cases hb : b &&& 4096 ≠ 0
      · rw [if_pos hb, if_pos ((and_4096 _).1 hb), el_xor, h1, mul_one]
      · rw [if_neg hb, if_neg (fun h => hb ((and_4096 _).2 h)), h1, mul_zero, add_zero]
    have e2 : ∑ i ∈ Finset.range k, (if ((b <<< 1) % 65536).testBit (12 - i) = true then α ^ (k - 1 - i) else 0) =
        ∑ i ∈ Finset.range k, (if b.testBit (12 - (i + 1)) = true then α ^ (k + 1 - 1 - (i + 1)) else 0) := by
      apply Finset.sum_congr rfl
      intro i hi
      rw [Finset.mem_range] at hi
      rw [show (65536 : Nat) = 2 ^ 16 from rfl, Nat.testBit_mod_two_pow, Nat.testBit_shiftLeft]
      simp only [show 12 - i < 16 by omega, show 12 - i ≥ 1 by omega, decide_true, Bool.true_and]
      rw [show 12 - i - 1 = 12 - (i + 1) by omega, show k + 1 - 1 - (i + 1) = k - 1 - i by omega]
    rw [e1, e2, show 12 - 0 = 12 from rfl, show k + 1 - 1 - 0 = k by omega]
    by_cases hb : b.testBit 12 = true
    · rw [if_pos hb, if_pos hb]; ring
    · rw [if_neg hb, if_neg hb]; ring

theorem el_bits {b : Nat} (hb : b < 8192) : el b = ∑ i ∈ Finset.range 13, (if b.testBit i then α ^ i else 0) := by
  unfold el
  rw [wordPoly_short (n := 13) (by decide) hb, bitPoly, map_sum]
  apply Finset.sum_congr rfl
  intro i _
  split
  · rw [map_pow, AdjoinRoot.mk_X]; rfl
  · rw [map_zero]

theorem mulN_el {a b : Nat} (ha : a < 8192) (hb : b < 8192) : el (mulN a b) = el a * el b ∧ mulN a b < 8192 := by
  obtain ⟨h1, h2⟩ := mulLoop_el ha 13 0 b (Nat.le_refl _) (by decide)
  refine ⟨?_, h2⟩
  unfold mulN
  rw [h1, el_zero, mul_zero, zero_add, el_bits hb]
  congr 1
  rw [← Finset.sum_range_reflect (n := 13)]
  apply Finset.sum_congr rfl
  intro i hi
  rw [Finset.mem_range] at hi
  rw [show 12 - (13 - 1 - i) = i by omega]

theorem divLoop_el {b : Nat} (hb : b < 8192) : ∀ k r, r < 8192 →
    el (divLoop b k r) = el r ^ (2 ^ k) * el b ^ (2 ^ k - 1) ∧ divLoop b k r < 8192 := by
  intro k
  induction k with
  | zero => intro r hr; unfold divLoop; exact ⟨by simp, hr⟩
  | succ k ih =>
    intro r hr
    unfold divLoop
    obtain ⟨h1, h2⟩ := mulN_el hr hr
    obtain ⟨h3, h4⟩ := mulN_el h2 hb
    obtain ⟨h5, h6⟩ := ih _ h4
    refine ⟨?_, h6⟩
    have hk : 0 < 2 ^ k := Nat.two_pow_pos _
    rw [h5, h3, h1, ← pow_two, mul_pow, ← pow_mul, mul_assoc, ← pow_add, show 2 ^ k + (2 ^ k - 1) = 2 ^ (k + 1) - 1 by rw [pow_succ]; omega,
      show 2 * 2 ^ k = 2 ^ (k + 1) by rw [pow_succ, mul_comm]]

theorem el_order {b : Nat} (h0 : b ≠ 0) (hb : b < 8192) : el b ^ 8191 = 1 := by
  rw [el_log h0 hb, ← pow_mul, mul_comm, pow_mul, α_order, one_pow]

theorem divN_el {a b : Nat} (ha : a < 8192) (h0 : b ≠ 0) (hb : b < 8192) : el (divN a b) * el b = el a ∧ divN a b < 8192 := by
  obtain ⟨h1, h2⟩ := divLoop_el hb 12 1 (by decide)
  obtain ⟨h3, h4⟩ := mulN_el h2 h2
  obtain ⟨h5, h6⟩ := mulN_el ha h4
  refine ⟨?_, h6⟩
  unfold divN
  simp only
  rw [h5, h3, h1, el_one, one_pow, one_mul, ← pow_add, mul_assoc, ← pow_succ, show 2 ^ 12 - 1 + (2 ^ 12 - 1) + 1 = 8191 by norm_num,
    el_order h0 hb, mul_one]

theorem divxN_el {a : Nat} (ha : a < 8192) : α * el (divxN a) = el a ∧ divxN a < 8192 := by
  obtain ⟨h1, h2⟩ := mulN_el ha (by decide : 0x100d < 8192)
  refine ⟨?_, h2⟩
  have h3 : mulxN 0x100d = 1 := by decide
  have h4 := (mulxN_el (by decide : 0x100d < 8192)).1
  rw [h3, el_one] at h4
  unfold divxN
  rw [h1]
  linear_combination -(el a) * h4

theorem exp_inj {i j : Nat} (hi : 1 ≤ i) (hi' : i ≤ 8191) (hj : 1 ≤ j) (hj' : j ≤ 8191) (h : exp i = exp j) : i = j := by
  -- `log` maps the 8191 non-zero words injectively, hence bijectively, to 1..8191, and `exp` inverts it.
  have hinj : Set.InjOn log ↑(Finset.Icc 1 8191) := by
    intro a ha b hb hab
    simp only [Finset.coe_Icc, Set.mem_Icc] at ha hb
    rw [← (log_spec (by omega) (by omega : a < 8192)).1, hab, (log_spec (by omega) (by omega : b < 8192)).1]
  have himg : (Finset.Icc 1 8191).image log = Finset.Icc 1 8191 := by
    apply Finset.eq_of_subset_of_card_le
    · intro k hk
      obtain ⟨a, ha, e⟩ := Finset.mem_image.1 hk
      rw [Finset.mem_Icc] at ha
      obtain ⟨_, h2, h3⟩ := log_spec (by omega) (by omega : a < 8192)
      rw [Finset.mem_Icc]; omega
    · rw [Finset.card_image_of_injOn hinj]
  have hsur : ∀ k, 1 ≤ k → k ≤ 8191 → ∃ a, a ≠ 0 ∧ a < 8192 ∧ log a = k := by
    intro k h1 h2
    have : k ∈ (Finset.Icc 1 8191).image log := by rw [himg, Finset.mem_Icc]; exact ⟨h1, h2⟩
    obtain ⟨a, ha, e⟩ := Finset.mem_image.1 this
    rw [Finset.mem_Icc] at ha
    exact ⟨a, by omega, by omega, e⟩
  obtain ⟨a, a1, a2, a3⟩ := hsur i hi hi'
  obtain ⟨b, b1, b2, b3⟩ := hsur j hj hj'
  rw [← a3, ← b3, (log_spec a1 a2).1, (log_spec b1 b2).1] at h
  rw [← a3, ← b3, h]

/-- The powers of α below the order are distinct. -/
theorem α_inj {e f : Nat} (he : e < 8191) (hf : f < 8191) (h : α ^ e = α ^ f) : e = f := by
  obtain ⟨h1, h2⟩ := exp_el (e + 1) (by omega)
  obtain ⟨h3, h4⟩ := exp_el (f + 1) (by omega)
  have h5 : exp (e + 1) = exp (f + 1) := el_inj h2 h4 (by rw [h1, h3, pow_succ, pow_succ, h])
  have := exp_inj (by omega) (by omega) (by omega) (by omega) h5
  omega

end Dhara.Gf13

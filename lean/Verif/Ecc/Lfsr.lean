/-
The shift register shared by crc32_nand (ecc/crc32.c) and chunk_remainder (ecc/bch.c), as polynomial division.
-/
import Verif.Ecc.Spec
import Mathlib.Tactic.LinearCombination
import Mathlib.Tactic.Ring
namespace Dhara
open Polynomial

/-- One shift with feedback `g`: ecc/bch.c:68-72. -/
def lstep (g r : Nat) : Nat := (if r &&& 1 ≠ 0 then r ^^^ g else r) >>> 1

/-- `k` shifts. -/
def lsteps (g : Nat) : Nat → Nat → Nat
  | 0, r => r
  | k + 1, r => lsteps g k (lstep g r)

/-- A feedback word of degree `d`: bits 0 and `d` are set, none above. -/
structure Feedback (g d : Nat) : Prop where
  low : g.testBit 0 = true
  high : g.testBit d = true
  lt : g < 2 ^ (d + 1)
  small : d < 63

theorem and_one_ne (r : Nat) : (r &&& 1 ≠ 0) ↔ r.testBit 0 = true := by
  rw [Nat.and_one_is_mod, Nat.testBit_zero]
  simp only [decide_eq_true_eq]; omega

theorem lstep_eq (g r : Nat) : lstep g r = (if r.testBit 0 then r ^^^ g else r) >>> 1 := by
  unfold lstep
  by_cases h : r.testBit 0 = true
  · rw [if_pos ((and_one_ne r).2 h), if_pos h]
  · rw [if_neg (fun k => h ((and_one_ne r).1 k)), if_neg h]

theorem lstep_bit (g r i : Nat) : (lstep g r).testBit i = (r.testBit (i + 1) ^^ (r.testBit 0 && g.testBit (i + 1))) := by
  rw [lstep_eq, Nat.testBit_shiftRight, Nat.add_comm 1 i]
  cases h : r.testBit 0 <;> simp

theorem lstep_xor (g r s : Nat) : lstep g (r ^^^ s) = lstep g r ^^^ lstep g s := by
  apply Nat.eq_of_testBit_eq
  intro i
  simp only [lstep_bit, Nat.testBit_xor]
  cases r.testBit 0 <;> cases s.testBit 0 <;> cases r.testBit (i + 1) <;> cases s.testBit (i + 1) <;> cases g.testBit (i + 1) <;> rfl

theorem lsteps_xor (g : Nat) : ∀ k r s, lsteps g k (r ^^^ s) = lsteps g k r ^^^ lsteps g k s := by
  intro k
  induction k with
  | zero => intros; rfl
  | succ k ih => intro r s; simp only [lsteps, lstep_xor, ih]

theorem lstep_zero (g : Nat) : lstep g 0 = 0 := by simp [lstep]

theorem lsteps_zero (g : Nat) : ∀ k, lsteps g k 0 = 0 := by
  intro k
  induction k with
  | zero => rfl
  | succ k ih => rw [lsteps, lstep_zero, ih]

theorem lsteps_add (g : Nat) : ∀ j k r, lsteps g (j + k) r = lsteps g k (lsteps g j r) := by
  intro j
  induction j with
  | zero => intro k r; rw [Nat.zero_add]; rfl
  | succ j ih => intro k r; rw [show j + 1 + k = (j + k) + 1 by omega]; simp only [lsteps, ih]

theorem lstep_lt {g d r : Nat} (hg : Feedback g d) (hr : r < 2 ^ d) : lstep g r < 2 ^ d := by
  have h1 : (if r.testBit 0 then r ^^^ g else r) < 2 ^ (d + 1) := by
    have : r < 2 ^ (d + 1) := Nat.lt_of_lt_of_le hr (Nat.pow_le_pow_right (by decide) (by omega))
    split
    · exact Nat.xor_lt_two_pow this hg.lt
    · exact this
  rw [lstep_eq, Nat.shiftRight_eq_div_pow, Nat.div_lt_iff_lt_mul (by decide)]
  rw [Nat.pow_succ] at h1; omega

theorem lsteps_lt {g d : Nat} (hg : Feedback g d) : ∀ k r, r < 2 ^ d → lsteps g k r < 2 ^ d := by
  intro k
  induction k with
  | zero => intro r h; exact h
  | succ k ih => intro r h; exact ih _ (lstep_lt hg h)

/-- A shift loses no information. -/
theorem lstep_inj {g d r : Nat} (hg : Feedback g d) (hd : 0 < d) (hr : r < 2 ^ d) (h : lstep g r = 0) : r = 0 := by
  have hb : ∀ i, (r.testBit (i + 1) ^^ (r.testBit 0 && g.testBit (i + 1))) = false := by
    intro i; rw [← lstep_bit, h]; simp
  have h0 : r.testBit 0 = false := by
    have := hb (d - 1)
    rw [show d - 1 + 1 = d by omega, hg.high, Nat.testBit_lt_two_pow hr] at this
    simpa using this
  apply Nat.eq_of_testBit_eq
  intro i
  rw [Nat.zero_testBit]
  cases i with
  | zero => exact h0
  | succ i => have := hb i; rw [h0] at this; simpa using this

theorem lsteps_inj {g d : Nat} (hg : Feedback g d) (hd : 0 < d) : ∀ k r, r < 2 ^ d → lsteps g k r = 0 → r = 0 := by
  intro k
  induction k with
  | zero => intro r _ h; exact h
  | succ k ih => intro r hr h; exact lstep_inj hg hd hr (ih _ (lstep_lt hg hr) h)

/-! ### Polynomials -/

theorem bitPoly_coeff (f : Nat → Bool) (n i : Nat) : (bitPoly f n).coeff i = if i < n ∧ f i = true then 1 else 0 := by
  unfold bitPoly
  rw [finset_sum_coeff]
  by_cases h : i < n
  · rw [Finset.sum_eq_single i]
    · by_cases hf : f i = true
      · rw [if_pos hf, if_pos ⟨h, hf⟩, coeff_X_pow, if_pos rfl]
      · rw [if_neg hf, if_neg (fun k => hf k.2), coeff_zero]
    · intro j _ hj
      split
      · rw [coeff_X_pow, if_neg (Ne.symm hj)]
      · exact coeff_zero _
    · intro hn; exact absurd (Finset.mem_range.2 h) hn
  · rw [if_neg (fun k => h k.1)]
    apply Finset.sum_eq_zero
    intro j hj
    rw [Finset.mem_range] at hj
    split
    · rw [coeff_X_pow, if_neg (by omega)]
    · exact coeff_zero _

theorem wordPoly_coeff (w i : Nat) : (wordPoly w).coeff i = if i < 64 ∧ w.testBit i = true then 1 else 0 := bitPoly_coeff _ _ _

theorem zmod2_add (a b : Bool) : ((if a = true then 1 else 0 : ZMod 2) + if b = true then 1 else 0) = if (a ^^ b) = true then 1 else 0 := by
  cases a <;> cases b <;> decide

theorem wordPoly_xor (a b : Nat) : wordPoly (a ^^^ b) = wordPoly a + wordPoly b := by
  ext i
  rw [coeff_add, wordPoly_coeff, wordPoly_coeff, wordPoly_coeff]
  by_cases h : i < 64
  · simp only [h, true_and]
    rw [zmod2_add, Nat.testBit_xor]
  · simp [h]

theorem wordPoly_inj {a b : Nat} (ha : a < 2 ^ 64) (hb : b < 2 ^ 64) (h : wordPoly a = wordPoly b) : a = b := by
  apply Nat.eq_of_testBit_eq
  intro i
  by_cases hi : i < 64
  · have := congrArg (fun p => p.coeff i) h
    simp only [wordPoly_coeff, hi, true_and] at this
    cases h1 : a.testBit i <;> cases h2 : b.testBit i <;> simp [h1, h2] at this ⊢
  · have e : 2 ^ 64 ≤ 2 ^ i := Nat.pow_le_pow_right (by decide) (by omega)
    rw [Nat.testBit_lt_two_pow (by omega), Nat.testBit_lt_two_pow (by omega)]

theorem wordPoly_zero : wordPoly 0 = 0 := by
  ext i; rw [wordPoly_coeff]; simp

/-- One shift divides by X, up to a multiple of the generator. -/
theorem lstep_poly (g d r : Nat) (hg : Feedback g d) (hr : r < 2 ^ d) :
    X * wordPoly (lstep g r) = wordPoly r + if r.testBit 0 then wordPoly g else 0 := by
  have hs := hg.small
  ext i
  cases i with
  | zero =>
    rw [coeff_X_mul_zero, coeff_add, wordPoly_coeff]
    by_cases h : r.testBit 0 = true
    · rw [if_pos h, if_pos ⟨by decide, h⟩, wordPoly_coeff, if_pos ⟨by decide, hg.low⟩]; decide
    · rw [if_neg h, if_neg (fun k => h k.2), coeff_zero, add_zero]
  | succ i =>
    rw [coeff_X_mul, coeff_add, wordPoly_coeff, wordPoly_coeff, lstep_bit]
    by_cases hi : i < 63
    · simp only [show i < 64 by omega, show i + 1 < 64 by omega, true_and]
      by_cases h : r.testBit 0 = true
      · rw [if_pos h, wordPoly_coeff]
        simp only [show i + 1 < 64 by omega, true_and, h, Bool.true_and]
        rw [zmod2_add]
      · simp only [h, Bool.false_and, Bool.xor_false, if_false, coeff_zero, add_zero, Bool.not_eq_true] at *
        simp [h]
    · have h1 : r.testBit (i + 1) = false :=
        Nat.testBit_lt_two_pow (Nat.lt_of_lt_of_le hr (Nat.pow_le_pow_right (by decide) (by omega)))
      have h2 : g.testBit (i + 1) = false :=
        Nat.testBit_lt_two_pow (Nat.lt_of_lt_of_le hg.lt (Nat.pow_le_pow_right (by decide) (by omega)))
      have h3 : (if r.testBit 0 = true then wordPoly g else 0).coeff (i + 1) = 0 := by
        split
        · rw [wordPoly_coeff, if_neg (fun k => by have := k.1; omega)]
        · exact coeff_zero _
      rw [h1, h2, h3]
      simp

theorem lsteps_poly {g d : Nat} (hg : Feedback g d) : ∀ k r, r < 2 ^ d → wordPoly g ∣ X ^ k * wordPoly (lsteps g k r) + wordPoly r := by
  intro k
  induction k with
  | zero =>
    intro r _
    rw [lsteps, pow_zero, one_mul, ← wordPoly_xor, Nat.xor_self, wordPoly_zero]; exact dvd_zero _
  | succ k ih =>
    intro r hr
    have h1 := ih (lstep g r) (lstep_lt hg hr)
    have h2 := lstep_poly g d r hg hr
    have h3 : wordPoly g ∣ X * wordPoly (lstep g r) + wordPoly r := by
      rw [h2]
      have : wordPoly r + wordPoly r = 0 := by rw [← wordPoly_xor, Nat.xor_self, wordPoly_zero]
      rw [add_right_comm, this, zero_add]
      split
      · exact dvd_refl _
      · exact dvd_zero _
    have h4 : X ^ (k + 1) * wordPoly (lsteps g (k + 1) r) + wordPoly r =
        X * (X ^ k * wordPoly (lsteps g k (lstep g r)) + wordPoly (lstep g r)) + (X * wordPoly (lstep g r) + wordPoly r) := by
      have : X * wordPoly (lstep g r) + X * wordPoly (lstep g r) = 0 := by
        rw [← mul_add, ← wordPoly_xor, Nat.xor_self, wordPoly_zero, mul_zero]
      rw [mul_add, pow_succ, lsteps]
      linear_combination (-1 : (ZMod 2)[X]) * this
    rw [h4]
    exact dvd_add (Dvd.dvd.mul_left h1 _) h3

/-! ### Whole messages -/

/-- The register after `n` bytes, each inverted: ecc/bch.c:57-76. -/
def reg (g : Nat) (chunk : Buf) (r0 : Nat) : Nat → Nat
  | 0 => r0
  | n + 1 => lsteps g 8 (reg g chunk r0 n ^^^ (chunk n ^^^ 0xff).toNat)

theorem byte_lt {d : Nat} (hd : 8 ≤ d) (c : UInt8) : c.toNat < 2 ^ d :=
  Nat.lt_of_lt_of_le c.toNat_lt (Nat.pow_le_pow_right (by decide) hd)

theorem reg_lt {g d : Nat} (hg : Feedback g d) (hd : 8 ≤ d) (chunk : Buf) (r0 : Nat) (h0 : r0 < 2 ^ d) :
    ∀ n, reg g chunk r0 n < 2 ^ d := by
  intro n
  induction n with
  | zero => exact h0
  | succ n ih => exact lsteps_lt hg _ _ (Nat.xor_lt_two_pow ih (byte_lt hd _))

theorem bitPoly_add (f : Nat → Bool) (m k : Nat) : bitPoly f (m + k) = bitPoly f m + X ^ m * bitPoly (fun i => f (m + i)) k := by
  unfold bitPoly
  rw [Finset.sum_range_add, Finset.mul_sum]
  congr 1
  apply Finset.sum_congr rfl
  intro i _
  split
  · rw [pow_add]
  · rw [mul_zero]

theorem bitPoly_congr {f f' : Nat → Bool} {n : Nat} (h : ∀ i, i < n → f i = f' i) : bitPoly f n = bitPoly f' n := by
  unfold bitPoly
  apply Finset.sum_congr rfl
  intro i hi
  rw [h i (Finset.mem_range.1 hi)]

theorem wordPoly_short {w n : Nat} (hn : n ≤ 64) (h : w < 2 ^ n) : wordPoly w = bitPoly w.testBit n := by
  ext i
  rw [wordPoly_coeff, bitPoly_coeff]
  by_cases hi : i < n
  · simp [hi, show i < 64 by omega]
  · have : w.testBit i = false := Nat.testBit_lt_two_pow (Nat.lt_of_lt_of_le h (Nat.pow_le_pow_right (by decide) (by omega)))
    simp [this]

theorem inv_bit (c : UInt8) (i : Nat) (h : i < 8) : (c ^^^ 0xff).toNat.testBit i = !c.toNat.testBit i := by
  rw [UInt8.toNat_xor, Nat.testBit_xor]
  have : (UInt8.toNat 0xff).testBit i = true := by
    have : ∀ i, i < 8 → (255 : Nat).testBit i = true := by decide
    exact this i h
  rw [this]; simp

/-- The message polynomial grows by one inverted byte. -/
theorem msg_succ (chunk : Buf) (n : Nat) : bitPoly (fun i => !chunk.bit i) (8 * (n + 1)) =
    bitPoly (fun i => !chunk.bit i) (8 * n) + X ^ (8 * n) * wordPoly (chunk n ^^^ 0xff).toNat := by
  rw [show 8 * (n + 1) = 8 * n + 8 by omega, bitPoly_add, wordPoly_short (n := 8) (by decide) (UInt8.toNat_lt _)]
  congr 2
  apply bitPoly_congr
  intro i hi
  rw [inv_bit _ _ hi, Buf.bit, show (8 * n + i) / 8 = n by omega, show (8 * n + i) % 8 = i by omega]

theorem poly_self_add (p : (ZMod 2)[X]) : p + p = 0 := CharTwo.add_self_eq_zero p

/-- The register holds the remainder: the inverted message, preceded by the initial value and followed by the register,
is a multiple of the generator. -/
theorem reg_poly {g d : Nat} (hg : Feedback g d) (hd : 8 ≤ d) (chunk : Buf) (r0 : Nat) (h0 : r0 < 2 ^ d) : ∀ n,
    wordPoly g ∣ wordPoly r0 + bitPoly (fun i => !chunk.bit i) (8 * n) + X ^ (8 * n) * wordPoly (reg g chunk r0 n) := by
  intro n
  induction n with
  | zero =>
    have : bitPoly (fun i => !chunk.bit i) (8 * 0) = 0 := rfl
    rw [this, Nat.mul_zero, pow_zero, one_mul, add_zero, reg, poly_self_add]
    exact dvd_zero _
  | succ n ih =>
    have h1 := lsteps_poly hg 8 _ (Nat.xor_lt_two_pow (reg_lt hg hd chunk r0 h0 n) (byte_lt hd (chunk n ^^^ 0xff)))
    rw [wordPoly_xor] at h1
    have e : wordPoly r0 + bitPoly (fun i => !chunk.bit i) (8 * (n + 1)) + X ^ (8 * (n + 1)) * wordPoly (reg g chunk r0 (n + 1)) =
        (wordPoly r0 + bitPoly (fun i => !chunk.bit i) (8 * n) + X ^ (8 * n) * wordPoly (reg g chunk r0 n)) +
        X ^ (8 * n) * (X ^ 8 * wordPoly (lsteps g 8 (reg g chunk r0 n ^^^ (chunk n ^^^ 0xff).toNat)) +
          (wordPoly (reg g chunk r0 n) + wordPoly (chunk n ^^^ 0xff).toNat)) := by
      have := poly_self_add (X ^ (8 * n) * wordPoly (reg g chunk r0 n))
      rw [msg_succ, show 8 * (n + 1) = 8 * n + 8 by omega, pow_add, reg]
      linear_combination (-1 : (ZMod 2)[X]) * this
    rw [e]
    exact dvd_add ih (Dvd.dvd.mul_left h1 _)

theorem wordPoly_degree {w d : Nat} (h : w < 2 ^ d) : (wordPoly w).degree < d := by
  rw [degree_lt_iff_coeff_zero]
  intro i hi
  rw [wordPoly_coeff, Nat.testBit_lt_two_pow (Nat.lt_of_lt_of_le h (Nat.pow_le_pow_right (by decide) hi))]
  simp

theorem gen_degree {g d : Nat} (hg : Feedback g d) : d ≤ (wordPoly g).degree := by
  apply le_degree_of_ne_zero
  rw [wordPoly_coeff, if_pos ⟨by have := hg.small; omega, hg.high⟩]
  decide

theorem gen_coprime {g d : Nat} (hg : Feedback g d) (k : Nat) : IsCoprime (wordPoly g) (X ^ k) := by
  apply IsCoprime.pow_right
  have h : (wordPoly g).coeff 0 = 1 := by rw [wordPoly_coeff, if_pos ⟨by decide, hg.low⟩]
  have hx := X_mul_divX_add (wordPoly g)
  rw [h, C_1] at hx
  refine ⟨1, -(divX (wordPoly g)), ?_⟩
  linear_combination -hx

/-- Only one word of the register's size completes a message to a multiple of the generator. -/
theorem reg_unique {g d : Nat} (hg : Feedback g d) (k : Nat) (p : (ZMod 2)[X]) (r e : Nat) (hr : r < 2 ^ d) (he : e < 2 ^ d)
    (h1 : wordPoly g ∣ p + X ^ k * wordPoly r) (h2 : wordPoly g ∣ p + X ^ k * wordPoly e) : r = e := by
  have h3 : wordPoly g ∣ X ^ k * wordPoly (r ^^^ e) := by
    have := dvd_add h1 h2
    have e1 : p + X ^ k * wordPoly r + (p + X ^ k * wordPoly e) = X ^ k * wordPoly (r ^^^ e) := by
      rw [wordPoly_xor]
      linear_combination poly_self_add p
    rwa [e1] at this
  have h4 := (gen_coprime hg k).dvd_of_dvd_mul_left h3
  have h5 : wordPoly (r ^^^ e) = 0 :=
    eq_zero_of_dvd_of_degree_lt h4 (lt_of_lt_of_le (wordPoly_degree (Nat.xor_lt_two_pow hr he)) (gen_degree hg))
  have hs := hg.small
  have h6 : r ^^^ e = 0 := wordPoly_inj (Nat.lt_of_lt_of_le (Nat.xor_lt_two_pow hr he) (Nat.pow_le_pow_right (by decide) (by omega)))
    (by decide) (by rw [h5, wordPoly_zero])
  have h7 := congrArg (fun x => x ^^^ e) h6
  simp only [Nat.xor_assoc, Nat.xor_self, Nat.xor_zero, Nat.zero_xor] at h7
  exact h7

end Dhara

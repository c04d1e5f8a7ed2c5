/-
Property C30 and the BCH part of C29: bch_generate and bch_verify.
-/
import Verif.Ecc.Bch
import Verif.Ecc.Lfsr
namespace Dhara.Bch
open Polynomial

/-- What the definitions of the four codes have in common. -/
structure Def.Ok (d : Def) : Prop where
  fb : Feedback d.generator d.degree
  ge : 8 ≤ d.degree
  fits : d.degree ≤ 8 * d.eccBytes

theorem codes_ok {d : Def} (h : d ∈ codes) : d.Ok := by
  simp only [codes, List.mem_cons, List.not_mem_nil, or_false] at h
  rcases h with h | h | h | h <;> subst h <;> exact ⟨⟨by decide, by decide, by decide, by decide⟩, by decide, by decide⟩

theorem remBits_eq (g : Nat) : ∀ k r, remBits g k r = lsteps g k r := by
  intro k
  induction k with
  | zero => intro r; rfl
  | succ k ih => intro r; simp only [remBits, ih]; rfl

theorem rem_reg (d : Def) (chunk : Buf) : ∀ n, chunkRemainder d chunk n = reg d.generator chunk 0 n := by
  intro n
  induction n with
  | zero => rfl
  | succ n ih => rw [chunkRemainder, remBits_eq, ih]; rfl

theorem rem_lt {d : Def} (h : d.Ok) (chunk : Buf) (n : Nat) : chunkRemainder d chunk n < 2 ^ d.degree := by
  rw [rem_reg]; exact reg_lt h.fb h.ge chunk 0 (Nat.two_pow_pos _) n

theorem unpackLoop_bit (ecc : Buf) : ∀ n poly i, (unpackLoop ecc n poly).testBit i =
    if i < 8 * n then !ecc.bit i else poly.testBit (i - 8 * n) := by
  intro n
  induction n with
  | zero => intro poly i; rw [if_neg (by omega)]; rfl
  | succ n ih =>
    intro poly i
    rw [unpackLoop, ih]
    by_cases h1 : i < 8 * n
    · rw [if_pos h1, if_pos (by omega)]
    · rw [if_neg h1, Nat.testBit_or, Nat.testBit_shiftLeft]
      by_cases h2 : i < 8 * (n + 1)
      · rw [if_pos h2, inv_bit _ _ (by omega), Buf.bit, show i / 8 = n by omega, show i % 8 = i - 8 * n by omega]
        simp [show ¬ i - 8 * n ≥ 8 by omega]
      · have hb : (ecc n ^^^ 0xff).toNat.testBit (i - 8 * n) = false :=
          Nat.testBit_lt_two_pow (Nat.lt_of_lt_of_le (UInt8.toNat_lt _) (Nat.pow_le_pow_right (by decide) (by omega : 8 ≤ i - 8 * n)))
        rw [if_neg h2, hb]
        simp [show i - 8 * n ≥ 8 by omega, show i - 8 * n - 8 = i - 8 * (n + 1) by omega]

theorem unpack_bit {d : Def} (h : d.Ok) (ecc : Buf) (i : Nat) : (unpackPoly d ecc).testBit i = (decide (i < d.degree) && !ecc.bit i) := by
  have hf := h.fits
  unfold unpackPoly
  rw [Nat.testBit_and, Nat.shiftLeft_eq, Nat.one_mul, Nat.testBit_two_pow_sub_one, unpackLoop_bit]
  by_cases hi : i < d.degree
  · rw [if_pos (by omega)]; simp [hi]
  · simp [hi]

theorem unpack_lt {d : Def} (h : d.Ok) (ecc : Buf) : unpackPoly d ecc < 2 ^ d.degree := by
  apply Nat.lt_pow_two_of_testBit
  intro i hi
  rw [unpack_bit h]; simp [show ¬ i < d.degree by omega]

theorem unpack_poly {d : Def} (h : d.Ok) (ecc : Buf) : wordPoly (unpackPoly d ecc) = bitPoly (fun i => !ecc.bit i) d.degree := by
  have hs := h.fb.small
  rw [wordPoly_short (by omega : d.degree ≤ 64) (unpack_lt h ecc)]
  apply bitPoly_congr
  intro i hi
  rw [unpack_bit h]; simp [hi]

theorem pack_at : ∀ n i poly ecc j, packPoly n i poly ecc j =
    if i ≤ j ∧ j < i + n then ~~~ UInt8.ofNat (poly >>> (8 * (j - i))) else ecc j := by
  intro n
  induction n with
  | zero => intro i poly ecc j; rw [if_neg (by omega)]; rfl
  | succ n ih =>
    intro i poly ecc j
    rw [packPoly, ih]
    by_cases h1 : i + 1 ≤ j ∧ j < i + 1 + n
    · rw [if_pos h1, if_pos (by omega), ← Nat.shiftRight_add, show 8 + 8 * (j - (i + 1)) = 8 * (j - i) by omega]
    · rw [if_neg h1]
      by_cases h2 : j = i
      · subst h2; rw [if_pos rfl, if_pos (by omega), Nat.sub_self]; rfl
      · rw [if_neg h2, if_neg (by omega)]

theorem not_bit (p i : Nat) (h : i < 8) : (~~~ UInt8.ofNat p).toNat.testBit i = !p.testBit i := by
  have e : ~~~ UInt8.ofNat p = UInt8.ofNat p ^^^ 0xff := by
    have : ∀ x : UInt8, ~~~ x = x ^^^ 0xff := by
      intro x; rw [show (0xff : UInt8) = -1 from rfl, UInt8.xor_neg_one]
    exact this _
  rw [e, inv_bit _ _ h, UInt8.toNat_ofNat', Nat.testBit_mod_two_pow]
  simp [h]

theorem pack_bit (n poly : Nat) (ecc : Buf) (i : Nat) (h : i < 8 * n) : (packPoly n 0 poly ecc).bit i = !poly.testBit i := by
  rw [Buf.bit, pack_at, if_pos (by omega), not_bit _ _ (by omega), Nat.testBit_shiftRight, Nat.sub_zero, Nat.div_add_mod]

/-- The stored word - chunk bits, then ECC bits - as a polynomial with inverted coefficients (so that the erased word is
zero); only the first `degree` bits of the ECC bytes count. -/
noncomputable def codeword (d : Def) (chunk : Buf) (len : Nat) (ecc : Buf) : (ZMod 2)[X] :=
  bitPoly (fun i => !chunk.bit i) (8 * len) + X ^ (8 * len) * bitPoly (fun i => !ecc.bit i) d.degree

/-- C30: bch_verify accepts exactly the multiples of the generator polynomial. -/
theorem bch_verify_exact (d : Def) (hd : d ∈ codes) (chunk : Buf) (len : Nat) (ecc : Buf) :
    verify d chunk len ecc = 0 ↔ wordPoly d.generator ∣ codeword d chunk len ecc := by
  have h := codes_ok hd
  have hr := reg_poly h.fb h.ge chunk 0 (Nat.two_pow_pos _) len
  rw [wordPoly_zero, zero_add, ← rem_reg] at hr
  unfold codeword
  rw [← unpack_poly h]
  unfold verify
  constructor
  · intro hv
    split at hv
    · rename_i e; rw [← e]; exact hr
    · cases hv
  · intro hv
    rw [if_pos (reg_unique h.fb (8 * len) _ _ _ (rem_lt h chunk len) (unpack_lt h ecc) hr hv)]

/-- bch_verify returns 0 or -1. -/
theorem bch_verify_values (d : Def) (chunk : Buf) (len : Nat) (ecc : Buf) : verify d chunk len ecc = 0 ∨ verify d chunk len ecc = -1 := by
  unfold verify
  split
  · exact Or.inl rfl
  · exact Or.inr rfl

/-- C30: the ECC produced by bch_generate verifies, whatever the ECC buffer held before. -/
theorem bch_generate_verifies (d : Def) (hd : d ∈ codes) (chunk : Buf) (len : Nat) (old : Buf) :
    verify d chunk len (generate d chunk len old) = 0 := by
  have h := codes_ok hd
  unfold verify
  rw [if_pos]
  apply Nat.eq_of_testBit_eq
  intro i
  rw [unpack_bit h]
  by_cases hi : i < d.degree
  · have hf := h.fits
    rw [generate, pack_bit _ _ _ _ (by omega)]; simp [hi]
  · rw [Nat.testBit_lt_two_pow (Nat.lt_of_lt_of_le (rem_lt h chunk len) (Nat.pow_le_pow_right (by decide) (by omega)))]
    simp [hi]

/-- bch_generate writes the code's ECC bytes and nothing else. -/
theorem bch_generate_frame (d : Def) (chunk : Buf) (len : Nat) (old : Buf) (i : Nat) (hi : d.eccBytes ≤ i) :
    generate d chunk len old i = old i := by
  rw [generate, pack_at, if_neg (by omega)]

/-- C29 for BCH: erased chunks with erased ECC verify, for every length and code. -/
theorem bch_erased (d : Def) (hd : d ∈ codes) (len : Nat) : verify d Buf.ff len Buf.ff = 0 := by
  have h0 : ∀ n, chunkRemainder d Buf.ff n = 0 := by
    intro n
    induction n with
    | zero => rfl
    | succ n ih =>
      rw [chunkRemainder, ih, remBits_eq, show (Buf.ff n ^^^ 0xff).toNat = 0 from (by decide : ((0xff : UInt8) ^^^ 0xff).toNat = 0), Nat.xor_zero, lsteps_zero]
  unfold verify
  rw [if_pos]
  rw [h0]
  simp only [codes, List.mem_cons, List.not_mem_nil, or_false] at hd
  rcases hd with h | h | h | h <;> subst h <;> decide

/-- There are codes, and chunks on which they give different ECC bytes. -/
example : bch4 ∈ codes ∧ generate bch4 Buf.ff 2 Buf.ff 0 ≠ generate bch4 (flipBit Buf.ff 3) 2 Buf.ff 0 := by
  refine ⟨by simp [codes], by decide⟩

end Dhara.Bch

/-
Properties C33, C34 and the CRC part of C29.
-/
import Verif.Ecc.CrcProofs
namespace Dhara.Crc
open Polynomial

/-! ### C33 -/

/-- C33: the table is the one tools/gentab.c produces for the reflected IEEE 802.3 polynomial. -/
theorem crc_table : reduce = fillTable 0xedb88320 := by decide +kernel

/-- C33: the checksum of a concatenation is the checksum of the second part carried on from the first. -/
theorem crc_append (block : Buf) (carry m : Nat) : ∀ n, crc block carry (m + n) = crc (fun i => block (m + i)) (crc block carry m) n := by
  intro n
  induction n with
  | zero => rfl
  | succ n ih => rw [← Nat.add_assoc, crc, ih]; rfl

/-- The checksum is a 32-bit number. -/
theorem crc_lt (block : Buf) (carry n : Nat) (hc : carry < 2 ^ 32) : crc block carry n < 2 ^ 32 := by
  rw [crc_reg block carry hc]
  exact ones_xor_lt (reg_lt feedback (by decide) block _ (ones_xor_lt hc) n)

/-- The IEEE 802.3 polynomial (ecc/crc32.c:20) with `X^i` replaced by `X^(32-i)`: bit 0 of a byte goes first and stands
for the highest power in the usual notation. -/
noncomputable def ieee : (ZMod 2)[X] :=
  1 + X ^ 6 + X ^ 9 + X ^ 10 + X ^ 16 + X ^ 20 + X ^ 21 + X ^ 22 + X ^ 24 + X ^ 25 + X ^ 27 + X ^ 28 + X ^ 30 + X ^ 31 + X ^ 32

theorem ieee_word : wordPoly crcGen = ieee := by
  unfold wordPoly bitPoly ieee
  simp only [Finset.sum_range_succ, Finset.sum_range_zero]
  have h : ∀ i, i < 64 → (crcGen).testBit i = decide (i ∈ [0, 6, 9, 10, 16, 20, 21, 22, 24, 25, 27, 28, 30, 31, 32]) := by decide
  simp (discharger := decide) only [h]
  norm_num

/-- C33: the checksum is the remainder of polynomial division. With all coefficients inverted (as crc32.h says), the
carry, the block and the checksum - the latter shifted behind the block - add up to a multiple of the polynomial, and the
checksum is the only 32-bit number with this property. -/
theorem crc_is_division (block : Buf) (carry n : Nat) (hc : carry < 2 ^ 32) (x : Nat) (hx : x < 2 ^ 32) :
    x = crc block carry n ↔
    ieee ∣ wordPoly (0xffffffff ^^^ carry) + bitPoly (fun i => !block.bit i) (8 * n) + X ^ (8 * n) * wordPoly (0xffffffff ^^^ x) := by
  have h := reg_poly feedback (by decide) block _ (ones_xor_lt hc) n
  rw [← ieee_word]
  have e := crc_reg block carry hc n
  constructor
  · intro hxe
    rw [hxe, e, ones_ones]; exact h
  · intro hd
    have := reg_unique feedback (8 * n) _ _ _ (reg_lt feedback (by decide) block _ (ones_xor_lt hc) n) (ones_xor_lt hx) h hd
    rw [e, this, ones_ones]

/-- C33: the checksum is affine - its change depends only on which bits of the block change. -/
theorem crc_affine (a b a' b' : Buf) (carry n : Nat) (hc : carry < 2 ^ 32) (h : ∀ i, i < n → a i ^^^ b i = a' i ^^^ b' i) :
    crc a carry n ^^^ crc b carry n = crc a' carry n ^^^ crc b' carry n := by
  rw [crc_diff _ _ _ _ hc, crc_diff _ _ _ _ hc]
  have hb : ∀ p, p < 8 * n → (a.bit p ^^ b.bit p) = (a'.bit p ^^ b'.bit p) := by
    intro p hp
    have := congrArg (fun x => x.toNat.testBit (p % 8)) (h (p / 8) (by omega))
    simp only [UInt8.toNat_xor, Nat.testBit_xor] at this
    exact this
  have : ∀ f f' : Nat → Bool, ∀ m, (∀ p, p < m → f p = f' p) → breg crcGen f m = breg crcGen f' m := by
    intro f f' m
    induction m with
    | zero => intro _; rfl
    | succ m ih => intro hf; rw [breg, breg, ih (fun p hp => hf p (by omega)), hf m (by omega)]
  exact this _ _ _ hb

/-! ### C34 -/

/-- A block of `n` bytes with its stored checksum. -/
structure Word where
  block : Buf
  sum : Nat

/-- Bit `p` of a stored word: the `8 * n` bits of the block come first, then the 32 bits of the checksum. -/
def Word.bit (w : Word) (n p : Nat) : Bool := if p < 8 * n then w.block.bit p else w.sum.testBit (p - 8 * n)

/-- The stored word passes the check. -/
def Word.passes (w : Word) (n : Nat) : Prop := w.sum = crc w.block crcInit n

/-- The difference of two words whose checksums are right, in terms of the register. -/
theorem words_differ (v w : Word) (n : Nat) (hv : v.sum < 2 ^ 32) (hw : w.sum < 2 ^ 32) (h1 : v.passes n) (h2 : w.passes n) :
    breg crcGen (fun p => v.bit n p ^^ w.bit n p) (8 * n + 32) = 0 := by
  have hd := crc_diff v.block w.block crcInit n (by decide)
  rw [breg_add]
  have e1 : breg crcGen (fun p => v.bit n p ^^ w.bit n p) (8 * n) = v.sum ^^^ w.sum := by
    rw [h1, h2, hd]
    have : ∀ f f' : Nat → Bool, ∀ m, (∀ p, p < m → f p = f' p) → breg crcGen f m = breg crcGen f' m := by
      intro f f' m
      induction m with
      | zero => intro _; rfl
      | succ m ih => intro hf; rw [breg, breg, ih (fun p hp => hf p (by omega)), hf m (by omega)]
    apply this
    intro p hp
    simp only [Word.bit, if_pos hp]
  have e2 : bitsN (fun i => v.bit n (8 * n + i) ^^ w.bit n (8 * n + i)) 32 = v.sum ^^^ w.sum := by
    apply Nat.eq_of_testBit_eq
    intro i
    rw [bitsN_bit, Nat.testBit_xor]
    by_cases hi : i < 32
    · simp [hi, Word.bit]
    · have hp : (2 : Nat) ^ 32 ≤ 2 ^ i := Nat.pow_le_pow_right (by decide) (by omega)
      rw [Nat.testBit_lt_two_pow (by omega : v.sum < 2 ^ i), Nat.testBit_lt_two_pow (by omega : w.sum < 2 ^ i)]
      simp [hi]
  rw [e1, e2, Nat.xor_self, lsteps_zero]

/-- C34: an error confined to 32 consecutive bits of block and checksum is detected. -/
theorem crc_detects_burst (v w : Word) (n k : Nat) (hv : v.sum < 2 ^ 32) (hw : w.sum < 2 ^ 32) (h : v.passes n)
    (hne : ∃ p, p < 8 * n + 32 ∧ v.bit n p ≠ w.bit n p)
    (hin : ∀ p, p < 8 * n + 32 → v.bit n p ≠ w.bit n p → k ≤ p ∧ p < k + 32) : ¬ w.passes n := by
  intro h2
  refine breg_burst feedback (by decide) (fun p => v.bit n p ^^ w.bit n p) k (8 * n + 32) ?_ ?_ (words_differ v w n hv hw h h2)
  · obtain ⟨p, hp, hd⟩ := hne
    exact ⟨p, hp, by cases h1 : v.bit n p <;> cases h2 : w.bit n p <;> simp [h1, h2] at hd ⊢⟩
  · intro p hp hd
    refine hin p hp ?_
    intro e
    rw [e] at hd; simp at hd

/-- The first 4128 powers, checked by the kernel. -/
theorem powers_apart : allNew crcGen 4128 1 .leaf = true := by decide +kernel

theorem xor_one_half (x : Nat) : (x ^^^ 1) / 2 = x / 2 := by
  have h : ∀ y : Nat, y / 2 = y >>> 1 := fun y => (Nat.shiftRight_eq_div_pow y 1).symm
  rw [h, h, Nat.shiftRight_xor_distrib]; exact Nat.xor_zero _

theorem one_lt : (1 : Nat) < 2 ^ 32 := by decide

/-- Two and three error bits leave a non-zero register. -/
theorem two_bits (p q n : Nat) (hpq : p < q) (hq : q < n) (hn : n ≤ 4128) : lsteps crcGen (n - p) 1 ^^^ lsteps crcGen (n - q) 1 ≠ 0 := by
  rw [show n - p = (q - p) + (n - q) by omega, lsteps_add, ← lsteps_xor]
  intro hz
  have h1 := lsteps_inj feedback (by decide) _ _ (Nat.xor_lt_two_pow (lsteps_lt feedback _ _ one_lt) one_lt) hz
  have h2 := congrArg (fun x => x / 2) h1
  simp only [xor_one_half] at h2
  exact allNew_distinct crcGen 4128 1 .leaf powers_apart 0 (q - p) (by omega) (by omega) h2

theorem three_bits (p q r n : Nat) (hpq : p < q) (hqr : q < r) (hr : r < n) (hn : n ≤ 4128) :
    lsteps crcGen (n - p) 1 ^^^ lsteps crcGen (n - q) 1 ^^^ lsteps crcGen (n - r) 1 ≠ 0 := by
  rw [show n - p = (r - p) + (n - r) by omega, show n - q = (r - q) + (n - r) by omega, lsteps_add, lsteps_add, ← lsteps_xor, ← lsteps_xor]
  intro hz
  have h1 := lsteps_inj feedback (by decide) _ _ (Nat.xor_lt_two_pow (Nat.xor_lt_two_pow (lsteps_lt feedback _ _ one_lt)
    (lsteps_lt feedback _ _ one_lt)) one_lt) hz
  have h2 := congrArg (fun x => (x ^^^ lsteps crcGen (r - q) 1) / 2) h1
  beta_reduce at h2
  rw [show ∀ x y : Nat, x ^^^ y ^^^ 1 ^^^ y = x ^^^ 1 ^^^ (y ^^^ y) by intros; ac_rfl, Nat.xor_self, Nat.xor_zero, Nat.zero_xor, xor_one_half] at h2
  exact allNew_distinct crcGen 4128 1 .leaf powers_apart (r - q) (r - p) (by omega) (by omega) h2

/-- The positions at which two stored words differ. -/
def errors (v w : Word) (n : Nat) : Finset Nat := (Finset.range (8 * n + 32)).filter fun p => v.bit n p ≠ w.bit n p

theorem breg_congr (f f' : Nat → Bool) : ∀ m, (∀ p, p < m → f p = f' p) → breg crcGen f m = breg crcGen f' m := by
  intro m
  induction m with
  | zero => intro _; rfl
  | succ m ih => intro hf; rw [breg, breg, ih (fun p hp => hf p (by omega)), hf m (by omega)]

/-- The register of a set of at most three error bits. -/
theorem breg_set (f : Nat → Bool) (N : Nat) (hN : N ≤ 4128) (E : Finset Nat) (hE : ∀ p, p < N → (f p = true ↔ p ∈ E))
    (hlt : ∀ p, p ∈ E → p < N) (h1 : 1 ≤ E.card) (h3 : E.card ≤ 3) : breg crcGen f N ≠ 0 := by
  rcases (by omega : E.card = 1 ∨ E.card = 2 ∨ E.card = 3) with hc | hc | hc
  · obtain ⟨p, rfl⟩ := Finset.card_eq_one.1 hc
    have hp : p < N := hlt p (Finset.mem_singleton_self p)
    rw [breg_congr f (fun i => decide (i = p)) N (fun i hi => by
      have := hE i hi; rw [Finset.mem_singleton] at this
      by_cases e : i = p
      · simp [e, hE p hp]
      · simp [e, Bool.eq_false_iff, this]), breg_single _ _ _ hp]
    exact fun hz => absurd (lsteps_inj feedback (by decide) _ _ one_lt hz) (by decide)
  · obtain ⟨p, q, hpq, rfl⟩ := Finset.card_eq_two.1 hc
    have hp : p < N := hlt p (by simp)
    have hq : q < N := hlt q (by simp)
    rw [breg_congr f (fun i => decide (i = p) ^^ decide (i = q)) N (fun i hi => by
      have := hE i hi; rw [Finset.mem_insert, Finset.mem_singleton] at this
      by_cases e : i = p
      · have : i ≠ q := by omega
        simp_all
      · by_cases e2 : i = q
        · simp_all
        · simp [e, e2, Bool.eq_false_iff, this]), breg_xor _ (fun i => decide (i = p)) (fun i => decide (i = q)),
      breg_single _ _ _ hp, breg_single _ _ _ hq]
    rcases Nat.lt_or_gt_of_ne hpq with h | h
    · exact two_bits p q N h hq hN
    · rw [Nat.xor_comm]; exact two_bits q p N h hp hN
  · obtain ⟨p, q, r, hpq, hpr, hqr, rfl⟩ := Finset.card_eq_three.1 hc
    have hp : p < N := hlt p (by simp)
    have hq : q < N := hlt q (by simp)
    have hr : r < N := hlt r (by simp)
    rw [breg_congr f (fun i => (decide (i = p) ^^ decide (i = q)) ^^ decide (i = r)) N (fun i hi => by
      have := hE i hi; rw [Finset.mem_insert, Finset.mem_insert, Finset.mem_singleton] at this
      by_cases e : i = p
      · have : i ≠ q := by omega
        have : i ≠ r := by omega
        simp_all
      · by_cases e2 : i = q
        · have : i ≠ r := by omega
          simp_all
        · by_cases e3 : i = r
          · simp_all
          · simp [e, e2, e3, Bool.eq_false_iff, this]), breg_xor _ (fun i => decide (i = p) ^^ decide (i = q)) (fun i => decide (i = r)),
      breg_xor _ (fun i => decide (i = p)) (fun i => decide (i = q)),
      breg_single _ _ _ hp, breg_single _ _ _ hq, breg_single _ _ _ hr]
    generalize ha : lsteps crcGen (N - p) 1 = a
    generalize hb : lsteps crcGen (N - q) 1 = b
    generalize hd : lsteps crcGen (N - r) 1 = d
    rcases Nat.lt_or_gt_of_ne hpq with k1 | k1 <;> rcases Nat.lt_or_gt_of_ne hqr with k2 | k2 <;>
      rcases Nat.lt_or_gt_of_ne hpr with k3 | k3 <;> first | omega | skip
    · have := three_bits p q r N k1 k2 hr hN; rwa [ha, hb, hd] at this
    · have := three_bits p r q N k3 k2 hq hN; rw [ha, hb, hd] at this
      rwa [show a ^^^ b ^^^ d = a ^^^ d ^^^ b by ac_rfl]
    · have := three_bits r p q N k3 k1 hq hN; rw [ha, hb, hd] at this
      rwa [show a ^^^ b ^^^ d = d ^^^ a ^^^ b by ac_rfl]
    · have := three_bits q p r N k1 k3 hr hN; rw [ha, hb, hd] at this
      rwa [show a ^^^ b ^^^ d = b ^^^ a ^^^ d by ac_rfl]
    · have := three_bits q r p N k2 k3 hp hN; rw [ha, hb, hd] at this
      rwa [show a ^^^ b ^^^ d = b ^^^ d ^^^ a by ac_rfl]
    · have := three_bits r q p N k2 k1 hp hN; rw [ha, hb, hd] at this
      rwa [show a ^^^ b ^^^ d = d ^^^ b ^^^ a by ac_rfl]

/-- C34: one, two or three wrong bits among a block of at most 4096 bits and its checksum are detected. -/
theorem crc_detects_three (v w : Word) (n : Nat) (hn : 8 * n ≤ 4096) (hv : v.sum < 2 ^ 32) (hw : w.sum < 2 ^ 32) (h : v.passes n)
    (h1 : 1 ≤ (errors v w n).card) (h3 : (errors v w n).card ≤ 3) : ¬ w.passes n := by
  intro h2
  refine breg_set (fun p => v.bit n p ^^ w.bit n p) (8 * n + 32) (by omega) (errors v w n) ?_ ?_ h1 h3 (words_differ v w n hv hw h h2)
  · intro p hp
    unfold errors
    rw [Finset.mem_filter, Finset.mem_range]
    cases v.bit n p <;> cases w.bit n p <;> simp [hp]
  · intro p hp
    unfold errors at hp
    exact Finset.mem_range.1 (Finset.mem_filter.1 hp).1

/-- C29 for CRC: an erased block with erased checksum bytes passes, for every length. -/
theorem crc_erased (n : Nat) : crc Buf.ff crcInit n = 0xffffffff := by
  induction n with
  | zero => rfl
  | succ n ih => rw [crc, ih]; exact (by decide : step 0xffffffff 0xff = 0xffffffff)

/-- The hypotheses are met by an erased block of 512 bytes and the same with one wrong bit. -/
example : (Word.passes ⟨Buf.ff, 0xffffffff⟩ 512) ∧ 1 ≤ (errors ⟨Buf.ff, 0xffffffff⟩ ⟨flipBit Buf.ff 0, 0xffffffff⟩ 1).card ∧
    (errors ⟨Buf.ff, 0xffffffff⟩ ⟨flipBit Buf.ff 0, 0xffffffff⟩ 1).card ≤ 3 :=
  ⟨(crc_erased 512).symm, by decide, by decide⟩

end Dhara.Crc

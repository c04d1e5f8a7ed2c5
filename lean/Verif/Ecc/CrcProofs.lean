/-
Proofs about crc32_nand (ecc/crc32.c).
-/
import Verif.Ecc.Crc
import Verif.Ecc.Lfsr
namespace Dhara

/-! ### The register bit by bit -/

theorem lstep_shl (g y : Nat) : lstep g (y <<< 1) = y := by
  rw [lstep_eq]
  have h : (y <<< 1).testBit 0 = false := by rw [Nat.testBit_shiftLeft]; simp
  rw [h, if_neg (by decide), ← Nat.shiftLeft_sub_of_shiftRight y]
where
  Nat.shiftLeft_sub_of_shiftRight (y : Nat) : y = y <<< 1 >>> 1 := by
    apply Nat.eq_of_testBit_eq; intro i
    rw [Nat.testBit_shiftRight, Nat.testBit_shiftLeft]
    simp

theorem lsteps_shl (g : Nat) : ∀ k y, lsteps g k (y <<< k) = y := by
  intro k
  induction k with
  | zero => intro y; rfl
  | succ k ih =>
    intro y
    rw [lsteps, show y <<< (k + 1) = (y <<< k) <<< 1 by rw [Nat.shiftLeft_add], lstep_shl, ih]

/-- One bit as a number. -/
def b2n (b : Bool) : Nat := if b then 1 else 0

theorem lsteps_succ' (g k r : Nat) : lsteps g (k + 1) r = lstep g (lsteps g k r) := lsteps_add g k 1 r

/-- The register reading one bit at a time. -/
def breg (g : Nat) (f : Nat → Bool) : Nat → Nat
  | 0 => 0
  | n + 1 => lstep g (breg g f n ^^^ b2n (f n))

/-- The number with bits `f 0 .. f (k-1)`. -/
def bitsN (f : Nat → Bool) : Nat → Nat
  | 0 => 0
  | k + 1 => bitsN f k ^^^ (b2n (f k) <<< k)

theorem b2n_bit (b : Bool) (i : Nat) : (b2n b).testBit i = (b && decide (i = 0)) := by
  cases b
  · simp [b2n]
  · unfold b2n
    rw [if_pos rfl, show (1 : Nat) = 2 ^ 0 from rfl, Nat.testBit_two_pow]
    simp [eq_comm]

theorem bitsN_bit (f : Nat → Bool) : ∀ k i, (bitsN f k).testBit i = (decide (i < k) && f i) := by
  intro k
  induction k with
  | zero => intro i; simp [bitsN]
  | succ k ih =>
    intro i
    rw [bitsN, Nat.testBit_xor, ih, Nat.testBit_shiftLeft, b2n_bit]
    rcases Nat.lt_trichotomy i k with h | h | h
    · simp [h, show i < k + 1 by omega, show ¬ k ≤ i by omega]
    · subst h; simp
    · simp [show ¬ i < k by omega, show ¬ i < k + 1 by omega, show i - k ≠ 0 by omega]

theorem bitsN_lt (f : Nat → Bool) (k : Nat) : bitsN f k < 2 ^ k := by
  apply Nat.lt_pow_two_of_testBit
  intro i hi
  rw [bitsN_bit]; simp [show ¬ i < k by omega]

theorem breg_add (g : Nat) (f : Nat → Bool) (m : Nat) : ∀ k, breg g f (m + k) = lsteps g k (breg g f m ^^^ bitsN (fun i => f (m + i)) k) := by
  intro k
  induction k with
  | zero => rw [Nat.add_zero, bitsN, Nat.xor_zero]; rfl
  | succ k ih =>
    rw [← Nat.add_assoc, breg, ih, bitsN, ← Nat.xor_assoc, lsteps_succ', lsteps_xor g k _ (_ <<< k), lsteps_shl]

theorem bitsN_byte (c : UInt8) (f : Nat → Bool) (h : ∀ i, i < 8 → f i = c.toNat.testBit i) : bitsN f 8 = c.toNat := by
  apply Nat.eq_of_testBit_eq
  intro i
  rw [bitsN_bit]
  by_cases hi : i < 8
  · simp [hi, h i hi]
  · have : c.toNat.testBit i = false :=
      Nat.testBit_lt_two_pow (Nat.lt_of_lt_of_le c.toNat_lt (Nat.pow_le_pow_right (by decide) (by omega : 8 ≤ i)))
    simp [hi, this]

/-- The difference of two registers is the register of the difference of the bits. -/
theorem reg_diff (g : Nat) (a b : Buf) (r0 : Nat) : ∀ n, reg g a r0 n ^^^ reg g b r0 n = breg g (fun p => a.bit p ^^ b.bit p) (8 * n) := by
  intro n
  induction n with
  | zero => exact Nat.xor_self _
  | succ n ih =>
    rw [show 8 * (n + 1) = 8 * n + 8 by omega, breg_add, reg, reg, ← lsteps_xor, ← ih]
    congr 1
    rw [bitsN_byte (a n ^^^ b n)]
    · have e : (a n ^^^ b n).toNat = (a n ^^^ 0xff).toNat ^^^ (b n ^^^ 0xff).toNat := by
        rw [← UInt8.toNat_xor]
        congr 1
        rw [show a n ^^^ 255 ^^^ (b n ^^^ 255) = a n ^^^ b n ^^^ (255 ^^^ 255) by ac_rfl, UInt8.xor_self, UInt8.xor_zero]
      rw [e]
      ac_rfl
    · intro i hi
      rw [UInt8.toNat_xor, Nat.testBit_xor, Buf.bit, Buf.bit, show (8 * n + i) / 8 = n by omega, show (8 * n + i) % 8 = i by omega]

theorem breg_zero (g : Nat) (f : Nat → Bool) : ∀ n, (∀ i, i < n → f i = false) → breg g f n = 0 := by
  intro n
  induction n with
  | zero => intro _; rfl
  | succ n ih =>
    intro h
    rw [breg, ih (fun i hi => h i (by omega)), h n (by omega)]
    exact lstep_zero g

/-- Errors confined to `d` consecutive bits leave a non-zero register. -/
theorem breg_burst {g d : Nat} (hg : Feedback g d) (hd : 0 < d) (f : Nat → Bool) (k n : Nat) (hex : ∃ p, p < n ∧ f p = true)
    (hin : ∀ p, p < n → f p = true → k ≤ p ∧ p < k + d) : breg g f n ≠ 0 := by
  obtain ⟨p, hp, hfp⟩ := hex
  obtain ⟨hkp, hpd⟩ := hin p hp hfp
  obtain ⟨j, hj, hjd, hjp, hrest⟩ : ∃ j, k + j ≤ n ∧ j ≤ d ∧ p < k + j ∧ (j = d ∨ k + j = n) := by
    by_cases h : k + d ≤ n
    · exact ⟨d, h, Nat.le_refl _, hpd, Or.inl rfl⟩
    · exact ⟨n - k, by omega, by omega, by omega, Or.inr (by omega)⟩
  have h0 : breg g f k = 0 := by
    apply breg_zero
    intro i hi
    cases hf : f i
    · rfl
    · have := hin i (by omega) hf; omega
  have h1 : breg g f (k + j) ≠ 0 := by
    rw [breg_add, h0, Nat.zero_xor]
    intro hz
    have := lsteps_inj hg hd j _ (Nat.lt_of_lt_of_le (bitsN_lt _ j) (Nat.pow_le_pow_right (by decide) hjd)) hz
    have hb := bitsN_bit (fun i => f (k + i)) j (p - k)
    rw [this, Nat.zero_testBit, show k + (p - k) = p by omega, hfp] at hb
    simp at hb; omega
  have hlt : breg g f (k + j) < 2 ^ d := by
    rw [breg_add, h0, Nat.zero_xor]
    exact lsteps_lt hg _ _ (Nat.lt_of_lt_of_le (bitsN_lt _ j) (Nat.pow_le_pow_right (by decide) hjd))
  obtain ⟨m, hm⟩ : ∃ m, n = k + j + m := ⟨n - (k + j), by omega⟩
  rw [hm, breg_add]
  have hz : bitsN (fun i => f (k + j + i)) m = 0 := by
    apply Nat.eq_of_testBit_eq
    intro i
    rw [bitsN_bit, Nat.zero_testBit]
    by_cases hi : i < m
    · cases hf : f (k + j + i)
      · simp
      · have := hin _ (by omega) hf
        omega
    · simp [hi]
  rw [hz, Nat.xor_zero]
  exact fun h => h1 (lsteps_inj hg hd m _ hlt h)

/-- The register as a sum over the error bits (at most three of them). -/
theorem breg_xor (g : Nat) (f f' : Nat → Bool) : ∀ n, breg g (fun i => f i ^^ f' i) n = breg g f n ^^^ breg g f' n := by
  intro n
  induction n with
  | zero => exact (Nat.xor_self 0).symm
  | succ n ih =>
    rw [breg, breg, breg, ih, ← lstep_xor]
    congr 1
    have : b2n (f n ^^ f' n) = b2n (f n) ^^^ b2n (f' n) := by cases f n <;> cases f' n <;> rfl
    rw [this]; ac_rfl

theorem breg_single (g : Nat) (p n : Nat) (h : p < n) : breg g (fun i => decide (i = p)) n = lsteps g (n - p) 1 := by
  obtain ⟨m, rfl⟩ : ∃ m, n = p + m := ⟨n - p, by omega⟩
  rw [breg_add, breg_zero _ _ p (fun i hi => by simp; omega), Nat.zero_xor, Nat.add_sub_cancel_left]
  congr 1
  apply Nat.eq_of_testBit_eq
  intro i
  rw [bitsN_bit, show (1 : Nat) = 2 ^ 0 from rfl, Nat.testBit_two_pow]
  by_cases h0 : i = 0
  · subst h0; simp; omega
  · simp [h0, Ne.symm h0]

namespace Crc

/-- The generator with bit `i` standing for `X^i`. -/
notation "crcGen" => (0x1db710641 : Nat)

theorem feedback : Feedback crcGen 32 := ⟨by decide, by decide, by decide, by decide⟩

theorem table_entry : ∀ i, i < 256 → reduce.getD i 0 = lsteps crcGen 8 i := by decide +kernel

theorem lsteps_table (x : Nat) : lsteps crcGen 8 x = (x >>> 8) ^^^ reduce.getD (x &&& 0xff) 0 := by
  have h : x = ((x >>> 8) <<< 8) ^^^ (x &&& 0xff) := by
    apply Nat.eq_of_testBit_eq
    intro i
    rw [show (0xff : Nat) = 2 ^ 8 - 1 from rfl, Nat.testBit_xor, Nat.testBit_shiftLeft, Nat.testBit_shiftRight, Nat.testBit_and,
      Nat.testBit_two_pow_sub_one]
    by_cases hi : i < 8
    · simp [hi, show ¬ 8 ≤ i by omega]
    · simp [hi, show 8 ≤ i by omega]
  have hlt : x &&& 0xff < 256 := Nat.lt_of_le_of_lt Nat.and_le_right (by decide)
  rw [table_entry _ hlt]
  conv_lhs => rw [h]
  rw [lsteps_xor, lsteps_shl]

theorem ones_bit (i : Nat) : (0xffffffff : Nat).testBit i = decide (i < 32) := by
  rw [show (0xffffffff : Nat) = 2 ^ 32 - 1 from rfl, Nat.testBit_two_pow_sub_one]

/-- A byte step is eight shifts of the inverted register with the inverted byte. -/
theorem step_eq (c : Nat) (hc : c < 2 ^ 32) (b : UInt8) :
    step c b = 0xffffffff ^^^ lsteps crcGen 8 ((0xffffffff ^^^ c) ^^^ (b ^^^ 0xff).toNat) := by
  rw [lsteps_table]
  have h8 : ∀ i, ¬ i < 8 → ∀ z : UInt8, z.toNat.testBit i = false := fun i hi z =>
    Nat.testBit_lt_two_pow (Nat.lt_of_lt_of_le z.toNat_lt (Nat.pow_le_pow_right (by decide) (by omega : 8 ≤ i)))
  have e1 : ((0xffffffff ^^^ c) ^^^ (b ^^^ 0xff).toNat) &&& 0xff = (c ^^^ b.toNat) &&& 0xff := by
    apply Nat.eq_of_testBit_eq
    intro i
    rw [show (0xff : Nat) = 2 ^ 8 - 1 from rfl]
    simp only [Nat.testBit_and, Nat.testBit_xor, Nat.testBit_two_pow_sub_one, ones_bit]
    by_cases hi : i < 8
    · rw [inv_bit b i hi]
      cases c.testBit i <;> cases b.toNat.testBit i <;> simp [hi, show i < 32 by omega]
    · simp [hi]
  have e2 : 0xffffffff ^^^ (((0xffffffff ^^^ c) ^^^ (b ^^^ 0xff).toNat) >>> 8) = (c >>> 8) ^^^ 0xff000000 := by
    apply Nat.eq_of_testBit_eq
    intro i
    have hff : (0xff000000 : Nat).testBit i = (decide (i < 32) && !decide (i < 24)) := by
      rw [show (0xff000000 : Nat) = (2 ^ 8 - 1) <<< 24 from rfl, Nat.testBit_shiftLeft, Nat.testBit_two_pow_sub_one]
      by_cases h1 : i < 24
      · simp [h1]
      · simp only [h1, ge_iff_le, show 24 ≤ i by omega, decide_true, Bool.true_and]
        simp; omega
    simp only [Nat.testBit_xor, Nat.testBit_shiftRight, hff, ones_bit, h8 (8 + i) (by omega)]
    by_cases h1 : i < 24
    · simp [h1, show i < 32 by omega, show 8 + i < 32 by omega]
    · have : c.testBit (8 + i) = false := Nat.testBit_lt_two_pow (Nat.lt_of_lt_of_le hc (Nat.pow_le_pow_right (by decide) (by omega)))
      simp [h1, this, show ¬ 8 + i < 32 by omega]
  rw [e1, ← Nat.xor_assoc, e2, step]
  ac_rfl

theorem ones_xor_lt {r : Nat} (h : r < 2 ^ 32) : 0xffffffff ^^^ r < 2 ^ 32 := Nat.xor_lt_two_pow (by decide) h

theorem ones_ones (r : Nat) : 0xffffffff ^^^ (0xffffffff ^^^ r) = r := by rw [← Nat.xor_assoc, Nat.xor_self, Nat.zero_xor]

/-- The checksum is the inverted register. -/
theorem crc_reg (block : Buf) (carry : Nat) (hc : carry < 2 ^ 32) : ∀ n,
    crc block carry n = 0xffffffff ^^^ reg crcGen block (0xffffffff ^^^ carry) n := by
  intro n
  induction n with
  | zero => exact (ones_ones carry).symm
  | succ n ih =>
    have hlt := reg_lt feedback (by decide) block _ (ones_xor_lt hc) n
    rw [crc, ih, step_eq _ (ones_xor_lt hlt), ones_ones]; rfl

theorem crc_diff (a b : Buf) (carry n : Nat) (hc : carry < 2 ^ 32) :
    crc a carry n ^^^ crc b carry n = breg crcGen (fun p => a.bit p ^^ b.bit p) (8 * n) := by
  rw [crc_reg a carry hc, crc_reg b carry hc, ← reg_diff crcGen a b (0xffffffff ^^^ carry)]
  rw [show ∀ x y z : Nat, x ^^^ y ^^^ (x ^^^ z) = (x ^^^ x) ^^^ (y ^^^ z) by intros; ac_rfl, Nat.xor_self, Nat.zero_xor]

/-! ### Powers of X modulo the generator are far apart -/

/-- A binary trie of numbers. -/
inductive Trie
  | leaf
  | node (here : Bool) (l r : Trie)

/-- Is `x` (`k` bits of it) in the trie? -/
def Trie.mem : Nat → Nat → Trie → Bool
  | _, _, .leaf => false
  | 0, _, .node h _ _ => h
  | k + 1, x, .node _ l r => if x % 2 = 0 then Trie.mem k (x / 2) l else Trie.mem k (x / 2) r

/-- Add `x` (`k` bits of it). -/
def Trie.ins : Nat → Nat → Trie → Trie
  | 0, _, .leaf => .node true .leaf .leaf
  | 0, _, .node _ l r => .node true l r
  | k + 1, x, .leaf => if x % 2 = 0 then .node false (Trie.ins k (x / 2) .leaf) .leaf else .node false .leaf (Trie.ins k (x / 2) .leaf)
  | k + 1, x, .node h l r => if x % 2 = 0 then .node h (Trie.ins k (x / 2) l) r else .node h l (Trie.ins k (x / 2) r)

theorem Trie.mem_ins_self : ∀ k x t, Trie.mem k x (Trie.ins k x t) = true := by
  intro k
  induction k with
  | zero => intro x t; cases t <;> rfl
  | succ k ih =>
    intro x t
    cases t with
    | leaf =>
      rw [Trie.ins]
      by_cases h : x % 2 = 0
      · rw [if_pos h, Trie.mem, if_pos h]; exact ih _ _
      · rw [if_neg h, Trie.mem, if_neg h]; exact ih _ _
    | node b l r =>
      rw [Trie.ins]
      by_cases h : x % 2 = 0
      · rw [if_pos h, Trie.mem, if_pos h]; exact ih _ _
      · rw [if_neg h, Trie.mem, if_neg h]; exact ih _ _

theorem Trie.mem_ins_mono : ∀ k x y t, Trie.mem k y t = true → Trie.mem k y (Trie.ins k x t) = true := by
  intro k
  induction k with
  | zero => intro x y t h; cases t <;> rfl
  | succ k ih =>
    intro x y t h
    cases t with
    | leaf => cases h
    | node b l r =>
      rw [Trie.mem] at h
      rw [Trie.ins]
      by_cases hx : x % 2 = 0
      · rw [if_pos hx, Trie.mem]
        by_cases hy : y % 2 = 0
        · rw [if_pos hy] at h ⊢; exact ih _ _ _ h
        · rw [if_neg hy] at h ⊢; exact h
      · rw [if_neg hx, Trie.mem]
        by_cases hy : y % 2 = 0
        · rw [if_pos hy] at h ⊢; exact h
        · rw [if_neg hy] at h ⊢; exact ih _ _ _ h

/-- Run `n` shifts; all the numbers met, halved, are new. -/
def allNew (g : Nat) : Nat → Nat → Trie → Bool
  | 0, _, _ => true
  | n + 1, r, t => if Trie.mem 31 (r / 2) t then false else allNew g n (lstep g r) (Trie.ins 31 (r / 2) t)

theorem allNew_not_mem (g : Nat) : ∀ n r t, allNew g n r t = true → ∀ x, Trie.mem 31 x t = true → ∀ k, k < n → lsteps g k r / 2 ≠ x := by
  intro n
  induction n with
  | zero => intro r t _ x _ k hk; exact absurd hk (Nat.not_lt_zero _)
  | succ n ih =>
    intro r t h x hx k hk
    rw [allNew] at h
    by_cases hm : Trie.mem 31 (r / 2) t = true
    · rw [if_pos hm] at h; cases h
    · rw [if_neg hm] at h
      cases k with
      | zero => intro e; rw [lsteps] at e; rw [e] at hm; exact hm hx
      | succ k => exact ih _ _ h x (Trie.mem_ins_mono _ _ _ _ hx) k (by omega)

theorem allNew_distinct (g : Nat) : ∀ n r t, allNew g n r t = true → ∀ a b, a < b → b < n → lsteps g b r / 2 ≠ lsteps g a r / 2 := by
  intro n
  induction n with
  | zero => intro r t _ a b _ hb; exact absurd hb (Nat.not_lt_zero _)
  | succ n ih =>
    intro r t h a b hab hb
    rw [allNew] at h
    by_cases hm : Trie.mem 31 (r / 2) t = true
    · rw [if_pos hm] at h; cases h
    · rw [if_neg hm] at h
      obtain ⟨b', rfl⟩ : ∃ b', b = b' + 1 := ⟨b - 1, by omega⟩
      cases a with
      | zero => exact allNew_not_mem g n _ _ h _ (Trie.mem_ins_self _ _ _) b' (by omega)
      | succ a => exact ih _ _ h a b' (by omega) (by omega)

end Crc
end Dhara

/-
Proofs about the Hamming code (ecc/hamming.c).
-/
import Verif.Ecc.Hamming
import Verif.Ecc.Spec
namespace Dhara.Hamming

/-! ### Bit-level facts -/

/-- Parity of a byte by folding. -/
def par (c : Nat) : Nat :=
  (c ^^^ c >>> 1 ^^^ c >>> 2 ^^^ c >>> 3 ^^^ c >>> 4 ^^^ c >>> 5 ^^^ c >>> 6 ^^^ c >>> 7) &&& 1

theorem odd_par : ∀ c, c < 256 → odd c = par c := by decide +kernel

theorem par_xor (a b : Nat) : par (a ^^^ b) = par a ^^^ par b := by
  simp only [par, Nat.shiftRight_xor_distrib]
  rw [← Nat.and_xor_distrib_right]
  congr 1
  ac_rfl

theorem and_lt (a m : Nat) (h : a < 256) : a &&& m < 256 := Nat.lt_of_le_of_lt Nat.and_le_left h

theorem odd_xor (a b m : Nat) (ha : a < 256) (hb : b < 256) : odd ((a ^^^ b) &&& m) = odd (a &&& m) ^^^ odd (b &&& m) := by
  have hx : a ^^^ b < 256 := Nat.xor_lt_two_pow (n := 8) ha hb
  rw [odd_par _ (and_lt _ _ hx), odd_par _ (and_lt _ _ ha), odd_par _ (and_lt _ _ hb), Nat.and_xor_distrib_right, par_xor]

theorem odd_lt : ∀ c, c < 256 → odd c < 2 := by decide +kernel

theorem pushBit_xor (o o' x x' : Nat) (hx : x < 2) (hx' : x' < 2) :
    pushBit (o ^^^ o') (x ^^^ x') = pushBit o x ^^^ pushBit o' x' := by
  apply Nat.eq_of_testBit_eq
  intro i
  have h1 : ∀ y, y < 2 → ∀ k, Nat.testBit y (k + 1) = false := by
    intro y hy k
    apply Nat.testBit_lt_two_pow
    calc y < 2 := hy
      _ ≤ 2 ^ (k + 1) := by rw [Nat.pow_succ]; have := Nat.one_le_two_pow (n := k); omega
  cases i with
  | zero => simp [pushBit, Nat.testBit_or, Nat.testBit_shiftLeft, Nat.testBit_xor]
  | succ k => simp [pushBit, Nat.testBit_or, Nat.testBit_shiftLeft, Nat.testBit_xor, h1 _ hx, h1 _ hx']

theorem bit_lt (x : Nat) : x &&& 1 < 2 := Nat.lt_of_le_of_lt Nat.and_le_right (by decide)

theorem bit8_xor (l l' : Nat) : ((l ^^^ l') >>> 8) &&& 1 = ((l >>> 8) &&& 1) ^^^ ((l' >>> 8) &&& 1) := by
  rw [Nat.shiftRight_xor_distrib, Nat.and_xor_distrib_right]

theorem shl16_xor (l l' : Nat) : ((l ^^^ l') <<< 1) % 65536 = ((l <<< 1) % 65536) ^^^ ((l' <<< 1) % 65536) := by
  apply Nat.eq_of_testBit_eq
  intro i
  rw [show (65536 : Nat) = 2 ^ 16 from rfl]
  simp only [Nat.testBit_xor, Nat.testBit_mod_two_pow, Nat.testBit_shiftLeft]
  cases decide (i < 16) <;> cases decide (i ≥ 1) <;> simp

theorem lineLoop_xor : ∀ k o o' l l' b b', lineLoop k (o ^^^ o') (l ^^^ l') (b ^^^ b') = lineLoop k o l b ^^^ lineLoop k o' l' b' := by
  intro k
  induction k with
  | zero => intros; rfl
  | succ k ih =>
    intro o o' l l' b b'
    have h1 := pushBit_xor o o' ((b >>> 8) &&& 1) ((b' >>> 8) &&& 1) (bit_lt _) (bit_lt _)
    have h2 := pushBit_xor (pushBit o ((b >>> 8) &&& 1)) (pushBit o' ((b' >>> 8) &&& 1)) ((l >>> 8) &&& 1) ((l' >>> 8) &&& 1) (bit_lt _) (bit_lt _)
    unfold pushBit at h1 h2
    simp only [lineLoop, bit8_xor, shl16_xor]
    rw [h1, h2, ih]

/-- Exclusive or of scan states. -/
def sx (s d : Scan) : Scan := ⟨s.column ^^^ d.column, s.line ^^^ d.line, s.lineBar ^^^ d.lineBar⟩

theorem pack_xor (s d : Scan) (hs : s.column < 256) (hd : d.column < 256) : pack (sx s d) = pack s ^^^ pack d := by
  have h := lineLoop_xor 9 0 0 s.line d.line s.lineBar d.lineBar
  rw [Nat.xor_self] at h
  have hl : ∀ x m, x < 256 → odd (x &&& m) < 2 := fun x m hx => odd_lt _ (and_lt x m hx)
  unfold pack sx
  simp only [h, odd_xor _ _ _ hs hd, pushBit_xor _ _ _ _ (hl _ _ hs) (hl _ _ hd)]

/-! ### The scan -/

theorem scan_column (chunk : Buf) : ∀ n, (scanLoop chunk n).column < 256 := by
  intro n
  induction n with
  | zero => exact (by decide : (0 : Nat) < 256)
  | succ i ih =>
    have := Nat.xor_lt_two_pow (n := 8) ih (chunk i).toNat_lt
    unfold scanLoop scanStep
    simp only
    split <;> exact this


/-- What one flipped bit adds to the scan state. -/
def delta (pos : Nat) : Scan := ⟨2 ^ (pos % 8), pos / 8 % 65536, not16 (pos / 8)⟩

theorem odd_flip : ∀ b, b < 8 → ∀ c, c < 256 → odd (c ^^^ 2 ^ b) = 1 - odd c := by decide +kernel

theorem pow_lt8 (pos : Nat) : 2 ^ (pos % 8) < 256 :=
  Nat.lt_of_lt_of_le (Nat.pow_lt_pow_right (by decide) (Nat.mod_lt _ (by decide))) (by decide : 2 ^ 8 ≤ 256)

theorem flip_toNat (c : UInt8) (pos : Nat) : (c ^^^ UInt8.ofNat (2 ^ (pos % 8))).toNat = c.toNat ^^^ 2 ^ (pos % 8) := by
  rw [UInt8.toNat_xor, UInt8.toNat_ofNat', Nat.mod_eq_of_lt (pow_lt8 pos)]

theorem sx_zero_right {a d e : Nat} : a ^^^ d ^^^ e = a ^^^ e ^^^ d := by rw [Nat.xor_assoc, Nat.xor_comm d e, ← Nat.xor_assoc]

theorem scanStep_sx (c : UInt8) (i : Nat) (s d : Scan) : scanStep c i (sx s d) = sx (scanStep c i s) d := by
  unfold scanStep sx
  simp only
  split
  · simp only [Scan.mk.injEq]
    exact ⟨sx_zero_right, sx_zero_right, sx_zero_right⟩
  · simp only [Scan.mk.injEq]
    exact ⟨sx_zero_right, trivial, trivial⟩

theorem scanStep_flip (c : UInt8) (pos : Nat) (s : Scan) :
    scanStep (c ^^^ UInt8.ofNat (2 ^ (pos % 8))) (pos / 8) s = sx (scanStep c (pos / 8) s) (delta pos) := by
  have h1 := odd_flip (pos % 8) (Nat.mod_lt _ (by decide)) c.toNat c.toNat_lt
  have h2 := odd_lt c.toNat c.toNat_lt
  unfold scanStep sx delta
  rw [flip_toNat, h1]
  by_cases h : odd c.toNat = 0
  · simp [h, Nat.xor_assoc]
  · have h3 : odd c.toNat = 1 := by omega
    simp [h3, Nat.xor_assoc, Nat.xor_self]

theorem scan_flip (chunk : Buf) (pos : Nat) : ∀ n, scanLoop (flipBit chunk pos) n =
    if pos / 8 < n then sx (scanLoop chunk n) (delta pos) else scanLoop chunk n := by
  intro n
  induction n with
  | zero => rfl
  | succ i ih =>
    rw [scanLoop, ih]
    rcases Nat.lt_trichotomy (pos / 8) i with h | h | h
    · rw [if_pos h, if_pos (by omega), scanStep_sx, show flipBit chunk pos i = chunk i from if_neg (by omega)]; rfl
    · rw [if_neg (by omega), if_pos (by omega), show flipBit chunk pos i = chunk i ^^^ UInt8.ofNat (2 ^ (pos % 8)) from if_pos h.symm]
      subst h
      rw [scanStep_flip]; rfl
    · rw [if_neg (by omega), if_neg (by omega), show flipBit chunk pos i = chunk i from if_neg (by omega)]; rfl

/-- The syndrome of a single bit at `pos`: in pair `m`, the low bit if bit `m` of `pos` is set, else the high bit. -/
def pat (pos : Nat) : Nat := pack (delta pos)

theorem parity_flip (chunk : Buf) (pos len : Nat) (h : pos < 8 * len) :
    parityScan (flipBit chunk pos) len = parityScan chunk len ^^^ pat pos := by
  unfold parityScan
  rw [scan_flip, if_pos (by omega), pack_xor _ _ (scan_column _ _) (pow_lt8 pos), sx_zero_right]; rfl

/-! ### Packing of the ECC bytes -/

theorem pushBit_lt (o x n : Nat) (ho : o < 2 ^ n) (hx : x < 2) : pushBit o x < 2 ^ (n + 1) := by
  apply Nat.or_lt_two_pow
  · rw [Nat.shiftLeft_eq, Nat.pow_succ]; omega
  · exact Nat.lt_of_lt_of_le hx (by rw [Nat.pow_succ]; have := Nat.one_le_two_pow (n := n); omega)

theorem lineLoop_lt : ∀ k n o l b, o < 2 ^ n → lineLoop k o l b < 2 ^ (n + 2 * k) := by
  intro k
  induction k with
  | zero => intro n o l b h; exact h
  | succ k ih =>
    intro n o l b h
    have h1 := pushBit_lt _ ((b >>> 8) &&& 1) _ h (bit_lt _)
    have h2 := pushBit_lt _ ((l >>> 8) &&& 1) _ h1 (bit_lt _)
    have h3 := ih (n + 1 + 1) _ ((l <<< 1) % 65536) ((b <<< 1) % 65536) h2
    rw [show n + 2 * (k + 1) = n + 1 + 1 + 2 * k by omega]
    exact h3

theorem pack_lt (s : Scan) (hs : s.column < 256) : pack s < 2 ^ 24 := by
  have hl : ∀ m, odd (s.column &&& m) < 2 := fun m => odd_lt _ (and_lt _ m hs)
  have h := lineLoop_lt 9 0 0 s.line s.lineBar (by decide)
  exact pushBit_lt _ _ 23 (pushBit_lt _ _ 22 (pushBit_lt _ _ 21 (pushBit_lt _ _ 20 (pushBit_lt _ _ 19
    (pushBit_lt _ _ 18 h (hl _)) (hl _)) (hl _)) (hl _)) (hl _)) (hl _)

theorem parity_lt (chunk : Buf) (len : Nat) : parityScan chunk len < 2 ^ 24 :=
  Nat.xor_lt_two_pow (pack_lt _ (scan_column _ _)) (by decide)

/-- The number stored in three ECC bytes. -/
def unpackEcc (ecc : Buf) : Nat := ((ecc 2).toNat <<< 8 ||| (ecc 1).toNat) <<< 8 ||| (ecc 0).toNat

theorem byte_bit (c : UInt8) (i : Nat) (h : ¬ i < 8) : c.toNat.testBit i = false :=
  Nat.testBit_lt_two_pow (Nat.lt_of_lt_of_le c.toNat_lt (Nat.pow_le_pow_right (by decide) (by omega : 8 ≤ i)))

theorem unpack_bit (ecc : Buf) (i : Nat) : (unpackEcc ecc).testBit i =
    (decide (i < 24) && (ecc (i / 8)).toNat.testBit (i % 8)) := by
  unfold unpackEcc
  simp only [Nat.testBit_or, Nat.testBit_shiftLeft]
  rcases Nat.lt_or_ge i 8 with h | h
  · have e1 : i / 8 = 0 := by omega
    have e2 : i % 8 = i := by omega
    have e3 : i < 24 := by omega
    simp [e1, e2, e3, show ¬ i ≥ 8 by omega]
  · rcases Nat.lt_or_ge i 16 with h2 | h2
    · have e1 : i / 8 = 1 := by omega
      have e2 : i % 8 = i - 8 := by omega
      have e3 : i < 24 := by omega
      simp [e1, e2, e3, byte_bit (ecc 0) i (by omega), show ¬ i - 8 ≥ 8 by omega, h]
    · rcases Nat.lt_or_ge i 24 with h3 | h3
      · have e1 : i / 8 = 2 := by omega
        have e2 : i % 8 = i - 8 - 8 := by omega
        simp [e1, e2, h3, byte_bit (ecc 0) i (by omega), byte_bit (ecc 1) (i - 8) (by omega), h, show 8 ≤ i - 8 by omega]
      · simp [show ¬ i < 24 by omega, byte_bit (ecc 0) i (by omega), byte_bit (ecc 1) (i - 8) (by omega),
          byte_bit (ecc 2) (i - 8 - 8) (by omega)]

theorem syndrome_eq (chunk : Buf) (len : Nat) (ecc : Buf) : syndrome chunk len ecc = parityScan chunk len ^^^ unpackEcc ecc := by
  unfold syndrome unpackEcc
  simp only [Nat.zero_or]

theorem generate_bit (chunk : Buf) (len i : Nat) (h : i < 24) :
    (generate chunk len (i / 8)).toNat.testBit (i % 8) = (parityScan chunk len).testBit i := by
  have hb : ∀ p, (UInt8.ofNat p).toNat.testBit (i % 8) = p.testBit (i % 8) := by
    intro p
    rw [UInt8.toNat_ofNat', show (2 ^ 8) = 2 ^ 8 from rfl, Nat.testBit_mod_two_pow]
    simp [Nat.mod_lt]
  unfold generate
  simp only
  rcases (by omega : i / 8 = 0 ∨ i / 8 = 1 ∨ i / 8 = 2) with e | e | e
  · rw [if_pos e, hb, show i % 8 = i by omega]
  · rw [if_neg (by omega), if_pos e, hb, Nat.testBit_shiftRight, show 8 + i % 8 = i by omega]
  · rw [if_neg (by omega), if_neg (by omega), if_pos e, hb, Nat.testBit_shiftRight, Nat.testBit_shiftRight,
      show 8 + (8 + i % 8) = i by omega]

theorem unpack_generate (chunk : Buf) (len : Nat) : unpackEcc (generate chunk len) = parityScan chunk len := by
  apply Nat.eq_of_testBit_eq
  intro i
  rw [unpack_bit]
  by_cases h : i < 24
  · rw [generate_bit _ _ _ h]; simp [h]
  · have h1 : parityScan chunk len < 2 ^ i := Nat.lt_of_lt_of_le (parity_lt chunk len) (Nat.pow_le_pow_right (by decide) (by omega))
    simp [h, Nat.testBit_lt_two_pow h1]

theorem testBit_pow (k i : Nat) : (2 ^ k).testBit i = decide (k = i) := by
  rw [Nat.testBit_two_pow]

theorem unpack_flip (ecc : Buf) (k : Nat) (h : k < 24) : unpackEcc (flipBit ecc k) = unpackEcc ecc ^^^ 2 ^ k := by
  apply Nat.eq_of_testBit_eq
  intro i
  rw [Nat.testBit_xor, unpack_bit, unpack_bit, testBit_pow]
  unfold flipBit
  by_cases h1 : i / 8 = k / 8
  · rw [if_pos h1, flip_toNat, Nat.testBit_xor, testBit_pow]
    by_cases h2 : k % 8 = i % 8
    · have : k = i := by omega
      subst this; simp [h]
    · have : k ≠ i := by omega
      simp [h2, this]
  · have : k ≠ i := by intro e; subst e; exact h1 rfl
    rw [if_neg h1]; simp [this]

/-! ### Decoding -/

/-- Pair `m` of the syndrome. -/
def pr (s m : Nat) : Nat := (s >>> (2 * m)) &&& 3

theorem pr_xor (s t m : Nat) : pr (s ^^^ t) m = pr s m ^^^ pr t m := by
  unfold pr; rw [Nat.shiftRight_xor_distrib, Nat.and_xor_distrib_right]

/-- All 4096 positions: the pairs of the pattern spell the position. -/
theorem pat_pairs : ∀ pos, pos < 4096 → ∀ m, m < 12 → pr (pat pos) m = if pos.testBit m then 1 else 2 := by
  have h : ∀ k, k < 64 → ∀ b, b < 64 → ∀ m, m < 12 → pr (pat (64 * k + b)) m = if (64 * k + b).testBit m then 1 else 2 := by
    decide +kernel
  intro pos hp m hm
  have := h (pos / 64) (by omega) (pos % 64) (by omega) m hm
  rwa [Nat.div_add_mod] at this

theorem pat_lt (pos : Nat) : pat pos < 2 ^ 24 := pack_lt _ (pow_lt8 pos)

/-- All 4096 positions: the decoder finds them. -/
theorem pat_decodes : ∀ pos, pos < 4096 → decodeLoop 12 (pat pos) 0 1 = some pos := by
  have h : ∀ k, k < 64 → ∀ b, b < 64 → decodeLoop 12 (pat (64 * k + b)) 0 1 = some (64 * k + b) := by decide +kernel
  intro pos hp
  have := h (pos / 64) (by omega) (pos % 64) (by omega)
  rwa [Nat.div_add_mod] at this

theorem decode_none : ∀ k s m pos b, (∃ j, j < k ∧ (pr s (m + j) = 0 ∨ pr s (m + j) = 3)) →
    decodeLoop k (s >>> (2 * m)) pos b = none := by
  intro k
  induction k with
  | zero => rintro s m pos b ⟨j, hj, _⟩; exact absurd hj (Nat.not_lt_zero _)
  | succ k ih =>
    rintro s m pos b ⟨j, hj, hp⟩
    have hs : s >>> (2 * m) >>> 2 = s >>> (2 * (m + 1)) := by rw [← Nat.shiftRight_add]; rfl
    have he : (s >>> (2 * m)) &&& 3 = pr s m := rfl
    rw [decodeLoop, he, hs]
    by_cases h0 : j = 0
    · subst h0
      rw [Nat.add_zero] at hp
      rcases hp with h | h <;> rw [h] <;> rfl
    · have hrec : ∃ j', j' < k ∧ (pr s (m + 1 + j') = 0 ∨ pr s (m + 1 + j') = 3) :=
        ⟨j - 1, by omega, by rw [show m + 1 + (j - 1) = m + j by omega]; exact hp⟩
      split
      · exact ih _ _ _ _ hrec
      · split
        · rfl
        · exact ih _ _ _ _ hrec

/-- A number with two different bits set is not zero and not a power of two. -/
theorem not_pow (s i j : Nat) (hij : i < j) (hi : s.testBit i = true) (hj : s.testBit j = true) : s ≠ 0 ∧ s &&& (s - 1) ≠ 0 := by
  have h0 : s ≠ 0 := by rintro rfl; simp at hi
  refine ⟨h0, fun h => ?_⟩
  have hb : (s &&& (s - 1)).testBit j = true := by
    rw [Nat.testBit_and, hj, Bool.true_and]
    -- s has bit i < j set, so s - 1 keeps bit j
    have hmod : s % 2 ^ j ≠ 0 := by
      intro hz
      have : (s % 2 ^ j).testBit i = true := by rw [Nat.testBit_mod_two_pow, hi]; simp [hij]
      rw [hz] at this; simp at this
    have hdiv : (s - 1) / 2 ^ j = s / 2 ^ j := by
      have h1 := Nat.div_add_mod s (2 ^ j)
      have h2 : s % 2 ^ j < 2 ^ j := Nat.mod_lt _ (Nat.two_pow_pos j)
      have h3 : s - 1 = 2 ^ j * (s / 2 ^ j) + (s % 2 ^ j - 1) := by omega
      have h4 : (s % 2 ^ j - 1) / 2 ^ j = 0 := Nat.div_eq_of_lt (by omega)
      rw [h3, Nat.mul_add_div (Nat.two_pow_pos j), h4, Nat.add_zero]
    rw [Nat.testBit_eq_decide_div_mod_eq, hdiv, ← Nat.testBit_eq_decide_div_mod_eq, hj]
  rw [h] at hb; simp at hb

theorem repair_fail (chunk : Buf) (len s : Nat) (i j : Nat) (hij : i < j) (hi : s.testBit i = true) (hj : s.testBit j = true)
    (hp : ∃ m, m < 12 ∧ (pr s m = 0 ∨ pr s m = 3)) : s ≠ 0 ∧ repair chunk len s = (-1, chunk) := by
  obtain ⟨h0, h1⟩ := not_pow s i j hij hi hj
  have h2 := decode_none 12 s 0 0 1 (by obtain ⟨m, h, h'⟩ := hp; exact ⟨m, h, by rw [Nat.zero_add]; exact h'⟩)
  rw [Nat.mul_zero, Nat.shiftRight_zero] at h2
  refine ⟨h0, ?_⟩
  unfold repair
  rw [if_neg h0, if_neg h1, h2]

theorem pr_bit (s m : Nat) : pr s m = (if s.testBit (2 * m) then 1 else 0) + (if s.testBit (2 * m + 1) then 2 else 0) := by
  unfold pr
  have h : ∀ x : Nat, x &&& 3 = (if x.testBit 0 then 1 else 0) + (if x.testBit 1 then 2 else 0) := by
    intro x
    rw [show (3 : Nat) = 2 ^ 2 - 1 from rfl, Nat.and_two_pow_sub_one_eq_mod, Nat.testBit_eq_decide_div_mod_eq, Nat.testBit_eq_decide_div_mod_eq]
    simp only [decide_eq_true_eq]
    split <;> split <;> omega
  rw [h, Nat.testBit_shiftRight, Nat.testBit_shiftRight, Nat.add_zero]

/-- A non-zero pair has a bit set. -/
theorem pr_ne_zero {s m : Nat} (h : pr s m ≠ 0) : ∃ i, i / 2 = m ∧ s.testBit i = true := by
  rw [pr_bit] at h
  by_cases h1 : s.testBit (2 * m) = true
  · exact ⟨2 * m, by omega, h1⟩
  · by_cases h2 : s.testBit (2 * m + 1) = true
    · exact ⟨2 * m + 1, by omega, h2⟩
    · simp [h1, h2] at h

theorem bits_of_pairs {s m m' : Nat} (hm : m < m') (h : pr s m ≠ 0) (h' : pr s m' ≠ 0) :
    ∃ i j, i < j ∧ s.testBit i = true ∧ s.testBit j = true := by
  obtain ⟨i, e, hi⟩ := pr_ne_zero h
  obtain ⟨j, e', hj⟩ := pr_ne_zero h'
  exact ⟨i, j, by omega, hi, hj⟩

theorem pr_pow (k m : Nat) : pr (2 ^ k) m = if k / 2 = m then (if k % 2 = 0 then 1 else 2) else 0 := by
  rw [pr_bit, testBit_pow, testBit_pow]
  simp only [decide_eq_true_eq]
  by_cases h : k / 2 = m
  · by_cases h2 : k % 2 = 0
    · simp [h, h2, show k = 2 * m by omega]
    · have h3 : k = 2 * m + 1 := by omega
      simp [h3, show (2 * m + 1) / 2 = m by omega]
  · simp [h, show k ≠ 2 * m by omega, show k ≠ 2 * m + 1 by omega]

theorem repair_chunk (chunk : Buf) (len pos : Nat) (h : pos < 8 * len) (hl : len ≤ 512) :
    pat pos ≠ 0 ∧ repair (flipBit chunk pos) len (pat pos) = (0, chunk) := by
  have hp := pat_pairs pos (by omega)
  have h2 : ∀ m, m < 12 → pr (pat pos) m ≠ 0 := by
    intro m hm; rw [hp m hm]; split <;> decide
  obtain ⟨i, j, hij, hi, hj⟩ := bits_of_pairs (by decide : 0 < 1) (h2 0 (by decide)) (h2 1 (by decide))
  obtain ⟨h0, h1⟩ := not_pow _ i j hij hi hj
  refine ⟨h0, ?_⟩
  unfold repair
  have e1 : pos >>> 3 = pos / 8 := Nat.shiftRight_eq_div_pow pos 3
  have e2 : pos &&& 7 = pos % 8 := Nat.and_two_pow_sub_one_eq_mod (n := 3) pos
  rw [if_neg h0, if_neg h1, pat_decodes pos (by omega)]
  simp only [e1, e2]
  rw [if_pos (by omega)]
  congr 1
  funext k
  unfold flipBit
  by_cases hk : k = pos / 8
  · rw [if_pos hk, if_pos hk, Nat.shiftLeft_eq, Nat.one_mul, UInt8.xor_assoc, UInt8.xor_self, UInt8.xor_zero]
  · rw [if_neg hk, if_neg hk]

theorem pow_and_pred : ∀ k, k < 24 → 2 ^ k ≠ 0 ∧ 2 ^ k &&& (2 ^ k - 1) = 0 := by decide +kernel

end Dhara.Hamming

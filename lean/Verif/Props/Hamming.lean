/-
Properties C27, C28 and the Hamming part of C29: the code of ecc/hamming.c corrects one and detects two bit errors.
-/
import Verif.Ecc.HammingProofs
namespace Dhara.Hamming

/-- A stored word: a chunk and its ECC bytes. -/
structure Word where
  chunk : Buf
  ecc : Buf

/-- Flip bit number `p` of a stored word: the chunk's `8 * len` bits come first, then the 24 ECC bits. -/
def Word.flip (w : Word) (len p : Nat) : Word :=
  if p < 8 * len then { w with chunk := flipBit w.chunk p } else { w with ecc := flipBit w.ecc (p - 8 * len) }

/-- The word as written: the chunk with the ECC generated for it. -/
def written (chunk : Buf) (len : Nat) : Word := ⟨chunk, generate chunk len⟩

/-- The syndrome computed when a stored word is read back. -/
def Word.syn (w : Word) (len : Nat) : Nat := syndrome w.chunk len w.ecc

/-- What a flipped bit adds to the syndrome. -/
theorem flip_syn (w : Word) (len p : Nat) (h : p < 8 * len + 24) :
    (w.flip len p).syn len = w.syn len ^^^ (if p < 8 * len then pat p else 2 ^ (p - 8 * len)) := by
  unfold Word.flip Word.syn
  by_cases hp : p < 8 * len
  · rw [if_pos hp, if_pos hp]
    simp only [syndrome_eq, parity_flip _ _ _ hp]
    rw [sx_zero_right]
  · rw [if_neg hp, if_neg hp]
    simp only [syndrome_eq, unpack_flip _ _ (show p - 8 * len < 24 by omega)]
    rw [Nat.xor_assoc]

/-- Without an error the syndrome is zero. -/
theorem hamming_clean (chunk : Buf) (len : Nat) : (written chunk len).syn len = 0 := by
  unfold Word.syn written
  simp only [syndrome_eq, unpack_generate, Nat.xor_self]

/-- C27: any one flipped bit of chunk or ECC gives a non-zero syndrome, and repair returns 0 and restores the chunk. -/
theorem hamming_corrects_one (chunk : Buf) (len p : Nat) (hl : len ≤ maxChunk) (hp : p < 8 * len + 24) :
    ((written chunk len).flip len p).syn len ≠ 0 ∧
    repair ((written chunk len).flip len p).chunk len (((written chunk len).flip len p).syn len) = (0, chunk) := by
  have hs := flip_syn (written chunk len) len p hp
  rw [hamming_clean, Nat.zero_xor] at hs
  rw [hs]
  by_cases h : p < 8 * len
  · rw [if_pos h]
    unfold Word.flip
    rw [if_pos h]
    exact repair_chunk chunk len p h hl
  · rw [if_neg h]
    unfold Word.flip
    rw [if_neg h]
    obtain ⟨h0, h1⟩ := pow_and_pred (p - 8 * len) (by omega)
    refine ⟨h0, ?_⟩
    unfold repair
    rw [if_neg h0, if_pos h1]
    rfl

theorem xor_pairs : ∀ x, x < 4 → ∀ y, y < 4 → (x = 1 ∨ x = 2) → (y = 1 ∨ y = 2) → (x ^^^ y = if x = y then 0 else 3) := by decide

theorem pat_pair {pos m : Nat} (h : pos < 4096) (hm : m < 12) : pr (pat pos) m = 1 ∨ pr (pat pos) m = 2 := by
  rw [pat_pairs pos h m hm]; split
  · exact Or.inl rfl
  · exact Or.inr rfl

/-- Different positions differ in some pair. -/
theorem pat_differ {p q : Nat} (hp : p < 4096) (hq : q < 4096) (h : p ≠ q) : ∃ m, m < 12 ∧ pr (pat p ^^^ pat q) m = 3 := by
  have : ∃ m, m < 12 ∧ p.testBit m ≠ q.testBit m := by
    refine Decidable.byContradiction fun hn => h ?_
    apply Nat.eq_of_testBit_eq
    intro i
    by_cases hi : i < 12
    · exact Decidable.byContradiction fun hne => hn ⟨i, hi, hne⟩
    · have e : (4096 : Nat) ≤ 2 ^ i := by
        rw [show (4096 : Nat) = 2 ^ 12 from rfl]; exact Nat.pow_le_pow_right (by decide) (by omega)
      rw [Nat.testBit_lt_two_pow (by omega), Nat.testBit_lt_two_pow (by omega)]
  obtain ⟨m, hm, hd⟩ := this
  refine ⟨m, hm, ?_⟩
  rw [pr_xor, pat_pairs p hp m hm, pat_pairs q hq m hm]
  cases h1 : p.testBit m <;> cases h2 : q.testBit m <;> simp [h1, h2] at hd ⊢

theorem pr_three {s m : Nat} (h : pr s m = 3) : s.testBit (2 * m) = true ∧ s.testBit (2 * m + 1) = true := by
  rw [pr_bit] at h
  cases h1 : s.testBit (2 * m) <;> cases h2 : s.testBit (2 * m + 1) <;> simp [h1, h2] at h ⊢

/-- The syndromes of two flipped bits are refused. -/
theorem two_refused (chunk : Buf) (len a b : Nat) (hl : len ≤ 512) (hab : a < b) (hb : b < 8 * len + 24) (s : Nat)
    (hs : s = (if a < 8 * len then pat a else 2 ^ (a - 8 * len)) ^^^ (if b < 8 * len then pat b else 2 ^ (b - 8 * len))) :
    s ≠ 0 ∧ repair chunk len s = (-1, chunk) := by
  by_cases h2 : b < 8 * len
  · -- both in the chunk
    rw [if_pos (by omega), if_pos h2] at hs
    obtain ⟨m, hm, h3⟩ := pat_differ (p := a) (q := b) (by omega) (by omega) (by omega)
    rw [← hs] at h3
    obtain ⟨k1, k2⟩ := pr_three h3
    exact repair_fail chunk len s _ _ (by omega) k1 k2 ⟨m, hm, Or.inr h3⟩
  · rw [if_neg h2] at hs
    obtain ⟨k, hk, hk24⟩ : ∃ k, b - 8 * len = k ∧ k < 24 := ⟨_, rfl, by omega⟩
    rw [hk] at hs
    by_cases h1 : a < 8 * len
    · -- one in the chunk, one in the ECC
      rw [if_pos h1] at hs
      have hpp : ∀ m, m < 12 → m ≠ k / 2 → pr s m ≠ 0 := by
        intro m hm hne
        rw [hs, pr_xor, pr_pow, if_neg (Ne.symm hne), Nat.xor_zero]
        rcases pat_pair (pos := a) (m := m) (by omega) hm with e | e <;> rw [e] <;> decide
      have hbad : pr s (k / 2) = 0 ∨ pr s (k / 2) = 3 := by
        rw [hs, pr_xor, pr_pow, if_pos rfl]
        rcases pat_pair (pos := a) (m := k / 2) (by omega) (by omega) with e | e <;> rw [e] <;> split <;> decide
      obtain ⟨m1, m2, hlt, hm1, hm2, hn1, hn2⟩ : ∃ m1 m2, m1 < m2 ∧ m1 < 12 ∧ m2 < 12 ∧ m1 ≠ k / 2 ∧ m2 ≠ k / 2 := by
        by_cases e0 : k / 2 = 0
        · exact ⟨1, 2, by omega⟩
        · by_cases e1 : k / 2 = 1
          · exact ⟨0, 2, by omega⟩
          · exact ⟨0, 1, by omega⟩
      obtain ⟨i, j, hij, hi, hj⟩ := bits_of_pairs hlt (hpp m1 hm1 hn1) (hpp m2 hm2 hn2)
      exact repair_fail chunk len s i j hij hi hj ⟨k / 2, by omega, hbad⟩
    · -- both in the ECC
      rw [if_neg h1] at hs
      obtain ⟨l, hlk, hl'⟩ : ∃ l, a - 8 * len = l ∧ l < k := ⟨_, rfl, by omega⟩
      rw [hlk] at hs
      have hi : s.testBit l = true := by
        rw [hs, Nat.testBit_xor, testBit_pow, testBit_pow]; simp [show k ≠ l by omega]
      have hj : s.testBit k = true := by
        rw [hs, Nat.testBit_xor, testBit_pow, testBit_pow]; simp [show l ≠ k by omega]
      obtain ⟨m, hm, hn1, hn2⟩ : ∃ m, m < 12 ∧ l / 2 ≠ m ∧ k / 2 ≠ m := by
        by_cases e0 : l / 2 ≠ 0 ∧ k / 2 ≠ 0
        · exact ⟨0, by omega⟩
        · by_cases e1 : l / 2 ≠ 1 ∧ k / 2 ≠ 1
          · exact ⟨1, by omega⟩
          · exact ⟨2, by omega⟩
      refine repair_fail chunk len s l k hl' hi hj ⟨m, hm, Or.inl ?_⟩
      rw [hs, pr_xor, pr_pow, pr_pow, if_neg hn1, if_neg hn2]; rfl

/-- C28: any two flipped bits of chunk and ECC give a non-zero syndrome for which repair returns -1 and does not touch
the chunk. -/
theorem hamming_detects_two (chunk : Buf) (len p q : Nat) (hl : len ≤ maxChunk) (hp : p < 8 * len + 24) (hq : q < 8 * len + 24)
    (hpq : p ≠ q) (w : Word) (hw : w = ((written chunk len).flip len p).flip len q) :
    w.syn len ≠ 0 ∧ repair w.chunk len (w.syn len) = (-1, w.chunk) := by
  have hs := flip_syn ((written chunk len).flip len p) len q hq
  rw [← hw] at hs
  rw [flip_syn _ len p hp, hamming_clean, Nat.zero_xor] at hs
  rcases Nat.lt_or_ge p q with h | h
  · exact two_refused w.chunk len p q hl h hq _ hs
  · exact two_refused w.chunk len q p hl (by omega) hp _ (by rw [hs, Nat.xor_comm])

/-- C29 for Hamming: erased chunks with erased ECC bytes verify, for every length. -/
theorem hamming_erased (len : Nat) : syndrome Buf.ff len Buf.ff = 0 := by
  have h : ∀ n, (scanLoop Buf.ff n).line = 0 ∧ (scanLoop Buf.ff n).lineBar = 0 ∧
      ((scanLoop Buf.ff n).column = 0 ∨ (scanLoop Buf.ff n).column = 255) := by
    intro n
    induction n with
    | zero => exact ⟨rfl, rfl, Or.inl rfl⟩
    | succ i ih =>
      obtain ⟨h1, h2, h3⟩ := ih
      rw [scanLoop, scanStep]
      rw [show odd (Buf.ff i).toNat = 0 from (by decide : odd (255 : Nat) = 0), if_neg (by decide)]
      refine ⟨h1, h2, ?_⟩
      rcases h3 with h3 | h3 <;> rw [h3]
      · exact Or.inr (by decide : 0 ^^^ (255 : Nat) = 255)
      · exact Or.inl (by decide : 255 ^^^ (255 : Nat) = 0)
  obtain ⟨h1, h2, h3⟩ := h len
  have hp : parityScan Buf.ff len = 0xffffff := by
    unfold parityScan
    have e : scanLoop Buf.ff len = ⟨(scanLoop Buf.ff len).column, 0, 0⟩ := by
      cases hs : scanLoop Buf.ff len; rw [hs] at h1 h2; simp only at h1 h2; rw [h1, h2]
    rw [e]
    rcases h3 with h3 | h3 <;> rw [h3] <;> decide
  rw [syndrome_eq, hp]
  decide

/-- The hypotheses are met: a 512-byte chunk, errors in chunk and ECC. -/
example : (512 : Nat) ≤ maxChunk ∧ 4095 < 8 * 512 + 24 ∧ 4119 < 8 * 512 + 24 := by decide

end Dhara.Hamming

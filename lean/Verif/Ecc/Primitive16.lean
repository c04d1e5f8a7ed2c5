/-
The polynomial x^16 + x^12 + x^3 + x + 1 is primitive: a witness for the theorems of Verif/Props/Gftool.lean about degree 16.
-/
import Verif.Ecc.Primitive
import Mathlib.GroupTheory.OrderOfElement
import Mathlib.Tactic.NormNum.Prime
namespace Dhara.Gftool
open Polynomial

/-- Multiply by x repeatedly, evaluating at every step. -/
def runF (g : Nat) : Nat → Nat → Nat
  | 0, a => a
  | _ + 1, 0 => 0
  | k + 1, a + 1 => runF g k (mulx g 16 (a + 1))

/-- 255 times as often. -/
def runG (g : Nat) : Nat → Nat → Nat
  | 0, a => a
  | _ + 1, 0 => 0
  | k + 1, a + 1 => runG g k (runF g 255 (a + 1))

theorem runF_pw {g : Nat} (hg : ∀ i, pw g 16 i ≠ 0) : ∀ k j, runF g k (pw g 16 j) = pw g 16 (j + k) := by
  intro k
  induction k with
  | zero => intro j; cases h : pw g 16 j <;> rw [runF, ← h] <;> rfl
  | succ k ih =>
    intro j
    cases h : pw g 16 j with
    | zero => exact absurd h (hg j)
    | succ a => rw [runF, ← h, show mulx g 16 (pw g 16 j) = pw g 16 (j + 1) from rfl, ih, Nat.add_right_comm, Nat.add_assoc]

theorem runG_pw {g : Nat} (hg : ∀ i, pw g 16 i ≠ 0) : ∀ k j, runG g k (pw g 16 j) = pw g 16 (j + 255 * k) := by
  intro k
  induction k with
  | zero => intro j; cases h : pw g 16 j <;> rw [runG, ← h] <;> rfl
  | succ k ih =>
    intro j
    cases h : pw g 16 j with
    | zero => exact absurd h (hg j)
    | succ a => rw [runG, ← h, runF_pw hg, ih, show j + 255 + 255 * k = j + 255 * (k + 1) by omega]

theorem chk16a : runG 0x1100b 257 1 = 1 := by decide +kernel
theorem chk16b : runG 0x1100b 1 1 ≠ 1 := by decide +kernel
theorem chk16c : runF 0x1100b 30 (runG 0x1100b 15 1) ≠ 1 := by decide +kernel
theorem chk16d : runF 0x1100b 102 (runG 0x1100b 51 1) ≠ 1 := by decide +kernel
theorem chk16e : runF 0x1100b 170 (runG 0x1100b 85 1) ≠ 1 := by decide +kernel

theorem deg16 : Deg 0x1100b 16 := ⟨by decide, by decide⟩

theorem pw16_ne : ∀ i, pw 0x1100b 16 i ≠ 0 := by
  intro i
  induction i with
  | zero => decide
  | succ i ih =>
    have hlt := pw_lt deg16 (by decide) (by decide) i
    generalize hp : pw 0x1100b 16 i = a at ih hlt
    show mulx 0x1100b 16 (pw 0x1100b 16 i) ≠ 0
    rw [hp]
    unfold mulx
    simp only [Nat.shiftLeft_eq, Nat.shiftRight_eq_div_pow]
    split
    · intro h
      have hx : a * 2 ^ 1 % 2 ^ 64 = 0x1100b := by
        have := congrArg (· ^^^ 0x1100b) h
        simpa [Nat.xor_assoc] using this
      omega
    · omega

theorem ord16 : Ord 0x1100b 16 := by
  have hF := runF_pw pw16_ne
  have hG := runG_pw pw16_ne
  have h0 : pw 0x1100b 16 0 = 1 := rfl
  have e : ∀ i, pw 0x1100b 16 i = 1 ↔ α 0x1100b ^ i = 1 := fun i => by
    rw [← h0, pw_eq_iff deg16 (by decide) (by decide), pow_zero]
  have ha : α 0x1100b ^ 65535 = 1 := by
    have := hG 257 0; rw [h0, chk16a] at this; exact (e _).1 this.symm
  have hb : α 0x1100b ^ 255 ≠ 1 := fun h => by
    have := hG 1 0; rw [h0] at this; exact chk16b (this.trans ((e _).2 h))
  have hc : α 0x1100b ^ 3855 ≠ 1 := fun h => by
    have := hG 15 0; rw [h0] at this
    exact chk16c (by rw [this, hF]; exact (e _).2 h)
  have hd : α 0x1100b ^ 13107 ≠ 1 := fun h => by
    have := hG 51 0; rw [h0] at this
    exact chk16d (by rw [this, hF]; exact (e _).2 h)
  have hee : α 0x1100b ^ 21845 ≠ 1 := fun h => by
    have := hG 85 0; rw [h0] at this
    exact chk16e (by rw [this, hF]; exact (e _).2 h)
  have ho : orderOf (α 0x1100b) = 65535 := by
    apply orderOf_eq_of_pow_and_pow_div_prime (by decide) ha
    intro p hp hdv
    have hfac : (65535 : Nat) = 3 * 5 * 17 * 257 := by decide
    rw [hfac] at hdv
    have h3 : Nat.Prime 3 := by norm_num
    have h5 : Nat.Prime 5 := by norm_num
    have h17 : Nat.Prime 17 := by norm_num
    have h257 : Nat.Prime 257 := by norm_num
    rcases (Nat.Prime.dvd_mul hp).1 hdv with h | h
    · rcases (Nat.Prime.dvd_mul hp).1 h with h | h
      · rcases (Nat.Prime.dvd_mul hp).1 h with h | h
        · rw [(Nat.prime_dvd_prime_iff_eq hp h3).1 h]; exact hee
        · rw [(Nat.prime_dvd_prime_iff_eq hp h5).1 h]; exact hd
      · rw [(Nat.prime_dvd_prime_iff_eq hp h17).1 h]; exact hc
    · rw [(Nat.prime_dvd_prime_iff_eq hp h257).1 h]; exact hb
  refine ⟨ha, fun k hk hk' h => ?_⟩
  have := orderOf_dvd_of_pow_eq_one h
  rw [ho] at this
  have := Nat.le_of_dvd hk this
  have : M 16 = 65535 := by decide
  omega

end Dhara.Gftool

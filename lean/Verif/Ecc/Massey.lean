/-
The Berlekamp-Massey algorithm over a field, as in ecc/bch.c:189-237, on polynomials.
-/
import Mathlib.Algebra.Polynomial.Roots
import Mathlib.Algebra.Polynomial.BigOperators
import Mathlib.Algebra.Polynomial.Reverse
import Mathlib.Tactic.LinearCombination
import Mathlib.Tactic.Ring
import Mathlib.Tactic.FieldSimp
namespace Dhara.Massey
open Polynomial

variable {K : Type*} [Field K]

/-- `C` with register length `L` generates the coefficients of `S` below `n`. -/
structure Gen (S C : K[X]) (L n : Nat) : Prop where
  one : C.coeff 0 = 1
  deg : ∀ i : Nat, L < i → C.coeff i = 0
  len : L ≤ n
  gen : ∀ j : Nat, L ≤ j → j < n → (C * S).coeff j = 0

/-- What is known of the saved polynomial: before the first discrepancy, or after. -/
inductive Saved (S C B : K[X]) (L m n : Nat) (b : K) : Prop
  | fresh (hL : L = 0) (hC : C = 1) (hB : B = 1) (hb : b = 1) (hm : m = n + 1)
  | kept (LB : Nat) (deg : ∀ i : Nat, LB < i → B.coeff i = 0) (hm : m ≤ n) (hLB : LB ≤ n - m)
      (gen : ∀ j : Nat, LB ≤ j → j < n - m → (B * S).coeff j = 0) (at' : (B * S).coeff (n - m) = b) (hL : L + LB = n - m + 1)

structure Inv (S C B : K[X]) (L m n : Nat) (b : K) : Prop where
  g : Gen S C L n
  ne : b ≠ 0
  m1 : 1 ≤ m
  saved : Saved S C B L m n b

theorem init (S : K[X]) : Inv S 1 1 0 1 0 1 where
  g := ⟨by simp, fun i hi => by rw [coeff_one, if_neg (by omega)], Nat.le_refl _, fun j h1 h2 => absurd h2 (by omega)⟩
  ne := one_ne_zero
  m1 := Nat.le_refl _
  saved := .fresh rfl rfl rfl rfl rfl

theorem coeff_shift (q S : K[X]) (a : K) (m j : Nat) :
    ((C a * X ^ m * q) * S).coeff j = if m ≤ j then a * (q * S).coeff (j - m) else 0 := by
  rw [show (C a * X ^ m * q) * S = C a * (X ^ m * (q * S)) by ring, coeff_C_mul, coeff_X_pow_mul']
  split <;> simp

theorem coeff_shift' (q : K[X]) (a : K) (m j : Nat) :
    (C a * X ^ m * q).coeff j = if m ≤ j then a * q.coeff (j - m) else 0 := by
  have := coeff_shift q 1 a m j
  rwa [mul_one, mul_one] at this

/-- No discrepancy. -/
theorem step_zero {S p B : K[X]} {L m n : Nat} {b : K} (h : Inv S p B L m n b) (hd : (p * S).coeff n = 0) :
    Inv S p B L (m + 1) (n + 1) b where
  g := ⟨h.g.one, h.g.deg, Nat.le_succ_of_le h.g.len, fun j h1 h2 => by
    by_cases e : j = n
    · rw [e]; exact hd
    · exact h.g.gen j h1 (by omega)⟩
  ne := h.ne
  m1 := by omega
  saved := by
    cases h.saved with
    | fresh hL hC hB hb hm => exact .fresh hL hC hB hb (by omega)
    | kept LB deg hm hLB gen at' hL =>
      have e : n + 1 - (m + 1) = n - m := by omega
      exact .kept LB deg (by omega) (by rw [e]; exact hLB) (by rw [e]; exact gen) (by rw [e]; exact at') (by rw [e]; exact hL)

/-- The corrected polynomial. -/
noncomputable def corr (p B : K[X]) (m : Nat) (d b : K) : K[X] := p - C (d / b) * X ^ m * B

theorem corr_one {S p B : K[X]} {L m n : Nat} {b : K} (h : Inv S p B L m n b) (d : K) : (corr p B m d b).coeff 0 = 1 := by
  have := h.m1
  rw [corr, coeff_sub, coeff_shift', if_neg (by omega), sub_zero, h.g.one]

/-- The register grows. -/
theorem step_grow {S p B : K[X]} {L m n : Nat} {b d : K} (h : Inv S p B L m n b) (hd : (p * S).coeff n = d) (hd0 : d ≠ 0)
    (hL : L * 2 ≤ n) : Inv S (corr p B m d b) p (n + 1 - L) 1 (n + 1) d := by
  have key : ∃ LB, (∀ i : Nat, LB < i → B.coeff i = 0) ∧ m + LB = n + 1 - L ∧
      (m ≤ n → (∀ j : Nat, LB ≤ j → j < n - m → (B * S).coeff j = 0) ∧ (B * S).coeff (n - m) = b) := by
    cases h.saved with
    | fresh hL hC hB hb hm => exact ⟨0, fun i hi => by rw [hB, coeff_one, if_neg (by omega)], by omega, fun k => absurd k (by omega)⟩
    | kept LB deg hm hLB gen at' hL => exact ⟨LB, deg, by omega, fun _ => ⟨gen, at'⟩⟩
  obtain ⟨LB, hdeg, hm, hg⟩ := key
  have hm1 := h.m1
  refine ⟨⟨corr_one h d, ?_, by omega, ?_⟩, hd0, Nat.le_refl _, ?_⟩
  · intro i hi
    rw [corr, coeff_sub, coeff_shift', h.g.deg i (by omega), if_pos (by omega), hdeg _ (by omega)]; simp
  · intro j h1 h2
    rw [corr, sub_mul, coeff_sub, coeff_shift, if_pos (by omega)]
    by_cases e : j = n
    · subst e
      rw [hd, (hg (by omega)).2, div_mul_cancel₀ _ h.ne, sub_self]
    · rw [h.g.gen j (by omega) (by omega), (hg (by omega)).1 (j - m) (by omega) (by omega)]; simp
  · refine .kept L h.g.deg (by omega) (by omega) (fun j h1 h2 => h.g.gen j h1 (by omega)) ?_ (by omega)
    rw [show n + 1 - 1 = n from rfl]; exact hd

/-- The register keeps its length. -/
theorem step_keep {S p B : K[X]} {L m n : Nat} {b d : K} (h : Inv S p B L m n b) (hd : (p * S).coeff n = d)
    (hL : ¬ L * 2 ≤ n) : Inv S (corr p B m d b) B L (m + 1) (n + 1) b := by
  cases h.saved with
  | fresh hL' hC hB hb hm => omega
  | kept LB hdeg hm hLB gen at' hL' =>
    have hm1 := h.m1
    have hle := h.g.len
    refine ⟨⟨corr_one h d, ?_, by omega, ?_⟩, h.ne, by omega, ?_⟩
    · intro i hi
      rw [corr, coeff_sub, coeff_shift', h.g.deg i (by omega), if_pos (by omega), hdeg _ (by omega)]; simp
    · intro j h1 h2
      rw [corr, sub_mul, coeff_sub, coeff_shift, if_pos (by omega)]
      by_cases e : j = n
      · subst e
        rw [hd, at', div_mul_cancel₀ _ h.ne, sub_self]
      · rw [h.g.gen j (by omega) (by omega), gen (j - m) (by omega) (by omega)]; simp
    · have e : n + 1 - (m + 1) = n - m := by omega
      exact .kept LB hdeg (by omega) (by rw [e]; exact hLB) (by rw [e]; exact gen) (by rw [e]; exact at') (by rw [e]; exact hL')

/-- Massey's bound: after a discrepancy, any register that generates one more coefficient is at least `n + 1 - L` long. -/
theorem bound {S p Q : K[X]} {L ν n N : Nat} (hp : Gen S p L n) (hd : (p * S).coeff n ≠ 0) (hQ : Gen S Q ν N) (hn : n < N) :
    n + 1 - L ≤ ν := by
  apply Classical.byContradiction
  intro hlt
  have e1 : (Q * (p * S)).coeff n = (p * S).coeff n := by
    rw [coeff_mul, Finset.sum_eq_single (0, n)]
    · rw [hQ.one, one_mul]
    · rintro ⟨i, j⟩ hij hne
      rw [Finset.mem_antidiagonal] at hij
      dsimp only at hij ⊢
      by_cases hi : ν < i
      · rw [hQ.deg i hi, zero_mul]
      · have : i ≠ 0 := by
          intro e; apply hne; subst e; rw [Nat.zero_add] at hij; rw [hij]
        rw [hp.gen j (by omega) (by omega), mul_zero]
    · intro hni; exact absurd (Finset.mem_antidiagonal.2 (by omega)) hni
  have e2 : (p * (Q * S)).coeff n = 0 := by
    rw [coeff_mul]
    apply Finset.sum_eq_zero
    rintro ⟨i, j⟩ hij
    rw [Finset.mem_antidiagonal] at hij
    dsimp only at hij ⊢
    by_cases hi : L < i
    · rw [hp.deg i hi, zero_mul]
    · rw [hQ.gen j (by omega) (by omega), mul_zero]
  apply hd
  rw [← e1, ← e2, show Q * (p * S) = p * (Q * S) by ring]

/-! ### Power sums -/

variable {ι : Type*}

theorem coeff_power_sum {S p : K[X]} (E : Finset ι) (x : ι → K) (hx : ∀ e ∈ E, x e ≠ 0) {N : Nat}
    (hS : ∀ k : Nat, k < N → S.coeff k = ∑ e ∈ E, x e ^ (k + 1)) {ν : Nat} (hp : ∀ i : Nat, ν < i → p.coeff i = 0)
    {j : Nat} (h1 : ν ≤ j) (h2 : j < N) :
    (p * S).coeff j = ∑ e ∈ E, x e ^ (j + 1) * p.eval (x e)⁻¹ := by
  have hnd : p.natDegree ≤ j := natDegree_le_iff_coeff_eq_zero.2 (fun i hi => hp i (by omega))
  rw [coeff_mul, Finset.Nat.sum_antidiagonal_eq_sum_range_succ (fun a b => p.coeff a * S.coeff b)]
  have : ∀ e ∈ E, x e ^ (j + 1) * p.eval (x e)⁻¹ = ∑ i ∈ Finset.range (j + 1), p.coeff i * x e ^ (j - i + 1) := by
    intro e he
    rw [eval_eq_sum_range' (Nat.lt_succ_of_le hnd), Finset.mul_sum]
    apply Finset.sum_congr rfl
    intro i hi
    rw [Finset.mem_range] at hi
    have h0 := hx e he
    rw [show j + 1 = (j - i + 1) + i by omega, pow_add, inv_pow]
    field_simp
  rw [Finset.sum_congr rfl this, Finset.sum_comm]
  apply Finset.sum_congr rfl
  intro i hi
  rw [Finset.mem_range] at hi
  rw [hS _ (by omega), Finset.mul_sum]

/-- The error locator. -/
noncomputable def locator (E : Finset ι) (x : ι → K) : K[X] := ∏ e ∈ E, (1 - C (x e) * X)

theorem locator_deg (E : Finset ι) (x : ι → K) : (locator E x).natDegree ≤ E.card := by
  unfold locator
  refine (natDegree_prod_le _ _).trans ?_
  rw [Finset.card_eq_sum_ones]
  apply Finset.sum_le_sum
  intro e _
  refine (natDegree_sub_le _ _).trans ?_
  simp only [natDegree_one]
  exact max_le (Nat.zero_le _) ((natDegree_C_mul_le _ _).trans natDegree_X_le)

theorem locator_gen {S : K[X]} (E : Finset ι) (x : ι → K) (hx : ∀ e ∈ E, x e ≠ 0) {N : Nat}
    (hS : ∀ k : Nat, k < N → S.coeff k = ∑ e ∈ E, x e ^ (k + 1)) (hN : E.card ≤ N) : Gen S (locator E x) E.card N where
  one := by
    unfold locator
    rw [coeff_zero_eq_eval_zero, eval_prod]
    apply Finset.prod_eq_one
    intro e _; simp
  deg := fun i hi => coeff_eq_zero_of_natDegree_lt (Nat.lt_of_le_of_lt (locator_deg E x) hi)
  len := hN
  gen := fun j h1 h2 => by
    rw [coeff_power_sum E x hx hS (fun i hi => coeff_eq_zero_of_natDegree_lt (Nat.lt_of_le_of_lt (locator_deg E x) hi)) h1 h2]
    apply Finset.sum_eq_zero
    intro e he
    have : (locator E x).eval (x e)⁻¹ = 0 := by
      unfold locator
      rw [eval_prod]
      apply Finset.prod_eq_zero he
      have h0 := hx e he
      simp [h0]
    rw [this, mul_zero]

/-- Any short register that generates `2ν` power sums of `ν` distinct elements has exactly their inverses as roots. -/
theorem roots {S p : K[X]} (E : Finset ι) (x : ι → K) (hx : ∀ e ∈ E, x e ≠ 0) (hinj : ∀ e ∈ E, ∀ f ∈ E, x e = x f → e = f) {N : Nat}
    (hS : ∀ k : Nat, k < N → S.coeff k = ∑ e ∈ E, x e ^ (k + 1)) (hN : 2 * E.card ≤ N) {L : Nat} (hp : Gen S p L N) (hL : L ≤ E.card)
    (y : K) : p.eval y = 0 ↔ ∃ e ∈ E, y = (x e)⁻¹ := by
  have hdeg : ∀ i : Nat, E.card < i → p.coeff i = 0 := fun i hi => hp.deg i (by omega)
  -- the sums vanish
  have hsum : ∀ k : Nat, k < E.card → ∑ e ∈ E, (x e ^ (E.card + 1) * p.eval (x e)⁻¹) * x e ^ k = 0 := by
    intro k hk
    have h1 := coeff_power_sum E x hx hS hdeg (j := E.card + k) (by omega) (by omega)
    rw [hp.gen _ (by omega) (by omega)] at h1
    rw [h1]
    apply Finset.sum_congr rfl
    intro e _
    rw [show E.card + k + 1 = E.card + 1 + k by omega, pow_add]; ring
  -- hence against every polynomial of smaller degree
  have hq : ∀ q : K[X], q.natDegree < E.card → ∑ e ∈ E, (x e ^ (E.card + 1) * p.eval (x e)⁻¹) * q.eval (x e) = 0 := by
    intro q hqd
    have : ∀ e ∈ E, (x e ^ (E.card + 1) * p.eval (x e)⁻¹) * q.eval (x e) =
        ∑ k ∈ Finset.range E.card, q.coeff k * ((x e ^ (E.card + 1) * p.eval (x e)⁻¹) * x e ^ k) := by
      intro e _
      rw [eval_eq_sum_range' hqd, Finset.mul_sum]
      apply Finset.sum_congr rfl
      intro k _; ring
    rw [Finset.sum_congr rfl this, Finset.sum_comm]
    apply Finset.sum_eq_zero
    intro k hk
    rw [← Finset.mul_sum, hsum k (Finset.mem_range.1 hk), mul_zero]
  classical
  have hroot : ∀ e ∈ E, p.eval (x e)⁻¹ = 0 := by
    intro e he
    have hcard := Finset.card_pos.2 ⟨e, he⟩
    have hd : (∏ f ∈ E.erase e, (X - C (x f))).natDegree < E.card := by
      rw [natDegree_finsetProd_X_sub_C_eq_card, Finset.card_erase_of_mem he]; omega
    have h1 := hq _ hd
    rw [Finset.sum_eq_single e] at h1
    · have h2 : (∏ f ∈ E.erase e, (X - C (x f))).eval (x e) ≠ 0 := by
        rw [eval_prod]
        apply Finset.prod_ne_zero_iff.2
        intro f hf
        rw [Finset.mem_erase] at hf
        simp only [eval_sub, eval_X, eval_C]
        intro h3
        exact hf.1 (hinj f hf.2 e he (sub_eq_zero.1 h3).symm)
      rcases mul_eq_zero.1 h1 with h3 | h3
      · rcases mul_eq_zero.1 h3 with h4 | h4
        · exact absurd h4 (pow_ne_zero _ (hx e he))
        · exact h4
      · exact absurd h3 h2
    · intro f hf hne
      have : (∏ g ∈ E.erase e, (X - C (x g))).eval (x f) = 0 := by
        rw [eval_prod]
        exact Finset.prod_eq_zero (Finset.mem_erase.2 ⟨hne, hf⟩) (by simp)
      rw [this, mul_zero]
    · intro hn; exact absurd he hn
  have hp0 : p ≠ 0 := by
    intro e; have := hp.one; rw [e, coeff_zero] at this; exact zero_ne_one this
  constructor
  · intro hy
    classical
    apply Classical.byContradiction
    intro hno
    have hsub : insert y (E.image fun e => (x e)⁻¹) ⊆ p.roots.toFinset := by
      intro z hz
      rw [Multiset.mem_toFinset, mem_roots hp0, IsRoot.def]
      rcases Finset.mem_insert.1 hz with e | e
      · rw [e]; exact hy
      · obtain ⟨f, hf, e⟩ := Finset.mem_image.1 e
        rw [← e]; exact hroot f hf
    have h1 := (Finset.card_le_card hsub).trans ((Multiset.toFinset_card_le _).trans (card_roots' p))
    rw [Finset.card_insert_of_notMem, Finset.card_image_of_injOn] at h1
    · have : p.natDegree ≤ E.card := natDegree_le_iff_coeff_eq_zero.2 hdeg
      omega
    · intro e he f hf hef
      exact hinj e he f hf (inv_injective hef)
    · intro hm
      obtain ⟨f, hf, e⟩ := Finset.mem_image.1 hm
      exact hno ⟨f, hf, e.symm⟩
  · rintro ⟨e, he, rfl⟩
    exact hroot e he

end Dhara.Massey

/-
Proofs about the model of tools/gftool.c: the test for primitive polynomials.
-/
import Verif.Ecc.GftoolProofs
namespace Dhara.Gftool
open Polynomial
open Dhara.Gf13 (wordPoly_pow wordPoly_shl exists_word)

variable {g d : Nat}

/-- Number of states of the register other than zero. -/
abbrev M (d : Nat) : Nat := 2 ^ d - 1

theorem M_pos (h1 : 1 ≤ d) : 1 ≤ M d := by
  have := Nat.one_lt_two_pow (n := d) (by omega); show 1 ≤ 2 ^ d - 1; omega

theorem M_succ : M d + 1 = 2 ^ d := by
  have := Nat.two_pow_pos d; show 2 ^ d - 1 + 1 = 2 ^ d; omega

theorem cycle_eq (m : Nat) {n : Nat} (he : pw g d (m + n) = pw g d m) : ∀ k i, i < n → n ≤ i + k → (∀ j, i < j → j < n → pw g d (m + j) ≠ pw g d m) →
    cycle g d (pw g d m) k (pw g d (m + i)) i = some n := by
  intro k
  induction k with
  | zero => intro i h1 h2; omega
  | succ k ih =>
    intro i h1 h2 hn
    rw [cycle, show mulx g d (pw g d (m + i)) = pw g d (m + (i + 1)) from rfl]
    by_cases h : i + 1 = n
    · subst h; rw [he]; simp
    · show (if pw g d (m + (i + 1)) ≠ pw g d m then cycle g d (pw g d m) k (pw g d (m + (i + 1))) (i + 1) else some (i + 1)) = _
      rw [if_pos (hn _ (by omega) (by omega)), ih (i + 1) (by omega) (by omega) (fun j hj hj' => hn j (by omega) hj')]

/-- The register comes back to the state it has after `2^d - 1` steps. -/
theorem period (hg : Deg g d) (hd : d ≤ 62) (h1 : 1 ≤ d) : ∃ n, 1 ≤ n ∧ n ≤ 2 ^ d ∧ pw g d (M d + n) = pw g d (M d) ∧
    ∀ j, 1 ≤ j → j < n → pw g d (M d + j) ≠ pw g d (M d) := by
  have hex : ∃ n, 1 ≤ n ∧ n ≤ 2 ^ d ∧ pw g d (M d + n) = pw g d (M d) := by
    obtain ⟨x, hx, y, hy, hne, hxy⟩ := Finset.exists_ne_map_eq_of_card_lt_of_maps_to (s := Finset.range (2 ^ d + 1)) (t := Finset.range (2 ^ d))
      (f := pw g d) (by simp) (fun k _ => by simpa using pw_lt hg hd h1 k)
    have key : ∀ x y, x < y → y < 2 ^ d + 1 → pw g d x = pw g d y → ∃ n, 1 ≤ n ∧ n ≤ 2 ^ d ∧ pw g d (M d + n) = pw g d (M d) := by
      intro x y hlt hy he
      have hs := M_succ (d := d)
      have := pw_shift he (M d - x)
      refine ⟨y - x, by omega, by omega, ?_⟩
      rw [show M d + (y - x) = y + (M d - x) by omega, ← this]; congr 1; omega
    simp only [Finset.mem_range] at hx hy
    rcases Nat.lt_or_gt_of_ne hne with h | h
    · exact key x y h hy hxy
    · exact key y x h hx hxy.symm
  classical
  have h := Nat.find_spec hex
  refine ⟨Nat.find hex, h.1, h.2.1, h.2.2, fun j hj hlt he => ?_⟩
  exact Nat.find_min hex hlt ⟨hj, by omega, he⟩

theorem isPrimitive_run (hg : Deg g d) (hd : d ≤ 62) (h1 : 1 ≤ d) {k : Nat} (hk : 2 ^ d ≤ k) :
    ∃ n, isPrimitive k g = some (n == M d) ∧ 1 ≤ n ∧ pw g d (M d + n) = pw g d (M d) ∧
      ∀ j, 1 ≤ j → j < n → pw g d (M d + j) ≠ pw g d (M d) := by
  obtain ⟨n, hn, hle, he, hm⟩ := period hg hd h1
  refine ⟨n, ?_, hn, he, hm⟩
  have hdeg : degree g = d := by rw [degree_eq (hg.lt64 (by omega)), hg.eq]
  have hst : mulxTimes g d (2 ^ d - 1) 1 = pw g d (M d) := by
    have := mulxTimes_pw (g := g) (d := d) (2 ^ d - 1) 0
    rw [Nat.zero_add] at this; exact this
  have hc := cycle_eq (M d) he k 0 hn (by omega) (fun j hj hj' => hm j hj hj')
  rw [Nat.add_zero] at hc
  unfold isPrimitive
  simp only [hdeg, hst, hc]

/-- The powers of X below `2^d - 1` are different from 1, and that one is 1. -/
structure Ord (g d : Nat) : Prop where
  one : α g ^ M d = 1
  no : ∀ k, 0 < k → k < M d → α g ^ k ≠ 1

theorem pw_eq_iff (hg : Deg g d) (hd : d ≤ 62) (h1 : 1 ≤ d) {i j : Nat} : pw g d i = pw g d j ↔ α g ^ i = α g ^ j := by
  rw [← pw_el hg hd h1, ← pw_el hg hd h1]
  exact ⟨fun h => by rw [h], fun h => el_inj hg hd (pw_lt hg hd h1 _) (pw_lt hg hd h1 _) h⟩

theorem Ord.unit (h1 : 1 ≤ d) (h : Ord g d) : IsUnit (α g) := by
  have := M_pos h1
  refine IsUnit.of_mul_eq_one (α g ^ (M d - 1)) ?_
  rw [← pow_succ', show M d - 1 + 1 = M d by omega, h.one]

theorem Ord.cancel (h1 : 1 ≤ d) (h : Ord g d) {i j : Nat} (hij : i ≤ j) (he : α g ^ i = α g ^ j) : α g ^ (j - i) = 1 := by
  have hu := (h.unit h1).pow i
  rw [show j = i + (j - i) by omega, pow_add] at he
  exact hu.mul_left_cancel (by rw [mul_one]; exact he.symm)

theorem Ord.inj (h1 : 1 ≤ d) (h : Ord g d) {i j : Nat} (hi : i < M d) (hj : j < M d) (he : α g ^ i = α g ^ j) : i = j := by
  rcases Nat.lt_trichotomy i j with h' | h' | h'
  · exact absurd (h.cancel h1 h'.le he) (h.no _ (by omega) (by omega))
  · exact h'
  · exact absurd (h.cancel h1 h'.le he.symm) (h.no _ (by omega) (by omega))

theorem nontriv (hg : Deg g d) (hd : d ≤ 62) (h1 : 1 ≤ d) : el g 1 ≠ el g 0 := fun h => by
  have := el_inj hg hd (Nat.one_lt_two_pow (by omega)) (Nat.two_pow_pos d) h
  omega

theorem pw_onto (hg : Deg g d) (hd : d ≤ 62) (h1 : 1 ≤ d) (m : Nat) (hinj : ∀ i j, i < M d → j < M d → pw g d (m + i) = pw g d (m + j) → i = j)
    (h0 : ∀ i, i < M d → pw g d (m + i) ≠ 0) {a : Nat} (ha0 : a ≠ 0) (ha : a < 2 ^ d) : ∃ i, i < M d ∧ pw g d (m + i) = a := by
  have hs := M_succ (d := d)
  have him : (Finset.range (M d)).image (fun i => pw g d (m + i)) = Finset.Ico 1 (2 ^ d) := by
    apply Finset.eq_of_subset_of_card_le
    · intro x hx
      obtain ⟨i, hi, rfl⟩ := Finset.mem_image.1 hx
      have := h0 i (by simpa using hi)
      have := pw_lt hg hd h1 (m + i)
      simp only [Finset.mem_Ico]; omega
    · rw [Finset.card_image_of_injOn (fun i hi j hj h => hinj i j (by simpa using hi) (by simpa using hj) h)]
      simp
  have : a ∈ (Finset.range (M d)).image (fun i => pw g d (m + i)) := by rw [him]; simp only [Finset.mem_Ico]; omega
  obtain ⟨i, hi, hh⟩ := Finset.mem_image.1 this
  exact ⟨i, by simpa using hi, hh⟩

theorem Ord.onto (hg : Deg g d) (hd : d ≤ 62) (h1 : 1 ≤ d) (h : Ord g d) (m : Nat) {a : Nat} (ha0 : a ≠ 0) (ha : a < 2 ^ d) :
    ∃ i, i < M d ∧ pw g d (m + i) = a := by
  refine pw_onto hg hd h1 m (fun i j hi hj he => ?_) (fun i _ h0 => ?_) ha0 ha
  · have he := (pw_eq_iff hg hd h1).1 he
    rw [pow_add, pow_add] at he
    exact h.inj h1 hi hj (((h.unit h1).pow m).mul_left_cancel he)
  · have h2 := pw_el hg hd h1 (m + i)
    rw [h0, el_zero] at h2
    have hu := (h.unit h1).pow (m + i)
    rw [← h2] at hu
    have h3 : (0 : AdjoinRoot (wordPoly g)) = 1 := by
      obtain ⟨u, hu⟩ := hu
      have := u.mul_inv
      rw [hu, zero_mul] at this; exact this
    exact nontriv hg hd h1 (by rw [el_one, el_zero, h3])

/-- `is_primitive` decides whether X has order `2^d - 1`. -/
theorem isPrimitive_iff (hg : Deg g d) (hd : d ≤ 62) (h2 : 2 ≤ d) {k : Nat} (hk : 2 ^ d ≤ k) :
    (∃ b, isPrimitive k g = some b) ∧ (isPrimitive k g = some true ↔ Ord g d) := by
  have h1 : 1 ≤ d := by omega
  have hM : 3 ≤ M d := by
    have : 2 ^ 2 ≤ 2 ^ d := Nat.pow_le_pow_right (by decide) h2
    show 3 ≤ 2 ^ d - 1; omega
  obtain ⟨n, hr, hn, he, hm⟩ := isPrimitive_run hg hd h1 hk
  refine ⟨⟨_, hr⟩, ?_⟩
  rw [hr]
  constructor
  · intro h
    have hnM : n = M d := by simpa using h
    subst hnM
    -- the values on the cycle are distinct
    have hinj : ∀ i j, i < M d → j < M d → pw g d (M d + i) = pw g d (M d + j) → i = j := by
      have key : ∀ i j, i < j → j < M d → pw g d (M d + i) ≠ pw g d (M d + j) := by
        intro i j hij hj hh
        have := pw_shift hh (M d - j)
        rw [show M d + j + (M d - j) = M d + M d by omega, he] at this
        exact hm (i + (M d - j)) (by omega) (by omega) (by rw [← this]; congr 1; omega)
      intro i j hi hj hh
      rcases Nat.lt_trichotomy i j with h' | h' | h'
      · exact absurd hh (key i j h' hj)
      · exact h'
      · exact absurd hh.symm (key j i h' hi)
    have h0 : ∀ i, i < M d → pw g d (M d + i) ≠ 0 := by
      intro i hi hz
      have hz' : ∀ t, pw g d (M d + i + t) = 0 := by
        intro t
        induction t with
        | zero => exact hz
        | succ t ih =>
          rw [← Nat.add_assoc, pw, ih]
          show (if ((0 <<< 1) % 2 ^ 64) >>> d ≠ 0 then ((0 <<< 1) % 2 ^ 64) ^^^ g else (0 <<< 1) % 2 ^ 64) = 0
          simp
      have e1 := hz' (M d - i)
      have e2 := hz' (M d - i + 1)
      rw [show M d + i + (M d - i) = M d + M d by omega, he] at e1
      rw [show M d + i + (M d - i + 1) = M d + M d + 1 by omega, pw_shift he 1] at e2
      exact hm 1 (by omega) (by omega) (by rw [e1, e2])
    obtain ⟨i, hi, hi1⟩ := pw_onto hg hd h1 (M d) hinj h0 (a := 1) one_ne_zero (Nat.one_lt_two_pow (by omega))
    have hα : α g ^ (M d + i) = 1 := by rw [← pw_el hg hd h1, hi1, el_one]
    have hu : IsUnit (α g) := by
      refine IsUnit.of_mul_eq_one (α g ^ (M d + i - 1)) ?_
      rw [← pow_succ', show M d + i - 1 + 1 = M d + i by omega, hα]
    refine ⟨?_, fun k hk hkM hk1 => hm k hk hkM ((pw_eq_iff hg hd h1).2 (by rw [pow_add, hk1, mul_one]))⟩
    have := (pw_eq_iff hg hd h1).1 he
    rw [pow_add] at this
    exact (hu.pow (M d)).mul_left_cancel (by rw [mul_one]; exact this)
  · intro ho
    have hle : ¬ M d < n := fun hlt => hm (M d) (by omega) hlt ((pw_eq_iff hg hd h1).2 (by rw [pow_add, ho.one, mul_one]))
    have hge : ¬ n < M d := fun hlt => ho.no n (by omega) hlt (by
      have := ho.cancel h1 (Nat.le_add_right (M d) n) ((pw_eq_iff hg hd h1).1 he).symm
      rwa [Nat.add_sub_cancel_left] at this)
    have : n = M d := by omega
    simp [this]

/-- A polynomial for which X has order `2^d - 1` is irreducible. -/
theorem Ord.irreducible (hg : Deg g d) (hd : d ≤ 62) (h1 : 1 ≤ d) (h : Ord g d) : Irreducible (wordPoly g) := by
  have hdeg := wordPoly_deg hg (by omega : d ≤ 63)
  have h0 : wordPoly g ≠ 0 := by intro h; rw [h, degree_zero] at hdeg; cases hdeg
  refine ⟨fun hu => ?_, fun {f q} hfg => ?_⟩
  · have := degree_eq_zero_of_isUnit hu
    rw [hdeg] at this
    have : d = 0 := by exact_mod_cast this
    omega
  · have hf0 : f ≠ 0 := by rintro rfl; rw [zero_mul] at hfg; exact h0 hfg
    have hg0 : q ≠ 0 := by rintro rfl; rw [mul_zero] at hfg; exact h0 hfg
    have hdeg' : f.natDegree + q.natDegree = d := by
      rw [← natDegree_mul hf0 hg0, ← hfg]; exact natDegree_eq_of_degree_eq_some hdeg
    rcases Nat.eq_zero_or_pos q.natDegree with hz | hz
    · right
      rw [isUnit_iff_degree_eq_zero, degree_eq_natDegree hg0, hz]; rfl
    · left
      rw [isUnit_iff_degree_eq_zero, degree_eq_natDegree hf0]
      apply Classical.byContradiction
      intro hn
      have hfp : 0 < f.natDegree := Nat.pos_of_ne_zero (fun h => hn (by rw [h]; rfl))
      obtain ⟨a, ha, hfa⟩ := exists_word d (by omega) f (by
        rw [degree_eq_natDegree hf0]; exact_mod_cast (show f.natDegree < d by omega))
      have ha0 : a ≠ 0 := by rintro rfl; rw [wordPoly_zero] at hfa; exact hf0 hfa.symm
      have hu : IsUnit (AdjoinRoot.mk (wordPoly g) f) := by
        obtain ⟨i, _, hi⟩ := h.onto hg hd h1 0 ha0 ha
        rw [← hfa]; show IsUnit (el g a); rw [← hi, pw_el hg hd h1]; exact (h.unit h1).pow _
      have hm : AdjoinRoot.mk (wordPoly g) f * AdjoinRoot.mk (wordPoly g) q = 0 := by rw [← map_mul, ← hfg, AdjoinRoot.mk_self]
      have hg1 : AdjoinRoot.mk (wordPoly g) q = 0 := by rwa [hu.mul_right_eq_zero] at hm
      rw [AdjoinRoot.mk_eq_zero] at hg1
      have := eq_zero_of_dvd_of_degree_lt hg1 (by
        rw [hdeg, degree_eq_natDegree hg0]; exact_mod_cast (show q.natDegree < d by omega))
      exact hg0 this

theorem dvd_pow_iff (k : Nat) : wordPoly g ∣ X ^ k - 1 ↔ α g ^ k = 1 := by
  rw [← AdjoinRoot.mk_eq_mk, map_pow, map_one, AdjoinRoot.mk_X]; rfl

end Dhara.Gftool

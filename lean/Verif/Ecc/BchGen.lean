/-
Proofs about the model of tools/gftool.c: the tables, evaluation of polynomials, minimal polynomials, BCH generators.
-/
import Verif.Ecc.Primitive
import Mathlib.FieldTheory.Minpoly.Finite
import Mathlib.FieldTheory.Finite.Basic
namespace Dhara.Gftool
open Polynomial
open Dhara.Gf13 (wordPoly_pow wordPoly_shl exists_word)

variable {g d : Nat}

/-! ### Tables -/

theorem fillLoop_exp : ∀ k i e l x, (fillLoop g d k i (pw g d i) e l).1 x = if i ≤ x ∧ x < i + k then pw g d x % 2 ^ 16 else e x := by
  intro k
  induction k with
  | zero => intro i e l x; rw [fillLoop, if_neg (by omega)]
  | succ k ih =>
    intro i e l x
    rw [fillLoop, show mulx g d (pw g d i) = pw g d (i + 1) from rfl, ih]
    by_cases h : i + 1 ≤ x ∧ x < i + 1 + k
    · rw [if_pos h, if_pos (by omega)]
    · rw [if_neg h]
      by_cases hx : x = i
      · subst hx; rw [if_pos rfl, if_pos (by omega)]
      · rw [if_neg hx, if_neg (by omega)]

theorem fillLoop_log_none : ∀ k i e l x, (∀ j, i ≤ j → j < i + k → pw g d j ≠ x) → (fillLoop g d k i (pw g d i) e l).2 x = l x := by
  intro k
  induction k with
  | zero => intro i e l x _; rfl
  | succ k ih =>
    intro i e l x h
    rw [fillLoop, show mulx g d (pw g d i) = pw g d (i + 1) from rfl, ih _ _ _ _ (fun j h1 h2 => h j (by omega) (by omega)),
      if_neg (fun hx => h i (Nat.le_refl _) (by omega) hx.symm)]

theorem fillLoop_log {x j : Nat} (hj : pw g d j = x) : ∀ k i e l, i ≤ j → j < i + k → (∀ j', j < j' → j' < i + k → pw g d j' ≠ x) →
    (fillLoop g d k i (pw g d i) e l).2 x = j % 2 ^ 16 := by
  intro k
  induction k with
  | zero => intro i e l h1 h2; omega
  | succ k ih =>
    intro i e l h1 h2 hn
    rw [fillLoop, show mulx g d (pw g d i) = pw g d (i + 1) from rfl]
    rcases Nat.eq_or_lt_of_le h1 with rfl | h
    · rw [fillLoop_log_none _ _ _ _ _ (fun j' h3 h4 => hn j' (by omega) (by omega)), if_pos hj.symm]
    · exact ih _ _ _ h (by omega) (fun j' h3 h4 => hn j' h3 (by omega))

/-- The tables are those of the field. -/
structure Gf.Ok (f : Gf) (g d : Nat) : Prop where
  order : f.order = M d
  degree : f.degree = d
  exp : ∀ i, i < 2 ^ d → f.exp i = pw g d i
  log : ∀ a, a ≠ 0 → a < 2 ^ d → 1 ≤ f.log a ∧ f.log a ≤ M d ∧ f.exp (f.log a) = a

theorem gfInit_ok (hg : Deg g d) (hd : d ≤ 16) (h1 : 1 ≤ d) (ho : Ord g d) (junk : Nat → Nat) :
    ∃ f, gfInit g junk = some f ∧ f.Ok g d := by
  have hdeg : Gftool.degree g = d := by rw [degree_eq (hg.lt64 (by omega)), hg.eq]
  have h16 : 2 ^ d ≤ 2 ^ 16 := Nat.pow_le_pow_right (by decide) hd
  have hM := M_succ (d := d)
  have hd62 : d ≤ 62 := by omega
  have hpos := M_pos h1
  unfold gfInit
  simp only [hdeg]
  rw [if_neg (by omega)]
  refine ⟨_, rfl, ?_, rfl, ?_, ?_⟩
  · show (2 ^ d - 1) % 2 ^ 16 = 2 ^ d - 1
    exact Nat.mod_eq_of_lt (by omega)
  · intro i hi
    show (fillLoop g d (2 ^ d) 0 (pw g d 0) junk junk).1 i = _
    rw [fillLoop_exp, if_pos (by omega), Nat.mod_eq_of_lt (Nat.lt_of_lt_of_le (pw_lt hg hd62 h1 i) h16)]
  · intro a ha0 ha
    obtain ⟨i, hi, hia⟩ := ho.onto hg hd62 h1 1 ha0 ha
    have hl : (fillLoop g d (2 ^ d) 0 (pw g d 0) junk junk).2 a = (1 + i) % 2 ^ 16 := by
      apply fillLoop_log hia _ _ _ _ (by omega) (by omega)
      intro j' hj hj' he
      have := ho.cancel h1 (by omega : 1 + i ≤ j') ((pw_eq_iff hg hd62 h1).1 (hia.trans he.symm))
      exact ho.no _ (by omega) (by omega) this
    have hl' : (1 + i) % 2 ^ 16 = 1 + i := Nat.mod_eq_of_lt (by omega)
    refine ⟨?_, ?_, ?_⟩
    · show 1 ≤ (fillLoop g d (2 ^ d) 0 (pw g d 0) junk junk).2 a
      rw [hl, hl']; omega
    · show (fillLoop g d (2 ^ d) 0 (pw g d 0) junk junk).2 a ≤ _
      rw [hl, hl']; omega
    · show (fillLoop g d (2 ^ d) 0 (pw g d 0) junk junk).1 ((fillLoop g d (2 ^ d) 0 (pw g d 0) junk junk).2 a) = a
      rw [hl, hl', fillLoop_exp, if_pos (by omega), hia, Nat.mod_eq_of_lt (by omega)]

/-! ### Evaluation -/

variable {f : Gf}

theorem evalLoop_el (hg : Deg g d) (hd : d ≤ 15) (h1 : 1 ≤ d) (ho : Ord g d) (hf : f.Ok g d) {lx : Nat} (hlx : lx ≤ M d) :
    ∀ k p lt r, p < 2 ^ k → k ≤ 64 → lt < M d → r < 2 ^ d →
      el g (evalLoop f lx k p lt r) = el g r + α g ^ lt * aeval (α g ^ lx) (wordPoly p) ∧ evalLoop f lx k p lt r < 2 ^ d := by
  have hM := M_succ (d := d)
  have h15 : 2 ^ d ≤ 2 ^ 15 := Nat.pow_le_pow_right (by decide) hd
  intro k
  induction k with
  | zero =>
    intro p lt r hp _ _ hr
    have : p = 0 := by simpa using hp
    subst this
    rw [evalLoop, wordPoly_zero, map_zero, mul_zero, add_zero]; exact ⟨rfl, hr⟩
  | succ k ih =>
    intro p lt r hp hk hlt hr
    rw [evalLoop]
    by_cases h0 : p ≠ 0
    · rw [if_pos h0]
      have hp64 : p < 2 ^ 64 := Nat.lt_of_lt_of_le hp (Nat.pow_le_pow_right (by decide) hk)
      have hr' : (if p &&& 1 ≠ 0 then r ^^^ f.exp lt else r) < 2 ^ d := by
        split
        · rw [hf.exp _ (by omega)]; exact Nat.xor_lt_two_pow hr (pw_lt hg (by omega) h1 _)
        · exact hr
      have hre : el g (if p &&& 1 ≠ 0 then r ^^^ f.exp lt else r) = el g r + α g ^ lt * (if p &&& 1 ≠ 0 then 1 else 0) := by
        split
        · rw [el_xor, hf.exp _ (by omega), pw_el hg (by omega) h1, mul_one]
        · rw [mul_zero, add_zero]
      have hms : modS f (lt + lx) < M d ∧ α g ^ modS f (lt + lx) = α g ^ (lt + lx) := by
        have e : modS f (lt + lx) = if lt + lx ≥ M d then lt + lx - M d else lt + lx := by
          unfold modS
          rw [hf.order, Nat.mod_eq_of_lt (by omega)]
        rw [e]
        split
        · refine ⟨by omega, ?_⟩
          conv_rhs => rw [show lt + lx = lt + lx - M d + M d by omega, pow_add, ho.one, mul_one]
        · exact ⟨by omega, rfl⟩
      have := ih (p >>> 1) _ _ (by rw [Nat.shiftRight_eq_div_pow, Nat.pow_one]; rw [Nat.pow_succ] at hp; omega) (by omega) hms.1 hr'
      refine ⟨?_, this.2⟩
      show el g (evalLoop f lx k (p >>> 1) (modS f (lt + lx)) (if p &&& 1 ≠ 0 then r ^^^ f.exp lt else r)) = _
      rw [this.1, hre, hms.2, wordPoly_half p hp64, map_add, map_mul, aeval_X, pow_add]
      split
      · rw [map_one]; ring
      · rw [map_zero]; ring
    · have : p = 0 := by omega
      subst this
      rw [if_neg h0, wordPoly_zero, map_zero, mul_zero, add_zero]; exact ⟨rfl, hr⟩

/-- `eval_poly` is zero exactly at the reciprocals of the roots. -/
theorem evalPoly_iff (hg : Deg g d) (hd : d ≤ 15) (h2 : 2 ≤ d) (ho : Ord g d) (hf : f.Ok g d) {i : Nat} (hi : i < M d) {p : Nat} (hp0 : p ≠ 0)
    (hp : p < 2 ^ 64) : evalPoly f p (f.exp i) = 0 ↔ aeval (α g ^ (M d - i)) (wordPoly p) = 0 := by
  have h1 : 1 ≤ d := by omega
  have hM := M_succ (d := d)
  have hM3 : 2 ^ 2 ≤ 2 ^ d := Nat.pow_le_pow_right (by decide) h2
  have hdp : p.log2 ≤ 63 := by have := (Nat.log2_lt hp0).2 hp; omega
  have hD := deg_log2 hp0
  have hx : f.exp i = pw g d i := hf.exp i (by omega)
  have hx0 : pw g d i ≠ 0 := by
    intro h0
    have h3 := pw_el hg (by omega : d ≤ 62) h1 i
    rw [h0, el_zero] at h3
    have hu := (ho.unit h1).pow i
    rw [← h3] at hu
    obtain ⟨u, hu⟩ := hu
    have := u.mul_inv
    rw [hu, zero_mul] at this
    exact nontriv hg (by omega : d ≤ 62) h1 (by rw [el_one, el_zero, this])
  have hxl := pw_lt hg (by omega : d ≤ 62) h1 i
  obtain ⟨l1, l2, l3⟩ := hf.log _ hx0 hxl
  have hα : α g ^ f.log (pw g d i) = α g ^ i := by
    rw [← pw_el hg (by omega) h1 (f.log _), ← pw_el hg (by omega) h1 i, ← hf.exp (f.log _) (by omega), l3]
  have := evalLoop_el hg hd h1 ho hf l2 64 (reciprocal p) 1 0
    (Nat.lt_of_lt_of_le (reciprocal_lt hD hdp) (Nat.pow_le_pow_right (by decide) (by omega))) (by omega) (by omega) (Nat.two_pow_pos d)
  rw [el_zero, zero_add, hα, reciprocal_reverse hD hdp] at this
  have e : evalPoly f p (f.exp i) = evalLoop f (f.log (pw g d i)) 64 (reciprocal p) 1 0 := by unfold evalPoly; rw [hx]
  rw [e]
  have z : evalLoop f (f.log (pw g d i)) 64 (reciprocal p) 1 0 = 0 ↔ aeval (α g ^ i) (wordPoly p).reverse = 0 := by
    constructor
    · intro h
      rw [h, el_zero, pow_one] at this
      exact ((ho.unit h1).mul_right_eq_zero).1 this.1.symm
    · intro h
      rw [h, mul_zero, ← el_zero] at this
      exact el_inj hg (by omega) this.2 (Nat.two_pow_pos d) this.1
  rw [z]
  have hinv : α g ^ i * α g ^ (M d - i) = 1 := by rw [← pow_add, show i + (M d - i) = M d by omega, ho.one]
  letI : Invertible (α g ^ (M d - i)) := ⟨α g ^ i, hinv, by rw [mul_comm]; exact hinv⟩
  exact eval₂_reverse_eq_zero_iff (algebraMap (ZMod 2) (AdjoinRoot (wordPoly g))) (α g ^ (M d - i)) (wordPoly p)

/-! ### Minimal polynomials -/

theorem minimalLoop_least (x : Nat) : ∀ k i w, i ≤ w → w < i + k → w >>> f.degree ≤ 1 → evalPoly f w x = 0 →
    (∀ j, i ≤ j → j < w → evalPoly f j x ≠ 0) → minimalLoop f x k i = w := by
  intro k
  induction k with
  | zero => intro i w h1 h2; omega
  | succ k ih =>
    intro i w h1 h2 hw h0 hn
    rw [minimalLoop]
    have hi : i >>> f.degree ≤ 1 := Nat.le_trans (by
      rw [Nat.shiftRight_eq_div_pow, Nat.shiftRight_eq_div_pow]; exact Nat.div_le_div_right h1) hw
    rw [if_pos hi]
    rcases Nat.eq_or_lt_of_le h1 with rfl | h
    · rw [if_pos h0]
    · rw [if_neg (hn i (Nat.le_refl _) h), ih _ _ h (by omega) hw h0 (fun j h3 h4 => hn j (by omega) h4)]

/-- The reciprocal of the `i`-th power of X. -/
noncomputable def y (g d i : Nat) : AdjoinRoot (wordPoly g) := α g ^ (M d - i)

theorem minimal_spec (hg : Deg g d) (hd : d ≤ 15) (h2 : 2 ≤ d) (ho : Ord g d) (hf : f.Ok g d) {i : Nat} (hi : i < M d) :
    minimal f (f.exp i) < 2 ^ (d + 1) ∧ (letI := Fact.mk (ho.irreducible hg (by omega) (by omega)); wordPoly (minimal f (f.exp i)) = minpoly (ZMod 2) (y g d i)) := by
  letI := Fact.mk (ho.irreducible hg (by omega) (by omega))
  have hw0 : wordPoly g ≠ 0 := (ho.irreducible hg (by omega) (by omega)).ne_zero
  letI : FiniteDimensional (ZMod 2) (AdjoinRoot (wordPoly g)) := (AdjoinRoot.powerBasis hw0).finite
  have hfin : Module.finrank (ZMod 2) (AdjoinRoot (wordPoly g)) = d := by
    rw [(AdjoinRoot.powerBasis hw0).finrank, AdjoinRoot.powerBasis_dim, wordPoly_natDegree hg (by omega)]
  have hint : IsIntegral (ZMod 2) (y g d i) := IsIntegral.of_finite _ _
  have hle : (minpoly (ZMod 2) (y g d i)).natDegree ≤ d := by rw [← hfin]; exact minpoly.natDegree_le _
  have hm0 := minpoly.ne_zero hint
  obtain ⟨w, hw, hwp⟩ := exists_word ((minpoly (ZMod 2) (y g d i)).natDegree + 1) (by omega) (minpoly (ZMod 2) (y g d i)) (by
    rw [degree_eq_natDegree hm0]; exact_mod_cast Nat.lt_succ_self _)
  have hwd : w < 2 ^ (d + 1) := Nat.lt_of_lt_of_le hw (Nat.pow_le_pow_right (by decide) (by omega))
  have h17 : 2 ^ (d + 1) ≤ 2 ^ 16 := Nat.pow_le_pow_right (by decide) (by omega)
  have hwne : w ≠ 0 := by rintro rfl; rw [wordPoly_zero] at hwp; exact hm0 hwp.symm
  have hroot : evalPoly f w (f.exp i) = 0 := by
    rw [evalPoly_iff hg hd h2 ho hf hi hwne (by omega), hwp]; exact minpoly.aeval _ _
  have hleast : ∀ j, 1 ≤ j → j < w → evalPoly f j (f.exp i) ≠ 0 := by
    intro j hj hjw h0
    rw [evalPoly_iff hg hd h2 ho hf hi (by omega) (by omega)] at h0
    have hdvd := minpoly.dvd (ZMod 2) _ h0
    have hj0 : wordPoly j ≠ 0 := fun h => by have := wordPoly_eq_zero (by omega) h; omega
    have hD := deg_log2 (show j ≠ 0 by omega)
    have hjl : j.log2 ≤ 63 := by have := (Nat.log2_lt (show j ≠ 0 by omega)).2 (show j < 2 ^ 64 by omega); omega
    have hge := natDegree_le_of_dvd hdvd hj0
    rw [wordPoly_natDegree hD hjl] at hge
    have hlt : j.log2 < (minpoly (ZMod 2) (y g d i)).natDegree + 1 := (Nat.log2_lt (show j ≠ 0 by omega)).2 (by omega)
    obtain ⟨q, hq⟩ := hdvd
    have hq0 : q ≠ 0 := by rintro rfl; rw [mul_zero] at hq; exact hj0 hq
    have hqd : q.natDegree = 0 := by
      have h := congrArg natDegree hq
      rw [wordPoly_natDegree hD hjl, natDegree_mul (by exact hm0) hq0] at h
      change j.log2 = (minpoly (ZMod 2) (y g d i)).natDegree + q.natDegree at h
      omega
    rw [eq_C_of_natDegree_eq_zero hqd] at hq hq0
    have hc : q.coeff 0 = 1 := by
      have : q.coeff 0 ≠ 0 := fun h => hq0 (by rw [h, C_0])
      revert this
      generalize q.coeff 0 = z
      revert z; decide
    rw [hc, C_1, mul_one] at hq
    have : j = w := wordPoly_inj (by omega) (by omega) (hq.trans hwp.symm)
    omega
  have he : minimalLoop f (f.exp i) (2 ^ (f.degree + 1)) 1 = w := by
    apply minimalLoop_least _ _ _ _ (by omega) _ _ hroot hleast
    · rw [hf.degree]; omega
    · rw [hf.degree, Nat.shiftRight_eq_div_pow]
      apply Nat.le_of_lt_succ
      rw [Nat.div_lt_iff_lt_mul (Nat.two_pow_pos d)]
      rw [Nat.pow_succ] at hwd; omega
  have hmin : minimal f (f.exp i) = w := by
    unfold minimal; rw [he, Nat.mod_eq_of_lt (by omega)]
  rw [hmin]
  exact ⟨hwd, hwp⟩

/-! ### BCH generators -/

theorem bitTest_eq (map : Buf) (i : Nat) : bitTest map i = (map (i >>> 3)).toNat.testBit (i % 8) := by
  have h8 : i % 8 < 8 := Nat.mod_lt _ (by decide)
  have e : i &&& 7 = i % 8 := Nat.and_two_pow_sub_one_eq_mod i 3
  have e2 : (UInt8.ofNat (1 <<< (i % 8))).toNat = 2 ^ (i % 8) := by
    rw [Nat.shiftLeft_eq, Nat.one_mul, UInt8.toNat_ofNat', Nat.mod_eq_of_lt]
    exact Nat.pow_lt_pow_right (by decide) h8
  unfold bitTest
  rw [e]
  have : (map (i >>> 3) &&& UInt8.ofNat (1 <<< (i % 8)) ≠ 0) ↔ (map (i >>> 3)).toNat.testBit (i % 8) = true := by
    rw [← Gf13.and_pow, ← e2, ← UInt8.toNat_and, Ne, Ne, ← UInt8.toNat_inj]; rfl
  by_cases h : (map (i >>> 3)).toNat.testBit (i % 8) = true
  · rw [h]; simpa using this.2 h
  · simp only [Bool.not_eq_true] at h
    rw [h] at this ⊢
    simpa using this

theorem bitTest_set (map : Buf) (i j : Nat) : bitTest (bitSet map i) j = (bitTest map j || decide (i = j)) := by
  have e : i &&& 7 = i % 8 := Nat.and_two_pow_sub_one_eq_mod i 3
  have e2 : (UInt8.ofNat (1 <<< (i % 8))).toNat = 2 ^ (i % 8) := by
    rw [Nat.shiftLeft_eq, Nat.one_mul, UInt8.toNat_ofNat', Nat.mod_eq_of_lt]
    exact Nat.pow_lt_pow_right (by decide) (Nat.mod_lt _ (by decide))
  rw [bitTest_eq, bitTest_eq]
  unfold bitSet
  have s3 : ∀ k : Nat, k >>> 3 = k / 8 := fun k => Nat.shiftRight_eq_div_pow k 3
  by_cases h : j >>> 3 = i >>> 3
  · simp only [if_pos h, UInt8.toNat_or, Nat.testBit_or, e, e2, Nat.testBit_two_pow]
    congr 1
    rw [s3, s3] at h
    by_cases hij : i = j
    · subst hij; simp
    · have : i % 8 ≠ j % 8 := by omega
      simp [hij, this]
  · simp only [if_neg h]
    have : i ≠ j := by rintro rfl; exact h rfl
    simp [this]

/-- The state of the loop of `bch_generator` when it has dealt with the odd numbers below `i`. -/
structure BInv (f : Gf) (g d i : Nat) (bm : Buf) (r : Nat) : Prop where
  ne : r ≠ 0
  lt : r < 2 ^ 64
  dvd : ∀ q : (ZMod 2)[X], wordPoly r ∣ q ↔ ∀ j, j % 2 = 1 → j < i → aeval (y g d j) q = 0
  seen : ∀ m, bitTest bm m = true ↔ ∃ j, j % 2 = 1 ∧ j < i ∧ minimal f (f.exp j) = m

section
variable (hg : Deg g d) (hd : d ≤ 15) (h2 : 2 ≤ d) (ho : Ord g d) (hf : f.Ok g d) {i r : Nat} {bm : Buf}
include hg hd h2 ho hf

theorem BInv.step_seen (hI : BInv f g d i bm r) (hodd : i % 2 = 1) (hi : i < M d) (hs : bitTest bm (minimal f (f.exp i)) = true) :
    BInv f g d (i + 2) bm r := by
  letI := Fact.mk (ho.irreducible hg (by omega) (by omega))
  obtain ⟨hml, hmp⟩ := minimal_spec hg hd h2 ho hf hi
  have hjs : ∀ j, j % 2 = 1 → (j < i + 2 ↔ j < i ∨ j = i) := fun j hj => by omega
  refine ⟨hI.ne, hI.lt, fun q => ?_, fun m => ?_⟩
  · rw [hI.dvd]
    obtain ⟨j0, hj0, hj0i, hj0m⟩ := (hI.seen _).1 hs
    obtain ⟨_, hmp0⟩ := minimal_spec hg hd h2 ho hf (show j0 < M d by omega)
    rw [hj0m, hmp] at hmp0
    constructor
    · intro h j hj hji
      rcases (hjs j hj).1 hji with h' | rfl
      · exact h j hj h'
      · have := minpoly.dvd (ZMod 2) _ (h j0 hj0 hj0i)
        change minpoly (ZMod 2) (y g d j0) ∣ q at this
        rw [← hmp0] at this
        obtain ⟨t, rfl⟩ := this
        rw [map_mul, minpoly.aeval, zero_mul]
    · intro h j hj hji
      exact h j hj (by omega)
  · rw [hI.seen]
    constructor
    · rintro ⟨j, a, b, c⟩; exact ⟨j, a, by omega, c⟩
    · rintro ⟨j, a, b, c⟩
      rcases (hjs j a).1 b with h' | rfl
      · exact ⟨j, a, h', c⟩
      · rw [← c]; exact (hI.seen _).1 hs

theorem BInv.coprime (hI : BInv f g d i bm r) (hodd : i % 2 = 1) (hi : i < M d) (hs : ¬ bitTest bm (minimal f (f.exp i)) = true) :
    IsCoprime (wordPoly r) (wordPoly (minimal f (f.exp i))) := by
  letI := Fact.mk (ho.irreducible hg (by omega) (by omega))
  have hw0 : wordPoly g ≠ 0 := (ho.irreducible hg (by omega) (by omega)).ne_zero
  letI : FiniteDimensional (ZMod 2) (AdjoinRoot (wordPoly g)) := (AdjoinRoot.powerBasis hw0).finite
  have hint : ∀ z : AdjoinRoot (wordPoly g), IsIntegral (ZMod 2) z := fun z => IsIntegral.of_finite _ _
  obtain ⟨hml, hmp⟩ := minimal_spec hg hd h2 ho hf hi
  have hirr : Irreducible (minpoly (ZMod 2) (y g d i)) := minpoly.irreducible (hint _)
  have hm64 : minimal f (f.exp i) < 2 ^ 64 := Nat.lt_of_lt_of_le hml (Nat.pow_le_pow_right (by decide) (by omega))
  rw [hmp]
  apply IsCoprime.symm
  rw [hirr.coprime_iff_not_dvd]
  intro hdv
  have hQ : wordPoly r ∣ ∏ j ∈ (Finset.range i).filter (fun j => j % 2 = 1), minpoly (ZMod 2) (y g d j) := by
    rw [hI.dvd]
    intro j hj hji
    have hmem : j ∈ (Finset.range i).filter (fun j => j % 2 = 1) := by simp [hj, hji]
    obtain ⟨t, ht⟩ := Finset.dvd_prod_of_mem (fun j => minpoly (ZMod 2) (y g d j)) hmem
    rw [ht, map_mul, minpoly.aeval, zero_mul]
  obtain ⟨j, hj, hjd⟩ := (Prime.dvd_finset_prod_iff hirr.prime _).1 (hdv.trans hQ)
  simp only [Finset.mem_filter, Finset.mem_range] at hj
  have heq : minpoly (ZMod 2) (y g d i) = minpoly (ZMod 2) (y g d j) := by
    apply eq_of_monic_of_associated (minpoly.monic (hint _)) (minpoly.monic (hint _))
    exact hirr.associated_of_dvd (minpoly.irreducible (hint _)) hjd
  obtain ⟨hml0, hmp0⟩ := minimal_spec hg hd h2 ho hf (show j < M d by omega)
  apply hs
  rw [hI.seen]
  refine ⟨j, hj.2, hj.1, ?_⟩
  exact wordPoly_inj (Nat.lt_of_lt_of_le hml0 (Nat.pow_le_pow_right (by decide) (by omega))) hm64 (by rw [hmp0, hmp, heq])

theorem BInv.step_new (hI : BInv f g d i bm r) (hodd : i % 2 = 1) (hi : i < M d) (hs : ¬ bitTest bm (minimal f (f.exp i)) = true)
    (hov : degree (minimal f (f.exp i)) + degree r ≤ 63) :
    BInv f g d (i + 2) (bitSet bm (minimal f (f.exp i))) (mulPoly r (minimal f (f.exp i))) := by
  have hcop := hI.coprime hg hd h2 ho hf hodd hi hs
  letI := Fact.mk (ho.irreducible hg (by omega) (by omega))
  have hw0 : wordPoly g ≠ 0 := (ho.irreducible hg (by omega) (by omega)).ne_zero
  letI : FiniteDimensional (ZMod 2) (AdjoinRoot (wordPoly g)) := (AdjoinRoot.powerBasis hw0).finite
  have hint : ∀ z : AdjoinRoot (wordPoly g), IsIntegral (ZMod 2) z := fun z => IsIntegral.of_finite _ _
  obtain ⟨hml, hmp⟩ := minimal_spec hg hd h2 ho hf hi
  have hirr : Irreducible (minpoly (ZMod 2) (y g d i)) := minpoly.irreducible (hint _)
  have hjs : ∀ j, j % 2 = 1 → (j < i + 2 ↔ j < i ∨ j = i) := fun j hj => by omega
  have hm64 : minimal f (f.exp i) < 2 ^ 64 := Nat.lt_of_lt_of_le hml (Nat.pow_le_pow_right (by decide) (by omega))
  have hmul := mulPoly_poly hI.lt hm64 (by omega)
  have hr0 : wordPoly r ≠ 0 := fun h => hI.ne (wordPoly_eq_zero hI.lt h)
  have hlt : mulPoly r (minimal f (f.exp i)) < 2 ^ 64 := mulPolyLoop_lt _ _ _ _ hm64 (by decide)
  refine ⟨?_, hlt, fun q => ?_, fun m => ?_⟩
  · intro h0
    rw [h0, wordPoly_zero, hmp] at hmul
    exact mul_ne_zero hr0 hirr.ne_zero hmul.symm
  · rw [hmul]
    rw [hmp] at hcop ⊢
    constructor
    · intro h j hj hji
      rcases (hjs j hj).1 hji with h' | rfl
      · exact (hI.dvd q).1 (dvd_of_mul_right_dvd h) j hj h'
      · obtain ⟨t, rfl⟩ := dvd_of_mul_left_dvd h
        rw [map_mul, minpoly.aeval, zero_mul]
    · intro h
      exact hcop.mul_dvd ((hI.dvd q).2 fun j hj hji => h j hj (by omega)) (minpoly.dvd _ _ (h i hodd (by omega)))
  · rw [bitTest_set]
    simp only [Bool.or_eq_true, decide_eq_true_eq, hI.seen]
    constructor
    · rintro (⟨j, a, b, c⟩ | rfl)
      · exact ⟨j, a, by omega, c⟩
      · exact ⟨i, hodd, by omega, rfl⟩
    · rintro ⟨j, a, b, c⟩
      rcases (hjs j a).1 b with h' | rfl
      · exact Or.inl ⟨j, a, h', c⟩
      · exact Or.inr c

end

theorem bchLoop_spec (hg : Deg g d) (hd : d ≤ 15) (h2 : 2 ≤ d) (ho : Ord g d) (hf : f.Ok g d) {n : Nat} (hn : n < M d) {R : Nat} :
    ∀ k i bm r, i % 2 = 1 → n < i + 2 * k → i ≤ n + 2 → BInv f g d i bm r → bchLoop f n k i bm r = some R →
      ∃ i bm, i % 2 = 1 ∧ n < i ∧ i ≤ n + 2 ∧ BInv f g d i bm R := by
  have hM := M_succ (d := d)
  have h15 : 2 ^ d ≤ 2 ^ 15 := Nat.pow_le_pow_right (by decide) hd
  intro k
  induction k with
  | zero =>
    intro i bm r hodd h1 h3 hI he
    rw [bchLoop] at he
    cases he
    exact ⟨i, bm, hodd, by omega, h3, hI⟩
  | succ k ih =>
    intro i bm r hodd h1 h3 hI he
    rw [bchLoop] at he
    by_cases hin : i ≤ n
    · rw [if_pos hin] at he
      have hnext : (i + 2) % 2 ^ 16 = i + 2 := Nat.mod_eq_of_lt (by omega)
      simp only [hnext] at he
      by_cases hs : bitTest bm (minimal f (f.exp i)) = true
      · rw [if_neg (by simpa using hs)] at he
        exact ih _ _ _ (by omega) (by omega) (by omega) (hI.step_seen hg hd h2 ho hf hodd (by omega) hs) he
      · rw [if_pos (by simpa using hs)] at he
        by_cases hov : degree (minimal f (f.exp i)) + degree r > 63
        · rw [if_pos hov] at he; cases he
        · rw [if_neg hov] at he
          exact ih _ _ _ (by omega) (by omega) (by omega) (hI.step_new hg hd h2 ho hf hodd (by omega) hs (by omega)) he
    · rw [if_neg hin] at he
      cases he
      exact ⟨i, bm, hodd, by omega, h3, hI⟩

theorem BInv.start : BInv f g d 1 (fun _ => 0) 1 := by
  refine ⟨one_ne_zero, by decide, fun q => ?_, fun m => ?_⟩
  · rw [wordPoly_one]
    exact ⟨fun _ j hj hj1 => by omega, fun _ => one_dvd _⟩
  · rw [bitTest_eq]
    constructor
    · intro h; simp at h
    · rintro ⟨j, a, b, c⟩; omega

theorem sq_root {z : AdjoinRoot (wordPoly g)} (q : (ZMod 2)[X]) (h : aeval z q = 0) : aeval (z ^ 2) q = 0 := by
  rw [← expand_aeval, ZMod.expand_card, map_pow, h]; exact zero_pow (by decide)

theorem y_sq (ho : Ord g d) {j : Nat} (hj : 2 * j ≤ M d) : y g d (2 * j) = y g d j ^ 2 := by
  unfold y
  rw [← pow_mul, show (M d - j) * 2 = M d - 2 * j + M d by omega, pow_add, ho.one, mul_one]

/-- The result of `bch_generator` divides exactly the polynomials that vanish at the reciprocals of the first `n` powers of X. -/
theorem bchGenerator_spec (hg : Deg g d) (hd : d ≤ 15) (h2 : 2 ≤ d) (ho : Ord g d) (hf : f.Ok g d) {n R : Nat}
    (he : bchGenerator f n = some R) : n < M d ∧ R ≠ 0 ∧ R < 2 ^ 64 ∧
    ∀ q : (ZMod 2)[X], wordPoly R ∣ q ↔ ∀ j, 1 ≤ j → j ≤ n → aeval (y g d j) q = 0 := by
  unfold bchGenerator at he
  rw [hf.order] at he
  by_cases hn : n ≥ M d
  · rw [if_pos hn] at he; cases he
  rw [if_neg hn] at he
  have hn : n < M d := by omega
  obtain ⟨i, bm, h5, h3, h4, hI⟩ := bchLoop_spec hg hd h2 ho hf hn (n + 1) 1 (fun _ => 0) 1 rfl (by omega) (by omega) BInv.start he
  refine ⟨hn, hI.ne, hI.lt, fun q => ?_⟩
  rw [hI.dvd]
  constructor
  · intro h j
    induction j using Nat.strong_induction_on with
    | _ j ih =>
      intro h1 hjn
      rcases Nat.mod_two_eq_zero_or_one j with he | ho'
      · obtain ⟨t, rfl⟩ : ∃ t, j = 2 * t := ⟨j / 2, by omega⟩
        rw [y_sq ho (by omega)]
        exact sq_root q (ih t (by omega) (by omega) (by omega))
      · exact h j ho' (by omega)
  · intro h j hj hji
    by_cases hjn : j ≤ n
    · exact h j (by omega) hjn
    · omega

end Dhara.Gftool

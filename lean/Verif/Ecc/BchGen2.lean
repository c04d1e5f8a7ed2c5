/-
The polynomial that tools/gftool.c prints in brackets (the reciprocal of the one it computes) is the BCH generator in the usual sense;
when the search does not overflow; the generators in ecc/bch.c.
-/
import Verif.Ecc.BchGen
import Verif.Ecc.RepairProofs
namespace Dhara.Gftool
open Polynomial Dhara
variable {g d : Nat} {f : Gf}

theorem y_mul (ho : Ord g d) {j : Nat} (hj : j ≤ M d) : α g ^ j * y g d j = 1 := by
  unfold y
  rw [← pow_add, show j + (M d - j) = M d by omega, ho.one]

theorem rev_root (ho : Ord g d) {j : Nat} (hj : j ≤ M d) (q : (ZMod 2)[X]) :
    aeval (y g d j) q = 0 ↔ aeval (α g ^ j) q.reverse = 0 := by
  letI : Invertible (y g d j) := ⟨α g ^ j, y_mul ho hj, by rw [mul_comm]; exact y_mul ho hj⟩
  exact (eval₂_reverse_eq_zero_iff (algebraMap (ZMod 2) (AdjoinRoot (wordPoly g))) (y g d j) q).symm

/-- A polynomial is its double reversal times a power of X. -/
theorem reverse_reverse_mul (q : (ZMod 2)[X]) : q = q.reverse.reverse * X ^ q.natTrailingDegree := by
  by_cases h0 : q = 0
  · subst h0; simp
  obtain ⟨t, ht⟩ : X ^ q.natTrailingDegree ∣ q := by
    rw [X_pow_dvd_iff]; intro k hk; exact coeff_eq_zero_of_lt_natTrailingDegree hk
  have hn := natDegree_eq_reverse_natDegree_add_natTrailingDegree q
  ext n
  rw [coeff_mul_X_pow']
  split
  · rename_i hle
    rw [coeff_reverse]
    by_cases hb : n - q.natTrailingDegree ≤ q.reverse.natDegree
    · rw [revAt_le hb, coeff_reverse, revAt_le (by omega)]
      congr 1; omega
    · rw [revAt_eq_self_of_lt (by omega), coeff_eq_zero_of_natDegree_lt (by omega), coeff_eq_zero_of_natDegree_lt (by omega)]
  · rename_i hle
    exact coeff_eq_zero_of_lt_natTrailingDegree (by omega)

/-- The polynomial printed in brackets divides exactly the polynomials that vanish at the first `n` powers of X. -/
theorem bchGenerator_recip (hg : Deg g d) (hd : d ≤ 15) (h2 : 2 ≤ d) (ho : Ord g d) (hf : f.Ok g d) {n R : Nat}
    (he : bchGenerator f n = some R) : ∀ q : (ZMod 2)[X], wordPoly (reciprocal R) ∣ q ↔ ∀ j, 1 ≤ j → j ≤ n → aeval (α g ^ j) q = 0 := by
  obtain ⟨hn, hR0, hR, hdvd⟩ := bchGenerator_spec hg hd h2 ho hf he
  have hdR := deg_log2 hR0
  have hl : R.log2 ≤ 63 := by
    have := (Nat.log2_lt hR0).2 hR; omega
  rw [reciprocal_reverse hdR hl]
  have hself := (hdvd (wordPoly R)).1 dvd_rfl
  intro q
  constructor
  · rintro ⟨t, rfl⟩ j h1 hj
    rw [map_mul, (rev_root ho (by omega) _).1 (hself j h1 hj), zero_mul]
  · intro h
    have : wordPoly R ∣ q.reverse := by
      rw [hdvd]
      intro j h1 hj
      rw [rev_root ho (by omega)]
      have := h j h1 hj
      rw [reverse_reverse_mul q, map_mul] at this
      have hu : IsUnit (aeval (α g ^ j) ((X : (ZMod 2)[X]) ^ q.natTrailingDegree)) := by
        rw [map_pow, aeval_X]
        exact ((ho.unit (by omega)).pow _).pow _
      exact (hu.mul_left_eq_zero).1 this
    obtain ⟨t, ht⟩ := this
    have := reverse_reverse_mul q
    rw [ht, reverse_mul_of_domain] at this
    rw [this]
    exact Dvd.intro _ (mul_assoc _ _ _).symm

theorem mulPoly_degree {a b : Nat} (ha0 : a ≠ 0) (hb0 : b ≠ 0) (ha : a < 2 ^ 64) (hb : b < 2 ^ 64) (h : degree a + degree b ≤ 63) :
    degree (mulPoly a b) = degree a + degree b := by
  have hlt : mulPoly a b < 2 ^ 64 := mulPolyLoop_lt _ _ _ _ hb (by decide)
  have hm := mulPoly_poly ha hb h
  rw [degree_eq ha, degree_eq hb] at h
  have hna := wordPoly_natDegree (deg_log2 ha0) (by omega)
  have hnb := wordPoly_natDegree (deg_log2 hb0) (by omega)
  have hwa : wordPoly a ≠ 0 := fun h => ha0 (wordPoly_eq_zero ha h)
  have hwb : wordPoly b ≠ 0 := fun h => hb0 (wordPoly_eq_zero hb h)
  have h0 : mulPoly a b ≠ 0 := fun h => by
    rw [h, wordPoly_zero] at hm; exact mul_ne_zero hwa hwb hm.symm
  have hnm := wordPoly_natDegree (deg_log2 h0) (by have := (Nat.log2_lt h0).2 hlt; omega)
  rw [hm, natDegree_mul hwa hwb, hna, hnb] at hnm
  rw [degree_eq ha, degree_eq hb, degree_eq hlt, hnm]

theorem bchLoop_some (hg : Deg g d) (hd : d ≤ 15) (h2 : 2 ≤ d) (ho : Ord g d) (hf : f.Ok g d) {n : Nat} (hn : n < M d)
    (ht : (n + 1) / 2 * d ≤ 63) :
    ∀ k i bm r, i % 2 = 1 → r ≠ 0 → r < 2 ^ 64 → degree r ≤ (i - 1) / 2 * d → ∃ R, bchLoop f n k i bm r = some R := by
  have hM := M_succ (d := d)
  have h15 : 2 ^ d ≤ 2 ^ 15 := Nat.pow_le_pow_right (by decide) hd
  intro k
  induction k with
  | zero => intro i bm r _ _ _ _; exact ⟨r, by rw [bchLoop]⟩
  | succ k ih =>
    intro i bm r hodd hr0 hr hdr
    rw [bchLoop]
    by_cases hin : i ≤ n
    · rw [if_pos hin]
      have hnext : (i + 2) % 2 ^ 16 = i + 2 := Nat.mod_eq_of_lt (by omega)
      simp only [hnext]
      have hi2 : (i + 2 - 1) / 2 = (i - 1) / 2 + 1 := by omega
      have hmono : ((i - 1) / 2 + 1) * d ≤ (n + 1) / 2 * d := Nat.mul_le_mul_right _ (by omega)
      rw [Nat.add_mul, Nat.one_mul] at hmono
      obtain ⟨hml, hmp⟩ := minimal_spec hg hd h2 ho hf (show i < M d by omega)
      have hm64 : minimal f (f.exp i) < 2 ^ 64 := Nat.lt_of_lt_of_le hml (Nat.pow_le_pow_right (by decide) (by omega))
      have hm0 : minimal f (f.exp i) ≠ 0 := by
        intro h
        letI := Fact.mk (ho.irreducible hg (by omega) (by omega))
        have hw0 : wordPoly g ≠ 0 := (ho.irreducible hg (by omega) (by omega)).ne_zero
        letI : FiniteDimensional (ZMod 2) (AdjoinRoot (wordPoly g)) := (AdjoinRoot.powerBasis hw0).finite
        rw [h, wordPoly_zero] at hmp
        exact minpoly.ne_zero (IsIntegral.of_finite (ZMod 2) (y g d i)) hmp.symm
      have hmd : degree (minimal f (f.exp i)) ≤ d := by
        rw [degree_eq hm64]
        have := (Nat.log2_lt hm0).2 hml; omega
      split
      · rw [if_neg (by omega)]
        apply ih
        · omega
        · intro h0
          have := mulPoly_poly hr hm64 (by omega)
          rw [h0, wordPoly_zero] at this
          exact mul_ne_zero (fun h => hr0 (wordPoly_eq_zero hr h)) (fun h => hm0 (wordPoly_eq_zero hm64 h)) this.symm
        · exact mulPolyLoop_lt _ _ _ _ hm64 (by decide)
        · rw [mulPoly_degree hr0 hm0 hr hm64 (by omega), hi2, Nat.add_mul, Nat.one_mul]; omega
      · apply ih _ _ _ (by omega) hr0 hr
        rw [hi2, Nat.add_mul, Nat.one_mul]; omega
    · rw [if_neg hin]; exact ⟨_, rfl⟩

/-- No overflow while half the number of roots, times the degree, is at most 63. -/
theorem bchGenerator_some (hg : Deg g d) (hd : d ≤ 15) (h2 : 2 ≤ d) (ho : Ord g d) (hf : f.Ok g d) {n : Nat} (hn : n < M d)
    (ht : (n + 1) / 2 * d ≤ 63) : ∃ R, bchGenerator f n = some R := by
  unfold bchGenerator
  rw [hf.order, if_neg (by omega)]
  apply bchLoop_some hg hd h2 ho hf hn ht _ _ _ _ rfl one_ne_zero (by decide)
  rw [degree_eq (by decide)]
  have h1 : Nat.log2 1 = 0 := by decide +kernel
  omega

theorem bchLoop_none (hg : Deg g d) (hd : d ≤ 15) (h2 : 2 ≤ d) (ho : Ord g d) (hf : f.Ok g d) {n : Nat} (hn : n < M d)
    {q : (ZMod 2)[X]} (hq0 : q ≠ 0) (hq : ∀ j, 1 ≤ j → j ≤ n → aeval (y g d j) q = 0) :
    ∀ k i bm r, i % 2 = 1 → BInv f g d i bm r → bchLoop f n k i bm r = none → 64 ≤ q.natDegree := by
  letI := Fact.mk (ho.irreducible hg (by omega) (by omega))
  have hw0 : wordPoly g ≠ 0 := (ho.irreducible hg (by omega) (by omega)).ne_zero
  letI : FiniteDimensional (ZMod 2) (AdjoinRoot (wordPoly g)) := (AdjoinRoot.powerBasis hw0).finite
  have hint : ∀ z : AdjoinRoot (wordPoly g), IsIntegral (ZMod 2) z := fun z => IsIntegral.of_finite _ _
  have hM := M_succ (d := d)
  have h15 : 2 ^ d ≤ 2 ^ 15 := Nat.pow_le_pow_right (by decide) hd
  intro k
  induction k with
  | zero => intro i bm r _ _ he; rw [bchLoop] at he; cases he
  | succ k ih =>
    intro i bm r hodd hI he
    by_cases hin : i ≤ n
    · obtain ⟨hml, hmp⟩ := minimal_spec hg hd h2 ho hf (show i < M d by omega)
      have hnext : (i + 2) % 2 ^ 16 = i + 2 := Nat.mod_eq_of_lt (by omega)
      by_cases hs : bitTest bm (minimal f (f.exp i)) = true
      · rw [bchLoop, if_pos hin] at he
        simp only [hnext] at he
        rw [if_neg (by simpa using hs)] at he
        exact ih _ _ _ (by omega) (hI.step_seen hg hd h2 ho hf hodd (by omega) hs) he
      · have hcop := hI.coprime hg hd h2 ho hf hodd (by omega) hs
        rw [bchLoop, if_pos hin] at he
        simp only [hnext] at he
        rw [if_pos (by simpa using hs)] at he
        by_cases hov : degree (minimal f (f.exp i)) + degree r > 63
        · have hdv : wordPoly r * wordPoly (minimal f (f.exp i)) ∣ q := by
            apply hcop.mul_dvd
            · rw [hI.dvd]; intro j hj hji; exact hq j (by omega) (by omega)
            · rw [hmp]; exact minpoly.dvd _ _ (hq i (by omega) hin)
          have hm64 : minimal f (f.exp i) < 2 ^ 64 := Nat.lt_of_lt_of_le hml (Nat.pow_le_pow_right (by decide) (by omega))
          have hm0 : minimal f (f.exp i) ≠ 0 := fun h => by
            rw [h, wordPoly_zero] at hmp
            exact minpoly.ne_zero (hint (y g d i)) hmp.symm
          have hle := natDegree_le_of_dvd hdv hq0
          rw [natDegree_mul (fun h => hI.ne (wordPoly_eq_zero hI.lt h)) (fun h => hm0 (wordPoly_eq_zero hm64 h)),
            wordPoly_natDegree (deg_log2 hI.ne) (by have := (Nat.log2_lt hI.ne).2 hI.lt; omega),
            wordPoly_natDegree (deg_log2 hm0) (by have := (Nat.log2_lt hm0).2 hm64; omega),
            ← degree_eq hI.lt, ← degree_eq hm64] at hle
          omega
        · rw [if_neg hov] at he
          exact ih _ _ _ (by omega) (hI.step_new hg hd h2 ho hf hodd (by omega) hs (by omega)) he
    · rw [bchLoop, if_neg hin] at he; cases he

/-! ### The field and the codes of the library -/

theorem deg13 : Deg 0x201b 13 := ⟨by decide, by decide⟩

theorem ord13 : Ord 0x201b 13 := by
  refine ⟨Gf13.α_order, fun k h0 hk h => ?_⟩
  have := Gf13.α_inj (show k < 8191 from hk) (show 0 < 8191 by decide) (by rw [pow_zero]; exact h)
  omega

theorem exp13 : ∀ i, i ≤ 8191 → pw 0x201b 13 i = Gf13.exp i := by
  intro i hi
  obtain ⟨h1, h2⟩ := Gf13.exp_el i hi
  refine el_inj deg13 (by decide) (pw_lt deg13 (by decide) (by decide) i) h2 ?_
  rw [pw_el deg13 (by decide) (by decide)]
  exact h1.symm

theorem log13 {f : Gf} (hf : f.Ok 0x201b 13) {a : Nat} (h0 : a ≠ 0) (ha : a < 8192) : f.log a = Gf13.log a := by
  obtain ⟨h1, h2, h3⟩ := hf.log a h0 ha
  obtain ⟨h4, h5, h6⟩ := Gf13.log_spec h0 ha
  have h2 : f.log a ≤ 8191 := h2
  rw [hf.exp _ (show f.log a < 8192 by omega), exp13 _ h2] at h3
  exact Gf13.exp_inj h1 h2 h6 h5 (h3.trans h4.symm)

/-- The exponents of the roots of the generator for `t` bits. -/
def rootExps (t : Nat) : List Nat := (List.range t).flatMap fun a => (List.range 13).map fun b => (2 * a + 1) * 2 ^ b % 8191

theorem rootExps_chk : (List.range 5).all (fun t => decide (rootExps t).Nodup && (rootExps t).length == 13 * t) = true := by decide +kernel

theorem root_conj {q : (ZMod 2)[X]} {i : Nat} (h : aeval (α g ^ i) q = 0) : ∀ b, aeval (α g ^ (i * 2 ^ b)) q = 0 := by
  intro b
  induction b with
  | zero => simpa using h
  | succ b ih =>
    rw [show i * 2 ^ (b + 1) = i * 2 ^ b * 2 by ring, pow_mul]
    exact sq_root q ih

theorem roots_degree {t : Nat} (ht : t ≤ 4) {q : (ZMod 2)[X]} (hq0 : q ≠ 0) (h : ∀ j, 1 ≤ j → j ≤ 2 * t → aeval (α 0x201b ^ j) q = 0) :
    13 * t ≤ q.natDegree := by
  letI : Fact (Irreducible (wordPoly 0x201b)) := ⟨Gf13.P_irreducible⟩
  have hc := List.all_eq_true.1 rootExps_chk t (List.mem_range.2 (by omega))
  simp only [Bool.and_eq_true, decide_eq_true_eq, beq_iff_eq] at hc
  let F := AdjoinRoot (wordPoly 0x201b)
  have hinj : ∀ a ∈ rootExps t, ∀ b ∈ rootExps t, α 0x201b ^ a = α 0x201b ^ b → a = b := by
    have hlt : ∀ a ∈ rootExps t, a < 8191 := by
      intro a ha
      unfold rootExps at ha
      simp only [List.mem_flatMap, List.mem_map] at ha
      obtain ⟨_, _, _, _, rfl⟩ := ha
      exact Nat.mod_lt _ (by decide)
    intro a ha b hb he
    exact Gf13.α_inj (hlt a ha) (hlt b hb) he
  have hroot : ∀ a ∈ rootExps t, aeval (α 0x201b ^ a) q = 0 := by
    intro a ha
    unfold rootExps at ha
    simp only [List.mem_flatMap, List.mem_map, List.mem_range] at ha
    obtain ⟨u, hu, b, hb, rfl⟩ := ha
    have := root_conj (h (2 * u + 1) (by omega) (by omega)) b
    have he : α 0x201b ^ ((2 * u + 1) * 2 ^ b % 8191) = α 0x201b ^ ((2 * u + 1) * 2 ^ b) := Gf13.α_pow_mod _
    rw [he]; exact this
  let Z : Finset F := ((rootExps t).map (fun a => α 0x201b ^ a)).toFinset
  have hZ : Z.card = 13 * t := by
    show (List.toFinset _).card = _
    rw [List.toFinset_card_of_nodup, List.length_map, hc.2]
    exact List.Nodup.map_on (fun a ha b hb he => hinj a ha b hb he) hc.1
  have hmap : q.map (algebraMap (ZMod 2) F) ≠ 0 := (Polynomial.map_ne_zero_iff (algebraMap (ZMod 2) F).injective).2 hq0
  have hsub : Z.val ⊆ (q.map (algebraMap (ZMod 2) F)).roots := by
    intro z hz
    rw [mem_roots hmap, IsRoot.def, eval_map_algebraMap]
    have hz : z ∈ Z := hz
    simp only [Z, List.mem_toFinset, List.mem_map] at hz
    obtain ⟨a, ha, rfl⟩ := hz
    exact hroot a ha
  have := card_le_degree_of_subset_roots hsub
  rw [hZ, natDegree_map] at this
  exact this

theorem generator_deg {c : Bch.Def} (hc : c ∈ Bch.codes) : Deg c.generator c.degree ∧ c.degree = 13 * (c.syns / 2) ∧ c.syns = 2 * (c.syns / 2) ∧ c.syns / 2 ≤ 4 ∧ 1 ≤ c.syns / 2 := by
  unfold Bch.codes at hc
  simp only [List.mem_cons, List.not_mem_nil, or_false] at hc
  rcases hc with rfl | rfl | rfl | rfl <;> refine ⟨⟨by decide, by decide⟩, by decide, by decide, by decide, by decide⟩

/-- The generators in ecc/bch.c are the ones the program prints in brackets. -/
theorem bch_constants {f : Gf} (hf : f.Ok 0x201b 13) {c : Bch.Def} (hc : c ∈ Bch.codes) :
    ∃ R, bchGenerator f c.syns = some R ∧ reciprocal R = c.generator := by
  obtain ⟨hcd, hdeg, hsyn, h4, h1'⟩ := generator_deg hc
  have hM : M 13 = 8191 := by decide
  obtain ⟨R, hR⟩ := bchGenerator_some deg13 (by decide) (by decide) ord13 hf (n := c.syns) (by omega) (by omega)
  refine ⟨R, hR, ?_⟩
  obtain ⟨hn, hR0, hR64, _⟩ := bchGenerator_spec deg13 (by decide) (by decide) ord13 hf hR
  have hdvd := bchGenerator_recip deg13 (by decide) (by decide) ord13 hf hR
  have hdR := deg_log2 hR0
  have hl : R.log2 ≤ 63 := by
    have := (Nat.log2_lt hR0).2 hR64; omega
  have hrl : reciprocal R < 2 ^ 64 := Nat.lt_of_lt_of_le (reciprocal_lt hdR hl) (Nat.pow_le_pow_right (by decide) (by omega))
  have hr0 : wordPoly (reciprocal R) ≠ 0 := by
    rw [reciprocal_reverse hdR hl]
    intro h
    exact hR0 (wordPoly_eq_zero hR64 (reverse_eq_zero.1 h))
  have hself := (hdvd _).1 dvd_rfl
  have hge := roots_degree h4 hr0 (fun j h1 hj => hself j h1 (by omega))
  have hdv : wordPoly (reciprocal R) ∣ wordPoly c.generator := by
    rw [hdvd]
    intro j h1 hj
    have := Bch.gen_root hc (i := j - 1) (by omega)
    rw [show j - 1 + 1 = j by omega] at this
    exact this
  have hgl : c.generator < 2 ^ 64 := hcd.lt64 (by omega)
  have hnd := wordPoly_natDegree hcd (by omega)
  have hmon : ∀ q : (ZMod 2)[X], q ≠ 0 → q.Monic := fun q hq => by
    have h := leadingCoeff_ne_zero.2 hq
    unfold Monic
    generalize q.leadingCoeff = z at h
    revert z; decide
  have hc0 : wordPoly c.generator ≠ 0 := by
    intro h; rw [h, natDegree_zero] at hnd; omega
  apply wordPoly_inj hrl hgl
  symm
  exact eq_of_monic_of_dvd_of_natDegree_le (hmon _ hr0) (hmon _ hc0) hdv (by rw [hnd, hdeg]; exact hge)

end Dhara.Gftool

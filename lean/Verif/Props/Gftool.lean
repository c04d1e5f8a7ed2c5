/-
Properties C54 to C57: tools/gftool.c, the program that made the tables of ecc/gf13.c and the generators of ecc/bch.c.

`wordPoly a` is the polynomial over GF(2) whose coefficient at x^i is bit i of `a` (Verif/Ecc/Spec.lean).
-/
import Verif.Ecc.BchGen2
import Verif.Ecc.Primitive16
namespace Dhara.Gftool
open Polynomial Dhara

/-! ### Vocabulary -/

/-- `p` is a primitive polynomial of degree `d`: the least positive k for which p divides x^k - 1 is 2^d - 1. -/
def Primitive (p : (ZMod 2)[X]) (d : Nat) : Prop :=
  p.natDegree = d ∧ p ∣ X ^ (2 ^ d - 1) - 1 ∧ ∀ k, 0 < k → k < 2 ^ d - 1 → ¬ p ∣ X ^ k - 1

/-- `q` vanishes at the `i`-th power of x modulo `p`: `p` divides `q(x^i)`. -/
def Root (p : (ZMod 2)[X]) (i : Nat) (q : (ZMod 2)[X]) : Prop := p ∣ q.comp (X ^ i)

/-- The character code of a hexadecimal digit. -/
def hexChar (v : Nat) (upper : Bool) : Nat := if v < 10 then 48 + v else if upper then 55 + v else 87 + v

/-! ### Connecting the vocabulary with the proofs -/

theorem primitive_iff {g d : Nat} (hg : g < 2 ^ 64) (h1 : 1 ≤ d) : Primitive (wordPoly g) d ↔ Deg g d ∧ Ord g d := by
  constructor
  · rintro ⟨hn, hd, hno⟩
    have h0 : g ≠ 0 := by rintro rfl; rw [wordPoly_zero, natDegree_zero] at hn; omega
    have hl : g.log2 ≤ 63 := by have := (Nat.log2_lt h0).2 hg; omega
    rw [wordPoly_natDegree (deg_log2 h0) hl] at hn
    subst hn
    exact ⟨deg_log2 h0, (dvd_pow_iff _).1 hd, fun k hk hk' h => hno k hk hk' ((dvd_pow_iff _).2 h)⟩
  · rintro ⟨hD, hO⟩
    have hd : d ≤ 63 := by
      have h0 : g ≠ 0 := fun h => by have := hD.ge; have := Nat.two_pow_pos d; omega
      have := (Nat.log2_lt h0).2 hg; rw [hD.eq] at this; omega
    exact ⟨wordPoly_natDegree hD hd, (dvd_pow_iff _).2 hO.one, fun k hk hk' h => hO.no k hk hk' ((dvd_pow_iff _).1 h)⟩

theorem root_iff (g i : Nat) (q : (ZMod 2)[X]) : Root (wordPoly g) i q ↔ aeval (α g ^ i) q = 0 := by
  unfold Root
  rw [← AdjoinRoot.mk_eq_zero, ← AdjoinRoot.aeval_eq, aeval_comp, map_pow, aeval_X]
  rfl

/-! ### C54: searching for primitive polynomials -/

/-- C54: the search for degree 2 to 30 ends (each test returns within 2^d rounds of its loop). -/
theorem gftool_search_ends {d : Nat} (h2 : 2 ≤ d) (hd : d ≤ 30) {k : Nat} (hk : 2 ^ d ≤ k) (p : Nat) (hp : 2 ^ d ≤ p) (hp' : p < 2 ^ (d + 1)) :
    ∃ b, isPrimitive k p = some b :=
  (isPrimitive_iff (deg_iff.2 ⟨hp, hp'⟩) (by omega) h2 hk).1

/-- C54: it prints exactly the primitive polynomials of the degree, each once, in increasing order. -/
theorem gftool_search {d : Nat} (h2 : 2 ≤ d) (hd : d ≤ 30) {k : Nat} (hk : 2 ^ d ≤ k) :
    (∀ p, p < 2 ^ 64 → (p ∈ polySearch k d ↔ Primitive (wordPoly p) d)) ∧ (polySearch k d).Pairwise (· < ·) := by
  constructor
  · intro p hp
    unfold polySearch
    rw [List.mem_filter, List.mem_map, primitive_iff hp (by omega)]
    have h2d : 2 ^ (d + 1) = 2 ^ d + 2 ^ d := by rw [pow_succ]; omega
    constructor
    · rintro ⟨⟨i, hi, rfl⟩, h⟩
      have hD : Deg (2 ^ d + i) d := deg_iff.2 ⟨by omega, by have := List.mem_range.1 hi; omega⟩
      exact ⟨hD, ((isPrimitive_iff hD (by omega) h2 hk).2).1 (by simpa using h)⟩
    · rintro ⟨hD, hO⟩
      have := deg_iff.1 hD
      refine ⟨⟨p - 2 ^ d, List.mem_range.2 (by omega), by omega⟩, ?_⟩
      rw [((isPrimitive_iff hD (by omega) h2 hk).2).2 hO]; rfl
  · unfold polySearch
    apply List.Pairwise.filter
    rw [List.pairwise_map]
    exact List.pairwise_lt_range.imp (by intro a b h; omega)

/-- C54: what it prints is irreducible. -/
theorem gftool_search_irreducible {d : Nat} (h2 : 2 ≤ d) (hd : d ≤ 30) {k : Nat} (hk : 2 ^ d ≤ k) {p : Nat} (hp : p ∈ polySearch k d) :
    Irreducible (wordPoly p) := by
  have h2d : 2 ^ (d + 1) = 2 ^ d + 2 ^ d := by rw [pow_succ]; omega
  have hp64 : p < 2 ^ 64 := by
    unfold polySearch at hp
    obtain ⟨⟨i, hi, rfl⟩, _⟩ := (List.mem_filter.1 hp).imp_left List.mem_map.1
    have := List.mem_range.1 hi
    have : 2 ^ (d + 1) ≤ 2 ^ 64 := Nat.pow_le_pow_right (by decide) (by omega)
    omega
  obtain ⟨hD, hO⟩ := (primitive_iff hp64 (by omega)).1 (((gftool_search h2 hd hk).1 p hp64).1 hp)
  exact hO.irreducible hD (by omega) (by omega)

/-- Degree 4: the two primitive polynomials, and not the irreducible but imprimitive x^4 + x^3 + x^2 + x + 1. -/
example : polySearch 16 4 = [0x13, 0x19] := by decide +kernel
example : Primitive (wordPoly 0x13) 4 ∧ ¬ Primitive (wordPoly 0x1f) 4 :=
  ⟨((gftool_search (d := 4) (by decide) (by decide) (k := 16) (by decide)).1 0x13 (by decide)).1 (by decide +kernel),
   fun h => absurd (((gftool_search (d := 4) (by decide) (by decide) (k := 16) (by decide)).1 0x1f (by decide)).2 h) (by decide +kernel)⟩

/-- C54, why degree 1 is left out: the search prints x, which is not primitive, beside x + 1. -/
theorem gftool_search_one {k : Nat} (hk : 2 ≤ k) : polySearch k 1 = [2, 3] ∧ ¬ Primitive (wordPoly 2) 1 := by
  constructor
  · obtain ⟨k, rfl⟩ : ∃ j, k = j + 2 := ⟨k - 2, by omega⟩
    have e1 : isPrimitive (k + 2) 2 = some true := rfl
    have e2 : isPrimitive (k + 2) 3 = some true := rfl
    have er : (List.range (2 ^ 1)).map (fun i => 2 ^ 1 + i) = [2, 3] := by decide
    unfold polySearch
    rw [er]
    simp [List.filter, e1, e2]
  · rintro ⟨_, h, _⟩
    have he : wordPoly 2 = X := by
      have := Gf13.wordPoly_pow (n := 1) (by decide)
      rw [pow_one, pow_one] at this; exact this
    rw [he, X_dvd_iff] at h
    simp at h

theorem cycle_zero : ∀ k r i, r % 4 = 3 ∨ r = 1 → cycle 1 0 1 k r i = none := by
  intro k
  induction k with
  | zero => intro r i _; rfl
  | succ k ih =>
    intro r i hr
    have hm : mulx 1 0 r % 4 = 3 := by
      unfold mulx
      simp only [Nat.shiftRight_zero, Nat.shiftLeft_eq]
      have h2 : r * 2 ^ 1 % 2 ^ 64 % 4 = 2 := by omega
      rw [if_pos (by omega)]
      have := Nat.xor_mod_two_pow (a := r * 2 ^ 1 % 2 ^ 64) (b := 1) (n := 2)
      rw [show (2 : Nat) ^ 2 = 4 from rfl, h2] at this
      exact this
    rw [cycle, if_pos (by intro h; rw [h] at hm; omega)]
    exact ih _ _ (Or.inl hm)

/-- C54, why degree 0 is left out: the search for degree 0 never ends. -/
theorem gftool_search_zero (k : Nat) : isPrimitive k 1 = none := by
  have : isPrimitive k 1 = match cycle 1 0 1 k 1 0 with | none => none | some i => some (i == 0) := rfl
  rw [this, cycle_zero k 1 0 (Or.inr rfl)]

/-! ### C55: the tables -/

/-- C55: for every primitive generator up to degree 16: entry i of the exponential table is x^i reduced modulo the generator, and
the logarithm table inverts it. Entry 0 of the logarithm table is whatever the memory contained. -/
theorem gftool_tables {g d : Nat} (hg : g < 2 ^ 64) (h1 : 1 ≤ d) (hd : d ≤ 16) (hp : Primitive (wordPoly g) d) (junk : Nat → Nat) :
    ∃ f, gfInit g junk = some f ∧
      (∀ i, i < 2 ^ d → f.exp i < 2 ^ d ∧ wordPoly g ∣ wordPoly (f.exp i) - X ^ i) ∧
      (∀ a, a ≠ 0 → a < 2 ^ d → 1 ≤ f.log a ∧ f.log a ≤ 2 ^ d - 1 ∧ f.exp (f.log a) = a) ∧ f.log 0 = junk 0 := by
  obtain ⟨hD, hO⟩ := (primitive_iff hg h1).1 hp
  obtain ⟨f, he, hf⟩ := gfInit_ok hD hd h1 hO junk
  refine ⟨f, he, fun i hi => ?_, hf.log, ?_⟩
  · rw [hf.exp i hi]
    refine ⟨pw_lt hD (by omega) h1 i, ?_⟩
    have := pw_el hD (by omega) h1 i
    rw [← AdjoinRoot.mk_eq_zero, map_sub, map_pow, AdjoinRoot.mk_X, sub_eq_zero]
    exact this
  · have hdeg : Gftool.degree g = d := by rw [degree_eq hg, hD.eq]
    unfold gfInit at he
    simp only [hdeg] at he
    rw [if_neg (by omega)] at he
    cases he
    show (fillLoop g d (2 ^ d) 0 (pw g d 0) junk junk).2 0 = junk 0
    apply fillLoop_log_none
    intro j _ _ hz
    have h3 := pw_el hD (by omega) h1 j
    rw [hz, el_zero] at h3
    have hu := (hO.unit h1).pow j
    rw [← h3] at hu
    have : (1 : AdjoinRoot (wordPoly g)) = 0 := by
      obtain ⟨u, hu⟩ := hu
      have := u.mul_inv
      rw [hu, zero_mul] at this; exact this.symm
    exact nontriv hD (by omega) h1 (by rw [el_one, el_zero, this])

/-- C55: a generator of a degree above 16 is refused. -/
theorem gftool_tables_refused {g : Nat} (hg : g < 2 ^ 64) (h : 16 < (wordPoly g).natDegree) (junk : Nat → Nat) : gfInit g junk = none := by
  have h0 : g ≠ 0 := by rintro rfl; rw [wordPoly_zero, natDegree_zero] at h; omega
  rw [wordPoly_natDegree (deg_log2 h0) (by have := (Nat.log2_lt h0).2 hg; omega), ← degree_eq hg] at h
  unfold gfInit
  simp only [if_pos h]

/-- C55: filling the tables stays inside them, for every generator of positive degree, primitive or not. -/
theorem gftool_tables_bounds {g d : Nat} (hg : g < 2 ^ 64) (h1 : 1 ≤ d) (hd : d ≤ 16) (hn : (wordPoly g).natDegree = d) (i : Nat) :
    mulxTimes g (degree g) i 1 < 2 ^ d := by
  have h0 : g ≠ 0 := by rintro rfl; rw [wordPoly_zero, natDegree_zero] at hn; omega
  rw [wordPoly_natDegree (deg_log2 h0) (by have := (Nat.log2_lt h0).2 hg; omega)] at hn
  have hD : Deg g d := hn ▸ deg_log2 h0
  rw [degree_eq hg, hn]
  have := mulxTimes_pw (g := g) (d := d) i 0
  rw [Nat.zero_add] at this
  rw [show (1 : Nat) = pw g d 0 from rfl, this]
  exact pw_lt hD (by omega) h1 i

/-- C55, why positive: with the generator 1 (or 0) the tables have one entry each, and entry 1 of the logarithms is written. -/
theorem gftool_tables_overrun : 2 ^ degree 1 = 1 ∧ mulxTimes 1 (degree 1) 0 1 = 1 ∧ 2 ^ degree 0 = 1 ∧ mulxTimes 0 (degree 0) 0 1 = 1 := by
  decide +kernel

/-- C55: the tables in ecc/gf13.c are those the program prints for the generator 0x201b. -/
theorem gftool_gf13 (junk : Nat → Nat) : ∃ f, gfInit 0x201b junk = some f ∧ (∀ i, i < 8192 → f.exp i = Gf13.exp i) ∧
    (∀ a, a ≠ 0 → a < 8192 → f.log a = Gf13.log a) := by
  obtain ⟨f, he, hf⟩ := gfInit_ok deg13 (by decide) (by decide) ord13 junk
  exact ⟨f, he, fun i hi => by rw [hf.exp i hi, exp13 i (by omega)], fun a h0 ha => log13 hf h0 ha⟩

/-- The generator of the library is primitive. -/
theorem primitive13 : Primitive (wordPoly 0x201b) 13 := (primitive_iff (by decide) (by decide)).2 ⟨deg13, ord13⟩

/-- Degree 4: all 16 entries. -/
example : ((gfInit 0x13 fun _ => 7).map fun f => ((List.range 16).map f.exp, (List.range 16).map f.log)) =
    some ([1, 2, 4, 8, 3, 6, 12, 11, 5, 10, 7, 14, 15, 13, 9, 1], [7, 15, 1, 4, 2, 8, 5, 10, 3, 14, 9, 7, 6, 13, 11, 12]) := by decide +kernel

/-! ### C56: BCH generators -/

section
variable {g d : Nat} (hg : g < 2 ^ 64) (h2 : 2 ≤ d) (hd : d ≤ 15) (hp : Primitive (wordPoly g) d) {junk : Nat → Nat} {f : Gf}
  (hf : gfInit g junk = some f) {n : Nat}
include hg h2 hd hp hf

theorem ok_of_init : Deg g d ∧ Ord g d ∧ f.Ok g d := by
  obtain ⟨hD, hO⟩ := (primitive_iff hg (by omega)).1 hp
  obtain ⟨f', he, hok⟩ := gfInit_ok hD (by omega) (by omega) hO junk
  rw [hf] at he
  cases he
  exact ⟨hD, hO, hok⟩

/-- C56: the polynomial R computed, and the one in brackets beside it (its coefficients in the opposite order): the latter divides
exactly the polynomials that vanish at x, x^2, ..., x^n. -/
theorem gftool_bch {R : Nat} (he : bchGenerator f n = some R) : R < 2 ^ 64 ∧ wordPoly (reciprocal R) = (wordPoly R).reverse ∧
    (wordPoly (reciprocal R)).Monic ∧
    ∀ q : (ZMod 2)[X], wordPoly (reciprocal R) ∣ q ↔ ∀ i, 1 ≤ i → i ≤ n → Root (wordPoly g) i q := by
  obtain ⟨hD, hO, hok⟩ := ok_of_init hg h2 hd hp hf
  obtain ⟨_, hR0, hR, _⟩ := bchGenerator_spec hD hd h2 hO hok he
  have hrev := reciprocal_reverse (deg_log2 hR0) (by have := (Nat.log2_lt hR0).2 hR; omega)
  refine ⟨hR, hrev, ?_, fun q => ?_⟩
  · have hq : wordPoly (reciprocal R) ≠ 0 := by
      rw [hrev]; intro h
      exact hR0 (wordPoly_eq_zero hR (reverse_eq_zero.1 h))
    have h := leadingCoeff_ne_zero.2 hq
    unfold Monic
    generalize (wordPoly (reciprocal R)).leadingCoeff = z at h
    revert z; decide
  · rw [bchGenerator_recip hD hd h2 hO hok he]
    simp only [root_iff]

/-- C56: an error is reported only if the number of roots is out of bounds, or the generator does not fit: every polynomial that
vanishes at x, ..., x^n has a degree above 63. -/
theorem gftool_bch_error (he : bchGenerator f n = none) : 2 ^ d - 1 ≤ n ∨
    ∀ q : (ZMod 2)[X], q ≠ 0 → (∀ i, 1 ≤ i → i ≤ n → Root (wordPoly g) i q) → 63 < q.natDegree := by
  obtain ⟨hD, hO, hok⟩ := ok_of_init hg h2 hd hp hf
  unfold bchGenerator at he
  rw [hok.order] at he
  by_cases hn : n ≥ M d
  · exact Or.inl hn
  · rw [if_neg hn] at he
    refine Or.inr fun q hq0 hq => ?_
    have hM := M_succ (d := d)
    refine Nat.lt_of_lt_of_le ?_ (reverse_natDegree_le q)
    refine bchLoop_none hD hd h2 hO hok (n := n) (by omega) (q := q.reverse) (fun h => hq0 (reverse_eq_zero.1 h)) ?_ _ _ _ _ rfl BInv.start he
    intro j h1 hj
    rw [rev_root hO (by omega)]
    have := (root_iff g j q).1 (hq j h1 hj)
    rw [reverse_reverse_mul q, map_mul] at this
    have hu : IsUnit (aeval (α g ^ j) ((X : (ZMod 2)[X]) ^ q.natTrailingDegree)) := by
      rw [map_pow, aeval_X]
      exact ((hO.unit (by omega)).pow _).pow _
    exact (hu.mul_left_eq_zero).1 this

/-- C56: a number of roots out of bounds is refused. -/
theorem gftool_bch_refused (hn : 2 ^ d - 1 ≤ n) : bchGenerator f n = none := by
  obtain ⟨hD, hO, hok⟩ := ok_of_init hg h2 hd hp hf
  unfold bchGenerator
  rw [hok.order, if_pos hn]

/-- C56: with half as many roots (rounded up) times the degree at most 63 there is no error. -/
theorem gftool_bch_fits (hn : n < 2 ^ d - 1) (ht : (n + 1) / 2 * d ≤ 63) : ∃ R, bchGenerator f n = some R := by
  obtain ⟨hD, hO, hok⟩ := ok_of_init hg h2 hd hp hf
  exact bchGenerator_some hD hd h2 hO hok hn ht

end

/-- C56: the generators in ecc/bch.c are the polynomials printed in brackets for the generator 0x201b and 2, 4, 6 and 8 roots. -/
theorem gftool_bch_constants {junk : Nat → Nat} {f : Gf} (hf : gfInit 0x201b junk = some f) :
    (bchGenerator f 2).map reciprocal = some 0x201b ∧ (bchGenerator f 4).map reciprocal = some 0x4d5154b ∧
    (bchGenerator f 6).map reciprocal = some 0xbaf5b2bded ∧ (bchGenerator f 8).map reciprocal = some 0x14523043ab86ab := by
  obtain ⟨_, _, hok⟩ := ok_of_init (by decide) (by decide) (by decide) primitive13 hf
  refine ⟨?_, ?_, ?_, ?_⟩
  · obtain ⟨R, h1, h2⟩ := bch_constants hok (c := Bch.bch1) (by simp [Bch.codes]); change bchGenerator f 2 = _ at h1; rw [h1]; exact congrArg some h2
  · obtain ⟨R, h1, h2⟩ := bch_constants hok (c := Bch.bch2) (by simp [Bch.codes]); change bchGenerator f 4 = _ at h1; rw [h1]; exact congrArg some h2
  · obtain ⟨R, h1, h2⟩ := bch_constants hok (c := Bch.bch3) (by simp [Bch.codes]); change bchGenerator f 6 = _ at h1; rw [h1]; exact congrArg some h2
  · obtain ⟨R, h1, h2⟩ := bch_constants hok (c := Bch.bch4) (by simp [Bch.codes]); change bchGenerator f 8 = _ at h1; rw [h1]; exact congrArg some h2

/-- Eight roots of the field of the library fit. -/
example {f : Gf} (hf : gfInit 0x201b (fun _ => 0) = some f) : ∃ R, bchGenerator f 8 = some R :=
  gftool_bch_fits (by decide) (by decide) (by decide) primitive13 hf (by decide) (by decide)

/-- Degree 4, two and four roots: the double-error-correcting (15, 7) code has the generator x^8 + x^7 + x^6 + x^4 + 1. -/
example : ((gfInit 0x13 fun _ => 0).map fun f => ((bchGenerator f 2).map reciprocal, (bchGenerator f 4).map reciprocal, bchGenerator f 15)) =
    some (some 0x13, some 0x1d1, none) := by decide +kernel

/-- C56, why at most 15: with a primitive generator of degree 16 the result for one or two roots is not the BCH generator (minimal
polynomials are cut to 16 bits). -/
theorem gftool_bch_sixteen {g : Nat} (hg : g < 2 ^ 64) (hp : Primitive (wordPoly g) 16) {junk : Nat → Nat} {f : Gf}
    (hf : gfInit g junk = some f) {n : Nat} (h1 : 1 ≤ n) (h2 : n ≤ 2) : ∃ R, bchGenerator f n = some R ∧
    ¬ ∀ q : (ZMod 2)[X], wordPoly (reciprocal R) ∣ q ↔ ∀ i, 1 ≤ i → i ≤ n → Root (wordPoly g) i q := by
  obtain ⟨hD, hO⟩ := (primitive_iff hg (by omega)).1 hp
  obtain ⟨f', he, hok⟩ := gfInit_ok hD (by omega) (by omega) hO junk
  rw [hf] at he
  cases he
  have hm : minimal f (f.exp 1) < 2 ^ 16 := Nat.mod_lt _ (by decide)
  have hm64 : minimal f (f.exp 1) < 2 ^ 64 := Nat.lt_of_lt_of_le hm (by decide)
  have hdm : degree (minimal f (f.exp 1)) ≤ 15 := by
    rw [degree_eq hm64]
    by_cases h0 : minimal f (f.exp 1) = 0
    · rw [h0]; decide
    · have := (Nat.log2_lt h0).2 hm; omega
  have hd1 : degree 1 = 0 := by decide
  have hgen : bchGenerator f n = some (mulPoly 1 (minimal f (f.exp 1))) := by
    unfold bchGenerator
    rw [hok.order, if_neg (by show ¬ n ≥ 2 ^ 16 - 1; omega), bchLoop, if_pos h1]
    have hb : bitTest (fun _ => 0) (minimal f (f.exp 1)) = false := by rw [bitTest_eq]; simp
    simp only [hb]
    rw [if_pos (by simp), if_neg (by omega)]
    obtain ⟨m, rfl⟩ : ∃ m, n = m + 1 := ⟨n - 1, by omega⟩
    rw [bchLoop, if_neg (by omega)]
  refine ⟨_, hgen, fun h => ?_⟩
  have hmul : mulPoly 1 (minimal f (f.exp 1)) = minimal f (f.exp 1) := by
    have h3 := mulPoly_poly (a := 1) (by decide) hm64 (by omega)
    rw [wordPoly_one, one_mul] at h3
    exact wordPoly_inj (mulPolyLoop_lt _ _ _ _ hm64 (by decide)) hm64 h3
  rw [hmul] at h
  have hirr := hO.irreducible hD (by omega) (by omega)
  have hn16 := wordPoly_natDegree hD (by decide)
  by_cases h0 : minimal f (f.exp 1) = 0
  · rw [h0, show reciprocal 0 = 0 from rfl, wordPoly_zero] at h
    have := (h (wordPoly g)).2 (fun i hi hi' => by
      rw [root_iff]
      have : i = 1 ∨ i = 2 := by omega
      have hr : aeval (α g ^ 1) (wordPoly g) = 0 := by
        rw [pow_one]; unfold α; rw [AdjoinRoot.aeval_eq]; exact AdjoinRoot.mk_self
      rcases this with rfl | rfl
      · exact hr
      · rw [pow_one] at hr; exact sq_root _ hr)
    exact hirr.ne_zero (zero_dvd_iff.1 this)
  · have hdl := deg_log2 h0
    have hl : (minimal f (f.exp 1)).log2 ≤ 15 := by rw [← degree_eq hm64]; exact hdm
    have hr := (h _).1 dvd_rfl 1 (by omega) h1
    unfold Root at hr
    rw [pow_one, comp_X, reciprocal_reverse hdl (by omega)] at hr
    have hne : (wordPoly (minimal f (f.exp 1))).reverse ≠ 0 := fun h => h0 (wordPoly_eq_zero hm64 (reverse_eq_zero.1 h))
    have := natDegree_le_of_dvd hr hne
    have := reverse_natDegree_le (wordPoly (minimal f (f.exp 1)))
    rw [wordPoly_natDegree hdl (by omega)] at this
    omega

/-- There is such a generator: x^16 + x^12 + x^3 + x + 1. -/
theorem primitive16 : Primitive (wordPoly 0x1100b) 16 := (primitive_iff (by decide) (by decide)).2 ⟨deg16, ord16⟩
example : ∃ f, gfInit 0x1100b (fun _ => 0) = some f :=
  let ⟨f, h, _⟩ := gftool_tables (by decide) (by decide) (by decide) primitive16 (fun _ => 0); ⟨f, h⟩

/-! ### C57: reading a generator -/

theorem digit_hex {v : Nat} (hv : v < 16) (u : Bool) : digit (hexChar v u) = some v := by
  revert u v; decide

theorem parseDigits_hex : ∀ (ds : List (Nat × Bool)) (r : Nat), (∀ x ∈ ds, x.1 < 16) → r < 2 ^ 64 →
    parseDigits (ds.map fun x => hexChar x.1 x.2) r = some (ds.foldl (fun r x => 16 * r + x.1) r % 2 ^ 64) := by
  intro ds
  induction ds with
  | nil => intro r _ hr; rw [List.map_nil, parseDigits, List.foldl_nil, Nat.mod_eq_of_lt hr]
  | cons x ds ih =>
    intro r hd hr
    have hx := hd x (List.mem_cons_self ..)
    have hfold : ∀ (l : List (Nat × Bool)) a b, a % 2 ^ 64 = b % 2 ^ 64 →
        l.foldl (fun r x => 16 * r + x.1) a % 2 ^ 64 = l.foldl (fun r x => 16 * r + x.1) b % 2 ^ 64 := by
      intro l
      induction l with
      | nil => intro a b h; exact h
      | cons y l ih => intro a b h; exact ih _ _ (show (16 * a + y.1) % 2 ^ 64 = (16 * b + y.1) % 2 ^ 64 by omega)
    have hs : (r <<< 4) % 2 ^ 64 ||| x.1 = (r <<< 4) % 2 ^ 64 + x.1 := by
      rw [Nat.shiftLeft_eq, show r * 2 ^ 4 % 2 ^ 64 = 2 ^ 4 * (r % 2 ^ 60) by omega]
      exact (Nat.two_pow_add_eq_or_of_lt (i := 4) hx _).symm
    rw [List.map_cons, parseDigits, digit_hex hx]
    simp only [hs]
    rw [ih _ (fun y hy => hd y (List.mem_cons_of_mem _ hy)) (by rw [Nat.shiftLeft_eq]; omega), List.foldl_cons]
    congr 1
    apply hfold
    rw [Nat.shiftLeft_eq]; omega

theorem drop_hex : ∀ (ds : List (Nat × Bool)), (∀ x ∈ ds, x.1 < 16) → ∃ es : List (Nat × Bool), (∀ x ∈ es, x.1 < 16) ∧
    (ds.map fun x => hexChar x.1 x.2).dropWhile (fun c => c == 48 || c == 120) = es.map (fun x => hexChar x.1 x.2) ∧
    es.foldl (fun r x => 16 * r + x.1) 0 = ds.foldl (fun r x => 16 * r + x.1) 0 := by
  intro ds
  induction ds with
  | nil => intro _; exact ⟨[], by simp, rfl, rfl⟩
  | cons x ds ih =>
    intro hd
    have hx := hd x (List.mem_cons_self ..)
    by_cases h0 : x.1 = 0
    · obtain ⟨es, h1, h2, h3⟩ := ih (fun y hy => hd y (List.mem_cons_of_mem _ hy))
      refine ⟨es, h1, ?_, ?_⟩
      · rw [List.map_cons, List.dropWhile_cons, if_pos (by rw [h0]; rfl), h2]
      · rw [List.foldl_cons, h0, h3]
    · refine ⟨x :: ds, hd, ?_, rfl⟩
      have : ∀ v, v < 16 → v ≠ 0 → ∀ u, (hexChar v u == 48 || hexChar v u == 120) = false := by decide
      rw [List.map_cons, List.dropWhile_cons, if_neg (by rw [this _ hx h0 _]; decide)]

/-- C57: a hexadecimal number, in digits of either case, with or without `0x` before it, is read as its value modulo 2^64. -/
theorem gftool_parse (ds : List (Nat × Bool)) (hd : ∀ x ∈ ds, x.1 < 16) :
    parsePoly (ds.map fun x => hexChar x.1 x.2) = some (ds.foldl (fun r x => 16 * r + x.1) 0 % 2 ^ 64) ∧
    parsePoly (48 :: 120 :: ds.map fun x => hexChar x.1 x.2) = some (ds.foldl (fun r x => 16 * r + x.1) 0 % 2 ^ 64) := by
  obtain ⟨es, h1, h2, h3⟩ := drop_hex ds hd
  have hbase : parsePoly (ds.map fun x => hexChar x.1 x.2) = some (ds.foldl (fun r x => 16 * r + x.1) 0 % 2 ^ 64) := by
    unfold parsePoly
    rw [h2, parseDigits_hex es 0 h1 (by decide), h3]
  refine ⟨hbase, ?_⟩
  have : parsePoly (48 :: 120 :: ds.map fun x => hexChar x.1 x.2) = parsePoly (ds.map fun x => hexChar x.1 x.2) := rfl
  rw [this, hbase]

/-- C57: a text with a character that is neither a hexadecimal digit nor `x` is refused. -/
theorem gftool_parse_refused (text : List Nat) {c : Nat} (hc : c ∈ text) (hx : c ≠ 120) (hn : ∀ v u, v < 16 → c ≠ hexChar v u) :
    parsePoly text = none := by
  have hdig : digit c = none := by
    unfold digit
    split
    · exact absurd (show c = hexChar (c - 48) true by unfold hexChar; rw [if_pos (by omega)]; omega) (hn _ _ (by omega))
    · split
      · exact absurd (show c = hexChar (c - 55) true by unfold hexChar; rw [if_neg (by omega), if_pos rfl]; omega) (hn _ _ (by omega))
      · split
        · exact absurd (show c = hexChar (c - 87) false by unfold hexChar; rw [if_neg (by omega), if_neg (by decide)]; omega) (hn _ _ (by omega))
        · rfl
  have hbad : ∀ (l : List Nat) r, c ∈ l → parseDigits l r = none := by
    intro l
    induction l with
    | nil => intro r h; cases h
    | cons y l ih =>
      intro r h
      rw [parseDigits]
      rcases List.mem_cons.1 h with rfl | h
      · rw [hdig]
      · split
        · rfl
        · exact ih _ h
  have hmem : ∀ (l : List Nat), c ∈ l → c ∈ l.dropWhile (fun c => c == 48 || c == 120) := by
    intro l
    induction l with
    | nil => intro h; exact h
    | cons y l ih =>
      intro h
      rw [List.dropWhile_cons]
      split
      · rename_i hy
        rcases List.mem_cons.1 h with rfl | h
        · have : c ≠ 48 := hn 0 true (by decide)
          simp [this, hx] at hy
        · exact ih h
      · exact h
  exact hbad _ _ (hmem _ hc)

/-- "0x201b", "201B" and "0xg". -/
example : parsePoly [48, 120, 50, 48, 49, 98] = some 0x201b ∧ parsePoly [50, 48, 49, 66] = some 0x201b ∧ parsePoly [48, 120, 103] = none := by
  decide

end Dhara.Gftool

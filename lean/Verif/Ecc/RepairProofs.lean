/-
Proof of property C31: correctness of the repairing part of ecc/bch.c.
-/
import Verif.Ecc.Repair
import Verif.Ecc.Massey
import Verif.Ecc.Gf13Proofs
import Verif.Props.Bch
namespace Dhara.Bch
open Polynomial Dhara Dhara.Gf13

/-- What is used of the field operations: they are right on non-zero elements. -/
structure Ops.Ok (o : Ops) : Prop where
  mul : ∀ {a b : Nat}, a ≠ 0 → a < 8192 → b ≠ 0 → b < 8192 → el (o.mul a b) = el a * el b ∧ o.mul a b < 8192
  div : ∀ {a b : Nat}, a ≠ 0 → a < 8192 → b ≠ 0 → b < 8192 → el (o.div a b) * el b = el a ∧ o.div a b < 8192
  mulx : ∀ {a : Nat}, a ≠ 0 → a < 8192 → el (o.mulx a) = α * el a ∧ o.mulx a < 8192
  divx : ∀ {a : Nat}, a ≠ 0 → a < 8192 → α * el (o.divx a) = el a ∧ o.divx a < 8192

theorem tables_ok : tables.Ok := ⟨mulT_el, divT_el, mulxT_el, divxT_el⟩

theorem plain_ok : plain.Ok :=
  ⟨fun _ h1 _ h2 => mulN_el h1 h2, fun _ h1 h2 h3 => divN_el h1 h2 h3, fun _ h => mulxN_el h, fun _ h => divxN_el h⟩

theorem el_ne {a : Nat} (h0 : a ≠ 0) (h : a < 8192) : el a ≠ 0 := fun e => h0 ((el_eq_zero h).1 e)

theorem ne_of_el {a : Nat} (h : el a ≠ 0) : a ≠ 0 := fun e => h (by rw [e, el_zero])

theorem xor_lt13 {a b : Nat} (ha : a < 8192) (hb : b < 8192) : a ^^^ b < 8192 := Nat.xor_lt_two_pow (n := 13) ha hb

variable {o : Ops}

theorem Ops.Ok.mul' (ho : o.Ok) {a b : Nat} (h1 : a ≠ 0) (h2 : a < 8192) (h3 : b ≠ 0) (h4 : b < 8192) :
    el (o.mul a b) = el a * el b ∧ o.mul a b < 8192 ∧ o.mul a b ≠ 0 := by
  obtain ⟨k1, k2⟩ := ho.mul h1 h2 h3 h4
  exact ⟨k1, k2, ne_of_el (by rw [k1]; exact mul_ne_zero (el_ne h1 h2) (el_ne h3 h4))⟩

/-! ### Syndromes -/

theorem ev_bitPoly (z : F) (f : Nat → Bool) (n : Nat) : aeval z (bitPoly f n) = ∑ i ∈ Finset.range n, (if f i then z ^ i else 0) := by
  rw [bitPoly, map_sum]
  apply Finset.sum_congr rfl
  intro i _
  split <;> simp

theorem synBits_el (ho : o.Ok) {x : Nat} (hx0 : x ≠ 0) (hx : x < 8192) : ∀ k c y t, y < 8192 → t ≠ 0 → t < 8192 →
    el (synBits o x k c y t).1 = el y + el t * aeval (el x) (bitPoly c.testBit k) ∧
    el (synBits o x k c y t).2 = el t * el x ^ k ∧ (synBits o x k c y t).1 < 8192 ∧ (synBits o x k c y t).2 < 8192 ∧
    (synBits o x k c y t).2 ≠ 0 := by
  intro k
  induction k with
  | zero => intro c y t hy ht0 ht; simp [synBits, bitPoly, hy, ht0, ht]
  | succ k ih =>
    intro c y t hy ht0 ht
    obtain ⟨m1, m2, m3⟩ := ho.mul' ht0 ht hx0 hx
    have hy' : (if c &&& 1 ≠ 0 then y ^^^ t else y) < 8192 := by
      split
      · exact xor_lt13 hy ht
      · exact hy
    obtain ⟨i1, i2, i3, i4, i5⟩ := ih (c >>> 1) _ _ hy' m3 m2
    unfold synBits
    refine ⟨?_, ?_, i3, i4, i5⟩
    · rw [i1, m1, ev_bitPoly, ev_bitPoly, Finset.sum_range_succ']
      have e1 : el (if c &&& 1 ≠ 0 then y ^^^ t else y) = el y + el t * (if c.testBit 0 = true then el x ^ 0 else 0) := by
        by_cases h : c.testBit 0 = true
        · rw [if_pos ((and_one_ne c).2 h), if_pos h, el_xor, pow_zero, mul_one]
        · rw [if_neg (fun k => h ((and_one_ne c).1 k)), if_neg h, mul_zero, add_zero]
      rw [e1, mul_add, Finset.mul_sum, Finset.mul_sum, add_assoc, add_comm (el t * (if c.testBit 0 = true then el x ^ 0 else 0)), add_right_inj, add_left_inj]
      apply Finset.sum_congr rfl
      intro i _
      rw [Nat.testBit_shiftRight, Nat.add_comm 1 i]
      split
      · ring
      · simp
    · rw [i2, m1]; ring

theorem synChunk_el (ho : o.Ok) {x : Nat} (hx0 : x ≠ 0) (hx : x < 8192) (chunk : Buf) : ∀ n,
    el (synChunk o chunk x n).1 = aeval (el x) (bitPoly (fun i => !chunk.bit i) (8 * n)) ∧
    el (synChunk o chunk x n).2 = el x ^ (8 * n) ∧ (synChunk o chunk x n).1 < 8192 ∧ (synChunk o chunk x n).2 < 8192 ∧
    (synChunk o chunk x n).2 ≠ 0 := by
  intro n
  induction n with
  | zero => simp [synChunk, el_zero, el_one, bitPoly]
  | succ n ih =>
    obtain ⟨i1, i2, i3, i4, i5⟩ := ih
    obtain ⟨k1, k2, k3, k4, k5⟩ := synBits_el ho hx0 hx 8 (chunk n ^^^ 0xff).toNat _ _ i3 i5 i4
    unfold synChunk
    refine ⟨?_, ?_, k3, k4, k5⟩
    · rw [k1, i1, i2, Nat.mul_succ, bitPoly_add, map_add, map_mul, map_pow, aeval_X]
      congr 3
      apply bitPoly_congr
      intro i hi
      rw [inv_bit _ _ hi, Buf.bit, show (8 * n + i) / 8 = n by omega, show (8 * n + i) % 8 = i by omega]
    · rw [k2, i2, ← pow_add, Nat.mul_succ]

theorem syndrome_el (ho : o.Ok) {d : Def} (hd : d.Ok) {x : Nat} (hx0 : x ≠ 0) (hx : x < 8192) (chunk : Buf) (len : Nat) (ecc : Buf) :
    el (syndrome o d chunk len (unpackPoly d ecc) x) = aeval (el x) (codeword d chunk len ecc) ∧
    syndrome o d chunk len (unpackPoly d ecc) x < 8192 := by
  obtain ⟨i1, i2, i3, i4, i5⟩ := synChunk_el ho hx0 hx chunk len
  obtain ⟨k1, _, k3, _, _⟩ := synBits_el ho hx0 hx d.degree (unpackPoly d ecc) _ _ i3 i5 i4
  refine ⟨?_, k3⟩
  have e : bitPoly (unpackPoly d ecc).testBit d.degree = bitPoly (fun i => !ecc.bit i) d.degree := by
    apply bitPoly_congr
    intro i hi
    rw [unpack_bit hd]; simp [hi]
  unfold syndrome
  rw [k1, i1, i2, e, codeword, map_add, map_mul, map_pow, aeval_X]

theorem synX_el (ho : o.Ok) : ∀ i, el (synX o i) = α ^ (i + 1) ∧ synX o i < 8192 ∧ synX o i ≠ 0 := by
  intro i
  induction i with
  | zero => exact ⟨by rw [synX, el_two, zero_add, pow_one], by show 2 < 8192; decide, by show 2 ≠ 0; decide⟩
  | succ i ih =>
    obtain ⟨h1, h2, h3⟩ := ih
    obtain ⟨k1, k2⟩ := ho.mulx h3 h2
    have e : el (synX o (i + 1)) = α ^ (i + 1 + 1) := by
      rw [synX, k1, h1]; ring
    exact ⟨e, k2, ne_of_el (by rw [e]; exact pow_ne_zero _ α_ne)⟩

/-- The generators vanish at the first powers of α: evaluated in the kernel. -/
theorem gen_chk : (codes.all fun d => (List.range d.syns).all fun i =>
    (synBits plain (synX plain i) (d.degree + 1) d.generator 0 1).1 == 0) = true := by decide +kernel

theorem gen_root {d : Def} (hd : d ∈ codes) {i : Nat} (hi : i < d.syns) : aeval (α ^ (i + 1)) (wordPoly d.generator) = 0 := by
  have h := codes_ok hd
  have h1 := List.all_eq_true.1 gen_chk d hd
  have h2 := List.all_eq_true.1 h1 i (List.mem_range.2 hi)
  simp only [beq_iff_eq] at h2
  obtain ⟨x1, x2, x3⟩ := synX_el plain_ok i
  obtain ⟨k1, _⟩ := synBits_el plain_ok x3 x2 (d.degree + 1) d.generator 0 1 (by decide) (by decide) (by decide)
  rw [h2, el_zero, el_one, zero_add, one_mul, x1] at k1
  have hs := h.fb.small
  rw [wordPoly_short (by omega : d.degree + 1 ≤ 64) h.fb.lt]
  exact k1.symm

/-! ### Arrays of field elements as polynomials -/

/-- All elements are in the field. -/
def Arr.Val (a : Arr) : Prop := ∀ i, a i < 8192

noncomputable def polyOf (a : Arr) : F[X] := ∑ i ∈ Finset.range 16, C (el (a i)) * X ^ i

theorem polyOf_coeff (a : Arr) (i : Nat) : (polyOf a).coeff i = if i < 16 then el (a i) else 0 := by
  unfold polyOf
  rw [finsetSum_coeff]
  simp only [coeff_C_mul_X_pow]
  split
  · rename_i h
    rw [Finset.sum_eq_single i]
    · rw [if_pos rfl]
    · intro j _ hj; rw [if_neg (Ne.symm hj)]
    · intro hn; exact absurd (Finset.mem_range.2 h) hn
  · rename_i h
    apply Finset.sum_eq_zero
    intro j hj
    rw [Finset.mem_range] at hj
    rw [if_neg (by omega)]

theorem put_at (a : Arr) (p v i : Nat) : (a.put p v) i = if i = p then v else a i := rfl

theorem polyAdd_at (ho : o.Ok) {src dst : Arr} (hs : src.Val) (hd : dst.Val) {c : Nat} (hc0 : c ≠ 0) (hc : c < 8192) (shift : Nat) : ∀ k,
    (polyAdd o src c shift dst k).Val ∧ ∀ p, p < 16 → el (polyAdd o src c shift dst k p) =
      el (dst p) + if shift ≤ p ∧ p - shift < k then el (src (p - shift)) * el c else 0 := by
  intro k
  induction k with
  | zero => exact ⟨hd, fun p _ => by rw [if_neg (by omega), add_zero]; rfl⟩
  | succ k ih =>
    obtain ⟨h1, h2⟩ := ih
    unfold polyAdd
    by_cases hp : k + shift ≥ 16
    · simp only [if_pos hp]
      refine ⟨h1, fun p hp' => ?_⟩
      rw [h2 p hp']
      by_cases h3 : shift ≤ p ∧ p - shift < k
      · rw [if_pos h3, if_pos (by omega)]
      · rw [if_neg h3, if_neg (by omega)]
    · simp only [if_neg hp]
      by_cases hv : src k = 0
      · simp only [if_pos hv]
        refine ⟨h1, fun p hp' => ?_⟩
        rw [h2 p hp']
        by_cases h3 : shift ≤ p ∧ p - shift < k
        · rw [if_pos h3, if_pos (by omega)]
        · rw [if_neg h3]
          split
          · rename_i h4
            rw [show p - shift = k by omega, hv, el_zero, zero_mul]
          · rfl
      · simp only [if_neg hv]
        obtain ⟨m1, m2, _⟩ := ho.mul' hv (hs k) hc0 hc
        refine ⟨fun i => ?_, fun p hp' => ?_⟩
        · rw [put_at]; split
          · exact xor_lt13 (h1 _) m2
          · exact h1 i
        · rw [put_at]
          by_cases e : p = k + shift
          · rw [if_pos e, el_xor, ← e, h2 p hp', m1, if_neg (by omega), if_pos (by omega), add_zero, show p - shift = k by omega]
          · rw [if_neg e, h2 p hp']
            by_cases h3 : shift ≤ p ∧ p - shift < k
            · rw [if_pos h3, if_pos (by omega)]
            · rw [if_neg h3, if_neg (by omega)]

theorem f_two (z : F) : z + z = 0 := by
  have : (2 : F) = 0 := by
    have h := congrArg (algebraMap (ZMod 2) F) (show (2 : ZMod 2) = 0 from rfl)
    rwa [map_ofNat, map_zero] at h
  rw [← two_mul, this, zero_mul]

theorem f_neg (z : F) : -z = z := neg_eq_of_add_eq_zero_left (f_two z)

/-- `poly_add` computes the corrected polynomial when that fits the array. -/
theorem polyAdd_corr (ho : o.Ok) {src dst : Arr} (hs : src.Val) (hd : dst.Val) {e b m : Nat} (he0 : e ≠ 0) (he : e < 8192)
    (hb0 : b ≠ 0) (hb : b < 8192) (hfit : ∀ i, 16 ≤ i → (Massey.corr (polyOf dst) (polyOf src) m (el e) (el b)).coeff i = 0) :
    polyOf (polyAdd o src (o.div e b) m dst 16) = Massey.corr (polyOf dst) (polyOf src) m (el e) (el b) ∧
    (polyAdd o src (o.div e b) m dst 16).Val := by
  obtain ⟨d1, d2⟩ := ho.div he0 he hb0 hb
  have hdiv : el (o.div e b) = el e / el b := by
    rw [eq_div_iff (el_ne hb0 hb)]; exact d1
  have hd0 : o.div e b ≠ 0 := ne_of_el (by rw [hdiv]; exact div_ne_zero (el_ne he0 he) (el_ne hb0 hb))
  obtain ⟨k1, k2⟩ := polyAdd_at ho hs hd hd0 d2 m 16
  refine ⟨?_, k1⟩
  ext i
  by_cases hi : i < 16
  · rw [polyOf_coeff, if_pos hi, k2 i hi, Massey.corr, coeff_sub, Massey.coeff_shift', polyOf_coeff, if_pos hi, sub_eq_add_neg, f_neg]
    congr 1
    by_cases h : m ≤ i
    · rw [if_pos (by omega), if_pos h, polyOf_coeff, if_pos (by omega), hdiv, mul_comm]
    · rw [if_neg (by omega), if_neg h]
  · rw [hfit i (by omega), polyOf_coeff, if_neg hi]

theorem evalLoop_el (ho : o.Ok) {s : Arr} (hs : s.Val) {x : Nat} (hx0 : x ≠ 0) (hx : x < 8192) : ∀ k,
    el (evalLoop o s x k).1 = el x * ∑ i ∈ Finset.range k, el (s i) * el x ^ i ∧ el (evalLoop o s x k).2 = el x ^ (k + 1) ∧
    (evalLoop o s x k).1 < 8192 ∧ (evalLoop o s x k).2 < 8192 ∧ (evalLoop o s x k).2 ≠ 0 := by
  intro k
  induction k with
  | zero => simp [evalLoop, el_zero, hx0, hx]
  | succ k ih =>
    obtain ⟨i1, i2, i3, i4, i5⟩ := ih
    obtain ⟨m1, m2, m3⟩ := ho.mul' i5 i4 hx0 hx
    unfold evalLoop
    refine ⟨?_, ?_, ?_, m2, m3⟩
    · rw [Finset.sum_range_succ, mul_add, ← i1]
      dsimp only
      by_cases hc : s k = 0
      · rw [if_neg (fun h => h hc), hc, el_zero]; simp
      · obtain ⟨n1, n2, _⟩ := ho.mul' hc (hs k) i5 i4
        rw [if_pos hc, el_xor, n1, i2]; ring
    · dsimp only; rw [m1, i2]; ring
    · dsimp only
      by_cases hc : s k = 0
      · rw [if_neg (fun h => h hc)]; exact i3
      · obtain ⟨n1, n2, _⟩ := ho.mul' hc (hs k) i5 i4
        rw [if_pos hc]; exact xor_lt13 i3 n2

theorem polyEval_zero (ho : o.Ok) {s : Arr} (hs : s.Val) {x : Nat} (hx0 : x ≠ 0) (hx : x < 8192) :
    polyEval o s x = 0 ↔ (polyOf s).eval (el x) = 0 := by
  obtain ⟨h1, _, h3, _, _⟩ := evalLoop_el ho hs hx0 hx 16
  have e : (polyOf s).eval (el x) = ∑ i ∈ Finset.range 16, el (s i) * el x ^ i := by
    unfold polyOf; rw [eval_finsetSum]; simp
  unfold polyEval
  rw [← el_eq_zero h3, h1, ← e, mul_eq_zero]
  exact ⟨fun h => h.resolve_left (el_ne hx0 hx), Or.inr⟩

/-! ### Berlekamp-Massey -/

/-- The syndromes as a polynomial. -/
noncomputable def synPoly (s : Arr) (N : Nat) : F[X] := ∑ i ∈ Finset.range N, C (el (s i)) * X ^ i

theorem synPoly_coeff (s : Arr) {N i : Nat} (h : i < N) : (synPoly s N).coeff i = el (s i) := by
  unfold synPoly
  rw [finsetSum_coeff]
  simp only [coeff_C_mul_X_pow]
  rw [Finset.sum_eq_single i]
  · rw [if_pos rfl]
  · intro j _ hj; rw [if_neg (Ne.symm hj)]
  · intro hn; exact absurd (Finset.mem_range.2 h) hn

theorem discr_el (ho : o.Ok) {s C : Arr} (hs : s.Val) (hC : C.Val) (h1 : C 0 = 1) (n : Nat) : ∀ k,
    el (discr o s C n k) = ∑ i ∈ Finset.range (k + 1), el (C i) * el (s (n - i)) ∧ discr o s C n k < 8192 := by
  intro k
  induction k with
  | zero => simp [discr, h1, el_one, hs n]
  | succ k ih =>
    obtain ⟨i1, i2⟩ := ih
    unfold discr
    rw [Finset.sum_range_succ, ← i1]
    dsimp only
    by_cases hc : C (k + 1) ≠ 0 ∧ s (n - (k + 1)) ≠ 0
    · obtain ⟨m1, m2, _⟩ := ho.mul' hc.1 (hC _) hc.2 (hs _)
      rw [if_pos hc, el_xor, m1]
      exact ⟨rfl, xor_lt13 i2 m2⟩
    · rw [if_neg hc]
      refine ⟨?_, i2⟩
      by_cases h3 : C (k + 1) = 0
      · rw [h3, el_zero, zero_mul, add_zero]
      · have : s (n - (k + 1)) = 0 := by
          apply Classical.byContradiction; intro h4; exact hc ⟨h3, h4⟩
        rw [this, el_zero, mul_zero, add_zero]

/-- The discrepancy is the next coefficient of the product. -/
theorem discr_coeff (ho : o.Ok) {s C : Arr} (hs : s.Val) (hC : C.Val) (h1 : C 0 = 1) {n N L : Nat} (hn : n < N) (hL : L ≤ n) (hL16 : n < 16)
    (hdeg : ∀ i : Nat, L < i → (polyOf C).coeff i = 0) :
    (polyOf C * synPoly s N).coeff n = el (discr o s C n L) := by
  rw [(discr_el ho hs hC h1 n L).1, coeff_mul, Finset.Nat.sum_antidiagonal_eq_sum_range_succ (fun a b => (polyOf C).coeff a * (synPoly s N).coeff b)]
  have hsub : Finset.range (L + 1) ⊆ Finset.range (n + 1) := by
    intro i; rw [Finset.mem_range, Finset.mem_range]; omega
  rw [← Finset.sum_subset hsub]
  · apply Finset.sum_congr rfl
    intro i hi
    rw [Finset.mem_range] at hi
    rw [polyOf_coeff, if_pos (by omega), synPoly_coeff s (by omega)]
  · intro i _ hi
    rw [Finset.mem_range] at hi
    rw [hdeg i (by omega), zero_mul]

structure BmOk (s : Arr) (N n : Nat) (v : Bm) : Prop where
  C : v.C.Val
  B : v.B.Val
  b : v.b < 8192
  inv : Massey.Inv (synPoly s N) (polyOf v.C) (polyOf v.B) v.L v.m n (el v.b)

theorem BmOk.one {s : Arr} {N n : Nat} {v : Bm} (h : BmOk s N n v) : v.C 0 = 1 := by
  have := h.inv.g.one
  rw [polyOf_coeff, if_pos (by decide), ← el_one] at this
  exact el_inj (h.C 0) (by decide) this

theorem unit_poly : polyOf (fun i => if i = 0 then 1 else 0) = 1 := by
  ext i
  rw [polyOf_coeff, coeff_one]
  by_cases h : i = 0
  · subst h; simp [el_one]
  · rw [if_neg h]; simp [h, el_zero]

theorem bm_ok (ho : o.Ok) {s : Arr} (hs : s.Val) {N : Nat} (hN : N ≤ 8) {Q : F[X]} {ν : Nat} (hQ : Massey.Gen (synPoly s N) Q ν N) :
    ∀ n, n ≤ N → BmOk s N n (bmLoop o s n) ∧ (bmLoop o s n).L ≤ ν := by
  intro n
  induction n with
  | zero =>
    intro _
    have hv : Arr.Val (fun i => if i = 0 then 1 else 0) := fun i => by show (if i = 0 then 1 else 0) < 8192; split <;> decide
    refine ⟨⟨hv, hv, by show 1 < 8192; decide, ?_⟩, Nat.zero_le _⟩
    show Massey.Inv (synPoly s N) (polyOf (fun i => if i = 0 then 1 else 0)) (polyOf (fun i => if i = 0 then 1 else 0)) 0 1 0 (el 1)
    rw [unit_poly, el_one]
    exact Massey.init _
  | succ n ih =>
    intro hn
    obtain ⟨h, hL⟩ := ih (by omega)
    show BmOk s N (n + 1) (bmStep o s n (bmLoop o s n)) ∧ (bmStep o s n (bmLoop o s n)).L ≤ ν
    generalize bmLoop o s n = v at h hL
    have hLn := h.inv.g.len
    have hco := discr_coeff ho hs h.C h.one (N := N) (by omega : n < N) hLn (by omega) h.inv.g.deg
    obtain ⟨_, d2⟩ := discr_el ho hs h.C h.one n v.L
    have hb0 : v.b ≠ 0 := ne_of_el h.inv.ne
    unfold bmStep
    generalize discr o s v.C n v.L = d at hco d2
    by_cases hd : d = 0
    · subst hd
      simp only [if_pos]
      rw [el_zero] at hco
      exact ⟨⟨h.C, h.B, h.b, Massey.step_zero h.inv hco⟩, hL⟩
    · simp only [if_neg hd]
      by_cases hg : v.L * 2 ≤ n
      · simp only [if_pos hg]
        have hs1 := Massey.step_grow h.inv hco (el_ne hd d2) hg
        obtain ⟨p1, p2⟩ := polyAdd_corr ho h.B h.C (m := v.m) hd d2 hb0 h.b (fun i hi => hs1.g.deg i (by omega))
        refine ⟨⟨p2, h.C, d2, ?_⟩, ?_⟩
        · show Massey.Inv _ (polyOf (polyAdd o v.B (o.div d v.b) v.m v.C 16)) _ _ _ _ _
          rw [p1]; exact hs1
        · exact Massey.bound h.inv.g (by rw [hco]; exact el_ne hd d2) hQ (by omega)
      · simp only [if_neg hg]
        have hs1 := Massey.step_keep h.inv hco hg
        obtain ⟨p1, p2⟩ := polyAdd_corr ho h.B h.C (m := v.m) hd d2 hb0 h.b (fun i hi => hs1.g.deg i (by omega))
        refine ⟨⟨p2, h.B, h.b, ?_⟩, hL⟩
        show Massey.Inv _ (polyOf (polyAdd o v.B (o.div d v.b) v.m v.C 16)) _ _ _ _ _
        rw [p1]; exact hs1

/-- Berlekamp-Massey finds the error locations. -/
theorem bm_roots (ho : o.Ok) {s : Arr} (hs : s.Val) {N : Nat} (hN : N ≤ 8) (E : Finset Nat) (hE : 2 * E.card ≤ N) (hE' : ∀ e ∈ E, e < 8191)
    (hsum : ∀ k, k < N → el (s k) = ∑ e ∈ E, (α ^ e) ^ (k + 1)) :
    (berlekampMassey o s N).Val ∧ ∀ y : F, (polyOf (berlekampMassey o s N)).eval y = 0 ↔ ∃ e ∈ E, y = (α ^ e)⁻¹ := by
  have hS : ∀ k : Nat, k < N → (synPoly s N).coeff k = ∑ e ∈ E, (α ^ e) ^ (k + 1) := fun k hk => by
    rw [synPoly_coeff s hk]; exact hsum k hk
  have hx : ∀ e ∈ E, (α : F) ^ e ≠ 0 := fun e _ => pow_ne_zero _ α_ne
  have hinj : ∀ e ∈ E, ∀ f ∈ E, (α : F) ^ e = α ^ f → e = f := fun e he f hf h => α_inj (hE' e he) (hE' f hf) h
  obtain ⟨h1, h2⟩ := bm_ok ho hs hN (Massey.locator_gen E (fun e => α ^ e) hx hS (by omega)) N (Nat.le_refl _)
  have hpoly : polyOf (berlekampMassey o s N) = polyOf (bmLoop o s N).C := by
    ext i
    rw [polyOf_coeff, polyOf_coeff]
    by_cases hi : i < 16
    · rw [if_pos hi, if_pos hi]
      unfold berlekampMassey
      by_cases h8 : i < 16 / 2
      · rw [if_pos h8]
      · rw [if_neg h8]
        have := h1.inv.g.deg i (by omega)
        rw [polyOf_coeff, if_pos hi] at this
        rw [this, el_zero]
    · rw [if_neg hi, if_neg hi]
  refine ⟨fun i => ?_, fun y => ?_⟩
  · show (if i < 16 / 2 then (bmLoop o s N).C i else 0) < 8192
    split
    · exact h1.C i
    · decide
  · rw [hpoly]
    exact Massey.roots E (fun e => α ^ e) hx hinj hS hE h1.inv.g h2 y

end Dhara.Bch

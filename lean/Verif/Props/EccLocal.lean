/-
Property C65: the functions of ecc/ on arbitrary, also hopelessly damaged, words. They read and write nothing but the bytes
they are given, bch_repair never divides by zero or hands the field operations an operand outside the field, and the two builds of the
library compute the same repair.
-/
import Verif.Props.Repair
import Verif.Props.Gf13
import Verif.Ecc.Crc
import Verif.Ecc.Hamming
namespace Dhara
open Dhara.Gf13

/-- The first `n` bytes are the same. -/
def Agree (n : Nat) (a b : Buf) : Prop := ∀ i, i < n → a i = b i

namespace Bch

/-- `o'` is like `o` for operands that are non-zero field elements; for all others (a zero, a number that is not an index of the
tables) it may answer anything. -/
structure Like (o o' : Ops) : Prop where
  mul : ∀ a b, a ≠ 0 → a < 8192 → b ≠ 0 → b < 8192 → o'.mul a b = o.mul a b
  div : ∀ a b, a ≠ 0 → a < 8192 → b ≠ 0 → b < 8192 → o'.div a b = o.div a b
  mulx : ∀ a, a ≠ 0 → a < 8192 → o'.mulx a = o.mulx a
  divx : ∀ a, a ≠ 0 → a < 8192 → o'.divx a = o.divx a

variable {o o' : Ops}

theorem synX_like (ho : o.Ok) (hl : Like o o') : ∀ i, synX o' i = synX o i := by
  intro i
  induction i with
  | zero => rfl
  | succ i ih =>
    obtain ⟨_, h1, h2⟩ := synX_el ho i
    rw [synX, synX, ih, hl.mulx _ h2 h1]

theorem synBits_like (ho : o.Ok) (hl : Like o o') {x : Nat} (hx0 : x ≠ 0) (hx : x < 8192) : ∀ k c y t, y < 8192 → t ≠ 0 → t < 8192 →
    synBits o' x k c y t = synBits o x k c y t ∧ (synBits o x k c y t).1 < 8192 ∧ (synBits o x k c y t).2 ≠ 0 ∧ (synBits o x k c y t).2 < 8192 := by
  intro k
  induction k with
  | zero => intro c y t h1 h2 h3; exact ⟨rfl, h1, h2, h3⟩
  | succ k ih =>
    intro c y t h1 h2 h3
    obtain ⟨_, m1, m2⟩ := ho.mul' h2 h3 hx0 hx
    have hy : (if c &&& 1 ≠ 0 then y ^^^ t else y) < 8192 := by
      split
      · exact xor_lt13 h1 h3
      · exact h1
    have := ih (c >>> 1) _ _ hy m2 m1
    rw [synBits, synBits, hl.mul _ _ h2 h3 hx0 hx]
    exact this

theorem synChunk_like (ho : o.Ok) (hl : Like o o') {x : Nat} (hx0 : x ≠ 0) (hx : x < 8192) (chunk : Buf) : ∀ n,
    synChunk o' chunk x n = synChunk o chunk x n ∧ (synChunk o chunk x n).1 < 8192 ∧ (synChunk o chunk x n).2 ≠ 0 ∧ (synChunk o chunk x n).2 < 8192 := by
  intro n
  induction n with
  | zero => exact ⟨rfl, show 0 < 8192 by decide, show 1 ≠ 0 by decide, show 1 < 8192 by decide⟩
  | succ n ih =>
    obtain ⟨e, h1, h2, h3⟩ := ih
    rw [synChunk, synChunk, e]
    generalize synChunk o chunk x n = r at h1 h2 h3
    obtain ⟨y, t⟩ := r
    exact synBits_like ho hl hx0 hx 8 _ y t h1 h2 h3

theorem syndrome_like (ho : o.Ok) (hl : Like o o') {x : Nat} (hx0 : x ≠ 0) (hx : x < 8192) (d : Def) (chunk : Buf) (len rm : Nat) :
    syndrome o' d chunk len rm x = syndrome o d chunk len rm x ∧ syndrome o d chunk len rm x < 8192 := by
  obtain ⟨e, h1, h2, h3⟩ := synChunk_like ho hl hx0 hx chunk len
  unfold syndrome
  rw [e]
  generalize synChunk o chunk x len = r at h1 h2 h3
  obtain ⟨y, t⟩ := r
  obtain ⟨e2, k1, _⟩ := synBits_like ho hl hx0 hx d.degree rm y t h1 h2 h3
  exact ⟨by show (synBits o' x d.degree rm y t).1 = _; rw [e2], k1⟩

theorem evalLoop_like (ho : o.Ok) (hl : Like o o') {s : Arr} (hs : s.Val) {x : Nat} (hx0 : x ≠ 0) (hx : x < 8192) : ∀ k,
    evalLoop o' s x k = evalLoop o s x k ∧ (evalLoop o s x k).2 ≠ 0 ∧ (evalLoop o s x k).2 < 8192 := by
  intro k
  induction k with
  | zero => exact ⟨rfl, hx0, hx⟩
  | succ k ih =>
    obtain ⟨e, h1, h2⟩ := ih
    rw [evalLoop, evalLoop, e]
    generalize evalLoop o s x k = r at h1 h2
    obtain ⟨sum, t⟩ := r
    dsimp only at h1 h2 ⊢
    obtain ⟨_, m1, m2⟩ := ho.mul' h1 h2 hx0 hx
    refine ⟨?_, m2, m1⟩
    rw [hl.mul _ _ h1 h2 hx0 hx]
    by_cases hc : s k ≠ 0
    · rw [if_pos hc, if_pos hc, hl.mul _ _ hc (hs k) h1 h2]
    · rw [if_neg hc, if_neg hc]

theorem polyEval_like (ho : o.Ok) (hl : Like o o') {s : Arr} (hs : s.Val) {x : Nat} (hx0 : x ≠ 0) (hx : x < 8192) :
    polyEval o' s x = polyEval o s x := by
  unfold polyEval; rw [(evalLoop_like ho hl hs hx0 hx _).1]

theorem polyAdd_like (ho : o.Ok) (hl : Like o o') {src dst : Arr} (hs : src.Val) (hd : dst.Val) {c : Nat} (hc0 : c ≠ 0) (hc : c < 8192) (shift : Nat) : ∀ k,
    polyAdd o' src c shift dst k = polyAdd o src c shift dst k ∧ (polyAdd o src c shift dst k).Val := by
  intro k
  induction k with
  | zero => exact ⟨rfl, hd⟩
  | succ k ih =>
    obtain ⟨e, hv⟩ := ih
    rw [polyAdd, polyAdd, e]
    by_cases h1 : k + shift ≥ maxPoly
    · rw [if_pos h1, if_pos h1]; exact ⟨rfl, hv⟩
    · rw [if_neg h1, if_neg h1]
      by_cases h2 : src k = 0
      · rw [if_pos h2, if_pos h2]; exact ⟨rfl, hv⟩
      · rw [if_neg h2, if_neg h2, hl.mul _ _ h2 (hs k) hc0 hc]
        refine ⟨rfl, ?_⟩
        intro i
        rw [put_at]
        split
        · exact xor_lt13 (hv _) (ho.mul' h2 (hs k) hc0 hc).2.1
        · exact hv i

theorem discr_like (ho : o.Ok) (hl : Like o o') {s C : Arr} (hs : s.Val) (hC : C.Val) (n : Nat) : ∀ k,
    discr o' s C n k = discr o s C n k ∧ discr o s C n k < 8192 := by
  intro k
  induction k with
  | zero => exact ⟨rfl, hs n⟩
  | succ k ih =>
    obtain ⟨e, hv⟩ := ih
    rw [discr, discr, e]
    by_cases h : C (k + 1) ≠ 0 ∧ s (n - (k + 1)) ≠ 0
    · rw [if_pos h, if_pos h, hl.mul _ _ h.1 (hC _) h.2 (hs _)]
      exact ⟨rfl, xor_lt13 hv (ho.mul' h.1 (hC _) h.2 (hs _)).2.1⟩
    · rw [if_neg h, if_neg h]; exact ⟨rfl, hv⟩

/-- The variables of the loop stay in the field, `b` is not zero, and the indices stay in the arrays: `L ≤ n` and `m ≥ 1`. -/
structure BmIn (n : Nat) (v : Bm) : Prop where
  c : v.C.Val
  b : v.B.Val
  ne : v.b ≠ 0
  lt : v.b < 8192
  len : v.L ≤ n
  shift : 1 ≤ v.m

theorem bmLoop_like (ho : o.Ok) (hl : Like o o') {s : Arr} (hs : s.Val) : ∀ n, bmLoop o' s n = bmLoop o s n ∧ BmIn n (bmLoop o s n) := by
  intro n
  induction n with
  | zero =>
    have : Arr.Val fun i => if i = 0 then 1 else 0 := fun i => by dsimp only; split <;> decide
    exact ⟨rfl, this, this, show 1 ≠ 0 by decide, show 1 < 8192 by decide, Nat.le_refl _, Nat.le_refl 1⟩
  | succ n ih =>
    obtain ⟨e, hv⟩ := ih
    rw [bmLoop, bmLoop, e]
    generalize bmLoop o s n = v at hv
    obtain ⟨e1, h1⟩ := discr_like ho hl hs hv.c n v.L
    unfold bmStep
    rw [e1]
    dsimp only
    by_cases hd : discr o s v.C n v.L = 0
    · rw [if_pos hd, if_pos hd]
      exact ⟨rfl, hv.c, hv.b, hv.ne, hv.lt, Nat.le_succ_of_le hv.len, by show 1 ≤ v.m + 1; omega⟩
    · obtain ⟨k1, k2⟩ := ho.div hd h1 hv.ne hv.lt
      have k3 : o.div (discr o s v.C n v.L) v.b ≠ 0 := by
        intro h
        rw [h, el_zero, zero_mul] at k1
        exact el_ne hd h1 k1.symm
      obtain ⟨e2, h2⟩ := polyAdd_like ho hl hv.b hv.c k3 k2 v.m maxPoly
      rw [if_neg hd, if_neg hd, hl.div _ _ hd h1 hv.ne hv.lt, e2]
      by_cases hL : v.L * 2 ≤ n
      · rw [if_pos hL]
        exact ⟨rfl, h2, hv.c, hd, h1, by show n + 1 - v.L ≤ n + 1; omega, Nat.le_refl 1⟩
      · rw [if_neg hL]
        exact ⟨rfl, h2, hv.b, hv.ne, hv.lt, Nat.le_succ_of_le hv.len, by show 1 ≤ v.m + 1; omega⟩

theorem massey_like (ho : o.Ok) (hl : Like o o') {s : Arr} (hs : s.Val) (N : Nat) :
    berlekampMassey o' s N = berlekampMassey o s N ∧ (berlekampMassey o s N).Val := by
  obtain ⟨e, hv⟩ := bmLoop_like ho hl hs N
  unfold berlekampMassey
  rw [e]
  refine ⟨rfl, fun i => ?_⟩
  dsimp only
  split
  · exact hv.c i
  · decide

theorem divx_ne (ho : o.Ok) {x : Nat} (h0 : x ≠ 0) (h : x < 8192) : o.divx x ≠ 0 ∧ o.divx x < 8192 := by
  obtain ⟨k1, k2⟩ := ho.divx h0 h
  refine ⟨fun e => ?_, k2⟩
  rw [e, el_zero, mul_zero] at k1
  exact el_ne h0 h k1.symm

theorem fix_like (ho : o.Ok) (hl : Like o o') {sigma : Arr} (hs : sigma.Val) {x0 : Nat} (h0 : x0 ≠ 0) (hx : x0 < 8192) (buf : Buf) : ∀ n,
    fix o' sigma x0 buf n = fix o sigma x0 buf n ∧ (fix o sigma x0 buf n).2 ≠ 0 ∧ (fix o sigma x0 buf n).2 < 8192 := by
  intro n
  induction n with
  | zero => exact ⟨rfl, h0, hx⟩
  | succ n ih =>
    obtain ⟨e, h1, h2⟩ := ih
    rw [fix, fix, e]
    generalize fix o sigma x0 buf n = r at h1 h2
    obtain ⟨b, x⟩ := r
    dsimp only at h1 h2 ⊢
    rw [polyEval_like ho hl hs h1 h2, hl.divx _ h1 h2]
    exact ⟨rfl, divx_ne ho h1 h2⟩

/-- C65: whatever the chunk and the ECC bytes are, bch_repair uses the field operations on non-zero field elements only: with
operations that agree with those of the library there, and do anything otherwise, the result is the same. (The only operand that can be
zero is the dividend of the one division whose result is then not used.) -/
theorem bch_repair_in_field (o : Ops) (ho : o ∈ builds) (o' : Ops) (hl : Like o o') (d : Def) (chunk : Buf) (len : Nat) (ecc : Buf) :
    repair o' d chunk len ecc = repair o d chunk len ecc := by
  have hok := builds_ok ho
  have hsyn : (fun i => syndrome o' d chunk len (unpackPoly d ecc) (synX o' i)) = fun i => syndrome o d chunk len (unpackPoly d ecc) (synX o i) := by
    funext i
    obtain ⟨_, h1, h2⟩ := synX_el hok i
    rw [synX_like hok hl, (syndrome_like hok hl h2 h1 d chunk len _).1]
  have hval : Arr.Val fun i => syndrome o d chunk len (unpackPoly d ecc) (synX o i) := by
    intro i
    obtain ⟨_, h1, h2⟩ := synX_el hok i
    exact (syndrome_like hok hl h2 h1 d chunk len _).2
  obtain ⟨e1, v1⟩ := massey_like hok hl hval d.syns
  obtain ⟨e2, k1, k2⟩ := fix_like hok hl v1 (x0 := 1) (by decide) (by decide) chunk (len <<< 3)
  unfold repair
  dsimp only
  rw [hsyn, e1, e2]
  rw [(fix_like hok hl v1 k1 k2 ecc d.degree).1]

/-- C65: both builds of the library do the same with every word, repairable or not. -/
theorem bch_builds_agree (d : Def) (chunk : Buf) (len : Nat) (ecc : Buf) : repair tables d chunk len ecc = repair plain d chunk len ecc := by
  refine bch_repair_in_field plain (by simp [builds]) tables ⟨?_, ?_, ?_, ?_⟩ d chunk len ecc
  · intro a b h1 h2 h3 h4; exact (gf13_builds_agree h1 h2 h3 h4).1
  · intro a b h1 h2 h3 h4; exact (gf13_builds_agree h1 h2 h3 h4).2.1
  · intro a h1 h2; exact (gf13_builds_agree h1 h2 h1 h2).2.2.1
  · intro a h1 h2; exact (gf13_builds_agree h1 h2 h1 h2).2.2.2

/-- C65: the inner loop of berlekamp_massey (ecc/bch.c:206-211) stays in its arrays: in round `n` its index runs to `L ≤ n`, so `s[n - i]` is
one of the syndromes computed and, there being at most 8 rounds, `C[i]` is one of the 16 coefficients; and poly_add's shift is positive. -/
theorem massey_indices (o : Ops) (ho : o ∈ builds) (s : Arr) (hs : s.Val) (n : Nat) : (bmLoop o s n).L ≤ n ∧ 1 ≤ (bmLoop o s n).m := by
  have h := (bmLoop_like (builds_ok ho) (o' := o) ⟨fun _ _ _ _ _ _ => rfl, fun _ _ _ _ _ _ => rfl, fun _ _ _ => rfl, fun _ _ _ => rfl⟩ hs n).2
  exact ⟨h.len, h.shift⟩

/-! ### Only the bytes given -/

theorem chunkRemainder_agree (d : Def) {a b : Buf} : ∀ n, Agree n a b → chunkRemainder d a n = chunkRemainder d b n := by
  intro n
  induction n with
  | zero => intro _; rfl
  | succ n ih => intro h; rw [chunkRemainder, chunkRemainder, ih (fun i hi => h i (by omega)), h n (by omega)]

theorem unpackLoop_agree {a b : Buf} : ∀ n q, Agree n a b → unpackLoop a n q = unpackLoop b n q := by
  intro n
  induction n with
  | zero => intro _ _; rfl
  | succ n ih => intro q h; rw [unpackLoop, unpackLoop, h n (by omega), ih _ (fun i hi => h i (by omega))]

theorem packPoly_out : ∀ n i q (e : Buf) j, j < i ∨ i + n ≤ j → packPoly n i q e j = e j := by
  intro n
  induction n with
  | zero => intro i q e j _; rfl
  | succ n ih =>
    intro i q e j h
    rw [packPoly, ih _ _ _ _ (by omega)]
    exact if_neg (by omega)

theorem packPoly_in : ∀ n i q (e e' : Buf) j, i ≤ j → j < i + n → packPoly n i q e j = packPoly n i q e' j := by
  intro n
  induction n with
  | zero => intro i q e e' j h1 h2; omega
  | succ n ih =>
    intro i q e e' j h1 h2
    rw [packPoly, packPoly]
    by_cases h : j = i
    · rw [packPoly_out _ _ _ _ _ (by omega), packPoly_out _ _ _ _ _ (by omega)]
      simp only [h, if_true]
    · exact ih _ _ _ _ _ (by omega) (by omega)

theorem synChunk_agree (o : Ops) {a b : Buf} (x : Nat) : ∀ n, Agree n a b → synChunk o a x n = synChunk o b x n := by
  intro n
  induction n with
  | zero => intro _; rfl
  | succ n ih => intro h; rw [synChunk, synChunk, ih (fun i hi => h i (by omega)), h n (by omega)]

theorem fix_agree (o : Ops) (sigma : Arr) (x0 : Nat) {a b : Buf} (m : Nat) (h : Agree m a b) : ∀ n, 
    (fix o sigma x0 a n).2 = (fix o sigma x0 b n).2 ∧ Agree m (fix o sigma x0 a n).1 (fix o sigma x0 b n).1 := by
  intro n
  induction n with
  | zero => exact ⟨rfl, h⟩
  | succ n ih =>
    obtain ⟨e, hg⟩ := ih
    rw [fix, fix]
    generalize fix o sigma x0 a n = u at e hg
    generalize fix o sigma x0 b n = v at e hg
    obtain ⟨u, x⟩ := u
    obtain ⟨v, y⟩ := v
    dsimp only at e hg ⊢
    subst e
    refine ⟨rfl, ?_⟩
    intro i hi
    split
    · dsimp only; rw [hg i hi]
    · exact hg i hi

theorem fix_out (o : Ops) (sigma : Arr) (x0 : Nat) (a : Buf) : ∀ n i, n ≤ 8 * i → (fix o sigma x0 a n).1 i = a i := by
  intro n
  induction n with
  | zero => intro i _; rfl
  | succ n ih =>
    intro i hi
    have := ih i (by omega)
    rw [fix]
    generalize fix o sigma x0 a n = u at this
    obtain ⟨u, x⟩ := u
    dsimp only at this ⊢
    split
    · have : i ≠ n >>> 3 := by rw [Nat.shiftRight_eq_div_pow]; omega
      dsimp only; rw [if_neg this]; assumption
    · exact this

/-- C65: bch_generate, bch_verify and bch_repair look at `len` bytes of the chunk and the code's ECC bytes and at nothing else, and write nothing
else, whatever these bytes are. -/
theorem bch_local (o : Ops) (d : Def) (hd : d ∈ codes) (len : Nat) (a b e f : Buf) (h : Agree len a b) :
    Agree d.eccBytes (generate d a len e) (generate d b len f) ∧ (∀ i, d.eccBytes ≤ i → generate d a len e i = e i) ∧
    (Agree d.eccBytes e f → verify d a len e = verify d b len f ∧
      Agree len (repair o d a len e).1 (repair o d b len f).1 ∧ Agree d.eccBytes (repair o d a len e).2 (repair o d b len f).2) ∧
    (∀ i, len ≤ i → (repair o d a len e).1 i = a i) ∧ (∀ i, d.eccBytes ≤ i → (repair o d a len e).2 i = e i) := by
  have e8 : len <<< 3 = 8 * len := by rw [Nat.shiftLeft_eq]; omega
  refine ⟨fun i hi => ?_, fun i hi => ?_, fun he => ?_, fun i hi => ?_, fun i hi => ?_⟩
  · unfold generate
    rw [chunkRemainder_agree d len h]
    exact packPoly_in _ _ _ _ _ _ (by omega) (by omega)
  · exact packPoly_out _ _ _ _ _ (by omega)
  · have hu : unpackPoly d e = unpackPoly d f := by unfold unpackPoly; rw [unpackLoop_agree _ _ he]
    refine ⟨by unfold verify; rw [chunkRemainder_agree d len h, hu], ?_⟩
    have hs : (fun i => syndrome o d a len (unpackPoly d e) (synX o i)) = fun i => syndrome o d b len (unpackPoly d f) (synX o i) := by
      funext i
      unfold syndrome
      rw [synChunk_agree o _ len h, hu]
    unfold repair
    dsimp only
    rw [hs]
    obtain ⟨k1, k2⟩ := fix_agree o (berlekampMassey o (fun i => syndrome o d b len (unpackPoly d f) (synX o i)) d.syns) 1 len h (len <<< 3)
    refine ⟨k2, ?_⟩
    rw [k1]
    exact (fix_agree o _ _ _ he _).2
  · unfold repair; exact fix_out o _ _ _ _ i (by omega)
  · have := (codes_ok hd).fits
    unfold repair; exact fix_out o _ _ _ _ i (by omega)

/-- A word with far too many errors: both builds do the same with it, and it is not repaired. -/
example : let chunk : Buf := fun i => UInt8.ofNat (i * 91 + 3)
    verify bch2 chunk 3 (fun _ => 0x5a) = -1 ∧
    verify bch2 (repair tables bch2 chunk 3 (fun _ => 0x5a)).1 3 (repair tables bch2 chunk 3 (fun _ => 0x5a)).2 = -1 := by
  refine ⟨by decide +kernel, by decide +kernel⟩

end Bch

namespace Crc

/-- C65: crc32_nand looks at the `n` bytes of the block only. -/
theorem crc_local {a b : Buf} (carry : Nat) : ∀ n, Agree n a b → crc a carry n = crc b carry n := by
  intro n
  induction n with
  | zero => intro _; rfl
  | succ n ih => intro h; rw [crc, crc, ih (fun i hi => h i (by omega)), h n (by omega)]

end Crc

namespace Hamming

theorem scanLoop_agree {a b : Buf} : ∀ n, Agree n a b → scanLoop a n = scanLoop b n := by
  intro n
  induction n with
  | zero => intro _; rfl
  | succ n ih => intro h; rw [scanLoop, scanLoop, ih (fun i hi => h i (by omega)), h n (by omega)]

/-- C65: the Hamming functions look at `len` bytes of the chunk and three ECC bytes only, and hamming_repair, whatever syndrome it is given,
changes at most one bit, inside the chunk. -/
theorem hamming_local (len : Nat) (a b e f : Buf) (h : Agree len a b) :
    generate a len = generate b len ∧ (Agree 3 e f → syndrome a len e = syndrome b len f) ∧
    ∀ syn, (repair a len syn).1 = (repair b len syn).1 ∧ Agree len (repair a len syn).2 (repair b len syn).2 ∧
      ((repair a len syn).2 = a ∨ ∃ p, p < 8 * len ∧ (repair a len syn).2 = flipBit a p) := by
  have hp : parityScan a len = parityScan b len := by unfold parityScan; rw [scanLoop_agree len h]
  refine ⟨by unfold generate; rw [hp], fun he => ?_, fun syn => ?_⟩
  · unfold syndrome; rw [hp, he 0 (by decide), he 1 (by decide), he 2 (by decide)]
  · unfold repair
    split
    · exact ⟨rfl, h, Or.inl rfl⟩
    · split
      · exact ⟨rfl, h, Or.inl rfl⟩
      · split
        · exact ⟨rfl, h, Or.inl rfl⟩
        · rename_i pos _
          split
          · rename_i hlt
            refine ⟨rfl, fun i hi => by dsimp only; rw [h i hi], Or.inr ⟨pos, ?_, ?_⟩⟩
            · rw [Nat.shiftRight_eq_div_pow] at hlt; omega
            · funext i
              show _ = flipBit a pos i
              unfold flipBit
              rw [show pos >>> 3 = pos / 8 from Nat.shiftRight_eq_div_pow pos 3, show pos &&& 7 = pos % 8 from Nat.and_two_pow_sub_one_eq_mod pos 3,
                Nat.one_shiftLeft]
          · exact ⟨rfl, h, Or.inl rfl⟩

/-- A syndrome that moves a bit, and one that is refused. -/
example : (repair Buf.ff 4 0x555555).1 = 0 ∧ (repair Buf.ff 4 0x555554).1 = -1 ∧ (repair Buf.ff 512 0x555555).2 511 ≠ 0xff := by decide +kernel

end Hamming
end Dhara

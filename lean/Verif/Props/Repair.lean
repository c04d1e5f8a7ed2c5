/-
Property C31: bch_repair.
-/
import Verif.Ecc.RepairProofs
namespace Dhara.Bch
open Polynomial Dhara Dhara.Gf13

/-- `b'` is `b` with exactly the bits in `E` flipped. -/
def Flipped (b b' : Buf) (E : Finset Nat) : Prop := ∀ i, b'.bit i = (b.bit i ^^ decide (i ∈ E))

/-- The number of bit errors the code is made for: half the number of syndromes. -/
def Def.capacity (d : Def) : Nat := d.syns / 2

theorem capacities : bch1.capacity = 1 ∧ bch2.capacity = 2 ∧ bch3.capacity = 3 ∧ bch4.capacity = 4 := by decide

/-- The two builds of the field arithmetic. -/
def builds : List Ops := [tables, plain]

theorem builds_ok {o : Ops} (h : o ∈ builds) : o.Ok := by
  simp only [builds, List.mem_cons, List.not_mem_nil, or_false] at h
  rcases h with h | h <;> subst h
  · exact tables_ok
  · exact plain_ok

theorem flip_bit (b : Buf) (p j : Nat) : (flipBit b p).bit j = (b.bit j ^^ decide (j = p)) := by
  unfold Buf.bit flipBit
  by_cases h : j / 8 = p / 8
  · rw [if_pos h, UInt8.toNat_xor, Nat.testBit_xor, UInt8.toNat_ofNat', Nat.testBit_mod_two_pow, Nat.testBit_two_pow]
    congr 1
    by_cases e : j = p
    · subst e; simp; omega
    · have : p % 8 ≠ j % 8 := by omega
      simp [e, this]
  · have : j ≠ p := fun e => h (by rw [e])
    rw [if_neg h]; simp [this]

theorem fix_flip (b : Buf) (i : Nat) :
    (fun j => if j = i >>> 3 then b j ^^^ UInt8.ofNat (1 <<< (i &&& 7)) else b j) = flipBit b i := by
  unfold flipBit
  funext j
  rw [Nat.shiftRight_eq_div_pow, show (7:Nat) = 2 ^ 3 - 1 from rfl, Nat.and_two_pow_sub_one_eq_mod, Nat.one_shiftLeft]

theorem buf_ext {a b : Buf} (h : ∀ i, a.bit i = b.bit i) : a = b := by
  funext k
  apply UInt8.toNat_inj.1
  apply Nat.eq_of_testBit_eq
  intro i
  by_cases hi : i < 8
  · have := h (8 * k + i)
    unfold Buf.bit at this
    rwa [show (8 * k + i) / 8 = k by omega, show (8 * k + i) % 8 = i by omega] at this
  · have hl : ∀ x : UInt8, x.toNat.testBit i = false := fun x =>
      Nat.testBit_lt_two_pow (Nat.lt_of_lt_of_le (UInt8.toNat_lt x) (Nat.pow_le_pow_right (by decide) (by omega : 8 ≤ i)))
    rw [hl, hl]

variable {o : Ops}

theorem fix_spec (ho : o.Ok) {sigma : Arr} (hs : sigma.Val) {x0 : Nat} (h0 : x0 ≠ 0) (hx : x0 < 8192) (buf : Buf) (E : Finset Nat) : ∀ n,
    (∀ j, j < n → ((polyOf sigma).eval (el x0 * (α ^ j)⁻¹) = 0 ↔ j ∈ E)) →
    (fix o sigma x0 buf n).2 < 8192 ∧ (fix o sigma x0 buf n).2 ≠ 0 ∧ el (fix o sigma x0 buf n).2 * α ^ n = el x0 ∧
    ∀ j, (fix o sigma x0 buf n).1.bit j = (buf.bit j ^^ decide (j < n ∧ j ∈ E)) := by
  intro n
  induction n with
  | zero => intro _; exact ⟨hx, h0, by rw [pow_zero, mul_one]; rfl, fun j => by simp [fix]⟩
  | succ n ih =>
    intro hz
    obtain ⟨i1, i2, i3, i4⟩ := ih (fun j hj => hz j (by omega))
    unfold fix
    generalize fix o sigma x0 buf n = r at i1 i2 i3 i4
    obtain ⟨b, x⟩ := r
    dsimp only at i1 i2 i3 i4 ⊢
    obtain ⟨k1, k2⟩ := ho.divx i2 i1
    have k3 : el (o.divx x) * α ^ (n + 1) = el x0 := by rw [← i3, ← k1]; ring
    have hxe : el x = el x0 * (α ^ n)⁻¹ := by
      rw [← i3, mul_assoc, mul_inv_cancel₀ (pow_ne_zero _ α_ne), mul_one]
    have hz' := hz n (by omega)
    rw [← hxe, ← polyEval_zero ho hs i2 i1] at hz'
    refine ⟨k2, ne_of_el ?_, k3, fun j => ?_⟩
    · intro e; rw [e, zero_mul] at k3; exact el_ne h0 hx k3.symm
    · by_cases hp : polyEval o sigma x = 0
      · rw [if_pos hp, fix_flip, flip_bit, i4]
        have hE := hz'.1 hp
        by_cases e : j = n
        · subst e; simp [hE]
        · have e1 : decide (j = n) = false := by simp [e]
          have e2 : (j < n + 1 ∧ j ∈ E) ↔ (j < n ∧ j ∈ E) := by constructor <;> rintro ⟨a, b⟩ <;> exact ⟨by omega, b⟩
          rw [e1, Bool.xor_false, decide_eq_decide.2 e2]
      · rw [if_neg hp, i4]
        have hE : n ∉ E := fun h => hp (hz'.2 h)
        have e2 : (j < n + 1 ∧ j ∈ E) ↔ (j < n ∧ j ∈ E) := by
          constructor
          · rintro ⟨a, b⟩
            refine ⟨?_, b⟩
            have : j ≠ n := fun e => hE (e ▸ b)
            omega
          · rintro ⟨a, b⟩; exact ⟨by omega, b⟩
        rw [decide_eq_decide.2 e2]

/-- Flipping bits adds powers of X to the word. -/
theorem bitPoly_flipped {b b' : Buf} {E : Finset Nat} (h : Flipped b b' E) (n : Nat) :
    bitPoly (fun i => !b'.bit i) n = bitPoly (fun i => !b.bit i) n + ∑ e ∈ E.filter (· < n), X ^ e := by
  have e1 : ∑ e ∈ E.filter (· < n), (X : (ZMod 2)[X]) ^ e = bitPoly (fun i => decide (i ∈ E)) n := by
    unfold bitPoly
    rw [← Finset.sum_filter]
    apply Finset.sum_congr _ (fun _ _ => rfl)
    ext i
    simp only [Finset.mem_filter, Finset.mem_range, decide_eq_true_eq]
    exact and_comm
  rw [e1]
  ext i
  rw [coeff_add, bitPoly_coeff, bitPoly_coeff, bitPoly_coeff, h i]
  by_cases hi : i < n
  · simp only [hi, true_and, decide_eq_true_eq]
    have := zmod2_add (!b.bit i) (decide (i ∈ E))
    simp only [decide_eq_true_eq] at this
    rw [this]
    cases b.bit i <;> cases decide (i ∈ E) <;> rfl
  · simp [hi]

/-- The received word is the stored one plus the errors. -/
theorem codeword_flipped (d : Def) {chunk chunk' ecc ecc' : Buf} {E₁ E₂ : Finset Nat} (len : Nat) (h1 : Flipped chunk chunk' E₁)
    (h2 : Flipped ecc ecc' E₂) : codeword d chunk' len ecc' = codeword d chunk len ecc +
      ((∑ e ∈ E₁.filter (· < 8 * len), X ^ e) + ∑ e ∈ E₂.filter (· < d.degree), X ^ (8 * len + e)) := by
  unfold codeword
  rw [bitPoly_flipped h1, bitPoly_flipped h2, mul_add, Finset.mul_sum]
  simp only [← pow_add]
  ring

/-- C31, general form. A chunk and ECC that verify suffer bit errors: `E₁` in the chunk, `E₂` in the ECC bytes, of which at
most the code's capacity fall in the chunk and the `degree` ECC bits that count. Then bch_repair restores the chunk and all
those ECC bits, and leaves the spare bits of the ECC bytes as it found them. -/
theorem bch_repair_corrects (o : Ops) (ho : o ∈ builds) (d : Def) (hd : d ∈ codes) (len : Nat) (hlen : 8 * len + d.degree ≤ 8191)
    (chunk ecc chunk' ecc' : Buf) (hv : verify d chunk len ecc = 0) (E₁ E₂ : Finset Nat)
    (h1 : Flipped chunk chunk' E₁) (h2 : Flipped ecc ecc' E₂) (he1 : ∀ i ∈ E₁, i < 8 * len)
    (hcap : E₁.card + (E₂.filter (· < d.degree)).card ≤ d.capacity) :
    (repair o d chunk' len ecc').1 = chunk ∧
    ∀ i, (repair o d chunk' len ecc').2.bit i = if i < d.degree then ecc.bit i else ecc'.bit i := by
  have hO := builds_ok ho
  have hok := codes_ok hd
  have hN : d.syns ≤ 8 ∧ 2 * d.capacity ≤ d.syns := by
    simp only [codes, List.mem_cons, List.not_mem_nil, or_false] at hd
    rcases hd with h | h | h | h <;> subst h <;> decide
  -- all error positions
  let E : Finset Nat := E₁ ∪ (E₂.filter (· < d.degree)).image (8 * len + ·)
  have hE1 : ∀ j, j < 8 * len → (j ∈ E ↔ j ∈ E₁) := by
    intro j hj
    simp only [E, Finset.mem_union, Finset.mem_image, Finset.mem_filter]
    constructor
    · rintro (h | ⟨a, _, h⟩)
      · exact h
      · omega
    · exact Or.inl
  have hE2 : ∀ j, j < d.degree → (8 * len + j ∈ E ↔ j ∈ E₂) := by
    intro j hj
    simp only [E, Finset.mem_union, Finset.mem_image, Finset.mem_filter]
    constructor
    · rintro (h | ⟨a, ha, h⟩)
      · have := he1 _ h; omega
      · rw [show j = a by omega]; exact ha.1
    · intro h; exact Or.inr ⟨j, ⟨h, hj⟩, rfl⟩
  have hlt : ∀ e ∈ E, e < 8191 := by
    intro e he
    simp only [E, Finset.mem_union, Finset.mem_image, Finset.mem_filter] at he
    rcases he with h | ⟨a, ha, h⟩
    · have := he1 _ h; have := hok.ge; omega
    · omega
  have hcard : 2 * E.card ≤ d.syns := by
    have k1 := Finset.card_union_le E₁ ((E₂.filter (· < d.degree)).image (8 * len + ·))
    have k2 := Finset.card_image_le (s := E₂.filter (· < d.degree)) (f := (8 * len + ·))
    have : E.card ≤ d.capacity := by show (E₁ ∪ _).card ≤ _; omega
    omega
  have hdisj : Disjoint E₁ ((E₂.filter (· < d.degree)).image (8 * len + ·)) := by
    rw [Finset.disjoint_left]
    intro j hj hj'
    rw [Finset.mem_image] at hj'
    obtain ⟨a, _, h⟩ := hj'
    have := he1 _ hj; omega
  have hword : codeword d chunk' len ecc' = codeword d chunk len ecc + ∑ e ∈ E, X ^ e := by
    rw [codeword_flipped d len h1 h2]
    congr 1
    show _ = ∑ e ∈ E₁ ∪ _, X ^ e
    rw [Finset.sum_union hdisj, Finset.sum_image (fun a _ b _ h => by simpa using h)]
    congr 1
    rw [Finset.filter_true_of_mem he1]
  -- the syndromes are power sums
  have hgen := (bch_verify_exact d hd chunk len ecc).1 hv
  let syns : Arr := fun i => syndrome o d chunk' len (unpackPoly d ecc') (synX o i)
  have hsv : syns.Val := fun i => by
    obtain ⟨_, x2, x3⟩ := synX_el hO i
    exact (syndrome_el hO hok x3 x2 chunk' len ecc').2
  have hsum : ∀ k, k < d.syns → el (syns k) = ∑ e ∈ E, (α ^ e) ^ (k + 1) := by
    intro k hk
    obtain ⟨x1, x2, x3⟩ := synX_el hO k
    show el (syndrome o d chunk' len (unpackPoly d ecc') (synX o k)) = _
    rw [(syndrome_el hO hok x3 x2 chunk' len ecc').1, hword, map_add, x1]
    obtain ⟨q, hq⟩ := hgen
    rw [hq, map_mul, gen_root hd hk, zero_mul, zero_add, map_sum]
    apply Finset.sum_congr rfl
    intro e _
    rw [map_pow, aeval_X, ← pow_mul, ← pow_mul, Nat.mul_comm]
  obtain ⟨s1, s2⟩ := bm_roots hO hsv hN.1 E hcard hlt hsum
  have hroot : ∀ j, j < 8191 → ((polyOf (berlekampMassey o syns d.syns)).eval (α ^ j)⁻¹ = 0 ↔ j ∈ E) := by
    intro j hj
    rw [s2]
    constructor
    · rintro ⟨e, he, h⟩
      rwa [α_inj hj (hlt e he) (inv_injective h)]
    · intro h; exact ⟨j, h, rfl⟩
  -- the corrections
  have f1 := fix_spec hO s1 (x0 := 1) (by decide) (by decide) chunk' E₁ (len <<< 3) (by
    intro j hj
    rw [Nat.shiftLeft_eq] at hj
    rw [el_one, one_mul, hroot j (by omega), hE1 j (by omega)])
  have e8 : len <<< 3 = 8 * len := by rw [Nat.shiftLeft_eq]; omega
  obtain ⟨a1, a2, a3, a4⟩ := f1
  have hx : el (fix o (berlekampMassey o syns d.syns) 1 chunk' (len <<< 3)).2 = (α ^ (8 * len))⁻¹ := by
    rw [e8, el_one] at a3
    rw [e8]
    exact eq_inv_of_mul_eq_one_left a3
  have f2 := fix_spec hO s1 a2 a1 ecc' E₂ d.degree (by
    intro j hj
    rw [hx, ← mul_inv, ← pow_add, hroot _ (by omega), hE2 j hj])
  obtain ⟨_, _, _, b4⟩ := f2
  refine ⟨buf_ext (fun j => ?_), fun j => ?_⟩
  · show (fix o (berlekampMassey o syns d.syns) 1 chunk' (len <<< 3)).1.bit j = _
    rw [a4 j, h1 j, e8]
    by_cases hj : j ∈ E₁
    · simp [hj, he1 j hj]
    · simp [hj]
  · show (fix o (berlekampMassey o syns d.syns) _ ecc' d.degree).1.bit j = _
    rw [b4 j]
    by_cases hj : j < d.degree
    · rw [if_pos hj, h2 j]; simp [hj]
    · rw [if_neg hj]; simp [hj]

/-- C31: any set of at most t bit errors in a chunk of at most 1016 bytes and its t-bit ECC is undone by bch_repair, in both
builds. (`d.degree` is the number of ECC bits that carry information.) -/
theorem bch_repair_restores (o : Ops) (ho : o ∈ builds) (d : Def) (hd : d ∈ codes) (len : Nat) (hlen : len ≤ 1016)
    (chunk ecc chunk' ecc' : Buf) (hv : verify d chunk len ecc = 0) (E₁ E₂ : Finset Nat)
    (h1 : Flipped chunk chunk' E₁) (h2 : Flipped ecc ecc' E₂) (he1 : ∀ i ∈ E₁, i < 8 * len) (he2 : ∀ i ∈ E₂, i < d.degree)
    (hcap : E₁.card + E₂.card ≤ d.capacity) : repair o d chunk' len ecc' = (chunk, ecc) := by
  have hdeg : d.degree ≤ 52 := by
    simp only [codes, List.mem_cons, List.not_mem_nil, or_false] at hd
    rcases hd with h | h | h | h <;> subst h <;> decide
  have hf : E₂.filter (· < d.degree) = E₂ := Finset.filter_true_of_mem he2
  obtain ⟨k1, k2⟩ := bch_repair_corrects o ho d hd len (by omega) chunk ecc chunk' ecc' hv E₁ E₂ h1 h2 he1 (by rw [hf]; exact hcap)
  refine Prod.ext k1 (buf_ext fun i => ?_)
  rw [k2 i]
  split
  · rfl
  · rename_i h
    have : i ∉ E₂ := fun hi => h (he2 i hi)
    rw [h2 i]; simp [this]

/-- C31: the same, from generation to repair: whatever is written with the ECC of bch_generate is recovered, and verifies. -/
theorem bch_round_trip (o : Ops) (ho : o ∈ builds) (d : Def) (hd : d ∈ codes) (len : Nat) (hlen : len ≤ 1016)
    (chunk old chunk' ecc' : Buf) (E₁ E₂ : Finset Nat) (h1 : Flipped chunk chunk' E₁) (h2 : Flipped (generate d chunk len old) ecc' E₂)
    (he1 : ∀ i ∈ E₁, i < 8 * len) (he2 : ∀ i ∈ E₂, i < d.degree) (hcap : E₁.card + E₂.card ≤ d.capacity) :
    (repair o d chunk' len ecc').1 = chunk ∧ (repair o d chunk' len ecc').2 = generate d chunk len old ∧
    verify d (repair o d chunk' len ecc').1 len (repair o d chunk' len ecc').2 = 0 := by
  have hv := bch_generate_verifies d hd chunk len old
  rw [bch_repair_restores o ho d hd len hlen chunk _ chunk' ecc' hv E₁ E₂ h1 h2 he1 he2 hcap]
  exact ⟨rfl, rfl, hv⟩

/-- C31: bch_repair does nothing to a word that verifies. -/
theorem bch_repair_idle (o : Ops) (ho : o ∈ builds) (d : Def) (hd : d ∈ codes) (len : Nat) (hlen : len ≤ 1016)
    (chunk ecc : Buf) (hv : verify d chunk len ecc = 0) : repair o d chunk len ecc = (chunk, ecc) :=
  bch_repair_restores o ho d hd len hlen chunk ecc chunk ecc hv ∅ ∅ (fun i => by simp) (fun i => by simp) (by simp) (by simp)
    (by simp)

theorem fix_frame (o : Ops) (sigma : Arr) (x0 : Nat) (buf : Buf) : ∀ n j, n ≤ j → (fix o sigma x0 buf n).1.bit j = buf.bit j := by
  intro n
  induction n with
  | zero => intro j _; rfl
  | succ n ih =>
    intro j hj
    have hi := ih j (by omega)
    unfold fix
    generalize fix o sigma x0 buf n = r at hi
    obtain ⟨b, x⟩ := r
    dsimp only at hi ⊢
    split
    · rw [fix_flip, flip_bit, hi]
      simp [show j ≠ n by omega]
    · exact hi

/-- C31: whatever the errors, bch_repair changes nothing but the chunk and the ECC bits that count. -/
theorem bch_repair_frame (o : Ops) (d : Def) (chunk : Buf) (len : Nat) (ecc : Buf) (i : Nat) :
    (8 * len ≤ i → (repair o d chunk len ecc).1.bit i = chunk.bit i) ∧ (d.degree ≤ i → (repair o d chunk len ecc).2.bit i = ecc.bit i) := by
  have e8 : len <<< 3 = 8 * len := by rw [Nat.shiftLeft_eq]; omega
  refine ⟨fun h => ?_, fun h => ?_⟩
  · unfold repair; exact fix_frame o _ _ _ _ i (by omega)
  · unfold repair; exact fix_frame o _ _ _ _ i h

/-- A concrete case: two errors, one in the chunk and one in the ECC, with both builds; the repaired word is the original,
and the damaged one did not verify. -/
example :
    let chunk : Buf := fun i => UInt8.ofNat (i * 37 + 5)
    let ecc := generate bch2 chunk 3 Buf.ff
    let chunk' := flipBit chunk 13
    let ecc' := flipBit ecc 7
    verify bch2 chunk 3 ecc = 0 ∧ verify bch2 chunk' 3 ecc' = -1 ∧
    (∀ o ∈ builds, ((List.range 3).all fun i => (repair o bch2 chunk' 3 ecc').1 i == chunk i) = true) ∧
    Flipped chunk chunk' {13} ∧ Flipped ecc ecc' {7} := by
  refine ⟨by decide +kernel, by decide +kernel, ?_, fun i => by rw [flip_bit]; simp, fun i => by rw [flip_bit]; simp⟩
  intro o ho
  simp only [builds, List.mem_cons, List.not_mem_nil, or_false] at ho
  rcases ho with h | h <;> subst h
  · decide +kernel
  · decide +kernel

end Dhara.Bch

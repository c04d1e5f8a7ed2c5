/-
Property C64: tools/gentab.c, the program that made the table of ecc/crc32.c, from its argument to its output.

`wordPoly a` is the polynomial over GF(2) whose coefficient at x^i is bit i of `a`, `bitPoly f n` the one with coefficient
`f i` at x^i for i < n (Verif/Ecc/Spec.lean). The argument is a reflected polynomial without its highest power, so bit i
of it stands for x^(i+1) here, where the first bit of a message has the lowest power: the divisor is 1 + x * wordPoly P.
-/
import Verif.Ecc.Gentab
import Verif.Ecc.CrcProofs
namespace Dhara.Gentab
open Polynomial Dhara

/-! ### Vocabulary -/

/-- The character code of a hexadecimal digit. -/
def hexChar (v : Nat) (upper : Bool) : Nat := if v < 10 then 48 + v else if upper then 55 + v else 87 + v

/-- The value of a list of hexadecimal digits, highest first. -/
def value (ds : List Nat) : Nat := ds.foldl (fun r d => 16 * r + d) 0

/-- `out` is 256 entries, in the syntax of an initialiser with four on a line, and reads as the table `T`. -/
def Reads (out : List Nat) (T : List Nat) : Prop :=
  out.length = 12 * 256 ∧ T.length = 256 ∧ ∀ i, i < 256 → ∃ ds : List Nat, ds.length = 8 ∧ (∀ d ∈ ds, d < 16) ∧ value ds = T.getD i 0 ∧
    (out.drop (12 * i)).take 12 = [48, 120] ++ ds.map (hexChar · false) ++ [44, if i % 4 = 3 then 10 else 32]

/-- The ordinary use of such a table, a byte at a time: crc32.c:96-99 without the inversions. -/
def tableRun (T : List Nat) (msg : Buf) (r0 : Nat) : Nat → Nat
  | 0 => r0
  | n + 1 => (tableRun T msg r0 n >>> 8) ^^^ T.getD ((tableRun T msg r0 n ^^^ (msg n).toNat) &&& 0xff) 0

/-- The divisor the argument stands for. -/
noncomputable def divisor (P : Nat) : (ZMod 2)[X] := 1 + X * wordPoly P

/-! ### Reading the argument -/

theorem digit_hex {v : Nat} (hv : v < 16) (u : Bool) : digit (hexChar v u) = some v := by
  revert u v; decide

theorem parseDigits_hex : ∀ (ds : List (Nat × Bool)) (r : Nat), (∀ x ∈ ds, x.1 < 16) → r < 2 ^ 32 →
    parseDigits (ds.map fun x => hexChar x.1 x.2) r = some (ds.foldl (fun r x => 16 * r + x.1) r % 2 ^ 32) := by
  intro ds
  induction ds with
  | nil => intro r _ hr; rw [List.map_nil, parseDigits, List.foldl_nil, Nat.mod_eq_of_lt hr]
  | cons x ds ih =>
    intro r hd hr
    have hx := hd x (List.mem_cons_self ..)
    have hfold : ∀ (l : List (Nat × Bool)) a b, a % 2 ^ 32 = b % 2 ^ 32 →
        l.foldl (fun r x => 16 * r + x.1) a % 2 ^ 32 = l.foldl (fun r x => 16 * r + x.1) b % 2 ^ 32 := by
      intro l
      induction l with
      | nil => intro a b h; exact h
      | cons y l ih => intro a b h; exact ih _ _ (show (16 * a + y.1) % 2 ^ 32 = (16 * b + y.1) % 2 ^ 32 by omega)
    have hs : (r <<< 4) % 2 ^ 32 ||| x.1 = (r <<< 4) % 2 ^ 32 + x.1 := by
      rw [Nat.shiftLeft_eq, show r * 2 ^ 4 % 2 ^ 32 = 2 ^ 4 * (r % 2 ^ 28) by omega]
      exact (Nat.two_pow_add_eq_or_of_lt (i := 4) hx _).symm
    rw [List.map_cons, parseDigits, digit_hex hx]
    simp only [hs]
    rw [ih _ (fun y hy => hd y (List.mem_cons_of_mem _ hy)) (by rw [Nat.shiftLeft_eq]; omega), List.foldl_cons]
    congr 1
    apply hfold
    rw [Nat.shiftLeft_eq]; omega

theorem drop_hex : ∀ (ds : List (Nat × Bool)), (∀ x ∈ ds, x.1 < 16) → ∃ es : List (Nat × Bool), (∀ x ∈ es, x.1 < 16) ∧
    (ds.map fun x => hexChar x.1 x.2).dropWhile (fun c => c == 48 || c == 120) = es.map (fun x => hexChar x.1 x.2) ∧
    es.foldl (fun r x => 16 * r + x.1) 0 = ds.foldl (fun r x => 16 * r + x.1) 0 := by
  intro ds
  induction ds with
  | nil => intro _; exact ⟨[], by simp, rfl, rfl⟩
  | cons x ds ih =>
    intro hd
    have hx := hd x (List.mem_cons_self ..)
    by_cases h0 : x.1 = 0
    · obtain ⟨es, h1, h2, h3⟩ := ih (fun y hy => hd y (List.mem_cons_of_mem _ hy))
      refine ⟨es, h1, ?_, ?_⟩
      · rw [List.map_cons, List.dropWhile_cons, if_pos (by rw [h0]; rfl), h2]
      · rw [List.foldl_cons, h0, h3]
    · refine ⟨x :: ds, hd, ?_, rfl⟩
      have : ∀ v, v < 16 → v ≠ 0 → ∀ u, (hexChar v u == 48 || hexChar v u == 120) = false := by decide
      rw [List.map_cons, List.dropWhile_cons, if_neg (by rw [this _ hx h0 _]; decide)]

theorem parse_hex (ds : List (Nat × Bool)) (hd : ∀ x ∈ ds, x.1 < 16) :
    parsePoly (ds.map fun x => hexChar x.1 x.2) = some (ds.foldl (fun r x => 16 * r + x.1) 0 % 2 ^ 32) := by
  obtain ⟨es, h1, h2, h3⟩ := drop_hex ds hd
  unfold parsePoly
  rw [h2, parseDigits_hex es 0 h1 (by decide), h3]

theorem parse_prefix (ds : List Nat) : parsePoly (48 :: 120 :: ds) = parsePoly ds := rfl

theorem fold_value : ∀ (ds : List (Nat × Bool)) a, ds.foldl (fun r x => 16 * r + x.1) a = (ds.map (·.1)).foldl (fun r d => 16 * r + d) a := by
  intro ds
  induction ds with
  | nil => intro a; rfl
  | cons x ds ih => intro a; exact ih _

/-! ### Printing the table -/

theorem hexChar_low {v : Nat} (hv : v < 16) : (if v < 10 then v + 48 else v + 87) = hexChar v false := by
  unfold hexChar
  by_cases h : v < 10
  · rw [if_pos h, if_pos h]; omega
  · rw [if_neg h, if_neg h, if_neg (by decide)]; omega

theorem hex8_digits {e : Nat} (he : e < 2 ^ 32) : ∃ ds : List Nat, ds.length = 8 ∧ (∀ d ∈ ds, d < 16) ∧ value ds = e ∧
    hex8 e = ds.map (hexChar · false) := by
  refine ⟨(List.range 8).map fun k => (e >>> (4 * (7 - k))) % 16, by simp, ?_, ?_, ?_⟩
  · intro d hd
    obtain ⟨k, _, rfl⟩ := List.mem_map.1 hd
    exact Nat.mod_lt _ (by decide)
  · simp only [value, List.range, List.range.loop, List.map_cons, List.map_nil, List.foldl_cons, List.foldl_nil, Nat.shiftRight_eq_div_pow]
    simp only [Nat.reduceSub, Nat.reduceMul, Nat.reducePow]
    omega
  · unfold hex8
    rw [List.map_map]
    apply List.map_congr_left
    intro k _
    exact hexChar_low (Nat.mod_lt _ (by decide))

theorem hex8_length (e : Nat) : (hex8 e).length = 8 := by simp [hex8]

theorem printEntry_length (T : List Nat) (i : Nat) : (printEntry T i).length = 12 := by
  simp [printEntry, hex8_length]

theorem drop_flatMap {f : Nat → List Nat} {k : Nat} (hf : ∀ i, (f i).length = k) : ∀ (l : List Nat) (i : Nat) (h : i < l.length),
    ((l.flatMap f).drop (k * i)).take k = f l[i] := by
  intro l
  induction l with
  | nil => intro i h; exact absurd h (Nat.not_lt_zero _)
  | cons x l ih =>
    intro i h
    cases i with
    | zero =>
      rw [Nat.mul_zero, List.drop_zero, List.flatMap_cons, List.getElem_cons_zero, ← hf x, List.take_left]
    | succ i =>
      rw [List.flatMap_cons, List.getElem_cons_succ, Nat.mul_succ, Nat.add_comm, ← List.drop_drop,
        show List.drop k (f x ++ List.flatMap f l) = List.flatMap f l by rw [← hf x, List.drop_left]]
      exact ih i (by simpa using h)

theorem print_reads {T : List Nat} (hl : T.length = 256) (hT : ∀ i, i < 256 → T.getD i 0 < 2 ^ 32) : Reads (printTable T) T := by
  refine ⟨?_, hl, ?_⟩
  · unfold printTable
    rw [List.length_flatMap, show (fun a => (printEntry T a).length) = fun _ => 12 from funext (printEntry_length T)]
    have : ∀ n, ((List.range n).map fun _ => 12).sum = 12 * n := by
      intro n
      induction n with
      | zero => rfl
      | succ n ih => rw [List.range_succ, List.map_append, List.sum_append, ih]; simp; omega
    exact this 256
  · intro i hi
    obtain ⟨ds, h1, h2, h3, h4⟩ := hex8_digits (hT i hi)
    refine ⟨ds, h1, h2, h3, ?_⟩
    unfold printTable
    rw [drop_flatMap (printEntry_length T) _ i (by simpa using hi), List.getElem_range, printEntry, h4]
    rw [show (3 : Nat) = 2 ^ 2 - 1 from rfl, Nat.and_two_pow_sub_one_eq_mod]

/-! ### What the table is -/

theorem fillEntry_eq (P : Nat) : ∀ k r, Crc.fillEntry P k r = lsteps (2 * P + 1) k r := by
  intro k
  induction k with
  | zero => intro r; rfl
  | succ k ih =>
    intro r
    rw [Crc.fillEntry, lsteps, ih]
    congr 1
    apply Nat.eq_of_testBit_eq
    intro i
    rw [lstep_bit, Nat.testBit_xor, Nat.testBit_shiftRight, Nat.add_comm 1 i]
    have : (2 * P + 1).testBit (i + 1) = P.testBit i := by
      rw [Nat.testBit_succ, show (2 * P + 1) / 2 = P by omega]
    rw [this]
    by_cases h : r.testBit 0 = true
    · rw [if_pos ((and_one_ne r).2 h), h, Bool.true_and]
    · rw [if_neg (fun k => h ((and_one_ne r).1 k))]
      simp [h]

theorem fill_getD (P : Nat) {i : Nat} (hi : i < 256) : (Crc.fillTable P).getD i 0 = lsteps (2 * P + 1) 8 i := by
  unfold Crc.fillTable
  rw [List.getD_eq_getElem?_getD, List.getElem?_map, List.getElem?_range hi]
  exact fillEntry_eq P 8 i

theorem lstep32 {P r : Nat} (hP : P < 2 ^ 32) (hr : r < 2 ^ 32) : lstep (2 * P + 1) r < 2 ^ 32 := by
  apply Nat.lt_pow_two_of_testBit
  intro i hi
  have hp : (2 : Nat) ^ 32 ≤ 2 ^ i := Nat.pow_le_pow_right (by decide) hi
  rw [lstep_bit, Nat.testBit_succ (2 * P + 1), show (2 * P + 1) / 2 = P by omega, Nat.testBit_lt_two_pow (by omega : P < 2 ^ i),
    Nat.testBit_lt_two_pow (show r < 2 ^ (i + 1) by rw [Nat.pow_succ]; omega)]
  simp

theorem lsteps32 {P : Nat} (hP : P < 2 ^ 32) : ∀ k r, r < 2 ^ 32 → lsteps (2 * P + 1) k r < 2 ^ 32 := by
  intro k
  induction k with
  | zero => intro r h; exact h
  | succ k ih => intro r h; exact ih _ (lstep32 hP h)

theorem lsteps_table (P x : Nat) : lsteps (2 * P + 1) 8 x = (x >>> 8) ^^^ (Crc.fillTable P).getD (x &&& 0xff) 0 := by
  have h : x = ((x >>> 8) <<< 8) ^^^ (x &&& 0xff) := by
    apply Nat.eq_of_testBit_eq
    intro i
    rw [show (0xff : Nat) = 2 ^ 8 - 1 from rfl, Nat.testBit_xor, Nat.testBit_shiftLeft, Nat.testBit_shiftRight, Nat.testBit_and,
      Nat.testBit_two_pow_sub_one]
    by_cases hi : i < 8
    · simp [hi, show ¬ 8 ≤ i by omega]
    · simp [hi, show 8 ≤ i by omega]
  have hlt : x &&& 0xff < 256 := Nat.lt_of_le_of_lt Nat.and_le_right (by decide)
  rw [fill_getD _ hlt]
  conv_lhs => rw [h]
  rw [lsteps_xor, lsteps_shl]

theorem run_reg (P : Nat) (msg : Buf) (r0 : Nat) : ∀ n, tableRun (Crc.fillTable P) msg r0 n = reg (2 * P + 1) (fun i => msg i ^^^ 0xff) r0 n := by
  intro n
  induction n with
  | zero => rfl
  | succ n ih =>
    rw [tableRun, reg, lsteps_table, ih]
    have e : (msg n ^^^ 0xff ^^^ 0xff) = msg n := by rw [UInt8.xor_assoc, UInt8.xor_self, UInt8.xor_zero]
    rw [e, Nat.shiftRight_xor_distrib, show (msg n).toNat >>> 8 = 0 from by
      rw [Nat.shiftRight_eq_div_pow]; exact Nat.div_eq_of_lt (msg n).toNat_lt, Nat.xor_zero]

theorem feedback {P : Nat} (h1 : 2 ^ 31 ≤ P) (h2 : P < 2 ^ 32) : Feedback (2 * P + 1) 32 where
  low := by rw [Nat.testBit_zero]; simp
  high := by
    rw [Nat.testBit_succ, show (2 * P + 1) / 2 = P by omega, Nat.testBit_eq_decide_div_mod_eq]
    simp; omega
  lt := by omega
  small := by decide

theorem divisor_word {P : Nat} (h2 : P < 2 ^ 32) : wordPoly (2 * P + 1) = divisor P := by
  unfold divisor
  ext i
  rw [wordPoly_coeff, coeff_add]
  cases i with
  | zero =>
    rw [coeff_X_mul_zero, coeff_one_zero, add_zero, if_pos ⟨by decide, by rw [Nat.testBit_zero]; simp⟩]
  | succ i =>
    rw [coeff_X_mul, coeff_one, if_neg (Nat.succ_ne_zero i), zero_add, wordPoly_coeff, Nat.testBit_succ, show (2 * P + 1) / 2 = P by omega]
    by_cases hi : i < 32
    · simp [show i < 64 by omega, show i + 1 < 64 by omega]
    · have hp : (2 : Nat) ^ 32 ≤ 2 ^ i := Nat.pow_le_pow_right (by decide) (by omega)
      rw [Nat.testBit_lt_two_pow (by omega : P < 2 ^ i)]; simp

/-! ### C64 -/

/-- C64: for an argument that is a hexadecimal number, in digits of either case, with or without `0x` before it, the
program prints 256 entries; those entries are a table which, used in the ordinary way, divides: if the polynomial has a
constant term (bit 31 of the number's value modulo 2^32), then whatever the message and the initial register, the final register is the only
32-bit number that completes them to a multiple of the polynomial. -/
theorem gentab_table (ds : List (Nat × Bool)) (hd : ∀ x ∈ ds, x.1 < 16) (zx : Bool) :
    ∃ out T, gentab ((if zx then [48, 120] else []) ++ ds.map fun x => hexChar x.1 x.2) = some out ∧ Reads out T ∧
      ∀ P, P = value (ds.map (·.1)) % 2 ^ 32 → 2 ^ 31 ≤ P → ∀ (msg : Buf) (n r0 x : Nat), r0 < 2 ^ 32 → x < 2 ^ 32 →
        (x = tableRun T msg r0 n ↔ divisor P ∣ wordPoly r0 + bitPoly (fun i => msg.bit i) (8 * n) + X ^ (8 * n) * wordPoly x) := by
  have hp : parsePoly ((if zx then [48, 120] else []) ++ ds.map fun x => hexChar x.1 x.2) = some (value (ds.map (·.1)) % 2 ^ 32) := by
    rw [value, ← fold_value]
    cases zx
    · exact parse_hex ds hd
    · exact (parse_prefix _).trans (parse_hex ds hd)
  generalize hP : value (ds.map (·.1)) % 2 ^ 32 = P at hp
  have hlt : P < 2 ^ 32 := by rw [← hP]; exact Nat.mod_lt _ (by decide)
  refine ⟨printTable (Crc.fillTable P), Crc.fillTable P, by rw [gentab, hp], print_reads (by simp [Crc.fillTable]) ?_, ?_⟩
  · intro i hi
    rw [fill_getD P hi]
    exact lsteps32 hlt _ _ (by omega)
  · rintro _ rfl h31 msg n r0 x h0 hx
    have fb := feedback h31 hlt
    have hreg := reg_poly fb (by decide) (fun i => msg i ^^^ 0xff) r0 h0 n
    have hb : bitPoly (fun i => !Buf.bit (fun i => msg i ^^^ 0xff) i) (8 * n) = bitPoly (fun i => msg.bit i) (8 * n) := by
      apply bitPoly_congr
      intro i _
      rw [Buf.bit, Buf.bit, inv_bit _ _ (Nat.mod_lt _ (by decide)), Bool.not_not]
    rw [hb, divisor_word hlt, ← run_reg] at hreg
    constructor
    · rintro rfl; exact hreg
    · intro h
      rw [← divisor_word hlt] at h
      rw [← divisor_word hlt] at hreg
      refine reg_unique fb (8 * n) _ _ _ hx ?_ h hreg
      rw [run_reg]
      exact reg_lt fb (by decide) _ _ h0 n

/-- C64: the table the library uses is the one printed for `0xedb88320`: every entry of ecc/crc32.c is there. -/
theorem gentab_made_the_table : ∃ out, gentab [48, 120, 101, 100, 98, 56, 56, 51, 50, 48] = some out ∧ Reads out Crc.reduce := by
  have hT : Crc.fillTable 0xedb88320 = Crc.reduce := by decide +kernel
  have hp : parsePoly [48, 120, 101, 100, 98, 56, 56, 51, 50, 48] = some 0xedb88320 := by decide
  refine ⟨printTable (Crc.fillTable 0xedb88320), by rw [gentab, hp], ?_⟩
  rw [hT]
  refine print_reads (by decide +kernel) ?_
  intro i hi
  rw [← hT, fill_getD _ hi]
  exact lsteps32 (by decide) _ _ (by omega)

/-- C64: an argument with a character that is neither a hexadecimal digit nor `x` is refused and nothing is printed. -/
theorem gentab_refuses (text : List Nat) {c : Nat} (hc : c ∈ text) (hx : c ≠ 120) (hn : ∀ v u, v < 16 → c ≠ hexChar v u) :
    gentab text = none := by
  have hdig : digit c = none := by
    unfold digit
    split
    · exact absurd (show c = hexChar (c - 48) true by unfold hexChar; rw [if_pos (by omega)]; omega) (hn _ _ (by omega))
    · split
      · exact absurd (show c = hexChar (c - 55) true by unfold hexChar; rw [if_neg (by omega), if_pos rfl]; omega) (hn _ _ (by omega))
      · split
        · exact absurd (show c = hexChar (c - 87) false by unfold hexChar; rw [if_neg (by omega), if_neg (by decide)]; omega) (hn _ _ (by omega))
        · rfl
  have hbad : ∀ (l : List Nat) r, c ∈ l → parseDigits l r = none := by
    intro l
    induction l with
    | nil => intro r h; cases h
    | cons y l ih =>
      intro r h
      rw [parseDigits]
      rcases List.mem_cons.1 h with rfl | h
      · rw [hdig]
      · split
        · rfl
        · exact ih _ h
  have hmem : ∀ (l : List Nat), c ∈ l → c ∈ l.dropWhile (fun c => c == 48 || c == 120) := by
    intro l
    induction l with
    | nil => intro h; exact h
    | cons y l ih =>
      intro h
      rw [List.dropWhile_cons]
      split
      · rename_i hy
        rcases List.mem_cons.1 h with rfl | h
        · have : c ≠ 48 := hn 0 true (by decide)
          simp [this, hx] at hy
        · exact ih h
      · exact h
  have : parsePoly text = none := hbad _ _ (hmem _ hc)
  rw [gentab, this]

/-- The hypotheses are met: "EDB88320" has digits below 16 and a value with bit 31, and '-' is refused. -/
example : (∀ x ∈ [(14, true), (13, true), (11, true), (8, true), (8, true), (3, true), (2, true), (0, true)], x.1 < 16) ∧
    2 ^ 31 ≤ value [14, 13, 11, 8, 8, 3, 2, 0] % 2 ^ 32 ∧ gentab [45, 49] = none := by decide

end Dhara.Gentab

/-
Model of tools/gftool.c: the program with which the tables of ecc/gf13.c and the generator polynomials of ecc/bch.c are made.
`poly_t` (64 bits) and `gf_elem_t` (16 bits) are natural numbers; left shifts and conversions truncate as in C. What the program
prints is represented by the numbers it prints; the layout of the text is not modelled.
-/
import Verif.Model.Bytes
namespace Dhara.Gftool

/-- gftool.c:30-41: the loop of `reciprocal`; `k` bounds the rounds (a 64-bit word is shifted to zero in at most 64). -/
def reciprocalLoop : Nat → Nat → Nat → Nat
  | 0, _, r => r
  | k + 1, p, r => if p ≠ 0 then reciprocalLoop k (p >>> 1) ((r <<< 1) % 2 ^ 64 ||| (p &&& 1)) else r

/-- gftool.c:30-41 `reciprocal` -/
def reciprocal (p : Nat) : Nat := reciprocalLoop 64 p 0

/-- gftool.c:43-56: the loop of `mul_poly`; `k` bounds the rounds. -/
def mulPolyLoop : Nat → Nat → Nat → Nat → Nat
  | 0, _, _, r => r
  | k + 1, a, b, r =>
    if a ≠ 0 then
      let r := if a &&& 1 ≠ 0 then r ^^^ b else r
      mulPolyLoop k (a >>> 1) ((b <<< 1) % 2 ^ 64) r
    else r

/-- gftool.c:43-56 `mul_poly` -/
def mulPoly (a b : Nat) : Nat := mulPolyLoop 64 a b 0

/-- gftool.c:58-68: the loop of `degree`; `k` bounds the rounds. -/
def degreeLoop : Nat → Nat → Nat → Nat
  | 0, _, d => d
  | k + 1, p, d => if p > 1 then degreeLoop k (p >>> 1) (d + 1) else d

/-- gftool.c:58-68 `degree` -/
def degree (p : Nat) : Nat := degreeLoop 64 p 0

/-- gftool.c:133-135, 218-220, 227-229: `a <<= 1; if (a >> deg) a ^= generator;` -/
def mulx (g deg a : Nat) : Nat :=
  let a := (a <<< 1) % 2 ^ 64
  if a >>> deg ≠ 0 then a ^^^ g else a

/-- gftool.c:217-221: `k` times. -/
def mulxTimes (g deg : Nat) : Nat → Nat → Nat
  | 0, a => a
  | k + 1, a => mulxTimes g deg k (mulx g deg a)

/-- gftool.c:226-231: the `do ... while (r != start)` loop with its counter; `none` if it is still running after `k` rounds. -/
def cycle (g deg start : Nat) : Nat → Nat → Nat → Option Nat
  | 0, _, _ => none
  | k + 1, r, i =>
    let r := mulx g deg r
    if r ≠ start then cycle g deg start k r (i + 1) else some (i + 1)

/-- gftool.c:208-234 `is_primitive`; `none` if it has not returned after `k` rounds of its second loop. -/
def isPrimitive (k p : Nat) : Option Bool :=
  let d := degree p
  let maxOrder := 2 ^ d - 1
  let start := mulxTimes p d maxOrder 1
  match cycle p d start k start 0 with
  | none => none
  | some i => some (i == maxOrder)

/-- gftool.c:236-247 `poly_search`: the polynomials printed. -/
def polySearch (k deg : Nat) : List Nat :=
  ((List.range (2 ^ deg)).map fun i => 2 ^ deg + i).filter fun i => isPrimitive k i == some true

/-- gftool.c:101-104: the globals. -/
structure Gf where
  order : Nat
  degree : Nat
  exp : Nat → Nat
  log : Nat → Nat

/-- gftool.c:129-136: the loop of `gf_init` that fills the tables, from index `i` on, `k` rounds. -/
def fillLoop (g deg : Nat) : Nat → Nat → Nat → (Nat → Nat) → (Nat → Nat) → (Nat → Nat) × (Nat → Nat)
  | 0, _, _, e, l => (e, l)
  | k + 1, i, a, e, l =>
    fillLoop g deg k (i + 1) (mulx g deg a) (fun x => if x = i then a % 2 ^ 16 else e x) (fun x => if x = a then i % 2 ^ 16 else l x)

/-- gftool.c:106-139 `gf_init`; `junk` is what `malloc` returned. `none`: the degree is out of bounds. -/
def gfInit (generator : Nat) (junk : Nat → Nat) : Option Gf :=
  let deg := degree generator
  if deg > 16 then none
  else
    let t := fillLoop generator deg (2 ^ deg) 0 1 junk junk
    some { order := (2 ^ deg - 1) % 2 ^ 16, degree := deg, exp := t.1, log := t.2 }

/-- gftool.c:170-173 `mod_s`; the argument is converted to `gf_elem_t`. -/
def modS (f : Gf) (x : Nat) : Nat := let x := x % 2 ^ 16; if x ≥ f.order then x - f.order else x

/-- gftool.c:187-193 `bit_set` (`bit_clear` is not used by the program). -/
def bitSet (map : Buf) (i : Nat) : Buf := fun j => if j = i >>> 3 then map j ||| UInt8.ofNat (1 <<< (i &&& 7)) else map j

/-- gftool.c:195-201 `bit_test` -/
def bitTest (map : Buf) (i : Nat) : Bool := map (i >>> 3) &&& UInt8.ofNat (1 <<< (i &&& 7)) ≠ 0

/-- gftool.c:262-268: the loop of `eval_poly`; `k` bounds the rounds. -/
def evalLoop (f : Gf) (logX : Nat) : Nat → Nat → Nat → Nat → Nat
  | 0, _, _, r => r
  | k + 1, p, logT, r =>
    if p ≠ 0 then
      let r := if p &&& 1 ≠ 0 then r ^^^ f.exp logT else r
      evalLoop f logX k (p >>> 1) (modS f (logT + logX)) r
    else r

/-- gftool.c:254-271 `eval_poly` -/
def evalPoly (f : Gf) (p x : Nat) : Nat := evalLoop f (f.log x) 64 (reciprocal p) 1 0

/-- gftool.c:278-280: the loop of `minimal` from `i` on; `k` bounds the rounds. -/
def minimalLoop (f : Gf) (x : Nat) : Nat → Nat → Nat
  | 0, i => i
  | k + 1, i =>
    if i >>> f.degree ≤ 1 then
      if evalPoly f i x = 0 then i else minimalLoop f x k (i + 1)
    else i

/-- gftool.c:274-283 `minimal`; the result is converted to `gf_elem_t`. -/
def minimal (f : Gf) (x : Nat) : Nat := minimalLoop f x (2 ^ (f.degree + 1)) 1 % 2 ^ 16

/-- gftool.c:311-330: the loop of `bch_generator`; `k` bounds the rounds. `none`: overflow. -/
def bchLoop (f : Gf) (n : Nat) : Nat → Nat → Buf → Nat → Option Nat
  | 0, _, _, r => some r
  | k + 1, i, bm, r =>
    if i ≤ n then
      let m := minimal f (f.exp i)
      if ¬ bitTest bm m then
        if degree m + degree r > 63 then none
        else bchLoop f n k ((i + 2) % 2 ^ 16) (bitSet bm m) (mulPoly r m)
      else bchLoop f n k ((i + 2) % 2 ^ 16) bm r
    else some r

/-- gftool.c:288-340 `bch_generator`: the polynomial printed last. `none`: an error was reported. -/
def bchGenerator (f : Gf) (n : Nat) : Option Nat :=
  if n ≥ f.order then none else bchLoop f n (n + 1) 1 (fun _ => 0) 1

/-- gftool.c:371-376: one digit of `parse_poly`. -/
def digit (c : Nat) : Option Nat :=
  if 48 ≤ c ∧ c ≤ 57 then some (c - 48)
  else if 65 ≤ c ∧ c ≤ 70 then some (c - 65 + 10)
  else if 97 ≤ c ∧ c ≤ 102 then some (c - 97 + 10)
  else none

/-- gftool.c:367-382: the second loop of `parse_poly`. -/
def parseDigits : List Nat → Nat → Option Nat
  | [], r => some r
  | c :: cs, r =>
    match digit c with
    | none => none
    | some v => parseDigits cs ((r <<< 4) % 2 ^ 64 ||| v)

/-- gftool.c:360-386 `parse_poly`: `text` is the list of character codes up to the terminating zero. -/
def parsePoly (text : List Nat) : Option Nat := parseDigits (text.dropWhile fun c => c == 48 || c == 120) 0

end Dhara.Gftool

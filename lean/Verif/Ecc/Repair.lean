/-
Model of the repairing part of ecc/bch.c (lines 109-275). The field operations are a parameter, so that both builds of
gf13 (with and without tables) are covered. Arrays of MAX_POLY elements are functions from the index, 0 outside.
-/
import Verif.Ecc.Bch
import Verif.Ecc.Gf13
namespace Dhara.Bch

/-- The four operations of ecc/gf13.h. -/
structure Ops where
  mul : Nat → Nat → Nat
  div : Nat → Nat → Nat
  mulx : Nat → Nat
  divx : Nat → Nat

/-- ecc/gf13.h:52-83: the default build. -/
def tables : Ops := ⟨Gf13.mulT, Gf13.divT, Gf13.mulxT, Gf13.divxT⟩

/-- ecc/gf13.h:32-50: GF13_NO_TABLES. -/
def plain : Ops := ⟨Gf13.mulN, Gf13.divN, Gf13.mulxN, Gf13.divxN⟩

/-- ecc/bch.c:113 MAX_POLY -/
notation "maxPoly" => (16 : Nat)

/-- An array of field elements. -/
abbrev Arr := Nat → Nat

/-- `a[p] = v` -/
def Arr.put (a : Arr) (p v : Nat) : Arr := fun i => if i = p then v else a i

/-- ecc/bch.c:115-131 `poly_add`, the first `k` rounds of the loop. `shift` is never negative in this program (`m ≥ 1` at
both calls), so `p < 0` is not modelled. -/
def polyAdd (o : Ops) (src : Arr) (c shift : Nat) (dst : Arr) : Nat → Arr
  | 0 => dst
  | i + 1 =>
    let dst := polyAdd o src c shift dst i
    let p := i + shift
    let v := src i
    if p ≥ maxPoly then dst
    else if v = 0 then dst
    else dst.put p (dst p ^^^ o.mul v c)

/-- ecc/bch.c:139-146: `sum` and `t` after the first `k` rounds of the loop of `poly_eval`. -/
def evalLoop (o : Ops) (s : Arr) (x : Nat) : Nat → Nat × Nat
  | 0 => (0, x)
  | i + 1 =>
    let (sum, t) := evalLoop o s x i
    let c := s i
    let sum := if c ≠ 0 then sum ^^^ o.mul c t else sum
    (sum, o.mul t x)

/-- ecc/bch.c:133-149 `poly_eval` -/
def polyEval (o : Ops) (s : Arr) (x : Nat) : Nat := (evalLoop o s x maxPoly).1

/-- ecc/bch.c:169-175 and 178-184: `k` rounds of the bit loops of `syndrome`; `c` are the remaining bits. Gives `y`, `t`. -/
def synBits (o : Ops) (x : Nat) : Nat → Nat → Nat → Nat → Nat × Nat
  | 0, _, y, t => (y, t)
  | k + 1, c, y, t =>
    let y := if c &&& 1 ≠ 0 then y ^^^ t else y
    synBits o x k (c >>> 1) y (o.mul t x)

/-- ecc/bch.c:165-176: `y`, `t` after the first `n` bytes of the chunk. -/
def synChunk (o : Ops) (chunk : Buf) (x : Nat) : Nat → Nat × Nat
  | 0 => (0, 1)
  | n + 1 =>
    let (y, t) := synChunk o chunk x n
    synBits o x 8 (chunk n ^^^ 0xff).toNat y t

/-- ecc/bch.c:155-187 `syndrome` -/
def syndrome (o : Ops) (d : Def) (chunk : Buf) (len remainder x : Nat) : Nat :=
  let (y, t) := synChunk o chunk x len
  (synBits o x d.degree remainder y t).1

/-- The variables of `berlekamp_massey` (ecc/bch.c:192-196). -/
structure Bm where
  C : Arr
  B : Arr
  L : Nat
  m : Nat
  b : Nat

/-- ecc/bch.c:206-215: the discrepancy, the first `k` rounds of the loop. -/
def discr (o : Ops) (s C : Arr) (n : Nat) : Nat → Nat
  | 0 => s n
  | i + 1 =>
    let d := discr o s C n i
    if C (i + 1) ≠ 0 ∧ s (n - (i + 1)) ≠ 0 then d ^^^ o.mul (C (i + 1)) (s (n - (i + 1))) else d

/-- ecc/bch.c:206-233: one round of the main loop. -/
def bmStep (o : Ops) (s : Arr) (n : Nat) (v : Bm) : Bm :=
  let d := discr o s v.C n v.L
  let mult := o.div d v.b
  if d = 0 then { v with m := v.m + 1 }
  else if v.L * 2 ≤ n then
    { C := polyAdd o v.B mult v.m v.C maxPoly, B := v.C, L := n + 1 - v.L, m := 1, b := d }
  else { v with C := polyAdd o v.B mult v.m v.C maxPoly, m := v.m + 1 }

/-- ecc/bch.c:194-234: the state after `n` rounds. -/
def bmLoop (o : Ops) (s : Arr) : Nat → Bm
  | 0 => { C := fun i => if i = 0 then 1 else 0, B := fun i => if i = 0 then 1 else 0, L := 0, m := 1, b := 1 }
  | n + 1 => bmStep o s n (bmLoop o s n)

/-- ecc/bch.c:189-237 `berlekamp_massey`. The last `memcpy` copies MAX_POLY bytes, that is 8 elements of two bytes. -/
def berlekampMassey (o : Ops) (s : Arr) (N : Nat) : Arr :=
  let C := (bmLoop o s N).C
  fun i => if i < maxPoly / 2 then C i else 0

/-- ecc/bch.c:250-254: the value of `x` after `i` rounds. -/
def synX (o : Ops) : Nat → Nat
  | 0 => 2
  | i + 1 => o.mulx (synX o i)

/-- ecc/bch.c:263-267 and 270-274: the first `n` rounds of the correcting loops, starting at `x0`; gives the buffer and `x`. -/
def fix (o : Ops) (sigma : Arr) (x0 : Nat) (buf : Buf) : Nat → Buf × Nat
  | 0 => (buf, x0)
  | i + 1 =>
    let (b, x) := fix o sigma x0 buf i
    let b : Buf := if polyEval o sigma x = 0 then
      fun j => if j = i >>> 3 then b j ^^^ UInt8.ofNat (1 <<< (i &&& 7)) else b j else b
    (b, o.divx x)

/-- ecc/bch.c:239-275 `bch_repair`: the new chunk and ECC bytes. -/
def repair (o : Ops) (d : Def) (chunk : Buf) (len : Nat) (ecc : Buf) : Buf × Buf :=
  let remainder := unpackPoly d ecc
  let syns : Arr := fun i => syndrome o d chunk len remainder (synX o i)
  let sigma := berlekampMassey o syns d.syns
  let (chunk', x) := fix o sigma 1 chunk (len <<< 3)
  let (ecc', _) := fix o sigma x ecc d.degree
  (chunk', ecc')

end Dhara.Bch

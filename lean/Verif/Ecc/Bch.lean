/-
Model of ecc/bch.h and the generating and verifying part of ecc/bch.c. `bch_poly_t` (64 bits) is a natural number.
-/
import Verif.Model.Bytes
namespace Dhara.Bch

/-- ecc/bch.h:35-49 `struct bch_def` -/
structure Def where
  syns : Nat
  generator : Nat
  degree : Nat
  eccBytes : Nat

/-- ecc/bch.c:23-28 -/
def bch1 : Def := { syns := 2, generator := 0x201b, degree := 13, eccBytes := 2 }
/-- ecc/bch.c:30-35 -/
def bch2 : Def := { syns := 4, generator := 0x4d5154b, degree := 26, eccBytes := 4 }
/-- ecc/bch.c:37-42 -/
def bch3 : Def := { syns := 6, generator := 0xbaf5b2bded, degree := 39, eccBytes := 5 }
/-- ecc/bch.c:44-49 -/
def bch4 : Def := { syns := 8, generator := 0x14523043ab86ab, degree := 52, eccBytes := 7 }

/-- The four codes of the library (ecc/bch.h:62-66). -/
def codes : List Def := [bch1, bch2, bch3, bch4]

/-- bch.c:62-66: shift the remainder, `k` rounds. -/
def remBits (g : Nat) : Nat → Nat → Nat
  | 0, r => r
  | k + 1, r =>
    let r := if r &&& 1 ≠ 0 then r ^^^ g else r
    remBits g k (r >>> 1)

/-- bch.c:51-70 `chunk_remainder`, `n` bytes. -/
def chunkRemainder (d : Def) (chunk : Buf) : Nat → Nat
  | 0 => 0
  | n + 1 => remBits d.generator 8 (chunkRemainder d chunk n ^^^ (chunk n ^^^ 0xff).toNat)

/-- bch.c:72-80 `pack_poly`: `n` bytes of `poly`, inverted, written from byte `i` on. -/
def packPoly : Nat → Nat → Nat → Buf → Buf
  | 0, _, _, ecc => ecc
  | n + 1, i, poly, ecc => packPoly n (i + 1) (poly >>> 8) (fun j => if j = i then ~~~ UInt8.ofNat poly else ecc j)

/-- bch.c:87-90: the loop of `unpack_poly`; bytes `n-1` down to 0. -/
def unpackLoop (ecc : Buf) : Nat → Nat → Nat
  | 0, poly => poly
  | i + 1, poly => unpackLoop ecc i ((poly <<< 8) ||| (ecc i ^^^ 0xff).toNat)

/-- bch.c:82-94 `unpack_poly` -/
def unpackPoly (d : Def) (ecc : Buf) : Nat := unpackLoop ecc d.eccBytes 0 &&& ((1 <<< d.degree) - 1)

/-- bch.c:96-100 `bch_generate`: writes the ECC bytes over `ecc`. -/
def generate (d : Def) (chunk : Buf) (len : Nat) (ecc : Buf) : Buf := packPoly d.eccBytes 0 (chunkRemainder d chunk len) ecc

/-- bch.c:102-107 `bch_verify` -/
def verify (d : Def) (chunk : Buf) (len : Nat) (ecc : Buf) : Int :=
  if chunkRemainder d chunk len = unpackPoly d ecc then 0 else -1

end Dhara.Bch

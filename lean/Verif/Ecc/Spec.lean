/-
Vocabulary for the properties of ecc/: flipped bits, and polynomials over GF(2).
-/
import Verif.Model.Bytes
import Mathlib.Algebra.Polynomial.FieldDivision
import Mathlib.Data.ZMod.Basic
import Mathlib.Algebra.Field.ZMod
namespace Dhara
open Polynomial

/-- Flip bit `pos` of a buffer (bit `pos % 8` of byte `pos / 8`). -/
def flipBit (b : Buf) (pos : Nat) : Buf := fun i => if i = pos / 8 then b i ^^^ UInt8.ofNat (2 ^ (pos % 8)) else b i

/-- Bit `pos` of a buffer. -/
def Buf.bit (b : Buf) (pos : Nat) : Bool := (b (pos / 8)).toNat.testBit (pos % 8)

/-- The polynomial over GF(2) whose coefficient at `X^i` is bit `i`, for `i < n`. -/
noncomputable def bitPoly (f : Nat → Bool) (n : Nat) : (ZMod 2)[X] :=
  ∑ i ∈ Finset.range n, if f i then X ^ i else 0

/-- The polynomial over GF(2) written as a 64-bit word, bit `i` being the coefficient at `X^i`. -/
noncomputable def wordPoly (w : Nat) : (ZMod 2)[X] := bitPoly w.testBit 64

end Dhara

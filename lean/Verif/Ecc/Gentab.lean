/-
Model of tools/gentab.c. The argument and the output are lists of character codes, `uint32_t` values natural numbers
below 2^32. `fill_table` is `Crc.fillTable` (Verif/Ecc/Crc.lean).
-/
import Verif.Ecc.Crc
namespace Dhara.Gentab

/-- gentab.c:56-67: the value of one character. -/
def digit (c : Nat) : Option Nat :=
  if 48 ≤ c ∧ c ≤ 57 then some (c - 48)
  else if 65 ≤ c ∧ c ≤ 70 then some (c - 65 + 10)
  else if 97 ≤ c ∧ c ≤ 102 then some (c - 97 + 10)
  else none

/-- gentab.c:52-68: the second loop of `parse_poly`. -/
def parseDigits : List Nat → Nat → Option Nat
  | [], r => some r
  | c :: cs, r =>
    match digit c with
    | none => none
    | some v => parseDigits cs ((r <<< 4) % 2 ^ 32 ||| v)

/-- gentab.c:45-71 `parse_poly`: `text` is the list of character codes up to the terminating zero; `none` for -1. -/
def parsePoly (text : List Nat) : Option Nat := parseDigits (text.dropWhile fun c => c == 48 || c == 120) 0

/-- printf's `%08x`, a library function: the eight hexadecimal digits of a 32-bit number, highest first, in lower case. -/
def hex8 (e : Nat) : List Nat :=
  (List.range 8).map fun k => let v := (e >>> (4 * (7 - k))) % 16; if v < 10 then v + 48 else v + 87

/-- gentab.c:42: what is printed for entry `i` of the table. -/
def printEntry (table : List Nat) (i : Nat) : List Nat :=
  [48, 120] ++ hex8 (table.getD i 0) ++ [44, if i &&& 3 = 3 then 10 else 32]

/-- gentab.c:37-43 `print_table` -/
def printTable (table : List Nat) : List Nat := (List.range 256).flatMap (printEntry table)

/-- gentab.c:73-88 `main` with one argument: the standard output, `none` when it ends with an error. -/
def gentab (text : List Nat) : Option (List Nat) :=
  match parsePoly text with
  | none => none
  | some p => some (printTable (Crc.fillTable p))

end Dhara.Gentab

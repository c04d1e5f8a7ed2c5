/-
Model of dhara/error.h and dhara/error.c.
-/
namespace Dhara

/-- dhara/error.h:23-34 `dhara_error_t` (codes an operation can report), plus three
outcomes that exist only in the model:
`ub` - the code violated the NAND driver's contract while reading;
`diverge` - a loop without a syntactic bound used up the fuel given to it;
`powerLoss` - power failed during a NAND operation. -/
inductive Err where
  | badBlock | ecc | tooBad | recover | journalFull | notFound | mapFull | corruptMap
  | ub | diverge | powerLoss
  deriving DecidableEq, Repr

/-- dhara/error.h:23-34: numeric values of the C enumeration. -/
def Err.code : Err → Option Int
  | .badBlock => some 1 | .ecc => some 2 | .tooBad => some 3 | .recover => some 4
  | .journalFull => some 5 | .notFound => some 6 | .mapFull => some 7 | .corruptMap => some 8
  | _ => none

/-- dhara/error.c:22-32: the designated-initialiser table, indices 0 .. DHARA_E_MAX-1. -/
def strerrorTable : List String :=
  ["No error", "Bad page/eraseblock", "ECC failure", "Too many bad blocks",
   "Journal recovery is required", "Journal is full", "No such sector",
   "Sector map is full", "Sector map is corrupted"]

/-- dhara/error.c:20-42 `dhara_strerror`. The argument is the enum's integer value. -/
def strerror (err : Int) : String :=
  let msg : Option String :=
    if 0 ≤ err ∧ err < 9 then strerrorTable[err.toNat]? else none
  match msg with
  | some m => m
  | none => "Unknown error"

end Dhara

/-
Model of ecc/hamming.h and ecc/hamming.c, function by function. `uint8_t` is `UInt8`; the wider
words (`uint16_t`, `hamming_ecc_t`, `int`) are natural numbers, truncated where C truncates.
-/
import Verif.Model.Bytes
namespace Dhara.Hamming

/-- hamming.h:28 HAMMING_MAX_CHUNK_SIZE -/
notation "maxChunk" => (512 : Nat)

/-- ecc/hamming.c:22-55 `bit_count` -/
def bitCount : List Nat :=
  [0x00, 0x01, 0x01, 0x02, 0x01, 0x02, 0x02, 0x03, 0x01, 0x02, 0x02, 0x03, 0x02, 0x03, 0x03, 0x04,
   0x01, 0x02, 0x02, 0x03, 0x02, 0x03, 0x03, 0x04, 0x02, 0x03, 0x03, 0x04, 0x03, 0x04, 0x04, 0x05,
   0x01, 0x02, 0x02, 0x03, 0x02, 0x03, 0x03, 0x04, 0x02, 0x03, 0x03, 0x04, 0x03, 0x04, 0x04, 0x05,
   0x02, 0x03, 0x03, 0x04, 0x03, 0x04, 0x04, 0x05, 0x03, 0x04, 0x04, 0x05, 0x04, 0x05, 0x05, 0x06,
   0x01, 0x02, 0x02, 0x03, 0x02, 0x03, 0x03, 0x04, 0x02, 0x03, 0x03, 0x04, 0x03, 0x04, 0x04, 0x05,
   0x02, 0x03, 0x03, 0x04, 0x03, 0x04, 0x04, 0x05, 0x03, 0x04, 0x04, 0x05, 0x04, 0x05, 0x05, 0x06,
   0x02, 0x03, 0x03, 0x04, 0x03, 0x04, 0x04, 0x05, 0x03, 0x04, 0x04, 0x05, 0x04, 0x05, 0x05, 0x06,
   0x03, 0x04, 0x04, 0x05, 0x04, 0x05, 0x05, 0x06, 0x04, 0x05, 0x05, 0x06, 0x05, 0x06, 0x06, 0x07,
   0x01, 0x02, 0x02, 0x03, 0x02, 0x03, 0x03, 0x04, 0x02, 0x03, 0x03, 0x04, 0x03, 0x04, 0x04, 0x05,
   0x02, 0x03, 0x03, 0x04, 0x03, 0x04, 0x04, 0x05, 0x03, 0x04, 0x04, 0x05, 0x04, 0x05, 0x05, 0x06,
   0x02, 0x03, 0x03, 0x04, 0x03, 0x04, 0x04, 0x05, 0x03, 0x04, 0x04, 0x05, 0x04, 0x05, 0x05, 0x06,
   0x03, 0x04, 0x04, 0x05, 0x04, 0x05, 0x05, 0x06, 0x04, 0x05, 0x05, 0x06, 0x05, 0x06, 0x06, 0x07,
   0x02, 0x03, 0x03, 0x04, 0x03, 0x04, 0x04, 0x05, 0x03, 0x04, 0x04, 0x05, 0x04, 0x05, 0x05, 0x06,
   0x03, 0x04, 0x04, 0x05, 0x04, 0x05, 0x05, 0x06, 0x04, 0x05, 0x05, 0x06, 0x05, 0x06, 0x06, 0x07,
   0x03, 0x04, 0x04, 0x05, 0x04, 0x05, 0x05, 0x06, 0x04, 0x05, 0x05, 0x06, 0x05, 0x06, 0x06, 0x07,
   0x04, 0x05, 0x05, 0x06, 0x05, 0x06, 0x06, 0x07, 0x05, 0x06, 0x06, 0x07, 0x06, 0x07, 0x07, 0x08]

/-- `bit_count[c] & 1` -/
def odd (c : Nat) : Nat := bitCount.getD c 0 &&& 1

/-- hamming.c:59-61: `column`, `line`, `line_bar`. -/
structure Scan where
  column : Nat
  line : Nat
  lineBar : Nat
  deriving DecidableEq

/-- `~i` stored to a `uint16_t` -/
def not16 (i : Nat) : Nat := 0xffff ^^^ (i % 65536)

/-- hamming.c:82-91: one round of the first loop. -/
def scanStep (c : UInt8) (i : Nat) (s : Scan) : Scan :=
  let column := s.column ^^^ c.toNat
  if odd c.toNat ≠ 0 then { column := column, line := s.line ^^^ (i % 65536), lineBar := s.lineBar ^^^ not16 i }
  else { s with column := column }

/-- hamming.c:82-91: the first loop, `len` rounds. -/
def scanLoop (chunk : Buf) : Nat → Scan
  | 0 => ⟨0, 0, 0⟩
  | i + 1 => scanStep (chunk i) i (scanLoop chunk i)

/-- hamming.c:108-117: the second loop, `k` rounds left. -/
def lineLoop : Nat → Nat → Nat → Nat → Nat
  | 0, out, _, _ => out
  | k + 1, out, line, lineBar =>
    let out := out <<< 1
    let out := out ||| ((lineBar >>> 8) &&& 1)
    let out := out <<< 1
    let out := out ||| ((line >>> 8) &&& 1)
    lineLoop k out ((line <<< 1) % 65536) ((lineBar <<< 1) % 65536)

/-- hamming.c:119-124: append a parity bit. -/
def pushBit (out bit : Nat) : Nat := (out <<< 1) ||| bit

/-- hamming.c:108-124: the checksum before the final inversion. -/
def pack (s : Scan) : Nat :=
  let out := lineLoop 9 0 s.line s.lineBar
  let out := pushBit out (odd (s.column &&& 0x0f))
  let out := pushBit out (odd (s.column &&& 0xf0))
  let out := pushBit out (odd (s.column &&& 0x33))
  let out := pushBit out (odd (s.column &&& 0xcc))
  let out := pushBit out (odd (s.column &&& 0x55))
  pushBit out (odd (s.column &&& 0xaa))

/-- hamming.c:57-127 `parity_scan` -/
def parityScan (chunk : Buf) (len : Nat) : Nat := pack (scanLoop chunk len) ^^^ 0xffffff

/-- hamming.c:129-138 `hamming_generate`: the three ECC bytes. -/
def generate (chunk : Buf) (len : Nat) : Buf := fun k =>
  let p := parityScan chunk len
  if k = 0 then UInt8.ofNat p else if k = 1 then UInt8.ofNat (p >>> 8) else if k = 2 then UInt8.ofNat (p >>> 8 >>> 8) else 0

/-- hamming.c:140-153 `hamming_syndrome` -/
def syndrome (chunk : Buf) (len : Nat) (ecc : Buf) : Nat :=
  let p := parityScan chunk len
  let q := 0 ||| (ecc 2).toNat
  let q := (q <<< 8) ||| (ecc 1).toNat
  let q := (q <<< 8) ||| (ecc 0).toNat
  p ^^^ q

/-- hamming.c:172-182: decode the position; `k` rounds left. -/
def decodeLoop : Nat → Nat → Nat → Nat → Option Nat
  | 0, _, pos, _ => some pos
  | k + 1, syn, pos, posBit =>
    if syn &&& 3 = 1 then decodeLoop k (syn >>> 2) (pos ||| posBit) (posBit <<< 1)
    else if syn &&& 3 ≠ 2 then none
    else decodeLoop k (syn >>> 2) pos (posBit <<< 1)

/-- hamming.c:155-189 `hamming_repair`: the return value and the chunk. -/
def repair (chunk : Buf) (len syn : Nat) : Int × Buf :=
  if syn = 0 then (0, chunk)
  else if syn &&& (syn - 1) = 0 then (0, chunk)
  else match decodeLoop 12 syn 0 1 with
    | none => (-1, chunk)
    | some pos =>
      if pos >>> 3 < len then
        (0, fun i => if i = pos >>> 3 then chunk i ^^^ UInt8.ofNat (1 <<< (pos &&& 7)) else chunk i)
      else (0, chunk)

end Dhara.Hamming

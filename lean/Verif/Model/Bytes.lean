/-
Model of dhara/bytes.h and of the C library calls memcpy/memset on byte buffers.
A buffer is a total function from offsets to bytes; only the bytes inside the C
object are meaningful, which the NAND model enforces by clipping.
-/
namespace Dhara

/-- A byte buffer (`uint8_t *`). -/
abbrev Buf := Nat → UInt8

namespace Buf

/-- `memcpy(dst + off, src + soff, len)`. -/
def memcpy (dst : Buf) (off : Nat) (src : Buf) (soff len : Nat) : Buf :=
  fun i => if off ≤ i ∧ i < off + len then src (soff + (i - off)) else dst i

/-- `memset(dst + off, v, len)`. -/
def memset (dst : Buf) (off : Nat) (v : UInt8) (len : Nat) : Buf :=
  fun i => if off ≤ i ∧ i < off + len then v else dst i

/-- The `len` bytes at offset `off`, as a fresh buffer (zero elsewhere). -/
def slice (b : Buf) (off len : Nat) : Buf :=
  fun i => if i < len then b (off + i) else 0

/-- A buffer all of whose bytes are 0xff. -/
def ff : Buf := fun _ => 0xff

end Buf

/-- dhara/bytes.h:22-26 `dhara_r16`. -/
def r16 (b : Buf) (off : Nat) : Nat :=
  (b off).toNat ||| ((b (off + 1)).toNat <<< 8)

/-- dhara/bytes.h:28-32 `dhara_w16` (stores truncate to a byte). -/
def w16 (b : Buf) (off : Nat) (v : Nat) : Buf :=
  fun i => if i = off then UInt8.ofNat v
           else if i = off + 1 then UInt8.ofNat (v >>> 8)
           else b i

/-- dhara/bytes.h:34-40 `dhara_r32`. -/
def r32 (b : Buf) (off : Nat) : Nat :=
  (b off).toNat ||| ((b (off + 1)).toNat <<< 8) |||
  ((b (off + 2)).toNat <<< 16) ||| ((b (off + 3)).toNat <<< 24)

/-- dhara/bytes.h:42-48 `dhara_w32` (stores truncate to a byte). -/
def w32 (b : Buf) (off : Nat) (v : Nat) : Buf :=
  fun i => if i = off then UInt8.ofNat v
           else if i = off + 1 then UInt8.ofNat (v >>> 8)
           else if i = off + 2 then UInt8.ofNat (v >>> 16)
           else if i = off + 3 then UInt8.ofNat (v >>> 24)
           else b i

end Dhara

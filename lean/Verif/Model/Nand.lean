/-
Model of the NAND driver contract: dhara/nand.h, with tests/sim.c as the reference
behaviour. The driver is an adversary: `Env` decides which operations fail.
-/
import Verif.Model.Bytes
import Verif.Model.Error
namespace Dhara

/-- What a power failure during a NAND operation leaves behind: nothing happened,
everything happened, or the page (block) is garbled. -/
inductive Torn where
  | untouched | done | garbled
  deriving DecidableEq, Repr

/-- Outcome of one mutating NAND operation, chosen by the adversary. -/
inductive Fate where
  | ok                      -- operation succeeds
  | fail                    -- operation fails with E_BAD_BLOCK
  | crash (t : Torn)        -- power fails during the operation
  deriving DecidableEq, Repr

/-- The adversary. Mutating operations are numbered by a clock.
`junk t p`/`junkFree t p`: what page `p` holds / whether it tests as free after an operation
failed or was torn at clock `t` (`none` = uncorrectable).
`tornErase t p`: a torn erase at clock `t` has reached page `p`.
`readFail t p`: reads of page `p` between clock `t` and `t+1` fail with E_ECC.
`ffFree`: the driver's is_free cannot tell an erased page from a page programmed with 0xff
(dhara/journal.c:282-298). -/
structure Env where
  erase : Nat → Fate
  prog : Nat → Fate
  junk : Nat → Nat → Option Buf
  junkFree : Nat → Nat → Bool
  tornErase : Nat → Nat → Bool
  readFail : Nat → Nat → Bool
  ffFree : Bool

/-- dhara/nand.h:41-56 `struct dhara_nand` (geometry), the map's gc ratio
(dhara/map.h:42), the fuel for syntactically unbounded loops, and the adversary. -/
structure Cfg where
  log2PageSize : Nat
  log2Ppb : Nat
  numBlocks : Nat
  gcRatio : Nat
  fuel : Nat
  env : Env

namespace Cfg
/-- Page size in bytes, `1 << log2_page_size`. -/
def pageSize (c : Cfg) : Nat := 2 ^ c.log2PageSize
/-- Pages per block, `1 << log2_ppb`. -/
def ppb (c : Cfg) : Nat := 2 ^ c.log2Ppb
/-- Pages on the chip, `num_blocks << log2_ppb`. -/
def pages (c : Cfg) : Nat := c.numBlocks * c.ppb
end Cfg

/-- The non-volatile state of the chip: contents of each page (`none`: uncorrectable ECC
error), whether each page tests as free, whether each block is marked bad. -/
structure Chip where
  page : Nat → Option Buf
  free : Nat → Bool
  bad : Nat → Bool

/-- Chip plus bookkeeping: the clock of mutating operations, the sticky contract-violation
flag (tests/sim.c aborts in these cases), whether power is lost, erase counters, and which
blocks have had a failing erase or program (E_BAD_BLOCK) so far. -/
structure Nand where
  chip : Chip
  time : Nat
  ub : Bool
  dead : Bool
  erases : Nat → Nat
  failed : Nat → Bool

/-- Point update of a function. -/
def upd {α : Type} (f : Nat → α) (k : Nat) (v : α) : Nat → α :=
  fun i => if i = k then v else f i

/-- Contents of a page of `c` after programming `data`: exactly a page's worth of bytes. -/
def Cfg.clip (c : Cfg) (data : Buf) : Buf := data.slice 0 c.pageSize

/-- Is this page's worth of data all 0xff? -/
def Cfg.isFF (c : Cfg) (data : Buf) : Bool :=
  (List.range c.pageSize).all fun i => data i == 0xff

namespace Chip

/-- Successful program of page `p` (tests/sim.c:203 `memcpy(page, data, PAGE_SIZE)`). -/
def programmed (c : Cfg) (ch : Chip) (p : Nat) (data : Buf) : Chip :=
  { ch with
    page := upd ch.page p (some (c.clip data))
    free := upd ch.free p (ch.free p && c.env.ffFree && c.isFF data) }

/-- Failed or torn program: the page holds junk (tests/sim.c:198 `seq_gen`). -/
def garbledPage (c : Cfg) (ch : Chip) (t p : Nat) (fr : Bool) : Chip :=
  { ch with
    page := upd ch.page p (c.env.junk t p)
    free := upd ch.free p fr }

/-- Successful erase of block `b` (tests/sim.c:158 `memset(blk, 0xff, BLOCK_SIZE)`). -/
def erased (c : Cfg) (ch : Chip) (b : Nat) : Chip :=
  { ch with
    page := fun p => if p / c.ppb = b then some (c.clip Buf.ff) else ch.page p
    free := fun p => if p / c.ppb = b then true else ch.free p }

/-- Failed erase of block `b`: every page of the block holds junk (tests/sim.c:153). -/
def garbledBlock (c : Cfg) (ch : Chip) (t b : Nat) : Chip :=
  { ch with
    page := fun p => if p / c.ppb = b then c.env.junk t p else ch.page p
    free := fun p => if p / c.ppb = b then c.env.junkFree t p else ch.free p }

/-- Torn erase of block `b`: some pages hold junk, the others are untouched. -/
def tornBlock (c : Cfg) (ch : Chip) (t b : Nat) : Chip :=
  { ch with
    page := fun p => if p / c.ppb = b ∧ c.env.tornErase t p then c.env.junk t p else ch.page p
    free := fun p => if p / c.ppb = b ∧ c.env.tornErase t p then c.env.junkFree t p
                     else ch.free p }

/-- Marked bad (tests/sim.c:124). -/
def marked (ch : Chip) (b : Nat) : Chip := { ch with bad := upd ch.bad b true }

/-- May page `p` be programmed? It is on the chip, its block is not marked bad, and it and
all later pages of its block are free (in-order programming; tests/sim.c:170-190). -/
def canProg (c : Cfg) (ch : Chip) (p : Nat) : Bool :=
  decide (p < c.pages) && !ch.bad (p / c.ppb) &&
  (List.range c.ppb).all fun i =>
    decide (i < p % c.ppb) || ch.free (p / c.ppb * c.ppb + i)

/-- May block `b` be erased? (tests/sim.c:132-144) -/
def canErase (c : Cfg) (ch : Chip) (b : Nat) : Bool :=
  decide (b < c.numBlocks) && !ch.bad b

end Chip

/-- dhara/nand.h:58-59 `dhara_nand_is_bad` (range checks are on the caller; all call sites
pass block numbers below `num_blocks`). -/
def nandIsBad (n : Nand) (b : Nat) : Bool := n.chip.bad b

/-- dhara/nand.h:84-85 `dhara_nand_is_free`. -/
def nandIsFree (n : Nand) (p : Nat) : Bool := n.chip.free p

/-- dhara/nand.h:61-64, tests/sim.c:114-125 `dhara_nand_mark_bad`. Marking a block that does
not exist is a contract violation. Nothing happens once power is lost. -/
def nandMarkBad (c : Cfg) (b : Nat) (n : Nand) : Nand :=
  if n.dead then n
  else { n with chip := n.chip.marked b, ub := n.ub || !decide (b < c.numBlocks) }

/-- dhara/nand.h:66-71, tests/sim.c:127-160 `dhara_nand_erase`. -/
def nandErase (c : Cfg) (b : Nat) (n : Nand) : Except Err Unit × Nand :=
  if n.dead then (.error .powerLoss, n)
  else
    let n' := { n with time := n.time + 1, ub := n.ub || !n.chip.canErase c b,
                       erases := upd n.erases b (n.erases b + 1) }
    match c.env.erase n.time with
    | .ok => (.ok (), { n' with chip := n.chip.erased c b })
    | .fail => (.error .badBlock,
        { n' with chip := n.chip.garbledBlock c n.time b, failed := upd n.failed b true })
    | .crash .untouched => (.error .powerLoss, { n' with dead := true })
    | .crash .done => (.error .powerLoss, { n' with dead := true, chip := n.chip.erased c b })
    | .crash .garbled =>
      (.error .powerLoss, { n' with dead := true, chip := n.chip.tornBlock c n.time b })

/-- dhara/nand.h:73-83, tests/sim.c:162-205 `dhara_nand_prog`. -/
def nandProg (c : Cfg) (p : Nat) (data : Buf) (n : Nand) : Except Err Unit × Nand :=
  if n.dead then (.error .powerLoss, n)
  else
    let n' := { n with time := n.time + 1, ub := n.ub || !n.chip.canProg c p }
    match c.env.prog n.time with
    | .ok => (.ok (), { n' with chip := n.chip.programmed c p data })
    | .fail => (.error .badBlock,
        { n' with chip := n.chip.garbledPage c n.time p (c.env.junkFree n.time p),
                  failed := upd n.failed (p / c.ppb) true })
    | .crash .untouched => (.error .powerLoss, { n' with dead := true })
    | .crash .done =>
      (.error .powerLoss, { n' with dead := true, chip := n.chip.programmed c p data })
    | .crash .garbled =>
      (.error .powerLoss, { n' with dead := true, chip := n.chip.garbledPage c n.time p false })

/-- dhara/nand.h:87-96, tests/sim.c:223-251 `dhara_nand_read`: the `len` bytes at `off` of
page `p`. Out-of-range requests are contract violations. Reads do not change the chip. -/
def nandRead (c : Cfg) (n : Nand) (p off len : Nat) : Except Err Buf :=
  if p < c.pages ∧ off + len ≤ c.pageSize then
    if c.env.readFail n.time p then .error .ecc
    else match n.chip.page p with
      | none => .error .ecc
      | some b => .ok (b.slice off len)
  else .error .ub

/-- dhara/nand.h:98-104, tests/sim.c:253-264 `dhara_nand_copy`: read, then program. -/
def nandCopy (c : Cfg) (src dst : Nat) (n : Nand) : Except Err Unit × Nand :=
  match nandRead c n src 0 c.pageSize with
  | .error e => (.error e, n)
  | .ok b => nandProg c dst b n

end Dhara

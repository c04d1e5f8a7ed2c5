/-
Model of dhara/journal.h and dhara/journal.c, function by function.
-/
import Verif.Model.Nand
namespace Dhara

/-- dhara/journal.h:24 DHARA_HEADER_SIZE -/
notation "headerSize" => (16 : Nat)
/-- dhara/journal.h:30 DHARA_COOKIE_SIZE -/
notation "cookieSize" => (4 : Nat)
/-- dhara/journal.h:35 DHARA_META_SIZE -/
notation "metaSize" => (132 : Nat)
/-- dhara/journal.h:41 DHARA_MAX_RETRIES -/
notation "maxRetries" => (8 : Nat)
/-- dhara/journal.h:46 DHARA_PAGE_NONE, dhara/map.h:27 DHARA_SECTOR_NONE -/
notation "NONE" => (0xffffffff : Nat)

/-- dhara/journal.h:67-116 `struct dhara_journal`. `flags` (journal.h:49-52) is split into
four Booleans. `log2_ppc` is a function of the geometry (set once in init), see
`Cfg.log2Ppc`; `nand` is the parameter `Cfg`. -/
structure Journal where
  pageBuf : Buf
  epoch : UInt8
  dirty : Bool
  badMeta : Bool
  recovery : Bool
  enumDone : Bool
  bbCurrent : Nat
  bbLast : Nat
  tailSync : Nat
  tail : Nat
  head : Nat
  root : Nat
  recoverNext : Nat
  recoverRoot : Nat
  recoverMeta : Nat

/-- Whole program state: journal, chip, and `dhara_map.count` (dhara/map.h:29-34). -/
structure S where
  j : Journal
  n : Nand
  count : Nat

/-! ### Metapage binary format (journal.c:21-93) -/

/-- journal.c:26-31 `hdr_has_magic` -/
def hdrHasMagic (b : Buf) : Bool := b 0 == 0x44 && b 1 == 0x68 && b 2 == 0x61

/-- journal.c:33-38 `hdr_put_magic` -/
def hdrPutMagic (b : Buf) : Buf := upd (upd (upd b 0 0x44) 1 0x68) 2 0x61

/-- journal.c:41-44 `hdr_get_epoch` -/
def hdrGetEpoch (b : Buf) : UInt8 := b 3

/-- journal.c:46-49 `hdr_set_epoch` -/
def hdrSetEpoch (b : Buf) (e : UInt8) : Buf := upd b 3 e

/-- journal.c:51-54 `hdr_get_tail` -/
def hdrGetTail (b : Buf) : Nat := r32 b 4

/-- journal.c:56-59 `hdr_set_tail` -/
def hdrSetTail (b : Buf) (t : Nat) : Buf := w32 b 4 t

/-- journal.c:61-64 `hdr_get_bb_current` -/
def hdrGetBbCurrent (b : Buf) : Nat := r32 b 8

/-- journal.c:66-69 `hdr_set_bb_current` -/
def hdrSetBbCurrent (b : Buf) (v : Nat) : Buf := w32 b 8 v

/-- journal.c:71-74 `hdr_get_bb_last` -/
def hdrGetBbLast (b : Buf) : Nat := r32 b 12

/-- journal.c:76-79 `hdr_set_bb_last` -/
def hdrSetBbLast (b : Buf) (v : Nat) : Buf := w32 b 12 v

/-- journal.c:82-86 `hdr_clear_user` -/
def hdrClearUser (c : Cfg) (b : Buf) : Buf :=
  b.memset (headerSize + cookieSize) 0xff (c.pageSize - headerSize - cookieSize)

/-- journal.c:89-93 `hdr_user_offset`; the parameter is a `uint8_t`. -/
def hdrUserOffset (which : Nat) : Nat := headerSize + cookieSize + which % 256 * metaSize

/-! ### Page geometry helpers (journal.c:95-157) -/

/-- journal.c:100-103 `is_aligned` -/
def isAligned (p n : Nat) : Bool := (p &&& (2 ^ n - 1)) == 0

/-- journal.c:106-110 `align_eq` -/
def alignEq (a b n : Nat) : Bool := ((a ^^^ b) >>> n) == 0

/-- journal.c:113-120 `next_block` -/
def nextBlock (c : Cfg) (blk : Nat) : Nat :=
  if blk + 1 ≥ c.numBlocks then 0 else blk + 1

/-- journal.c:139-157 `choose_ppc`, the loop; `fuel` bounds the iterations by `max`. -/
def choosePpcLoop (maxMeta : Int) (max : Nat) : Nat → Nat → Nat → Nat
  | 0, _, ppc => ppc
  | fuel + 1, total, ppc =>
    if ppc < max then
      let total := (total <<< 1) + metaSize
      if (total : Int) > maxMeta then ppc
      else choosePpcLoop maxMeta max fuel total (ppc + 1)
    else ppc

/-- journal.c:139-157 `choose_ppc` -/
def choosePpc (log2PageSize max : Nat) : Nat :=
  choosePpcLoop ((2 : Int) ^ log2PageSize - headerSize - cookieSize) max max metaSize 1

/-- `j->log2_ppc`, set in journal.c:213. -/
def Cfg.log2Ppc (c : Cfg) : Nat := choosePpc c.log2PageSize c.log2Ppb

/-- Pages per checkpoint group, `1 << j->log2_ppc`. -/
def Cfg.ppc (c : Cfg) : Nat := 2 ^ c.log2Ppc

/-- journal.c:122-133 `next_upage` -/
def nextUpage (c : Cfg) (p : Nat) : Nat :=
  let p := p + 1
  let p := if isAligned (p + 1) c.log2Ppc then p + 1 else p
  if p ≥ c.pages then 0 else p

/-- `p >> log2_ppb` -/
def Cfg.blk (c : Cfg) (p : Nat) : Nat := p >>> c.log2Ppb

/-! ### Journal setup/resume (journal.c:159-465) -/

/-- journal.c:164-172 `clear_recovery` -/
def clearRecovery (j : Journal) : Journal :=
  { j with recoverNext := NONE, recoverRoot := NONE, recoverMeta := NONE,
           badMeta := false, recovery := false, enumDone := false }

/-- journal.c:175-197 `reset_journal` -/
def resetJournal (c : Cfg) (j : Journal) : Journal :=
  clearRecovery
    { j with epoch := 0, bbLast := c.numBlocks >>> 6, bbCurrent := 0,
             dirty := false, badMeta := false, recovery := false, enumDone := false,
             head := 0, tail := 0, tailSync := 0, root := NONE,
             pageBuf := j.pageBuf.memset 0 0xff c.pageSize }

/-- journal.c:199-204 `roll_stats`; the epoch is a `uint8_t` and wraps. -/
def rollStats (j : Journal) : Journal :=
  { j with bbLast := j.bbCurrent, bbCurrent := 0, epoch := j.epoch + 1 }

/-- `if (!j->head) roll_stats(j);` (journal.c:372-373, 610-611, 689-690, 815-816) -/
def rollIfZero (j : Journal) : Journal := if j.head = 0 then rollStats j else j

/-- The journal before `dhara_journal_init`: `page_buf` is the caller's memory. -/
def rawJournal (buf : Buf) : Journal :=
  { pageBuf := buf, epoch := 0, dirty := false, badMeta := false, recovery := false,
    enumDone := false, bbCurrent := 0, bbLast := 0, tailSync := 0, tail := 0, head := 0,
    root := 0, recoverNext := 0, recoverRoot := 0, recoverMeta := 0 }

/-- journal.c:206-216 `dhara_journal_init` -/
def journalInit (c : Cfg) (buf : Buf) : Journal := resetJournal c (rawJournal buf)

/-- journal.c:222-248 `find_checkblock`: up to 8 tries starting at `blk`; returns the block
and the checkpoint page left in `page_buf`. (What a failed search leaves in `page_buf` is
always overwritten before use and is not tracked.) -/
def findCheckblock (c : Cfg) (n : Nand) : Nat → Nat → Option (Nat × Buf)
  | 0, _ => none
  | i + 1, blk =>
    if blk < c.numBlocks then
      let p := (blk <<< c.log2Ppb) ||| (c.ppc - 1)
      if nandIsBad n blk then findCheckblock c n i (blk + 1)
      else match nandRead c n p 0 c.pageSize with
        | .error _ => findCheckblock c n i (blk + 1)
        | .ok b => if hdrHasMagic b then some (blk, b) else findCheckblock c n i (blk + 1)
    else none

/-- journal.c:250-280 `find_last_checkblock`: the binary search; `fuel` bounds the number of
iterations (the interval shrinks every time). -/
def findLastCheckblockLoop (c : Cfg) (n : Nand) (epoch : UInt8) (first : Nat) :
    Nat → Nat → Nat → Except Err Nat
  | 0, _, _ => .error .diverge
  | fuel + 1, low, high =>
    if low ≤ high then
      let mid := (low + high) >>> 1
      match findCheckblock c n maxRetries mid with
      | some (found, b) =>
        if hdrGetEpoch b ≠ epoch then
          if mid = 0 then .ok first
          else findLastCheckblockLoop c n epoch first fuel low (mid - 1)
        else if found + 1 ≥ c.numBlocks then .ok found
        else match findCheckblock c n maxRetries (found + 1) with
          | none => .ok found
          | some (nf, b') =>
            if hdrGetEpoch b' ≠ epoch then .ok found
            else findLastCheckblockLoop c n epoch first fuel nf high
      | none =>
        if mid = 0 then .ok first
        else findLastCheckblockLoop c n epoch first fuel low (mid - 1)
    else .ok first

/-- journal.c:250-280 `find_last_checkblock` -/
def findLastCheckblock (c : Cfg) (n : Nand) (epoch : UInt8) (first : Nat) : Except Err Nat :=
  findLastCheckblockLoop c n epoch first (c.numBlocks + 1) first (c.numBlocks - 1)

/-- journal.c:299-309 `cp_free` -/
def cpFree (c : Cfg) (n : Nand) (firstUser : Nat) : Bool :=
  (List.range c.ppc).all fun i => nandIsFree n (firstUser + i)

/-- journal.c:311-340 `find_last_group`, the binary search. `hi` is `high + 1` so that the
C code's `high = -1` needs no negative number; `fuel` bounds the iterations. -/
def findLastGroupLoop (c : Cfg) (n : Nand) (blk numGroups : Nat) :
    Nat → Nat → Nat → Except Err Nat
  | 0, _, _ => .error .diverge
  | fuel + 1, low, hi =>
    if low < hi then
      let mid := (low + (hi - 1)) >>> 1
      let p := (mid <<< c.log2Ppc) ||| (blk <<< c.log2Ppb)
      if cpFree c n p then findLastGroupLoop c n blk numGroups fuel low mid
      else if mid + 1 ≥ numGroups || cpFree c n (p + c.ppc) then .ok p
      else findLastGroupLoop c n blk numGroups fuel (mid + 1) hi
    else .ok (blk <<< c.log2Ppb)

/-- journal.c:311-340 `find_last_group` -/
def findLastGroup (c : Cfg) (n : Nand) (blk : Nat) : Except Err Nat :=
  let numGroups := 2 ^ (c.log2Ppb - c.log2Ppc)
  findLastGroupLoop c n blk numGroups (numGroups + 1) 0 numGroups

/-- journal.c:342-366 `find_root`, loop over `i`, counting `i + 1` down. Returns the
checkpoint page number's predecessor (the root) and the checkpoint page contents. -/
def findRootLoop (c : Cfg) (n : Nand) (epoch : UInt8) (blk : Nat) : Nat → Except Err (Nat × Buf)
  | 0 => .error .tooBad
  | i + 1 =>
    let p := (blk <<< c.log2Ppb) + ((i + 1) <<< c.log2Ppc) - 1
    match nandRead c n p 0 c.pageSize with
    | .error _ => findRootLoop c n epoch blk i
    | .ok b =>
      if hdrHasMagic b && hdrGetEpoch b == epoch then .ok (p - 1, b)
      else findRootLoop c n epoch blk i

/-- journal.c:342-366 `find_root` -/
def findRoot (c : Cfg) (n : Nand) (epoch : UInt8) (start : Nat) : Except Err (Nat × Buf) :=
  findRootLoop c n epoch (c.blk start) (((start &&& (c.ppb - 1)) >>> c.log2Ppc) + 1)

/-- journal.c:391-393: number of trailing free pages of the group starting at `first`
(`k` = pages still to look at). -/
def trailFree (c : Cfg) (n : Nand) (first : Nat) : Nat → Nat → Nat
  | 0, cnt => cnt
  | k + 1, cnt =>
    if nandIsFree n (first + c.ppc - cnt - 1) then trailFree c n first k (cnt + 1) else cnt

/-- journal.c:384-417 `find_head`, the search loop; `fuel` bounds the iterations (each one
moves a checkpoint group further within a block). -/
def findHeadLoop (c : Cfg) (n : Nand) : Nat → Journal → Except Err Journal
  | 0, _ => .error .diverge
  | fuel + 1, j =>
    let first := j.head - (j.head &&& (c.ppc - 1))   -- j->head & ~(ppc - 1)
    let cnt := trailFree c n first c.ppc 0
    if cnt > 1 then .ok { j with head := first + c.ppc - cnt }
    else
      let j := { j with head := first + c.ppc }
      let j := if j.head ≥ c.pages then rollStats { j with head := 0 } else j
      if isAligned j.head c.log2Ppb then
        if alignEq j.head j.tail c.log2Ppb then
          .ok { j with tail := nextBlock c (c.blk j.tail) <<< c.log2Ppb }
        else .ok j
      else findHeadLoop c n fuel j

/-- journal.c:368-420 `find_head` -/
def findHead (c : Cfg) (n : Nand) (start : Nat) (j : Journal) : Except Err Journal :=
  findHeadLoop c n (c.ppb + 1) (rollIfZero { j with head := nextUpage c start })

/-- journal.c:422-465 `dhara_journal_resume` -/
def journalResume (c : Cfg) (n : Nand) (j : Journal) : Except Err Unit × Journal :=
  match findCheckblock c n maxRetries 0 with
  | none => (.error .tooBad, resetJournal c j)
  | some (first, b0) =>
    let j := { j with epoch := hdrGetEpoch b0 }
    match findLastCheckblock c n j.epoch first with
    | .error e => (.error e, j)
    | .ok last =>
      match findLastGroup c n last with
      | .error e => (.error e, j)
      | .ok lastGroup =>
        match findRoot c n j.epoch lastGroup with
        | .error e => (.error e, resetJournal c j)
        | .ok (root, b) =>
          let j := { j with root := root, tail := hdrGetTail b,
                            bbCurrent := hdrGetBbCurrent b, bbLast := hdrGetBbLast b,
                            pageBuf := hdrClearUser c b }
          match findHead c n lastGroup j with
          | .error e => (.error e, j)
          | .ok j =>
            let j := { j with dirty := false, badMeta := false, recovery := false,
                              enumDone := false, tailSync := j.tail }
            (.ok (), clearRecovery j)

/-! ### Public interface (journal.c:467-884) -/

/-- Subtraction of `uint32_t`. -/
def sub32 (a b : Nat) : Nat :=
  if b % 2 ^ 32 ≤ a then (a - b % 2 ^ 32) % 2 ^ 32 else 2 ^ 32 - (b % 2 ^ 32 - a)
/-- Left shift of `uint32_t`. -/
def shl32 (a k : Nat) : Nat := (a <<< k) % 2 ^ 32

/-- journal.c:471-481 `dhara_journal_capacity` (32-bit arithmetic). -/
def journalCapacity (c : Cfg) (j : Journal) : Nat :=
  let maxBad := if j.bbLast > j.bbCurrent then j.bbLast else j.bbCurrent
  let goodBlocks := sub32 (sub32 c.numBlocks maxBad) 1
  let goodCps := shl32 goodBlocks (c.log2Ppb - c.log2Ppc)
  sub32 (shl32 goodCps c.log2Ppc) goodCps

/-- journal.c:483-504 `dhara_journal_size` (32-bit arithmetic). -/
def journalSize (c : Cfg) (j : Journal) : Nat :=
  let wrapped := decide (j.head < j.tailSync)
  let numPages := if wrapped then (j.head + c.pages) % 2 ^ 32 else j.head
  let numCps := if wrapped then ((j.head >>> c.log2Ppc) + (c.pages >>> c.log2Ppc)) % 2 ^ 32
                else j.head >>> c.log2Ppc
  sub32 (sub32 numPages j.tailSync) (sub32 numCps (j.tailSync >>> c.log2Ppc))

/-- journal.c:506-532 `dhara_journal_read_meta`. Copying from beyond the end of the page buffer
is undefined behaviour in C; the model answers `ub`, as for reads off the chip. -/
def readMeta (c : Cfg) (s : S) (p : Nat) : Except Err Buf :=
  let mask := c.ppc - 1
  let offset := hdrUserOffset (p &&& mask)
  if alignEq p s.j.head c.log2Ppc then
    if offset + metaSize ≤ c.pageSize then .ok (s.j.pageBuf.slice offset metaSize) else .error .ub
  else if s.j.recoverMeta ≠ NONE ∧ alignEq p s.j.recoverRoot c.log2Ppc then
    nandRead c s.n s.j.recoverMeta offset metaSize
  else nandRead c s.n (p ||| mask) offset metaSize

/-- journal.c:544-556: `dhara_journal_peek`'s loop over candidate tail blocks. -/
def peekLoop (c : Cfg) : Nat → Nat → S → Nat × S
  | 0, _, s => (s.j.tail, s)
  | i + 1, blk, s =>
    if blk = c.blk s.j.head ∨ ¬ nandIsBad s.n blk then
      let j := { s.j with tail := blk <<< c.log2Ppb }
      let j := if j.tail = j.head then { j with root := NONE } else j
      (j.tail, { s with j := j })
    else peekLoop c i (nextBlock c blk) s

/-- journal.c:534-559 `dhara_journal_peek` -/
def peek (c : Cfg) (s : S) : Nat × S :=
  if s.j.head = s.j.tail then (NONE, s)
  else if isAligned s.j.tail c.log2Ppb then peekLoop c maxRetries (c.blk s.j.tail) s
  else (s.j.tail, s)

/-- journal.c:561-564 `wrap` -/
def wrap (a b : Nat) : Nat := if a ≥ b then a - b else a

/-- journal.c:566-587 `dhara_journal_dequeue` (32-bit arithmetic in the root test). -/
def dequeue (c : Cfg) (s : S) : S :=
  if s.j.head = s.j.tail then s
  else
    let j := { s.j with tail := nextUpage c s.j.tail }
    let j := if ¬ (j.dirty ∨ j.recovery) then { j with tailSync := j.tail } else j
    let chipSize := c.pages
    let rawSize := wrap (sub32 ((j.head + chipSize) % 2 ^ 32) j.tail) chipSize
    let rootOffset := wrap (sub32 ((j.head + chipSize) % 2 ^ 32) j.root) chipSize
    let j := if rootOffset > rawSize then { j with root := NONE } else j
    { s with j := j }

/-- journal.c:589-596 `dhara_journal_clear` -/
def journalClear (c : Cfg) (s : S) : S :=
  { s with j := { s.j with tail := s.j.head, root := NONE, dirty := true,
                           pageBuf := hdrClearUser c s.j.pageBuf } }

/-- journal.h:220-224 `dhara_journal_mark_dirty` -/
def markDirty (s : S) : S := { s with j := { s.j with dirty := true } }

/-- journal.c:598-614 `skip_block` -/
def skipBlock (c : Cfg) (s : S) : Except Err Unit × S :=
  let next := nextBlock c (c.blk s.j.head)
  if c.blk s.j.tailSync = next then (.error .journalFull, s)
  else (.ok (), { s with j := rollIfZero { s.j with head := next <<< c.log2Ppb } })

/-- journal.c:633-644: `prepare_head`'s loop. -/
def prepareHeadLoop (c : Cfg) : Nat → S → Except Err Unit × S
  | 0, s => (.error .tooBad, s)
  | i + 1, s =>
    let blk := c.blk s.j.head
    if ¬ nandIsBad s.n blk then
      let r := nandErase c blk s.n
      (r.1, { s with n := r.2 })
    else
      match skipBlock c { s with j := { s.j with bbCurrent := s.j.bbCurrent + 1 } } with
      | (.error e, s) => (.error e, s)
      | (.ok (), s) => prepareHeadLoop c i s

/-- journal.c:617-648 `prepare_head` -/
def prepareHead (c : Cfg) (s : S) : Except Err Unit × S :=
  let next := nextUpage c s.j.head
  if alignEq next s.j.tailSync c.log2Ppb ∧ ¬ alignEq next s.j.head c.log2Ppb then
    (.error .journalFull, s)
  else
    let s := { s with j := { s.j with dirty := true } }
    if ¬ isAligned s.j.head c.log2Ppb then (.ok (), s)
    else prepareHeadLoop c maxRetries s

/-- `x & ~((1 << log2_ppb) - 1)` -/
def Cfg.blockStart (c : Cfg) (p : Nat) : Nat := p - (p &&& (c.ppb - 1))

/-- journal.c:650-672 `restart_recovery` -/
def restartRecovery (c : Cfg) (oldHead : Nat) (s : S) : S :=
  let s :=
    if s.j.recoverMeta = NONE ∨ ¬ alignEq s.j.recoverMeta oldHead c.log2Ppb then
      { s with n := nandMarkBad c (c.blk oldHead) s.n }
    else { s with j := { s.j with badMeta := true } }
  { s with j := { s.j with enumDone := false,
                           recoverNext := c.blockStart s.j.recoverRoot,
                           root := s.j.recoverRoot } }

/-- Program a page of the chip inside the state. -/
def progS (c : Cfg) (p : Nat) (data : Buf) (s : S) : Except Err Unit × S :=
  let r := nandProg c p data s.n
  (r.1, { s with n := r.2 })

/-- journal.c:674-711 `dump_meta`, the retry loop. -/
def dumpMetaLoop (c : Cfg) : Nat → S → Except Err Unit × S
  | 0, s => (.error .tooBad, s)
  | i + 1, s =>
    let r : Except Err Unit × S := match prepareHead c s with
      | (.error e, s) => (.error e, s)
      | (.ok (), s) => progS c s.j.head s.j.pageBuf s
    match r with
    | (.ok (), s) =>
      let j := { s.j with recoverMeta := s.j.head, head := nextUpage c s.j.head }
      let j := rollIfZero j
      (.ok (), { s with j := { j with pageBuf := hdrClearUser c j.pageBuf } })
    | (.error e, s) =>
      if e ≠ .badBlock then (.error e, s)
      else
        let s := { s with j := { s.j with bbCurrent := s.j.bbCurrent + 1 } }
        let s := { s with n := nandMarkBad c (c.blk s.j.head) s.n }
        match skipBlock c s with
        | (.error e, s) => (.error e, s)
        | (.ok (), s) => dumpMetaLoop c i s

/-- journal.c:674-711 `dump_meta` -/
def dumpMeta (c : Cfg) (s : S) : Except Err Unit × S := dumpMetaLoop c maxRetries s

/-- journal.c:713-754 `recover_from` (`.ok` is the C return value 0). -/
def recoverFrom (c : Cfg) (writeErr : Err) (s : S) : Except Err Unit × S :=
  let oldHead := s.j.head
  if writeErr ≠ .badBlock then (.error writeErr, s)
  else
    let s := { s with j := { s.j with bbCurrent := s.j.bbCurrent + 1 } }
    match skipBlock c s with
    | (.error e, s) => (.error e, s)
    | (.ok (), s) =>
      if s.j.recovery then (.error .recover, restartRecovery c oldHead s)
      else if isAligned oldHead c.log2Ppb then
        (.ok (), { s with n := nandMarkBad c (c.blk oldHead) s.n })
      else
        let s := { s with j := { s.j with recoverRoot := s.j.root,
                                          recoverNext := c.blockStart s.j.root } }
        let r : Except Err Unit × S :=
          if ¬ isAligned oldHead c.log2Ppc then dumpMeta c s else (.ok (), s)
        match r with
        | (.error e, s) => (.error e, s)
        | (.ok (), s) =>
          (.error .recover, { s with j := { s.j with recovery := true } })

/-- journal.c:756-773 `finish_recovery` -/
def finishRecovery (c : Cfg) (s : S) : S :=
  let s := { s with n := nandMarkBad c (c.blk s.j.recoverRoot) s.n }
  let s := if s.j.badMeta then
      { s with n := nandMarkBad c (c.blk s.j.recoverMeta) s.n } else s
  { s with j := clearRecovery s.j }

/-- journal.c:786-789: store the metadata of the page just written in the buffer. -/
def bufferMeta (c : Cfg) (mt : Option Buf) (j : Journal) : Journal :=
  let offset := hdrUserOffset (j.head &&& (c.ppc - 1))
  match mt with
  | some m => { j with pageBuf := j.pageBuf.memcpy offset m 0 metaSize }
  | none => { j with pageBuf := j.pageBuf.memset offset 0xff metaSize }

/-- journal.c:801-805: fill in the checkpoint header. -/
def fillHeader (j : Journal) : Journal :=
  { j with pageBuf :=
      hdrSetBbLast (hdrSetBbCurrent (hdrSetTail (hdrSetEpoch (hdrPutMagic j.pageBuf) j.epoch)
        j.tail) j.bbCurrent) j.bbLast }

/-- journal.c:811-822: the checkpoint page has been written; move on. -/
def commitPush (c : Cfg) (oldHead : Nat) (s : S) : S :=
  let j := { s.j with dirty := false, root := oldHead, head := nextUpage c s.j.head }
  let s := { s with j := rollIfZero j }
  let s : S := if s.j.enumDone then finishRecovery c s else s
  if ¬ s.j.recovery then { s with j := { s.j with tailSync := s.j.tail } } else s

/-- journal.c:775-825 `push_meta` -/
def pushMeta (c : Cfg) (mt : Option Buf) (s : S) : Except Err Unit × S :=
  let oldHead := s.j.head
  let s := { s with j := bufferMeta c mt s.j }
  if ¬ isAligned (s.j.head + 2) c.log2Ppc then
    (.ok (), { s with j := { s.j with root := s.j.head, head := s.j.head + 1 } })
  else
    let s := { s with j := fillHeader s.j }
    match progS c (s.j.head + 1) s.j.pageBuf s with
    | (.error e, s) => recoverFrom c e s
    | (.ok (), s) => (.ok (), commitPush c oldHead s)

/-- The retry loop shared by journal.c:827-846 `dhara_journal_enqueue` and journal.c:848-866
`dhara_journal_copy`; `wr` writes the user page at the head. -/
def pushLoop (c : Cfg) (wr : S → Except Err Unit × S) (mt : Option Buf) :
    Nat → S → Except Err Unit × S
  | 0, s => (.error .tooBad, s)
  | i + 1, s =>
    let r : Except Err Unit × S := match prepareHead c s with
      | (.error e, s) => (.error e, s)
      | (.ok (), s) => wr s
    match r with
    | (.ok (), s) => pushMeta c mt s
    | (.error e, s) =>
      match recoverFrom c e s with
      | (.error e, s) => (.error e, s)
      | (.ok (), s) => pushLoop c wr mt i s

/-- journal.c:835-836: `data && dhara_nand_prog(j->nand, j->head, data, &my_err)` -/
def wrData (c : Cfg) (data : Option Buf) (s : S) : Except Err Unit × S :=
  match data with
  | none => (.ok (), s)
  | some d => progS c s.j.head d s

/-- journal.c:856-857: `dhara_nand_copy(j->nand, p, j->head, &my_err)` -/
def wrCopy (c : Cfg) (p : Nat) (s : S) : Except Err Unit × S :=
  let r := nandCopy c p s.j.head s.n
  (r.1, { s with n := r.2 })

/-- journal.c:827-846 `dhara_journal_enqueue`; `none` is a NULL pointer. -/
def enqueue (c : Cfg) (data mt : Option Buf) (s : S) : Except Err Unit × S :=
  pushLoop c (wrData c data) mt maxRetries s

/-- journal.c:848-866 `dhara_journal_copy` -/
def journalCopy (c : Cfg) (p : Nat) (mt : Buf) (s : S) : Except Err Unit × S :=
  pushLoop c (wrCopy c p) (some mt) maxRetries s

/-- journal.c:868-884 `dhara_journal_next_recoverable` -/
def nextRecoverable (c : Cfg) (s : S) : Nat × S :=
  let n := s.j.recoverNext
  if ¬ (s.j.recovery = true) then (NONE, s)
  else if s.j.enumDone then (NONE, s)
  else if s.j.recoverNext = s.j.recoverRoot then
    (n, { s with j := { s.j with enumDone := true } })
  else (n, { s with j := { s.j with recoverNext := nextUpage c s.j.recoverNext } })

end Dhara

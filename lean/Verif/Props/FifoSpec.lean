/-
Specification of C59 and C60: the journal as its users see it, a first-in first-out queue of pages with metadata, and the
assisted recovery after a block failure (dhara/journal.h:194-260).
-/
import Verif.Props.JournalSpec
import Verif.Props.MapSpec
namespace Dhara

/-- One entry of the queue: the page `dhara_journal_root` reported after the enqueue, and the data and metadata handed
over (`none`: a NULL pointer). -/
structure Entry where
  page : Nat
  data : Option Buf
  mt : Option Buf

/-- What `dhara_journal_peek` is to answer (dhara/journal.h:173-176): the page of the oldest entry, DHARA_PAGE_NONE if
there is none. -/
def oldest : List Entry → Nat
  | [] => NONE
  | e :: _ => e.page

/-- What `dhara_journal_root` is to answer (dhara/journal.h:158-163): the page of the newest entry, DHARA_PAGE_NONE if
there is none. -/
def newest (L : List Entry) : Nat := oldest L.reverse

/-- The metadata handed over with an entry, as `dhara_journal_read_meta` must return it: all 0xff for a NULL pointer. -/
def Entry.metaBytes (e : Entry) : Buf := (e.mt.getD Buf.ff).slice 0 metaSize

/-- The chip has no eight successive blocks that are all marked bad (counting round the end of the chip); eight is
DHARA_MAX_RETRIES, dhara/journal.h:41. -/
def Shallow (c : Cfg) (n : Nand) : Prop := ∀ b, ∃ k, k < maxRetries ∧ n.chip.bad ((b + k) % c.numBlocks) = false

/-- A call that appends a page: an enqueue of new data, or a copy of a page that is in the queue. `Appends c s L d m x`: with
the queue `L`, the data to be appended are `d`, the metadata `m`, and the call returns `x`. -/
inductive Appends (c : Cfg) (s : S) (L : List Entry) : Option Buf → Option Buf → Except Err Unit × S → Prop
  | enqueue (d m : Option Buf) : Appends c s L d m (enqueue c d m s)
  | copy (e : Entry) (m : Buf) : e ∈ L → Appends c s L e.data (some m) (journalCopy c e.page m s)

/-- The entry a successful call leaves behind. -/
def entryAt (s : S) (d m : Option Buf) : Entry := ⟨s.j.root, d, m⟩

/-- The page into which the buffered metadata were dumped when a recovery began (dhara/journal.c:672-686), if any, counts as
an entry without data and metadata. -/
def dumped (s : S) : List Entry := if s.j.recoverMeta = NONE then [] else [⟨s.j.recoverMeta, none, none⟩]

/-- The entries that are not on the block of page `r`. -/
def offBlock (c : Cfg) (r : Nat) (L : List Entry) : List Entry := L.filter fun e => e.page / c.ppb ≠ r / c.ppb

/-- The user pages of the block of `r` from its first page to `r`. -/
def toRecover (c : Cfg) (r : Nat) : List Nat :=
  ((List.range (r % c.ppb + 1)).map fun i => r / c.ppb * c.ppb + i).filter fun p => p % c.ppc ≠ c.ppc - 1

/-- What the user of the journal knows besides the queue. -/
inductive Phase where
  /-- Normal operation; the flag says that a peek has answered a page which has not been dequeued yet. -/
  | calm (peeked : Bool)
  /-- A recovery is going on; `r` was the newest page when the block failed and `got` are the answers of
  `dhara_journal_next_recoverable` since the recovery was (re)started. -/
  | recovering (r : Nat) (got : List Nat)

/-- `Fifo c s L ph`: `s` is the state after a history of journal calls, `L` is what a first-in first-out queue would contain
after that history, oldest entry first, and `ph` is where the user stands. The history may contain
* in normal operation: enqueues and copies, peeks, dequeues preceded by a peek that answered a page, with at most enqueues
  and copies in between (as in dhara/map.c:508-532 and tests/jtutil.c:165-211), and clears;
* at any time, calls of `dhara_journal_mark_dirty`;
* an enqueue or copy that reports an error (the journal is full, the page to be copied is unreadable, ...) although no program or
  erase operation failed, when the block at the head is not marked bad: the queue is unchanged;
* an enqueue or copy on a non-empty queue that returns E_RECOVER and so begins a recovery;
* during a recovery: next_recoverable, enqueues and copies, which may return E_RECOVER again. What the newest block then
  contained is lost. When an enqueue or copy leaves the journal out of recovery, the failed block is no longer part of the
  queue; this supposes that the tail was not in the middle of the failed block. -/
inductive Fifo (c : Cfg) : S → List Entry → Phase → Prop
  | fresh (s : S) : JFresh c s → Fifo c s [] (.calm false)
  | append (s s' : S) (L : List Entry) (pk : Bool) (d m : Option Buf) : Fifo c s L (.calm pk) →
      Appends c s L d m (.ok (), s') → Fifo c s' (L ++ [entryAt s' d m]) (.calm pk)
  | refused (s s' : S) (L : List Entry) (pk : Bool) (d m : Option Buf) (e : Err) : Fifo c s L (.calm pk) →
      Appends c s L d m (.error e, s') → e.Reported → e ≠ .recover → Quiet c s.n.time s'.n.time →
      nandIsBad s.n (s.j.head / c.ppb) = false → Fifo c s' L (.calm pk)
  | peek (s : S) (L : List Entry) (pk : Bool) : Fifo c s L (.calm pk) → Shallow c s.n →
      Fifo c (peek c s).2 L (.calm (!L.isEmpty))
  | dequeue (s : S) (L : List Entry) (e : Entry) : Fifo c s (e :: L) (.calm true) → Fifo c (dequeue c s) L (.calm false)
  | clear (s : S) (L : List Entry) (pk : Bool) : Fifo c s L (.calm pk) → Fifo c (journalClear c s) [] (.calm false)
  | mark (s : S) (L : List Entry) (ph : Phase) : Fifo c s L ph → Fifo c (markDirty s) L ph
  | begin_ (s s' : S) (L : List Entry) (pk : Bool) (d m : Option Buf) : Fifo c s L (.calm pk) → L ≠ [] →
      Appends c s L d m (.error .recover, s') → Fifo c s' (L ++ dumped s') (.recovering (newest L) [])
  | next (s : S) (L : List Entry) (r : Nat) (got : List Nat) : Fifo c s L (.recovering r got) →
      Fifo c (nextRecoverable c s).2 L (.recovering r (got ++ [(nextRecoverable c s).1]))
  | rewrite (s s' : S) (L : List Entry) (r : Nat) (got : List Nat) (d m : Option Buf) : Fifo c s L (.recovering r got) →
      Appends c s L d m (.ok (), s') → s'.j.recovery = true → Fifo c s' (L ++ [entryAt s' d m]) (.recovering r got)
  | again (s s' : S) (L : List Entry) (r : Nat) (got : List Nat) (d m : Option Buf) : Fifo c s L (.recovering r got) →
      Appends c s L d m (.error .recover, s') → Fifo c s' (offBlock c s.j.head L) (.recovering r [])
  | finish (s s' : S) (L : List Entry) (r : Nat) (got : List Nat) (d m : Option Buf) : Fifo c s L (.recovering r got) →
      Appends c s L d m (.ok (), s') → s'.j.recovery = false → (s.j.tail / c.ppb ≠ r / c.ppb ∨ s.j.tail % c.ppb = 0) →
      Fifo c s' (offBlock c r L ++ [entryAt s' d m]) (.calm false)

/-- The pages a user sees who peeks and dequeues until peek answers DHARA_PAGE_NONE, or `k` times (tests/jtutil.c:165-211). -/
def drain (c : Cfg) : Nat → S → List Nat
  | 0, _ => []
  | k + 1, s => if (peek c s).1 = NONE then [] else (peek c s).1 :: drain c k (dequeue c (peek c s).2)

/-! ### The recovery procedure of a journal user -/

/-- One turn of the loop (tests/jtutil.c:72-88): the next page of the failed block is copied with its own metadata; when there
is none, an empty page is enqueued. -/
def rewriteNext (c : Cfg) (s : S) : Except Err Unit × S :=
  let p := (nextRecoverable c s).1
  let s := (nextRecoverable c s).2
  if p = NONE then enqueue c none none s
  else match readMeta c s p with
    | .error e => (.error e, s)
    | .ok m => journalCopy c p m s

/-- tests/jtutil.c:65-105 `recover`: while the journal is in recovery, rewrite; on E_RECOVER go on, unless it has been
returned eight times. It answers the number of restarts. `k` bounds the number of turns (`diverge` if it does not suffice);
what the C code treats by aborting the program is returned as an error. -/
def jtRecover (c : Cfg) : Nat → Nat → S → Except Err Nat × S
  | 0, _, s => (.error .diverge, s)
  | k + 1, n, s =>
    if s.j.recovery = true then
      match rewriteNext c s with
      | (.ok (), s) => jtRecover c k n s
      | (.error .recover, s) => if n + 1 ≥ maxRetries then (.error .tooBad, s) else jtRecover c k (n + 1) s
      | (.error e, s) => (.error e, s)
    else (.ok n, s)

/-- What an entry contains: the data handed over, and the metadata as it reads. -/
def Entry.content (e : Entry) : Option Buf × Buf := (e.data, e.metaBytes)

/-- What a page that was enqueued without data and metadata contains. -/
def filler : Option Buf × Buf := (none, Buf.ff.slice 0 metaSize)

end Dhara

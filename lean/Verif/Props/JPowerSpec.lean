/-
Specification of C61: what a power failure leaves of the journal, as its users see it. Histories of journal calls as in
FifoSpec.lean, with a record of what the last checkpoint has made persistent.
-/
import Verif.Props.FifoSpec
import Verif.Props.CrashSpec
namespace Dhara

/-- What the last checkpoint made persistent. -/
structure Saved where
  /-- The queue when the journal last became clean. -/
  all : List Entry
  /-- Those entries that have not been dequeued from a clean journal since: dhara/journal.c:573-576 says of the others that they
  were "always obsolete" and may be overwritten at once. -/
  left : List Entry
  /-- The cookie at that time (dhara/journal.h:26-30, 153-157), as a number. -/
  cookie : Nat

/-- After an enqueue or copy that leaves the journal clean (dhara/journal.h:226-232) everything is persistent; otherwise the same
as before. `s` is the state before the call, `s'` the state after it. -/
def nowSaved (s s' : S) (L : List Entry) (D : Option Saved) : Option Saved :=
  if s'.j.dirty then D else some ⟨L, L, ckGetCount s.j⟩

/-- A dequeue from a clean journal gives up the entry at once (dhara/journal.c:573-576). -/
def dequeued (s : S) (L : List Entry) (D : Option Saved) : Option Saved :=
  if s.j.dirty then D else D.map fun x => { x with left := L }

/-- The journal's power cycle: the chip is powered again and the user calls dhara_journal_init and dhara_journal_resume with any
page buffer. -/
def jreboot (c : Cfg) (buf : Buf) (s : S) : Except Err Unit × S :=
  let n : Nand := { s.n with time := s.n.time + 1, dead := false }
  let x := journalResume c n (journalInit c buf)
  (x.1, { s with j := x.2, n := n })

/-- After a power cycle while the journal was clean, the queue is the one of the last checkpoint: what was dequeued since is back
(dhara/journal.h:178-180: dequeue "doesn't take permanent effect until the next checkpoint"). -/
def back (D : Option Saved) : List Entry := match D with | none => [] | some x => x.all

/-- `JLog c s L ph D`: a history as in `Fifo`, beginning on a chip without checkpoints, in which the user may also set the cookie and mark the journal dirty, and
the power may be cycled while the journal is clean (without read errors, and with two good blocks among any eight neighbours);
`D` is what the last checkpoint made persistent, if there has been one. -/
inductive JLog (c : Cfg) : S → List Entry → Phase → Option Saved → Prop
  | fresh (s : S) : JFresh c s → Unformatted c s.n.chip → JLog c s [] (.calm false) none
  | append (s s' : S) (L : List Entry) (pk : Bool) (D : Option Saved) (d m : Option Buf) : JLog c s L (.calm pk) D →
      Appends c s L d m (.ok (), s') →
      JLog c s' (L ++ [entryAt s' d m]) (.calm pk) (nowSaved s s' (L ++ [entryAt s' d m]) D)
  | refused (s s' : S) (L : List Entry) (pk : Bool) (D : Option Saved) (d m : Option Buf) (e : Err) : JLog c s L (.calm pk) D →
      Appends c s L d m (.error e, s') → e.Reported → e ≠ .recover → Quiet c s.n.time s'.n.time →
      nandIsBad s.n (s.j.head / c.ppb) = false → JLog c s' L (.calm pk) D
  | peek (s : S) (L : List Entry) (pk : Bool) (D : Option Saved) : JLog c s L (.calm pk) D → Shallow c s.n →
      JLog c (peek c s).2 L (.calm (!L.isEmpty)) D
  | dequeue (s : S) (L : List Entry) (e : Entry) (D : Option Saved) : JLog c s (e :: L) (.calm true) D →
      JLog c (dequeue c s) L (.calm false) (dequeued s L D)
  | clear (s : S) (L : List Entry) (pk : Bool) (D : Option Saved) : JLog c s L (.calm pk) D →
      JLog c (journalClear c s) [] (.calm false) D
  | cookie (s : S) (L : List Entry) (pk : Bool) (D : Option Saved) (k : Nat) : JLog c s L (.calm pk) D →
      JLog c { s with j := ckSetCount s.j k } L (.calm pk) D
  | mark (s : S) (L : List Entry) (ph : Phase) (D : Option Saved) : JLog c s L ph D → JLog c (markDirty s) L ph D
  | restart (s s' : S) (L : List Entry) (pk : Bool) (D : Option Saved) (buf : Buf) (r : Except Err Unit) : JLog c s L (.calm pk) D →
      s.j.dirty = false → FewBad c s.n.chip → (∀ p, p < c.pages → c.env.readFail (s.n.time + 1) p = false) →
      jreboot c buf s = (r, s') → JLog c s' (back D) (.calm false) (D.map fun x => { x with left := x.all })
  | begin_ (s s' : S) (L : List Entry) (pk : Bool) (D : Option Saved) (d m : Option Buf) : JLog c s L (.calm pk) D → L ≠ [] →
      Appends c s L d m (.error .recover, s') → JLog c s' (L ++ dumped s') (.recovering (newest L) []) D
  | next (s : S) (L : List Entry) (r : Nat) (got : List Nat) (D : Option Saved) : JLog c s L (.recovering r got) D →
      JLog c (nextRecoverable c s).2 L (.recovering r (got ++ [(nextRecoverable c s).1])) D
  | rewrite (s s' : S) (L : List Entry) (r : Nat) (got : List Nat) (D : Option Saved) (d m : Option Buf) :
      JLog c s L (.recovering r got) D → Appends c s L d m (.ok (), s') → s'.j.recovery = true →
      JLog c s' (L ++ [entryAt s' d m]) (.recovering r got) D
  | again (s s' : S) (L : List Entry) (r : Nat) (got : List Nat) (D : Option Saved) (d m : Option Buf) :
      JLog c s L (.recovering r got) D → Appends c s L d m (.error .recover, s') →
      JLog c s' (offBlock c s.j.head L) (.recovering r []) D
  | finish (s s' : S) (L : List Entry) (r : Nat) (got : List Nat) (D : Option Saved) (d m : Option Buf) :
      JLog c s L (.recovering r got) D → Appends c s L d m (.ok (), s') → s'.j.recovery = false →
      (s.j.tail / c.ppb ≠ r / c.ppb ∨ s.j.tail % c.ppb = 0) →
      JLog c s' (offBlock c r L ++ [entryAt s' d m]) (.calm false) (nowSaved s s' (offBlock c r L ++ [entryAt s' d m]) D)

/-- `Since c s0 L0 pk s L pk'`: the journal was marked dirty in the state `s0` with the queue `L0`; since then there have been
appends that did not complete a checkpoint, peeks, dequeues, clears and changes of the cookie, and no other calls; now the state is `s` and the
queue `L`. The flags are as in `Phase.calm`. -/
inductive Since (c : Cfg) (s0 : S) (L0 : List Entry) (pk : Bool) : S → List Entry → Bool → Prop
  | mark : Since c s0 L0 pk (markDirty s0) L0 pk
  | append (s s' : S) (L : List Entry) (k : Bool) (d m : Option Buf) : Since c s0 L0 pk s L k → Appends c s L d m (.ok (), s') →
      s'.j.dirty = true → Since c s0 L0 pk s' (L ++ [entryAt s' d m]) k
  | peek (s : S) (L : List Entry) (k : Bool) : Since c s0 L0 pk s L k → Shallow c s.n → Since c s0 L0 pk (peek c s).2 L (!L.isEmpty)
  | dequeue (s : S) (L : List Entry) (e : Entry) : Since c s0 L0 pk s (e :: L) true → Since c s0 L0 pk (dequeue c s) L false
  | clear (s : S) (L : List Entry) (k : Bool) : Since c s0 L0 pk s L k → Since c s0 L0 pk (journalClear c s) [] false
  | cookie (s : S) (L : List Entry) (k : Bool) (v : Nat) : Since c s0 L0 pk s L k → Since c s0 L0 pk { s with j := ckSetCount s.j v } L k

/-- The four bytes that dhara_journal_cookie (dhara/journal.h:153-157) points to. -/
def cookieBytes (s : S) : List UInt8 := (List.range cookieSize).map fun i => s.j.pageBuf (headerSize + i)

/-- What must be found after a power cycle that gave the result `r` and the state `s`. Without a checkpoint, resume reports
E_TOO_BAD and the journal is empty. Otherwise it succeeds; the root is the newest entry of the queue then saved, the cookie is the
one then saved, every entry left is on the page it was on, with its data and metadata; and if none of the entries saved has been given
up, peek answers the oldest of them. A user who takes everything out of the journal gets the entries left one after the other in their order;
before them there may be pages of entries given up (none if none was given up), behind them there may be pages written after the
checkpoint, on the block of the newest entry. -/
def Restored (c : Cfg) (D : Option Saved) (r : Except Err Unit) (s : S) : Prop :=
  match D with
  | none => r = .error .tooBad ∧ s.j.root = NONE ∧ (peek c s).1 = NONE
  | some x => r = .ok () ∧ s.j.root = newest x.all ∧ ckGetCount s.j = x.cookie ∧ s.j.dirty = false ∧ s.j.recovery = false ∧
      (∀ e, e ∈ x.left → (∀ d, e.data = some d → nandRead c s.n e.page 0 c.pageSize = .ok (c.clip d)) ∧
        readMeta c s e.page = .ok e.metaBytes) ∧
      (x.left = x.all → Shallow c s.n → (peek c s).1 = oldest x.all) ∧
      (Shallow c s.n → ∃ J1 J2, drain c c.pages s = J1 ++ x.left.map Entry.page ++ J2 ∧ (x.left = x.all → J1 = []) ∧
        (x.left ≠ [] → ∀ p, p ∈ J2 → p / c.ppb = s.j.root / c.ppb ∧ s.j.root < p))

/-- The power fails between two calls, or during an enqueue or copy (`s'` is the state then); `D'` is what the last checkpoint
has made persistent: as before, or, if the call had just completed a checkpoint, the queue with the new entry. No block was being
recovered when the power failed (or no operation failed at all). -/
inductive Fails (c : Cfg) (s : S) (L : List Entry) (D : Option Saved) : S → (Option Saved → Prop) → Prop
  | between : Fails c s L D s (· = D)
  | during (d m : Option Buf) (s' : S) : Appends c s L d m (.error .powerLoss, s') →
      (¬ Recovering s' ∨ Quiet c s.n.time s'.n.time) →
      Fails c s L D s' fun D' => D' = D ∨
        ∃ p, D' = some ⟨L ++ [⟨p, d, m⟩], L ++ [⟨p, d, m⟩], ckGetCount s.j⟩

end Dhara

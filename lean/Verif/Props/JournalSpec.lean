/-
Specification used by the journal-level properties: histories of journal calls, and the queue as a user
of dhara/journal.h sees it.
-/
import Verif.Model.Map
namespace Dhara

/-- The journal calls of dhara/journal.h:118-237 that change the journal. -/
inductive JOp where
  | enqueue (data mt : Option Buf)
  | copy (p : Nat) (mt : Buf)
  | dequeue
  | peek
  | clear
  | next

/-- One journal call. -/
def jcall (c : Cfg) : JOp → S → Except Err Unit × S
  | .enqueue d m, s => enqueue c d m s
  | .copy p m, s => journalCopy c p m s
  | .dequeue, s => (.ok (), dequeue c s)
  | .peek, s => (.ok (), (peek c s).2)
  | .clear, s => (.ok (), journalClear c s)
  | .next, s => (.ok (), (nextRecoverable c s).2)

/-- When a call may be made: the queue is only shortened when no recovery is going on
(dhara/journal.h:194-216). -/
def JOp.Allowed (s : S) : JOp → Prop
  | .dequeue => s.j.recovery = false
  | .peek => s.j.recovery = false
  | .clear => s.j.recovery = false
  | _ => True

/-- A journal just initialised, or just resumed on a chip without a checkpoint. -/
def JFresh (c : Cfg) (s : S) : Prop :=
  s.n.dead = false ∧ s.n.ub = false ∧
    ((∃ buf, s.j = journalInit c buf) ∨ (∃ j, journalResume c s.n j = (.error .tooBad, s.j)))

/-- The states after a history of journal calls each of which succeeded, or failed with E_RECOVER while the queue had
a root page. -/
inductive JHist (c : Cfg) : S → Prop
  | fresh (s : S) : JFresh c s → JHist c s
  | call (s s' : S) (op : JOp) (r : Except Err Unit) : JHist c s → op.Allowed s → jcall c op s = (r, s') →
      (r = .ok () ∨ (r = .error .recover ∧ s.j.root ≠ NONE)) → JHist c s'

/-- Distance from page `a` forward to page `b`, going round the chip. -/
def Cfg.dist (c : Cfg) (a b : Nat) : Nat := (b + c.pages - a) % c.pages

/-- `p` is a page for user data: it exists and is not the checkpoint page of its group. -/
def Cfg.UserPage (c : Cfg) (p : Nat) : Prop := p < c.pages ∧ p % c.ppc ≠ c.ppc - 1

/-- `p` lies in the part of the chip from page `a` up to (but not including) the head. -/
def Cfg.Between (c : Cfg) (a p head : Nat) : Prop := c.UserPage p ∧ c.dist a p < c.dist a head

/-- User page slots from `a` up to `b`, going round the chip. -/
def Cfg.slots (c : Cfg) (a b : Nat) : List Nat :=
  ((List.range (c.dist a b)).map fun i => (a + i) % c.pages).filter fun p => p % c.ppc ≠ c.ppc - 1

/-- The journal's pointers make sense. -/
structure Pointers (c : Cfg) (j : Journal) : Prop where
  head : c.UserPage j.head
  tail : c.UserPage j.tail
  tailSync : c.UserPage j.tailSync
  order : c.dist j.tailSync j.tail ≤ c.dist j.tailSync j.head
  root : j.root = NONE ∨ (c.Between j.tailSync j.root j.head ∧ c.dist j.tailSync j.tail ≤ c.dist j.tailSync j.root)
  guard : j.head / c.ppb = j.tailSync / c.ppb → j.tailSync ≤ j.head

end Dhara

/-
Specification used by the map-level properties: what a history of calls is, and what it says the
map must contain. Nothing here mentions the journal, the radix tree or any proof invariant.
-/
import Verif.Model.Map
namespace Dhara

/-- Power-up on a chip that carries no usable checkpoint: `dhara_map_init` followed by
`dhara_map_resume`, which reports E_TOO_BAD and leaves an empty map (dhara/map.h:46-60). The chip
may contain anything else, and any blocks may be marked bad already. -/
def Fresh (c : Cfg) (s : S) : Prop :=
  ∃ (n : Nand) (buf : Buf) (k : Nat), n.dead = false ∧ n.ub = false ∧
    mapResume c (mapInit c buf k n) = (.error .tooBad, s)

/-- The sector numbers passed to the call are not the reserved number 0xffffffff. -/
def Op.Valid : Op → Prop
  | .write dst _ => dst < NONE
  | .copyPage _ dst => dst < NONE
  | .copySector src dst => src < NONE ∧ dst < NONE
  | .trim t => t < NONE
  | .clear => True
  | .sync => True
  | .gc => True

/-- No program or erase operation fails between clock `a` and clock `b`. (Power may still fail.) -/
def Quiet (c : Cfg) (a b : Nat) : Prop := ∀ t, a ≤ t → t < b → c.env.prog t ≠ .fail ∧ c.env.erase t ≠ .fail

/-- The call returned the error code `e` to its caller: the power did not fail, and `e` does not stand for undefined
behaviour or for a loop that does not end. -/
def Err.Reported (e : Err) : Prop := e ≠ .powerLoss ∧ e ≠ .ub ∧ e ≠ .diverge

/-- The states after a history of calls each of which succeeded, was refused with E_MAP_FULL, or reported any
other error although no program or erase operation failed during it. The environment in `c` decides which program, erase
and read operations fail. -/
inductive Hist (c : Cfg) : S → Prop
  | fresh (s : S) : Fresh c s → Hist c s
  | call (s s' : S) (op : Op) (r : Except Err Unit) : Hist c s → op.Valid → step c op s = (r, s') →
      (r = .ok () ∨ r = .error .mapFull) → Hist c s'
  | failed (s s' : S) (op : Op) (e : Err) : Hist c s → op.Valid → step c op s = (.error e, s') → e.Reported →
      Quiet c s.n.time s'.n.time → Hist c s'

/-- One entry in the log of a history. -/
inductive Ev where
  | put (t : Nat) (b : Buf)   -- sector t was given the contents b
  | del (t : Nat)             -- sector t was removed
  | wipe                      -- all sectors were removed

/-- The contents of the sectors according to a log (latest entry first). -/
def contents : List Ev → Nat → Option Buf
  | [] => fun _ => none
  | .put t b :: evs => fun x => if x = t then some b else contents evs x
  | .del t :: evs => fun x => if x = t then none else contents evs x
  | .wipe :: _ => fun _ => none

/-- Page `p` was programmed before and its block was not erased between `n` and `n'`. -/
def Undisturbed (c : Cfg) (n n' : Nand) (p : Nat) : Prop :=
  nandIsFree n p = false ∧ n'.erases (p / c.ppb) = n.erases (p / c.ppb)

/-- The log entries of a successful call taking `s` to `s'`, when the log so far is `evs`. Copies read
flash: the data is the source's unless the source was collected and erased during the call. -/
def Records (c : Cfg) (s s' : S) (evs : List Ev) : Op → List Ev → Prop
  | .write dst data, new => new = [.put dst (c.clip data)]
  | .trim t, new => new = [.del t]
  | .clear, new => new = [.wipe]
  | .sync, new => new = []
  | .gc, new => new = []
  | .copyPage p dst, new => ∃ b, new = [.put dst b] ∧
      ∀ b0, s.n.chip.page p = some b0 → Undisturbed c s.n s'.n p → b = c.clip b0
  | .copySector src dst, new =>
    match contents evs src with
    | none => new = [.del dst]
    | some b => ∃ b', new = [.put dst b'] ∧
        ∀ p, mapFind c (tick s) src = .ok p → Undisturbed c s.n s'.n p → b' = b

/-- `evs` is a log of a history leading to `s`. -/
inductive Log (c : Cfg) : S → List Ev → Prop
  | fresh (s : S) : Fresh c s → Log c s []
  | ok (s s' : S) (op : Op) (evs new : List Ev) : Log c s evs → op.Valid → step c op s = (.ok (), s') →
      Records c s s' evs op new → Log c s' (new ++ evs)
  | full (s s' : S) (op : Op) (evs : List Ev) : Log c s evs → op.Valid → step c op s = (.error .mapFull, s') →
      Log c s' evs
  | failed (s s' : S) (op : Op) (e : Err) (evs : List Ev) : Log c s evs → op.Valid → step c op s = (.error e, s') → e.Reported →
      Quiet c s.n.time s'.n.time → Log c s' evs

/-- No read of any page fails at this moment. -/
def ReadsOk (c : Cfg) (s : S) : Prop := ∀ p, p < c.pages → c.env.readFail s.n.time p = false

/-- A page full of 0xff bytes. -/
def Cfg.blank (c : Cfg) : Buf := c.clip Buf.ff

/-- Number of sectors with contents. -/
def CountIs (σ : Nat → Option Buf) (n : Nat) : Prop :=
  ∃ l : List Nat, l.Nodup ∧ l.length = n ∧ ∀ t, t ∈ l ↔ t < NONE ∧ σ t ≠ none

/-- How sector `t` looks to the user: `none` means that `dhara_map_find` reports E_NOT_FOUND and
`dhara_map_read` returns a blank page; `some b` that find succeeds and read returns `b`. -/
def Looks (c : Cfg) (s : S) (t : Nat) : Option Buf → Prop
  | none => mapFind c s t = .error .notFound ∧ mapRead c s t = .ok c.blank
  | some b => (∃ p, mapFind c s t = .ok p) ∧ mapRead c s t = .ok b

/-- Between `s` and `s'` an automatic collection (dhara/map.c:308-320) ended with the size below the capacity in
force at that moment; the size then was the size in `s`. -/
def Room (c : Cfg) (s s' : S) : Prop :=
  ∃ s0 sm, autoGc c s0 = (.ok (), sm) ∧ s.n.time ≤ s0.n.time ∧ sm.n.time ≤ s'.n.time ∧ s0.count = s.count ∧ sm.count = s.count ∧
    mapSize sm < mapCapacity c sm

end Dhara

/-
Specification used by the power-failure properties C12, C13, C14 and C43: histories in which the power
may fail at any moment, with a log of what was done and of what must not be lost. Nothing here mentions
the journal's layout or any proof invariant.
-/
import Verif.Props.MapSpec
import Verif.Props.FaultSpec
namespace Dhara

/-- The chip carries no checkpoint: the pages in which the first checkpoint of a block is kept do not
start with "Dha" (dhara/journal.c:219-248). -/
def Unformatted (c : Cfg) (ch : Chip) : Prop :=
  ∀ blk b, blk < c.numBlocks → ch.bad blk = false → ch.page (blk * c.ppb + (c.ppc - 1)) = some b → hdrHasMagic b = false

/-- Pages garbled by a failed or torn operation never look like a checkpoint page. -/
def NoForgery (c : Cfg) : Prop :=
  ∀ t p b, p % c.ppc = c.ppc - 1 → c.env.junk t p = some b → hdrHasMagic b = false

/-- Every run of eight consecutive blocks (DHARA_MAX_RETRIES) contains at least two that are not marked bad. -/
def FewBad (c : Cfg) (ch : Chip) : Prop :=
  ∀ i, i + min 8 c.numBlocks ≤ c.numBlocks →
    ∃ a b, i ≤ a ∧ a < b ∧ b < i + min 8 c.numBlocks ∧ ch.bad a = false ∧ ch.bad b = false

/-- No program operation fails between clock `a` and clock `b`. -/
def ProgsOk (c : Cfg) (a b : Nat) : Prop := ∀ t, a ≤ t → t < b → c.env.prog t ≠ .fail

/-- Power came back in the middle of a checkpoint group and nothing was written since: the situation of
defect C45, in which a failing program operation loses data. -/
def Exposed (c : Cfg) (s : S) : Prop :=
  s.j.root ≠ NONE ∧ s.j.head % c.ppc ≠ 0 ∧ s.j.head / c.ppc ≠ s.j.root / c.ppc

/-- What is required of a call during which the power fails (`s'` is the state at that moment): no block was being recovered then
(or none failed at all), and not the situation of C45. -/
def CrashOk (c : Cfg) (s s' : S) : Prop :=
  (¬ Exposed c s ∨ ProgsOk c s.n.time s'.n.time) ∧ (¬ Recovering s' ∨ Quiet c s.n.time s'.n.time)

theorem CrashOk.quiet {c : Cfg} {s s' : S} (h : Quiet c s.n.time s'.n.time) : CrashOk c s s' :=
  ⟨Or.inr fun t h1 h2 => (h t h1 h2).1, Or.inr h⟩

/-- The log entries of a call made when the log is `evs`. -/
def Op.entries (c : Cfg) (s : S) (evs : List Ev) : Op → List Ev
  | .write dst data => [.put dst (c.clip data)]
  | .trim t => [.del t]
  | .clear => [.wipe]
  | .sync => []
  | .gc => []
  | .copyPage p dst => [.put dst (c.clip ((s.n.chip.page p).getD Buf.ff))]
  | .copySector src dst =>
    match contents evs src with
    | none => [.del dst]
    | some b => [.put dst b]

/-- For copies: the page copied is readable and its block is not erased during the call. -/
def SourceKept (c : Cfg) (s s' : S) : Op → Prop
  | .copyPage p _ => s.n.chip.page p ≠ none ∧ Undisturbed c s.n s'.n p
  | .copySector src _ => ∀ p, mapFind c (tick s) src = .ok p → Undisturbed c s.n s'.n p
  | _ => True

/-- What must survive: everything if the journal reports that it is clean (dhara/journal.h:122-125), otherwise
what had to survive before. -/
def durable (s : S) (log d : List Ev) : List Ev := if s.j.dirty then d else log

/-- `s'` is the state after a power cycle that leaves the chip of `s` alone, under the conditions that no read
fails during power-up and that bad blocks are not too dense. -/
def Powered (c : Cfg) (s s' : S) : Prop :=
  FewBad c s.n.chip ∧ (∀ p, p < c.pages → c.env.readFail (s.n.time + 1) p = false) ∧
    ∃ buf cnt r, reboot c buf cnt s = (r, s')

/-- `log` is shown by the map in state `s`. -/
def Shows (c : Cfg) (s : S) (log : List Ev) : Prop :=
  ReadsOk c s ∧ ∀ t, t < NONE → Looks c s t (contents log t)

/-- One step of a history with logs: a call that succeeds or is refused, a call that reports an error although no program or erase
operation failed, a call during which the power fails followed by
power-up, or a power cycle between calls. The log after a power cycle may be any that the map now shows, that contains what
must survive (`d`), and that consists of a first part of what was done. -/
inductive PStep (c : Cfg) : S → List Ev → List Ev → S → List Ev → List Ev → Prop
  | ok (s s' : S) (op : Op) (evs d : List Ev) : op.Valid → step c op s = (.ok (), s') → SourceKept c s s' op →
      (¬ Exposed c s ∨ ProgsOk c s.n.time s'.n.time) →
      PStep c s evs d s' (op.entries c s evs ++ evs) (durable s' (op.entries c s evs ++ evs) d)
  | full (s s' : S) (op : Op) (evs d : List Ev) : op.Valid → step c op s = (.error .mapFull, s') →
      (¬ Exposed c s ∨ ProgsOk c s.n.time s'.n.time) → PStep c s evs d s' evs (durable s' evs d)
  | failed (s s' : S) (op : Op) (e : Err) (evs d : List Ev) : op.Valid → step c op s = (.error e, s') → e.Reported →
      Quiet c s.n.time s'.n.time → PStep c s evs d s' evs (durable s' evs d)
  | crash (s s' s'' : S) (op : Op) (evs d kept : List Ev) : op.Valid → step c op s = (.error .powerLoss, s') →
      SourceKept c s s' op → CrashOk c s s' → Powered c s' s'' → d <:+ kept → kept <:+ op.entries c s evs ++ evs →
      Shows c s'' kept → PStep c s evs d s'' kept kept
  | off (s s' : S) (evs d kept : List Ev) : Powered c s s' → d <:+ kept → kept <:+ evs → Shows c s' kept → PStep c s evs d s' kept kept

/-- `PLog c s evs d`: a history with power failures may lead to `s`; `evs` is the log of what the map now contains (latest
entry first), `d` the part of it that must survive a power failure. -/
inductive PLog (c : Cfg) : S → List Ev → List Ev → Prop
  | fresh (n : Nand) (buf : Buf) (k : Nat) (s : S) : n.dead = false → n.ub = false → Unformatted c n.chip →
      mapResume c (mapInit c buf k n) = (.error .tooBad, s) → PLog c s [] []
  | step (s s' : S) (evs d evs' d' : List Ev) : PLog c s evs d → PStep c s evs d s' evs' d' → PLog c s' evs' d'

/-- The continuations of a history. -/
inductive PSteps (c : Cfg) : S → List Ev → List Ev → S → List Ev → List Ev → Prop
  | refl (s : S) (evs d : List Ev) : PSteps c s evs d s evs d
  | step (s s1 s2 : S) (evs d evs1 d1 evs2 d2 : List Ev) : PSteps c s evs d s1 evs1 d1 → PStep c s1 evs1 d1 s2 evs2 d2 →
      PSteps c s evs d s2 evs2 d2

/-- The same steps without logs: what the application does (`ops`: the call made or interrupted, if any) and what the chip does,
nothing about contents. -/
inductive RStep (c : Cfg) : S → List Op → S → Prop
  | ok (s s' : S) (op : Op) : op.Valid → step c op s = (.ok (), s') → SourceKept c s s' op →
      (¬ Exposed c s ∨ ProgsOk c s.n.time s'.n.time) → RStep c s [op] s'
  | full (s s' : S) (op : Op) : op.Valid → step c op s = (.error .mapFull, s') →
      (¬ Exposed c s ∨ ProgsOk c s.n.time s'.n.time) → RStep c s [] s'
  | failed (s s' : S) (op : Op) (e : Err) : op.Valid → step c op s = (.error e, s') → e.Reported →
      Quiet c s.n.time s'.n.time → RStep c s [] s'
  | crash (s s' s'' : S) (op : Op) : op.Valid → step c op s = (.error .powerLoss, s') →
      SourceKept c s s' op → CrashOk c s s' → Powered c s' s'' → RStep c s [op] s''
  | off (s s' : S) : Powered c s s' → RStep c s [] s'

/-- The states reachable with power failures. -/
inductive PRun (c : Cfg) : S → Prop
  | fresh (n : Nand) (buf : Buf) (k : Nat) (s : S) : n.dead = false → n.ub = false → Unformatted c n.chip →
      mapResume c (mapInit c buf k n) = (.error .tooBad, s) → PRun c s
  | step (s s' : S) (ops : List Op) : PRun c s → RStep c s ops s' → PRun c s'

/-- Continuations, with the calls made. -/
inductive RSteps (c : Cfg) : S → List Op → S → Prop
  | refl (s : S) : RSteps c s [] s
  | step (s s1 s2 : S) (ops ops' : List Op) : RSteps c s ops s1 → RStep c s1 ops' s2 → RSteps c s (ops' ++ ops) s2

/-- The call may change sector `t`. -/
def Op.touches (t : Nat) : Op → Prop
  | .write dst _ => dst = t
  | .copyPage _ dst => dst = t
  | .copySector _ dst => dst = t
  | .trim t' => t' = t
  | .clear => True
  | .sync => False
  | .gc => False

end Dhara

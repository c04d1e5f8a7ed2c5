/-
C68: the counts of bad blocks and the capacity stay in range across restarts and power failures; a restart also mends them after E_JOURNAL_FULL.
-/
import Verif.Proofs.Counters5
import Verif.Props.Counters
import Verif.Props.JPower
namespace Dhara

variable {c : Cfg}

/-! ### Specification -/

/-- No page in which a checkpoint may be kept starts with "Dha". -/
def Blank (c : Cfg) (ch : Chip) : Prop :=
  ∀ p b, p < c.pages → p % c.ppc = c.ppc - 1 → ch.page p = some b → hdrHasMagic b = false

/-- The answers of a resume: a journal was found, or none. -/
def Answered (r : Except Err Unit) : Prop := r = .ok () ∨ r = .error .tooBad

/-- `JLife c refused s`: a life of the journal that began on a chip without checkpoints: calls in any order, during which operations may fail and power
may be lost, and power cycles, at any moment. If a call reports E_JOURNAL_FULL (`refused`) there must be a power cycle before the next call. -/
inductive JLife (c : Cfg) : Bool → S → Prop
  | init (buf : Buf) (n : Nand) (k : Nat) : Blank c n.chip → JLife c false ⟨journalInit c buf, n, k⟩
  | call (s s' : S) (op : JOp) (r : Except Err Unit) : JLife c false s → jcall c op s = (r, s') → r ≠ .error .journalFull → JLife c false s'
  | refused (s s' : S) (op : JOp) : JLife c false s → jcall c op s = (.error .journalFull, s') → JLife c true s'
  | cycle (b : Bool) (s s' : S) (buf : Buf) (r : Except Err Unit) : JLife c b s → jreboot c buf s = (r, s') → Answered r → JLife c false s'

/-- The same for the map. -/
inductive MapLife (c : Cfg) : Bool → S → Prop
  | init (buf : Buf) (n : Nand) (k : Nat) : Blank c n.chip → MapLife c false (mapInit c buf k n)
  | call (s s' : S) (op : Op) (r : Except Err Unit) : MapLife c false s → step c op s = (r, s') → r ≠ .error .journalFull → MapLife c false s'
  | refused (s s' : S) (op : Op) : MapLife c false s → step c op s = (.error .journalFull, s') → MapLife c true s'
  | cycle (b : Bool) (s s' : S) (buf : Buf) (k : Nat) (r : Except Err Unit) : MapLife c b s → reboot c buf k s = (r, s') → Answered r →
      MapLife c false s'

/-! ### Proofs -/

theorem Blank.dc {ch : Chip} (h : Blank c ch) : DC c ch := fun p b h1 h2 h3 => hdrIn_noMagic (h p b h1 h2 h3)

theorem jreboot_bc (hc : c.Valid) {buf : Buf} {s s' : S} {r : Except Err Unit} (h : DC c s.n.chip) (hr : jreboot c buf s = (r, s')) (ha : Answered r) :
    BC c s'.j ∧ DC c s'.n.chip := by
  unfold jreboot at hr
  simp only at hr
  rcases hj : journalResume c { s.n with time := s.n.time + 1, dead := false } (journalInit c buf) with ⟨r1, j1⟩
  rw [hj] at hr
  cases hr
  exact ⟨journalResume_bc hc (n := { s.n with time := s.n.time + 1, dead := false }) h hj ha, h⟩

theorem reboot_bc (hc : c.Valid) {buf : Buf} {k : Nat} {s s' : S} {r : Except Err Unit} (h : DC c s.n.chip) (hr : reboot c buf k s = (r, s')) (ha : Answered r) :
    BC c s'.j ∧ DC c s'.n.chip := by
  unfold reboot mapResume mapInit at hr
  simp only at hr
  rcases hj : journalResume c { s.n with time := s.n.time + 1, dead := false } (journalInit c buf) with ⟨r1, j1⟩
  have key := fun ha => journalResume_bc hc (n := { s.n with time := s.n.time + 1, dead := false }) h hj ha
  rw [hj] at hr
  cases r1 with
  | error e => simp only at hr; cases hr; exact ⟨(key ha).of_eq rfl rfl rfl, h⟩
  | ok u => simp only at hr; cases hr; exact ⟨(key ha).of_eq rfl rfl rfl, h⟩

theorem JLife.inv (hc : c.Valid) (hJ : NoForgery c) {b : Bool} {s : S} (h : JLife c b s) : (b = false → BC c s.j) ∧ DC c s.n.chip := by
  induction h with
  | init buf n k h => exact ⟨fun _ => resetJournal_bc hc _, h.dc⟩
  | call s s' op r _ h hr ih =>
    have h1 := jcall_dc hc hJ op (ih.1 rfl) ih.2
    rw [h] at h1
    exact ⟨fun _ => (jcall_bc hc op (ih.1 rfl)).of h hr, h1⟩
  | refused s s' op _ h ih =>
    have h1 := jcall_dc hc hJ op (ih.1 rfl) ih.2
    rw [h] at h1
    exact ⟨(fun h => by cases h), h1⟩
  | cycle b s s' buf r _ h ha ih =>
    obtain ⟨h1, h2⟩ := jreboot_bc hc ih.2 h ha
    exact ⟨fun _ => h1, h2⟩

theorem MapLife.inv (hc : c.Valid) (hJ : NoForgery c) {b : Bool} {s : S} (h : MapLife c b s) : (b = false → BC c s.j) ∧ DC c s.n.chip := by
  induction h with
  | init buf n k h => exact ⟨fun _ => resetJournal_bc hc _, h.dc⟩
  | call s s' op r _ h hr ih =>
    have h1 := step_dc hc hJ op (ih.1 rfl) ih.2
    rw [h] at h1
    exact ⟨fun _ => (step_bc hc op (ih.1 rfl)).of h hr, h1⟩
  | refused s s' op _ h ih =>
    have h1 := step_dc hc hJ op (ih.1 rfl) ih.2
    rw [h] at h1
    exact ⟨(fun h => by cases h), h1⟩
  | cycle b s s' buf k r _ h ha ih =>
    obtain ⟨h1, h2⟩ := reboot_bc hc ih.2 h ha
    exact ⟨fun _ => h1, h2⟩

/-- C68 for users of the journal. -/
theorem journal_life_in_range (hc : c.Valid) (hJ : NoForgery c) (s : S) (h : JLife c false s) : InRange c s.j := ((h.inv hc hJ).1 rfl).inRange hc

/-- C68 for users of the map. -/
theorem map_life_in_range (hc : c.Valid) (hJ : NoForgery c) (s : S) (h : MapLife c false s) : InRange c s.j := ((h.inv hc hJ).1 rfl).inRange hc

/-- C68, the checkpoints: whatever is on the chip, at any moment of a life, even one spoilt by a refused call, can be resumed with counts in range. -/
theorem journal_restart_mends_counts (hc : c.Valid) (hJ : NoForgery c) (b : Bool) (s s' : S) (buf : Buf) (r : Except Err Unit) (h : JLife c b s)
    (hr : jreboot c buf s = (r, s')) (ha : Answered r) : InRange c s'.j :=
  journal_life_in_range hc hJ _ (.cycle b s s' buf r h hr ha)

theorem map_restart_mends_counts (hc : c.Valid) (hJ : NoForgery c) (b : Bool) (s s' : S) (buf : Buf) (k : Nat) (r : Except Err Unit) (h : MapLife c b s)
    (hr : reboot c buf k s = (r, s')) (ha : Answered r) : InRange c s'.j :=
  map_life_in_range hc hJ _ (.cycle b s s' buf k r h hr ha)

/-! ### Concrete cases -/

namespace ExLifetime
open Viol Ex2 ExFifo
open ExCounters (jrunC jrunOk isErr_of)

theorem eta {α β : Type} (x : α × β) : x = (x.1, x.2) := rfl

theorem noForgery : NoForgery cfg := fun _ _ _ _ h => by cases h

theorem blank : Blank cfg (j0 cfg).n.chip := by
  intro p b _ _ h
  cases h
  decide +kernel

theorem life_run (c : Cfg) : ∀ (ops : List JOp) (s : S), JLife c false s → jrunOk c ops s = true → JLife c false (jrunC c ops s)
  | [], _, h, _ => h
  | op :: ops, s, h, hk => by
    simp only [jrunOk, Bool.and_eq_true, Bool.not_eq_true'] at hk
    refine life_run c ops _ (.call s _ op _ h rfl ?_) hk.2
    intro he
    have := isErr_of (e := .journalFull) (r := (jcall c op s).1) he
    rw [this] at hk
    exact absurd hk.1 (by simp)

def e12 : JOp := .enqueue (some (data 1)) (some (data 2))

/-- A restart in the third block of the chip of `ExFifo`, on which block 1 fails: the count is taken from the checkpoint. -/
example : InRange cfg (jreboot cfg (data 0) (jrunC cfg ExCounters.ops (j0 cfg))).2.j ∧ good (jreboot cfg (data 0) (jrunC cfg ExCounters.ops (j0 cfg))).1 = true ∧
    (jreboot cfg (data 0) (jrunC cfg ExCounters.ops (j0 cfg))).2.j.bbCurrent = 1 := by
  have hl : JLife cfg false (jrunC cfg ExCounters.ops (j0 cfg)) := life_run cfg ExCounters.ops _ (.init _ _ _ blank) (by decide +kernel)
  have hg : good (jreboot cfg (data 0) (jrunC cfg ExCounters.ops (j0 cfg))).1 = true := by decide +kernel
  exact ⟨journal_restart_mends_counts valid noForgery _ _ _ (data 0) _ hl (eta _) (.inl (good_iff hg)), hg, by decide +kernel⟩

/-- Round the chip until the head stands before the bad block and the tail is in the block after that. -/
def round : List JOp :=
  List.replicate 12 e12 ++ [.peek, .dequeue, .peek, .dequeue, .peek, .dequeue, .peek, .dequeue] ++ List.replicate 6 e12

def sFull : S := jrunC cfg round (j0 cfg)

/-- The next enqueue is refused; after it a restart finds the counts and the capacity as they should be. -/
example : isErr .journalFull (jcall cfg e12 sFull).1 = true ∧ InRange cfg (jreboot cfg (data 0) (jcall cfg e12 sFull).2).2.j ∧
    journalCapacity cfg (jreboot cfg (data 0) (jcall cfg e12 sFull).2).2.j = 12 := by
  have hl : JLife cfg false sFull := life_run cfg round _ (.init _ _ _ blank) (by decide +kernel)
  have hf : isErr .journalFull (jcall cfg e12 sFull).1 = true := by decide +kernel
  have hg : good (jreboot cfg (data 0) (jcall cfg e12 sFull).2).1 = true := by decide +kernel
  exact ⟨hf, journal_restart_mends_counts valid noForgery _ _ _ (data 0) _ (.refused sFull _ e12 hl (packErr hf)) (eta _) (.inl (good_iff hg)), by decide +kernel⟩

end ExLifetime
end Dhara

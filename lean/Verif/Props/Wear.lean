/-
C26: between power cycles the blocks wear evenly.
-/
import Verif.Proofs.Wear
import Verif.Props.Crash
import Verif.Props.Example
namespace Dhara

variable {c : Cfg}

/-- `s` is reached from `s0` by calls that succeed or are refused, without a power cycle. -/
inductive Uninterrupted (c : Cfg) (s0 : S) : S → Prop
  | refl : Uninterrupted c s0 s0
  | call (s s' : S) (op : Op) (r : Except Err Unit) : Uninterrupted c s0 s → step c op s = (r, s') →
      (r = .ok () ∨ r = .error .mapFull) → Uninterrupted c s0 s'

/-- Erases of block `k` since `s0`. -/
def wearSince (s0 s : S) (k : Nat) : Nat := s.n.erases k - s0.n.erases k

theorem Uninterrupted.settled (hc : c.Valid) {s0 s : S} {e0 : Nat → Nat} {U : Nat} (h : Uninterrupted c s0 s)
    (h0 : Settled c e0 U s0) : Settled c e0 U s := by
  induction h with
  | refl => exact h0
  | call s s' op r _ hs hr ih =>
    have := step_wear hc op ih
    rw [hs] at this
    refine this.2 fun e he => ?_
    rcases hr with rfl | rfl <;> cases he; rfl

theorem wear_core (hc : c.Valid) {s0 s s' : S} {v : Nat} (hh : s0.j.head = c.ph v) (hu : c.isU v)
    (h : Uninterrupted c s0 s) (op : Op) (r : Except Err Unit) (hs : step c op s = (r, s'))
    {a b : Nat} (ha : a < c.numBlocks) (hb : b < c.numBlocks) (hg : s'.n.chip.bad b = false) :
    wearSince s0 s' a ≤ wearSince s0 s' b + 1 := by
  have := step_wear hc op (h.settled hc (Settled.start hh hu))
  rw [hs] at this
  exact this.1.level ha hb hg

/-- C26: from initialisation on, for every sequence of calls and every pattern of failures, including a last call with any
outcome: no block has been erased more than once more often than any block that is still good. -/
theorem wear_levelled (hc : c.Valid) (s0 s s' : S) (h0 : Fresh c s0) (h : Uninterrupted c s0 s) (op : Op)
    (r : Except Err Unit) (hs : step c op s = (r, s')) (a b : Nat) (ha : a < c.numBlocks) (hb : b < c.numBlocks)
    (hg : s'.n.chip.bad b = false) : wearSince s0 s' a ≤ wearSince s0 s' b + 1 := by
  obtain ⟨vts, vt, vh, vr, hI⟩ := ((h0.rep hc) 0).calm
  exact wear_core hc hI.geo.eh hI.geo.uh h op r hs ha hb hg

/-- C26: the same between any two power cycles of a history with power failures. -/
theorem wear_levelled_after_power_up (hc : c.Valid) (hJ : NoForgery c) (s0 s s' : S) (h0 : PRun c s0)
    (h : Uninterrupted c s0 s) (op : Op) (r : Except Err Unit) (hs : step c op s = (r, s')) (a b : Nat)
    (ha : a < c.numBlocks) (hb : b < c.numBlocks) (hg : s'.n.chip.bad b = false) :
    wearSince s0 s' a ≤ wearSince s0 s' b + 1 := by
  obtain ⟨evs, d, hl⟩ := run_has_log hc hJ s0 h0
  obtain ⟨vts, vt, vh, vr, g, _⟩ := (hl.inv hc hJ).1.ex
  exact wear_core hc g.eh g.uh h op r hs ha hb hg

/-- C26, for the states between calls and a new chip: the erase counts of any two good blocks differ by at most one. -/
theorem good_blocks_within_one (hc : c.Valid) (s0 s : S) (h0 : Fresh c s0) (hz : ∀ k, s0.n.erases k = 0)
    (h : Uninterrupted c s0 s) (a b : Nat) (ha : a < c.numBlocks) (hb : b < c.numBlocks)
    (hga : s.n.chip.bad a = false) (hgb : s.n.chip.bad b = false) :
    s.n.erases a ≤ s.n.erases b + 1 ∧ s.n.erases b ≤ s.n.erases a + 1 := by
  obtain ⟨vts, vt, vh, vr, hI⟩ := ((h0.rep hc) 0).calm
  have hS := (h.settled hc (Settled.start hI.geo.eh hI.geo.uh)).loose
  have h1 := hS.level ha hb hgb
  have h2 := hS.level hb ha hga
  rw [hz, hz] at h1 h2
  exact ⟨by omega, by omega⟩

namespace Ex

theorem unint_run : ∀ ops s0 s, Uninterrupted cfg s0 s → runFine ops s = true → Uninterrupted cfg s0 (run ops s) := by
  intro ops
  induction ops with
  | nil => intro s0 s h _; exact h
  | cons op ops ih =>
    intro s0 s h hf
    unfold runFine at hf
    rw [Bool.and_eq_true] at hf
    exact ih _ _ (.call s _ op _ h rfl (fine_iff hf.1)) hf.2

/-- The theorem applies to a history with writes, a bad block and program failures. -/
theorem wear_example : Uninterrupted cfg s0 s1 := unint_run ops s0 s0 .refl runs

/-- The counts are not trivial: some blocks have been erased, the bad one has not. -/
theorem wear_example_counts : s1.n.erases 0 = 1 ∧ s1.n.erases 1 = 0 ∧ s1.n.erases 2 = 1 ∧ s1.n.erases 20 = 0 := by
  decide +kernel

end Ex

end Dhara

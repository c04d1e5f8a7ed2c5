/-
C53: the work one call does. The clock of the model chip (Model/Nand.lean) advances by one with every program and
every erase operation, and by one between calls; so what the clock shows after a call, less what it showed before the
call and one, is how many program and erase operations the call performed.
-/
import Verif.Proofs.Cost
import Verif.Props.Total
namespace Dhara

variable {c : Cfg}

/-- How many program and erase operations a call may need on a chip on which none of them fails: one page (and, at most,
one erase or one checkpoint) for each page the call appends. -/
def opCost (c : Cfg) : Op → Nat
  | .write _ _ | .copyPage _ _ | .copySector _ _ | .trim _ => 2 * (c.gcr + 2)
  | .gc => 2
  | .sync => c.ppc + 1
  | .clear => 0

/-- No program or erase operation fails while the clock shows a value in `t .. t + k - 1`. -/
def NoFaults (c : Cfg) (t k : Nat) : Prop := ∀ u, t ≤ u → u < t + k → c.env.prog u ≠ .fail ∧ c.env.erase u ≠ .fail

theorem call_ck (hc : c.Valid) {s : S} {T : Nat} (op : Op) (h : At c T s) (hsl : slotOf c s + 1 < c.ppc) (hT : s.n.time + opCost c op ≤ T) :
    Ck c T (opCost c op) s.n (call c op s) := by
  have hcp : ∀ src dst, s.n.time + 2 * (c.gcr + 2) ≤ T → Ck c T (2 * (c.gcr + 2)) s.n (mapCopyPage c src dst s) := fun src dst hT =>
    writeLoop_ck hc dst (fun m s1 h1 hT1 => (journalCopy_ck hc src m h1 (Nat.le_trans (Nat.add_le_add_left (pushCost_le hc _) _) hT1)).1.le (pushCost_le hc _)) _ h hT
  cases op with
  | write dst d =>
    exact writeLoop_ck hc dst (fun m s1 h1 hT1 => (enqueue_ck hc _ _ h1 (Nat.le_trans (Nat.add_le_add_left (pushCost_le hc _) _) hT1)).1.le (pushCost_le hc _)) _ h hT
  | copyPage src dst => exact hcp src dst hT
  | copySector src dst =>
    show Ck c T _ s.n (mapCopySector c src dst s)
    unfold mapCopySector mapFind
    have hp := fun e => tracePath_plain (c := c) (s := s) (t := src) (nm := freshMeta) (e := e)
    rcases hq : tracePath c s src freshMeta with ⟨e | q, nm⟩
    · rw [hq] at hp
      have hp := hp e rfl
      cases e
      case notFound => exact mapTrimLoop_ck hc dst _ h hT
      all_goals exact .err h (Nat.le_add_right _ _) hp
    · exact hcp _ _ hT
  | trim t => exact mapTrimLoop_ck hc t _ h hT
  | clear =>
    show Ck c T 0 s.n (.ok (), mapClear c s)
    unfold mapClear
    split
    · exact .of ⟨h.nr, h.ff⟩ (Nat.le_refl _)
    · exact .of h (Nat.le_refl _)
  | gc => exact mapGc_ck hc h hT
  | sync =>
    have e : syncCost c (slotOf c s) ≤ c.ppc + 1 := by
      unfold syncCost eraseCost
      have := hc.ppc_ge
      split <;> omega
    exact (mapSyncLoop_ck hc _ _ h hsl (Nat.le_trans (Nat.add_le_add_left e _) hT)).le e

theorem step_cost (hc : c.Valid) {s : S} {σ : Nat → Option Buf} {T : Gh c} (h : MInv c s σ T) (op : Op)
    (hf : NoFaults c (s.n.time + 1) (opCost c op)) : (step c op s).2.n.time ≤ s.n.time + 1 + opCost c op := by
  obtain ⟨vts, vt, vh, vr, hi⟩ := h.calm
  have hu : slotOf c s + 1 < c.ppc := by
    unfold slotOf
    rw [hi.geo.eh, ph_mod_ppc hc]
    have := hi.geo.uh; have := Nat.mod_lt vh (show 0 < c.ppc by have := hc.ppc_ge; omega); unfold Cfg.isU at *; omega
  exact (call_ck hc (T := s.n.time + 1 + opCost c op) op (s := tick s) ⟨hi.calm.nr, hf⟩ hu (Nat.le_refl _)).hi

/-- C53: after any history, a call during which no program and no erase fails performs at most `opCost` program and erase
operations, whatever its outcome. -/
theorem bounded_work (hc : c.Valid) (s : S) (h : Hist c s) (op : Op) (hf : NoFaults c (s.n.time + 1) (opCost c op)) :
    (step c op s).2.n.time ≤ s.n.time + 1 + opCost c op := by
  obtain ⟨evs, _, hr⟩ := h.rep hc
  exact step_cost hc (hr 0) op hf

/-- C53, when the power fails at any moments (assumption of C10). -/
theorem bounded_work_run (hc : c.Valid) (hJ : NoForgery c) (s : S) (h : PRun c s) (op : Op) (hf : NoFaults c (s.n.time + 1) (opCost c op)) :
    (step c op s).2.n.time ≤ s.n.time + 1 + opCost c op := by
  obtain ⟨σ, hr⟩ := h.minv hc hJ (t := s.n.time) (Or.inr fun u h1 h2 => by omega)
  exact step_cost hc hr op hf

namespace Viol

/-- Eight pages per block, groups of four pages, nothing fails. -/
def c53 : Cfg := mk 3 40 fun _ => .ok

theorem valid53 : c53.Valid := ⟨by decide, by decide, by decide, by decide, by decide⟩

/-- Seven sectors were written; the last one is the first of a new block. -/
def s53 : S := run c53 [.write 0 (data 0), .write 1 (data 1), .write 2 (data 2), .write 3 (data 3), .write 4 (data 4), .write 5 (data 5), .write 6 (data 6)] (start c53)

theorem hist53 : Hist c53 s53 := by
  refine hist_run c53 _ _ (.fresh _ ⟨blankChip c53, fun _ => 0, 7, rfl, rfl, rfl⟩) ?_ (by decide +kernel)
  intro op h
  simp only [List.mem_cons, List.not_mem_nil, or_false] at h
  rcases h with h | h | h | h | h | h | h <;> subst h <;> simp [Op.Valid]

theorem cost53 : (step c53 .sync s53).2.n.time = s53.n.time + 1 + 3 := by decide +kernel

/-- The hypotheses of C53 can be met: here sync copies two pages and writes the checkpoint. -/
theorem work_example : Hist c53 s53 ∧ NoFaults c53 (s53.n.time + 1) (opCost c53 .sync) ∧ opCost c53 .sync = 5 ∧
    (step c53 .sync s53).2.n.time = s53.n.time + 1 + 3 :=
  ⟨hist53, fun _ _ _ => ⟨(fun h => by cases h), (fun h => by cases h)⟩, by decide, cost53⟩

end Viol

end Dhara

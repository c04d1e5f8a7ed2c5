/-
A history with a power failure in the middle of a write, to which the theorems of Crash.lean apply.
-/
import Verif.Props.Crash
import Verif.Props.Violations
namespace Dhara.Ex3
open Dhara.Viol

/-- Eight pages per block; power fails at clock 15 (while a checkpoint page is being programmed) and leaves a garbled page. -/
def c : Cfg := mk 3 40 fun t => if t = 15 then .crash .garbled else .ok

theorem valid : c.Valid := ⟨by decide, by decide, by decide, by decide, by decide⟩

theorem noForgery : NoForgery c := fun _ _ _ _ h => by cases h

theorem unformatted : Unformatted c (blankChip c).chip := by
  intro blk b _ _ h
  cases h
  decide +kernel

theorem quiet (a b : Nat) : Quiet c a b := by
  intro t _ _
  constructor
  · show (if t = 15 then Fate.crash .garbled else Fate.ok) ≠ _
    split <;> intro h <;> cases h
  · intro h; cases h

theorem progs (a b : Nat) : ProgsOk c a b := fun t h1 h2 => (quiet a b t h1 h2).1

theorem prun_run : ∀ ops s, PRun c s → (∀ op, op ∈ ops → op.Valid ∧ op.noCopy) → runGood c ops s = true → PRun c (run c ops s) := by
  intro ops
  induction ops with
  | nil => intro s h _ _; exact h
  | cons op ops ih =>
    intro s h hv hf
    unfold runGood at hf
    rw [Bool.and_eq_true] at hf
    have hv0 := hv op (List.mem_cons_self ..)
    refine ih _ (.step s _ [op] h (.ok s _ op hv0.1 (pair_eq (good_iff hf.1)) ?_ (Or.inr (progs _ _)))) (fun o ho => hv o (List.mem_cons_of_mem _ ho)) hf.2
    have := hv0.2
    cases op <;> first | trivial | exact absurd this id

/-- Three sectors are written. -/
def s0 : S := run c [.write 2 (data 1), .write 3 (data 2), .write 5 (data 3)] (start c)
/-- They are synced. -/
def s1 : S := (step c .sync s0).2
/-- Two more sectors. -/
def s2 : S := run c [.write 4 (data 4), .write 7 (data 5)] s1
/-- Power fails during the next write ... -/
def s3 : S := (step c (.write 5 (data 6)) s2).2
/-- ... and comes back. -/
def s4 : S := (reboot c (fun _ => 0) 0 s3).2

theorem prun0 : PRun c s0 := by
  refine prun_run _ _ (.fresh (blankChip c) (fun _ => 0) 7 _ rfl rfl unformatted rfl) ?_ (by decide +kernel)
  intro op h
  simp only [List.mem_cons, List.not_mem_nil, or_false] at h
  rcases h with h | h | h <;> subst h <;> simp [Op.Valid, Op.noCopy]

theorem few : FewBad c s3.n.chip := by
  have h : ∀ k, k < 40 → s3.n.chip.bad k = false := by decide +kernel
  intro i hi
  have h40 : c.numBlocks = 40 := rfl
  rw [h40] at hi ⊢
  exact ⟨i, i + 1, by omega, by omega, by omega, h _ (by omega), h _ (by omega)⟩

theorem reboot3 : reboot c (fun _ => 0) 0 s3 = (.ok (), s4) := by
  have h : good (reboot c (fun _ => 0) 0 s3).1 = true := by decide +kernel
  exact pair_eq (good_iff h)

theorem step3 : step c (.write 5 (data 6)) s2 = (.error .powerLoss, s3) := by
  have h : isErr .powerLoss (step c (.write 5 (data 6)) s2).1 = true := by decide +kernel
  exact pair_eq (isErr_iff h)

theorem crash3 : RStep c s2 [.write 5 (data 6)] s4 :=
  .crash s2 s3 s4 (.write 5 (data 6)) (by show 5 < NONE; decide) step3 trivial (CrashOk.quiet (quiet _ _))
    ⟨few, fun _ _ => rfl, fun _ => 0, 0, .ok (), reboot3⟩

theorem steps : RSteps c s1 [.write 5 (data 6), .write 7 (data 5), .write 4 (data 4)] s4 := by
  have g1 : good (step c (.write 4 (data 4)) s1).1 = true := by decide +kernel
  have g2 : good (step c (.write 7 (data 5)) (step c (.write 4 (data 4)) s1).2).1 = true := by decide +kernel
  have a1 : RStep c s1 [.write 4 (data 4)] (step c (.write 4 (data 4)) s1).2 :=
    .ok _ _ _ (by show 4 < NONE; decide) (pair_eq (good_iff g1)) trivial (Or.inr (progs _ _))
  have a2 : RStep c (step c (.write 4 (data 4)) s1).2 [.write 7 (data 5)] s2 :=
    .ok _ _ _ (by show 7 < NONE; decide) (pair_eq (good_iff g2)) trivial (Or.inr (progs _ _))
  exact .step _ _ _ _ _ (.step _ _ _ _ _ (.step _ _ _ _ _ (.refl s1) a1) a2) crash3

/-- The hypotheses of `synced_sector_survives` are met: sectors 2 and 3 look as they did at the sync. -/
theorem survives (o : Option Buf) (h : Looks c s1 3 o) : Looks c s4 3 o := by
  have g : good (step c .sync s0).1 = true := by decide +kernel
  refine synced_sector_survives valid noForgery s0 s1 s4 prun0 (pair_eq (good_iff g)) (Or.inr (progs _ _)) _ steps 3 (by decide) ?_ (fun _ _ => rfl) o h
  intro op h
  simp only [List.mem_cons, List.not_mem_nil, or_false] at h
  rcases h with h | h | h <;> subst h <;> simp [Op.touches]

/-- And they were not empty; power-up succeeded; sector 7, not synced, is gone. -/
theorem facts : (∃ p, mapFind c s1 3 = .ok p) ∧ (∃ p, mapFind c s4 3 = .ok p) ∧ reboot c (fun _ => 0) 0 s3 = (.ok (), s4) ∧
    (∃ p, mapFind c s2 7 = .ok p) ∧ mapFind c s4 7 = .error .notFound := by
  have h1 : found (mapFind c s1 3) = true := by decide +kernel
  have h2 : found (mapFind c s4 3) = true := by decide +kernel
  have h3 : good (reboot c (fun _ => 0) 0 s3).1 = true := by decide +kernel
  have h4 : found (mapFind c s2 7) = true := by decide +kernel
  have h5 : isErr .notFound (mapFind c s4 7) = true := by decide +kernel
  exact ⟨found_iff h1, found_iff h2, pair_eq (good_iff h3), found_iff h4, isErr_iff h5⟩

/-- The hypotheses of `crash_keeps_prefix` are met. -/
theorem prefix_applies : ∃ evs d kept, PLog c s2 evs d ∧ d <:+ kept ∧ kept <:+ .put 5 (c.clip (data 6)) :: evs ∧
    (∀ t, t < NONE → Looks c s4 t (contents kept t)) ∧ PLog c s4 kept kept := by
  have g : good (step c .sync s0).1 = true := by decide +kernel
  have hp1 : PRun c s1 := .step _ _ _ prun0 (.ok _ _ .sync trivial (pair_eq (good_iff g)) trivial (Or.inr (progs _ _)))
  have hp2 : PRun c s2 := by
    refine prun_run _ _ hp1 ?_ (by decide +kernel)
    intro op h
    simp only [List.mem_cons, List.not_mem_nil, or_false] at h
    rcases h with h | h <;> subst h <;> simp [Op.Valid, Op.noCopy]
  obtain ⟨evs, d, hl⟩ := run_has_log valid noForgery s2 hp2
  have h : isErr .powerLoss (step c (.write 5 (data 6)) s2).1 = true := by decide +kernel
  have h3 : good (reboot c (fun _ => 0) 0 s3).1 = true := by decide +kernel
  obtain ⟨kept, k1, k2, _, k3, _, _, _, k4⟩ := crash_keeps_prefix valid noForgery s2 s3 s4 evs d hl (.write 5 (data 6)) (by show 5 < NONE; decide)
    (pair_eq (isErr_iff h)) trivial (CrashOk.quiet (quiet _ _)) few (fun _ _ => rfl) (fun _ => 0) 0 _ (pair_eq (good_iff h3))
  exact ⟨evs, d, kept, hl, k1, k2, k3, k4⟩

end Dhara.Ex3

/-! ### A power failure in a call during which a block failed -/

namespace Dhara.Ex3F
open Dhara.Viol

/-- Eight pages per block; the program operation at clock 6 fails, and power fails at clock 12. -/
def c : Cfg := mk 3 40 fun t => if t = 6 then .fail else if t = 12 then .crash .garbled else .ok

theorem valid : c.Valid := ⟨by decide, by decide, by decide, by decide, by decide⟩

theorem noForgery : NoForgery c := fun _ _ _ _ h => by cases h

theorem unformatted : Unformatted c (blankChip c).chip := by
  intro blk b _ _ h
  cases h
  decide +kernel

/-- Sector 2 is written, then sector 3. -/
def sA : S := (step c (.write 2 (data 1)) (start c)).2
def sB : S := (step c (.write 3 (data 2)) sA).2
/-- While sector 5 is written, a block fails and is recovered; then power fails ... -/
def sC : S := (step c (.write 5 (data 3)) sB).2
/-- ... and comes back. -/
def sD : S := (reboot c (fun _ => 0) 0 sC).2

theorem progs {a b : Nat} (h : b ≤ 6) : ProgsOk c a b := by
  intro t _ h2
  show (if t = 6 then Fate.fail else if t = 12 then .crash .garbled else .ok) ≠ _
  rw [if_neg (by omega)]; split <;> intro h <;> cases h

theorem stepA : step c (.write 2 (data 1)) (start c) = (.ok (), sA) := by
  have h : good (step c (.write 2 (data 1)) (start c)).1 = true := by decide +kernel
  exact pair_eq (good_iff h)

theorem stepB : step c (.write 3 (data 2)) sA = (.ok (), sB) := by
  have h : good (step c (.write 3 (data 2)) sA).1 = true := by decide +kernel
  exact pair_eq (good_iff h)

theorem stepC : step c (.write 5 (data 3)) sB = (.error .powerLoss, sC) := by
  have h : isErr .powerLoss (step c (.write 5 (data 3)) sB).1 = true := by decide +kernel
  exact pair_eq (isErr_iff h)

theorem prunB : PRun c sB := by
  have t1 : sA.n.time ≤ 6 := by decide +kernel
  have t2 : sB.n.time ≤ 6 := by decide +kernel
  exact .step _ _ _ (.step _ _ _ (.fresh (blankChip c) (fun _ => 0) 7 _ rfl rfl unformatted rfl)
    (.ok _ _ _ (by show 2 < NONE; decide) stepA trivial (Or.inr (progs t1))))
    (.ok _ _ _ (by show 3 < NONE; decide) stepB trivial (Or.inr (progs t2)))

/-- A block has failed during the call, but the recovery is over. -/
theorem crashOk : CrashOk c sB sC ∧ ¬ Quiet c sB.n.time sC.n.time ∧ sC.n.failed 0 = true := by
  have h1 : sB.j.head / c.ppc = sB.j.root / c.ppc := by decide +kernel
  have h2 : sC.j.recovery = false := by decide +kernel
  have h3 : sC.j.recoverNext = NONE := by decide +kernel
  have h4 : sB.n.time ≤ 6 ∧ 6 < sC.n.time := by decide +kernel
  have h5 : sC.n.failed 0 = true := by decide +kernel
  refine ⟨⟨Or.inl fun h => h.2.2 h1, Or.inl fun h => h.elim (fun h => by rw [h2] at h; cases h) fun h => h h3⟩, fun h => ?_, h5⟩
  exact (h 6 h4.1 h4.2).1 rfl

theorem few : FewBad c sC.n.chip := by
  have h : ∀ k, k < 40 → 0 < k → sC.n.chip.bad k = false := by decide +kernel
  intro i hi
  have h40 : c.numBlocks = 40 := rfl
  rw [h40] at hi ⊢
  exact ⟨i + 1, i + 2, by omega, by omega, by omega, h _ (by omega) (by omega), h _ (by omega) (by omega)⟩

theorem rebootC : reboot c (fun _ => 0) 0 sC = (.ok (), sD) := by
  have h : good (reboot c (fun _ => 0) 0 sC).1 = true := by decide +kernel
  exact pair_eq (good_iff h)

/-- The hypotheses of `crash_keeps_prefix` are met. -/
theorem prefix_applies : ∃ evs d kept, PLog c sB evs d ∧ d <:+ kept ∧ kept <:+ .put 5 (c.clip (data 3)) :: evs ∧
    (∀ t, t < NONE → Looks c sD t (contents kept t)) ∧ PLog c sD kept kept := by
  obtain ⟨evs, d, hl⟩ := run_has_log valid noForgery sB prunB
  obtain ⟨kept, k1, k2, _, k3, _, _, _, k4⟩ := crash_keeps_prefix valid noForgery sB sC sD evs d hl (.write 5 (data 3)) (by show 5 < NONE; decide)
    stepC trivial crashOk.1 few (fun _ _ => rfl) (fun _ => 0) 0 _ rebootC
  exact ⟨evs, d, kept, hl, k1, k2, k3, k4⟩

/-- What the recovery wrote has survived: sectors 2 and 3 are there, sector 5 is not. -/
theorem facts : (∃ p, mapFind c sD 2 = .ok p) ∧ (∃ p, mapFind c sD 3 = .ok p) ∧ mapFind c sD 5 = .error .notFound := by
  have h1 : found (mapFind c sD 2) = true := by decide +kernel
  have h2 : found (mapFind c sD 3) = true := by decide +kernel
  have h3 : isErr .notFound (mapFind c sD 5) = true := by decide +kernel
  exact ⟨found_iff h1, found_iff h2, isErr_iff h3⟩

end Dhara.Ex3F

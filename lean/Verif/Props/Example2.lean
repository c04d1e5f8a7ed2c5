/-
More concrete cases for the hypotheses of the map-level and journal-level theorems, computed by the kernel.
-/
import Verif.Props.Journal
import Verif.Props.Violations
namespace Dhara.Ex2
open Dhara.Viol

/-! ### A refused write -/

/-- Twelve blocks of four pages: too small for any sector. -/
def tiny : Cfg := mk 2 12 fun _ => .ok

theorem tiny_valid : tiny.Valid := ⟨by decide, by decide, by decide, by decide, by decide⟩

theorem tiny_hist : Hist tiny (start tiny) := .fresh _ ⟨blankChip tiny, fun _ => 0, 7, rfl, rfl, rfl⟩

/-- The hypotheses of `refused_changes_nothing` and `refusal_means_full` are met. -/
theorem tiny_full : (step tiny (.write 3 (data 1)) (start tiny)).1 = .error .mapFull := isErr_iff (by decide +kernel)

/-! ### Copies whose source is not disturbed -/

/-- Forty blocks of four pages, no failures. -/
def big : Cfg := mk 2 40 fun _ => .ok

/-- Four calls. -/
def sBig : S := run big [.write 5 (data 1), .write 9 (data 2), .write 6 (data 3), .trim 9] (start big)

theorem big_hist : Hist big sBig := by
  refine hist_run big _ _ (.fresh _ ⟨blankChip big, fun _ => 0, 7, rfl, rfl, rfl⟩) ?_ (by decide +kernel)
  intro op h
  simp only [List.mem_cons, List.not_mem_nil, or_false] at h
  rcases h with h | h | h | h <;> subst h <;> simp [Op.Valid]

/-- copy_sector of a mapped sector: succeeds, and its page was not disturbed. -/
example : (step big (.copySector 5 7) sBig).1 = .ok () ∧ Undisturbed big sBig.n (step big (.copySector 5 7) sBig).2.n 0 :=
  ⟨good_iff (by decide +kernel), by decide +kernel, by decide +kernel⟩

/-- copy_page of a raw page: succeeds, and the page was not disturbed. -/
example : (step big (.copyPage 1 7) sBig).1 = .ok () ∧ Undisturbed big sBig.n (step big (.copyPage 1 7) sBig).2.n 1 :=
  ⟨good_iff (by decide +kernel), by decide +kernel, by decide +kernel⟩

/-- Capacity of that map: 39 usable blocks of 3 user pages, a fifth reserved for gc, 32 pages of margin. -/
example : mapCapacity big sBig = 62 ∧ max sBig.j.bbLast sBig.j.bbCurrent < big.numBlocks ∧ 9 * big.pages < 2 ^ 32 := by
  decide +kernel

/-! ### Journal histories -/

/-- Two blocks of four pages; programs at clock 5 and later work. -/
def two : Cfg := mk 2 2 fun _ => .ok

theorem two_valid : two.Valid := ⟨by decide, by decide, by decide, by decide, by decide⟩

/-- Run journal calls. -/
def jrun (c : Cfg) : List JOp → S → S
  | [], s => s
  | op :: ops, s => jrun c ops (jcall c op s).2

/-- The call may be made and succeeds or asks for recovery (with a root). -/
def jfine (c : Cfg) (op : JOp) (s : S) : Bool :=
  (match op with | .dequeue => !s.j.recovery | .peek => !s.j.recovery | .clear => !s.j.recovery | _ => true) &&
  (good (jcall c op s).1 || (isErr .recover (jcall c op s).1 && decide (s.j.root ≠ NONE)))

/-- All calls are fine. -/
def jrunFine (c : Cfg) : List JOp → S → Bool
  | [], _ => true
  | op :: ops, s => jfine c op s && jrunFine c ops (jcall c op s).2

theorem jfine_iff {c : Cfg} {op : JOp} {s : S} (h : jfine c op s = true) : op.Allowed s ∧
    ((jcall c op s).1 = .ok () ∨ ((jcall c op s).1 = .error .recover ∧ s.j.root ≠ NONE)) := by
  unfold jfine at h
  rw [Bool.and_eq_true, Bool.or_eq_true, Bool.and_eq_true, decide_eq_true_iff] at h
  obtain ⟨h1, h2⟩ := h
  refine ⟨?_, h2.imp good_iff (fun h => ⟨isErr_iff h.1, h.2⟩)⟩
  cases op <;> simp_all [JOp.Allowed]

theorem jhist_run (c : Cfg) : ∀ ops s, JHist c s → jrunFine c ops s = true → JHist c (jrun c ops s) := by
  intro ops
  induction ops with
  | nil => intro s h _; exact h
  | cons op ops ih =>
    intro s h hf
    unfold jrunFine at hf
    rw [Bool.and_eq_true] at hf
    obtain ⟨h1, h2⟩ := jfine_iff hf.1
    exact ih _ (.call s _ op _ h h1 Prod.mk.eta.symm h2) hf.2

/-- A journal on a blank chip. -/
def j0 (c : Cfg) : S := { j := journalInit c (fun _ => 0), n := blankChip c, count := 0 }

theorem j0_fresh (c : Cfg) : JHist c (j0 c) := .fresh _ ⟨rfl, rfl, Or.inl ⟨_, rfl⟩⟩

/-- Five pages are enqueued on the two-block chip. -/
def sTwo : S := jrun two (List.replicate 5 (.enqueue (some (data 1)) (some (data 2)))) (j0 two)

theorem two_hist : JHist two sTwo := jhist_run two _ _ (j0_fresh two) (by decide +kernel)

/-- The hypotheses of `journal_full_refused` hold here: the next page is in the tail's block. -/
example : nextUpage two sTwo.j.head / two.ppb = sTwo.j.tailSync / two.ppb ∧
    nextUpage two sTwo.j.head / two.ppb ≠ sTwo.j.head / two.ppb := by decide +kernel

/-- Journal calls with a failing program (clock 6), the recovery, and dequeues. -/
def fl : Cfg := mk 3 8 fun t => if t = 6 then .fail else .ok

theorem fl_valid : fl.Valid := ⟨by decide, by decide, by decide, by decide, by decide⟩

/-- The block fails at the fifth page: E_RECOVER; the recovery copies two pages and pads. -/
def flOps : List JOp :=
  (List.replicate 5 (.enqueue (some (data 1)) (some (data 2)))) ++
  [.next, .copy 0 (data 3), .next, .copy 1 (data 4), .next, .next, .next, .copy 2 (data 5), .enqueue none none, .enqueue none none, .enqueue none none]

/-- In the middle of the recovery. -/
def sFl1 : S := jrun fl (flOps.take 8) (j0 fl)
/-- At the end. -/
def sFl2 : S := jrun fl flOps (j0 fl)

theorem fl1_hist : JHist fl sFl1 := jhist_run fl _ _ (j0_fresh fl) (by decide +kernel)
theorem fl2_hist : JHist fl sFl2 := jhist_run fl _ _ (j0_fresh fl) (by decide +kernel)

/-- A recovery is going on in the first state; it is over in the second, where block 0 is bad. -/
example : sFl1.j.recovery = true ∧ sFl2.j.recovery = false ∧ sFl2.n.chip.bad 0 = true := by decide +kernel

/-- A further enqueue succeeds: the hypotheses of `enqueue_stores` are met. -/
example : (enqueue fl (some (data 7)) (some (data 8)) sFl2).1 = .ok () := good_iff (by decide +kernel)

/-- And so are those of `copy_stores`, for a page in the queue. -/
example : (journalCopy fl sFl2.j.root (data 8) sFl2).1 = .ok () ∧ fl.Between sFl2.j.tailSync sFl2.j.root sFl2.j.head :=
  ⟨good_iff (by decide +kernel), ⟨by decide +kernel, by decide +kernel⟩, by decide +kernel⟩

end Dhara.Ex2

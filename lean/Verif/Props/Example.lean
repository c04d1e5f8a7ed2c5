/-
A concrete chip on which the hypotheses of the map-level theorems hold: 40 blocks of 4 pages of 512
bytes; the seventh and the thirteenth program operation fail. The states are computed by the kernel.
-/
import Verif.Props.Map
namespace Dhara.Ex

/-- Programs at clock 7 and 19 fail (the clock ticks at every program, erase and call), and two blocks are bad from the
start; everything else works. -/
def env : Env :=
  { erase := fun _ => .ok, prog := fun t => if t = 7 ∨ t = 19 then .fail else .ok, junk := fun _ _ => none,
    junkFree := fun _ _ => false, tornErase := fun _ _ => false, readFail := fun _ _ => false, ffFree := false }

/-- The geometry. -/
def cfg : Cfg := { log2PageSize := 9, log2Ppb := 2, numBlocks := 40, gcRatio := 4, fuel := 200, env := env }

theorem valid : cfg.Valid := ⟨by decide, by decide, by decide, by decide, by decide⟩

/-- A blank chip whose block 1 is bad. -/
def chip : Nand :=
  { chip := { page := fun _ => some (cfg.clip Buf.ff), free := fun _ => true, bad := fun b => b == 1 },
    time := 0, ub := false, dead := false, erases := fun _ => 0, failed := fun _ => false }

/-- Page data starting with byte `k`. -/
def data (k : Nat) : Buf := fun i => UInt8.ofNat (k + i)

/-- After power-up. -/
def s0 : S := (mapResume cfg (mapInit cfg (fun _ => 0) 7 chip)).2

/-- Run a list of calls. -/
def run : List Op → S → S
  | [], s => s
  | op :: ops, s => run ops (step cfg op s).2

/-- Did the call succeed or get refused for lack of space? -/
def fine (r : Except Err Unit) : Bool :=
  match r with
  | .ok _ => true
  | .error .mapFull => true
  | _ => false

/-- All calls of the list are fine. -/
def runFine : List Op → S → Bool
  | [], _ => true
  | op :: ops, s => fine (step cfg op s).1 && runFine ops (step cfg op s).2

theorem fine_iff {r : Except Err Unit} (h : fine r = true) : r = .ok () ∨ r = .error .mapFull := by
  unfold fine at h
  split at h
  · exact Or.inl rfl
  · exact Or.inr rfl
  · cases h

theorem hist_run : ∀ ops s, Hist cfg s → (∀ op, op ∈ ops → op.Valid) → runFine ops s = true → Hist cfg (run ops s) := by
  intro ops
  induction ops with
  | nil => intro s h _ _; exact h
  | cons op ops ih =>
    intro s h hv hf
    unfold runFine at hf
    rw [Bool.and_eq_true] at hf
    exact ih _ (.call s _ op _ h (hv op (List.mem_cons_self ..)) (Prod.mk.eta.symm) (fine_iff hf.1))
      (fun o ho => hv o (List.mem_cons_of_mem _ ho)) hf.2

/-- Twelve calls. -/
def ops : List Op :=
  [.write 5 (data 1), .write 9 (data 2), .write 5 (data 3), .write 77 (data 4), .trim 9, .sync, .copySector 5 6, .write 9 (data 5),
   .gc, .copyPage 0 1000, .write 77 (data 6), .sync]

/-- The state after these calls. -/
def s1 : S := run ops s0

theorem fresh0 : Fresh cfg s0 := ⟨chip, fun _ => 0, 7, rfl, rfl, rfl⟩

theorem runs : runFine ops s0 = true := by decide +kernel

theorem hist1 : Hist cfg s1 := by
  refine hist_run ops s0 (.fresh _ fresh0) ?_ runs
  intro op h
  simp only [ops, List.mem_cons, List.not_mem_nil, or_false] at h
  rcases h with h | h | h | h | h | h | h | h | h | h | h | h <;> subst h <;> simp [Op.Valid]

/-- The history is not trivial: both failures happened, five sectors are mapped, three blocks are bad. -/
example : s1.count = 5 ∧ s1.n.chip.bad 1 = true ∧ (List.range 40).countP s1.n.chip.bad = 3 ∧ s1.n.time > 19 := by
  decide +kernel

example : ReadsOk cfg s1 := fun _ _ => rfl

/-- The theorem applies: sector 5 reads as written last. -/
example : (match mapRead cfg s1 5 with | .ok b => b 0 == 3 && b 100 == 103 | _ => false) = true := by decide +kernel

/-- A write on this state succeeds, a trim too. -/
example : fine (step cfg (.write 8 (data 9)) s1).1 = true ∧ fine (step cfg (.trim 5) s1).1 = true := by decide +kernel

end Dhara.Ex

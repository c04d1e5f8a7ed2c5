/-
Properties C40, C41, C42 and C45: defects of the code. Each theorem exhibits a history, computed by the kernel, in which
the code does the wrong thing.
-/
import Verif.Props.MapSpec
import Verif.Proofs.Arith
namespace Dhara.Viol

/-- A chip on which only some program operations fail or lose power. -/
def env (pf : Nat → Fate) : Env :=
  { erase := fun _ => .ok, prog := pf, junk := fun _ _ => none, junkFree := fun _ _ => false,
    tornErase := fun _ _ => false, readFail := fun _ _ => false, ffFree := false }

/-- Geometry: 512-byte pages. -/
def mk (log2Ppb nb : Nat) (pf : Nat → Fate) : Cfg :=
  { log2PageSize := 9, log2Ppb := log2Ppb, numBlocks := nb, gcRatio := 4, fuel := 200, env := env pf }

/-- A blank chip without bad blocks. -/
def blankChip (c : Cfg) : Nand :=
  { chip := { page := fun _ => some (c.clip Buf.ff), free := fun _ => true, bad := fun _ => false },
    time := 0, ub := false, dead := false, erases := fun _ => 0, failed := fun _ => false }

/-- Some data. -/
def data (k : Nat) : Buf := fun i => UInt8.ofNat (k + i)

/-- Power-up on a blank chip. -/
def start (c : Cfg) : S := (mapResume c (mapInit c (fun _ => 0) 7 (blankChip c))).2

/-- The state after a list of calls. -/
def run (c : Cfg) : List Op → S → S
  | [], s => s
  | op :: ops, s => run c ops (step c op s).2

/-- The call succeeded. -/
def good (r : Except Err Unit) : Bool := match r with | .ok _ => true | _ => false

/-- The result is this error. -/
def isErr {α : Type} (e : Err) (r : Except Err α) : Bool := match r with | .error e' => decide (e' = e) | _ => false

theorem good_iff {r : Except Err Unit} (h : good r = true) : r = .ok () := by
  unfold good at h; split at h
  · rfl
  · cases h

theorem isErr_iff {α : Type} {e : Err} {r : Except Err α} (h : isErr e r = true) : r = .error e := by
  unfold isErr at h; split at h
  · rw [of_decide_eq_true h]
  · cases h

/-- A page was found. -/
def found (r : Except Err Nat) : Bool := match r with | .ok _ => true | _ => false

theorem found_iff {r : Except Err Nat} (h : found r = true) : ∃ p, r = .ok p := by
  unfold found at h; split at h
  · exact ⟨_, rfl⟩
  · cases h

theorem pair_eq {α β : Type} {p : α × β} {a : α} (h : p.1 = a) : p = (a, p.2) := by subst h; rfl

/-- All calls of the list succeed. -/
def runGood (c : Cfg) : List Op → S → Bool
  | [], _ => true
  | op :: ops, s => good (step c op s).1 && runGood c ops (step c op s).2

theorem hist_run (c : Cfg) : ∀ ops s, Hist c s → (∀ op, op ∈ ops → op.Valid) → runGood c ops s = true → Hist c (run c ops s) := by
  intro ops
  induction ops with
  | nil => intro s h _ _; exact h
  | cons op ops ih =>
    intro s h hv hf
    unfold runGood at hf
    rw [Bool.and_eq_true] at hf
    exact ih _ (.call s _ op _ h (hv op (List.mem_cons_self ..)) (Prod.ext rfl rfl) (Or.inl (good_iff hf.1)))
      (fun o ho => hv o (List.mem_cons_of_mem _ ho)) hf.2

/-! ### C40 -/

/-- Two pages per block; the program at clock 3 (the first checkpoint page) fails. -/
def c40 : Cfg := mk 1 80 fun t => if t = 3 then .fail else .ok

theorem fresh40 : Hist c40 (start c40) := .fresh _ ⟨blankChip c40, fun _ => 0, 7, rfl, rfl, rfl⟩

/-- C40: with checkpoint groups of two pages a write may report success although the data is not stored, even though
every read works. -/
theorem two_page_group_loses_write : ∃ (c : Cfg) (s : S) (d : Buf), c.log2Ppb = 1 ∧ Hist c s ∧
    (step c (.write 5 d) s).1 = .ok () ∧ (∀ t p, c.env.readFail t p = false) ∧
    mapFind c (step c (.write 5 d) s).2 5 = .error .notFound :=
  ⟨c40, start c40, data 1, rfl, fresh40, good_iff (by decide +kernel), fun _ _ => rfl, isErr_iff (by decide +kernel)⟩

/-! ### C41 -/

/-- Eight pages per block; the program at clock 5 fails. -/
def c41 : Cfg := mk 3 40 fun t => if t = 5 then .fail else .ok

theorem valid41 : c41.Valid := ⟨by decide, by decide, by decide, by decide, by decide⟩

/-- One sector is written and trimmed again: the queue is empty and the head is in the middle of a block. -/
def s41 : S := run c41 [.write 5 (data 1), .trim 5] (start c41)

theorem hist41 : Hist c41 s41 := by
  refine hist_run c41 _ _ (.fresh _ ⟨blankChip c41, fun _ => 0, 7, rfl, rfl, rfl⟩) ?_ (by decide +kernel)
  intro op h
  simp only [List.mem_cons, List.not_mem_nil, or_false] at h
  rcases h with h | h <;> subst h <;> simp [Op.Valid]

/-- C41: a block failure while the root is none makes the code read a page that does not exist:
`nandRead` answers `ub` exactly when its offset or its page is out of range. -/
theorem recovery_without_root_reads_off_chip : ∃ (c : Cfg) (s : S) (d : Buf), c.Valid ∧ Hist c s ∧ s.j.root = NONE ∧
    (step c (.write 6 d) s).1 = .error .ub :=
  ⟨c41, s41, data 2, valid41, hist41, by decide +kernel, isErr_iff (by decide +kernel)⟩

/-! ### C42 -/

/-- The program at clock 12 fails, power is lost at clock 18. -/
def c42 : Cfg := mk 3 40 fun t => if t = 12 then .fail else if t = 18 then .crash .untouched else .ok

theorem valid42 : c42.Valid := ⟨by decide, by decide, by decide, by decide, by decide⟩

/-- Three sectors fill a checkpoint group. -/
def s42 : S := run c42 [.write 2 (data 1), .write 3 (data 2), .write 5 (data 3)] (start c42)

theorem hist42 : Hist c42 s42 := by
  refine hist_run c42 _ _ (.fresh _ ⟨blankChip c42, fun _ => 0, 7, rfl, rfl, rfl⟩) ?_ (by decide +kernel)
  intro op h
  simp only [List.mem_cons, List.not_mem_nil, or_false] at h
  rcases h with h | h | h <;> subst h <;> simp [Op.Valid]

/-- After a sync and one more write. -/
def s42a : S := (step c42 .sync s42).2
/-- One more write starts the next group. -/
def s42b : S := (step c42 (.write 4 (data 4)) s42a).2
/-- The next write hits the failing block; power is lost during the recovery. -/
def s42c : S := (step c42 (.write 6 (data 5)) s42b).2
/-- After power-up. -/
def s42d : S := (reboot c42 (fun _ => 0) 0 s42c).2

/-- C42: sector 5 was synchronised, yet after a power failure during a later block recovery it is gone. -/
theorem crash_in_recovery_loses_synced : ∃ (c : Cfg) (s a b d e : S) (x y : Buf), c.Valid ∧ Hist c s ∧
    step c .sync s = (.ok (), a) ∧ (∃ p, mapFind c a 5 = .ok p) ∧ step c (.write 4 x) a = (.ok (), b) ∧
    step c (.write 6 y) b = (.error .powerLoss, d) ∧ reboot c (fun _ => 0) 0 d = (.ok (), e) ∧
    mapFind c e 5 = .error .notFound := by
  have h1 : good (step c42 .sync s42).1 = true := by decide +kernel
  have h2 : found (mapFind c42 s42a 5) = true := by decide +kernel
  have h3 : good (step c42 (.write 4 (data 4)) s42a).1 = true := by decide +kernel
  have h4 : isErr .powerLoss (step c42 (.write 6 (data 5)) s42b).1 = true := by decide +kernel
  have h5 : good (reboot c42 (fun _ => 0) 0 s42c).1 = true := by decide +kernel
  have h6 : isErr .notFound (mapFind c42 s42d 5) = true := by decide +kernel
  exact ⟨c42, s42, s42a, s42b, s42c, s42d, data 4, data 5, valid42, hist42, pair_eq (good_iff h1), found_iff h2,
    pair_eq (good_iff h3), pair_eq (isErr_iff h4), pair_eq (good_iff h5), isErr_iff h6⟩

/-! ### C45 -/

/-- The program at clock 13 fails. -/
def c45 : Cfg := mk 3 40 fun t => if t = 13 then .fail else .ok

theorem valid45 : c45.Valid := ⟨by decide, by decide, by decide, by decide, by decide⟩

/-- Three sectors fill a checkpoint group, a fourth starts the next one. -/
def s45 : S := run c45 [.write 2 (data 1), .write 3 (data 2), .write 5 (data 3), .sync, .write 4 (data 4)] (start c45)

theorem hist45 : Hist c45 s45 := by
  refine hist_run c45 _ _ (.fresh _ ⟨blankChip c45, fun _ => 0, 7, rfl, rfl, rfl⟩) ?_ (by decide +kernel)
  intro op h
  simp only [List.mem_cons, List.not_mem_nil, or_false] at h
  rcases h with h | h | h | h | h <;> subst h <;> simp [Op.Valid]

/-- After power is switched off and on. -/
def s45a : S := (reboot c45 (fun _ => 0) 0 s45).2

/-- C45: after a power cycle sector 5 is readable; then a write succeeds although a block fails - and sector 5 is gone. -/
theorem failure_after_resume_loses_data : ∃ (c : Cfg) (s a : S) (d : Buf), c.Valid ∧ Hist c s ∧
    reboot c (fun _ => 0) 0 s = (.ok (), a) ∧ (∃ p, mapFind c a 5 = .ok p) ∧ (step c (.write 6 d) a).1 = .ok () ∧
    mapFind c (step c (.write 6 d) a).2 5 = .error .notFound := by
  have h1 : good (reboot c45 (fun _ => 0) 0 s45).1 = true := by decide +kernel
  have h2 : found (mapFind c45 s45a 5) = true := by decide +kernel
  have h3 : good (step c45 (.write 6 (data 9)) s45a).1 = true := by decide +kernel
  have h4 : isErr .notFound (mapFind c45 (step c45 (.write 6 (data 9)) s45a).2 5) = true := by decide +kernel
  exact ⟨c45, s45, s45a, data 9, valid45, hist45, pair_eq (good_iff h1), found_iff h2, good_iff h3, isErr_iff h4⟩

end Dhara.Viol

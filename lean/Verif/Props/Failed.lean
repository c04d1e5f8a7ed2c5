/-
C49: a call that reports an error although no program or erase operation failed during it (an unreadable page, a full journal,
too many bad blocks) changes nothing the user can see, and what was saved stays saved.
-/
import Verif.Props.Healthy
namespace Dhara

variable {c : Cfg}

/-- C49: sectors and size are as before, the chip was not misused, and the history may go on (so all theorems about histories apply
to the calls that follow, such as a retry). -/
theorem failed_call_changes_nothing (hc : c.Valid) (s s' : S) (h : Hist c s) (op : Op) (hv : op.Valid) (e : Err)
    (hs : step c op s = (.error e, s')) (he : e.Reported) (hq : Quiet c s.n.time s'.n.time) :
    mapSize s' = mapSize s ∧ s'.n.ub = false ∧ s'.n.dead = false ∧ Hist c s' ∧
    (ReadsOk c s' → ∀ t, t < NONE → ∀ o, Looks c s t o → Looks c s' t o) ∧
    (ReadsOk c s → ∀ t, t < NONE → ∀ o, Looks c s' t o → Looks c s t o) := by
  obtain ⟨evs, _, hrep⟩ := h.rep hc
  have key := step_rep hc op hrep hv
  rw [hs] at key
  have h1 : Rep c s' (contents evs) := by
    cases key with
    | full _ h1 _ _ => exact h1
    | stop _ _ _ _ hsf => exact hsf he.1 he.2.1 he.2.2 (hq.noisy (Nat.le_succ _))
  obtain ⟨vts, vt, vh, vr, hI⟩ := (h1 0).calm
  refine ⟨(h1 0).cnt.unique (hrep 0).cnt, hI.geo.noub, hI.geo.alive, .failed s s' op e h hv hs he hq, fun hr t ht o hl => ?_,
    fun hr t ht o hl => ?_⟩
  · have := h1.looks hc hr ht
    rw [hrep.of_looks hc ht hl] at this; exact this
  · have := hrep.looks hc hr ht
    rw [h1.of_looks hc ht hl] at this; exact this

/-- C49, with power failures: after the failed call the map still shows the log, and if power fails afterwards, what had to survive
before the call survives. -/
theorem failed_call_harmless_run (hc : c.Valid) (hJ : NoForgery c) (s s' : S) (evs d : List Ev) (h : PLog c s evs d) (op : Op)
    (hv : op.Valid) (e : Err) (hs : step c op s = (.error e, s')) (he : e.Reported) (hq : Quiet c s.n.time s'.n.time) :
    mapSize s' = mapSize s ∧ s'.n.ub = false ∧ s'.n.dead = false ∧ PLog c s' evs (durable s' evs d) ∧
    (ReadsOk c s' → ∀ t, t < NONE → Looks c s' t (contents evs t)) ∧
    ∀ s'', Powered c s' s'' → ∃ kept, d <:+ kept ∧ kept <:+ evs ∧ (∀ t, t < NONE → Looks c s'' t (contents kept t)) ∧
      CountIs (contents kept) (mapSize s'') := by
  have hl : PLog c s' evs (durable s' evs d) := .step _ _ _ _ _ _ h (.failed s s' op e evs d hv hs he hq)
  obtain ⟨hP, hd⟩ := h.inv hc hJ
  obtain ⟨hP', hd'⟩ := hl.inv hc hJ
  obtain ⟨vts, vt, vh, vr, g, _⟩ := hP'.ex
  refine ⟨hP'.cnt.unique hP.cnt, g.noub, g.alive, hl, fun hr t ht => hP'.calm.looks hc hr ht, ?_⟩
  intro s'' hp
  obtain ⟨hb, hr, buf, cnt, r, hx⟩ := hp
  obtain ⟨kept, h1, h2, _, h3, h4, _⟩ := power_off_keeps_prefix hc hJ s' s'' evs _ hl hb hr buf cnt r hx
  refine ⟨kept, List.IsSuffix.trans ?_ h1, h2, h3, h4⟩
  unfold durable
  split
  · exact List.suffix_refl _
  · exact hd

end Dhara

/-! ### A case: sync moves one sector and then meets an unreadable page -/
namespace Dhara.ExF
open Viol

/-- Nothing fails except the reads at clock 12. -/
def cF : Cfg := { mk 3 40 (fun _ => .ok) with env := { env (fun _ => .ok) with readFail := fun t _ => decide (t = 12) } }

theorem validF : cF.Valid := ⟨by decide, by decide, by decide, by decide, by decide⟩
theorem quietF (a b : Nat) : Quiet cF a b := fun _ _ _ => ⟨(fun h => by cases h), (fun h => by cases h)⟩

/-- Four writes. -/
def opsF : List Op := [.write 2 (data 1), .write 3 (data 2), .write 2 (data 3), .write 4 (data 4)]
def sF : S := run cF opsF (start cF)

theorem goodF : runGood cF opsF (start cF) = true := by decide +kernel

theorem histF : Hist cF sF := by
  refine hist_run cF _ _ (.fresh _ ⟨blankChip cF, fun _ => 0, 7, rfl, rfl, rfl⟩) ?_ goodF
  intro op h
  unfold opsF at h
  simp only [List.mem_cons, List.not_mem_nil, or_false] at h
  rcases h with h | h | h | h <;> subst h <;> simp [Op.Valid]

theorem failsF : (step cF .sync sF).1 = .error .ecc := isErr_iff (by decide +kernel)
theorem movedF : (step cF .sync sF).2.j.tail = 2 ∧ sF.j.tail = 0 ∧ (step cF .sync sF).2.j.head ≠ sF.j.head := by decide +kernel
theorem sizeF : mapSize sF = 3 ∧ sF.n.time = 10 ∧ (step cF .sync (step cF .sync sF).2).2.n.time ≠ 12 := by decide +kernel
theorem retryF : (step cF .sync (step cF .sync sF).2).1 = .ok () := good_iff (by decide +kernel)

/-- C49 applies: the failed sync leaves three sectors and a history that goes on, and the retry succeeds. -/
theorem failed_example : mapSize (step cF .sync sF).2 = 3 ∧ Hist cF (step cF .sync (step cF .sync sF).2).2 :=
  have h := failed_call_changes_nothing validF sF _ histF .sync trivial .ecc (pair_eq failsF) ⟨by decide, by decide, by decide⟩ (quietF _ _)
  ⟨h.1.trans sizeF.1, .call _ _ .sync _ h.2.2.2.1 trivial rfl (Or.inl retryF)⟩

end Dhara.ExF

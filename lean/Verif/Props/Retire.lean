/-
C36: a block that fails is retired.
-/
import Verif.Props.Live
import Verif.Props.Basic
import Verif.Props.Example
namespace Dhara

variable {c : Cfg}

/-- The hook: the blocks that have failed are marked bad (those of `F` excepted) or will be by the recovery going on. -/
def Gh.retire (c : Cfg) (t : Nat) (F : Nat → Bool) : Gh c :=
  ⟨t, fun _ _ _ => True, fun s _ _ vh vr => RootBlk c s vh vr ∧ ∀ b, s.n.failed b = true → F b = true ∨ s.n.chip.bad b = true,
   fun s _ _ _ vR vM => ∀ b, s.n.failed b = true → F b = true ∨ s.n.chip.bad b = true ∨ retires c s vR vM b,
   fun s => Recovering s ∨ ∀ b, s.n.failed b = true → F b = true ∨ s.n.chip.bad b = true, fun _ _ _ => True⟩

/-- What a power failure leaves. -/
theorem Gh.retire_x {t : Nat} {F : Nat → Bool} {s s' : S} (h : ∀ b, s.n.failed b = true → F b = true ∨ s.n.chip.bad b = true)
    (hE : Evo c s.n s'.n) (hF : Recovering s' ∨ FdOk s.n s'.n) : (Gh.retire c t F).X s' := by
  rcases hF with hF | hF
  · exact Or.inl hF
  · refine Or.inr fun b hb => ?_
    rcases hF b hb with h' | h'
    · exact (h b h').imp id (hE.bad b)
    · exact Or.inr h'

theorem Gh.retire_ok (hc : c.Valid) {t : Nat} {F : Nat → Bool} : (Gh.retire c t F).Ok where
  upow := trivial
  usoft := fun _ _ _ _ _ => trivial
  unoisy := fun _ _ _ _ => trivial
  uhard := fun _ _ _ _ => trivial
  ustuck := fun _ _ _ _ _ _ _ => trivial
  ucong := fun _ _ _ => trivial
  udiv := Or.inl fun _ _ => trivial
  soft := by
    intro s s' σ vts vt vh vr vq hI h hE hn
    obtain ⟨d, x, y, hj⟩ := h.jh.1
    have hroot : s'.j.root = s.j.root := by rw [hj]; rfl
    refine ⟨fun h1 h2 => ?_, fun b hb => ?_⟩
    · rcases h.mv with e | ⟨_, e⟩
      · rw [e] at h2 ⊢; rw [hroot] at h1; exact hI.ext.1 h1 h2
      · exact absurd e h2
    · rcases hE.fails b hb with h | h
      · rcases hI.ext.2 b h with h | h
        · exact Or.inl h
        · exact Or.inr (hE.bad b h)
      · exact absurd h hn
  wmono := fun _ _ => trivial
  cong0 := by
    intro s s' vts vt vh vr h hn _ hr _
    simp only [Gh.retire, RootBlk] at h ⊢
    rw [hn, hr]; exact h
  cong1 := by
    intro s s' vts vt vh vR vM h hn hb
    simp only [Gh.retire] at h ⊢
    rw [hn, retires_congr hb]; exact h
  tick := fun h => h
  congX := fun h hn hj => by
    simp only [Gh.retire, Recovering] at h ⊢
    rw [hn, hj]; exact h
  push0 := by
    intro s s' σ σ' m Pd vts vt vh vr vq vR vM hI ho _ _ _ hE hF
    refine ⟨rootBlk_push hc ho.uq, fun b hb => ?_⟩
    rcases hF b hb with h | h
    · rcases hI.ext.2 b h with h | h
      · exact Or.inl h
      · exact Or.inr (hE.bad b h)
    · exact Or.inr h
  erase := fun hI _ hE _ hF => Gh.retire_x hI.ext.2 hE hF
  page := fun hI _ _ _ _ _ hE _ hF => Gh.retire_x hI.ext.2 hE hF
  twin := fun hI _ _ _ _ hE1 _ _ hE2 hF => Gh.retire_x hI.ext.2 (hE1.trans hE2) hF
  noisy := fun _ _ hm _ _ => Or.inl hm
  skip := fun hI hs _ hE _ hF => Gh.retire_x hI.ext.2 (hs.evo.trans hE) hF
  start := by
    intro s s' σ vts vt vh vr vM v' hI hroot ho hE hv hF b hb
    rcases hF b hb with h | h | h
    · rcases hI.ext.2 b h with h | h
      · exact Or.inl h
      · exact Or.inr (Or.inl (hE.bad b h))
    · exact Or.inr (Or.inl h)
    · refine Or.inr (Or.inr (Or.inl ?_))
      rw [h, blk_eq, hI.geo.eh, ph_div_ppb, ph_div_ppb, hI.ext.1 hroot hv]
  rok := by
    intro s s' σ pend m Pd vts vt vh vr vR vM vn vq hI ho hnf hE hF b hb
    obtain ⟨_, _, _, _, _, a6⟩ := ho.going hnf
    rw [retires_congr a6]
    rcases hF b hb with h | h
    · rcases hI.ext b h with h | h | h
      · exact Or.inl h
      · exact Or.inr (Or.inl (hE.bad b h))
      · exact Or.inr (Or.inr h)
    · exact Or.inr (Or.inl h)
  done := by
    intro s s' σ pend m Pd vts vt vh vr vR vM vn vq hI ho hf _ _ _ hE hF
    refine ⟨rootBlk_push hc ho.uq, fun b hb => ?_⟩
    rcases hF b hb with h | h
    · rcases hI.ext b h with h | h | h
      · exact Or.inl h
      · exact Or.inr (hE.bad b h)
      · exact Or.inr ((ho.done hf).2 b h)
    · exact Or.inr h
  again := by
    intro s s' σ pend vts vt vh vr vR vM vn v' hI ho hE hF b hb
    rcases hF b hb with h | h | ⟨h1, h2⟩
    · rcases hI.ext b h with h | h | h | ⟨h1, h2⟩
      · exact Or.inl h
      · exact Or.inr (Or.inl (hE.bad b h))
      · exact Or.inr (Or.inr (Or.inl h))
      · exact Or.inr (Or.inr (Or.inr ⟨ho.bmk h1, h2⟩))
    · exact Or.inr (Or.inl h)
    · refine Or.inr (Or.inr (Or.inr ⟨h1, ?_⟩))
      rcases ho.rgeo.rm with h | h
      · exact absurd h (ho.rgeo.bm h1).1
      · rw [h2, h.1, blk_eq]
  crash1 := fun _ hm _ _ => Or.inl hm
  tail := by
    intro s s' σ vts vt vh vr vts' vt' hI hn _ _ hr _ _ _ _
    refine ⟨fun hne hv => ?_, by rw [hn]; exact hI.ext.2⟩
    rcases hr with hr | hr
    · exact hI.ext.1 (by rw [← hr]; exact hne) hv
    · exact absurd hr.1 hne
  clear := by
    intro s s' σ vts vt vh vr hI hn _ hr
    exact ⟨fun hne => absurd hr hne, by rw [hn]; exact hI.ext.2⟩

theorem retire_core (hc : c.Valid) {s s' : S} {σ : Nat → Option Buf} {vts vt vh vr : Nat} (g : Geo c s vts vt vh) (hcalm : Calm s)
    (hT : Tr c s s.j.root vt vr vh σ) (hcnt : Cnt σ s.count) (hR : RootBlk c s vh vr) {op : Op} (hv : op.Valid)
    (hst : Stable c s vr vh ∨ NoFail c s.n.time s'.n.time) {r : Except Err Unit} (hs : step c op s = (r, s'))
    (hr : r = .ok () ∨ r = .error .mapFull ∨ ∃ e, r = .error e ∧ e.Reported ∧ Quiet c s.n.time s'.n.time) :
    (∀ b, s'.n.failed b = true → s.n.failed b = true ∨ nandIsBad s'.n b = true) ∧ s'.j.recovery = false := by
  have hG : (Gh.retire c s'.n.time s.n.failed).Ok := Gh.retire_ok hc
  have hI : Inv0 c s σ (Gh.retire c s'.n.time s.n.failed) vts vt vh vr := ⟨g, hcalm, hT, hst, hR, fun b h => Or.inl h⟩
  have key := call_inv hc hG op (MInv.tick hG ⟨⟨_, _, _, _, hI⟩, hcnt⟩) hv trivial (fun _ _ _ _ _ _ _ => trivial)
    (fun _ _ _ => Or.inr fun _ _ => trivial)
    (by rw [show call c op (tick s) = step c op s from rfl, hs]; exact Nat.le_refl _)
  rw [show call c op (tick s) = step c op s from rfl, hs] at key
  have fin : ∀ {σ'}, MInv c s' σ' (Gh.retire c s'.n.time s.n.failed) →
      (∀ b, s'.n.failed b = true → s.n.failed b = true ∨ nandIsBad s'.n b = true) ∧ s'.j.recovery = false := by
    rintro σ' ⟨⟨_, _, _, _, h⟩, _⟩
    exact ⟨h.ext.2, h.calm.nr⟩
  cases key with
  | ok _ _ h => exact fin h
  | full _ h => exact fin h
  | stop _ e he =>
    rcases hr with h | h | ⟨e, h, hrp, hq⟩
    · cases h
    · cases h; exact absurd rfl he
    · cases h
      exact fin (call_failed hc hG op (MInv.tick hG ⟨⟨_, _, _, _, hI⟩, hcnt⟩) hv trivial (fun _ _ _ _ _ _ _ => trivial) (fun _ _ _ => Or.inr fun _ _ => trivial)
        hs (Nat.le_refl _) hrp.1 hrp.2.1 hrp.2.2 (hq.noisy (Nat.le_succ _)))

theorem Hist.rootBlk (hc : c.Valid) {s : S} (h : Hist c s) : ∃ σ, ∀ t, MInv c s σ (Gh.retire c t fun _ => true) := by
  induction h with
  | fresh s h =>
    have hrep := h.rep hc
    obtain ⟨n, buf, k, h1, h2, h3⟩ := h
    have hroot : s.j.root = NONE := by
      unfold mapResume at h3
      rcases hr : journalResume c (mapInit c buf k n).n (mapInit c buf k n).j with ⟨e | u, j⟩
      · rw [hr] at h3
        simp only at h3
        cases h3
        obtain ⟨j0, hj⟩ := resume_tooBad hr
        show j.root = NONE
        rw [hj]; rfl
      · rw [hr] at h3; cases h3
    exact ⟨_, fun t => (hrep t).congr_T (Nat.le_refl _) fun _ _ _ _ _ => ⟨fun hn => absurd hroot hn, fun _ _ => Or.inl rfl⟩⟩
  | call s s' op r h hv hs hr ih =>
    obtain ⟨σ, hM⟩ := ih
    have key := fun t hT => call_inv hc (Gh.retire_ok hc) op ((hM t).tick (Gh.retire_ok hc)) hv trivial
      (fun _ _ _ _ _ _ _ => trivial) (fun _ _ _ => Or.inr fun _ _ => trivial) (hT : (Dhara.call c op (tick s)).2.n.time ≤ t)
    rw [show Dhara.call c op (tick s) = step c op s from rfl, hs] at key
    have k0 := key s'.n.time (Nat.le_refl _)
    cases k0 with
    | ok _ σ' h1 he hg =>
      refine ⟨σ', fun t => ?_⟩
      by_cases hT : s'.n.time ≤ t
      · cases key t hT with
        | ok _ σ2 h3 _ _ =>
          have hu := h3.calm.unique h1.calm
          exact ⟨h3.calm.sig hu, h3.cnt.congr hu⟩
      · exact h1.congr_T (by show t ≤ s'.n.time; omega) (fun _ _ _ _ h => h)
    | full _ h1 hcap hop =>
      refine ⟨σ, fun t => ?_⟩
      by_cases hT : s'.n.time ≤ t
      · cases key t hT with
        | full _ h3 _ _ => exact h3
        | stop _ _ he _ => exact absurd rfl he
      · exact h1.congr_T (by show t ≤ s'.n.time; omega) (fun _ _ _ _ h => h)
    | stop _ e he =>
      rcases hr with h | h
      · cases h
      · cases h; exact absurd rfl he
  | failed s s' op e h hv hs hr hq ih =>
    obtain ⟨σ, hM⟩ := ih
    have key := fun t hT => call_failed hc (Gh.retire_ok hc) op ((hM t).tick (Gh.retire_ok hc)) hv trivial
      (fun _ _ _ _ _ _ _ => trivial) (fun _ _ _ => Or.inr fun _ _ => trivial) hs (hT : s'.n.time ≤ t) hr.1 hr.2.1 hr.2.2 (hq.noisy (Nat.le_succ _))
    refine ⟨σ, fun t => ?_⟩
    by_cases hT : s'.n.time ≤ t
    · exact key t hT
    · exact (key s'.n.time (Nat.le_refl _)).congr_T (by show t ≤ s'.n.time; omega) (fun _ _ _ _ h => h)

/-- C36: after any history of calls, if a call succeeds (or is refused for lack of space, or reports an error although nothing failed) then every block with a failing program
or erase operation during the call (`failed` records them) is marked bad when the call returns, and the journal is out of
recovery mode. -/
theorem failed_block_retired (hc : c.Valid) (s s' : S) (h : Hist c s) (op : Op) (hv : op.Valid) (r : Except Err Unit)
    (hs : step c op s = (r, s'))
    (hr : r = .ok () ∨ r = .error .mapFull ∨ ∃ e, r = .error e ∧ e.Reported ∧ Quiet c s.n.time s'.n.time) :
    (∀ b, s'.n.failed b = true → s.n.failed b = true ∨ nandIsBad s'.n b = true) ∧ s'.j.recovery = false := by
  obtain ⟨σ, hM⟩ := h.rootBlk hc
  obtain ⟨⟨vts, vt, vh, vr, hI⟩, hcnt⟩ := hM s'.n.time
  exact retire_core hc hI.geo hI.calm hI.tr hcnt hI.ext.1 hv hI.stab hs hr

/-- C36 with power failures in the history. -/
theorem failed_block_retired_run (hc : c.Valid) (hJ : NoForgery c) (s s' : S) (h : PRun c s) (op : Op) (hv : op.Valid) (r : Except Err Unit)
    (hs : step c op s = (r, s'))
    (hr : r = .ok () ∨ r = .error .mapFull ∨ ∃ e, r = .error e ∧ e.Reported ∧ Quiet c s.n.time s'.n.time)
    (hx : ¬ Exposed c s ∨ ProgsOk c s.n.time s'.n.time) :
    (∀ b, s'.n.failed b = true → s.n.failed b = true ∨ nandIsBad s'.n b = true) ∧ s'.j.recovery = false := by
  obtain ⟨evs, d, hl⟩ := run_has_log hc hJ s h
  obtain ⟨⟨⟨vts, vt, vh, vr, g, hcalm, hT, hD, hR⟩, hcnt⟩, hd⟩ := hl.inv hc hJ
  refine retire_core hc g hcalm hT hcnt hR hv ?_ hs hr
  rcases hx with hx | hx
  · exact Or.inl (not_exposed hc g hT hx)
  · exact Or.inr hx

/-- C36: the same holds of a call during which the power fails, unless a block was just being recovered. -/
theorem interrupted_retired_run (hc : c.Valid) (hJ : NoForgery c) (s s' : S) (h : PRun c s) (op : Op) (hv : op.Valid)
    (hs : step c op s = (.error .powerLoss, s')) (hq : CrashOk c s s') :
    ∀ b, s'.n.failed b = true → s.n.failed b = true ∨ nandIsBad s'.n b = true := by
  obtain ⟨evs, d, hl⟩ := run_has_log hc hJ s h
  obtain ⟨⟨⟨vts, vt, vh, vr, g, hcalm, hT, hD, hR⟩, hcnt⟩, hd⟩ := hl.inv hc hJ
  intro b hb
  rcases hq.2 with hr | hq'
  · have hG : (Gh.retire c s'.n.time s.n.failed).Ok := Gh.retire_ok hc
    have hst : Stable c s vr vh ∨ NoFail c s.n.time s'.n.time := hq.1.imp (not_exposed hc g hT) id
    have hI : Inv0 c s (contents evs) (Gh.retire c s'.n.time s.n.failed) vts vt vh vr := ⟨g, hcalm, hT, hst, hR, fun b h => Or.inl h⟩
    have key := call_inv hc hG op (MInv.tick hG ⟨⟨_, _, _, _, hI⟩, hcnt⟩) hv trivial (fun _ _ _ _ _ _ _ => trivial)
      (fun _ _ _ => Or.inr fun _ _ => trivial)
      (by rw [show call c op (tick s) = step c op s from rfl, hs]; exact Nat.le_refl _)
    rw [show call c op (tick s) = step c op s from rfl, hs] at key
    cases key with
    | stop _ e he hub hcr =>
      rcases hcr rfl with h | h
      · exact absurd h hr
      · exact h b hb
  · have hE := call_evo (c := c) op (tick s)
    rw [show call c op (tick s) = step c op s from rfl, hs] at hE
    rcases hE.fails b hb with h | h
    · exact Or.inl h
    · exact absurd h (hq'.noisy (Nat.le_succ _))

/-- Every block that ever failed is marked bad. -/
def AllRetired (s : S) : Prop := ∀ b, s.n.failed b = true → nandIsBad s.n b = true

/-- C36 over whole histories, with power failures: if all blocks that failed so far are marked bad, that stays so. -/
theorem all_failed_retired (hc : c.Valid) (hJ : NoForgery c) (s s' : S) (ops : List Op) (h : PRun c s) (h0 : AllRetired s)
    (hs : RSteps c s ops s') : AllRetired s' ∧ s'.j.recovery = false := by
  have calm : ∀ s, PRun c s → s.j.recovery = false := by
    intro s h
    obtain ⟨evs, d, hl⟩ := run_has_log hc hJ s h
    obtain ⟨⟨⟨vts, vt, vh, vr, g, hcalm, hT, hD, hR⟩, hcnt⟩, hd⟩ := hl.inv hc hJ
    exact hcalm.nr
  suffices PRun c s' ∧ AllRetired s' from ⟨this.2, calm _ this.1⟩
  induction hs with
  | refl => exact ⟨h, h0⟩
  | step s1 s2 ops ops' _ hst ih =>
    obtain ⟨h1, h2⟩ := ih
    refine ⟨.step _ _ _ h1 hst, ?_⟩
    cases hst with
    | ok s' op hv hs _ hx =>
      intro b hb
      rcases (failed_block_retired_run hc hJ _ _ h1 _ hv _ hs (Or.inl rfl) hx).1 b hb with h | h
      · have := call_evo (c := c) op (tick s1)
        rw [show call c op (tick s1) = step c op s1 from rfl, hs] at this
        exact this.bad b (h2 b h)
      · exact h
    | full s' op hv hs hx =>
      intro b hb
      rcases (failed_block_retired_run hc hJ _ _ h1 _ hv _ hs (Or.inr (Or.inl rfl)) hx).1 b hb with h | h
      · have := call_evo (c := c) op (tick s1)
        rw [show call c op (tick s1) = step c op s1 from rfl, hs] at this
        exact this.bad b (h2 b h)
      · exact h
    | failed s' op e hv hs hr hq =>
      intro b hb
      rcases (failed_block_retired_run hc hJ _ _ h1 _ hv _ hs (Or.inr (Or.inr ⟨e, rfl, hr, hq⟩)) (Or.inr fun t x y => (hq t x y).1)).1 b hb with h | h
      · have := call_evo (c := c) op (tick s1)
        rw [show call c op (tick s1) = step c op s1 from rfl, hs] at this
        exact this.bad b (h2 b h)
      · exact h
    | crash s' _ op hv hs hk hq hp =>
      obtain ⟨_, _, buf, cnt, r, hp⟩ := hp
      have hn := resume_keeps_chip c (mapInit c buf cnt { s'.n with time := s'.n.time + 1, dead := false })
      rw [show mapResume c (mapInit c buf cnt { s'.n with time := s'.n.time + 1, dead := false }) = (r, s2) from hp] at hn
      have hn : s2.n = { s'.n with time := s'.n.time + 1, dead := false } := hn
      have hE := call_evo (c := c) op (tick s1)
      rw [show call c op (tick s1) = step c op s1 from rfl, hs] at hE
      intro b hb
      rw [hn] at hb ⊢
      rcases interrupted_retired_run hc hJ _ _ h1 op hv hs hq b hb with h | h
      · exact hE.bad b (h2 b h)
      · exact h
    | off s' hp =>
      obtain ⟨_, _, buf, cnt, r, hp⟩ := hp
      have hn := resume_keeps_chip c (mapInit c buf cnt { s1.n with time := s1.n.time + 1, dead := false })
      rw [show mapResume c (mapInit c buf cnt { s1.n with time := s1.n.time + 1, dead := false }) = (r, s2) from hp] at hn
      have hn : s2.n = { s1.n with time := s1.n.time + 1, dead := false } := hn
      intro b hb
      rw [hn] at hb ⊢
      exact h2 b hb

/-- C36: then no sector's current page is in a block that ever failed, neither now nor after further calls and power cycles. -/
theorem current_page_not_failed (hc : c.Valid) (hJ : NoForgery c) (s s' : S) (ops : List Op) (h : PRun c s) (h0 : AllRetired s)
    (hs : RSteps c s ops s') (t p : Nat) (ht : t < NONE) (hf : mapFind c s' t = .ok p) : s'.n.failed (p / c.ppb) = false := by
  have hp : PRun c s' := by
    clear hf h0
    induction hs with
    | refl => exact h
    | step _ _ _ _ _ hst ih => exact .step _ _ _ ih hst
  have h1 := (all_failed_retired hc hJ s s' ops h h0 hs).1
  have h2 := (live_page_on_good_block_run hc hJ s' hp t p ht hf).2
  cases hh : s'.n.failed (p / c.ppb) with
  | false => rfl
  | true => rw [h1 _ hh] at h2; cases h2

end Dhara

namespace Dhara.Ex

/-- After four of the calls of `ops`. -/
def s4 : S := run (ops.take 4) s0

theorem hist4 : Hist cfg s4 := by
  refine hist_run (ops.take 4) s0 (.fresh _ fresh0) ?_ (by decide +kernel)
  intro op h
  simp only [ops, List.take, List.mem_cons, List.not_mem_nil, or_false] at h
  rcases h with h | h | h | h <;> subst h <;> simp [Op.Valid]

theorem trim4 : fine (step cfg (.trim 9) s4).1 = true := by decide +kernel

theorem failed4 : (step cfg (.trim 9) s4).2.n.failed 3 = true ∧ s4.n.failed 3 = false := by decide +kernel

/-- The theorem applies: during the fifth call a program operation fails in the middle of block 3. -/
theorem retire_example : nandIsBad (step cfg (.trim 9) s4).2.n 3 = true := by
  rcases (failed_block_retired valid s4 _ hist4 (.trim 9) (by show 9 < NONE; decide) _ (Prod.mk.eta.symm) ((fine_iff trim4).imp id Or.inl)).1 3
    failed4.1 with h | h
  · rw [failed4.2] at h; cases h
  · exact h

end Dhara.Ex

/-
Properties C12, C13, C14 and C43: power failures.
-/
import Verif.Proofs.Crash
namespace Dhara

variable {c : Cfg}

/-! ### C12: what has been synced survives -/

/-- What must survive only grows. -/
theorem PStep.durable_grows {s s' : S} {evs d evs' d' : List Ev} (h : PStep c s evs d s' evs' d') (hd : d <:+ evs) : d <:+ d' := by
  cases h with
  | ok _ op _ _ hv hs hk hst =>
    unfold durable; split
    · exact List.suffix_refl _
    · exact hd.trans (List.suffix_append _ _)
  | full _ op _ _ hv hs hst =>
    unfold durable; split
    · exact List.suffix_refl _
    · exact hd
  | failed _ op e _ _ hv hs hr hq =>
    unfold durable; split
    · exact List.suffix_refl _
    · exact hd
  | crash s1 _ op _ _ _ hv hs hk hq hp h1 h2 h3 => exact h1
  | off _ _ _ _ hp h1 h2 h3 => exact h1

theorem PSteps.grows (hc : c.Valid) (hJ : NoForgery c) {s s' : S} {evs d evs' d' : List Ev} (h : PSteps c s evs d s' evs' d')
    (hl : PLog c s evs d) : PLog c s' evs' d' ∧ d <:+ d' := by
  induction h with
  | refl => exact ⟨hl, List.suffix_refl _⟩
  | step s1 s2 _ _ _ _ _ _ hs hst ih =>
    obtain ⟨a1, a2⟩ := ih hl
    exact ⟨.step _ _ _ _ _ _ a1 hst, a2.trans (hst.durable_grows (a1.inv hc hJ).2)⟩

/-- C12 (logs): when a sync succeeds, everything done so far must survive, and it is part of the log of every later state,
whatever calls are made and however often the power fails. -/
theorem sync_is_durable (hc : c.Valid) (hJ : NoForgery c) (s s' : S) (evs d : List Ev) (h : PLog c s evs d)
    (hs : step c .sync s = (.ok (), s')) (hx : ¬ Exposed c s ∨ ProgsOk c s.n.time s'.n.time) :
    PLog c s' evs evs ∧ ∀ s2 evs2 d2, PSteps c s' evs evs s2 evs2 d2 → evs <:+ evs2 := by
  have h1 : PLog c s' evs evs := by
    have := PLog.step _ _ _ _ _ _ h (.ok s s' .sync evs d trivial hs trivial hx)
    have hd : s'.j.dirty = false := mapSyncLoop_clean _ _ _ hs
    simp only [Op.entries, List.nil_append, durable, hd] at this
    exact this
  refine ⟨h1, fun s2 evs2 d2 h2 => ?_⟩
  obtain ⟨a, b⟩ := h2.grows hc hJ h1
  exact b.trans (a.inv hc hJ).2

/-! ### C13: a power failure loses at most what was done after the last sync -/

/-- C13: power fails during a call. After power-up the map is usable, and its contents are those of some moment between the last
point from which things must survive and the end of the interrupted call, as if calls after that moment had not been
made; the size is right too. -/
theorem crash_keeps_prefix (hc : c.Valid) (hJ : NoForgery c) (s s' s'' : S) (evs d : List Ev) (h : PLog c s evs d) (op : Op) (hv : op.Valid)
    (hs : step c op s = (.error .powerLoss, s')) (hk : SourceKept c s s' op) (hq : CrashOk c s s')
    (hb : FewBad c s'.n.chip) (hr : ∀ p, p < c.pages → c.env.readFail (s'.n.time + 1) p = false)
    (buf : Buf) (cnt : Nat) (r : Except Err Unit) (he : reboot c buf cnt s' = (r, s'')) :
    ∃ kept, d <:+ kept ∧ kept <:+ op.entries c s evs ++ evs ∧
      (r = .ok () ∨ (r = .error .tooBad ∧ ∀ t, t < NONE → contents kept t = none)) ∧
      (∀ t, t < NONE → Looks c s'' t (contents kept t)) ∧ CountIs (contents kept) (mapSize s'') ∧
      s''.n.ub = false ∧ s''.n.dead = false ∧ PLog c s'' kept kept := by
  obtain ⟨hP, hd⟩ := h.inv hc hJ
  obtain ⟨hub, hD⟩ := step_crash_disk hc hJ hP hv hd hs hk hq hb
  obtain ⟨kept, h1, h2, h3, h4, h5, h6⟩ := power_inv hc hub hD hb hr he
  have hsh := h6.shows hc h4
  refine ⟨kept, h2, h3, h1, hsh.2, h6.cnt.countIs, by rw [h5]; exact hub, by rw [h5], ?_⟩
  exact .step _ _ _ _ _ _ h (.crash s s' s'' op evs d kept hv hs hk hq ⟨hb, hr, buf, cnt, r, he⟩ h2 h3 hsh)

/-- C13, power lost between two calls. -/
theorem power_off_keeps_prefix (hc : c.Valid) (hJ : NoForgery c) (s s' : S) (evs d : List Ev) (h : PLog c s evs d)
    (hb : FewBad c s.n.chip) (hr : ∀ p, p < c.pages → c.env.readFail (s.n.time + 1) p = false)
    (buf : Buf) (cnt : Nat) (r : Except Err Unit) (he : reboot c buf cnt s = (r, s')) :
    ∃ kept, d <:+ kept ∧ kept <:+ evs ∧
      (r = .ok () ∨ (r = .error .tooBad ∧ ∀ t, t < NONE → contents kept t = none)) ∧
      (∀ t, t < NONE → Looks c s' t (contents kept t)) ∧ CountIs (contents kept) (mapSize s') ∧
      s'.n.ub = false ∧ s'.n.dead = false ∧ PLog c s' kept kept := by
  obtain ⟨hP, hd⟩ := h.inv hc hJ
  obtain ⟨hub, hD⟩ := off_disk hc hP hb
  obtain ⟨kept, h1, h2, h3, h4, h5, h6⟩ := power_inv hc hub hD hb hr he
  have hsh := h6.shows hc h4
  refine ⟨kept, h2, h3, h1, hsh.2, h6.cnt.countIs, by rw [h5]; exact hub, by rw [h5], ?_⟩
  exact .step _ _ _ _ _ _ h (.off s s' evs d kept ⟨hb, hr, buf, cnt, r, he⟩ h2 h3 hsh)

/-- C13: a call interrupted when nothing is unsaved is atomic: after power-up the map is as before the call or as after it. -/
theorem crash_is_atomic (hc : c.Valid) (hJ : NoForgery c) (s s' s'' : S) (evs : List Ev) (h : PLog c s evs evs) (op : Op) (hv : op.Valid)
    (hs : step c op s = (.error .powerLoss, s')) (hk : SourceKept c s s' op) (hq : CrashOk c s s')
    (hp : Powered c s' s'') :
    (∀ t, t < NONE → Looks c s'' t (contents evs t)) ∨ (∀ t, t < NONE → Looks c s'' t (contents (op.entries c s evs ++ evs) t)) := by
  obtain ⟨hb, hr, buf, cnt, r, he⟩ := hp
  obtain ⟨kept, h1, h2, _, h3, _⟩ := crash_keeps_prefix hc hJ s s' s'' evs evs h op hv hs hk hq hb hr buf cnt r he
  have hl : (op.entries c s evs).length ≤ 1 := by
    cases op <;> simp only [Op.entries, List.length_cons, List.length_nil, Nat.le_refl, Nat.zero_le]
    split <;> simp
  by_cases hlen : kept.length ≤ evs.length
  · have : kept = evs := (h1.eq_of_length_le hlen).symm
    rw [this] at h3; exact Or.inl h3
  · have : kept = op.entries c s evs ++ evs := h2.eq_of_length_le (by rw [List.length_append]; omega)
    rw [this] at h3; exact Or.inr h3

/-! ### C14: power failures any number of times -/

/-- Contents at `t` are the same wherever the power may throw us back to. -/
def Fixed (t : Nat) (o : Option Buf) (evs d : List Ev) : Prop := ∀ kept, d <:+ kept → kept <:+ evs → contents kept t = o

theorem entries_cases (op : Op) (s : S) (evs kept : List Ev) (h : kept <:+ op.entries c s evs ++ evs) :
    kept = op.entries c s evs ++ evs ∨ kept <:+ evs := by
  have hl : (op.entries c s evs).length ≤ 1 := by
    cases op <;> simp only [Op.entries, List.length_cons, List.length_nil, Nat.le_refl, Nat.zero_le]
    split <;> simp
  by_cases hlen : kept.length ≤ evs.length
  · exact Or.inr (List.suffix_of_suffix_length_le h (List.suffix_append _ _) hlen)
  · exact Or.inl (h.eq_of_length_le (by rw [List.length_append]; omega))

theorem entries_other {op : Op} {t : Nat} (h : ¬ op.touches t) (s : S) (evs : List Ev) :
    contents (op.entries c s evs ++ evs) t = contents evs t := by
  cases op with
  | write dst data => exact if_neg (Ne.symm h)
  | trim t => exact if_neg (Ne.symm h)
  | copyPage p dst => exact if_neg (Ne.symm h)
  | copySector src dst =>
    unfold Op.entries
    simp only
    split
    · exact if_neg (Ne.symm h)
    · exact if_neg (Ne.symm h)
  | clear => exact absurd trivial h
  | sync => rfl
  | gc => rfl

theorem Fixed.entries {t : Nat} {o : Option Buf} {evs d : List Ev} (h : Fixed t o evs d) (hd : d <:+ evs) {op : Op} (hn : ¬ op.touches t) (s : S) :
    Fixed t o (op.entries c s evs ++ evs) d := by
  intro kept h1 h2
  rcases entries_cases op s evs kept h2 with h2 | h2
  · rw [h2, entries_other hn]; exact h _ hd (List.suffix_refl _)
  · exact h _ h1 h2

theorem Fixed.durable {t : Nat} {o : Option Buf} {evs d : List Ev} (h : Fixed t o evs d) (hd : d <:+ evs) (s : S) : Fixed t o evs (durable s evs d) := by
  unfold Dhara.durable; split
  · exact h
  · exact fun kept h1 h2 => h kept (hd.trans h1) h2

theorem Fixed.at {t : Nat} {o : Option Buf} {evs d kept : List Ev} (h : Fixed t o evs d) (h1 : d <:+ kept) (h2 : kept <:+ evs) : Fixed t o kept kept :=
  fun k h3 h4 => h k (h1.trans h3) (h4.trans h2)

/-- Every step can be logged. -/
theorem RStep.log (hc : c.Valid) (hJ : NoForgery c) {s s' : S} {ops : List Op} (h : RStep c s ops s') {evs d : List Ev} (hl : PLog c s evs d) :
    ∃ evs' d', PStep c s evs d s' evs' d' ∧ ∀ t o, (∀ op, op ∈ ops → ¬ op.touches t) → Fixed t o evs d → Fixed t o evs' d' := by
  obtain ⟨hP, hd⟩ := hl.inv hc hJ
  cases h with
  | ok _ op hv hs hk hx =>
    refine ⟨_, _, .ok s s' op evs d hv hs hk hx, fun t o hn hf => ?_⟩
    exact (hf.entries hd (hn op (List.mem_singleton_self _)) s).durable (hd.trans (List.suffix_append _ _)) s'
  | full _ op hv hs hx => exact ⟨_, _, .full s s' op evs d hv hs hx, fun t o _ hf => hf.durable hd s'⟩
  | failed _ op e hv hs hr hq => exact ⟨_, _, .failed s s' op e evs d hv hs hr hq, fun t o _ hf => hf.durable hd s'⟩
  | crash s1 _ op hv hs hk hq hp =>
    obtain ⟨hb, hr, buf, cnt, r, he⟩ := hp
    obtain ⟨kept, h1, h2, _, h3, _⟩ := crash_keeps_prefix hc hJ s s1 s' evs d hl op hv hs hk hq hb hr buf cnt r he
    obtain ⟨hub, hD⟩ := step_crash_disk hc hJ hP hv hd hs hk hq hb
    obtain ⟨_, _, _, _, h5, _⟩ := power_inv hc hub hD hb hr he
    exact ⟨_, _, .crash s s1 s' op evs d kept hv hs hk hq ⟨hb, hr, buf, cnt, r, he⟩ h1 h2 ⟨h5, h3⟩,
      fun t o hn hf => (hf.entries hd (hn op (List.mem_singleton_self _)) s).at h1 h2⟩
  | off _ hp =>
    obtain ⟨hb, hr, buf, cnt, r, he⟩ := hp
    obtain ⟨kept, h1, h2, _, h3, _⟩ := power_off_keeps_prefix hc hJ s s' evs d hl hb hr buf cnt r he
    obtain ⟨hub, hD⟩ := off_disk hc hP hb
    obtain ⟨_, _, _, _, h5, _⟩ := power_inv hc hub hD hb hr he
    exact ⟨_, _, .off s s' evs d kept ⟨hb, hr, buf, cnt, r, he⟩ h1 h2 ⟨h5, h3⟩, fun t o _ hf => hf.at h1 h2⟩

/-- C14: every history with power failures has a log. -/
theorem run_has_log (hc : c.Valid) (hJ : NoForgery c) (s : S) (h : PRun c s) : ∃ evs d, PLog c s evs d := by
  induction h with
  | fresh n buf k s h1 h2 h3 h4 => exact ⟨_, _, .fresh n buf k s h1 h2 h3 h4⟩
  | step s s' ops _ hs ih =>
    obtain ⟨evs, d, hl⟩ := ih
    obtain ⟨evs', d', h1, _⟩ := hs.log hc hJ hl
    exact ⟨_, _, .step _ _ _ _ _ _ hl h1⟩

/-- C14: in every state reached with any number of power failures, reads return what the log says (or E_ECC if the chip fails
a read at that moment), the size is the number of mapped sectors, and the chip was never misused. -/
theorem run_is_dictionary (hc : c.Valid) (hJ : NoForgery c) (s : S) (h : PRun c s) :
    ∃ evs d, PLog c s evs d ∧ s.n.ub = false ∧ s.n.dead = false ∧ CountIs (contents evs) (mapSize s) ∧
      (∀ t, t < NONE → mapRead c s t = .ok ((contents evs t).getD c.blank) ∨
        (mapRead c s t = .error .ecc ∧ ∃ p, p < c.pages ∧ c.env.readFail s.n.time p = true)) ∧
      (ReadsOk c s → ∀ t, t < NONE → Looks c s t (contents evs t)) := by
  obtain ⟨evs, d, hl⟩ := run_has_log hc hJ s h
  obtain ⟨hP, _⟩ := hl.inv hc hJ
  obtain ⟨vts, vt, vh, vr, g, _⟩ := hP.ex
  exact ⟨evs, d, hl, g.noub, g.alive, hP.cnt.countIs, fun t ht => mapRead_exact hc hP.calm ht, fun hr t ht => hP.calm.looks hc hr ht⟩

/-- C14: a call in such a state never misuses the chip, and if it is not cut short by a power failure it succeeds, or is refused
because the map is full, or reports an error of the chip; when it succeeds or is refused, the history goes on. -/
theorem run_call (hc : c.Valid) (hJ : NoForgery c) (s s' : S) (r : Except Err Unit) (evs d : List Ev) (h : PLog c s evs d) (op : Op) (hv : op.Valid)
    (hs : step c op s = (r, s')) (hx : ¬ Exposed c s ∨ ProgsOk c s.n.time s'.n.time) :
    s'.n.ub = false ∧ (r = .error .mapFull → mapCapacity c s' ≤ mapSize s') := by
  obtain ⟨hP, hd⟩ := h.inv hc hJ
  have key := (pstep hc hJ hP op hv hd (by rw [hs]; exact hx)).1
  rw [hs] at key
  cases key with
  | ok _ _ h1 _ _ => exact ⟨h1.calm.noub, fun h => by cases h⟩
  | full _ h1 h2 _ => exact ⟨h1.calm.noub, fun _ => h2⟩
  | stop _ _ he hub _ => exact ⟨hub, fun h => absurd (Except.error.inj h) he⟩

/-- C12 (no logs): a sector that was synced and not written, copied to, trimmed or cleared since looks the same in every later
state, whatever other calls were made or interrupted and however often power failed. -/
theorem synced_sector_survives (hc : c.Valid) (hJ : NoForgery c) (s s1 s2 : S) (h : PRun c s) (hs : step c .sync s = (.ok (), s1))
    (hx : ¬ Exposed c s ∨ ProgsOk c s.n.time s1.n.time) (ops : List Op) (hr : RSteps c s1 ops s2) (t : Nat) (ht : t < NONE)
    (hn : ∀ op, op ∈ ops → ¬ op.touches t) (hr2 : ReadsOk c s2) (o : Option Buf) (hl : Looks c s1 t o) :
    Looks c s2 t o := by
  obtain ⟨evs, d, hl0⟩ := run_has_log hc hJ s h
  obtain ⟨hl1, _⟩ := sync_is_durable hc hJ s s1 evs d hl0 hs hx
  have ho : contents evs t = o := (hl1.inv hc hJ).1.calm.of_looks hc ht hl
  suffices ∃ evs2 d2, PLog c s2 evs2 d2 ∧ Fixed t o evs2 d2 by
    obtain ⟨evs2, d2, h1, h2⟩ := this
    obtain ⟨hP, hd⟩ := h1.inv hc hJ
    rw [← h2 evs2 hd (List.suffix_refl _)]
    exact hP.calm.looks hc hr2 ht
  clear hr2
  induction hr with
  | refl =>
    refine ⟨evs, evs, hl1, fun kept h1 h2 => ?_⟩
    rw [h2.eq_of_length_le h1.length_le]; exact ho
  | step s2 s3 ops ops' _ hst ih =>
    obtain ⟨evs2, d2, h1, h2⟩ := ih (fun op h => hn op (List.mem_append_right _ h))
    obtain ⟨evs3, d3, h3, h4⟩ := hst.log hc hJ h1
    exact ⟨evs3, d3, .step _ _ _ _ _ _ h1 h3, h4 t o (fun op h => hn op (List.mem_append_left _ h)) h2⟩

/-! ### C43: resume finds the newest checkpoint -/

/-- When no read fails, find reports what the tree says. -/
theorem mapFind_dict (hc : c.Valid) {s : S} {σ : Nat → Option Buf} {T : Gh c} {vts vt vh vr : Nat} (hI : Inv0 c s σ T vts vt vh vr)
    (hr : ReadsOk c s) {t : Nat} (ht : t < NONE) :
    mapFind c s t = match dict (mtOf c s) s.j.root t with | some q => .ok q | none => .error .notFound := by
  have htr := hI.trace hc ht freshMeta
  have hx := mapFind_exact hc ⟨_, _, _, _, hI⟩ ht
  have hne : mapFind c s t ≠ .error .ecc := by
    intro h
    rcases hx with ⟨_, _, h1, _⟩ | ⟨h1, _⟩ | ⟨_, p, h1, h2⟩
    · rw [h] at h1; cases h1
    · rw [h] at h1; cases h1
    · rw [hr p h1] at h2; cases h2
  unfold mapFind at hne ⊢
  rcases hp : tracePath c s t freshMeta with ⟨e | q, nm⟩
  · rw [hp] at htr hne
    cases e
    case notFound => rw [htr.1]
    all_goals exact absurd (congrArg Except.error htr) hne
  · rw [hp] at htr; rw [htr.1]

/-- In a clean state everything must survive. -/
theorem PLog.clean {s : S} {evs d : List Ev} (h : PLog c s evs d) (hd : s.j.dirty = false) : d = evs := by
  cases h with
  | fresh => rfl
  | step s0 _ evs0 d0 _ _ _ hs =>
    cases hs with
    | ok _ op _ _ hv hs hk hst => unfold durable; rw [hd]; rfl
    | full _ op _ _ hv hs hst => unfold durable; rw [hd]; rfl
    | failed _ op e _ _ hv hs hr hq => unfold durable; rw [hd]; rfl
    | crash s1 _ op _ _ _ hv hs hk hq hp h1 h2 h3 => rfl
    | off _ _ _ _ hp h1 h2 h3 => rfl

/-- C43: power lost while the journal is clean (for instance, just after a sync). Resume finds the checkpoint that made it clean:
every sector is at the very page it was at, and the size is the same. -/
theorem clean_power_cycle (hc : c.Valid) (hJ : NoForgery c) (s s' : S) (evs d : List Ev) (h : PLog c s evs d) (hcl : s.j.dirty = false)
    (hb : FewBad c s.n.chip) (hr0 : ReadsOk c s) (hr : ∀ p, p < c.pages → c.env.readFail (s.n.time + 1) p = false)
    (buf : Buf) (cnt : Nat) (r : Except Err Unit) (he : reboot c buf cnt s = (r, s')) :
    (∀ t, t < NONE → mapFind c s' t = mapFind c s t ∧ mapRead c s' t = mapRead c s t) ∧ mapSize s' = mapSize s ∧
      (s.j.root ≠ NONE → r = .ok () ∧ s'.j.root = s.j.root) := by
  have hde := h.clean hcl
  subst hde
  obtain ⟨hP, _⟩ := h.inv hc hJ
  obtain ⟨hub, hD⟩ := off_disk hc hP hb
  obtain ⟨kept, _, k1, k2, hr1, hn, hP'⟩ := power_inv hc hub hD hb hr he
  have hk : kept = d := k2.eq_of_length_le k1.length_le
  subst hk
  have hsz : mapSize s' = mapSize s := hP'.cnt.unique hP.cnt
  have hlk := fun t ht => hP.calm.looks hc hr0 (t := t) ht
  have hlk' := fun t ht => hP'.calm.looks hc hr1 (t := t) ht
  have hrd : ∀ t, t < NONE → mapRead c s' t = mapRead c s t := by
    intro t ht
    have a := hlk t ht; have b := hlk' t ht
    cases hct : contents kept t with
    | none => rw [hct] at a b; rw [a.2, b.2]
    | some v => rw [hct] at a b; rw [a.2, b.2]
  have hmf : ∀ t, t < NONE → contents kept t = none → mapFind c s' t = mapFind c s t := by
    intro t ht hct
    have a := hlk t ht; have b := hlk' t ht
    rw [hct] at a b; rw [a.1, b.1]
  obtain ⟨⟨vts, vt, vh, vr, g, hcalm, hT, hN, hR⟩, hcnt⟩ := hP
  obtain ⟨B, hf, hk⟩ := hN.2 (SparseBad.two hc hb)
  have hroot0 : s.j.root = NONE → ∀ t, t < NONE → contents kept t = none := by
    intro h t ht
    refine hT.emp t ht ?_
    rw [h]; exact dict_none rfl _
  have hempty : s.j.root = NONE → (∀ t, t < NONE → mapFind c s' t = mapFind c s t ∧ mapRead c s' t = mapRead c s t) ∧ mapSize s' = mapSize s ∧
      (s.j.root ≠ NONE → r = .ok () ∧ s'.j.root = s.j.root) := fun h0 =>
    ⟨fun t ht => ⟨hmf t ht (hroot0 h0 t ht), hrd t ht⟩, hsz, fun h => absurd h0 h⟩
  rcases hk with ⟨_, _, hz⟩ | ⟨vL, vtc, σp, k, hB, hL, hw, hclean⟩
  · exact hempty (hz hcl)
  obtain ⟨a1, a2, a3⟩ := hclean hcl
  obtain ⟨γ, hL1, hCG⟩ := lps_off hc g hL
  have hep := hf.ep
  rw [hB] at hep
  obtain ⟨j', vt', vh', h1, h2, h3, _⟩ := resume_ok hc (n := { s.n with time := s.n.time + 1, dead := false }) hr hb hep hL1.toLP0 hCG (journalInit c buf)
  have he' : mapResume c ⟨journalInit c buf, { s.n with time := s.n.time + 1, dead := false }, cnt⟩ = (r, s') := he
  have hk : ckGetCount j' = k := h2.ck
  unfold mapResume at he'
  simp only [h1, hk] at he'
  obtain ⟨rfl, rfl⟩ := Prod.mk.inj he'
  obtain ⟨b1, b2, b3, b4, b5, b6, b7⟩ := resumed_inv hc (s := ⟨j', { s.n with time := s.n.time + 1, dead := false }, k⟩) h2 h3 hep hL1 rfl hub
  have hI : Inv0 c s (contents kept) (Gh.triv c 0) vts vt vh vr :=
    ⟨g, hcalm, hT, Or.inr fun t _ h => absurd h (Nat.not_lt_zero _), trivial⟩
  have hI' : Inv0 c ⟨j', { s.n with time := s.n.time + 1, dead := false }, k⟩ σp (Gh.triv c 0) vt' vt' vh' vL :=
    ⟨b1, b2, b3, Or.inr fun t _ h => absurd h (Nat.not_lt_zero _), trivial⟩
  have hroot : j'.root = s.j.root := by rw [h2.root, a1]
  refine ⟨fun t ht => ⟨?_, hrd t ht⟩, hsz, fun _ => ⟨rfl, hroot⟩⟩
  rw [mapFind_dict hc hI hr0 ht, mapFind_dict hc hI' hr1 ht]
  have e1 := (tree_frame hL.pt.ok a3).2.1 t
  have hc' := b6 h2.dirty
  have e2 : dict (mtOf c ⟨j', { s.n with time := s.n.time + 1, dead := false }, k⟩) j'.root t = dict (mtC c s.n.chip) (c.ph vL) t := by
    rw [h2.root]; exact (tree_frame hL.pt.ok hc'.2.2).2.1 t
  have e3 : dict (mtOf c ⟨j', { s.n with time := s.n.time + 1, dead := false }, k⟩) (S.j ⟨j', { s.n with time := s.n.time + 1, dead := false }, k⟩).root t =
      dict (mtOf c s) s.j.root t := by rw [a1]; exact e2.trans e1.symm
  rw [e3]

/-! ### When the precondition about `Exposed` can matter -/

/-- The hook that the root's metadata stays in the buffer. -/
def Gh.stab (c : Cfg) (t : Nat) (Q : Chip → Prop) : Gh c :=
  ⟨t, fun _ _ _ => True, fun s _ _ vh vr => Stable c s vr vh ∨ Q s.n.chip, fun _ _ _ _ _ _ => True, fun _ => True, fun _ _ _ => True⟩

theorem Gh.stab_ok (hc : c.Valid) {t : Nat} {Q : Chip → Prop} : (Gh.stab c t Q).Ok where
  upow := trivial
  usoft := fun _ _ _ _ _ => trivial
  unoisy := fun _ _ _ _ => trivial
  uhard := fun _ _ _ _ => trivial
  ustuck := fun _ _ _ _ _ _ _ => trivial
  ucong := fun _ _ _ => trivial
  udiv := Or.inl fun _ _ => trivial
  soft := by
    intro s s' σ vts vt vh vr vq hI h hE _
    obtain ⟨d, x, y, hj⟩ := h.jh.1
    have hroot : s'.j.root = s.j.root := by rw [hj]; rfl
    have hal : vq % c.ppb = 0 → Stable c s' vr vq := fun e h1 _ =>
      absurd (Nat.mod_eq_zero_of_dvd (Nat.dvd_trans hc.ppc_dvd (Nat.dvd_of_mod_eq_zero e))) h1
    rcases h.mv with e | ⟨_, e⟩
    · rcases h.fresh with f | ⟨f, _⟩
      · rcases hI.ext with h' | h'
        · left; intro h1 h2; rw [e] at h1 ⊢; rw [hroot] at h2; exact h' h1 h2
        · right; rw [f]; exact h'
      · exact Or.inl (hal (by rw [e]; exact f))
    · exact Or.inl (hal e)
  wmono := fun _ _ => trivial
  cong0 := by
    intro s s' vts vt vh vr h hn _ hr _
    simp only [Gh.stab, Stable] at h ⊢
    rw [hn, hr]; exact h
  cong1 := fun _ _ _ => trivial
  tick := fun h => h
  congX := fun _ _ _ => trivial
  push0 := fun hI ho _ _ _ _ _ => Or.inl (stable_after hc ho.uq)
  erase := fun _ _ _ _ _ => trivial
  page := fun _ _ _ _ _ _ _ _ _ => trivial
  twin := fun _ _ _ _ _ _ _ _ _ _ => trivial
  noisy := fun _ _ _ _ _ => trivial
  skip := fun _ _ _ _ _ _ => trivial
  start := fun _ _ _ _ _ _ => trivial
  rok := fun _ _ _ _ _ => trivial
  done := fun hI ho _ _ _ _ _ _ => Or.inl (stable_after hc ho.uq)
  again := fun _ _ _ _ => trivial
  crash1 := fun _ _ _ _ => trivial
  tail := by
    intro s s' σ vts vt vh vr vts' vt' hI hn _ _ hr _ _ _ _
    rcases hr with hr | hr
    · rcases hI.ext with h | h
      · exact Or.inl fun h1 h2 => h h1 (by rw [← hr]; exact h2)
      · exact Or.inr (by rw [hn]; exact h)
    · exact Or.inl fun _ h2 => absurd hr.1 h2
  clear := fun _ _ _ hr => Or.inl fun _ h2 => absurd hr h2

theorem exposed_of {s : S} {vts vt vh vr : Nat} {σ : Nat → Option Buf} (hc : c.Valid) (g : Geo c s vts vt vh)
    (hT : Tr c s s.j.root vt vr vh σ) (h : Stable c s vr vh) : ¬ Exposed c s := by
  rintro ⟨h1, h2, h3⟩
  rw [g.eh, ph_mod_ppc hc] at h2
  have := h h2 h1
  rcases hT.rt with h4 | ⟨h4, _⟩
  · exact h1 h4
  · apply h3
    rw [g.eh, h4, ph_div_ppc hc, ph_div_ppc hc]
    rw [this]

/-- A call that succeeds, is refused, or reports an error although no program or erase operation failed leaves the map exposed to C45 only if it was so before and the call wrote nothing. -/
theorem exposed_only_after_power_up (hc : c.Valid) (hJ : NoForgery c) (s s' : S) (r : Except Err Unit) (evs d : List Ev) (h : PLog c s evs d)
    (op : Op) (hv : op.Valid) (hs : step c op s = (r, s')) 
    (hr : r = .ok () ∨ r = .error .mapFull ∨ ∃ e, r = .error e ∧ e.Reported ∧ Quiet c s.n.time s'.n.time)
    (hx : ¬ Exposed c s ∨ ProgsOk c s.n.time s'.n.time) (he : Exposed c s') : Exposed c s ∧ s'.n.chip = s.n.chip := by
  obtain ⟨⟨⟨vts, vt, vh, vr, g, hcalm, hT, hD, hR⟩, hcnt⟩, hd⟩ := h.inv hc hJ
  have hG : (Gh.stab c s'.n.time (fun ch => Exposed c s ∧ ch = s.n.chip)).Ok := Gh.stab_ok hc
  have hI : Inv0 c s (contents evs) (Gh.stab c s'.n.time (fun ch => Exposed c s ∧ ch = s.n.chip)) vts vt vh vr := by
    refine ⟨g, hcalm, hT, ?_, ?_⟩
    · rcases hx with h | h
      · exact Or.inl (not_exposed hc g hT h)
      · exact Or.inr h
    · by_cases h : Exposed c s
      · exact Or.inr ⟨h, rfl⟩
      · exact Or.inl (not_exposed hc g hT h)
  have key := call_inv hc hG op (MInv.tick hG ⟨⟨_, _, _, _, hI⟩, hcnt⟩) hv trivial (fun _ _ _ _ _ _ _ => trivial) (fun _ _ _ => Or.inr fun _ _ => trivial)
    (by rw [show call c op (tick s) = step c op s from rfl, hs]; exact Nat.le_refl _)
  rw [show call c op (tick s) = step c op s from rfl, hs] at key
  have fin : ∀ σ', MInv c s' σ' (Gh.stab c s'.n.time (fun ch => Exposed c s ∧ ch = s.n.chip)) → Exposed c s ∧ s'.n.chip = s.n.chip := by
    rintro σ' ⟨⟨a1, a2, a3, a4, hI'⟩, _⟩
    rcases hI'.ext with h | h
    · exact absurd he (exposed_of hc hI'.geo hI'.tr h)
    · exact h
  cases key with
  | ok _ σ' h1 _ _ => exact fin _ h1
  | full _ h1 _ _ => exact fin _ h1
  | stop _ _ h1 _ _ _ =>
    rcases hr with h | h | ⟨e, h, hrp, hq⟩
    · cases h
    · exact absurd (Except.error.inj h) h1
    · cases h
      exact fin _ (call_failed hc hG op (MInv.tick hG ⟨⟨_, _, _, _, hI⟩, hcnt⟩) hv trivial (fun _ _ _ _ _ _ _ => trivial) (fun _ _ _ => Or.inr fun _ _ => trivial)
        hs (Nat.le_refl _) hrp.1 hrp.2.1 hrp.2.2 (hq.noisy (Nat.le_succ _)))

/-- The first power-up does not expose the map. -/
theorem fresh_not_exposed (n : Nand) (buf : Buf) (k : Nat) (s : S)
    (h : mapResume c (mapInit c buf k n) = (.error .tooBad, s)) : ¬ Exposed c s := by
  unfold mapResume at h
  rcases hr : journalResume c (mapInit c buf k n).n (mapInit c buf k n).j with ⟨e | u, j⟩
  · rw [hr] at h
    simp only at h
    cases h
    obtain ⟨j0, hj⟩ := resume_tooBad hr
    intro h
    refine h.1 ?_
    show j.root = NONE
    rw [hj]; rfl
  · rw [hr] at h; cases h

end Dhara

/-
Histories with power failures: the invariant and its preservation.
-/
import Verif.Proofs.Resume3
import Verif.Props.CrashSpec
import Verif.Props.Map
namespace Dhara

variable {c : Cfg}

/-- Contents that may be found on the chip. -/
def Kept (evs d : List Ev) (σ : Nat → Option Buf) : Prop :=
  ∃ kept, d <:+ kept ∧ kept <:+ evs ∧ ∀ t, t < NONE → σ t = contents kept t

/-- The same as a claim for the hook. -/
def WK (evs d : List Ev) : Wt := fun σ k _ => Cnt σ k ∧ Kept evs d σ

/-- The invariant of histories with power failures. -/
structure PInv (c : Cfg) (s : S) (σ : Nat → Option Buf) (W : Wt) : Prop where
  ex : ∃ vts vt vh vr, Geo c s vts vt vh ∧ Calm s ∧ Tr c s s.j.root vt vr vh σ ∧ DNorm c 0 W s vts vh vr ∧ RootBlk c s vh vr
  cnt : Cnt σ s.count

theorem DNorm.mono {t0 t0' : Nat} {W W' : Wt} {s : S} {vts vh vr vt : Nat} {σ : Nat → Option Buf} (h : DNorm c t0 W s vts vh vr)
    (hT : Tr c s s.j.root vt vr vh σ) (ht : t0' ≤ s.n.time)
    (hW : ∀ σp k, W σp k s.n → (s.j.dirty = false → ∀ t, t < NONE → σp t = σ t) → W' σp k s.n) :
    DNorm c t0' W' s vts vh vr := by
  refine ⟨ht, fun hg => ?_⟩
  have h0 : s.j.root = NONE → ∀ t, t < NONE → σ t = none := by
    intro hr t ht
    refine hT.emp t ht ?_
    rw [hr]; exact dict_none rfl _
  obtain ⟨B, hf, hk⟩ := h.2 hg
  refine ⟨B, hf, ?_⟩
  rcases hk with ⟨e, hw, hz⟩ | ⟨vL, vtc, σp, k, hB, hL, hw, hcl⟩
  · exact Or.inl ⟨e, hW _ _ hw (fun hd t ht => (h0 (hz hd) t ht).symm), hz⟩
  · refine Or.inr ⟨vL, vtc, σp, k, hB, hL, hW _ _ hw ?_, hcl⟩
    intro hd t ht
    obtain ⟨a1, a2, a3⟩ := hcl hd
    · obtain ⟨t1, t2, t3⟩ := tree_frame hL.pt.ok a3
      rw [a1] at hT
      cases hq : dict (mtC c s.n.chip) (c.ph vL) t with
      | none => rw [hL.pt.emp t ht hq, hT.emp t ht (by rw [t2]; exact hq)]
      | some q =>
        obtain ⟨b, b1, _, b2⟩ := hL.pt.holds t q ht hq
        obtain ⟨b', b1', _, b2'⟩ := hT.holds t q ht (by rw [t2]; exact hq)
        rw [b1] at b1'; cases b1'
        rw [b2, b2']

theorem not_exposed (hc : c.Valid) {s : S} {vts vt vh vr : Nat} {σ : Nat → Option Buf} (g : Geo c s vts vt vh)
    (hT : Tr c s s.j.root vt vr vh σ) (h : ¬ Exposed c s) : Stable c s vr vh := by
  intro hv hr
  rcases hT.rt with h1 | ⟨h1, h2, h3, h4⟩
  · exact absurd h1 hr
  · apply Classical.byContradiction
    intro hne
    refine h ⟨hr, ?_, ?_⟩
    · rw [g.eh, ph_mod_ppc hc]; exact hv
    · intro he
      rw [g.eh, h1] at he
      have := g.l1
      exact hne (g.win.grp_inj hc (by omega) (by omega) (by have := g.l2; omega) (Nat.le_refl _) he.symm)

/-- What may be found on the chip during a call. -/
def WC (c : Cfg) (op : Op) (s : S) (evs d : List Ev) : Wt := fun σ' k n => Cnt σ' k ∧
  (Kept evs d σ' ∨ (Goes (step c op s).1 ∧ ∃ n0, Evo c (tick s).n n0 ∧ Evo c n0 n ∧
    (n0.ub = false → Effect c (tick s) { tick s with n := n0 } (contents evs) σ' op)))

theorem effect_congr {s s1 s2 : S} {σ σ' : Nat → Option Buf} {op : Op} (h : Effect c s s1 σ σ' op) (hn : s1.n = s2.n) :
    Effect c s s2 σ σ' op := by
  cases op <;> simp only [Effect] at h ⊢ <;> first | exact h | (rw [← hn]; exact h)

theorem wc_mono {op : Op} {s : S} {evs d : List Ev} : ∀ σ k n n', WC c op s evs d σ k n → Evo c n n' → WC c op s evs d σ k n' := by
  intro σ k n n' ⟨h1, h2⟩ hE
  refine ⟨h1, ?_⟩
  rcases h2 with h2 | ⟨h2, n0, h3, h4, h5⟩
  · exact Or.inl h2
  · exact Or.inr ⟨h2, n0, h3, h4.trans hE, h5⟩

theorem undist_mid {s : S} {n0 n' : Nand} {p : Nat} (e1 : Evo c (tick s).n n0) (e2 : Evo c n0 n') (h : Undisturbed c s.n n' p) :
    Undisturbed c (tick s).n n0 p := by
  refine ⟨h.1, ?_⟩
  have h1 := e1.erases (p / c.ppb)
  have h2 := e2.erases (p / c.ppb)
  have h3 := h.2
  have h4 : (tick s).n.erases = s.n.erases := rfl
  rw [h4] at h1 ⊢
  omega

/-- A call that is not refused because of a failing read has found its source. -/
def Sourced (c : Cfg) (s : S) (evs : List Ev) : Op → Prop
  | .copySector src _ => ∀ b, contents evs src = some b → ∃ p, mapFind c (tick s) src = .ok p
  | _ => True

theorem sourced (hc : c.Valid) {s : S} {evs : List Ev} {op : Op} {T : Gh c} (h : Calm0 c (tick s) (contents evs) T) (hv : op.Valid)
    (hr : (step c op s).1 ≠ .error .ecc) : Sourced c s evs op := by
  cases op with
  | copySector src dst =>
    intro b hb
    rcases mapFind_exact hc h hv.1 with ⟨q, _, h1, _⟩ | ⟨_, h2⟩ | ⟨h1, _⟩
    · exact ⟨q, h1⟩
    · rw [hb] at h2; cases h2
    · exfalso; apply hr
      show (mapCopySector c src dst (tick s)).1 = _
      unfold mapCopySector; rw [h1]
  | _ => exact trivial

theorem effect_entries {s s' : S} {n0 : Nand} {evs : List Ev} {σ' : Nat → Option Buf} {op : Op} (hk : SourceKept c s s' op) (hf : Sourced c s evs op)
    (e1 : Evo c (tick s).n n0) (e2 : Evo c n0 s'.n) (h : Effect c (tick s) { tick s with n := n0 } (contents evs) σ' op) :
    σ' = contents (op.entries c s evs ++ evs) := by
  cases op with
  | write dst data => exact h
  | trim t => exact h
  | clear => exact h
  | sync => exact h
  | gc => exact h
  | copyPage p dst =>
    obtain ⟨b, h1, h2⟩ := h
    obtain ⟨k1, k2⟩ := hk
    cases hp : s.n.chip.page p with
    | none => exact absurd hp k1
    | some b0 =>
      have := h2 b0 hp (undist_mid e1 e2 k2)
      simp only [Op.entries, hp, Option.getD_some]
      rw [h1, this]; rfl
  | copySector src dst =>
    obtain ⟨h1, h2⟩ := h
    cases hs : contents evs src with
    | none => simp only [Op.entries, hs]; exact h1 hs
    | some b =>
      obtain ⟨b', h3, h4⟩ := h2 b hs
      simp only [Op.entries, hs]
      obtain ⟨p, hp⟩ := hf b hs
      rw [h3, h4 p hp (undist_mid e1 e2 (hk p hp))]; rfl

theorem pstep (hc : c.Valid) (hJ : JunkOk c) {s : S} {evs d : List Ev} (hP : PInv c s (contents evs) (WK evs d)) (op : Op)
    (hv : op.Valid) (hd : d <:+ evs) (hst : ¬ Exposed c s ∨ ProgsOk c s.n.time (step c op s).2.n.time) :
    COut c (tick s) (contents evs) (Gh.disk c (step c op s).2.n.time (s.n.time + 1) (WC c op s evs d)) op (step c op s) ∧
    ∀ e s', step c op s = (.error e, s') → e ≠ .powerLoss → e ≠ .ub → e ≠ .diverge → ¬ Noisy c (s.n.time + 1) s'.n.time →
      MInv c s' (contents evs) (Gh.disk c (step c op s).2.n.time (s.n.time + 1) (WC c op s evs d)) := by
  obtain ⟨⟨vts, vt, vh, vr, g, hcalm, hT, hD, hR⟩, hcnt⟩ := hP
  have hG := disk_ok hc hJ (t := (step c op s).2.n.time) (t0 := s.n.time) (wc_mono (c := c) (op := op) (s := s) (evs := evs) (d := d))
  have hG' := disk_ok hc hJ (t := (step c op s).2.n.time) (t0 := s.n.time + 1) (wc_mono (c := c) (op := op) (s := s) (evs := evs) (d := d))
  have hlt := hcnt.lt
  have hI : Inv0 c s (contents evs) (Gh.disk c (step c op s).2.n.time s.n.time (WC c op s evs d)) vts vt vh vr := by
    refine ⟨g, hcalm, hT, ?_, hD.mono hT (Nat.le_refl _) ?_, hR⟩
    · rcases hst with h | h
      · exact Or.inl (not_exposed hc g hT h)
      · exact Or.inr h
    · intro σp k hw _
      exact ⟨hw.1, Or.inl hw.2⟩
  have hM : MInv c (tick s) (contents evs) (Gh.disk c (step c op s).2.n.time (s.n.time + 1) (WC c op s evs d)) := by
    refine (MInv.tick hG ⟨⟨_, _, _, _, hI⟩, hcnt⟩).congr_T (Nat.le_refl _) ?_
    intro a1 a2 a3 a4 ⟨h1, h2⟩
    exact ⟨⟨Nat.le_refl _, h1.2⟩, h2⟩
  have hW0 : WC c op s evs d (contents evs) (s.count % 2 ^ 32) (tick s).n := by
    refine ⟨?_, Or.inl ⟨evs, hd, List.suffix_refl _, fun _ _ => rfl⟩⟩
    rw [Nat.mod_eq_of_lt hlt]; exact hcnt
  have hW1 : Goes (call c op (tick s)).1 → ∀ (s' : S) (σ' : Nat → Option Buf) (k : Nat), Evo c (tick s).n s'.n →
      (s'.n.ub = false → Effect c (tick s) s' (contents evs) σ' op) → Cnt σ' k → WC c op s evs d σ' (k % 2 ^ 32) s'.n := by
    intro hne s' σ' k hE hef hk
    refine ⟨?_, Or.inr ⟨hne, s'.n, hE, Evo.refl _, fun hub => effect_congr (hef hub) rfl⟩⟩
    rw [Nat.mod_eq_of_lt hk.lt]; exact hk
  refine ⟨call_inv hc hG' op hM hv hW0 hW1 (fun _ _ _ => Or.inr fun _ _ => trivial) (Nat.le_refl _), ?_⟩
  intro e s' hs h1 h2 h3 hq
  exact call_failed hc hG' op hM hv hW0 hW1 (fun _ _ _ => Or.inr fun _ _ => trivial) hs (by rw [hs]; exact Nat.le_refl _) h1 h2 h3 hq

theorem PInv.calm {s : S} {σ : Nat → Option Buf} {W : Wt} (h : PInv c s σ W) : Calm0 c s σ (Gh.triv c 0) := by
  obtain ⟨⟨vts, vt, vh, vr, g, hcalm, hT, _, _⟩, _⟩ := h
  exact ⟨vts, vt, vh, vr, g, hcalm, hT, Or.inr fun t _ h => absurd h (Nat.not_lt_zero _), trivial⟩

theorem PInv.tick {s : S} {σ : Nat → Option Buf} {W : Wt} (h : PInv c s σ W) : Calm0 c (tick s) σ (Gh.triv c 0) :=
  (MInv.tick Gh.triv_ok ⟨h.calm, h.cnt⟩).calm

theorem wc_final {op : Op} {s s' : S} {evs d : List Ev} {σp : Nat → Option Buf} {k : Nat} (hk : SourceKept c s s' op)
    (hf : Sourced c s evs op) (hub : s'.n.ub = false) (h : WC c op s evs d σp k s'.n) (hd : d <:+ evs) :
    Kept (op.entries c s evs ++ evs) d σp := by
  rcases h.2 with ⟨kept, h1, h2, h3⟩ | ⟨_, n0, e1, e2, h3⟩
  · exact ⟨kept, h1, h2.trans (List.suffix_append _ _), h3⟩
  · have hub0 : n0.ub = false := by
      cases hh : n0.ub with
      | false => rfl
      | true => rw [e2.ub hh] at hub; cases hub
    have := effect_entries hk hf e1 e2 (h3 hub0)
    exact ⟨_, hd.trans (List.suffix_append _ _), List.suffix_refl _, fun t _ => by rw [this]⟩

theorem step_ok_inv (hc : c.Valid) (hJ : JunkOk c) {s s' : S} {evs d : List Ev} (hP : PInv c s (contents evs) (WK evs d)) {op : Op}
    (hv : op.Valid) (hd : d <:+ evs) (hs : step c op s = (.ok (), s')) (hk : SourceKept c s s' op)
    (hst : ¬ Exposed c s ∨ ProgsOk c s.n.time s'.n.time) :
    PInv c s' (contents (op.entries c s evs ++ evs)) (WK (op.entries c s evs ++ evs) (durable s' (op.entries c s evs ++ evs) d)) := by
  have hf := sourced hc hP.tick hv (by rw [hs]; intro h; cases h)
  have key := (pstep hc hJ hP op hv hd (by rw [hs]; exact hst)).1
  rw [hs] at key
  cases key with
  | ok _ σ' h he _ =>
    have hub := h.calm.noub
    obtain ⟨⟨vts, vt, vh, vr, hI⟩, hcnt⟩ := h
    have hE : Evo c (tick s).n s'.n := by
      have := call_evo (c := c) op (tick s)
      rw [show call c op (tick s) = step c op s from rfl, hs] at this
      exact this
    have hσ := effect_entries hk hf hE (Evo.refl _) (effect_congr (s2 := { tick s with n := s'.n }) he rfl)
    rw [hσ] at hI hcnt
    refine ⟨⟨vts, vt, vh, vr, hI.geo, hI.calm, hI.tr, hI.ext.1.mono hI.tr (Nat.zero_le _) ?_, hI.ext.2⟩, hcnt⟩
    intro σp k hw hcl
    refine ⟨hw.1, ?_⟩
    unfold durable
    split
    · exact wc_final hk hf hub hw hd
    · rename_i hdd
      exact ⟨_, List.suffix_refl _, List.suffix_refl _, hcl (by simpa using hdd)⟩

theorem step_full_inv (hc : c.Valid) (hJ : JunkOk c) {s s' : S} {evs d : List Ev} (hP : PInv c s (contents evs) (WK evs d)) {op : Op}
    (hv : op.Valid) (hd : d <:+ evs) (hs : step c op s = (.error .mapFull, s'))
    (hst : ¬ Exposed c s ∨ ProgsOk c s.n.time s'.n.time) :
    PInv c s' (contents evs) (WK evs (durable s' evs d)) := by
  have key := (pstep hc hJ hP op hv hd (by rw [hs]; exact hst)).1
  rw [hs] at key
  cases key with
  | stop _ _ he => exact absurd rfl he
  | full _ h _ _ =>
    obtain ⟨⟨vts, vt, vh, vr, hI⟩, hcnt⟩ := h
    refine ⟨⟨vts, vt, vh, vr, hI.geo, hI.calm, hI.tr, hI.ext.1.mono hI.tr (Nat.zero_le _) ?_, hI.ext.2⟩, hcnt⟩
    intro σp k hw hcl
    refine ⟨hw.1, ?_⟩
    unfold durable
    split
    · rcases hw.2 with h | ⟨h, _⟩
      · exact h
      · rw [hs] at h; rcases h with h | h <;> cases h
    · rename_i hdd
      exact ⟨_, List.suffix_refl _, List.suffix_refl _, hcl (by simpa using hdd)⟩

theorem step_failed_inv (hc : c.Valid) (hJ : JunkOk c) {s s' : S} {evs d : List Ev} (hP : PInv c s (contents evs) (WK evs d)) {op : Op}
    (hv : op.Valid) (hd : d <:+ evs) {e : Err} (hs : step c op s = (.error e, s')) (hr : e.Reported)
    (hq : Quiet c s.n.time s'.n.time) : PInv c s' (contents evs) (WK evs (durable s' evs d)) := by
  have key := (pstep hc hJ hP op hv hd (Or.inr (by rw [hs]; exact fun t h1 h2 => (hq t h1 h2).1))).2 e s' hs hr.1 hr.2.1 hr.2.2
    (hq.noisy (Nat.le_succ _))
  obtain ⟨⟨vts, vt, vh, vr, hI⟩, hcnt⟩ := key
  refine ⟨⟨vts, vt, vh, vr, hI.geo, hI.calm, hI.tr, hI.ext.1.mono hI.tr (Nat.zero_le _) ?_, hI.ext.2⟩, hcnt⟩
  intro σp k hw hcl
  refine ⟨hw.1, ?_⟩
  unfold durable
  split
  · rcases hw.2 with h | ⟨h, _⟩
    · exact h
    · rw [hs] at h
      rcases h with h | h <;> cases h
      exact absurd rfl hr.1
  · rename_i hdd
    exact ⟨_, List.suffix_refl _, List.suffix_refl _, hcl (by simpa using hdd)⟩

theorem step_crash_disk (hc : c.Valid) (hJ : JunkOk c) {s s' : S} {evs d : List Ev} (hP : PInv c s (contents evs) (WK evs d)) {op : Op}
    (hv : op.Valid) (hd : d <:+ evs) (hs : step c op s = (.error .powerLoss, s')) (hk : SourceKept c s s' op)
    (hq : CrashOk c s s') (hb : FewBad c s'.n.chip) :
    s'.n.ub = false ∧ CDisk c s'.n.chip (fun σ k => Cnt σ k ∧ Kept (op.entries c s evs ++ evs) d σ) := by
  have hf := sourced hc hP.tick hv (by rw [hs]; intro h; cases h)
  have key := (pstep hc hJ hP op hv hd (by rw [hs]; exact hq.1)).1
  rw [hs] at key
  cases key with
  | stop _ _ he hub hcr =>
    refine ⟨hub, ?_⟩
    have hnn : ¬ Noisy c (s.n.time + 1) s'.n.time ∨ ¬ Recovering s' := hq.2.elim Or.inr fun h => Or.inl (h.noisy (Nat.le_succ _))
    obtain ⟨B, h1, h2⟩ := hcr rfl hnn (SparseBad.two hc hb)
    refine ⟨B, h1, ?_⟩
    rcases h2 with ⟨h0, hw⟩ | ⟨vts, vL, vtc, σ, k, γ, hB, hL, hw, hg⟩
    · exact Or.inl ⟨h0, hw.1, wc_final hk hf hub hw hd⟩
    · exact Or.inr ⟨vts, vL, vtc, σ, k, γ, hB, hL, ⟨hw.1, wc_final hk hf hub hw hd⟩, hg⟩

theorem off_disk (hc : c.Valid) {s : S} {evs d : List Ev} (hP : PInv c s (contents evs) (WK evs d)) (hb : FewBad c s.n.chip) :
    s.n.ub = false ∧ CDisk c s.n.chip (fun σ k => Cnt σ k ∧ Kept evs d σ) := by
  obtain ⟨⟨vts, vt, vh, vr, g, hcalm, hT, hD, hR⟩, hcnt⟩ := hP
  exact ⟨g.noub, dnorm_off hc g hD rfl (fun _ _ h => h) (SparseBad.two hc hb)⟩

theorem power_inv (hc : c.Valid) {s s' : S} {evs d : List Ev} (hub : s.n.ub = false)
    (hD : CDisk c s.n.chip (fun σ k => Cnt σ k ∧ Kept evs d σ)) {buf : Buf} {cnt : Nat} {r : Except Err Unit}
    (hb : FewBad c s.n.chip) (hr : ∀ p, p < c.pages → c.env.readFail (s.n.time + 1) p = false) (he : reboot c buf cnt s = (r, s')) :
    ∃ kept, (r = .ok () ∨ (r = .error .tooBad ∧ ∀ t, t < NONE → contents kept t = none)) ∧ d <:+ kept ∧ kept <:+ evs ∧
      ReadsOk c s' ∧ s'.n = { s.n with time := s.n.time + 1, dead := false } ∧ PInv c s' (contents kept) (WK kept kept) := by
  obtain ⟨r', s1, σ, vts, vt, vh, vr, h1, h2, h3, ⟨hcn, kept, k1, k2, k3⟩, g, hcalm, hT, hR, hN⟩ :=
    resume_inv hc (n := { s.n with time := s.n.time + 1, dead := false }) hr hb hD rfl hub (journalInit c buf) cnt
  have he' : mapResume c ⟨journalInit c buf, { s.n with time := s.n.time + 1, dead := false }, cnt⟩ = (r, s') := he
  rw [h1] at he'
  obtain ⟨rfl, rfl⟩ := Prod.mk.inj he'
  refine ⟨kept, ?_, k1, k2, ?_, h3, ⟨⟨vts, vt, vh, vr, g, hcalm, hT.sig fun t ht => (k3 t ht).symm, ?_, hR⟩, hcn.congr fun t ht => (k3 t ht).symm⟩⟩
  · rcases h2 with h | ⟨h, h'⟩
    · exact Or.inl h
    · exact Or.inr ⟨h, fun t ht => by rw [← k3 t ht]; exact h' t⟩
  · intro p hp; rw [h3]; exact hr p hp
  · exact hN 0 _ (Nat.zero_le _) ⟨hcn, kept, List.suffix_refl _, List.suffix_refl _, k3⟩

theorem PInv.shows (hc : c.Valid) {s : S} {log : List Ev} {W : Wt} (h : PInv c s (contents log) W) (hr : ReadsOk c s) : Shows c s log :=
  ⟨hr, fun _ ht => h.calm.looks hc hr ht⟩

/-- Another log with the same contents will do. -/
theorem PInv.relog (hc : c.Valid) {s : S} {log log' : List Ev} (h : PInv c s (contents log) (WK log log)) (hs : Shows c s log') :
    PInv c s (contents log') (WK log' log') := by
  have he : ∀ t, t < NONE → contents log' t = contents log t := fun t ht => (h.calm.of_looks hc ht (hs.2 t ht)).symm
  obtain ⟨⟨vts, vt, vh, vr, g, hcalm, hT, hD, hR⟩, hcnt⟩ := h
  refine ⟨⟨vts, vt, vh, vr, g, hcalm, hT.sig he, hD.mono hT (Nat.zero_le _) ?_, hR⟩, hcnt.congr he⟩
  intro σp k ⟨hw, kept, k1, k2, k3⟩ _
  have : kept = log := k2.eq_of_length_le k1.length_le
  subst this
  exact ⟨hw, log', List.suffix_refl _, List.suffix_refl _, fun t ht => by rw [k3 t ht, he t ht]⟩

/-- A chip without checkpoints. -/
theorem unformatted_ep (hc : c.Valid) {ch : Chip} (hU : Unformatted c ch) : EP c (gd ch) ch 0 := by
  have hno : ∀ b, gd ch (b % c.numBlocks) → ∀ e, ¬ MagicAt ch (c.fcp b) e := by
    rintro b hg e ⟨pg, h1, h2, _⟩
    have := hU (b % c.numBlocks) pg (Nat.mod_lt _ (by have := hc.blocks_lo; omega)) hg (by
      rw [← h1]; congr 1
      have d1 := fcp_div hc b
      have d2 := fcp_mod hc b
      have d3 := div_mod_range (c.fcp b) c.ppb
      rw [d1, d2] at d3; exact d3.symm)
    rw [h2] at this; cases this
  refine ⟨fun _ _ h => absurd h (Nat.not_lt_zero _), fun b _ hg _ e hm => absurd hm (hno b hg e), fun b _ hb hg e hm => ?_⟩
  refine hno b ?_ e hm
  rw [Nat.mod_eq_of_lt hb]; exact hg

theorem fresh_inv (hc : c.Valid) {n : Nand} {buf : Buf} {k : Nat} {s : S} (hd : n.dead = false) (hu : n.ub = false) (hU : Unformatted c n.chip)
    (h : mapResume c (mapInit c buf k n) = (.error .tooBad, s)) : PInv c s (contents []) (WK [] []) := by
  unfold mapResume at h
  rcases hr : journalResume c (mapInit c buf k n).n (mapInit c buf k n).j with ⟨e | u, j⟩
  · rw [hr] at h
    simp only at h
    cases h
    obtain ⟨j0, hj⟩ := resume_tooBad hr
    have hep := unformatted_ep hc hU
    obtain ⟨a1, a2, a3, a4, a5, a6⟩ := reset_inv hc (s := { mapInit c buf k n with j := j, count := 0 }) hj hep hd hu
    refine ⟨⟨0, 0, 0, 0, a1, a2, a3, ⟨Nat.zero_le _, fun _ => ⟨0, a4, Or.inl ⟨rfl, ⟨Cnt.zero fun _ _ => rfl, [], List.suffix_refl _,
      List.suffix_refl _, fun _ _ => rfl⟩, fun _ => a6⟩⟩⟩, fun hr => absurd a6 hr⟩, Cnt.zero fun _ _ => rfl⟩
  · rw [hr] at h; cases h

theorem durable_suffix {s : S} {log d : List Ev} (h : d <:+ log) : durable s log d <:+ log := by
  unfold durable; split
  · exact h
  · exact List.suffix_refl _

theorem PStep.inv (hc : c.Valid) (hJ : JunkOk c) {s s' : S} {evs d evs' d' : List Ev} (h : PStep c s evs d s' evs' d')
    (hP : PInv c s (contents evs) (WK evs d)) (hd : d <:+ evs) : PInv c s' (contents evs') (WK evs' d') ∧ d' <:+ evs' := by
  cases h with
  | ok _ op _ _ hv hs hk hst =>
    exact ⟨step_ok_inv hc hJ hP hv hd hs hk hst, durable_suffix (hd.trans (List.suffix_append _ _))⟩
  | full _ op _ _ hv hs hst => exact ⟨step_full_inv hc hJ hP hv hd hs hst, durable_suffix hd⟩
  | failed _ op e _ _ hv hs hr hq => exact ⟨step_failed_inv hc hJ hP hv hd hs hr hq, durable_suffix hd⟩
  | crash s1 _ op _ _ _ hv hs hk hq hp h1 h2 h3 =>
    obtain ⟨hb, hr, buf, cnt, r, he⟩ := hp
    obtain ⟨hub, hD⟩ := step_crash_disk hc hJ hP hv hd hs hk hq hb
    obtain ⟨kept', _, _, _, _, _, hP⟩ := power_inv hc hub hD hb hr he
    exact ⟨hP.relog hc h3, List.suffix_refl _⟩
  | off _ _ _ _ hp h1 h2 h3 =>
    obtain ⟨hb, hr, buf, cnt, r, he⟩ := hp
    obtain ⟨hub, hD⟩ := off_disk hc hP hb
    obtain ⟨kept', _, _, _, _, _, hP⟩ := power_inv hc hub hD hb hr he
    exact ⟨hP.relog hc h3, List.suffix_refl _⟩

theorem PLog.inv (hc : c.Valid) (hJ : JunkOk c) {s : S} {evs d : List Ev} (h : PLog c s evs d) :
    PInv c s (contents evs) (WK evs d) ∧ d <:+ evs := by
  induction h with
  | fresh n buf k s h1 h2 h3 h4 => exact ⟨fresh_inv hc h1 h2 h3 h4, List.suffix_refl _⟩
  | step s s' evs d evs' d' _ hs ih => exact hs.inv hc hJ ih.1 ih.2

end Dhara

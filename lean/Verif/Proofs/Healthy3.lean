/-
Every call keeps the balance invariant of a healthy chip and none of the excluded errors occurs
(dhara/map.c:322-530).
-/
import Verif.Proofs.Healthy2
namespace Dhara

variable {c : Cfg}

/-- A page has been added. -/
theorem HI.pushed (hc : c.Valid) (hF : Fits c) {m : Option Buf} {s s' : S} {σ0 σ' : Nat → Option Buf} {K : Nat → Prop}
    {vts vt vh vr n' : Nat} (hI : Inv0 c s σ0 (Gh.triv c 0) vts vt vh vr)
    (hsync : c.gk * (c.u (vh / c.ppc * c.ppc) - c.u vts) ≤ c.bz + c.gk) (hR : Ready c s vt vh) (P : Pushed c m s s' σ' K vts vt vh)
    (hK : ∀ x, K x → Data (mtOf c s) s.j.root x) (hn : Cnt σ' n') (hle : n' ≤ c.mcap) (h0 : n' = 0 → vt = vh) :
    ∃ vts', HI c (cntS s' n') σ' vts' vt (c.nextV vh) vh 0 := by
  obtain ⟨vts', P1, P2, P3⟩ := P.inv
  have g1 := hI.geo.l1
  have g2 := hI.geo.l2
  have hw := P1.geo.win
  have hlh := lt_nextV c vh
  have eh := u_nextV hc hI.geo.uh
  have em := u_mono c g2
  obtain ⟨f1, f2⟩ := hF.split
  have f3 := hF.gk_le
  have f4 : c.mcap + 8 * c.ppb ≤ c.ucap := Nat.le.intro f1
  have hbal : Bal c (cur c s') c.gk c.bz vt (c.nextV vh) 0 := by
    have hU : ∀ v, vt ≤ v → v < c.nextV vh → cur c s' v → c.isU v := fun v a b => cur_user P1 a b
    rcases hR with hb | hb | hb
    · refine Bal.push hc (M := c.mcap) (D := cur c s) (by rw [Nat.zero_add]; exact hb) hI.geo.uh g2 ?_ (live_count P1 hn |>.trans hle) ?_
      · intro v a b hv
        rcases P.used _ (Data.used hv) with hx | hx
        · have := P1.geo.l1
          have := hw.inj (v := v) (w := vh) (by omega) (by omega) (by omega) (by omega) hx; omega
        · exact hK _ hx
      · have := hF.bound (hb.q (by omega))
        unfold Cfg.bz
        omega
    · refine Bal.short hU ?_
      have : c.u (c.nextV vh) - c.u vt ≤ c.mcap := by omega
      have := Nat.mul_le_mul_left c.gk this
      unfold Cfg.bz
      omega
    · refine Bal.short hU ?_
      have h2 : c.u (c.nextV vh) - c.u vt ≤ 2 := by omega
      have h3 := Nat.mul_le_mul_left c.gk h2
      have h4 := Nat.mul_le_mul_left c.gk f2
      unfold Cfg.bz
      omega
  refine ⟨vts', P1.cnt Gh.triv_ok n', P.sound, P.bb, hn, hle, ?_, Or.inl (Or.inl hbal), ?_, ?_⟩
  · obtain ⟨n1, n2⟩ := sync_next hc hI.geo.uh
    by_cases hl : c.last vh
    · rw [n1 hl, P2 hl]
      have := hbal.q (by omega)
      omega
    · rw [n2 hl, P3 hl]; exact hsync
  · intro h; have := h0 h; rw [this]; omega
  · intro hd
    have hd : s'.j.dirty = false := hd
    have hl : c.last vh := by
      apply Classical.byContradiction
      intro hn
      rw [P.dirty hn] at hd; cases hd
    have hw1 := P1.geo.win
    rw [P2 hl] at hw1
    refine Or.inr ⟨vt, vh, P.cp hl, P.root, hl, (is_last hc hl).1, hI.geo.l2, hI.geo.ut, Nat.le_refl _, hw1, Or.inl (Or.inl hbal), ?_⟩
    intro h; have := h0 h; rw [this]; omega

/-! ### sync -/

theorem padQueue_healthy (hc : c.Valid) (hF : Fits c) (hH : Healthy c) {s : S} {σ : Nat → Option Buf} {vts vt vh vr : Nat}
    (h : HI c s σ vts vt vh vr 0) (he : vt = vh) :
    (∃ e s', padQueue c s = (.error e, s') ∧ Halt c s' e) ∨
    (∃ s' vts' vh' vr', padQueue c s = (.ok (), s') ∧ HI c s' σ vts' vt vh' vr' 0) := by
  have hI := h.inv
  have hroot : s.j.root = NONE := hI.data_range he
  have hI' := hI.ck Gh.triv_ok s.count
  unfold padQueue
  simp only
  rw [if_pos hroot]
  have hP : Plan (mtOf c (ckS s s.count)) (ckS s s.count).j.root (recOf (metaOf none)) (fun _ => none) (fun _ => False) :=
    plan_filler recOf_metaOf_none
  have key := push_healthy hc hH (wrData_spec hc none) (wrData_evo _) (wrData_healthy hH _) (σ' := σ) (r := enqueue c none none (ckS s s.count)) hI' hP
    (hF.win hc hI.geo.toGeo0 h.sync) h.sound (h.bb.congr rfl rfl) rfl (fun s' _ => ⟨(fun _ _ _ _ h => by cases h),
      (fun t ht _ _ => hI.tr.emp t ht (dict_none hroot t)), (fun h => by rw [recOf_metaOf_none] at h; omega)⟩)
  rcases key with ⟨e, s', hp, hf, hx⟩ | ⟨s', hp, P⟩
  · refine Or.inl ⟨e, s', hp, hf, fun h' => ?_⟩
    obtain ⟨x1, x2, x3⟩ := hx h'
    have h3 := h.soft hc hH (n' := s.count) x1 x2 x3
    have e2 : s'.count = s.count := x1.jh.2
    rw [← e2] at h3
    exact ⟨_, _, _, _, _, h3⟩
  · right
    obtain ⟨vts', h'⟩ := HI.pushed hc hF hI' h.sync (Or.inr (Or.inr (by rw [he]; omega))) P (fun _ h => h.elim)
      h.cnt h.le (fun _ => he)
    refine ⟨s', vts', c.nextV vh, vh, hp, ?_⟩
    have : cntS s' s.count = s' := by
      have := P.cnt
      unfold cntS
      rw [show s.count = s'.count from this.symm]
    rw [← this]; exact h'

theorem mapSyncLoop_healthy (hc : c.Valid) (hF : Fits c) (hH : Healthy c) {σ : Nat → Option Buf} : ∀ (f : Nat) (s : S) (vts vt vh vr : Nat),
    HI c s σ vts vt vh vr 0 →
    (∃ e s', mapSyncLoop c f s = (.error e, s') ∧ Halt c s' e) ∨
    (∃ s' vts' vt' vh' vr', mapSyncLoop c f s = (.ok (), s') ∧ HI c s' σ vts' vt' vh' vr' 0) := by
  intro f
  induction f with
  | zero => intro s _ _ _ _ h; left; exact ⟨.diverge, s, rfl, h.halt (by unfold Fatal; decide)⟩
  | succ f ih =>
    intro s vts vt vh vr h
    unfold mapSyncLoop
    simp only
    by_cases hd : s.j.dirty = true
    · rw [if_neg (by simp [hd])]
      obtain ⟨p1, p2⟩ := peek_healthy hc h.inv h.sound
      by_cases hlt : vt < vh
      · have hN : c.ph vt ≠ NONE := by have := ph_lt hc vt; have := hc.pages_hi; omega
        rw [p1 hlt, if_neg hN]
        rcases round_healthy hc hF hH h (by unfold Cfg.gk; omega) hlt (Or.inl hd) with ⟨e, s', hr, he⟩ | ⟨s', vts', vh', vr', hr, h1, h2, _⟩
        · rw [hr]
          simp only
          rw [tryRecover_not he.1]
          exact Or.inl ⟨e, s', rfl, he⟩
        · rw [hr]
          exact ih _ _ _ _ _ (h1.drop (by omega))
      · have he : vt = vh := by have := h.inv.geo.l2; omega
        rw [p2 he, if_pos rfl]
        rcases padQueue_healthy hc hF hH h he with ⟨e, s', hr, he⟩ | ⟨s', vts', vh', vr', hr, h1⟩
        · rw [hr]
          simp only
          rw [tryRecover_not he.1]
          exact Or.inl ⟨e, s', rfl, he⟩
        · rw [hr]
          exact ih _ _ _ _ _ h1
    · rw [if_pos hd]
      exact Or.inr ⟨s, vts, vt, vh, vr, rfl, h⟩

/-! ### write and copy_page -/

/-- The outcome of a call on a healthy chip. -/
def HOut (c : Cfg) (r : Except Err Unit × S) : Prop :=
  (∃ e, r.1 = .error e ∧ e ≠ .mapFull ∧ Halt c r.2 e) ∨
  ((r.1 = .ok () ∨ r.1 = .error .mapFull) ∧ ∃ σ vts vt vh vr, HI c r.2 σ vts vt vh vr 0)

theorem HOut.err {e : Err} {s : S} (h : Halt c s e) (hm : e ≠ .mapFull) : HOut c (.error e, s) := Or.inl ⟨e, rfl, hm, h⟩
theorem HOut.ok {s : S} {σ : Nat → Option Buf} {vts vt vh vr : Nat} (h : HI c s σ vts vt vh vr 0) : HOut c (.ok (), s) :=
  Or.inr ⟨Or.inl rfl, σ, vts, vt, vh, vr, h⟩

theorem ecc_ok {e : Err} (h : e = .ecc) : ¬ Fatal e ∧ e ≠ .mapFull := by subst h; unfold Fatal; decide

theorem writeLoop_healthy (hc : c.Valid) (hF : Fits c) (hH : Healthy c) {wr : S → Except Err Unit × S} {Pd : S → Option Buf → Prop}
    (hwr : WrSpec c wr Pd) (hev : ∀ s, Evo c s.n (wr s).2.n) (hwe : ∀ s e, (wr s).1 = .error e → ¬ Fatal e) (hnf : ∀ s, NF (wr s))
    (hPd : ∀ s1 pg, Pd s1 pg → ∃ b, pg = some b ∧ c.clip b = b) {dst : Nat} (hd : dst < NONE) (f : Nat) {s : S} {σ : Nat → Option Buf}
    {vts vt vh vr : Nat} (h : HI c s σ vts vt vh vr 0) :
    HOut c (writeLoop c dst (fun mt s => pushLoop c wr (some mt) 8 s) f s) := by
  cases f with
  | zero => exact .err (e := .diverge) (h.halt (by unfold Fatal; decide)) (by decide)
  | succ f =>
    unfold writeLoop prepareWrite
    simp only
    have hgf := autoGc_nf (c := c) s
    rcases autoGc_healthy hc hF hH h with ⟨e, s1, hr, he⟩ | ⟨s1, vts, vt, vh, vr, hr, h, hR, hcn⟩
    · rw [hr] at hgf ⊢
      exact .err he (nf_err hgf)
    · rw [hr]
      simp only
      have hI := h.inv
      have htr := hI.trace hc hd freshMeta
      -- the push, from a state that differs in the count only
      have push : ∀ (nm : Buf) (n' : Nat), (recOf nm).id = dst → PathOK (mtOf c s1) (dict (mtOf c s1) s1.j.root) dst (recOf nm).alt →
          (∀ b, Cnt (upd σ dst (some b)) n') → n' ≤ c.mcap →
          HOut c (match pushLoop c wr (some nm) 8 (ckS (cntS s1 n') n') with
            | (.ok (), s) => (.ok (), s)
            | (.error e, s') => match tryRecover c e { s' with count := s.count } with
              | (.error e, s) => (.error e, s)
              | (.ok (), s) => writeLoop c dst (fun mt s => pushLoop c wr (some mt) 8 s) f s) := by
        intro nm n' hid hpath hcb hle
        have hI' := (hI.cnt Gh.triv_ok n').ck Gh.triv_ok n'
        have emt : mtOf c (ckS (cntS s1 n') n') = mtOf c s1 := by rw [mtOf_ck]; rfl
        obtain ⟨r1, r2⟩ := recOf_metaOf (b := nm)
        have hpath' : PathOK (mtOf c (ckS (cntS s1 n') n')) (dict (mtOf c (ckS (cntS s1 n') n')) s1.j.root) dst (recOf nm).alt := by
          rw [emt]; exact hpath
        have hplan := plan_insert (r := recOf (metaOf (some nm))) hI'.tr.ok (by rw [r1, hid]; exact hd) (by rw [r1, hid]; exact hpath'.congr r2)
          (fun _ _ _ h => h)
        have hlnf := pushLoop_nf (c := c) wr hnf (some nm) 8 (ckS (cntS s1 n') n')
        have hfill : ∀ s' : S, Fill c (ckS (cntS s1 n') n') s' (some nm) Pd vts vh
            (dict (mtOf c (ckS (cntS s1 n') n')) s1.j.root) σ (upd σ dst (s'.n.chip.page s'.j.root)) := by
          intro s'
          refine ⟨?_, ?_, ?_⟩
          · intro t x _ hne _; rw [r1, hid] at hne; unfold upd; rw [if_neg hne]
          · intro t ht hne hn; rw [r1, hid] at hne; unfold upd; rw [if_neg hne]; exact hI'.tr.emp t ht hn
          · intro _ sx vq pg hpg _ _ hP _ _
            obtain ⟨b, e1, e2⟩ := hPd sx pg hP
            refine ⟨b, e1, e2, ?_⟩
            rw [r1, hid]; unfold upd; rw [if_pos rfl, ← hpg, e1]
        generalize hq : pushLoop c wr (some nm) 8 (ckS (cntS s1 n') n') = r at hlnf ⊢
        have key := push_healthy hc hH hwr hev hwe (σ' := upd σ dst (r.2.n.chip.page r.2.j.root)) hI' hplan
          (hF.win hc hI.geo.toGeo0 h.sync) h.sound (h.bb.congr rfl rfl) hq (fun s' he => by rw [he]; exact hfill s')
        rcases key with ⟨e, s2, hp, hf, hx⟩ | ⟨s2, hp, P⟩
        · rw [hp] at hlnf ⊢
          simp only
          rw [tryRecover_not hf]
          refine .err ⟨hf, fun h' => ?_⟩ (nf_err hlnf)
          obtain ⟨x1, x2, x3⟩ := hx h'
          have h3 := h.soft hc hH x1 x2 x3
          rw [hcn] at h3
          exact ⟨_, _, _, _, _, h3⟩
        · rw [hp] at P ⊢
          simp only at P ⊢
          have hsm := P.isSome (by rw [r1, hid]; exact hd)
          rw [r1, hid] at hsm
          unfold upd at hsm
          rw [if_pos rfl] at hsm
          obtain ⟨b, hb⟩ := Option.isSome_iff_exists.1 hsm
          rw [hb] at P
          have hcb := hcb b
          obtain ⟨vts', h'⟩ := HI.pushed hc hF hI' h.sync (hR.imp (fun x => x.sub fun v _ _ hv => by unfold cur at hv ⊢; rw [emt] at hv; exact hv) id) P hplan.kd hcb hle (by
            intro h0
            rw [h0] at hcb
            have := hcb.zero_iff dst hd
            unfold upd at this; rw [if_pos rfl] at this; cases this)
          have e1 : cntS s2 n' = s2 := by
            have := P.cnt
            unfold cntS
            rw [show n' = s2.count from this.symm]
          rw [e1] at h'
          exact .ok h'
      rcases ht : tracePath c s1 dst freshMeta with ⟨e | q, nm⟩
      · rw [ht] at htr
        cases e
        case notFound =>
          obtain ⟨h1, h2, h3⟩ := htr
          have hn := (hI.mapped hd).1 h1
          simp only
          by_cases hcap : s1.count ≥ mapCapacity c s1
          · rw [if_pos hcap]
            exact Or.inr ⟨Or.inr rfl, σ, vts, vt, vh, vr, h⟩
          · rw [if_neg hcap]
            simp only
            have hc2 := capacity_le hc hF h.bb
            exact push nm (s1.count + 1) h3 h2 (fun b => h.cnt.insert_new hd hn) (by omega)
        all_goals exact .err (h.halt (ecc_ok htr).1) (ecc_ok htr).2
      · rw [ht] at htr
        obtain ⟨h1, h2, h3⟩ := htr
        simp only
        obtain ⟨b', hb'⟩ : ∃ b', σ dst = some b' := by
          obtain ⟨b, _, _, h⟩ := hI.tr.holds dst q hd h1; exact ⟨b, h⟩
        exact push nm s1.count h3 h2 (fun b => h.cnt.insert_old hb') h.le

theorem mapWrite_healthy (hc : c.Valid) (hF : Fits c) (hH : Healthy c) {s : S} {σ : Nat → Option Buf} {vts vt vh vr dst : Nat} {data : Buf}
    (hd : dst < NONE) (h : HI c s σ vts vt vh vr 0) : HOut c (mapWrite c dst data s) :=
  writeLoop_healthy hc hF hH (wrData_spec hc (some data)) (wrData_evo _) (wrData_healthy hH _) (fun s => progS_nf _ _ _)
    (fun s1 pg h => ⟨c.clip data, h, clip_clip⟩) hd _ h

theorem mapCopyPage_healthy (hc : c.Valid) (hF : Fits c) (hH : Healthy c) {s : S} {σ : Nat → Option Buf} {vts vt vh vr src dst : Nat}
    (hd : dst < NONE) (h : HI c s σ vts vt vh vr 0) : HOut c (mapCopyPage c src dst s) :=
  writeLoop_healthy hc hF hH (wrCopy_spec hc src) (wrCopy_evo _) (wrCopy_healthy hH _) (fun s => nandCopy_nf _ _ _)
    (fun s1 pg ⟨b, h1, h2⟩ => ⟨c.clip b, h2, clip_clip⟩) hd _ h

/-! ### trim and clear -/

theorem clear_healthy {s : S} {σ σ' : Nat → Option Buf} {vts vt vh vr : Nat} (h : HI c s σ vts vt vh vr 0)
    (hσ : ∀ t, t < NONE → σ' t = none) : HI c (journalClear c (cntS s 0)) σ' vts vh vh vr 0 :=
  ⟨clear_inv Gh.triv_ok h.inv 0 hσ, h.sound, h.bb.congr rfl rfl, Cnt.zero hσ, Nat.zero_le _, h.sync, Or.inl (Or.inr (by omega)), fun _ => by omega,
    fun h => by cases h⟩

theorem tryDelete_healthy (hc : c.Valid) (hF : Fits c) (hH : Healthy c) {s : S} {σ : Nat → Option Buf} {vts vt vh vr t : Nat}
    (h : HI c s σ vts vt vh vr 0) (hR : Ready c s vt vh) (ht : t < NONE) : HOut c (tryDelete c t s) := by
  have hI := h.inv
  have htr := hI.trace hc ht freshMeta
  have hstop : ∀ e : Err, e = .ecc → HOut c (.error e, s) := fun e he => .err (h.halt (ecc_ok he).1) (ecc_ok he).2
  unfold tryDelete
  rcases hp : tracePath c s t freshMeta with ⟨e | q, nm⟩
  · rw [hp] at htr
    cases e
    case notFound => exact .ok h
    all_goals exact hstop _ htr
  · rw [hp] at htr
    obtain ⟨h1, h2, h3⟩ := htr
    obtain ⟨b', hb'⟩ : ∃ b', σ t = some b' := by
      obtain ⟨b, _, _, h⟩ := hI.tr.holds t q ht h1; exact ⟨b, h⟩
    obtain ⟨hce, hc1⟩ := h.cnt.erase ht hb'
    simp only
    cases hl : lastAlt nm 32 with
    | none =>
      simp only
      have hσ : ∀ t', t' < NONE → upd σ t none t' = none := by
        intro t' ht'
        unfold upd; split
        · rfl
        · rename_i hne
          obtain ⟨i, hi, ha, hb⟩ := first_diff (x := t') (y := t) (by omega) (by omega) hne
          exact hI.tr.emp t' ht' ((h2 i hi).1 (lastAlt_none 32 hl i hi) t' ht' ha hb)
      exact .ok (clear_healthy h hσ)
    | some level =>
      simp only
      obtain ⟨l1, l2, l3⟩ := lastAlt_some 32 hl
      have hused : Used (mtOf c s) s.j.root (metaGetAlt nm level) := by
        obtain ⟨rx, x1, x2, x3, _⟩ := path_reach h2 l1 l2 (Reach.refl _ _)
        exact Data.used ⟨rx, x1, x2, x3⟩
      cases hr : readMeta c s (metaGetAlt nm level) with
      | error e => exact hstop e (hI.tr.rd hc hI.rmok _ hused e hr)
      | ok am =>
        simp only
        have ham := readMeta_mt hr
        generalize hmt : metaSetAlt (copyAlts am (32 - (level + 1)) (level + 1) (metaSetAlt (metaSetId nm (metaGetId am)) level NONE)) level NONE = mt
        have hmid : (recOf mt).id = (recOf am).id := by
          rw [← hmt]; show metaGetId _ = _
          rw [metaGetId_setAlt, copyAlts_id, metaGetId_setAlt, metaGetId_setId (metaGetId_lt _)]; rfl
        have hma : ∀ i, (recOf mt).alt i = if i = level then NONE else if level < i ∧ i < 32 then (recOf am).alt i else (recOf nm).alt i := by
          intro i
          rw [← hmt]; show metaGetAlt _ i = _
          by_cases hi : i = level
          · rw [if_pos hi, hi, metaGetAlt_setAlt_same (by omega)]
          · rw [if_neg hi, metaGetAlt_setAlt_ne (Ne.symm hi), copyAlts_alt]
            by_cases h4 : level < i ∧ i < 32
            · rw [if_pos h4, if_pos (by omega)]; rfl
            · rw [if_neg h4, if_neg (by omega), metaGetAlt_setAlt_ne (Ne.symm hi), metaGetAlt_setId]; rfl
        obtain ⟨p1, p2, p3, p4⟩ := delete_path (level := level) h2 ht l1 l2 l3 ham (recOf mt).alt
          (fun i hi => by rw [hma, if_neg (by omega), if_neg (by omega)])
          (by rw [hma, if_pos rfl])
          (fun i hi hi' => by rw [hma, if_neg (by omega), if_pos ⟨hi, hi'⟩])
        have hI' := hI.ck Gh.triv_ok (sub32 s.count 1)
        have e1 : mtOf c (ckS s (sub32 s.count 1)) = mtOf c s := mtOf_ck _ _
        obtain ⟨r1, r2⟩ := recOf_metaOf (b := mt)
        have hpp : PathOK (mtOf c (ckS s (sub32 s.count 1))) (fun t' => if t' = t then none else dict (mtOf c s) s.j.root t')
            (recOf (metaOf (some mt))).id (recOf (metaOf (some mt))).alt := by
          rw [e1, r1, hmid]; exact p1.congr r2
        have hpd : ∀ t', t' < NONE → ∀ x, (if t' = t then none else dict (mtOf c s) s.j.root t') = some x →
            dict (mtOf c (ckS s (sub32 s.count 1))) (ckS s (sub32 s.count 1)).j.root t' = some x := by
          intro t' _ x hx
          rw [e1]
          split at hx
          · cases hx
          · exact hx
        have hplan := plan_insert hI'.tr.ok (by rw [r1, hmid]; exact p3) hpp hpd
        have hfill : ∀ s', Fill c (ckS s (sub32 s.count 1)) s' (some mt) (copyPd c (metaGetAlt nm level)) vts vh
            (fun t' => if t' = t then none else dict (mtOf c s) s.j.root t') σ (upd σ t none) := by
          intro s'
          refine copy_fill hc hI'.geo hI'.tr (r1.trans hmid) (fun _ => by rw [e1]; exact p4) ?_ ?_ ?_
          · intro t' x _ _ hx
            unfold upd
            by_cases htt : t' = t
            · simp only [htt, if_true] at hx; cases hx
            · rw [if_neg htt]
          · intro t' ht' _ hx
            unfold upd
            by_cases htt : t' = t
            · rw [if_pos htt]
            · rw [if_neg htt]
              simp only [htt, if_false] at hx
              exact hI.tr.emp t' ht' hx
          · unfold upd; rw [if_neg p2]
        have hsub : sub32 s.count 1 = s.count - 1 := by
          have hlt := h.cnt.lt
          unfold sub32
          have e32 : (2:Nat)^32 = 4294967296 := by decide
          rw [e32] at hlt ⊢
          rw [if_pos (by omega), Nat.mod_eq_of_lt (by omega)]
        have key := push_healthy hc hH (wrCopy_spec hc (metaGetAlt nm level)) (wrCopy_evo _) (wrCopy_healthy hH _)
          (r := journalCopy c (metaGetAlt nm level) mt (ckS s (sub32 s.count 1))) hI' hplan
          (hF.win hc hI.geo.toGeo0 h.sync) h.sound (h.bb.congr rfl rfl) rfl (fun s' _ => hfill s')
        have hnf : NF (journalCopy c (metaGetAlt nm level) mt (ckS s (sub32 s.count 1))) :=
          pushLoop_nf (c := c) _ (fun s => nandCopy_nf _ _ _) _ _ _
        show HOut c (match journalCopy c (metaGetAlt nm level) mt (ckS s (sub32 s.count 1)) with
            | (.error e, s) => ((.error e, s) : Except Err Unit × S)
            | (.ok (), s) => (.ok (), { s with count := sub32 s.count 1 }))
        rcases key with ⟨e, s2, hq, hf, hx⟩ | ⟨s2, hq, P⟩
        · rw [hq] at hnf ⊢
          refine .err ⟨hf, fun h' => ?_⟩ (nf_err hnf)
          obtain ⟨x1, x2, x3⟩ := hx h'
          have h3 := h.soft hc hH (n' := s.count) x1 x2 x3
          have e2 : s2.count = s.count := x1.jh.2
          rw [← e2] at h3
          exact ⟨_, _, _, _, _, h3⟩
        · rw [hq]
          simp only
          have hc7 : s2.count = s.count := P.cnt
          obtain ⟨vts', h'⟩ := HI.pushed hc hF hI' h.sync (hR.imp (fun x => x.sub fun v _ _ hv => by unfold cur at hv ⊢; rw [e1] at hv; exact hv) id) P hplan.kd hce (by have := h.le; omega) (by
            intro h0
            rw [h0] at hce
            have hsm := P.isSome (by rw [r1, hmid]; exact p3)
            rw [hce.zero_iff _ (by rw [r1, hmid]; exact p3)] at hsm
            cases hsm)
          have e2 : ({ s2 with count := sub32 s2.count 1 } : S) = cntS s2 (s.count - 1) := by
            unfold cntS; rw [hc7, hsub]
          rw [e2]
          exact .ok h'

theorem mapTrim_healthy (hc : c.Valid) (hF : Fits c) (hH : Healthy c) {s : S} {σ : Nat → Option Buf} {vts vt vh vr t : Nat}
    (ht : t < NONE) (h : HI c s σ vts vt vh vr 0) : HOut c (mapTrim c t s) := by
  unfold mapTrim
  cases c.fuel with
  | zero => exact .err (e := .diverge) (h.halt (by unfold Fatal; decide)) (by decide)
  | succ f =>
    unfold mapTrimLoop
    have hgf := autoGc_nf (c := c) s
    rcases autoGc_healthy hc hF hH h with ⟨e, s1, hr, he⟩ | ⟨s1, vts, vt, vh, vr, hr, h, hR, hcn⟩
    · rw [hr] at hgf ⊢
      exact .err he (nf_err hgf)
    · rw [hr]
      simp only
      have hd := tryDelete_healthy hc hF hH h hR ht
      have hnf := tryDelete_nf (c := c) t s1
      rcases hx : tryDelete c t s1 with ⟨e | u, s2⟩
      · rw [hx] at hd hnf
        rcases hd with ⟨e', h1, h2, h3⟩ | ⟨h1, _⟩
        · cases h1
          simp only
          rw [tryRecover_not h3.1]
          exact .err h3 h2
        · rcases h1 with h1 | h1
          · cases h1
          · exact absurd h1 hnf
      · rw [hx] at hd
        exact hd

theorem call_healthy (hc : c.Valid) (hF : Fits c) (hH : Healthy c) {s : S} {σ : Nat → Option Buf} {vts vt vh vr : Nat} (op : Op)
    (hv : op.Valid) (h : HI c s σ vts vt vh vr 0) : HOut c (call c op s) := by
  cases op with
  | write dst d => exact mapWrite_healthy hc hF hH hv h
  | copyPage src dst => exact mapCopyPage_healthy hc hF hH hv h
  | copySector src dst =>
    obtain ⟨v1, v2⟩ := hv
    unfold call mapCopySector
    simp only
    rcases mapFind_inv hc ⟨_, _, _, _, h.inv⟩ v1 with ⟨q, b, h1, _⟩ | ⟨h1, _⟩ | h1
    · rw [h1]; exact mapCopyPage_healthy hc hF hH v2 h
    · rw [h1]; exact mapTrim_healthy hc hF hH v2 h
    · rw [h1]; exact .err (e := .ecc) (h.halt (by unfold Fatal; decide)) (by decide)
  | trim t => exact mapTrim_healthy hc hF hH hv h
  | clear =>
    unfold call mapClear
    simp only
    split
    · exact .ok (clear_healthy (σ' := fun _ => none) h (fun _ _ => rfl))
    · exact .ok h
  | sync =>
    have hnf := mapSyncLoop_nf (c := c) c.fuel s
    rcases mapSyncLoop_healthy hc hF hH c.fuel s _ _ _ _ h with ⟨e, s', hr, he⟩ | ⟨s', a, b, d, e, hr, h'⟩
    · show HOut c (mapSyncLoop c c.fuel s)
      rw [hr] at hnf ⊢
      exact .err he (nf_err hnf)
    · show HOut c (mapSyncLoop c c.fuel s)
      rw [hr]; exact .ok h'
  | gc =>
    have hnf := mapGc_nf (c := c) s
    show HOut c (mapGc c s)
    rcases mapGc_healthy hc hF hH h (by unfold Cfg.gk; omega) with ⟨e, s', hr, he⟩ | ⟨hr, hh⟩ | ⟨s', vts', vh', vr', hr, _, _, h1, _⟩
    · rw [hr] at hnf ⊢
      exact .err he (nf_err hnf)
    · rw [hr]; exact .ok h
    · rw [hr]; exact .ok (h1.drop (by omega))

theorem HI.tick {s : S} {σ : Nat → Option Buf} {vts vt vh vr j : Nat} (h : HI c s σ vts vt vh vr j) : HI c (tick s) σ vts vt vh vr j := by
  have hI := h.inv
  refine ⟨⟨⟨⟨hI.geo.ets, hI.geo.et, hI.geo.eh, hI.geo.uts, hI.geo.ut, hI.geo.uh, hI.geo.l1, hI.geo.l2,
    hI.geo.win, hI.geo.ep, hI.geo.alive, hI.geo.noub⟩, hI.geo.hfree⟩, ⟨hI.calm.nr, hI.calm.rm, hI.calm.ed, hI.calm.bm⟩, ?_, ?_, trivial⟩,
    h.sound, h.bb, h.cnt, h.le, h.sync, h.bal, h.zero,
    fun a => (h.ck a).imp id fun ⟨v0, vl, k⟩ => ⟨v0, vl, k.pg, k.rt, k.la, k.hd, k.lr, k.u0, k.le, k.win, k.bal, k.zero⟩⟩
  · exact ⟨hI.tr.rt, hI.tr.ok, hI.tr.live, hI.tr.emp, hI.tr.holds⟩
  · exact Or.inr fun t a b => absurd b (Nat.not_lt_zero _)

theorem Fresh.healthy (hc : c.Valid) {s : S} (h : Fresh c s) (hb : Sound c s.n) : HI c s (fun _ => none) 0 0 0 0 0 := by
  obtain ⟨n, buf, k, h1, h2, h3⟩ := h
  unfold mapResume at h3
  rcases hr : journalResume c (mapInit c buf k n).n (mapInit c buf k n).j with ⟨e | u, j⟩
  · rw [hr] at h3
    simp only at h3
    cases h3
    obtain ⟨j0, hj⟩ := resume_tooBad hr
    subst hj
    have hC := hc.ppc_ge
    have u0 : c.isU 0 := by unfold Cfg.isU; rw [Nat.zero_mod]; omega
    have p0 : c.ph 0 = 0 := by unfold Cfg.ph; exact Nat.zero_mod _
    refine ⟨⟨⟨⟨p0.symm, p0.symm, p0.symm, u0, u0, u0, Nat.le_refl _, Nat.le_refl _, ?_, ?_, h1, h2⟩, ?_⟩, ⟨rfl, rfl, rfl, rfl⟩,
      Tr.empty fun _ _ => rfl, Or.inl fun h => absurd (Nat.zero_mod _) h, trivial⟩, hb, ⟨rfl, Or.inr rfl⟩, Cnt.zero fun _ _ => rfl, Nat.zero_le _, ?_,
      Or.inl (Or.inr ?_), fun _ => ?_, fun _ => Or.inl ⟨rfl, rfl⟩⟩
    · unfold Cfg.Win; have := hc.blocks_lo; omega
    · rw [Nat.zero_div]; rfl
    · intro h; exact absurd (Nat.zero_mod _) h
    · rw [Nat.zero_div, Nat.zero_mul, Nat.sub_self, Nat.mul_zero]; exact Nat.zero_le _
    · omega
    · omega
  · rw [hr] at h3; cases h3

end Dhara

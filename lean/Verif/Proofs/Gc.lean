/-
raw_gc, pad_queue, try_recover (dhara/map.c:212-306) preserve the map's contents.
-/
import Verif.Proofs.Inv2
namespace Dhara

variable {c : Cfg}

/-- The state after `ck_set_count(dhara_journal_cookie(..), k)`. -/
def ckS (s : S) (k : Nat) : S := { s with j := ckSetCount s.j k }

theorem ck_slice (j : Journal) (k v : Nat) :
    (ckSetCount j k).pageBuf.slice (c.slot v) 132 = j.pageBuf.slice (c.slot v) 132 := by
  apply slice_congr; intro i hi
  show w32 j.pageBuf 16 k _ = _
  rw [w32_other (by unfold Cfg.slot; omega)]

theorem metaBuf_ck (hc : c.Valid) (s : S) (k : Nat) (v : Nat) :
    metaBuf c (ckS s k) (c.ph v) = metaBuf c s (c.ph v) := by
  unfold metaBuf
  simp only [slot_off hc]
  have : (ckS s k).j.pageBuf.slice (c.slot v) 132 = s.j.pageBuf.slice (c.slot v) 132 := ck_slice _ _ _
  rw [this]; rfl

theorem Geo.ck {s : S} {vts vt vh : Nat} (g : Geo c s vts vt vh) (k : Nat) : Geo c (ckS s k) vts vt vh :=
  ⟨⟨g.ets, g.et, g.eh, g.uts, g.ut, g.uh, g.l1, g.l2, g.win, g.ep, g.alive, g.noub⟩, g.hfree⟩

theorem metaBuf_ck' (s : S) (k : Nat) (p : Nat) :
    metaBuf c (ckS s k) p = metaBuf c s p := by
  unfold metaBuf
  have : (ckS s k).j.pageBuf.slice (hdrUserOffset (p &&& (c.ppc - 1))) 132 =
      s.j.pageBuf.slice (hdrUserOffset (p &&& (c.ppc - 1))) 132 := by
    apply slice_congr; intro i hi
    show w32 s.j.pageBuf 16 k _ = _
    rw [w32_other (by unfold hdrUserOffset; omega)]
  simp only [this]; rfl

theorem mtOf_ck (s : S) (k : Nat) : mtOf c (ckS s k) = mtOf c s := by
  funext p; unfold mtOf; rw [metaBuf_ck']

theorem Tr.ck {s : S} {root vt vr vh : Nat} {σ : Nat → Option Buf} (h : Tr c s root vt vr vh σ) (k : Nat) :
    Tr c (ckS s k) root vt vr vh σ := by
  refine ⟨h.rt, ?_, ?_, ?_, ?_⟩ <;> rw [mtOf_ck]
  · exact h.ok
  · exact h.live
  · exact h.emp
  · exact h.holds

theorem Inv0.ck {s : S} {σ : Nat → Option Buf} {T : Gh c} (hG : T.Ok) {vts vt vh vr : Nat} (h : Inv0 c s σ T vts vt vh vr) (k : Nat) :
    Inv0 c (ckS s k) σ T vts vt vh vr :=
  ⟨h.geo.ck k, ⟨h.calm.nr, h.calm.rm, h.calm.ed, h.calm.bm⟩, h.tr.ck k, h.stab, hG.cong0 h.ext rfl rfl rfl (mtOf_ck _ _)⟩

theorem RGeo.congr {s s' : S} {vt vh vR vM vn : Nat} (r : RGeo c s vt vh vR vM vn)
    (e1 : s'.j.recoverRoot = s.j.recoverRoot) (e2 : s'.j.recoverNext = s.j.recoverNext)
    (e3 : s'.j.recoverMeta = s.j.recoverMeta) (e4 : s'.j.badMeta = s.j.badMeta) :
    RGeo c s' vt vh vR vM vn := r.mono (Nat.le_refl _) e1 e2 e3 e4 r.tR

theorem Inv1.ck {s : S} {σ : Nat → Option Buf} {T : Gh c} (hG : T.Ok) {pend : Nat → Prop} {vts vt vh vr vR vM vn : Nat}
    (h : Inv1 c s σ T pend vts vt vh vr vR vM vn) (k : Nat) : Inv1 c (ckS s k) σ T pend vts vt vh vr vR vM vn := by
  refine ⟨h.geo.ck k, h.rcv, h.rgeo.congr rfl rfl rfl rfl, h.tr.ck k, h.base.ck k, ?_, ?_, hG.cong1 h.ext rfl rfl⟩ <;> rw [mtOf_ck]
  · exact h.enum
  · exact h.notM

theorem r32_ck (s : S) (k : Nat) : r32 (ckS s k).j.pageBuf 16 = k % 2 ^ 32 := r32_w32_mod

theorem Inv0.rst {s : S} {σ : Nat → Option Buf} {T : Gh c} {vts vt vh vr : Nat} (h : Inv0 c s σ T vts vt vh vr)
    (vR vM vn : Nat) : RSt c s vt vh vR vM vn := Or.inl h.calm

theorem Inv1.rst {s : S} {σ : Nat → Option Buf} {T : Gh c} {pend : Nat → Prop} {vts vt vh vr vR vM vn : Nat}
    (h : Inv1 c s σ T pend vts vt vh vr vR vM vn) : RSt c s vt vh vR vM vn := Or.inr ⟨h.rcv, h.rgeo⟩

theorem Inv0.rmok {s : S} {σ : Nat → Option Buf} {T : Gh c} {vts vt vh vr : Nat} (h : Inv0 c s σ T vts vt vh vr) :
    RmOk c s := Or.inl h.calm.rm

theorem RGeo.rmok (hc : c.Valid) {s : S} {vt vh vR vM vn : Nat} (h : RGeo c s vt vh vR vM vn) : RmOk c s := by
  rcases h.rm with h | ⟨h, _⟩
  · exact Or.inl h
  · exact Or.inr (by rw [h]; exact ph_lt hc _)

/-- A push reports nothing unusual by itself. -/
theorem push_u (T : Gh c) {wr : S → Except Err Unit × S} (hw : ∀ e0, Odd e0 → ∀ s, NE e0 (wr s)) (m : Option Buf)
    (i : Nat) (s : S) : ∀ e, (pushLoop c wr m i s).1 = .error e → (e ≠ .ub ∧ e ≠ .diverge) ∨ ∀ σ s, T.U σ e s := by
  intro e he
  refine Or.inl ⟨fun h => ?_, fun h => ?_⟩
  · exact pushLoop_ne (e0 := .ub) (Or.inr (Or.inl rfl)) wr (hw _ (Or.inr (Or.inl rfl))) m i s (by rw [he, h])
  · exact pushLoop_ne (e0 := .diverge) (Or.inr (Or.inr rfl)) wr (hw _ (Or.inr (Or.inr rfl))) m i s (by rw [he, h])

/-- Copying the current page of a sector reproduces its contents. -/
theorem copy_fill (hc : c.Valid) {s s' : S} {m : Option Buf} {vts vt vh vr t p : Nat} {σ σ' : Nat → Option Buf}
    {D : Nat → Option Nat} {root : Nat} (g : Geo c s vts vt vh) (hT : Tr c s root vt vr vh σ)
    (hid : (recOf (metaOf m)).id = t) (hd : t < NONE → dict (mtOf c s) root t = some p)
    (h1 : ∀ t' x, t' < NONE → t' ≠ t → D t' = some x → σ' t' = σ t')
    (h2 : ∀ t', t' < NONE → t' ≠ t → D t' = none → σ' t' = none) (h3 : σ' t = σ t) :
    Fill c s s' m (copyPd c p) vts vh D σ σ' := by
  refine ⟨by rw [hid]; exact h1, by rw [hid]; exact h2, ?_⟩
  rw [hid]
  rintro ht s1 vq pg _ hk hw ⟨b, e1, e2⟩ _ _
  have hd' := hd ht
  obtain ⟨b', f1, f2, f3⟩ := hT.holds t p ht hd'
  obtain ⟨v, a1, a2, a3, a4, a5, a6⟩ := hT.lt (dict_sound hT.ok (by omega) hd').1
  have : s1.n.chip.page p = s.n.chip.page p := by
    rw [a1]; exact hk.live hc hw (by have := g.l1; omega) a4
  rw [this, f1] at e1
  cases e1
  exact ⟨b, by rw [e2, f2], f2, by rw [h3]; exact f3⟩

/-! ### raw_gc -/

theorem rawGc_shape (hc : c.Valid) {s : S} {vt vr vh : Nat} {σ : Nat → Option Buf}
    (hT : Tr c s s.j.root vt vr vh σ) (hrm : RmOk c s) {src v : Nat} (hsrc : src = c.ph v) (hu : c.isU v) :
    (∃ e, rawGc c src s = (.error e, s) ∧ e = .ecc) ∨
    (rawGc c src s = (.ok (), s) ∧ ¬ Data (mtOf c s) s.j.root src) ∨
    (∃ mt, rawGc c src s = journalCopy c src mt (ckS s s.count) ∧ (recOf mt).id < NONE ∧
      dict (mtOf c s) s.j.root (recOf mt).id = some src ∧
      PathOK (mtOf c s) (dict (mtOf c s) s.j.root) (recOf mt).id (recOf mt).alt) := by
  unfold rawGc
  cases hr : readMeta c s src with
  | error e => exact Or.inl ⟨e, rfl, readMeta_ecc hc hrm hu (hsrc ▸ hr)⟩
  | ok b =>
    simp only
    have hmt := readMeta_mt hr
    by_cases hid : metaGetId b = NONE
    · rw [if_pos hid]
      refine Or.inr (Or.inl ⟨rfl, ?_⟩)
      rintro ⟨rx, h1, h2, _⟩
      rw [hmt] at h1; cases h1
      have : (recOf b).id = NONE := hid
      omega
    · rw [if_neg hid]
      have hlt : metaGetId b < NONE := by have := metaGetId_lt b; omega
      have key := tracePath_spec (nm0 := b) (fun p b' h => readMeta_mt h) hlt (hT.root_lt hc) hT.ok (hT.rd hc hrm)
      have hnd : dict (mtOf c s) s.j.root (metaGetId b) ≠ some src → ¬ Data (mtOf c s) s.j.root src := by
        rintro hne ⟨rx, h1, h2, h3⟩
        rw [hmt] at h1; cases h1
        exact hne h3
      rcases htr : tracePath c s (metaGetId b) b with ⟨e | q, nm⟩
      · rw [htr] at key
        cases e
        case notFound => exact Or.inr (Or.inl ⟨rfl, hnd (by rw [key.1]; simp)⟩)
        all_goals exact Or.inl ⟨_, rfl, key⟩
      · rw [htr] at key
        simp only at key ⊢
        obtain ⟨k1, k2, k3⟩ := key
        by_cases hq : q = src
        · rw [if_neg (by simpa using hq)]
          exact Or.inr (Or.inr ⟨nm, rfl, by rw [k3]; exact hlt, by rw [k3, k1, hq], by rw [k3]; exact k2⟩)
        · rw [if_pos hq]
          exact Or.inr (Or.inl ⟨rfl, hnd (by rw [k1]; simpa using hq)⟩)

theorem rawGc_plan {mt : Mt} {root src : Nat} {b : Buf} (hT : TreeOK mt root) (hid : (recOf b).id < NONE)
    (hd : dict mt root (recOf b).id = some src) (hP : PathOK mt (dict mt root) (recOf b).id (recOf b).alt) :
    ∃ K, Plan mt root (recOf (metaOf (some b))) (dict mt root) K ∧ ∀ x, K x → x ≠ src := by
  obtain ⟨e1, e2⟩ := recOf_metaOf (b := b)
  refine ⟨_, plan_insert hT (by rw [e1]; exact hid) ?_ (fun _ _ _ h => h), ?_⟩
  · rw [e1]; exact hP.congr e2
  · rintro x ⟨rx, h1, h2, h3, h4⟩ hx
    subst hx
    obtain ⟨_, rq, b1, b2, _⟩ := dict_sound hT (by omega) hd
    rw [h1] at b1; cases b1
    rw [e1] at h3
    exact h3 b2

theorem Made.not_data {s' : S} {vts vh v : Nat} {K : Nat → Prop} (h : Made c vts vh K s') (h1 : vts ≤ v)
    (h2 : v < vh) (hK : ¬ K (c.ph v)) : ¬ Data (mtOf c s') s'.j.root (c.ph v) := by
  obtain ⟨vq, a1, a2, a3⟩ := h
  intro hd
  rcases a3 _ hd.used with h | h
  · have := a2.inj h1 (by omega) (by omega) (Nat.le_refl _) h; omega
  · exact hK h

theorem rawGc_inv0 (hc : c.Valid) {s : S} {σ : Nat → Option Buf} {T : Gh c} (hG : T.Ok) {vts vt vh vr v : Nat}
    (hI : Inv0 c s σ T vts vt vh vr) (h1 : vts ≤ v) (h2 : v < vh) (hu : c.isU v) (hT : (rawGc c (c.ph v) s).2.n.time ≤ T.t)
    (hW : T.W σ (s.count % 2 ^ 32) s.n) :
    Out0 c s σ σ T vt (fun s' => ¬ Data (mtOf c s') s'.j.root (c.ph v) ∧ (Adv c s s' ∨ s' = s)) (rawGc c (c.ph v) s) := by
  rcases rawGc_shape hc hI.tr hI.rmok rfl hu with ⟨e, h, he⟩ | ⟨h, hd⟩ | ⟨mt, h, h3, h4, h5⟩
  · rw [h]; exact .stop s e (by rw [he]; decide) hI.geo.noub
      (by rw [he]; intro h; cases h) (hG.usoft hI (Soft.refl hI.geo.toGeo0) (Evo.refl _) (by rw [he]; decide) (by rw [he]; decide))
  · rw [h]; exact .ok s _ _ _ hI rfl ⟨hd, Or.inr rfl⟩
  · rw [h] at hT ⊢
    have hI' := hI.ck hG s.count
    rw [← mtOf_ck s s.count] at h4 h5
    obtain ⟨K, hK, hne⟩ := rawGc_plan (mt := mtOf c (ckS s s.count)) (root := (ckS s s.count).j.root) hI'.tr.ok h3 h4 h5
    have hF : ∀ s', Fill c (ckS s s.count) s' (some mt) (copyPd c (c.ph v)) vts vh
        (dict (mtOf c (ckS s s.count)) (ckS s s.count).j.root) σ σ :=
      fun s' => copy_fill hc hI'.geo hI'.tr (recOf_metaOf (b := mt)).1 (fun _ => h4) (fun _ _ _ _ _ => rfl)
        (fun t' ht _ hn => hI'.tr.emp t' ht hn) rfl
    rw [← r32_ck s] at hW
    have key := push_inv0 hc hG hI' hK (hF _) (pushLoop_spec hc (wrCopy_spec hc _) (wrCopy_evo _) 8 _ _ hI'.geo (hI'.rst 0 0 0)) hT
      (pushLoop_evo _ (wrCopy_evo _) _ _ _) (push_kp hc hI'.geo (wrCopy_here _) _ 8) (push_fd hc (wrCopy_fd _) _ 8 _) (fun _ => hG.wmono hW (pushLoop_evo _ (wrCopy_evo _) _ _ (ckS s s.count)))
      (push_u T (fun e0 ho s' => nandCopy_ne ho (Or.inr (ph_lt hc _)) _ _) _ _ _)
      (fun _ s' _ _ e1 e2 => ⟨σ, hF s', hG.wmono hW (e1.trans e2)⟩)
    exact key.mono rfl fun s' hm => ⟨hm.1.not_data h1 h2 (fun hk => hne _ hk rfl), Or.inl hm.2⟩

theorem rawGc_inv1 (hc : c.Valid) {s : S} {σ : Nat → Option Buf} {T : Gh c} (hG : T.Ok) {vts vt vh vr vR vM vn v : Nat}
    (hI : Inv1 c s σ T (fun x => x = c.ph v) vts vt vh vr vR vM vn) (hu : c.isU v)
    (hW : T.W σ (s.count % 2 ^ 32) s.n) :
    Out1 c s σ T vt 0 (rawGc c (c.ph v) s) := by
  rcases rawGc_shape hc hI.tr (hI.rgeo.rmok hc) rfl hu with ⟨e, h, he⟩ | ⟨h, hd⟩ | ⟨mt, h, h3, h4, h5⟩
  · rw [h]; exact .stop s e (by rw [he]; decide) hI.geo.noub
      (by rw [he]; intro h; cases h) (hG.uhard hI (Nat.le_refl _) (by rw [he]; decide) (by rw [he]; decide))
  · rw [h]
    refine .ok s _ _ _ _ _ _ ⟨hI.geo, hI.rcv, hI.rgeo, hI.tr, hI.base, ?_, hI.notM, hI.ext⟩ rfl (Nat.le_refl _) (fun _ => Nat.le_refl _)
    intro w b1 b2 b3 b4
    obtain ⟨e1, e2⟩ := hI.enum w b1 b2 b3 b4
    refine ⟨e1, ?_⟩
    rcases e2 with e2 | e2
    · exact Or.inl e2
    · rw [e2] at b3; exact absurd b3 hd
  · rw [h]
    have hI' := hI.ck hG s.count
    rw [← mtOf_ck s s.count] at h4 h5
    obtain ⟨K, hK, hne⟩ := rawGc_plan (mt := mtOf c (ckS s s.count)) (root := (ckS s s.count).j.root) hI'.tr.ok h3 h4 h5
    have hF : ∀ s', Fill c (ckS s s.count) s' (some mt) (copyPd c (c.ph v)) vts vh
        (dict (mtOf c (ckS s s.count)) (ckS s s.count).j.root) σ σ :=
      fun s' => copy_fill hc hI'.geo hI'.tr (recOf_metaOf (b := mt)).1 (fun _ => h4) (fun _ _ _ _ _ => rfl)
        (fun t' ht _ hn => hI'.tr.emp t' ht hn) rfl
    rw [← r32_ck s] at hW
    have key := push_inv1 hc hG hI' hK (hF _) hne (pushLoop_spec hc (wrCopy_spec hc _) (wrCopy_evo _) 8 _ _ hI'.geo hI'.rst)
      (pushLoop_evo _ (wrCopy_evo _) _ _ _) (push_kp hc hI'.geo (wrCopy_here _) _ 8) (pushLoop_rcv (wrCopy_j _) _ 8 _ hI'.rcv) (push_fd hc (wrCopy_fd _) _ 8 _) hW
      (push_u T (fun e0 ho s' => nandCopy_ne ho (Or.inr (ph_lt hc _)) _ _) _ _ _)
    exact key.mono rfl rfl rfl (by omega)

/-! ### pad_queue -/

theorem padQueue_shape (hc : c.Valid) {s : S} {vts vt vr vh : Nat} {σ : Nat → Option Buf} (g : Geo c s vts vt vh)
    (hT : Tr c s s.j.root vt vr vh σ) (hrm : RmOk c s) :
    (∃ e, padQueue c s = (.error e, ckS s s.count) ∧ e = .ecc) ∨
    (∃ wr m Pd D K, padQueue c s = pushLoop c wr m 8 (ckS s s.count) ∧ WrSpec c wr Pd ∧ (∀ s, Evo c s.n (wr s).2.n) ∧ WrHere c wr ∧
      (∀ e0, Odd e0 → ∀ s, NE e0 (wr s)) ∧ Plan (mtOf c (ckS s s.count)) (ckS s s.count).j.root (recOf (metaOf m)) D K ∧
      ∀ s', Fill c (ckS s s.count) s' m Pd vts vh D σ σ) := by
  have hTk := hT.ck s.count
  unfold padQueue
  simp only
  by_cases hroot : s.j.root = NONE
  · rw [if_pos hroot]
    refine Or.inr ⟨_, _, _, _, _, rfl, wrData_spec hc none, wrData_evo none, wrData_here _, (fun _ _ _ => ne_ok), plan_filler recOf_metaOf_none, ?_⟩
    intro s'
    refine ⟨(fun _ _ _ _ h => by cases h), ?_, (fun h => by rw [recOf_metaOf_none] at h; omega)⟩
    intro t ht _ _
    exact hT.emp t ht (dict_none hroot t)
  · rw [if_neg hroot]
    change (∃ e, (match readMeta c (ckS s s.count) s.j.root with | Except.error e => (Except.error e, ckS s s.count) | Except.ok mt => journalCopy c s.j.root mt (ckS s s.count)) = _ ∧ _) ∨ (∃ wr m Pd D K, (match readMeta c (ckS s s.count) s.j.root with | Except.error e => (Except.error e, ckS s s.count) | Except.ok mt => journalCopy c s.j.root mt (ckS s s.count)) = _ ∧ _)
    cases hr : readMeta c (ckS s s.count) s.j.root with
    | error e => exact Or.inl ⟨e, rfl, hTk.rd hc hrm _ ⟨hroot, Or.inl rfl⟩ e hr⟩
    | ok b =>
      have hmt := readMeta_mt hr
      obtain ⟨e1, e2⟩ := recOf_metaOf (b := b)
      have hrp : s.j.root < c.pages := by
        rcases hT.rt with h | ⟨h, _⟩
        · exact absurd h hroot
        · rw [h]; exact ph_lt hc _
      rcases hTk.ok with h | ⟨r, h, hid⟩ | hw
      · exact absurd h hroot
      · rw [hmt] at h
        cases h
        refine Or.inr ⟨_, some b, _, _, _, rfl, wrCopy_spec hc s.j.root, wrCopy_evo _, wrCopy_here _, (fun e0 ho s' => nandCopy_ne ho (Or.inr hrp) _ _), plan_filler (by rw [e1]; exact hid), ?_⟩
        intro s'
        refine ⟨(fun _ _ _ _ h => by cases h), ?_, (fun h => by rw [e1] at h; omega)⟩
        intro t ht _ _
        exact hTk.emp t ht (dict_filler hmt hid t)
      · obtain ⟨r, hr', hid⟩ := hw.rec_of
        rw [hmt] at hr'
        cases hr'
        have hP := root_path hw hroot hmt
        have hd : dict (mtOf c (ckS s s.count)) s.j.root (recOf b).id = some s.j.root := by
          rw [dict_eq hroot]
          have := tfind_stay (t := (recOf b).id) hmt hid (d := 0) (i := 32) (by omega) (by omega) (fun _ _ _ => rfl)
          rw [this]; rfl
        obtain ⟨K, hK, _⟩ := rawGc_plan (mt := mtOf c (ckS s s.count)) (root := s.j.root) hTk.ok hid hd hP
        exact Or.inr ⟨_, some b, _, _, K, rfl, wrCopy_spec hc s.j.root, wrCopy_evo _, wrCopy_here _, (fun e0 ho s' => nandCopy_ne ho (Or.inr hrp) _ _), hK,
          fun s' => copy_fill hc (g.ck s.count) hTk e1 (fun _ => hd) (fun _ _ _ _ _ => rfl)
            (fun t' ht _ hn => hTk.emp t' ht hn) rfl⟩

theorem padQueue_inv0 (hc : c.Valid) {s : S} {σ : Nat → Option Buf} {T : Gh c} (hG : T.Ok) {vts vt vh vr : Nat}
    (hI : Inv0 c s σ T vts vt vh vr) (hT : (padQueue c s).2.n.time ≤ T.t)
    (hW : T.W σ (s.count % 2 ^ 32) s.n) :
    Out0 c s σ σ T vt (Adv c s) (padQueue c s) := by
  have hI' := hI.ck hG s.count
  rcases padQueue_shape hc hI.geo hI.tr hI.rmok with ⟨e, h, he⟩ | ⟨wr, m, Pd, D, K, h, h1, h2, hh, hn, h3, h4⟩
  · rw [h]; exact .stop _ e (by rw [he]; decide) hI.geo.noub
      (by rw [he]; intro h; cases h) (hG.usoft hI' (Soft.refl hI'.geo.toGeo0) (Evo.refl _) (by rw [he]; decide) (by rw [he]; decide))
  · rw [h] at hT ⊢
    rw [← r32_ck s] at hW
    exact (push_inv0 hc hG hI' h3 (h4 _) (pushLoop_spec hc h1 h2 8 _ _ hI'.geo (hI'.rst 0 0 0)) hT
      (pushLoop_evo _ h2 _ _ _) (push_kp hc hI'.geo hh _ 8) (push_fd hc hh.fd _ 8 _) (fun _ => hG.wmono hW (pushLoop_evo _ h2 _ _ (ckS s s.count)))
      (push_u T hn _ _ _)
      (fun _ s' _ _ e1 e2 => ⟨σ, h4 s', hG.wmono hW (e1.trans e2)⟩)).mono rfl fun _ h => h.2

theorem padQueue_inv1 (hc : c.Valid) {s : S} {σ : Nat → Option Buf} {T : Gh c} (hG : T.Ok) {vts vt vh vr vR vM vn : Nat}
    (hI : Inv1 c s σ T (fun _ => False) vts vt vh vr vR vM vn)
    (hW : T.W σ (s.count % 2 ^ 32) s.n) :
    Out1 c s σ T vt 1 (padQueue c s) := by
  have hI' := hI.ck hG s.count
  rcases padQueue_shape hc hI.geo hI.tr (hI.rgeo.rmok hc) with ⟨e, h, he⟩ | ⟨wr, m, Pd, D, K, h, h1, h2, hh, hn, h3, h4⟩
  · rw [h]; exact .stop _ e (by rw [he]; decide) hI.geo.noub
      (by rw [he]; intro h; cases h) (hG.uhard hI' (Nat.le_refl _) (by rw [he]; decide) (by rw [he]; decide))
  · rw [h]
    rw [← r32_ck s] at hW
    exact (push_inv1 hc hG hI' h3 (h4 _) (fun _ _ h => h) (pushLoop_spec hc h1 h2 8 _ _ hI'.geo hI'.rst)
      (pushLoop_evo _ h2 _ _ _) (push_kp hc hI'.geo hh _ 8) (pushLoop_rcv (fun s => (hh.at_ s).elim (fun h => h.2) fun ⟨_, h⟩ => h.2) _ 8 _ hI'.rcv) (push_fd hc hh.fd _ 8 _) hW (push_u T hn _ _ _)).mono rfl rfl rfl (by omega)

/-! ### try_recover -/

theorem nextRecoverable_inv (hc : c.Valid) {s : S} {σ : Nat → Option Buf} {T : Gh c} (hG : T.Ok) {vts vt vh vr vR vM vn : Nat}
    (hI : Inv1 c s σ T (fun _ => False) vts vt vh vr vR vM vn) :
    (nextRecoverable c s = (NONE, s) ∧ s.j.enumDone = true) ∨
    (∃ v s', nextRecoverable c s = (c.ph v, s') ∧ s'.count = s.count ∧ c.isU v ∧ rmeas c s' < rmeas c s ∧
      ∃ vn', Inv1 c s' σ T (fun x => x = c.ph v) vts vt vh vr vR vM vn') := by
  have hrg := hI.rgeo
  unfold nextRecoverable
  simp only
  rw [if_neg (by simp [hI.rcv])]
  by_cases hed : s.j.enumDone = true
  · rw [if_pos hed]; exact Or.inl ⟨rfl, hed⟩
  · rw [if_neg hed]
    have hed' : s.j.enumDone = false := by simpa using hed
    have hRvh : vR < vh := by
      apply Classical.byContradiction; intro hn
      have := Nat.div_le_div_right (c := c.ppb) (by omega : vh ≤ vR); have := hrg.bR; omega
    right
    by_cases he' : s.j.recoverNext = s.j.recoverRoot
    · rw [if_pos he']
      have he := he'
      rw [hrg.rn, hrg.rr] at he
      have hvn : vn = vR := by
        rw [ph_eq_div_mod, ph_eq_div_mod c vR, hrg.nb] at he
        have h1 := div_mod_range vn c.ppb
        have h2 := div_mod_range vR c.ppb
        rw [hrg.nb] at h1; omega
      subst hvn
      refine ⟨vn, _, Prod.ext hrg.rn rfl, rfl, hrg.un, ?_, vn, ⟨⟨⟨hI.geo.ets, hI.geo.et, hI.geo.eh, hI.geo.uts, hI.geo.ut, hI.geo.uh, hI.geo.l1,
        hI.geo.l2, hI.geo.win, hI.geo.ep, hI.geo.alive, hI.geo.noub⟩, hI.geo.hfree⟩, hI.rcv, hrg.congr rfl rfl rfl rfl, ?_, ?_, ?_, hI.notM, hG.cong1 hI.ext rfl rfl⟩⟩
      · unfold rmeas
        rw [if_pos rfl, if_neg hed]
        show c.ppc - s.j.head % c.ppc < _
        omega
      · exact ⟨hI.tr.rt, hI.tr.ok, hI.tr.live, hI.tr.emp, hI.tr.holds⟩
      · exact ⟨hI.base.rt, hI.base.ok, hI.base.live, hI.base.emp, hI.base.holds⟩
      · intro v b1 b2 b3 b4
        obtain ⟨e1, e2⟩ := hI.enum v b1 b2 b3 b4
        refine ⟨e1, Or.inr ?_⟩
        rcases e2 with e2 | e2
        · rw [show v = vn by omega]
        · exact e2.elim
    · rw [if_neg he']
      have hne : vn ≠ vR := fun h => he' (by rw [hrg.rn, hrg.rr, h])
      have hlt : vn < vR := by have := hrg.nR; omega
      have hnx := nextV_le hc hrg.un hrg.uR hlt
      have hl := lt_nextV c vn
      refine ⟨vn, _, Prod.ext hrg.rn rfl, rfl, hrg.un, ?_, c.nextV vn, ⟨⟨⟨hI.geo.ets, hI.geo.et, hI.geo.eh, hI.geo.uts, hI.geo.ut, hI.geo.uh, hI.geo.l1,
        hI.geo.l2, hI.geo.win, hI.geo.ep, hI.geo.alive, hI.geo.noub⟩, hI.geo.hfree⟩, hI.rcv, ?_, ?_, ?_, ?_, hI.notM, hG.cong1 hI.ext rfl rfl⟩⟩
      · unfold rmeas
        rw [if_neg (show ¬ (s.j.enumDone = true) from hed), if_neg hed]
        show (s.j.recoverRoot % c.ppb - nextUpage c s.j.recoverNext % c.ppb) + c.ppc + 2 < _
        rw [hrg.rn, nextUpage_ph hc hrg.un, hrg.rr, ph_mod_ppb c, ph_mod_ppb c, ph_mod_ppb c]
        have h1 := Nat.div_le_div_right (c := c.ppb) hnx
        have h2 := Nat.div_le_div_right (c := c.ppb) (Nat.le_of_lt hl)
        have h3 := hrg.nb
        have d1 := div_mod_range vn c.ppb
        have d2 := div_mod_range vR c.ppb
        have d3 := div_mod_range (c.nextV vn) c.ppb
        rw [show c.nextV vn / c.ppb = vR / c.ppb by omega] at d3
        rw [h3] at d1
        omega
      · refine ⟨hrg.rr, hrg.uR, hrg.tR, hrg.bR, ?_, nextV_isU hc hrg.un, hnx, ?_, hrg.rm, hrg.bm⟩
        · show nextUpage c s.j.recoverNext = _
          rw [hrg.rn]; exact nextUpage_ph hc hrg.un
        · have h1 := Nat.div_le_div_right (c := c.ppb) hnx
          have h2 := Nat.div_le_div_right (c := c.ppb) (Nat.le_of_lt hl)
          have := hrg.nb; omega
      · exact ⟨hI.tr.rt, hI.tr.ok, hI.tr.live, hI.tr.emp, hI.tr.holds⟩
      · exact ⟨hI.base.rt, hI.base.ok, hI.base.live, hI.base.emp, hI.base.holds⟩
      · intro v b1 b2 b3 b4
        obtain ⟨e1, e2⟩ := hI.enum v b1 b2 b3 b4
        refine ⟨e1, ?_⟩
        rcases e2 with e2 | e2
        · by_cases hv : v = vn
          · exact Or.inr (by rw [hv])
          · refine Or.inl ⟨hed', ?_⟩
            obtain ⟨w, w1, w2, w3, w4, w5, _⟩ := hI.tr.lt (Data.used b3)
            have hl1 := hI.geo.l1
            have : v = w := hI.geo.win.inj (by omega) (by omega) (by omega) (by omega) w1
            subst this
            exact nextV_le hc hrg.un w5 (by have := e2.2; omega)
        · exact e2.elim

/-- Result of an operation that must end in normal operation to succeed; the tail stays put. -/
inductive Done (c : Cfg) (s : S) (σ : Nat → Option Buf) (T : Gh c) (vt k : Nat) : Except Err Unit × S → Prop
  | ok (s' : S) (vts vh vr : Nat) (h : Inv0 c s' σ T vts vt vh vr) (hcnt : s'.count = s.count) (hk : goodCount c s'.n < k) :
      Done c s σ T vt k (.ok (), s')
  | stop (s' : S) (e : Err) (hub : s'.n.ub = false) (hcr : e = .powerLoss → T.X s') (hu : T.U σ e s') : Done c s σ T vt k (.error e, s')

theorem Done.mono {s s0 : S} {σ : Nat → Option Buf} {T : Gh c} {vt k : Nat} {r : Except Err Unit × S}
    (h : Done c s σ T vt k r) (hs : s.count = s0.count) : Done c s0 σ T vt k r := by
  cases h with
  | ok s' _ _ _ h hc' hk => exact .ok s' _ _ _ h (hc'.trans hs) hk
  | stop s' e hu hx hU => exact .stop s' e hu hx hU

theorem Done.good {s s' : S} {σ : Nat → Option Buf} {T : Gh c} {vt k : Nat} {r : Except Err Unit × S}
    (h : Done c s σ T vt k r) (hr : r = (.ok (), s')) : goodCount c s'.n < k := by
  cases h with
  | ok s' _ _ _ h hc' hk => cases hr; exact hk
  | stop s' e hu hx hU => cases hr

theorem Inv0.notRec {s : S} {σ : Nat → Option Buf} {T : Gh c} {vts vt vh vr : Nat} (h : Inv0 c s σ T vts vt vh vr) :
    ¬ (s.j.recovery = true) := by rw [h.calm.nr]; simp

theorem nextUpage_lt (hc : c.Valid) (p : Nat) : nextUpage c p < c.pages := by
  have := hc.pages_pos
  unfold nextUpage
  simp only
  repeat' split
  all_goals omega

theorem zombie_loop (hc : c.Valid) : ∀ f r s, Zombie s → ∃ e s', tryRecoverLoop c f r s = (.error e, s') ∧ s'.n = s.n ∧ s'.j.recovery = true ∧ s'.j.recoverRoot = NONE := by
  intro f
  induction f with
  | zero => intro r s hz; exact ⟨_, s, rfl, rfl, hz.rcv, hz.rr⟩
  | succ f ih =>
    intro r s hz
    have hn : nextRecoverable c s = (s.j.recoverNext, { s with j := { s.j with recoverNext := nextUpage c s.j.recoverNext } }) := by
      unfold nextRecoverable
      simp only
      rw [if_neg (by simp [hz.rcv]), if_neg (by simp [hz.en]), if_neg (by rw [hz.rr]; exact hz.rn)]
    unfold tryRecoverLoop
    rw [if_neg (by simp [hz.rcv])]
    simp only [hn]
    rw [if_neg hz.rn]
    generalize hs1 : ({ s with j := { s.j with recoverNext := nextUpage c s.j.recoverNext } } : S) = s1
    have hz1 : Zombie s1 := by
      subst hs1
      refine ⟨hz.rcv, hz.root, hz.rr, hz.en, ?_⟩
      have := nextUpage_lt hc s.j.recoverNext
      have := hc.pages_hi
      show nextUpage c s.j.recoverNext ≠ NONE
      omega
    have hn1 : s1.n = s.n := by subst hs1; rfl
    have hg : rawGc c s.j.recoverNext s1 = (.ok (), s1) ∨
        ∃ e, e ≠ .recover ∧ rawGc c s.j.recoverNext s1 = (.error e, s1) := by
      unfold rawGc
      cases hr : readMeta c s1 s.j.recoverNext with
      | error e => exact Or.inr ⟨e, by rcases readMeta_err hr with h | h <;> rw [h] <;> decide, rfl⟩
      | ok b =>
        simp only
        by_cases hid : metaGetId b = NONE
        · rw [if_pos hid]; exact Or.inl rfl
        · rw [if_neg hid]
          have : tracePath c s1 (metaGetId b) b = (.error .notFound, fillNone 32 0 (metaSetId b (metaGetId b))) := by
            unfold tracePath
            simp only
            rw [if_pos hz1.root]
          rw [this]; exact Or.inl rfl
    rcases hg with h | ⟨e, he, h⟩
    · rw [h]
      obtain ⟨e, s', h1, h2, h3⟩ := ih r s1 hz1
      exact ⟨e, s', h1, h2.trans hn1, h3⟩
    · rw [h]
      simp only
      rw [if_pos he]
      exact ⟨e, s1, rfl, hn1, hz1.rcv, hz1.rr⟩

theorem rmeas_le (s : S) : rmeas c s ≤ rmax c := by
  have := Nat.mod_lt s.j.recoverRoot (ppb_pos c)
  unfold rmeas rmax
  split <;> omega

theorem tryRecoverLoop_inv (hc : c.Valid) {σ : Nat → Option Buf} {T : Gh c} (hG : T.Ok) {vt : Nat} : ∀ f r s k,
    (∃ vts vh vr vR vM vn, Inv1 c s σ T (fun _ => False) vts vt vh vr vR vM vn) ∨
      (∃ vts vh vr, Inv0 c s σ T vts vt vh vr) →
    T.W σ (s.count % 2 ^ 32) s.n →
    (s.j.recovery = true → goodCount c s.n ≤ k) → (¬ s.j.recovery = true → goodCount c s.n < k) →
    ((∀ σ s, T.U σ .diverge s) ∨ (1 ≤ f ∧ (s.j.recovery = true → (8 - r) * (rmax c + 1) + rmeas c s + 2 ≤ f))) →
    Done c s σ T vt k (tryRecoverLoop c f r s) := by
  intro f
  induction f with
  | zero =>
    intro r s k h hW _ _ hf
    refine .stop s .diverge ?_ (by intro h; cases h) (by
      rcases hf with hf | ⟨hf, _⟩
      · exact hf _ _
      · omega)
    rcases h with ⟨_, _, _, _, _, _, h⟩ | ⟨_, _, _, h⟩ <;> exact h.geo.noub
  | succ f ih =>
    intro r s k h hW hk hk' hf
    rcases h with ⟨vts, vh, vr, vR, vM, vn, hI⟩ | ⟨vts, vh, vr, hI⟩
    · unfold tryRecoverLoop
      rw [if_neg (by simp [hI.rcv])]
      simp only
      have hk := hk hI.rcv
      have hf : (∀ σ s, T.U σ .diverge s) ∨ (8 - r) * (rmax c + 1) + rmeas c s + 2 ≤ f + 1 := by
        rcases hf with h | ⟨_, h⟩
        · exact Or.inl h
        · exact Or.inr (h hI.rcv)
      have fin : ∀ (s1 : S) (d : Nat) (q : Except Err Unit × S), s1.count = s.count → s1.n = s.n →
          rmeas c s1 + 1 ≤ rmeas c s + d → (d = 1 → s1.j.enumDone = true) → d ≤ 1 → Evo c s.n q.2.n → Out1 c s1 σ T vt d q →
          Done c s σ T vt k (match q with
            | (.ok (), s) => tryRecoverLoop c f r s
            | (.error e, s) =>
              if e ≠ .recover then (.error e, s)
              else if r ≥ 8 then (.error .tooBad, s)
              else tryRecoverLoop c f (r + 1) s) := by
        intro s1 d q hs1 hn1 hm1 hd1 hd2 hE ho
        have hge := goodCount_mono hE
        cases ho with
        | ok s' _ _ _ _ _ _ h hcnt hm hm' =>
          refine (ih r s' k (Or.inl ⟨_, _, _, _, _, _, h⟩) (by rw [hcnt, hs1]; exact hG.wmono hW hE)
            (fun _ => by simp only at hge; omega) (fun hn => absurd h.rcv hn) ?_).mono (hcnt.trans hs1)
          rcases hf with hf | hf
          · exact Or.inl hf
          · refine Or.inr ?_
            have : rmeas c s' + 1 ≤ rmeas c s := by
              by_cases hd : d = 1
              · have := hm' (hd1 hd); omega
              · omega
            exact ⟨by omega, fun _ => by omega⟩
        | done s' _ _ _ h hcnt hg =>
          refine (ih r s' k (Or.inr ⟨_, _, _, h⟩) (by rw [hcnt, hs1]; exact hG.wmono hW hE)
            (fun hr => absurd hr h.notRec) (fun _ => by rw [hn1] at hg; omega) ?_).mono (hcnt.trans hs1)
          rcases hf with hf | hf
          · exact Or.inl hf
          · exact Or.inr ⟨by omega, fun hr => absurd hr h.notRec⟩
        | again s' _ _ _ _ _ _ h hcnt =>
          simp only [ne_eq, not_true_eq_false, if_false]
          split
          · exact .stop _ _ h.geo.noub (by intro h; cases h) (hG.uhard h (Nat.le_refl _) (by decide) (by decide))
          · rename_i hr8
            refine (ih (r + 1) s' k (Or.inl ⟨_, _, _, _, _, _, h⟩) (by rw [hcnt, hs1]; exact hG.wmono hW hE)
              (fun _ => by simp only at hge; omega) (fun hn => absurd h.rcv hn) ?_).mono (hcnt.trans hs1)
            rcases hf with hf | hf
            · exact Or.inl hf
            · refine Or.inr ?_
              have h1 := rmeas_le (c := c) s'
              have h2 : 8 - r = (8 - (r + 1)) + 1 := by omega
              rw [h2, Nat.succ_mul] at hf
              exact ⟨by omega, fun _ => by omega⟩
        | stop s' e he hub hx hU =>
          simp only
          rw [if_pos he]; exact .stop _ _ hub hx hU
      have hnr := nextRecoverable_n (c := c) s
      rcases nextRecoverable_inv hc hG hI with ⟨h, hed⟩ | ⟨v, s', h, hcnt, hu, hm, vn', hI'⟩
      · rw [h]
        exact fin s 1 _ rfl rfl (Nat.le_refl _) (fun _ => hed) (Nat.le_refl _) (by simp only [if_true]; exact padQueue_evo _) (by simp only [if_true]; exact padQueue_inv1 hc hG hI hW)
      · rw [h]
        rw [h] at hnr
        simp only at hnr
        exact fin s' 0 _ hcnt hnr hm (by omega) (by omega) (by simp only; rw [if_neg (ph_ne_none hc v), ← hnr]; exact rawGc_evo _ _) (by simp only; rw [if_neg (ph_ne_none hc v)]; exact rawGc_inv1 hc hG hI' hu (by rw [hcnt, hnr]; exact hW))
    · unfold tryRecoverLoop
      rw [if_pos hI.notRec]
      exact .ok s _ _ _ hI rfl (hk' hI.notRec)

/-- After a push-like operation that failed, try_recover gets back to normal operation. -/
theorem tryRecover_inv (hc : c.Valid) {s s' : S} {e : Err} {σ σ' : Nat → Option Buf} {T : Gh c} (hG : T.Ok) {vt : Nat} {Q : S → Prop}
    (h : Out0 c s σ σ' T vt Q (.error e, s')) (hW : T.W σ (s.count % 2 ^ 32) s'.n) : Done c s σ T vt (goodCount c s'.n) (tryRecover c e s') := by
  unfold tryRecover
  cases h with
  | recov _ _ _ _ _ _ _ h hcnt =>
    simp only [ne_eq, not_true_eq_false, if_false]
    refine (tryRecoverLoop_inv hc hG _ _ _ _ (Or.inl ⟨_, _, _, _, _, _, h⟩) (by rw [hcnt]; exact hW)
      (fun _ => Nat.le_refl _) (fun hn => absurd h.rcv hn) ?_).mono hcnt
    rcases hG.udiv with hd | hd
    · exact Or.inl hd
    · have := rmeas_le (c := c) s'
      unfold fuelBound at hd
      exact Or.inr ⟨by omega, fun _ => by omega⟩
  | zombie _ h hub hcnt hx hz hno =>
    simp only [ne_eq, not_true_eq_false, if_false]
    obtain ⟨e, s2, h1, h2, h3, h4⟩ := zombie_loop hc c.fuel 0 s' h
    rw [h1]; exact .stop _ _ (by rw [h2]; exact hub) (fun _ => hx _ h2 h3) (by
      obtain ⟨s0, _, _, _, _, hi, hn⟩ := hno
      exact hG.ustuck h3 h4 hW hub hz hi (by rw [h2]; exact hn))
  | stop _ _ he hub hx hU => rw [if_pos he]; exact .stop _ _ hub hx hU

end Dhara

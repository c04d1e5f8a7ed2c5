/-
write, copy_page, trim, clear (dhara/map.c:92-98, 322-484).
-/
import Verif.Props.MapSpec
import Verif.Proofs.Deq
import Verif.Proofs.Full
import Mathlib.Data.Finset.Card
namespace Dhara

variable {c : Cfg}

/-- `n` is the number of sectors mapped in `σ`. -/
def Cnt (σ : Nat → Option Buf) (n : Nat) : Prop :=
  ∃ F : Finset Nat, (∀ t, t ∈ F ↔ t < NONE ∧ (σ t).isSome = true) ∧ F.card = n

theorem Cnt.lt {σ : Nat → Option Buf} {n : Nat} (h : Cnt σ n) : n < 2 ^ 32 := by
  obtain ⟨F, h1, h2⟩ := h
  have : F ⊆ Finset.range NONE := by
    intro t ht; rw [Finset.mem_range]; exact ((h1 t).1 ht).1
  have h3 := Finset.card_le_card this
  rw [Finset.card_range] at h3
  omega

theorem Cnt.insert_new {σ : Nat → Option Buf} {n t : Nat} {b : Buf} (h : Cnt σ n) (ht : t < NONE) (hn : σ t = none) :
    Cnt (upd σ t (some b)) (n + 1) := by
  obtain ⟨F, h1, h2⟩ := h
  refine ⟨insert t F, ?_, ?_⟩
  · intro k
    rw [Finset.mem_insert, h1]
    unfold upd
    by_cases hk : k = t
    · subst hk; simp; omega
    · simp [hk]
  · rw [Finset.card_insert_of_notMem (by rw [h1, hn]; simp), h2]

theorem Cnt.insert_old {σ : Nat → Option Buf} {n t : Nat} {b b' : Buf} (h : Cnt σ n) (hn : σ t = some b') :
    Cnt (upd σ t (some b)) n := by
  obtain ⟨F, h1, h2⟩ := h
  refine ⟨F, ?_, h2⟩
  intro k
  rw [h1]
  unfold upd
  by_cases hk : k = t
  · subst hk; simp [hn]
  · simp [hk]

theorem Cnt.erase {σ : Nat → Option Buf} {n t : Nat} {b' : Buf} (h : Cnt σ n) (ht : t < NONE) (hn : σ t = some b') :
    Cnt (upd σ t none) (n - 1) ∧ 1 ≤ n := by
  obtain ⟨F, h1, h2⟩ := h
  have hm : t ∈ F := by rw [h1, hn]; exact ⟨ht, rfl⟩
  refine ⟨⟨F.erase t, ?_, ?_⟩, ?_⟩
  · intro k
    rw [Finset.mem_erase, h1]
    unfold upd
    by_cases hk : k = t
    · subst hk; simp
    · simp [hk]
  · rw [Finset.card_erase_of_mem hm, h2]
  · rw [← h2]; exact Finset.card_pos.2 ⟨t, hm⟩

theorem Cnt.erase_none {σ : Nat → Option Buf} {n t : Nat} (h : Cnt σ n) (hn : σ t = none) : Cnt (upd σ t none) n := by
  obtain ⟨F, h1, h2⟩ := h
  refine ⟨F, ?_, h2⟩
  intro k
  rw [h1]
  unfold upd
  by_cases hk : k = t
  · subst hk; simp [hn]
  · simp [hk]

theorem Cnt.zero {σ : Nat → Option Buf} (h : ∀ t, t < NONE → σ t = none) : Cnt σ 0 := by
  refine ⟨∅, ?_, rfl⟩
  intro t
  constructor
  · intro h'; exact absurd h' (Finset.notMem_empty t)
  · rintro ⟨h1, h2⟩; rw [h t h1] at h2; cases h2

theorem Cnt.zero_iff {σ : Nat → Option Buf} (h : Cnt σ 0) : ∀ t, t < NONE → σ t = none := by
  obtain ⟨F, h1, h2⟩ := h
  intro t ht
  rw [Finset.card_eq_zero] at h2
  subst h2
  cases hs : σ t with
  | none => rfl
  | some b => exact absurd ((h1 t).2 ⟨ht, by rw [hs]; rfl⟩) (Finset.notMem_empty t)

theorem Cnt.unique {σ : Nat → Option Buf} {n m : Nat} (h : Cnt σ n) (h' : Cnt σ m) : n = m := by
  obtain ⟨F, h1, h2⟩ := h
  obtain ⟨G, h3, h4⟩ := h'
  have : F = G := by ext t; rw [h1, h3]
  rw [← h2, ← h4, this]

theorem Cnt.congr {σ σ' : Nat → Option Buf} {n : Nat} (h : Cnt σ n) (he : ∀ t, t < NONE → σ' t = σ t) : Cnt σ' n := by
  obtain ⟨F, h1, h2⟩ := h
  refine ⟨F, fun t => ?_, h2⟩
  rw [h1]
  constructor
  · rintro ⟨a, b⟩; exact ⟨a, by rw [he t a]; exact b⟩
  · rintro ⟨a, b⟩; exact ⟨a, by rw [← he t a]; exact b⟩

/-- Only the contents of existing sectors matter. -/
theorem Tr.sig {s : S} {root vt vr vh : Nat} {σ σ' : Nat → Option Buf} (h : Tr c s root vt vr vh σ)
    (he : ∀ t, t < NONE → σ' t = σ t) : Tr c s root vt vr vh σ' :=
  ⟨h.rt, h.ok, h.live, fun t ht hd => by rw [he t ht]; exact h.emp t ht hd,
   fun t q ht hd => by obtain ⟨b, h1, h2, h3⟩ := h.holds t q ht hd; exact ⟨b, h1, h2, by rw [he t ht]; exact h3⟩⟩

theorem Inv0.sig {s : S} {σ σ' : Nat → Option Buf} {T : Gh c} {vts vt vh vr : Nat} (h : Inv0 c s σ T vts vt vh vr)
    (he : ∀ t, t < NONE → σ' t = σ t) : Inv0 c s σ' T vts vt vh vr := ⟨h.geo, h.calm, h.tr.sig he, h.stab, h.ext⟩

theorem Calm0.sig {s : S} {σ σ' : Nat → Option Buf} {T : Gh c} (h : Calm0 c s σ T)
    (he : ∀ t, t < NONE → σ' t = σ t) : Calm0 c s σ' T := by
  obtain ⟨a, b, d, e, h⟩ := h; exact ⟨a, b, d, e, h.sig he⟩

/-- The same state with another sector count. -/
def cntS (s : S) (k : Nat) : S := { s with count := k }

theorem Geo.cnt {s : S} {vts vt vh : Nat} (g : Geo c s vts vt vh) (k : Nat) : Geo c (cntS s k) vts vt vh :=
  ⟨⟨g.ets, g.et, g.eh, g.uts, g.ut, g.uh, g.l1, g.l2, g.win, g.ep, g.alive, g.noub⟩, g.hfree⟩

theorem Tr.cnt {s : S} {root vt vr vh : Nat} {σ : Nat → Option Buf} (h : Tr c s root vt vr vh σ) (k : Nat) :
    Tr c (cntS s k) root vt vr vh σ := h.congr rfl rfl

theorem Inv0.cnt {s : S} {σ : Nat → Option Buf} {T : Gh c} (hG : T.Ok) {vts vt vh vr : Nat} (h : Inv0 c s σ T vts vt vh vr) (k : Nat) :
    Inv0 c (cntS s k) σ T vts vt vh vr :=
  ⟨h.geo.cnt k, ⟨h.calm.nr, h.calm.rm, h.calm.ed, h.calm.bm⟩, h.tr.cnt k, h.stab, hG.cong0 h.ext rfl rfl rfl rfl⟩

theorem Inv1.cnt {s : S} {σ : Nat → Option Buf} {T : Gh c} (hG : T.Ok) {pend : Nat → Prop} {vts vt vh vr vR vM vn : Nat}
    (h : Inv1 c s σ T pend vts vt vh vr vR vM vn) (k : Nat) : Inv1 c (cntS s k) σ T pend vts vt vh vr vR vM vn :=
  ⟨h.geo.cnt k, h.rcv, h.rgeo.congr rfl rfl rfl rfl, h.tr.cnt k, h.base.cnt k, h.enum, h.notM, hG.cong1 h.ext rfl rfl⟩

theorem Calm0.cnt {s : S} {σ : Nat → Option Buf} {T : Gh c} (hG : T.Ok) (h : Calm0 c s σ T) (k : Nat) : Calm0 c (cntS s k) σ T := by
  obtain ⟨a, b, d, e, h⟩ := h; exact ⟨a, b, d, e, h.cnt hG k⟩

/-- try_recover after the count was put back. -/
theorem tryRecover_cnt (hc : c.Valid) {s s' s0 : S} {e : Err} {σ σ' : Nat → Option Buf} {T : Gh c} (hG : T.Ok) {vt : Nat} {Q : S → Prop}
    (h : Out0 c s σ σ' T vt Q (.error e, s')) (hW : T.W σ (s0.count % 2 ^ 32) s'.n) : Same c s0 σ T (tryRecover c e (cntS s' s0.count)) ∧
    ∀ s3, tryRecover c e (cntS s' s0.count) = (.ok (), s3) → goodCount c s3.n < goodCount c s'.n := by
  have h' : Out0 c (cntS s' s0.count) σ σ' T vt (fun _ => True) (.error e, cntS s' s0.count) := by
    cases h with
    | recov _ _ _ _ _ _ _ h _ => exact .recov _ _ _ _ _ _ _ (h.cnt hG _) rfl
    | zombie _ h hub _ hx hz hno => exact .zombie _ ⟨h.rcv, h.root, h.rr, h.en, h.rn⟩ hub rfl hx hz hno
    | stop _ _ he hub hx hU => exact .stop _ _ he hub (fun h => hG.congX (hx h) rfl rfl) (hG.ucong hU rfl rfl)
  have hd := tryRecover_inv hc hG h' hW
  exact ⟨hd.same.mono rfl, fun s3 h3 => hd.good h3⟩

/-! ### prepare_write -/

inductive PrepW (c : Cfg) (s : S) (σ : Nat → Option Buf) (T : Gh c) (dst : Nat) : Except Err Buf × S → Prop
  | ok (mt : Buf) (s' : S) (vts vt vh vr : Nat) (h : Inv0 c s' σ T vts vt vh vr) (hid : (recOf mt).id = dst)
      (hp : PathOK (mtOf c s') (dict (mtOf c s') s'.j.root) dst (recOf mt).alt)
      (hck : r32 s'.j.pageBuf 16 = s'.count % 2 ^ 32)
      (hcnt : (σ dst ≠ none ∧ s'.count = s.count) ∨
        (σ dst = none ∧ s'.count = s.count + 1 ∧ Room c s s')) :
      PrepW c s σ T dst (.ok mt, s')
  | full (s' : S) (h : Calm0 c s' σ T) (hcnt : s'.count = s.count) (hn : σ dst = none)
      (hcap : mapCapacity c s' ≤ s'.count) : PrepW c s σ T dst (.error .mapFull, s')
  | stop (s' : S) (e : Err) (he : e ≠ .mapFull) (hub : s'.n.ub = false)
      (hcr : e = .powerLoss → T.X s') (hu : T.U σ e s') : PrepW c s σ T dst (.error e, s')

theorem Inv0.mapped {s : S} {σ : Nat → Option Buf} {T : Gh c} {vts vt vh vr : Nat} (h : Inv0 c s σ T vts vt vh vr) {t : Nat}
    (ht : t < NONE) : dict (mtOf c s) s.j.root t = none ↔ σ t = none := by
  constructor
  · exact h.tr.emp t ht
  · intro hs
    cases hd : dict (mtOf c s) s.j.root t with
    | none => rfl
    | some q =>
      obtain ⟨b, _, _, h3⟩ := h.tr.holds t q ht hd
      rw [hs] at h3; cases h3

theorem Inv0.trace (hc : c.Valid) {s : S} {σ : Nat → Option Buf} {T : Gh c} {vts vt vh vr : Nat} (h : Inv0 c s σ T vts vt vh vr) {t : Nat}
    (ht : t < NONE) (nm : Buf) : TraceOK (mtOf c s) (dict (mtOf c s) s.j.root) t (tracePath c s t nm) :=
  tracePath_spec (fun _ _ h => readMeta_mt h) ht (h.tr.root_lt hc) h.tr.ok (h.tr.rd hc h.rmok)

theorem ecc_facts {e : Err} (h : e = .ecc) : e ≠ .mapFull ∧ e ≠ .powerLoss ∧ e ≠ .ub ∧ e ≠ .diverge := by
  subst h; decide

theorem prepareWrite_inv (hc : c.Valid) {s : S} {σ : Nat → Option Buf} {T : Gh c} (hG : T.Ok) {dst : Nat} (hI : Calm0 c s σ T)
    (hcn : Cnt σ s.count) (hW : T.W σ (s.count % 2 ^ 32) s.n)
    (hd : dst < NONE) (hT : (prepareWrite c dst s).2.n.time ≤ T.t) : PrepW c s σ T dst (prepareWrite c dst s) := by
  unfold prepareWrite at hT ⊢
  have hT1 : (autoGc c s).2.n.time ≤ T.t := by
    rcases hg : autoGc c s with ⟨e | u, s1⟩
    · rw [hg] at hT; exact hT
    · rw [hg] at hT
      simp only at hT ⊢
      rcases ht : tracePath c s1 dst freshMeta with ⟨e | q, nm⟩
      · rw [ht] at hT
        cases e <;> simp only at hT
        all_goals first | exact hT | (split at hT <;> exact hT)
      · rw [ht] at hT; exact hT
  have key := autoGc_inv hc hG hI (fun h => hcn.unique (Cnt.zero h)) hW hT1
  have hnf := autoGc_nf (c := c) s
  rcases hg : autoGc c s with ⟨e | u, s1⟩
  · rw [hg] at key hnf
    cases key with
    | stop _ _ hub hx hU => exact .stop _ _ (nf_err hnf) hub hx hU
  · rw [hg] at key
    cases key with
    | ok _ hI1 hcnt =>
      obtain ⟨vts, vt, vh, vr, hI1⟩ := hI1
      simp only
      have htr := hI1.trace hc hd freshMeta
      rcases ht : tracePath c s1 dst freshMeta with ⟨e | q, nm⟩
      · rw [ht] at htr
        cases e
        case notFound =>
          obtain ⟨h1, h2, h3⟩ := htr
          have hn := (hI1.mapped hd).1 h1
          simp only
          by_cases hcap : s1.count ≥ mapCapacity c s1
          · rw [if_pos hcap]
            exact .full s1 ⟨_, _, _, _, hI1⟩ hcnt hn hcap
          · rw [if_neg hcap]
            refine .ok nm (ckS (cntS s1 (s1.count + 1)) (s1.count + 1)) _ _ _ _ ((hI1.cnt hG _).ck hG _) h3 ?_ (r32_ck _ _) ?_
            · have e1 : mtOf c (ckS (cntS s1 (s1.count + 1)) (s1.count + 1)) = mtOf c s1 := by rw [mtOf_ck]; rfl
              rw [e1]; exact h2
            · refine Or.inr ⟨hn, by show s1.count + 1 = _; rw [hcnt], ?_⟩
              exact ⟨s, s1, hg, Nat.le_refl _, Nat.le_refl _, rfl, hcnt, by unfold mapSize; omega⟩
        all_goals exact .stop _ _ (ecc_facts htr).1 hI1.geo.noub (fun h => absurd h (ecc_facts htr).2.1) (hG.usoft hI1 (Soft.refl hI1.geo.toGeo0) (Evo.refl _) (ecc_facts htr).2.2.1 (ecc_facts htr).2.2.2)
      · rw [ht] at htr
        obtain ⟨h1, h2, h3⟩ := htr
        simp only
        refine .ok nm (ckS s1 s1.count) _ _ _ _ (hI1.ck hG _) h3 ?_ (r32_ck _ _) (Or.inl ⟨?_, hcnt⟩)
        · rw [mtOf_ck]; exact h2
        · intro hn
          rw [(hI1.mapped hd).2 hn] at h1; cases h1

/-! ### write and copy_page -/

/-- Outcome of a write-like call; `R` relates the contents stored to the chip at some moment of the call. -/
inductive WOut (c : Cfg) (s : S) (σ : Nat → Option Buf) (T : Gh c) (dst : Nat) (R : Nand → Buf → Prop) : Except Err Unit × S → Prop
  | ok (s' : S) (b : Buf) (n1 : Nand) (h : Calm0 c s' (upd σ dst (some b)) T)
      (hcnt : (σ dst ≠ none ∧ s'.count = s.count) ∨ (σ dst = none ∧ s'.count = s.count + 1 ∧ Room c s s'))
      (e1 : Evo c s.n n1) (e2 : Evo c n1 s'.n) (hR : R n1 b) (hclip : c.clip b = b) : WOut c s σ T dst R (.ok (), s')
  | full (s' : S) (h : Calm0 c s' σ T) (hcnt : s'.count = s.count) (hn : σ dst = none)
      (hcap : mapCapacity c s' ≤ s'.count) : WOut c s σ T dst R (.error .mapFull, s')
  | stop (s' : S) (e : Err) (he : e ≠ .mapFull) (hub : s'.n.ub = false)
      (hcr : e = .powerLoss → T.X s') (hu : T.U σ e s') : WOut c s σ T dst R (.error e, s')

theorem WOut.mono {s s0 : S} {σ : Nat → Option Buf} {T : Gh c} {dst : Nat} {R : Nand → Buf → Prop} {r : Except Err Unit × S}
    (h : WOut c s σ T dst R r) (hs : s.count = s0.count) (he : Evo c s0.n s.n) : WOut c s0 σ T dst R r := by
  cases h with
  | ok s' b n1 h hcnt e1 e2 hR hcl =>
    refine .ok s' b n1 h ?_ (he.trans e1) e2 hR hcl
    rw [← hs]
    rcases hcnt with h | ⟨h1, h2, s1, sm, h3, h4, h5, h6, h7, h8⟩
    · exact Or.inl h
    · exact Or.inr ⟨h1, h2, s1, sm, h3, Nat.le_trans he.time h4, h5, h6.trans hs, h7.trans hs, h8⟩
  | full s' h hcnt hn hcap => exact .full s' h (hcnt.trans hs) hn hcap
  | stop s' e he' hub hx hU => exact .stop s' e he' hub hx hU

/-- The call's effect may be on the chip: it succeeded, or the power failed. -/
abbrev Goes (r : Except Err Unit) : Prop := r = .ok () ∨ r = .error .powerLoss

theorem writeLoop_inv (hc : c.Valid) {wr : S → Except Err Unit × S} {Pd : S → Option Buf → Prop}
    (hwr : WrSpec c wr Pd) (hev : ∀ s, Evo c s.n (wr s).2.n) (hh : WrHere c wr) (hnf : ∀ s, NF (wr s)) {R : Nand → Buf → Prop}
    {σ : Nat → Option Buf} {T : Gh c} (hG : T.Ok)
    (hUe : ∀ m s e, (pushLoop c wr m 8 s).1 = .error e → (e ≠ .ub ∧ e ≠ .diverge) ∨ ∀ σ s, T.U σ e s)
    (hPd : ∀ s1 pg, Pd s1 pg → ∃ b, pg = some b ∧ c.clip b = b ∧ R s1.n b)
    {dst : Nat} (hd : dst < NONE) : ∀ f s, Calm0 c s σ T →
    Cnt σ s.count → T.W σ (s.count % 2 ^ 32) s.n →
    (Goes (writeLoop c dst (fun mt s => pushLoop c wr (some mt) 8 s) f s).1 →
      ∀ b n1 n' k, Evo c s.n n1 → Evo c n1 n' → R n1 b → Cnt (upd σ dst (some b)) k →
      T.W (upd σ dst (some b)) (k % 2 ^ 32) n') →
    (writeLoop c dst (fun mt s => pushLoop c wr (some mt) 8 s) f s).2.n.time ≤ T.t →
    ((∀ σ s, T.U σ .diverge s) ∨ goodCount c s.n + 1 ≤ f) →
    WOut c s σ T dst R (writeLoop c dst (fun mt s => pushLoop c wr (some mt) 8 s) f s) := by
  intro f
  induction f with
  | zero =>
    intro s h _ _ _ _ hF
    exact .stop s .diverge (by decide) h.noub (by intro h; cases h) (hF.elim (fun h => h _ _) (fun h => absurd h (by omega)))
  | succ f ih =>
    intro s hI hcnt0 hW hWb hT hF
    unfold writeLoop at hT hWb ⊢
    simp only at hT hWb ⊢
    have hpe : ∀ mt s, Evo c s.n (pushLoop c wr (some mt) 8 s).2.n := fun mt s => pushLoop_evo wr hev (some mt) 8 s
    have hwe := fun s => writeLoop_evo (c := c) dst (fun mt s => pushLoop c wr (some mt) 8 s) hpe f s
    have hpw := prepareWrite_inv hc hG hI hcnt0 hW hd
    have hpwe := prepareWrite_evo (c := c) dst s
    rcases hp : prepareWrite c dst s with ⟨e | mt, s1⟩
    · rw [hp] at hT hpw
      cases hpw hT with
      | full _ h1 h2 h3 h4 => exact .full _ h1 h2 h3 h4
      | stop _ _ h1 h2 hx hU => exact .stop _ _ h1 h2 hx hU
    · rw [hp] at hT hpw hpwe hWb
      simp only at hT hpw hpwe hWb ⊢
      -- times
      have ht2 : (pushLoop c wr (some mt) 8 s1).2.n.time ≤ T.t := by
        rcases hq : pushLoop c wr (some mt) 8 s1 with ⟨e | u, s2⟩
        · rw [hq] at hT
          simp only at hT ⊢
          have h1 := (tryRecover_evo (c := c) e (cntS s2 s.count)).time
          rcases htr : tryRecover c e (cntS s2 s.count) with ⟨e' | u, s3⟩
          · have htr' : tryRecover c e { j := s2.j, n := s2.n, count := s.count } = (.error e', s3) := htr
            rw [htr'] at hT; rw [htr] at h1
            exact Nat.le_trans h1 hT
          · have htr' : tryRecover c e { j := s2.j, n := s2.n, count := s.count } = (.ok u, s3) := htr
            rw [htr'] at hT; rw [htr] at h1
            exact Nat.le_trans h1 (Nat.le_trans (hwe s3).time hT)
        · rw [hq] at hT; exact hT
      have ht1 := (hpe mt s1).time
      cases hpw (by omega) with
      | ok _ _ vts vt vh vr hI1 hid hpath hck hcnt =>
        have hsp := pushLoop_spec (m := some mt) hc hwr hev 8 s1 vh hI1.geo (hI1.rst 0 0 0)
        have hlnf := pushLoop_nf (c := c) wr hnf (some mt) 8 s1
        have hpe1 := hpe mt s1
        have hUe1 := hUe (some mt) s1
        have hkp1 := push_kp hc hI1.geo hh (some mt) 8
        have hfd1 := push_fd hc hh.fd (some mt) 8 s1
        obtain ⟨r1, r2⟩ := recOf_metaOf (b := mt)
        have hplan : Plan (mtOf c s1) s1.j.root (recOf (metaOf (some mt))) (dict (mtOf c s1) s1.j.root) _ :=
          plan_insert hI1.tr.ok (by rw [r1, hid]; exact hd) (by rw [r1, hid]; exact hpath.congr r2) (fun _ _ _ h => h)
        generalize hr : pushLoop c wr (some mt) 8 s1 = r at *
        have hcb : ∀ b : Buf, Cnt (upd σ dst (some b)) s1.count := by
          intro b
          rcases hcnt with ⟨h1, h2⟩ | ⟨h1, h2, _⟩
          · obtain ⟨b', hb⟩ := Option.ne_none_iff_exists'.1 h1
            rw [h2]; exact hcnt0.insert_old hb
          · rw [h2]; exact hcnt0.insert_new hd h1
        have hWx : (r.1 = .ok () ∨ r.1 = .error .powerLoss) → ∀ sx s' : S, Pd sx (s'.n.chip.page s'.j.root) → Evo c s1.n sx.n → Evo c sx.n s'.n →
            T.W (upd σ dst (s'.n.chip.page s'.j.root)) (r32 s1.j.pageBuf 16) s'.n := by
          intro hok sx s' hP e1 e2
          obtain ⟨b, k1, _, k3⟩ := hPd _ _ hP
          rw [k1, hck]
          refine hWb ?_ b _ _ _ (hpwe.trans e1) e2 k3 (hcb b)
          rcases r with ⟨e | u, s2⟩
          · have he : e = .powerLoss := by rcases hok with h | h <;> cases h; rfl
            subst he
            simp only [tryRecover]
            rw [if_pos (by decide)]
            exact Or.inr rfl
          · exact Or.inl rfl
        have hfill : ∀ s' : S, Fill c s1 s' (some mt) Pd vts vh (dict (mtOf c s1) s1.j.root) σ
            (upd σ dst (s'.n.chip.page s'.j.root)) := by
          intro s'
          refine ⟨?_, ?_, ?_⟩
          · intro t x _ hne _; rw [r1, hid] at hne; unfold upd; rw [if_neg hne]
          · intro t ht hne hn; rw [r1, hid] at hne; unfold upd; rw [if_neg hne]; exact hI1.tr.emp t ht hn
          · intro _ sx vq pg hpg _ _ hP _ _
            obtain ⟨b, e1, e2, _⟩ := hPd sx pg hP
            refine ⟨b, e1, e2, ?_⟩
            rw [r1, hid]; unfold upd; rw [if_pos rfl, ← hpg, e1]
        have ho := push_inv0 hc hG hI1 hplan (hfill _) hsp ht2 hpe1 hkp1 hfd1
          (fun hok => by
            cases hsp with
            | ok s2 vq hk =>
              obtain ⟨sx, _, _, hP, ev1, ev2⟩ := hk.data
              exact hWx (Or.inl hok) sx s2 (by rw [hk.root]; exact hP) ev1 ev2
            | _ => cases hok)
          hUe1
          (fun hok s' sx hP e1 e2 => ⟨_, hfill s', hWx (Or.inr hok) sx s' hP e1 e2⟩)
        rcases r with ⟨e | u, s2⟩
        · simp only at hT ⊢
          obtain ⟨hst, hgd⟩ := tryRecover_cnt hc hG (s0 := s) ho (hG.wmono hW (hpwe.trans hpe1))
          have hsnf := tryRecover_nf (c := c) (nf_err hlnf) (cntS s2 s.count)
          have hse := tryRecover_evo (c := c) e (cntS s2 s.count)
          rcases htr : tryRecover c e (cntS s2 s.count) with ⟨e' | u, s3⟩
          · have htr' : tryRecover c e { j := s2.j, n := s2.n, count := s.count } = (.error e', s3) := htr
            rw [htr']
            rw [htr] at hst hsnf
            cases hst with
            | stop _ _ hub hx hU => exact .stop _ _ (nf_err hsnf) hub hx hU
          · have htr' : tryRecover c e { j := s2.j, n := s2.n, count := s.count } = (.ok u, s3) := htr
            simp only at hWb
            have hgd := hgd s3 htr
            rw [htr'] at hT hWb ⊢
            rw [htr] at hst hse
            cases hst with
            | ok _ h1 h2 =>
              have hall := hpwe.trans (Evo.trans hpe1 hse)
              exact (ih s3 h1 (by rw [h2]; exact hcnt0) (by rw [h2]; exact hG.wmono hW hall)
                (fun hne b n1 n' k e1 e2 => hWb hne b n1 n' k (hall.trans e1) e2) hT
                (hF.imp id fun hF => by have : goodCount c s2.n ≤ goodCount c s.n := goodCount_mono (hpwe.trans hpe1); omega)).mono h2 hall
        · simp only
          cases hsp with
          | ok _ vq hk =>
            obtain ⟨sx, _, _, hP, ev1, ev2⟩ := hk.data
            obtain ⟨b, hb, hcl, hR⟩ := hPd _ _ hP
            cases ho with
            | ok _ _ _ _ h1 h2 _ =>
              have : s2.n.chip.page s2.j.root = some b := by rw [hk.root]; exact hb
              rw [this] at h1
              refine .ok s2 b sx.n ⟨_, _, _, _, h1⟩ ?_ (hpwe.trans ev1) ev2 hR hcl
              rcases hcnt with ⟨h3, h4⟩ | ⟨h3, h4, s0, sm, g1, g2, g3, g4⟩
              · exact Or.inl ⟨h3, h2.trans h4⟩
              · exact Or.inr ⟨h3, h2.trans h4, s0, sm, g1, g2, Nat.le_trans g3 hpe1.time, g4⟩

theorem mapWrite_inv (hc : c.Valid) {s : S} {σ : Nat → Option Buf} {T : Gh c} (hG : T.Ok) {dst : Nat} {data : Buf} (hI : Calm0 c s σ T)
    (hcnt : Cnt σ s.count) (hW : T.W σ (s.count % 2 ^ 32) s.n)
    (hWb : Goes (mapWrite c dst data s).1 → ∀ n' k, Evo c s.n n' → Cnt (upd σ dst (some (c.clip data))) k →
      T.W (upd σ dst (some (c.clip data))) (k % 2 ^ 32) n')
    (hd : dst < NONE) (hT : (mapWrite c dst data s).2.n.time ≤ T.t) :
    WOut c s σ T dst (fun _ b => b = c.clip data) (mapWrite c dst data s) := by
  refine writeLoop_inv hc (wrData_spec hc (some data)) (wrData_evo _) (wrData_here _) ?_ hG ?_ ?_ hd _ s hI hcnt hW
    (fun hne b n1 n' k e1 e2 hb hk => by rw [hb] at hk ⊢; exact hWb hne n' k (e1.trans e2) hk) hT (fuel_gc hG _)
  · intro s; exact progS_nf _ _ _
  · intro m s; exact push_u T (fun e0 ho s => progS_ne ho _ _ _) m 8 s
  · intro s1 pg h; exact ⟨c.clip data, h, clip_clip, rfl⟩

theorem mapCopyPage_inv (hc : c.Valid) {s : S} {σ : Nat → Option Buf} {T : Gh c} (hG : T.Ok) {src dst : Nat} (hI : Calm0 c s σ T)
    (hcnt : Cnt σ s.count) (hW : T.W σ (s.count % 2 ^ 32) s.n)
    (hWb : Goes (mapCopyPage c src dst s).1 → ∀ b0 n1 n' k, Evo c s.n n1 → Evo c n1 n' → n1.chip.page src = some b0 →
      Cnt (upd σ dst (some (c.clip b0))) k → T.W (upd σ dst (some (c.clip b0))) (k % 2 ^ 32) n')
    (hsrc : src < c.pages ∨ ∀ σ s, T.U σ .ub s)
    (hd : dst < NONE) (hT : (mapCopyPage c src dst s).2.n.time ≤ T.t) :
    WOut c s σ T dst (fun n b => ∃ b0, n.chip.page src = some b0 ∧ b = c.clip b0) (mapCopyPage c src dst s) := by
  refine writeLoop_inv hc (wrCopy_spec hc src) (wrCopy_evo _) (wrCopy_here _) ?_ hG ?_ ?_ hd _ s hI hcnt hW
    (fun hne b n1 n' k e1 e2 hb hk => by obtain ⟨b0, h1, h2⟩ := hb; rw [h2] at hk ⊢; exact hWb hne b0 n1 n' k e1 e2 h1 hk) hT (fuel_gc hG _)
  · intro s; exact nandCopy_nf _ _ _
  · intro m s e he
    by_cases hub : e = .ub
    · subst hub
      rcases hsrc with h | h
      · exact push_u T (fun e0 ho s => nandCopy_ne ho (Or.inr h) _ _) m 8 s _ he
      · exact Or.inr h
    · refine Or.inl ⟨hub, fun hdv => ?_⟩
      subst hdv
      exact pushLoop_ne (e0 := .diverge) (Or.inr (Or.inr rfl)) _ (fun s => nandCopy_ne (Or.inr (Or.inr rfl)) (Or.inl (by decide)) _ _) m 8 s he
  · rintro s1 pg ⟨b, h1, h2⟩; exact ⟨c.clip b, h2, clip_clip, b, h1, rfl⟩

/-! ### clear -/

theorem clear_inv {s : S} {σ σ' : Nat → Option Buf} {T : Gh c} (hG : T.Ok) {vts vt vh vr : Nat} (hI : Inv0 c s σ T vts vt vh vr) (k : Nat)
    (hσ : ∀ t, t < NONE → σ' t = none) : Inv0 c (journalClear c (cntS s k)) σ' T vts vh vh vr := by
  have g := hI.geo
  refine ⟨⟨⟨g.ets, g.eh, g.eh, g.uts, g.uh, g.uh, by have := g.l1; have := g.l2; omega, Nat.le_refl _, g.win, g.ep,
    g.alive, g.noub⟩, g.hfree⟩, ⟨hI.calm.nr, hI.calm.rm, hI.calm.ed, hI.calm.bm⟩, Tr.empty hσ, Or.inl ?_,
    hG.clear hI rfl rfl rfl⟩
  intro _ h; exact absurd rfl h

/-! ### trim -/

theorem lastAlt_some {m : Buf} : ∀ k {l : Nat}, lastAlt m k = some l →
    l < k ∧ metaGetAlt m l ≠ NONE ∧ ∀ i, l < i → i < k → metaGetAlt m i = NONE := by
  intro k
  induction k with
  | zero => intro l h; cases h
  | succ k ih =>
    intro l h
    unfold lastAlt at h
    split at h
    · rename_i hn; cases h; exact ⟨by omega, hn, fun i a b => by omega⟩
    · rename_i hn
      obtain ⟨h1, h2, h3⟩ := ih h
      refine ⟨by omega, h2, fun i a b => ?_⟩
      by_cases hi : i = k
      · rw [hi]; simpa using hn
      · exact h3 i a (by omega)

theorem lastAlt_none {m : Buf} : ∀ k, lastAlt m k = none → ∀ i, i < k → metaGetAlt m i = NONE := by
  intro k
  induction k with
  | zero => intro _ i hi; omega
  | succ k ih =>
    intro h i hi
    unfold lastAlt at h
    split at h
    · cases h
    · rename_i hn
      by_cases hi' : i = k
      · rw [hi']; simpa using hn
      · exact ih h i (by omega)

theorem copyAlts_id {src : Buf} : ∀ k i m, metaGetId (copyAlts src k i m) = metaGetId m := by
  intro k
  induction k with
  | zero => intro i m; rfl
  | succ k ih => intro i m; unfold copyAlts; rw [ih, metaGetId_setAlt]

theorem copyAlts_alt {src : Buf} : ∀ k i m j, metaGetAlt (copyAlts src k i m) j =
    if i ≤ j ∧ j < i + k then metaGetAlt src j else metaGetAlt m j := by
  intro k
  induction k with
  | zero => intro i m j; unfold copyAlts; rw [if_neg (by omega)]
  | succ k ih =>
    intro i m j
    unfold copyAlts
    rw [ih]
    by_cases h1 : i = j
    · subst h1
      rw [if_neg (by omega), if_pos (by omega), metaGetAlt_setAlt_same (metaGetAlt_lt _ _)]
    · rw [metaGetAlt_setAlt_ne h1]
      by_cases h2 : i ≤ j ∧ j < i + (k + 1)
      · rw [if_pos (by omega), if_pos h2]
      · rw [if_neg (by omega), if_neg h2]

/-- Outcome of a deletion attempt. -/
inductive DOut (c : Cfg) (s : S) (σ : Nat → Option Buf) (T : Gh c) (t : Nat) : Except Err Unit × S → Prop
  | ok (s' : S) (h : Calm0 c s' (upd σ t none) T) (hcnt : Cnt (upd σ t none) s'.count) : DOut c s σ T t (.ok (), s')
  | err (s' : S) (e : Err) (h : Same c s σ T (tryRecover c e s'))
      (hg : ∀ s3, tryRecover c e s' = (.ok (), s3) → goodCount c s3.n < goodCount c s.n) : DOut c s σ T t (.error e, s')

theorem upd_none_eq {σ : Nat → Option Buf} {t : Nat} (h : σ t = none) : upd σ t none = σ := by
  funext k; unfold upd; split
  · rename_i hk; rw [hk, h]
  · rfl

theorem tryDelete_inv (hc : c.Valid) {s : S} {σ : Nat → Option Buf} {T : Gh c} (hG : T.Ok) {vts vt vh vr t : Nat}
    (hI : Inv0 c s σ T vts vt vh vr) (hcnt : Cnt σ s.count) (ht : t < NONE)
    (hW : T.W σ (s.count % 2 ^ 32) s.n)
    (hWd : Goes (tryDelete c t s).1 → ∀ n' k, Evo c s.n n' → Cnt (upd σ t none) k → T.W (upd σ t none) (k % 2 ^ 32) n') (hT : (tryDelete c t s).2.n.time ≤ T.t) :
    DOut c s σ T t (tryDelete c t s) := by
  have htr := hI.trace hc ht freshMeta
  have hstop : ∀ e : Err, e = .ecc → DOut c s σ T t (.error e, s) := by
    intro e he
    subst he
    refine .err s .ecc ?_ ?_
    · unfold tryRecover; rw [if_pos (by decide)]; exact .stop _ _ hI.geo.noub (by intro h; cases h) (hG.usoft hI (Soft.refl hI.geo.toGeo0) (Evo.refl _) (by decide) (by decide))
    · intro s3 h3
      unfold tryRecover at h3; rw [if_pos (by decide)] at h3; cases h3
  unfold tryDelete at hT hWd ⊢
  rcases hp : tracePath c s t freshMeta with ⟨e | q, nm⟩
  · rw [hp] at htr
    cases e
    case notFound =>
      have hn := (hI.mapped ht).1 htr.1
      refine .ok s ?_ ?_
      · rw [upd_none_eq hn]; exact ⟨_, _, _, _, hI⟩
      · exact hcnt.erase_none hn
    all_goals exact hstop _ htr
  · rw [hp] at htr hT hWd
    obtain ⟨h1, h2, h3⟩ := htr
    obtain ⟨b', hb'⟩ : ∃ b', σ t = some b' := by
      obtain ⟨b, _, _, h⟩ := hI.tr.holds t q ht h1; exact ⟨b, h⟩
    obtain ⟨hce, hc1⟩ := hcnt.erase ht hb'
    simp only at hT hWd ⊢
    cases hl : lastAlt nm 32 with
    | none =>
      simp only
      have hσ : ∀ t', t' < NONE → upd σ t none t' = none := by
        intro t' ht'
        unfold upd; split
        · rfl
        · rename_i hne
          obtain ⟨i, hi, ha, hb⟩ := first_diff (x := t') (y := t) (by omega) (by omega) hne
          exact hI.tr.emp t' ht' ((h2 i hi).1 (lastAlt_none 32 hl i hi) t' ht' ha hb)
      exact .ok _ ⟨_, _, _, _, clear_inv hG hI 0 hσ⟩ (Cnt.zero hσ)
    | some level =>
      rw [hl] at hT hWd
      simp only at hT hWd ⊢
      obtain ⟨l1, l2, l3⟩ := lastAlt_some 32 hl
      have hused : Used (mtOf c s) s.j.root (metaGetAlt nm level) := by
        obtain ⟨rx, x1, x2, x3, _⟩ := path_reach h2 l1 l2 (Reach.refl _ _)
        exact Data.used ⟨rx, x1, x2, x3⟩
      cases hr : readMeta c s (metaGetAlt nm level) with
      | error e => exact hstop e (hI.tr.rd hc hI.rmok _ hused e hr)
      | ok am =>
        rw [hr] at hT hWd
        simp only at hT hWd ⊢
        have ham := readMeta_mt hr
        generalize hmt : metaSetAlt (copyAlts am (32 - (level + 1)) (level + 1) (metaSetAlt (metaSetId nm (metaGetId am)) level NONE)) level NONE = mt at hT hWd ⊢
        have hmid : (recOf mt).id = (recOf am).id := by
          rw [← hmt]; show metaGetId _ = _
          rw [metaGetId_setAlt, copyAlts_id, metaGetId_setAlt, metaGetId_setId (metaGetId_lt _)]; rfl
        have hma : ∀ i, (recOf mt).alt i = if i = level then NONE else if level < i ∧ i < 32 then (recOf am).alt i else (recOf nm).alt i := by
          intro i
          rw [← hmt]; show metaGetAlt _ i = _
          by_cases hi : i = level
          · rw [if_pos hi, hi, metaGetAlt_setAlt_same (by omega)]
          · rw [if_neg hi, metaGetAlt_setAlt_ne (Ne.symm hi), copyAlts_alt]
            by_cases h4 : level < i ∧ i < 32
            · rw [if_pos h4, if_pos (by omega)]; rfl
            · rw [if_neg h4, if_neg (by omega), metaGetAlt_setAlt_ne (Ne.symm hi), metaGetAlt_setId]; rfl
        obtain ⟨p1, p2, p3, p4⟩ := delete_path (level := level) h2 ht l1 l2 l3 ham (recOf mt).alt
          (fun i hi => by rw [hma, if_neg (by omega), if_neg (by omega)])
          (by rw [hma, if_pos rfl])
          (fun i hi hi' => by rw [hma, if_neg (by omega), if_pos ⟨hi, hi'⟩])
        have hI' := hI.ck hG (sub32 s.count 1)
        have e1 : mtOf c (ckS s (sub32 s.count 1)) = mtOf c s := mtOf_ck _ _
        obtain ⟨r1, r2⟩ := recOf_metaOf (b := mt)
        have hpp : PathOK (mtOf c (ckS s (sub32 s.count 1))) (fun t' => if t' = t then none else dict (mtOf c s) s.j.root t')
            (recOf (metaOf (some mt))).id (recOf (metaOf (some mt))).alt := by
          rw [e1, r1, hmid]; exact p1.congr r2
        have hpd : ∀ t', t' < NONE → ∀ x, (if t' = t then none else dict (mtOf c s) s.j.root t') = some x →
            dict (mtOf c (ckS s (sub32 s.count 1))) (ckS s (sub32 s.count 1)).j.root t' = some x := by
          intro t' _ x hx
          rw [e1]
          split at hx
          · cases hx
          · exact hx
        have hplan := plan_insert hI'.tr.ok (by rw [r1, hmid]; exact p3) hpp hpd
        have hfill : ∀ s', Fill c (ckS s (sub32 s.count 1)) s' (some mt) (copyPd c (metaGetAlt nm level)) vts vh
            (fun t' => if t' = t then none else dict (mtOf c s) s.j.root t') σ (upd σ t none) := by
          intro s'
          refine copy_fill hc hI'.geo hI'.tr (r1.trans hmid) (fun _ => by rw [e1]; exact p4) ?_ ?_ ?_
          · intro t' x _ _ hx
            unfold upd
            by_cases htt : t' = t
            · simp only [htt, if_true] at hx; cases hx
            · rw [if_neg htt]
          · intro t' ht' _ hx
            unfold upd
            by_cases htt : t' = t
            · rw [if_pos htt]
            · rw [if_neg htt]
              simp only [htt, if_false] at hx
              exact hI.tr.emp t' ht' hx
          · unfold upd; rw [if_neg p2]
        have hT' : (journalCopy c (metaGetAlt nm level) mt (ckS s (sub32 s.count 1))).2.n.time ≤ T.t := by
          have hT2 : (match journalCopy c (metaGetAlt nm level) mt (ckS s (sub32 s.count 1)) with
            | (.error e, s) => ((.error e, s) : Except Err Unit × S)
            | (.ok (), s) => (.ok (), { s with count := sub32 s.count 1 })).2.n.time ≤ T.t := hT
          generalize journalCopy c (metaGetAlt nm level) mt (ckS s (sub32 s.count 1)) = r at hT2 ⊢
          rcases r with ⟨e | u, s2⟩ <;> exact hT2
        have hsub : sub32 s.count 1 = s.count - 1 := by
          have hlt := hcnt.lt
          unfold sub32
          have e32 : (2:Nat)^32 = 4294967296 := by decide
          rw [e32] at hlt ⊢
          rw [if_pos (by omega), Nat.mod_eq_of_lt (by omega)]
        have hWn : Goes (journalCopy c (metaGetAlt nm level) mt (ckS s (sub32 s.count 1))).1 → ∀ n', Evo c s.n n' →
            T.W (upd σ t none) (r32 (ckS s (sub32 s.count 1)).j.pageBuf 16) n' := by
          intro hgo n' e
          rw [r32_ck]
          refine hWd ?_ n' _ e (by rw [hsub]; exact hce)
          show Goes (match journalCopy c (metaGetAlt nm level) mt (ckS s (sub32 s.count 1)) with
            | (.error e, s) => ((.error e, s) : Except Err Unit × S)
            | (.ok (), s) => (.ok (), { s with count := sub32 s.count 1 })).1
          generalize journalCopy c (metaGetAlt nm level) mt (ckS s (sub32 s.count 1)) = r at hgo
          rcases r with ⟨e | u, s2⟩
          · exact hgo
          · exact Or.inl rfl
        have hpe : Evo c s.n (journalCopy c (metaGetAlt nm level) mt (ckS s (sub32 s.count 1))).2.n :=
          journalCopy_evo _ _ (ckS s (sub32 s.count 1))
        have ho := push_inv0 hc hG hI' hplan (hfill _) (pushLoop_spec hc (wrCopy_spec hc _) (wrCopy_evo _) 8 _ _ hI'.geo (hI'.rst 0 0 0)) hT'
          hpe (push_kp hc hI'.geo (wrCopy_here _) _ 8) (push_fd hc (wrCopy_fd _) _ 8 _) (fun hok => hWn (Or.inl hok) _ hpe)
          (push_u T (fun e0 ho s' => nandCopy_ne ho (Or.inr (by obtain ⟨v, hv, _⟩ := hI.tr.lt hused; rw [hv]; exact ph_lt hc _)) _ _) _ _ _)
          (fun hpl s' _ _ e1 e2 => ⟨_, hfill s', hWn (Or.inr hpl) _ (Evo.trans (n := s.n) e1 e2)⟩)
        have ho' : Out0 c (ckS s (sub32 s.count 1)) σ (upd σ t none) T vt (fun _ => True) (journalCopy c (metaGetAlt nm level) mt (ckS s (sub32 s.count 1))) :=
          ho.mono rfl (fun _ _ => trivial)
        show DOut c s σ T t (match journalCopy c (metaGetAlt nm level) mt (ckS s (sub32 s.count 1)) with
            | (.error e, s) => ((.error e, s) : Except Err Unit × S)
            | (.ok (), s) => (.ok (), { s with count := sub32 s.count 1 }))
        generalize journalCopy c (metaGetAlt nm level) mt (ckS s (sub32 s.count 1)) = r at ho' hpe ⊢
        rcases r with ⟨e | u, s2⟩
        · have hdn := tryRecover_inv hc hG ho' (hG.wmono hW hpe)
          exact .err _ _ (hdn.same.mono rfl) (fun s3 h3 => Nat.lt_of_lt_of_le (hdn.good h3) (goodCount_mono hpe))
        · cases ho' with
          | ok _ _ _ _ h5 h6 _ =>
            refine .ok (cntS s2 (sub32 s2.count 1)) ⟨_, _, _, _, h5.cnt hG _⟩ ?_
            have h7 : s2.count = s.count := h6
            show Cnt _ (sub32 s2.count 1)
            rw [h7, hsub]; exact hce

/-- Outcome of a trim. -/
inductive TOut (c : Cfg) (σ : Nat → Option Buf) (T : Gh c) (t : Nat) : Except Err Unit × S → Prop
  | ok (s' : S) (h : Calm0 c s' (upd σ t none) T) (hcnt : Cnt (upd σ t none) s'.count) : TOut c σ T t (.ok (), s')
  | stop (s' : S) (e : Err) (he : e ≠ .mapFull) (hub : s'.n.ub = false)
      (hcr : e = .powerLoss → T.X s') (hu : T.U σ e s') : TOut c σ T t (.error e, s')

theorem mapTrimLoop_inv (hc : c.Valid) {σ : Nat → Option Buf} {T : Gh c} (hG : T.Ok) {t : Nat} (ht : t < NONE) : ∀ f s, Calm0 c s σ T → Cnt σ s.count →
    T.W σ (s.count % 2 ^ 32) s.n →
    (Goes (mapTrimLoop c t f s).1 → ∀ n' k, Evo c s.n n' → Cnt (upd σ t none) k → T.W (upd σ t none) (k % 2 ^ 32) n') →
    (mapTrimLoop c t f s).2.n.time ≤ T.t → ((∀ σ s, T.U σ .diverge s) ∨ goodCount c s.n + 1 ≤ f) → TOut c σ T t (mapTrimLoop c t f s) := by
  intro f
  induction f with
  | zero =>
    intro s h _ _ _ _ hF
    exact .stop s .diverge (by decide) h.noub (by intro h; cases h) (hF.elim (fun h => h _ _) (fun h => absurd h (by omega)))
  | succ f ih =>
    intro s hI hcnt hW hWd hT hF
    unfold mapTrimLoop at hT hWd ⊢
    have hg := fun h => autoGc_inv hc hG hI (fun h => hcnt.unique (Cnt.zero h)) hW h
    have hgn := autoGc_nf (c := c) s
    have hge := autoGc_evo (c := c) s
    rcases hag : autoGc c s with ⟨e | u, s1⟩
    · rw [hag] at hT hg hgn
      cases hg hT with
      | stop _ _ hub hx hU => exact .stop _ _ (nf_err hgn) hub hx hU
    · rw [hag] at hT hg hge hWd
      simp only at hT hg hge hWd ⊢
      have hde := (tryDelete_evo (c := c) t s1).time
      have hdn := tryDelete_nf (c := c) t s1
      have hT2 : (tryDelete c t s1).2.n.time ≤ T.t := by
        rcases hd : tryDelete c t s1 with ⟨e | u, s2⟩
        · rw [hd] at hT
          simp only at hT ⊢
          have h1 := (tryRecover_evo (c := c) e s2).time
          rcases htr : tryRecover c e s2 with ⟨e' | u, s3⟩
          · rw [htr] at hT h1; exact Nat.le_trans h1 hT
          · rw [htr] at hT h1
            exact Nat.le_trans h1 (Nat.le_trans (mapTrimLoop_evo (c := c) t f s3).time hT)
        · rw [hd] at hT; exact hT
      cases hg (by omega) with
      | ok _ h1 h2 =>
        obtain ⟨vts, vt, vh, vr, h1⟩ := h1
        have ho := tryDelete_inv hc hG h1 (by rw [h2]; exact hcnt) ht (by rw [h2]; exact hG.wmono hW hge)
          (fun hgo n' k e => hWd (by
            rcases hd : tryDelete c t s1 with ⟨e | u, s2⟩
            · rw [hd] at hgo
              rcases hgo with h | h <;> cases h
              simp only [tryRecover]
              rw [if_pos (by decide)]
              exact Or.inr rfl
            · exact Or.inl rfl) n' k (hge.trans e)) hT2
        rcases hd : tryDelete c t s1 with ⟨e | u, s2⟩
        · rw [hd] at ho hT hdn hWd
          simp only at hT hWd ⊢
          cases ho with
          | err _ _ hs hgd =>
            have h1 := tryRecover_nf (c := c) (nf_err hdn) s2
            rcases htr : tryRecover c e s2 with ⟨e' | u, s3⟩
            · rw [htr] at hs h1
              cases hs with
              | stop _ _ hub hx hU => exact .stop _ _ (nf_err h1) hub hx hU
            · rw [htr] at hs hT hWd
              cases hs with
              | ok _ h3 h4 =>
                have hall : Evo c s.n s3.n := hge.trans (Evo.trans (Evo.of_eq (tryDelete_evo (c := c) t) hd :)
                  (Evo.of_eq (tryRecover_evo (c := c) e) htr :))
                exact ih s3 h3 (by rw [h4, h2]; exact hcnt) (by rw [h4, h2]; exact hG.wmono hW hall)
                  (fun hgo n' k e => hWd hgo n' k (hall.trans e)) hT
                  (hF.imp id fun hF => by have := goodCount_mono hge; have := hgd s3 htr; omega)
        · rw [hd] at ho
          cases ho with
          | ok _ h3 h4 => exact .ok _ h3 h4

/-! ### find and read -/

theorem mapFind_inv (hc : c.Valid) {s : S} {σ : Nat → Option Buf} {T : Gh c} {t : Nat} (hI : Calm0 c s σ T) (ht : t < NONE) :
    (∃ q b, mapFind c s t = .ok q ∧ σ t = some b ∧ s.n.chip.page q = some b ∧ c.clip b = b ∧ q < c.pages ∧
      q % c.ppc ≠ c.ppc - 1 ∧ s.n.chip.bad (q / c.ppb) = false) ∨
    (mapFind c s t = .error .notFound ∧ σ t = none) ∨
    (mapFind c s t = .error .ecc) := by
  obtain ⟨vts, vt, vh, vr, hI⟩ := hI
  have htr := hI.trace hc ht freshMeta
  unfold mapFind
  rcases hp : tracePath c s t freshMeta with ⟨e | q, nm⟩
  · rw [hp] at htr
    cases e
    case notFound => exact Or.inr (Or.inl ⟨rfl, (hI.mapped ht).1 htr.1⟩)
    all_goals exact Or.inr (Or.inr (congrArg Except.error htr))
  · rw [hp] at htr
    obtain ⟨h1, h2, h3⟩ := htr
    obtain ⟨b, h4, h5, h6⟩ := hI.tr.holds t q ht h1
    obtain ⟨v, a1, a2, a3, a4, a5, a6⟩ := hI.tr.lt (dict_sound hI.tr.ok (by omega) h1).1
    refine Or.inl ⟨q, b, rfl, h6, h4, h5, ?_, ?_, a6⟩
    · rw [a1]; exact ph_lt hc _
    · rw [a1, ph_mod_ppc hc]; exact a5

end Dhara

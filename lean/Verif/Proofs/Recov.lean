/-
Bad block handling inside the journal: dump_meta, recover_from, restart_recovery
(dhara/journal.c:650-754).
-/
import Verif.Proofs.Push
namespace Dhara

variable {c : Cfg}

theorem headOK_congr {s s' : S} {v : Nat} (h : HeadOK c s v) (hn : s'.n.chip = s.n.chip) :
    HeadOK c s' v := by unfold HeadOK at *; rw [hn]; exact h

/-- After writing page `w` the later pages of the block are still free. -/
theorem headOK_advance {s s' : S} {v w v' : Nat} (h : HeadOK c s v)
    (hat : OnlyAt s.n s'.n (c.ph w)) (h1 : v ≤ w) (h2 : w < v') (hb : v' / c.ppb = v / c.ppb) :
    HeadOK c s' v' := by
  have hP := ppb_pos c
  have hb2 : w / c.ppb = v / c.ppb := by
    have := Nat.div_le_div_right (c := c.ppb) h1
    have := Nat.div_le_div_right (c := c.ppb) (Nat.le_of_lt h2)
    omega
  have e : c.ph v' / c.ppb = c.ph v / c.ppb := by rw [ph_div_ppb, ph_div_ppb, hb]
  have e2 : c.ph w / c.ppb = c.ph v / c.ppb := by rw [ph_div_ppb, ph_div_ppb, hb2]
  have d0 := div_mod_range v c.ppb
  have d1 := div_mod_range v' c.ppb
  have d2 := div_mod_range w c.ppb
  rw [hb] at d1; rw [hb2] at d2
  unfold HeadOK at *
  rw [hat.bad, e]
  refine ⟨h.1, fun i hi1 hi2 => ?_⟩
  rw [hat.free]
  · exact h.2 i (by omega) hi2
  · intro he
    have : (c.ph v / c.ppb * c.ppb + i) % c.ppb = i := by
      rw [mod_of_range (k := c.ph v / c.ppb) (by omega) (by omega)]; omega
    rw [he, ph_mod_ppb] at this
    omega

/-- A page program at the head, in a ready state: the summary used below. -/
theorem Geo0.of_wr {s s' : S} {vts vt vh : Nat} (g : Geo0 c s vts vt vh) (hj : s'.j = s.j)
    (hal : s'.n.dead = false) (hub : s'.n.ub = false) : Geo0 c s' vts vt vh :=
  ⟨by rw [hj]; exact g.ets, by rw [hj]; exact g.et, by rw [hj]; exact g.eh, g.uts, g.ut, g.uh, g.l1,
    g.l2, g.win, by rw [hj]; exact g.ep, hal, hub⟩

/-- The journal after a successful dump at `vM`. -/
def Journal.dumped (c : Cfg) (j : Journal) (d : Bool) (vM x y : Nat) : Journal :=
  { j.moved d (c.ph (c.nextV vM)) (UInt8.ofNat (c.nextV vM / c.pages)) x y with
    recoverMeta := c.ph vM, pageBuf := hdrClearUser c j.pageBuf }

/-- dump_meta succeeded, writing the buffer to `vM`. -/
structure DumpOk (c : Cfg) (s s' : S) (vts vt vh vM : Nat) : Prop where
  le : vh ≤ vM
  al : vM % c.ppb = 0
  j : ∃ d x y, s'.j = s.j.dumped c d vM x y
  cnt : s'.count = s.count
  keep : CKeep c s.n s'.n vh vM (inBlks c (vh / c.ppb) (vM / c.ppb))
  page : s'.n.chip.page (c.ph vM) = some (c.clip s.j.pageBuf)
  geo : Geo c s' vts vt (c.nextV vM)
  skip : ∀ b, vh / c.ppb ≤ b → b < vM / c.ppb → s'.n.chip.bad (b % c.numBlocks) = true
  rest : ∀ p, p / c.ppb = c.ph vM / c.ppb → p ≠ c.ph vM → s'.n.chip.page p = some (c.clip Buf.ff)

inductive DumpOut (c : Cfg) (s : S) (vts vt vh : Nat) : Except Err Unit × S → Prop
  | ok (s' : S) (vM : Nat) (h : DumpOk c s s' vts vt vh vM) : DumpOut c s vts vt vh (.ok (), s')
  | stop (s' : S) (e : Err) (he : e ≠ .recover) (hub : s'.n.ub = false) :
      DumpOut c s vts vt vh (.error e, s')

/-- The dump's bad block path: mark the block, skip it. `vq` is where the head was. -/
theorem mark_skip (hc : c.Valid) {s : S} {vts vt vq : Nat} (g : Geo0 c s vts vt vq)
    (_hal : vq % c.ppb = 0) :
    let s1 : S := { s with j := { s.j with bbCurrent := s.j.bbCurrent + 1 } }
    let s2 : S := { s1 with n := nandMarkBad c (c.blk s1.j.head) s1.n }
    (skipBlock c s2 = (.error .journalFull, s2) ∧ s2.n.ub = false) ∨
    (∃ s', skipBlock c s2 = (.ok (), s') ∧ JH c s s' ((vq / c.ppb + 1) * c.ppb) ∧
      Geo c s' vts vt ((vq / c.ppb + 1) * c.ppb) ∧
      CKeep c s.n s'.n vq ((vq / c.ppb + 1) * c.ppb) (fun k => k = c.ph vq / c.ppb) ∧
      s'.n.chip.bad (c.ph vq / c.ppb) = true) := by
  intro s1 s2
  have hh : s1.j.head = c.ph vq := g.eh
  have e2 : s2.n = { s.n with chip := s.n.chip.marked (c.ph vq / c.ppb) } := by
    show nandMarkBad c (c.blk s1.j.head) s.n = _
    rw [hh, blk_eq, nandMarkBad_eq hc g.alive]
  rcases skipBlock_spec hc (s := s2) (vts := vts) (vh := vq) g.ets g.eh
      (Nat.le_trans g.l1 g.l2) g.win g.ep with h | ⟨s', h, hj, hn, hd, hw⟩
  · left; exact ⟨h, by rw [e2]; exact g.noub⟩
  · right
    have hlt := lt_next_blk c vq
    have hJ : JH c s s' ((vq / c.ppb + 1) * c.ppb) := by
      obtain ⟨⟨d, x, y, e⟩, k⟩ := hj; exact ⟨⟨d, x, y, e⟩, k⟩
    have hm : ((vq / c.ppb + 1) * c.ppb) % c.ppb = 0 := Nat.mul_mod_left _ _
    have hn' : s'.n = { s.n with chip := s.n.chip.marked (c.ph vq / c.ppb) } := by rw [hn, e2]
    refine ⟨s', h, hJ, ⟨g.mk' hJ (by omega) (isU_of_aligned hc hm) hw (by rw [hn']; exact g.alive)
      (by rw [hn']; exact g.noub), fun h => absurd hm h⟩, ?_, ?_⟩
    · rw [hn']
      exact (marked_keep s.n vq _).mono (Nat.le_of_lt hlt) (fun k hk => hk)
    · rw [hn']; simp [Chip.marked, upd]

theorem dumpMetaLoop_spec (hc : c.Valid) {vts vt : Nat} : ∀ i s vh, Geo c s vts vt vh →
    vh % c.ppb = 0 → DumpOut c s vts vt vh (dumpMetaLoop c i s) := by
  have hP := ppb_pos c
  intro i
  induction i with
  | zero => intro s vh g _; exact .stop _ _ (by decide) g.noub
  | succ i ih =>
    intro s vh g hal
    -- the retry path, shared by erase and program failure
    have retry : ∀ (s1 : S) (vq : Nat), vh ≤ vq → vq % c.ppb = 0 → JH c s s1 vq →
        CKeep c s.n s1.n vh vq noEx → Geo0 c s1 vts vt vq →
        (∀ b, vh / c.ppb ≤ b → b < vq / c.ppb → s.n.chip.bad (b % c.numBlocks) = true) →
        DumpOut c s vts vt vh
          (match skipBlock c { { s1 with j := { s1.j with bbCurrent := s1.j.bbCurrent + 1 } } with
              n := nandMarkBad c (c.blk s1.j.head) s1.n } with
            | (.error e, s) => (.error e, s)
            | (.ok (), s) => dumpMetaLoop c i s) := by
      intro s1 vq hle hq hj hk g1 hskip
      have hq' : vq / c.ppb * c.ppb = vq := by
        have := div_mod_range vq c.ppb; omega
      rcases mark_skip hc g1 hq with ⟨h, hub⟩ | ⟨s', h, hj', g', hk', hb'⟩
      · rw [h]; exact .stop _ _ (by decide) hub
      · rw [h]
        simp only
        have hlt := lt_next_blk c vq
        have hdiv : (vq / c.ppb + 1) * c.ppb / c.ppb = vq / c.ppb + 1 := Nat.mul_div_cancel _ hP
        have key := ih s' _ g' (Nat.mul_mod_left _ _)
        generalize dumpMetaLoop c i s' = r at key ⊢
        cases key with
        | stop s'' e he hub => exact .stop _ _ he hub
        | ok s'' vM h2 =>
          have hjj := hj.trans hj'
          refine .ok _ vM ⟨by have := h2.le; omega, h2.al, ?_, by rw [h2.cnt, hjj.count], ?_, ?_, h2.geo, ?_, h2.rest⟩
          · obtain ⟨d, x, y, e⟩ := h2.j
            obtain ⟨⟨d', x', y', e'⟩, _⟩ := hjj
            exact ⟨d, x, y, by rw [e, e']; rfl⟩
          · have hle2 := h2.le
            have hdl : (vq / c.ppb + 1) ≤ vM / c.ppb := by
              have := Nat.div_le_div_right (c := c.ppb) hle2; omega
            have hbv : vh / c.ppb ≤ vq / c.ppb := Nat.div_le_div_right hle
            refine (hk.trans hk' (ex'' := inBlks c (vh / c.ppb) (vM / c.ppb)) ?_).trans h2.keep ?_
            · intro k hk
              rcases hk with hk | hk
              · exact hk.elim
              · exact ⟨vq / c.ppb, by omega, by omega, by rw [hk, ph_div_ppb]⟩
            · intro k hk
              rcases hk with hk | hk
              · exact hk
              · exact inBlks_mono hk (by omega) (Nat.le_refl _)
          · rw [h2.page, hjj.pageBuf]
          · intro b hb1 hb2
            have hle2 := h2.le
            by_cases hbq : b < vq / c.ppb
            · exact h2.keep.badm _ (hk'.badm _ (hk.badm _ (hskip b hb1 hbq)))
            · by_cases hbe : b = vq / c.ppb
              · rw [hbe, ← ph_div_ppb]; exact h2.keep.badm _ hb'
              · exact h2.skip b (by omega) hb2
    unfold dumpMetaLoop
    simp only
    rcases prepareHead_cases hc g with ⟨s1, vq, h, hp⟩ | ⟨s1, vq, h, hp⟩ | ⟨s1, e, h, he1, he2, hub, _⟩
    · rw [h]
      simp only
      have hq : vq % c.ppb = 0 := by rcases hp.mv with h | h
                                     · rw [h]; exact hal
                                     · exact h.2
      have hw := prog_out hc (d := s1.j.pageBuf) (Pd := fun pg => pg = some (c.clip s1.j.pageBuf))
        hp.geo.eh hp.geo.alive hp.geo.noub hp.ready rfl
      generalize progS c s1.j.head s1.j.pageBuf s1 = r at hw ⊢
      cases hw with
      | ok s2 hj hcnt hal2 hub2 hat hd =>
        simp only
        have hnv := nextV_blk_aligned hc hq
        have hlt := lt_nextV c vq
        have hh2 : s2.j.head = c.ph vq := by rw [hj]; exact hp.geo.eh
        obtain ⟨x, y, hr⟩ := rollIfZero_eq hc
          (j := { s2.j with recoverMeta := s2.j.head, head := nextUpage c s2.j.head })
          (v := vq) (w := c.nextV vq) hlt (by
            have := lt_next_blk c (c.nextV vq); rw [hnv.2] at this; omega)
          (by show s2.j.epoch = _; rw [hj]; exact hp.geo.ep)
          (by show nextUpage c s2.j.head = _; rw [hh2, nextUpage_ph hc hp.geo.uh])
        simp only at hr
        rw [hr]
        have hjj : ∃ d x0 y0, ({ Journal.moved { s2.j with recoverMeta := s2.j.head, head := nextUpage c s2.j.head }
            s2.j.dirty (c.ph (c.nextV vq)) (UInt8.ofNat (c.nextV vq / c.pages)) x y with
            pageBuf := hdrClearUser c s2.j.pageBuf } : Journal) = s.j.dumped c d vq x0 y0 := by
          obtain ⟨⟨d', x', y', e'⟩, _⟩ := hp.jh
          refine ⟨s2.j.dirty, x, y, ?_⟩
          rw [hh2, hj, e']; rfl
        have hg : Geo c { s2 with j := ({ Journal.moved { s2.j with recoverMeta := s2.j.head, head := nextUpage c s2.j.head }
            s2.j.dirty (c.ph (c.nextV vq)) (UInt8.ofNat (c.nextV vq / c.pages)) x y with
            pageBuf := hdrClearUser c s2.j.pageBuf } : Journal) } vts vt (c.nextV vq) := by
          refine ⟨⟨?_, ?_, rfl, g.uts, g.ut, nextV_isU hc hp.geo.uh, g.l1, ?_, hp.winN, rfl, hal2, hub2⟩, ?_⟩
          · show s2.j.tailSync = _; rw [hj]; exact hp.geo.ets
          · show s2.j.tail = _; rw [hj]; exact hp.geo.et
          · have := hp.geo.l2; omega
          · intro _
            exact headOK_advance (s := s1) (w := vq) (v := vq) hp.ready hat (Nat.le_refl _) hlt hnv.2
        refine .ok _ vq ⟨hp.le, hq, hjj, by show s2.count = _; rw [hcnt, hp.jh.count], ?_, ?_, hg, ?_, ?_⟩
        · exact hp.keep.trans (hat.keep (Nat.le_refl vq) (Nat.le_refl _) (Nat.le_refl _))
            (fun k hk => by rcases hk with h | h <;> exact h.elim)
        · show s2.n.chip.page _ = _
          rw [hd, hp.jh.pageBuf]
        · intro b hb1 hb2
          show s2.n.chip.bad _ = true
          rw [hat.bad]; exact hp.keep.badm _ (hp.skip b hb1 hb2)
        · intro p hp1 hp2
          show s2.n.chip.page p = _
          rw [hat.page p hp2]; exact (hp.fresh hal p hp1).1
      | fail s2 hj hcnt hal2 hub2 hat hf ht =>
        simp only
        rw [if_neg (by simp)]
        refine retry s2 vq hp.le hq ?_ ?_ ?_ hp.skip
        · obtain ⟨⟨d', x', y', e'⟩, k'⟩ := hp.jh
          exact ⟨⟨d', x', y', by rw [hj, e']⟩, by rw [hcnt, k']⟩
        · exact hp.keep.trans (hat.keep (Nat.le_refl vq) (Nat.le_refl _) (Nat.le_refl _))
            (fun k hk => by rcases hk with h | h <;> exact h.elim)
        · exact hp.geo.of_wr hj hal2 hub2
      | stop s2 e h1 h2 hub2 _ =>
        simp only
        rw [if_pos h1]
        exact .stop _ _ h2 hub2
    · rw [h]
      simp only
      rw [if_neg (by simp)]
      exact retry s1 vq hp.le hp.al' hp.jh hp.keep hp.geo hp.skip
    · rw [h]
      simp only
      rw [if_pos he1]
      exact .stop _ _ he2 hub

/-! ### recover_from -/

/-- The journal after a recovery was restarted (journal.c:650-672) with the head at `v'`. -/
def Journal.again (c : Cfg) (j : Journal) (d : Bool) (v' x y : Nat) (bm : Bool) : Journal :=
  { j.moved d (c.ph v') (UInt8.ofNat (v' / c.pages)) x y with
    badMeta := bm, enumDone := false, recoverNext := c.blockStart j.recoverRoot,
    root := j.recoverRoot }

/-- The journal after a recovery was begun (journal.c:738-753). -/
def Journal.started (c : Cfg) (j : Journal) (d : Bool) (v' x y rm : Nat) (buf : Buf) : Journal :=
  { j.moved d (c.ph v') (UInt8.ofNat (v' / c.pages)) x y with
    recoverRoot := j.root, recoverNext := c.blockStart j.root, recovery := true,
    recoverMeta := rm, pageBuf := buf }

/-- Start of the block after the one of `v`. -/
def Cfg.nextB (c : Cfg) (v : Nat) : Nat := (v / c.ppb + 1) * c.ppb

theorem nextB_div (c : Cfg) (v : Nat) : c.nextB v / c.ppb = v / c.ppb + 1 :=
  Nat.mul_div_cancel _ (ppb_pos c)
theorem nextB_mod (c : Cfg) (v : Nat) : c.nextB v % c.ppb = 0 := Nat.mul_mod_left _ _
theorem lt_nextB (c : Cfg) (v : Nat) : v < c.nextB v := lt_next_blk c v

/-- Is the failed block the one holding the dumped metadata? -/
def metaHit (c : Cfg) (s : S) (vh : Nat) : Prop :=
  s.j.recoverMeta ≠ NONE ∧ c.blk s.j.recoverMeta = c.ph vh / c.ppb

inductive RecOut (c : Cfg) (s : S) (vts vt vh : Nat) : Except Err Unit × S → Prop
  | retry (s' : S) (hr : s.j.recovery = false) (hv : vh % c.ppb = 0) (hj : JH c s s' (c.nextB vh))
      (hk : CKeep c s.n s'.n vh (c.nextB vh) (fun k => k = c.ph vh / c.ppb))
      (hg : Geo c s' vts vt (c.nextB vh)) (hb : s'.n.chip.bad (c.ph vh / c.ppb) = true)
      (hpg : s'.n.chip.page = s.n.chip.page) :
      RecOut c s vts vt vh (.ok (), s')
  | again (s' : S) (bm : Bool) (hr : s.j.recovery = true)
      (hj : ∃ d x y, s'.j = s.j.again c d (c.nextB vh) x y bm) (hcnt : s'.count = s.count)
      (hk : CKeep c s.n s'.n vh (c.nextB vh) (fun k => k = c.ph vh / c.ppb ∧ ¬ metaHit c s vh))
      (hg : Geo c s' vts vt (c.nextB vh))
      (hb : ¬ metaHit c s vh → bm = s.j.badMeta ∧ s'.n.chip.bad (c.ph vh / c.ppb) = true)
      (hm : metaHit c s vh → bm = true) (hpg : s'.n.chip.page = s.n.chip.page) :
      RecOut c s vts vt vh (.error .recover, s')
  | start (s' : S) (hr : s.j.recovery = false) (hv : vh % c.ppb ≠ 0) (hc : vh % c.ppc = 0)
      (hj : ∃ d x y, s'.j = s.j.started c d (c.nextB vh) x y s.j.recoverMeta s.j.pageBuf)
      (hcnt : s'.count = s.count)
      (hn : s'.n = s.n) (hg : Geo c s' vts vt (c.nextB vh)) :
      RecOut c s vts vt vh (.error .recover, s')
  | dump (s' : S) (vM : Nat) (hr : s.j.recovery = false) (hv : vh % c.ppb ≠ 0) (hc : vh % c.ppc ≠ 0)
      (hj : ∃ d x y, s'.j = s.j.started c d (c.nextV vM) x y (c.ph vM) (hdrClearUser c s.j.pageBuf))
      (hcnt : s'.count = s.count) (hle : c.nextB vh ≤ vM) (hal : vM % c.ppb = 0)
      (hk : CKeep c s.n s'.n (c.nextB vh) vM (inBlks c (vh / c.ppb + 1) (vM / c.ppb)))
      (hpage : s'.n.chip.page (c.ph vM) = some (c.clip s.j.pageBuf))
      (hg : Geo c s' vts vt (c.nextV vM))
      (hskip : ∀ b, vh / c.ppb + 1 ≤ b → b < vM / c.ppb → s'.n.chip.bad (b % c.numBlocks) = true)
      (hrest : ∀ p, p / c.ppb = c.ph vM / c.ppb → p ≠ c.ph vM → s'.n.chip.page p = some (c.clip Buf.ff)) :
      RecOut c s vts vt vh (.error .recover, s')
  | stop (s' : S) (e : Err) (he : e ≠ .recover) (hub : s'.n.ub = false) :
      RecOut c s vts vt vh (.error e, s')

theorem recoverFrom_spec (hc : c.Valid) {s : S} {vts vt vh : Nat} (g : Geo0 c s vts vt vh) :
    RecOut c s vts vt vh (recoverFrom c .badBlock s) := by
  unfold recoverFrom
  rw [if_neg (by simp)]
  simp only
  have hal0 : isAligned s.j.head c.log2Ppb = true ↔ vh % c.ppb = 0 := by
    rw [isAligned_iff, g.eh]; show c.ph vh % c.ppb = 0 ↔ _; rw [ph_mod_ppb]
  have hal1 : isAligned s.j.head c.log2Ppc = true ↔ vh % c.ppc = 0 := by
    rw [isAligned_iff, g.eh]; show c.ph vh % c.ppc = 0 ↔ _; rw [ph_mod_ppc hc]
  have hblk : c.blk s.j.head = c.ph vh / c.ppb := by rw [g.eh, blk_eq]
  rcases skipBlock_spec hc (s := { s with j := { s.j with bbCurrent := s.j.bbCurrent + 1 } })
      (vts := vts) (vh := vh) g.ets g.eh (Nat.le_trans g.l1 g.l2) g.win g.ep with
    h | ⟨s1, h, hj, hn, hd, hw⟩
  · rw [h]; exact .stop _ _ (by decide) g.noub
  · rw [h]
    simp only
    have hJ : JH c s s1 (c.nextB vh) := by
      obtain ⟨⟨d, x, y, e⟩, k⟩ := hj; exact ⟨⟨d, x, y, e⟩, k⟩
    have hn' : s1.n = s.n := hn
    have hlt := lt_nextB c vh
    have hG1 : Geo c s1 vts vt (c.nextB vh) :=
      ⟨g.mk' hJ (by omega) (isU_of_aligned hc (nextB_mod c vh)) hw (by rw [hn']; exact g.alive)
        (by rw [hn']; exact g.noub), fun h => absurd (nextB_mod c vh) h⟩
    have hmark : nandMarkBad c (c.ph vh / c.ppb) s1.n =
        { s.n with chip := s.n.chip.marked (c.ph vh / c.ppb) } := by
      rw [hn', nandMarkBad_eq hc g.alive]
    have hmk := (marked_keep (c := c) s.n vh (c.ph vh / c.ppb)).mono (Nat.le_of_lt hlt)
      (fun k hk => hk)
    have hmb : (s.n.chip.marked (c.ph vh / c.ppb)).bad (c.ph vh / c.ppb) = true := by
      simp [Chip.marked, upd]
    by_cases hrec : s.j.recovery = true
    · rw [if_pos (by rw [hJ.recovery]; exact hrec)]
      unfold restartRecovery
      rw [hblk]
      have hhit : (s1.j.recoverMeta = NONE ∨ ¬ alignEq s1.j.recoverMeta s.j.head c.log2Ppb = true) ↔
          ¬ metaHit c s vh := by
        rw [hJ.recoverMeta]
        unfold metaHit
        rw [blk_eq]
        have : alignEq s.j.recoverMeta s.j.head c.log2Ppb = true ↔
            s.j.recoverMeta / c.ppb = c.ph vh / c.ppb := by rw [alignEq_iff, g.eh]; rfl
        rw [this, Decidable.not_and_iff_not_or_not, Decidable.not_not]
      obtain ⟨⟨d, x, y, e⟩, kc⟩ := hJ
      by_cases hm : s1.j.recoverMeta = NONE ∨ ¬ alignEq s1.j.recoverMeta s.j.head c.log2Ppb = true
      · rw [if_pos hm]
        have hm' := hhit.1 hm
        refine .again _ s.j.badMeta hrec ⟨d, x, y, ?_⟩ kc ?_ ?_ ?_ ?_ ?_
        · show _ = _; simp only [e]; rfl
        · show CKeep c s.n (nandMarkBad c (c.ph vh / c.ppb) s1.n) _ _ _
          rw [hmark]; exact ⟨hmk.le, hmk.page, hmk.free, hmk.badm, fun k hk =>
            (hmk.badn k hk).imp id (fun h => ⟨h, hm'⟩)⟩
        · refine ⟨⟨hG1.ets, hG1.et, hG1.eh, hG1.uts, hG1.ut, hG1.uh, hG1.l1, hG1.l2, hG1.win, hG1.ep,
            ?_, ?_⟩, fun h => absurd (nextB_mod c vh) h⟩
          · show (nandMarkBad c (c.ph vh / c.ppb) s1.n).dead = false; rw [hmark]; exact g.alive
          · show (nandMarkBad c (c.ph vh / c.ppb) s1.n).ub = false; rw [hmark]; exact g.noub
        · intro _
          refine ⟨rfl, ?_⟩
          show (nandMarkBad c (c.ph vh / c.ppb) s1.n).chip.bad _ = true
          rw [hmark]; exact hmb
        · intro h; exact absurd h hm'
        · show (nandMarkBad c (c.ph vh / c.ppb) s1.n).chip.page = _
          rw [hmark]; rfl
      · rw [if_neg hm]
        have hm' : metaHit c s vh := Classical.not_not.1 (fun h => hm (hhit.2 h))
        refine .again _ true hrec ⟨d, x, y, ?_⟩ kc ?_ ?_ ?_ ?_ ?_
        · show _ = _; simp only [e]; rfl
        · show CKeep c s.n s1.n _ _ _
          rw [hn']
          exact (CKeep.refl s.n vh).mono (Nat.le_of_lt hlt) (fun k hk => hk.elim)
        · exact ⟨⟨hG1.ets, hG1.et, hG1.eh, hG1.uts, hG1.ut, hG1.uh, hG1.l1, hG1.l2, hG1.win, hG1.ep,
            hG1.alive, hG1.noub⟩, fun h => absurd (nextB_mod c vh) h⟩
        · intro h; exact absurd hm' h
        · intro _; rfl
        · show s1.n.chip.page = _
          rw [hn']
    · have hrec' : s.j.recovery = false := by simpa using hrec
      rw [if_neg (by rw [hJ.recovery]; exact hrec)]
      by_cases hv : vh % c.ppb = 0
      · rw [if_pos (hal0.2 hv), hblk, hmark]
        refine .retry _ hrec' hv ?_ ?_ ?_ hmb rfl
        · obtain ⟨⟨d, x, y, e⟩, kc⟩ := hJ
          exact ⟨⟨d, x, y, e⟩, kc⟩
        · exact hmk
        · exact ⟨⟨hG1.ets, hG1.et, hG1.eh, hG1.uts, hG1.ut, hG1.uh, hG1.l1, hG1.l2, hG1.win, hG1.ep,
            g.alive, g.noub⟩, fun h => absurd (nextB_mod c vh) h⟩
      · rw [if_neg (fun h => hv (hal0.1 h))]
        by_cases hvc : vh % c.ppc = 0
        · rw [if_neg (by rw [hal1.2 hvc]; simp)]
          simp only
          obtain ⟨⟨d, x, y, e⟩, kc⟩ := hJ
          refine .start _ hrec' hv hvc ⟨d, x, y, ?_⟩ kc hn' ?_
          · show _ = _; simp only [e]; rfl
          · exact ⟨⟨hG1.ets, hG1.et, hG1.eh, hG1.uts, hG1.ut, hG1.uh, hG1.l1, hG1.l2, hG1.win, hG1.ep,
              hG1.alive, hG1.noub⟩, fun h => absurd (nextB_mod c vh) h⟩
        · rw [if_pos (fun h => hvc (hal1.1 h))]
          have hG2 : Geo c { s1 with j := { s1.j with recoverRoot := s1.j.root, recoverNext := c.blockStart s1.j.root } } vts vt (c.nextB vh) :=
            ⟨⟨hG1.ets, hG1.et, hG1.eh, hG1.uts, hG1.ut, hG1.uh, hG1.l1, hG1.l2, hG1.win, hG1.ep,
              hG1.alive, hG1.noub⟩, fun h => absurd (nextB_mod c vh) h⟩
          have key := dumpMetaLoop_spec hc 8 _ _ hG2 (nextB_mod c vh)
          unfold dumpMeta
          generalize dumpMetaLoop c 8 { s1 with j := { s1.j with recoverRoot := s1.j.root, recoverNext := c.blockStart s1.j.root } } = r at key ⊢
          cases key with
          | stop s2 e he hub => exact .stop _ _ he hub
          | ok s2 vM h2 =>
            simp only
            have hkeep := h2.keep
            have hskip := h2.skip
            rw [nextB_div] at hkeep hskip
            obtain ⟨⟨d, x, y, e⟩, kc⟩ := hJ
            obtain ⟨d', x', y', e'⟩ := h2.j
            refine .dump _ vM hrec' hv hvc ⟨d', x', y', ?_⟩ (by show s2.count = _; rw [h2.cnt]; exact kc)
              h2.le h2.al ?_ ?_ ?_ hskip h2.rest
            · show _ = _; simp only [e', e]; rfl
            · show CKeep c s.n s2.n _ _ _
              rw [← hn']; exact hkeep
            · show s2.n.chip.page _ = _
              rw [h2.page]; simp only [e]; rfl
            · exact ⟨⟨h2.geo.ets, h2.geo.et, h2.geo.eh, h2.geo.uts, h2.geo.ut, h2.geo.uh, h2.geo.l1, h2.geo.l2,
                h2.geo.win, h2.geo.ep, h2.geo.alive, h2.geo.noub⟩, h2.geo.hfree⟩

theorem recoverFrom_ne {e : Err} (h : e ≠ .badBlock) (s : S) : recoverFrom c e s = (.error e, s) := by
  unfold recoverFrom; rw [if_pos h]

end Dhara

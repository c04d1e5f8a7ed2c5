/-
A chip on which no program and no erase fails never fills up: dhara/map.c:100-111 (capacity),
308-320 (auto_gc) keep the queue short enough.
-/
import Verif.Proofs.Bal
import Verif.Proofs.Wr
import Verif.Props.Journal
namespace Dhara

variable {c : Cfg}

/-- The errors a healthy chip rules out (E_MAP_FULL is treated separately). -/
def Fatal (e : Err) : Prop := e ≠ .powerLoss ∧ e ≠ .ecc ∧ e ≠ .ub ∧ e ≠ .diverge

instance (e : Err) : Decidable (Fatal e) := by unfold Fatal; infer_instance

/-- The bad block statistics of a chip without bad blocks. -/
def BB (c : Cfg) (j : Journal) : Prop := j.bbCurrent = 0 ∧ (j.bbLast = 0 ∨ j.bbLast = c.numBlocks >>> 6)

theorem nandProg_healthy (hH : Healthy c) {p : Nat} {d : Buf} {n : Nand} {e : Err} (h : (nandProg c p d n).1 = .error e) :
    e = .powerLoss := by
  have := (hH n.time).1
  unfold nandProg at h
  split at h
  · cases h; rfl
  · simp only at h
    split at h <;> first | (cases h; done) | (cases h; rfl) | (rename_i hf; exact absurd hf this)

theorem nandErase_healthy (hH : Healthy c) {b : Nat} {n : Nand} {e : Err} (h : (nandErase c b n).1 = .error e) :
    e = .powerLoss := by
  have := (hH n.time).2
  unfold nandErase at h
  split at h
  · cases h; rfl
  · simp only at h
    split at h <;> first | (cases h; done) | (cases h; rfl) | (rename_i hf; exact absurd hf this)

theorem wrData_healthy (hH : Healthy c) (d : Option Buf) : ∀ s e, (wrData c d s).1 = .error e → ¬ Fatal e := by
  intro s e h
  cases d with
  | none => cases h
  | some b => rw [nandProg_healthy hH (show (nandProg c s.j.head b s.n).1 = .error e from h)]; unfold Fatal; decide

theorem wrCopy_healthy (hH : Healthy c) (p : Nat) : ∀ s e, (wrCopy c p s).1 = .error e → ¬ Fatal e := by
  intro s e h
  have h : (nandCopy c p s.j.head s.n).1 = .error e := h
  unfold nandCopy at h
  cases hr : nandRead c s.n p 0 c.pageSize with
  | error e' =>
    rw [hr] at h
    cases h
    rcases nandRead_err hr with h | h <;> rw [h] <;> unfold Fatal <;> decide
  | ok b => rw [hr] at h; rw [nandProg_healthy hH h]; unfold Fatal; decide

theorem prepareHead_healthy (hc : c.Valid) (hH : Healthy c) {s : S} {vts vt vh : Nat} (g : Geo c s vts vt vh)
    (hw : c.Win vts (c.nextV vh)) (hb : Sound c s.n) :
    (∃ n', prepareHead c s = (.ok (), { s with j := { s.j with dirty := true }, n := n' })) ∨
    (∃ s', prepareHead c s = (.error .powerLoss, s')) := by
  have e1 : nextUpage c s.j.head = c.ph (c.nextV vh) := by rw [g.eh, nextUpage_ph hc g.uh]
  have hl := lt_nextV c vh
  have g1 := g.l1
  have g2 := g.l2
  unfold prepareHead
  simp only [e1]
  rw [if_neg]
  · by_cases hal : isAligned s.j.head c.log2Ppb = true
    · rw [if_neg (by simp [hal])]
      unfold prepareHeadLoop
      have hbad : nandIsBad s.n (c.blk s.j.head) = false := by
        have : c.blk s.j.head = c.ph vh / c.ppb := by
          unfold Cfg.blk; rw [Nat.shiftRight_eq_div_pow, g.eh]; rfl
        rw [this]
        apply hb
        rw [ph_div_ppb]; exact Nat.mod_lt _ (by have := hc.blocks_lo; omega)
      simp only
      rw [if_pos (by rw [hbad]; decide)]
      rcases hr : nandErase c (c.blk s.j.head) s.n with ⟨e | u, n'⟩
      · have := nandErase_healthy hH (e := e) (by rw [hr])
        subst this
        exact Or.inr ⟨_, rfl⟩
      · exact Or.inl ⟨n', rfl⟩
    · rw [if_pos hal]; exact Or.inl ⟨s.n, rfl⟩
  · rintro ⟨h1, h2⟩
    rw [g.ets] at h1
    rw [g.eh] at h2
    have h1' : c.ph (c.nextV vh) / c.ppb = c.ph vts / c.ppb := alignEq_iff.1 h1
    have h3 : c.nextV vh / c.ppb = vts / c.ppb := hw.blk_inj (by omega) (by omega) (by omega) (by omega) h1'
    apply h2
    apply alignEq_iff.2
    show c.ph _ / c.ppb = c.ph _ / c.ppb
    have a1 := Nat.div_le_div_right (c := c.ppb) (show vts ≤ vh by omega)
    have a2 := Nat.div_le_div_right (c := c.ppb) (show vh ≤ c.nextV vh by omega)
    rw [ph_div_ppb, ph_div_ppb, show c.nextV vh / c.ppb = vh / c.ppb by omega]

theorem BB.roll {j : Journal} (h : BB c j) : BB c (rollIfZero j) := by
  unfold rollIfZero rollStats
  split
  · exact ⟨rfl, Or.inl h.1⟩
  · exact h

theorem BB.congr {j j' : Journal} (h : BB c j) (h1 : j'.bbCurrent = j.bbCurrent) (h2 : j'.bbLast = j.bbLast) : BB c j' :=
  ⟨h1.trans h.1, by rw [h2]; exact h.2⟩

theorem recoverFrom_other {e : Err} (h : e ≠ .badBlock) (s : S) : recoverFrom c e s = (.error e, s) := by
  unfold recoverFrom; simp only; rw [if_pos h]

/-- The statistics in a checkpoint header of a chip without bad blocks. -/
def HdrBB (c : Cfg) (b : Buf) : Prop := hdrGetBbCurrent b = 0 ∧ (hdrGetBbLast b = 0 ∨ hdrGetBbLast b = c.numBlocks >>> 6)

theorem HdrBB.congr {b b' : Buf} (h : HdrBB c b) (he : ∀ i, i < 16 → b' i = b i) : HdrBB c b' := by
  have e1 : hdrGetBbCurrent b' = hdrGetBbCurrent b := r32_congr fun i hi => he _ (by omega)
  have e2 : hdrGetBbLast b' = hdrGetBbLast b := r32_congr fun i hi => he _ (by omega)
  unfold HdrBB
  rw [e1, e2]; exact h

theorem BB.hdr (hc : c.Valid) {j : Journal} (h : BB c j) : HdrBB c (c.clip (fillHeader j).pageBuf) := by
  have hN : c.numBlocks >>> 6 < 2 ^ 32 := by
    have h1 := hc.pages_hi
    have h2 : c.numBlocks ≤ c.pages := Nat.le_mul_of_pos_right _ (ppb_pos c)
    have h3 : c.numBlocks >>> 6 ≤ c.numBlocks := by rw [Nat.shiftRight_eq_div_pow]; exact Nat.div_le_self _ _
    omega
  have hl : j.bbLast < 2 ^ 32 := by rcases h.2 with h | h <;> rw [h] <;> omega
  have hb : HdrBB c (fillHeader j).pageBuf := by
    have e1 : hdrGetBbCurrent (fillHeader j).pageBuf = j.bbCurrent := by
      unfold fillHeader hdrSetBbLast hdrSetBbCurrent hdrGetBbCurrent
      simp only
      rw [r32_w32_other (by omega), r32_w32_same (by rw [h.1]; omega)]
    have e2 : hdrGetBbLast (fillHeader j).pageBuf = j.bbLast := by
      unfold fillHeader hdrSetBbLast hdrGetBbLast
      simp only
      rw [r32_w32_same hl]
    unfold HdrBB
    rw [e1, e2]; exact h
  refine hb.congr fun i hi => ?_
  have := hc.pageSize_ge
  unfold Cfg.clip Buf.slice
  rw [if_pos (by omega), Nat.zero_add]

theorem nandProg_page {p : Nat} {d : Buf} {n n' : Nand} (h : nandProg c p d n = (.ok (), n')) : n'.chip.page p = some (c.clip d) := by
  unfold nandProg at h
  split at h
  · cases h
  · simp only at h
    split at h <;> cases h
    show upd n.chip.page p (some (c.clip d)) p = _
    unfold upd; rw [if_pos rfl]

/-- What a push does to the statistics and the head on a healthy chip. -/
def PushedH (c : Cfg) (vh : Nat) (s : S) : Prop :=
  BB c s.j ∧ s.j.head = c.ph (c.nextV vh) ∧ (c.last vh → ∃ b, s.n.chip.page (c.ph (vh + 1)) = some b ∧ HdrBB c b)

/-- The push's errors and statistics on a healthy chip. -/
theorem pushLoop_healthy (hc : c.Valid) (hH : Healthy c) {wr : S → Except Err Unit × S} {Pd : S → Option Buf → Prop}
    (hwr : WrSpec c wr Pd) (hwe : ∀ s e, (wr s).1 = .error e → ¬ Fatal e) {m : Option Buf} {s : S} {vts vt vh : Nat}
    (g : Geo c s vts vt vh) (hcalm : Calm s) (hw : c.Win vts (c.nextV vh)) (hb : Sound c s.n) (hbb : BB c s.j) (i : Nat) :
    (∀ e, (pushLoop c wr m (i + 1) s).1 = .error e → ¬ Fatal e ∧ (e ≠ .powerLoss → BB c (pushLoop c wr m (i + 1) s).2.j)) ∧
    ((pushLoop c wr m (i + 1) s).1 = .ok () → PushedH c vh (pushLoop c wr m (i + 1) s).2) := by
  have hpl : ¬ Fatal .powerLoss := by unfold Fatal; decide
  unfold pushLoop
  have hcases := prepareHead_cases hc g
  rcases prepareHead_healthy hc hH g hw hb with ⟨n', h⟩ | ⟨s', h⟩
  · rw [h] at hcases ⊢
    simp only
    have hok : ∃ vq, Prepared c s { s with j := { s.j with dirty := true }, n := n' } vts vt vh vq := by
      rcases hcases with ⟨s', vq, e, hp⟩ | ⟨s', vq, e, _⟩ | ⟨s', vq, e, _⟩
      · cases e; exact ⟨vq, hp⟩
      · cases e
      · cases e
    obtain ⟨vq, hp⟩ := hok
    have hwo := hwr _ vq hp.geo.eh hp.geo.alive hp.geo.noub hp.ready
    have hwe' := hwe { s with j := { s.j with dirty := true }, n := n' }
    generalize wr { s with j := { s.j with dirty := true }, n := n' } = r at hwo hwe' ⊢
    have herr : ∀ (e : Err) (s2 : S), ¬ Fatal e → (e ≠ .powerLoss → BB c s2.j) →
        (∀ e', (match recoverFrom c e s2 with
          | (.error e, s) => ((.error e, s) : Except Err Unit × S)
          | (.ok (), s) => pushLoop c wr m i s).1 = .error e' → ¬ Fatal e' ∧ (e' ≠ .powerLoss → BB c (match recoverFrom c e s2 with
          | (.error e, s) => ((.error e, s) : Except Err Unit × S)
          | (.ok (), s) => pushLoop c wr m i s).2.j)) ∧
        ((match recoverFrom c e s2 with
          | (.error e, s) => ((.error e, s) : Except Err Unit × S)
          | (.ok (), s) => pushLoop c wr m i s).1 = .ok () → PushedH c vh (match recoverFrom c e s2 with
          | (.error e, s) => ((.error e, s) : Except Err Unit × S)
          | (.ok (), s) => pushLoop c wr m i s).2) := by
      intro e s2 he hbe
      rw [recoverFrom_other (fun hh => he (by rw [hh]; decide))]
      refine ⟨fun e' h' => ?_, fun h' => by cases h'⟩
      cases h'; exact ⟨he, hbe⟩
    rcases r with ⟨e | u, s2⟩
    · refine herr e s2 (hwe' e rfl) fun hp => ?_
      cases hwo with
      | fail _ hj => rw [hj]; exact hbb.congr rfl rfl
      | stop _ _ _ _ _ _ hsf => rw [hsf hp]; exact hbb.congr rfl rfl
    · simp only
      cases hwo with
      | ok _ hj hcnt hal hub hat hd =>
        unfold pushMeta
        simp only
        have hjb : BB c s2.j := by rw [hj]; exact hbb.congr rfl rfl
        have hjm : BB c (bufferMeta c m s2.j) := by
          rw [bufferMeta_fields]; exact hjb.congr rfl rfl
        have hhd : (bufferMeta c m s2.j).head = c.ph vh := by rw [bufferMeta_fields, hj]; exact g.eh
        have hnu : nextUpage c (c.ph vh) = c.ph (c.nextV vh) := nextUpage_ph hc g.uh
        split
        · rename_i hal
          rw [hhd] at hal
          rw [← g.eh, aligned2 hc g.eh g.uh] at hal
          refine ⟨fun e h' => (by cases h'), fun _ => ⟨hjm.congr rfl rfl, ?_, fun h => absurd h hal⟩⟩
          show (bufferMeta c m s2.j).head + 1 = _
          rw [hhd]
          have hlt := mod_ppc_lt c vh
          have h4 := hc.ppc_ge
          have hlC : vh % c.ppc + 1 < c.ppc := by have := g.uh; unfold Cfg.isU at this; unfold Cfg.last at hal; omega
          rw [(not_last hc g.uh hal).1, ph_add hc hlC]
        · have hfh : (fillHeader (bufferMeta c m s2.j)).head = c.ph vh := hhd
          have hen : (fillHeader (bufferMeta c m s2.j)).enumDone = false := by
            rw [bufferMeta_fields, hj]; exact hcalm.ed
          have hrc : (fillHeader (bufferMeta c m s2.j)).recovery = false := by
            rw [bufferMeta_fields, hj]; exact hcalm.nr
          have hfb : BB c (fillHeader (bufferMeta c m s2.j)) := hjm.congr rfl rfl
          have hfx : HdrBB c (c.clip (fillHeader (bufferMeta c m s2.j)).pageBuf) := hjm.hdr hc
          generalize fillHeader (bufferMeta c m s2.j) = jj at hen hrc hfb hfx hfh ⊢
          unfold progS
          have hpe := fun e => nandProg_healthy hH (c := c) (p := jj.head + 1) (d := jj.pageBuf) (n := s2.n) (e := e)
          rcases hpr : nandProg c (jj.head + 1) jj.pageBuf s2.n with ⟨e | u, n3⟩
          · rw [hpr] at hpe
            have := hpe e rfl
            subst this
            simp only
            rw [recoverFrom_other (by decide)]
            refine ⟨fun e' h' => ?_, fun h' => by cases h'⟩
            cases h'; exact ⟨hpl, fun hh => absurd rfl hh⟩
          · simp only
            refine ⟨fun e h' => (by cases h'), fun _ => ?_⟩
            unfold commitPush
            simp only
            have hroll : ∀ j : Journal, (rollIfZero j).enumDone = j.enumDone ∧ (rollIfZero j).recovery = j.recovery ∧ (rollIfZero j).head = j.head := by
              intro j; unfold rollIfZero rollStats; split <;> exact ⟨rfl, rfl, rfl⟩
            have he : ¬ (rollIfZero { jj with dirty := false, root := s2.j.head, head := nextUpage c jj.head }).enumDone = true := by
              rw [(hroll _).1]; simp [hen]
            have hr : ¬ (rollIfZero { jj with dirty := false, root := s2.j.head, head := nextUpage c jj.head }).recovery = true := by
              rw [(hroll _).2.1]; simp [hrc]
            rw [if_neg he, if_pos hr]
            refine ⟨BB.congr (j := rollIfZero { jj with dirty := false, root := s2.j.head, head := nextUpage c jj.head }) ?_ rfl rfl, ?_, ?_⟩
            · exact BB.roll (hfb.congr rfl rfl)
            · refine ((hroll { jj with dirty := false, root := s2.j.head, head := nextUpage c jj.head }).2.2).trans ?_
              show nextUpage c jj.head = _
              rw [hfh, hnu]
            · intro hl
              have hpg := nandProg_page hpr
              have h4 := hc.ppc_ge
              have hl2 := hl
              unfold Cfg.last at hl2
              rw [hfh, ← ph_add hc (v := vh) (k := 1) (by omega)] at hpg
              exact ⟨_, hpg, hfx⟩
  · rw [h]
    simp only
    rw [recoverFrom_other (by decide)]
    refine ⟨fun e' h' => ?_, fun h' => by cases h'⟩
    cases h'; exact ⟨hpl, fun hh => absurd rfl hh⟩

/-! ### The parameters -/

/-- Collection steps per page written. -/
def Cfg.gk (c : Cfg) : Nat := c.gcr + 1
/-- An upper bound on the map's capacity on a chip without bad blocks. -/
def Cfg.mcap (c : Cfg) : Nat := c.ucap - c.ucap / c.gk - 8 * c.ppb
/-- The bound of the balance. -/
def Cfg.bz (c : Cfg) : Nat := c.gk * c.mcap + c.ucap

theorem Fits.split (h : Fits c) : c.mcap + 8 * c.ppb + c.ucap / c.gk = c.ucap ∧ 1 ≤ c.mcap := by
  have := h.cap
  unfold Cfg.mcap Cfg.gk
  omega

theorem Fits.bound (h : Fits c) {x j : Nat} (hx : c.gk * x + j ≤ c.bz) : x + 8 * c.ppb ≤ c.ucap := by
  obtain ⟨h1, h2⟩ := h.split
  apply Classical.byContradiction
  intro hn
  have hk : 0 < c.gk := by unfold Cfg.gk; omega
  have h3 : c.gk * (c.mcap + c.ucap / c.gk + 1) ≤ c.gk * x := Nat.mul_le_mul_left _ (by omega)
  have h4 : c.ucap < c.gk * (c.ucap / c.gk + 1) := by
    have := Nat.lt_mul_div_succ c.ucap hk
    exact this
  unfold Cfg.bz at hx
  rw [show c.mcap + c.ucap / c.gk + 1 = c.mcap + (c.ucap / c.gk + 1) by omega, Nat.mul_add] at h3
  omega

theorem Fits.bound1 (h : Fits c) {x : Nat} (hx : c.gk * x ≤ c.bz + c.gk) : x + 8 * c.ppb ≤ c.ucap + 1 := by
  by_cases h0 : x = 0
  · have := h.bound (x := 0) (j := 0) (by omega); omega
  · have : c.gk * (x - 1) + c.gk = c.gk * x := by
      conv => lhs; rhs; rw [← Nat.mul_one c.gk]
      rw [← Nat.mul_add, show x - 1 + 1 = x by omega]
    have := h.bound (x := x - 1) (j := 0) (by omega)
    omega

theorem Fits.gk_le (h : Fits c) : c.gk + 2 ≤ 8 * c.ppb := by have := h.gc; unfold Cfg.gk; omega

/-- The head does not reach the block of the synchronised tail. -/
theorem Fits.win (hc : c.Valid) (h : Fits c) {s : S} {vts vt vh : Nat} (g : Geo0 c s vts vt vh)
    (hs : c.gk * (c.u (vh / c.ppc * c.ppc) - c.u vts) ≤ c.bz + c.gk) : c.Win vts (c.nextV vh) := by
  have hb := h.bound1 (x := c.u (vh / c.ppc * c.ppc) - c.u vts) (by omega)
  have h4' := hc.ppc_ge
  have d1 := div_mod_range vh c.ppc
  have hl := mod_ppc_lt c vh
  have hu := u_add_le c (vh / c.ppc * c.ppc) (vh % c.ppc)
  rw [show vh / c.ppc * c.ppc + vh % c.ppc = vh by omega] at hu
  have hp := Nat.le_of_dvd (ppb_pos c) hc.ppc_dvd
  have hsz : c.u vh < c.u vts + c.ucap := by have := ppb_pos c; omega
  rcases nextV_blk hc g.uh with ⟨a, _⟩ | ⟨a, b⟩
  · unfold Cfg.Win; rw [a]; exact g.win
  · apply Classical.byContradiction
    intro hn
    unfold Cfg.Win at hn
    have e1 := u_nextV hc g.uh
    have d2 := div_mod_range (c.nextV vh) c.ppb
    have m1 := u_mono c (v := (vts / c.ppb + c.numBlocks) * c.ppb) (w := c.nextV vh)
      (Nat.le_trans (Nat.mul_le_mul_right _ (by omega : vts / c.ppb + c.numBlocks ≤ c.nextV vh / c.ppb)) (by omega))
    rw [u_mul hc] at m1
    have m2 := u_lt hc g.uts (w := (vts / c.ppb + 1) * c.ppb) (by
      have d3 := div_mod_range vts c.ppb
      have := mod_ppb_lt c vts
      rw [Nat.add_mul, Nat.one_mul]; omega)
    rw [u_mul hc] at m2
    have hN := hc.blocks_lo
    have e2 : (vts / c.ppb + c.numBlocks) * (c.ppb - c.ppb / c.ppc) =
        (vts / c.ppb + 1) * (c.ppb - c.ppb / c.ppc) + c.ucap := by
      unfold Cfg.ucap
      rw [← Nat.add_mul, show vts / c.ppb + 1 + (c.numBlocks - 1) = vts / c.ppb + c.numBlocks by omega]
    omega

/-! ### The map's capacity -/

theorem ucap_lt (hc : c.Valid) : c.ucap < 2 ^ 32 := by
  have h1 := hc.pages_hi
  have h2 : c.ucap ≤ c.numBlocks * c.ppb := Nat.mul_le_mul (by omega) (Nat.sub_le _ _)
  have h3 : c.pages = c.numBlocks * c.ppb := rfl
  omega

theorem capacity_le (hc : c.Valid) (h : Fits c) {s : S} (hb : BB c s.j) : mapCapacity c s ≤ c.mcap := by
  have hN := hc.blocks_lo
  have hmb : s.j.bbLast ≤ c.numBlocks >>> 6 := by rcases hb.2 with h | h <;> omega
  rw [Nat.shiftRight_eq_div_pow] at hmb
  have hK : journalCapacity c s.j ≤ c.ucap := by
    rw [journal_capacity_exact hc s.j (by rw [hb.1]; omega)]
    exact Nat.mul_le_mul_right _ (by omega)
  have hu := ucap_lt hc
  have hcap := h.cap
  unfold mapCapacity
  simp only
  generalize journalCapacity c s.j = K at hK
  obtain ⟨d, hd⟩ := Nat.exists_eq_add_of_le hK
  have hr : K / (c.gcr + 1) ≤ K := Nat.div_le_self _ _
  have hr2 : K / (c.gcr + 1) ≤ c.ucap / (c.gcr + 1) := Nat.div_le_div_right hK
  have hmono : c.ucap / (c.gcr + 1) ≤ K / (c.gcr + 1) + d := by
    have e : (K + d * (c.gcr + 1)) / (c.gcr + 1) = K / (c.gcr + 1) + d := Nat.add_mul_div_right _ _ (by omega)
    rw [← e]
    apply Nat.div_le_div_right
    rw [hd]
    have := Nat.mul_le_mul_left d (show 1 ≤ c.gcr + 1 by omega)
    omega
  have e1 : 8 * c.ppb < 2 ^ 32 → shl32 maxRetries c.log2Ppb = 8 * c.ppb := by
    intro h8
    unfold shl32
    rw [Nat.shiftLeft_eq]
    show 8 * c.ppb % _ = _
    exact Nat.mod_eq_of_lt h8
  unfold Cfg.mcap Cfg.gk
  generalize c.ucap / (c.gcr + 1) = R2 at *
  generalize K / (c.gcr + 1) = R at *
  rw [e1 (by omega)]
  split
  · omega
  · rename_i hge
    rw [Nat.mod_eq_of_lt (by omega)] at hge
    rw [sub32_of_le hr (by omega), sub32_of_le (by omega) (by omega)]
    omega

/-! ### One push -/

/-- What a successful push on a healthy chip does: the page goes to the head, whose block is not skipped. -/
structure Pushed (c : Cfg) (m : Option Buf) (s s' : S) (σ' : Nat → Option Buf) (K : Nat → Prop) (vts vt vh : Nat) : Prop where
  inv : ∃ vts', Inv0 c s' σ' (Gh.triv c 0) vts' vt (c.nextV vh) vh ∧ (c.last vh → vts' = vt) ∧ (¬ c.last vh → vts' = vts)
  cnt : s'.count = s.count
  sound : Sound c s'.n
  bb : BB c s'.j
  used : ∀ x, Used (mtOf c s') s'.j.root x → x = c.ph vh ∨ K x
  clean : c.last vh → s'.j.dirty = false
  dirty : ¬ c.last vh → s'.j.dirty = true
  isSome : (recOf (metaOf m)).id < NONE → (σ' (recOf (metaOf m)).id).isSome = true
  cp : c.last vh → ∃ b, s'.n.chip.page (c.ph (vh + 1)) = some b ∧ hdrGetTail b = c.ph vt ∧ HdrBB c b
  root : s'.j.root = c.ph vh

theorem push_healthy (hc : c.Valid) (hH : Healthy c) {wr : S → Except Err Unit × S} {Pd : S → Option Buf → Prop}
    (hwr : WrSpec c wr Pd) (hev : ∀ s, Evo c s.n (wr s).2.n) (hwe : ∀ s e, (wr s).1 = .error e → ¬ Fatal e)
    {m : Option Buf} {s : S} {σ σ' : Nat → Option Buf} {D : Nat → Option Nat} {K : Nat → Prop} {vts vt vh vr : Nat}
    (hI : Inv0 c s σ (Gh.triv c 0) vts vt vh vr) (hP : Plan (mtOf c s) s.j.root (recOf (metaOf m)) D K)
    (hw : c.Win vts (c.nextV vh)) (hb : Sound c s.n) (hbb : BB c s.j)
    {r : Except Err Unit × S} (hr : pushLoop c wr m 8 s = r)
    (hF : ∀ s', r = (.ok (), s') → Fill c s s' m Pd vts vh D σ σ') :
    (∃ e s', r = (.error e, s') ∧ ¬ Fatal e ∧ (e = .ecc → Soft c s s' vts vh vh ∧ Evo c s.n s'.n ∧ BB c s'.j)) ∨
    (∃ s', r = (.ok (), s') ∧ Pushed c m s s' σ' K vts vt vh) := by
  have hsp := pushLoop_spec (m := m) hc hwr hev 8 s vh hI.geo (hI.rst 0 0 0)
  obtain ⟨h1, h2⟩ := pushLoop_healthy hc hH hwr hwe (m := m) hI.geo hI.calm hw hb hbb 7
  rw [hr] at hsp
  have h1 : ∀ e, r.1 = .error e → ¬ Fatal e ∧ (e ≠ .powerLoss → BB c r.2.j) := by rw [← hr]; exact h1
  have h2 : r.1 = .ok () → PushedH c vh r.2 := by rw [← hr]; exact h2
  have hcalm := hI.calm
  cases hsp with
  | stop s' e he hub hcr hsf =>
    obtain ⟨k1, k2⟩ := h1 e rfl
    refine Or.inl ⟨e, s', rfl, k1, fun hx => ?_⟩
    have hp : e ≠ .powerLoss := by rw [hx]; decide
    rcases hsf hp with ⟨vq, hS⟩ | ⟨t, _, _, hn⟩
    · have hv : vq = vh := by
        rcases hS.mv with h | ⟨h3, h4⟩
        · exact h
        · have hle := hS.le
          apply Classical.byContradiction
          intro hne
          have d1 := div_mod_range vh c.ppb
          have d2 := div_mod_range vq c.ppb
          have hlt : vh / c.ppb < vq / c.ppb := by
            apply Classical.byContradiction
            intro hge
            have := Nat.mul_le_mul_right c.ppb (show vq / c.ppb ≤ vh / c.ppb by omega)
            omega
          have := hS.skip _ (Nat.le_refl _) hlt
          rw [hb _ (Nat.mod_lt _ (by have := hc.blocks_lo; omega))] at this
          cases this
      subst hv
      refine ⟨hS, ?_, k2 hp⟩
      have hE := pushLoop_evo (c := c) wr hev m 8 s
      rw [hr] at hE
      exact hE
    · rcases hn with hn | hn
      · exact absurd hn (hH t).1
      · exact absurd hn (hH t).2
  | again s' v' h => exact absurd (by decide) (h1 _ rfl).1
  | start s' vM' v' h => exact absurd (by decide) (h1 _ rfl).1
  | ok s' vq h =>
    right
    refine ⟨s', rfl, ?_⟩
    have hF := hF s' rfl
    have hnf : ¬ finishes c s vq := fun hf => by have := hf.2; rw [hcalm.ed] at this; cases this
    have hle := h.le
    have hlq := lt_nextV c vq
    have hlh := lt_nextV c vh
    have g1 := hI.geo.l1
    have g2 := hI.geo.l2
    obtain ⟨hbb', hhd, hcp⟩ := h2 rfl
    have hvq : vq = vh := by
      have e1 : c.ph (c.nextV vq) = c.ph (c.nextV vh) := h.geo.eh.symm.trans hhd
      apply Classical.byContradiction
      intro hne
      have hnx := nextV_le hc hI.geo.uh h.uq (by omega)
      have := h.winq.inj (v := c.nextV vq) (w := c.nextV vh) (by omega) (by omega) (by omega) (by omega) e1
      omega
    subst hvq
    obtain ⟨t1, t2⟩ := push_tree hc hI.geo hI.tr hP h (fun v _ _ _ hf => absurd hf hnf) hF.h1 hF.h2
      (fun hid s1 a b d e f => hF.h3 hid s1 vq _ (by rw [h.root]) a b d e f)
    obtain ⟨a1, a2, a3, a4, a5, a6⟩ := h.going hnf
    have hc' : Calm s' := ⟨a1.trans hcalm.nr, a5.trans hcalm.rm, a2.trans hcalm.ed, a6.trans hcalm.bm⟩
    refine ⟨⟨newTs c s vts vt vq, ⟨h.geo, hc', t1, Or.inl (stable_after hc h.uq), trivial⟩, ?_, ?_⟩, h.cnt, ?_, hbb', t2, h.dirtyL, h.dirtyN, ?_, ?_, h.root⟩
    · intro hl; unfold newTs; rw [if_pos ⟨hl, Or.inl hcalm.nr⟩]
    · intro hl; unfold newTs; rw [if_neg (fun h => hl h.1)]
    · intro b hb'
      rw [h.keep.bad_eq, hb b hb']
      rintro (⟨k, b1, b2, _⟩ | ⟨hf, _⟩)
      · omega
      · exact hnf hf
    · intro hid
      obtain ⟨s1, k1, k2, k3, k4, k5⟩ := h.data
      obtain ⟨b, _, _, hb⟩ := hF.h3 hid s1 vq _ (by rw [h.root]) k1 (h.winq.mono (Nat.le_refl _) (by omega)) k3 k4 k5
      rw [hb]; rfl
    · intro hl
      obtain ⟨b, e1, e2⟩ := h.cp hl
      obtain ⟨b', e3, e4⟩ := hcp hl
      rw [e1] at e3
      cases e3
      exact ⟨b, e1, e2.tail, e4⟩

end Dhara

/-
A power cycle of a clean journal keeps the balance (dhara/journal.c:368-465: the tail goes back to the one the last checkpoint
recorded, the head stays where it was).
-/
import Verif.Proofs.Healthy3
import Verif.Proofs.Crash
namespace Dhara

variable {c : Cfg}

/-! ### The same queue counted from another lap -/

theorem u_add_dvd (c : Cfg) (v : Nat) {d : Nat} (hd : c.ppc ∣ d) : c.u (v + d) = c.u v + c.u d := by
  obtain ⟨k, rfl⟩ := hd
  have hp := ppc_pos c
  have h1 := Nat.div_le_self v c.ppc
  have h2 := Nat.div_le_self (c.ppc * k) c.ppc
  unfold Cfg.u
  rw [Nat.mul_div_cancel_left _ hp] at h2 ⊢
  rw [Nat.add_mul_div_left _ _ hp]
  omega

theorem isU_add (v : Nat) {d : Nat} (hd : c.ppc ∣ d) : c.isU (v + d) ↔ c.isU v := by
  obtain ⟨k, rfl⟩ := hd
  unfold Cfg.isU
  rw [Nat.add_mul_mod_self_left]

theorem nextV_add (v : Nat) {d : Nat} (hd : c.ppc ∣ d) : c.nextV (v + d) = c.nextV v + d := by
  obtain ⟨k, rfl⟩ := hd
  unfold Cfg.nextV
  rw [show v + c.ppc * k + 2 = v + 2 + c.ppc * k by omega, Nat.add_mul_mod_self_left]
  split <;> omega

section
variable {d1 d2 a0 ah v0 vh : Nat} {D D' : Nat → Prop}

theorem live_move {m m' : Nat} (h0 : a0 + d1 = v0 + d2) (hm : m' + d1 = m + d2)
    (hD : ∀ a v, v0 ≤ v → v < m → a + d1 = v + d2 → D' v → D a) : live D' v0 m ≤ live D a0 m' := by
  classical
  unfold live
  apply Finset.card_le_card_of_injOn (fun v => v + d2 - d1)
  · intro v hv
    have hv' := Finset.mem_filter.1 hv
    have hI := Finset.mem_Ico.1 hv'.1
    refine Finset.mem_coe.2 (Finset.mem_filter.2 ⟨Finset.mem_Ico.2 ⟨?_, ?_⟩, hD _ v hI.1 hI.2 ?_ hv'.2⟩)
    · show a0 ≤ v + d2 - d1; omega
    · show v + d2 - d1 < m'; omega
    · show v + d2 - d1 + d1 = _; omega
  · intro v hv w hw e
    have h1 := Finset.mem_Ico.1 (Finset.mem_filter.1 hv).1
    have h2 := Finset.mem_Ico.1 (Finset.mem_filter.1 hw).1
    have e : v + d2 - d1 = w + d2 - d1 := e
    omega

theorem Bal.move' {k Z j : Nat} (h : Bal c D k Z a0 ah j) (p1 : c.ppc ∣ d1) (p2 : c.ppc ∣ d2) (h0 : a0 + d1 = v0 + d2)
    (hh : ah + d1 = vh + d2) (hD : ∀ a v, v0 ≤ v → v < vh → a + d1 = v + d2 → D' v → D a) : Bal c D' k Z v0 vh j := by
  intro m h1 h2
  obtain ⟨m', hm⟩ : ∃ m', m' + d1 = m + d2 := ⟨m + d2 - d1, by omega⟩
  have key := h m' (by omega) (by omega)
  have hu : ∀ a v, a + d1 = v + d2 → c.u a + c.u d1 = c.u v + c.u d2 := by
    intro a v e
    rw [← u_add_dvd c a p1, ← u_add_dvd c v p2, e]
  have e0 := hu _ _ h0
  have e1 := hu _ _ hh
  have e2 := hu _ _ hm
  have h3 := live_move (D := D) (D' := D') h0 hm (fun a v x y => hD a v x (by omega))
  have h4 := Nat.mul_le_mul_left k (Nat.add_le_add_left h3 (c.u vh - c.u m))
  rw [show c.u ah - c.u m' = c.u vh - c.u m by omega, show c.u m' - c.u a0 = c.u m - c.u v0 by omega] at key
  omega

theorem WBal.move' {j : Nat} (h : WBal c D a0 ah j) (p1 : c.ppc ∣ d1) (p2 : c.ppc ∣ d2) (h0 : a0 + d1 = v0 + d2)
    (hh : ah + d1 = vh + d2) (hD : ∀ a v, v0 ≤ v → v < vh → a + d1 = v + d2 → D' v → D a) : WBal c D' v0 vh j := by
  have hu : ∀ a v, a + d1 = v + d2 → c.u a + c.u d1 = c.u v + c.u d2 := by
    intro a v e
    rw [← u_add_dvd c a p1, ← u_add_dvd c v p2, e]
  have hl := lt_nextV c v0
  rcases h with (h | h) | ⟨x, y, z⟩
  · exact Or.inl (Or.inl (h.move' p1 p2 h0 hh hD))
  · have := hu _ _ h0; have := hu _ _ hh
    exact Or.inl (Or.inr (by omega))
  · have e := nextV_add (c := c) a0 p1
    have e' := nextV_add (c := c) v0 p2
    rw [h0] at e
    refine Or.inr ⟨fun hd => x (hD a0 v0 (Nat.le_refl _) (by omega) h0 hd), by omega,
      z.move' p1 p2 (by omega) hh (fun a v q w => hD a v (by omega) w)⟩

end

/-- Skipping pages that are not live. -/
theorem WBal.skip (hc : c.Valid) {D : Nat → Prop} {v0 vt vh : Nat} (h : WBal c D v0 vh 0) (hu : c.isU v0) (hu' : c.isU vt) (h1 : v0 ≤ vt)
    (hD : ∀ v, v0 ≤ v → v < vt → ¬ D v) : WBal c D vt vh 0 := by
  obtain ⟨n, hn⟩ : ∃ n, vt - v0 = n := ⟨_, rfl⟩
  induction n using Nat.strongRecOn generalizing v0 with
  | _ n ih =>
    rcases Nat.lt_or_ge v0 vt with hlt | hge
    · have hl := lt_nextV c v0
      refine ih (vt - c.nextV v0) (by omega) (Or.inl ((h.garbage hc hu (D' := D) (fun _ _ _ h => h)).drop (Nat.zero_le _)))
        (nextV_isU hc hu) (nextV_le hc hu hu' hlt) (fun v a b => hD v (by omega) b) rfl
    · rw [show vt = v0 by omega]; exact h

/-! ### What resume does to the statistics and the head -/

theorem findHeadLoop_bb {n : Nand} : ∀ (fuel : Nat) (j j' : Journal), BB c j → findHeadLoop c n fuel j = .ok j' → BB c j' := by
  intro fuel
  induction fuel with
  | zero => intro j j' _ h; cases h
  | succ fuel ih =>
    intro j j' hb h
    unfold findHeadLoop at h
    simp only at h
    split at h
    · cases h; exact hb.congr rfl rfl
    · generalize hq : (if (j.head - (j.head &&& (c.ppc - 1)) + c.ppc) ≥ c.pages then
        rollStats { j with head := 0 } else { j with head := (j.head - (j.head &&& (c.ppc - 1)) + c.ppc) }) = q at h
      have hbq : BB c q := by
        rw [← hq]
        split
        · exact ⟨rfl, Or.inl hb.1⟩
        · exact hb.congr rfl rfl
      split at h
      · split at h
        · cases h; exact hbq.congr rfl rfl
        · cases h; exact hbq
      · exact ih _ _ hbq h

theorem findHeadLoop_buf {n : Nand} : ∀ (fuel : Nat) (j j' : Journal), findHeadLoop c n fuel j = .ok j' → j'.pageBuf = j.pageBuf := by
  intro fuel
  induction fuel with
  | zero => intro j j' h; cases h
  | succ fuel ih =>
    intro j j' h
    unfold findHeadLoop at h
    simp only at h
    split at h
    · cases h; rfl
    · generalize hq : (if (j.head - (j.head &&& (c.ppc - 1)) + c.ppc) ≥ c.pages then
        rollStats { j with head := 0 } else { j with head := (j.head - (j.head &&& (c.ppc - 1)) + c.ppc) }) = q at h
      have hbq : q.pageBuf = j.pageBuf := by
        rw [← hq]
        split <;> rfl
      split at h
      · split at h
        · cases h; exact hbq
        · cases h; exact hbq
      · rw [ih _ _ h]; exact hbq

/-- The statistics resumed are those of the checkpoint found. -/
theorem journalResume_bb {n : Nand} {j j' : Journal} (h : journalResume c n j = (.ok (), j')) (hb : HdrBB c j'.pageBuf) : BB c j' := by
  unfold journalResume at h
  split at h
  · cases h
  · simp only at h
    split at h
    · cases h
    · split at h
      · cases h
      · split at h
        · cases h
        · rename_i root b _
          split at h
          · cases h
          · rename_i j2 hh
            cases h
            unfold findHead at hh
            have e := findHeadLoop_buf _ _ _ hh
            have hb' : HdrBB c j2.pageBuf := hb
            have hbb : HdrBB c (hdrClearUser c b) := by
              rw [e] at hb'
              unfold rollIfZero at hb'
              split at hb' <;> exact hb'
            have hbb2 : HdrBB c b := hbb.congr fun i hi => by
              unfold hdrClearUser Buf.memset
              rw [if_neg (by omega)]
            have : BB c j2 := by
              refine findHeadLoop_bb _ _ _ ?_ hh
              apply BB.roll
              exact hbb2
            exact this.congr rfl rfl

/-- A clean journal's head is found again. -/
theorem resumed_head (hc : c.Valid) {s : S} {vts vt vh vL vtc vt' vh' : Nat} (g : Geo c s vts vt vh) (hl : c.last vL) (hh : vh = vL + 2)
    (hR : Resumed c s.n.chip vts vL vtc vt' vh') : vh' = vh := by
  have h4 := hc.ppc_ge
  have hP := ppb_pos c
  obtain ⟨l1, l2, l3, l4, l5, l6, l7⟩ := is_last hc hl
  have hlt := hR.lt
  have dL := div_mod_range vL c.ppb
  have dh := div_mod_range vh c.ppb
  have dh' := div_mod_range vh' c.ppb
  have hmL := mod_ppb_lt c vL
  have hm := mod_ppb_lt c vh
  have hm' := mod_ppb_lt c vh'
  have hvc : vh % c.ppc = 0 := by rw [hh]; exact l2
  have hfr : vh % c.ppb ≠ 0 → ∀ w, vh ≤ w → w / c.ppb = vh / c.ppb → s.n.chip.free (c.ph w) = true := by
    intro hv w h1 h2
    have dw := div_mod_range w c.ppb
    rw [ph_eq_div_mod, h2, ← ph_div_ppb]
    exact (g.hfree hv).2 _ (by rw [h2] at dw; omega) (mod_ppb_lt c w)
  have hbL : vL / c.ppb * c.ppb + c.ppb = (vL / c.ppb + 1) * c.ppb := by rw [Nat.add_mul, Nat.one_mul]
  have hx : vL % c.ppb + 1 < c.ppb := by
    apply Classical.byContradiction
    intro hn
    have := (div_add_eq (v := vL) (k := 1) (m := c.ppb) (by omega) hP).1
    omega
  rcases Nat.lt_or_ge (vL % c.ppb + 2) c.ppb with hv | hv
  · obtain ⟨x1, x2⟩ := div_add_lt hv
    rw [← hh] at x1 x2
    have hfr := hfr (by omega)
    apply Classical.byContradiction
    intro hne
    have hblk : vh ≤ vh' - 1 ∧ (vh' - 1) / c.ppb = vL / c.ppb := by
      refine ⟨by omega, ?_⟩
      by_cases hv' : vh' % c.ppb = 0
      · rw [hR.nxt hv'] at hne ⊢
        exact div_of_range hP (by omega) (by omega)
      · have := (hR.inb hv').1
        rw [← this]
        rw [this] at dh'
        rw [this]
        exact div_of_range hP (by omega) (by omega)
    by_cases hg : vh' % c.ppc = 0
    · have hge : vh + c.ppc ≤ vh' := by
        have d1 := div_mod_range vh c.ppc
        have d2 := div_mod_range vh' c.ppc
        have h5 : vh / c.ppc < vh' / c.ppc := by
          apply Classical.byContradiction
          intro hn
          have := Nat.mul_le_mul_right c.ppc (Nat.le_of_not_lt hn)
          omega
        have := Nat.mul_le_mul_right c.ppc (show vh / c.ppc + 1 ≤ vh' / c.ppc from h5)
        rw [Nat.add_mul, Nat.one_mul] at this
        omega
      have hgm : (vh' - c.ppc) % c.ppc = 0 := by rw [← Nat.mod_eq_sub_mod (by omega)]; exact hg
      have b1 := Nat.div_le_div_right (c := c.ppb) (show vh ≤ vh' - c.ppc by omega)
      have b2 := Nat.div_le_div_right (c := c.ppb) (show vh' - c.ppc ≤ vh' - 1 by omega)
      have hb : ∀ w, vh' - c.ppc ≤ w → w ≤ vh' - 1 → w / c.ppb = vh / c.ppb := by
        intro w h1 h2
        have := Nat.div_le_div_right (c := c.ppb) h1
        have := Nat.div_le_div_right (c := c.ppb) h2
        omega
      refine hR.pg (vh' - c.ppc) hgm (by omega) (by omega) ⟨hfr _ (by omega) (hb _ (by omega) (by omega)), hfr _ (by omega) (hb _ (by omega) (by omega))⟩
    · obtain ⟨v, m1, m2⟩ := hR.mn hg
      have hvb : v / c.ppb = vh' / c.ppb := div_ppb_of_div_ppc hc m1
      have hv' : vh' % c.ppb ≠ 0 := fun h => hg (mod_ppc_of_ppb_zero hc h)
      have := (hR.inb hv').1
      have d1 := div_mod_range v c.ppc
      have d2 := div_mod_range vh c.ppc
      have := Nat.div_le_div_right (c := c.ppc) (show vh ≤ vh' by omega)
      have := Nat.mul_le_mul_right c.ppc (show vh / c.ppc ≤ v / c.ppc by omega)
      rw [hfr v (by omega) (by omega)] at m2
      cases m2
  · have e : vh = (vL / c.ppb + 1) * c.ppb := by omega
    by_cases hv' : vh' % c.ppb = 0
    · rw [hR.nxt hv', e]
    · have := (hR.inb hv').1
      rw [this] at dh'
      omega

/-! ### The power cycle -/

theorem ph_shift (v : Nat) {d : Nat} (hd : c.pages ∣ d) : c.ph (v + d) = c.ph v := by
  obtain ⟨k, rfl⟩ := hd
  unfold Cfg.ph
  rw [Nat.add_mul_mod_self_left]

theorem div_ppb_add (v : Nat) {d : Nat} (hd : c.ppb ∣ d) : (v + d) / c.ppb = v / c.ppb + d / c.ppb := by
  obtain ⟨k, rfl⟩ := hd
  rw [Nat.add_mul_div_left _ _ (ppb_pos c), Nat.mul_div_cancel_left _ (ppb_pos c)]

theorem pages_dvd (c : Cfg) : c.ppb ∣ c.pages := ⟨c.numBlocks, Nat.mul_comm _ _⟩

/-- Two positions not more than a lap before `h`. -/
theorem inj_before {v w h : Nat} (h1 : v ≤ h) (h2 : w ≤ h) (h3 : h / c.ppb < v / c.ppb + c.numBlocks)
    (h4 : h / c.ppb < w / c.ppb + c.numBlocks) (he : c.ph v = c.ph w) : v = w := by
  have a1 := Nat.div_le_div_right (c := c.ppb) h1
  have a2 := Nat.div_le_div_right (c := c.ppb) h2
  refine ph_inj_lap (lo := h / c.ppb + 1 - c.numBlocks) ?_ ?_ ?_ ?_ he
  all_goals
    generalize h / c.ppb = x at *
    generalize v / c.ppb = y at *
    generalize w / c.ppb = z at *
    omega

/-- Nothing claimed about the contents on the chip but that the sectors are counted. -/
def WD : Wt := fun σ k _ => Cnt σ k

/-- After a power cycle in a clean state the map shows what it showed, and the chip is as far from full as before. -/
theorem restart_healthy (hc : c.Valid) (hF : Fits c) {s s' : S} {σ σ0 : Nat → Option Buf} {ats at' ah ar : Nat}
    (hI : HI c s σ ats at' ah ar 0) (hP : PInv c s σ0 WD) (hcl : s.j.dirty = false) (hne : s.j.root ≠ NONE)
    (hb : FewBad c s.n.chip) (hr : ∀ p, p < c.pages → c.env.readFail (s.n.time + 1) p = false) {buf : Buf} {cnt : Nat}
    {r : Except Err Unit} (he : reboot c buf cnt s = (r, s')) :
    r = .ok () ∧ s'.j.root = s.j.root ∧ s'.n = { s.n with time := s.n.time + 1, dead := false } ∧
    ∃ σ vts vt vh vr, (∀ t, t < NONE → σ t = σ0 t) ∧ PInv c s' σ WD ∧ HI c s' σ vts vt vh vr 0 := by
  have h4 := hc.ppc_ge
  have hN := hc.blocks_lo
  obtain ⟨⟨vts, vt, vh, vr, g, hcalm, hT, hD, hR⟩, hcnt⟩ := hP
  obtain ⟨B, hf, hk⟩ := hD.2 (SparseBad.two hc hb)
  rcases hk with ⟨_, _, hz⟩ | ⟨vL, vtc, σp, k, hB, hL, hw, hclean⟩
  · exact absurd (hz hcl) hne
  obtain ⟨a1, a2, a3⟩ := hclean hcl
  rcases hI.ck hcl with ⟨_, h0⟩ | ⟨a0, al, K⟩
  · exact absurd h0 hne
  subst a2
  obtain ⟨d1, d2, p1, p2, hh⟩ : ∃ d1 d2, c.pages ∣ d1 ∧ c.pages ∣ d2 ∧ ah + d1 = vh + d2 := by
    refine ⟨vh / c.pages * c.pages, ah / c.pages * c.pages, Nat.dvd_mul_left _ _, Nat.dvd_mul_left _ _, ?_⟩
    have e1 := div_mod_range ah c.pages
    have e2 := div_mod_range vh c.pages
    have e3 : ah % c.pages = vh % c.pages := hI.inv.geo.eh.symm.trans g.eh
    omega
  have q1 := Nat.dvd_trans (pages_dvd c) p1
  have q2 := Nat.dvd_trans (pages_dvd c) p2
  have r1 := Nat.dvd_trans hc.ppc_dvd q1
  have r2 := Nat.dvd_trans hc.ppc_dvd q2
  have hlt := hL.lt
  have kd := K.hd
  have klr := K.lr
  -- the root
  have hvL : vr + d2 = al + d1 := by
    have hx : (vh + d2) / c.ppb ≤ (al + d1) / c.ppb + 1 := by
      have : (al + d1 + c.ppb) / c.ppb = (al + d1) / c.ppb + 1 := Nat.add_div_right _ (ppb_pos c)
      rw [← this]
      have := hc.ppb_ge
      exact Nat.div_le_div_right (by omega)
    refine inj_before (c := c) (h := vh + d2) (by omega) (by omega) ?_ (by omega) ?_
    · rw [div_ppb_add _ q2, div_ppb_add _ q2]
      have hrt := hT.rt
      rw [a1] at hrt
      rcases hrt with hrt | ⟨_, x2, x3, _⟩
      · rw [← a1] at hrt; exact absurd hrt hne
      · have := (g.win.mono (Nat.le_trans g.l1 x2) (Nat.le_refl _))
        unfold Cfg.Win at this
        omega
    · rw [ph_shift _ p2, ph_shift _ p1, ← a1, K.rt]
  have hvh : vh = vr + 2 := by omega
  -- the recorded tail
  obtain ⟨b, b1, b2⟩ := hL.cp
  obtain ⟨b', b1', b2', b3'⟩ := K.pg
  have hbb : b' = b := by
    have e : c.ph (al + 1) = c.ph (vr + 1) := by
      rw [← ph_shift (al + 1) p1, ← ph_shift (vr + 1) p2]
      congr 1; omega
    rw [e, b1] at b1'
    exact (Option.some.inj b1').symm
  subst hbb
  have h0 : a0 + d1 = vtc + d2 := by
    have htcL := hL.tcL
    refine inj_before (c := c) (h := vr + d2) (by omega) (by omega) ?_ ?_ ?_
    · rw [hvL, div_ppb_add _ q1, div_ppb_add _ q1]
      have := K.win.mono (Nat.le_refl _) (show al ≤ ah by omega)
      unfold Cfg.Win at this
      omega
    · rw [div_ppb_add _ q2, div_ppb_add _ q2]
      have := hL.wtc
      omega
    · rw [ph_shift _ p1, ph_shift _ p2, ← b2', b2.tail]
  -- the power cycle
  obtain ⟨γ, hL1, hCG⟩ := lps_off hc g hL
  have hep := hf.ep
  rw [hB] at hep
  obtain ⟨j', vt', vh', h1, h2, h3, hpb⟩ := resume_ok hc (n := { s.n with time := s.n.time + 1, dead := false }) hr hb hep hL1.toLP0 hCG (journalInit c buf)
  have he' : mapResume c ⟨journalInit c buf, { s.n with time := s.n.time + 1, dead := false }, cnt⟩ = (r, s') := he
  have hk : ckGetCount j' = k := h2.ck
  unfold mapResume at he'
  simp only [h1, hk] at he'
  obtain ⟨rfl, rfl⟩ := Prod.mk.inj he'
  have evh : vh' = vh := resumed_head hc g hL.last hvh h3
  subst evh
  obtain ⟨c1, c2, c3, c4, c5, c6, c7⟩ := resumed_inv hc (s := ⟨j', { s.n with time := s.n.time + 1, dead := false }, k⟩) h2 h3 hep hL1 rfl g.noub
  have hI' : Inv0 c ⟨j', { s.n with time := s.n.time + 1, dead := false }, k⟩ σp (Gh.triv c 0) vt' vt' vh' vr :=
    ⟨c1, c2, c3, Or.inr fun t _ h => absurd h (Nat.not_lt_zero _), trivial⟩
  have hroot : j'.root = c.ph vr := h2.root
  have hag' : ∀ x, Used (mtC c s.n.chip) (c.ph vr) x → mtOf c ⟨j', { s.n with time := s.n.time + 1, dead := false }, k⟩ x = mtC c s.n.chip x := by
    exact (c6 h2.dirty).2.2
  have hcur : ∀ a v, a + d1 = v + d2 → cur c ⟨j', { s.n with time := s.n.time + 1, dead := false }, k⟩ v → cur c s a := by
    intro a v hav hcv
    have e : c.ph a = c.ph v := by rw [← ph_shift a p1, ← ph_shift v p2, hav]
    obtain ⟨t1, t2, t3⟩ := tree_frame hL.pt.ok hag'
    obtain ⟨u1, u2, u3⟩ := tree_frame hL.pt.ok a3
    unfold cur at hcv ⊢
    rw [show (S.j ⟨j', { s.n with time := s.n.time + 1, dead := false }, k⟩).root = c.ph vr from hroot] at hcv
    have hu := t3 _ (Data.used hcv)
    obtain ⟨rx, x1, x2, x3⟩ := hcv
    rw [hag' _ hu] at x1
    rw [t2] at x3
    rw [e, a1]
    exact ⟨rx, by rw [a3 _ hu]; exact x1, x2, by rw [u2]; exact x3⟩
  have hbal : WBal c (cur c ⟨j', { s.n with time := s.n.time + 1, dead := false }, k⟩) vtc vh' 0 :=
    K.bal.move' r1 r2 h0 hh fun a v _ _ hav => hcur a v hav
  have htc := h3.tc
  have htL := h3.tL
  have hbal' : WBal c (cur c ⟨j', { s.n with time := s.n.time + 1, dead := false }, k⟩) vt' vh' 0 := by
    refine hbal.skip hc hL.utc h3.ut htc ?_
    intro v v1 v2 hcv
    obtain ⟨w, w1, w2, w3, w4, _⟩ := hI'.tr.lt (Data.used hcv)
    have hwtc := hL.wtc
    have y1 := Nat.div_le_div_right (c := c.ppb) v1
    have y2 := Nat.div_le_div_right (c := c.ppb) (show vtc ≤ w by omega)
    have := inj_before (c := c) (h := vr) (v := v) (w := w) (by omega) w3 (by omega) (by omega) w1
    omega
  have hσ : ∀ t, t < NONE → σp t = σ0 t := by
      intro t ht
      obtain ⟨t1, t2, t3⟩ := tree_frame hL.pt.ok a3
      rw [a1] at hT
      cases hq : dict (mtC c s.n.chip) (c.ph vr) t with
      | none => rw [hL.pt.emp t ht hq, hT.emp t ht (by rw [t2]; exact hq)]
      | some q =>
        obtain ⟨b, b1, _, b2⟩ := hL.pt.holds t q ht hq
        obtain ⟨b', b1', _, b2'⟩ := hT.holds t q ht (by rw [t2]; exact hq)
        rw [b1] at b1'; cases b1'
        rw [b2, b2']
  have hkc : k = s.count := (Cnt.congr hw fun t ht => (hσ t ht).symm).unique hcnt
  have hz : k = 0 → c.u vh' - c.u vtc ≤ 1 := by
    intro h
    have := K.zero (hkc.symm.trans h)
    have hu : ∀ a v, a + d1 = v + d2 → c.u a + c.u d1 = c.u v + c.u d2 := by
      intro a v e
      rw [← u_add_dvd c a r1, ← u_add_dvd c v r2, e]
    have := hu _ _ h0
    have := hu _ _ hh
    omega
  have hwin : c.Win vtc vh' := by
    have := K.win
    unfold Cfg.Win at this ⊢
    have e1 := div_ppb_add (c := c) a0 q1
    have e2 := div_ppb_add (c := c) ah q1
    have e3 := div_ppb_add (c := c) vtc q2
    have e4 := div_ppb_add (c := c) vh' q2
    rw [h0] at e1
    rw [hh] at e2
    omega
  have hum := u_mono c htc
  refine ⟨rfl, hroot.trans a1.symm, rfl, σp, vt', vt', vh', vr, hσ, ⟨⟨vt', vt', vh', vr, c1, c2, c3, ⟨Nat.zero_le _, fun _ => ⟨vr / c.ppb + 1, c4, Or.inr
    ⟨vr, vtc, σp, k, rfl, c5, hw, c6⟩⟩⟩, c7⟩, hw⟩, hI', hI.sound, ?_, hw, ?_, ?_, hbal', fun h => by have := hz h; omega, fun _ => Or.inr
    ⟨vtc, vr, ⟨b', b1, b2.tail, b3'⟩, hroot, hL.last, hvh, hL.tcL, hL.utc, htc, hwin, hbal, hz⟩⟩
  · exact journalResume_bb h1 (b3'.congr fun i hi => hpb b' b1 i hi)
  · show k ≤ c.mcap
    rw [hkc]; exact hI.le
  · have hv0 : vh' % c.ppc = 0 := by rw [hvh]; exact (is_last hc hL.last).2.1
    have := div_mod_range vh' c.ppc
    rw [show vh' / c.ppc * c.ppc = vh' by omega]
    exact hbal'.q hc hF h3.ut h3.uh (by omega)

/-- A power cycle before anything has been written. -/
theorem restart_blank (hc : c.Valid) {s s' : S} {σ0 : Nat → Option Buf} (hP : PInv c s σ0 WD) (hsd : Sound c s.n) (hcl : s.j.dirty = false)
    (hne : s.j.root = NONE) (hb : FewBad c s.n.chip) (hr : ∀ p, p < c.pages → c.env.readFail (s.n.time + 1) p = false) {buf : Buf} {cnt : Nat}
    {r : Except Err Unit} (he : reboot c buf cnt s = (r, s')) :
    r = .error .tooBad ∧ s'.j.root = s.j.root ∧ s'.j.dirty = false ∧ s'.n = { s.n with time := s.n.time + 1, dead := false } ∧
    ∃ σ vts vt vh vr, (∀ t, t < NONE → σ t = σ0 t) ∧ PInv c s' σ WD ∧ HI c s' σ vts vt vh vr 0 := by
  obtain ⟨⟨vts, vt, vh, vr, g, hcalm, hT, hD, hR⟩, hcnt⟩ := hP
  obtain ⟨B, hf, hk⟩ := hD.2 (SparseBad.two hc hb)
  have h0 : B = 0 := by
    rcases hk with ⟨h0, _⟩ | ⟨vL, vtc, σp, k, hB, hL, hw, hclean⟩
    · exact h0
    · exfalso
      have h1 := (hclean hcl).1
      rw [hne] at h1
      have := ph_lt hc vL
      have := hc.pages_hi
      omega
  have hep := hf.ep
  rw [h0] at hep
  obtain ⟨n, hn⟩ : ∃ n, n = { s.n with time := s.n.time + 1, dead := false } := ⟨_, rfl⟩
  have hch : n.chip = s.n.chip := by rw [hn]
  have hr' : RdOk c n := by intro p hp; rw [hn]; exact hr p hp
  have hnone : findCheckblock c n 8 0 = none := by
    rcases findCheckblock_spec hc hr' 8 0 with ⟨i, b, _, _, _, h4, h5, h6, _⟩ | ⟨h, _⟩
    · rw [hch] at h5 h6; exact absurd h6 (hep.e3 i (Nat.zero_le _) h4 h5 _)
    · exact h
  have he' : mapResume c ⟨journalInit c buf, n, cnt⟩ = (r, s') := by rw [hn]; exact he
  have he2 := he'
  unfold mapResume journalResume at he2
  simp only [hnone] at he2
  obtain ⟨e1, e2⟩ := Prod.mk.inj he2
  obtain ⟨a1, a2, a3, a4, a5, a6⟩ := reset_inv hc (s := ⟨resetJournal c (journalInit c buf), n, 0⟩) (j := journalInit c buf) rfl (by rw [hch]; exact hep)
    (by rw [hn]) (by rw [hn]; exact g.noub)
  have hz : ∀ t, t < NONE → σ0 t = none := fun t ht => hT.emp t ht (by rw [hne]; exact dict_none rfl _)
  have hFr : Fresh c s' := ⟨n, buf, cnt, by rw [hn], by rw [hn]; exact g.noub, by rw [← e1] at he'; exact he'⟩
  have hsn : s'.n = n := by rw [← e2]
  refine ⟨e1.symm, ?_, ?_, hsn.trans hn, _, _, _, _, _, fun t ht => (hz t ht).symm, ?_,
    hFr.healthy hc (by rw [hsn]; intro b hb; rw [hch]; exact hsd b hb)⟩
  · rw [← e2, hne]; rfl
  · rw [← e2]; rfl
  · rw [← e2]
    exact ⟨⟨0, 0, 0, 0, a1, a2, a3, ⟨Nat.zero_le _, fun _ => ⟨0, a4, Or.inl ⟨rfl, Cnt.zero fun _ _ => rfl, fun _ => a6⟩⟩⟩, fun h => absurd a6 h⟩,
      Cnt.zero fun _ _ => rfl⟩

/-! ### Calls -/

theorem call_wd (hc : c.Valid) (hJ : JunkOk c) {s : S} {σ : Nat → Option Buf} (hP : PInv c s σ WD) (op : Op)
    (hv : op.Valid) (hst : ¬ Exposed c s ∨ ProgsOk c s.n.time (step c op s).2.n.time) :
    COut c (tick s) σ (Gh.disk c (step c op s).2.n.time (s.n.time + 1) WD) op (step c op s) ∧
    ∀ e s', step c op s = (.error e, s') → e ≠ .powerLoss → e ≠ .ub → e ≠ .diverge → ¬ Noisy c (s.n.time + 1) s'.n.time →
      MInv c s' σ (Gh.disk c (step c op s).2.n.time (s.n.time + 1) WD) := by
  obtain ⟨⟨vts, vt, vh, vr, g, hcalm, hT, hD, hR⟩, hcnt⟩ := hP
  have hm : ∀ (σ : Nat → Option Buf) (k : Nat) (n n' : Nand), WD σ k n → Evo c n n' → WD σ k n' := fun _ _ _ _ h _ => h
  have hG := disk_ok hc hJ (t := (step c op s).2.n.time) (t0 := s.n.time) hm
  have hG' := disk_ok hc hJ (t := (step c op s).2.n.time) (t0 := s.n.time + 1) hm
  have hlt := hcnt.lt
  have hI : Inv0 c s σ (Gh.disk c (step c op s).2.n.time s.n.time WD) vts vt vh vr := by
    refine ⟨g, hcalm, hT, ?_, hD.mono hT (Nat.le_refl _) (fun _ _ h _ => h), hR⟩
    rcases hst with h | h
    · exact Or.inl (not_exposed hc g hT h)
    · exact Or.inr h
  have hM : MInv c (tick s) σ (Gh.disk c (step c op s).2.n.time (s.n.time + 1) WD) := by
    refine (MInv.tick hG ⟨⟨_, _, _, _, hI⟩, hcnt⟩).congr_T (Nat.le_refl _) ?_
    intro a1 a2 a3 a4 ⟨h1, h2⟩
    exact ⟨⟨Nat.le_refl _, h1.2⟩, h2⟩
  have hW0 : WD σ (s.count % 2 ^ 32) (tick s).n := by
    show Cnt _ _
    rw [Nat.mod_eq_of_lt hlt]; exact hcnt
  have hW1 : Goes (call c op (tick s)).1 → ∀ (s' : S) (σ' : Nat → Option Buf) (k : Nat), Evo c (tick s).n s'.n →
      (s'.n.ub = false → Effect c (tick s) s' σ σ' op) → Cnt σ' k → WD σ' (k % 2 ^ 32) s'.n := by
    intro hne s' σ' k hE hef hk
    show Cnt _ _
    rw [Nat.mod_eq_of_lt hk.lt]; exact hk
  refine ⟨call_inv hc hG' op hM hv hW0 hW1 (fun _ _ _ => Or.inr fun _ _ => trivial) (Nat.le_refl _), ?_⟩
  intro e s' hs h1 h2 h3 hq
  exact call_failed hc hG' op hM hv hW0 hW1 (fun _ _ _ => Or.inr fun _ _ => trivial) hs (by rw [hs]; exact Nat.le_refl _) h1 h2 h3 hq

theorem MInv.wd {s : S} {σ : Nat → Option Buf} {a b : Nat} (h : MInv c s σ (Gh.disk c a b WD)) : PInv c s σ WD := by
  obtain ⟨⟨vts, vt, vh, vr, hI⟩, hcnt⟩ := h
  exact ⟨⟨vts, vt, vh, vr, hI.geo, hI.calm, hI.tr, hI.ext.1.mono hI.tr (Nat.zero_le _) (fun _ _ h _ => h), hI.ext.2⟩, hcnt⟩

theorem fresh_wd (hc : c.Valid) {n : Nand} {buf : Buf} {k : Nat} {s : S} (hd : n.dead = false) (hu : n.ub = false) (hU : Unformatted c n.chip)
    (h : mapResume c (mapInit c buf k n) = (.error .tooBad, s)) : PInv c s (fun _ => none) WD := by
  obtain ⟨⟨vts, vt, vh, vr, g, hcalm, hT, hD, hR⟩, hcnt⟩ := fresh_inv hc hd hu hU h
  exact ⟨⟨vts, vt, vh, vr, g, hcalm, hT, hD.mono hT (Nat.zero_le _) (fun _ _ h _ => h.1), hR⟩, hcnt⟩

end Dhara

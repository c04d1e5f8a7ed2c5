/-
Power failures during a push, and the remaining closure conditions of the hook.
-/
import Verif.Proofs.Disk2
namespace Dhara

variable {c : Cfg}

theorem junk_no_magic (hJ : JunkOk c) {ch : Chip} {t p : Nat} (hp : p % c.ppc = c.ppc - 1)
    (h : ch.page p = c.env.junk t p) (e : UInt8) : ¬ MagicAt ch p e := by
  rintro ⟨b, h1, h2, _⟩
  rw [h] at h1
  rw [hJ t p b hp h1] at h2; cases h2

theorem erase_lp0 (hc : c.Valid) (hJ : JunkOk c) {s s' : S} {vts vh vq B : Nat} (hf : FP c (gd s.n.chip) s.n.chip B vh)
    (h : PErase c s s' vts vh vq) (h2 : TwoGood c (gd s'.n.chip)) :
    EP c (gd s'.n.chip) s'.n.chip B ∧ ∀ vL vtc k, B = vL / c.ppb + 1 → LP0 c s.n.chip vts vh vL vtc k →
      ∃ γ, LP0 c s'.n.chip vts γ vL vtc k ∧ CG c s'.n.chip vts vL γ ∧ KeptL c s.n.chip s'.n.chip vts vh vL := by
  have h4 := hc.ppc_ge
  have hbad : s'.n.chip.bad = s.n.chip.bad := by
    rcases h.chip with h | h | h <;> rw [h] <;> rfl
  have hgd : gd s'.n.chip = gd s.n.chip := by unfold gd; rw [hbad]
  have hle := Nat.div_le_div_right (c := c.ppb) h.le
  have hout : ∀ p, p / c.ppb ≠ c.ph vq / c.ppb → s'.n.chip.page p = s.n.chip.page p ∧ s'.n.chip.free p = s.n.chip.free p := by
    intro p hp
    rcases h.chip with h | h | h <;> rw [h]
    · exact ⟨rfl, rfl⟩
    · simp [Chip.erased, hp]
    · simp [Chip.tornBlock, hp]
  have hmag : ∀ p e, p % c.ppc = c.ppc - 1 → MagicAt s'.n.chip p e → MagicAt s.n.chip p e := by
    intro p e hp hm
    by_cases hb : p / c.ppb = c.ph vq / c.ppb
    · rcases h.chip with h | h | h
      · rw [h] at hm; exact hm
      · refine absurd hm (blank_no_magic (c := c) ?_)
        rw [h]; simp [Chip.erased, hb]
      · by_cases ht : c.env.tornErase s.n.time p = true
        · refine absurd hm (junk_no_magic hJ (t := s.n.time) hp ?_ e)
          rw [h]; simp [Chip.tornBlock, hb, ht]
        · refine hm.congr ?_
          rw [h]; simp [Chip.tornBlock, ht]
    · exact hm.congr (hout p hb).1.symm
  rw [hgd] at h2
  have hB : B ≤ vh / c.ppb := by
    apply Classical.byContradiction; intro hn
    have := hf.pos.hi (by have := hf.pos.le; omega)
    have := h.al; omega
  have hsk : ∀ b, vh / c.ppb ≤ b → b < vq / c.ppb → ¬ gd s.n.chip (b % c.numBlocks) := by
    intro b x y hg
    have := h.skip b x y
    unfold gd at hg; rw [hg] at this; cases this
  have hgap : ∀ b, B ≤ b → b < vq / c.ppb → ¬ gd s.n.chip (b % c.numBlocks) := by
    intro b x y
    by_cases hb : b < vh / c.ppb
    · exact hf.pos.gap b x hb
    · exact hsk b (by omega) y
  refine ⟨?_, ?_⟩
  · rw [hgd]
    refine hf.ep.step hc (q := vq / c.ppb) ?_ (Or.inr ⟨by omega, hgap, fun e he => hmag _ e (fcp_cp hc _) he⟩)
    intro b _ hb
    refine (hout _ ?_).1
    rw [fcp_div hc, ph_div_ppb]; exact hb
  · intro vL vtc k hBe hL
    · have hlt : vq / c.ppb < vL / c.ppb + c.numBlocks := by
        rcases hf.pos.lt h2 h.le hsk (fun hh => by omega) with h | h
        · omega
        · rw [hBe] at h; exact absurd h (Nat.succ_ne_zero _)
      have hlL := hL.lt
      have hb1 := blk_lt_aligned (c := c) (v := vL) (w := vh) (by omega) h.al
      have hnl := next_le hb1
      have key : ∀ lo v, vq / c.ppb < lo + c.numBlocks → lo ≤ v / c.ppb → v < vh → c.ph v / c.ppb ≠ c.ph vq / c.ppb := by
        intro lo v x1 x2 x3 he
        have := blk_lt_aligned x3 h.al
        rw [ph_div_ppb, ph_div_ppb] at he
        have := mod_inj (base := lo) (m := c.numBlocks) (a := v / c.ppb) (b := vq / c.ppb) x2 (by omega) (by omega) (by omega) he
        omega
      suffices hx : LP0 c s'.n.chip vts ((vL / c.ppb + 1) * c.ppb) vL vtc k ∧ KeptL c s.n.chip s'.n.chip vts vh vL from
        ⟨(vL / c.ppb + 1) * c.ppb, hx.1, cg_left hc h.win (by omega), hx.2⟩
      refine hL.frame hc ?_ ?_ ?_ (blk_lt_next hc hL.last) (fun g _ _ h1 h2 => by omega)
      · intro v h1 h2
        apply hout
        rcases h2 with h2 | h2
        · exact key _ v h.win (Nat.div_le_div_right h2) h1
        · exact key _ v hlt h2 h1
      · intro v _ _ hx; rw [hbad]; exact hx
      · intro v h1 h2 h3
        exact fun e he => hmag _ e (by rw [ph_mod_ppc hc]; exact h3) he

theorem disk_erase (hc : c.Valid) (hJ : JunkOk c) {t t0 : Nat} {W : Wt} (hWm : ∀ σ k n n', W σ k n → Evo c n n' → W σ k n')
    {s s' : S} {σ : Nat → Option Buf} {vts vt vh vr vq : Nat} (hI : Inv0 c s σ (Gh.disk c t t0 W) vts vt vh vr)
    (h : PErase c s s' vts vh vq) (hE : Evo c s.n s'.n) : (Gh.disk c t t0 W).X s' := by
  intro _ h2
  have hbad : s'.n.chip.bad = s.n.chip.bad := by
    rcases h.chip with h | h | h <;> rw [h] <;> rfl
  have hgd : gd s'.n.chip = gd s.n.chip := by unfold gd; rw [hbad]
  obtain ⟨B, hf, hd⟩ := hI.ext.1.2 (by rw [← hgd]; exact h2)
  obtain ⟨hep, hk⟩ := erase_lp0 hc hJ hf h h2
  refine ⟨B, hep, ?_⟩
  rcases hd with ⟨h0, hw, _⟩ | ⟨vL, vtc, σp, k, hBe, hL, hw, _⟩
  · exact Or.inl ⟨h0, hWm _ _ _ _ hw hE⟩
  · obtain ⟨γ, l1, l2, l3⟩ := hk vL vtc k hBe hL.toLP0
    exact Or.inr ⟨vts, vL, vtc, σp, k, γ, hBe, hL.of hc l1 l3, hWm _ _ _ _ hw hE, l2⟩

/-- Power failed while a page was being written. -/
theorem page_stp (hc : c.Valid) {s s1 s' : S} {vts vt vh vq : Nat} (hp : Prepared c s s1 vts vt vh vq)
    (hat : ∀ p, p ≠ c.ph vq → (c.last vq → p ≠ c.ph (vq + 1)) →
        s'.n.chip.page p = s1.n.chip.page p ∧ s'.n.chip.free p = s1.n.chip.free p)
    (hbad : s'.n.chip.bad = s1.n.chip.bad) :
    Stp c (gd s.n.chip) (gd s'.n.chip) s.n.chip s'.n.chip vh vq ∧
      ∀ k, s'.n.chip.bad k = true → s.n.chip.bad k = true ∨ inBlks c (vh / c.ppb) (vq / c.ppb) k := by
  have hq0 : vh % c.ppb = 0 → vq % c.ppb = 0 := by
    intro hv
    rcases hp.mv with h | h
    · rw [h]; exact hv
    · exact h.2
  have hle := Nat.div_le_div_right (c := c.ppb) hp.le
  refine ⟨⟨hp.le, hp.mv, hp.geo.uh, ?_, ?_, ?_, ?_, ?_⟩, ?_⟩
  · intro p ho
    have hO : Outside c vh vq p := fun b h1 h2 he => absurd he (ho b h1 h2)
    obtain ⟨a1, a2⟩ := hat p (fun he => ho (vq / c.ppb) hle (Nat.le_refl _) (by rw [he, ph_div_ppb]))
      (fun hl he => ho (vq / c.ppb) hle (Nat.le_refl _) (by rw [he, ph_div_ppb, (is_last hc hl).2.2.2.2.1]))
    rw [a1, a2]
    exact ⟨hp.keep.page p hO, hp.keep.free p hO⟩
  · intro b h1 h2; apply not_gd; rw [hbad]; exact hp.keep.badm _ (hp.skip b h1 h2)
  · apply gd_mono; intro k hk; rw [hbad]; exact hp.keep.badm k hk
  · intro hv p h1 h2
    rw [(hat p h2 (fun hl => absurd (hq0 hv) (is_last hc hl).2.2.2.2.2.2)).1]
    exact (hp.fresh hv p h1).1
  · intro hv p h1 h2
    obtain ⟨a1, a2⟩ := hat p h1 h2
    rw [a1, a2, hp.same hv]; exact ⟨rfl, rfl⟩
  · intro k hk; rw [hbad] at hk
    rcases hp.keep.badn k hk with h | h
    · exact Or.inl h
    · exact absurd h (fun h => h)

theorem page_lp0 (hc : c.Valid) (hJ : JunkOk c) {s s1 s' : S} {vts vt vh vq B : Nat} (g0 : Geo c s vts vt vh)
    (hf : FP c (gd s.n.chip) s.n.chip B vh)
    (hp : Prepared c s s1 vts vt vh vq)
    (hat : ∀ p, p ≠ c.ph vq → (c.last vq → p ≠ c.ph (vq + 1)) →
        s'.n.chip.page p = s1.n.chip.page p ∧ s'.n.chip.free p = s1.n.chip.free p)
    (hbad : s'.n.chip.bad = s1.n.chip.bad)
    (hcp : c.last vq → s'.n.chip.page (c.ph (vq + 1)) = s1.n.chip.page (c.ph (vq + 1)) ∨
        ∃ t, s'.n.chip.page (c.ph (vq + 1)) = c.env.junk t (c.ph (vq + 1)))
    (h2 : TwoGood c (gd s'.n.chip)) :
    EP c (gd s'.n.chip) s'.n.chip B ∧ ∀ vL vtc k, B = vL / c.ppb + 1 → LP0 c s.n.chip vts vh vL vtc k →
      ∃ γ, LP0 c s'.n.chip vts γ vL vtc k ∧ CG c s'.n.chip vts vL γ ∧ KeptL c s.n.chip s'.n.chip vts vh vL := by
  have h4 := hc.ppc_ge
  have hN := hc.blocks_lo
  obtain ⟨hs, hbn⟩ := page_stp hc hp hat hbad
  have hlt := vq_lt_of_pos hs hf.pos h2
  have hmag : c.last vq → ∀ e, MagicAt s'.n.chip (c.ph (vq + 1)) e → MagicAt s.n.chip (c.ph (vq + 1)) e := by
    intro hl e he
    have hv : vh % c.ppb ≠ 0 := fun hv => (is_last hc hl).2.2.2.2.2.2 (hs.q0 hv)
    rcases hcp hl with h | ⟨t, h⟩
    · rw [hp.same hv] at h; exact he.congr h.symm
    · refine absurd he (junk_no_magic hJ (t := t) ?_ h e)
      rw [ph_mod_ppc hc]
      have := (div_add_lt (v := vq) (k := 1) (m := c.ppc) (by unfold Cfg.last at hl; omega)).2
      rw [this]; unfold Cfg.last at hl; omega
  refine ⟨hs.ep hc h2 hf (fun hl _ => hmag hl), ?_⟩
  intro vL vtc k hB hL
  have hlt2 : vq / c.ppb < vL / c.ppb + c.numBlocks := by
    rcases hlt with h | h
    · omega
    · rw [hB] at h; exact absurd h (Nat.succ_ne_zero _)
  have hlL := hL.lt
  have hqle := hs.le
  have hwq : c.Win vts vq := hp.winN.mono (Nat.le_refl _) (Nat.le_of_lt (lt_nextV c vq))
  by_cases hb : vq / c.ppb = vL / c.ppb
  · -- in the block of the last checkpoint
    have hv : vh % c.ppb ≠ 0 := by
      intro hv
      have := blk_lt_aligned (c := c) (v := vL) (w := vh) (by omega) hv
      have := Nat.div_le_div_right (c := c.ppb) hqle
      omega
    have hq := hs.qh hv
    have d0 := div_mod_range vq c.ppc
    have hml := mod_ppc_lt c vq
    have hal : vq / c.ppc * c.ppc % c.ppc = 0 := Nat.mul_mod_left _ _
    have hgb : ∀ i, i < c.ppc → (vq / c.ppc * c.ppc + i) / c.ppb = vq / c.ppb := by
      intro i hi
      rw [grp_end_blk hc hal hi]
      have := grp_end_blk hc hal hml
      rw [← d0] at this; exact this.symm
    have hready := g0.hfree hv
    have hfr0 : ∀ v, vq ≤ v → v / c.ppb = vq / c.ppb → s.n.chip.free (c.ph v) = true := by
      intro v h1 h2
      have := hready.2 (v % c.ppb) (by
        rw [← hq]
        have d1 := div_mod_range v c.ppb
        have d2 := div_mod_range vq c.ppb
        rw [h2] at d1; omega) (mod_ppb_lt c v)
      rw [← hq, ph_div_ppb, ← h2, ← ph_div_ppb, ← ph_mod_ppb, ← div_mod_range] at this
      exact this
    have hinj : ∀ v w, v / c.ppb = vq / c.ppb → w / c.ppb = vq / c.ppb → c.ph v = c.ph w → v = w := by
      intro v w h1 h2 h3
      exact ph_inj_lap (lo := vq / c.ppb) (by omega) (by omega) (by omega) (by omega) h3
    have hfr : ∀ v, vq < v → v / c.ppb = vq / c.ppb → (c.last vq → v ≠ vq + 1) → s'.n.chip.free (c.ph v) = true := by
      intro v h1 h2 h3
      rw [(hs.atq hv _ (fun hh => by have := hinj _ _ h2 rfl hh; omega)
        (fun hl hh => h3 hl (hinj _ _ h2 (is_last hc hl).2.2.2.2.1 hh))).2]
      exact hfr0 v (by omega) h2
    have hfree2 : ∀ γ, γ % c.ppc = 0 → vq ≤ γ + c.ppc - 2 → ∀ v, γ + c.ppc ≤ v → v / c.ppb = vL / c.ppb → s'.n.chip.free (c.ph v) = true := by
      intro γ hγ h1 v h3 h5
      refine hfr v (by omega) (by omega) (fun hl he => ?_)
      have e := (is_last hc hl).2.1
      have hge : γ + c.ppc = vq + 1 := by omega
      have := (div_add_lt (v := vq) (k := 1) (m := c.ppc) (by unfold Cfg.last at hl; omega)).2
      rw [← hge, Nat.add_mod_right, hγ] at this; omega
    have hlast2 : (vL + 2) ≤ vq / c.ppc * c.ppc := by
      have e := (is_last hc hL.last).2.1
      apply Classical.byContradiction; intro hn
      have d1 := div_mod_range (vL + 2) c.ppc
      rw [e] at d1
      have := Nat.div_le_div_right (c := c.ppc) (by omega : vL + 2 ≤ vq)
      have := Nat.mul_le_mul_right c.ppc this
      omega
    have huq := hs.uq
    unfold Cfg.isU at huq
    have hx : vq / c.ppc * c.ppc + c.ppc ≤ (vL / c.ppb + 1) * c.ppb := by
      have h1 := hgb (c.ppc - 1) (by omega)
      have h3 := lt_next_blk c (vq / c.ppc * c.ppc + (c.ppc - 1))
      rw [h1, hb] at h3; omega
    by_cases hboth : s'.n.chip.free (c.ph (vq / c.ppc * c.ppc + c.ppc - 2)) = true ∧
        s'.n.chip.free (c.ph (vq / c.ppc * c.ppc + c.ppc - 1)) = true
    · have hy := hL.step hc hs hbn hwq hlt2 hmag hlast2 (fun g _ _ h1 h2 => by omega)
      exact ⟨vq / c.ppc * c.ppc, hy.1, ⟨hal, by omega, hfree2 _ hal (by omega), Or.inr ⟨by omega, hboth⟩⟩, hy.2⟩
    · suffices hy : (LP0 c s'.n.chip vts (vq / c.ppc * c.ppc + c.ppc) vL vtc k ∧ KeptL c s.n.chip s'.n.chip vts vh vL) ∧
          CG c s'.n.chip vts vL (vq / c.ppc * c.ppc + c.ppc) from ⟨_, hy.1.1, hy.2, hy.1.2⟩
      refine ⟨?_, ⟨by rw [Nat.add_mod_right]; exact hal, hx, ?_, ?_⟩⟩
      · refine hL.step hc hs hbn hwq hlt2 hmag (by omega) ?_
        intro g h1 h2 h3 h5
        have hge : g = vq / c.ppc * c.ppc := by
          have d1 := div_mod_range g c.ppc
          rw [h1] at d1
          have : g / c.ppc = vq / c.ppc := by
            have x1 := (Nat.div_le_div_right (c := c.ppc) (by omega : g ≤ vq / c.ppc * c.ppc))
            rw [Nat.mul_div_cancel _ (ppc_pos c)] at x1
            have x2 : vq / c.ppc < g / c.ppc + 1 := by
              rw [Nat.div_lt_iff_lt_mul (ppc_pos c), Nat.add_mul, Nat.one_mul]; omega
            omega
          rw [this] at d1; omega
        rw [hge]; exact hboth
      · refine hfree2 _ (by rw [Nat.add_mod_right]; exact hal) (by omega)
      · by_cases hl : c.last vq
        · by_cases he : vq / c.ppc * c.ppc + c.ppc = (vL / c.ppb + 1) * c.ppb
          · left
            rw [← he]
            have : vq / c.ppc * c.ppc + c.ppc = c.nextV vq := by
              rw [(is_last hc hl).1]; unfold Cfg.last at hl; omega
            rw [this]; exact hp.winN
          · right
            have hγ : (vq / c.ppc * c.ppc + c.ppc) / c.ppb = vq / c.ppb := by
              have := Nat.div_le_div_right (c := c.ppb) (by omega : vq ≤ vq / c.ppc * c.ppc + c.ppc)
              have : (vq / c.ppc * c.ppc + c.ppc) / c.ppb < vL / c.ppb + 1 := by
                rw [Nat.div_lt_iff_lt_mul (ppb_pos c)]; omega
              omega
            have hal2 : (vq / c.ppc * c.ppc + c.ppc) % c.ppc = 0 := by rw [Nat.add_mod_right]; exact hal
            refine ⟨by omega, ?_, ?_⟩
            · refine hfr _ (by omega) ?_ (fun _ => by omega)
              rw [show vq / c.ppc * c.ppc + c.ppc + c.ppc - 2 = vq / c.ppc * c.ppc + c.ppc + (c.ppc - 2) by omega,
                grp_end_blk hc hal2 (by omega), hγ]
            · refine hfr _ (by omega) ?_ (fun _ => by omega)
              rw [show vq / c.ppc * c.ppc + c.ppc + c.ppc - 1 = vq / c.ppc * c.ppc + c.ppc + (c.ppc - 1) by omega,
                grp_end_blk hc hal2 (by omega), hγ]
        · exfalso
          apply hboth
          unfold Cfg.last at hl
          rw [show vq / c.ppc * c.ppc + c.ppc - 2 = vq / c.ppc * c.ppc + (c.ppc - 2) by omega,
            show vq / c.ppc * c.ppc + c.ppc - 1 = vq / c.ppc * c.ppc + (c.ppc - 1) by omega]
          exact ⟨hfr _ (by omega) (hgb _ (by omega)) (fun h => absurd h hl), hfr _ (by omega) (hgb _ (by omega)) (fun h => absurd h hl)⟩
  · have hlv : vL / c.ppb < vq / c.ppb := by
      have := Nat.div_le_div_right (c := c.ppb) (by omega : vL ≤ vq); omega
    have hnv : (vL / c.ppb + 1) * c.ppb ≤ vh := by
      rcases hs.mv with h | ⟨h, _⟩
      · rw [← h]; exact next_le hlv
      · exact next_le (blk_lt_aligned (c := c) (v := vL) (w := vh) (by omega) h)
    have hy := hL.step hc hs hbn hwq hlt2 hmag (blk_lt_next hc hL.last) (fun g _ _ h1 h2 => by omega)
    exact ⟨(vL / c.ppb + 1) * c.ppb, hy.1, cg_left hc hwq hlv, hy.2⟩

theorem disk_page (hc : c.Valid) (hJ : JunkOk c) {t t0 : Nat} {W : Wt} (hWm : ∀ σ k n n', W σ k n → Evo c n n' → W σ k n')
    {s s1 s' : S} {σ : Nat → Option Buf} {vts vt vh vr vq : Nat} (hI : Inv0 c s σ (Gh.disk c t t0 W) vts vt vh vr)
    (hp : Prepared c s s1 vts vt vh vq)
    (hat : ∀ p, p ≠ c.ph vq → (c.last vq → p ≠ c.ph (vq + 1)) →
        s'.n.chip.page p = s1.n.chip.page p ∧ s'.n.chip.free p = s1.n.chip.free p)
    (hbad : s'.n.chip.bad = s1.n.chip.bad)
    (hcp : c.last vq → s'.n.chip.page (c.ph (vq + 1)) = s1.n.chip.page (c.ph (vq + 1)) ∨
        ∃ t, s'.n.chip.page (c.ph (vq + 1)) = c.env.junk t (c.ph (vq + 1)))
    (hE : Evo c s.n s'.n) : (Gh.disk c t t0 W).X s' := by
  intro _ h2
  obtain ⟨hs, _⟩ := page_stp hc hp hat hbad
  obtain ⟨B, hf, hd⟩ := hI.ext.1.2 (h2.mono hs.gd)
  obtain ⟨hep, hk⟩ := page_lp0 hc hJ hI.geo hf hp hat hbad hcp h2
  refine ⟨B, hep, ?_⟩
  rcases hd with ⟨h0, hw, _⟩ | ⟨vL, vtc, σp, k, hBe, hL, hw, _⟩
  · exact Or.inl ⟨h0, hWm _ _ _ _ hw hE⟩
  · obtain ⟨γ, l1, l2, l3⟩ := hk vL vtc k hBe hL.toLP0
    exact Or.inr ⟨vts, vL, vtc, σp, k, γ, hBe, hL.of hc l1 l3, hWm _ _ _ _ hw hE, l2⟩

theorem disk_tail (hc : c.Valid) {t t0 : Nat} {W : Wt} {s s' : S} {σ : Nat → Option Buf} {vts vt vh vr vts' vt' : Nat}
    (hI : Inv0 c s σ (Gh.disk c t t0 W) vts vt vh vr)
    (hn : s'.n = s.n) (hd : s'.j.dirty = s.j.dirty) (hm : mtOf c s' = mtOf c s)
    (hr : s'.j.root = s.j.root ∨ (s'.j.root = NONE ∧ vr < vt' ∧ (∀ t, t < NONE → σ t = none) ∧ s.j.dirty = true))
    (hts : vts' = vts ∨ (s.j.dirty = false ∧ vts' = vt')) (h1 : vt ≤ vt') (_h2 : vt' ≤ vh)
    (hu : ∀ x, Used (mtOf c s) s.j.root x → ∃ v, x = c.ph v ∧ c.isU v ∧ v ≤ vr ∧ (vt' ≤ v ∨ v = vr)) :
    DNorm c t0 W s' vts' vh vr := by
  have hl1 := hI.geo.l1
  have hD := hI.ext.1
  unfold DNorm at hD ⊢
  rw [hn]
  refine ⟨hD.1, fun h2 => ?_⟩
  obtain ⟨B, hf, hk⟩ := hD.2 h2
  refine ⟨B, hf, ?_⟩
  unfold Dk at hk ⊢
  rw [hn]
  rcases hk with ⟨h0, hw, hz⟩ | ⟨vL, vtc, σp, k, hB, hL, hw, hcl⟩
  · refine Or.inl ⟨h0, hw, fun hdd => ?_⟩
    rcases hr with hr | hr
    · rw [hr]; exact hz (by rw [← hd]; exact hdd)
    · exact hr.1
  · have hag : s.j.root = c.ph vL → (∀ x, Used (mtC c s.n.chip) (c.ph vL) x → mtOf c s x = mtC c s.n.chip x) →
        (∀ x, Used (mtC c s.n.chip) (c.ph vL) x → Used (mtOf c s) s.j.root x) ∧
        ((∀ t, t < NONE → σ t = none) → ∀ t, t < NONE → σp t = none) := by
      intro e0 e1
      have hT := hL.pt.ok
      refine ⟨fun x hx => by rw [e0]; exact used_of_agree hT e1 hx, ?_⟩
      intro hσ t ht
      obtain ⟨_, t2, _⟩ := tree_frame hT e1
      cases hdt : dict (mtC c s.n.chip) (c.ph vL) t with
      | none => exact hL.pt.emp t ht hdt
      | some q =>
        rw [← t2, ← e0] at hdt
        obtain ⟨b, _, _, hb⟩ := hI.tr.holds t q ht hdt
        rw [hσ t ht] at hb; cases hb
    refine Or.inr ⟨vL, vtc, σp, k, hB, ?_, hw, ?_⟩
    · rcases hts with hts | ⟨hdf, hts⟩
      · rw [hts]; exact hL
      · have hpt : PT c s.n.chip vts' vL σp := by
          apply hL.pt.retail
          intro x hx
          obtain ⟨e0, e1, e2⟩ := hcl hdf
          obtain ⟨v, a1, a2, a3, a4⟩ := hu x ((hag e0 e2).1 x hx)
          rw [e1] at a3 a4
          exact ⟨v, a1, a2, a3, by rw [hts]; exact a4⟩
        have := hL.tct
        exact ⟨⟨hL.last, hL.lt, hL.good, hL.cp, hL.utc, hL.tcL, by omega, hL.wtc, hL.nm, hL.pg⟩, hpt⟩
    · intro hdd
      rw [hd] at hdd
      rw [hn, hm]
      obtain ⟨e0, e1, e2⟩ := hcl hdd
      rcases hr with hr | ⟨_, _, _, hr4⟩
      · exact ⟨by rw [hr]; exact e0, e1, e2⟩
      · rw [hdd] at hr4; cases hr4

theorem tick_evo' (n : Nand) : Evo c n { n with time := n.time + 1 } :=
  ⟨Nat.le_succ _, fun _ => Nat.le_refl _, fun h => h, fun _ h => h, fun _ _ h _ => ⟨rfl, h⟩, fun _ h => Or.inl h,
   fun _ h => h⟩

/-! ### Recovery -/

/-- The first checkpoints of the good blocks are untouched. -/
theorem EP.same {good : Nat → Prop} {ch ch' : Chip} {B : Nat} (h : EP c good ch B)
    (hp : ∀ b, good (b % c.numBlocks) → ch'.page (c.fcp b) = ch.page (c.fcp b)) : EP c good ch' B :=
  h.frame (fun b _ h2 _ _ he => he.congr (hp b h2).symm) (fun b _ _ _ _ h4 _ => hp b h4)

theorem goodR_mono {s s' : S} {vR vM : Nat} (hb : ∀ k, s.n.chip.bad k = true → s'.n.chip.bad k = true)
    (hm : s.j.badMeta = true → s'.j.badMeta = true) : ∀ k, goodR c s' vR vM k → goodR c s vR vM k := by
  rintro k ⟨h1, h2⟩
  refine ⟨gd_mono hb k h1, fun h => h2 ?_⟩
  rcases h with h | ⟨h, h'⟩
  · exact Or.inl h
  · exact Or.inr ⟨hm h, h'⟩

theorem start_fp (hc : c.Valid) {s s' : S} {vts vt vh vr vM v' : Nat}
    (hD : TwoGood c (gd s.n.chip) → ∃ B, FP c (gd s.n.chip) s.n.chip B vh) (hrb : vr / c.ppb = vh / c.ppb)
    (h : PushStart c s s' vts vt vh vM v') (h2 : TwoGood c (goodR c s' vr vM)) :
    ∃ B, FP c (goodR c s' vr vM) s'.n.chip B v' := by
  have h4 := hc.ppc_ge
  have hP := ppb_pos c
  have hgg : ∀ k, goodR c s' vr vM k → gd s.n.chip k := fun k hk => gd_mono h.keep.badm k hk.1
  have hnr : ¬ goodR c s' vr vM (vh / c.ppb % c.numBlocks) := fun hg => hg.2 (Or.inl (by rw [ph_div_ppb, hrb]))
  have hns : ∀ b, vh / c.ppb ≤ b → b < v' / c.ppb → ¬ goodR c s' vr vM (b % c.numBlocks) := by
    intro b h1 h2 hg
    by_cases hb : b = vh / c.ppb
    · rw [hb] at hg; exact hnr hg
    · exact not_gd (h.skip b (by omega) h2) hg.1
  obtain ⟨B, hf⟩ := hD (h2.mono hgg)
  have hep := hf.ep.mono hc hgg h2
  have hlt := h.lt
  have hBle := hf.pos.le
  have hgap : ∀ b, B ≤ b → b < v' / c.ppb → ¬ goodR c s' vr vM (b % c.numBlocks) := by
    intro b h1 h2 hg
    by_cases hb : b < vh / c.ppb
    · exact hf.pos.gap b h1 hb (hgg _ hg)
    · exact hns b (by omega) h2 hg
  refine ⟨B, ?_⟩
  rcases h.rm with ⟨r1, r2, r3⟩ | ⟨r1, r2, r3, r4, r5⟩
  · have hal : v' % c.ppb = 0 := by rw [r3]; exact nextB_mod c vh
    refine ⟨hep.same fun b hg => h.cold r1 _ fun he => ?_, ⟨by omega, hgap, fun _ => by omega, fun he => by omega⟩,
      ⟨fun hz => absurd hal hz, fun hz => absurd hal hz⟩⟩
    rw [fcp_div hc, ph_div_ppb] at he
    rw [he] at hg; exact hnr hg
  · have hne : s'.j.recoverMeta ≠ NONE := by rw [r1]; exact ph_ne_none hc _
    have hbl := nextV_blk_aligned hc r5
    have huM := isU_of_aligned hc r5
    have hlM : ¬ c.last vM := fun hl => (is_last hc hl).2.2.2.2.2.2 r5
    obtain ⟨n1, n2, n3, n4⟩ := not_last hc huM hlM
    have e' : v' = vM + 1 := by rw [r3, n1]
    have d0 := div_mod_range vM c.ppb
    have d1 := div_mod_range v' c.ppb
    have hvb : v' / c.ppb = vM / c.ppb := by rw [e', n4]
    rw [hvb] at d1
    have hsmall : v' % c.ppb = 1 := by omega
    refine ⟨hep.step hc (q := v' / c.ppb) ?_ (Or.inr ⟨by omega, hgap, ?_⟩), ⟨by omega, hgap, fun _ => by omega, fun he => by omega⟩, ⟨?_, ?_⟩⟩
    · intro b hg hb
      refine h.keep.page _ ?_
      intro b1 x1 x2 he
      rw [fcp_div hc] at he
      by_cases hq : b1 = v' / c.ppb
      · rw [hq] at he; exact absurd he hb
      · rw [he] at hg; exact absurd hg (hns b1 x1 (by omega))
    · intro e he
      refine absurd he (blank_no_magic (h.rest hne _ ?_ (fcp_ne hc huM)))
      rw [fcp_div hc, ph_div_ppb, hvb]
    · intro _ v x1 x2 x3 e
      refine blank_no_magic (h.rest hne _ (by rw [ph_div_ppb, ph_div_ppb, x2, hvb]) ?_)
      intro he
      have hN := hc.blocks_lo
      have := ph_inj_lap (lo := vM / c.ppb) (by omega) (by omega) (by omega) (by omega) he
      omega
    · intro _ g x1 x2 x3
      exfalso
      have := div_mod_range g c.ppb
      rw [x2, hvb] at this
      omega

theorem disk_start (hc : c.Valid) {t t0 : Nat} {W : Wt} {s s' : S} {σ : Nat → Option Buf} {vts vt vh vr vM v' : Nat}
    (hI : Inv0 c s σ (Gh.disk c t t0 W) vts vt vh vr) (hroot : s.j.root ≠ NONE) (h : PushStart c s s' vts vt vh vM v') :
    DRec c t0 s' v' vr vM := by
  obtain ⟨⟨ht, hD⟩, hrb⟩ := hI.ext
  refine ⟨?_, start_fp hc (fun h2 => ?_) (hrb hroot h.hv) h⟩
  · obtain ⟨t1, b1, b2, b3⟩ := h.fail
    exact ⟨t1, by omega, b2, Or.inl b3⟩
  · obtain ⟨B, hf, _⟩ := hD h2
    exact ⟨B, hf⟩

theorem again_fp (hc : c.Valid) {s s' : S} {vts vt vh vR vM v' : Nat}
    (hD : TwoGood c (goodR c s vR vM) → ∃ B, FP c (goodR c s vR vM) s.n.chip B vh)
    (h : PushAgain c s s' vts vt vh vR vM v') (h2 : TwoGood c (goodR c s' vR vM)) : ∃ B, FP c (goodR c s' vR vM) s'.n.chip B v' := by
  have h4 := hc.ppc_ge
  have hgg := goodR_mono (c := c) (vR := vR) (vM := vM) h.keep.badm h.bmk
  obtain ⟨B, hf⟩ := hD (h2.mono hgg)
  have hlt := h.lt
  have hal := h.al
  have hBle := hf.pos.le
  have hns : ∀ b, vh / c.ppb ≤ b → b < v' / c.ppb → ¬ goodR c s' vR vM (b % c.numBlocks) := by
    intro b h1 h2 hg
    rcases h.skip b h1 h2 with hb | hb
    · exact not_gd hb hg.1
    · exact hg.2 (Or.inr hb)
  refine ⟨B, (hf.ep.mono hc hgg h2).same fun b hg => h.cold _ fun b1 x1 x2 he => ?_, ⟨by omega, ?_, fun _ => by omega, fun he => by omega⟩,
    ⟨fun hz => absurd hal hz, fun hz => absurd hal hz⟩⟩
  · rw [fcp_div hc] at he
    rw [he] at hg; exact hns b1 x1 x2 hg
  · intro b x1 x2 hg
    by_cases hb : b < vh / c.ppb
    · exact hf.pos.gap b x1 hb (hgg _ hg)
    · exact hns b (by omega) x2 hg

theorem disk_again (hc : c.Valid) {t t0 : Nat} {W : Wt} {s s' : S} {σ : Nat → Option Buf} {pend : Nat → Prop}
    {vts vt vh vr vR vM vn v' : Nat} (hI : Inv1 c s σ (Gh.disk c t t0 W) pend vts vt vh vr vR vM vn)
    (h : PushAgain c s s' vts vt vh vR vM v') (hE : Evo c s.n s'.n) : DRec c t0 s' v' vR vM := by
  obtain ⟨hn, hD⟩ := hI.ext
  exact ⟨hn.mono (Nat.le_refl _) hE.time, again_fp hc hD h⟩

/-- A successful push during a recovery is a step. -/
theorem PushOk.stpR {s s' : S} {m : Option Buf} {Pd : S → Option Buf → Prop} {vts vt vh vq vR vM : Nat} {good' : Nat → Prop}
    (h : PushOk c s s' m Pd vts vt vh vq vR vM) (hg1 : ∀ k, good' k → gd s'.n.chip k) (hg2 : ∀ k, good' k → goodR c s vR vM k) :
    Stp c (goodR c s vR vM) good' s.n.chip s'.n.chip vh vq := by
  have ho : ∀ p, (∀ b, vh / c.ppb ≤ b → b ≤ vq / c.ppb → p / c.ppb ≠ b % c.numBlocks) → Outside c vh vq p :=
    fun p hp b h1 h2 he => absurd he (hp b h1 h2)
  exact ⟨h.le, h.mv, h.uq, fun p hp => ⟨h.keep.page p (ho p hp), h.keep.free p (ho p hp)⟩,
    fun b h1 h2 hg => not_gd (h.skip b h1 h2) (hg1 _ hg), hg2, h.rest, h.atq⟩

theorem rok_fp (hc : c.Valid) {s s' : S} {m : Option Buf}
    {Pd : S → Option Buf → Prop} {vts vt vh vR vM vn vq : Nat}
    (hD : TwoGood c (goodR c s vR vM) → ∃ B, FP c (goodR c s vR vM) s.n.chip B vh) (hgeo : Geo c s vts vt vh)
    (hrg : RGeo c s vt vh vR vM vn)
    (ho : PushOk c s s' m Pd vts vt vh vq vR vM) (hnf : ¬ finishes c s vq) (h2 : TwoGood c (goodR c s' vR vM)) :
    ∃ B, FP c (goodR c s' vR vM) s'.n.chip B (c.nextV vq) := by
  obtain ⟨a1, a2, a3, a4, a5, a6⟩ := ho.going hnf
  have hgg := goodR_mono (c := c) (vR := vR) (vM := vM) ho.keep.badm (fun h => a6.trans h)
  have hs := ho.stpR (good' := goodR c s' vR vM) (fun k h => h.1) hgg
  obtain ⟨B, hf⟩ := hD (h2.mono hgg)
  have hbR := hrg.bR
  have hle := ho.le
  have hdq := Nat.div_le_div_right (c := c.ppb) hle
  by_cases hl : c.last vq
  · refine ⟨_, fp_last hc hs hf h2 ⟨?_, ?_⟩ (ho.cp hl) (ho.cpnf hl) hl⟩
    · unfold gd; rw [← ph_div_ppb]; exact ho.good
    · have hwq : c.Win vts vq := ho.winq.mono (Nat.le_refl _) (Nat.le_of_lt (lt_nextV c vq))
      have hl1 := hgeo.l1
      have hl2 := hgeo.l2
      have htR := hrg.tR
      rw [← ph_div_ppb]
      intro hr
      rcases hr with h' | ⟨h3, h'⟩
      · have hRq : vR ≤ vq := by
          apply Classical.byContradiction; intro hn
          have := Nat.div_le_div_right (c := c.ppb) (by omega : vq ≤ vR); omega
        have := hwq.blk_inj (by omega) (Nat.le_refl _) (by omega) hRq h'
        omega
      · rw [a6] at h3
        rcases hrg.rm with h4 | ⟨e1, e2, e3, e4⟩
        · exact absurd h4 (hrg.bm h3).1
        · have hMb := (hrg.bm h3).2
          have hMq : vts ≤ vM := by
            apply Classical.byContradiction; intro hn
            have := Nat.div_le_div_right (c := c.ppb) (by omega : vM ≤ vR); omega
          have := hwq.blk_inj (by omega) (Nat.le_refl _) hMq (by omega) h'
          omega
  · rw [(not_last hc hs.uq hl).1]
    exact ⟨B, ⟨hs.ep hc h2 hf (fun h => absurd h hl), hs.pos_step hc hf.pos hl, hs.hb_step hc hf.hb hl⟩⟩

theorem disk_rok (hc : c.Valid) {t t0 : Nat} {W : Wt} {s s' : S} {σ : Nat → Option Buf} {pend : Nat → Prop} {m : Option Buf}
    {Pd : S → Option Buf → Prop} {vts vt vh vr vR vM vn vq : Nat}
    (hI : Inv1 c s σ (Gh.disk c t t0 W) pend vts vt vh vr vR vM vn)
    (ho : PushOk c s s' m Pd vts vt vh vq vR vM) (hnf : ¬ finishes c s vq) (hE : Evo c s.n s'.n) :
    DRec c t0 s' (c.nextV vq) vR vM := by
  obtain ⟨hn, hD⟩ := hI.ext
  exact ⟨hn.mono (Nat.le_refl _) hE.time, rok_fp hc hD hI.geo hI.rgeo ho hnf⟩

theorem disk_done (hc : c.Valid) {t t0 : Nat} {W : Wt} {s s' : S} {σ : Nat → Option Buf} {pend : Nat → Prop} {m : Option Buf}
    {Pd : S → Option Buf → Prop} {vts vt vh vr vR vM vn vq : Nat}
    (hI : Inv1 c s σ (Gh.disk c t t0 W) pend vts vt vh vr vR vM vn)
    (ho : PushOk c s s' m Pd vts vt vh vq vR vM) (hfin : finishes c s vq)
    (hT : Tr c s' s'.j.root vt vq (c.nextV vq) σ) (hcalm : Calm s') (hW : W σ (r32 s.j.pageBuf 16) s'.n) (hE : Evo c s.n s'.n) :
    DNorm c t0 W s' (newTs c s vts vt vq) (c.nextV vq) vq ∧ RootBlk c s' (c.nextV vq) vq := by
  obtain ⟨hn, hD⟩ := hI.ext
  refine ⟨⟨?_, fun h2 => ?_⟩, rootBlk_push hc ho.uq⟩
  · obtain ⟨t1, b1, b2, _⟩ := hn
    have := hE.time; omega
  have hd := ho.done hfin
  have hgg : ∀ k, gd s'.n.chip k → goodR c s vR vM k :=
    fun k hk => ⟨gd_mono ho.keep.badm k hk, fun hr => not_gd (hd.2 k hr) hk⟩
  have hs := ho.stpR (good' := gd s'.n.chip) (fun k h => h) hgg
  obtain ⟨B, hf⟩ := hD (h2.mono hgg)
  have hts : newTs c s vts vt vq = vt := by
    unfold newTs; rw [if_pos ⟨hfin.1, Or.inr hfin.2⟩]
  rw [hts]
  have hl2 := hI.geo.l2
  have hle := ho.le
  exact ⟨_, commit_step hc hs hf h2 ho.good (ho.cp hfin.1) (ho.cpnf hfin.1) ho.root ho.geo.eh hcalm.rm ho.winq hI.geo.l1 hI.geo.ut
    (by omega) hT hW hfin.1⟩

theorem soft_lp0 (hc : c.Valid) {s s' : S} {vts vh vq B : Nat} (hf : FP c (gd s.n.chip) s.n.chip B vh)
    (h : Soft c s s' vts vh vq) (hal : vh % c.ppb = 0 ∧ vq % c.ppb = 0) (h2 : TwoGood c (gd s'.n.chip)) :
    FP c (gd s'.n.chip) s'.n.chip B vq ∧ ∀ vL vtc k, B = vL / c.ppb + 1 → LP0 c s.n.chip vts vh vL vtc k →
      LP0 c s'.n.chip vts vq vL vtc k ∧ KeptL c s.n.chip s'.n.chip vts vh vL := by
  have h4 := hc.ppc_ge
  have hle := Nat.div_le_div_right (c := c.ppb) h.le
  have hbad : ∀ k, s'.n.chip.bad k = s.n.chip.bad k := fun k => h.keep.bad_eq (fun hn => hn.elim)
  have hgd : gd s'.n.chip = gd s.n.chip := by funext k; unfold gd; rw [hbad]
  rw [hgd] at h2 ⊢
  have hB : B ≤ vh / c.ppb := by
    apply Classical.byContradiction; intro hn
    have := hf.pos.hi (by have := hf.pos.le; omega)
    omega
  have hsk : ∀ b, vh / c.ppb ≤ b → b < vq / c.ppb → ¬ gd s.n.chip (b % c.numBlocks) := fun b x y => not_gd (h.skip b x y)
  have hgap : ∀ b, B ≤ b → b < vq / c.ppb → ¬ gd s.n.chip (b % c.numBlocks) := by
    intro b x y
    by_cases hb : b < vh / c.ppb
    · exact hf.pos.gap b x hb
    · exact hsk b (by omega) y
  refine ⟨⟨?_, ⟨by omega, hgap, fun _ => by rw [hal.2]; exact ppc_pos c, fun he => by omega⟩,
    ⟨fun hz => absurd hal.2 hz, fun hz => absurd hal.2 hz⟩⟩, ?_⟩
  · refine hf.ep.step hc (q := vq / c.ppb) ?_ ?_
    · intro b hg hb
      refine h.keep.page _ ?_
      intro b1 x1 x2 he
      rw [fcp_div hc] at he
      by_cases hq : b1 = vq / c.ppb
      · rw [hq] at he; exact absurd he hb
      · rw [he] at hg; exact absurd hg (hsk b1 x1 (by omega))
    · rcases h.fresh with f | f
      · left; rw [f]
      · refine Or.inr ⟨by omega, hgap, fun e he => absurd he (blank_no_magic (f.2 _ ?_).1)⟩
        rw [fcp_div hc, ph_div_ppb]
  · intro vL vtc k hBe hL
    · have hlt : vq / c.ppb < vL / c.ppb + c.numBlocks := by
        rcases hf.pos.lt h2 h.le hsk (fun hh => by omega) with h | h
        · omega
        · rw [hBe] at h; exact absurd h (Nat.succ_ne_zero _)
      have hlL := hL.lt
      have hb1 := blk_lt_aligned (c := c) (v := vL) (w := vh) (by omega) hal.1
      refine hL.frame hc ?_ ?_ ?_ (by have := h.le; omega) ?_
      · intro v x1 x2
        have ho : Outside c vh vq (c.ph v) := by
          rcases x2 with x2 | x2
          · exact outside_ph hc h.win x2 x1 h.le
          · intro b y1 y2 he
            exfalso
            have := blk_lt_aligned x1 hal.1
            rw [ph_div_ppb] at he
            have := mod_inj (base := vL / c.ppb) (m := c.numBlocks) (a := v / c.ppb) (b := b) x2 (by omega) (by omega) (by omega) he
            omega
        exact ⟨h.keep.page _ ho, h.keep.free _ ho⟩
      · intro v _ _ hx; rw [hbad]; exact hx
      · intro v x1 x2
        have := Nat.div_le_div_right (c := c.ppb) x1
        omega
      · intro g x1 x2 x3 x4
        exfalso
        have e1 := grp_end_blk hc (i := c.ppc - 1) x1 (by omega)
        have := Nat.div_le_div_right (c := c.ppb) (by omega : vh ≤ g + (c.ppc - 1))
        omega

/-- A call that gave up after moving the head to a good block, possibly erasing it. -/
theorem disk_soft (hc : c.Valid) {t t0 : Nat} {W : Wt} (hWm : ∀ σ k n n', W σ k n → Evo c n n' → W σ k n')
    {s s' : S} {σ : Nat → Option Buf} {vts vt vh vr vq : Nat} (hI : Inv0 c s σ (Gh.disk c t t0 W) vts vt vh vr)
    (h : Soft c s s' vts vh vq) (hE : Evo c s.n s'.n) : DNorm c t0 W s' vts vq vr ∧ RootBlk c s' vq vr := by
  obtain ⟨⟨ht, hD⟩, hrb⟩ := hI.ext
  rcases h.dirty with hd | hd
  · subst hd
    have hq : c.ph vq = c.ph vh := by
      have h1 := (h.geo hc hI.geo).eh
      rw [← h1, hI.geo.eh]
    have hl1 := hI.geo.l1
    have hl2 := hI.geo.l2
    have := h.le
    have hq : vq = vh := by
      have w := h.win
      unfold Cfg.Win at w
      have a1 := Nat.div_le_div_right (c := c.ppb) (by omega : vts ≤ vq)
      have a2 := Nat.div_le_div_right (c := c.ppb) (by omega : vts ≤ vh)
      have a3 := Nat.div_le_div_right (c := c.ppb) (by omega : vh ≤ vq)
      exact ph_inj_lap (lo := vts / c.ppb) a1 (by omega) a2 (by omega) hq
    subst hq
    exact ⟨⟨ht, hD⟩, hrb⟩
  obtain ⟨dd, dx, dy, hj⟩ := h.jh.1
  have hroot : s'.j.root = s.j.root := by rw [hj]; rfl
  by_cases hA : vq = vh ∧ s'.n = s.n
  · obtain ⟨hA1, hA2⟩ := hA
    subst hA1
    refine ⟨?_, ?_⟩
    · simp only [DNorm, Dk, Clean]
      rw [hA2]
      refine ⟨ht, fun hg => ?_⟩
      obtain ⟨B, hf, hk⟩ := hD hg
      refine ⟨B, hf, ?_⟩
      rcases hk with ⟨h0, hw, _⟩ | ⟨vL, vtc, σp, k, hB, hL, hw, _⟩
      · exact Or.inl ⟨h0, hw, not_dirty_none hd⟩
      · exact Or.inr ⟨vL, vtc, σp, k, hB, hL, hw, not_dirty_none hd⟩
    · intro h1 h2; rw [hroot] at h1; exact hrb h1 h2
  have hal : vh % c.ppb = 0 ∧ vq % c.ppb = 0 := by
    rcases h.mv with e | e
    · rcases h.fresh with f | f
      · exact absurd ⟨e, f⟩ hA
      · rw [e]; exact ⟨f.1, f.1⟩
    · exact e
  refine ⟨⟨Nat.le_trans ht hE.time, fun h2 => ?_⟩, fun _ hv => absurd hal.2 hv⟩
  have hbad : ∀ k, s'.n.chip.bad k = s.n.chip.bad k := fun k => h.keep.bad_eq (fun hn => hn.elim)
  have hgd : gd s'.n.chip = gd s.n.chip := by funext k; unfold gd; rw [hbad]
  obtain ⟨B, hf, hk⟩ := hD (by rw [← hgd]; exact h2)
  obtain ⟨f1, f2⟩ := soft_lp0 hc hf h hal h2
  refine ⟨B, f1, ?_⟩
  rcases hk with ⟨h0, hw, _⟩ | ⟨vL, vtc, σp, k, hBe, hL, hw, _⟩
  · exact Or.inl ⟨h0, hWm _ _ _ _ hw hE, not_dirty_none hd⟩
  · obtain ⟨l1, l2⟩ := f2 vL vtc k hBe hL.toLP0
    exact Or.inr ⟨vL, vtc, σp, k, hBe, hL.of hc l1 l2, hWm _ _ _ _ hw hE, not_dirty_none hd⟩

/-- After some blocks at the head failed and were marked bad. -/
theorem skipped_lp0 (hc : c.Valid) {s s1 : S} {vts vt vh v1 B : Nat} (hf : FP c (gd s.n.chip) s.n.chip B vh)
    (h : Skipped c s s1 vts vt vh v1) (h2 : TwoGood c (gd s1.n.chip)) :
    FP c (gd s1.n.chip) s1.n.chip B v1 ∧ ∀ vL vtc k, B = vL / c.ppb + 1 → LP0 c s.n.chip vts vh vL vtc k →
      LP0 c s1.n.chip vts v1 vL vtc k ∧ KeptL c s.n.chip s1.n.chip vts vh vL := by
  have h4 := hc.ppc_ge
  have hle := Nat.div_le_div_right (c := c.ppb) h.le
  have hgg := gd_mono h.keep.badm
  have hB : B ≤ vh / c.ppb := by
    apply Classical.byContradiction; intro hn
    have := hf.pos.hi (by have := hf.pos.le; omega)
    have := h.al
    omega
  have hsk : ∀ b, vh / c.ppb ≤ b → b < v1 / c.ppb → ¬ gd s1.n.chip (b % c.numBlocks) := fun b x y => not_gd (h.skip b x y)
  have hgap : ∀ b, B ≤ b → b < v1 / c.ppb → ¬ gd s1.n.chip (b % c.numBlocks) := by
    intro b x y
    by_cases hb : b < vh / c.ppb
    · exact fun hg => hf.pos.gap b x hb (hgg _ hg)
    · exact hsk b (by omega) y
  have hpos : Pos c (gd s1.n.chip) B vh := ⟨hf.pos.le, fun b x y hg => hf.pos.gap b x y (hgg _ hg), hf.pos.lo, hf.pos.hi⟩
  refine ⟨⟨?_, ⟨by omega, hgap, fun _ => by rw [h.al1]; exact ppc_pos c, fun he => by omega⟩,
    ⟨fun hz => absurd h.al1 hz, fun hz => absurd h.al1 hz⟩⟩, ?_⟩
  · refine (hf.ep.mono hc hgg h2).same fun b hg => h.same _ fun b1 x1 x2 he => ?_
    rw [fcp_div hc] at he
    rw [he] at hg; exact hsk b1 x1 x2 hg
  · intro vL vtc k hBe hL
    · have hlt : v1 / c.ppb < vL / c.ppb + c.numBlocks := by
        rcases hpos.lt h2 h.le hsk (fun hh => by omega) with h | h
        · omega
        · rw [hBe] at h; exact absurd h (Nat.succ_ne_zero _)
      have hlL := hL.lt
      have hb1 := blk_lt_aligned (c := c) (v := vL) (w := vh) (by omega) h.al
      have hne : ∀ v, v < vh → (vts ≤ v ∨ vL / c.ppb ≤ v / c.ppb) → ∀ b, vh / c.ppb ≤ b → b ≤ v1 / c.ppb →
          c.ph v / c.ppb ≠ b % c.numBlocks := by
        intro v x1 x2 b y1 y2 he
        have hbv := blk_lt_aligned x1 h.al
        rw [ph_div_ppb] at he
        rcases x2 with x2 | x2
        · have w := h.geo.win
          unfold Cfg.Win at w
          have a1 := Nat.div_le_div_right (c := c.ppb) x2
          have := mod_inj (base := vts / c.ppb) (m := c.numBlocks) (a := v / c.ppb) (b := b) a1 (by omega) (by omega) (by omega) he
          omega
        · have := mod_inj (base := vL / c.ppb) (m := c.numBlocks) (a := v / c.ppb) (b := b) x2 (by omega) (by omega) (by omega) he
          omega
      refine hL.frame hc ?_ ?_ ?_ (by have := h.le; omega) ?_
      · intro v x1 x2
        have ho : Outside c vh v1 (c.ph v) := fun b y1 y2 he => absurd he (hne v x1 x2 b y1 y2)
        exact ⟨h.keep.page _ ho, h.keep.free _ ho⟩
      · intro v x1 x2 hx
        rw [h.keep.bad_eq, hx]
        rintro ⟨b, y1, y2, he⟩
        exact hne v x1 x2 b y1 (by omega) he
      · intro v x1 x2
        have := Nat.div_le_div_right (c := c.ppb) x1
        omega
      · intro g x1 x2 x3 x4
        exfalso
        have e1 := grp_end_blk hc (i := c.ppc - 1) x1 (by omega)
        have := Nat.div_le_div_right (c := c.ppb) (by omega : vh ≤ g + (c.ppc - 1))
        omega

theorem disk_skipped (hc : c.Valid) {t t0 : Nat} {W : Wt} (hWm : ∀ σ k n n', W σ k n → Evo c n n' → W σ k n')
    {s s1 : S} {σ : Nat → Option Buf} {vts vt vh vr v1 : Nat} (hI : Inv0 c s σ (Gh.disk c t t0 W) vts vt vh vr)
    (h : Skipped c s s1 vts vt vh v1) : DNorm c t0 W s1 vts v1 vr ∧ RootBlk c s1 v1 vr := by
  obtain ⟨⟨ht, hD⟩, hrb⟩ := hI.ext
  have hE := h.evo
  refine ⟨⟨Nat.le_trans ht hE.time, fun h2 => ?_⟩, fun _ hv => absurd h.al1 hv⟩
  obtain ⟨B, hf, hk⟩ := hD (h2.mono (gd_mono h.keep.badm))
  obtain ⟨f1, f2⟩ := skipped_lp0 hc hf h h2
  refine ⟨B, f1, ?_⟩
  rcases hk with ⟨h0, hw, _⟩ | ⟨vL, vtc, σp, k, hBe, hL, hw, _⟩
  · exact Or.inl ⟨h0, hWm _ _ _ _ hw hE, not_dirty_none h.dirty⟩
  · obtain ⟨l1, l2⟩ := f2 vL vtc k hBe hL.toLP0
    exact Or.inr ⟨vL, vtc, σp, k, hBe, hL.of hc l1 l2, hWm _ _ _ _ hw hE, not_dirty_none h.dirty⟩

theorem Skipped.inv0 (hc : c.Valid) {s s1 : S} {σ : Nat → Option Buf} {T : Gh c} {vts vt vh vr v1 : Nat}
    (hI : Inv0 c s σ T vts vt vh vr) (h : Skipped c s s1 vts vt vh v1) (hx : T.D0 s1 vts vt v1 vr) : Inv0 c s1 σ T vts vt v1 vr := by
  have hl1 := hI.geo.l1
  have hroot := h.jh.root
  have hfr := hI.tr.frame (s' := s1) (vh' := v1) h.le (by
    intro v b1 b2 b3 b4 hb
    refine ⟨?_, h.keep.live hc h.geo.win (by omega) b3, fun hb => ?_⟩
    · exact meta_stay hc hI.geo.toGeo0 (Or.inl hI.calm : RSt c s vt vh 0 0 0) h.keep h.jh.head h.geo.win (Or.inr ⟨h.al, h.al1⟩) h.jh.recoverMeta h.jh.recoverRoot
        (fun _ _ _ _ => by rw [h.jh.pageBuf]) (by omega) b3
    · rw [h.keep.bad_eq, hb]
      exact fun hn => not_inBlks h.geo.win (by omega) (blk_lt_aligned b3 h.al) (Nat.le_succ _) hn)
  refine ⟨h.geo, ⟨h.jh.recovery.trans hI.calm.nr, h.jh.recoverMeta.trans hI.calm.rm, h.jh.enumDone.trans hI.calm.ed,
    h.jh.badMeta.trans hI.calm.bm⟩, by rw [hroot]; exact hfr.1, ?_, hx⟩
  exact Or.inl fun h1 _ => absurd (Nat.mod_eq_zero_of_dvd (Nat.dvd_trans hc.ppc_dvd (Nat.dvd_of_mod_eq_zero h.al1))) h1

theorem disk_skip (hc : c.Valid) (hJ : JunkOk c) {t t0 : Nat} {W : Wt} (hWm : ∀ σ k n n', W σ k n → Evo c n n' → W σ k n')
    {s s1 s' : S} {σ : Nat → Option Buf} {vts vt vh vr v1 : Nat} (hI : Inv0 c s σ (Gh.disk c t t0 W) vts vt vh vr)
    (h : Skipped c s s1 vts vt vh v1) (hs : PStop c s1 s' vts vt v1) (hE : Evo c s1.n s'.n) : (Gh.disk c t t0 W).X s' := by
  have hI1 := h.inv0 hc hI (disk_skipped hc hWm hI h)
  cases hs with
  | erase vq h => exact disk_erase hc hJ hWm hI1 h hE
  | page s2 vq hp hat hbad hcp _ => exact disk_page hc hJ hWm hI1 hp hat hbad hcp hE

theorem disk_ok (hc : c.Valid) (hJ : JunkOk c) {t t0 : Nat} {W : Wt}
    (hWm : ∀ σ k n n', W σ k n → Evo c n n' → W σ k n') : (Gh.disk c t t0 W).Ok where
  upow := trivial
  usoft := fun _ _ _ _ _ => trivial
  unoisy := fun _ _ _ _ => trivial
  uhard := fun _ _ _ _ => trivial
  ustuck := fun _ _ _ _ _ _ _ => trivial
  ucong := fun _ _ _ => trivial
  udiv := Or.inl fun _ _ => trivial
  soft := fun hI h hE _ => disk_soft hc hWm hI h hE
  wmono := fun h hE => hWm _ _ _ _ h hE
  cong0 := by
    intro s s' vts vt vh vr h hn hd hr hm
    simp only [Gh.disk, DNorm, Dk, Clean, RootBlk] at h ⊢
    rw [hn, hd, hr, hm]; exact h
  cong1 := by
    intro s s' vts vt vh vR vM h hn hb
    simp only [Gh.disk, DRec] at h ⊢
    have : goodR c s' vR vM = goodR c s vR vM := by unfold goodR; rw [hn, retires_congr hb]
    rw [this, hn]; exact h
  tick := by
    intro s vts vt vh vr h
    obtain ⟨⟨h1, h2⟩, hrb⟩ := h
    refine ⟨⟨Nat.le_succ_of_le h1, fun hg => ?_⟩, hrb⟩
    obtain ⟨B, hf, hk⟩ := h2 hg
    refine ⟨B, hf, ?_⟩
    rcases hk with ⟨h0, hw, hz⟩ | ⟨vL, vtc, σp, k, hB, hL, hw, hcl⟩
    · exact Or.inl ⟨h0, hWm _ _ _ _ hw (tick_evo' _), hz⟩
    · exact Or.inr ⟨vL, vtc, σp, k, hB, hL, hWm _ _ _ _ hw (tick_evo' _), hcl⟩
  congX := by
    intro s s' h hn hj
    simp only [Gh.disk, Recovering] at h ⊢
    rw [hn, hj]; exact h
  push0 := fun hI ho hT hcalm hW hE _ => disk_push0 hc hWm hI ho hT hcalm hW hE
  erase := fun hI h hE _ _ => disk_erase hc hJ hWm hI h hE
  page := fun hI hp hat hbad hcp _ hE _ _ => disk_page hc hJ hWm hI hp hat hbad hcp hE
  twin := fun hI ho hT hcalm hW hE hch _ hE' _ =>
    disk_twin hc hWm ⟨ho.geo, hcalm, hT, Or.inl (stable_after hc ho.uq), disk_push0 hc hWm hI ho hT hcalm hW hE⟩ hch hE'
  noisy := fun hI hn hm _ _ h => h.elim (absurd (hn.mono hI.ext.1.1 (Nat.le_refl _))) (absurd hm)
  skip := fun hI h hs hE _ _ => disk_skip hc hJ hWm hI h hs hE
  start := fun hI hr h _ _ _ => disk_start hc hI hr h
  rok := fun hI ho hnf hE _ => disk_rok hc hI ho hnf hE
  done := fun hI ho hf hT hcalm hW hE _ => disk_done hc hI ho hf hT hcalm hW hE
  again := fun hI h hE _ => disk_again hc hI h hE
  crash1 := fun hI hm hE _ h => h.elim (absurd (hI.ext.1.mono (Nat.le_refl _) hE.time)) (absurd hm)
  tail := by
    intro s s' σ vts vt vh vr vts' vt' hI hn hd hm hr hts h1 h2 hu
    refine ⟨disk_tail hc hI hn hd hm hr hts h1 h2 hu, ?_⟩
    intro hne hv
    rcases hr with hr | hr
    · exact hI.ext.2 (by rw [← hr]; exact hne) hv
    · exact absurd hr.1 hne
  clear := by
    intro s s' σ vts vt vh vr hI hn hd hr
    have h := hI.ext.1
    refine ⟨?_, fun hne => absurd hr hne⟩
    simp only [DNorm, Dk, Clean] at h ⊢
    rw [hn]
    refine ⟨h.1, fun hg => ?_⟩
    obtain ⟨B, hf, hk⟩ := h.2 hg
    refine ⟨B, hf, ?_⟩
    rcases hk with ⟨h0, hw, _⟩ | ⟨vL, vtc, σp, k, hB, hL, hw, _⟩
    · exact Or.inl ⟨h0, hw, not_dirty_none hd⟩
    · exact Or.inr ⟨vL, vtc, σp, k, hB, hL, hw, not_dirty_none hd⟩

end Dhara

/-
The state after a power cycle satisfies the invariant of normal operation.
-/
import Verif.Proofs.Resume2
import Verif.Proofs.Top
namespace Dhara

variable {c : Cfg}

/-- The geometry of the journal found and the last checkpoint. -/
theorem resumed_geo (hc : c.Valid) {s : S} {vts vL vtc γ vt vh k : Nat}
    (hF : Found c s.j vL vt vh k) (hR : Resumed c s.n.chip vts vL vtc vt vh)
    (hep : EP c (gd s.n.chip) s.n.chip (vL / c.ppb + 1)) (hL : LP0 c s.n.chip vts γ vL vtc k)
    (hd : s.n.dead = false) (hu : s.n.ub = false) :
    Geo c s vt vt vh ∧ Calm s ∧ FP c (gd s.n.chip) s.n.chip (vL / c.ppb + 1) vh ∧ LP0 c s.n.chip vt vh vL vtc k := by
  have h4 := hc.ppc_ge
  have hP := ppb_pos c
  have htL := hR.tL
  have hlt := hR.lt
  have hble := Nat.div_le_div_right (c := c.ppb) (by omega : vL ≤ vh)
  have hmul : (vL / c.ppb + 1) * c.ppb / c.ppb = vL / c.ppb + 1 := Nat.mul_div_cancel _ hP
  have d0 := div_mod_range vL c.ppb
  have dh := div_mod_range vh c.ppb
  refine ⟨⟨⟨hF.ts, hF.tail, hF.head, hR.ut, hR.ut, hR.uh, Nat.le_refl _, by omega, hR.win, hF.ep, hd, hu⟩, ?_⟩,
    ⟨hF.nr, hF.rm, hF.ed, hF.bm⟩, ⟨hep, ?_, ?_⟩, ?_⟩
  · intro hv
    obtain ⟨a1, a2⟩ := hR.inb hv
    constructor
    · rw [ph_div_ppb, a1, ← ph_div_ppb]; exact hL.good
    · intro i h1 h2
      have e : vh / c.ppb * c.ppb + i = vh + (i - vh % c.ppb) := by omega
      have eb : (vh + (i - vh % c.ppb)) / c.ppb = vh / c.ppb := div_of_range hP (by omega) (by omega)
      have := a2 (vh + (i - vh % c.ppb)) (by omega) (by omega)
      have e2 := div_mod_range (c.ph (vh + (i - vh % c.ppb))) c.ppb
      rw [ph_div_ppb, eb, ← ph_div_ppb, ph_mod_ppb, ← e, mod_of_range (k := vh / c.ppb) (by omega) (by omega)] at e2
      rw [← e, e2] at this
      rw [show vh / c.ppb * c.ppb + i - vh / c.ppb * c.ppb = i by omega] at this
      exact this
  · refine ⟨by omega, ?_, ?_, ?_⟩
    · intro b h1 h2
      by_cases hv : vh % c.ppb = 0
      · rw [hR.nxt hv, hmul] at h2; omega
      · have := (hR.inb hv).1; omega
    · intro h
      by_cases hv : vh % c.ppb = 0
      · omega
      · have := (hR.inb hv).1; omega
    · intro h
      have hm := mod_mod_ppc hc vL
      have hml := Nat.mod_le (vL % c.ppb) c.ppc
      have hl := hL.last
      unfold Cfg.last at hl
      have : vL / c.ppb = vh / c.ppb := by omega
      rw [this] at d0; omega
  · constructor
    · intro hv v h1 h2 h3 e
      exact hL.nm v (by omega) (by rw [h2]; exact (hR.inb hv).1) h3 e
    · intro hv g h1 h2 h3
      exact hR.pg g h1 (by rw [h2]; exact (hR.inb hv).1) h3
  · exact ⟨hL.last, hlt, hL.good, hL.cp, hL.utc, hL.tcL, hR.tc, hL.wtc, hL.nm, hR.pg⟩

theorem resumed_inv (hc : c.Valid) {s : S} {vts vL vtc γ vt vh k : Nat} {σ : Nat → Option Buf}
    (hF : Found c s.j vL vt vh k) (hR : Resumed c s.n.chip vts vL vtc vt vh)
    (hep : EP c (gd s.n.chip) s.n.chip (vL / c.ppb + 1)) (hL : LPs c s.n.chip vts γ vL vtc σ k)
    (hd : s.n.dead = false) (hu : s.n.ub = false) :
    Geo c s vt vt vh ∧ Calm s ∧ Tr c s s.j.root vt vL vh σ ∧ FP c (gd s.n.chip) s.n.chip (vL / c.ppb + 1) vh ∧
      LPs c s.n.chip vt vh vL vtc σ k ∧ Clean c s vL vL σ ∧ RootBlk c s vh vL := by
  have htL := hR.tL
  have hlt := hR.lt
  have hag : ∀ x, Used (mtC c s.n.chip) (c.ph vL) x → mtOf c s x = mtC c s.n.chip x := by
    intro x hx
    obtain ⟨v, h1, h2, h3, h5, _⟩ := hL.pt.live x hx
    have := hR.ts
    obtain ⟨l1, l2, l3, l4, l5, l6, l7⟩ := is_last hc hL.last
    rw [h1]
    refine mtOf_mtC hc hF.head hF.rm hR.win (by omega) (by omega) ?_
    have e1 := Nat.div_le_div_right (c := c.ppc) h3
    have e2 := Nat.div_le_div_right (c := c.ppc) hlt
    omega
  obtain ⟨t1, t2, t3⟩ := tree_frame hL.pt.ok hag
  obtain ⟨g1, g2, g3, g4⟩ := resumed_geo hc hF hR hep hL.toLP0 hd hu
  refine ⟨g1, g2, ?_, g3, ⟨g4, ?_⟩, ?_, ?_⟩
  · rw [hF.root]
    refine ⟨Or.inr ⟨rfl, htL, by omega, last_isU hc hL.last⟩, t1, ?_, ?_, ?_⟩
    · intro x hx
      obtain ⟨v, h1, h2, h3, h5, h6⟩ := hL.pt.live x (t3 x hx)
      have := hR.ts
      exact ⟨v, h1, by omega, h3, h2, h6⟩
    · intro t ht h; rw [t2] at h; exact hL.pt.emp t ht h
    · intro t q ht h; rw [t2] at h; exact hL.pt.holds t q ht h
  · apply hL.pt.retail
    intro x hx
    obtain ⟨v, h1, h2, h3, h5, _⟩ := hL.pt.live x hx
    have := hR.ts
    exact ⟨v, h1, h2, h3, by omega⟩
  · exact fun _ => ⟨hF.root, rfl, hag⟩
  · exact fun _ hv => (hR.inb hv).1.symm

theorem reset_inv (hc : c.Valid) {s : S} {j : Journal} (hj : s.j = resetJournal c j) (hep : EP c (gd s.n.chip) s.n.chip 0)
    (hd : s.n.dead = false) (hu : s.n.ub = false) :
    Geo c s 0 0 0 ∧ Calm s ∧ Tr c s s.j.root 0 0 0 (fun _ => none) ∧ FP c (gd s.n.chip) s.n.chip 0 0 ∧
      s.j.dirty = false ∧ s.j.root = NONE := by
  have hC := hc.ppc_ge
  have u0 : c.isU 0 := by unfold Cfg.isU; rw [Nat.zero_mod]; omega
  have p0 : c.ph 0 = 0 := by unfold Cfg.ph; exact Nat.zero_mod _
  have z1 : (0 : Nat) % c.ppb = 0 := Nat.zero_mod _
  have z2 : (0 : Nat) / c.ppb = 0 := Nat.zero_div _
  refine ⟨⟨⟨?_, ?_, ?_, u0, u0, u0, Nat.le_refl _, Nat.le_refl _, ?_, ?_, hd, hu⟩, ?_⟩, ⟨?_, ?_, ?_, ?_⟩, ?_,
    ⟨hep, ⟨?_, ?_, ?_, ?_⟩, ⟨?_, ?_⟩⟩, ?_, ?_⟩
  · rw [hj, p0]; rfl
  · rw [hj, p0]; rfl
  · rw [hj, p0]; rfl
  · unfold Cfg.Win; have := hc.blocks_lo; omega
  · rw [hj, Nat.zero_div]; rfl
  · intro h; exact absurd z1 h
  · rw [hj]; rfl
  · rw [hj]; rfl
  · rw [hj]; rfl
  · rw [hj]; rfl
  · have : s.j.root = NONE := by rw [hj]; rfl
    rw [this]; exact Tr.empty fun _ _ => rfl
  · omega
  · intro b h1 h2; omega
  · intro _; omega
  · intro h; omega
  · intro h; exact absurd z1 h
  · intro h; exact absurd z1 h
  · rw [hj]; rfl
  · rw [hj]; rfl

/-- What a power cycle brings back. -/
theorem resume_inv (hc : c.Valid) {n : Nand} (hr : RdOk c n) (hs : SparseBad c n.chip) {W : (Nat → Option Buf) → Nat → Prop}
    (hD : CDisk c n.chip W) (hd : n.dead = false) (hu : n.ub = false) (j : Journal) (cnt : Nat) :
    ∃ r s σ vts vt vh vr, mapResume c ⟨j, n, cnt⟩ = (r, s) ∧ (r = .ok () ∨ (r = .error .tooBad ∧ ∀ t, σ t = none)) ∧ s.n = n ∧
      W σ s.count ∧ Geo c s vts vt vh ∧ Calm s ∧ Tr c s s.j.root vt vr vh σ ∧ RootBlk c s vh vr ∧
      ∀ t0 (W' : Wt), t0 ≤ n.time → W' σ s.count n → DNorm c t0 W' s vts vh vr := by
  obtain ⟨B, hep, hB⟩ := hD
  rcases hB with ⟨h0, hW⟩ | ⟨vts, vL, vtc, σ, k, γ, hBe, hL, hW, hg⟩
  · rw [h0] at hep
    have hnone : findCheckblock c n 8 0 = none := by
      rcases findCheckblock_spec hc hr 8 0 with ⟨i, b, _, _, _, h4, h5, h6, _⟩ | ⟨h, _⟩
      · exact absurd h6 (hep.e3 i (Nat.zero_le _) h4 h5 _)
      · exact h
    have he : mapResume c ⟨j, n, cnt⟩ = (.error .tooBad, ⟨resetJournal c j, n, 0⟩) := by
      unfold mapResume journalResume
      simp only [hnone]
    obtain ⟨a1, a2, a3, a4, a5, a6⟩ := reset_inv hc (s := ⟨resetJournal c j, n, 0⟩) (j := j) rfl hep hd hu
    refine ⟨_, _, _, 0, 0, 0, 0, he, Or.inr ⟨rfl, fun _ => rfl⟩, rfl, hW, a1, a2, a3, fun h => absurd a6 h, ?_⟩
    intro t0 W' ht hW'
    exact ⟨ht, fun _ => ⟨0, a4, Or.inl ⟨rfl, hW', fun _ => a6⟩⟩⟩
  · rw [hBe] at hep
    obtain ⟨j', vt, vh, h1, h2, h3, _⟩ := resume_ok hc hr hs hep hL.toLP0 hg j
    have hk : ckGetCount j' = k := h2.ck
    have he : mapResume c ⟨j, n, cnt⟩ = (.ok (), ⟨j', n, k⟩) := by
      unfold mapResume
      simp only [h1, hk]
    obtain ⟨a1, a2, a3, a4, a5, a6, a7⟩ := resumed_inv hc (s := ⟨j', n, k⟩) h2 h3 hep hL hd hu
    refine ⟨_, _, σ, vt, vt, vh, vL, he, Or.inl rfl, rfl, hW, a1, a2, a3, a7, ?_⟩
    intro t0 W' ht hW'
    exact ⟨ht, fun _ => ⟨_, a4, Or.inr ⟨vL, vtc, σ, k, rfl, a5, hW', a6⟩⟩⟩

end Dhara

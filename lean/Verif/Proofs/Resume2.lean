/-
Resuming from the state a power failure leaves (journal.c:422-465).
-/
import Verif.Proofs.Resume
namespace Dhara

variable {c : Cfg}

/-- Where the search ends up: the head `vh` and the tail `vt`. -/
structure Resumed (c : Cfg) (ch : Chip) (vts vL vtc vt vh : Nat) : Prop where
  ut : c.isU vt
  uh : c.isU vh
  tc : vtc ≤ vt
  tL : vt ≤ vL
  ts : vt ≤ vts
  lt : vL + 2 ≤ vh
  win : c.Win vt vh
  inb : vh % c.ppb ≠ 0 → vh / c.ppb = vL / c.ppb ∧ ∀ v, vh ≤ v → v / c.ppb = vL / c.ppb → ch.free (c.ph v) = true
  nxt : vh % c.ppb = 0 → vh = (vL / c.ppb + 1) * c.ppb
  pg : ∀ g, g % c.ppc = 0 → g / c.ppb = vL / c.ppb → g + c.ppc ≤ vh →
    ¬ (ch.free (c.ph (g + c.ppc - 2)) = true ∧ ch.free (c.ph (g + c.ppc - 1)) = true)
  mn : vh % c.ppc ≠ 0 → ∃ v, v / c.ppc = vh / c.ppc ∧ ch.free (c.ph v) = false

/-- The journal found. -/
structure Found (c : Cfg) (j : Journal) (vL vt vh k : Nat) : Prop where
  root : j.root = c.ph vL
  tail : j.tail = c.ph vt
  ts : j.tailSync = c.ph vt
  head : j.head = c.ph vh
  ep : j.epoch = UInt8.ofNat (vh / c.pages)
  dirty : j.dirty = false
  nr : j.recovery = false
  rm : j.recoverMeta = NONE
  ed : j.enumDone = false
  bm : j.badMeta = false
  ck : r32 j.pageBuf 16 = k

theorem pages_div (c : Cfg) (v : Nat) : v / c.pages = v / c.ppb / c.numBlocks := by
  rw [Nat.div_div_eq_div_mul, Nat.mul_comm]; rfl

theorem findHead_eq (hc : c.Valid) {n : Nand} {β m : Nat} (hm : m < c.gpb) (j : Journal) :
    findHead c n (c.ph (β * c.ppb + m * c.ppc)) j =
      findHeadLoop c n (c.ppb + 1) { j with head := c.ph (β * c.ppb + m * c.ppc) + 1 } := by
  have h4 := hc.ppc_ge
  unfold findHead
  have hg := grp_mod hc β m
  have hu : c.isU (β * c.ppb + m * c.ppc) := by unfold Cfg.isU; omega
  have hx1 := grp_lt hc hm (i := 1) (by omega)
  have e : nextUpage c (c.ph (β * c.ppb + m * c.ppc)) = c.ph (β * c.ppb + m * c.ppc) + 1 := by
    rw [nextUpage_ph hc hu]
    rcases nextV_cases hc hu with ⟨_, b, _⟩ | ⟨a, _⟩
    · rw [b, Nat.add_assoc, (ph_in_blk c hx1).1, (ph_in_blk c (show m * c.ppc < c.ppb by omega)).1]; omega
    · omega
  rw [e]
  unfold rollIfZero
  rw [if_neg (by show ¬ _ + 1 = 0; omega)]

theorem resume_ok (hc : c.Valid) {n : Nand} {vts vL vtc γ k : Nat} (hr : RdOk c n) (hs : SparseBad c n.chip)
    (hep : EP c (gd n.chip) n.chip (vL / c.ppb + 1)) (hL : LP0 c n.chip vts γ vL vtc k) (hg : CG c n.chip vts vL γ) (j : Journal) :
    ∃ j' vt vh, journalResume c n j = (.ok (), j') ∧ Found c j' vL vt vh k ∧ Resumed c n.chip vts vL vtc vt vh ∧
      ∀ b, n.chip.page (c.ph (vL + 1)) = some b → ∀ i, i < 16 → j'.pageBuf i = b i := by
  have h4 := hc.ppc_ge
  have hN := hc.blocks_lo
  have hP := ppb_pos c
  have hlap := hep.lap hc (hs.two hc) (by have := hL.good; rw [ph_div_ppb] at this; exact this)
  obtain ⟨b, hb, hcp⟩ := hL.cp
  rw [pages_div] at hcp
  have hlast := hL.last
  unfold Cfg.last at hlast
  have hlt := hL.lt
  have hgle := hg.le
  have hgal := hg.al
  have hwtc := hL.wtc
  have htcL := Nat.div_le_div_right (c := c.ppb) hL.tcL
  have dL := div_mod_range vL c.ppb
  have hmL := mod_ppb_lt c vL
  have hmm := mod_mod_ppc hc vL
  have hpgs := hL.pg
  have hnms := hL.nm
  have hfre := hg.free
  have hs2 := hg.s2
  have htct := hL.tct
  have htcL' := hL.tcL
  have hutc := hL.utc
  -- groups of the block
  obtain ⟨lam, hlam⟩ : ∃ lam, vL % c.ppb = lam * c.ppc + (c.ppc - 2) := by
    refine ⟨vL % c.ppb / c.ppc, ?_⟩
    have := div_mod_range (vL % c.ppb) c.ppc
    omega
  generalize hβ : vL / c.ppb = β at *
  have hge : β * c.ppb ≤ γ := by omega
  obtain ⟨gi, hgi⟩ : ∃ gi, γ = β * c.ppb + gi * c.ppc := by
    have h1 : c.ppc ∣ γ := Nat.dvd_of_mod_eq_zero hgal
    have h2 : c.ppc ∣ β * c.ppb := Nat.dvd_trans hc.ppc_dvd (Nat.dvd_mul_left _ _)
    obtain ⟨gi, hgi⟩ := Nat.dvd_sub h1 h2
    exact ⟨gi, by rw [Nat.mul_comm c.ppc] at hgi; omega⟩
  have hPG := gpb_mul hc
  rw [Nat.add_mul, Nat.one_mul] at hgle
  have hgG : gi ≤ c.gpb := Nat.le_of_mul_le_mul_right (by omega : gi * c.ppc ≤ c.gpb * c.ppc) (ppc_pos c)
  have hlg : lam + 1 ≤ gi := by
    apply Nat.le_of_mul_le_mul_right _ (ppc_pos c)
    rw [Nat.add_mul, Nat.one_mul]; omega
  have hpos : ∀ m i, m < c.gpb → i < c.ppc → c.ph (β * c.ppb + m * c.ppc + i) = β % c.numBlocks * c.ppb + m * c.ppc + i ∧
      (β * c.ppb + m * c.ppc + i) / c.ppb = β ∧ (β * c.ppb + m * c.ppc + i) % c.ppb = m * c.ppc + i := by
    intro m i hm hi
    have := ph_in_blk c (β := β) (grp_lt hc hm hi)
    rw [Nat.add_assoc, Nat.add_assoc]; exact this
  have hmc : ∀ m m', m < m' → m * c.ppc + c.ppc ≤ m' * c.ppc := by
    intro m m' h
    have := Nat.mul_le_mul_right c.ppc (show m + 1 ≤ m' from h)
    rw [Nat.add_mul, Nat.one_mul] at this; exact this
  have hmc' : ∀ m m', m ≤ m' → m * c.ppc ≤ m' * c.ppc := fun m m' h => Nat.mul_le_mul_right _ h
  have hU2 : ∀ m, m < gi → ¬ (n.chip.free (c.ph (β * c.ppb + m * c.ppc + (c.ppc - 2))) = true ∧
      n.chip.free (c.ph (β * c.ppb + m * c.ppc + (c.ppc - 1))) = true) := by
    intro m hm
    have := hpgs (β * c.ppb + m * c.ppc) (grp_mod hc _ _) (by have := (hpos m 0 (by omega) (by omega)).2.1; rwa [Nat.add_zero] at this)
      (by have := hmc m gi hm; omega)
    rw [show β * c.ppb + m * c.ppc + c.ppc - 2 = β * c.ppb + m * c.ppc + (c.ppc - 2) by omega,
      show β * c.ppb + m * c.ppc + c.ppc - 1 = β * c.ppb + m * c.ppc + (c.ppc - 1) by omega] at this
    exact this
  have hpp : ∀ m i, m < c.gpb → i < c.ppc → β % c.numBlocks * c.ppb + m * c.ppc + i = c.ph (β * c.ppb + m * c.ppc + i) :=
    fun m i h1 h2 => (hpos m i h1 h2).1.symm
  have hU : ∀ m, m < gi → cpFree c n (β % c.numBlocks * c.ppb + m * c.ppc) = false := by
    intro m hm
    rw [Bool.eq_false_iff]; intro hh
    rw [cpFree_iff] at hh
    refine hU2 m hm ⟨?_, ?_⟩
    · rw [← hpp m _ (by omega) (by omega)]; exact hh _ (by omega)
    · rw [← hpp m _ (by omega) (by omega)]; exact hh _ (by omega)
  have hF : ∀ m, gi < m → m < c.gpb → cpFree c n (β % c.numBlocks * c.ppb + m * c.ppc) = true := by
    intro m h1 h2
    rw [cpFree_iff]
    intro i hi
    rw [hpp m i h2 hi]
    exact hfre _ (by have := hmc gi m h1; omega) (hpos m i h2 hi).2.1
  -- the last used group
  obtain ⟨ℓ, hlG, hu, hf, hll, hcase⟩ : ∃ ℓ, ℓ < c.gpb ∧ (∀ m, m ≤ ℓ → cpFree c n (β % c.numBlocks * c.ppb + m * c.ppc) = false) ∧
      (∀ m, ℓ < m → m < c.gpb → cpFree c n (β % c.numBlocks * c.ppb + m * c.ppc) = true) ∧ lam ≤ ℓ ∧ (ℓ = gi ∨ ℓ + 1 = gi) := by
    by_cases hx : gi < c.gpb ∧ cpFree c n (β % c.numBlocks * c.ppb + gi * c.ppc) = false
    · refine ⟨gi, hx.1, ?_, hF, by omega, Or.inl rfl⟩
      intro m hm
      by_cases h : m = gi
      · rw [h]; exact hx.2
      · exact hU m (by omega)
    · refine ⟨gi - 1, by omega, fun m hm => hU m (by omega), ?_, by omega, Or.inr (by omega)⟩
      intro m h1 h2
      by_cases h : m = gi
      · rw [h] at h2 ⊢
        cases hh : cpFree c n (β % c.numBlocks * c.ppb + gi * c.ppc) with
        | true => rfl
        | false => exact absurd ⟨h2, hh⟩ hx
      · exact hF m (by omega) h2
  have hgpos : ∀ m, m < c.gpb → c.ph (β * c.ppb + m * c.ppc) = β % c.numBlocks * c.ppb + m * c.ppc := by
    intro m hm
    have := (hpos m 0 hm (by omega)).1
    rw [Nat.add_zero, Nat.add_zero] at this; exact this
  have hvL : vL = β * c.ppb + lam * c.ppc + (c.ppc - 2) := by omega
  -- the searches
  have s1 : ∃ i b0, findCheckblock c n maxRetries 0 = some (i, b0) ∧ hdrGetEpoch b0 = UInt8.ofNat (β / c.numBlocks) ∧
      i ≤ β % c.numBlocks := by
    obtain ⟨i, b0, e1, e2, _, e3⟩ := (hlap.find hc hr hs 0).1 (Nat.zero_le _)
    exact ⟨i, b0, e1, e2, e3⟩
  obtain ⟨i0, b0, s1, s1e, s1l⟩ := s1
  have hrl := hlap.lt
  have s2 : findLastCheckblock c n (UInt8.ofNat (β / c.numBlocks)) i0 = .ok (β % c.numBlocks) := by
    unfold findLastCheckblock
    exact findLastCheckblockLoop_ok hc hlap hr hs _ _ _ s1l (by omega) (by omega) (by omega)
  have s3 : findLastGroup c n (β % c.numBlocks) = .ok (c.ph (β * c.ppb + ℓ * c.ppc)) := by
    unfold findLastGroup
    rw [hgpos ℓ hlG]
    exact findLastGroupLoop_ok (G := c.gpb) hlG (fun m hm => grp_page hc hm) hu hf _ _ _ (Nat.zero_le _) hlG (Nat.le_refl _)
      (by show c.gpb < 0 + (c.gpb + 1); omega)
  have s4 : findRoot c n (UInt8.ofNat (β / c.numBlocks)) (c.ph (β * c.ppb + ℓ * c.ppc)) = .ok (c.ph vL, c.clip b) := by
    unfold findRoot
    have hx := grp_lt hc hlG (ppc_pos c)
    obtain ⟨p1, p2, p3⟩ := ph_in_blk c (β := β) (x := ℓ * c.ppc) (by omega)
    have e1 : c.blk (c.ph (β * c.ppb + ℓ * c.ppc)) = β % c.numBlocks := by rw [blk_eq, ph_div_ppb, p2]
    have e2 : (c.ph (β * c.ppb + ℓ * c.ppc) &&& (c.ppb - 1)) >>> c.log2Ppc = ℓ := by
      have : c.ph (β * c.ppb + ℓ * c.ppc) &&& (c.ppb - 1) = ℓ * c.ppc := by
        unfold Cfg.ppb; rw [Nat.and_two_pow_sub_one_eq_mod]
        show c.ph (β * c.ppb + ℓ * c.ppc) % c.ppb = _
        rw [ph_mod_ppb]; exact p3
      rw [this, Nat.shiftRight_eq_div_pow]
      exact Nat.mul_div_cancel _ (ppc_pos c)
    rw [e1, e2]
    have := findRootLoop_ok hc (n := n) (β := β) (lam := lam) (L := UInt8.ofNat (β / c.numBlocks)) (b := b) hr ?_ ?_ hcp.magic hcp.epoch
      (ℓ + 1) (by omega) (by omega)
    · rw [this, ← hvL]
    · intro m h1 h2
      refine hnms _ ?_ (hpos m _ h2 (by omega)).2.1 ?_
      · have := hmc lam m h1; omega
      · have h5 := (div_add_lt (v := β * c.ppb + m * c.ppc) (k := c.ppc - 1) (m := c.ppc) (by rw [grp_mod hc]; omega)).2
        rw [h5, grp_mod hc]; omega
    · rw [← hb]; congr 2; omega
  -- the head
  obtain ⟨m1, m2, m3, m4⟩ := clip_magic hc b
  obtain ⟨j5, hj5⟩ : ∃ j5 : Journal, j5 = { j with epoch := UInt8.ofNat (β / c.numBlocks), root := c.ph vL, tail := hdrGetTail (c.clip b), bbCurrent := hdrGetBbCurrent (c.clip b), bbLast := hdrGetBbLast (c.clip b), pageBuf := hdrClearUser c (c.clip b) } :=
    ⟨_, rfl⟩
  have f1 : j5.tail = c.ph vtc := by rw [hj5]; show hdrGetTail (c.clip b) = _; rw [m3]; exact hcp.tail
  have f2 : j5.epoch = UInt8.ofNat (β / c.numBlocks) := by rw [hj5]
  have f3 : r32 j5.pageBuf 16 = k := by
    rw [hj5]
    show r32 (hdrClearUser c (c.clip b)) 16 = k
    rw [← hcp.cookie, ← m4]
    refine r32_congr fun i hi => ?_
    unfold hdrClearUser
    exact memset_out (by omega)
  have f4 : j5.root = c.ph vL := by rw [hj5]
  have f5 : ∀ i, i < 16 → j5.pageBuf i = b i := by
    intro i hi
    rw [hj5]
    show hdrClearUser c (c.clip b) i = b i
    unfold hdrClearUser
    rw [memset_out (by omega)]
    have := hc.pageSize_ge
    unfold Cfg.clip Buf.slice
    rw [if_pos (by omega), Nat.zero_add]
  have fin : ∀ j6 : Journal, findHead c n (c.ph (β * c.ppb + ℓ * c.ppc)) j5 = .ok j6 →
      journalResume c n j = (.ok (), clearRecovery ({ j6 with dirty := false, badMeta := false, recovery := false, enumDone := false, tailSync := j6.tail })) := by
    intro j6 h6
    unfold journalResume
    rw [s1]
    simp only
    rw [s1e, s2]
    simp only
    rw [s3]
    simp only
    rw [s4]
    simp only
    rw [← hj5, h6]
  have fnd : ∀ vt vh x y, (∃ e, e = UInt8.ofNat (vh / c.pages) ∧
      findHead c n (c.ph (β * c.ppb + ℓ * c.ppc)) j5 = .ok (j5.headed (c.ph vh) (c.ph vt) e x y)) →
      ∃ j', journalResume c n j = (.ok (), j') ∧ Found c j' vL vt vh k ∧
        ∀ b, n.chip.page (c.ph (vL + 1)) = some b → ∀ i, i < 16 → j'.pageBuf i = b i := by
    rintro vt vh x y ⟨e, he, hh⟩
    refine ⟨_, fin _ hh, ?_⟩
    refine ⟨⟨f4, rfl, rfl, rfl, he, rfl, rfl, rfl, rfl, rfl, f3⟩, fun b' hb' i hi => ?_⟩
    rw [hb] at hb'
    cases hb'
    exact f5 i hi
  rw [findHead_eq hc hlG] at fnd
  have st := fun fuel => findHeadLoop_step hc (n := n) (β := β) (vtc := vtc) hlG { j5 with head := c.ph (β * c.ppb + ℓ * c.ppc) + 1 }
    ⟨1, by omega, rfl⟩ f1 (by omega) (by omega) f2 fuel
  obtain ⟨t1, t2, t3, t4⟩ := trailFree_grp c n (c.ph (β * c.ppb + ℓ * c.ppc))
  rw [hgpos ℓ hlG] at t1 t2 t3 t4 st
  rw [hgpos ℓ hlG] at fnd
  rw [hpp ℓ _ hlG (by omega), hpp ℓ _ hlG (by omega)] at t3
  -- free pages from some point of group ℓ on
  have hfree : ∀ i, i ≤ c.ppc → (∀ i', i ≤ i' → i' < c.ppc → n.chip.free (c.ph (β * c.ppb + ℓ * c.ppc + i')) = true) →
      ∀ v, β * c.ppb + ℓ * c.ppc + i ≤ v → v / c.ppb = β → n.chip.free (c.ph v) = true := by
    intro i hi h v h1 h2
    have dv := div_mod_range v c.ppb
    have dm := div_mod_range (v % c.ppb) c.ppc
    have dl := mod_ppb_lt c v
    have dk := mod_ppc_lt c (v % c.ppb)
    rw [h2] at dv
    have e : v = β * c.ppb + v % c.ppb / c.ppc * c.ppc + v % c.ppb % c.ppc := by omega
    have hG : v % c.ppb / c.ppc < c.gpb := by
      rw [Nat.div_lt_iff_lt_mul (ppc_pos c), hPG]; exact dl
    by_cases hm : v % c.ppb / c.ppc = ℓ
    · rw [hm] at e
      rw [e]; exact h _ (by omega) dk
    · have hm' : ℓ < v % c.ppb / c.ppc := by
        apply Classical.byContradiction; intro hn
        have := hmc (v % c.ppb / c.ppc) ℓ (by omega)
        omega
      have := hf _ hm' hG
      rw [cpFree_iff] at this
      rw [e, ← hpp _ _ hG dk]; exact this _ dk
  have hlamL := hmc' lam ℓ hll
  have hpgc : ∀ vh, (∀ m, m < c.gpb → β * c.ppb + m * c.ppc + c.ppc ≤ vh → m < gi ∨ (m = ℓ ∧ ¬ 1 < trailFree c n (β % c.numBlocks * c.ppb + ℓ * c.ppc) c.ppc 0)) →
      ∀ g, g % c.ppc = 0 → g / c.ppb = β → g + c.ppc ≤ vh →
      ¬ (n.chip.free (c.ph (g + c.ppc - 2)) = true ∧ n.chip.free (c.ph (g + c.ppc - 1)) = true) := by
    intro vh hvh g h1 h2 h3
    have dv := div_mod_range g c.ppb
    have dm := div_mod_range (g % c.ppb) c.ppc
    have dl := mod_ppb_lt c g
    rw [h2] at dv
    rw [mod_mod_ppc hc, h1] at dm
    have e : g = β * c.ppb + g % c.ppb / c.ppc * c.ppc := by omega
    have hG : g % c.ppb / c.ppc < c.gpb := by
      rw [Nat.div_lt_iff_lt_mul (ppc_pos c), hPG]; exact dl
    rw [e, show β * c.ppb + g % c.ppb / c.ppc * c.ppc + c.ppc - 2 = β * c.ppb + g % c.ppb / c.ppc * c.ppc + (c.ppc - 2) by omega,
      show β * c.ppb + g % c.ppb / c.ppc * c.ppc + c.ppc - 1 = β * c.ppb + g % c.ppb / c.ppc * c.ppc + (c.ppc - 1) by omega]
    rcases hvh _ hG (by omega) with hm | ⟨hm, ht⟩
    · exact hU2 _ hm
    · rw [hm]
      intro hh
      exact ht (t3.2 ⟨by omega, hh⟩)
  have vlt : ∀ m m', ¬ m * c.ppc + c.ppc ≤ m' * c.ppc → m' ≤ m := by
    intro m m' h
    apply Classical.byContradiction; intro hn
    exact h (hmc m m' (by omega))
  have hpl : ∀ v, v / c.ppb = β → v / c.pages = β / c.numBlocks := fun v h => by rw [pages_div, h]
  by_cases hc1 : 1 < trailFree c n (β % c.numBlocks * c.ppb + ℓ * c.ppc) c.ppc 0
  · -- the head is inside group ℓ
    have hlgi : ℓ = gi := by
      rcases hcase with h | h
      · exact h
      · exact absurd (t3.1 hc1).2 (hU2 ℓ (by omega))
    have hcl : trailFree c n (β % c.numBlocks * c.ppb + ℓ * c.ppc) c.ppc 0 < c.ppc := by
      apply Classical.byContradiction; intro hn
      have := t4.1 (by omega)
      rw [hu ℓ (Nat.le_refl _)] at this; cases this
    have hst := (st c.ppb).1 hc1
    generalize trailFree c n (β % c.numBlocks * c.ppb + ℓ * c.ppc) c.ppc 0 = cnt at hc1 hcl hst t1 t2 hpgc
    obtain ⟨q1, q2, q3⟩ := hpos ℓ (c.ppc - cnt) hlG (by omega)
    obtain ⟨j', h1, h2, h2'⟩ := fnd vtc (β * c.ppb + ℓ * c.ppc + (c.ppc - cnt)) _ _ ⟨_, (by rw [hpl _ q2]), hst⟩
    refine ⟨j', vtc, _, h1, h2, ?_, h2'⟩
    have hz := (div_add_lt (v := β * c.ppb + ℓ * c.ppc) (k := c.ppc - cnt) (m := c.ppc) (by rw [grp_mod hc]; omega)).2
    have hlamg := hmc lam ℓ (by omega)
    refine ⟨hutc, ?_, Nat.le_refl _, htcL', htct, by omega, ?_, ?_, ?_, ?_, ?_⟩
    · unfold Cfg.isU; rw [hz, grp_mod hc]; omega
    · unfold Cfg.Win; rw [q2]; omega
    · intro _
      rw [hβ]
      refine ⟨q2, hfree (c.ppc - cnt) (by omega) ?_⟩
      intro i' a1 a2
      rw [← hpp ℓ i' hlG a2]; exact t2 i' a1 a2
    · intro h0; rw [q3] at h0; omega
    · rw [hβ]
      refine hpgc _ ?_
      intro m a1 a2
      left
      rw [← hlgi]
      apply Classical.byContradiction; intro hn
      have := hmc' ℓ m (by omega)
      omega
    · intro _
      have hnf := hu ℓ (Nat.le_refl _)
      apply Classical.byContradiction
      intro hn
      have : cpFree c n (β % c.numBlocks * c.ppb + ℓ * c.ppc) = true := by
        rw [cpFree_iff]
        intro i hi
        rw [hpp ℓ i hlG hi]
        have he : (β * c.ppb + ℓ * c.ppc + i) / c.ppc = (β * c.ppb + ℓ * c.ppc + (c.ppc - cnt)) / c.ppc := by
          rw [(div_add_lt (v := β * c.ppb + ℓ * c.ppc) (k := i) (m := c.ppc) (by rw [grp_mod hc]; omega)).1,
            (div_add_lt (v := β * c.ppb + ℓ * c.ppc) (k := c.ppc - cnt) (m := c.ppc) (by rw [grp_mod hc]; omega)).1]
        cases hx : n.chip.free (c.ph (β * c.ppb + ℓ * c.ppc + i)) with
        | true => rfl
        | false => exact absurd ⟨_, he, hx⟩ hn
      rw [hnf] at this; cases this
  · by_cases hc2 : ℓ + 1 < c.gpb
    · -- the head is at the start of the next group
      have hst := (st c.ppb).2.1 hc1 hc2
      have hst2 := findHeadLoop_step hc (n := n) (β := β) (vtc := vtc) hc2 { j5 with head := c.ph (β * c.ppb + (ℓ + 1) * c.ppc) }
        ⟨0, by omega, rfl⟩ f1 (by omega) (by omega) f2 (c.ppb - 1)
      have hcn : trailFree c n (c.ph (β * c.ppb + (ℓ + 1) * c.ppc)) c.ppc 0 = c.ppc :=
        (trailFree_grp c n _).2.2.2.2 (by rw [hgpos _ hc2]; exact hf (ℓ + 1) (by omega) hc2)
      simp only at hst2
      rw [hcn] at hst2
      have hst3 := hst2.1 (by omega)
      rw [show c.ppb - 1 + 1 = c.ppb by omega, Nat.sub_self, Nat.add_zero] at hst3
      simp only at hst
      rw [hst3] at hst
      obtain ⟨q1, q2, q3⟩ := hpos (ℓ + 1) 0 hc2 (by omega)
      simp only [Nat.add_zero] at q1 q2 q3
      have e1 : (ℓ + 1) * c.ppc = ℓ * c.ppc + c.ppc := by rw [Nat.add_mul, Nat.one_mul]
      obtain ⟨j', h1, h2, h2'⟩ := fnd vtc (β * c.ppb + (ℓ + 1) * c.ppc) _ _ ⟨_, (by rw [hpl _ q2]), hst⟩
      refine ⟨j', vtc, _, h1, h2, ?_, h2'⟩
      refine ⟨hutc, ?_, Nat.le_refl _, htcL', htct, by omega, ?_, ?_, ?_, ?_, fun h => absurd (grp_mod hc _ _) h⟩
      · unfold Cfg.isU; rw [grp_mod hc]; omega
      · unfold Cfg.Win; rw [q2]; omega
      · intro _
        rw [hβ]
        refine ⟨q2, ?_⟩
        have := hfree c.ppc (Nat.le_refl _) (fun i' a1 a2 => by omega)
        rw [e1, ← Nat.add_assoc]; exact this
      · intro h0; rw [q3] at h0; omega
      · rw [hβ]
        refine hpgc _ ?_
        intro m a1 a2
        by_cases hm : m = ℓ
        · exact Or.inr ⟨hm, hc1⟩
        · left
          have : m ≤ ℓ := vlt ℓ m (by intro h; omega)
          omega
    · -- the head is at the start of the next block
      have hlG' : ℓ + 1 = c.gpb := by omega
      have hGm : c.gpb * c.ppc = ℓ * c.ppc + c.ppc := by rw [← hlG', Nat.add_mul, Nat.one_mul]
      have hwin : c.Win vts ((β + 1) * c.ppb) := by
        rcases hs2 with h | ⟨h1, h2, h3⟩
        · exact h
        · exfalso
          rw [Nat.add_mul, Nat.one_mul, hgi] at h1
          rcases hcase with h | h
          · refine hc1 (t3.2 ⟨by omega, ?_⟩)
            rw [h, ← show γ + c.ppc - 2 = β * c.ppb + gi * c.ppc + (c.ppc - 2) by omega,
              ← show γ + c.ppc - 1 = β * c.ppb + gi * c.ppc + (c.ppc - 1) by omega]
            exact ⟨h2, h3⟩
          · rw [← h, hlG'] at h1; omega
      obtain ⟨x, y, hst⟩ := (st c.ppb).2.2 hc1 hlG'
      have hb1 : (β + 1) * c.ppb / c.ppb = β + 1 := Nat.mul_div_cancel _ hP
      have e1 : (β + 1) * c.ppb = β * c.ppb + c.ppb := by rw [Nat.add_mul, Nat.one_mul]
      obtain ⟨j', h1, h2, h2'⟩ := fnd _ ((β + 1) * c.ppb) _ _ ⟨_, (by rw [pages_div, hb1]), hst⟩
      have hpgB := hpgc ((β + 1) * c.ppb) (by
        intro m a1 a2
        by_cases hm : m = ℓ
        · exact Or.inr ⟨hm, hc1⟩
        · left; omega)
      have hz : (β + 1) * c.ppb % c.ppb = 0 := Nat.mul_mod_left _ _
      have hzc : (β + 1) * c.ppb % c.ppc = 0 := by rw [← mod_mod_ppc hc, hz]; exact Nat.zero_mod _
      refine ⟨j', _, _, h1, h2, ?_, h2'⟩
      unfold Cfg.Win at hwin
      rw [hb1] at hwin
      by_cases hw : β + 1 = vtc / c.ppb + c.numBlocks
      · rw [if_pos hw]
        have hx : (vtc / c.ppb + 1) * c.ppb ≤ vts := next_le (c := c) (v := vtc) (w := vts) (by omega)
        have hx2 : (vtc / c.ppb + 1) * c.ppb ≤ vL := next_le (c := c) (v := vtc) (w := vL) (by omega)
        refine ⟨isU_of_aligned hc (Nat.mul_mod_left _ _), isU_of_aligned hc hz, Nat.le_of_lt (lt_next_blk c vtc), hx2, hx, by omega, ?_, ?_, ?_, ?_, fun h => absurd hzc h⟩
        · unfold Cfg.Win; rw [hb1, Nat.mul_div_cancel _ hP]; omega
        · intro h0; exact absurd hz h0
        · intro _; rw [hβ]
        · rw [hβ]; exact hpgB
      · rw [if_neg hw]
        refine ⟨hutc, isU_of_aligned hc hz, Nat.le_refl _, htcL', htct, by omega, ?_, ?_, ?_, ?_, fun h => absurd hzc h⟩
        · unfold Cfg.Win; rw [hb1]; omega
        · intro h0; exact absurd hz h0
        · intro _; rw [hβ]
        · rw [hβ]; exact hpgB

end Dhara

/-
The claims of Disk.lean are kept by everything the map does (an instance of the hook of Inv2.lean).
-/
import Verif.Proofs.Disk
namespace Dhara

variable {c : Cfg}

/-- What may be made persistent (contents and sector count), up to a chip state. -/
abbrev Wt := (Nat → Option Buf) → Nat → Nand → Prop

/-- With nothing unsaved, the tree in use is the one of the last checkpoint. -/
def Clean (c : Cfg) (s : S) (vL vr : Nat) (_ : Nat → Option Buf) : Prop :=
  s.j.dirty = false → s.j.root = c.ph vL ∧ vr = vL ∧ ∀ x, Used (mtC c s.n.chip) (c.ph vL) x → mtOf c s x = mtC c s.n.chip x

/-- The persistent contents: nothing yet, or those of the last checkpoint. -/
def Dk (c : Cfg) (W : Wt) (s : S) (vts vh vr B : Nat) : Prop :=
  (B = 0 ∧ W (fun _ => none) 0 s.n ∧ (s.j.dirty = false → s.j.root = NONE)) ∨
  ∃ vL vtc σ k, B = vL / c.ppb + 1 ∧ LPs c s.n.chip vts vh vL vtc σ k ∧ W σ k s.n ∧ Clean c s vL vr σ

/-- Normal operation. -/
def DNorm (c : Cfg) (t0 : Nat) (W : Wt) (s : S) (vts vh vr : Nat) : Prop :=
  t0 ≤ s.n.time ∧ (TwoGood c (gd s.n.chip) → ∃ B, FP c (gd s.n.chip) s.n.chip B vh ∧ Dk c W s vts vh vr B)

/-- How the block of the last checkpoint was left: groups before `γ` have been used, groups after `γ`
have not. -/
structure CG (c : Cfg) (ch : Chip) (vts vL γ : Nat) : Prop where
  al : γ % c.ppc = 0
  le : γ ≤ (vL / c.ppb + 1) * c.ppb
  free : ∀ v, γ + c.ppc ≤ v → v / c.ppb = vL / c.ppb → ch.free (c.ph v) = true
  s2 : c.Win vts ((vL / c.ppb + 1) * c.ppb) ∨ (γ < (vL / c.ppb + 1) * c.ppb ∧
    ch.free (c.ph (γ + c.ppc - 2)) = true ∧ ch.free (c.ph (γ + c.ppc - 1)) = true)

/-- What the chip holds after a power failure. -/
def CDisk (c : Cfg) (ch : Chip) (W : (Nat → Option Buf) → Nat → Prop) : Prop :=
  ∃ B, EP c (gd ch) ch B ∧ ((B = 0 ∧ W (fun _ => none) 0) ∨
    ∃ vts vL vtc σ k γ, B = vL / c.ppb + 1 ∧ LPs c ch vts γ vL vtc σ k ∧ W σ k ∧ CG c ch vts vL γ)

/-- Pages garbled by a failed or torn operation never look like a checkpoint. -/
def JunkOk (c : Cfg) : Prop :=
  ∀ t p b, p % c.ppc = c.ppc - 1 → c.env.junk t p = some b → hdrHasMagic b = false

/-- With the head inside a block, the root is in that block. -/
def RootBlk (c : Cfg) (s : S) (vh vr : Nat) : Prop :=
  s.j.root ≠ NONE → vh % c.ppb ≠ 0 → vr / c.ppb = vh / c.ppb

/-- Blocks neither marked bad nor about to be by the recovery going on. -/
def goodR (c : Cfg) (s : S) (vR vM : Nat) (k : Nat) : Prop := gd s.n.chip k ∧ ¬ retires c s vR vM k

/-- During a recovery. -/
def DRec (c : Cfg) (t0 : Nat) (s : S) (vh vR vM : Nat) : Prop :=
  Noisy c t0 s.n.time ∧ (TwoGood c (goodR c s vR vM) → ∃ B, FP c (goodR c s vR vM) s.n.chip B vh)

/-- The hook. -/
def Gh.disk (c : Cfg) (t t0 : Nat) (W : Wt) : Gh c :=
  ⟨t, W, fun s vts _ vh vr => DNorm c t0 W s vts vh vr ∧ RootBlk c s vh vr, fun s _ _ vh vR vM => DRec c t0 s vh vR vM,
    fun s => (¬ Noisy c t0 s.n.time ∨ ¬ Recovering s) → TwoGood c (gd s.n.chip) → CDisk c s.n.chip (fun σ k => W σ k s.n), fun _ _ _ => True⟩

theorem PT.retail {ch : Chip} {vts vts' vL : Nat} {σ : Nat → Option Buf} (h : PT c ch vts vL σ)
    (hl : ∀ x, Used (mtC c ch) (c.ph vL) x → ∃ v, x = c.ph v ∧ c.isU v ∧ v ≤ vL ∧ (vts' ≤ v ∨ v = vL)) :
    PT c ch vts' vL σ := by
  refine ⟨h.ok, ?_, h.emp, h.holds⟩
  intro x hx
  obtain ⟨v, h1, h2, h3, h4⟩ := hl x hx
  obtain ⟨_, _, _, _, _, hb⟩ := h.live x hx
  exact ⟨v, h1, h2, h3, h4, hb⟩

theorem last_isU (hc : c.Valid) {v : Nat} (h : c.last v) : c.isU v := by
  have := hc.ppc_ge
  unfold Cfg.isU; unfold Cfg.last at h; omega

/-- A tree with no contents has only its root page. -/
theorem PT.only {ch : Chip} {vts vL : Nat} {σ : Nat → Option Buf} (h : PT c ch vts vL σ)
    (hn : ∀ t, t < NONE → σ t = none) {x : Nat} (hx : Used (mtC c ch) (c.ph vL) x) : x = c.ph vL := by
  rcases hx.2 with h1 | ⟨rx, h1, h2, h3⟩
  · exact h1
  · obtain ⟨b, _, _, h4⟩ := h.holds _ _ h2 h3
    rw [hn _ h2] at h4; cases h4

theorem used_of_agree {mt mt' : Mt} {root x : Nat} (hT : TreeOK mt root)
    (hf : ∀ x, Used mt root x → mt' x = mt x) (hx : Used mt root x) : Used mt' root x := by
  obtain ⟨_, t2, _⟩ := tree_frame hT hf
  have := hf x hx
  refine ⟨hx.1, ?_⟩
  rcases hx.2 with h | ⟨rx, h1, h2, h3⟩
  · exact Or.inl h
  · exact Or.inr ⟨rx, by rw [this]; exact h1, h2, by rw [t2]; exact h3⟩

/-- The head has left the block of the last checkpoint. -/
theorem cg_left (hc : c.Valid) {ch : Chip} {vts vL hi : Nat} (hw : c.Win vts hi) (hlt : vL / c.ppb < hi / c.ppb) :
    CG c ch vts vL ((vL / c.ppb + 1) * c.ppb) := by
  refine ⟨mod_ppc_of_ppb_zero hc (Nat.mul_mod_left _ _), Nat.le_refl _, ?_, Or.inl ?_⟩
  · intro v h1 h2
    have := Nat.div_le_div_right (c := c.ppb) (by omega : (vL / c.ppb + 1) * c.ppb ≤ v)
    rw [Nat.mul_div_cancel _ (ppb_pos c)] at this; omega
  · unfold Cfg.Win at *
    rw [Nat.mul_div_cancel _ (ppb_pos c)]; omega

theorem next_le {v w : Nat} (h : v / c.ppb < w / c.ppb) : (v / c.ppb + 1) * c.ppb ≤ w := by
  have h' : v / c.ppb + 1 ≤ w / c.ppb := h
  have := Nat.mul_le_mul_right c.ppb h'
  have := Nat.div_mul_le_self w c.ppb
  omega

theorem blk_lt_next (hc : c.Valid) {vL : Nat} (hl : c.last vL) : vL + 2 ≤ (vL / c.ppb + 1) * c.ppb := by
  obtain ⟨e1, e2, e3, e4, e5, e6, e7⟩ := is_last hc hl
  have h := nextV_blk hc (last_isU hc hl)
  rw [e1] at h
  have d := div_mod_range (vL + 2) c.ppb
  rcases h with ⟨h, _⟩ | ⟨h, h'⟩
  · have := lt_next_blk c (vL + 2); rw [h] at this; omega
  · rw [h, h'] at d; omega

/-- How the block of the last checkpoint is left when power fails between pushes. -/
theorem lp0_off (hc : c.Valid) {s : S} {vts vt vh vL vtc k : Nat} (g : Geo c s vts vt vh)
    (hL : LP0 c s.n.chip vts vh vL vtc k) : ∃ γ, LP0 c s.n.chip vts γ vL vtc k ∧ CG c s.n.chip vts vL γ := by
  have h4 := hc.ppc_ge
  have hlt := hL.lt
  have hble := Nat.div_le_div_right (c := c.ppb) (by omega : vL ≤ vh)
  by_cases hb : vL / c.ppb = vh / c.ppb
  · have hv : vh % c.ppb ≠ 0 := by
      intro hv
      have := blk_lt_aligned (c := c) (v := vL) (w := vh) (by omega) hv; omega
    have hok := g.hfree hv
    have d0 := div_mod_range vh c.ppc
    have hml := mod_ppc_lt c vh
    have huh := g.uh
    unfold Cfg.isU at huh
    have hal : vh / c.ppc * c.ppc % c.ppc = 0 := Nat.mul_mod_left _ _
    have hgb : vh / c.ppc * c.ppc / c.ppb = vh / c.ppb := by
      have := grp_end_blk hc hal hml
      rw [← d0] at this; exact this.symm
    have hfr : ∀ v, vh ≤ v → v / c.ppb = vh / c.ppb → s.n.chip.free (c.ph v) = true := by
      intro v h1 h2
      have := hok.2 (v % c.ppb) (by
        have d1 := div_mod_range v c.ppb
        have d2 := div_mod_range vh c.ppb
        rw [h2] at d1; omega) (mod_ppb_lt c v)
      rw [ph_div_ppb, ← h2, ← ph_div_ppb, ← ph_mod_ppb, ← div_mod_range] at this
      exact this
    have hx := lt_next_blk c vh
    refine ⟨vh / c.ppc * c.ppc, ?_, ?_⟩
    · refine (hL.frame hc (fun _ _ _ => ⟨rfl, rfl⟩) (fun _ _ _ h => h) (fun _ _ _ _ _ h => h) ?_ (fun g _ _ h1 h2 => by omega)).1
      have e := (is_last hc hL.last).2.1
      apply Classical.byContradiction; intro hn
      have d1 := div_mod_range (vL + 2) c.ppc
      rw [e] at d1
      have := Nat.div_le_div_right (c := c.ppc) hlt
      have := Nat.mul_le_mul_right c.ppc this
      omega
    · refine ⟨hal, by rw [hb]; omega, ?_, Or.inr ⟨by rw [hb]; omega, ?_, ?_⟩⟩
      · intro v h1 h2
        exact hfr v (by omega) (by omega)
      · apply hfr _ (by omega)
        rw [show vh / c.ppc * c.ppc + c.ppc - 2 = vh / c.ppc * c.ppc + (c.ppc - 2) by omega, grp_end_blk hc hal (by omega), hgb]
      · apply hfr _ (by omega)
        rw [show vh / c.ppc * c.ppc + c.ppc - 1 = vh / c.ppc * c.ppc + (c.ppc - 1) by omega, grp_end_blk hc hal (by omega), hgb]
  · have hle := next_le (c := c) (v := vL) (w := vh) (by omega)
    refine ⟨(vL / c.ppb + 1) * c.ppb, ?_, cg_left hc g.win (by omega)⟩
    exact (hL.frame hc (fun _ _ _ => ⟨rfl, rfl⟩) (fun _ _ _ h => h) (fun _ _ _ _ _ h => h) (blk_lt_next hc hL.last)
      (fun g _ _ h1 h2 => by omega)).1

theorem lps_off (hc : c.Valid) {s : S} {vts vt vh vL vtc k : Nat} {σ : Nat → Option Buf} (g : Geo c s vts vt vh)
    (hL : LPs c s.n.chip vts vh vL vtc σ k) : ∃ γ, LPs c s.n.chip vts γ vL vtc σ k ∧ CG c s.n.chip vts vL γ := by
  obtain ⟨γ, h1, h2⟩ := lp0_off hc g hL.toLP0
  exact ⟨γ, ⟨h1, hL.pt⟩, h2⟩

/-- Power fails while nothing is being written. -/
theorem dnorm_off (hc : c.Valid) {t0 : Nat} {W : Wt} {s : S} {n : Nand} {vts vt vh vr : Nat} (g : Geo c s vts vt vh)
    (h : DNorm c t0 W s vts vh vr) (hch : s.n.chip = n.chip) (hW : ∀ σ k, W σ k s.n → W σ k n)
    (h2 : TwoGood c (gd n.chip)) : CDisk c n.chip (fun σ k => W σ k n) := by
  rw [← hch] at h2 ⊢
  obtain ⟨B, hf, hd⟩ := h.2 h2
  refine ⟨B, hf.ep, ?_⟩
  rcases hd with ⟨h0, hw, _⟩ | ⟨vL, vtc, σ, k, hB, hL, hw, _⟩
  · exact Or.inl ⟨h0, hW _ _ hw⟩
  · right
    obtain ⟨γ, h1, h3⟩ := lps_off hc g hL
    exact ⟨vts, vL, vtc, σ, k, γ, hB, h1, hW _ _ hw, h3⟩

theorem disk_twin (hc : c.Valid) {t t0 : Nat} {W : Wt} (hWm : ∀ σ k n n', W σ k n → Evo c n n' → W σ k n')
    {s s' : S} {σ : Nat → Option Buf} {vts vt vh vr : Nat} (hI : Inv0 c s σ (Gh.disk c t t0 W) vts vt vh vr)
    (hch : s.n.chip = s'.n.chip) (hE : Evo c s.n s'.n) : (Gh.disk c t t0 W).X s' := by
  intro _ h2
  exact dnorm_off hc hI.geo hI.ext.1 hch (fun _ _ h => hWm _ _ _ _ h hE) h2

theorem not_gd {ch : Chip} {k : Nat} (h : ch.bad k = true) : ¬ gd ch k := by
  intro h'; unfold gd at h'; rw [h] at h'; cases h'

theorem gd_mono {ch ch' : Chip} (h : ∀ k, ch.bad k = true → ch'.bad k = true) : ∀ k, gd ch' k → gd ch k := by
  intro k hk
  unfold gd at *
  cases hb : ch.bad k with
  | false => rfl
  | true => rw [h k hb] at hk; cases hk

/-- A push that succeeded is a step. -/
theorem PushOk.stp {s s' : S} {m : Option Buf} {Pd : S → Option Buf → Prop} {vts vt vh vq vR vM : Nat}
    (h : PushOk c s s' m Pd vts vt vh vq vR vM) (hnf : ¬ finishes c s vq) :
    Stp c (gd s.n.chip) (gd s'.n.chip) s.n.chip s'.n.chip vh vq ∧
      ∀ k, s'.n.chip.bad k = true → s.n.chip.bad k = true ∨ inBlks c (vh / c.ppb) (vq / c.ppb) k := by
  have ho : ∀ p, (∀ b, vh / c.ppb ≤ b → b ≤ vq / c.ppb → p / c.ppb ≠ b % c.numBlocks) → Outside c vh vq p :=
    fun p hp b h1 h2 he => absurd he (hp b h1 h2)
  refine ⟨⟨h.le, h.mv, h.uq, fun p hp => ⟨h.keep.page p (ho p hp), h.keep.free p (ho p hp)⟩,
    fun b h1 h2 => not_gd (h.skip b h1 h2), gd_mono h.keep.badm, h.rest, h.atq⟩, ?_⟩
  intro k hk
  rcases h.keep.badn k hk with h' | h' | h'
  · exact Or.inl h'
  · exact Or.inr h'
  · exact absurd h'.1 hnf

theorem not_dirty_none {b : Bool} (h : b = true) {p : Prop} : b = false → p := by
  intro h'; rw [h] at h'; cases h'

theorem mtOf_mtC (hc : c.Valid) {s : S} {lo v vh : Nat} (hh : s.j.head = c.ph vh) (hr : s.j.recoverMeta = NONE)
    (hw : c.Win lo vh) (h1 : lo ≤ v) (h2 : v ≤ vh) (hg : v / c.ppc ≠ vh / c.ppc) :
    mtOf c s (c.ph v) = mtC c s.n.chip (c.ph v) := by
  unfold mtOf
  rw [metaBuf_cp hc hh hw h1 h2 hg (Or.inl hr), mtC_ph hc]

/-- A tree all of whose metadata has been written is persistent. -/
theorem Tr.persist (hc : c.Valid) {s : S} {vts vt vq : Nat} {σ : Nat → Option Buf}
    (h : Tr c s s.j.root vt vq (c.nextV vq) σ) (hroot : s.j.root = c.ph vq) (hh : s.j.head = c.ph (c.nextV vq))
    (hr : s.j.recoverMeta = NONE) (hw : c.Win vts (c.nextV vq)) (hts : vts ≤ vt) (hl : c.last vq) :
    PT c s.n.chip vt vq σ ∧ ∀ x, Used (mtC c s.n.chip) (c.ph vq) x → mtOf c s x = mtC c s.n.chip x := by
  obtain ⟨e1, e2, e3, _⟩ := is_last hc hl
  have hf : ∀ x, Used (mtOf c s) s.j.root x → mtC c s.n.chip x = mtOf c s x := by
    intro x hx
    obtain ⟨v, h1, h2, h3, _⟩ := h.live x hx
    rw [h1]
    refine (mtOf_mtC hc hh hr hw (by omega) (by have := lt_nextV c vq; omega) ?_).symm
    have := Nat.div_le_div_right (c := c.ppc) h3
    rw [e1]; omega
  obtain ⟨t1, t2, t3⟩ := tree_frame h.ok hf
  rw [hroot] at t1 t2 t3
  refine ⟨⟨t1, ?_, ?_, ?_⟩, fun x hx => (hf x (by rw [hroot]; exact t3 x hx)).symm⟩
  · intro x hx
    obtain ⟨v, h1, h2, h3, h4, h5⟩ := h.live x (by rw [hroot]; exact t3 x hx)
    exact ⟨v, h1, h4, h3, Or.inl h2, h5⟩
  · intro t ht hd; rw [t2] at hd; exact h.emp t ht (by rw [hroot]; exact hd)
  · intro t q ht hd; rw [t2] at hd; exact h.holds t q ht (by rw [hroot]; exact hd)

theorem vq_lt_of_pos {good good' : Nat → Prop} {ch ch' : Chip} {vh vq B : Nat} (hs : Stp c good good' ch ch' vh vq)
    (hp : Pos c good B vh) (h2 : TwoGood c good') :
    vq / c.ppb + 1 < B + c.numBlocks ∨ B = 0 := by
  refine Pos.lt (good := good') ⟨hp.le, fun b x y hg => hp.gap b x y (hs.gd _ hg), hp.lo, hp.hi⟩ h2 hs.le
    (fun b x y hg => hs.skip b x y hg) ?_
  intro hB
  rcases hs.mv with h | ⟨h, _⟩
  · rw [h]
  · have := hp.hi hB; have := ppc_pos c; omega

/-- Blocks and epochs after a completed group. -/
theorem fp_last (hc : c.Valid) {good good' : Nat → Prop} {ch ch' : Chip} {vh vq B vt k : Nat}
    (hs : Stp c good good' ch ch' vh vq) (hf : FP c good ch B vh) (h2 : TwoGood c good')
    (hgood : good' (vq / c.ppb % c.numBlocks))
    (hcp : ∃ b, ch'.page (c.ph (vq + 1)) = some b ∧ CpPage b (UInt8.ofNat (vq / c.pages)) (c.ph vt) k)
    (hnf : ch'.free (c.ph (vq + 1)) = false) (hl : c.last vq) :
    FP c good' ch' (vq / c.ppb + 1) (c.nextV vq) := by
  have h4 := hc.ppc_ge
  obtain ⟨e1, e2, e3, e4, e5, e6, e7⟩ := is_last hc hl
  have hv : vh % c.ppb ≠ 0 := fun hv => e7 (hs.q0 hv)
  have hq := hs.qh hv
  have hhb := hs.hb_last hc hf.hb hl hnf
  have hsz : vq / c.pages = vq / c.ppb / c.numBlocks := by
    rw [Nat.div_div_eq_div_mul, Nat.mul_comm]; rfl
  have hep : EP c good' ch' (vq / c.ppb + 1) := by
    by_cases hB : B = vq / c.ppb + 1
    · rw [← hB]
      exact hs.ep hc h2 hf (fun _ hn => absurd hB hn)
    · have hB' : B ≤ vq / c.ppb := by have := hf.pos.le; rw [← hq] at this; omega
      have hlo := hf.pos.lo (by rw [← hq]; exact hB')
      rw [← hq] at hlo
      have hm := mod_mod_ppc hc vq
      rw [Nat.mod_eq_of_lt hlo] at hm
      have e : c.fcp (vq / c.ppb) = c.ph (vq + 1) := by
        unfold Cfg.fcp
        congr 1
        have d1 := div_mod_range vq c.ppb
        unfold Cfg.last at hl; omega
      refine (hf.ep.mono hc hs.gd h2).commit hc h2 hB' hgood
        (fun b x y => hs.gap hf.pos b x y) ?_ (fun b x y => hs.fcp_out hc x y)
      obtain ⟨b, hb1, hb2⟩ := hcp
      rw [e]
      exact ⟨b, hb1, hb2.magic, by rw [hb2.epoch, hsz]⟩
  exact ⟨hep, by rw [e1]; exact Stp.pos_last hc hl, by rw [e1]; exact hhb⟩

/-- A completed group: its checkpoint is now the last one. -/
theorem commit_lp0 (hc : c.Valid) {good : Nat → Prop} {ch : Chip} {s' : S} {vts vt vh vq B k : Nat}
    (hs : Stp c good (gd s'.n.chip) ch s'.n.chip vh vq) (hf : FP c good ch B vh) (h2 : TwoGood c (gd s'.n.chip))
    (hgood : s'.n.chip.bad (c.ph vq / c.ppb) = false)
    (hcp : ∃ b, s'.n.chip.page (c.ph (vq + 1)) = some b ∧ CpPage b (UInt8.ofNat (vq / c.pages)) (c.ph vt) k)
    (hnf : s'.n.chip.free (c.ph (vq + 1)) = false)
    (hw : c.Win vts (c.nextV vq)) (hts : vts ≤ vt) (hut : c.isU vt) (hle : vt ≤ vq)
    (hl : c.last vq) :
    FP c (gd s'.n.chip) s'.n.chip (vq / c.ppb + 1) (c.nextV vq) ∧ LP0 c s'.n.chip vt (c.nextV vq) vq vt k := by
  have h4 := hc.ppc_ge
  have hN := hc.blocks_lo
  obtain ⟨e1, e2, e3, e4, e5, e6, e7⟩ := is_last hc hl
  have hv : vh % c.ppb ≠ 0 := fun hv => e7 (hs.q0 hv)
  have hq := hs.qh hv
  have hhb := hs.hb_last hc hf.hb hl hnf
  refine ⟨fp_last hc hs hf h2 (by unfold gd; rw [← ph_div_ppb]; exact hgood) hcp hnf hl, ?_⟩
  · refine ⟨hl, by rw [e1]; exact Nat.le_refl _, hgood, hcp, hut, hle, Nat.le_refl _, ?_, ?_, ?_⟩
    · unfold Cfg.Win at hw
      have := Nat.div_le_div_right (c := c.ppb) hts
      have := Nat.div_le_div_right (c := c.ppb) (Nat.le_of_lt (lt_nextV c vq))
      omega
    · intro v h1 h2' h3 e he
      have hz : (vq + 2) % c.ppb ≠ 0 := by
        intro hz
        have := nextV_blk hc hs.uq
        rw [e1] at this
        rcases this with h | h
        · exact h.2 hz
        · have := Nat.div_le_div_right (c := c.ppb) h1; omega
      have hb : (vq + 2) / c.ppb = vq / c.ppb := by
        have := nextV_blk hc hs.uq
        rw [e1] at this
        rcases this with h | h
        · exact h.1
        · exact absurd h.2 hz
      exact hhb.nm hz v h1 (by rw [hb]; exact h2') h3 e he
    · intro g h1 h2' h3
      rw [e1] at h3
      by_cases hge : g + c.ppc = vq + 2
      · rintro ⟨_, hx⟩
        rw [show g + c.ppc - 1 = vq + 1 by omega, hnf] at hx; cases hx
      · -- an earlier group of the block
        have hg : g + c.ppc ≤ vq := by
          apply Classical.byContradiction; intro hn
          have : vq + 1 = g + c.ppc := by omega
          have h5 := (div_add_lt (v := vq) (k := 1) (m := c.ppc) (by unfold Cfg.last at hl; omega)).2
          rw [this, Nat.add_mod_right, h1] at h5; omega
        have hinj : ∀ v w, v / c.ppb = vq / c.ppb → w / c.ppb = vq / c.ppb → c.ph v = c.ph w → v = w := by
          intro v w h1 h2 h3
          exact ph_inj_lap (lo := vq / c.ppb) (by omega) (by omega) (by omega) (by omega) h3
        have key2 : ∀ i, i < c.ppc → s'.n.chip.free (c.ph (g + i)) = ch.free (c.ph (g + i)) := by
          intro i hi
          have hb : (g + i) / c.ppb = vq / c.ppb := by rw [grp_end_blk hc h1 hi, h2']
          exact (hs.atq hv _ (fun hh => by have := hinj _ _ hb rfl hh; omega)
            (fun _ hh => by have := hinj _ _ hb e5 hh; omega)).2
        have := hf.hb.pg hv g h1 (by rw [← hq]; exact h2') (by omega)
        rw [show g + c.ppc - 2 = g + (c.ppc - 2) by omega, show g + c.ppc - 1 = g + (c.ppc - 1) by omega] at this ⊢
        rw [key2 _ (by omega), key2 _ (by omega)]; exact this

theorem commit_step (hc : c.Valid) {W : Wt} {good : Nat → Prop} {ch : Chip} {s' : S} {σ' : Nat → Option Buf} {vts vt vh vq B k : Nat}
    (hs : Stp c good (gd s'.n.chip) ch s'.n.chip vh vq) (hf : FP c good ch B vh) (h2 : TwoGood c (gd s'.n.chip))
    (hgood : s'.n.chip.bad (c.ph vq / c.ppb) = false)
    (hcp : ∃ b, s'.n.chip.page (c.ph (vq + 1)) = some b ∧ CpPage b (UInt8.ofNat (vq / c.pages)) (c.ph vt) k)
    (hnf : s'.n.chip.free (c.ph (vq + 1)) = false)
    (hroot : s'.j.root = c.ph vq) (hh : s'.j.head = c.ph (c.nextV vq)) (hrm : s'.j.recoverMeta = NONE)
    (hw : c.Win vts (c.nextV vq)) (hts : vts ≤ vt) (hut : c.isU vt) (hle : vt ≤ vq)
    (hT : Tr c s' s'.j.root vt vq (c.nextV vq) σ') (hW : W σ' k s'.n) (hl : c.last vq) :
    FP c (gd s'.n.chip) s'.n.chip (vq / c.ppb + 1) (c.nextV vq) ∧ Dk c W s' vt (c.nextV vq) vq (vq / c.ppb + 1) := by
  obtain ⟨h1, h3⟩ := commit_lp0 hc hs hf h2 hgood hcp hnf hw hts hut hle hl
  obtain ⟨h4, h5⟩ := hT.persist hc hroot hh hrm hw hts hl
  exact ⟨h1, Or.inr ⟨vq, vt, σ', k, rfl, ⟨h3, h4⟩, hW, fun _ => ⟨hroot, rfl, h5⟩⟩⟩

/-- A page written inside a group: the last checkpoint is still the same. -/
theorem push_lp0 (hc : c.Valid) {ch ch' : Chip} {vts vh vq B : Nat} (hs : Stp c (gd ch) (gd ch') ch ch' vh vq)
    (hbn : ∀ k, ch'.bad k = true → ch.bad k = true ∨ inBlks c (vh / c.ppb) (vq / c.ppb) k)
    (hw : c.Win vts vq) (hf : FP c (gd ch) ch B vh) (h2 : TwoGood c (gd ch')) (hl : ¬ c.last vq) :
    FP c (gd ch') ch' B (c.nextV vq) ∧ ∀ vL vtc k, B = vL / c.ppb + 1 → LP0 c ch vts vh vL vtc k →
      LP0 c ch' vts (c.nextV vq) vL vtc k ∧ KeptL c ch ch' vts vh vL := by
  have h4 := hc.ppc_ge
  have hlt := vq_lt_of_pos hs hf.pos h2
  rw [(not_last hc hs.uq hl).1]
  refine ⟨⟨hs.ep hc h2 hf (fun h => absurd h hl), hs.pos_step hc hf.pos hl, hs.hb_step hc hf.hb hl⟩, ?_⟩
  intro vL vtc k hB hL
  have := hL.lt
  have := hs.le
  have hlt2 : vq / c.ppb < vL / c.ppb + c.numBlocks := by
    rcases hlt with h | h
    · omega
    · rw [hB] at h; exact absurd h (Nat.succ_ne_zero _)
  refine hL.step hc hs hbn hw hlt2 (fun h => absurd h hl) (by omega) ?_
  intro g h1 h2' h3 h5
  exfalso
  obtain ⟨x1, x2, x3, x4⟩ := not_last hc hs.uq hl
  have hg : g + c.ppc ≤ vq := by
    apply Classical.byContradiction; intro hn
    have : vq + 1 = g + c.ppc := by omega
    rw [this, Nat.add_mod_right, h1] at x2; omega
  rcases hs.mv with hq | ⟨ha, hb⟩
  · omega
  · have b1 := blk_lt_aligned (c := c) (v := vL) (w := vh) (by omega) ha
    have b2 := next_le b1
    have b3 := grp_end_blk hc h1 (i := c.ppc - 1) (by omega)
    have := Nat.div_le_div_right (c := c.ppb) (by omega : vh ≤ g + (c.ppc - 1))
    omega

theorem rootBlk_push (hc : c.Valid) {s : S} {vq : Nat} (hu : c.isU vq) : RootBlk c s (c.nextV vq) vq := by
  intro _ hv
  rcases nextV_blk hc hu with h | h
  · exact h.1.symm
  · exact absurd h.2 hv

theorem disk_push0 (hc : c.Valid) {t t0 : Nat} {W : Wt} (hWm : ∀ σ k n n', W σ k n → Evo c n n' → W σ k n')
    {s s' : S} {σ σ' : Nat → Option Buf} {m : Option Buf} {Pd : S → Option Buf → Prop}
    {vts vt vh vr vq vR vM : Nat} (hI : Inv0 c s σ (Gh.disk c t t0 W) vts vt vh vr)
    (ho : PushOk c s s' m Pd vts vt vh vq vR vM) (hT : Tr c s' s'.j.root vt vq (c.nextV vq) σ') (hcalm : Calm s')
    (hW : W σ' (r32 s.j.pageBuf 16) s'.n) (hE : Evo c s.n s'.n) :
    DNorm c t0 W s' (newTs c s vts vt vq) (c.nextV vq) vq ∧ RootBlk c s' (c.nextV vq) vq := by
  have h4 := hc.ppc_ge
  refine ⟨?_, rootBlk_push hc ho.uq⟩
  have hnf : ¬ finishes c s vq := fun hf => by have := hf.2; rw [hI.calm.ed] at this; cases this
  obtain ⟨hs, hbn⟩ := ho.stp hnf
  have hD := hI.ext.1
  refine ⟨Nat.le_trans hD.1 hE.time, fun h2 => ?_⟩
  obtain ⟨B, hf, hd⟩ := hD.2 (h2.mono hs.gd)
  by_cases hl : c.last vq
  · have hts : newTs c s vts vt vq = vt := by
      unfold newTs; rw [if_pos ⟨hl, Or.inl hI.calm.nr⟩]
    rw [hts]
    have hl2 := hI.geo.l2
    have hle := ho.le
    exact ⟨_, commit_step hc hs hf h2 ho.good (ho.cp hl) (ho.cpnf hl) ho.root ho.geo.eh hcalm.rm ho.winq hI.geo.l1 hI.geo.ut
      (by omega) hT hW hl⟩
  · have hts : newTs c s vts vt vq = vts := by
      unfold newTs; rw [if_neg (fun h => hl h.1)]
    rw [hts]
    obtain ⟨hf', hk⟩ := push_lp0 hc hs hbn (ho.winq.mono (Nat.le_refl _) (Nat.le_of_lt (lt_nextV c vq))) hf h2 hl
    refine ⟨B, hf', ?_⟩
    have hdt := ho.dirtyN hl
    rcases hd with ⟨h0, hw, _⟩ | ⟨vL, vtc, σp, k, hB, hL, hw, _⟩
    · exact Or.inl ⟨h0, hWm _ _ _ _ hw hE, not_dirty_none hdt⟩
    · obtain ⟨l1, l2⟩ := hk vL vtc k hB hL.toLP0
      exact Or.inr ⟨vL, vtc, σp, k, hB, hL.of hc l1 l2, hWm _ _ _ _ hw hE, not_dirty_none hdt⟩

end Dhara

/-
What is on the chip in normal operation and after a power failure: the last checkpoint and the tree
it makes persistent, and the marks from which it is found again.
-/
import Verif.Proofs.Epoch
namespace Dhara

variable {c : Cfg}

/-- The block is not marked bad. -/
def gd (ch : Chip) (k : Nat) : Prop := ch.bad k = false

/-- Metadata records as found on the chip alone. -/
def mtC (c : Cfg) (ch : Chip) : Mt := fun p =>
  ((ch.page (p ||| (c.ppc - 1))).map (·.slice (hdrUserOffset (p &&& (c.ppc - 1))) 132)).map recOf

theorem mtC_ph (hc : c.Valid) (ch : Chip) (v : Nat) :
    mtC c ch (c.ph v) = ((ch.page (c.ph (c.cpV v))).map (·.slice (c.slot v) 132)).map recOf := by
  unfold mtC; rw [slot_off hc, ph_cp hc]

/-- The tree at `vL` as found on the chip holds the contents `σ`; its pages are at or after `vts`. -/
structure PT (c : Cfg) (ch : Chip) (vts vL : Nat) (σ : Nat → Option Buf) : Prop where
  ok : TreeOK (mtC c ch) (c.ph vL)
  live : ∀ x, Used (mtC c ch) (c.ph vL) x →
    ∃ v, x = c.ph v ∧ c.isU v ∧ v ≤ vL ∧ (vts ≤ v ∨ v = vL) ∧ ch.bad (x / c.ppb) = false
  emp : ∀ t, t < NONE → dict (mtC c ch) (c.ph vL) t = none → σ t = none
  holds : ∀ t q, t < NONE → dict (mtC c ch) (c.ph vL) t = some q →
    ∃ b, ch.page q = some b ∧ c.clip b = b ∧ σ t = some b

/-- Two positions of one lap, starting at any block. -/
theorem ph_inj_lap {lo v w : Nat} (h1 : lo ≤ v / c.ppb) (h2 : v / c.ppb < lo + c.numBlocks)
    (h3 : lo ≤ w / c.ppb) (h4 : w / c.ppb < lo + c.numBlocks) (he : c.ph v = c.ph w) : v = w := by
  have e1 : v / c.ppb % c.numBlocks = w / c.ppb % c.numBlocks := by rw [← ph_div_ppb, ← ph_div_ppb, he]
  have e2 : v % c.ppb = w % c.ppb := by rw [← ph_mod_ppb c v, he, ph_mod_ppb]
  have e3 := mod_inj h1 h2 h3 h4 e1
  have d1 := div_mod_range v c.ppb
  have d2 := div_mod_range w c.ppb
  rw [e3] at d1; omega

theorem cp_blk (hc : c.Valid) (v : Nat) : c.cpV v / c.ppb = v / c.ppb := div_ppb_of_div_ppc hc cpV_div

theorem cpV_le (hc : c.Valid) {v vL : Nat} (hl : c.last vL) (h : v ≤ vL) : c.cpV v ≤ vL + 1 := by
  have h1 := (is_last hc hl).2.2.2.2.2.1
  by_cases hg : v / c.ppc = vL / c.ppc
  · rw [← h1]; unfold Cfg.cpV; rw [hg]; exact Nat.le_refl _
  · have := cpV_lt (c := c) (v := v) (w := vL) (by have := Nat.div_le_div_right (c := c.ppc) h; omega)
    omega

/-- The persistent tree survives a change elsewhere. -/
theorem PT.frame (hc : c.Valid) {ch ch' : Chip} {vts vts' vL : Nat} {σ : Nat → Option Buf} (h : PT c ch vts vL σ) (hl : c.last vL)
    (hp : ∀ v, v ≤ vL + 1 → (vts ≤ v ∨ vL ≤ v) → ch'.page (c.ph v) = ch.page (c.ph v))
    (hb : ∀ v, v ≤ vL → (vts ≤ v ∨ vL ≤ v) → ch.bad (c.ph v / c.ppb) = false → ch'.bad (c.ph v / c.ppb) = false)
    (hts : ∀ v, c.isU v → v ≤ vL → (vts ≤ v ∨ v = vL) → Used (mtC c ch) (c.ph vL) (c.ph v) → vts' ≤ v ∨ v = vL) :
    PT c ch' vts' vL σ ∧ ∀ x, Used (mtC c ch') (c.ph vL) x → Used (mtC c ch) (c.ph vL) x ∧ mtC c ch' x = mtC c ch x := by
  have hf : ∀ x, Used (mtC c ch) (c.ph vL) x → mtC c ch' x = mtC c ch x := by
    intro x hx
    obtain ⟨v, h1, h2, h3, h4, _⟩ := h.live x hx
    rw [h1, mtC_ph hc, mtC_ph hc, hp (c.cpV v) (cpV_le hc hl h3)]
    have := cpV_ge c v; omega
  obtain ⟨t1, t2, t3⟩ := tree_frame h.ok hf
  refine ⟨⟨t1, ?_, ?_, ?_⟩, fun x hx => ⟨t3 x hx, hf x (t3 x hx)⟩⟩
  · intro x hx
    obtain ⟨v, h1, h2, h3, h4, h5⟩ := h.live x (t3 x hx)
    have hx' := t3 x hx
    rw [h1] at h5 hx'
    exact ⟨v, h1, h2, h3, hts v h2 h3 h4 hx', by rw [h1]; exact hb v h3 (by omega) h5⟩
  · intro t ht hd; rw [t2] at hd; exact h.emp t ht hd
  · intro t q ht hd
    rw [t2] at hd
    obtain ⟨b, hb1, hb2⟩ := h.holds t q ht hd
    refine ⟨b, ?_, hb2⟩
    have hu : Used (mtC c ch) (c.ph vL) q := (dict_sound h.ok (by omega) hd).1
    obtain ⟨v, h1, h2, h3, h4, _⟩ := h.live q hu
    rw [h1] at hb1 ⊢
    rw [hp v (by omega) (by omega)]; exact hb1

/-- The last checkpoint: it closed the group of position `vL`; up to `vh` groups of its block have been
used since. -/
structure LP0 (c : Cfg) (ch : Chip) (vts vh vL vtc : Nat) (k : Nat) : Prop where
  last : c.last vL
  lt : vL + 2 ≤ vh
  good : ch.bad (c.ph vL / c.ppb) = false
  cp : ∃ b, ch.page (c.ph (vL + 1)) = some b ∧ CpPage b (UInt8.ofNat (vL / c.pages)) (c.ph vtc) k
  utc : c.isU vtc
  tcL : vtc ≤ vL
  tct : vtc ≤ vts
  wtc : vL / c.ppb < vtc / c.ppb + c.numBlocks
  nm : ∀ v, vL + 2 ≤ v → v / c.ppb = vL / c.ppb → v % c.ppc = c.ppc - 1 → ∀ e, ¬ MagicAt ch (c.ph v) e
  pg : ∀ g, g % c.ppc = 0 → g / c.ppb = vL / c.ppb → g + c.ppc ≤ vh →
    ¬ (ch.free (c.ph (g + c.ppc - 2)) = true ∧ ch.free (c.ph (g + c.ppc - 1)) = true)

/-- The last checkpoint together with the tree it makes persistent. -/
structure LPs (c : Cfg) (ch : Chip) (vts vh vL vtc : Nat) (σ : Nat → Option Buf) (k : Nat) : Prop
    extends LP0 c ch vts vh vL vtc k where
  pt : PT c ch vts vL σ

/-- A change of the chip that leaves alone what is behind the tail that was made persistent, and what is in the block of the
last checkpoint, up to `vh`. -/
structure KeptL (c : Cfg) (ch ch' : Chip) (vts vh vL : Nat) : Prop where
  pg : ∀ v, v < vh → (vts ≤ v ∨ vL / c.ppb ≤ v / c.ppb) →
      ch'.page (c.ph v) = ch.page (c.ph v) ∧ ch'.free (c.ph v) = ch.free (c.ph v)
  bd : ∀ v, v < vh → (vts ≤ v ∨ vL / c.ppb ≤ v / c.ppb) → ch.bad (c.ph v / c.ppb) = false → ch'.bad (c.ph v / c.ppb) = false

theorem KeptL.refl (ch : Chip) (vts vh vL : Nat) : KeptL c ch ch vts vh vL := ⟨fun _ _ _ => ⟨rfl, rfl⟩, fun _ _ _ h => h⟩

theorem LPs.of (hc : c.Valid) {ch ch' : Chip} {vts vh γ vL vtc k : Nat} {σ : Nat → Option Buf} (h : LPs c ch vts vh vL vtc σ k)
    (h0 : LP0 c ch' vts γ vL vtc k) (hk : KeptL c ch ch' vts vh vL) : LPs c ch' vts γ vL vtc σ k := by
  have hl := h.lt
  have hge : ∀ v, vL ≤ v → vL / c.ppb ≤ v / c.ppb := fun v hv => Nat.div_le_div_right hv
  refine ⟨h0, (h.pt.frame hc h.last (vts' := vts) ?_ ?_ (fun v _ _ hv _ => hv)).1⟩
  · intro v h1 h2
    refine (hk.pg v (by omega) ?_).1
    rcases h2 with h2 | h2
    · exact Or.inl h2
    · exact Or.inr (hge v h2)
  · intro v h1 h2
    refine hk.bd v (by omega) ?_
    rcases h2 with h2 | h2
    · exact Or.inl h2
    · exact Or.inr (hge v h2)

theorem grp_end_blk (hc : c.Valid) {g i : Nat} (h : g % c.ppc = 0) (hi : i < c.ppc) : (g + i) / c.ppb = g / c.ppb := by
  apply div_ppb_of_div_ppc hc
  exact (div_add_lt (v := g) (k := i) (m := c.ppc) (by omega)).1

/-- The last checkpoint survives a change elsewhere. -/
theorem LP0.frame (hc : c.Valid) {ch ch' : Chip} {vts vh γ vL vtc k : Nat}
    (h : LP0 c ch vts vh vL vtc k)
    (hp : ∀ v, v < vh → (vts ≤ v ∨ vL / c.ppb ≤ v / c.ppb) →
      ch'.page (c.ph v) = ch.page (c.ph v) ∧ ch'.free (c.ph v) = ch.free (c.ph v))
    (hb : ∀ v, v < vh → (vts ≤ v ∨ vL / c.ppb ≤ v / c.ppb) → ch.bad (c.ph v / c.ppb) = false → ch'.bad (c.ph v / c.ppb) = false)
    (hnm : ∀ v, vh ≤ v → v / c.ppb = vL / c.ppb → v % c.ppc = c.ppc - 1 → ∀ e, MagicAt ch' (c.ph v) e → MagicAt ch (c.ph v) e)
    (hlt : vL + 2 ≤ γ)
    (hpg : ∀ g, g % c.ppc = 0 → g / c.ppb = vL / c.ppb → g + c.ppc ≤ γ → vh < g + c.ppc →
      ¬ (ch'.free (c.ph (g + c.ppc - 2)) = true ∧ ch'.free (c.ph (g + c.ppc - 1)) = true)) :
    LP0 c ch' vts γ vL vtc k ∧ KeptL c ch ch' vts vh vL := by
  have hl := h.lt
  have h4 := hc.ppc_ge
  have hL1 : (vL + 1) / c.ppb = vL / c.ppb := (is_last hc h.last).2.2.2.2.1
  refine ⟨⟨h.last, hlt, hb vL (by omega) (Or.inr (Nat.le_refl _)) h.good, ?_, h.utc, h.tcL, h.tct, h.wtc, ?_, ?_⟩, ⟨hp, hb⟩⟩
  · obtain ⟨b, hb1, hb2⟩ := h.cp
    exact ⟨b, by rw [(hp (vL + 1) (by omega) (Or.inr (by omega))).1]; exact hb1, hb2⟩
  · intro v h1 h2 h3 e he
    by_cases hv : v < vh
    · exact h.nm v h1 h2 h3 e (he.congr (hp v hv (Or.inr (by omega))).1.symm)
    · exact h.nm v h1 h2 h3 e (hnm v (by omega) h2 h3 e he)
  · intro g h1 h2 h3
    by_cases hv : g + c.ppc ≤ vh
    · have e1 := grp_end_blk hc h1 (i := c.ppc - 2) (by omega)
      have e2 := grp_end_blk hc h1 (i := c.ppc - 1) (by omega)
      rw [show g + c.ppc - 2 = g + (c.ppc - 2) by omega, show g + c.ppc - 1 = g + (c.ppc - 1) by omega]
      rw [(hp (g + (c.ppc - 2)) (by omega) (Or.inr (by omega))).2, (hp (g + (c.ppc - 1)) (by omega) (Or.inr (by omega))).2]
      have := h.pg g h1 h2 hv
      rw [show g + c.ppc - 2 = g + (c.ppc - 2) by omega, show g + c.ppc - 1 = g + (c.ppc - 1) by omega] at this
      exact this
    · exact hpg g h1 h2 h3 (by omega)

/-! ### One page written -/

variable {good good' : Nat → Prop}

/-- The chip changed by a push that wrote (or began to write) position `vq`, coming from `vh`; blocks
skipped are not good any more. -/
structure Stp (c : Cfg) (good good' : Nat → Prop) (ch ch' : Chip) (vh vq : Nat) : Prop where
  le : vh ≤ vq
  mv : vq = vh ∨ (vh % c.ppb = 0 ∧ vq % c.ppb = 0)
  uq : c.isU vq
  out : ∀ p, (∀ b, vh / c.ppb ≤ b → b ≤ vq / c.ppb → p / c.ppb ≠ b % c.numBlocks) →
    ch'.page p = ch.page p ∧ ch'.free p = ch.free p
  skip : ∀ b, vh / c.ppb ≤ b → b < vq / c.ppb → ¬ good' (b % c.numBlocks)
  gd : ∀ k, good' k → good k
  rest : vh % c.ppb = 0 → ∀ p, p / c.ppb = c.ph vq / c.ppb → p ≠ c.ph vq → ch'.page p = some (c.clip Buf.ff)
  atq : vh % c.ppb ≠ 0 → ∀ p, p ≠ c.ph vq → (c.last vq → p ≠ c.ph (vq + 1)) →
    ch'.page p = ch.page p ∧ ch'.free p = ch.free p

theorem blk_lt_aligned {v w : Nat} (h : v < w) (ha : w % c.ppb = 0) : v / c.ppb < w / c.ppb := by
  have h2 := div_mod_range w c.ppb
  rw [ha] at h2
  rw [Nat.div_lt_iff_lt_mul (ppb_pos c)]; omega

theorem Stp.qh {ch ch' : Chip} {vh vq : Nat} (h : Stp c good good' ch ch' vh vq) (hv : vh % c.ppb ≠ 0) : vq = vh := by
  rcases h.mv with h | h
  · exact h
  · exact absurd h.1 hv

theorem Stp.q0 {ch ch' : Chip} {vh vq : Nat} (h : Stp c good good' ch ch' vh vq) (hv : vh % c.ppb = 0) : vq % c.ppb = 0 := by
  rcases h.mv with h | h
  · rw [h]; exact hv
  · exact h.2

theorem Stp.pos (hc : c.Valid) {ch ch' : Chip} {vh vq lo v : Nat} (h : Stp c good good' ch ch' vh vq)
    (hw : vq / c.ppb < lo + c.numBlocks) (h1 : lo ≤ v / c.ppb) (h2 : v < vh) :
    ch'.page (c.ph v) = ch.page (c.ph v) ∧ ch'.free (c.ph v) = ch.free (c.ph v) := by
  have hle := Nat.div_le_div_right (c := c.ppb) h.le
  have hvh := Nat.div_le_div_right (c := c.ppb) (Nat.le_of_lt h2)
  by_cases hv : vh % c.ppb = 0
  · apply h.out
    intro b hb1 hb2 he
    have := blk_lt_aligned h2 hv
    rw [ph_div_ppb] at he
    have := mod_inj (base := lo) (m := c.numBlocks) (a := v / c.ppb) (b := b) h1 (by omega) (by omega) (by omega) he
    omega
  · have hq := h.qh hv
    refine h.atq hv _ ?_ ?_
    · intro he
      have := ph_inj_lap (lo := lo) h1 (by omega) (by omega) (by omega) he
      omega
    · intro hl he
      have e1 : (vq + 1) / c.ppb = vq / c.ppb := (is_last hc hl).2.2.2.2.1
      have := ph_inj_lap (lo := lo) h1 (by omega) (by omega) (by omega) he
      omega

theorem Stp.bad {ch ch' : Chip} {vh vq lo v : Nat} (h : Stp c good good' ch ch' vh vq)
    (hbn : ∀ k, ch'.bad k = true → ch.bad k = true ∨ inBlks c (vh / c.ppb) (vq / c.ppb) k)
    (hw : vq / c.ppb < lo + c.numBlocks) (h1 : lo ≤ v / c.ppb) (h2 : v < vh)
    (hb : ch.bad (c.ph v / c.ppb) = false) : ch'.bad (c.ph v / c.ppb) = false := by
  cases hb' : ch'.bad (c.ph v / c.ppb) with
  | false => rfl
  | true =>
    rcases hbn _ hb' with h3 | ⟨b, h3, h4, h5⟩
    · rw [hb] at h3; cases h3
    · have hv : vh % c.ppb = 0 := Classical.byContradiction fun hv => by have := h.qh hv; subst this; omega
      have := blk_lt_aligned h2 hv
      rw [ph_div_ppb] at h5
      have := mod_inj (base := lo) (m := c.numBlocks) (a := v / c.ppb) (b := b) h1 (by omega) (by omega) (by omega) h5
      omega

/-- First checkpoints of other blocks stay. -/
theorem EP.step (hc : c.Valid) {good : Nat → Prop} {ch ch' : Chip} {B q : Nat} (h : EP c good ch B)
    (hout : ∀ b, good (b % c.numBlocks) → b % c.numBlocks ≠ q % c.numBlocks → ch'.page (c.fcp b) = ch.page (c.fcp b))
    (hq : ch'.page (c.fcp q) = ch.page (c.fcp q) ∨ (B ≤ q ∧ (∀ b, B ≤ b → b < q → ¬ good (b % c.numBlocks)) ∧
      ∀ e, MagicAt ch' (c.fcp q) e → MagicAt ch (c.fcp q) e)) : EP c good ch' B := by
  apply h.frame
  · intro b h1 h2 _ e he
    by_cases hb : b % c.numBlocks = q % c.numBlocks
    · rw [fcp_congr hc hb] at he ⊢
      rcases hq with hq | ⟨_, _, hq⟩
      · exact he.congr hq.symm
      · exact hq e he
    · exact he.congr (hout b h2 hb).symm
  · intro b b' h1 h2 h3 h4 h5
    by_cases hb : b % c.numBlocks = q % c.numBlocks
    · rcases hq with hq | ⟨q1, q2, _⟩
      · rw [fcp_congr hc hb]; exact hq
      · exfalso
        have hqb : q ≤ b' := by
          apply Classical.byContradiction; intro hn
          exact q2 b' h2 (by omega) h5
        have := mod_inj (base := b) (m := c.numBlocks) (a := b) (b := q) (by omega) (by omega) (by omega) (by omega) hb
        omega
    · exact hout b h4 hb

theorem Stp.fcp_out (hc : c.Valid) {ch ch' : Chip} {vh vq b : Nat} (h : Stp c good good' ch ch' vh vq)
    (hg : good' (b % c.numBlocks)) (hb : b % c.numBlocks ≠ vq / c.ppb % c.numBlocks) :
    ch'.page (c.fcp b) = ch.page (c.fcp b) := by
  refine (h.out _ ?_).1
  intro b1 h1 h2 he
  rw [fcp_div hc] at he
  by_cases hq : b1 = vq / c.ppb
  · rw [hq] at he; exact hb he
  · have := h.skip b1 h1 (by omega)
    rw [← he] at this
    exact this hg

theorem fcp_ne (hc : c.Valid) {b v : Nat} (hu : c.isU v) : c.fcp b ≠ c.ph v := by
  intro he
  have h1 := fcp_cp hc b
  rw [he, ph_mod_ppc hc] at h1
  exact hu h1

theorem Stp.gap {ch ch' : Chip} {vh vq B : Nat} (h : Stp c good good' ch ch' vh vq)
    (hp : Pos c good B vh) : ∀ b, B ≤ b → b < vq / c.ppb → ¬ good' (b % c.numBlocks) := by
  intro b b1 b2 hg
  by_cases hb : b < vh / c.ppb
  · exact hp.gap b b1 hb (h.gd _ hg)
  · have := h.skip b (by omega) b2
    exact this hg

theorem Stp.ep (hc : c.Valid) {ch ch' : Chip} {vh vq B : Nat} (h : Stp c good good' ch ch' vh vq) (h2 : TwoGood c good')
    (hf : FP c good ch B vh)
    (hl : c.last vq → B ≠ vq / c.ppb + 1 → ∀ e, MagicAt ch' (c.ph (vq + 1)) e → MagicAt ch (c.ph (vq + 1)) e) :
    EP c good' ch' B := by
  have h4 := hc.ppc_ge
  have hle := Nat.div_le_div_right (c := c.ppb) h.le
  refine (hf.ep.mono hc h.gd h2).step hc (q := vq / c.ppb) (fun b hg hb => h.fcp_out hc hg hb) ?_
  have hU : B ≤ vh / c.ppb → B ≤ vq / c.ppb := fun h => by omega
  by_cases hv : vh % c.ppb = 0
  · right
    have hB : B ≤ vh / c.ppb := by
      apply Classical.byContradiction; intro hn
      have := hf.pos.hi (by have := hf.pos.le; omega)
      omega
    refine ⟨hU hB, h.gap hf.pos, ?_⟩
    intro e he
    refine absurd he (blank_no_magic (h.rest hv _ ?_ (fcp_ne hc h.uq)))
    rw [fcp_div hc, ph_div_ppb]
  · by_cases hll : c.last vq
    · have hq := h.qh hv
      by_cases hB : B = vq / c.ppb + 1
      · left
        refine (h.atq hv _ (fcp_ne hc h.uq) (fun _ he => ?_)).1
        have e1 := fcp_mod hc (vq / c.ppb)
        rw [he, ph_mod_ppb] at e1
        have hhi := hf.pos.hi (by rw [hB, hq])
        have hd : (vq + 1) / c.ppb = vq / c.ppb := (is_last hc hll).2.2.2.2.1
        have d1 := div_mod_range vq c.ppb
        have d2 := div_mod_range (vq + 1) c.ppb
        rw [hd] at d2
        rw [← hq] at hhi; omega
      · right
        have hB' : B ≤ vq / c.ppb := by have := hf.pos.le; rw [← hq] at this; omega
        refine ⟨hB', h.gap hf.pos, ?_⟩
        have hlo := hf.pos.lo (by rw [← hq]; exact hB')
        rw [← hq] at hlo
        have hm := mod_mod_ppc hc vq
        rw [Nat.mod_eq_of_lt hlo] at hm
        have e : c.fcp (vq / c.ppb) = c.ph (vq + 1) := by
          unfold Cfg.fcp
          congr 1
          have d1 := div_mod_range vq c.ppb
          unfold Cfg.last at hll; omega
        rw [e]
        exact hl hll hB
    · left
      exact (h.atq hv _ (fcp_ne hc h.uq) (fun h => absurd h hll)).1

theorem Stp.pos_step (hc : c.Valid) {ch ch' : Chip} {vh vq B : Nat} (h : Stp c good good' ch ch' vh vq)
    (hp : Pos c good B vh) (hl : ¬ c.last vq) : Pos c good' B (vq + 1) := by
  have h4 := hc.ppc_ge
  obtain ⟨e1, e2, e3, e4⟩ := not_last hc h.uq hl
  have hle := Nat.div_le_div_right (c := c.ppb) h.le
  have hple := hp.le
  have d1 := div_mod_range vq c.ppb
  have d2 := div_mod_range (vq + 1) c.ppb
  rw [e4] at d2
  refine ⟨by omega, by rw [e4]; exact h.gap hp, ?_, ?_⟩
  · intro hB
    rw [e4] at hB
    by_cases hv : vh % c.ppb = 0
    · have := h.q0 hv; omega
    · have hq := h.qh hv
      have hlo := hp.lo (by rw [← hq]; exact hB)
      rw [← hq] at hlo
      have hm := mod_mod_ppc hc vq
      rw [Nat.mod_eq_of_lt hlo] at hm
      have hu := h.uq
      unfold Cfg.isU at hu
      unfold Cfg.last at hl
      omega
  · intro hB
    rw [e4] at hB
    rcases h.mv with hq | ⟨ha, hb⟩
    · have := hp.hi (by rw [← hq]; exact hB)
      rw [← hq] at this; omega
    · have : vh / c.ppb = vq / c.ppb := by omega
      have := hp.hi (by omega)
      omega

theorem Stp.pos_last (hc : c.Valid) {vq : Nat} (hl : c.last vq) : Pos c good (vq / c.ppb + 1) (vq + 2) := by
  have h4 := hc.ppc_ge
  obtain ⟨e1, e2, e3, e4, e5, e6, e7⟩ := is_last hc hl
  have hu : c.isU vq := by unfold Cfg.isU; unfold Cfg.last at hl; omega
  have hb := nextV_blk hc hu
  rw [e1] at hb
  have hm := mod_mod_ppc hc vq
  have hml := Nat.mod_le (vq % c.ppb) c.ppc
  have d1 := div_mod_range vq c.ppb
  have d2 := div_mod_range (vq + 2) c.ppb
  unfold Cfg.last at hl
  rcases hb with ⟨b1, b2⟩ | ⟨b1, b2⟩
  · rw [b1] at d2
    exact ⟨by omega, fun b x y => by omega, fun h => by omega, fun _ => by omega⟩
  · exact ⟨by omega, fun b x y => by omega, fun h => by omega, fun h => by omega⟩

theorem Stp.hb_step (hc : c.Valid) {ch ch' : Chip} {vh vq : Nat} (h : Stp c good good' ch ch' vh vq)
    (hh : HB c ch vh) (hl : ¬ c.last vq) : HB c ch' (vq + 1) := by
  have h4 := hc.ppc_ge
  obtain ⟨e1, e2, e3, e4⟩ := not_last hc h.uq hl
  have hN := hc.blocks_lo
  have hinj : ∀ v, v / c.ppb = vq / c.ppb → c.ph v = c.ph vq → v = vq := by
    intro v h1 h2
    exact ph_inj_lap (lo := vq / c.ppb) (by omega) (by omega) (by omega) (by omega) h2
  constructor
  · intro _ v h1 h2 h3 e he
    rw [e4] at h2
    have hne : c.ph v ≠ c.ph vq := fun hh => by have := hinj v h2 hh; omega
    by_cases hv : vh % c.ppb = 0
    · exact blank_no_magic (h.rest hv _ (by rw [ph_div_ppb, ph_div_ppb, h2]) hne) he
    · have hq := h.qh hv
      refine hh.nm hv v (by omega) (by rw [← hq]; exact h2) h3 e (he.congr ?_)
      exact (h.atq hv _ hne (fun h => absurd h hl)).1.symm
  · intro _ g h1 h2 h3
    rw [e4] at h2
    have hg : g + c.ppc ≤ vq := by
      apply Classical.byContradiction; intro hn
      have : vq + 1 = g + c.ppc := by omega
      rw [this, Nat.add_mod_right, h1] at e2; omega
    have x1 := grp_end_blk hc h1 (i := c.ppc - 2) (by omega)
    have x2 := grp_end_blk hc h1 (i := c.ppc - 1) (by omega)
    by_cases hv : vh % c.ppb = 0
    · have := blk_lt_aligned (c := c) (v := g) (w := vq) (by omega) (h.q0 hv); omega
    · have hq := h.qh hv
      have key : ∀ i, i < c.ppc → ch'.free (c.ph (g + i)) = ch.free (c.ph (g + i)) := by
        intro i hi
        refine (h.atq hv _ (fun hh => ?_) (fun h => absurd h hl)).2
        have := hinj (g + i) (by rw [grp_end_blk hc h1 hi, h2]) hh
        omega
      have := hh.pg hv g h1 (by rw [← hq]; exact h2) (by omega)
      rw [show g + c.ppc - 2 = g + (c.ppc - 2) by omega, show g + c.ppc - 1 = g + (c.ppc - 1) by omega] at this ⊢
      rw [key _ (by omega), key _ (by omega)]; exact this

theorem Stp.hb_last (hc : c.Valid) {ch ch' : Chip} {vh vq : Nat} (h : Stp c good good' ch ch' vh vq)
    (hh : HB c ch vh) (hl : c.last vq) (hf : ch'.free (c.ph (vq + 1)) = false) : HB c ch' (vq + 2) := by
  have h4 := hc.ppc_ge
  obtain ⟨e1, e2, e3, e4, e5, e6, e7⟩ := is_last hc hl
  have hN := hc.blocks_lo
  have hv : vh % c.ppb ≠ 0 := fun hv => e7 (h.q0 hv)
  have hq := h.qh hv
  have hb := nextV_blk hc h.uq
  rw [e1] at hb
  have hinj : ∀ v w, v / c.ppb = vq / c.ppb → w / c.ppb = vq / c.ppb → c.ph v = c.ph w → v = w := by
    intro v w h1 h2 h3
    exact ph_inj_lap (lo := vq / c.ppb) (by omega) (by omega) (by omega) (by omega) h3
  have key : ∀ v, v / c.ppb = vq / c.ppb → v ≠ vq → v ≠ vq + 1 →
      ch'.page (c.ph v) = ch.page (c.ph v) ∧ ch'.free (c.ph v) = ch.free (c.ph v) := by
    intro v x1 x2 x3
    exact h.atq hv _ (fun hh => x2 (hinj _ _ x1 rfl hh)) (fun _ hh => x3 (hinj _ _ x1 e5 hh))
  constructor
  · intro hz v h1 h2 h3 e he
    have hbq : (vq + 2) / c.ppb = vq / c.ppb := by
      rcases hb with hb | hb
      · exact hb.1
      · exact absurd hb.2 hz
    rw [hbq] at h2
    refine hh.nm hv v (by omega) (by rw [← hq]; exact h2) h3 e (he.congr ?_)
    exact (key v h2 (by omega) (by omega)).1.symm
  · intro hz g h1 h2 h3
    have hbq : (vq + 2) / c.ppb = vq / c.ppb := by
      rcases hb with hb | hb
      · exact hb.1
      · exact absurd hb.2 hz
    rw [hbq] at h2
    by_cases hge : g + c.ppc = vq + 2
    · rintro ⟨_, hx⟩
      rw [show g + c.ppc - 1 = vq + 1 by omega, hf] at hx; cases hx
    · have hg : g + c.ppc ≤ vq := by
        apply Classical.byContradiction; intro hn
        have : vq + 1 = g + c.ppc := by omega
        have h5 := (div_add_lt (v := vq) (k := 1) (m := c.ppc) (by unfold Cfg.last at hl; omega)).2
        rw [this, Nat.add_mod_right, h1] at h5; omega
      have key2 : ∀ i, i < c.ppc → ch'.free (c.ph (g + i)) = ch.free (c.ph (g + i)) := by
        intro i hi
        exact (key (g + i) (by rw [grp_end_blk hc h1 hi, h2]) (by omega) (by omega)).2
      have := hh.pg hv g h1 (by rw [← hq]; exact h2) (by omega)
      rw [show g + c.ppc - 2 = g + (c.ppc - 2) by omega, show g + c.ppc - 1 = g + (c.ppc - 1) by omega] at this ⊢
      rw [key2 _ (by omega), key2 _ (by omega)]; exact this

/-- The last checkpoint survives a push. -/
theorem LP0.step (hc : c.Valid) {ch ch' : Chip} {vts vh vq γ vL vtc k : Nat}
    (h : LP0 c ch vts vh vL vtc k) (hs : Stp c good good' ch ch' vh vq)
    (hbn : ∀ k, ch'.bad k = true → ch.bad k = true ∨ inBlks c (vh / c.ppb) (vq / c.ppb) k) (hw : c.Win vts vq) (hw2 : vq / c.ppb < vL / c.ppb + c.numBlocks)
    (hcp : c.last vq → ∀ e, MagicAt ch' (c.ph (vq + 1)) e → MagicAt ch (c.ph (vq + 1)) e)
    (hlt : vL + 2 ≤ γ)
    (hpg : ∀ g, g % c.ppc = 0 → g / c.ppb = vL / c.ppb → g + c.ppc ≤ γ → vh < g + c.ppc →
      ¬ (ch'.free (c.ph (g + c.ppc - 2)) = true ∧ ch'.free (c.ph (g + c.ppc - 1)) = true)) :
    LP0 c ch' vts γ vL vtc k ∧ KeptL c ch ch' vts vh vL := by
  have h4 := hc.ppc_ge
  have hN := hc.blocks_lo
  have hl := h.lt
  refine h.frame hc ?_ ?_ ?_ hlt hpg
  · intro v h1 h2
    rcases h2 with h2 | h2
    · exact hs.pos hc hw (Nat.div_le_div_right h2) h1
    · exact hs.pos hc hw2 h2 h1
  · intro v h1 h2
    rcases h2 with h2 | h2
    · exact hs.bad hbn hw (Nat.div_le_div_right h2) h1
    · exact hs.bad hbn hw2 h2 h1
  · intro v h1 h2 h3 e he
    have hb1 := Nat.div_le_div_right (c := c.ppb) h1
    have hb2 := Nat.div_le_div_right (c := c.ppb) (by omega : vL ≤ vh)
    have hv : vh % c.ppb ≠ 0 := by
      intro hv
      have := blk_lt_aligned (c := c) (v := vL) (w := vh) (by omega) hv; omega
    have hq := hs.qh hv
    have hne : c.ph v ≠ c.ph vq := by
      intro hh
      have := congrArg (· % c.ppc) hh
      simp only [ph_mod_ppc hc] at this
      rw [h3] at this; exact hs.uq this.symm
    by_cases hll : c.last vq
    · by_cases hve : c.ph v = c.ph (vq + 1)
      · rw [hve] at he ⊢; exact hcp hll e he
      · exact he.congr (hs.atq hv _ hne (fun _ => hve)).1.symm
    · exact he.congr (hs.atq hv _ hne (fun h => absurd h hll)).1.symm

end Dhara

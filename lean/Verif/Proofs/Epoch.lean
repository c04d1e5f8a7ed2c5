/-
Epochs on the chip: which blocks carry a first checkpoint, and of which lap
(what journal.c:222-280 relies on).
-/
import Verif.Proofs.Inv2
namespace Dhara

variable {c : Cfg}

/-- The page of the first checkpoint of virtual block `b`. -/
def Cfg.fcp (c : Cfg) (b : Nat) : Nat := c.ph (b * c.ppb + (c.ppc - 1))

/-- The page carries a checkpoint of epoch `e`. -/
def MagicAt (ch : Chip) (p : Nat) (e : UInt8) : Prop :=
  ∃ b, ch.page p = some b ∧ hdrHasMagic b = true ∧ hdrGetEpoch b = e

theorem MagicAt.congr {ch ch' : Chip} {p : Nat} {e : UInt8} (h : MagicAt ch p e) (hp : ch'.page p = ch.page p) :
    MagicAt ch' p e := by
  obtain ⟨b, h1, h2⟩ := h; exact ⟨b, by rw [hp]; exact h1, h2⟩

theorem MagicAt.unique {ch : Chip} {p : Nat} {e e' : UInt8} (h : MagicAt ch p e) (h' : MagicAt ch p e') : e = e' := by
  obtain ⟨b, h1, _, h2⟩ := h
  obtain ⟨b', h1', _, h2'⟩ := h'
  rw [h1] at h1'; cases h1'; rw [← h2, h2']

/-- Two blocks are good. -/
def TwoGood (c : Cfg) (good : Nat → Prop) : Prop :=
  ∃ i j, i < c.numBlocks ∧ j < c.numBlocks ∧ i ≠ j ∧ good i ∧ good j

theorem TwoGood.mono {good good' : Nat → Prop} (h : TwoGood c good) (hm : ∀ k, good k → good' k) : TwoGood c good' := by
  obtain ⟨i, j, h1, h2, h3, h4, h5⟩ := h
  exact ⟨i, j, h1, h2, h3, hm _ h4, hm _ h5⟩

/-- After any block there is a good one less than a lap away. -/
theorem TwoGood.next {good : Nat → Prop} (h : TwoGood c good) (b : Nat) :
    ∃ b', b < b' ∧ b' < b + c.numBlocks ∧ good (b' % c.numBlocks) := by
  have key : ∀ i, i < c.numBlocks → i ≠ b % c.numBlocks → good i →
      ∃ b', b < b' ∧ b' < b + c.numBlocks ∧ good (b' % c.numBlocks) := by
    intro i hi hne hg
    have h1 := div_mod_range b c.numBlocks
    have h2 := Nat.mod_lt b (show 0 < c.numBlocks by omega)
    by_cases hlt : b % c.numBlocks < i
    · refine ⟨b / c.numBlocks * c.numBlocks + i, by omega, by omega, ?_⟩
      rw [mod_of_range (k := b / c.numBlocks) (by omega) (by omega), Nat.add_sub_cancel_left]; exact hg
    · have e : (b / c.numBlocks + 1) * c.numBlocks = b / c.numBlocks * c.numBlocks + c.numBlocks := by
        rw [Nat.add_mul, Nat.one_mul]
      refine ⟨(b / c.numBlocks + 1) * c.numBlocks + i, by omega, by omega, ?_⟩
      rw [mod_of_range (k := b / c.numBlocks + 1) (by omega) (by omega), Nat.add_sub_cancel_left]; exact hg
  obtain ⟨i, j, h1, h2, h3, h4, h5⟩ := h
  by_cases hi : i = b % c.numBlocks
  · exact key j h2 (by omega) h5
  · exact key i h1 hi h4

/-- The first good block at or after `B` is less than a lap away. -/
theorem TwoGood.first {good : Nat → Prop} (h : TwoGood c good) {B b0 : Nat} (_h0 : B ≤ b0)
    (hf : ∀ b, B ≤ b → b < b0 → ¬ good (b % c.numBlocks)) : b0 + 1 < B + c.numBlocks ∨ b0 = B + c.numBlocks - 1 := by
  apply Classical.byContradiction; intro hn
  obtain ⟨b', h1, h2, h3⟩ := h.next B
  exact hf b' (by omega) (by omega) h3

theorem TwoGood.first_lt {good : Nat → Prop} (h : TwoGood c good) {B b0 : Nat}
    (hf : ∀ b, B < b → b < b0 → ¬ good (b % c.numBlocks)) : b0 < B + c.numBlocks := by
  apply Classical.byContradiction; intro hn
  obtain ⟨b', h1, h2, h3⟩ := h.next B
  exact hf b' (by omega) (by omega) h3

/-- The laps of the first checkpoints found on the good blocks, when virtual blocks below `B` have got
theirs: a good block carries the checkpoint of its latest lap, except that the next block to be
written may have lost it. -/
structure EP (c : Cfg) (good : Nat → Prop) (ch : Chip) (B : Nat) : Prop where
  e1 : ∀ b b', b < B → B ≤ b' → b' < b + c.numBlocks → good (b % c.numBlocks) → good (b' % c.numBlocks) →
    MagicAt ch (c.fcp b) (UInt8.ofNat (b / c.numBlocks))
  e2 : ∀ b0, B ≤ b0 → good (b0 % c.numBlocks) → (∀ b, B ≤ b → b < b0 → ¬ good (b % c.numBlocks)) →
    ∀ e, MagicAt ch (c.fcp b0) e → c.numBlocks ≤ b0 ∧ e = UInt8.ofNat (b0 / c.numBlocks - 1)
  e3 : ∀ b, B ≤ b → b < c.numBlocks → good b → ∀ e, ¬ MagicAt ch (c.fcp b) e

theorem fcp_div (hc : c.Valid) (b : Nat) : c.fcp b / c.ppb = b % c.numBlocks := by
  unfold Cfg.fcp
  have h1 : c.ppc - 1 < c.ppb := by
    have := Nat.le_of_dvd (ppb_pos c) hc.ppc_dvd; have := ppc_pos c; omega
  rw [ph_div_ppb, div_of_range (k := b) (ppb_pos c) (by omega) (by omega)]

theorem fcp_mod (hc : c.Valid) (b : Nat) : c.fcp b % c.ppb = c.ppc - 1 := by
  unfold Cfg.fcp
  have h1 : c.ppc - 1 < c.ppb := by
    have := Nat.le_of_dvd (ppb_pos c) hc.ppc_dvd; have := ppc_pos c; omega
  rw [ph_mod_ppb, mod_of_range (k := b) (by omega) (by omega)]; omega

theorem fcp_add (hc : c.Valid) (b : Nat) : c.fcp (b + c.numBlocks) = c.fcp b := by
  have h1 := div_mod_range (c.fcp b) c.ppb
  have h2 := div_mod_range (c.fcp (b + c.numBlocks)) c.ppb
  rw [fcp_div hc, fcp_mod hc] at h1
  rw [fcp_div hc, fcp_mod hc, Nat.add_mod_right] at h2
  omega

theorem fcp_congr (hc : c.Valid) {b b' : Nat} (h : b % c.numBlocks = b' % c.numBlocks) : c.fcp b = c.fcp b' := by
  have h1 := div_mod_range (c.fcp b) c.ppb
  have h2 := div_mod_range (c.fcp b') c.ppb
  rw [fcp_div hc, fcp_mod hc] at h1 h2
  rw [h] at h1; omega

theorem fcp_cp (hc : c.Valid) (b : Nat) : c.fcp b % c.ppc = c.ppc - 1 := by
  rw [← mod_mod_ppc hc, fcp_mod hc]
  exact Nat.mod_eq_of_lt (by have := ppc_pos c; omega)

/-- Marking more blocks bad does no harm. -/
theorem EP.mono (hc : c.Valid) {good good' : Nat → Prop} {ch : Chip} {B : Nat} (h : EP c good ch B)
    (hg : ∀ k, good' k → good k) (h2 : TwoGood c good') : EP c good' ch B := by
  have hN := hc.blocks_lo
  refine ⟨fun b b' a1 a2 a3 a4 a5 => h.e1 b b' a1 a2 a3 (hg _ a4) (hg _ a5), ?_, fun b a1 a2 a3 => h.e3 b a1 a2 (hg _ a3)⟩
  intro b0 a1 a2 a3 e he
  by_cases hf : ∀ b, B ≤ b → b < b0 → ¬ good (b % c.numBlocks)
  · exact h.e2 b0 a1 (hg _ a2) hf e he
  · obtain ⟨g, hg'⟩ := Classical.not_forall.1 hf
    have g1 : B ≤ g := Classical.byContradiction fun hn => hg' fun h => absurd h hn
    have g2 : g < b0 := Classical.byContradiction fun hn => hg' fun _ h => absurd h hn
    have g3 : good (g % c.numBlocks) := Classical.byContradiction fun hn => hg' fun _ _ => hn
    have hlt : b0 < B + c.numBlocks := by rcases h2.first a1 a3 with h | h <;> omega
    by_cases hb : c.numBlocks ≤ b0
    · refine ⟨hb, ?_⟩
      have e0 : b0 - c.numBlocks + c.numBlocks = b0 := by omega
      have k := h.e1 (b0 - c.numBlocks) g (by omega) g1 (by omega)
        (by rw [← Nat.add_mod_right, e0]; exact hg _ a2) g3
      rw [← fcp_add hc, e0] at k
      rw [he.unique k]
      congr 1
      have : b0 / c.numBlocks = (b0 - c.numBlocks) / c.numBlocks + 1 := by
        rw [← Nat.add_div_right _ (by omega), e0]
      rw [this]; rfl
    · exact absurd he (h.e3 b0 a1 (by omega) (by rw [Nat.mod_eq_of_lt (by omega)] at a2; exact hg _ a2) e)

/-- The chip changed, but no first checkpoint appeared or disappeared on a good block. -/
theorem EP.frame {good : Nat → Prop} {ch ch' : Chip} {B : Nat} (h : EP c good ch B)
    (h1 : ∀ b, B ≤ b → good (b % c.numBlocks) → (b < c.numBlocks ∨ ∀ b1, B ≤ b1 → b1 < b → ¬ good (b1 % c.numBlocks)) →
      ∀ e, MagicAt ch' (c.fcp b) e → MagicAt ch (c.fcp b) e)
    (h2 : ∀ b b', b < B → B ≤ b' → b' < b + c.numBlocks → good (b % c.numBlocks) → good (b' % c.numBlocks) →
      ch'.page (c.fcp b) = ch.page (c.fcp b)) : EP c good ch' B := by
  refine ⟨fun b b' a1 a2 a3 a4 a5 => (h.e1 b b' a1 a2 a3 a4 a5).congr (h2 b b' a1 a2 a3 a4 a5), ?_, ?_⟩
  · intro b0 a1 a2 a3 e he
    exact h.e2 b0 a1 a2 a3 e (h1 b0 a1 a2 (Or.inr a3) e he)
  · intro b a1 a2 a3 e he
    exact h.e3 b a1 a2 a3 e (h1 b a1 (by rw [Nat.mod_eq_of_lt a2]; exact a3) (Or.inl a2) e he)

/-- The next good block has got its first checkpoint. -/
theorem EP.commit (hc : c.Valid) {good : Nat → Prop} {ch ch' : Chip} {B q : Nat} (h : EP c good ch B) (hg : TwoGood c good)
    (hq : B ≤ q) (hgood : good (q % c.numBlocks)) (hgap : ∀ b, B ≤ b → b < q → ¬ good (b % c.numBlocks))
    (h1 : MagicAt ch' (c.fcp q) (UInt8.ofNat (q / c.numBlocks)))
    (h2 : ∀ b, good (b % c.numBlocks) → b % c.numBlocks ≠ q % c.numBlocks → ch'.page (c.fcp b) = ch.page (c.fcp b)) :
    EP c good ch' (q + 1) := by
  have hN := hc.blocks_lo
  have hne : ∀ b, q < b → b < q + c.numBlocks → b % c.numBlocks ≠ q % c.numBlocks := by
    intro b a1 a2 e
    have := mod_inj (base := q) (m := c.numBlocks) (a := b) (b := q) (by omega) (by omega) (by omega) (by omega) e
    omega
  refine ⟨?_, ?_, ?_⟩
  · intro b b' a1 a2 a3 a4 a5
    by_cases hb : b = q
    · rw [hb]; exact h1
    · have hbB : b < B := by
        apply Classical.byContradiction; intro hn
        exact hgap b (by omega) (by omega) a4
      refine (h.e1 b b' hbB (by omega) a3 a4 a5).congr (h2 b a4 ?_)
      intro e
      have := mod_inj (base := b) (m := c.numBlocks) (a := b) (b := q) (by omega) (by omega) (by omega) (by omega) e
      omega
  · intro b0 a1 a2 a3 e he
    have hlt : b0 < q + c.numBlocks := hg.first_lt fun b x1 x2 => a3 b (by omega) x2
    have he' : MagicAt ch (c.fcp b0) e := he.congr (h2 b0 a2 (hne b0 (by omega) hlt)).symm
    by_cases hb : c.numBlocks ≤ b0
    · refine ⟨hb, ?_⟩
      have e0 : b0 - c.numBlocks + c.numBlocks = b0 := by omega
      have hgb : good ((b0 - c.numBlocks) % c.numBlocks) := by rw [← Nat.add_mod_right, e0]; exact a2
      have hbB : b0 - c.numBlocks < B := by
        apply Classical.byContradiction; intro hn
        exact hgap _ (by omega) (by omega) hgb
      have k := h.e1 (b0 - c.numBlocks) q hbB hq (by omega) hgb hgood
      rw [← fcp_add hc, e0] at k
      rw [he'.unique k]
      congr 1
      have : b0 / c.numBlocks = (b0 - c.numBlocks) / c.numBlocks + 1 := by
        rw [← Nat.add_div_right _ (by omega), e0]
      rw [this]; rfl
    · exact absurd he' (h.e3 b0 (by omega) (by omega) (by rw [Nat.mod_eq_of_lt (by omega)] at a2; exact a2) e)
  · intro b a1 a2 a3 e he
    have hb : b % c.numBlocks = b := Nat.mod_eq_of_lt a2
    refine h.e3 b (by omega) a2 a3 e (he.congr (h2 b (by rw [hb]; exact a3) (hne b (by omega) (by omega))).symm)

/-- Where the head is relative to the last block that has got its first checkpoint. -/
structure Pos (c : Cfg) (good : Nat → Prop) (B vh : Nat) : Prop where
  le : B ≤ vh / c.ppb + 1
  gap : ∀ b, B ≤ b → b < vh / c.ppb → ¬ good (b % c.numBlocks)
  lo : B ≤ vh / c.ppb → vh % c.ppb < c.ppc
  hi : B = vh / c.ppb + 1 → c.ppc ≤ vh % c.ppb

/-- What the head block looks like. -/
structure HB (c : Cfg) (ch : Chip) (vh : Nat) : Prop where
  nm : vh % c.ppb ≠ 0 → ∀ v, vh ≤ v → v / c.ppb = vh / c.ppb → v % c.ppc = c.ppc - 1 → ∀ e, ¬ MagicAt ch (c.ph v) e
  pg : vh % c.ppb ≠ 0 → ∀ g, g % c.ppc = 0 → g / c.ppb = vh / c.ppb → g + c.ppc ≤ vh →
    ¬ (ch.free (c.ph (g + c.ppc - 2)) = true ∧ ch.free (c.ph (g + c.ppc - 1)) = true)

/-- What is claimed about blocks and epochs in normal operation. -/
structure FP (c : Cfg) (good : Nat → Prop) (ch : Chip) (B vh : Nat) : Prop where
  ep : EP c good ch B
  pos : Pos c good B vh
  hb : HB c ch vh

theorem blank_no_magic {ch : Chip} {p : Nat} {e : UInt8} (h : ch.page p = some (c.clip Buf.ff)) : ¬ MagicAt ch p e := by
  rintro ⟨b, h1, h2, _⟩
  rw [h] at h1; cases h1
  unfold hdrHasMagic at h2
  have h3 : c.clip Buf.ff 0 ≠ 0x44 := by
    unfold Cfg.clip Buf.slice
    split
    · decide
    · decide
  simp [h3] at h2

/-- No good block is skipped, and the next one is less than a lap past the last one that has got its
first checkpoint. -/
theorem Pos.lt {good : Nat → Prop} {B vh v : Nat} (h : Pos c good B vh) (hg : TwoGood c good) (hle : vh ≤ v)
    (hs : ∀ b, vh / c.ppb ≤ b → b < v / c.ppb → ¬ good (b % c.numBlocks)) (hv : B = vh / c.ppb + 1 → v / c.ppb = vh / c.ppb) :
    v / c.ppb + 1 < B + c.numBlocks ∨ B = 0 := by
  have hd := Nat.div_le_div_right (c := c.ppb) hle
  rcases Nat.eq_zero_or_pos B with h0 | h0
  · exact Or.inr h0
  left
  obtain ⟨b', h1, h2, h3⟩ := hg.next (B - 1)
  have hle := h.le
  by_cases hB : B = vh / c.ppb + 1
  · have := hv hB; omega
  · apply Classical.byContradiction; intro hn
    by_cases h4 : b' < vh / c.ppb
    · exact h.gap b' (by omega) h4 h3
    · exact hs b' (by omega) (by omega) h3

end Dhara

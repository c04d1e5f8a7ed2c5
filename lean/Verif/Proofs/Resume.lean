/-
Finding the last checkpoint again after a power cycle (journal.c:222-465).
-/
import Verif.Proofs.Disk3
namespace Dhara

variable {c : Cfg}

/-- No read fails at the moment. -/
def RdOk (c : Cfg) (n : Nand) : Prop := ∀ p, p < c.pages → c.env.readFail n.time p = false

/-- Every run of eight blocks contains two good ones. -/
def SparseBad (c : Cfg) (ch : Chip) : Prop :=
  ∀ i, i + min 8 c.numBlocks ≤ c.numBlocks →
    ∃ a b, i ≤ a ∧ a < b ∧ b < i + min 8 c.numBlocks ∧ ch.bad a = false ∧ ch.bad b = false

theorem SparseBad.two (hc : c.Valid) {ch : Chip} (h : SparseBad c ch) : TwoGood c (gd ch) := by
  have hN := hc.blocks_lo
  obtain ⟨a, b, h1, h2, h3, h4, h5⟩ := h 0 (by omega)
  exact ⟨a, b, by omega, by omega, by omega, h4, h5⟩

theorem nandRead_page (hc : c.Valid) {n : Nand} (hr : RdOk c n) {p : Nat} (hp : p < c.pages) :
    nandRead c n p 0 c.pageSize = match n.chip.page p with | none => .error .ecc | some b => .ok (c.clip b) := by
  unfold nandRead
  rw [if_pos ⟨hp, by omega⟩, hr p hp]
  simp only [Bool.false_eq_true, if_false]
  cases n.chip.page p <;> rfl

theorem clip_magic (hc : c.Valid) (b : Buf) : hdrHasMagic (c.clip b) = hdrHasMagic b ∧ hdrGetEpoch (c.clip b) = hdrGetEpoch b ∧
    hdrGetTail (c.clip b) = hdrGetTail b ∧ r32 (c.clip b) 16 = r32 b 16 := by
  have h := hc.pageSize_ge
  have e : ∀ i, i < 512 → c.clip b i = b i := by
    intro i hi
    unfold Cfg.clip Buf.slice
    rw [if_pos (by omega), Nat.zero_add]
  refine ⟨?_, ?_, ?_, ?_⟩
  · unfold hdrHasMagic; rw [e 0 (by omega), e 1 (by omega), e 2 (by omega)]
  · unfold hdrGetEpoch; rw [e 3 (by omega)]
  · exact r32_congr fun i hi => e _ (by omega)
  · exact r32_congr fun i hi => e _ (by omega)

theorem fcp_page (hc : c.Valid) {b : Nat} (hb : b < c.numBlocks) :
    (b <<< c.log2Ppb) ||| (c.ppc - 1) = c.fcp b ∧ c.fcp b < c.pages := by
  refine ⟨?_, ph_lt hc _⟩
  rw [shl_ppb, or_mask]
  have h1 := div_mod_range (c.fcp b) c.ppb
  rw [fcp_div hc, fcp_mod hc, Nat.mod_eq_of_lt hb] at h1
  rw [h1]
  have h2 := div_mod_range (b * c.ppb) c.ppc
  rw [mod_ppc_of_ppb_zero hc (Nat.mul_mod_left _ _)] at h2
  omega

/-- journal.c:222-248 -/
theorem findCheckblock_spec (hc : c.Valid) {n : Nand} (hr : RdOk c n) : ∀ k blk,
    (∃ i b, findCheckblock c n k blk = some (i, b) ∧ blk ≤ i ∧ i < blk + k ∧ i < c.numBlocks ∧ gd n.chip i ∧
      MagicAt n.chip (c.fcp i) (hdrGetEpoch b) ∧
      ∀ x, blk ≤ x → x < i → gd n.chip x → ∀ e, ¬ MagicAt n.chip (c.fcp x) e) ∨
    (findCheckblock c n k blk = none ∧
      ∀ x, blk ≤ x → x < blk + k → x < c.numBlocks → gd n.chip x → ∀ e, ¬ MagicAt n.chip (c.fcp x) e) := by
  intro k
  induction k with
  | zero => intro blk; right; exact ⟨rfl, fun x h1 h2 => by omega⟩
  | succ k ih =>
    intro blk
    unfold findCheckblock
    by_cases hb : blk < c.numBlocks
    · rw [if_pos hb]
      obtain ⟨e1, e2⟩ := fcp_page hc hb
      have rec_ : (gd n.chip blk → ∀ e, ¬ MagicAt n.chip (c.fcp blk) e) →
          (∃ i b, findCheckblock c n k (blk + 1) = some (i, b) ∧ blk ≤ i ∧ i < blk + (k + 1) ∧ i < c.numBlocks ∧ gd n.chip i ∧
            MagicAt n.chip (c.fcp i) (hdrGetEpoch b) ∧
            ∀ x, blk ≤ x → x < i → gd n.chip x → ∀ e, ¬ MagicAt n.chip (c.fcp x) e) ∨
          (findCheckblock c n k (blk + 1) = none ∧
            ∀ x, blk ≤ x → x < blk + (k + 1) → x < c.numBlocks → gd n.chip x → ∀ e, ¬ MagicAt n.chip (c.fcp x) e) := by
        intro hn
        have key : ∀ x, blk ≤ x → x = blk ∨ blk + 1 ≤ x := fun x hx => by omega
        rcases ih (blk + 1) with ⟨i, b, h1, h2, h3, h4, h5, h6, h7⟩ | ⟨h1, h2⟩
        · left
          refine ⟨i, b, h1, by omega, by omega, h4, h5, h6, fun x a1 a2 a3 => ?_⟩
          rcases key x a1 with h | h
          · rw [h] at a3 ⊢; exact hn a3
          · exact h7 x h a2 a3
        · right
          refine ⟨h1, fun x a1 a2 a3 a4 => ?_⟩
          rcases key x a1 with h | h
          · rw [h] at a4 ⊢; exact hn a4
          · exact h2 x h (by omega) a3 a4
      simp only
      by_cases hbad : nandIsBad n blk = true
      · rw [if_pos hbad]
        refine rec_ fun hg => ?_
        unfold nandIsBad at hbad; unfold gd at hg; rw [hg] at hbad; cases hbad
      · rw [if_neg hbad, e1, nandRead_page hc hr e2]
        cases hp : n.chip.page (c.fcp blk) with
        | none =>
          refine rec_ fun _ e he => ?_
          obtain ⟨b, h1, _⟩ := he; rw [hp] at h1; cases h1
        | some b =>
          simp only
          obtain ⟨m1, m2, _⟩ := clip_magic hc b
          by_cases hm : hdrHasMagic (c.clip b) = true
          · rw [if_pos hm]
            left
            refine ⟨blk, _, rfl, Nat.le_refl _, by omega, hb, ?_, ⟨b, hp, by rw [← m1]; exact hm, m2.symm⟩, fun x a1 a2 => by omega⟩
            unfold gd; unfold nandIsBad at hbad
            cases h : n.chip.bad blk with
            | false => rfl
            | true => exact absurd h hbad
          · rw [if_neg hm]
            refine rec_ fun _ e he => ?_
            obtain ⟨b', h1, h2, _⟩ := he
            rw [hp] at h1; cases h1
            exact hm (by rw [m1]; exact h2)
    · rw [if_neg hb]
      right; exact ⟨rfl, fun x h1 h2 h3 => by omega⟩

/-- Which first checkpoints are found, when `β` is the last virtual block that has got its own:
`r` is its number, and `L` the epoch of its lap. -/
structure Lap (c : Cfg) (ch : Chip) (r : Nat) (L : UInt8) : Prop where
  lt : r < c.numBlocks
  good : gd ch r
  m1 : ∀ i, i ≤ r → gd ch i → ∀ e, MagicAt ch (c.fcp i) e → e = L
  m2 : ∀ i i', i < i' → i' ≤ r → gd ch i → gd ch i' → MagicAt ch (c.fcp i') L
  mr : MagicAt ch (c.fcp r) L
  m3 : ∀ i, r < i → i < c.numBlocks → gd ch i → ∀ e, MagicAt ch (c.fcp i) e → e ≠ L

theorem ofNat_ne_succ (k : Nat) : UInt8.ofNat k ≠ UInt8.ofNat (k + 1) := by
  intro h
  have := congrArg UInt8.toNat h
  simp only [UInt8.toNat_ofNat'] at this
  omega

theorem EP.lap (hc : c.Valid) {ch : Chip} {β : Nat} (h : EP c (gd ch) ch (β + 1)) (h2 : TwoGood c (gd ch))
    (hg : gd ch (β % c.numBlocks)) : Lap c ch (β % c.numBlocks) (UInt8.ofNat (β / c.numBlocks)) := by
  have hN := hc.blocks_lo
  have hr := Nat.mod_lt β (show 0 < c.numBlocks by omega)
  have d := div_mod_range β c.numBlocks
  -- virtual block of lap `l`
  have vb : ∀ l i, i < c.numBlocks → (l * c.numBlocks + i) % c.numBlocks = i ∧ (l * c.numBlocks + i) / c.numBlocks = l := by
    intro l i hi
    exact ⟨by rw [mod_of_range (k := l) (by omega) (by omega)]; omega, div_of_range (by omega) (by omega) (by omega)⟩
  -- the checkpoint of virtual block `b`, whose next lap is not yet written
  have key : ∀ b, b < β + 1 → β + 1 ≤ b + c.numBlocks → gd ch (b % c.numBlocks) → ∀ e, MagicAt ch (c.fcp b) e →
      e = UInt8.ofNat (b / c.numBlocks) := by
    intro b h1 h3 h4 e he
    by_cases hf : ∀ x, β + 1 ≤ x → x < b + c.numBlocks → ¬ gd ch (x % c.numBlocks)
    · obtain ⟨_, k⟩ := h.e2 (b + c.numBlocks) h3 (by rw [Nat.add_mod_right]; exact h4) hf e (by rw [fcp_add hc]; exact he)
      rw [k, Nat.add_div_right _ (by omega)]; rfl
    · obtain ⟨x, hx⟩ := Classical.not_forall.1 hf
      have x1 : β + 1 ≤ x := Classical.byContradiction fun hn => hx fun h => absurd h hn
      have x2 : x < b + c.numBlocks := Classical.byContradiction fun hn => hx fun _ h => absurd h hn
      have x3 : gd ch (x % c.numBlocks) := Classical.byContradiction fun hn => hx fun _ _ => hn
      exact he.unique (h.e1 b x h1 x1 x2 h4 x3)
  have fc : ∀ l i, i < c.numBlocks → c.fcp i = c.fcp (l * c.numBlocks + i) := by
    intro l i hi
    exact fcp_congr hc (by rw [(vb l i hi).1, Nat.mod_eq_of_lt hi])
  refine ⟨hr, hg, ?_, ?_, ?_, ?_⟩
  · intro i hi hgi e he
    obtain ⟨v1, v2⟩ := vb (β / c.numBlocks) i (by omega)
    rw [fc (β / c.numBlocks) i (by omega)] at he
    have := key _ (by omega) (by omega) (by rw [v1]; exact hgi) e he
    rw [this, v2]
  · intro i i' h1 h3 hgi hgi'
    obtain ⟨v1, v2⟩ := vb (β / c.numBlocks) i' (by omega)
    obtain ⟨w1, _⟩ := vb (β / c.numBlocks) i (by omega)
    have := h.e1 (β / c.numBlocks * c.numBlocks + i') (β / c.numBlocks * c.numBlocks + i + c.numBlocks) (by omega) (by omega) (by omega)
      (by rw [v1]; exact hgi') (by rw [Nat.add_mod_right, w1]; exact hgi)
    rw [v2] at this
    rw [fc (β / c.numBlocks) i' (by omega)]; exact this
  · obtain ⟨b', a1, a2, a3⟩ := h2.next β
    have := h.e1 β b' (by omega) (by omega) a2 hg a3
    rw [fcp_congr hc (b := β % c.numBlocks) (b' := β) (Nat.mod_mod _ _)]; exact this
  · intro i h1 h3 hgi e he hL
    by_cases hl : β / c.numBlocks = 0
    · rw [hl, Nat.zero_mul] at d
      exact h.e3 i (by omega) h3 hgi e he
    · obtain ⟨l, hl'⟩ : ∃ l, β / c.numBlocks = l + 1 := Nat.exists_eq_succ_of_ne_zero hl
      obtain ⟨v1, v2⟩ := vb l i h3
      rw [hl', Nat.add_mul, Nat.one_mul] at d
      rw [fc l i h3] at he
      have := key _ (by omega) (by omega) (by rw [v1]; exact hgi) e he
      rw [v2, hL, hl'] at this
      exact ofNat_ne_succ l this.symm

/-- At or before the last block of the lap, a checkpoint of the lap is found; behind it none is. -/
theorem Lap.find (hc : c.Valid) {n : Nand} {r : Nat} {L : UInt8} (h : Lap c n.chip r L) (hr : RdOk c n) (hs : SparseBad c n.chip) (mid : Nat) :
    (mid ≤ r → ∃ i b, findCheckblock c n maxRetries mid = some (i, b) ∧ hdrGetEpoch b = L ∧ mid ≤ i ∧ i ≤ r) ∧
    (r < mid → findCheckblock c n maxRetries mid = none ∨
      ∃ i b, findCheckblock c n maxRetries mid = some (i, b) ∧ hdrGetEpoch b ≠ L) := by
  have hlt := h.lt
  have hN := hc.blocks_lo
  constructor
  · intro hm
    -- a block with a checkpoint in reach
    have hx : ∃ x, mid ≤ x ∧ x < mid + 8 ∧ x ≤ r ∧ gd n.chip x ∧ MagicAt n.chip (c.fcp x) L := by
      by_cases h8 : r < mid + 8
      · exact ⟨r, hm, h8, Nat.le_refl _, h.good, h.mr⟩
      · obtain ⟨a, b, a1, a2, a3, a4, a5⟩ := hs mid (by omega)
        exact ⟨b, by omega, by omega, by omega, a5, h.m2 a b a2 (by omega) a4 a5⟩
    obtain ⟨x, x1, x2, x3, x4, x5⟩ := hx
    rcases findCheckblock_spec hc hr maxRetries mid with ⟨i, b, h1, h2, h3, h4, h5, h6, h7⟩ | ⟨h1, h2⟩
    · have hi : i ≤ x := Classical.byContradiction fun hn => h7 x x1 (by omega) x4 L x5
      exact ⟨i, b, h1, h.m1 i (by omega) h5 _ h6, h2, by omega⟩
    · exact absurd x5 (h2 x x1 x2 (by omega) x4 L)
  · intro hm
    rcases findCheckblock_spec hc hr maxRetries mid with ⟨i, b, h1, h2, h3, h4, h5, h6, h7⟩ | ⟨h1, h2⟩
    · exact Or.inr ⟨i, b, h1, h.m3 i (by omega) h4 h5 _ h6⟩
    · exact Or.inl h1

/-- journal.c:250-280 -/
theorem findLastCheckblockLoop_ok (hc : c.Valid) {n : Nand} {r first : Nat} {L : UInt8} (h : Lap c n.chip r L) (hr : RdOk c n)
    (hs : SparseBad c n.chip) : ∀ fuel low high, low ≤ r → r ≤ high → high < c.numBlocks → high + 1 < low + fuel + 1 →
    findLastCheckblockLoop c n L first fuel low high = .ok r := by
  have hlt := h.lt
  intro fuel
  induction fuel with
  | zero => intro low high h1 h2 h3 h4; omega
  | succ fuel ih =>
    intro low high h1 h2 h3 h4
    unfold findLastCheckblockLoop
    rw [if_pos (by omega)]
    have hmid : (low + high) >>> 1 = (low + high) / 2 := Nat.shiftRight_eq_div_pow _ 1
    simp only [hmid]
    generalize hm : (low + high) / 2 = mid
    have hm1 : low ≤ mid := by omega
    have hm2 : mid ≤ high := by omega
    by_cases hmr : mid ≤ r
    · obtain ⟨i, b, e1, e2, e3, e4⟩ := (h.find hc hr hs mid).1 hmr
      rw [e1]
      simp only
      rw [if_neg (by rw [e2]; exact fun h => h rfl)]
      by_cases hir : i = r
      · subst hir
        by_cases hl : i + 1 ≥ c.numBlocks
        · rw [if_pos hl]
        · rw [if_neg hl]
          rcases (h.find hc hr hs (i + 1)).2 (by omega) with f1 | ⟨i', b', f1, f2⟩
          · rw [f1]
          · rw [f1]; simp only; rw [if_pos f2]
      · rw [if_neg (by omega)]
        obtain ⟨i', b', f1, f2, f3, f4⟩ := (h.find hc hr hs (i + 1)).1 (by omega)
        rw [f1]
        simp only
        rw [if_neg (by rw [f2]; exact fun h => h rfl)]
        exact ih i' high f4 h2 h3 (by omega)
    · rcases (h.find hc hr hs mid).2 (by omega) with f1 | ⟨i', b', f1, f2⟩
      · rw [f1]; simp only
        rw [if_neg (by omega)]
        exact ih low (mid - 1) h1 (by omega) (by omega) (by omega)
      · rw [f1]; simp only
        rw [if_pos f2, if_neg (by omega)]
        exact ih low (mid - 1) h1 (by omega) (by omega) (by omega)

/-- journal.c:299-309 -/
theorem cpFree_iff {n : Nand} {p : Nat} : cpFree c n p = true ↔ ∀ i, i < c.ppc → n.chip.free (p + i) = true := by
  unfold cpFree nandIsFree
  rw [List.all_eq_true]
  constructor
  · intro h i hi; exact h i (List.mem_range.2 hi)
  · intro h i hi; exact h i (List.mem_range.1 hi)

/-- journal.c:311-340, when the groups up to `ℓ` have been used and the others have not. -/
theorem findLastGroupLoop_ok {n : Nand} {blk G ℓ : Nat} (hG : ℓ < G)
    (hp : ∀ m, m < G → (m <<< c.log2Ppc) ||| (blk <<< c.log2Ppb) = blk * c.ppb + m * c.ppc)
    (hu : ∀ m, m ≤ ℓ → cpFree c n (blk * c.ppb + m * c.ppc) = false)
    (hf : ∀ m, ℓ < m → m < G → cpFree c n (blk * c.ppb + m * c.ppc) = true) : ∀ fuel low hi, low ≤ ℓ → ℓ < hi → hi ≤ G →
    hi < low + fuel → findLastGroupLoop c n blk G fuel low hi = .ok (blk * c.ppb + ℓ * c.ppc) := by
  intro fuel
  induction fuel with
  | zero => intro low hi h1 h2 h3 h4; omega
  | succ fuel ih =>
    intro low hi h1 h2 h3 h4
    unfold findLastGroupLoop
    rw [if_pos (by omega)]
    have hmid : (low + (hi - 1)) >>> 1 = (low + (hi - 1)) / 2 := Nat.shiftRight_eq_div_pow _ 1
    simp only [hmid]
    generalize hm : (low + (hi - 1)) / 2 = mid
    have hm1 : low ≤ mid := by omega
    have hm2 : mid < hi := by omega
    rw [hp mid (by omega)]
    by_cases hml : mid ≤ ℓ
    · rw [hu mid hml]
      simp only [Bool.false_eq_true, if_false]
      have e : blk * c.ppb + mid * c.ppc + c.ppc = blk * c.ppb + (mid + 1) * c.ppc := by
        rw [Nat.add_mul, Nat.one_mul]; omega
      by_cases hme : mid = ℓ
      · subst hme
        rw [if_pos]
        by_cases hl : mid + 1 ≥ G
        · simp [hl]
        · rw [e, hf (mid + 1) (by omega) (by omega)]; simp
      · rw [e, hu (mid + 1) (by omega)]
        rw [if_neg (by simp; omega)]
        exact ih (mid + 1) hi (by omega) h2 h3 (by omega)
    · rw [hf mid (by omega) (by omega)]
      simp only [if_true]
      exact ih low mid h1 (by omega) (by omega) (by omega)

/-! ### Inside the block -/

/-- Groups per block. -/
def Cfg.gpb (c : Cfg) : Nat := 2 ^ (c.log2Ppb - c.log2Ppc)

theorem gpb_mul (hc : c.Valid) : c.gpb * c.ppc = c.ppb := by
  have := hc.ppc_facts.2.1
  unfold Cfg.gpb Cfg.ppc Cfg.ppb
  rw [← Nat.pow_add]; congr 1; omega

theorem gpb_pos (c : Cfg) : 0 < c.gpb := Nat.two_pow_pos _

theorem grp_lt (hc : c.Valid) {m i : Nat} (hm : m < c.gpb) (hi : i < c.ppc) : m * c.ppc + i < c.ppb := by
  rw [← gpb_mul hc]
  have := Nat.mul_le_mul_right c.ppc (show m + 1 ≤ c.gpb from hm)
  rw [Nat.add_mul, Nat.one_mul] at this; omega

theorem ph_in_blk (c : Cfg) {β x : Nat} (hx : x < c.ppb) :
    c.ph (β * c.ppb + x) = β % c.numBlocks * c.ppb + x ∧ (β * c.ppb + x) / c.ppb = β ∧ (β * c.ppb + x) % c.ppb = x := by
  have h1 := div_of_range (k := β) (v := β * c.ppb + x) (ppb_pos c) (by omega) (by omega)
  have h2 := mod_of_range (k := β) (v := β * c.ppb + x) (m := c.ppb) (by omega) (by omega)
  refine ⟨?_, h1, by omega⟩
  rw [ph_eq_div_mod, h1, h2]; omega

theorem grp_mod (hc : c.Valid) (β m : Nat) : (β * c.ppb + m * c.ppc) % c.ppc = 0 := by
  rw [Nat.add_mul_mod_self_right]
  exact mod_ppc_of_ppb_zero hc (Nat.mul_mod_left _ _)

/-- journal.c:311-340: a group's first page. -/
theorem grp_page (hc : c.Valid) {blk m : Nat} (hm : m < c.gpb) :
    (m <<< c.log2Ppc) ||| (blk <<< c.log2Ppb) = blk * c.ppb + m * c.ppc := by
  have h1 : m <<< c.log2Ppc < 2 ^ c.log2Ppb := by
    rw [Nat.shiftLeft_eq]
    have := grp_lt hc hm (ppc_pos c)
    unfold Cfg.ppb Cfg.ppc at this; omega
  rw [Nat.or_comm, ← Nat.shiftLeft_add_eq_or_of_lt h1, Nat.shiftLeft_eq, Nat.shiftLeft_eq]; rfl

/-- journal.c:342-366 -/
theorem findRootLoop_ok (hc : c.Valid) {n : Nand} {β lam : Nat} {L : UInt8} {b : Buf} (hr : RdOk c n)
    (hnm : ∀ m, lam < m → m < c.gpb → ∀ e, ¬ MagicAt n.chip (c.ph (β * c.ppb + m * c.ppc + (c.ppc - 1))) e)
    (hp : n.chip.page (c.ph (β * c.ppb + lam * c.ppc + (c.ppc - 1))) = some b) (hm : hdrHasMagic b = true) (he : hdrGetEpoch b = L) :
    ∀ k, lam < k → k ≤ c.gpb → findRootLoop c n L (β % c.numBlocks) k =
      .ok (c.ph (β * c.ppb + lam * c.ppc + (c.ppc - 2)), c.clip b) := by
  have h4 := hc.ppc_ge
  intro k
  induction k with
  | zero => intro h; omega
  | succ k ih =>
    intro h1 h2
    have hpos : ∀ i, i < c.ppc → c.ph (β * c.ppb + k * c.ppc + i) = β % c.numBlocks * c.ppb + (k * c.ppc + i) := by
      intro i hi
      rw [Nat.add_assoc]
      exact (ph_in_blk c (grp_lt hc (by omega) hi)).1
    have e : ((β % c.numBlocks) <<< c.log2Ppb) + ((k + 1) <<< c.log2Ppc) - 1 = c.ph (β * c.ppb + k * c.ppc + (c.ppc - 1)) := by
      rw [hpos _ (by omega), shl_ppb, Nat.shiftLeft_eq]
      show _ + (k + 1) * c.ppc - 1 = _
      rw [Nat.add_mul, Nat.one_mul]; omega
    unfold findRootLoop
    simp only
    rw [e, nandRead_page hc hr (ph_lt hc _)]
    by_cases hk : k = lam
    · subst hk
      obtain ⟨m1, m2, _⟩ := clip_magic hc b
      rw [hp]
      simp only
      rw [m1, m2, hm, he]
      simp only [beq_self_eq_true, Bool.and_self, if_true]
      congr 2
      rw [hpos _ (by omega), hpos _ (by omega)]; omega
    · have ih' := ih (by omega) (by omega)
      cases hpg : n.chip.page (c.ph (β * c.ppb + k * c.ppc + (c.ppc - 1))) with
      | none => exact ih'
      | some b' =>
        simp only
        rw [if_neg]
        · exact ih'
        · intro hh
          rw [Bool.and_eq_true] at hh
          obtain ⟨m1, _⟩ := clip_magic hc b'
          exact hnm k (by omega) (by omega) _ ⟨b', hpg, by rw [← m1]; exact hh.1, rfl⟩

/-- journal.c:391-393 -/
theorem trailFree_spec (c : Cfg) (n : Nand) (first : Nat) : ∀ k cnt, cnt + k ≤ c.ppc →
    (∀ i, i < cnt → n.chip.free (first + c.ppc - i - 1) = true) →
    cnt ≤ trailFree c n first k cnt ∧ trailFree c n first k cnt ≤ cnt + k ∧
    (∀ i, i < trailFree c n first k cnt → n.chip.free (first + c.ppc - i - 1) = true) ∧
    (trailFree c n first k cnt < cnt + k → n.chip.free (first + c.ppc - trailFree c n first k cnt - 1) = false) := by
  intro k
  induction k with
  | zero => intro cnt _ h; unfold trailFree; exact ⟨Nat.le_refl _, by omega, h, fun h => by omega⟩
  | succ k ih =>
    intro cnt hle h
    unfold trailFree
    by_cases hf : nandIsFree n (first + c.ppc - cnt - 1) = true
    · rw [if_pos hf]
      obtain ⟨a1, a2, a3, a4⟩ := ih (cnt + 1) (by omega) (fun i hi => by
        by_cases hi' : i = cnt
        · rw [hi']; exact hf
        · exact h i (by omega))
      exact ⟨by omega, by omega, a3, fun h => a4 (by omega)⟩
    · rw [if_neg hf]
      refine ⟨Nat.le_refl _, by omega, h, fun _ => ?_⟩
      unfold nandIsFree at hf
      exact Bool.eq_false_iff.2 hf

/-- The trailing free pages of the group at position `g`. -/
theorem trailFree_grp (c : Cfg) (n : Nand) (first : Nat) :
    trailFree c n first c.ppc 0 ≤ c.ppc ∧
    (∀ i, c.ppc - trailFree c n first c.ppc 0 ≤ i → i < c.ppc → n.chip.free (first + i) = true) ∧
    (1 < trailFree c n first c.ppc 0 ↔ (1 < c.ppc ∧ n.chip.free (first + (c.ppc - 2)) = true ∧ n.chip.free (first + (c.ppc - 1)) = true)) ∧
    (trailFree c n first c.ppc 0 = c.ppc ↔ cpFree c n first = true) := by
  obtain ⟨_, a2, a3, a4⟩ := trailFree_spec c n first c.ppc 0 (by omega) (fun i hi => by omega)
  generalize trailFree c n first c.ppc 0 = cnt at *
  have fr : ∀ i, c.ppc - cnt ≤ i → i < c.ppc → n.chip.free (first + i) = true := by
    intro i h1 h2
    have := a3 (c.ppc - 1 - i) (by omega)
    rw [show first + c.ppc - (c.ppc - 1 - i) - 1 = first + i by omega] at this; exact this
  refine ⟨by omega, fr, ⟨fun h => ⟨by omega, fr _ (by omega) (by omega), fr _ (by omega) (by omega)⟩, ?_⟩, ⟨?_, ?_⟩⟩
  · rintro ⟨h0, h1, h2⟩
    apply Classical.byContradiction; intro hn
    have h5 := a4 (by omega)
    by_cases h : cnt = 0
    · subst h
      rw [show first + c.ppc - 0 - 1 = first + (c.ppc - 1) by omega, h2] at h5; cases h5
    · have : cnt = 1 := by omega
      subst this
      rw [show first + c.ppc - 1 - 1 = first + (c.ppc - 2) by omega, h1] at h5; cases h5
  · intro h
    rw [cpFree_iff]
    intro i hi
    exact fr i (by omega) hi
  · intro h
    rw [cpFree_iff] at h
    apply Classical.byContradiction; intro hn
    have h5 := a4 (by omega)
    have := h (c.ppc - 1 - cnt) (by omega)
    rw [show first + (c.ppc - 1 - cnt) = first + c.ppc - cnt - 1 by omega, h5] at this; cases this

/-- The journal with head, tail, epoch and statistics replaced. -/
def Journal.headed (j : Journal) (h t : Nat) (e : UInt8) (x y : Nat) : Journal :=
  { j with head := h, tail := t, epoch := e, bbCurrent := x, bbLast := y }

/-- journal.c:384-417: one round of the search, in the group at `g`. -/
theorem findHeadLoop_step (hc : c.Valid) {n : Nand} {β m vtc : Nat} (hm : m < c.gpb) (j : Journal)
    (hh : ∃ i, i < c.ppc ∧ j.head = c.ph (β * c.ppb + m * c.ppc) + i)
    (ht : j.tail = c.ph vtc) (hlo : vtc / c.ppb ≤ β) (hhi : β < vtc / c.ppb + c.numBlocks)
    (hep : j.epoch = UInt8.ofNat (β / c.numBlocks)) (fuel : Nat) :
    let cnt := trailFree c n (c.ph (β * c.ppb + m * c.ppc)) c.ppc 0
    (1 < cnt → findHeadLoop c n (fuel + 1) j = .ok (j.headed (c.ph (β * c.ppb + m * c.ppc + (c.ppc - cnt))) (c.ph vtc)
      (UInt8.ofNat (β / c.numBlocks)) j.bbCurrent j.bbLast)) ∧
    (¬ 1 < cnt → m + 1 < c.gpb → findHeadLoop c n (fuel + 1) j = findHeadLoop c n fuel
      { j with head := c.ph (β * c.ppb + (m + 1) * c.ppc) }) ∧
    (¬ 1 < cnt → m + 1 = c.gpb → ∃ x y, findHeadLoop c n (fuel + 1) j = .ok (j.headed (c.ph ((β + 1) * c.ppb))
      (c.ph (if β + 1 = vtc / c.ppb + c.numBlocks then (vtc / c.ppb + 1) * c.ppb else vtc))
      (UInt8.ofNat ((β + 1) / c.numBlocks)) x y)) := by
  have h4 := hc.ppc_ge
  have hN := hc.blocks_lo
  intro cnt
  have hx := grp_lt hc hm (ppc_pos c)
  have hx' := grp_lt hc hm (i := c.ppc - 1) (by omega)
  obtain ⟨p1, p2, p3⟩ := ph_in_blk c (β := β) (x := m * c.ppc) (by omega)
  have hal : c.ph (β * c.ppb + m * c.ppc) % c.ppc = 0 := by rw [ph_mod_ppc hc]; exact grp_mod hc _ _
  have hrl := Nat.mod_lt β (show 0 < c.numBlocks by omega)
  have hpg : c.ph (β * c.ppb + m * c.ppc) + c.ppc ≤ c.pages := by
    have := Nat.mul_le_mul_right c.ppb (show β % c.numBlocks + 1 ≤ c.numBlocks by omega)
    rw [Nat.add_mul, Nat.one_mul] at this
    unfold Cfg.pages; omega
  have hfirst : j.head - (j.head &&& (c.ppc - 1)) = c.ph (β * c.ppb + m * c.ppc) := by
    obtain ⟨i, hi, e⟩ := hh
    rw [slot_eq, e]
    have := (div_add_lt (v := c.ph (β * c.ppb + m * c.ppc)) (k := i) (m := c.ppc) (by omega)).2
    rw [this, hal]; omega
  have hcnt : cnt ≤ c.ppc := (trailFree_grp c n _).1
  refine ⟨?_, ?_, ?_⟩
  · intro h1
    unfold findHeadLoop
    simp only [hfirst]
    rw [if_pos h1]
    congr 1
    have e : c.ph (β * c.ppb + m * c.ppc + (c.ppc - cnt)) = c.ph (β * c.ppb + m * c.ppc) + c.ppc - cnt := by
      rw [Nat.add_assoc, (ph_in_blk c (β := β) (x := m * c.ppc + (c.ppc - cnt)) (grp_lt hc hm (by omega))).1, p1]; omega
    rw [e, ← ht, ← hep]; rfl
  · intro h1 h2
    conv => lhs; unfold findHeadLoop
    simp only [hfirst]
    rw [if_neg h1]
    have e : c.ph (β * c.ppb + (m + 1) * c.ppc) = c.ph (β * c.ppb + m * c.ppc) + c.ppc := by
      have := grp_lt hc h2 (ppc_pos c)
      rw [(ph_in_blk c (β := β) (x := (m + 1) * c.ppc) (by omega)).1, p1, Nat.add_mul, Nat.one_mul]; omega
    have hlt : c.ph (β * c.ppb + m * c.ppc) + c.ppc < c.pages := by rw [← e]; exact ph_lt hc _
    have hj : (if (c.ph (β * c.ppb + m * c.ppc) + c.ppc) ≥ c.pages then
        rollStats { { j with head := c.ph (β * c.ppb + m * c.ppc) + c.ppc } with head := 0 }
        else { j with head := c.ph (β * c.ppb + m * c.ppc) + c.ppc }) =
        { j with head := c.ph (β * c.ppb + m * c.ppc) + c.ppc } := by rw [if_neg (by omega)]
    generalize (if (c.ph (β * c.ppb + m * c.ppc) + c.ppc) ≥ c.pages then
        rollStats { { j with head := c.ph (β * c.ppb + m * c.ppc) + c.ppc } with head := 0 }
        else { j with head := c.ph (β * c.ppb + m * c.ppc) + c.ppc }) = j1 at hj ⊢
    have hna : isAligned (c.ph (β * c.ppb + m * c.ppc) + c.ppc) c.log2Ppb = false := by
      rw [Bool.eq_false_iff]
      intro ha
      rw [isAligned_iff] at ha
      change _ % c.ppb = 0 at ha
      have := grp_lt hc h2 (ppc_pos c)
      rw [← e, ph_mod_ppb, (ph_in_blk c (β := β) (x := (m + 1) * c.ppc) (by omega)).2.2, Nat.add_mul, Nat.one_mul] at ha
      omega
    rw [if_neg (by rw [hj]; show ¬ isAligned (c.ph (β * c.ppb + m * c.ppc) + c.ppc) c.log2Ppb = true; rw [hna]; exact Bool.false_ne_true), e, hj]
  · intro h1 h2
    have hsz : m * c.ppc + c.ppc = c.ppb := by
      have := gpb_mul hc
      rw [← h2, Nat.add_mul, Nat.one_mul] at this; exact this
    unfold findHeadLoop
    simp only [hfirst]
    rw [if_neg h1]
    -- the head after the step
    have hl := lap_step hc (v := β * c.ppb) (w := (β + 1) * c.ppb) (by rw [Nat.add_mul, Nat.one_mul]; have := ppb_pos c; omega)
      (by rw [Nat.mul_div_cancel _ (ppb_pos c)]; exact Nat.le_refl _)
    have hlap : ∀ b, b * c.ppb / c.pages = b / c.numBlocks := by
      intro b; unfold Cfg.pages; exact Nat.mul_div_mul_right _ _ (ppb_pos c)
    rw [hlap, hlap] at hl
    have hj : ∃ x y, (if (c.ph (β * c.ppb + m * c.ppc) + c.ppc) ≥ c.pages then
        rollStats { { j with head := c.ph (β * c.ppb + m * c.ppc) + c.ppc } with head := 0 }
        else { j with head := c.ph (β * c.ppb + m * c.ppc) + c.ppc }) =
        j.headed (c.ph ((β + 1) * c.ppb)) j.tail (UInt8.ofNat ((β + 1) / c.numBlocks)) x y := by
      by_cases hw : c.ph (β * c.ppb + m * c.ppc) + c.ppc ≥ c.pages
      · rw [if_pos hw]
        have hbn : β % c.numBlocks + 1 = c.numBlocks := by
          apply Classical.byContradiction; intro hn
          have := Nat.mul_le_mul_right c.ppb (show β % c.numBlocks + 1 + 1 ≤ c.numBlocks by omega)
          rw [Nat.add_mul, Nat.add_mul, Nat.one_mul] at this
          have := ppb_pos c
          unfold Cfg.pages at hw; omega
        obtain ⟨a1, a2⟩ := div_add_eq hbn (by omega)
        rcases hl with ⟨l1, l2⟩ | ⟨l1, l2⟩
        · refine ⟨0, j.bbCurrent, ?_⟩
          rw [l1, l2, ofNat_succ8, ← hep]; rfl
        · rw [a1] at l2; omega
      · rw [if_neg hw]
        have hb1 : β % c.numBlocks + 1 < c.numBlocks := by
          apply Classical.byContradiction; intro hn
          have : β % c.numBlocks + 1 = c.numBlocks := by omega
          have := congrArg (· * c.ppb) this
          simp only [Nat.add_mul, Nat.one_mul] at this
          unfold Cfg.pages at hw; omega
        obtain ⟨a1, a2⟩ := div_add_lt hb1
        refine ⟨j.bbCurrent, j.bbLast, ?_⟩
        have e : c.ph ((β + 1) * c.ppb) = c.ph (β * c.ppb + m * c.ppc) + c.ppc := by
          rw [← mul_ppb_ph, a2, p1, Nat.add_mul, Nat.one_mul]; omega
        rw [e, a1, ← hep]; rfl
    obtain ⟨x, y, hj⟩ := hj
    generalize (if (c.ph (β * c.ppb + m * c.ppc) + c.ppc) ≥ c.pages then
        rollStats { { j with head := c.ph (β * c.ppb + m * c.ppc) + c.ppc } with head := 0 }
        else { j with head := c.ph (β * c.ppb + m * c.ppc) + c.ppc }) = j1 at hj ⊢
    subst hj
    refine ⟨x, y, ?_⟩
    rw [if_pos (by
      rw [isAligned_iff]
      show c.ph ((β + 1) * c.ppb) % c.ppb = 0
      rw [ph_mod_ppb, Nat.mul_mod_left])]
    have hae : alignEq (c.ph ((β + 1) * c.ppb)) (c.ph vtc) c.log2Ppb = decide (β + 1 = vtc / c.ppb + c.numBlocks) := by
      rw [Bool.eq_iff_iff, alignEq_iff, decide_eq_true_iff]
      change c.ph ((β + 1) * c.ppb) / c.ppb = c.ph vtc / c.ppb ↔ _
      rw [ph_div_ppb, ph_div_ppb, Nat.mul_div_cancel _ (ppb_pos c)]
      constructor
      · intro h
        have e := Nat.add_mod_right (vtc / c.ppb) c.numBlocks
        rw [← h] at e
        exact (mod_inj (base := vtc / c.ppb + 1) (m := c.numBlocks) (by omega) (by omega) (by omega) (by omega) e).symm
      · intro h; rw [h, Nat.add_mod_right]
    show (if alignEq (c.ph ((β + 1) * c.ppb)) j.tail c.log2Ppb = true then _ else _) = _
    rw [ht, hae]
    by_cases hw : β + 1 = vtc / c.ppb + c.numBlocks
    · rw [if_pos (by simp [hw]), if_pos hw]
      congr 1
      have := (nextBlk_pos hc vtc).1
      rw [← this]; rfl
    · rw [if_neg (by simp [hw]), if_neg hw]

end Dhara

/-
Properties C18-C21 of the journal and C25 of lookups.
-/
import Verif.Proofs.Queue
import Verif.Props.MapSpec
namespace Dhara

variable {c : Cfg}

/-! ### Queue order -/

theorem dist_ph (hc : c.Valid) {a v : Nat} (h1 : a ≤ v) (h2 : v < a + c.pages) : c.dist (c.ph a) (c.ph v) = v - a := by
  have hp := hc.pages_pos
  have ha := ph_lt hc a
  have hv := ph_lt hc v
  unfold Cfg.dist
  obtain ⟨k, hk⟩ : ∃ k, v = a + k := ⟨v - a, by omega⟩
  subst hk
  have hk : k < c.pages := by omega
  have e : c.ph (a + k) = (c.ph a + k) % c.pages := by unfold Cfg.ph; rw [Nat.mod_add_mod]
  rw [e]
  have e2 : (c.ph a + k) % c.pages = if c.ph a + k < c.pages then c.ph a + k else c.ph a + k - c.pages := by
    split
    · exact Nat.mod_eq_of_lt (by assumption)
    · rw [Nat.mod_eq_sub_mod (by omega), Nat.mod_eq_of_lt (by omega)]
  rw [e2]
  split
  · rw [show c.ph a + k + c.pages - c.ph a = k + c.pages by omega, Nat.add_mod_right, Nat.mod_eq_of_lt hk]; omega
  · rw [show c.ph a + k - c.pages + c.pages - c.ph a = k by omega, Nat.mod_eq_of_lt hk]; omega

theorem userPage_ph (hc : c.Valid) {v : Nat} (h : c.isU v) : c.UserPage (c.ph v) :=
  ⟨ph_lt hc v, by rw [ph_mod_ppc hc]; exact h⟩

/-- A page between the synchronised tail and the head has a position in the queue. -/
theorem between_pos (hc : c.Valid) {s : S} {vts vt vh p : Nat} (g : Geo0 c s vts vt vh)
    (h : c.Between s.j.tailSync p s.j.head) : ∃ v, vts ≤ v ∧ v < vh ∧ c.isU v ∧ p = c.ph v := by
  have hsz := g.size_lt
  have hl := g.l1
  have hl2 := g.l2
  have hp := hc.pages_pos
  obtain ⟨⟨h1, h2⟩, h3⟩ := h
  rw [g.ets, g.eh, dist_ph hc (by omega) hsz] at h3
  have ha := ph_lt hc vts
  have hd : c.dist (c.ph vts) p < c.pages := Nat.mod_lt _ hp
  have hpe : c.ph (vts + c.dist (c.ph vts) p) = p := by
    have : c.ph (vts + c.dist (c.ph vts) p) = (c.ph vts + c.dist (c.ph vts) p) % c.pages := by unfold Cfg.ph; rw [Nat.mod_add_mod]
    rw [this]
    unfold Cfg.dist
    rw [Nat.add_mod_mod, show c.ph vts + (p + c.pages - c.ph vts) = p + c.pages by omega, Nat.add_mod_right, Nat.mod_eq_of_lt h1]
  refine ⟨vts + c.dist (c.ph vts) p, by omega, by omega, ?_, hpe.symm⟩
  unfold Cfg.isU; rw [← ph_mod_ppc hc, hpe]; exact h2

theorem QInv.pointers (hc : c.Valid) {s : S} {vts vt vh vr vR vM vn : Nat} (h : QInv c s vts vt vh vr vR vM vn) : Pointers c s.j := by
  have g := h.geo
  have hsz := g.size_lt
  have hl := g.l1
  have hl2 := g.l2
  refine ⟨by rw [g.eh]; exact userPage_ph hc g.uh, by rw [g.et]; exact userPage_ph hc g.ut, by rw [g.ets]; exact userPage_ph hc g.uts, ?_, ?_, ?_⟩
  · rw [g.ets, g.et, g.eh, dist_ph hc hl (by omega), dist_ph hc (by omega) hsz]; omega
  · rcases h.root with h0 | ⟨a1, a2, a3, a4⟩
    · exact Or.inl h0
    · right
      unfold Cfg.Between
      rw [a1, g.ets, g.et, g.eh, dist_ph hc hl (by omega), dist_ph hc (by omega) hsz, dist_ph hc (by omega) (by omega)]
      exact ⟨⟨userPage_ph hc a4, by omega⟩, by omega⟩
  · rw [g.ets, g.eh]
    intro he
    have hb := g.win.blk_inj (by omega) (Nat.le_refl _) (Nat.le_refl _) (by omega) he
    rw [ph_eq_div_mod, ph_eq_div_mod c vh, hb]
    have d1 := div_mod_range vts c.ppb
    have d2 := div_mod_range vh c.ppb
    rw [hb] at d2
    omega

/-- C18 for users of the journal: after every history of journal calls, recoveries included. -/
theorem journal_pointers_valid (hc : c.Valid) (s : S) (h : JHist c s) : Pointers c s.j := by
  obtain ⟨vts, vt, vh, vr, vR, vM, vn, hq⟩ := h.inv hc
  exact hq.pointers hc

/-- C18 for users of the map: after every history of map calls. -/
theorem map_pointers_valid (hc : c.Valid) (s : S) (h : Hist c s) : Pointers c s.j := by
  obtain ⟨evs, _, hrep⟩ := h.rep hc
  obtain ⟨⟨_, _, _, _, hI⟩, _⟩ := hrep 0
  exact hI.q.pointers hc

/-! ### C21: size and capacity -/

theorem slots_length (hc : c.Valid) (a : Nat) : ∀ n,
    (((List.range n).map fun i => (c.ph a + i) % c.pages).filter fun p => p % c.ppc ≠ c.ppc - 1).length + ((a + n) / c.ppc - a / c.ppc) = n := by
  intro n
  have hC := ppc_pos c
  induction n with
  | zero => simp
  | succ n ih =>
    have hm : (c.ph a + n) % c.pages % c.ppc = (a + n) % c.ppc := by
      rw [Nat.mod_mod_of_dvd _ hc.ppc_dvd_pages, Nat.add_mod, ph_mod_ppc hc, ← Nat.add_mod]
    have hle : a / c.ppc ≤ (a + n) / c.ppc := Nat.div_le_div_right (by omega)
    rw [List.range_succ, List.map_append, List.filter_append, List.length_append]
    simp only [List.map_cons, List.map_nil]
    by_cases h : (a + n) % c.ppc = c.ppc - 1
    · have hs := (div_add_eq (v := a + n) (k := 1) (m := c.ppc) (by omega) hC).1
      rw [List.filter_cons_of_neg (by simp [hm, h]), List.filter_nil, List.length_nil]
      rw [show a + (n + 1) = a + n + 1 by omega, hs]
      omega
    · have hl := mod_ppc_lt c (a + n)
      have hs := (div_add_lt (v := a + n) (k := 1) (m := c.ppc) (by omega)).1
      rw [List.filter_cons_of_pos (by simp [hm, h]), List.filter_nil, List.length_cons, List.length_nil]
      rw [show a + (n + 1) = a + n + 1 by omega, hs]
      omega

theorem sub32_of_le {a b : Nat} (h : b ≤ a) (ha : a < 2 ^ 32) : sub32 a b = a - b := by
  unfold sub32
  rw [Nat.mod_eq_of_lt (by omega), if_pos h, Nat.mod_eq_of_lt (by omega)]

theorem journalSize_geo (hc : c.Valid) {s : S} {vts vt vh : Nat} (g : Geo0 c s vts vt vh) :
    journalSize c s.j = (vh - vts) - (vh / c.ppc - vts / c.ppc) := by
  have hsz := g.size_lt
  have hl := g.l1
  have hl2 := g.l2
  have hP := hc.pages_hi
  have hC := ppc_pos c
  have ha := ph_lt hc vts
  have hb := ph_lt hc vh
  obtain ⟨k, hk⟩ := hc.ppc_dvd_pages
  -- the head, one lap later if it has wrapped
  obtain ⟨w, hw1, hw2, hw3⟩ : ∃ w, (c.ph vts ≤ w ∧ w < c.ph vts + c.pages ∧ w = c.ph vts + (vh - vts)) ∧
      (if s.j.head < s.j.tailSync then (s.j.head + c.pages) % 2 ^ 32 else s.j.head) = w ∧
      (if s.j.head < s.j.tailSync then (s.j.head / c.ppc + c.pages / c.ppc) % 2 ^ 32 else s.j.head / c.ppc) = w / c.ppc := by
    have hd := dist_ph hc (a := vts) (v := vh) (by omega) hsz
    unfold Cfg.dist at hd
    rw [g.eh, g.ets]
    by_cases h : c.ph vh < c.ph vts
    · refine ⟨c.ph vh + c.pages, ?_, ?_, ?_⟩
      · rw [Nat.mod_eq_of_lt (by omega)] at hd; omega
      · rw [if_pos h, Nat.mod_eq_of_lt (by omega)]
      · have : (c.ph vh + c.pages) / c.ppc = c.ph vh / c.ppc + c.pages / c.ppc := by
          rw [hk, Nat.add_mul_div_left _ _ hC, Nat.mul_div_cancel_left _ hC]
        have h1 := Nat.div_le_self (c.ph vh) c.ppc
        have h2 := Nat.div_le_self c.pages c.ppc
        rw [if_pos h, this, Nat.mod_eq_of_lt (by omega)]
    · refine ⟨c.ph vh, ?_, by rw [if_neg h], by rw [if_neg h]⟩
      rw [show c.ph vh + c.pages - c.ph vts = c.ph vh - c.ph vts + c.pages by omega, Nat.add_mod_right, Nat.mod_eq_of_lt (by omega)] at hd
      omega
  have hdiv : w / c.ppc - c.ph vts / c.ppc = vh / c.ppc - vts / c.ppc := by
    have e1 := slots_length hc vts (vh - vts)
    have e2 := slots_length hc (c.ph vts) (vh - vts)
    have hpp : c.ph (c.ph vts) = c.ph vts := ph_of_lt ha
    rw [hpp, ← hw1.2.2] at e2
    rw [show vts + (vh - vts) = vh by omega] at e1
    omega
  have hle : c.ph vts / c.ppc ≤ w / c.ppc := Nat.div_le_div_right hw1.1
  have hwl := Nat.div_le_self w c.ppc
  unfold journalSize
  simp only [Nat.shiftRight_eq_div_pow, decide_eq_true_eq]
  have e0 : (2:Nat) ^ c.log2Ppc = c.ppc := rfl
  rw [e0, hw2, hw3, g.ets, sub32_of_le hw1.1 (by omega), sub32_of_le hle (by omega), sub32_of_le (by
    have e1 := slots_length hc vts (vh - vts)
    rw [show vts + (vh - vts) = vh by omega] at e1
    omega) (by omega), hdiv]
  omega

theorem QInv.size (hc : c.Valid) {s : S} {vts vt vh vr vR vM vn : Nat} (h : QInv c s vts vt vh vr vR vM vn) :
    journalSize c s.j = (c.slots s.j.tailSync s.j.head).length ∧ journalSize c s.j < c.pages - c.pages / c.ppc := by
  have g := h.geo
  have hsz := g.size_lt
  have hl := g.l1
  have hl2 := g.l2
  have hs := slots_length hc vts (vh - vts)
  have e1 : (c.slots s.j.tailSync s.j.head).length + (vh / c.ppc - vts / c.ppc) = vh - vts := by
    unfold Cfg.slots
    rw [g.ets, g.eh, dist_ph hc (by omega) hsz]
    rw [show vts + (vh - vts) = vh by omega] at hs
    exact hs
  have hj := journalSize_geo hc g.toGeo0
  refine ⟨by omega, ?_⟩
  -- one more lap has pages - pages / ppc user pages
  have hfull := slots_length hc vts c.pages
  obtain ⟨k, hk⟩ := hc.ppc_dvd_pages
  have hC := ppc_pos c
  have e2 : (vts + c.pages) / c.ppc = vts / c.ppc + c.pages / c.ppc := by
    rw [hk, Nat.add_mul_div_left _ _ hC, Nat.mul_div_cancel_left _ hC]
  rw [e2] at hfull
  have h1 := (nextV_le hc g.uh (w := vts + c.pages) (by
    unfold Cfg.isU; rw [hk, Nat.add_mul_mod_self_left]; exact g.uts) hsz)
  -- vh itself is a user page that is not counted
  have hs1 := slots_length hc vts (vh - vts + 1)
  have hs2 := slots_length hc vts (vh - vts + 1)
  rw [show vts + (vh - vts + 1) = vh + 1 by omega] at hs1
  have hu := g.uh
  unfold Cfg.isU at hu
  have hml := mod_ppc_lt c vh
  have hd1 := (div_add_lt (v := vh) (k := 1) (m := c.ppc) (by omega)).1
  have hd2 : (vh + 1) / c.ppc ≤ (vts + c.pages) / c.ppc := Nat.div_le_div_right (by omega)
  have hle : vts / c.ppc ≤ vh / c.ppc := Nat.div_le_div_right (by omega)
  have hmono : ∀ n m, n ≤ m → n - ((vts + n) / c.ppc - vts / c.ppc) ≤ m - ((vts + m) / c.ppc - vts / c.ppc) := by
    intro n m hnm
    induction hnm with
    | refl => exact Nat.le_refl _
    | @step m hnm ih =>
      have hA := slots_length hc vts m
      have hB := slots_length hc vts (m + 1)
      have : (vts + (m + 1)) / c.ppc ≤ (vts + m) / c.ppc + 1 := by
        have := Nat.div_le_div_right (c := c.ppc) (show vts + (m + 1) ≤ vts + m + c.ppc by omega)
        rw [Nat.add_div_right _ hC] at this; exact this
      have h3 : vts / c.ppc ≤ (vts + m) / c.ppc := Nat.div_le_div_right (by omega)
      have h4 : n - ((vts + n) / c.ppc - vts / c.ppc) ≤ (m + 1) - ((vts + (m + 1)) / c.ppc - vts / c.ppc) := by omega
      exact h4
  have := hmono (vh - vts + 1) c.pages (by omega)
  rw [show vts + (vh - vts + 1) = vh + 1 by omega, e2, hd1] at this
  omega

/-- C21 for users of the journal: the size is the number of user page slots from the synchronised tail to the
head, and is smaller than the number of user pages on the chip. -/
theorem journal_size_exact (hc : c.Valid) (s : S) (h : JHist c s) :
    journalSize c s.j = (c.slots s.j.tailSync s.j.head).length ∧ journalSize c s.j < c.pages - c.pages / c.ppc := by
  obtain ⟨vts, vt, vh, vr, vR, vM, vn, hq⟩ := h.inv hc
  exact hq.size hc

/-- C21 for users of the map. -/
theorem map_journal_size_exact (hc : c.Valid) (s : S) (h : Hist c s) :
    journalSize c s.j = (c.slots s.j.tailSync s.j.head).length ∧ journalSize c s.j < c.pages - c.pages / c.ppc := by
  obtain ⟨evs, _, hrep⟩ := h.rep hc
  obtain ⟨⟨_, _, _, _, hI⟩, _⟩ := hrep 0
  exact hI.q.size hc

/-- C21, capacity: the user pages of all blocks but one that are not believed bad. -/
theorem journal_capacity_exact (hc : c.Valid) (j : Journal) (h : max j.bbLast j.bbCurrent < c.numBlocks) :
    journalCapacity c j = (c.numBlocks - max j.bbLast j.bbCurrent - 1) * (c.ppb - c.ppb / c.ppc) := by
  have hmax : (if j.bbLast > j.bbCurrent then j.bbLast else j.bbCurrent) = max j.bbLast j.bbCurrent := by
    rw [Nat.max_def]; split <;> split <;> omega
  have hP := hc.pages_hi
  have hB := ppb_pos c
  have hnb : c.numBlocks ≤ c.pages := by unfold Cfg.pages; exact Nat.le_mul_of_pos_right _ hB
  obtain ⟨_, hle, _⟩ := hc.ppc_facts
  have hC := ppc_pos c
  unfold journalCapacity
  simp only
  have e01 : sub32 c.numBlocks (max j.bbLast j.bbCurrent) = c.numBlocks - max j.bbLast j.bbCurrent := sub32_of_le (by omega) (by omega)
  have e02 : sub32 (c.numBlocks - max j.bbLast j.bbCurrent) 1 = c.numBlocks - max j.bbLast j.bbCurrent - 1 :=
    sub32_of_le (by omega) (by omega)
  rw [hmax, e01, e02]
  generalize hg : c.numBlocks - max j.bbLast j.bbCurrent - 1 = g
  have hgl : g < c.numBlocks := by omega
  have hpow : 2 ^ (c.log2Ppb - c.log2Ppc) = c.ppb / c.ppc := by
    unfold Cfg.ppb Cfg.ppc; rw [Nat.pow_div hle (by omega)]
  have hgp : g * c.ppb ≤ c.pages := Nat.mul_le_mul_right _ (by omega)
  have hq : g * (c.ppb / c.ppc) ≤ g * c.ppb := Nat.mul_le_mul_left _ (Nat.div_le_self _ _)
  have hdd : c.ppb / c.ppc * c.ppc = c.ppb := Nat.div_mul_cancel hc.ppc_dvd
  have e1 : shl32 g (c.log2Ppb - c.log2Ppc) = g * (c.ppb / c.ppc) := by
    unfold shl32; rw [Nat.shiftLeft_eq, hpow, Nat.mod_eq_of_lt (by omega)]
  have e2 : shl32 (g * (c.ppb / c.ppc)) c.log2Ppc = g * c.ppb := by
    unfold shl32
    rw [Nat.shiftLeft_eq]
    show g * (c.ppb / c.ppc) * c.ppc % _ = _
    rw [Nat.mul_assoc, hdd, Nat.mod_eq_of_lt (by omega)]
  rw [e1, e2, sub32_of_le hq (by omega), Nat.mul_sub]

/-- C47: the map's capacity is the journal's capacity less the garbage-collection reserve (one in gc_ratio + 1 pages)
and a safety margin of eight blocks; it is 0 when these use up everything. -/
theorem map_capacity_exact (hc : c.Valid) (s : S) (h : max s.j.bbLast s.j.bbCurrent < c.numBlocks)
    (hm : 9 * c.pages < 2 ^ 32) :
    mapCapacity c s = journalCapacity c s.j - journalCapacity c s.j / (c.gcr + 1) - 8 * c.ppb := by
  have hcap := journal_capacity_exact hc s.j h
  have hle : journalCapacity c s.j ≤ c.pages := by
    rw [hcap]
    unfold Cfg.pages
    exact Nat.mul_le_mul (by omega) (Nat.sub_le _ _)
  have hp : c.ppb ≤ c.pages := by
    unfold Cfg.pages; exact Nat.le_mul_of_pos_left _ (by omega)
  unfold mapCapacity
  simp only
  generalize journalCapacity c s.j = K at hle
  have hr : K / (c.gcr + 1) ≤ K := Nat.div_le_self _ _
  have e1 : shl32 maxRetries c.log2Ppb = 8 * c.ppb := by
    unfold shl32
    rw [Nat.shiftLeft_eq]
    show 8 * c.ppb % _ = _
    exact Nat.mod_eq_of_lt (by omega)
  rw [e1]
  generalize K / (c.gcr + 1) = R at hr
  have e2 : (R + 8 * c.ppb) % 2 ^ 32 = R + 8 * c.ppb := Nat.mod_eq_of_lt (by omega)
  rw [e2]
  split
  · omega
  · rw [sub32_of_le hr (by omega), sub32_of_le (by omega) (by omega)]

/-- C47, observable form: the capacity never exceeds the number of user pages of the blocks not believed bad, and a higher
garbage-collection ratio never lowers it. -/
theorem map_capacity_monotone (hc : c.Valid) (s : S) (h : max s.j.bbLast s.j.bbCurrent < c.numBlocks)
    (hm : 9 * c.pages < 2 ^ 32) (g : Nat) (hg : c.gcRatio ≤ g) :
    mapCapacity c s ≤ mapCapacity { c with gcRatio := g } s ∧
    mapCapacity c s ≤ (c.numBlocks - max s.j.bbLast s.j.bbCurrent - 1) * (c.ppb - c.ppb / c.ppc) := by
  have hv : ({ c with gcRatio := g } : Cfg).Valid := ⟨hc.page_lo, hc.page_hi, hc.ppb_lo, hc.blocks_lo, hc.pages_hi⟩
  rw [map_capacity_exact hc s h hm, map_capacity_exact hv s h hm, ← journal_capacity_exact hc s.j h]
  have e : journalCapacity { c with gcRatio := g } s.j = journalCapacity c s.j := rfl
  have e2 : ({ c with gcRatio := g } : Cfg).ppb = c.ppb := rfl
  have hle : c.gcr ≤ ({ c with gcRatio := g } : Cfg).gcr := by
    unfold Cfg.gcr; simp only; split <;> split <;> omega
  rw [e, e2]
  generalize ({ c with gcRatio := g } : Cfg).gcr = G at hle
  have : journalCapacity c s.j / (G + 1) ≤ journalCapacity c s.j / (c.gcr + 1) :=
    Nat.div_le_div_left (by omega) (by omega)
  refine ⟨Nat.sub_le_sub_right (Nat.sub_le_sub_left this _) _, Nat.le_trans (Nat.sub_le _ _) (Nat.sub_le _ _)⟩

/-! ### C20 -/

/-- C20: if the next user page after the head lies in the block of the synchronised tail (and in another block than the
head), enqueue is refused and nothing at all changes. -/
theorem journal_full_refused (d m : Option Buf) (s : S)
    (h1 : nextUpage c s.j.head / c.ppb = s.j.tailSync / c.ppb) (h2 : nextUpage c s.j.head / c.ppb ≠ s.j.head / c.ppb) :
    enqueue c d m s = (.error .journalFull, s) := by
  have e : prepareHead c s = (.error .journalFull, s) := by
    unfold prepareHead
    simp only
    rw [if_pos]
    exact ⟨alignEq_iff.2 h1, fun h => h2 (alignEq_iff.1 h)⟩
  unfold enqueue pushLoop
  simp only [e]
  rw [recoverFrom_ne (by decide)]

/-- The same for dhara_journal_copy. -/
theorem journal_full_refused_copy (p : Nat) (m : Buf) (s : S)
    (h1 : nextUpage c s.j.head / c.ppb = s.j.tailSync / c.ppb) (h2 : nextUpage c s.j.head / c.ppb ≠ s.j.head / c.ppb) :
    journalCopy c p m s = (.error .journalFull, s) := by
  have e : prepareHead c s = (.error .journalFull, s) := by
    unfold prepareHead
    simp only
    rw [if_pos]
    exact ⟨alignEq_iff.2 h1, fun h => h2 (alignEq_iff.1 h)⟩
  unfold journalCopy pushLoop
  simp only [e]
  rw [recoverFrom_ne (by decide)]

/-! ### C19 -/

/-- Metadata of a queue page as `dhara_journal_read_meta` returns it when the chip reads without errors. -/
theorem readMeta_eq (hc : c.Valid) {s : S} {vt vh vR vM vn v : Nat} (hr : RSt c s vt vh vR vM vn) (ho : ReadsOk c s) (hu : c.isU v) :
    readMeta c s (c.ph v) = match metaBuf c s (c.ph v) with | some b => .ok b | none => .error .ecc := by
  have hoff : hdrUserOffset (c.ph v &&& (c.ppc - 1)) + 132 ≤ c.pageSize := by
    rw [slot_off hc]
    have h5 := hc.slots_fit
    have h6 : v % c.ppc < c.ppc - 1 := by
      have := Nat.mod_lt v (ppc_pos c); unfold Cfg.isU at hu; omega
    have h7 : (v % c.ppc + 1) * 132 ≤ (c.ppc - 1) * 132 := Nat.mul_le_mul_right _ (by omega)
    unfold Cfg.slot
    rw [Nat.add_mul] at h7
    omega
  have key : ∀ p, p < c.pages → nandRead c s.n p (hdrUserOffset (c.ph v &&& (c.ppc - 1))) 132 =
      match (s.n.chip.page p).map (·.slice (hdrUserOffset (c.ph v &&& (c.ppc - 1))) 132) with | some b => .ok b | none => .error .ecc := by
    intro p hp
    unfold nandRead
    rw [if_pos ⟨hp, hoff⟩, if_neg (by rw [ho p hp]; simp)]
    cases s.n.chip.page p <;> rfl
  unfold readMeta metaBuf
  simp only
  split
  · rfl
  · split
    · rename_i h
      refine key _ ?_
      rcases hr with hk | ⟨_, g⟩
      · exact absurd hk.rm h.1
      · rcases g.rm with h1 | ⟨h1, _⟩
        · exact absurd h1 h.1
        · rw [h1]; exact ph_lt hc _
    · refine key _ ?_
      rw [ph_cp hc]; exact ph_lt hc _

/-- What a successful push guarantees. -/
structure Stored (c : Cfg) (s s' : S) (m : Buf) : Prop where
  fresh : c.Between s'.j.tailSync s'.j.root s'.j.head
  meta_ : ReadsOk c s' → readMeta c s' s'.j.root = .ok (m.slice 0 metaSize)
  others : ∀ p, c.Between s.j.tailSync p s.j.head → p ≠ s'.j.root ∧ s'.n.chip.page p = s.n.chip.page p ∧
    (ReadsOk c s → ReadsOk c s' → readMeta c s' p = readMeta c s p)

theorem push_stored (hc : c.Valid) {s s' : S} {m : Buf} {Pd : S → Option Buf → Prop} {vts vt vh vr vR vM vn : Nat}
    (hq : QInv c s vts vt vh vr vR vM vn) (hk : s.j.recovery = false)
    (ho : PushOut c s (some m) Pd vts vt vh vR vM (.ok (), s')) :
    Stored c s s' m ∧ ∃ s1 : S, Pd s1 (s'.n.chip.page s'.j.root) ∧ Evo c s.n s1.n ∧ Evo c s1.n s'.n := by
  have hq' := push_q hc hq ho (Or.inl rfl)
  obtain ⟨_, _, _, _, _, _, _, hq'⟩ := hq'
  have hcalm := hq.rst.calm hk
  cases ho with
  | ok _ vq h =>
    have hl1 := hq.geo.l1
    have hl2 := hq.geo.l2
    have hle := h.le
    have hlt := lt_nextV c vq
    have hnf : ¬ finishes c s vq := fun hf => by have := hf.2; rw [hcalm.ed] at this; cases this
    have hwq : c.Win vts vq := h.winq.mono (Nat.le_refl _) (by omega)
    refine ⟨⟨?_, ?_, ?_⟩, ?_⟩
    · rcases (hq'.pointers hc).root with h0 | h0
      · rw [h.root] at h0; exact absurd h0 (ph_ne_none hc _)
      · exact h0.1
    · intro hro
      rw [h.root, readMeta_eq hc hq'.rst hro h.uq, h.metaq]; rfl
    · intro p hp
      obtain ⟨v, h1, h2, h3, h4⟩ := between_pos hc hq.geo.toGeo0 hp
      subst h4
      refine ⟨?_, h.keep.live hc hwq h1 h2, ?_⟩
      · rw [h.root]; intro he
        have := h.winq.inj (by omega) (by omega) (by omega) (by omega) he; omega
      · intro hro hro'
        rw [readMeta_eq hc hq.rst hro h3, readMeta_eq hc hq'.rst hro' h3, h.mkeep v h1 h2 h3 (fun hf => hnf hf.1)]
    · obtain ⟨s1, _, _, h3, h4, h5⟩ := h.data
      exact ⟨s1, by rw [h.root]; exact h3, h4, h5⟩

/-- C19: a successful enqueue stores its data and metadata in the new root page, and everything from the synchronised
tail to the head stays as it was. -/
theorem enqueue_stores (hc : c.Valid) (s s' : S) (h : JHist c s) (hk : s.j.recovery = false) (d m : Buf)
    (he : enqueue c (some d) (some m) s = (.ok (), s')) :
    Stored c s s' m ∧ s'.n.chip.page s'.j.root = some (c.clip d) := by
  obtain ⟨vts, vt, vh, vr, vR, vM, vn, hq⟩ := h.inv hc
  have ho := enqueue_out hc (some d) (some m) hq.geo hq.rst
  rw [he] at ho
  obtain ⟨h1, s1, h2, _⟩ := push_stored hc hq hk ho
  exact ⟨h1, h2⟩

/-- C19 for dhara_journal_copy: the new root page holds what the source held, unless the source's block was erased
meanwhile. -/
theorem copy_stores (hc : c.Valid) (s s' : S) (h : JHist c s) (hk : s.j.recovery = false) (p : Nat) (m : Buf)
    (he : journalCopy c p m s = (.ok (), s')) :
    Stored c s s' m ∧ ∀ b, s.n.chip.page p = some b → c.Between s.j.tailSync p s.j.head ∨ Undisturbed c s.n s'.n p →
      s'.n.chip.page s'.j.root = some (c.clip b) := by
  obtain ⟨vts, vt, vh, vr, vR, vM, vn, hq⟩ := h.inv hc
  have ho := copy_out hc p m hq.geo hq.rst
  rw [he] at ho
  have hub' : s'.n.ub = false := by
    obtain ⟨_, _, _, _, _, _, _, hq'⟩ := push_q hc hq ho (Or.inl rfl); exact hq'.geo.noub
  refine ⟨(push_stored hc hq hk ho).1, fun b hb hor => ?_⟩
  cases ho with
  | ok _ vq h =>
    obtain ⟨s1, k1, k2, ⟨b1, k3, k4⟩, k5, k6⟩ := h.data
    rw [h.root, k4]
    have hwq : c.Win vts vq := h.winq.mono (Nat.le_refl _) (by have := lt_nextV c vq; omega)
    have hsame : s1.n.chip.page p = s.n.chip.page p := by
      rcases hor with hbt | ⟨u1, u2⟩
      · obtain ⟨v, w1, w2, w3, w4⟩ := between_pos hc hq.geo.toGeo0 hbt
        subst w4
        exact k1.live hc hwq w1 w2
      · have e1 := k5.erases (p / c.ppb)
        have e2 := k6.erases (p / c.ppb)
        refine (k5.keep ?_ p u1 (by omega)).1
        cases hu : s1.n.ub with
        | false => rfl
        | true => rw [k6.ub hu] at hub'; cases hub'
    rw [hsame, hb] at k3; cases k3; rfl

/-! ### C25 -/

/-- The result of a descent depends on at most `k` metadata records. -/
theorem traceLoop_pages (c : Cfg) (s : S) (t : Nat) : ∀ k d p mt, ∃ ps : List Nat, ps.length ≤ k ∧
    ∀ nm, ∀ s' : S, (∀ q, q ∈ ps → readMeta c s' q = readMeta c s q) →
      traceLoop c s' t k d p mt nm = traceLoop c s t k d p mt nm := by
  intro k
  induction k with
  | zero => intro d p mt; exact ⟨[], Nat.le_refl _, fun _ _ _ => rfl⟩
  | succ k ih =>
    intro d p mt
    by_cases h1 : metaGetId mt = NONE
    · exact ⟨[], Nat.zero_le _, fun nm s' _ => by unfold traceLoop; simp only [h1, if_true]⟩
    by_cases h2 : ¬ ((t ^^^ metaGetId mt) &&& dBit d) = 0
    · by_cases h3 : metaGetAlt mt d = NONE
      · exact ⟨[], Nat.zero_le _, fun nm s' _ => by unfold traceLoop; simp only [h1, if_false, ne_eq, h2, not_false_iff, if_true, h3]⟩
      · cases hr : readMeta c s (metaGetAlt mt d) with
        | error e =>
          refine ⟨[metaGetAlt mt d], by simp, fun nm s' hs => ?_⟩
          have := hs _ (List.mem_singleton.2 rfl)
          unfold traceLoop
          simp only [h1, if_false, ne_eq, h2, not_false_iff, if_true, h3, this, hr]
        | ok mt' =>
          obtain ⟨ps, h4, h5⟩ := ih (d + 1) (metaGetAlt mt d) mt'
          refine ⟨metaGetAlt mt d :: ps, by simp [h4], fun nm s' hs => ?_⟩
          have hq := hs _ (List.mem_cons_self ..)
          have := fun nm => h5 nm s' (fun q hq => hs q (List.mem_cons_of_mem _ hq))
          unfold traceLoop
          simp only [h1, if_false, ne_eq, h2, not_false_iff, if_true, h3, hq, hr, this]
    · obtain ⟨ps, h4, h5⟩ := ih (d + 1) p mt
      refine ⟨ps, by omega, fun nm s' hs => ?_⟩
      have := fun nm => h5 nm s' hs
      unfold traceLoop
      simp only [h1, if_false, ne_eq, h2, this]

/-- C25: whatever the size of the map, the result of a lookup is determined by the root pointer and at most 33 metadata
records: any two states that agree on those give the same result (find, and the path computed for writes). -/
theorem lookup_reads_33 (c : Cfg) (s : S) (t : Nat) (nm : Buf) : ∃ ps : List Nat, ps.length ≤ 33 ∧
    ∀ s' : S, s'.j.root = s.j.root → (∀ q, q ∈ ps → readMeta c s' q = readMeta c s q) →
      tracePath c s' t nm = tracePath c s t nm ∧ mapFind c s' t = mapFind c s t := by
  have key : ∀ nm, s.j.root ≠ NONE → ∀ mt, readMeta c s s.j.root = .ok mt → ∀ s' : S, s'.j.root = s.j.root → 
      readMeta c s' s.j.root = readMeta c s s.j.root → 
      traceLoop c s' t 32 0 s.j.root mt (metaSetId nm t) = traceLoop c s t 32 0 s.j.root mt (metaSetId nm t) →
      tracePath c s' t nm = tracePath c s t nm := by
    intro nm h1 mt hr s' e1 e2 e3
    unfold tracePath
    simp only [e1, h1, if_false, e2, hr, e3]
  by_cases h1 : s.j.root = NONE
  · have : ∀ nm, ∀ s' : S, s'.j.root = s.j.root → tracePath c s' t nm = tracePath c s t nm := by
      intro nm s' e
      unfold tracePath
      simp only [e, h1, if_true]
    exact ⟨[], by simp, fun s' e _ => ⟨this nm s' e, by unfold mapFind; rw [this freshMeta s' e]⟩⟩
  · cases hr : readMeta c s s.j.root with
    | error e =>
      have : ∀ nm, ∀ s' : S, s'.j.root = s.j.root → readMeta c s' s.j.root = readMeta c s s.j.root → tracePath c s' t nm = tracePath c s t nm := by
        intro nm s' e1 e2
        unfold tracePath
        simp only [e1, h1, if_false, e2, hr]
      refine ⟨[s.j.root], by simp, fun s' e1 hs => ?_⟩
      have hq := hs _ (List.mem_singleton.2 rfl)
      rw [hr] at hq
      exact ⟨this nm s' e1 (by rw [hq, hr]), by unfold mapFind; rw [this freshMeta s' e1 (by rw [hq, hr])]⟩
    | ok mt =>
      -- the pages inspected do not depend on the path buffer
      obtain ⟨ps, h4, h5⟩ := traceLoop_pages c s t 32 0 s.j.root mt
      refine ⟨s.j.root :: ps, by simp; omega, fun s' e1 hs => ?_⟩
      have hq := hs _ (List.mem_cons_self ..)
      have h6 := fun nm => h5 nm s' (fun q hq => hs q (List.mem_cons_of_mem _ hq))
      exact ⟨key nm h1 mt hr s' e1 hq (h6 _), by unfold mapFind; rw [key freshMeta h1 mt hr s' e1 hq (h6 _)]⟩

end Dhara

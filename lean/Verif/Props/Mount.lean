/-
C52: mounting a chip with arbitrary contents. `dhara_journal_resume` asks the driver only about pages and blocks of the chip, whatever
the driver answers; but it believes whatever a checkpoint page says, so later calls on forged or foreign contents can leave the chip.
-/
import Verif.Props.Total
import Verif.Proofs.Resume
namespace Dhara

variable {c : Cfg}

/-- What the driver would answer to the three questions resume asks: reading a whole page, `is_free` and `is_bad`. The answers are
arbitrary and need not come from a chip. -/
structure Drv where
  read : Nat → Except Err Buf
  free : Nat → Bool
  bad : Nat → Bool

/-- The driver of the chip model. -/
def Drv.of (c : Cfg) (n : Nand) : Drv := ⟨fun p => nandRead c n p 0 c.pageSize, nandIsFree n, nandIsBad n⟩

/-- journal.c:222-248 `find_checkblock` over arbitrary answers. -/
def Drv.findCheckblock (c : Cfg) (d : Drv) : Nat → Nat → Option (Nat × Buf)
  | 0, _ => none
  | i + 1, blk =>
    if blk < c.numBlocks then
      let p := (blk <<< c.log2Ppb) ||| (c.ppc - 1)
      if d.bad blk then d.findCheckblock c i (blk + 1)
      else match d.read p with
        | .error _ => d.findCheckblock c i (blk + 1)
        | .ok b => if hdrHasMagic b then some (blk, b) else d.findCheckblock c i (blk + 1)
    else none

/-- journal.c:250-280 `find_last_checkblock` over arbitrary answers. -/
def Drv.findLastCheckblockLoop (c : Cfg) (d : Drv) (epoch : UInt8) (first : Nat) : Nat → Nat → Nat → Except Err Nat
  | 0, _, _ => .error .diverge
  | fuel + 1, low, high =>
    if low ≤ high then
      let mid := (low + high) >>> 1
      match d.findCheckblock c maxRetries mid with
      | some (found, b) =>
        if hdrGetEpoch b ≠ epoch then
          if mid = 0 then .ok first
          else d.findLastCheckblockLoop c epoch first fuel low (mid - 1)
        else if found + 1 ≥ c.numBlocks then .ok found
        else match d.findCheckblock c maxRetries (found + 1) with
          | none => .ok found
          | some (nf, b') =>
            if hdrGetEpoch b' ≠ epoch then .ok found
            else d.findLastCheckblockLoop c epoch first fuel nf high
      | none =>
        if mid = 0 then .ok first
        else d.findLastCheckblockLoop c epoch first fuel low (mid - 1)
    else .ok first

/-- journal.c:299-309 `cp_free` over arbitrary answers. -/
def Drv.cpFree (c : Cfg) (d : Drv) (firstUser : Nat) : Bool := (List.range c.ppc).all fun i => d.free (firstUser + i)

/-- journal.c:311-340 `find_last_group` over arbitrary answers. -/
def Drv.findLastGroupLoop (c : Cfg) (d : Drv) (blk numGroups : Nat) : Nat → Nat → Nat → Except Err Nat
  | 0, _, _ => .error .diverge
  | fuel + 1, low, hi =>
    if low < hi then
      let mid := (low + (hi - 1)) >>> 1
      let p := (mid <<< c.log2Ppc) ||| (blk <<< c.log2Ppb)
      if d.cpFree c p then d.findLastGroupLoop c blk numGroups fuel low mid
      else if mid + 1 ≥ numGroups || d.cpFree c (p + c.ppc) then .ok p
      else d.findLastGroupLoop c blk numGroups fuel (mid + 1) hi
    else .ok (blk <<< c.log2Ppb)

/-- journal.c:342-366 `find_root` over arbitrary answers. -/
def Drv.findRootLoop (c : Cfg) (d : Drv) (epoch : UInt8) (blk : Nat) : Nat → Except Err (Nat × Buf)
  | 0 => .error .tooBad
  | i + 1 =>
    let p := (blk <<< c.log2Ppb) + ((i + 1) <<< c.log2Ppc) - 1
    match d.read p with
    | .error _ => d.findRootLoop c epoch blk i
    | .ok b =>
      if hdrHasMagic b && hdrGetEpoch b == epoch then .ok (p - 1, b)
      else d.findRootLoop c epoch blk i

/-- journal.c:391-393 over arbitrary answers. -/
def Drv.trailFree (c : Cfg) (d : Drv) (first : Nat) : Nat → Nat → Nat
  | 0, cnt => cnt
  | k + 1, cnt => if d.free (first + c.ppc - cnt - 1) then d.trailFree c first k (cnt + 1) else cnt

/-- journal.c:384-417 `find_head` over arbitrary answers. -/
def Drv.findHeadLoop (c : Cfg) (d : Drv) : Nat → Journal → Except Err Journal
  | 0, _ => .error .diverge
  | fuel + 1, j =>
    let first := j.head - (j.head &&& (c.ppc - 1))
    let cnt := d.trailFree c first c.ppc 0
    if cnt > 1 then .ok { j with head := first + c.ppc - cnt }
    else
      let j := { j with head := first + c.ppc }
      let j := if j.head ≥ c.pages then rollStats { j with head := 0 } else j
      if isAligned j.head c.log2Ppb then
        if alignEq j.head j.tail c.log2Ppb then
          .ok { j with tail := nextBlock c (c.blk j.tail) <<< c.log2Ppb }
        else .ok j
      else d.findHeadLoop c fuel j

/-- journal.c:422-465 `dhara_journal_resume` over arbitrary answers. -/
def Drv.resume (c : Cfg) (d : Drv) (j : Journal) : Except Err Unit × Journal :=
  match d.findCheckblock c maxRetries 0 with
  | none => (.error .tooBad, resetJournal c j)
  | some (first, b0) =>
    let j := { j with epoch := hdrGetEpoch b0 }
    match d.findLastCheckblockLoop c j.epoch first (c.numBlocks + 1) first (c.numBlocks - 1) with
    | .error e => (.error e, j)
    | .ok last =>
      let numGroups := 2 ^ (c.log2Ppb - c.log2Ppc)
      match d.findLastGroupLoop c last numGroups (numGroups + 1) 0 numGroups with
      | .error e => (.error e, j)
      | .ok lastGroup =>
        match d.findRootLoop c j.epoch (c.blk lastGroup) (((lastGroup &&& (c.ppb - 1)) >>> c.log2Ppc) + 1) with
        | .error e => (.error e, resetJournal c j)
        | .ok (root, b) =>
          let j := { j with root := root, tail := hdrGetTail b,
                            bbCurrent := hdrGetBbCurrent b, bbLast := hdrGetBbLast b,
                            pageBuf := hdrClearUser c b }
          match d.findHeadLoop c (c.ppb + 1) (rollIfZero { j with head := nextUpage c lastGroup }) with
          | .error e => (.error e, j)
          | .ok j =>
            let j := { j with dirty := false, badMeta := false, recovery := false,
                              enumDone := false, tailSync := j.tail }
            (.ok (), clearRecovery j)

/-! ### It is the model's resume -/

theorem Drv.of_findCheckblock (n : Nand) : ∀ i blk, (Drv.of c n).findCheckblock c i blk = Dhara.findCheckblock c n i blk := by
  intro i
  induction i with
  | zero => intro blk; rfl
  | succ i ih =>
    intro blk
    unfold Drv.findCheckblock Dhara.findCheckblock
    simp only [ih]
    rfl

theorem Drv.of_lastCheckblock (n : Nand) (ep : UInt8) (first : Nat) : ∀ f lo hi,
    (Drv.of c n).findLastCheckblockLoop c ep first f lo hi = Dhara.findLastCheckblockLoop c n ep first f lo hi := by
  intro f
  induction f with
  | zero => intro lo hi; rfl
  | succ f ih =>
    intro lo hi
    unfold Drv.findLastCheckblockLoop Dhara.findLastCheckblockLoop
    simp only [ih, Drv.of_findCheckblock]
    rfl

theorem Drv.of_lastGroup (n : Nand) (blk ng : Nat) : ∀ f lo hi,
    (Drv.of c n).findLastGroupLoop c blk ng f lo hi = Dhara.findLastGroupLoop c n blk ng f lo hi := by
  intro f
  induction f with
  | zero => intro lo hi; rfl
  | succ f ih =>
    intro lo hi
    unfold Drv.findLastGroupLoop Dhara.findLastGroupLoop
    simp only [ih]
    rfl

theorem Drv.of_root (n : Nand) (ep : UInt8) (blk : Nat) : ∀ i,
    (Drv.of c n).findRootLoop c ep blk i = Dhara.findRootLoop c n ep blk i := by
  intro i
  induction i with
  | zero => rfl
  | succ i ih =>
    unfold Drv.findRootLoop Dhara.findRootLoop
    simp only [ih]
    rfl

theorem Drv.of_trail (n : Nand) (first : Nat) : ∀ k cnt, (Drv.of c n).trailFree c first k cnt = Dhara.trailFree c n first k cnt := by
  intro k
  induction k with
  | zero => intro cnt; rfl
  | succ k ih =>
    intro cnt
    unfold Drv.trailFree Dhara.trailFree
    simp only [ih]
    rfl

theorem Drv.of_head (n : Nand) : ∀ f j, (Drv.of c n).findHeadLoop c f j = Dhara.findHeadLoop c n f j := by
  intro f
  induction f with
  | zero => intro j; rfl
  | succ f ih =>
    intro j
    unfold Drv.findHeadLoop Dhara.findHeadLoop
    simp only [ih, Drv.of_trail]

/-- `Drv.resume` is the model's resume. -/
theorem Drv.of_resume (n : Nand) (j : Journal) : (Drv.of c n).resume c j = journalResume c n j := by
  unfold Drv.resume journalResume findLastCheckblock findLastGroup findRoot findHead
  simp only [Drv.of_findCheckblock, Drv.of_lastCheckblock, Drv.of_lastGroup, Drv.of_root, Drv.of_head]
  rfl

/-! ### Only questions about the chip -/

/-- The answers agree on the pages and blocks of the chip. -/
structure Drv.Agree (c : Cfg) (d d' : Drv) : Prop where
  read : ∀ p, p < c.pages → d.read p = d'.read p
  free : ∀ p, p < c.pages → d.free p = d'.free p
  bad : ∀ b, b < c.numBlocks → d.bad b = d'.bad b

/-- A page of a block of the chip. -/
theorem page_lt {b o : Nat} (hb : b < c.numBlocks) (ho : o < c.ppb) : b * c.ppb + o < c.pages := by
  have h : (b + 1) * c.ppb ≤ c.numBlocks * c.ppb := Nat.mul_le_mul_right _ hb
  rw [Nat.add_mul, Nat.one_mul] at h
  show _ < c.numBlocks * c.ppb
  omega

theorem ckpt_lt (hc : c.Valid) {b : Nat} (hb : b < c.numBlocks) : (b <<< c.log2Ppb) ||| (c.ppc - 1) < c.pages := by
  rw [or_mask, shl_ppb]
  have h1 : b * c.ppb / c.ppc * c.ppc = b * c.ppb := Nat.div_mul_cancel (Nat.dvd_trans hc.ppc_dvd (Nat.dvd_mul_left _ _))
  rw [h1]
  have := Nat.le_of_dvd (ppb_pos c) hc.ppc_dvd
  have := ppc_pos c
  exact page_lt hb (by omega)

theorem Drv.Agree.findCheckblock (hc : c.Valid) {d d' : Drv} (h : Drv.Agree c d d') :
    ∀ i blk, d.findCheckblock c i blk = d'.findCheckblock c i blk := by
  intro i
  induction i with
  | zero => intro blk; rfl
  | succ i ih =>
    intro blk
    unfold Drv.findCheckblock
    by_cases hb : blk < c.numBlocks
    · rw [if_pos hb, if_pos hb]
      simp only [h.bad _ hb, h.read _ (ckpt_lt hc hb), ih]
    · rw [if_neg hb, if_neg hb]

theorem Drv.findCheckblock_lt {d : Drv} : ∀ i blk {r : Nat × Buf}, d.findCheckblock c i blk = some r → r.1 < c.numBlocks := by
  intro i
  induction i with
  | zero => intro blk r h; cases h
  | succ i ih =>
    intro blk r h
    unfold Drv.findCheckblock at h
    split at h
    · simp only at h
      split at h
      · exact ih _ h
      · split at h
        · exact ih _ h
        · split at h
          · cases h; assumption
          · exact ih _ h
    · cases h

theorem Drv.Agree.lastCheckblock (hc : c.Valid) {d d' : Drv} (h : Drv.Agree c d d') (ep : UInt8) (first : Nat) : ∀ f lo hi,
    d.findLastCheckblockLoop c ep first f lo hi = d'.findLastCheckblockLoop c ep first f lo hi := by
  intro f
  induction f with
  | zero => intro lo hi; rfl
  | succ f ih =>
    intro lo hi
    unfold Drv.findLastCheckblockLoop
    simp only [ih, h.findCheckblock hc]

theorem Drv.lastCheckblock_lt {d : Drv} {ep : UInt8} {first : Nat} (hf : first < c.numBlocks) : ∀ f lo hi {b : Nat},
    d.findLastCheckblockLoop c ep first f lo hi = .ok b → b < c.numBlocks := by
  intro f
  induction f with
  | zero => intro lo hi b h; cases h
  | succ f ih =>
    intro lo hi b h
    unfold Drv.findLastCheckblockLoop at h
    split at h
    · simp only at h
      split at h
      · rename_i found bb he
        have hl := Drv.findCheckblock_lt _ _ he
        split at h
        · split at h
          · cases h; exact hf
          · exact ih _ _ h
        · split at h
          · cases h; exact hl
          · split at h
            · cases h; exact hl
            · split at h
              · cases h; exact hl
              · exact ih _ _ h
      · split at h
        · cases h; exact hf
        · exact ih _ _ h
    · cases h; exact hf

theorem Drv.Agree.cpFree {d d' : Drv} (h : Drv.Agree c d d') {p : Nat} (hp : p + c.ppc ≤ c.pages) : d.cpFree c p = d'.cpFree c p := by
  unfold Drv.cpFree
  rw [Bool.eq_iff_iff, List.all_eq_true, List.all_eq_true]
  constructor <;> intro h1 i hi
  · rw [← h.free _ (by have := List.mem_range.1 hi; omega)]; exact h1 i hi
  · rw [h.free _ (by have := List.mem_range.1 hi; omega)]; exact h1 i hi

theorem ppb_groups (hc : c.Valid) : 2 ^ (c.log2Ppb - c.log2Ppc) * c.ppc = c.ppb := by
  show _ * 2 ^ _ = 2 ^ _
  rw [← Nat.pow_add]
  have := hc.ppc_facts.2.1
  congr 1
  omega

/-- The group a block search looks at. -/
theorem group_page (hc : c.Valid) {blk m : Nat} (hm : m < 2 ^ (c.log2Ppb - c.log2Ppc)) :
    (m <<< c.log2Ppc) ||| (blk <<< c.log2Ppb) = blk * c.ppb + m * c.ppc := by
  have h1 : m * c.ppc < 2 ^ c.log2Ppb := by
    have := Nat.mul_lt_mul_of_pos_right hm (ppc_pos c)
    rw [ppb_groups hc] at this
    exact this
  rw [Nat.shiftLeft_eq, show m * 2 ^ c.log2Ppc = m * c.ppc from rfl, Nat.or_comm, ← Nat.shiftLeft_add_eq_or_of_lt h1, shl_ppb]

theorem Drv.Agree.lastGroup (hc : c.Valid) {d d' : Drv} (h : Drv.Agree c d d') {blk : Nat} (hb : blk < c.numBlocks) : ∀ f lo hi,
    hi ≤ 2 ^ (c.log2Ppb - c.log2Ppc) →
    d.findLastGroupLoop c blk (2 ^ (c.log2Ppb - c.log2Ppc)) f lo hi = d'.findLastGroupLoop c blk (2 ^ (c.log2Ppb - c.log2Ppc)) f lo hi := by
  intro f
  have hg : ∀ m, m < 2 ^ (c.log2Ppb - c.log2Ppc) → blk * c.ppb + m * c.ppc + c.ppc ≤ c.pages := by
    intro m hm
    have h1 : (m + 1) * c.ppc ≤ 2 ^ (c.log2Ppb - c.log2Ppc) * c.ppc := Nat.mul_le_mul_right _ hm
    rw [ppb_groups hc, Nat.add_mul, Nat.one_mul] at h1
    have h2 := page_lt hb (show c.ppb - 1 < c.ppb by have := ppb_pos c; omega)
    have := ppb_pos c
    omega
  induction f with
  | zero => intro lo hi _; rfl
  | succ f ih =>
    intro lo hi hh
    unfold Drv.findLastGroupLoop
    split
    · rename_i hlt
      have hm : (lo + (hi - 1)) >>> 1 < hi := by rw [Nat.shiftRight_eq_div_pow]; omega
      have hm' := Nat.lt_of_lt_of_le hm hh
      simp only
      rw [group_page hc hm', h.cpFree (hg _ hm'), ih _ _ (Nat.le_of_lt hm'), ih _ _ hh]
      by_cases hl : (lo + (hi - 1)) >>> 1 + 1 ≥ 2 ^ (c.log2Ppb - c.log2Ppc)
      · simp only [hl, decide_true, Bool.true_or]
      · rw [h.cpFree (by have := hg _ (Nat.not_le.1 hl); rw [Nat.add_mul, Nat.one_mul] at this; omega)]
    · rfl

theorem Drv.lastGroup_eq (hc : c.Valid) {d : Drv} {blk : Nat} : ∀ f lo hi {p : Nat}, hi ≤ 2 ^ (c.log2Ppb - c.log2Ppc) →
    d.findLastGroupLoop c blk (2 ^ (c.log2Ppb - c.log2Ppc)) f lo hi = .ok p →
    ∃ m, m < 2 ^ (c.log2Ppb - c.log2Ppc) ∧ p = blk * c.ppb + m * c.ppc := by
  intro f
  induction f with
  | zero => intro lo hi p _ h; cases h
  | succ f ih =>
    intro lo hi p hh h
    unfold Drv.findLastGroupLoop at h
    split at h
    · rename_i hlt
      have hm : (lo + (hi - 1)) >>> 1 < hi := by rw [Nat.shiftRight_eq_div_pow]; omega
      have hm' := Nat.lt_of_lt_of_le hm hh
      simp only at h
      split at h
      · exact ih _ _ (Nat.le_of_lt hm') h
      · split at h
        · cases h
          exact ⟨_, hm', group_page hc hm'⟩
        · exact ih _ _ hh h
    · cases h
      exact ⟨0, Nat.two_pow_pos _, by rw [shl_ppb]; omega⟩

theorem Drv.Agree.root (hc : c.Valid) {d d' : Drv} (h : Drv.Agree c d d') {ep : UInt8} {blk : Nat} (hb : blk < c.numBlocks) : ∀ i,
    i ≤ 2 ^ (c.log2Ppb - c.log2Ppc) → d.findRootLoop c ep blk i = d'.findRootLoop c ep blk i := by
  intro i
  induction i with
  | zero => intro _; rfl
  | succ i ih =>
    intro hi
    unfold Drv.findRootLoop
    have hp : (blk <<< c.log2Ppb) + ((i + 1) <<< c.log2Ppc) - 1 < c.pages := by
      have h1 : (i + 1) * c.ppc ≤ 2 ^ (c.log2Ppb - c.log2Ppc) * c.ppc := Nat.mul_le_mul_right _ hi
      rw [ppb_groups hc] at h1
      have h2 := page_lt hb (show c.ppb - 1 < c.ppb by have := ppb_pos c; omega)
      have := ppb_pos c
      rw [shl_ppb, Nat.shiftLeft_eq]
      have h3 : (i + 1) * 2 ^ c.log2Ppc = (i + 1) * c.ppc := rfl
      have h4 : 0 < (i + 1) * c.ppc := Nat.mul_pos (Nat.succ_pos _) (ppc_pos c)
      omega
    simp only [h.read _ hp, ih (by omega)]

theorem Drv.Agree.trail {d d' : Drv} (h : Drv.Agree c d d') {first : Nat} (hf : first + c.ppc ≤ c.pages) : ∀ k cnt,
    d.trailFree c first k cnt = d'.trailFree c first k cnt := by
  intro k
  induction k with
  | zero => intro cnt; rfl
  | succ k ih =>
    intro cnt
    unfold Drv.trailFree
    rw [h.free _ (by have := ppc_pos c; omega), ih]

/-- The group of a page of the chip. -/
theorem group_fits (hc : c.Valid) {p : Nat} (hp : p < c.pages) : p - p % c.ppc + c.ppc ≤ c.pages := by
  obtain ⟨q, hq⟩ := hc.ppc_dvd_pages
  have h1 : p / c.ppc < q := by
    rw [Nat.div_lt_iff_lt_mul (ppc_pos c), Nat.mul_comm, ← hq]; exact hp
  have h2 : (p / c.ppc + 1) * c.ppc ≤ q * c.ppc := Nat.mul_le_mul_right _ h1
  rw [Nat.add_mul, Nat.one_mul, Nat.mul_comm q, ← hq] at h2
  have := div_mod_range p c.ppc
  omega

theorem Drv.Agree.head (hc : c.Valid) {d d' : Drv} (h : Drv.Agree c d d') : ∀ f (j : Journal), j.head < c.pages →
    d.findHeadLoop c f j = d'.findHeadLoop c f j := by
  intro f
  induction f with
  | zero => intro j _; rfl
  | succ f ih =>
    intro j hj
    unfold Drv.findHeadLoop
    simp only
    have hg := group_fits hc hj
    rw [← slot_eq] at hg
    rw [h.trail hg]
    split
    · rfl
    · have key : ∀ J : Journal, J.head < c.pages →
          (if isAligned J.head c.log2Ppb then
            if alignEq J.head J.tail c.log2Ppb then
              (.ok { J with tail := nextBlock c (c.blk J.tail) <<< c.log2Ppb } : Except Err Journal)
            else .ok J
          else d.findHeadLoop c f J) =
          (if isAligned J.head c.log2Ppb then
            if alignEq J.head J.tail c.log2Ppb then
              (.ok { J with tail := nextBlock c (c.blk J.tail) <<< c.log2Ppb } : Except Err Journal)
            else .ok J
          else d'.findHeadLoop c f J) := by
        intro J hJ
        rw [ih J hJ]
      refine key _ ?_
      split
      · exact hc.pages_pos
      · rename_i hlt
        exact Nat.not_le.1 hlt

/-- C52: resume asks only about pages and blocks of the chip: its outcome does not depend on anything else the driver would
answer. This holds for every driver, whatever the chip contains. -/
theorem resume_asks_on_chip (hc : c.Valid) (d d' : Drv) (h : Drv.Agree c d d') (j : Journal) : d.resume c j = d'.resume c j := by
  unfold Drv.resume
  rw [h.findCheckblock hc]
  split
  · rfl
  · rename_i first b0 he
    have h1 := Drv.findCheckblock_lt _ _ he
    simp only
    rw [h.lastCheckblock hc]
    split
    · rfl
    · rename_i last hl
      have h2 := Drv.lastCheckblock_lt h1 _ _ _ hl
      rw [h.lastGroup hc h2 _ _ _ (Nat.le_refl _)]
      split
      · rfl
      · rename_i g hg
        obtain ⟨m, hm, rfl⟩ := Drv.lastGroup_eq hc _ _ _ (Nat.le_refl _) hg
        have hmp : m * c.ppc < c.ppb := by
          have := Nat.mul_lt_mul_of_pos_right hm (ppc_pos c)
          rwa [ppb_groups hc] at this
        have hb : c.blk (last * c.ppb + m * c.ppc) = last := by
          rw [blk_eq]; exact div_of_range (ppb_pos c) (by omega) (by omega)
        have hi : (last * c.ppb + m * c.ppc) &&& (c.ppb - 1) = m * c.ppc := by
          show _ &&& (2 ^ c.log2Ppb - 1) = _
          rw [Nat.and_two_pow_sub_one_eq_mod]
          show (last * c.ppb + m * c.ppc) % c.ppb = _
          rw [mod_of_range (k := last) (by omega) (by omega)]; omega
        have hi' : (m * c.ppc) >>> c.log2Ppc = m := by
          rw [Nat.shiftRight_eq_div_pow]; exact Nat.mul_div_cancel _ (ppc_pos c)
        have hr := h.root hc (ep := hdrGetEpoch b0) h2 (m + 1) hm
        rw [hb, hi, hi', hr]
        split
        · rfl
        · rw [h.head hc _ _ (by
            unfold rollIfZero
            split
            · exact nextUpage_lt hc _
            · exact nextUpage_lt hc _)]

/-- C52: the same for the model's resume, on any chip: a driver that answers as the chip does on the chip, and in any way
elsewhere, gives the same outcome. Together with `resume_terminates` this settles resume on arbitrary contents. -/
theorem resume_any_contents (hc : c.Valid) (n : Nand) (d : Drv) (h : Drv.Agree c d (Drv.of c n)) (j : Journal) :
    d.resume c j = journalResume c n j := by
  rw [← Drv.of_resume]; exact resume_asks_on_chip hc _ _ h j

/-! ### What resume does not check -/
namespace Viol

/-- Sixteen blocks of eight pages on a chip without faults. -/
def c52 : Cfg := mk 3 16 fun _ => .ok

/-- A checkpoint page (of page 3, say) with the right magic number and epoch, a count of 1, the given tail, and, as the metadata
of the last user page, sector 0 whose first alternative is page `alt`. -/
def forged (tail alt : Nat) : Buf :=
  w32 (w32 (w32 (w32 (hdrPutMagic Buf.ff) 4 tail) 16 1) (20 + 2 * 132) 0) (20 + 2 * 132 + 4) alt

/-- A chip that contains such a page and nothing else. -/
def forgedChip (tail alt : Nat) : Nand :=
  { blankChip c52 with
    chip := { page := fun p => some (c52.clip (if p = 3 then forged tail alt else Buf.ff)), free := fun p => decide (3 < p),
              bad := fun _ => false } }

/-- Power-up on it. -/
def s52 (tail alt : Nat) : Except Err Unit × S := mapResume c52 (mapInit c52 (fun _ => 0) 7 (forgedChip tail alt))

theorem valid52 : c52.Valid := ⟨by decide, by decide, by decide, by decide, by decide⟩
theorem boot52 : (s52 0 5000).1 = .ok () := good_iff (by decide +kernel)
theorem find52 : mapFind c52 (s52 0 5000).2 (2 ^ 31) = .error .ub := isErr_iff (by decide +kernel)
theorem boot52t : (s52 5001 4).1 = .ok () := good_iff (by decide +kernel)
theorem gc52t : (step c52 .gc (s52 5001 4).2).1 = .error .ub := isErr_iff (by decide +kernel)
theorem rd52t : (s52 5001 4).2.j.tail = 5001 := by decide +kernel

/-- C52, the limit: resume accepts whatever a page with the right magic number says. On one chip it succeeds and a lookup then
reads outside the chip; on another it succeeds with a tail outside the chip, and collection reads there. -/
theorem forged_contents_trusted : ∃ (c : Cfg) (n n' : Nand) (s s' : S), c.Valid ∧ c.pages = 128 ∧
    mapResume c (mapInit c (fun _ => 0) 7 n) = (.ok (), s) ∧ mapFind c s (2 ^ 31) = .error .ub ∧
    mapResume c (mapInit c (fun _ => 0) 7 n') = (.ok (), s') ∧ s'.j.tail = 5001 ∧ (step c .gc s').1 = .error .ub :=
  ⟨c52, forgedChip 0 5000, forgedChip 5001 4, _, _, valid52, by decide, pair_eq boot52, find52, pair_eq boot52t, rd52t, gc52t⟩

/-- A case of `resume_any_contents`: the forged chip, and a driver that reports magic everywhere outside the chip. -/
theorem mount_example : (Drv.resume c52 ⟨fun p => if p < c52.pages then (Drv.of c52 (forgedChip 0 5000)).read p else .ok (forged 9 9),
    fun p => decide (3 < p), fun b => decide (c52.numBlocks ≤ b)⟩ (journalInit c52 fun _ => 0)).1 = .ok () := by
  rw [resume_any_contents valid52 (forgedChip 0 5000)]
  · exact good_iff (by decide +kernel)
  · refine ⟨fun p hp => if_pos hp, fun p _ => rfl, fun b hb => ?_⟩
    exact decide_eq_false (Nat.not_le.2 hb)

end Viol

end Dhara

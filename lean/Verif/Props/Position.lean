/-
C70: a restart goes on right behind a readable checkpoint, whatever is on the chip.
-/
import Verif.Proofs.ChipInv
import Verif.Proofs.Commit
import Verif.Props.Lifetime
import Verif.Props.Stuck
namespace Dhara

variable {c : Cfg}

/-! ### Specification -/

/-- Page `p` holds a checkpoint that can be read: `buf` is what the driver returns for it, and it begins with the magic number and the epoch `e`. -/
structure CheckpointAt (c : Cfg) (n : Nand) (p : Nat) (e : UInt8) (buf : Buf) : Prop where
  read : nandRead c n p 0 c.pageSize = .ok buf
  magic : hdrHasMagic buf = true
  epoch : hdrGetEpoch buf = e

/-- The driver does not take a page with a checkpoint for an erased one. -/
def HonestFree (c : Cfg) (n : Nand) : Prop :=
  ∀ p buf, p % c.ppc = c.ppc - 1 → nandIsFree n p = true → nandRead c n p 0 c.pageSize = .ok buf → hdrHasMagic buf = false

/-- The head is inside the block of the newest entry, behind its checkpoint; the rest of its group (at least one page and the checkpoint page) is free, and no
free page directly before it in the group is given away. -/
structure SameBlock (c : Cfg) (n : Nand) (root head : Nat) : Prop where
  block : head / c.ppb = root / c.ppb
  behind : root + 1 < head
  room : (head + 1) / c.ppc = head / c.ppc
  free : ∀ p, head ≤ p → p / c.ppc = head / c.ppc → nandIsFree n p = true
  tight : head % c.ppc = 0 ∨ nandIsFree n (head - 1) = false

/-- The first page of the block after that of page `p`, going round at the end of the chip. -/
def startOfNextBlock (c : Cfg) (p : Nat) : Nat := (p / c.ppb + 1) % c.numBlocks * c.ppb

/-- What is known of the journal `j` after a restart that found the chip as it is in `n`. -/
structure Placed (c : Cfg) (n : Nand) (j : Journal) (e : UInt8) (buf : Buf) : Prop where
  checkpoint : CheckpointAt c n (j.root + 1) e buf
  onChip : j.root + 1 < c.pages
  groupEnd : (j.root + 2) % c.ppc = 0
  place : SameBlock c n j.root j.head ∧ j.tail = hdrGetTail buf ∨
    j.head = startOfNextBlock c j.root ∧
      j.tail = if j.head / c.ppb = hdrGetTail buf / c.ppb then nextBlock c (hdrGetTail buf / c.ppb) * c.ppb else hdrGetTail buf
  near : (j.head + c.pages - j.root) % c.pages ≤ c.ppb
  synced : j.tailSync = j.tail
  clean : j.dirty = false ∧ j.recovery = false

/-- Any life of a map or a journal on a chip that was blank at first: calls in any order, with any results; faults and power failures at any moment; power
cycles after which the mount may succeed or not. -/
inductive AnyLife (c : Cfg) : S → Prop
  | init (buf : Buf) (n : Nand) (k : Nat) : Blank c n.chip → AnyLife c (mapInit c buf k n)
  | mapCall (s : S) (op : Op) : AnyLife c s → AnyLife c (step c op s).2
  | journalCall (s : S) (op : JOp) : AnyLife c s → AnyLife c (jcall c op s).2
  | mount (s : S) : AnyLife c s → AnyLife c (mapResume c s).2
  | cycle (s : S) (buf : Buf) (k : Nat) : AnyLife c s → AnyLife c (reboot c buf k s).2

/-! ### Proof -/

theorem nextBlock_mod (hc : c.Valid) {k : Nat} (hk : k < c.numBlocks) : nextBlock c k = (k + 1) % c.numBlocks := by
  have := hc.blocks_lo
  unfold nextBlock
  split
  · rw [show k + 1 = c.numBlocks by omega, Nat.mod_self]
  · rw [Nat.mod_eq_of_lt (by omega)]

theorem findRootLoop_at (hc : c.Valid) {n : Nand} {e : UInt8} {k : Nat} : ∀ i root b,
    findRootLoop c n e k i = .ok (root, b) → ∃ m, m < i ∧ root = k * c.ppb + m * c.ppc + (c.ppc - 2) ∧ CheckpointAt c n (root + 1) e b := by
  intro i
  induction i with
  | zero => intro root b h; cases h
  | succ i ih =>
    intro root b hr
    unfold findRootLoop at hr
    simp only at hr
    have up : (∃ m, m < i ∧ root = k * c.ppb + m * c.ppc + (c.ppc - 2) ∧ CheckpointAt c n (root + 1) e b) →
        ∃ m, m < i + 1 ∧ root = k * c.ppb + m * c.ppc + (c.ppc - 2) ∧ CheckpointAt c n (root + 1) e b :=
      fun ⟨m, h, r⟩ => ⟨m, by omega, r⟩
    split at hr
    · exact up (ih _ _ hr)
    · next b1 h1 =>
      split at hr
      · next hm =>
        have h4 := hc.ppc_ge
        have he : k <<< c.log2Ppb + (i + 1) <<< c.log2Ppc - 1 = k * c.ppb + i * c.ppc + (c.ppc - 2) + 1 := by
          rw [shl_ppb, Nat.shiftLeft_eq]
          show _ + (i + 1) * c.ppc - 1 = _
          rw [Nat.add_mul]; omega
        rw [he] at hr h1
        cases hr
        simp only [Bool.and_eq_true, beq_iff_eq] at hm
        exact ⟨i, by omega, by omega, ⟨h1, hm.1, hm.2⟩⟩
      · exact up (ih _ _ hr)

/-- What the search for the head, begun in block `k`, can return. -/
theorem findHeadLoop_at (hc : c.Valid) {n : Nand} {k : Nat} (hk : k < c.numBlocks) : ∀ f (j j' : Journal), j.head / c.ppb = k →
    findHeadLoop c n f j = .ok j' → j'.root = j.root ∧
    ((j'.tail = j.tail ∧ j'.head / c.ppb = k ∧ j.head / c.ppc ≤ j'.head / c.ppc ∧ (j'.head + 1) / c.ppc = j'.head / c.ppc ∧
        (∀ p, j'.head ≤ p → p / c.ppc = j'.head / c.ppc → nandIsFree n p = true) ∧
        (j'.head % c.ppc = 0 ∨ nandIsFree n (j'.head - 1) = false)) ∨
      (j'.head = nextBlock c k * c.ppb ∧
        j'.tail = if nextBlock c k = j.tail / c.ppb then nextBlock c (j.tail / c.ppb) * c.ppb else j.tail)) := by
  have h4 := hc.ppc_ge
  have hP := ppb_pos c
  have hC := ppc_pos c
  obtain ⟨g, hg⟩ := hc.ppc_dvd
  have hg0 : 0 < g := by
    rcases Nat.eq_zero_or_pos g with h | h
    · rw [h] at hg; omega
    · exact h
  intro f
  induction f with
  | zero => intro j j' _ h; cases h
  | succ f ih =>
    intro j j' hj h
    unfold findHeadLoop at h
    simp only [slot_eq] at h
    have hfirst : j.head - j.head % c.ppc = c.ppc * (j.head / c.ppc) := by
      have := Nat.div_add_mod j.head c.ppc; omega
    rw [hfirst] at h
    have hdd : j.head / c.ppc / g = k := by rw [Nat.div_div_eq_div_mul, ← hg]; exact hj
    generalize hq0 : j.head / c.ppc = q at *
    obtain ⟨t1, t2, _, _⟩ := trailFree_grp c n (c.ppc * q)
    have t4 := (trailFree_spec c n (c.ppc * q) c.ppc 0 (by omega) (fun i hi => by omega)).2.2.2
    have hqd : ∀ i, i < c.ppc → (c.ppc * q + i) / c.ppc = q := fun i hi => by
      rw [Nat.mul_add_div hC, Nat.div_eq_of_lt hi, Nat.add_zero]
    split at h
    · next hcnt =>
      cases h
      refine ⟨rfl, Or.inl ⟨rfl, ?_, ?_, ?_, ?_, ?_⟩⟩
      all_goals simp only
      all_goals generalize trailFree c n (c.ppc * q) c.ppc 0 = cnt at *
      all_goals rw [show c.ppc * q + c.ppc - cnt = c.ppc * q + (c.ppc - cnt) by omega]
      · rw [hg, ← Nat.div_div_eq_div_mul, hqd _ (by omega)]; exact hdd
      · rw [hqd _ (by omega)]
      · rw [hqd _ (by omega), Nat.add_assoc, hqd _ (by omega)]
      · intro p hp hpd
        rw [hqd _ (by omega)] at hpd
        have e := Nat.div_add_mod p c.ppc
        have l := Nat.mod_lt p hC
        rw [hpd] at e
        rw [← e]
        exact t2 _ (by omega) l
      · by_cases he : cnt = c.ppc
        · left
          rw [he, Nat.sub_self, Nat.add_zero, Nat.mul_mod_right]
        · right
          have := t4 (by omega)
          rw [show c.ppc * q + (c.ppc - cnt) - 1 = c.ppc * q + c.ppc - cnt - 1 by omega]
          exact this
    · have hnx : ∀ w, (c.ppc * q + c.ppc) % c.ppb = w → (w = 0 ↔ (q + 1) % g = 0) := by
        intro w hw
        rw [show c.ppc * q + c.ppc = c.ppc * (q + 1) by rw [Nat.mul_add, Nat.mul_one], hg, Nat.mul_mod_mul_left] at hw
        rw [← hw, Nat.mul_eq_zero]
        omega
      have hkg : k * g ≤ q ∧ q < k * g + g := by
        have e := Nat.div_add_mod q g
        have l := Nat.mod_lt q hg0
        rw [hdd, Nat.mul_comm] at e
        omega
      have hpg : c.pages = c.ppc * (c.numBlocks * g) := by
        unfold Cfg.pages; rw [hg]
        rw [Nat.mul_left_comm]
      have hkN : k * g + g ≤ c.numBlocks * g := by
        have := Nat.mul_le_mul_right g (show k + 1 ≤ c.numBlocks from hk)
        rw [Nat.add_mul, Nat.one_mul] at this; exact this
      have hstep : c.ppc * q + c.ppc = c.ppc * (q + 1) := by rw [Nat.mul_add, Nat.mul_one]
      rw [hstep] at h
      generalize hq : (if c.ppc * (q + 1) ≥ c.pages then rollStats { j with head := 0 } else { j with head := c.ppc * (q + 1) }) = z at h
      have hzt : z.tail = j.tail := by rw [← hq]; split <;> rfl
      have hzr : z.root = j.root := by rw [← hq]; split <;> rfl
      have hzh : z.head = if c.ppc * (q + 1) ≥ c.pages then 0 else c.ppc * (q + 1) := by rw [← hq]; split <;> rfl
      by_cases hend : q + 1 = k * g + g
      · -- the end of the block
        have hval : c.ppc * (q + 1) = (k + 1) * c.ppb := by
          rw [hend, hg, Nat.mul_left_comm, Nat.add_mul k 1 g, Nat.one_mul]
        have hz : z.head = nextBlock c k * c.ppb := by
          rw [hzh, hval]
          unfold nextBlock Cfg.pages
          by_cases hlast : k + 1 ≥ c.numBlocks
          · rw [if_pos hlast, if_pos (Nat.mul_le_mul_right _ hlast), Nat.zero_mul]
          · rw [if_neg hlast, if_neg]
            have := Nat.mul_lt_mul_of_pos_right (show k + 1 < c.numBlocks by omega) hP
            omega
        have hal : isAligned z.head c.log2Ppb = true := isAligned_iff.2 (by rw [hz]; exact Nat.mul_mod_left _ _)
        rw [if_pos hal] at h
        have hdv : z.head / 2 ^ c.log2Ppb = nextBlock c k := by rw [hz]; exact Nat.mul_div_cancel _ hP
        split at h
        · next hae =>
          cases h
          rw [alignEq_iff, hdv, hzt] at hae
          refine ⟨hzr, Or.inr ⟨hz, ?_⟩⟩
          rw [if_pos (show nextBlock c k = j.tail / c.ppb from hae)]
          show nextBlock c (c.blk z.tail) <<< c.log2Ppb = _
          rw [shl_ppb, blk_eq, hzt]
        · next hae =>
          cases h
          rw [alignEq_iff, hdv, hzt] at hae
          refine ⟨hzr, Or.inr ⟨hz, ?_⟩⟩
          rw [if_neg (show ¬ nextBlock c k = j.tail / c.ppb from hae)]; exact hzt
      · have hlt : ¬ c.ppc * (q + 1) ≥ c.pages := by
          rw [hpg]
          have := Nat.mul_lt_mul_of_pos_left (show q + 1 < c.numBlocks * g by omega) hC
          omega
        rw [if_neg hlt] at hzh
        have hzd : z.head / c.ppc = q + 1 := by rw [hzh]; exact Nat.mul_div_cancel_left _ hC
        have hzk : z.head / c.ppb = k := by
          rw [hg, ← Nat.div_div_eq_div_mul, hzd]
          exact Nat.div_eq_of_lt_le (by omega) (by rw [Nat.add_mul, Nat.one_mul]; omega)
        have hal : ¬ isAligned z.head c.log2Ppb = true := by
          intro ha
          rw [isAligned_iff] at ha
          have e := Nat.div_add_mod z.head c.ppb
          rw [show z.head % c.ppb = 0 from ha, hzk, hzh, hg, Nat.mul_assoc, Nat.add_zero] at e
          have := Nat.eq_of_mul_eq_mul_left hC e
          rw [Nat.mul_comm] at this
          omega
        rw [if_neg hal] at h
        obtain ⟨r1, r2⟩ := ih _ _ hzk h
        refine ⟨r1.trans hzr, r2.imp (fun ⟨a, b, d, e⟩ => ⟨a.trans hzt, b, ?_, e⟩) (fun ⟨a, b⟩ => ⟨a, by rw [← hzt]; exact b⟩)⟩
        omega

/-- C70: whatever the chip holds, a mount that succeeds finds the newest entry directly below a readable checkpoint page at the end of a group, and the next
entry goes either to a free place behind it in the same block or to the start of the next block; so no more than one block of pages is passed over. The
tail is the one recorded in the checkpoint, or the start of the block after if the head has arrived at its block. The journal is clean. -/
theorem restart_position (hc : c.Valid) {n : Nand} (hf : HonestFree c n) {j j' : Journal} (h : journalResume c n j = (.ok (), j')) :
    ∃ e buf, Placed c n j' e buf := by
  have h4 := hc.ppc_ge
  have hP := ppb_pos c
  have hC := ppc_pos c
  unfold journalResume at h
  split at h
  · cases h
  · next first b0 h1 =>
    have hfirst := findCheckblock_lt _ _ _ _ h1
    simp only at h
    split at h
    · cases h
    · next last h2 =>
      have hlast := findLastCheckblockLoop_lt hfirst _ _ _ _ h2
      split at h
      · cases h
      · next g h3 =>
        obtain ⟨m, hm, hx⟩ := findLastGroupLoop_at hc hlast _ _ _ _ (Nat.le_refl _) h3
        obtain ⟨_, f1, f2⟩ := grp_fit hc hlast hm
        have inb : ∀ x, x < c.ppb → (last * c.ppb + x) / c.ppb = last ∧ (last * c.ppb + x) % c.ppb = x := fun x hx => by
          rw [Nat.mul_comm last, Nat.mul_add_div hP, Nat.mul_add_mod, Nat.div_eq_of_lt hx, Nat.mod_eq_of_lt hx]
          exact ⟨rfl, rfl⟩
        obtain ⟨hgb, hgm⟩ := inb (m * c.ppc) (by omega)
        rw [← hx] at hgb hgm
        split at h
        · cases h
        · next root b h5 =>
          split at h
          · cases h
          · next j2 h6 =>
            cases h
            unfold findRoot at h5
            have e1 : g &&& (c.ppb - 1) = m * c.ppc := by
              rw [← hgm]; unfold Cfg.ppb; rw [Nat.and_two_pow_sub_one_eq_mod]
            rw [e1, blk_eq, hgb, show (m * c.ppc) >>> c.log2Ppc = m by
              rw [Nat.shiftRight_eq_div_pow]; exact Nat.mul_div_cancel _ hC] at h5
            obtain ⟨i, hi, hroot, hcp⟩ := findRootLoop_at hc _ _ _ h5
            have him : i * c.ppc ≤ m * c.ppc := Nat.mul_le_mul_right _ (by omega)
            obtain ⟨hrb, hrm⟩ := inb (i * c.ppc + (c.ppc - 2)) (by omega)
            rw [← Nat.add_assoc, ← hroot] at hrb hrm
            have hgr : ∀ a x, x < c.ppc → (last * c.ppb + a * c.ppc + x) / c.ppc = last * c.ppb / c.ppc + a ∧
                (last * c.ppb + a * c.ppc + x) % c.ppc = x := by
              intro a x hx
              obtain ⟨q, hq⟩ := hc.ppc_dvd
              have e : last * c.ppb = c.ppc * (last * q) := by rw [hq, Nat.mul_left_comm]
              rw [e, Nat.mul_comm a, ← Nat.mul_add, Nat.mul_add_div hC, Nat.mul_add_mod, Nat.div_eq_of_lt hx, Nat.mod_eq_of_lt hx,
                Nat.mul_div_cancel_left _ hC]
              exact ⟨rfl, rfl⟩
            have hr2 : (root + 2) % c.ppc = 0 := by
              have := (hgr (i + 1) 0 hC).2
              rw [Nat.add_mul, Nat.one_mul] at this
              rw [show root + 2 = last * c.ppb + (i * c.ppc + c.ppc) + 0 by omega]; exact this
            have hrp : root + 1 < c.pages := by omega
            unfold findHead at h6
            have hu : nextUpage c g = g + 1 := by
              have hgp : (g + 1 + 1) % c.ppc = 2 := by
                rw [hx, Nat.add_assoc, Nat.add_assoc, ← Nat.add_assoc]; exact (hgr m 2 (by omega)).2
              have hna : ¬ isAligned (g + 1 + 1) c.log2Ppc = true := by
                rw [isAligned_iff]
                show ¬ (g + 1 + 1) % c.ppc = 0
                omega
              unfold nextUpage
              simp only
              rw [if_neg hna, if_neg (by omega)]
            rw [hu] at h6
            unfold rollIfZero at h6
            rw [if_neg (by simp)] at h6
            have hgb1 : (g + 1) / c.ppb = last := by
              rw [hx, Nat.add_assoc]; exact (inb _ (by omega)).1
            obtain ⟨r1, r2⟩ := findHeadLoop_at hc hlast _ _ _ hgb1 h6
            simp only at r1 r2
            have pos : SameBlock c n root j2.head ∧ j2.tail = hdrGetTail b ∨ j2.head = startOfNextBlock c root ∧
                j2.tail = if j2.head / c.ppb = hdrGetTail b / c.ppb then nextBlock c (hdrGetTail b / c.ppb) * c.ppb else hdrGetTail b := by
              rcases r2 with ⟨a1, a2, a3, a4, a5, a6⟩ | ⟨a1, a2⟩
              · refine Or.inl ⟨⟨a2.trans hrb.symm, ?_, a4, a5, a6⟩, a1⟩
                have hgg : (g + 1) / c.ppc = last * c.ppb / c.ppc + m := by rw [hx]; exact (hgr m 1 (by omega)).1
                have hrg : (root + 1) / c.ppc = last * c.ppb / c.ppc + i := by
                  rw [hroot, Nat.add_assoc]; exact (hgr i _ (by omega)).1
                rw [hgg] at a3
                rcases Nat.lt_or_ge (root + 1) j2.head with h | h
                · exact h
                · exfalso
                  have hle := Nat.div_le_div_right (c := c.ppc) h
                  have hlp : (root + 1) % c.ppc = c.ppc - 1 := by
                    rw [hroot, Nat.add_assoc]; exact ((hgr i (c.ppc - 2 + 1) (by omega)).2).trans (by omega)
                  have := hf _ _ hlp (a5 (root + 1) h (by omega)) hcp.read
                  rw [hcp.magic] at this
                  cases this
              · refine Or.inr ⟨?_, ?_⟩
                · rw [a1, nextBlock_mod hc hlast]; unfold startOfNextBlock; rw [hrb]
                · rw [a1, Nat.mul_div_cancel _ hP]; exact a2
            have dist : (j2.head + c.pages - root) % c.pages ≤ c.ppb := by
              have er := Nat.div_add_mod root c.ppb
              rw [hrb, Nat.mul_comm] at er
              have hlr := Nat.mod_lt root hP
              rcases pos with ⟨p, _⟩ | ⟨a1, _⟩
              · have eh := Nat.div_add_mod j2.head c.ppb
                rw [p.block, hrb, Nat.mul_comm] at eh
                have hlh := Nat.mod_lt j2.head hP
                have := p.behind
                rw [show j2.head + c.pages - root = j2.head - root + c.pages by omega, Nat.add_mod_right]
                exact Nat.le_trans (Nat.mod_le _ _) (by omega)
              · rw [startOfNextBlock, hrb] at a1
                have hN := hc.blocks_lo
                by_cases hl : last + 1 = c.numBlocks
                · rw [hl, Nat.mod_self, Nat.zero_mul] at a1
                  have hpg : c.pages = last * c.ppb + c.ppb := by
                    unfold Cfg.pages; rw [← hl, Nat.add_mul, Nat.one_mul]
                  exact Nat.le_trans (Nat.mod_le _ _) (by omega)
                · rw [Nat.mod_eq_of_lt (show last + 1 < c.numBlocks by omega), Nat.add_mul, Nat.one_mul] at a1
                  rw [show j2.head + c.pages - root = j2.head - root + c.pages by omega, Nat.add_mod_right]
                  exact Nat.le_trans (Nat.mod_le _ _) (by omega)
            rw [← r1] at hcp hr2 hrp pos dist
            exact ⟨_, b, hcp, hrp, hr2, pos, dist, rfl, rfl, rfl⟩

/-! ### For every life -/

/-- No checkpoint page that tests as free holds something like a checkpoint. -/
def HF (c : Cfg) (ch : Chip) : Prop := ∀ p b, p < c.pages → p % c.ppc = c.ppc - 1 → ch.free p = true → ch.page p = some b → hdrHasMagic b = false

theorem magic_clip (hc : c.Valid) (b : Buf) : hdrHasMagic (c.clip b) = hdrHasMagic b := (hdr_cnt_congr (clip_lo hc b)).2.2

theorem HF.erased (hc : c.Valid) {ch : Chip} (h : HF c ch) (k : Nat) : HF c (ch.erased c k) := by
  intro q b h1 h2 h3 h4
  simp only [Chip.erased] at h3 h4
  split at h4
  · cases h4; rw [magic_clip hc]; rfl
  · next hn => rw [if_neg hn] at h3; exact h q b h1 h2 h3 h4

theorem HF.programmed (hc : c.Valid) {ch : Chip} (h : HF c ch) (p : Nat) (d : Buf) : HF c (ch.programmed c p d) := by
  intro q b h1 h2 h3 h4
  simp only [Chip.programmed, upd] at h3 h4
  split at h4
  · next e =>
    cases h4
    rw [if_pos e] at h3
    simp only [Bool.and_eq_true] at h3
    rw [magic_clip hc]
    cases hm : hdrHasMagic d with
    | false => rfl
    | true => rw [isFF_magic hc hm] at h3; exact absurd h3.2 (by simp)
  · next hn => rw [if_neg hn] at h3; exact h q b h1 h2 h3 h4

theorem hf_closed (hc : c.Valid) (hJ : NoForgery c) : NCl c (HF c) where
  erase := by
    intro k n h
    unfold nandErase
    split
    · exact h
    · simp only
      split
      · exact h.erased hc k
      · intro q b h1 h2 h3 h4
        simp only [Chip.garbledBlock] at h3 h4
        split at h4
        · exact hJ _ _ _ h2 h4
        · next hn => rw [if_neg hn] at h3; exact h q b h1 h2 h3 h4
      · exact h
      · exact h.erased hc k
      · intro q b h1 h2 h3 h4
        simp only [Chip.tornBlock] at h3 h4
        split at h4
        · exact hJ _ _ _ h2 h4
        · next hn => rw [if_neg hn] at h3; exact h q b h1 h2 h3 h4
  prog := by
    intro p d n h
    have bad : ∀ f, HF c (n.chip.garbledPage c n.time p f) := by
      intro f q b h1 h2 h3 h4
      simp only [Chip.garbledPage, upd] at h3 h4
      split at h4
      · next e => subst e; exact hJ _ _ _ h2 h4
      · next hn => rw [if_neg hn] at h3; exact h q b h1 h2 h3 h4
    unfold nandProg
    split
    · exact h
    · simp only
      split
      · exact h.programmed hc p d
      · exact bad _
      · exact h
      · exact h.programmed hc p d
      · exact bad _
  mark := by
    intro k n h
    unfold nandMarkBad
    split <;> exact h

theorem HF.honest (hc : c.Valid) {n : Nand} (h : HF c n.chip) : HonestFree c n := by
  intro p buf hp hf hr
  obtain ⟨pg, h1, h2, h3⟩ := nandRead_ok hr
  rw [h2]
  exact (magic_clip hc pg).trans (h p pg h3 hp hf h1)

theorem AnyLife.hf (hc : c.Valid) (hJ : NoForgery c) {s : S} (h : AnyLife c s) : HF c s.n.chip := by
  induction h with
  | init buf n k h => exact fun p b h1 h2 _ h4 => h p b h1 h2 h4
  | mapCall s op _ ih => exact step_ci (hf_closed hc hJ) op ih
  | journalCall s op _ ih => exact jcall_ci (hf_closed hc hJ) op ih
  | mount s _ ih =>
    unfold mapResume
    split <;> exact ih
  | cycle s buf k _ ih =>
    unfold reboot mapResume
    split <;> exact ih

/-- C70, for every life: however long, with whatever faults, refused calls, power failures (also several in a row without a checkpoint in between) and failed
mounts, a mount that succeeds goes on right behind a readable checkpoint. -/
theorem every_restart_position (hc : c.Valid) (hJ : NoForgery c) {s s' : S} (h : AnyLife c s) (buf : Buf) (k : Nat)
    (hr : reboot c buf k s = (.ok (), s')) : ∃ e b, Placed c s'.n s'.j e b := by
  unfold reboot mapResume mapInit at hr
  simp only at hr
  rcases hj : journalResume c { s.n with time := s.n.time + 1, dead := false } (journalInit c buf) with ⟨r1, j1⟩
  rw [hj] at hr
  cases r1 with
  | error e => simp only at hr; cases hr
  | ok u =>
    simp only at hr
    cases hr
    exact restart_position hc (HF.honest hc (n := { s.n with time := s.n.time + 1, dead := false }) (h.hf hc hJ)) hj

/-- C70, in short: the head is never more than a block of pages from the newest entry that a readable checkpoint covers, so what was programmed after that
checkpoint, and all further blocks erased since, are used again: the room lost to power failures is at most one block, however many there are. -/
theorem power_failure_costs_at_most_a_block (hc : c.Valid) (hJ : NoForgery c) {s s' : S} (h : AnyLife c s) (buf : Buf) (k : Nat)
    (hr : reboot c buf k s = (.ok (), s')) : ∃ e b, CheckpointAt c s'.n (s'.j.root + 1) e b ∧ (s'.j.head + c.pages - s'.j.root) % c.pages ≤ c.ppb := by
  obtain ⟨e, b, p⟩ := every_restart_position hc hJ h buf k hr
  exact ⟨e, b, p.checkpoint, p.near⟩

/-! ### Examples -/

namespace ExPosition
open Viol

theorem anyLife_run (c : Cfg) : ∀ (ops : List Op) (s : S), AnyLife c s → AnyLife c (run c ops s)
  | [], _, h => h
  | op :: ops, _, h => anyLife_run c ops _ (.mapCall _ op h)

theorem life_start (hb : hdrHasMagic (c.clip Buf.ff) = false) : AnyLife c (start c) := by
  refine .mount _ (.init _ _ _ ?_)
  intro p b _ _ h
  cases h
  exact hb

theorem noForgery51 : NoForgery c51 := fun _ _ _ _ h => by cases h

theorem life51 : AnyLife c51 s51a := .mapCall _ _ (anyLife_run c51 ops51 _ (life_start (by decide +kernel)))

/-- The chip of C51: power is lost while the second checkpoint of block 0 is programmed, which makes that page unreadable. The restart finds the first
checkpoint (page 3) and goes on at the start of block 1. -/
example : (∃ e b, Placed c51 s51b.n s51b.j e b) ∧ s51b.j.root = 2 ∧ s51b.j.head = 8 :=
  ⟨every_restart_position valid51 noForgery51 life51 (fun _ => 0) 0 (pair_eq boot51), by decide +kernel, by decide +kernel⟩

/-- The state after four of the writes, of which three are covered by a checkpoint. -/
def sFour : S := run c51 (ops51.take 4) (start c51)

theorem bootFour : (reboot c51 (fun _ => 0) 0 sFour).1 = .ok () := good_iff (by decide +kernel)

/-- Switching off then: the restart goes on in block 0, behind the page of the fourth write. -/
example : (∃ e b, Placed c51 (reboot c51 (fun _ => 0) 0 sFour).2.n (reboot c51 (fun _ => 0) 0 sFour).2.j e b) ∧
    (reboot c51 (fun _ => 0) 0 sFour).2.j.root = 2 ∧ (reboot c51 (fun _ => 0) 0 sFour).2.j.head = 5 :=
  ⟨every_restart_position valid51 noForgery51 (anyLife_run c51 _ _ (life_start (by decide +kernel))) (fun _ => 0) 0 (pair_eq bootFour),
    by decide +kernel, by decide +kernel⟩

end ExPosition
end Dhara

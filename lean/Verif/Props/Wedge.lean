/-
C69: an enqueue refused with E_JOURNAL_FULL can be repeated with success once entries have been dequeued - violated by the code if the refusal came from
a bad block at the head: the refused call has marked the journal dirty (dhara/journal.c:633), so that dequeues no longer release anything.
-/
import Verif.Proofs.Closed2
import Verif.Props.Lifetime
namespace Dhara

variable {c : Cfg}

/-! ### Specification -/

/-- The states that may follow `s` without a power cycle: any journal calls, setting the cookie (dhara/journal.h:153-157), dhara_journal_mark_dirty, and time passing. -/
inductive JFollows (c : Cfg) (s : S) : S → Prop
  | refl : JFollows c s s
  | call (t u : S) (op : JOp) (r : Except Err Unit) : JFollows c s t → jcall c op t = (r, u) → JFollows c s u
  | cookie (t : S) (k : Nat) : JFollows c s t → JFollows c s { t with j := ckSetCount t.j k }
  | mark (t : S) : JFollows c s t → JFollows c s (markDirty t)
  | wait (t : S) : JFollows c s t → JFollows c s (tick t)

/-- Every enqueue and every copy is refused, whatever is to be stored. -/
def RefusesAll (c : Cfg) (s : S) : Prop :=
  (∀ d m, (enqueue c d m s).1 = .error .journalFull) ∧ ∀ p m, (journalCopy c p m s).1 = .error .journalFull

/-! ### Proofs -/

/-- The head is at a bad block before that of the synchronised tail, and the journal is dirty. -/
structure Wedged (c : Cfg) (s : S) : Prop where
  start : s.j.head % c.ppb = 0
  head : s.j.head < c.pages
  bad : s.n.chip.bad (c.blk s.j.head) = true
  tail : c.blk s.j.tailSync = nextBlock c (c.blk s.j.head)
  dirty : s.j.dirty = true

theorem Wedged.of_eq {s s' : S} (h : Wedged c s) (h1 : s'.j.head = s.j.head) (h2 : s'.j.tailSync = s.j.tailSync) (h3 : s'.j.dirty = true)
    (h4 : s'.n.chip = s.n.chip) : Wedged c s' :=
  ⟨by rw [h1]; exact h.start, by rw [h1]; exact h.head, by rw [h1, h4]; exact h.bad, by rw [h1, h2]; exact h.tail, h3⟩

/-- At the start of a block the head does not leave the block with the next page. -/
theorem start_stays (hc : c.Valid) {p : Nat} (h0 : p % c.ppb = 0) (hp : p < c.pages) : alignEq (nextUpage c p) p c.log2Ppb = true := by
  have hu := isU_of_aligned hc h0
  have h4 := hc.ppc_ge
  have hm := mod_ppc_of_ppb_zero hc h0
  have hne : ¬ isAligned (p + 1 + 1) c.log2Ppc = true := by
    rw [isAligned_iff]
    show ¬ (p + 1 + 1) % c.ppc = 0
    rw [Nat.add_assoc, Nat.add_mod, hm, Nat.zero_add, Nat.mod_mod, Nat.mod_eq_of_lt (by omega)]
    omega
  have hlt := succ_ok hc hp hu
  have he : nextUpage c p = p + 1 := by
    unfold nextUpage
    simp only
    rw [if_neg hne, if_neg (by omega)]
  rw [he, alignEq_iff]
  show (p + 1) / c.ppb = p / c.ppb
  have hge : c.ppc ≤ c.ppb := Nat.le_of_dvd (ppb_pos c) hc.ppc_dvd
  exact (div_add_lt (v := p) (k := 1) (m := c.ppb) (by omega)).1

/-- What searching for a block does: it is refused and the journal wedged, or an erase was tried, or another error is reported. -/
theorem prepareHeadLoop_wedge (hc : c.Valid) : ∀ i (s : S), s.j.head % c.ppb = 0 → s.j.head < c.pages → s.j.dirty = true →
    (((prepareHeadLoop c i s).1 = .error .journalFull ∧ Wedged c (prepareHeadLoop c i s).2) ∨
      s.n.time < (prepareHeadLoop c i s).2.n.time ∨ ∃ e, (prepareHeadLoop c i s).1 = .error e ∧ e ≠ .badBlock ∧ e ≠ .journalFull) := by
  intro i
  induction i with
  | zero => intro s _ _ _; exact .inr (.inr ⟨_, rfl, by decide, by decide⟩)
  | succ i ih =>
    intro s h0 hp hd
    unfold prepareHeadLoop
    simp only
    by_cases hb : ¬ nandIsBad s.n (c.blk s.j.head) = true
    · rw [if_pos hb]
      unfold nandErase
      split
      · exact .inr (.inr ⟨_, rfl, by decide, by decide⟩)
      · simp only
        split <;> exact .inr (.inl (Nat.lt_succ_self _))
    · rw [if_neg hb]
      have hb : s.n.chip.bad (c.blk s.j.head) = true := Classical.not_not.1 hb
      unfold skipBlock
      simp only
      split
      · next heq =>
        split at heq
        · next ht =>
          cases heq
          exact .inl ⟨rfl, ⟨h0, hp, hb, ht, hd⟩⟩
        · cases heq
      · next s1 heq =>
        split at heq
        · cases heq
        · cases heq
          have e1 : ∀ j : Journal, (rollIfZero j).head = j.head ∧ (rollIfZero j).dirty = j.dirty := by
            intro j; unfold rollIfZero rollStats; split <;> exact ⟨rfl, rfl⟩
          refine ih _ ?_ ?_ ?_
          · simp only [e1]; rw [shl_ppb]; exact Nat.mul_mod_left _ _
          · simp only [e1]; exact start_ok (nextBlock_ok hc _)
          · simp only [e1]; exact hd

theorem pushLoop_wedge (hc : c.Valid) {wr : S → Except Err Unit × S} (hw : ∀ s, Evo c s.n (wr s).2.n) (mt : Option Buf) (i : Nat) (s : S)
    (h0 : s.j.head % c.ppb = 0) (hp : s.j.head < c.pages) {s' : S} (h : pushLoop c wr mt (i + 1) s = (.error .journalFull, s'))
    (ht : s'.n.time = s.n.time) : Wedged c s' := by
  unfold pushLoop at h
  simp only at h
  have hph : prepareHead c s = prepareHeadLoop c maxRetries { s with j := { s.j with dirty := true } } := by
    unfold prepareHead
    simp only
    rw [if_neg (by rw [start_stays hc h0 hp]; simp), if_neg (by rw [isAligned_iff]; exact fun hh => hh h0)]
  have key := prepareHeadLoop_wedge hc maxRetries { s with j := { s.j with dirty := true } } h0 hp rfl
  rw [← hph] at key
  have rest : ∀ (e : Err) (t : S), (match recoverFrom c e t with
      | (.error e, s) => ((.error e, s) : Except Err Unit × S)
      | (.ok (), s) => pushLoop c wr mt i s) = (.error .journalFull, s') → t.n.time ≤ s'.n.time := by
    intro e t hh
    have h1 := recoverFrom_evo (c := c) e t
    split at hh
    · next h2 => rw [h2] at h1; cases hh; exact h1.time
    · next s3 h2 =>
      rw [h2] at h1
      have h3 := pushLoop_evo wr hw mt i s3
      rw [hh] at h3
      exact Nat.le_trans h1.time h3.time
  rcases key with ⟨k1, k2⟩ | hlt | ⟨e, k1, k2, k3⟩
  · rcases hpp : prepareHead c s with ⟨e | ⟨⟩, s1⟩
    · rw [hpp] at h k1 k2
      simp only at h k1 k2
      cases k1
      rw [recoverFrom_other (by decide)] at h
      cases h
      exact k2
    · rw [hpp] at k1; cases k1
  · exfalso
    have hlt : s.n.time < (prepareHead c s).2.n.time := hlt
    rcases hpp : prepareHead c s with ⟨e | ⟨⟩, s1⟩
    · rw [hpp] at h hlt
      simp only at h hlt
      have := rest _ _ h
      omega
    · rw [hpp] at h hlt
      simp only at h hlt
      have hwe := hw s1
      rcases hq : wr s1 with ⟨e | ⟨⟩, s2⟩
      · rw [hq] at h hwe
        simp only at h hwe
        have := rest _ _ h
        have := hwe.time
        omega
      · rw [hq] at h hwe
        simp only at h hwe
        have h3 := pushMeta_evo (c := c) mt s2
        rw [h] at h3
        have := hwe.time
        have := h3.time
        simp only at this
        omega
  · exfalso
    rcases hpp : prepareHead c s with ⟨e1 | ⟨⟩, s1⟩
    · rw [hpp] at h k1
      simp only at h k1
      cases k1
      rw [recoverFrom_other k2] at h
      cases h
      exact k3 rfl
    · rw [hpp] at k1; cases k1

/-- In a wedged journal every push is refused, and it stays wedged. -/
theorem Wedged.push (hc : c.Valid) {s : S} (h : Wedged c s) (wr : S → Except Err Unit × S) (mt : Option Buf) (i : Nat) :
    (pushLoop c wr mt (i + 1) s).1 = .error .journalFull ∧ Wedged c (pushLoop c wr mt (i + 1) s).2 ∧ (pushLoop c wr mt (i + 1) s).2.n = s.n := by
  have hph : prepareHead c s = (.error .journalFull, { s with j := { { s.j with dirty := true } with bbCurrent := s.j.bbCurrent + 1 } }) := by
    unfold prepareHead
    simp only
    rw [if_neg (by rw [start_stays hc h.start h.head]; simp), if_neg (by rw [isAligned_iff]; exact fun hh => hh h.start)]
    show prepareHeadLoop c (7 + 1) _ = _
    unfold prepareHeadLoop
    simp only
    rw [if_neg (by show ¬ ¬ s.n.chip.bad (c.blk s.j.head) = true; rw [h.bad]; simp)]
    unfold skipBlock
    simp only
    rw [if_pos h.tail]
  unfold pushLoop
  simp only
  rw [hph]
  simp only
  rw [recoverFrom_other (by decide)]
  exact ⟨rfl, h.of_eq rfl rfl rfl rfl, rfl⟩

theorem Wedged.refuses (hc : c.Valid) {s : S} (h : Wedged c s) : RefusesAll c s :=
  ⟨fun _ m => (h.push hc _ m 7).1, fun _ m => (h.push hc _ (some m) 7).1⟩

theorem peek_keeps (s : S) : (peek c s).2.j.tailSync = s.j.tailSync ∧ (peek c s).2.j.dirty = s.j.dirty ∧ (peek c s).2.j.head = s.j.head := by
  have loop : ∀ i b (s : S), (peekLoop c i b s).2.j.tailSync = s.j.tailSync ∧ (peekLoop c i b s).2.j.dirty = s.j.dirty ∧ (peekLoop c i b s).2.j.head = s.j.head := by
    intro i
    induction i with
    | zero => intro b s; exact ⟨rfl, rfl, rfl⟩
    | succ i ih =>
      intro b s
      unfold peekLoop
      simp only
      split
      · split <;> exact ⟨rfl, rfl, rfl⟩
      · exact ih _ _
  unfold peek
  split
  · exact ⟨rfl, rfl, rfl⟩
  · split
    · exact loop _ _ _
    · exact ⟨rfl, rfl, rfl⟩

theorem Wedged.call (hc : c.Valid) (op : JOp) {s : S} (h : Wedged c s) : Wedged c (jcall c op s).2 := by
  cases op with
  | enqueue d m => exact (h.push hc _ m 7).2.1
  | copy p m => exact (h.push hc _ (some m) 7).2.1
  | dequeue =>
    show Wedged c (Dhara.dequeue c s)
    have hd := h.dirty
    unfold Dhara.dequeue
    simp only
    split
    · exact h
    · have hn : ¬ (¬ (s.j.dirty = true ∨ s.j.recovery = true)) := fun hh => hh (.inl hd)
      split <;> split <;> first | exact absurd ‹¬ (s.j.dirty = true ∨ s.j.recovery = true)› hn | exact h.of_eq rfl rfl hd rfl
  | peek =>
    obtain ⟨h1, h2, h3⟩ := peek_keeps (c := c) s
    exact h.of_eq h3 h1 (h2.trans h.dirty) (congrArg Nand.chip (peek_n s))
  | clear => exact h.of_eq rfl rfl rfl rfl
  | next =>
    show Wedged c (nextRecoverable c s).2
    unfold nextRecoverable
    simp only
    split
    · exact h
    · split
      · exact h
      · split <;> exact h.of_eq rfl rfl h.dirty rfl

theorem Wedged.call_n (hc : c.Valid) (op : JOp) {s : S} (h : Wedged c s) : (jcall c op s).2.n = s.n := by
  cases op with
  | enqueue d m => exact (h.push hc _ m 7).2.2
  | copy p m => exact (h.push hc _ (some m) 7).2.2
  | dequeue => exact dequeue_n s
  | peek => exact peek_n s
  | clear => rfl
  | next => exact nextRecoverable_n s

theorem Wedged.follows (hc : c.Valid) {s t : S} (hw : Wedged c s) (h : JFollows c s t) : Wedged c t := by
  induction h with
  | refl => exact hw
  | call t u op r _ h ih => have := ih.call hc op; rw [h] at this; exact this
  | cookie t k _ ih => exact ih.of_eq rfl rfl ih.dirty rfl
  | mark t _ ih => exact ih.of_eq rfl rfl rfl rfl
  | wait t _ ih => exact ih.of_eq rfl rfl ih.dirty rfl

/-- C69, the violation: if the head is at the start of a block, and an enqueue is refused with E_JOURNAL_FULL without having tried a
program or erase operation (so the block is bad, as are those skipped after it), then from then on, until the next power cycle, every enqueue and
every copy is refused, whatever calls are made in between - even if every entry is dequeued or the journal is cleared. -/
theorem refused_at_block_start_refuses_for_ever (hc : c.Valid) (s s' t : S) (d m : Option Buf) (h0 : s.j.head % c.ppb = 0) (hp : s.j.head < c.pages)
    (hr : enqueue c d m s = (.error .journalFull, s')) (ht : s'.n.time = s.n.time) (h : JFollows c s' t) : RefusesAll c t := by
  have hw : Wedged c s' := pushLoop_wedge hc (wrData_evo d) m 7 s h0 hp hr ht
  exact (hw.follows hc h).refuses hc

theorem nandProg_busy (p : Nat) (d : Buf) (n : Nand) : (nandProg c p d n).1 = .error .powerLoss ∨ n.time < (nandProg c p d n).2.time := by
  unfold nandProg
  split
  · exact .inl rfl
  · simp only
    split <;> exact .inr (Nat.lt_succ_self _)

/-- What writing the user page can come to: an error that is no bad block, an operation, or nothing at all. -/
def WrBusy (wr : S → Except Err Unit × S) : Prop :=
  ∀ t, (∃ e, (wr t).1 = .error e ∧ e ≠ .badBlock ∧ e ≠ .journalFull) ∨ t.n.time < (wr t).2.n.time ∨ wr t = (.ok (), t)

theorem progS_busy (p : Nat) (d : Buf) (t : S) : (∃ e, (progS c p d t).1 = .error e ∧ e ≠ .badBlock ∧ e ≠ .journalFull) ∨ t.n.time < (progS c p d t).2.n.time :=
  (nandProg_busy p d t.n).imp (fun h => ⟨_, h, by decide, by decide⟩) id

theorem wrData_busy (d : Option Buf) : WrBusy (wrData c d) := by
  intro t
  unfold wrData
  cases d with
  | none => exact .inr (.inr rfl)
  | some d => exact (progS_busy _ d t).imp id .inl

theorem nandRead_code (n : Nand) (p off len : Nat) {e : Err} (h : nandRead c n p off len = .error e) : e ≠ .badBlock ∧ e ≠ .journalFull := by
  unfold nandRead at h
  split at h
  · split at h
    · cases h; decide
    · split at h <;> cases h; decide
  · cases h; decide

theorem wrCopy_busy (p : Nat) : WrBusy (wrCopy c p) := by
  intro t
  unfold wrCopy nandCopy
  simp only
  split
  · next h => exact .inl ⟨_, rfl, nandRead_code _ _ _ _ h⟩
  · next b _ => exact (progS_busy _ b t).imp id .inl

theorem pushLoop_elsewhere {wr : S → Except Err Unit × S} (hw : ∀ s, Evo c s.n (wr s).2.n) (hwb : WrBusy wr) (m : Option Buf) (i : Nat) (s s' : S)
    (h0 : s.j.head % c.ppb ≠ 0) (hr : pushLoop c wr m (i + 1) s = (.error .journalFull, s')) (ht : s'.n.time = s.n.time) : s' = s := by
  have rest : ∀ (e : Err) (t : S), (match recoverFrom c e t with
      | (.error e, s) => ((.error e, s) : Except Err Unit × S)
      | (.ok (), s) => pushLoop c wr m i s) = (.error .journalFull, s') → t.n.time ≤ s'.n.time := by
    intro e t hh
    have h1 := recoverFrom_evo (c := c) e t
    split at hh
    · next h2 => rw [h2] at h1; cases hh; exact h1.time
    · next s3 h2 =>
      rw [h2] at h1
      have h3 := pushLoop_evo (c := c) wr hw m i s3
      rw [hh] at h3
      exact Nat.le_trans h1.time h3.time
  have pm : ∀ t : S, pushMeta c m t = (.error .journalFull, s') → t.n.time < s'.n.time := by
    intro t h
    unfold pushMeta at h
    simp only at h
    split at h
    · cases h
    · have hb := nandProg_busy (c := c) ((fillHeader (bufferMeta c m t.j)).head + 1) (fillHeader (bufferMeta c m t.j)).pageBuf t.n
      unfold progS at h
      simp only at h
      rcases hq : nandProg c ((fillHeader (bufferMeta c m t.j)).head + 1) (fillHeader (bufferMeta c m t.j)).pageBuf t.n with ⟨e | ⟨⟩, n⟩
      · rw [hq] at h hb
        simp only at h hb
        rcases hb with hb | hb
        · cases hb
          rw [recoverFrom_other (by decide)] at h
          cases h
        · have h1 := recoverFrom_evo (c := c) e ⟨fillHeader (bufferMeta c m t.j), n, t.count⟩
          rw [h] at h1
          exact Nat.lt_of_lt_of_le hb h1.time
      · rw [hq] at h
        cases h
  unfold pushLoop at hr
  simp only at hr
  by_cases hfull : (alignEq (nextUpage c s.j.head) s.j.tailSync c.log2Ppb = true ∧ ¬ alignEq (nextUpage c s.j.head) s.j.head c.log2Ppb = true)
  · have hph : prepareHead c s = (.error .journalFull, s) := by
      unfold prepareHead
      simp only
      rw [if_pos hfull]
    rw [hph] at hr
    simp only at hr
    rw [recoverFrom_other (by decide)] at hr
    cases hr
    rfl
  · exfalso
    have hph : prepareHead c s = (.ok (), { s with j := { s.j with dirty := true } }) := by
      unfold prepareHead
      simp only
      rw [if_neg hfull, if_pos (by rw [isAligned_iff]; exact h0)]
    rw [hph] at hr
    simp only at hr
    have hb := hwb { s with j := { s.j with dirty := true } }
    have hev := hw { s with j := { s.j with dirty := true } }
    rcases hq : wr { s with j := { s.j with dirty := true } } with ⟨e | ⟨⟩, s2⟩
    · rw [hq] at hr hb
      simp only at hr hb
      rcases hb with ⟨e1, hb, b2, b3⟩ | hb | hb
      · cases hb
        rw [recoverFrom_other b2] at hr
        cases hr
        exact b3 rfl
      · have := rest _ _ hr
        omega
      · cases hb
    · rw [hq] at hr hev
      simp only at hr hev
      have := pm _ hr
      have := hev.time
      omega

/-- C69, the other case: an enqueue refused without having tried a program or erase operation while the head is not at the start of a block has
changed nothing, so that it can be repeated. -/
theorem refused_elsewhere_changes_nothing (s s' : S) (d m : Option Buf) (h0 : s.j.head % c.ppb ≠ 0)
    (hr : enqueue c d m s = (.error .journalFull, s')) (ht : s'.n.time = s.n.time) : s' = s :=
  pushLoop_elsewhere (wrData_evo d) (wrData_busy d) m 7 s s' h0 hr ht

/-! ### A concrete case -/

namespace ExWedge
open Viol Ex2 ExFifo ExLifetime
open ExCounters (jrunC jrunOk isErr_of)

/-- Everything is dequeued. -/
def drain (c : Cfg) : Nat → S → S
  | 0, s => s
  | k + 1, s => drain c k (dequeue c (peek c s).2)

theorem follows_drain (c : Cfg) (s : S) : ∀ k t, JFollows c s t → JFollows c s (drain c k t)
  | 0, _, h => h
  | k + 1, t, h => follows_drain c s k _ (.call _ _ .dequeue _ (.call t _ .peek _ h rfl) rfl)

/-- The refused enqueue. -/
def sNo : S := (enqueue cfg (some (data 1)) (some (data 2)) x4.1).2

/-- C69, a reachable case: on a chip of six blocks, one of them bad, 14 entries are in the queue. If they are dequeued the next enqueue succeeds.
But if an enqueue has been refused before, the journal stays full for ever: all 14 entries are dequeued and peek finds no more, or it is cleared, and every
enqueue is still refused. After a power cycle the entries are back, and after dequeuing four of them the same enqueue succeeds. -/
theorem refused_enqueue_wedges :
    ∃ (c : Cfg) (s s' : S) (L : List Entry) (d m : Buf), c.Valid ∧ Fifo c s L (.calm false) ∧ L.length = 14 ∧
      good (enqueue c (some d) (some m) (drain c 4 s)).1 = true ∧
      enqueue c (some d) (some m) s = (.error .journalFull, s') ∧ s'.n.time = s.n.time ∧
      (peek c (drain c 14 s')).1 = NONE ∧ RefusesAll c (drain c 14 s') ∧ (∀ t, JFollows c (drain c 14 s') t → RefusesAll c t) ∧
      (peek c (journalClear c s')).1 = NONE ∧ RefusesAll c (journalClear c s') ∧
      good (enqueue c (some d) (some m) (drain c 4 (jreboot c d (drain c 14 s')).2)).1 = true := by
  have h2 : x4.2.2 = false := by decide +kernel
  have hf := fifo4
  rw [h2] at hf
  have hr : enqueue cfg (some (data 1)) (some (data 2)) x4.1 = (.error .journalFull, sNo) := packErr (by decide +kernel)
  have ht : sNo.n.time = x4.1.n.time := by decide +kernel
  have h0 : x4.1.j.head % cfg.ppb = 0 := by decide +kernel
  have hp : x4.1.j.head < cfg.pages := by decide +kernel
  have key := fun t => refused_at_block_start_refuses_for_ever valid x4.1 sNo t _ _ h0 hp hr ht
  have comp : ∀ t u, JFollows cfg sNo t → JFollows cfg t u → JFollows cfg sNo u := by
    intro t u h h'
    induction h' with
    | refl => exact h
    | call t u op r _ h ih => exact .call t u op r ih h
    | cookie t k _ ih => exact .cookie t k ih
    | mark t _ ih => exact .mark t ih
    | wait t _ ih => exact .wait t ih
  have hd := follows_drain cfg sNo 14 sNo .refl
  refine ⟨cfg, x4.1, sNo, x4.2.1, data 1, data 2, valid, hf, ?_, ?_, hr, ht, ?_, key _ hd, fun t h => key t (comp _ t hd h), ?_,
    key _ (.call _ _ .clear _ .refl (eta _)), ?_⟩
  · decide +kernel
  · decide +kernel
  · decide +kernel
  · decide +kernel
  · decide +kernel

/-- The other case: five pages are on a chip of two blocks, the head at page 6; the sixth is refused and nothing has changed. -/
example : ∃ s s' : S, enqueue two (some (data 1)) (some (data 2)) s = (.error .journalFull, s') ∧ s.j.head = 6 ∧ s' = s := by
  have hr : enqueue two (some (data 1)) (some (data 2)) sTwo = (.error .journalFull, (enqueue two (some (data 1)) (some (data 2)) sTwo).2) :=
    packErr (by decide +kernel)
  refine ⟨sTwo, _, hr, by decide +kernel, refused_elsewhere_changes_nothing _ _ _ _ (by decide +kernel) hr (by decide +kernel)⟩

end ExWedge
end Dhara

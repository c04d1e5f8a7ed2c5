/-
C67: the capacity is an honest estimate of the room there is: it is never lower than the bad blocks on the chip (or one in 64) make it, not higher
than those known a round ago make it, and on a chip on which no operation fails it is exact from the first time round on.
-/
import Verif.Proofs.Counters2
import Verif.Proofs.Counters3
import Verif.Proofs.Counters4
import Verif.Props.Counters
namespace Dhara

variable {c : Cfg}

/-! ### Specification -/

/-- Block `b` cannot be used: it is marked bad, or it failed and the recovery going on will mark it bad when it ends. -/
def Lost (c : Cfg) (s : S) (b : Nat) : Bool :=
  s.n.chip.bad b || (s.j.recovery && (b == s.j.recoverRoot / c.ppb || (s.j.badMeta && b == s.j.recoverMeta / c.ppb)))

/-- How many of the first `m` blocks have the property. -/
def howMany (f : Nat → Bool) (m : Nat) : Nat := ((List.range m).filter f).length

/-- The state `t` is reached from `s` by journal calls each of which succeeded, or failed with E_RECOVER while the queue had a root page (as in
`JHist`). -/
inductive JAfter (c : Cfg) (s : S) : S → Prop
  | now : JAfter c s s
  | call (t u : S) (op : JOp) (r : Except Err Unit) : JAfter c s t → op.Allowed t → jcall c op t = (r, u) →
      (r = .ok () ∨ (r = .error .recover ∧ t.j.root ≠ NONE)) → JAfter c s u

/-- The state `t` is reached from `s` by journal calls none of which reported E_JOURNAL_FULL. -/
inductive JLater (c : Cfg) (s : S) : S → Prop
  | now : JLater c s s
  | call (t u : S) (op : JOp) (r : Except Err Unit) : JLater c s t → jcall c op t = (r, u) → r ≠ .error .journalFull → JLater c s u

/-- The same for the map's calls. -/
inductive MapLater (c : Cfg) (s : S) : S → Prop
  | now : MapLater c s s
  | call (t u : S) (op : Op) (r : Except Err Unit) : MapLater c s t → step c op t = (r, u) → r ≠ .error .journalFull → MapLater c s u

/-- The blocks counted since the head was last at the first page are exactly the lost ones before the head's block, no more are counted for the round
before than are lost (or one in 64), and the capacity is at least that of the blocks left. -/
structure NotUnderstated (c : Cfg) (s : S) : Prop where
  cur : s.j.bbCurrent = howMany (Lost c s) (s.j.head / c.ppb)
  last : s.j.bbLast ≤ max (c.numBlocks / 64) (howMany (Lost c s) c.numBlocks)
  cap : howMany (Lost c s) c.numBlocks < c.numBlocks →
    (c.numBlocks - max (c.numBlocks / 64) (howMany (Lost c s) c.numBlocks) - 1) * c.userPages ≤ journalCapacity c s.j

/-- The blocks counted since the head was last at the first page are exactly the bad blocks before the head's block; the count of the round before
is that of all bad blocks, or still the first guess. -/
structure CountsExact (c : Cfg) (s : S) : Prop where
  cur : s.j.bbCurrent = howMany s.n.chip.bad (s.j.head / c.ppb)
  last : s.j.bbLast = c.numBlocks / 64 ∨ s.j.bbLast = howMany s.n.chip.bad c.numBlocks

/-- The capacity is that of all good blocks less one. -/
def CapacityExact (c : Cfg) (s : S) : Prop :=
  journalCapacity c s.j = (c.numBlocks - howMany s.n.chip.bad c.numBlocks - 1) * c.userPages

/-! ### Proofs -/

theorem howMany_cnt (f : Nat → Bool) (m : Nat) : howMany f m = cnt f m := (List.countP_eq_length_filter ..).symm

theorem lost_eq (s : S) : Lost c s = Wb s.n (pend c s.j) := by
  funext k
  unfold Lost Wb pend
  rw [blk_eq, blk_eq]

theorem shr6 (n : Nat) : n >>> 6 = n / 64 := by rw [Nat.shiftRight_eq_div_pow]

theorem KI.notUnder (hc : c.Valid) {s : S} (h : KI c W0 s) (hl : Low c L h0 s) : NotUnderstated c s := by
  have h1 := Nat.le_antisymm h.w.cur hl.1
  have h2 := h.w.last
  rw [← lost_eq, ← howMany_cnt, blk_eq] at h1
  rw [← lost_eq, ← howMany_cnt, shr6] at h2
  refine ⟨h1, h2, fun hl => ?_⟩
  have h3 : howMany (Lost c s) (s.j.head / c.ppb) ≤ howMany (Lost c s) c.numBlocks := by
    rw [howMany_cnt, howMany_cnt]
    have := blk_ok h.w.head
    rw [blk_eq] at this
    exact cnt_le (Nat.le_of_lt this)
  have hb := hc.blocks_lo
  have hm : max s.j.bbLast s.j.bbCurrent < c.numBlocks := by omega
  rw [journal_capacity_exact hc s.j hm]
  exact Nat.mul_le_mul_right _ (by omega)

theorem JHist.ki (hc : c.Valid) {s : S} (h : JHist c s) : KI c (fun _ => false) s := by
  induction h with
  | fresh s h =>
    obtain ⟨j, n, k⟩ := s
    obtain ⟨_, _, ⟨buf, hj⟩ | ⟨j0, hj⟩⟩ := h
    · simp only at hj; rw [hj]; exact reset_ki hc _ _ _
    · simp only at hj
      obtain ⟨j1, hj⟩ := resume_tooBad hj
      rw [hj]; exact reset_ki hc _ _ _
  | call s s' op r _ _ h hr ih =>
    have hk := jcall_ki hc op ih
    rw [h] at hk
    rcases hr with rfl | ⟨rfl, hr⟩
    · exact hk.ok rfl
    · exact hk.again rfl hr

theorem JHist.low (hc : c.Valid) {s : S} (h : JHist c s) : Low c 0 0 s := by
  induction h with
  | fresh s h =>
    obtain ⟨j, n, k⟩ := s
    obtain ⟨_, _, ⟨buf, hj⟩ | ⟨j0, hj⟩⟩ := h
    · simp only at hj; rw [hj]; exact reset_low _ _ _
    · simp only at hj
      obtain ⟨j1, hj⟩ := resume_tooBad hj
      rw [hj]; exact reset_low _ _ _
  | call s s' op r h0 _ h hr ih =>
    obtain ⟨vts, vt, vh, vr, vR, vM, vn, q⟩ := h0.inv hc
    have hk := jcall_pl hc op (q.li (h0.ki hc) ih (Nat.zero_le _))
    rw [h] at hk
    rcases hr with rfl | ⟨rfl, hr⟩
    · exact hk.ok rfl
    · exact hk.again rfl hr

/-- C67, first part: whatever fails, the count of the round under way is exact, and the capacity never lower than the lost blocks make it. -/
theorem journal_capacity_not_understated (hc : c.Valid) (s : S) (h : JHist c s) : NotUnderstated c s := (h.ki hc).notUnder hc (h.low hc)

theorem JAfter.hist {s t : S} (h : JAfter c s t) (hs : JHist c s) : JHist c t := by
  induction h with
  | now => exact hs
  | call t u op r _ ha h hr ih => exact .call t u op r ih ha h hr

theorem JAfter.low (hc : c.Valid) {s t : S} (h : JAfter c s t) (hs : JHist c s) (hk : KI c W0 s) (hl : Low c L h0 s) (ht : L ≤ cnt W0 c.numBlocks) :
    KI c W0 t ∧ Low c L h0 t := by
  induction h with
  | now => exact ⟨hk, hl⟩
  | call t u op r h' ha h hr ih =>
    obtain ⟨vts, vt, vh, vr, vR, vM, vn, q⟩ := (h'.hist hs).inv hc
    have hk := jcall_pl hc op (q.li ih.1 ih.2 ht)
    have hk' := jcall_ki hc op ih.1
    rw [h] at hk hk'
    rcases hr with rfl | ⟨rfl, hr⟩
    · exact ⟨hk'.ok rfl, hk.ok rfl⟩
    · exact ⟨hk'.again rfl hr, hk.again rfl hr⟩

/-- C67, first part, the other way round: whatever fails, a lost block stays lost; and once the head has gone round the end of the chip the count of
the last round is, for good, at least the number of blocks lost before, and the capacity at most the room in the others less one. -/
theorem journal_capacity_not_overstated (hc : c.Valid) (s t u : S) (h : JHist c s) (ht : JAfter c s t) (hr : t.j.head < s.j.head) (hu : JAfter c t u) :
    (∀ b, Lost c s b = true → Lost c u b = true) ∧ howMany (Lost c s) c.numBlocks ≤ u.j.bbLast ∧
      (howMany (Lost c u) c.numBlocks < c.numBlocks → journalCapacity c u.j ≤ (c.numBlocks - howMany (Lost c s) c.numBlocks - 1) * c.userPages) := by
  have k0 := h.ki hc
  have k1 : KI c (Lost c s) s := ⟨⟨k0.w.head, k0.w.user, k0.w.cur, k0.w.last, fun k hk => by rw [← lost_eq]; exact hk⟩, k0.rb⟩
  have l1 : Low c (cnt (Lost c s) c.numBlocks) s.j.head s := ⟨(h.low hc).1, .inr (Nat.le_refl _)⟩
  obtain ⟨k2, l2⟩ := ht.low hc h k1 l1 (Nat.le_refl _)
  have l3 : Low c (cnt (Lost c s) c.numBlocks) c.pages t := ⟨l2.1, .inl (l2.2.resolve_right (by omega))⟩
  obtain ⟨k4, l4⟩ := hu.low hc (ht.hist h) k2 l3 (Nat.le_refl _)
  have hl := l4.2.resolve_right (by have := k4.w.head; omega)
  rw [← howMany_cnt] at hl
  refine ⟨fun b hb => by rw [lost_eq]; exact k4.w.lb b hb, hl, fun hlt => ?_⟩
  have nu := k4.notUnder hc l4
  have h3 : howMany (Lost c u) (u.j.head / c.ppb) ≤ howMany (Lost c u) c.numBlocks := by
    rw [howMany_cnt, howMany_cnt]
    have := blk_ok k4.w.head
    rw [blk_eq] at this
    exact cnt_le (Nat.le_of_lt this)
  have hb := hc.blocks_lo
  have h4 := nu.last
  have h5 := nu.cur
  have hm : max u.j.bbLast u.j.bbCurrent < c.numBlocks := by omega
  rw [journal_capacity_exact hc u.j hm]
  exact Nat.mul_le_mul_right _ (by omega)

theorem jcall_cl {Q : S → Prop} (hq : JCl c Q) (op : JOp) {s : S} (h : Q s) : QP Q (jcall c op s) := by
  cases op with
  | enqueue d m => exact hq.enq d m s h
  | copy p m => exact hq.cpy p m s h
  | dequeue => exact .inr (hq.deq s h)
  | peek => exact .inr (hq.peek s h)
  | clear => exact .inr (hq.clr s h)
  | next => exact .inr (hq.nxt s h)

theorem QP.of {Q : S → Prop} {x : Except Err Unit × S} (h : QP Q x) {r : Except Err Unit} {s : S} (e : x = (r, s)) (hr : r ≠ .error .journalFull) : Q s := by
  subst e
  exact h.resolve_left hr

theorem reset_xc (hc : c.Valid) (j : Journal) (n : Nand) (k : Nat) : XC c n.chip.bad (c.numBlocks >>> 6) 0 ⟨resetJournal c j, n, k⟩ := by
  refine ⟨hc.pages_pos, isU_of_aligned hc (Nat.zero_mod _), rfl, ?_, fun h => absurd (Nat.zero_mod _) h, .inr ⟨rfl, Nat.zero_le _⟩, rfl, rfl⟩
  show 0 = cnt n.chip.bad (c.blk 0)
  rw [blk_eq, Nat.zero_div]; rfl

theorem JNeverFull.xc (hc : c.Valid) (hh : Healthy c) {s : S} (h : JNeverFull c s) : XC c s.n.chip.bad (c.numBlocks >>> 6) 0 s := by
  induction h with
  | init buf n k => exact reset_xc hc _ _ _
  | resumed n j j' k h =>
    obtain ⟨j0, hj⟩ := resume_tooBad h
    rw [hj]; exact reset_xc hc _ _ _
  | call s s' op r _ h hr ih =>
    have hx := (jcall_cl (xc_closed hc hh) op ih).of h hr
    rw [hx.bad]; exact hx

theorem MapNeverFull.xc (hc : c.Valid) (hh : Healthy c) {s : S} (h : MapNeverFull c s) : XC c s.n.chip.bad (c.numBlocks >>> 6) 0 s := by
  induction h with
  | fresh s h =>
    obtain ⟨n, buf, k, _, _, h3⟩ := h
    unfold mapResume at h3
    rcases hr : journalResume c (mapInit c buf k n).n (mapInit c buf k n).j with ⟨e | u, j⟩
    · rw [hr] at h3
      simp only at h3
      cases h3
      obtain ⟨j0, hj⟩ := resume_tooBad hr
      simp only [hj]; exact reset_xc hc _ _ _
    · rw [hr] at h3; cases h3
  | call s s' op r _ h hr ih =>
    have hx := (step_cl (xc_closed hc hh) op ih).of h hr
    rw [hx.bad]; exact hx

theorem JLater.xc (hc : c.Valid) (hh : Healthy c) {s t : S} (h : JLater c s t) (hs : XC c B bl h0 s) : XC c B bl h0 t := by
  induction h with
  | now => exact hs
  | call t u op r _ h hr ih => exact (jcall_cl (xc_closed hc hh) op ih).of h hr

theorem MapLater.xc (hc : c.Valid) (hh : Healthy c) {s t : S} (h : MapLater c s t) (hs : XC c B bl h0 s) : XC c B bl h0 t := by
  induction h with
  | now => exact hs
  | call t u op r _ h hr ih => exact (step_cl (xc_closed hc hh) op ih).of h hr

theorem XC.exact {s : S} (h : XC c s.n.chip.bad (c.numBlocks >>> 6) 0 s) : CountsExact c s := by
  refine ⟨?_, ?_⟩
  · rw [howMany_cnt, ← blk_eq]; exact h.cur
  · rw [howMany_cnt, ← shr6]
    rcases h.last with h | h
    · exact .inr h
    · exact .inl h.1

/-- From now on. -/
theorem XC.rebase {s : S} (h : XC c B bl h0 s) : XC c B s.j.bbLast s.j.head s :=
  ⟨h.head, h.user, h.bad, h.cur, h.good, .inr ⟨rfl, Nat.le_refl _⟩, h.rcv, h.ed⟩

/-- The head has gone round. -/
theorem XC.round {s : S} (h : XC c B bl h0 s) (hr : s.j.head < h0) : XC c B (cnt B c.numBlocks) 0 s :=
  ⟨h.head, h.user, h.bad, h.cur, h.good, .inl (h.last.resolve_right (by omega)), h.rcv, h.ed⟩

theorem XC.capExact (hc : c.Valid) {s : S} (h : XC c B (cnt B c.numBlocks) 0 s) :
    s.j.bbLast = howMany s.n.chip.bad c.numBlocks ∧ (howMany s.n.chip.bad c.numBlocks < c.numBlocks → CapacityExact c s) := by
  have hl : s.j.bbLast = cnt B c.numBlocks := by rcases h.last with h | h; exacts [h, h.1]
  rw [h.bad, howMany_cnt]
  refine ⟨hl, fun hb => ?_⟩
  unfold CapacityExact
  rw [h.bad, howMany_cnt]
  have h1 := h.cur
  have h2 : cnt B (c.blk s.j.head) ≤ cnt B c.numBlocks := cnt_le (Nat.le_of_lt (blk_ok h.head))
  have hm : max s.j.bbLast s.j.bbCurrent = cnt B c.numBlocks := by omega
  rw [journal_capacity_exact hc s.j (by omega), hm]
  rfl

/-- C67, second part, for users of the journal: while no operation fails no block is marked bad and the count of the current round is exact. -/
theorem journal_counts_exact (hc : c.Valid) (hh : Healthy c) (s : S) (h : JNeverFull c s) :
    CountsExact c s ∧ ∀ t, JLater c s t → t.n.chip.bad = s.n.chip.bad ∧ CountsExact c t := by
  have hx := h.xc hc hh
  refine ⟨hx.exact, fun t ht => ?_⟩
  have hy := ht.xc hc hh hx
  refine ⟨hy.bad, ?_⟩
  rw [← hy.bad] at hy
  exact hy.exact

/-- The same for users of the map. -/
theorem map_counts_exact (hc : c.Valid) (hh : Healthy c) (s : S) (h : MapNeverFull c s) :
    CountsExact c s ∧ ∀ t, MapLater c s t → t.n.chip.bad = s.n.chip.bad ∧ CountsExact c t := by
  have hx := h.xc hc hh
  refine ⟨hx.exact, fun t ht => ?_⟩
  have hy := ht.xc hc hh hx
  refine ⟨hy.bad, ?_⟩
  rw [← hy.bad] at hy
  exact hy.exact

/-- C67, third part, for users of the journal: once the head has gone round the end of the chip the count of the last round and the capacity are
exact, for good. -/
theorem journal_capacity_exact_after_round (hc : c.Valid) (hh : Healthy c) (s t u : S) (h : JNeverFull c s) (ht : JLater c s t)
    (hr : t.j.head < s.j.head) (hu : JLater c t u) :
    u.j.bbLast = howMany u.n.chip.bad c.numBlocks ∧ (howMany u.n.chip.bad c.numBlocks < c.numBlocks → CapacityExact c u) :=
  (hu.xc hc hh ((ht.xc hc hh (h.xc hc hh).rebase).round hr)).capExact hc

/-- The same for users of the map. -/
theorem map_capacity_exact_after_round (hc : c.Valid) (hh : Healthy c) (s t u : S) (h : MapNeverFull c s) (ht : MapLater c s t)
    (hr : t.j.head < s.j.head) (hu : MapLater c t u) :
    u.j.bbLast = howMany u.n.chip.bad c.numBlocks ∧ (howMany u.n.chip.bad c.numBlocks < c.numBlocks → CapacityExact c u) :=
  (hu.xc hc hh ((ht.xc hc hh (h.xc hc hh).rebase).round hr)).capExact hc

/-! ### Concrete cases -/

namespace ExCapacity
open Viol Ex2 ExCounters

/-- On the chip of `ExFifo` the erasure of block 1 fails: it is marked bad and counted. -/
example : NotUnderstated ExFifo.cfg (jrun ExFifo.cfg ops (j0 ExFifo.cfg)) ∧ (jrun ExFifo.cfg ops (j0 ExFifo.cfg)).j.bbCurrent = 1 ∧
    howMany (Lost ExFifo.cfg (jrun ExFifo.cfg ops (j0 ExFifo.cfg))) 6 = 1 :=
  ⟨journal_capacity_not_understated ExFifo.valid _ (jhist_run _ _ _ (j0_fresh _) (by decide +kernel)), by decide +kernel, by decide +kernel⟩

/-- The second program on the chip fails. -/
def rcv : Cfg := mk 2 6 fun t => if t = 2 then .fail else .ok

/-- The recovery is going on; the block it retires is counted before it is marked bad. -/
example : NotUnderstated rcv (jrun rcv (ops.take 3) (j0 rcv)) ∧ (jrun rcv (ops.take 3) (j0 rcv)).j.recovery = true ∧
    (jrun rcv (ops.take 3) (j0 rcv)).j.bbCurrent = 1 ∧ howMany (jrun rcv (ops.take 3) (j0 rcv)).n.chip.bad 6 = 0 :=
  ⟨journal_capacity_not_understated ⟨by decide, by decide, by decide, by decide, by decide⟩ _ (jhist_run _ _ _ (j0_fresh _) (by decide +kernel)),
   by decide +kernel, by decide +kernel, by decide +kernel⟩

theorem jafter_run (c : Cfg) (s0 : S) : ∀ ops s, JAfter c s0 s → jrunFine c ops s = true → JAfter c s0 (jrun c ops s) := by
  intro ops
  induction ops with
  | nil => intro s h _; exact h
  | cons op ops ih =>
    intro s h hf
    unfold jrunFine at hf
    rw [Bool.and_eq_true] at hf
    obtain ⟨h1, h2⟩ := jfine_iff hf.1
    exact ih _ (.call s _ op _ h h1 Prod.mk.eta.symm h2) hf.2

/-- Six pages: block 1 has failed and the head is at the start of block 3. -/
def oA : S := jrun ExFifo.cfg (ops.take 6) (j0 ExFifo.cfg)

/-- Emptied twice, and round the end. -/
def oB : S := jrun ExFifo.cfg (.clear :: ops.take 4 ++ .clear :: ops.take 6) oA

theorem fineA : jrunFine ExFifo.cfg (ops.take 6) (j0 ExFifo.cfg) = true := by decide +kernel
theorem fineB : jrunFine ExFifo.cfg (.clear :: ops.take 4 ++ .clear :: ops.take 6) oA = true := by decide +kernel

/-- The failed block is counted in the round after, and the capacity is 12, that of the five other blocks less one. -/
example : 1 ≤ oB.j.bbLast ∧ journalCapacity ExFifo.cfg oB.j ≤ 12 ∧ 12 ≤ journalCapacity ExFifo.cfg oB.j := by
  have h := journal_capacity_not_overstated ExFifo.valid oA oB oB (jhist_run _ _ _ (j0_fresh _) fineA) (jafter_run _ oA _ oA .now fineB)
    (by decide +kernel) .now
  rw [show howMany (Lost ExFifo.cfg oA) ExFifo.cfg.numBlocks = 1 by decide +kernel] at h
  exact ⟨h.2.1, h.2.2 (by decide +kernel), by decide +kernel⟩

/-- Six blocks of four pages, no failures. -/
def six : Cfg := mk 2 6 fun _ => .ok

theorem six_valid : six.Valid := ⟨by decide, by decide, by decide, by decide, by decide⟩

theorem six_healthy : Healthy six := fun _ => ⟨(fun h => by cases h), (fun h => by cases h)⟩

/-- Blocks 0 and 3 are bad from the factory. -/
def six0 : S :=
  { j := journalInit six (fun _ => 0), n := { blankChip six with chip := { (blankChip six).chip with bad := fun b => b == 0 || b == 3 } }, count := 0 }

theorem jrun_later (c : Cfg) (s0 : S) : ∀ (ops : List JOp) (s : S), JLater c s0 s → jrunOk c ops s = true → JLater c s0 (jrunC c ops s)
  | [], _, h, _ => h
  | op :: ops, s, h, hk => by
    simp only [jrunOk, Bool.and_eq_true, Bool.not_eq_true'] at hk
    refine jrun_later c s0 ops _ (.call s _ op _ h rfl ?_) hk.2
    intro he
    have := isErr_of (e := .journalFull) (r := (jcall c op s).1) he
    rw [this] at hk
    exact absurd hk.1 (by simp)

def fill (k : Nat) : List JOp := List.replicate k (.enqueue (some (data 1)) (some (data 2)))

/-- Four pages: the head is in block 2. -/
def sA : S := jrunC six (fill 4) six0

/-- The queue is emptied, four pages, emptied, and five pages more: the head has gone round, into block 1. -/
def sB : S := jrunC six (.clear :: fill 4 ++ .clear :: fill 5) sA

/-- Three pages more. -/
def sC : S := jrunC six (fill 3) sB

theorem okA : jrunOk six (fill 4) six0 = true := by decide +kernel
theorem okB : jrunOk six (.clear :: fill 4 ++ .clear :: fill 5) sA = true := by decide +kernel
theorem okC : jrunOk six (fill 3) sB = true := by decide +kernel
theorem headB : sB.j.head < sA.j.head := by decide +kernel

/-- First the guess (6 / 64 = 0) and the block passed over give 12 pages; after the round it is 9, that of the four good blocks less one. -/
example : CountsExact six sA ∧ journalCapacity six sA.j = 12 ∧ sA.j.bbLast = 0 ∧ sA.j.bbCurrent = 1 :=
  ⟨(journal_counts_exact six_valid six_healthy sA (jrun_neverFull six (fill 4) six0 (.init _ _ _) okA)).1, by decide +kernel, by decide +kernel,
   by decide +kernel⟩

example : CapacityExact six sC ∧ journalCapacity six sC.j = 9 ∧ howMany sC.n.chip.bad 6 = 2 :=
  ⟨(journal_capacity_exact_after_round six_valid six_healthy sA sB sC (jrun_neverFull six (fill 4) six0 (.init _ _ _) okA)
    (jrun_later six sA _ sA .now okB) headB (jrun_later six sB _ sB .now okC)).2 (by decide +kernel), by decide +kernel, by decide +kernel⟩

/-! With the map: writing the same sector again and again on a chip of eighteen blocks. -/

def big : Cfg := mk 2 18 fun _ => .ok

theorem big_valid : big.Valid := ⟨by decide, by decide, by decide, by decide, by decide⟩

theorem big_healthy : Healthy big := fun _ => ⟨(fun h => by cases h), (fun h => by cases h)⟩

/-- Block 2 is bad from the factory. -/
def bigChip : Nand := { blankChip big with chip := { (blankChip big).chip with bad := fun b => b == 2 } }

def big0 : S := (mapResume big (mapInit big (fun _ => 0) 7 bigChip)).2

def mrunOk (c : Cfg) : List Op → S → Bool
  | [], _ => true
  | op :: ops, s => !(isErr .journalFull (step c op s).1) && mrunOk c ops (step c op s).2

theorem mrun_later (c : Cfg) (s0 : S) : ∀ (ops : List Op) (s : S), MapLater c s0 s → mrunOk c ops s = true → MapLater c s0 (run c ops s)
  | [], _, h, _ => h
  | op :: ops, s, h, hk => by
    simp only [mrunOk, Bool.and_eq_true, Bool.not_eq_true'] at hk
    refine mrun_later c s0 ops _ (.call s _ op _ h rfl ?_) hk.2
    intro he
    have := isErr_of (e := .journalFull) (r := (step c op s).1) he
    rw [this] at hk
    exact absurd hk.1 (by simp)

theorem mrun_neverFull (c : Cfg) : ∀ (ops : List Op) (s : S), MapNeverFull c s → mrunOk c ops s = true → MapNeverFull c (run c ops s)
  | [], _, h, _ => h
  | op :: ops, s, h, hk => by
    simp only [mrunOk, Bool.and_eq_true, Bool.not_eq_true'] at hk
    refine mrun_neverFull c ops _ (.call s _ op _ h rfl ?_) hk.2
    intro he
    have := isErr_of (e := .journalFull) (r := (step c op s).1) he
    rw [this] at hk
    exact absurd hk.1 (by simp)

def again (k : Nat) : List Op := List.replicate k (.write 5 (data 1))

def mA : S := run big (again 20) big0
def mB : S := run big (again 22) mA

theorem mfresh : MapNeverFull big big0 := .fresh _ ⟨bigChip, fun _ => 0, 7, rfl, rfl, rfl⟩
theorem mokA : mrunOk big (again 20) big0 = true := by decide +kernel
theorem mokB : mrunOk big (again 22) mA = true := by decide +kernel
theorem mheadB : mB.j.head < mA.j.head := by decide +kernel

example : CapacityExact big mB ∧ journalCapacity big mB.j = 48 :=
  ⟨(map_capacity_exact_after_round big_valid big_healthy mA mB mB (mrun_neverFull big (again 20) big0 mfresh mokA)
    (mrun_later big mA _ mA .now mokB) mheadB .now).2 (by decide +kernel), by decide +kernel⟩

end ExCapacity

end Dhara

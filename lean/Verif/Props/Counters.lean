/-
C66: the counts of bad blocks, and with them the capacity, stay in range as long as no call reports E_JOURNAL_FULL.
-/
import Verif.Proofs.Counters
import Verif.Proofs.Top
import Verif.Props.Journal
import Verif.Props.Fifo
import Verif.Props.Example
namespace Dhara

variable {c : Cfg}

/-! ### Specification -/

/-- The states after journal calls in any order, from an initialisation, or a resume that found no checkpoint, on any chip. Each call succeeded or
reported any error but E_JOURNAL_FULL; operations may fail and power may be lost during them. -/
inductive JNeverFull (c : Cfg) : S → Prop
  | init (buf : Buf) (n : Nand) (k : Nat) : JNeverFull c ⟨journalInit c buf, n, k⟩
  | resumed (n : Nand) (j j' : Journal) (k : Nat) : journalResume c n j = (.error .tooBad, j') → JNeverFull c ⟨j', n, k⟩
  | call (s s' : S) (op : JOp) (r : Except Err Unit) : JNeverFull c s → jcall c op s = (r, s') → r ≠ .error .journalFull → JNeverFull c s'

/-- The same for the map's calls. -/
inductive MapNeverFull (c : Cfg) : S → Prop
  | fresh (s : S) : Fresh c s → MapNeverFull c s
  | call (s s' : S) (op : Op) (r : Except Err Unit) : MapNeverFull c s → step c op s = (r, s') → r ≠ .error .journalFull → MapNeverFull c s'

/-- The user pages of a block. -/
def Cfg.userPages (c : Cfg) : Nat := c.ppb - c.ppb / c.ppc

/-- The counts of bad blocks and the capacity are in range: no more blocks have been passed over since the head was last at the first page
than lie before the head's block, no more in the whole round before than the chip has, and the capacity is the room in the blocks not counted, less
one block - unless every single block was counted in the round before. -/
structure InRange (c : Cfg) (j : Journal) : Prop where
  cur : j.bbCurrent ≤ j.head / c.ppb
  head : j.head / c.ppb < c.numBlocks
  last : j.bbLast ≤ c.numBlocks
  cap : j.bbLast ≠ c.numBlocks → journalCapacity c j = (c.numBlocks - max j.bbLast j.bbCurrent - 1) * c.userPages ∧
    journalCapacity c j ≤ (c.numBlocks - 1) * c.userPages

/-! ### Proofs -/

theorem BC.inRange (hc : c.Valid) {j : Journal} (h : BC c j) : InRange c j := by
  have h1 := h.cur
  have h2 := blk_ok h.head
  rw [blk_eq] at h1 h2
  refine ⟨h1, h2, h.last, fun hn => ?_⟩
  have h3 := h.last
  have hm : max j.bbLast j.bbCurrent < c.numBlocks := by rw [Nat.max_lt]; omega
  have h4 := journal_capacity_exact hc j hm
  refine ⟨h4, ?_⟩
  rw [h4]
  exact Nat.mul_le_mul_right _ (by omega)

theorem JNeverFull.bc (hc : c.Valid) {s : S} (h : JNeverFull c s) : BC c s.j := by
  induction h with
  | init buf n k => exact resetJournal_bc hc _
  | resumed n j j' k h =>
    obtain ⟨j0, hj⟩ := resume_tooBad h
    rw [hj]; exact resetJournal_bc hc _
  | call s s' op r _ h hr ih => exact (jcall_bc hc op ih).of h hr

theorem MapNeverFull.bc (hc : c.Valid) {s : S} (h : MapNeverFull c s) : BC c s.j := by
  induction h with
  | fresh s h =>
    obtain ⟨n, buf, k, _, _, h3⟩ := h
    unfold mapResume at h3
    rcases hr : journalResume c (mapInit c buf k n).n (mapInit c buf k n).j with ⟨e | u, j⟩
    · rw [hr] at h3
      simp only at h3
      cases h3
      obtain ⟨j0, hj⟩ := resume_tooBad hr
      simp only [hj]; exact resetJournal_bc hc _
    · rw [hr] at h3; cases h3
  | call s s' op r _ h hr ih => exact (step_bc hc op ih).of h hr

/-- C66 for users of the journal. -/
theorem journal_counters_in_range (hc : c.Valid) (s : S) (h : JNeverFull c s) : InRange c s.j := (h.bc hc).inRange hc

/-- C66 for users of the map. -/
theorem map_counters_in_range (hc : c.Valid) (s : S) (h : MapNeverFull c s) : InRange c s.j := (h.bc hc).inRange hc

/-! ### A concrete case -/

namespace ExCounters
open Viol Ex2 ExFifo

def jrunC (c : Cfg) : List JOp → S → S
  | [], s => s
  | op :: ops, s => jrunC c ops (jcall c op s).2

def jrunOk (c : Cfg) : List JOp → S → Bool
  | [], _ => true
  | op :: ops, s => !(isErr .journalFull (jcall c op s).1) && jrunOk c ops (jcall c op s).2

theorem isErr_of {e : Err} {r : Except Err Unit} (h : r = .error e) : isErr e r = true := by subst h; simp [isErr]

theorem jrun_neverFull (c : Cfg) : ∀ (ops : List JOp) (s : S), JNeverFull c s → jrunOk c ops s = true → JNeverFull c (jrunC c ops s)
  | [], _, h, _ => h
  | op :: ops, s, h, hk => by
    simp only [jrunOk, Bool.and_eq_true, Bool.not_eq_true'] at hk
    refine jrun_neverFull c ops _ (.call s _ op _ h rfl ?_) hk.2
    intro he
    have := isErr_of (e := .journalFull) (r := (jcall c op s).1) he
    rw [this] at hk
    exact absurd hk.1 (by simp)

/-- Enough pages to get to the third block of the chip of `ExFifo`, on which block 1 fails. -/
def ops : List JOp := List.replicate 10 (.enqueue (some (data 1)) (some (data 2)))

/-- One block has been counted, and the capacity is that of the other five less one. -/
example : InRange cfg (jrunC cfg ops (j0 cfg)).j ∧ (jrunC cfg ops (j0 cfg)).j.bbCurrent = 1 ∧ journalCapacity cfg (jrunC cfg ops (j0 cfg)).j = 12 :=
  ⟨journal_counters_in_range valid _ (jrun_neverFull cfg ops _ (.init _ _ _) (by decide +kernel)), by decide +kernel, by decide +kernel⟩

/-- After a write, on the chip of `Example` (40 blocks). -/
example : InRange Ex.cfg (step Ex.cfg (.write 5 (data 1)) Ex.s0).2.j ∧ journalCapacity Ex.cfg (step Ex.cfg (.write 5 (data 1)) Ex.s0).2.j = 117 := by
  have h : isErr .journalFull (step Ex.cfg (.write 5 (data 1)) Ex.s0).1 = false := by decide +kernel
  refine ⟨map_counters_in_range Ex.valid _ (.call Ex.s0 _ (.write 5 (data 1)) _ (.fresh _ Ex.fresh0) rfl ?_), by decide +kernel⟩
  intro he
  have he := isErr_of (e := .journalFull) (r := (step Ex.cfg (.write 5 (data 1)) Ex.s0).1) he
  rw [h] at he
  cases he

end ExCounters
end Dhara

/-
C68 without a restart after every refused call: as long as no call was refused after a program or erase operation, calls may go on; either the
counts are still in range, or the journal refuses everything until the next restart (C69), which mends them.
-/
import Verif.Props.Wedge
namespace Dhara

variable {c : Cfg}

/-! ### Specification -/

/-- Since the last restart: no call was refused with E_JOURNAL_FULL; some were, but none of them had tried a program or erase operation; or one had. -/
inductive Mode where
  | fine | full | broken

/-- `JLifeF c μ s`: a life of the journal that began on a chip without checkpoints, with calls, power cycles, failures and power failures at any moment. Only after
a call refused with E_JOURNAL_FULL in which a program or erase operation was tried must there be a power cycle before the next call. -/
inductive JLifeF (c : Cfg) : Mode → S → Prop
  | init (buf : Buf) (n : Nand) (k : Nat) : Blank c n.chip → JLifeF c .fine ⟨journalInit c buf, n, k⟩
  | call (μ : Mode) (s s' : S) (op : JOp) (r : Except Err Unit) : JLifeF c μ s → μ ≠ .broken → jcall c op s = (r, s') → r ≠ .error .journalFull → JLifeF c μ s'
  | full (μ : Mode) (s s' : S) (op : JOp) : JLifeF c μ s → μ ≠ .broken → jcall c op s = (.error .journalFull, s') → s'.n.time = s.n.time → JLifeF c .full s'
  | broken (μ : Mode) (s s' : S) (op : JOp) : JLifeF c μ s → μ ≠ .broken → jcall c op s = (.error .journalFull, s') → s'.n.time ≠ s.n.time → JLifeF c .broken s'
  | cycle (μ : Mode) (s s' : S) (buf : Buf) (r : Except Err Unit) : JLifeF c μ s → jreboot c buf s = (r, s') → Answered r → JLifeF c .fine s'

/-! ### Proofs -/

/-- A refusal without an operation: nothing has changed, or the journal is wedged. -/
theorem refused_idle (hc : c.Valid) (op : JOp) {s s' : S} (hb : BC c s.j) (h : jcall c op s = (.error .journalFull, s')) (ht : s'.n.time = s.n.time) :
    s' = s ∨ Wedged c s' := by
  have key : ∀ (wr : S → Except Err Unit × S) (m : Option Buf), (∀ s, Evo c s.n (wr s).2.n) → WrBusy wr → pushLoop c wr m (7 + 1) s = (.error .journalFull, s') →
      s' = s ∨ Wedged c s' := by
    intro wr m h1 h2 h3
    by_cases h0 : s.j.head % c.ppb = 0
    · exact .inr (pushLoop_wedge hc h1 m 7 s h0 hb.head h3 ht)
    · exact .inl (pushLoop_elsewhere h1 h2 m 7 s s' h0 h3 ht)
  cases op with
  | enqueue d m => exact key _ m (wrData_evo d) (wrData_busy d) h
  | copy p m => exact key _ (some m) (wrCopy_evo p) (wrCopy_busy p) h
  | dequeue => cases h
  | peek => cases h
  | clear => cases h
  | next => cases h

/-- What is known of the state in each mode. -/
def ModeInv (c : Cfg) (s : S) : Mode → Prop
  | .fine => BC c s.j
  | .full => BC c s.j ∨ Wedged c s
  | .broken => True

theorem JLifeF.inv (hc : c.Valid) (hJ : NoForgery c) {μ : Mode} {s : S} (h : JLifeF c μ s) : ModeInv c s μ ∧ DC c s.n.chip := by
  induction h with
  | init buf n k h => exact ⟨resetJournal_bc hc _, h.dc⟩
  | call μ s s' op r _ hm h hr ih =>
    obtain ⟨h1, h2⟩ := ih
    have ok : BC c s.j → BC c s'.j ∧ DC c s'.n.chip := by
      intro hb
      have h3 := jcall_dc hc hJ op hb h2
      rw [h] at h3
      exact ⟨(jcall_bc hc op hb).of h hr, h3⟩
    cases μ with
    | fine => exact ok h1
    | broken => exact absurd rfl hm
    | full =>
      rcases h1 with h1 | h1
      · exact ⟨.inl (ok h1).1, (ok h1).2⟩
      · have h3 := h1.call hc op
        have h4 := h1.call_n hc op
        rw [h] at h3 h4
        simp only at h4
        exact ⟨.inr h3, by rw [h4]; exact h2⟩
  | full μ s s' op _ hm h ht ih =>
    obtain ⟨h1, h2⟩ := ih
    have ok : BC c s.j → (BC c s'.j ∨ Wedged c s') ∧ DC c s'.n.chip := by
      intro hb
      have h3 := jcall_dc hc hJ op hb h2
      rw [h] at h3
      refine ⟨?_, h3⟩
      rcases refused_idle hc op hb h ht with e | e
      · rw [e]; exact .inl hb
      · exact .inr e
    cases μ with
    | fine => exact ok h1
    | broken => exact absurd rfl hm
    | full =>
      rcases h1 with h1 | h1
      · exact ok h1
      · have h3 := h1.call hc op
        have h4 := h1.call_n hc op
        rw [h] at h3 h4
        simp only at h4
        exact ⟨.inr h3, by rw [h4]; exact h2⟩
  | broken μ s s' op _ hm h ht ih =>
    obtain ⟨h1, h2⟩ := ih
    have ok : BC c s.j → DC c s'.n.chip := by
      intro hb
      have h3 := jcall_dc hc hJ op hb h2
      rw [h] at h3
      exact h3
    refine ⟨trivial, ?_⟩
    cases μ with
    | fine => exact ok h1
    | broken => exact absurd rfl hm
    | full =>
      rcases h1 with h1 | h1
      · exact ok h1
      · have h4 := h1.call_n hc op
        rw [h] at h4
        simp only at h4
        rw [h4]; exact h2
  | cycle μ s s' buf r _ h ha ih => exact jreboot_bc hc ih.2 h ha

/-- C68, with refused calls. While none has been refused the counts are in range; if some have been (without an operation), the counts are in range or
everything is refused until the next restart; and a restart at any moment finds counts in range. -/
theorem journal_any_life_in_range (hc : c.Valid) (hJ : NoForgery c) (μ : Mode) (s : S) (h : JLifeF c μ s) :
    (μ = .fine → InRange c s.j) ∧ (μ = .full → InRange c s.j ∨ ∀ t, JFollows c s t → RefusesAll c t) ∧
    ∀ buf r s', jreboot c buf s = (r, s') → Answered r → InRange c s'.j := by
  have hi := h.inv hc hJ
  refine ⟨?_, ?_, ?_⟩
  · rintro rfl; exact BC.inRange hc hi.1
  · rintro rfl
    rcases hi.1 with h1 | h1
    · exact .inl (h1.inRange hc)
    · exact .inr fun t ht => (h1.follows hc ht).refuses hc
  · intro buf r s' hr ha
    exact (jreboot_bc hc hi.2 hr ha).1.inRange hc

/-! ### A concrete case -/

namespace ExLifetime2
open Viol Ex2 ExFifo ExLifetime
open ExCounters (jrunC jrunOk isErr_of)

theorem lifeF_run (c : Cfg) : ∀ (ops : List JOp) (s : S), JLifeF c .fine s → jrunOk c ops s = true → JLifeF c .fine (jrunC c ops s)
  | [], _, h, _ => h
  | op :: ops, s, h, hk => by
    simp only [jrunOk, Bool.and_eq_true, Bool.not_eq_true'] at hk
    refine lifeF_run c ops _ (.call .fine s _ op _ h (by simp) rfl ?_) hk.2
    intro he
    have := isErr_of (e := .journalFull) (r := (jcall c op s).1) he
    rw [this] at hk
    exact absurd hk.1 (by simp)

/-- Two refused enqueues and a dequeue after the history of `ExLifetime`: the counts are spoilt (2 instead of 0), and a restart mends them. -/
example : ∃ s : S, JLifeF cfg .full s ∧ s.j.bbCurrent = 2 ∧ s.j.head = 4 ∧ ¬ InRange cfg s.j ∧ InRange cfg (jreboot cfg (data 0) s).2.j := by
  have h0 : JLifeF cfg .fine sFull := lifeF_run cfg round _ (.init _ _ _ blank) (by decide +kernel)
  have h1 : JLifeF cfg .full (jcall cfg e12 sFull).2 := .full _ _ _ e12 h0 (by simp) (packErr (by decide +kernel)) (by decide +kernel)
  have h2 : JLifeF cfg .full (jcall cfg e12 (jcall cfg e12 sFull).2).2 := .full _ _ _ e12 h1 (by simp) (packErr (by decide +kernel)) (by decide +kernel)
  have h3 : JLifeF cfg .full (jcall cfg .dequeue (jcall cfg e12 (jcall cfg e12 sFull).2).2).2 := .call _ _ _ .dequeue _ h2 (by simp) (eta _) (by
    show (.ok () : Except Err Unit) ≠ _
    simp)
  have hb : (jcall cfg .dequeue (jcall cfg e12 (jcall cfg e12 sFull).2).2).2.j.bbCurrent = 2 := by decide +kernel
  have hh : (jcall cfg .dequeue (jcall cfg e12 (jcall cfg e12 sFull).2).2).2.j.head = 4 := by decide +kernel
  have hp : cfg.ppb = 4 := by decide
  refine ⟨_, h3, hb, hh, ?_, (journal_any_life_in_range valid noForgery _ _ h3).2.2 (data 0) _ _ (eta _) (.inl (good_iff (by decide +kernel)))⟩
  intro hr
  have := hr.cur
  rw [hb, hh, hp] at this
  exact absurd this (by decide)

end ExLifetime2
end Dhara

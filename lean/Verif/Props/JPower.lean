/-
Properties C61, what a power failure leaves of a journal used directly, C62, the cookie, and C63, marking the journal dirty.
-/
import Verif.Proofs.JDisk2
import Verif.Proofs.Cookie
import Verif.Props.Fifo
import Verif.Props.Violations
namespace Dhara

variable {c : Cfg}

/-- C61, at every point of failure: after any history of journal calls, power fails between two calls or during an enqueue or copy.
After the power cycle the journal has what the last checkpoint made persistent: root, cookie, and every entry saved then that was
not given up since. -/
theorem journal_survives_power_failure (hc : c.Valid) (hJ : NoForgery c) (s s1 s2 : S) (L : List Entry) (pk : Bool)
    (D : Option Saved) (P : Option Saved → Prop) (h : JLog c s L (.calm pk) D) (hf : Fails c s L D s1 P) (hb : FewBad c s1.n.chip)
    (hr : ∀ p, p < c.pages → c.env.readFail (s1.n.time + 1) p = false) (buf : Buf) (r : Except Err Unit)
    (he : jreboot c buf s1 = (r, s2)) : ∃ D', P D' ∧ Restored c D' r s2 := by
  obtain ⟨hu, D', h1, h2⟩ := Fails.disk hc hJ h hf (SparseBad.two hc hb)
  refine ⟨D', h1, ?_⟩
  have := JC.restored hc (n := { s1.n with time := s1.n.time + 1, dead := false }) h2 hr hb rfl hu (journalInit c buf) s1.count
  unfold jreboot at he
  injection he with e1 e2
  rw [← e1, ← e2]
  exact this

theorem newest_suffix {L A : List Entry} (hs : L <:+ A) (hL : L ≠ []) : newest A = newest L := by
  obtain ⟨t, ht⟩ := hs
  rw [← ht]
  unfold newest
  rw [List.reverse_append]
  cases hr' : L.reverse with
  | nil => exact absurd (List.reverse_eq_nil_iff.1 hr') hL
  | cons a l => rfl

/-- C61, a clean journal is durable (dhara/journal.h:226-232): if the journal is not dirty and not empty, power may fail:
afterwards the journal is mounted, its root is the newest entry, and every entry reads back with its data and metadata. -/
theorem clean_journal_is_durable (hc : c.Valid) (hJ : NoForgery c) (s s2 : S) (L : List Entry) (pk : Bool)
    (D : Option Saved) (h : JLog c s L (.calm pk) D) (hd : s.j.dirty = false) (hL : L ≠ []) (hb : FewBad c s.n.chip)
    (hr : ∀ p, p < c.pages → c.env.readFail (s.n.time + 1) p = false) (buf : Buf) (r : Except Err Unit)
    (he : jreboot c buf s = (r, s2)) :
    r = .ok () ∧ s2.j.root = newest L ∧ s2.j.dirty = false ∧ s2.j.recovery = false ∧
    ∀ e, e ∈ L → (∀ d, e.data = some d → nandRead c s2.n e.page 0 c.pageSize = .ok (c.clip d)) ∧
      readMeta c s2 e.page = .ok e.metaBytes := by
  obtain ⟨D', h1, h2⟩ := journal_survives_power_failure hc hJ s s s2 L pk D _ h .between hb hr buf r he
  obtain ⟨Vs, vts, vt, vh, vr, vR, vM, vn, hI, hB⟩ := h.inv hc
  obtain ⟨B, hf, hk⟩ := hB (SparseBad.two hc hb)
  rcases hk with ⟨_, _, h0⟩ | ⟨vL, vtc, x, Ws, k1, k2, k3, k4, k5⟩
  · exact absurd (h0 hd) hL
  · have hx := (k5 hd).1
    rw [h1, k1] at h2
    obtain ⟨a1, a2, a3, a4, a5, a6, _⟩ := h2
    refine ⟨a1, ?_, a4, a5, fun e he => a6 e (by rw [hx]; exact he)⟩
    rw [a2]
    have hs := k4.suf
    rw [hx] at hs
    exact newest_suffix hs hL

/-- C61, order across power cycles: the journal remains a first-in first-out queue when the power is cycled, any number of times,
while it is clean. -/
theorem journal_is_fifo_across_restarts (hc : c.Valid) (s : S) (L : List Entry) (pk : Bool) (D : Option Saved) (h : JLog c s L (.calm pk) D) :
    (Shallow c s.n → (peek c s).1 = oldest L) ∧ s.j.root = newest L ∧ s.j.recovery = false := by
  obtain ⟨Vs, vts, vt, vh, vr, vR, vM, vn, hf, _⟩ := h.inv hc
  exact hf.order hc

/-- C61, contents across power cycles: in normal operation and in the middle of a recovery every entry reads back. -/
theorem journal_entries_kept_across_restarts (hc : c.Valid) (s : S) (L : List Entry) (ph : Phase) (D : Option Saved) (h : JLog c s L ph D) :
    (L.map Entry.page).Nodup ∧
    ∀ e, e ∈ L → c.UserPage e.page ∧ (ReadsOk c s →
      (∀ d, e.data = some d → nandRead c s.n e.page 0 c.pageSize = .ok (c.clip d)) ∧
      readMeta c s e.page = .ok e.metaBytes) := by
  have hi := h.inv hc
  cases ph with
  | calm pk =>
    obtain ⟨Vs, vts, vt, vh, vr, vR, vM, vn, hf, _⟩ := hi
    exact hf.en.kept hc hf.q
  | recovering r got =>
    obtain ⟨Vs, vts, vt, vh, vr, vR, vM, vn, hf, _⟩ := hi
    exact hf.en.kept hc hf.q

/-- C61, a power cycle of a clean journal: it succeeds (or nothing was ever checkpointed, and the journal is empty), and the queue is
that of the last checkpoint: what was dequeued since then is back in it, at the front. The chip is not changed. -/
theorem clean_restart (hc : c.Valid) (s s2 : S) (L : List Entry) (pk : Bool)
    (D : Option Saved) (h : JLog c s L (.calm pk) D) (hd : s.j.dirty = false) (hb : FewBad c s.n.chip)
    (hr : ∀ p, p < c.pages → c.env.readFail (s.n.time + 1) p = false) (buf : Buf) (r : Except Err Unit)
    (he : jreboot c buf s = (r, s2)) :
    (r = .ok () ∨ (r = .error .tooBad ∧ D = none ∧ L = [])) ∧ L <:+ back D ∧ s2.n.chip = s.n.chip ∧
    JLog c s2 (back D) (.calm false) (D.map fun x => { x with left := x.all }) := by
  refine ⟨?_, ?_, ?_, .restart s s2 L pk D buf r h hd hb hr he⟩
  · obtain ⟨Vs, vts, vt, vh, vr, vR, vM, vn, hI, hB⟩ := h.inv hc
    rcases (hB.restart hc hI hd hb hr he).2 with h1 | ⟨h1, h2⟩
    · exact Or.inl h1
    · refine Or.inr ⟨h1, h2, ?_⟩
      obtain ⟨B, hf, hk⟩ := hB (SparseBad.two hc hb)
      rcases hk with ⟨_, _, h0⟩ | ⟨vL, vtc, x, Ws, k1, _⟩
      · exact h0 hd
      · rw [h2] at k1; cases k1
  · obtain ⟨Vs, vts, vt, vh, vr, vR, vM, vn, hI, hB⟩ := h.inv hc
    obtain ⟨B, hf, hk⟩ := hB (SparseBad.two hc hb)
    rcases hk with ⟨_, h1, h0⟩ | ⟨vL, vtc, x, Ws, k1, k2, k3, k4, k5⟩
    · rw [h1, h0 hd]; exact List.suffix_refl _
    · rw [k1, ← (k5 hd).1]; exact k4.suf
  · unfold jreboot at he
    rw [← (Prod.mk.inj he).2]

/-- What was done since the journal was marked dirty is a history that changed nothing of what is persistent. -/
theorem Since.log {s0 s : S} {L0 L : List Entry} {pk k : Bool} {D : Option Saved} (h0 : JLog c s0 L0 (.calm pk) D)
    (h : Since c s0 L0 pk s L k) : JLog c s L (.calm k) D ∧ s.j.dirty = true := by
  induction h with
  | mark => exact ⟨.mark _ _ _ _ h0, rfl⟩
  | append s s' L k d m _ ha hd ih =>
    have h1 := JLog.append s s' L k D d m ih.1 ha
    have h2 : nowSaved s s' (L ++ [entryAt s' d m]) D = D := by unfold nowSaved; rw [hd]; rfl
    rw [h2] at h1
    exact ⟨h1, hd⟩
  | peek s L k _ hs ih => exact ⟨.peek _ _ _ _ ih.1 hs, by rw [peek_dirty]; exact ih.2⟩
  | dequeue s L e _ ih =>
    have h1 := JLog.dequeue s L e D ih.1
    have h2 : dequeued s L D = D := by unfold dequeued; rw [ih.2]; rfl
    rw [h2] at h1
    exact ⟨h1, by rw [dequeue_dirty]; exact ih.2⟩
  | clear s L k _ ih => exact ⟨.clear _ _ _ _ ih.1, rfl⟩
  | cookie s L k v _ ih => exact ⟨.cookie _ _ _ _ v ih.1, ih.2⟩

/-- Bad blocks stay bad. -/
theorem Since.bad {s0 s : S} {L0 L : List Entry} {pk k : Bool} (h : Since c s0 L0 pk s L k) : ∀ b, s0.n.chip.bad b = true → s.n.chip.bad b = true := by
  induction h with
  | mark => exact fun _ h => h
  | append s s' L k d m _ ha hd ih =>
    intro b hb
    generalize hx : ((Except.ok (), s') : Except Err Unit × S) = x at ha
    have hs : s' = x.2 := by rw [← hx]
    rw [hs]
    cases ha with
    | enqueue d m => exact (enqueue_evo d m s).bad b (ih b hb)
    | copy e m _ => exact (journalCopy_evo e.page m s).bad b (ih b hb)
  | peek s L k _ hs ih => intro b hb; rw [(peek_same s).n]; exact ih b hb
  | dequeue s L e _ ih => intro b hb; rw [(dequeue_same s).n]; exact ih b hb
  | clear s L k _ ih => exact ih
  | cookie s L k v _ ih => exact ih

theorem Since.two {s0 s : S} {L0 L : List Entry} {pk k : Bool} (h : Since c s0 L0 pk s L k)
    (h2 : TwoGood c (gd s.n.chip)) : TwoGood c (gd s0.n.chip) := h2.mono (gd_mono h.bad)

/-- C63: dhara_journal_mark_dirty (dhara/journal.h:220-224) protects a clean journal: whatever is then dequeued, cleared or overwritten
by appends before the next checkpoint, a power failure brings all of the entries back. -/
theorem mark_dirty_protects (hc : c.Valid) (hJ : NoForgery c) (s0 s s2 : S) (L0 L : List Entry) (pk k : Bool) (D : Option Saved)
    (h0 : JLog c s0 L0 (.calm pk) D) (hd : s0.j.dirty = false) (hL : L0 ≠ []) (h : Since c s0 L0 pk s L k)
    (hb : FewBad c s.n.chip) (hr : ∀ p, p < c.pages → c.env.readFail (s.n.time + 1) p = false) (buf : Buf) (r : Except Err Unit)
    (he : jreboot c buf s = (r, s2)) :
    r = .ok () ∧ s2.j.root = newest L0 ∧ s2.j.dirty = false ∧ s2.j.recovery = false ∧
    ∀ e, e ∈ L0 → (∀ d, e.data = some d → nandRead c s2.n e.page 0 c.pageSize = .ok (c.clip d)) ∧
      readMeta c s2 e.page = .ok e.metaBytes := by
  obtain ⟨hl, _⟩ := h.log h0
  obtain ⟨D', h1, h2⟩ := journal_survives_power_failure hc hJ s s s2 L k D _ hl .between hb hr buf r he
  obtain ⟨Vs, vts, vt, vh, vr, vR, vM, vn, hI, hB⟩ := h0.inv hc
  obtain ⟨B, hf, hk⟩ := hB (h.two (SparseBad.two hc hb))
  rcases hk with ⟨_, _, h0⟩ | ⟨vL, vtc, x, Ws, k1, k2, k3, k4, k5⟩
  · exact absurd (h0 hd) hL
  · have hx := (k5 hd).1
    rw [h1, k1] at h2
    obtain ⟨a1, a2, a3, a4, a5, a6, _⟩ := h2
    refine ⟨a1, ?_, a4, a5, fun e he => a6 e (by rw [hx]; exact he)⟩
    rw [a2]
    have hs := k4.suf
    rw [hx] at hs
    exact newest_suffix hs hL

theorem CkS.bytes {s s' : S} (h : CkS s s') : cookieBytes s' = cookieBytes s := by
  unfold cookieBytes
  apply List.map_congr_left
  intro i hi
  have := List.mem_range.1 hi
  exact h _ (by omega) (by omega)

/-- C62: whatever state the journal is in, no journal call, successful or not, changes the cookie (only the user, or a mount,
does). -/
theorem cookie_is_the_users (s : S) :
    (∀ d m, cookieBytes (enqueue c d m s).2 = cookieBytes s) ∧
    (∀ p m, cookieBytes (journalCopy c p m s).2 = cookieBytes s) ∧
    cookieBytes (peek c s).2 = cookieBytes s ∧ cookieBytes (dequeue c s) = cookieBytes s ∧
    cookieBytes (journalClear c s) = cookieBytes s ∧ cookieBytes (markDirty s) = cookieBytes s ∧ cookieBytes (nextRecoverable c s).2 = cookieBytes s :=
  ⟨fun _ _ => (enqueue_ckS _ _ s).bytes, fun _ _ => (journalCopy_ckS _ _ s).bytes, (peek_ckS s).bytes, (dequeue_ckS s).bytes,
    (journalClear_ckS s).bytes, rfl, (nextRecoverable_ckS s).bytes⟩

/-- C62: a number stored in the cookie reads back modulo 2^32, and storing it disturbs neither the metadata of any page nor
anything else of the journal. -/
theorem cookie_round_trip (s : S) (k : Nat) :
    ckGetCount (ckSetCount s.j k) = k % 2 ^ 32 ∧
    (∀ p, readMeta c { s with j := ckSetCount s.j k } p = readMeta c s p) ∧
    { ckSetCount s.j k with pageBuf := s.j.pageBuf } = s.j := by
  refine ⟨r32_ck s k, fun p => ?_, rfl⟩
  unfold readMeta
  have : (ckSetCount s.j k).pageBuf.slice (hdrUserOffset (p &&& (c.ppc - 1))) 132 =
      s.j.pageBuf.slice (hdrUserOffset (p &&& (c.ppc - 1))) 132 := by
    apply slice_congr; intro i hi
    show w32 s.j.pageBuf 16 k _ = _
    rw [w32_other (by unfold hdrUserOffset; omega)]
  simp only [this]
  rfl

end Dhara

/-! ### A concrete case -/

namespace Dhara.ExJPower
open Dhara.Viol Dhara.Ex2

/-- Ten blocks of eight pages, three user pages to a checkpoint; power fails at clock 12, when the third checkpoint is programmed, and leaves a garbled page. -/
def cfg : Cfg := mk 3 10 fun t => if t = 12 then .crash .garbled else .ok

theorem valid : cfg.Valid := ⟨by decide, by decide, by decide, by decide, by decide⟩

theorem noForgery : NoForgery cfg := fun _ _ _ _ h => by cases h

theorem unformatted : Unformatted cfg (blankChip cfg).chip := by
  intro blk b _ _ h
  cases h
  decide +kernel

inductive POp where
  | enq (d m : Nat) | peek | deq | cookie (k : Nat)

structure X where
  s : S
  L : List Entry
  pk : Bool
  D : Option Saved

/-- One call. -/
def pstep : POp → X → X
  | .enq d m, x =>
    let s' := (enqueue cfg (some (data d)) (some (data m)) x.s).2
    let L' := x.L ++ [⟨s'.j.root, some (data d), some (data m)⟩]
    ⟨s', L', x.pk, nowSaved x.s s' L' x.D⟩
  | .peek, x => ⟨(peek cfg x.s).2, x.L, !x.L.isEmpty, x.D⟩
  | .deq, x => ⟨dequeue cfg x.s, x.L.tail, false, dequeued x.s x.L.tail x.D⟩
  | .cookie k, x => ⟨{ x.s with j := ckSetCount x.s.j k }, x.L, x.pk, x.D⟩

/-- It is allowed and succeeds. -/
def pok : POp → X → Bool
  | .enq d m, x => good (enqueue cfg (some (data d)) (some (data m)) x.s).1
  | .peek, x => (List.range cfg.numBlocks).all fun b => (List.range 8).any fun k => !x.s.n.chip.bad ((b + k) % cfg.numBlocks)
  | .deq, x => x.pk && !x.L.isEmpty
  | .cookie _, _ => true

def prun : List POp → X → X
  | [], x => x
  | op :: ops, x => prun ops (pstep op x)

def prunOk : List POp → X → Bool
  | [], _ => true
  | op :: ops, x => pok op x && prunOk ops (pstep op x)

theorem app {s : S} {L : List Entry} {d m : Option Buf} {x : Except Err Unit × S} (h : Appends cfg s L d m x)
    (hg : good x.1 = true) : Appends cfg s L d m (.ok (), x.2) := by
  have : x = (.ok (), x.2) := Prod.ext (good_iff hg) rfl
  rwa [this] at h

theorem shallow_of {n : Nand}
    (h : ((List.range cfg.numBlocks).all fun b => (List.range 8).any fun k => !n.chip.bad ((b + k) % cfg.numBlocks)) = true) :
    Shallow cfg n := by
  intro b
  rw [List.all_eq_true] at h
  have := h (b % cfg.numBlocks) (List.mem_range.2 (Nat.mod_lt _ (by decide)))
  rw [List.any_eq_true] at this
  obtain ⟨k, h1, h2⟩ := this
  refine ⟨k, List.mem_range.1 h1, ?_⟩
  rw [Nat.mod_add_mod] at h2
  simpa using h2

theorem log_run : ∀ ops x, JLog cfg x.s x.L (.calm x.pk) x.D → prunOk ops x = true →
    JLog cfg (prun ops x).s (prun ops x).L (.calm (prun ops x).pk) (prun ops x).D := by
  intro ops
  induction ops with
  | nil => intro x h _; exact h
  | cons op ops ih =>
    rintro ⟨s, L, pk, D⟩ h hok
    simp only [prunOk, Bool.and_eq_true] at hok
    refine ih _ ?_ hok.2
    have hok := hok.1
    cases op with
    | enq d m => exact .append s _ L pk D _ _ h (app (.enqueue _ _) hok)
    | peek => exact .peek s L pk D h (shallow_of hok)
    | deq =>
      simp only [pok, Bool.and_eq_true] at hok
      obtain ⟨h1, h2⟩ := hok
      cases L with
      | nil => simp at h2
      | cons e L => subst h1; exact .dequeue s L e D h
    | cookie k => exact .cookie s L pk D k h

def x0 : X := ⟨j0 cfg, [], false, none⟩

theorem log0 : JLog cfg x0.s x0.L (.calm x0.pk) x0.D := .fresh _ ⟨rfl, rfl, Or.inl ⟨_, rfl⟩⟩ unformatted

/-- Six pages are enqueued (two checkpoints) with the cookie 77; the first is dequeued from the clean journal; the cookie is changed to 88; two more pages go in
and another is dequeued while the journal is dirty. -/
def ops : List POp := [.cookie 77, .enq 1 2, .enq 3 4, .enq 5 6, .enq 7 8, .enq 9 10, .enq 11 12, .peek, .deq, .cookie 88, .enq 1 1, .peek, .deq, .enq 2 2]

def x1 : X := prun ops x0

theorem log1 : JLog cfg x1.s x1.L (.calm x1.pk) x1.D := log_run ops x0 log0 (by decide +kernel)

/-- Power fails during the next enqueue. -/
def s2 : S := (enqueue cfg (some (data 3)) (some (data 3)) x1.s).2

theorem fails2 : Fails cfg x1.s x1.L x1.D s2 fun D' => D' = x1.D ∨
    ∃ p, D' = some ⟨x1.L ++ [⟨p, some (data 3), some (data 3)⟩], x1.L ++ [⟨p, some (data 3), some (data 3)⟩], ckGetCount x1.s.j⟩ := by
  have h : isErr .powerLoss (enqueue cfg (some (data 3)) (some (data 3)) x1.s).1 = true := by decide +kernel
  have ha := Appends.enqueue (c := cfg) (s := x1.s) (L := x1.L) (some (data 3)) (some (data 3))
  rw [pair_eq (isErr_iff h)] at ha
  refine .during _ _ _ ha (Or.inr fun t _ _ => ⟨?_, fun he => by cases he⟩)
  show (if t = 12 then Fate.crash .garbled else Fate.ok) ≠ _
  split <;> intro h <;> cases h

theorem few2 : FewBad cfg s2.n.chip := by
  have h : ∀ k, k < 10 → s2.n.chip.bad k = false := by decide +kernel
  intro i hi
  have h40 : cfg.numBlocks = 10 := rfl
  rw [h40] at hi ⊢
  exact ⟨i, i + 1, by omega, by omega, by omega, h _ (by omega), h _ (by omega)⟩

/-- ... and comes back. -/
def s3 : S := (jreboot cfg (fun _ => 5) s2).2

/-- The hypotheses of `journal_survives_power_failure` are met. -/
theorem applies : ∃ D', (D' = x1.D ∨
    ∃ p, D' = some ⟨x1.L ++ [⟨p, some (data 3), some (data 3)⟩], x1.L ++ [⟨p, some (data 3), some (data 3)⟩], ckGetCount x1.s.j⟩) ∧
    Restored cfg D' (jreboot cfg (fun _ => 5) s2).1 (jreboot cfg (fun _ => 5) s2).2 :=
  journal_survives_power_failure valid noForgery _ _ _ _ _ _ _ log1 fails2 few2 (fun _ _ => rfl) (fun _ => 5) _ (pair_eq rfl)

/-- The power-up succeeded; the cookie is the one of the last checkpoint, and the root the sixth page; what is persistent is the
six pages less the first, on pages 1, 2, 4, 5, 6. -/
example : good (jreboot cfg (fun _ => 5) s2).1 = true ∧ ckGetCount s3.j = 77 ∧ ckGetCount x1.s.j = 88 ∧ s3.j.root = 6 ∧
    (x1.D.map fun x => x.left.map Entry.page) = some [1, 2, 4, 5, 6] := by decide +kernel

/-- A user who takes everything out gets the page given up, and then the five. -/
example : drain cfg cfg.pages s3 = [0] ++ [1, 2, 4, 5, 6] ++ [] := by decide +kernel

/-- The journal after the first six pages is clean. -/
def x2 : X := prun (ops.take 7) x0

theorem log2 : JLog cfg x2.s x2.L (.calm x2.pk) x2.D := log_run _ x0 log0 (by decide +kernel)

theorem few3 : FewBad cfg x2.s.n.chip := by
  have h : ∀ k, k < 10 → x2.s.n.chip.bad k = false := by decide +kernel
  intro i hi
  have h40 : cfg.numBlocks = 10 := rfl
  rw [h40] at hi ⊢
  exact ⟨i, i + 1, by omega, by omega, by omega, h _ (by omega), h _ (by omega)⟩

/-- The hypotheses of `clean_journal_is_durable` are met, with six entries. -/
theorem applies2 : (jreboot cfg (fun _ => 5) x2.s).1 = .ok () ∧ (jreboot cfg (fun _ => 5) x2.s).2.j.root = newest x2.L ∧ x2.L.length = 6 := by
  have h1 : x2.s.j.dirty = false := by decide +kernel
  have h2 : x2.L.length = 6 := by decide +kernel
  have h := clean_journal_is_durable valid noForgery _ _ _ _ _ log2 h1 (fun h => by rw [h] at h2; cases h2) few3 (fun _ _ => rfl) (fun _ => 5) _ (pair_eq rfl)
  exact ⟨h.1, h.2.1, h2⟩

/-- C63: the clean journal `x2` is marked dirty, two entries are dequeued and a page is enqueued. -/
def m1 : S := (peek cfg (markDirty x2.s)).2
def m2 : S := dequeue cfg m1
def m3 : S := (peek cfg m2).2
def m4 : S := dequeue cfg m3
def m5 : S := (enqueue cfg (some (data 1)) (some (data 1)) m4).2

theorem two_more (L : List Entry) (h : L.length = 6) : ∃ a b L', L = a :: b :: L' ∧ L'.length = 4 := by
  match L with
  | a :: b :: L' => exact ⟨a, b, L', rfl, by simpa using h⟩
  | [] => cases h
  | [a] => cases h

theorem since5 : ∃ L k, Since cfg x2.s x2.L x2.pk m5 L k ∧ L.length = 5 := by
  have h2 : x2.L.length = 6 := by decide +kernel
  obtain ⟨a, b, L', hL, hl⟩ := two_more _ h2
  have b0 : (markDirty x2.s).n = x2.s.n := rfl
  have b1 : m2.n = x2.s.n := ((dequeue_same m1).n).trans ((peek_same (markDirty x2.s)).n)
  have sh0 : Shallow cfg x2.s.n := shallow_of (by decide +kernel)
  have h0 := Since.mark (c := cfg) (s0 := x2.s) (L0 := x2.L) (pk := x2.pk)
  have h1 := Since.peek _ _ _ h0 (by rw [b0]; exact sh0)
  have e1 : (!x2.L.isEmpty) = true := by rw [hL]; rfl
  rw [e1] at h1
  have h1' : Since cfg x2.s x2.L x2.pk m1 (a :: b :: L') true := by rw [← hL]; exact h1
  have h3 := Since.dequeue _ _ _ h1'
  have h4 := Since.peek _ _ _ h3 (by show Shallow cfg m2.n; rw [b1]; exact sh0)
  have h5 := Since.dequeue _ _ _ h4
  have hg : good (enqueue cfg (some (data 1)) (some (data 1)) m4).1 = true := by decide +kernel
  have hd : m5.j.dirty = true := by decide +kernel
  exact ⟨_, _, Since.append _ _ _ _ _ _ h5 (app (.enqueue (some (data 1)) (some (data 1))) hg) hd, by
    rw [List.length_append, hl]; rfl⟩

theorem few5 : FewBad cfg m5.n.chip := by
  have h : ∀ k, k < 10 → m5.n.chip.bad k = false := by decide +kernel
  intro i hi
  have h40 : cfg.numBlocks = 10 := rfl
  rw [h40] at hi ⊢
  exact ⟨i, i + 1, by omega, by omega, by omega, h _ (by omega), h _ (by omega)⟩

/-- The hypotheses of `mark_dirty_protects` are met: all six entries are back. -/
theorem applies3 : (jreboot cfg (fun _ => 5) m5).1 = .ok () ∧ (jreboot cfg (fun _ => 5) m5).2.j.root = newest x2.L := by
  have h1 : x2.s.j.dirty = false := by decide +kernel
  have h2 : x2.L.length = 6 := by decide +kernel
  obtain ⟨L, k, h, _⟩ := since5
  have h := mark_dirty_protects valid noForgery _ _ _ _ _ _ _ _ log2 h1 (fun h => by rw [h] at h2; cases h2) h few5 (fun _ _ => rfl)
    (fun _ => 5) _ (pair_eq rfl)
  exact ⟨h.1, h.2.1⟩

/-- Two of the six are dequeued from the clean journal; then the power is cycled. -/
def x3 : X := prun [.peek, .deq, .peek, .deq] x2

theorem log3 : JLog cfg x3.s x3.L (.calm x3.pk) x3.D := log_run _ x2 log2 (by decide +kernel)

theorem few4 : FewBad cfg x3.s.n.chip := by
  have h : ∀ k, k < 10 → x3.s.n.chip.bad k = false := by decide +kernel
  intro i hi
  have h40 : cfg.numBlocks = 10 := rfl
  rw [h40] at hi ⊢
  exact ⟨i, i + 1, by omega, by omega, by omega, h _ (by omega), h _ (by omega)⟩

/-- The state after the power cycle, with the queue that `JLog` says it has. -/
def x4 : X := ⟨(jreboot cfg (fun _ => 9) x3.s).2, back x3.D, false, x3.D.map fun x => { x with left := x.all }⟩

theorem clean3 : x3.s.j.dirty = false := by decide +kernel

/-- The hypotheses of `clean_restart` are met ... -/
theorem log4' : JLog cfg (jreboot cfg (fun _ => 9) x3.s).2 (back x3.D) (.calm false) (x3.D.map fun x => { x with left := x.all }) :=
  (clean_restart valid x3.s (jreboot cfg (fun _ => 9) x3.s).2 x3.L x3.pk x3.D log3 clean3 few4 (fun _ _ => rfl) (fun _ => 9)
    (jreboot cfg (fun _ => 9) x3.s).1 (pair_eq rfl)).2.2.2

theorem unpack {x : X} {s : S} {L : List Entry} {pk : Bool} {D : Option Saved} (h : x = ⟨s, L, pk, D⟩) (hl : JLog cfg s L (.calm pk) D) :
    JLog cfg x.s x.L (.calm x.pk) x.D := by subst h; exact hl

theorem log4 : JLog cfg x4.s x4.L (.calm x4.pk) x4.D := unpack (by unfold x4; rfl) log4'

/-- ... the queue had four entries before and has six afterwards. -/
example : x3.L.map Entry.page = [2, 4, 5, 6] ∧ x4.L.map Entry.page = [0, 1, 2, 4, 5, 6] ∧ (peek cfg x3.s).1 = 2 ∧ (peek cfg x4.s).1 = 0 := by
  decide +kernel

/-- And it goes on: an entry is dequeued, and one is enqueued. -/
theorem log5 : JLog cfg (prun [.peek, .deq, .enq 1 1] x4).s (prun [.peek, .deq, .enq 1 1] x4).L
    (.calm (prun [.peek, .deq, .enq 1 1] x4).pk) (prun [.peek, .deq, .enq 1 1] x4).D := log_run _ x4 log4 (by decide +kernel)

end Dhara.ExJPower

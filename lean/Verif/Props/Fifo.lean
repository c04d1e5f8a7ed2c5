/-
Property C59: the journal is a first-in first-out queue.
-/
import Verif.Proofs.Fifo
import Verif.Props.Example2
namespace Dhara

variable {c : Cfg}

theorem FInv.order (hc : c.Valid) {s : S} {L : List Entry} {pk : Bool} {Vs : List Nat} {vts vt vh vr vR vM vn : Nat}
    (hf : FInv c s L pk Vs vts vt vh vr vR vM vn) :
    (Shallow c s.n → (Dhara.peek c s).1 = oldest L) ∧ s.j.root = Dhara.newest L ∧ s.j.recovery = false := by
  refine ⟨fun hs => ?_, hf.newest hc, hf.nr⟩
  rcases hf.peek hc hs with ⟨hV, _, hn, _⟩ | ⟨v0, Vr, hV, hn, _⟩
  · rw [hn, hf.en.nil_iff.2 hV]; rfl
  · rw [hn]
    have := hf.en.pages
    rw [hV] at this
    cases L with
    | nil => simp at this
    | cons a _ => rw [List.map_cons, List.map_cons, List.cons.injEq] at this; exact this.1.symm

theorem Ents.kept (hc : c.Valid) {s : S} {L : List Entry} {Vs : List Nat} {vts vt vh vr vR vM vn : Nat}
    (hq : QInv c s vts vt vh vr vR vM vn) (hen : Ents c s L Vs vt vh) :
    (L.map Entry.page).Nodup ∧
    ∀ e, e ∈ L → c.UserPage e.page ∧ (ReadsOk c s →
      (∀ d, e.data = some d → nandRead c s.n e.page 0 c.pageSize = .ok (c.clip d)) ∧
      readMeta c s e.page = .ok e.metaBytes) := by
  refine ⟨hen.nodup hq.geo.win hq.geo.l1, fun e he => ?_⟩
  obtain ⟨v, v1, v2⟩ := hen.entry he
  have hv := hen.rng v v1
  refine ⟨by rw [v2]; exact userPage_ph hc hv.2.2, fun ho => ⟨fun d hd => ?_, ?_⟩⟩
  · unfold nandRead
    have hp : e.page < c.pages := by rw [v2]; exact ph_lt hc v
    rw [if_pos ⟨hp, by omega⟩, if_neg (by rw [ho _ hp]; simp), hen.data e he d hd]
    show Except.ok (c.clip (c.clip d)) = _
    rw [clip_clip]
  · have hm := hen.mt e he
    rw [v2] at hm ⊢
    rw [readMeta_eq hc hq.rst ho hv.2.2, hm]
    unfold Entry.metaBytes
    cases e.mt <;> rfl

/-- C59, order: after any history of journal calls (with or without recoveries), in normal operation dhara_journal_peek
answers the page of the oldest entry and dhara_journal_root that of the newest one, and both answer "none" exactly if the
queue is empty; the journal is not in recovery. -/
theorem journal_is_fifo (hc : c.Valid) (s : S) (L : List Entry) (pk : Bool) (h : Fifo c s L (.calm pk)) :
    (Shallow c s.n → (peek c s).1 = oldest L) ∧ s.j.root = newest L ∧ s.j.recovery = false := by
  obtain ⟨Vs, vts, vt, vh, vr, vR, vM, vn, hf⟩ := h.inv hc
  exact hf.order hc

/-- C59, taking everything out: a user who peeks and dequeues until peek answers DHARA_PAGE_NONE gets exactly the pages of
the queue, in order. -/
theorem draining_returns_the_queue (hc : c.Valid) (k : Nat) (L : List Entry) : ∀ (s : S) (pk : Bool), Fifo c s L (.calm pk) → Shallow c s.n →
    L.length ≤ k → drain c k s = L.map Entry.page := by
  induction L generalizing k with
  | nil =>
    intro s pk h hs _
    cases k with
    | zero => rfl
    | succ k =>
      have hp : (peek c s).1 = NONE := (journal_is_fifo hc s [] pk h).1 hs
      unfold drain; rw [if_pos hp]; rfl
  | cons e L ih =>
    intro s pk h hs hk
    obtain ⟨k, rfl⟩ : ∃ k', k = k' + 1 := ⟨k - 1, by rw [List.length_cons] at hk; omega⟩
    have hp : (peek c s).1 = e.page := (journal_is_fifo hc s (e :: L) pk h).1 hs
    have hne : e.page ≠ NONE := by
      obtain ⟨Vs, vts, vt, vh, vr, vR, vM, vn, hf⟩ := h.inv hc
      have hm : e.page ∈ Vs.map c.ph := by rw [← hf.en.pages]; exact List.mem_cons_self ..
      obtain ⟨v, _, h2⟩ := List.mem_map.1 hm
      rw [← h2]; exact ph_ne_none hc v
    have h1 := Fifo.dequeue _ _ _ (Fifo.peek s _ pk h hs)
    unfold drain
    rw [hp, if_neg hne, List.map_cons]
    congr 1
    refine ih k _ false h1 ?_ (by rw [List.length_cons] at hk; omega)
    rw [(dequeue_same _).n, (peek_same s).n]; exact hs

/-- C59, contents: in normal operation and in the middle of a recovery, all entries are on different pages, and every entry
in the queue reads back with the data and the metadata it was enqueued with. -/
theorem journal_entries_kept (hc : c.Valid) (s : S) (L : List Entry) (ph : Phase) (h : Fifo c s L ph) :
    (L.map Entry.page).Nodup ∧
    ∀ e, e ∈ L → c.UserPage e.page ∧ (ReadsOk c s →
      (∀ d, e.data = some d → nandRead c s.n e.page 0 c.pageSize = .ok (c.clip d)) ∧
      readMeta c s e.page = .ok e.metaBytes) := by
  obtain ⟨Vs, vts, vt, vh, vr, vR, vM, vn, hq, hen⟩ := h.ents hc
  exact hen.kept hc hq

end Dhara

/-! ### A concrete case -/

namespace Dhara.ExFifo
open Dhara.Viol Dhara.Ex2

/-- Six blocks of four pages (three of them user pages); the first program in block 1 (clock 6) fails. -/
def cfg : Cfg := mk 2 6 fun t => if t = 6 then .fail else .ok

theorem valid : cfg.Valid := ⟨by decide, by decide, by decide, by decide, by decide⟩

inductive FOp where
  | enq (d m : Nat) | enqNull | copy (m : Nat) | peek | deq | enqFull (d m : Nat)

/-- Run a history, keeping the queue. -/
def frun : List FOp → S × List Entry × Bool → S × List Entry × Bool
  | [], x => x
  | .enq d m :: ops, (s, L, pk) =>
    let s' := (enqueue cfg (some (data d)) (some (data m)) s).2
    frun ops (s', L ++ [⟨s'.j.root, some (data d), some (data m)⟩], pk)
  | .enqNull :: ops, (s, L, pk) =>
    let s' := (enqueue cfg none none s).2
    frun ops (s', L ++ [⟨s'.j.root, none, none⟩], pk)
  | .copy m :: ops, (s, [], pk) => frun ops (s, [], pk)
  | .copy m :: ops, (s, e :: L, pk) =>
    let s' := (journalCopy cfg e.page (data m) s).2
    frun ops (s', e :: L ++ [⟨s'.j.root, e.data, some (data m)⟩], pk)
  | .peek :: ops, (s, L, _) => frun ops ((peek cfg s).2, L, !L.isEmpty)
  | .deq :: ops, (s, L, _) => frun ops (dequeue cfg s, L.tail, false)
  | .enqFull d m :: ops, (s, L, pk) => frun ops ((enqueue cfg (some (data d)) (some (data m)) s).2, L, pk)

def shallowB (n : Nand) : Bool :=
  (List.range cfg.numBlocks).all fun b => (List.range 8).any fun k => !n.chip.bad ((b + k) % cfg.numBlocks)

theorem shallow_of {n : Nand} (h : shallowB n = true) : Shallow cfg n := by
  intro b
  unfold shallowB at h
  rw [List.all_eq_true] at h
  have := h (b % cfg.numBlocks) (List.mem_range.2 (Nat.mod_lt _ (by decide)))
  rw [List.any_eq_true] at this
  obtain ⟨k, h1, h2⟩ := this
  refine ⟨k, List.mem_range.1 h1, ?_⟩
  rw [Nat.mod_add_mod] at h2
  simpa using h2

/-- All calls of the history are allowed and succeed. -/
def frunOk : List FOp → S × List Entry × Bool → Bool
  | [], _ => true
  | .enq d m :: ops, (s, L, pk) =>
    let s' := (enqueue cfg (some (data d)) (some (data m)) s).2
    good (enqueue cfg (some (data d)) (some (data m)) s).1 && frunOk ops (s', L ++ [⟨s'.j.root, some (data d), some (data m)⟩], pk)
  | .enqNull :: ops, (s, L, pk) =>
    let s' := (enqueue cfg none none s).2
    good (enqueue cfg none none s).1 && frunOk ops (s', L ++ [⟨s'.j.root, none, none⟩], pk)
  | .copy _ :: _, (_, [], _) => false
  | .copy m :: ops, (s, e :: L, pk) =>
    let s' := (journalCopy cfg e.page (data m) s).2
    good (journalCopy cfg e.page (data m) s).1 && frunOk ops (s', e :: L ++ [⟨s'.j.root, e.data, some (data m)⟩], pk)
  | .peek :: ops, (s, L, _) => shallowB s.n && frunOk ops ((peek cfg s).2, L, !L.isEmpty)
  | .deq :: ops, (s, L, pk) => pk && !L.isEmpty && frunOk ops (dequeue cfg s, L.tail, false)
  | .enqFull d m :: ops, (s, L, pk) =>
    let r := enqueue cfg (some (data d)) (some (data m)) s
    isErr .journalFull r.1 && decide (7 ≤ s.n.time) && !nandIsBad s.n (s.j.head / cfg.ppb) && frunOk ops (r.2, L, pk)

theorem app {s : S} {L : List Entry} {d m : Option Buf} {x : Except Err Unit × S} (h : Appends cfg s L d m x)
    (hg : good x.1 = true) : Appends cfg s L d m (.ok (), x.2) := by
  have : x = (.ok (), x.2) := Prod.ext (good_iff hg) rfl
  rwa [this] at h

theorem fifo_run : ∀ ops x, Fifo cfg x.1 x.2.1 (.calm x.2.2) → frunOk ops x = true →
    Fifo cfg (frun ops x).1 (frun ops x).2.1 (.calm (frun ops x).2.2) := by
  intro ops
  induction ops with
  | nil => intro x h _; exact h
  | cons op ops ih =>
    rintro ⟨s, L, pk⟩ h hok
    cases op with
    | enq d m =>
      simp only [frunOk, Bool.and_eq_true] at hok
      exact ih _ (.append s _ L pk _ _ h (app (.enqueue _ _) hok.1)) hok.2
    | enqNull =>
      simp only [frunOk, Bool.and_eq_true] at hok
      exact ih _ (.append s _ L pk _ _ h (app (.enqueue _ _) hok.1)) hok.2
    | copy m =>
      cases L with
      | nil => simp [frunOk] at hok
      | cons e L =>
        simp only [frunOk, Bool.and_eq_true] at hok
        exact ih _ (.append s _ (e :: L) pk _ _ h (app (.copy e _ (List.mem_cons_self ..)) hok.1)) hok.2
    | peek =>
      simp only [frunOk, Bool.and_eq_true] at hok
      exact ih _ (.peek s L pk h (shallow_of hok.1)) hok.2
    | deq =>
      simp only [frunOk, Bool.and_eq_true] at hok
      obtain ⟨⟨h1, h2⟩, h3⟩ := hok
      cases L with
      | nil => simp at h2
      | cons e L => subst h1; exact ih _ (.dequeue s L e h) h3
    | enqFull d m =>
      simp only [frunOk, Bool.and_eq_true, decide_eq_true_eq, Bool.not_eq_true'] at hok
      obtain ⟨⟨⟨h1, h2⟩, h3⟩, h4⟩ := hok
      have ha := Appends.enqueue (c := cfg) (s := s) (L := L) (some (data d)) (some (data m))
      rw [pair_eq (isErr_iff h1)] at ha
      refine ih _ (.refused s _ L pk _ _ _ h ha ⟨by decide, by decide, by decide⟩ (by decide) (fun t t1 t2 => ⟨?_, fun he => by cases he⟩) h3) h4
      have : ¬ t = 6 := by omega
      show (if t = 6 then Fate.fail else Fate.ok) ≠ _
      rw [if_neg this]; exact fun he => by cases he

/-- Five pages are enqueued (the fourth finds block 1 failing and goes to block 2), then the first three and a copied and
a padding page are put in and the first three taken out, with enqueues between peek and dequeue. -/
def ops : List FOp :=
  [.enq 1 2, .enq 3 4, .enq 5 6, .enq 7 8, .enq 9 10, .peek, .copy 11, .deq, .peek, .enqNull, .deq, .peek, .deq]

def x1 : S × List Entry × Bool := frun ops (j0 cfg, [], false)

theorem fifo1 : Fifo cfg x1.1 x1.2.1 (.calm x1.2.2) :=
  fifo_run ops _ (.fresh _ ⟨rfl, rfl, Or.inl ⟨_, rfl⟩⟩) (by decide +kernel)

/-- Four entries are left, the oldest on the first page of block 2; block 1 is bad and the tail still points to it. -/
example : x1.2.1.map Entry.page = [8, 9, 10, 12] ∧ x1.1.n.chip.bad 1 = true ∧ x1.1.j.tail = 4 := by decide +kernel

/-- The queue is filled up, an enqueue is refused, an entry is taken out and another put in. -/
def ops2 : List FOp :=
  [.enq 1 2, .enq 3 4, .enq 5 6, .enq 7 8, .enq 9 10, .enq 11 12, .enq 1 2, .enq 3 4, .enq 5 6, .enq 7 8, .enq 9 10, .enq 11 12, .enq 1 2, .enq 3 4,
   .enqFull 1 1, .peek, .deq, .peek, .deq]

theorem fifo2 : Fifo cfg (frun ops2 (j0 cfg, [], false)).1 (frun ops2 (j0 cfg, [], false)).2.1 (.calm (frun ops2 (j0 cfg, [], false)).2.2) :=
  fifo_run ops2 _ (.fresh _ ⟨rfl, rfl, Or.inl ⟨_, rfl⟩⟩) (by decide +kernel)

theorem shallow1 : Shallow cfg x1.1.n := shallow_of (by decide +kernel)

example : ReadsOk cfg x1.1 := fun _ _ => rfl

/-- The theorem applies: peek answers page 8. -/
example : (peek cfg x1.1).1 = 8 := by
  have h := (journal_is_fifo valid _ _ _ fifo1).1 shallow1
  rw [h]
  have : x1.2.1.map Entry.page = [8, 9, 10, 12] := by decide +kernel
  generalize x1.2.1 = L at this
  cases L with
  | nil => cases this
  | cons e L => exact (List.cons.inj this).1

/-- Taking everything out of it. -/
example : drain cfg 4 x1.1 = x1.2.1.map Entry.page :=
  draining_returns_the_queue valid 4 _ _ _ fifo1 shallow1 (by decide +kernel)

/-- A defect, and the reason why the histories of C59 contain refused enqueues only with a good block at the head and no failing
operation: when an enqueue on an empty journal has failed because eight blocks in succession did not take the page, dhara_journal_peek does not answer DHARA_PAGE_NONE but the
first page of the first of these bad blocks, although nothing has ever been stored. -/
theorem peek_after_failed_enqueue :
    ∃ (c : Cfg) (s s' : S) (d m : Buf), c.Valid ∧ Fifo c s [] (.calm false) ∧ enqueue c (some d) (some m) s = (.error .tooBad, s') ∧
      (peek c s').1 = 0 ∧ s'.n.chip.bad 0 = true := by
  refine ⟨mk 2 12 fun _ => .fail, j0 (mk 2 12 fun _ => .fail), (enqueue (mk 2 12 fun _ => .fail) (some (data 1)) (some (data 2)) (j0 (mk 2 12 fun _ => .fail))).2, data 1, data 2,
    ⟨by decide, by decide, by decide, by decide, by decide⟩, .fresh _ ⟨rfl, rfl, Or.inl ⟨_, rfl⟩⟩, Prod.ext (isErr_iff ?_) rfl, ?_, ?_⟩
  · decide +kernel
  · decide +kernel
  · decide +kernel

/-- A chip that came from the factory with blocks 1 to 5 bad. -/
def worn : S := { j := journalInit cfg (fun _ => 0), n := { blankChip cfg with chip := { (blankChip cfg).chip with bad := fun b => decide (1 ≤ b) } }, count := 0 }

def x3 : S × List Entry × Bool := frun [.enq 1 2, .enq 3 4, .enq 5 6] (worn, [], false)

theorem fifo3 : Fifo cfg x3.1 x3.2.1 (.calm x3.2.2) :=
  fifo_run _ _ (.fresh _ ⟨rfl, rfl, Or.inl ⟨_, rfl⟩⟩) (by decide +kernel)

/-- A defect, and the reason for the other half of that condition: here no operation fails at all. An enqueue finds the blocks
after the head marked bad, skips them and is refused with E_JOURNAL_FULL, without a single program or erase operation. A user who
then takes everything out of the journal gets the three entries and after them one page more, the first page of the bad block 5, on
which nothing was ever written. -/
theorem peek_after_refused_enqueue :
    ∃ (c : Cfg) (s s' : S) (L : List Entry) (d m : Buf), c.Valid ∧ Fifo c s L (.calm false) ∧ Shallow c s.n ∧
      enqueue c (some d) (some m) s = (.error .journalFull, s') ∧ s'.n.time = s.n.time ∧ L.map Entry.page = [0, 1, 2] ∧
      drain c 10 s' = [0, 1, 2, 20] ∧ s'.n.chip.bad (20 / c.ppb) = true := by
  refine ⟨cfg, x3.1, (enqueue cfg (some (data 1)) (some (data 2)) x3.1).2, x3.2.1, data 1, data 2, valid, fifo3, shallow_of ?_,
    Prod.ext (isErr_iff ?_) rfl, ?_, ?_, ?_, ?_⟩
  · decide +kernel
  · decide +kernel
  · decide +kernel
  · decide +kernel
  · decide +kernel
  · decide +kernel

/-- The journal is clean, block 1 bad, the head before it and the tail behind it. -/
def x4 : S × List Entry × Bool :=
  frun [.enq 1 2, .enq 3 4, .enq 5 6, .enq 7 8, .enq 9 10, .enq 11 12, .enq 1 2, .enq 3 4, .enq 5 6, .enq 7 8, .enq 9 10, .enq 11 12, .peek, .deq,
    .peek, .deq, .peek, .deq, .peek, .deq, .enq 1 2, .enq 3 4, .enq 5 6, .enq 7 8, .enq 9 10, .enq 11 12] (j0 cfg, [], false)

theorem fifo4 : Fifo cfg x4.1 x4.2.1 (.calm x4.2.2) :=
  fifo_run _ _ (.fresh _ ⟨rfl, rfl, Or.inl ⟨_, rfl⟩⟩) (by decide +kernel)

theorem pack {x : Except Err Unit × S} (h : good x.1 = true) : x = (.ok (), x.2) := Prod.ext (good_iff h) rfl
theorem packErr {e : Err} {x : Except Err Unit × S} (h : isErr e x.1 = true) : x = (.error e, x.2) := Prod.ext (isErr_iff h) rfl

/-- Two entries are dequeued. -/
def twice (c : Cfg) (s : S) : S := dequeue c (peek c (dequeue c (peek c s).2)).2

/-- The contrast to C63, and why the statement needs the mark: two entries are dequeued from the clean journal and one page is
enqueued, which completes no checkpoint; page 9, on which the oldest entry was, is erased by then (the head was before
the bad block 1, so it moved on to block 2). If the journal is marked dirty before
the dequeues, the same enqueue is refused and page 9 stays as it was. -/
theorem unmarked_entries_are_overwritten :
    ∃ (c : Cfg) (s s1 s2 : S) (L : List Entry) (d m : Buf), c.Valid ∧ Fifo c s L (.calm false) ∧ s.j.dirty = false ∧
      (L.map Entry.page).take 3 = [9, 10, 12] ∧ s.n.chip.free 9 = false ∧
      enqueue c (some d) (some m) (twice c s) = (.ok (), s1) ∧ s1.j.dirty = true ∧ s1.n.chip.free 9 = true ∧
      enqueue c (some d) (some m) (twice c (markDirty s)) = (.error .journalFull, s2) ∧ s2.n.chip.free 9 = false := by
  have h2 : x4.2.2 = false := by decide +kernel
  have hf := fifo4
  rw [h2] at hf
  refine ⟨cfg, x4.1, (enqueue cfg (some (data 1)) (some (data 2)) (twice cfg x4.1)).2,
    (enqueue cfg (some (data 1)) (some (data 2)) (twice cfg (markDirty x4.1))).2, x4.2.1, data 1, data 2, valid, hf, ?_, ?_, ?_,
    pack ?_, ?_, ?_, packErr ?_, ?_⟩
  · decide +kernel
  · decide +kernel
  · decide +kernel
  · decide +kernel
  · decide +kernel
  · decide +kernel
  · decide +kernel
  · decide +kernel

/-- An enqueue tried `k` times. -/
def tries (c : Cfg) (d m : Buf) : Nat → S → S
  | 0, s => s
  | k + 1, s => tries c d m k (enqueue c (some d) (some m) s).2

/-- A defect: every refused enqueue that finds a bad block at the head adds one to the count of bad blocks (dhara/journal.c:641),
though the head does not move on. Here one of six blocks is bad and the journal is full: trying again lowers dhara_journal_capacity by a
block each time until it is 0, and the sixth repetition makes it more than four thousand million pages. -/
theorem capacity_after_refused_enqueues :
    ∃ (c : Cfg) (s : S) (L : List Entry) (d m : Buf), c.Valid ∧ Fifo c s L (.calm false) ∧
      (List.range 6).map s.n.chip.bad = [false, true, false, false, false, false] ∧
      (∀ k, k < 7 → (enqueue c (some d) (some m) (tries c d m k s)).1 = .error .journalFull) ∧
      (List.range 7).map (fun k => journalCapacity c (tries c d m k s).j) = [12, 12, 9, 6, 3, 0, 4294967293] := by
  have h2 : x4.2.2 = false := by decide +kernel
  have hf := fifo4
  rw [h2] at hf
  refine ⟨cfg, x4.1, x4.2.1, data 1, data 2, valid, hf, ?_, ?_, ?_⟩
  · decide +kernel
  · have h : ∀ k, k < 7 → isErr .journalFull (enqueue cfg (some (data 1)) (some (data 2)) (tries cfg (data 1) (data 2) k x4.1)).1 = true := by decide +kernel
    exact fun k hk => isErr_iff (h k hk)
  · decide +kernel

end Dhara.ExFifo

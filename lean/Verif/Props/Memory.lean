/-
C58: the library stays inside the memory it was given: the page buffer of `1 << log2_page_size`
bytes, the data buffers of the same size, and the blocks and pages the chip has.

Two runs that agree on that memory, and differ in any way beyond it, return the same results, agree
on that memory afterwards, and neither changes a byte beyond its page buffer. So no byte beyond the
buffers is read (it would show in the result or in memory) or written, and no block or page
beyond the chip is asked about.
-/
import Verif.Proofs.Local2
import Verif.Props.Journal
import Verif.Props.Total
import Verif.Props.Example
namespace Dhara
variable {c : Cfg}

theorem sim_of {s s' : S} (hp : PtrsOk c s) (h : SameMem c s s') : Sim c s.j.pageBuf s'.j.pageBuf s s' := by
  obtain ⟨hb, hce, hr⟩ := h
  generalize s'.j.pageBuf = b at hb hr ⊢
  generalize s'.n.chip = ch at hce hr
  subst hr
  exact Sim.intro ⟨hp.head, hp.tail, hp.user⟩ ⟨hb, fun _ _ => rfl, fun _ _ => rfl⟩ hce

/-- Outcome of a call made in two states that agree on the memory that exists. -/
structure Local {α : Type} (c : Cfg) (s s' : S) (r r' : α × S) : Prop where
  result : r'.1 = r.1
  same : SameMem c r.2 r'.2
  beyond : SameBeyond c.pageSize s.j.pageBuf r.2.j.pageBuf
  beyond' : SameBeyond c.pageSize s'.j.pageBuf r'.2.j.pageBuf
  ptrs : PtrsOk c r.2

theorem local_of {α : Type} {s s' : S} {r r' : α × S} (h : RS c s.j.pageBuf s'.j.pageBuf r r') : Local c s s' r r' := by
  obtain ⟨x, t, t', rfl, rfl, ht⟩ := h.cases
  obtain ⟨b, ch, rfl, hp, hb, hh⟩ := ht.elim
  exact ⟨rfl, ⟨hb.inn, hh, rfl⟩, fun i hi => (hb.out i hi).symm, fun i hi => (hb.out' i hi).symm, ⟨hp.head, hp.tail, hp.user⟩⟩

/-- C58: every call of the map, under every fault, stays inside the page buffer, the caller's data and
the chip. Nothing is assumed of the state but that head and tail are pages of the chip and the head
is not a checkpoint page; this is kept by every call, failing ones included. -/
theorem calls_stay_in_memory (hc : c.Valid) (s s' : S) (hp : PtrsOk c s) (h : SameMem c s s') (op op' : Op) (ho : SameCall c op op') :
    Local c s s' (step c op s) (step c op' s') :=
  local_of (step_sim hc ho (sim_of hp h))

/-- C58: lookups. -/
theorem lookups_stay_in_memory (s s' : S) (hp : PtrsOk c s) (h : SameMem c s s') (t : Nat) :
    mapFind c s' t = mapFind c s t ∧ mapRead c s' t = mapRead c s t ∧ mapCapacity c s' = mapCapacity c s ∧ mapSize s' = mapSize s :=
  have hs := sim_of hp h
  ⟨(mapFind_sim hs t).symm, (mapRead_sim hs t).symm, (mapCapacity_sim hs).symm, hs.k.symm⟩

/-- The same journal call, up to what its pointers point to beyond a page of data and beyond the metadata of a page. -/
inductive SameJCall (c : Cfg) : JOp → JOp → Prop
  | enqueue {d d' m m' : Option Buf} (hd : d.isSome = d'.isSome) (hm : m.isSome = m'.isSome)
      (h : ∀ x x', d = some x → d' = some x' → SameBytes c.pageSize x x')
      (h' : ∀ x x', m = some x → m' = some x' → SameBytes metaSize x x') : SameJCall c (.enqueue d m) (.enqueue d' m')
  | copy (p : Nat) {m m' : Buf} (h : SameBytes metaSize m m') : SameJCall c (.copy p m) (.copy p m')
  | same (op : JOp) : SameJCall c op op

/-- C58: every call of the journal. -/
theorem journal_calls_stay_in_memory (hc : c.Valid) (s s' : S) (hp : PtrsOk c s) (h : SameMem c s s') (op op' : JOp) (ho : SameJCall c op op') :
    Local c s s' (jcall c op s) (jcall c op' s') := by
  have hs := sim_of hp h
  have hmt : ∀ {m m' : Option Buf}, m.isSome = m'.isSome → (∀ x x', m = some x → m' = some x' → SameBytes metaSize x x') → SameMt m m' := by
    intro m m' h1 h2
    cases m <;> cases m' <;> first | exact .none | exact .some (h2 _ _ rfl rfl) | cases h1
  have hdt : ∀ {m m' : Option Buf}, m.isSome = m'.isSome → (∀ x x', m = some x → m' = some x' → SameBytes c.pageSize x x') → SameData c m m' := by
    intro m m' h1 h2
    cases m <;> cases m' <;> first | exact .none | exact .some (h2 _ _ rfl rfl) | cases h1
  apply local_of
  cases ho with
  | enqueue a b d e => exact enqueue_sim hc (hdt a d) (hmt b e) hs
  | copy p a => exact journalCopy_sim hc p a hs
  | same =>
    cases op with
    | enqueue d m => exact enqueue_sim hc (hdt rfl fun x x' h1 h2 => by rw [h1] at h2; cases h2; exact .refl _ _) (hmt rfl fun x x' h1 h2 => by rw [h1] at h2; cases h2; exact .refl _ _) hs
    | copy p m => exact journalCopy_sim hc p (.refl _ _) hs
    | dequeue => exact .ret _ (dequeue_sim hc hs)
    | peek => exact .ret _ (peek_sim hc hs).sim
    | clear => exact .ret _ (journalClear_sim hc hs)
    | next => exact .ret _ (nextRecoverable_sim hs).sim

/-- C58: what `peek`, `next_recoverable` and `read_meta` return. -/
theorem journal_lookups_stay_in_memory (hc : c.Valid) (s s' : S) (hp : PtrsOk c s) (h : SameMem c s s') :
    (peek c s').1 = (peek c s).1 ∧ (nextRecoverable c s').1 = (nextRecoverable c s).1 ∧ ∀ p, readMeta c s' p = readMeta c s p :=
  have hs := sim_of hp h
  ⟨(peek_sim hc hs).eq.symm, (nextRecoverable_sim hs).eq.symm, fun p => (readMeta_sim hs p).symm⟩

/-- C58: resuming depends only on cells that exist, whatever these contain and whatever RAM held: same result, and the
same map in every variable. -/
theorem resume_stays_on_chip (hc : c.Valid) (n : Nand) (ch : Chip) (h : SameCells c n.chip ch) (buf : Buf) (cnt : Nat) :
    (mapResume c (mapInit c buf cnt { n with chip := ch })).1 = (mapResume c (mapInit c buf cnt n)).1 ∧
    (mapResume c (mapInit c buf cnt { n with chip := ch })).2.j = (mapResume c (mapInit c buf cnt n)).2.j ∧
    (mapResume c (mapInit c buf cnt { n with chip := ch })).2.count = (mapResume c (mapInit c buf cnt n)).2.count := by
  have e := journalResume_sim hc (NSim.mk n ch h) (journalInit c buf)
  unfold mapResume mapInit
  simp only [← e]
  generalize journalResume c n (journalInit c buf) = r
  obtain ⟨x, j⟩ := r
  cases x <;> exact ⟨rfl, rfl, rfl⟩

/-- Setting up the journal fills the page buffer, and not a byte more. -/
theorem init_stays_in_buffer (buf : Buf) : SameBeyond c.pageSize buf (journalInit c buf).pageBuf := by
  intro i hi
  show buf i = (buf.memset 0 0xff c.pageSize) i
  rw [memset_out (Or.inr (by omega))]

/-- The states of C01 and C14 meet the condition on the pointers. -/
theorem ptrs_ok (hc : c.Valid) (s : S) (h : Hist c s) : PtrsOk c s :=
  have hp := map_pointers_valid hc s h
  ⟨hp.head.1, hp.tail.1, hp.head.2⟩

theorem ptrs_ok_journal (hc : c.Valid) (s : S) (h : JHist c s) : PtrsOk c s :=
  have hp := journal_pointers_valid hc s h
  ⟨hp.head.1, hp.tail.1, hp.head.2⟩

end Dhara

/-! ### A concrete case: the history of `Ex`, next to memory full of something else -/

namespace Dhara.Ex

/-- A state with other bytes after the page buffer and other answers for blocks and pages beyond the chip. -/
def other (s : S) : S :=
  { s with
    j := { s.j with pageBuf := fun i => if i < 512 then s.j.pageBuf i else 0xaa }
    n := { s.n with chip :=
      { page := fun p => if p < 160 then s.n.chip.page p else none
        free := fun p => if p < 160 then s.n.chip.free p else !s.n.chip.free p
        bad := fun b => if b < 40 then s.n.chip.bad b else !s.n.chip.bad b } } }

theorem same_other (s : S) : SameMem cfg s (other s) := by
  refine ⟨fun i hi => ?_, ⟨fun p hp => ?_, fun p hp => ?_, fun b hb => ?_⟩, rfl⟩
  · show _ = if i < 512 then _ else _
    rw [if_pos (show i < 512 from hi)]
  · show _ = if p < 160 then _ else _
    rw [if_pos (show p < 160 from hp)]
  · show _ = if p < 160 then _ else _
    rw [if_pos (show p < 160 from hp)]
  · show _ = if b < 40 then _ else _
    rw [if_pos (show b < 40 from hb)]

/-- It is another state. -/
example (s : S) : (other s).n.chip.bad 40 = (!s.n.chip.bad 40) ∧ (other s).n.chip.free 160 = (!s.n.chip.free 160) := ⟨rfl, rfl⟩

/-- The next write, with data that differ after 512 bytes. -/
example : Local cfg s1 (other s1) (step cfg (.write 8 (data 9)) s1) (step cfg (.write 8 (fun i => if i < 512 then data 9 i else 0)) (other s1)) ∧
    fine (step cfg (.write 8 (data 9)) s1).1 = true :=
  ⟨calls_stay_in_memory valid s1 (other s1) (ptrs_ok valid s1 hist1) (same_other s1) _ _
      (.write 8 fun i hi => by show data 9 i = if i < 512 then data 9 i else 0; rw [if_pos (show i < 512 from hi)]),
   by decide +kernel⟩

end Dhara.Ex

/-
C51, the defect: a checkpoint page whose program was cut short by a power failure and that cannot be read any more stops garbage
collection for good once the tail reaches its group, and with it every write, trim and sync, although all sectors are readable.
-/
import Verif.Props.Violations
namespace Dhara.Viol

variable {c : Cfg}

/-- Collection cannot get past the page at the tail. -/
structure Stuck (c : Cfg) (s : S) : Prop where
  cnt : s.count ≠ 0
  full : mapCapacity c s ≤ journalSize c s.j
  ne : s.j.head ≠ s.j.tail
  al : isAligned s.j.tail c.log2Ppb = false
  none : s.j.tail ≠ NONE
  rd : readMeta c s s.j.tail = .error .ecc

theorem readMeta_tick (hr : ∀ t p, c.env.readFail t p = false) (s : S) (p : Nat) : readMeta c (tick s) p = readMeta c s p := by
  unfold readMeta nandRead tick
  simp only [hr]

theorem Stuck.tick (hr : ∀ t p, c.env.readFail t p = false) {s : S} (h : Stuck c s) : Stuck c (Dhara.tick s) :=
  ⟨h.cnt, h.full, h.ne, h.al, h.none, (readMeta_tick hr s _).trans h.rd⟩

theorem Stuck.peek {s : S} (h : Stuck c s) : peek c s = (s.j.tail, s) := by
  unfold Dhara.peek
  rw [if_neg h.ne, h.al]
  rfl

theorem Stuck.rawGc {s : S} (h : Stuck c s) : rawGc c s.j.tail s = (.error .ecc, s) := by
  unfold Dhara.rawGc
  rw [h.rd]

theorem tryRecover_ecc (s : S) : tryRecover c .ecc s = (.error .ecc, s) := rfl

theorem Stuck.gc (hf : 0 < c.fuel) {s : S} (h : Stuck c s) : mapGc c s = (.error .ecc, s) := by
  unfold mapGc
  rw [if_neg h.cnt]
  obtain ⟨f, hf⟩ : ∃ f, c.fuel = f + 1 := ⟨c.fuel - 1, by omega⟩
  rw [hf]
  unfold mapGcLoop
  rw [h.peek]
  simp only
  rw [if_neg h.none, h.rawGc]
  rfl

theorem Stuck.autoGc (hf : 0 < c.fuel) {s : S} (h : Stuck c s) : autoGc c s = (.error .ecc, s) := by
  unfold Dhara.autoGc
  rw [if_neg (Nat.not_lt.2 h.full)]
  unfold gcTimes
  rw [h.gc hf]

/-- The calls that write. -/
def Writes : Op → Prop
  | .write _ _ | .copyPage _ _ | .trim _ | .sync | .gc => True
  | .copySector _ _ | .clear => False

theorem both {r : Except Err Unit × S} {s : S} {P : Prop} (h : r = (.error .ecc, s)) : r.2 = s ∧ (P → r.1 = .error .ecc) := by
  subst h; exact ⟨rfl, fun _ => rfl⟩

/-- A stuck map refuses every write, trim and collection, and every sync that has something to do, and stays stuck. -/
theorem Stuck.step (hr : ∀ t p, c.env.readFail t p = false) (hf : 0 < c.fuel) {s : S} (h : Stuck c s) {op : Op} (ho : Writes op) :
    (step c op s).2 = Dhara.tick s ∧ ((op = .sync → s.j.dirty = true) → (step c op s).1 = .error .ecc) := by
  have h' := h.tick hr
  obtain ⟨f, hf'⟩ : ∃ f, c.fuel = f + 1 := ⟨c.fuel - 1, by omega⟩
  have hw : ∀ dst push, writeLoop c dst push c.fuel (Dhara.tick s) = (.error .ecc, Dhara.tick s) := by
    intro dst push
    rw [hf']
    unfold writeLoop prepareWrite
    rw [h'.autoGc hf]
  cases op with
  | write dst d => exact both (hw _ _)
  | copyPage a b => exact both (hw _ _)
  | trim t =>
    refine both (show mapTrimLoop c t c.fuel (Dhara.tick s) = _ from ?_)
    rw [hf']
    unfold mapTrimLoop
    rw [h'.autoGc hf]
  | gc => exact both (h'.gc hf)
  | sync =>
    cases hd : s.j.dirty with
    | true =>
      refine both (show mapSyncLoop c c.fuel (Dhara.tick s) = _ from ?_)
      rw [hf']
      unfold mapSyncLoop
      rw [h'.peek]
      simp only
      rw [if_neg (show ¬¬(Dhara.tick s).j.dirty = true from fun h => h hd), if_neg h'.none, h'.rawGc]
      rfl
    | false =>
      refine ⟨?_, fun h => absurd (h rfl) (by simp)⟩
      show (mapSyncLoop c c.fuel (Dhara.tick s)).2 = _
      rw [hf']
      unfold mapSyncLoop
      rw [if_pos (show ¬(Dhara.tick s).j.dirty = true from fun h => Bool.noConfusion (h.symm.trans hd))]
  | copySector _ _ => cases ho
  | clear => cases ho

theorem Stuck.forever (hr : ∀ t p, c.env.readFail t p = false) (hf : 0 < c.fuel) {s : S} (h : Stuck c s) (ops : List Op)
    (ho : ∀ op, op ∈ ops → Writes op) {op : Op} (hop : Writes op) (hd : op = .sync → s.j.dirty = true) :
    (Dhara.step c op (run c ops s)).1 = .error .ecc := by
  induction ops generalizing s with
  | nil => exact (h.step hr hf hop).2 hd
  | cons a ops ih =>
    show (Dhara.step c op (run c ops (Dhara.step c a s).2)).1 = _
    rw [(h.step hr hf (ho a (List.mem_cons_self ..))).1]
    exact ih (h.tick hr) (fun o h => ho o (List.mem_cons_of_mem _ h)) hd

/-! ### The history -/

/-- Sixteen blocks of eight pages; power is lost during the program at clock 14 (the second checkpoint page). -/
def c51 : Cfg := mk 3 16 fun t => if t = 14 then .crash .garbled else .ok

theorem valid51 : c51.Valid := ⟨by decide, by decide, by decide, by decide, by decide⟩

/-- Three sectors, two of them rewritten. -/
def ops51 : List Op := [.write 2 (data 1), .write 3 (data 2), .write 5 (data 3), .write 2 (data 4), .write 3 (data 5)]
def s51 : S := run c51 ops51 (start c51)

theorem hist51 : Hist c51 s51 := by
  refine hist_run c51 _ _ (.fresh _ ⟨blankChip c51, fun _ => 0, 7, rfl, rfl, rfl⟩) ?_ (by decide +kernel)
  intro op h
  simp only [ops51, List.mem_cons, List.not_mem_nil, or_false] at h
  rcases h with h | h | h | h | h <;> subst h <;> simp [Op.Valid]

/-- Power is lost while the checkpoint is programmed. -/
def s51a : S := (step c51 (.write 5 (data 6)) s51).2
/-- After power-up. -/
def s51b : S := (reboot c51 (fun _ => 0) 0 s51a).2
/-- A few more writes, the third of which fails. -/
def s51c : S := run c51 [.write 2 (data 7), .write 3 (data 8), .write 5 (data 9), .write 2 (data 10), .write 3 (data 11)] s51b

theorem crash51 : (step c51 (.write 5 (data 6)) s51).1 = .error .powerLoss := isErr_iff (by decide +kernel)
theorem boot51 : (reboot c51 (fun _ => 0) 0 s51a).1 = .ok () := good_iff (by decide +kernel)
theorem rd51 : readMeta c51 s51c s51c.j.tail = .error .ecc := isErr_iff (by decide +kernel)
theorem fields51 : s51c.count ≠ 0 ∧ mapCapacity c51 s51c ≤ journalSize c51 s51c.j ∧ s51c.j.dirty = true ∧ s51c.j.head ≠ s51c.j.tail ∧
    isAligned s51c.j.tail c51.log2Ppb = false ∧ s51c.j.tail ≠ NONE := by decide +kernel

theorem stuck51 : Stuck c51 s51c :=
  ⟨fields51.1, fields51.2.1, fields51.2.2.2.1, fields51.2.2.2.2.1, fields51.2.2.2.2.2, rd51⟩

/-- The page at which `mapRead` succeeds with these first two bytes. -/
def reads (r : Except Err Buf) (k : Nat) : Bool := match r with | .ok b => decide (b 0 = UInt8.ofNat k) && decide (b 1 = UInt8.ofNat (k + 1)) | _ => false

theorem read51 : reads (mapRead c51 s51c 2) 10 = true ∧ reads (mapRead c51 s51c 3) 11 = true ∧ reads (mapRead c51 s51c 5) 3 = true ∧
    mapSize s51c = 3 := by decide +kernel

/-- C51, the defect: no read of a completely programmed page ever fails and all three sectors can be read, but after the power
failure every write, trim, sync and collection fails with E_ECC, however often it is tried. -/
theorem torn_page_blocks_gc : ∃ (c : Cfg) (s a b z : S) (ops : List Op), c.Valid ∧ Hist c s ∧ (∀ t p, c.env.readFail t p = false) ∧
    step c (.write 5 (data 6)) s = (.error .powerLoss, a) ∧ reboot c (fun _ => 0) 0 a = (.ok (), b) ∧ z = run c ops b ∧
    mapSize z = 3 ∧ reads (mapRead c z 2) 10 = true ∧ reads (mapRead c z 3) 11 = true ∧ reads (mapRead c z 5) 3 = true ∧
    ∀ (more : List Op), (∀ op, op ∈ more → Writes op) → ∀ op, Writes op → (step c op (run c more z)).1 = .error .ecc :=
  ⟨c51, s51, s51a, s51b, s51c, _, valid51, hist51, fun _ _ => rfl, pair_eq crash51, pair_eq boot51, rfl, read51.2.2.2, read51.1, read51.2.1,
    read51.2.2.1, fun more hm op ho => stuck51.forever (fun _ _ => rfl) (by decide) more hm ho fun _ => fields51.2.2.1⟩

/-! ### The same without a power failure -/

/-- Sixteen blocks of eight pages; the program at clock 14 (the second checkpoint page) fails. -/
def c51f : Cfg := mk 3 16 fun t => if t = 14 then .fail else .ok

theorem valid51f : c51f.Valid := ⟨by decide, by decide, by decide, by decide, by decide⟩

/-- Three sectors; three steps of collection, the last of which meets the failing page and recovers from it. -/
def ops51f : List Op := [.write 2 (data 1), .write 3 (data 2), .write 5 (data 3), .gc, .gc, .gc]
def s51f : S := run c51f ops51f (start c51f)
/-- After switching off and on again, and one more call. -/
def s51g : S := (step c51f (.write 2 (data 4)) (reboot c51f (fun _ => 0) 0 s51f).2).2

theorem hist51f : Hist c51f s51f := by
  refine hist_run c51f _ _ (.fresh _ ⟨blankChip c51f, fun _ => 0, 7, rfl, rfl, rfl⟩) ?_ (by decide +kernel)
  intro op h
  simp only [ops51f, List.mem_cons, List.not_mem_nil, or_false] at h
  rcases h with h | h | h | h | h | h <;> subst h <;> simp [Op.Valid]

theorem good51f : runGood c51f ops51f (start c51f) = true := by decide +kernel
theorem rd51f : readMeta c51f s51f s51f.j.tail = .error .ecc := isErr_iff (by decide +kernel)
theorem fields51f : s51f.count ≠ 0 ∧ mapCapacity c51f s51f ≤ journalSize c51f s51f.j ∧ s51f.j.head ≠ s51f.j.tail ∧
    isAligned s51f.j.tail c51f.log2Ppb = false ∧ s51f.j.tail ≠ NONE := by decide +kernel
theorem read51f : reads (mapRead c51f s51f 2) 1 = true ∧ reads (mapRead c51f s51f 3) 2 = true ∧ reads (mapRead c51f s51f 5) 3 = true ∧
    mapSize s51f = 3 := by decide +kernel
theorem bad51f : s51f.n.chip.bad 0 = true ∧ ∀ b, b < 16 → b ≠ 0 → s51f.n.chip.bad b = false := by decide +kernel
theorem boot51f : (reboot c51f (fun _ => 0) 0 s51f).1 = .ok () := good_iff (by decide +kernel)
theorem call51g : (step c51f (.write 2 (data 4)) (reboot c51f (fun _ => 0) 0 s51f).2).1 = .error .ecc := isErr_iff (by decide +kernel)
theorem rd51g : readMeta c51f s51g s51g.j.tail = .error .ecc := isErr_iff (by decide +kernel)
theorem fields51g : s51g.count ≠ 0 ∧ mapCapacity c51f s51g ≤ journalSize c51f s51g.j ∧ s51g.j.head ≠ s51g.j.tail ∧
    isAligned s51g.j.tail c51f.log2Ppb = false ∧ s51g.j.tail ≠ NONE := by decide +kernel

theorem stuck51f : Stuck c51f s51f :=
  ⟨fields51f.1, fields51f.2.1, fields51f.2.2.1, fields51f.2.2.2.1, fields51f.2.2.2.2, rd51f⟩
theorem stuck51g : Stuck c51f s51g :=
  ⟨fields51g.1, fields51g.2.1, fields51g.2.2.1, fields51g.2.2.2.1, fields51g.2.2.2.2, rd51g⟩

/-- C51, the defect without any power failure: every call of the history succeeds, one page program fails and is recovered from
(its block, block 0, is the only bad one of sixteen), no read of a completely programmed page ever fails, and all three sectors
can be read. But from then on every write, trim and collection fails with E_ECC, however often it is tried; switching off and on
does not help, for the first write after that (and every later one) fails in the same way. -/
theorem failed_page_blocks_gc : ∃ (c : Cfg) (z b w : S) (ops : List Op), c.Valid ∧ (∀ t p, c.env.readFail t p = false) ∧
    Fresh c (start c) ∧ runGood c ops (start c) = true ∧ z = run c ops (start c) ∧ Hist c z ∧
    (z.n.chip.bad 0 = true ∧ ∀ b, b < c.numBlocks → b ≠ 0 → z.n.chip.bad b = false) ∧
    mapSize z = 3 ∧ reads (mapRead c z 2) 1 = true ∧ reads (mapRead c z 3) 2 = true ∧ reads (mapRead c z 5) 3 = true ∧
    (∀ (more : List Op), (∀ op, op ∈ more → Writes op) → ∀ op, Writes op → op ≠ .sync → (step c op (run c more z)).1 = .error .ecc) ∧
    reboot c (fun _ => 0) 0 z = (.ok (), b) ∧ step c (.write 2 (data 4)) b = (.error .ecc, w) ∧
    ∀ (more : List Op), (∀ op, op ∈ more → Writes op) → ∀ op, Writes op → op ≠ .sync → (step c op (run c more w)).1 = .error .ecc :=
  ⟨c51f, s51f, _, s51g, ops51f, valid51f, fun _ _ => rfl, ⟨blankChip c51f, fun _ => 0, 7, rfl, rfl, rfl⟩, good51f, rfl, hist51f, bad51f,
    read51f.2.2.2, read51f.1, read51f.2.1, read51f.2.2.1,
    fun more hm op ho hs => stuck51f.forever (fun _ _ => rfl) (by decide) more hm ho fun h => absurd h hs,
    pair_eq boot51f, pair_eq call51g,
    fun more hm op ho hs => stuck51g.forever (fun _ _ => rfl) (by decide) more hm ho fun h => absurd h hs⟩

end Dhara.Viol

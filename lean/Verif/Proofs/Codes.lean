/-
Which error codes each function can report at all, from any state whatsoever.
-/
import Verif.Proofs.Full
namespace Dhara

variable {c : Cfg} {P Q : Err → Prop} {k : Bool}

/-- Every error the result can be satisfies `P`. -/
def Gives {α β : Type} (P : Err → Prop) (r : Except Err α × β) : Prop := ∀ e, r.1 = .error e → P e

theorem gv_ok {α β : Type} {a : α} {b : β} : Gives P ((.ok a, b) : Except Err α × β) := by
  intro e h; cases h

theorem gv_of {α β : Type} {e : Err} {b : β} (h : P e) : Gives P ((.error e, b) : Except Err α × β) := by
  intro e' h'; cases h'; exact h

theorem gv_err {α β : Type} {e : Err} {b : β} (h : Gives P ((.error e, b) : Except Err α × β)) : P e := h e rfl

theorem Gives.state {α β γ : Type} {e : Err} {b : β} (h : Gives P ((.error e, b) : Except Err α × β)) (g : γ) {α' : Type} :
    Gives P ((.error e, g) : Except Err α' × γ) := gv_of (gv_err h)

theorem Gives.mono {α β : Type} {r : Except Err α × β} (h : Gives P r) (hPQ : ∀ e, P e → Q e) : Gives Q r :=
  fun e he => hPQ e (h e he)

/-- What the chip's erase and program operations report. -/
def ChipCode (e : Err) : Prop := e = .badBlock ∨ e = .powerLoss
/-- What a failed write attempt inside a push reports; `k`: the push reads the chip (a copy). -/
def WriteCode (k : Bool) (e : Err) : Prop :=
  e = .badBlock ∨ e = .powerLoss ∨ e = .journalFull ∨ e = .tooBad ∨ (k = true ∧ (e = .ecc ∨ e = .ub))
/-- What a push reports. -/
def PushCode (k : Bool) (e : Err) : Prop :=
  e = .recover ∨ e = .powerLoss ∨ e = .journalFull ∨ e = .tooBad ∨ (k = true ∧ (e = .ecc ∨ e = .ub))
/-- The same while recovery keeps its code to itself. -/
def DumpCode (k : Bool) (e : Err) : Prop :=
  e = .powerLoss ∨ e = .journalFull ∨ e = .tooBad ∨ (k = true ∧ (e = .ecc ∨ e = .ub))
/-- What reading the chip reports. -/
def ReadCode (e : Err) : Prop := e = .ecc ∨ e = .ub
/-- What a lookup reports. -/
def FindCode (e : Err) : Prop := e = .notFound ∨ e = .ecc ∨ e = .ub
/-- What the map calls report, apart from E_MAP_FULL. -/
def MapCode (e : Err) : Prop :=
  e = .powerLoss ∨ e = .journalFull ∨ e = .tooBad ∨ e = .ecc ∨ e = .ub ∨ e = .diverge
def FullCode (e : Err) : Prop := MapCode e ∨ e = .mapFull

instance (e : Err) : Decidable (ChipCode e) := by unfold ChipCode; infer_instance
instance (k : Bool) (e : Err) : Decidable (WriteCode k e) := by unfold WriteCode; infer_instance
instance (k : Bool) (e : Err) : Decidable (PushCode k e) := by unfold PushCode; infer_instance
instance (k : Bool) (e : Err) : Decidable (DumpCode k e) := by unfold DumpCode; infer_instance
instance (e : Err) : Decidable (ReadCode e) := by unfold ReadCode; infer_instance
instance (e : Err) : Decidable (FindCode e) := by unfold FindCode; infer_instance
instance (e : Err) : Decidable (MapCode e) := by unfold MapCode; infer_instance
instance (e : Err) : Decidable (FullCode e) := by unfold FullCode; infer_instance

theorem nandErase_gv (b : Nat) (n : Nand) : Gives ChipCode (nandErase c b n) := by
  intro e
  unfold nandErase
  split
  · intro h; cases h; decide
  · simp only
    split <;> intro h <;> cases h <;> decide

theorem nandProg_gv (p : Nat) (d : Buf) (n : Nand) : Gives ChipCode (nandProg c p d n) := by
  intro e
  unfold nandProg
  split
  · intro h; cases h; decide
  · simp only
    split <;> intro h <;> cases h <;> decide

theorem chip_write : ∀ e, ChipCode e → WriteCode k e := by intro e; cases k <;> cases e <;> decide
theorem read_write : ∀ e, ReadCode e → WriteCode true e := by intro e; cases e <;> decide

theorem nandCopy_gv (p q : Nat) (n : Nand) : Gives (WriteCode true) (nandCopy c p q n) := by
  unfold nandCopy
  cases h : nandRead c n p 0 c.pageSize with
  | error e => exact gv_of (read_write _ (nandRead_err h))
  | ok b => exact (nandProg_gv _ _ _).mono chip_write

theorem skipBlock_gv (s : S) : Gives (· = .journalFull) (skipBlock c s) := by
  unfold skipBlock
  simp only
  split
  · exact gv_of rfl
  · exact gv_ok

theorem full_write : ∀ e, e = .journalFull → WriteCode k e := by intro e; cases k <;> cases e <;> decide
theorem full_dump : ∀ e, e = .journalFull → DumpCode k e := by intro e; cases k <;> cases e <;> decide
theorem full_push : ∀ e, e = .journalFull → PushCode k e := by intro e; cases k <;> cases e <;> decide

theorem prepareHeadLoop_gv : ∀ i s, Gives (WriteCode k) (prepareHeadLoop c i s) := by
  intro i
  induction i with
  | zero => intro s; exact gv_of (by cases k <;> decide)
  | succ i ih =>
    intro s
    unfold prepareHeadLoop
    simp only
    split
    · exact fun e h => chip_write e (nandErase_gv _ _ e h)
    · have h := skipBlock_gv (c := c) { s with j := { s.j with bbCurrent := s.j.bbCurrent + 1 } }
      rcases hs : skipBlock c { s with j := { s.j with bbCurrent := s.j.bbCurrent + 1 } } with ⟨e | u, s'⟩
      · rw [hs] at h; exact h.mono full_write
      · exact ih _

theorem prepareHead_gv (s : S) : Gives (WriteCode k) (prepareHead c s) := by
  unfold prepareHead
  simp only
  split
  · exact gv_of (by cases k <;> decide)
  · split
    · exact gv_ok
    · exact prepareHeadLoop_gv _ _

theorem progS_gv (p : Nat) (d : Buf) (s : S) : Gives (WriteCode k) (progS c p d s) :=
  fun e h => chip_write e (nandProg_gv _ _ _ e h)

theorem write_dump : ∀ e, WriteCode k e → e ≠ .badBlock → DumpCode k e := by intro e; cases k <;> cases e <;> decide
theorem write_push : ∀ e, WriteCode k e → e ≠ .badBlock → PushCode k e := by intro e; cases k <;> cases e <;> decide
theorem dump_push : ∀ e, DumpCode k e → PushCode k e := by intro e; cases k <;> cases e <;> decide

theorem dumpMetaLoop_gv : ∀ i s, Gives (DumpCode k) (dumpMetaLoop c i s) := by
  intro i
  induction i with
  | zero => intro s; exact gv_of (by cases k <;> decide)
  | succ i ih =>
    intro s
    unfold dumpMetaLoop
    have key : ∀ r : Except Err Unit × S, Gives (WriteCode k) r → Gives (DumpCode k) (match r with
        | (.ok (), s) =>
          (.ok (), { s with j := { (rollIfZero { s.j with recoverMeta := s.j.head, head := nextUpage c s.j.head }) with
            pageBuf := hdrClearUser c (rollIfZero { s.j with recoverMeta := s.j.head, head := nextUpage c s.j.head }).pageBuf } })
        | (.error e, s) =>
          if e ≠ .badBlock then (.error e, s)
          else
            match skipBlock c { s with j := { s.j with bbCurrent := s.j.bbCurrent + 1 }, n := nandMarkBad c (c.blk s.j.head) s.n } with
            | (.error e, s) => (.error e, s)
            | (.ok (), s) => dumpMetaLoop c i s) := by
      rintro ⟨e | u, s'⟩ h
      · simp only
        split
        · rename_i hne; exact gv_of (write_dump _ (gv_err h) hne)
        · have h2 := skipBlock_gv (c := c) { s' with j := { s'.j with bbCurrent := s'.j.bbCurrent + 1 }, n := nandMarkBad c (c.blk s'.j.head) s'.n }
          rcases hs : skipBlock c { s' with j := { s'.j with bbCurrent := s'.j.bbCurrent + 1 }, n := nandMarkBad c (c.blk s'.j.head) s'.n } with ⟨e | u, s2⟩
          · rw [hs] at h2; exact h2.mono full_dump
          · exact ih _
      · exact gv_ok
    have h1 : Gives (WriteCode k) (match prepareHead c s with
        | (.error e, s) => (.error e, s)
        | (.ok (), s) => progS c s.j.head s.j.pageBuf s) := by
      have h := prepareHead_gv (c := c) (k := k) s
      rcases hp : prepareHead c s with ⟨e | u, s'⟩
      · rw [hp] at h; exact h
      · exact progS_gv _ _ _
    exact key _ h1

/-- A push's verdict, together with the state it leaves: E_RECOVER only while recovery is under way. -/
def PushGv (k : Bool) (r : Except Err Unit × S) : Prop := ∀ e, r.1 = .error e → PushCode k e ∧ (e = .recover → r.2.j.recovery = true)

theorem po_ok {s : S} : PushGv k (.ok (), s) := by intro e h; cases h
theorem po_of {e : Err} {s : S} (h : PushCode k e) (h2 : e = .recover → s.j.recovery = true) : PushGv k (.error e, s) := by
  intro e' h'; cases h'; exact ⟨h, h2⟩
theorem po_dump {e : Err} {s : S} (h : DumpCode k e) : PushGv k (.error e, s) :=
  po_of (dump_push _ h) (fun he => by rw [he] at h; exact absurd h (by cases k <;> decide))

theorem recoverFrom_po {e : Err} (he : WriteCode k e) (s : S) : PushGv k (recoverFrom c e s) := by
  unfold recoverFrom
  simp only
  split
  · rename_i hne; exact po_dump (write_dump _ he hne)
  · have h2 := skipBlock_gv (c := c) { s with j := { s.j with bbCurrent := s.j.bbCurrent + 1 } }
    rcases hs : skipBlock c { s with j := { s.j with bbCurrent := s.j.bbCurrent + 1 } } with ⟨e | u, s2⟩
    · rw [hs] at h2; exact po_dump (full_dump _ (h2 e rfl))
    · simp only
      split
      · rename_i hr
        refine po_of (by cases k <;> decide) (fun _ => ?_)
        unfold restartRecovery
        simp only
        split <;> exact hr
      · split
        · exact po_ok
        · have key : ∀ r : Except Err Unit × S, Gives (DumpCode k) r → PushGv k (match r with
              | (.error e, s) => (.error e, s)
              | (.ok (), s) => ((.error .recover, { s with j := { s.j with recovery := true } }) : Except Err Unit × S)) := by
            rintro ⟨e | u, s'⟩ h
            · exact po_dump (gv_err h)
            · exact po_of (by cases k <;> decide) (fun _ => rfl)
          apply key
          split
          · exact dumpMetaLoop_gv _ _
          · exact gv_ok

theorem pushMeta_po (m : Option Buf) (s : S) : PushGv k (pushMeta c m s) := by
  unfold pushMeta
  simp only
  split
  · exact po_ok
  · generalize hs : ({ s with j := fillHeader (bufferMeta c m s.j) } : S) = s1
    have h := progS_gv (c := c) (k := k) (s1.j.head + 1) s1.j.pageBuf s1
    subst hs
    generalize progS c _ _ _ = r at h ⊢
    rcases r with ⟨e | u, s'⟩
    · exact recoverFrom_po (gv_err h) _
    · exact po_ok

theorem pushLoop_po (wr : S → Except Err Unit × S) (hw : ∀ s, Gives (WriteCode k) (wr s)) (m : Option Buf) :
    ∀ i s, PushGv k (pushLoop c wr m i s) := by
  intro i
  induction i with
  | zero => intro s; exact po_dump (by cases k <;> decide)
  | succ i ih =>
    intro s
    unfold pushLoop
    have key : ∀ r : Except Err Unit × S, Gives (WriteCode k) r → PushGv k (match r with
        | (.ok (), s) => pushMeta c m s
        | (.error e, s) =>
          match recoverFrom c e s with
          | (.error e, s) => (.error e, s)
          | (.ok (), s) => pushLoop c wr m i s) := by
      rintro ⟨e | u, s'⟩ h
      · simp only
        have h2 := recoverFrom_po (c := c) (gv_err h) s'
        rcases hs : recoverFrom c e s' with ⟨e | u, s2⟩
        · rw [hs] at h2; exact h2
        · exact ih _
      · exact pushMeta_po _ _
    apply key
    have h := prepareHead_gv (c := c) (k := k) s
    rcases hp : prepareHead c s with ⟨e | u, s'⟩
    · rw [hp] at h; exact h
    · exact hw _

theorem enqueue_po (d m : Option Buf) (s : S) : PushGv k (enqueue c d m s) := by
  apply pushLoop_po
  intro s
  unfold wrData
  cases d with
  | none => exact gv_ok
  | some b => exact progS_gv _ _ _

theorem journalCopy_po (p : Nat) (m : Buf) (s : S) : PushGv true (journalCopy c p m s) :=
  pushLoop_po _ (fun _ => fun e h => nandCopy_gv _ _ _ e h) _ _ _

theorem PushGv.gv {r : Except Err Unit × S} (h : PushGv k r) : Gives (PushCode k) r := fun e he => (h e he).1

theorem read_find : ∀ e, ReadCode e → FindCode e := by intro e; cases e <;> decide
theorem read_push : ∀ e, ReadCode e → PushCode true e := by intro e; cases e <;> decide

theorem traceLoop_gv {s : S} {t : Nat} : ∀ k d p mt nm, Gives FindCode (traceLoop c s t k d p mt nm) := by
  intro k
  induction k with
  | zero => intro d p mt nm; exact gv_ok
  | succ k ih =>
    intro d p mt nm
    unfold traceLoop
    simp only
    split
    · exact gv_of (by decide)
    · split
      · split
        · exact gv_of (by decide)
        · cases h : readMeta c s (metaGetAlt mt d) with
          | error e => exact gv_of (read_find _ (readMeta_err h))
          | ok b => exact ih _ _ _ _
      · exact ih _ _ _ _

theorem tracePath_gv (s : S) (t : Nat) (nm : Buf) : Gives FindCode (tracePath c s t nm) := by
  unfold tracePath
  simp only
  split
  · exact gv_of (by decide)
  · cases h : readMeta c s s.j.root with
    | error e => exact gv_of (read_find _ (readMeta_err h))
    | ok b => exact traceLoop_gv _ _ _ _ _

theorem find_push : ∀ e, FindCode e → e ≠ .notFound → PushCode true e := by intro e; cases e <;> decide
theorem find_map : ∀ e, FindCode e → e ≠ .notFound → MapCode e := by intro e; cases e <;> decide
theorem read_map : ∀ e, ReadCode e → MapCode e := by intro e; cases e <;> decide
theorem push_map : ∀ e, PushCode true e → e ≠ .recover → MapCode e := by intro e; cases e <;> decide
theorem map_full : ∀ e, MapCode e → FullCode e := fun _ h => Or.inl h

theorem rawGc_gv (p : Nat) (s : S) : Gives (PushCode true) (rawGc c p s) := by
  unfold rawGc
  cases h : readMeta c s p with
  | error e => exact gv_of (read_push _ (readMeta_err h))
  | ok b =>
    simp only
    split
    · exact gv_ok
    · have h2 := tracePath_gv (c := c) s (metaGetId b) b
      rcases ht : tracePath c s (metaGetId b) b with ⟨e | q, nm⟩
      · rw [ht] at h2
        cases e <;> first | exact gv_ok | exact gv_of (find_push _ (gv_err h2) (by decide))
      · simp only
        split
        · exact gv_ok
        · exact (journalCopy_po _ _ _).gv

theorem padQueue_gv (s : S) : Gives (PushCode true) (padQueue c s) := by
  unfold padQueue
  simp only
  split
  · exact (enqueue_po _ _ _).gv
  · generalize hr : readMeta c _ s.j.root = r
    cases r with
    | error e => exact gv_of (read_push _ (readMeta_err hr))
    | ok b => exact (journalCopy_po _ _ _).gv

theorem tryRecoverLoop_gv : ∀ f r s, Gives MapCode (tryRecoverLoop c f r s) := by
  intro f
  induction f with
  | zero => intro r s; exact gv_of (by decide)
  | succ f ih =>
    intro r s
    unfold tryRecoverLoop
    simp only
    split
    · exact gv_ok
    · have key : ∀ q : Except Err Unit × S, Gives (PushCode true) q → Gives MapCode (match q with
          | (.ok (), s) => tryRecoverLoop c f r s
          | (.error e, s) =>
            if e ≠ .recover then (.error e, s)
            else if r ≥ 8 then (.error .tooBad, s)
            else tryRecoverLoop c f (r + 1) s) := by
        rintro ⟨e | u, s'⟩ h
        · simp only
          split
          · rename_i hne; exact gv_of (push_map _ (gv_err h) hne)
          · split
            · exact gv_of (by decide)
            · exact ih _ _
        · exact ih _ _
      apply key
      split
      · exact padQueue_gv _
      · exact rawGc_gv _ _

theorem tryRecover_gv {e : Err} (he : PushCode true e) (s : S) : Gives MapCode (tryRecover c e s) := by
  unfold tryRecover
  split
  · rename_i hne; exact gv_of (push_map _ he hne)
  · exact tryRecoverLoop_gv _ _ _

theorem mapGcLoop_gv : ∀ f s, Gives MapCode (mapGcLoop c f s) := by
  intro f
  induction f with
  | zero => intro s; exact gv_of (by decide)
  | succ f ih =>
    intro s
    unfold mapGcLoop
    simp only
    split
    · exact gv_ok
    · have h1 := rawGc_gv (c := c) (peek c s).1 (peek c s).2
      rcases hg : rawGc c (peek c s).1 (peek c s).2 with ⟨e | u, s1⟩
      · rw [hg] at h1
        simp only
        have h2 := tryRecover_gv (c := c) (gv_err h1) s1
        rcases hs : tryRecover c e s1 with ⟨e | u, s2⟩
        · rw [hs] at h2; exact h2
        · exact ih _
      · exact gv_ok

theorem mapGc_gv (s : S) : Gives MapCode (mapGc c s) := by
  unfold mapGc
  split
  · exact gv_ok
  · exact mapGcLoop_gv _ _

theorem gcTimes_gv : ∀ k s, Gives MapCode (gcTimes c k s) := by
  intro k
  induction k with
  | zero => intro s; exact gv_ok
  | succ k ih =>
    intro s
    unfold gcTimes
    have h1 := mapGc_gv (c := c) s
    rcases hg : mapGc c s with ⟨e | u, s1⟩
    · rw [hg] at h1; exact h1
    · exact ih _

theorem autoGc_gv (s : S) : Gives MapCode (autoGc c s) := by
  unfold autoGc
  split
  · exact gv_ok
  · exact gcTimes_gv _ _

theorem prepareWrite_gv (t : Nat) (s : S) : Gives FullCode (prepareWrite c t s) := by
  unfold prepareWrite
  have h1 := autoGc_gv (c := c) s
  rcases hg : autoGc c s with ⟨e | u, s1⟩
  · rw [hg] at h1; exact gv_of (map_full _ (gv_err h1))
  · simp only
    have h2 := tracePath_gv (c := c) s1 t freshMeta
    rcases ht : tracePath c s1 t freshMeta with ⟨e | q, nm⟩
    · rw [ht] at h2
      cases e <;> first
        | exact gv_of (map_full _ (find_map _ (gv_err h2) (by decide)))
        | (simp only
           split
           · exact gv_of (by decide)
           · exact gv_ok)
    · exact gv_ok

theorem writeLoop_gv (t : Nat) (push : Buf → S → Except Err Unit × S) (hp : ∀ m s, Gives (PushCode true) (push m s)) :
    ∀ f s, Gives FullCode (writeLoop c t push f s) := by
  intro f
  induction f with
  | zero => intro s; exact gv_of (by decide)
  | succ f ih =>
    intro s
    unfold writeLoop
    simp only
    have h1 := prepareWrite_gv (c := c) t s
    rcases hg : prepareWrite c t s with ⟨e | m, s1⟩
    · rw [hg] at h1; exact h1.state _
    · simp only
      have h2 := hp m s1
      rcases hd : push m s1 with ⟨e | u, s2⟩
      · rw [hd] at h2
        simp only
        have h3 := tryRecover_gv (c := c) (gv_err h2) { s2 with count := s.count }
        rcases hs : tryRecover c e { s2 with count := s.count } with ⟨e | u, s3⟩
        · rw [hs] at h3; exact h3.mono map_full
        · exact ih _
      · exact gv_ok

theorem tryDelete_gv (t : Nat) (s : S) : Gives (PushCode true) (tryDelete c t s) := by
  unfold tryDelete
  have h2 := tracePath_gv (c := c) s t freshMeta
  rcases ht : tracePath c s t freshMeta with ⟨e | q, nm⟩
  · rw [ht] at h2
    cases e <;> first | exact gv_ok | exact gv_of (find_push _ (gv_err h2) (by decide))
  · simp only
    split
    · exact gv_ok
    · split
      · rename_i hr; exact gv_of (read_push _ (readMeta_err hr))
      · generalize hr : journalCopy c _ _ _ = r
        have : Gives (PushCode true) r := by rw [← hr]; exact (journalCopy_po _ _ _).gv
        rcases r with ⟨e | u, s1⟩
        · exact this
        · exact gv_ok

theorem mapTrimLoop_gv (t : Nat) : ∀ f s, Gives MapCode (mapTrimLoop c t f s) := by
  intro f
  induction f with
  | zero => intro s; exact gv_of (by decide)
  | succ f ih =>
    intro s
    unfold mapTrimLoop
    have h1 := autoGc_gv (c := c) s
    rcases hg : autoGc c s with ⟨e | u, s1⟩
    · rw [hg] at h1; exact h1
    · simp only
      have h2 := tryDelete_gv (c := c) t s1
      rcases hd : tryDelete c t s1 with ⟨e | u, s2⟩
      · rw [hd] at h2
        simp only
        have h3 := tryRecover_gv (c := c) (gv_err h2) s2
        rcases hs : tryRecover c e s2 with ⟨e | u, s3⟩
        · rw [hs] at h3; exact h3
        · exact ih _
      · exact gv_ok

theorem mapSyncLoop_gv : ∀ f s, Gives MapCode (mapSyncLoop c f s) := by
  intro f
  induction f with
  | zero => intro s; exact gv_of (by decide)
  | succ f ih =>
    intro s
    unfold mapSyncLoop
    split
    · exact gv_ok
    · have key : ∀ q : Except Err Unit × S, Gives (PushCode true) q → Gives MapCode (match q with
          | (.ok (), s) => mapSyncLoop c f s
          | (.error e, s) =>
            match tryRecover c e s with
            | (.error e, s) => (.error e, s)
            | (.ok (), s) => mapSyncLoop c f s) := by
        rintro ⟨e | u, s'⟩ h
        · simp only
          have h3 := tryRecover_gv (c := c) (gv_err h) s'
          rcases hs : tryRecover c e s' with ⟨e | u, s3⟩
          · rw [hs] at h3; exact h3
          · exact ih _
        · exact ih _
      apply key
      split
      · exact padQueue_gv _
      · have h1 := rawGc_gv (c := c) (peek c s).1 (peek c s).2
        rcases hg : rawGc c (peek c s).1 (peek c s).2 with ⟨e | u, s1⟩
        · rw [hg] at h1; exact h1
        · exact gv_ok

theorem mapCopyPage_gv (p t : Nat) (s : S) : Gives FullCode (mapCopyPage c p t s) :=
  writeLoop_gv _ _ (fun _ _ => (journalCopy_po _ _ _).gv) _ _

theorem mapCopySector_gv (a t : Nat) (s : S) : Gives FullCode (mapCopySector c a t s) := by
  unfold mapCopySector mapFind
  have h2 := tracePath_gv (c := c) s a freshMeta
  generalize tracePath c s a freshMeta = r at h2 ⊢
  rcases r with ⟨e | q, nm⟩
  · cases e <;> first
      | exact (mapTrimLoop_gv _ _ _).mono map_full
      | exact gv_of (map_full _ (find_map _ (gv_err h2) (by decide)))
  · exact mapCopyPage_gv _ _ _

end Dhara

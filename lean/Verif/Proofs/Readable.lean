/-
If pages left over from failed or interrupted operations can be read, E_ECC means that a read fails at this moment: one pass over all
functions, for any state.
-/
import Verif.Proofs.Codes
namespace Dhara

variable {c : Cfg}

/-- Every page of the chip holds something that can be read. -/
def AR (c : Cfg) (n : Nand) : Prop := ∀ p, p < c.pages → ∃ b, n.chip.page p = some b
/-- Failed and interrupted operations leave readable pages. -/
def JunkRd (c : Cfg) : Prop := ∀ t p, ∃ b, c.env.junk t p = some b
/-- Some page cannot be read at the moment. -/
def RF (c : Cfg) (n : Nand) : Prop := ∃ p, p < c.pages ∧ c.env.readFail n.time p = true

/-- The outcome keeps all pages readable, and is E_ECC only if a read fails. -/
def EO {α : Type} (c : Cfg) (r : Except Err α × S) : Prop := AR c r.2.n ∧ (r.1 = .error .ecc → RF c r.2.n)

theorem eo_ok {α : Type} {a : α} {s : S} (h : AR c s.n) : EO c ((.ok a, s) : Except Err α × S) := ⟨h, fun h => by cases h⟩
theorem eo_ne {α : Type} {e : Err} {s : S} (h : AR c s.n) (he : e ≠ .ecc) : EO c ((.error e, s) : Except Err α × S) :=
  ⟨h, fun h => by cases h; exact absurd rfl he⟩
theorem eo_err {α β : Type} {e : Err} {s s' : S} (h : EO c ((.error e, s) : Except Err α × S)) (hn : s'.n = s.n) : EO c ((.error e, s') : Except Err β × S) :=
  ⟨by show AR c s'.n; rw [hn]; exact h.1, fun he => by show RF c s'.n; rw [hn]; exact h.2 (by cases he; rfl)⟩

theorem nandRead_rf {n : Nand} (h : AR c n) {p off len : Nat} (hr : nandRead c n p off len = .error .ecc) : RF c n := by
  unfold nandRead at hr
  split at hr
  · rename_i hp
    split at hr
    · rename_i hf; exact ⟨p, hp.1, hf⟩
    · obtain ⟨b, hb⟩ := h p hp.1
      rw [hb] at hr; cases hr
  · cases hr

theorem readMeta_rf {s : S} (h : AR c s.n) {p : Nat} (hr : readMeta c s p = .error .ecc) : RF c s.n := by
  unfold readMeta at hr
  simp only at hr
  split at hr
  · split at hr <;> cases hr
  · split at hr <;> exact nandRead_rf h hr

theorem AR.upd {n : Nand} (h : AR c n) {q : Nat} {o : Option Buf} (ho : ∃ b, o = some b) {n' : Nand} (hp : n'.chip.page = upd n.chip.page q o) : AR c n' := by
  intro p hpp
  rw [hp]
  unfold Dhara.upd
  split
  · exact ho
  · exact h p hpp

theorem AR.same {n n' : Nand} (h : AR c n) (hp : n'.chip.page = n.chip.page) : AR c n' := by
  intro p hpp; rw [hp]; exact h p hpp

theorem AR.blk {n n' : Nand} (h : AR c n) {b : Nat} {f : Nat → Option Buf} {P : Nat → Prop} [DecidablePred P] (hf : ∀ p, ∃ b, f p = some b)
    (hp : n'.chip.page = fun p => if P p then f p else n.chip.page p) : AR c n' := by
  intro p hpp
  rw [hp]
  simp only
  split
  · exact hf p
  · exact h p hpp

theorem nandProg_ar (hj : JunkRd c) {n : Nand} (h : AR c n) (p : Nat) (d : Buf) : AR c (nandProg c p d n).2 := by
  unfold nandProg
  split
  · exact h
  · simp only
    split
    · exact h.upd ⟨_, rfl⟩ rfl
    · exact h.upd (hj _ _) rfl
    · exact h.same rfl
    · exact h.upd ⟨_, rfl⟩ rfl
    · exact h.upd (hj _ _) rfl

theorem nandErase_ar (hj : JunkRd c) {n : Nand} (h : AR c n) (b : Nat) : AR c (nandErase c b n).2 := by
  unfold nandErase
  split
  · exact h
  · simp only
    split
    · exact h.blk (b := b) (f := fun _ => some (c.clip Buf.ff)) (fun _ => ⟨_, rfl⟩) rfl
    · exact h.blk (b := b) (f := c.env.junk n.time) (fun _ => hj _ _) rfl
    · exact h.same rfl
    · exact h.blk (b := b) (f := fun _ => some (c.clip Buf.ff)) (fun _ => ⟨_, rfl⟩) rfl
    · exact h.blk (b := b) (f := c.env.junk n.time) (fun _ => hj _ _) rfl

theorem markBad_ar {n : Nand} (h : AR c n) (b : Nat) : AR c (nandMarkBad c b n) := by
  unfold nandMarkBad
  split
  · exact h
  · exact h.same rfl

theorem chip_ecc : ∀ e, ChipCode e → e ≠ .ecc := by intro e; cases e <;> decide

theorem progS_eo (hj : JunkRd c) {s : S} (h : AR c s.n) (p : Nat) (d : Buf) : EO c (progS c p d s) :=
  ⟨nandProg_ar hj h p d, fun he => absurd rfl (chip_ecc _ (nandProg_gv p d s.n _ he))⟩

theorem wrCopy_eo (hj : JunkRd c) {s : S} (h : AR c s.n) (p : Nat) : EO c (wrCopy c p s) := by
  unfold wrCopy nandCopy
  cases hr : nandRead c s.n p 0 c.pageSize with
  | error e => exact ⟨h, fun he => nandRead_rf h (by rw [hr]; cases he; rfl)⟩
  | ok b => exact ⟨nandProg_ar hj h _ _, fun he => absurd rfl (chip_ecc _ (nandProg_gv _ _ s.n _ he))⟩

theorem wrData_eo (hj : JunkRd c) {s : S} (h : AR c s.n) (d : Option Buf) : EO c (wrData c d s) := by
  unfold wrData
  cases d with
  | none => exact eo_ok h
  | some b => exact progS_eo hj h _ _

theorem skipBlock_ar (s : S) : (skipBlock c s).2.n = s.n := by
  unfold skipBlock
  simp only
  split <;> rfl

theorem skipBlock_eo {s : S} (h : AR c s.n) : EO c (skipBlock c s) :=
  ⟨by rw [skipBlock_ar]; exact h, fun he => by cases skipBlock_gv s _ he⟩

theorem prepareHeadLoop_eo (hj : JunkRd c) : ∀ i (s : S), AR c s.n → EO c (prepareHeadLoop c i s) := by
  intro i
  induction i with
  | zero => intro s h; exact eo_ne h (by decide)
  | succ i ih =>
    intro s h
    unfold prepareHeadLoop
    simp only
    split
    · exact ⟨nandErase_ar hj h _, fun he => absurd rfl (chip_ecc _ (nandErase_gv _ s.n _ he))⟩
    · have h1 := skipBlock_eo (c := c) (s := { s with j := { s.j with bbCurrent := s.j.bbCurrent + 1 } }) h
      rcases hs : skipBlock c { s with j := { s.j with bbCurrent := s.j.bbCurrent + 1 } } with ⟨e | u, s'⟩
      · rw [hs] at h1; exact h1
      · rw [hs] at h1; exact ih _ h1.1

theorem prepareHead_eo (hj : JunkRd c) {s : S} (h : AR c s.n) : EO c (prepareHead c s) := by
  unfold prepareHead
  simp only
  split
  · exact eo_ne h (by decide)
  · split
    · exact eo_ok h
    · exact prepareHeadLoop_eo hj _ _ h

theorem dumpMetaLoop_eo (hj : JunkRd c) : ∀ i (s : S), AR c s.n → EO c (dumpMetaLoop c i s) := by
  intro i
  induction i with
  | zero => intro s h; exact eo_ne h (by decide)
  | succ i ih =>
    intro s h
    unfold dumpMetaLoop
    have key : ∀ r : Except Err Unit × S, EO c r → EO c (match r with
        | (.ok (), s) =>
          (.ok (), { s with j := { (rollIfZero { s.j with recoverMeta := s.j.head, head := nextUpage c s.j.head }) with
            pageBuf := hdrClearUser c (rollIfZero { s.j with recoverMeta := s.j.head, head := nextUpage c s.j.head }).pageBuf } })
        | (.error e, s) =>
          if e ≠ .badBlock then (.error e, s)
          else
            match skipBlock c { s with j := { s.j with bbCurrent := s.j.bbCurrent + 1 }, n := nandMarkBad c (c.blk s.j.head) s.n } with
            | (.error e, s) => (.error e, s)
            | (.ok (), s) => dumpMetaLoop c i s) := by
      rintro ⟨e | u, s'⟩ h
      · simp only
        split
        · exact h
        · have h2 := skipBlock_eo (c := c) (s := { s' with j := { s'.j with bbCurrent := s'.j.bbCurrent + 1 }, n := nandMarkBad c (c.blk s'.j.head) s'.n }) (markBad_ar h.1 _)
          rcases hs : skipBlock c { s' with j := { s'.j with bbCurrent := s'.j.bbCurrent + 1 }, n := nandMarkBad c (c.blk s'.j.head) s'.n } with ⟨e | u, s2⟩
          · rw [hs] at h2; exact h2
          · rw [hs] at h2; exact ih _ h2.1
      · exact ⟨h.1, fun h => by cases h⟩
    have h1 : EO c (match prepareHead c s with
        | (.error e, s) => (.error e, s)
        | (.ok (), s) => progS c s.j.head s.j.pageBuf s) := by
      have h := prepareHead_eo hj h
      rcases hp : prepareHead c s with ⟨e | u, s'⟩
      · rw [hp] at h; exact h
      · rw [hp] at h; exact progS_eo hj h.1 _ _
    exact key _ h1

theorem recoverFrom_eo (hj : JunkRd c) {e : Err} {s : S} (h : EO c ((.error e, s) : Except Err Unit × S)) : EO c (recoverFrom c e s) := by
  unfold recoverFrom
  simp only
  split
  · exact h
  · have h2 := skipBlock_eo (c := c) (s := { s with j := { s.j with bbCurrent := s.j.bbCurrent + 1 } }) h.1
    rcases hs : skipBlock c { s with j := { s.j with bbCurrent := s.j.bbCurrent + 1 } } with ⟨e | u, s2⟩
    · rw [hs] at h2; exact h2
    · rw [hs] at h2
      simp only
      split
      · refine eo_ne ?_ (by decide)
        unfold restartRecovery
        simp only
        split
        · exact markBad_ar h2.1 _
        · exact h2.1
      · split
        · exact eo_ok (markBad_ar h2.1 _)
        · have key : ∀ r : Except Err Unit × S, EO c r → EO c (match r with
              | (.error e, s) => (.error e, s)
              | (.ok (), s) => ((.error .recover, { s with j := { s.j with recovery := true } }) : Except Err Unit × S)) := by
            rintro ⟨e | u, s'⟩ h
            · exact h
            · exact eo_ne h.1 (by decide)
          apply key
          split
          · exact dumpMetaLoop_eo hj _ _ h2.1
          · exact eo_ok h2.1

theorem finishRecovery_ar {s : S} (h : AR c s.n) : AR c (finishRecovery c s).n := by
  unfold finishRecovery
  simp only
  split
  · exact markBad_ar (markBad_ar h _) _
  · exact markBad_ar h _

theorem commitPush_ar {s : S} (h : AR c s.n) (q : Nat) : AR c (commitPush c q s).n := by
  unfold commitPush
  simp only
  split <;> split <;> first | exact finishRecovery_ar h | exact h

theorem pushMeta_eo (hj : JunkRd c) {s : S} (h : AR c s.n) (m : Option Buf) : EO c (pushMeta c m s) := by
  unfold pushMeta
  simp only
  split
  · exact ⟨h, fun h => by cases h⟩
  · generalize hs : ({ s with j := fillHeader (bufferMeta c m s.j) } : S) = s1
    have h := progS_eo hj (s := s1) (by rw [← hs]; exact h) (s1.j.head + 1) s1.j.pageBuf
    subst hs
    generalize progS c _ _ _ = r at h ⊢
    rcases r with ⟨e | u, s'⟩
    · exact recoverFrom_eo hj h
    · exact eo_ok (commitPush_ar h.1 _)

theorem pushLoop_eo (hj : JunkRd c) (wr : S → Except Err Unit × S) (hw : ∀ s, AR c s.n → EO c (wr s)) (m : Option Buf) :
    ∀ i (s : S), AR c s.n → EO c (pushLoop c wr m i s) := by
  intro i
  induction i with
  | zero => intro s h; exact eo_ne h (by decide)
  | succ i ih =>
    intro s h
    unfold pushLoop
    have key : ∀ r : Except Err Unit × S, EO c r → EO c (match r with
        | (.ok (), s) => pushMeta c m s
        | (.error e, s) =>
          match recoverFrom c e s with
          | (.error e, s) => (.error e, s)
          | (.ok (), s) => pushLoop c wr m i s) := by
      rintro ⟨e | u, s'⟩ h
      · simp only
        have h2 := recoverFrom_eo hj h
        rcases hs : recoverFrom c e s' with ⟨e | u, s2⟩
        · rw [hs] at h2; exact h2
        · rw [hs] at h2; exact ih _ h2.1
      · exact pushMeta_eo hj h.1 _
    apply key
    have h := prepareHead_eo hj h
    rcases hp : prepareHead c s with ⟨e | u, s'⟩
    · rw [hp] at h; exact h
    · rw [hp] at h; exact hw _ h.1

theorem enqueue_eo (hj : JunkRd c) (d m : Option Buf) {s : S} (h : AR c s.n) : EO c (enqueue c d m s) :=
  pushLoop_eo hj _ (fun _ h => wrData_eo hj h _) _ _ _ h

theorem journalCopy_eo (hj : JunkRd c) (p : Nat) (m : Buf) {s : S} (h : AR c s.n) : EO c (journalCopy c p m s) :=
  pushLoop_eo hj _ (fun _ h => wrCopy_eo hj h _) _ _ _ h

/-- The same for functions that only read. -/
def EQ {α β : Type} (c : Cfg) (n : Nand) (r : Except Err α × β) : Prop := r.1 = .error .ecc → RF c n

theorem traceLoop_eq {s : S} (h : AR c s.n) {t : Nat} : ∀ k d p mt nm, EQ c s.n (traceLoop c s t k d p mt nm) := by
  intro k
  induction k with
  | zero => intro d p mt nm he; cases he
  | succ k ih =>
    intro d p mt nm
    unfold traceLoop
    simp only
    split
    · intro he; cases he
    · split
      · split
        · intro he; cases he
        · cases hr : readMeta c s (metaGetAlt mt d) with
          | error e => exact fun he => readMeta_rf h (by rw [hr]; exact congrArg _ (by cases he; rfl))
          | ok b => exact ih _ _ _ _
      · exact ih _ _ _ _

theorem tracePath_eq {s : S} (h : AR c s.n) (t : Nat) (nm : Buf) : EQ c s.n (tracePath c s t nm) := by
  unfold tracePath
  simp only
  split
  · intro he; cases he
  · cases hr : readMeta c s s.j.root with
    | error e => exact fun he => readMeta_rf h (by rw [hr]; exact congrArg _ (by cases he; rfl))
    | ok b => exact traceLoop_eq h _ _ _ _ _

theorem eo_read {s : S} (h : AR c s.n) {p : Nat} {e : Err} (hr : readMeta c s p = .error e) {s' : S} (hn : s'.n = s.n) {α : Type} :
    EO c ((.error e, s') : Except Err α × S) :=
  ⟨by show AR c s'.n; rw [hn]; exact h, fun he => by show RF c s'.n; rw [hn]; exact readMeta_rf h (by rw [hr]; exact congrArg _ (by cases he; rfl))⟩

theorem eo_trace {s : S} (h : AR c s.n) {e : Err} {α β γ : Type} {b : β} (hq : EQ c s.n ((.error e, b) : Except Err α × β)) :
    EO c ((.error e, s) : Except Err γ × S) := ⟨h, fun he => hq (by cases he; rfl)⟩

theorem rawGc_eo (hj : JunkRd c) (p : Nat) {s : S} (h : AR c s.n) : EO c (rawGc c p s) := by
  unfold rawGc
  cases hr : readMeta c s p with
  | error e => exact eo_read h hr rfl
  | ok b =>
    simp only
    split
    · exact eo_ok h
    · have h2 := tracePath_eq h (metaGetId b) b
      rcases ht : tracePath c s (metaGetId b) b with ⟨e | q, nm⟩
      · rw [ht] at h2
        cases e <;> first | exact eo_ok h | exact eo_trace h h2
      · simp only
        split
        · exact eo_ok h
        · exact journalCopy_eo hj _ _ h

theorem padQueue_eo (hj : JunkRd c) {s : S} (h : AR c s.n) : EO c (padQueue c s) := by
  unfold padQueue
  simp only
  split
  · exact enqueue_eo hj _ _ h
  · generalize hs : ({ s with j := ckSetCount s.j s.count } : S) = s1
    have h1 : AR c s1.n := by rw [← hs]; exact h
    cases hr : readMeta c s1 s.j.root with
    | error e => exact eo_read h1 hr rfl
    | ok b => exact journalCopy_eo hj _ _ h1

theorem nextRec_n (s : S) : (nextRecoverable c s).2.n = s.n := by
  unfold nextRecoverable
  simp only
  split
  · rfl
  · split
    · rfl
    · split <;> rfl

theorem peekLoop_n : ∀ i b (s : S), (peekLoop c i b s).2.n = s.n := by
  intro i
  induction i with
  | zero => intro b s; rfl
  | succ i ih =>
    intro b s
    unfold peekLoop
    split
    · rfl
    · exact ih _ _

theorem peek_n (s : S) : (peek c s).2.n = s.n := by
  unfold peek
  split
  · rfl
  · split
    · exact peekLoop_n _ _ _
    · rfl

theorem dequeue_n (s : S) : (dequeue c s).n = s.n := by
  unfold dequeue
  split
  · rfl
  · simp only

theorem tryRecoverLoop_eo (hj : JunkRd c) : ∀ f r (s : S), AR c s.n → EO c (tryRecoverLoop c f r s) := by
  intro f
  induction f with
  | zero => intro r s h; exact eo_ne h (by decide)
  | succ f ih =>
    intro r s h
    unfold tryRecoverLoop
    simp only
    split
    · exact eo_ok h
    · have key : ∀ q : Except Err Unit × S, EO c q → EO c (match q with
          | (.ok (), s) => tryRecoverLoop c f r s
          | (.error e, s) =>
            if e ≠ .recover then (.error e, s)
            else if r ≥ 8 then (.error .tooBad, s)
            else tryRecoverLoop c f (r + 1) s) := by
        rintro ⟨e | u, s'⟩ h
        · simp only
          split
          · exact h
          · split
            · exact eo_ne h.1 (by decide)
            · exact ih _ _ h.1
        · exact ih _ _ h.1
      apply key
      have h' : AR c (nextRecoverable c s).2.n := by rw [nextRec_n]; exact h
      split
      · exact padQueue_eo hj h'
      · exact rawGc_eo hj _ h'

theorem tryRecover_eo (hj : JunkRd c) {e : Err} {s : S} (h : EO c ((.error e, s) : Except Err Unit × S)) : EO c (tryRecover c e s) := by
  unfold tryRecover
  split
  · exact h
  · exact tryRecoverLoop_eo hj _ _ _ h.1

theorem mapGcLoop_eo (hj : JunkRd c) : ∀ f (s : S), AR c s.n → EO c (mapGcLoop c f s) := by
  intro f
  induction f with
  | zero => intro s h; exact eo_ne h (by decide)
  | succ f ih =>
    intro s h
    have h' : AR c (peek c s).2.n := by rw [peek_n]; exact h
    unfold mapGcLoop
    simp only
    split
    · exact eo_ok h'
    · have h1 := rawGc_eo hj (peek c s).1 h'
      rcases hg : rawGc c (peek c s).1 (peek c s).2 with ⟨e | u, s1⟩
      · rw [hg] at h1
        simp only
        have h2 := tryRecover_eo hj h1
        rcases hs : tryRecover c e s1 with ⟨e | u, s2⟩
        · rw [hs] at h2; exact h2
        · rw [hs] at h2; exact ih _ h2.1
      · rw [hg] at h1; exact eo_ok (by rw [dequeue_n]; exact h1.1)

theorem mapGc_eo (hj : JunkRd c) {s : S} (h : AR c s.n) : EO c (mapGc c s) := by
  unfold mapGc
  split
  · exact eo_ok h
  · exact mapGcLoop_eo hj _ _ h

theorem gcTimes_eo (hj : JunkRd c) : ∀ k (s : S), AR c s.n → EO c (gcTimes c k s) := by
  intro k
  induction k with
  | zero => intro s h; exact eo_ok h
  | succ k ih =>
    intro s h
    unfold gcTimes
    have h1 := mapGc_eo hj h
    rcases hg : mapGc c s with ⟨e | u, s1⟩
    · rw [hg] at h1; exact h1
    · rw [hg] at h1; exact ih _ h1.1

theorem autoGc_eo (hj : JunkRd c) {s : S} (h : AR c s.n) : EO c (autoGc c s) := by
  unfold autoGc
  split
  · exact eo_ok h
  · exact gcTimes_eo hj _ _ h

theorem prepareWrite_eo (hj : JunkRd c) (t : Nat) {s : S} (h : AR c s.n) : EO c (prepareWrite c t s) := by
  unfold prepareWrite
  have h1 := autoGc_eo hj h
  rcases hg : autoGc c s with ⟨e | u, s1⟩
  · rw [hg] at h1; exact eo_err h1 rfl
  · rw [hg] at h1
    simp only
    have h2 := tracePath_eq h1.1 t freshMeta
    rcases ht : tracePath c s1 t freshMeta with ⟨e | q, nm⟩
    · rw [ht] at h2
      cases e <;> first
        | (simp only
           split
           · exact eo_ne h1.1 (by decide)
           · exact ⟨h1.1, fun h => by cases h⟩)
        | exact eo_trace h1.1 h2
    · exact ⟨h1.1, fun h => by cases h⟩

theorem writeLoop_eo (hj : JunkRd c) (t : Nat) (push : Buf → S → Except Err Unit × S) (hp : ∀ m s, AR c s.n → EO c (push m s)) :
    ∀ f (s : S), AR c s.n → EO c (writeLoop c t push f s) := by
  intro f
  induction f with
  | zero => intro s h; exact eo_ne h (by decide)
  | succ f ih =>
    intro s h
    unfold writeLoop
    simp only
    have h1 := prepareWrite_eo hj t h
    rcases hg : prepareWrite c t s with ⟨e | m, s1⟩
    · rw [hg] at h1; exact eo_err h1 rfl
    · rw [hg] at h1
      simp only
      have h2 := hp m s1 h1.1
      rcases hd : push m s1 with ⟨e | u, s2⟩
      · rw [hd] at h2
        simp only
        have h3 := tryRecover_eo hj (s := { s2 with count := s.count }) (eo_err h2 rfl)
        rcases hs : tryRecover c e { s2 with count := s.count } with ⟨e | u, s3⟩
        · rw [hs] at h3; exact h3
        · rw [hs] at h3; exact ih _ h3.1
      · rw [hd] at h2; exact h2

theorem tryDelete_eo (hj : JunkRd c) (t : Nat) {s : S} (h : AR c s.n) : EO c (tryDelete c t s) := by
  unfold tryDelete
  have h2 := tracePath_eq h t freshMeta
  rcases ht : tracePath c s t freshMeta with ⟨e | q, nm⟩
  · rw [ht] at h2
    cases e <;> first | exact eo_ok h | exact eo_trace h h2
  · simp only
    split
    · exact ⟨h, fun h => by cases h⟩
    · split
      · rename_i hr; exact eo_read h hr rfl
      · generalize hr : journalCopy c _ _ _ = r
        have : EO c r := by rw [← hr]; exact journalCopy_eo hj _ _ h
        rcases r with ⟨e | u, s1⟩
        · exact this
        · exact eo_ok this.1

theorem mapTrimLoop_eo (hj : JunkRd c) (t : Nat) : ∀ f (s : S), AR c s.n → EO c (mapTrimLoop c t f s) := by
  intro f
  induction f with
  | zero => intro s h; exact eo_ne h (by decide)
  | succ f ih =>
    intro s h
    unfold mapTrimLoop
    have h1 := autoGc_eo hj h
    rcases hg : autoGc c s with ⟨e | u, s1⟩
    · rw [hg] at h1; exact h1
    · rw [hg] at h1
      simp only
      have h2 := tryDelete_eo hj t h1.1
      rcases hd : tryDelete c t s1 with ⟨e | u, s2⟩
      · rw [hd] at h2
        simp only
        have h3 := tryRecover_eo hj h2
        rcases hs : tryRecover c e s2 with ⟨e | u, s3⟩
        · rw [hs] at h3; exact h3
        · rw [hs] at h3; exact ih _ h3.1
      · rw [hd] at h2; exact h2

theorem mapSyncLoop_eo (hj : JunkRd c) : ∀ f (s : S), AR c s.n → EO c (mapSyncLoop c f s) := by
  intro f
  induction f with
  | zero => intro s h; exact eo_ne h (by decide)
  | succ f ih =>
    intro s h
    have h' : AR c (peek c s).2.n := by rw [peek_n]; exact h
    unfold mapSyncLoop
    split
    · exact eo_ok h
    · have key : ∀ q : Except Err Unit × S, EO c q → EO c (match q with
          | (.ok (), s) => mapSyncLoop c f s
          | (.error e, s) =>
            match tryRecover c e s with
            | (.error e, s) => (.error e, s)
            | (.ok (), s) => mapSyncLoop c f s) := by
        rintro ⟨e | u, s'⟩ h
        · simp only
          have h3 := tryRecover_eo hj h
          rcases hs : tryRecover c e s' with ⟨e | u, s3⟩
          · rw [hs] at h3; exact h3
          · rw [hs] at h3; exact ih _ h3.1
        · exact ih _ h.1
      apply key
      split
      · exact padQueue_eo hj h'
      · have h1 := rawGc_eo hj (peek c s).1 h'
        rcases hg : rawGc c (peek c s).1 (peek c s).2 with ⟨e | u, s1⟩
        · rw [hg] at h1; exact h1
        · rw [hg] at h1; exact eo_ok (by rw [dequeue_n]; exact h1.1)

theorem call_eo (hj : JunkRd c) (op : Op) {s : S} (h : AR c s.n) : EO c (call c op s) := by
  cases op with
  | write t d => exact writeLoop_eo hj _ _ (fun _ _ h => enqueue_eo hj _ _ h) _ _ h
  | copyPage p t => exact writeLoop_eo hj _ _ (fun _ _ h => journalCopy_eo hj _ _ h) _ _ h
  | copySector a t =>
    show EO c (mapCopySector c a t s)
    unfold mapCopySector mapFind
    have h2 := tracePath_eq h a freshMeta
    generalize tracePath c s a freshMeta = r at h2 ⊢
    rcases r with ⟨e | q, nm⟩
    · cases e <;> first | exact mapTrimLoop_eo hj _ _ _ h | exact eo_trace h h2
    · exact writeLoop_eo hj _ _ (fun _ _ h => journalCopy_eo hj _ _ h) _ _ h
  | trim t => exact mapTrimLoop_eo hj _ _ _ h
  | clear =>
    refine ⟨?_, fun h => by cases h⟩
    show AR c (mapClear c s).n
    unfold mapClear journalClear
    split <;> exact h
  | sync => exact mapSyncLoop_eo hj _ _ h
  | gc => exact mapGc_eo hj h

end Dhara

/-
When no program or erase fails no recovery begins; when nothing at all goes wrong on the chip, no read, program or erase
reports an error (except reads off the chip). One pass over the code: dhara/journal.c:598-866, dhara/map.c:155-530.
-/
import Verif.Proofs.Full
import Verif.Proofs.Evo
namespace Dhara

variable {c : Cfg} {Q : Prop}

/-- No recovery is going on; if `Q` (nothing goes wrong), all pages can be read and the power is on. -/
structure OKS (Q : Prop) (s : S) : Prop where
  rd : Q → Readable s.n
  on : Q → s.n.dead = false
  nr : s.j.recovery = false

/-- Errors that are the chip's fault. -/
def Chip4 (e : Err) : Prop := e = .ecc ∨ e = .powerLoss ∨ e = .badBlock ∨ e = .recover

instance (e : Err) : Decidable (Chip4 e) := by unfold Chip4; infer_instance

/-- Errors that do not occur when no program or erase fails or, if `Q`, when nothing goes wrong. -/
def Chippy (Q : Prop) (e : Err) : Prop := e = .badBlock ∨ e = .recover ∨ (Q ∧ (e = .ecc ∨ e = .powerLoss))

theorem nc {e : Err} (h : ¬ Chip4 e) : ¬ Chippy Q e := by
  rintro (h1 | h1 | ⟨_, h1 | h1⟩) <;> exact h (by subst h1; decide)

/-- The chip's good order. -/
structure Good (c : Cfg) (Q : Prop) : Prop where
  h : Healthy c
  f : Q → Faultless c

/-- All is still well and the error, if any, is not the chip's fault. -/
structure FO (Q : Prop) {α : Type} (r : Except Err α × S) : Prop where
  ok : OKS Q r.2
  er : ∀ e, r.1 = .error e → ¬ Chippy Q e

theorem FO.of {α : Type} {a : α} {s : S} (h : OKS Q s) : FO Q ((.ok a, s) : Except Err α × S) := ⟨h, fun _ h => by cases h⟩
theorem FO.err {α : Type} {e : Err} {s : S} (h : OKS Q s) (he : ¬ Chippy Q e) : FO Q ((.error e, s) : Except Err α × S) :=
  ⟨h, fun _ h => by cases h; exact he⟩

theorem nandProg_good (hF : Good c Q) {p : Nat} {d : Buf} {n : Nand} (hr : Q → Readable n) (hd : Q → n.dead = false) :
    (∀ e, (nandProg c p d n).1 = .error e → ¬ Chippy Q e) ∧ (Q → Readable (nandProg c p d n).2) ∧ (Q → (nandProg c p d n).2.dead = false) := by
  have hh := (hF.h n.time).1
  refine ⟨?_, fun q => (nandProg_evo (c := c) p d n).read (hF.f q) (hr q), ?_⟩
  · intro e h
    have he : e = .powerLoss ∧ (Q → False) := by
      unfold nandProg at h
      split at h
      · rename_i hx; cases h; exact ⟨rfl, fun q => by rw [hd q] at hx; cases hx⟩
      · simp only at h
        split at h
        · cases h
        · rename_i hx; exact absurd hx hh
        all_goals (rename_i hx; cases h; exact ⟨rfl, fun q => by rw [((hF.f q) n.time).1] at hx; cases hx⟩)
    rintro (h1 | h1 | ⟨q, _⟩)
    · rw [he.1] at h1; cases h1
    · rw [he.1] at h1; cases h1
    · exact he.2 q
  · intro q
    unfold nandProg
    rw [if_neg (by simp [hd q])]
    simp only
    rw [((hF.f q) n.time).1]
    exact hd q

theorem nandErase_good (hF : Good c Q) {b : Nat} {n : Nand} (hr : Q → Readable n) (hd : Q → n.dead = false) :
    (∀ e, (nandErase c b n).1 = .error e → ¬ Chippy Q e) ∧ (Q → Readable (nandErase c b n).2) ∧ (Q → (nandErase c b n).2.dead = false) := by
  have hh := (hF.h n.time).2
  refine ⟨?_, fun q => (nandErase_evo (c := c) b n).read (hF.f q) (hr q), ?_⟩
  · intro e h
    have he : e = .powerLoss ∧ (Q → False) := by
      unfold nandErase at h
      split at h
      · rename_i hx; cases h; exact ⟨rfl, fun q => by rw [hd q] at hx; cases hx⟩
      · simp only at h
        split at h
        · cases h
        · rename_i hx; exact absurd hx hh
        all_goals (rename_i hx; cases h; exact ⟨rfl, fun q => by rw [((hF.f q) n.time).2.1] at hx; cases hx⟩)
    rintro (h1 | h1 | ⟨q, _⟩)
    · rw [he.1] at h1; cases h1
    · rw [he.1] at h1; cases h1
    · exact he.2 q
  · intro q
    unfold nandErase
    rw [if_neg (by simp [hd q])]
    simp only
    rw [((hF.f q) n.time).2.1]
    exact hd q

theorem nandRead_good (hF : Good c Q) {n : Nand} (hr : Q → Readable n) {p off len : Nat} {e : Err} (h : nandRead c n p off len = .error e) :
    ¬ Chippy Q e := by
  unfold nandRead at h
  split at h
  · have he : e = .ecc ∧ (Q → False) := by
      split at h
      · rename_i hx
        cases h
        exact ⟨rfl, fun q => by rw [((hF.f q) n.time).2.2 p] at hx; cases hx⟩
      · split at h
        · rename_i hp; cases h; exact ⟨rfl, fun q => hr q p hp⟩
        · cases h
    rintro (h1 | h1 | ⟨q, _⟩)
    · rw [he.1] at h1; cases h1
    · rw [he.1] at h1; cases h1
    · exact he.2 q
  · cases h; exact nc (by decide)

theorem readMeta_faultless (hF : Good c Q) {s : S} (hs : OKS Q s) {p : Nat} {e : Err} (h : readMeta c s p = .error e) : ¬ Chippy Q e := by
  unfold readMeta at h
  simp only at h
  split at h
  · split at h
    · cases h
    · cases h; exact nc (by decide)
  · split at h <;> exact nandRead_good hF hs.rd h

theorem progS_faultless (hF : Good c Q) (p : Nat) (d : Buf) {s : S} (h : OKS Q s) : FO Q (progS c p d s) := by
  obtain ⟨h1, h2, h3⟩ := nandProg_good hF (p := p) (d := d) h.rd h.on
  exact ⟨⟨h2, h3, h.nr⟩, h1⟩

theorem OKS.roll {s : S} (h : OKS Q s) {j : Journal} (hj : j.recovery = false) : OKS Q { s with j := rollIfZero j } := by
  refine ⟨h.rd, h.on, ?_⟩
  unfold rollIfZero
  split
  · exact hj
  · exact hj

theorem skipBlock_faultless {s : S} (h : OKS Q s) : FO Q (skipBlock c s) := by
  unfold skipBlock
  simp only
  split
  · exact .err h (nc (by decide))
  · exact .of (h.roll h.nr)

theorem prepareHeadLoop_faultless (hF : Good c Q) : ∀ i (s : S), OKS Q s → FO Q (prepareHeadLoop c i s) := by
  intro i
  induction i with
  | zero => intro s h; exact .err h (nc (by decide))
  | succ i ih =>
    intro s h
    unfold prepareHeadLoop
    simp only
    split
    · obtain ⟨h1, h2, h3⟩ := nandErase_good hF (b := c.blk s.j.head) h.rd h.on
      exact ⟨⟨h2, h3, h.nr⟩, h1⟩
    · have hk := skipBlock_faultless (c := c) (s := { s with j := { s.j with bbCurrent := s.j.bbCurrent + 1 } }) ⟨h.rd, h.on, h.nr⟩
      rcases hs : skipBlock c { s with j := { s.j with bbCurrent := s.j.bbCurrent + 1 } } with ⟨e | u, s'⟩
      · rw [hs] at hk; exact hk
      · rw [hs] at hk; exact ih _ hk.ok

theorem prepareHead_faultless (hF : Good c Q) {s : S} (h : OKS Q s) : FO Q (prepareHead c s) := by
  unfold prepareHead
  simp only
  split
  · exact .err h (nc (by decide))
  · split
    · exact .of ⟨h.rd, h.on, h.nr⟩
    · exact prepareHeadLoop_faultless hF _ _ ⟨h.rd, h.on, h.nr⟩

theorem recoverFrom_faultless {e : Err} (he : ¬ Chippy Q e) {s : S} (h : OKS Q s) : FO Q (recoverFrom c e s) := by
  unfold recoverFrom
  simp only
  rw [if_pos (fun hh => he (by rw [hh]; first | exact Or.inl rfl | exact Or.inr (Or.inl rfl)))]
  exact .err h he

theorem finish_ok {s : S} (h : OKS Q s) : OKS Q (finishRecovery c s) := by
  have hm : ∀ b n, (Q → Readable n) → (Q → n.dead = false) → (Q → Readable (nandMarkBad c b n)) ∧ (Q → (nandMarkBad c b n).dead = false) := by
    intro b n h1 h2
    unfold nandMarkBad
    split
    · exact ⟨h1, h2⟩
    · exact ⟨h1, h2⟩
  obtain ⟨a1, a2⟩ := hm (c.blk s.j.recoverRoot) s.n h.rd h.on
  unfold finishRecovery
  simp only
  split
  · obtain ⟨b1, b2⟩ := hm (c.blk s.j.recoverMeta) _ a1 a2
    exact ⟨b1, b2, rfl⟩
  · exact ⟨a1, a2, rfl⟩

theorem commit_ok {s : S} (h : OKS Q s) (p : Nat) : OKS Q (commitPush c p s) := by
  unfold commitPush
  simp only
  have h1 : OKS Q { s with j := rollIfZero { s.j with dirty := false, root := p, head := nextUpage c s.j.head } } := h.roll h.nr
  generalize ({ s with j := rollIfZero { s.j with dirty := false, root := p, head := nextUpage c s.j.head } } : S) = s1 at h1 ⊢
  have key : ∀ s2, OKS Q s2 → OKS Q (if ¬ s2.j.recovery = true then { s2 with j := { s2.j with tailSync := s2.j.tail } } else s2) := by
    intro s2 h2
    split
    · exact ⟨h2.rd, h2.on, h2.nr⟩
    · exact h2
  split
  · exact key _ (finish_ok h1)
  · exact key _ h1

theorem bufferMeta_rec (m : Option Buf) (j : Journal) : (bufferMeta c m j).recovery = j.recovery := by
  unfold bufferMeta; cases m <;> rfl

theorem pushMeta_faultless (hF : Good c Q) (m : Option Buf) {s : S} (h : OKS Q s) : FO Q (pushMeta c m s) := by
  have hb : (bufferMeta c m s.j).recovery = false := (bufferMeta_rec m s.j).trans h.nr
  unfold pushMeta
  simp only
  split
  · exact .of ⟨h.rd, h.on, hb⟩
  · have hk := progS_faultless hF ((fillHeader (bufferMeta c m s.j)).head + 1) (fillHeader (bufferMeta c m s.j)).pageBuf
      (s := { s with j := fillHeader (bufferMeta c m s.j) }) ⟨h.rd, h.on, hb⟩
    have : ∀ r : Except Err Unit × S, FO Q r → FO Q (match r with
        | (.error e, s) => recoverFrom c e s
        | (.ok (), s') => ((.ok (), commitPush c s.j.head s') : Except Err Unit × S)) := by
      rintro ⟨e | u, s'⟩ h2
      · exact recoverFrom_faultless (h2.er e rfl) h2.ok
      · exact .of (commit_ok h2.ok _)
    exact this _ hk

/-- What is needed of the page write of a push. -/
def WrF (Q : Prop) (wr : S → Except Err Unit × S) : Prop := ∀ s, OKS Q s → FO Q (wr s)

theorem wrData_faultless (hF : Good c Q) (d : Option Buf) : WrF Q (wrData c d) := by
  intro s h
  cases d with
  | none => exact .of h
  | some b => exact progS_faultless hF s.j.head b h

theorem wrCopy_faultless (hF : Good c Q) (p : Nat) : WrF Q (wrCopy c p) := by
  intro s h
  unfold wrCopy nandCopy
  cases hr : nandRead c s.n p 0 c.pageSize with
  | error e => exact .err h (nandRead_good hF h.rd hr)
  | ok b =>
    obtain ⟨h1, h2, h3⟩ := nandProg_good hF (p := s.j.head) (d := b) h.rd h.on
    exact ⟨⟨h2, h3, h.nr⟩, h1⟩

theorem pushLoop_faultless (hF : Good c Q) {wr : S → Except Err Unit × S} (hw : WrF Q wr) (m : Option Buf) :
    ∀ i s, OKS Q s → FO Q (pushLoop c wr m i s) := by
  intro i
  induction i with
  | zero => intro s h; exact .err h (nc (by decide))
  | succ i ih =>
    intro s h
    unfold pushLoop
    have key : ∀ r : Except Err Unit × S, FO Q r → FO Q (match r with
        | (.ok (), s) => pushMeta c m s
        | (.error e, s) =>
          match recoverFrom c e s with
          | (.error e, s) => (.error e, s)
          | (.ok (), s) => pushLoop c wr m i s) := by
      rintro ⟨e | u, s'⟩ h
      · simp only
        have h2 := recoverFrom_faultless (c := c) (h.er e rfl) h.ok
        rcases hs : recoverFrom c e s' with ⟨e | u, s2⟩
        · rw [hs] at h2; exact h2
        · rw [hs] at h2; exact ih _ h2.ok
      · exact pushMeta_faultless hF _ h.ok
    apply key
    have h1 := prepareHead_faultless hF h
    rcases hp : prepareHead c s with ⟨e | u, s'⟩
    · rw [hp] at h1; exact h1
    · rw [hp] at h1; exact hw _ h1.ok

theorem journalCopy_faultless (hF : Good c Q) (p : Nat) (m : Buf) {s : S} (h : OKS Q s) : FO Q (journalCopy c p m s) :=
  pushLoop_faultless hF (wrCopy_faultless hF p) _ _ _ h

theorem traceLoop_faultless (hF : Good c Q) {s : S} (hs : OKS Q s) {t : Nat} : ∀ k d p mt nm e,
    (traceLoop c s t k d p mt nm).1 = .error e → ¬ Chippy Q e := by
  intro k
  induction k with
  | zero => intro d p mt nm e h; cases h
  | succ k ih =>
    intro d p mt nm e h
    unfold traceLoop at h
    simp only at h
    split at h
    · cases h; exact nc (by decide)
    · split at h
      · split at h
        · cases h; exact nc (by decide)
        · split at h
          · rename_i hr; cases h; exact readMeta_faultless hF hs hr
          · exact ih _ _ _ _ _ h
      · exact ih _ _ _ _ _ h

theorem tracePath_faultless (hF : Good c Q) {s : S} (hs : OKS Q s) (t : Nat) (nm : Buf) {e : Err} (h : (tracePath c s t nm).1 = .error e) :
    ¬ Chippy Q e := by
  unfold tracePath at h
  simp only at h
  split at h
  · cases h; exact nc (by decide)
  · split at h
    · rename_i hr; cases h; exact readMeta_faultless hF hs hr
    · exact traceLoop_faultless hF hs _ _ _ _ _ _ h

theorem OKS.ck {s : S} (h : OKS Q s) (k : Nat) : OKS Q { s with j := ckSetCount s.j k } := ⟨h.rd, h.on, h.nr⟩

theorem rawGc_faultless (hF : Good c Q) (p : Nat) {s : S} (h : OKS Q s) : FO Q (rawGc c p s) := by
  unfold rawGc
  cases hr : readMeta c s p with
  | error e => exact .err h (readMeta_faultless hF h hr)
  | ok b =>
    simp only
    split
    · exact .of h
    · have h2 := fun e => tracePath_faultless hF h (metaGetId b) b (e := e)
      rcases ht : tracePath c s (metaGetId b) b with ⟨e | q, nm⟩
      · rw [ht] at h2
        have h2 := h2 e rfl
        cases e <;> first | exact .of h | exact .err h h2
      · simp only
        split
        · exact .of h
        · exact journalCopy_faultless hF _ _ (h.ck _)

theorem padQueue_faultless (hF : Good c Q) {s : S} (h : OKS Q s) : FO Q (padQueue c s) := by
  unfold padQueue
  simp only
  split
  · exact pushLoop_faultless hF (wrData_faultless hF _) _ _ _ (h.ck _)
  · generalize hr : readMeta c _ s.j.root = r
    cases r with
    | error e => exact .err (h.ck _) (readMeta_faultless hF (h.ck _) hr)
    | ok b => exact journalCopy_faultless hF _ _ (h.ck _)

theorem tryRecover_faultless {e : Err} (he : ¬ Chippy Q e) {s : S} (h : OKS Q s) : FO Q (tryRecover c e s) := by
  unfold tryRecover
  rw [if_pos (fun hh => he (by rw [hh]; first | exact Or.inl rfl | exact Or.inr (Or.inl rfl)))]
  exact .err h he

theorem peek_ok {s : S} (h : OKS Q s) : OKS Q (peek c s).2 := by
  have hl : ∀ i b, OKS Q (peekLoop c i b s).2 := by
    intro i
    induction i with
    | zero => intro b; exact h
    | succ i ih =>
      intro b
      unfold peekLoop
      split
      · simp only
        split <;> exact ⟨h.rd, h.on, h.nr⟩
      · exact ih _
  unfold peek
  split
  · exact h
  · split
    · exact hl _ _
    · exact h

theorem dequeue_ok {s : S} (h : OKS Q s) : OKS Q (dequeue c s) := by
  unfold dequeue
  split
  · exact h
  · simp only
    split <;> split <;> exact ⟨h.rd, h.on, h.nr⟩

theorem mapGcLoop_faultless (hF : Good c Q) : ∀ f s, OKS Q s → FO Q (mapGcLoop c f s) := by
  intro f
  induction f with
  | zero => intro s h; exact .err h (nc (by decide))
  | succ f ih =>
    intro s h
    unfold mapGcLoop
    simp only
    split
    · exact .of (peek_ok h)
    · have h1 := rawGc_faultless hF (peek c s).1 (peek_ok (c := c) h)
      rcases hg : rawGc c (peek c s).1 (peek c s).2 with ⟨e | u, s1⟩
      · rw [hg] at h1
        simp only
        have h2 := tryRecover_faultless (c := c) (h1.er e rfl) h1.ok
        rcases hs : tryRecover c e s1 with ⟨e | u, s2⟩
        · rw [hs] at h2; exact h2
        · rw [hs] at h2; exact ih _ h2.ok
      · rw [hg] at h1; exact .of (dequeue_ok h1.ok)

theorem mapGc_faultless (hF : Good c Q) {s : S} (h : OKS Q s) : FO Q (mapGc c s) := by
  unfold mapGc
  split
  · exact .of h
  · exact mapGcLoop_faultless hF _ _ h

theorem gcTimes_faultless (hF : Good c Q) : ∀ k s, OKS Q s → FO Q (gcTimes c k s) := by
  intro k
  induction k with
  | zero => intro s h; exact .of h
  | succ k ih =>
    intro s h
    unfold gcTimes
    have h1 := mapGc_faultless hF h
    rcases hg : mapGc c s with ⟨e | u, s1⟩
    · rw [hg] at h1; exact h1
    · rw [hg] at h1; exact ih _ h1.ok

theorem autoGc_faultless (hF : Good c Q) {s : S} (h : OKS Q s) : FO Q (autoGc c s) := by
  unfold autoGc
  split
  · exact .of h
  · exact gcTimes_faultless hF _ _ h

theorem tryDelete_faultless (hF : Good c Q) (t : Nat) {s : S} (h : OKS Q s) : FO Q (tryDelete c t s) := by
  unfold tryDelete
  have h2 := fun e => tracePath_faultless hF h t freshMeta (e := e)
  rcases ht : tracePath c s t freshMeta with ⟨e | q, nm⟩
  · rw [ht] at h2
    have h2 := h2 e rfl
    cases e <;> first | exact .of h | exact .err h h2
  · simp only
    split
    · exact .of ⟨h.rd, h.on, h.nr⟩
    · split
      · rename_i hr; exact .err h (readMeta_faultless hF h hr)
      · generalize hr : journalCopy c _ _ _ = r
        have : FO Q r := by rw [← hr]; exact journalCopy_faultless hF _ _ (h.ck _)
        rcases r with ⟨e | u, s1⟩
        · exact this
        · exact .of ⟨this.ok.rd, this.ok.on, this.ok.nr⟩

theorem mapTrimLoop_faultless (hF : Good c Q) (t : Nat) : ∀ f s, OKS Q s → FO Q (mapTrimLoop c t f s) := by
  intro f
  induction f with
  | zero => intro s h; exact .err h (nc (by decide))
  | succ f ih =>
    intro s h
    unfold mapTrimLoop
    have h1 := autoGc_faultless hF h
    rcases hg : autoGc c s with ⟨e | u, s1⟩
    · rw [hg] at h1; exact h1
    · rw [hg] at h1
      simp only
      have h2 := tryDelete_faultless hF t h1.ok
      rcases hd : tryDelete c t s1 with ⟨e | u, s2⟩
      · rw [hd] at h2
        simp only
        have h3 := tryRecover_faultless (c := c) (h2.er e rfl) h2.ok
        rcases hs : tryRecover c e s2 with ⟨e | u, s3⟩
        · rw [hs] at h3; exact h3
        · rw [hs] at h3; exact ih _ h3.ok
      · rw [hd] at h2; exact h2

theorem mapSyncLoop_faultless (hF : Good c Q) : ∀ f s, OKS Q s → FO Q (mapSyncLoop c f s) := by
  intro f
  induction f with
  | zero => intro s h; exact .err h (nc (by decide))
  | succ f ih =>
    intro s h
    unfold mapSyncLoop
    split
    · exact .of h
    · have key : ∀ q : Except Err Unit × S, FO Q q → FO Q (match q with
          | (.ok (), s) => mapSyncLoop c f s
          | (.error e, s) =>
            match tryRecover c e s with
            | (.error e, s) => (.error e, s)
            | (.ok (), s) => mapSyncLoop c f s) := by
        rintro ⟨e | u, s'⟩ h
        · simp only
          have h3 := tryRecover_faultless (c := c) (h.er e rfl) h.ok
          rcases hs : tryRecover c e s' with ⟨e | u, s3⟩
          · rw [hs] at h3; exact h3
          · rw [hs] at h3; exact ih _ h3.ok
        · exact ih _ h.ok
      apply key
      split
      · exact padQueue_faultless hF (peek_ok h)
      · have h1 := rawGc_faultless hF (peek c s).1 (peek_ok (c := c) h)
        rcases hg : rawGc c (peek c s).1 (peek c s).2 with ⟨e | u, s1⟩
        · rw [hg] at h1; exact h1
        · rw [hg] at h1; exact .of (dequeue_ok h1.ok)

theorem writeLoop_faultless (hF : Good c Q) (dst : Nat) {push : Buf → S → Except Err Unit × S} (hp : ∀ m s, OKS Q s → FO Q (push m s)) :
    ∀ f s, OKS Q s → FO Q (writeLoop c dst push f s) := by
  intro f
  induction f with
  | zero => intro s h; exact .err h (nc (by decide))
  | succ f ih =>
    intro s h
    have hw : FO Q (prepareWrite c dst s) := by
      unfold prepareWrite
      have h1 := autoGc_faultless hF h
      rcases hg : autoGc c s with ⟨e | u, s1⟩
      · rw [hg] at h1; exact .err h1.ok (h1.er e rfl)
      · rw [hg] at h1
        have h1 := h1.ok
        simp only
        have h2 := fun e => tracePath_faultless hF h1 dst freshMeta (e := e)
        rcases ht : tracePath c s1 dst freshMeta with ⟨e | q, nm⟩
        · rw [ht] at h2
          have h2 := h2 e rfl
          cases e
          case notFound =>
            simp only
            split
            · exact .err h1 (nc (by decide))
            · exact .of ⟨h1.rd, h1.on, h1.nr⟩
          all_goals exact .err h1 h2
        · exact .of ⟨h1.rd, h1.on, h1.nr⟩
    unfold writeLoop
    simp only
    rcases hq : prepareWrite c dst s with ⟨e | mt, s1⟩
    · rw [hq] at hw; exact .err hw.ok (hw.er e rfl)
    · rw [hq] at hw
      simp only
      have h2 := hp mt _ hw.ok
      rcases hd : push mt s1 with ⟨e | u, s2⟩
      · rw [hd] at h2
        simp only
        have h3 := tryRecover_faultless (c := c) (s := { s2 with count := s.count }) (h2.er e rfl) ⟨h2.ok.rd, h2.ok.on, h2.ok.nr⟩
        rcases hs : tryRecover c e { s2 with count := s.count } with ⟨e | u, s3⟩
        · rw [hs] at h3; exact h3
        · rw [hs] at h3; exact ih _ h3.ok
      · rw [hd] at h2; exact h2

theorem call_faultless (hF : Good c Q) (op : Op) {s : S} (h : OKS Q s) : FO Q (call c op s) := by
  have hcp : ∀ src dst, FO Q (mapCopyPage c src dst s) := fun src dst =>
    writeLoop_faultless hF dst (fun m s h => journalCopy_faultless hF _ _ h) _ _ h
  cases op with
  | write dst d => exact writeLoop_faultless hF dst (fun m s h => pushLoop_faultless hF (wrData_faultless hF _) _ _ _ h) _ _ h
  | copyPage src dst => exact hcp _ _
  | copySector src dst =>
    unfold call mapCopySector
    simp only
    cases hf : mapFind c s src with
    | ok p => exact hcp _ _
    | error e =>
      have he : ¬ Chippy Q e := by
        unfold mapFind at hf
        exact tracePath_faultless hF h _ _ hf
      cases e <;> first | exact mapTrimLoop_faultless hF _ _ _ h | exact .err h he
  | trim t => exact mapTrimLoop_faultless hF _ _ _ h
  | clear =>
    unfold call mapClear
    simp only
    split <;> exact .of ⟨h.rd, h.on, h.nr⟩
  | sync => exact mapSyncLoop_faultless hF _ _ h
  | gc => exact mapGc_faultless hF h

end Dhara

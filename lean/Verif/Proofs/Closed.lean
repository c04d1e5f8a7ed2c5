/-
What every journal call keeps (unless it reports E_JOURNAL_FULL) every map call keeps.
-/
import Verif.Proofs.Local
namespace Dhara

variable {c : Cfg} {Q : S → Prop}

/-- The call was refused with E_JOURNAL_FULL, or it left `Q`. -/
def QP (Q : S → Prop) {α : Type} (x : Except Err α × S) : Prop := x.1 = .error .journalFull ∨ Q x.2

/-- The journal calls keep `Q`, and so do the map's own changes of the state. -/
structure JCl (c : Cfg) (Q : S → Prop) : Prop where
  enq : ∀ d m s, Q s → QP Q (enqueue c d m s)
  cpy : ∀ p m s, Q s → QP Q (journalCopy c p m s)
  peek : ∀ s, Q s → Q (peek c s).2
  deq : ∀ s, Q s → Q (dequeue c s)
  nxt : ∀ s, Q s → Q (nextRecoverable c s).2
  clr : ∀ s, Q s → Q (journalClear c s)
  ck : ∀ s k, Q s → Q { s with j := ckSetCount s.j k }
  cnt : ∀ s k, Q s → Q { s with count := k }
  tick : ∀ s, Q s → Q (tick s)

theorem QP.cases {α : Type} {x : Except Err α × S} (h : QP Q x) : ∃ y u, x = (y, u) ∧ (y = .error .journalFull ∨ Q u) := ⟨x.1, x.2, rfl, h⟩

theorem q_ok {α : Type} {a : α} {u : S} (h : (.ok a : Except Err α) = .error .journalFull ∨ Q u) : Q u := h.resolve_left (by simp)

theorem q_err {α : Type} {e : Err} {u : S} (h : (.error e : Except Err α) = .error .journalFull ∨ Q u) : e = .journalFull ∨ Q u :=
  h.imp Except.error.inj id

theorem qp_err {α : Type} {e : Err} {u : S} (h : e = .journalFull ∨ Q u) : QP Q ((.error e, u) : Except Err α × S) :=
  h.imp (congrArg _) id

theorem rawGc_cl (hq : JCl c Q) (p : Nat) {s : S} (h : Q s) : QP Q (rawGc c p s) := by
  unfold rawGc
  split
  · exact .inr h
  · simp only
    split
    · exact .inr h
    · split
      · exact .inr h
      · exact .inr h
      · split
        · exact .inr h
        · exact hq.cpy _ _ _ (hq.ck _ _ h)

theorem padQueue_cl (hq : JCl c Q) {s : S} (h : Q s) : QP Q (padQueue c s) := by
  unfold padQueue
  simp only
  split
  · exact hq.enq _ _ _ (hq.ck _ _ h)
  · split
    · exact .inr (hq.ck _ _ h)
    · exact hq.cpy _ _ _ (hq.ck _ _ h)

theorem tryRecoverLoop_cl (hq : JCl c Q) : ∀ f k (s : S), Q s → QP Q (tryRecoverLoop c f k s) := by
  intro f
  induction f with
  | zero => intro k s h; exact .inr h
  | succ f ih =>
    intro k s h
    have ht := hq.nxt _ h
    unfold tryRecoverLoop
    simp only
    split
    · exact .inr h
    · have hz : QP Q (if (nextRecoverable c s).1 = NONE then padQueue c (nextRecoverable c s).2 else rawGc c (nextRecoverable c s).1 (nextRecoverable c s).2) := by
        split
        · exact padQueue_cl hq ht
        · exact rawGc_cl hq _ ht
      obtain ⟨y, u, e3, hu⟩ := hz.cases
      rw [e3]
      cases y with
      | ok _ => exact ih _ _ (q_ok hu)
      | error e =>
        have hu := q_err hu
        simp only
        split
        · exact qp_err hu
        · next he =>
          have hu : Q u := hu.resolve_left (by rintro rfl; exact he (by simp))
          split
          · exact .inr hu
          · exact ih _ _ hu

theorem tryRecover_cl (hq : JCl c Q) (e : Err) {s : S} (h : e = .journalFull ∨ Q s) : QP Q (tryRecover c e s) := by
  unfold tryRecover
  split
  · exact qp_err h
  · next he =>
    have h : Q s := h.resolve_left (by rintro rfl; exact he (by simp))
    exact tryRecoverLoop_cl hq _ _ _ h

theorem mapGcLoop_cl (hq : JCl c Q) : ∀ f (s : S), Q s → QP Q (mapGcLoop c f s) := by
  intro f
  induction f with
  | zero => intro s h; exact .inr h
  | succ f ih =>
    intro s h
    have ht := hq.peek _ h
    unfold mapGcLoop
    simp only
    split
    · exact .inr ht
    · obtain ⟨y, u, e3, hu⟩ := (rawGc_cl hq (peek c s).1 ht).cases
      rw [e3]
      cases y with
      | ok _ => exact .inr (hq.deq _ (q_ok hu))
      | error e =>
        simp only
        obtain ⟨y, u, e3, hu⟩ := (tryRecover_cl hq e (q_err hu)).cases
        rw [e3]
        cases y with
        | ok _ => exact ih _ (q_ok hu)
        | error e => exact qp_err (q_err hu)

theorem mapGc_cl (hq : JCl c Q) {s : S} (h : Q s) : QP Q (mapGc c s) := by
  unfold mapGc
  split
  · exact .inr h
  · exact mapGcLoop_cl hq _ _ h

theorem gcTimes_cl (hq : JCl c Q) : ∀ k (s : S), Q s → QP Q (gcTimes c k s) := by
  intro k
  induction k with
  | zero => intro s h; exact .inr h
  | succ k ih =>
    intro s h
    unfold gcTimes
    obtain ⟨y, u, e3, hu⟩ := (mapGc_cl hq h).cases
    rw [e3]
    cases y with
    | ok _ => exact ih _ (q_ok hu)
    | error e => exact qp_err (q_err hu)

theorem autoGc_cl (hq : JCl c Q) {s : S} (h : Q s) : QP Q (autoGc c s) := by
  unfold autoGc
  split
  · exact .inr h
  · exact gcTimes_cl hq _ _ h

theorem prepareWrite_cl (hq : JCl c Q) (t : Nat) {s : S} (h : Q s) : QP Q (prepareWrite c t s) := by
  unfold prepareWrite
  obtain ⟨y, u, e3, hu⟩ := (autoGc_cl hq h).cases
  rw [e3]
  cases y with
  | error e => exact qp_err (q_err hu)
  | ok _ =>
    have hu := q_ok hu
    simp only
    split
    · split
      · exact .inr hu
      · exact .inr (hq.ck ⟨u.j, u.n, u.count + 1⟩ (u.count + 1) (hq.cnt u _ hu))
    · exact .inr hu
    · exact .inr (hq.ck _ _ hu)

theorem writeLoop_cl (hq : JCl c Q) (t : Nat) {push : Buf → S → Except Err Unit × S} (hpu : ∀ m s, Q s → QP Q (push m s)) :
    ∀ f (s : S), Q s → QP Q (writeLoop c t push f s) := by
  intro f
  induction f with
  | zero => intro s h; exact .inr h
  | succ f ih =>
    intro s h
    unfold writeLoop
    simp only
    obtain ⟨y, u, e3, hu⟩ := (prepareWrite_cl hq t h).cases
    rw [e3]
    cases y with
    | error e => exact qp_err (q_err hu)
    | ok m =>
      simp only
      obtain ⟨y, u, e3, hu⟩ := (hpu m _ (q_ok hu)).cases
      rw [e3]
      cases y with
      | ok _ => exact .inr (q_ok hu)
      | error e =>
        simp only
        obtain ⟨y, u, e3, hu⟩ := (tryRecover_cl hq e (s := { u with count := s.count }) ((q_err hu).imp id (hq.cnt _ _))).cases
        rw [e3]
        cases y with
        | ok _ => exact ih _ (q_ok hu)
        | error e => exact qp_err (q_err hu)

theorem tryDelete_cl (hq : JCl c Q) (t : Nat) {s : S} (h : Q s) : QP Q (tryDelete c t s) := by
  unfold tryDelete
  simp only
  split
  · exact .inr h
  · exact .inr h
  · split
    · exact .inr (hq.clr _ (hq.cnt _ _ h))
    · split
      · exact .inr h
      · generalize hr : journalCopy c _ _ _ = r
        have hk : QP Q r := by rw [← hr]; exact hq.cpy _ _ _ (hq.ck _ _ h)
        obtain ⟨y, u, rfl, hu⟩ := hk.cases
        cases y with
        | error e => exact qp_err (q_err hu)
        | ok _ => exact .inr (hq.cnt _ _ (q_ok hu))

theorem mapTrimLoop_cl (hq : JCl c Q) (t : Nat) : ∀ f (s : S), Q s → QP Q (mapTrimLoop c t f s) := by
  intro f
  induction f with
  | zero => intro s h; exact .inr h
  | succ f ih =>
    intro s h
    unfold mapTrimLoop
    obtain ⟨y, u, e3, hu⟩ := (autoGc_cl hq h).cases
    rw [e3]
    cases y with
    | error e => exact qp_err (q_err hu)
    | ok _ =>
      simp only
      obtain ⟨y, u, e3, hu⟩ := (tryDelete_cl hq t (q_ok hu)).cases
      rw [e3]
      cases y with
      | ok _ => exact .inr (q_ok hu)
      | error e =>
        simp only
        obtain ⟨y, u, e3, hu⟩ := (tryRecover_cl hq e (q_err hu)).cases
        rw [e3]
        cases y with
        | ok _ => exact ih _ (q_ok hu)
        | error e => exact qp_err (q_err hu)

theorem mapCopyPage_cl (hq : JCl c Q) (p t : Nat) {s : S} (h : Q s) : QP Q (mapCopyPage c p t s) :=
  writeLoop_cl hq t (fun _ _ h => hq.cpy _ _ _ h) _ _ h

theorem mapCopySector_cl (hq : JCl c Q) (p t : Nat) {s : S} (h : Q s) : QP Q (mapCopySector c p t s) := by
  unfold mapCopySector
  split
  · exact mapTrimLoop_cl hq _ _ _ h
  · exact .inr h
  · exact mapCopyPage_cl hq _ _ h

theorem syncQ_cl (hq : JCl c Q) {r : Nat × S} (h : Q r.2) : QP Q (syncQ c r) := by
  unfold syncQ
  split
  · exact padQueue_cl hq h
  · obtain ⟨y, u, e3, hu⟩ := (rawGc_cl hq r.1 h).cases
    rw [e3]
    cases y with
    | ok _ => exact .inr (hq.deq _ (q_ok hu))
    | error e => exact qp_err (q_err hu)

theorem mapSyncLoop_cl (hq : JCl c Q) : ∀ f (s : S), Q s → QP Q (mapSyncLoop c f s) := by
  intro f
  induction f with
  | zero => intro s h; exact .inr h
  | succ f ih =>
    intro s h
    rw [mapSyncLoop_succ]
    split
    · exact .inr h
    · obtain ⟨x, t, e1, ht⟩ := (syncQ_cl hq (hq.peek _ h)).cases
      rw [e1]
      unfold syncK
      cases x with
      | ok _ => exact ih _ (q_ok ht)
      | error e =>
        simp only
        obtain ⟨y, u, e3, hu⟩ := (tryRecover_cl hq e (q_err ht)).cases
        rw [e3]
        cases y with
        | ok _ => exact ih _ (q_ok hu)
        | error e => exact qp_err (q_err hu)

theorem mapClear_cl (hq : JCl c Q) {s : S} (h : Q s) : Q (mapClear c s) := by
  unfold mapClear
  split
  · exact hq.clr _ (hq.cnt _ _ h)
  · exact h

theorem step_cl (hq : JCl c Q) (op : Op) {s : S} (h : Q s) : QP Q (step c op s) := by
  have h : Q (tick s) := hq.tick _ h
  unfold step
  cases op with
  | write t d => exact writeLoop_cl hq t (fun _ _ h => hq.enq _ _ _ h) _ _ h
  | copyPage p t => exact mapCopyPage_cl hq p t h
  | copySector p t => exact mapCopySector_cl hq p t h
  | trim t => exact mapTrimLoop_cl hq _ _ _ h
  | clear => exact .inr (mapClear_cl hq h)
  | sync => exact mapSyncLoop_cl hq _ _ h
  | gc => exact mapGc_cl hq h

end Dhara

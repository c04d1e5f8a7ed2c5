/-
The number of rounds granted to the loops does not matter as long as it suffices.
-/
import Verif.Model.Map
namespace Dhara

/-- The same configuration with another number of rounds. -/
def Cfg.fu (c : Cfg) (f : Nat) : Cfg :=
  { log2PageSize := c.log2PageSize, log2Ppb := c.log2Ppb, numBlocks := c.numBlocks, gcRatio := c.gcRatio, fuel := f, env := c.env }

variable {c : Cfg} {f : Nat}

theorem readMeta_fu : readMeta (c.fu f) = readMeta c := id rfl
theorem prepareHead_fu : prepareHead (c.fu f) = prepareHead c := id rfl
theorem progS_fu : progS (c.fu f) = progS c := id rfl
theorem wrCopy_fu : wrCopy (c.fu f) = wrCopy c := id rfl
theorem wrData_fu : wrData (c.fu f) = wrData c := by
  funext d s; unfold wrData; rw [progS_fu]
theorem skipBlock_fu : skipBlock (c.fu f) = skipBlock c := id rfl
theorem restartRecovery_fu : restartRecovery (c.fu f) = restartRecovery c := id rfl
theorem commitPush_fu : commitPush (c.fu f) = commitPush c := id rfl
theorem nandMarkBad_fu : nandMarkBad (c.fu f) = nandMarkBad c := id rfl
theorem nextUpage_fu : nextUpage (c.fu f) = nextUpage c := id rfl
theorem hdrClearUser_fu : hdrClearUser (c.fu f) = hdrClearUser c := id rfl
theorem bufferMeta_fu : bufferMeta (c.fu f) = bufferMeta c := id rfl
theorem blk_fu : (c.fu f).blk = c.blk := id rfl
theorem blockStart_fu : (c.fu f).blockStart = c.blockStart := id rfl
theorem log2Ppb_fu : (c.fu f).log2Ppb = c.log2Ppb := id rfl
theorem log2Ppc_fu : (c.fu f).log2Ppc = c.log2Ppc := id rfl
theorem gcr_fu : (c.fu f).gcr = c.gcr := id rfl
theorem journalSize_fu : journalSize (c.fu f) = journalSize c := id rfl
theorem mapCapacity_fu : mapCapacity (c.fu f) = mapCapacity c := id rfl
theorem peek_fu : peek (c.fu f) = peek c := id rfl
theorem dequeue_fu : dequeue (c.fu f) = dequeue c := id rfl
theorem mapClear_fu : mapClear (c.fu f) = mapClear c := id rfl
theorem journalClear_fu : journalClear (c.fu f) = journalClear c := id rfl
theorem nextRecoverable_fu : nextRecoverable (c.fu f) = nextRecoverable c := id rfl

theorem dumpMetaLoop_fu : dumpMetaLoop (c.fu f) = dumpMetaLoop c := by
  funext i
  induction i with
  | zero => rfl
  | succ i ih =>
    funext s
    unfold dumpMetaLoop
    rw [ih, prepareHead_fu, progS_fu, skipBlock_fu, nandMarkBad_fu, blk_fu, nextUpage_fu, hdrClearUser_fu]

theorem recoverFrom_fu : recoverFrom (c.fu f) = recoverFrom c := by
  funext e s
  unfold recoverFrom dumpMeta
  rw [skipBlock_fu, restartRecovery_fu, nandMarkBad_fu, blk_fu, log2Ppb_fu, log2Ppc_fu, blockStart_fu, dumpMetaLoop_fu]

theorem pushMeta_fu : pushMeta (c.fu f) = pushMeta c := by
  funext m s
  unfold pushMeta
  rw [bufferMeta_fu, log2Ppc_fu, progS_fu, recoverFrom_fu, commitPush_fu]

theorem pushLoop_fu : pushLoop (c.fu f) = pushLoop c := by
  funext wr m i
  induction i with
  | zero => rfl
  | succ i ih =>
    funext s
    unfold pushLoop
    rw [ih, prepareHead_fu, pushMeta_fu, recoverFrom_fu]

theorem journalCopy_fu : journalCopy (c.fu f) = journalCopy c := by
  funext p m s; unfold journalCopy; rw [pushLoop_fu, wrCopy_fu]

theorem enqueue_fu : enqueue (c.fu f) = enqueue c := by
  funext d m s; unfold enqueue; rw [pushLoop_fu, wrData_fu]

theorem traceLoop_fu : traceLoop (c.fu f) = traceLoop c := by
  funext s t k
  induction k with
  | zero => rfl
  | succ k ih => 
    funext d p mb nm
    unfold traceLoop
    rw [ih, readMeta_fu]

theorem tracePath_fu : tracePath (c.fu f) = tracePath c := by
  funext s t m; unfold tracePath; rw [traceLoop_fu, readMeta_fu]

theorem mapFind_fu : mapFind (c.fu f) = mapFind c := by
  funext s t; unfold mapFind; rw [tracePath_fu]

theorem padQueue_fu : padQueue (c.fu f) = padQueue c := by
  funext s; unfold padQueue; rw [readMeta_fu, enqueue_fu, journalCopy_fu]

theorem rawGc_fu : rawGc (c.fu f) = rawGc c := by
  funext s t; unfold rawGc; rw [readMeta_fu, tracePath_fu, journalCopy_fu]

theorem tryDelete_fu : tryDelete (c.fu f) = tryDelete c := by
  funext s t; unfold tryDelete; rw [readMeta_fu, tracePath_fu, journalCopy_fu, journalClear_fu]

/-- Did not run out of rounds. -/
def Ends {α : Type} (r : Except Err α × S) : Prop := r.1 ≠ .error .diverge

theorem tryRecoverLoop_fu : ∀ k l r s, Ends (tryRecoverLoop c k r s) → k ≤ l →
    tryRecoverLoop (c.fu f) l r s = tryRecoverLoop c k r s := by
  intro k
  induction k with
  | zero => intro l r s h; exact absurd rfl h
  | succ k ih =>
    intro l r s h hl
    obtain ⟨l, rfl⟩ : ∃ m, l = m + 1 := ⟨l - 1, by omega⟩
    unfold tryRecoverLoop at h ⊢
    rw [nextRecoverable_fu, padQueue_fu, rawGc_fu]
    simp only at h ⊢
    generalize (if (nextRecoverable c s).1 = NONE then _ else _ : Except Err Unit × S) = q at h ⊢
    by_cases hr : s.j.recovery = true
    · have hr' : ¬ ¬ s.j.recovery = true := fun h => h hr
      rw [if_neg hr'] at h ⊢; rw [if_neg hr']
      obtain ⟨e | ⟨⟩, s1⟩ := q
      · simp only at h ⊢
        by_cases he : e ≠ .recover
        · rw [if_pos he, if_pos he]
        · rw [if_neg he] at h ⊢; rw [if_neg he]
          by_cases hm : r ≥ maxRetries
          · rw [if_pos hm, if_pos hm]
          · rw [if_neg hm] at h ⊢; rw [if_neg hm]
            exact ih _ _ _ h (by omega)
      · exact ih _ _ _ h (by omega)
    · rw [if_pos hr, if_pos hr]

theorem tryRecover_fu {e : Err} {s : S} (h : Ends (tryRecover c e s)) (hf : c.fuel ≤ f) :
    tryRecover (c.fu f) e s = tryRecover c e s := by
  unfold tryRecover at h ⊢
  by_cases he : e ≠ .recover
  · rw [if_pos he, if_pos he]
  · rw [if_neg he] at h ⊢; rw [if_neg he]
    exact tryRecoverLoop_fu _ _ _ _ h hf

theorem mapGcLoop_fu (hf : c.fuel ≤ f) : ∀ k l s, Ends (mapGcLoop c k s) → k ≤ l →
    mapGcLoop (c.fu f) l s = mapGcLoop c k s := by
  intro k
  induction k with
  | zero => intro l s h; exact absurd rfl h
  | succ k ih =>
    intro l s h hl
    obtain ⟨l, rfl⟩ : ∃ m, l = m + 1 := ⟨l - 1, by omega⟩
    unfold mapGcLoop at h ⊢
    rw [peek_fu, rawGc_fu, dequeue_fu]
    simp only at h ⊢
    by_cases hn : (peek c s).1 = NONE
    · rw [if_pos hn, if_pos hn]
    · rw [if_neg hn] at h ⊢; rw [if_neg hn]
      rcases hq : rawGc c (peek c s).1 (peek c s).2 with ⟨e | ⟨⟩, s1⟩
      · rw [hq] at h
        simp only at h ⊢
        rcases hr : tryRecover c e s1 with ⟨e' | ⟨⟩, s2⟩
        · rw [hr] at h
          rw [tryRecover_fu (by rw [hr]; exact h) hf, hr]
        · rw [hr] at h
          rw [tryRecover_fu (by rw [hr]; exact fun h => by cases h) hf, hr]
          exact ih _ _ h (by omega)
      · rfl

theorem mapGc_fu {s : S} (h : Ends (mapGc c s)) (hf : c.fuel ≤ f) : mapGc (c.fu f) s = mapGc c s := by
  unfold mapGc at h ⊢
  by_cases he : s.count = 0
  · rw [if_pos he, if_pos he]
  · rw [if_neg he] at h ⊢; rw [if_neg he]
    exact mapGcLoop_fu hf _ _ _ h hf

theorem gcTimes_fu (hf : c.fuel ≤ f) : ∀ k s, Ends (gcTimes c k s) → gcTimes (c.fu f) k s = gcTimes c k s := by
  intro k
  induction k with
  | zero => intro s _; rfl
  | succ k ih =>
    intro s h
    unfold gcTimes at h ⊢
    rcases hr : mapGc c s with ⟨e' | ⟨⟩, s2⟩
    · rw [hr] at h
      rw [mapGc_fu (by rw [hr]; exact h) hf, hr]
    · rw [hr] at h
      rw [mapGc_fu (by rw [hr]; exact fun h => by cases h) hf, hr]
      exact ih _ h

theorem autoGc_fu (hf : c.fuel ≤ f) {s : S} (h : Ends (autoGc c s)) : autoGc (c.fu f) s = autoGc c s := by
  unfold autoGc at h ⊢
  rw [journalSize_fu, mapCapacity_fu, gcr_fu]
  by_cases he : journalSize c s.j < mapCapacity c s
  · rw [if_pos he, if_pos he]
  · rw [if_neg he] at h ⊢; rw [if_neg he]
    exact gcTimes_fu hf _ _ h

theorem prepareWrite_fu (hf : c.fuel ≤ f) {t : Nat} {s : S} (h : Ends (prepareWrite c t s)) :
    prepareWrite (c.fu f) t s = prepareWrite c t s := by
  unfold prepareWrite at h ⊢
  rw [tracePath_fu, mapCapacity_fu]
  rcases hr : autoGc c s with ⟨e | ⟨⟩, s1⟩
  · rw [hr] at h
    rw [autoGc_fu hf (by rw [hr]; intro he; cases he; exact h rfl), hr]
  · rw [autoGc_fu hf (by rw [hr]; exact fun h => by cases h), hr]

theorem writeLoop_fu (hf : c.fuel ≤ f) {t : Nat} {push : Buf → S → Except Err Unit × S} : ∀ k l s, Ends (writeLoop c t push k s) → k ≤ l →
    writeLoop (c.fu f) t push l s = writeLoop c t push k s := by
  intro k
  induction k with
  | zero => intro l s h; exact absurd rfl h
  | succ k ih =>
    intro l s h hl
    obtain ⟨l, rfl⟩ : ∃ m, l = m + 1 := ⟨l - 1, by omega⟩
    unfold writeLoop at h ⊢
    simp only at h ⊢
    rcases hp : prepareWrite c t s with ⟨e | m, s1⟩
    · rw [hp] at h
      rw [prepareWrite_fu hf (by rw [hp]; intro he; cases he; exact h rfl), hp]
    · rw [hp] at h
      rw [prepareWrite_fu hf (by rw [hp]; exact fun h => by cases h), hp]
      simp only at h ⊢
      generalize push m s1 = q at h ⊢
      obtain ⟨e | ⟨⟩, s2⟩ := q
      · simp only at h ⊢
        rcases hr : tryRecover c e { s2 with count := s.count } with ⟨e' | ⟨⟩, s3⟩
        · rw [hr] at h
          rw [tryRecover_fu (by rw [hr]; exact h) hf, hr]
        · rw [hr] at h
          rw [tryRecover_fu (by rw [hr]; exact fun h => by cases h) hf, hr]
          exact ih _ _ h (by omega)
      · rfl

theorem mapTrimLoop_fu (hf : c.fuel ≤ f) {t : Nat} : ∀ k l s, Ends (mapTrimLoop c t k s) → k ≤ l →
    mapTrimLoop (c.fu f) t l s = mapTrimLoop c t k s := by
  intro k
  induction k with
  | zero => intro l s h; exact absurd rfl h
  | succ k ih =>
    intro l s h hl
    obtain ⟨l, rfl⟩ : ∃ m, l = m + 1 := ⟨l - 1, by omega⟩
    unfold mapTrimLoop at h ⊢
    rw [tryDelete_fu]
    rcases hp : autoGc c s with ⟨e | ⟨⟩, s1⟩
    · rw [hp] at h
      rw [autoGc_fu hf (by rw [hp]; exact h), hp]
    · rw [hp] at h
      rw [autoGc_fu hf (by rw [hp]; exact fun h => by cases h), hp]
      simp only at h ⊢
      generalize tryDelete c t s1 = q at h ⊢
      obtain ⟨e | ⟨⟩, s2⟩ := q
      · simp only at h ⊢
        rcases hr : tryRecover c e s2 with ⟨e' | ⟨⟩, s3⟩
        · rw [hr] at h
          rw [tryRecover_fu (by rw [hr]; exact h) hf, hr]
        · rw [hr] at h
          rw [tryRecover_fu (by rw [hr]; exact fun h => by cases h) hf, hr]
          exact ih _ _ h (by omega)
      · rfl

theorem mapSyncLoop_fu (hf : c.fuel ≤ f) : ∀ k l s, Ends (mapSyncLoop c k s) → k ≤ l →
    mapSyncLoop (c.fu f) l s = mapSyncLoop c k s := by
  intro k
  induction k with
  | zero => intro l s h; exact absurd rfl h
  | succ k ih =>
    intro l s h hl
    obtain ⟨l, rfl⟩ : ∃ m, l = m + 1 := ⟨l - 1, by omega⟩
    unfold mapSyncLoop at h ⊢
    rw [peek_fu, rawGc_fu, dequeue_fu, padQueue_fu]
    simp only at h ⊢
    generalize (if (peek c s).1 = NONE then _ else _ : Except Err Unit × S) = q at h ⊢
    by_cases hd : s.j.dirty = true
    · have hd' : ¬ ¬ s.j.dirty = true := fun h => h hd
      rw [if_neg hd'] at h ⊢; rw [if_neg hd']
      obtain ⟨e | ⟨⟩, s1⟩ := q
      · simp only at h ⊢
        rcases hr : tryRecover c e s1 with ⟨e' | ⟨⟩, s2⟩
        · rw [hr] at h
          rw [tryRecover_fu (by rw [hr]; exact h) hf, hr]
        · rw [hr] at h
          rw [tryRecover_fu (by rw [hr]; exact fun h => by cases h) hf, hr]
          exact ih _ _ h (by omega)
      · exact ih _ _ h (by omega)
    · rw [if_pos hd, if_pos hd]

/-- A call that ends within `c.fuel` rounds per loop does the same when more are granted. -/
theorem call_fu {op : Op} {s : S} (h : Ends (call c op s)) (hf : c.fuel ≤ f) : call (c.fu f) op s = call c op s := by
  cases op with
  | write d b =>
    show writeLoop (c.fu f) d (fun mt s => enqueue (c.fu f) (some b) (some mt) s) f s = _
    rw [enqueue_fu]
    exact writeLoop_fu hf _ _ _ h hf
  | copyPage a d =>
    show writeLoop (c.fu f) d (fun mt s => journalCopy (c.fu f) a mt s) f s = _
    rw [journalCopy_fu]
    exact writeLoop_fu hf _ _ _ h hf
  | copySector a b =>
    have h : Ends (mapCopySector c a b s) := h
    show mapCopySector (c.fu f) a b s = mapCopySector c a b s
    unfold mapCopySector at h ⊢
    rw [mapFind_fu]
    generalize mapFind c s a = q at h ⊢
    split at h
    · exact mapTrimLoop_fu hf _ _ _ h hf
    · rfl
    · show writeLoop (c.fu f) b (fun mt s => journalCopy (c.fu f) _ mt s) f s = _
      rw [journalCopy_fu]
      exact writeLoop_fu hf _ _ _ h hf
  | trim t => exact mapTrimLoop_fu hf _ _ _ h hf
  | clear => show (Except.ok (), mapClear (c.fu f) s) = _; rw [mapClear_fu]; rfl
  | sync => exact mapSyncLoop_fu hf _ _ _ h hf
  | gc => exact mapGc_fu h hf

theorem step_fu {op : Op} {s : S} (h : Ends (step c op s)) (hf : c.fuel ≤ f) : step (c.fu f) op s = step c op s :=
  call_fu h hf

end Dhara

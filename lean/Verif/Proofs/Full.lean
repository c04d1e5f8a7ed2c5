/-
E_MAP_FULL comes from the capacity check in prepare_write (dhara/map.c:322-346) and nowhere else.
-/
import Verif.Proofs.NoErr
namespace Dhara

variable {c : Cfg}

/-- The result is not E_MAP_FULL. -/
abbrev NF {α β : Type} (r : Except Err α × β) : Prop := NE .mapFull r

theorem odd_full : Odd .mapFull := Or.inl rfl

theorem nf_err {α β : Type} {e : Err} {b : β} (h : NF ((.error e, b) : Except Err α × β)) : e ≠ .mapFull := ne_err h
theorem nf_ok {α β : Type} {a : α} {b : β} : NF ((.ok a, b) : Except Err α × β) := ne_ok
theorem nf_of {α β : Type} {e : Err} {b : β} (h : e ≠ .mapFull) : NF ((.error e, b) : Except Err α × β) := ne_of h
theorem nandCopy_nf (p q : Nat) (n : Nand) : NF (nandCopy c p q n) := nandCopy_ne odd_full (Or.inl (by decide)) _ _
theorem progS_nf (p : Nat) (d : Buf) (s : S) : NF (progS c p d s) := progS_ne odd_full _ _ _
theorem pushLoop_nf (wr : S → Except Err Unit × S) (hw : ∀ s, NF (wr s)) (m : Option Buf) (i : Nat) (s : S) :
    NF (pushLoop c wr m i s) := pushLoop_ne odd_full wr hw m i s

theorem enqueue_nf (d m : Option Buf) (s : S) : NF (enqueue c d m s) := by
  apply pushLoop_nf
  intro s
  unfold wrData
  cases d with
  | none => exact nf_ok
  | some b => exact progS_nf _ _ _

theorem journalCopy_nf (p : Nat) (m : Buf) (s : S) : NF (journalCopy c p m s) :=
  pushLoop_nf _ (fun _ => nandCopy_nf _ _ _) _ _ _

theorem readMeta_nf {s : S} {p : Nat} {e : Err} (h : readMeta c s p = .error e) : e ≠ .mapFull := by
  rcases readMeta_err h with h | h <;> rw [h] <;> decide

theorem traceLoop_nf {s : S} {t : Nat} : ∀ k d p mt nm, NF (traceLoop c s t k d p mt nm) := by
  intro k
  induction k with
  | zero => intro d p mt nm; exact nf_ok
  | succ k ih =>
    intro d p mt nm
    unfold traceLoop
    simp only
    split
    · exact nf_of (by decide)
    · split
      · split
        · exact nf_of (by decide)
        · cases h : readMeta c s (metaGetAlt mt d) with
          | error e => exact nf_of (readMeta_nf h)
          | ok b => exact ih _ _ _ _
      · exact ih _ _ _ _

theorem tracePath_nf (s : S) (t : Nat) (nm : Buf) : NF (tracePath c s t nm) := by
  unfold tracePath
  simp only
  split
  · exact nf_of (by decide)
  · cases h : readMeta c s s.j.root with
    | error e => exact nf_of (readMeta_nf h)
    | ok b => exact traceLoop_nf _ _ _ _ _

theorem rawGc_nf (p : Nat) (s : S) : NF (rawGc c p s) := by
  unfold rawGc
  cases h : readMeta c s p with
  | error e => exact nf_of (readMeta_nf h)
  | ok b =>
    simp only
    split
    · exact nf_ok
    · have h2 := tracePath_nf (c := c) s (metaGetId b) b
      rcases ht : tracePath c s (metaGetId b) b with ⟨e | q, nm⟩
      · rw [ht] at h2
        cases e <;> first | exact nf_ok | exact h2.state _
      · simp only
        split
        · exact nf_ok
        · exact journalCopy_nf _ _ _

theorem padQueue_nf (s : S) : NF (padQueue c s) := by
  unfold padQueue
  simp only
  split
  · exact enqueue_nf _ _ _
  · generalize hr : readMeta c _ s.j.root = r
    cases r with
    | error e => exact nf_of (readMeta_nf hr)
    | ok b => exact journalCopy_nf _ _ _

theorem tryRecoverLoop_nf : ∀ f r s, NF (tryRecoverLoop c f r s) := by
  intro f
  induction f with
  | zero => intro r s; exact nf_of (by decide)
  | succ f ih =>
    intro r s
    unfold tryRecoverLoop
    simp only
    split
    · exact nf_ok
    · have key : ∀ q : Except Err Unit × S, NF q → NF (match q with
          | (.ok (), s) => tryRecoverLoop c f r s
          | (.error e, s) =>
            if e ≠ .recover then (.error e, s)
            else if r ≥ 8 then (.error .tooBad, s)
            else tryRecoverLoop c f (r + 1) s) := by
        rintro ⟨e | u, s'⟩ h
        · simp only
          split
          · exact h
          · split
            · exact nf_of (by decide)
            · exact ih _ _
        · exact ih _ _
      apply key
      split
      · exact padQueue_nf _
      · exact rawGc_nf _ _

theorem tryRecover_nf {e : Err} (he : e ≠ .mapFull) (s : S) : NF (tryRecover c e s) := by
  unfold tryRecover
  split
  · exact nf_of he
  · exact tryRecoverLoop_nf _ _ _

theorem mapGcLoop_nf : ∀ f s, NF (mapGcLoop c f s) := by
  intro f
  induction f with
  | zero => intro s; exact nf_of (by decide)
  | succ f ih =>
    intro s
    unfold mapGcLoop
    simp only
    split
    · exact nf_ok
    · have h1 := rawGc_nf (c := c) (peek c s).1 (peek c s).2
      rcases hg : rawGc c (peek c s).1 (peek c s).2 with ⟨e | u, s1⟩
      · rw [hg] at h1
        simp only
        have h2 := tryRecover_nf (c := c) (nf_err h1) s1
        rcases hs : tryRecover c e s1 with ⟨e | u, s2⟩
        · rw [hs] at h2; exact h2
        · exact ih _
      · exact nf_ok

theorem mapGc_nf (s : S) : NF (mapGc c s) := by
  unfold mapGc
  split
  · exact nf_ok
  · exact mapGcLoop_nf _ _

theorem gcTimes_nf : ∀ k s, NF (gcTimes c k s) := by
  intro k
  induction k with
  | zero => intro s; exact nf_ok
  | succ k ih =>
    intro s
    unfold gcTimes
    have h1 := mapGc_nf (c := c) s
    rcases hg : mapGc c s with ⟨e | u, s1⟩
    · rw [hg] at h1; exact h1
    · exact ih _

theorem autoGc_nf (s : S) : NF (autoGc c s) := by
  unfold autoGc
  split
  · exact nf_ok
  · exact gcTimes_nf _ _

theorem tryDelete_nf (t : Nat) (s : S) : NF (tryDelete c t s) := by
  unfold tryDelete
  have h2 := tracePath_nf (c := c) s t freshMeta
  rcases ht : tracePath c s t freshMeta with ⟨e | q, nm⟩
  · rw [ht] at h2
    cases e <;> first | exact nf_ok | exact h2.state _
  · simp only
    split
    · exact nf_ok
    · split
      · rename_i hr; exact nf_of (readMeta_nf hr)
      · generalize hr : journalCopy c _ _ _ = r
        have : NF r := by rw [← hr]; exact journalCopy_nf _ _ _
        rcases r with ⟨e | u, s1⟩
        · exact this
        · exact nf_ok

theorem mapTrimLoop_nf (t : Nat) : ∀ f s, NF (mapTrimLoop c t f s) := by
  intro f
  induction f with
  | zero => intro s; exact nf_of (by decide)
  | succ f ih =>
    intro s
    unfold mapTrimLoop
    have h1 := autoGc_nf (c := c) s
    rcases hg : autoGc c s with ⟨e | u, s1⟩
    · rw [hg] at h1; exact h1
    · simp only
      have h2 := tryDelete_nf (c := c) t s1
      rcases hd : tryDelete c t s1 with ⟨e | u, s2⟩
      · rw [hd] at h2
        simp only
        have h3 := tryRecover_nf (c := c) (nf_err h2) s2
        rcases hs : tryRecover c e s2 with ⟨e | u, s3⟩
        · rw [hs] at h3; exact h3
        · exact ih _
      · exact nf_ok

theorem mapSyncLoop_nf : ∀ f s, NF (mapSyncLoop c f s) := by
  intro f
  induction f with
  | zero => intro s; exact nf_of (by decide)
  | succ f ih =>
    intro s
    unfold mapSyncLoop
    split
    · exact nf_ok
    · have key : ∀ q : Except Err Unit × S, NF q → NF (match q with
          | (.ok (), s) => mapSyncLoop c f s
          | (.error e, s) =>
            match tryRecover c e s with
            | (.error e, s) => (.error e, s)
            | (.ok (), s) => mapSyncLoop c f s) := by
        rintro ⟨e | u, s'⟩ h
        · simp only
          have h3 := tryRecover_nf (c := c) (nf_err h) s'
          rcases hs : tryRecover c e s' with ⟨e | u, s3⟩
          · rw [hs] at h3; exact h3
          · exact ih _
        · exact ih _
      apply key
      split
      · exact padQueue_nf _
      · have h1 := rawGc_nf (c := c) (peek c s).1 (peek c s).2
        rcases hg : rawGc c (peek c s).1 (peek c s).2 with ⟨e | u, s1⟩
        · rw [hg] at h1; exact h1
        · exact nf_ok

end Dhara

/-
What the functions of dhara/journal.c do to the flags that tell whether a recovery is going on.
-/
import Verif.Proofs.Recov
import Verif.Props.FaultSpec
namespace Dhara

variable {c : Cfg}

/-- The recovery flags stay, the journal does not become clean. -/
structure Fg (s s' : S) : Prop where
  rcv : s'.j.recovery = s.j.recovery
  rn : s'.j.recoverNext = s.j.recoverNext
  dirty : s.j.dirty = true → s'.j.dirty = true
  root : s'.j.root = s.j.root

theorem Fg.refl (s : S) : Fg s s := ⟨rfl, rfl, id, rfl⟩
theorem Fg.trans {s s1 s2 : S} (h : Fg s s1) (h' : Fg s1 s2) : Fg s s2 :=
  ⟨h'.rcv.trans h.rcv, h'.rn.trans h.rn, fun h0 => h'.dirty (h.dirty h0), h'.root.trans h.root⟩

theorem rollIfZero_fg (j : Journal) : (rollIfZero j).recovery = j.recovery ∧ (rollIfZero j).recoverNext = j.recoverNext ∧
    (rollIfZero j).dirty = j.dirty ∧ (rollIfZero j).root = j.root := by
  unfold rollIfZero
  split <;> exact ⟨rfl, rfl, rfl, rfl⟩

theorem skipBlock_fg (s : S) : Fg s (skipBlock c s).2 := by
  unfold skipBlock
  simp only
  split
  · exact Fg.refl s
  · obtain ⟨h1, h2, h3, h4⟩ := rollIfZero_fg { s.j with head := nextBlock c (c.blk s.j.head) <<< c.log2Ppb }
    exact ⟨h1, h2, fun h => h3.trans h, h4⟩

theorem prepareHeadLoop_fg : ∀ i (s : S), Fg s (prepareHeadLoop c i s).2 := by
  intro i
  induction i with
  | zero => exact fun s => Fg.refl s
  | succ i ih =>
    intro s
    unfold prepareHeadLoop
    simp only
    split
    · exact ⟨rfl, rfl, id, rfl⟩
    · have h := skipBlock_fg (c := c) { s with j := { s.j with bbCurrent := s.j.bbCurrent + 1 } }
      generalize skipBlock c { s with j := { s.j with bbCurrent := s.j.bbCurrent + 1 } } = r at h ⊢
      obtain ⟨r, s1⟩ := r
      have h0 : Fg s s1 := ⟨h.rcv, h.rn, h.dirty, h.root⟩
      cases r with
      | error e => exact h0
      | ok u => exact h0.trans (ih s1)

theorem prepareHead_fg (s : S) : Fg s (prepareHead c s).2 ∧
    ((prepareHead c s).1 = .error .badBlock → (prepareHead c s).2.j.dirty = true) := by
  unfold prepareHead
  simp only
  split
  · exact ⟨Fg.refl s, fun h => by cases h⟩
  · split
    · exact ⟨⟨rfl, rfl, fun _ => rfl, rfl⟩, fun _ => rfl⟩
    · have h := prepareHeadLoop_fg (c := c) maxRetries { s with j := { s.j with dirty := true } }
      exact ⟨⟨h.rcv, h.rn, fun _ => h.dirty rfl, h.root⟩, fun _ => h.dirty rfl⟩

theorem dumpMetaLoop_fg : ∀ i (s : S), Fg s (dumpMetaLoop c i s).2 := by
  intro i
  induction i with
  | zero => exact fun s => Fg.refl s
  | succ i ih =>
    intro s
    unfold dumpMetaLoop
    simp only
    have h := (prepareHead_fg (c := c) s).1
    generalize prepareHead c s = r at h ⊢
    obtain ⟨r, s1⟩ := r
    have fin : ∀ (r : Except Err Unit) (s1 : S), Fg s s1 →
        Fg s (match (r, s1) with
          | (.ok (), s) =>
            ((.ok (), { s with j := { rollIfZero { s.j with recoverMeta := s.j.head, head := nextUpage c s.j.head } with
              pageBuf := hdrClearUser c (rollIfZero { s.j with recoverMeta := s.j.head, head := nextUpage c s.j.head }).pageBuf } }) : Except Err Unit × S)
          | (.error e, s) =>
            if e ≠ Err.badBlock then (Except.error e, s)
            else
              match skipBlock c { s with j := { s.j with bbCurrent := s.j.bbCurrent + 1 }, n := nandMarkBad c (c.blk s.j.head) s.n } with
              | (.error e, s) => (Except.error e, s)
              | (.ok (), s) => dumpMetaLoop c i s).2 := by
      intro r s1 h
      cases r with
      | ok u =>
        obtain ⟨h1, h2, h3, h4⟩ := rollIfZero_fg { s1.j with recoverMeta := s1.j.head, head := nextUpage c s1.j.head }
        exact h.trans ⟨h1, h2, fun h => h3.trans h, h4⟩
      | error e =>
        simp only
        split
        · exact h
        · have h' := skipBlock_fg (c := c) { s1 with j := { s1.j with bbCurrent := s1.j.bbCurrent + 1 }, n := nandMarkBad c (c.blk s1.j.head) s1.n }
          generalize skipBlock c { s1 with j := { s1.j with bbCurrent := s1.j.bbCurrent + 1 }, n := nandMarkBad c (c.blk s1.j.head) s1.n } = q at h' ⊢
          obtain ⟨q, s2⟩ := q
          have h0 : Fg s s2 := h.trans ⟨h'.rcv, h'.rn, h'.dirty, h'.root⟩
          cases q with
          | error e => exact h0
          | ok u => exact h0.trans (ih s2)
    cases r with
    | error e => exact fin (.error e) s1 h
    | ok u =>
      simp only
      exact fin (progS c s1.j.head s1.j.pageBuf s1).1 _ ⟨h.rcv, h.rn, h.dirty, h.root⟩

/-- `recover_from`: a block skipped; or a restarted recovery; or a power failure while the metadata is saved. -/
theorem recoverFrom_fg (s : S) :
    ((recoverFrom c .badBlock s).1 = .ok () → Fg s (recoverFrom c .badBlock s).2) ∧
    (s.j.recovery = true → (recoverFrom c .badBlock s).2.j.recovery = true) ∧
    ((recoverFrom c .badBlock s).1 = .error .powerLoss → (recoverFrom c .badBlock s).2.j.recoverNext = c.blockStart s.j.root) := by
  unfold recoverFrom
  rw [if_neg (by simp)]
  simp only
  have h := skipBlock_fg (c := c) { s with j := { s.j with bbCurrent := s.j.bbCurrent + 1 } }
  have hne : (skipBlock c { s with j := { s.j with bbCurrent := s.j.bbCurrent + 1 } }).1 ≠ .error .powerLoss := by
    unfold skipBlock
    simp only
    split <;> (intro h; cases h)
  generalize skipBlock c { s with j := { s.j with bbCurrent := s.j.bbCurrent + 1 } } = r at h hne ⊢
  obtain ⟨r, s1⟩ := r
  have h0 : Fg s s1 := ⟨h.rcv, h.rn, h.dirty, h.root⟩
  cases r with
  | error e => exact ⟨fun hh => (by cases hh), fun hh => h0.rcv.trans hh, fun hh => absurd hh hne⟩
  | ok u =>
    simp only
    by_cases hr : s1.j.recovery = true
    · rw [if_pos hr]
      refine ⟨fun hh => (by cases hh), fun _ => ?_, fun hh => (by cases hh)⟩
      unfold restartRecovery
      simp only
      split <;> exact hr
    · rw [if_neg hr]
      have hr0 : ¬ s.j.recovery = true := by rw [← h0.rcv]; exact hr
      split
      · exact ⟨fun _ => ⟨h0.rcv, h0.rn, h0.dirty, h0.root⟩, fun hh => absurd hh hr0, fun hh => by cases hh⟩
      · have key : ∀ q : Except Err Unit × S, q.2.j.recoverNext = c.blockStart s.j.root →
            ((match q with
              | (.error e, s) => (Except.error e, s)
              | (.ok (), s) => ((.error .recover, { s with j := { s.j with recovery := true } }) : Except Err Unit × S)).1 = .ok () → False) ∧
            ((match q with
              | (.error e, s) => (Except.error e, s)
              | (.ok (), s) => ((.error .recover, { s with j := { s.j with recovery := true } }) : Except Err Unit × S)).1 = .error .powerLoss →
             (match q with
              | (.error e, s) => (Except.error e, s)
              | (.ok (), s) => ((.error .recover, { s with j := { s.j with recovery := true } }) : Except Err Unit × S)).2.j.recoverNext = c.blockStart s.j.root) := by
          rintro ⟨q, s2⟩ hq
          cases q with
          | error e => exact ⟨fun hh => (by cases hh), fun _ => hq⟩
          | ok u => exact ⟨fun hh => (by cases hh), fun _ => hq⟩
        obtain ⟨k1, k2⟩ := key (if ¬ isAligned s.j.head c.log2Ppc = true then
            dumpMeta c { s1 with j := { s1.j with recoverRoot := s1.j.root, recoverNext := c.blockStart s1.j.root } }
          else (.ok (), { s1 with j := { s1.j with recoverRoot := s1.j.root, recoverNext := c.blockStart s1.j.root } })) (by
            split
            · exact ((dumpMetaLoop_fg (c := c) maxRetries _).rn).trans (by show c.blockStart s1.j.root = _; rw [h0.root])
            · show c.blockStart s1.j.root = _; rw [h0.root])
        exact ⟨fun hh => (k1 hh).elim, fun hh => absurd hh hr0, k2⟩

/-- A writer that leaves the journal alone. -/
def WrJ (wr : S → Except Err Unit × S) : Prop := ∀ s, (wr s).2.j = s.j

theorem wrData_j (d : Option Buf) : WrJ (wrData c d) := by
  intro s
  unfold wrData progS
  cases d <;> rfl

theorem wrCopy_j (p : Nat) : WrJ (wrCopy c p) := fun _ => rfl

/-- A push that fails does not end a recovery. -/
theorem pushLoop_rcv {wr : S → Except Err Unit × S} (hw : WrJ wr) (m : Option Buf) : ∀ i (s : S), s.j.recovery = true →
    (pushLoop c wr m i s).1 ≠ .ok () → (pushLoop c wr m i s).2.j.recovery = true := by
  intro i
  induction i with
  | zero => exact fun s h _ => h
  | succ i ih =>
    intro s h
    unfold pushLoop
    simp only
    have hp := (prepareHead_fg (c := c) s).1.rcv
    generalize prepareHead c s = r at hp ⊢
    obtain ⟨r, s1⟩ := r
    have fin : ∀ (e : Err) (s1 : S), s1.j.recovery = true →
        (match recoverFrom c e s1 with
          | (.error e, s) => (Except.error e, s)
          | (.ok (), s) => pushLoop c wr m i s).1 ≠ .ok () →
        (match recoverFrom c e s1 with
          | (.error e, s) => (Except.error e, s)
          | (.ok (), s) => pushLoop c wr m i s).2.j.recovery = true := by
      intro e s1 h1
      have hr : (recoverFrom c e s1).2.j.recovery = true := by
        by_cases he : e = .badBlock
        · subst he; exact (recoverFrom_fg s1).2.1 h1
        · rw [recoverFrom_ne he]; exact h1
      generalize recoverFrom c e s1 = q at hr ⊢
      obtain ⟨q, s2⟩ := q
      cases q with
      | error e => exact fun _ => hr
      | ok u => exact ih s2 hr
    cases r with
    | error e => exact fin e s1 (hp.trans h)
    | ok u =>
      simp only
      have hj := hw s1
      generalize wr s1 = q at hj ⊢
      obtain ⟨q, s2⟩ := q
      have h2 : s2.j.recovery = true := by rw [show s2.j = s1.j from hj]; exact hp.trans h
      cases q with
      | error e => exact fin e s2 h2
      | ok u =>
        simp only
        have hb : (bufferMeta c m s2.j).recovery = true := by
          unfold bufferMeta
          cases m <;> exact h2
        unfold pushMeta
        simp only
        split
        · exact fun hh => absurd rfl hh
        · have hq : (progS c ((fillHeader (bufferMeta c m s2.j)).head + 1) (fillHeader (bufferMeta c m s2.j)).pageBuf
              { s2 with j := fillHeader (bufferMeta c m s2.j) }).2.j.recovery = true := hb
          generalize progS c ((fillHeader (bufferMeta c m s2.j)).head + 1) (fillHeader (bufferMeta c m s2.j)).pageBuf
              { s2 with j := fillHeader (bufferMeta c m s2.j) } = x at hq ⊢
          obtain ⟨x, s3⟩ := x
          cases x with
          | ok u => exact fun hh => absurd rfl hh
          | error e =>
            intro _
            show (recoverFrom c e s3).2.j.recovery = true
            by_cases he : e = .badBlock
            · subst he; exact (recoverFrom_fg s3).2.1 hq
            · rw [recoverFrom_ne he]; exact hq

/-- The first page of the root's block is never "no page". -/
theorem blockStart_ne (hc : c.Valid) (p : Nat) : c.blockStart p ≠ NONE := by
  rw [blockStart_eq]
  have hp := hc.ppb_ge
  intro hh
  have : (0xffffffff : Nat) % c.ppb = 0 := by rw [← hh]; exact Nat.mul_mod_left _ _
  have hd : c.ppb ∣ 0xffffffff := Nat.dvd_of_mod_eq_zero this
  unfold Cfg.ppb at hd hp
  cases hl : c.log2Ppb with
  | zero => rw [hl] at hp; omega
  | succ k =>
    rw [hl, Nat.pow_succ] at hd
    have : 2 ∣ 0xffffffff := Nat.dvd_trans (Nat.dvd_mul_left 2 (2 ^ k)) hd
    omega

end Dhara

/-
The cookie (dhara/journal.h:26-30, 153-157) is changed by nobody but its user (C62).
-/
import Verif.Model.Map
namespace Dhara

variable {c : Cfg}

/-- The four bytes of the cookie are the same. -/
def CkB (a b : Buf) : Prop := ∀ i, 16 ≤ i → i < 20 → b i = a i

/-- The cookie is the same in both states. -/
def CkS (s s' : S) : Prop := CkB s.j.pageBuf s'.j.pageBuf

theorem CkS.refl (s : S) : CkS s s := fun _ _ _ => rfl
theorem CkS.trans {s t u : S} (h : CkS s t) (h' : CkS t u) : CkS s u := fun i h1 h2 => (h' i h1 h2).trans (h i h1 h2)
theorem CkS.of_eq {s s' : S} (h : s'.j.pageBuf = s.j.pageBuf) : CkS s s' := fun i _ _ => by rw [h]

theorem CkS.count {s s' : S} (h : CkS s s') : ckGetCount s'.j = ckGetCount s.j := by
  unfold ckGetCount r32
  rw [h 16 (by omega) (by omega), h (16 + 1) (by omega) (by omega), h (16 + 2) (by omega) (by omega), h (16 + 3) (by omega) (by omega)]

theorem rollIfZero_buf (j : Journal) : (rollIfZero j).pageBuf = j.pageBuf := by
  unfold rollIfZero rollStats; split <;> rfl

theorem hdrClearUser_cki (b : Buf) : CkB b (hdrClearUser c b) := by
  intro i h1 h2
  unfold hdrClearUser Buf.memset
  rw [if_neg (by omega)]

theorem bufferMeta_cki (mt : Option Buf) (j : Journal) : CkB j.pageBuf (bufferMeta c mt j).pageBuf := by
  intro i h1 h2
  unfold bufferMeta hdrUserOffset
  cases mt with
  | none => simp only [Buf.memset]; rw [if_neg (by omega)]
  | some m => simp only [Buf.memcpy]; rw [if_neg (by omega)]

theorem fillHeader_cki (j : Journal) : CkB j.pageBuf (fillHeader j).pageBuf := by
  intro i h1 h2
  unfold fillHeader hdrSetBbLast hdrSetBbCurrent hdrSetTail hdrSetEpoch hdrPutMagic w32 upd
  simp only
  repeat rw [if_neg (by omega)]

theorem skipBlock_cki (s : S) : CkS s (skipBlock c s).2 := by
  unfold skipBlock
  simp only
  split
  · exact .refl s
  · exact .of_eq (rollIfZero_buf _)

theorem prepareHeadLoop_cki : ∀ i (s : S), CkS s (prepareHeadLoop c i s).2 := by
  intro i
  induction i with
  | zero => intro s; exact .refl s
  | succ i ih =>
    intro s
    unfold prepareHeadLoop
    simp only
    split
    · exact .of_eq rfl
    · have h := skipBlock_cki (c := c) { s with j := { s.j with bbCurrent := s.j.bbCurrent + 1 } }
      split
      · next h1 => rw [h1] at h; exact h
      · next h1 => rw [h1] at h; exact CkS.trans (t := _) h (ih _)

theorem prepareHead_cki (s : S) : CkS s (prepareHead c s).2 := by
  unfold prepareHead
  simp only
  split
  · exact .refl s
  · split
    · exact .of_eq rfl
    · exact prepareHeadLoop_cki maxRetries { s with j := { s.j with dirty := true } }

theorem progS_cki (p : Nat) (d : Buf) (s : S) : CkS s (progS c p d s).2 := .of_eq rfl

theorem CkS.of {f : S → Except Err Unit × S} (hf : ∀ s, CkS s (f s).2) {s s' : S} {r : Except Err Unit} (h : f s = (r, s')) : CkS s s' := by
  have := hf s; rw [h] at this; exact this

theorem dumpMetaLoop_cki : ∀ i (s : S), CkS s (dumpMetaLoop c i s).2 := by
  intro i
  induction i with
  | zero => intro s; exact .refl s
  | succ i ih =>
    intro s
    unfold dumpMetaLoop
    simp only
    have fin : ∀ (e : Err) (s1 : S), CkS s s1 →
        CkS s (if e ≠ .badBlock then ((.error e, s1) : Except Err Unit × S)
          else match skipBlock c { { s1 with j := { s1.j with bbCurrent := s1.j.bbCurrent + 1 } } with
              n := nandMarkBad c (c.blk s1.j.head) s1.n } with
            | (.error e, s) => (.error e, s)
            | (.ok (), s) => dumpMetaLoop c i s).2 := by
      intro e s1 h0
      split
      · exact h0
      · split
        · next h2 => exact h0.trans (CkS.of skipBlock_cki h2 :)
        · next h2 => exact (h0.trans (CkS.of skipBlock_cki h2 :)).trans (ih _)
    rcases hp : prepareHead c s with ⟨e | ⟨⟩, s1⟩
    · simp only
      exact fin e s1 (CkS.of prepareHead_cki hp)
    · have h1 := CkS.of prepareHead_cki hp
      simp only
      rcases hq : progS c s1.j.head s1.j.pageBuf s1 with ⟨e | ⟨⟩, s2⟩
      · simp only
        exact fin e s2 (h1.trans (CkS.of (progS_cki _ _) hq))
      · simp only
        refine (h1.trans (CkS.of (progS_cki _ _) hq)).trans ?_
        intro i h1 h2
        refine (hdrClearUser_cki _ i h1 h2).trans ?_
        rw [rollIfZero_buf]

theorem recoverFrom_cki (e : Err) (s : S) : CkS s (recoverFrom c e s).2 := by
  unfold recoverFrom
  simp only
  split
  · exact .refl s
  · have h := skipBlock_cki (c := c) { s with j := { s.j with bbCurrent := s.j.bbCurrent + 1 } }
    split
    · next h1 => rw [h1] at h; exact h
    · next s1 h1 =>
      rw [h1] at h
      have h : CkS s s1 := h
      split
      · refine h.trans (.of_eq ?_)
        unfold restartRecovery
        simp only
        split <;> rfl
      · split
        · exact h.trans (.of_eq rfl)
        · generalize hr : (if ¬ (isAligned s.j.head c.log2Ppc = true) then
              dumpMeta c ⟨{ s1.j with recoverRoot := s1.j.root, recoverNext := c.blockStart s1.j.root }, s1.n, s1.count⟩
            else ((.ok (), ⟨{ s1.j with recoverRoot := s1.j.root, recoverNext := c.blockStart s1.j.root }, s1.n, s1.count⟩) : Except Err Unit × S)) = r
          have hk : CkS s r.2 := by
            rw [← hr]
            split
            · exact CkS.trans (t := ⟨{ s1.j with recoverRoot := s1.j.root, recoverNext := c.blockStart s1.j.root }, s1.n, s1.count⟩) h (dumpMetaLoop_cki _ _)
            · exact h
          clear hr
          obtain ⟨r1, s2⟩ := r
          split
          · next heq => have := (Prod.mk.inj heq).2; subst this; exact hk
          · next heq => have := (Prod.mk.inj heq).2; subst this; exact hk

theorem finishRecovery_cki (s : S) : CkS s (finishRecovery c s) := by
  unfold finishRecovery
  simp only
  split <;> exact .of_eq rfl

theorem commitPush_cki (p : Nat) (s : S) : CkS s (commitPush c p s) := by
  unfold commitPush
  simp only
  have h : CkS s { s with j := rollIfZero { s.j with dirty := false, root := p, head := nextUpage c s.j.head } } := .of_eq (rollIfZero_buf _)
  have h2 := h.trans (finishRecovery_cki (c := c) _)
  split <;> split <;> first | exact h2 | exact h

theorem pushMeta_cki (mt : Option Buf) (s : S) : CkS s (pushMeta c mt s).2 := by
  unfold pushMeta
  have hb : CkS s { s with j := bufferMeta c mt s.j } := bufferMeta_cki mt s.j
  simp only
  split
  · exact hb
  · have hf : CkS s { s with j := fillHeader (bufferMeta c mt s.j) } := hb.trans (fillHeader_cki _)
    split
    · next heq =>
      have := (Prod.mk.inj heq).2
      exact CkS.trans (hf.trans (.of_eq (by rw [← this]))) (recoverFrom_cki _ _)
    · next heq =>
      have := (Prod.mk.inj heq).2
      exact CkS.trans (hf.trans (.of_eq (by rw [← this]))) (commitPush_cki _ _)

theorem pushLoop_cki {wr : S → Except Err Unit × S} (hw : ∀ s, CkS s (wr s).2) (mt : Option Buf) :
    ∀ i (s : S), CkS s (pushLoop c wr mt i s).2 := by
  intro i
  induction i with
  | zero => intro s; exact .refl s
  | succ i ih =>
    intro s
    unfold pushLoop
    simp only
    have fin : ∀ (e : Err) (s1 : S), CkS s s1 →
        CkS s (match recoverFrom c e s1 with
            | (.error e, s) => ((.error e, s) : Except Err Unit × S)
            | (.ok (), s) => pushLoop c wr mt i s).2 := by
      intro e s1 h1
      split
      · next h2 => exact h1.trans (CkS.of (recoverFrom_cki e) h2 :)
      · next h2 => exact (h1.trans (CkS.of (recoverFrom_cki e) h2 :)).trans (ih _)
    rcases hp : prepareHead c s with ⟨e | ⟨⟩, s1⟩
    · simp only
      exact fin e s1 (CkS.of prepareHead_cki hp)
    · have h1 := CkS.of prepareHead_cki hp
      simp only
      rcases hq : wr s1 with ⟨e | ⟨⟩, s2⟩
      · simp only
        exact fin e s2 (h1.trans (CkS.of hw hq))
      · simp only
        exact (h1.trans (CkS.of hw hq)).trans (pushMeta_cki _ _)

theorem enqueue_ckS (d m : Option Buf) (s : S) : CkS s (enqueue c d m s).2 := by
  refine pushLoop_cki (fun s => ?_) _ _ _
  unfold wrData
  cases d
  · exact .refl _
  · exact progS_cki _ _ _

theorem journalCopy_ckS (p : Nat) (m : Buf) (s : S) : CkS s (journalCopy c p m s).2 :=
  pushLoop_cki (fun _ => .of_eq rfl) _ _ _

theorem peekLoop_cki : ∀ i b (s : S), CkS s (peekLoop c i b s).2 := by
  intro i
  induction i with
  | zero => intro b s; exact .refl s
  | succ i ih =>
    intro b s
    unfold peekLoop
    simp only
    split
    · split <;> exact .of_eq rfl
    · exact ih _ _

theorem peek_ckS (s : S) : CkS s (peek c s).2 := by
  unfold peek
  split
  · exact .refl s
  · split
    · exact peekLoop_cki _ _ _
    · exact .refl s

theorem dequeue_ckS (s : S) : CkS s (dequeue c s) := by
  unfold dequeue
  simp only
  split
  · exact .refl s
  · refine .of_eq ?_
    simp only
    split <;> split <;> rfl

theorem journalClear_ckS (s : S) : CkS s (journalClear c s) := hdrClearUser_cki s.j.pageBuf

theorem nextRecoverable_ckS (s : S) : CkS s (nextRecoverable c s).2 := by
  unfold nextRecoverable
  simp only
  split
  · exact .refl s
  · split
    · exact .refl s
    · split <;> exact .of_eq rfl

end Dhara

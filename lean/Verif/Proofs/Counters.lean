/-
The counters of bad blocks (dhara/journal.h:111-113) stay in range as long as no call reports E_JOURNAL_FULL (C66).
-/
import Verif.Proofs.Closed
import Verif.Props.JournalSpec
namespace Dhara

variable {c : Cfg}

/-- The counters are in range: as many blocks have been passed over in this round as there are blocks before the head, at most. -/
structure BC (c : Cfg) (j : Journal) : Prop where
  head : j.head < c.pages
  user : c.isU j.head
  cur : j.bbCurrent ≤ c.blk j.head
  last : j.bbLast ≤ c.numBlocks

/-- The call was refused, or the counters are in range. -/
def BP (c : Cfg) {α : Type} (x : Except Err α × S) : Prop := x.1 = .error .journalFull ∨ BC c x.2.j

theorem BC.of_eq {j j' : Journal} (h : BC c j) (h1 : j'.head = j.head) (h2 : j'.bbCurrent = j.bbCurrent) (h3 : j'.bbLast = j.bbLast) : BC c j' :=
  ⟨by rw [h1]; exact h.head, by rw [h1]; exact h.user, by rw [h1, h2]; exact h.cur, by rw [h3]; exact h.last⟩

/-- The head goes on: either to a later page, or round to 0. -/
theorem BC.roll {j : Journal} (h1 : j.head < c.pages) (h2 : c.isU j.head) (h3 : j.bbLast ≤ c.numBlocks) (h4 : j.bbCurrent ≤ c.numBlocks)
    (h5 : j.head ≠ 0 → j.bbCurrent ≤ c.blk j.head) : BC c (rollIfZero j) := by
  unfold rollIfZero rollStats
  split
  · exact ⟨h1, h2, Nat.zero_le _, h4⟩
  · next h => exact ⟨h1, h2, h5 h, h3⟩

theorem blk_mono {p q : Nat} (h : p ≤ q) : c.blk p ≤ c.blk q := by
  rw [blk_eq, blk_eq]; exact Nat.div_le_div_right h

theorem blk_shl (k : Nat) : c.blk (k <<< c.log2Ppb) = k := by
  rw [blk_eq, shl_ppb]; exact Nat.mul_div_cancel _ (ppb_pos c)

theorem BC.next (hc : c.Valid) {j : Journal} (h : BC c j) (j' : Journal) (h1 : j'.head = nextUpage c j.head) (h2 : j'.bbCurrent = j.bbCurrent)
    (h3 : j'.bbLast = j.bbLast) : BC c (rollIfZero j') := by
  have hb := blk_ok h.head
  have hcur := h.cur
  refine .roll (by rw [h1]; exact nextUpage_ok hc h.head) (by rw [h1]; exact nextUpage_user hc h.head h.user) (by rw [h3]; exact h.last) (by rw [h2]; omega) ?_
  intro h0
  rw [h1] at h0 ⊢
  rw [h2]
  refine Nat.le_trans h.cur (blk_mono ?_)
  revert h0
  unfold nextUpage
  simp only
  split <;> split <;> omega

theorem skipBlock_bc (hc : c.Valid) {s : S} (h1 : s.j.head < c.pages) (h2 : s.j.bbCurrent ≤ c.blk s.j.head + 1) (h3 : s.j.bbLast ≤ c.numBlocks) :
    BP c (skipBlock c s) := by
  have hb := blk_ok h1
  unfold skipBlock
  simp only
  split
  · exact .inl rfl
  · refine .inr (.roll (start_ok (nextBlock_ok hc _)) (start_user hc _) h3 (Nat.le_trans h2 hb) ?_)
    intro h0
    simp only at h0 ⊢
    rw [blk_shl]
    unfold nextBlock at h0 ⊢
    split at h0 <;> split
    · simp only [Nat.zero_shiftLeft] at h0; omega
    · omega
    · omega
    · exact h2

theorem BC.skip (hc : c.Valid) {s : S} (h : BC c s.j) (n : Nand) :
    BP c (skipBlock c { s with j := { s.j with bbCurrent := s.j.bbCurrent + 1 }, n := n }) :=
  skipBlock_bc hc h.head (Nat.succ_le_succ h.cur) h.last

theorem BP.of {α : Type} {x : Except Err α × S} (h : BP c x) {r : Except Err α} {s : S} (e : x = (r, s)) (hr : r ≠ .error .journalFull) : BC c s.j := by
  subst e
  exact h.resolve_left hr

theorem BP.err {x : Except Err Unit × S} (h : BP c x) {e : Err} {s : S} (he : x = (.error e, s)) : BP c ((.error e, s) : Except Err Unit × S) := by
  rw [← he]; exact h

theorem prepareHeadLoop_bc (hc : c.Valid) : ∀ i (s : S), BC c s.j → BP c (prepareHeadLoop c i s) := by
  intro i
  induction i with
  | zero => intro s h; exact .inr h
  | succ i ih =>
    intro s h
    unfold prepareHeadLoop
    simp only
    split
    · exact .inr h
    · have h1 := h.skip hc s.n
      split
      · next h2 => exact h1.err h2
      · next h2 => exact ih _ (h1.of h2 (by simp))

theorem prepareHead_bc (hc : c.Valid) {s : S} (h : BC c s.j) : BP c (prepareHead c s) := by
  unfold prepareHead
  simp only
  split
  · exact .inl rfl
  · split
    · exact .inr (h.of_eq rfl rfl rfl)
    · exact prepareHeadLoop_bc hc _ _ (h.of_eq rfl rfl rfl)

theorem dumpMetaLoop_bc (hc : c.Valid) : ∀ i (s : S), BC c s.j → BP c (dumpMetaLoop c i s) := by
  intro i
  induction i with
  | zero => intro s h; exact .inr h
  | succ i ih =>
    intro s h
    unfold dumpMetaLoop
    simp only
    have fin : ∀ (e : Err) (s1 : S), (e = .journalFull ∨ BC c s1.j) →
        BP c (if e ≠ .badBlock then ((.error e, s1) : Except Err Unit × S)
          else match skipBlock c { { s1 with j := { s1.j with bbCurrent := s1.j.bbCurrent + 1 } } with
              n := nandMarkBad c (c.blk s1.j.head) s1.n } with
            | (.error e, s) => (.error e, s)
            | (.ok (), s) => dumpMetaLoop c i s) := by
      intro e s1 h0
      rcases h0 with rfl | h0
      · exact .inl rfl
      split
      · exact .inr h0
      · have h1 := h0.skip hc (nandMarkBad c (c.blk s1.j.head) s1.n)
        split
        · next h2 => exact h1.err h2
        · next h2 => exact ih _ (h1.of h2 (by simp))
    have h1 := prepareHead_bc hc h
    rcases hp : prepareHead c s with ⟨e | ⟨⟩, s1⟩
    · simp only
      refine fin e s1 ?_
      rw [hp] at h1
      rcases h1 with h1 | h1
      · exact .inl (Except.error.inj h1)
      · exact .inr h1
    · have h2 := h1.of hp (by simp)
      simp only
      rcases hq : progS c s1.j.head s1.j.pageBuf s1 with ⟨e | ⟨⟩, s2⟩
      · simp only
        have hj : s2.j = s1.j := by have := congrArg (fun x => x.2.j) hq; exact this.symm
        exact fin e s2 (.inr (by rw [hj]; exact h2))
      · simp only
        have hj : s2.j = s1.j := by have := congrArg (fun x => x.2.j) hq; exact this.symm
        rw [← hj] at h2
        exact .inr ((h2.next hc { s2.j with recoverMeta := s2.j.head, head := nextUpage c s2.j.head } rfl rfl rfl).of_eq rfl rfl rfl)

theorem restartRecovery_bc (k : Nat) {s : S} (h : BC c s.j) : BC c (restartRecovery c k s).j := by
  unfold restartRecovery
  simp only
  split <;> exact h.of_eq rfl rfl rfl

theorem recoverFrom_bc (hc : c.Valid) (e : Err) {s : S} (h : e = .journalFull ∨ BC c s.j) : BP c (recoverFrom c e s) := by
  unfold recoverFrom
  simp only
  rcases h with rfl | h
  · exact .inl rfl
  split
  · exact .inr h
  · have h0 := h.skip hc s.n
    split
    · next h1 => exact h0.err h1
    · next s1 h1 =>
      have h2 : BC c s1.j := h0.of h1 (by simp)
      split
      · exact .inr (restartRecovery_bc _ h2)
      · split
        · exact .inr h2
        · generalize hr : (if ¬ (isAligned s.j.head c.log2Ppc = true) then
              dumpMeta c ⟨{ s1.j with recoverRoot := s1.j.root, recoverNext := c.blockStart s1.j.root }, s1.n, s1.count⟩
            else ((.ok (), ⟨{ s1.j with recoverRoot := s1.j.root, recoverNext := c.blockStart s1.j.root }, s1.n, s1.count⟩) : Except Err Unit × S)) = r
          have hk : BP c r := by
            rw [← hr]
            split
            · exact dumpMetaLoop_bc hc _ _ (h2.of_eq rfl rfl rfl)
            · exact .inr (h2.of_eq rfl rfl rfl)
          clear hr
          split
          · exact hk
          · next s2 => exact .inr ((hk.of rfl (by simp)).of_eq rfl rfl rfl)

theorem finishRecovery_bc {s : S} (h : BC c s.j) : BC c (finishRecovery c s).j := by
  unfold finishRecovery
  simp only
  split <;> exact h.of_eq rfl rfl rfl

theorem commitPush_bc (hc : c.Valid) (k : Nat) {s : S} (h : BC c s.j) : BC c (commitPush c k s).j := by
  have h1 := h.next hc { s.j with dirty := false, root := k, head := nextUpage c s.j.head } rfl rfl rfl
  have last : ∀ v : S, BC c v.j → BC c (if ¬ v.j.recovery then { v with j := { v.j with tailSync := v.j.tail } } else v : S).j := by
    intro v hv
    split
    · exact hv.of_eq rfl rfl rfl
    · exact hv
  have mid : ∀ v : S, BC c v.j → BC c (if v.j.enumDone then finishRecovery c v else v).j := by
    intro v hv
    split
    · exact finishRecovery_bc hv
    · exact hv
  exact last _ (mid _ h1)

theorem pushMeta_bc (hc : c.Valid) (mt : Option Buf) {s : S} (h : BC c s.j) : BP c (pushMeta c mt s) := by
  have h1 : BC c (bufferMeta c mt s.j) := by unfold bufferMeta; cases mt <;> exact h.of_eq rfl rfl rfl
  have eh : (bufferMeta c mt s.j).head = s.j.head := by unfold bufferMeta; cases mt <;> rfl
  unfold pushMeta
  simp only
  split
  · rename_i ha
    rw [eh] at ha
    refine .inr ?_
    have hlt := succ_ok hc h.head h.user
    have hu : c.isU (s.j.head + 1) := by
      rcases nextV_cases hc h.user with ⟨a1, a2, a3⟩ | ⟨a1, a2, a3⟩
      · have := hc.ppc_ge; unfold Cfg.isU; omega
      · exact absurd (isAligned_iff.2 a3) ha
    refine ⟨by simp only [eh]; exact hlt, by simp only [eh]; exact hu, ?_, h1.last⟩
    have := h1.cur
    rw [eh] at this
    simp only [eh]
    exact Nat.le_trans this (blk_mono (Nat.le_succ _))
  · have h2 : BC c (fillHeader (bufferMeta c mt s.j)) := h1.of_eq rfl rfl rfl
    split
    · next heq =>
      have := congrArg (fun x => x.2.j) heq
      have this : fillHeader (bufferMeta c mt s.j) = _ := this
      exact recoverFrom_bc hc _ (.inr (by rw [this] at h2; exact h2))
    · next heq =>
      have := congrArg (fun x => x.2.j) heq
      have this : fillHeader (bufferMeta c mt s.j) = _ := this
      exact .inr (commitPush_bc hc _ (by rw [this] at h2; exact h2))

theorem pushLoop_bc (hc : c.Valid) {wr : S → Except Err Unit × S} (hw : ∀ s, (wr s).2.j = s.j) (mt : Option Buf) :
    ∀ i (s : S), BC c s.j → BP c (pushLoop c wr mt i s) := by
  intro i
  induction i with
  | zero => intro s h; exact .inr h
  | succ i ih =>
    intro s h
    unfold pushLoop
    simp only
    have fin : ∀ (e : Err) (s1 : S), (e = .journalFull ∨ BC c s1.j) →
        BP c (match recoverFrom c e s1 with
            | (.error e, s) => ((.error e, s) : Except Err Unit × S)
            | (.ok (), s) => pushLoop c wr mt i s) := by
      intro e s1 h0
      have h1 := recoverFrom_bc hc e h0
      split
      · next h2 => exact h1.err h2
      · next h2 => exact ih _ (h1.of h2 (by simp))
    have h1 := prepareHead_bc hc h
    rcases hp : prepareHead c s with ⟨e | ⟨⟩, s1⟩
    · simp only
      refine fin e s1 ?_
      rw [hp] at h1
      rcases h1 with h1 | h1
      · exact .inl (Except.error.inj h1)
      · exact .inr h1
    · have h2 := h1.of hp (by simp)
      simp only
      have hj := hw s1
      rcases hq : wr s1 with ⟨e | ⟨⟩, s2⟩
      · rw [hq] at hj; simp only at hj ⊢
        exact fin e s2 (.inr (by rw [hj]; exact h2))
      · rw [hq] at hj; simp only at hj ⊢
        exact pushMeta_bc hc _ (by rw [hj]; exact h2)

theorem enqueue_bc (hc : c.Valid) (d m : Option Buf) {s : S} (h : BC c s.j) : BP c (enqueue c d m s) := by
  refine pushLoop_bc hc (fun s => ?_) _ _ _ h
  unfold wrData
  cases d <;> rfl

theorem journalCopy_bc (hc : c.Valid) (p : Nat) (m : Buf) {s : S} (h : BC c s.j) : BP c (journalCopy c p m s) :=
  pushLoop_bc hc (fun _ => rfl) _ _ _ h

theorem peekLoop_bc : ∀ i b (s : S), BC c s.j → BC c (peekLoop c i b s).2.j := by
  intro i
  induction i with
  | zero => intro b s h; exact h
  | succ i ih =>
    intro b s h
    unfold peekLoop
    simp only
    split
    · split <;> exact h.of_eq rfl rfl rfl
    · exact ih _ _ h

theorem peek_bc {s : S} (h : BC c s.j) : BC c (peek c s).2.j := by
  unfold peek
  split
  · exact h
  · split
    · exact peekLoop_bc _ _ _ h
    · exact h

theorem dequeue_bc {s : S} (h : BC c s.j) : BC c (dequeue c s).j := by
  unfold dequeue
  simp only
  split
  · exact h
  · simp only
    split <;> split <;> exact h.of_eq rfl rfl rfl

theorem nextRecoverable_bc {s : S} (h : BC c s.j) : BC c (nextRecoverable c s).2.j := by
  unfold nextRecoverable
  simp only
  split
  · exact h
  · split
    · exact h
    · split <;> exact h.of_eq rfl rfl rfl

theorem resetJournal_bc (hc : c.Valid) (j : Journal) : BC c (resetJournal c j) := by
  refine ⟨hc.pages_pos, ?_, Nat.zero_le _, ?_⟩
  · exact isU_of_aligned hc (Nat.zero_mod _)
  · show c.numBlocks >>> 6 ≤ c.numBlocks
    rw [Nat.shiftRight_eq_div_pow]; exact Nat.div_le_self _ _

theorem bc_closed (hc : c.Valid) : JCl c (fun s => BC c s.j) where
  enq := fun d m _ h => enqueue_bc hc d m h
  cpy := fun p m _ h => journalCopy_bc hc p m h
  peek := fun _ h => peek_bc h
  deq := fun _ h => dequeue_bc h
  nxt := fun _ h => nextRecoverable_bc h
  clr := fun _ h => h.of_eq rfl rfl rfl
  ck := fun _ _ h => h.of_eq rfl rfl rfl
  cnt := fun _ _ h => h
  tick := fun _ h => h

theorem step_bc (hc : c.Valid) (op : Op) {s : S} (h : BC c s.j) : BP c (step c op s) := step_cl (bc_closed hc) op h

theorem jcall_bc (hc : c.Valid) (op : JOp) {s : S} (h : BC c s.j) : BP c (jcall c op s) := by
  cases op with
  | enqueue d m => exact enqueue_bc hc d m h
  | copy p m => exact journalCopy_bc hc p m h
  | dequeue => exact .inr (dequeue_bc h)
  | peek => exact .inr (peek_bc h)
  | clear => exact .inr (h.of_eq rfl rfl rfl)
  | next => exact .inr (nextRecoverable_bc h)

end Dhara

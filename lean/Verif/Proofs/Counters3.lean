/-
On a chip on which no operation fails the counters count exactly the bad blocks (C67).
-/
import Verif.Proofs.Counters2
import Verif.Props.FaultSpec
namespace Dhara

variable {c : Cfg} {B : Nat → Bool} {bl h0 : Nat}

theorem prog_bad (p : Nat) (d : Buf) (n : Nand) : (nandProg c p d n).2.chip.bad = n.chip.bad := by
  unfold nandProg
  split
  · rfl
  · simp only; split <;> rfl

theorem erase_bad (k : Nat) (n : Nand) : (nandErase c k n).2.chip.bad = n.chip.bad := by
  unfold nandErase
  split
  · rfl
  · simp only; split <;> rfl

theorem prog_healthy (hh : Healthy c) (p : Nat) (d : Buf) (n : Nand) : (nandProg c p d n).1 ≠ .error .badBlock := by
  unfold nandProg
  split
  · intro h; cases h
  · simp only
    split
    · intro h; cases h
    · next h => exact absurd h (hh _).1
    all_goals (intro h; cases h)

theorem erase_healthy (hh : Healthy c) (k : Nat) (n : Nand) : (nandErase c k n).1 ≠ .error .badBlock := by
  unfold nandErase
  split
  · intro h; cases h
  · simp only
    split
    · intro h; cases h
    · next h => exact absurd h (hh _).2
    all_goals (intro h; cases h)

/-- The counters are exact; `B` is the bad block table, `bl` and `h0` the count of the last round and the head at some earlier time. -/
structure XC (c : Cfg) (B : Nat → Bool) (bl h0 : Nat) (s : S) : Prop where
  head : s.j.head < c.pages
  user : c.isU s.j.head
  bad : s.n.chip.bad = B
  cur : s.j.bbCurrent = cnt B (c.blk s.j.head)
  good : s.j.head % c.ppb ≠ 0 → B (c.blk s.j.head) = false
  last : s.j.bbLast = cnt B c.numBlocks ∨ (s.j.bbLast = bl ∧ h0 ≤ s.j.head)
  rcv : s.j.recovery = false
  ed : s.j.enumDone = false

theorem XC.soft {s s' : S} (h : XC c B bl h0 s) (hn : s'.n.chip.bad = s.n.chip.bad) (h1 : s'.j.head = s.j.head) (h2 : s'.j.bbCurrent = s.j.bbCurrent)
    (h3 : s'.j.bbLast = s.j.bbLast) (h4 : s'.j.recovery = s.j.recovery) (h5 : s'.j.enumDone = s.j.enumDone) : XC c B bl h0 s' :=
  ⟨by rw [h1]; exact h.head, by rw [h1]; exact h.user, hn.trans h.bad, by rw [h2, h1]; exact h.cur, by rw [h1]; exact h.good,
   by rw [h3, h1]; exact h.last, h4.trans h.rcv, h5.trans h.ed⟩

/-- The head moves on, possibly round the end. -/
theorem XC.roll {j : Journal} {n : Nand} {k : Nat} (h1 : j.head < c.pages) (h2 : c.isU j.head) (hb : n.chip.bad = B)
    (h3 : j.head ≠ 0 → j.bbLast = cnt B c.numBlocks ∨ (j.bbLast = bl ∧ h0 ≤ j.head)) (h4 : j.head = 0 → j.bbCurrent = cnt B c.numBlocks)
    (h5 : j.head ≠ 0 → j.bbCurrent = cnt B (c.blk j.head)) (h6 : j.head % c.ppb ≠ 0 → B (c.blk j.head) = false)
    (h7 : j.recovery = false) (h8 : j.enumDone = false) : XC c B bl h0 ⟨rollIfZero j, n, k⟩ := by
  unfold rollIfZero rollStats
  split
  · next h =>
    refine ⟨h1, h2, hb, ?_, h6, .inl (h4 h), h7, h8⟩
    show 0 = cnt B (c.blk j.head)
    rw [h, blk_eq, Nat.zero_div]; rfl
  · next h => exact ⟨h1, h2, hb, h5 h, h6, h3 h, h7, h8⟩

theorem XC.next (hc : c.Valid) {s : S} (h : XC c B bl h0 s) (hg : B (c.blk s.j.head) = false) (j' : Journal) (n : Nand) (k : Nat) (hn : n.chip.bad = s.n.chip.bad)
    (h1 : j'.head = nextUpage c s.j.head) (h2 : j'.bbCurrent = s.j.bbCurrent) (h3 : j'.bbLast = s.j.bbLast) (h4 : j'.recovery = s.j.recovery)
    (h5 : j'.enumDone = s.j.enumDone) : XC c B bl h0 ⟨rollIfZero j', n, k⟩ := by
  have hp := nextUpage_ph hc h.user
  rw [ph_of_lt h.head] at hp
  have hblk := blk_ok h.head
  rw [blk_eq] at hblk
  have hs : cnt B (s.j.head / c.ppb + 1) = cnt B (s.j.head / c.ppb) := by
    rw [cnt_succ, ← blk_eq, hg]; rfl
  have hcur := h.cur
  rw [blk_eq] at hcur hg
  have hlt := lt_nextV c s.j.head
  rcases Nat.lt_or_ge (c.nextV s.j.head) c.pages with hv | hv
  · rw [ph_of_lt hv] at hp
    refine .roll (by rw [h1, hp]; exact hv) (by rw [h1, hp]; exact nextV_isU hc h.user) (hn.trans h.bad) (fun _ => ?_) (fun hz => ?_) (fun _ => ?_) ?_ (h4.trans h.rcv) (h5.trans h.ed)
    · rw [h3, h1, hp]
      exact h.last.imp id fun h => ⟨h.1, by omega⟩
    · rw [h1, hp] at hz; omega
    · rw [h2, hcur, h1, hp, blk_eq]
      rcases nextV_blk hc h.user with ⟨e, _⟩ | ⟨e, _⟩
      · rw [e]
      · rw [e, hs]
    · rw [h1, hp, blk_eq]
      intro hz
      rcases nextV_blk hc h.user with ⟨e, _⟩ | ⟨_, e⟩
      · rw [e]; exact hg
      · exact absurd e hz
  · have h5' := (Nat.le_div_iff_mul_le (ppb_pos c)).2 (show c.numBlocks * c.ppb ≤ c.nextV s.j.head from hv)
    have hb : c.nextV s.j.head / c.ppb = c.numBlocks ∧ s.j.head / c.ppb + 1 = c.numBlocks ∧ c.nextV s.j.head % c.ppb = 0 := by
      rcases nextV_blk hc h.user with ⟨e, _⟩ | ⟨e, e'⟩ <;> omega
    have hz : nextUpage c s.j.head = 0 := by
      have hd := div_mod_range (c.nextV s.j.head) c.ppb
      have : c.nextV s.j.head = c.pages := by
        have := Nat.div_add_mod (c.nextV s.j.head) c.ppb
        rw [hb.1, hb.2.2, Nat.add_zero, Nat.mul_comm] at this
        exact this.symm
      rw [hp, this]; unfold Cfg.ph; exact Nat.mod_self _
    refine .roll (by rw [h1]; exact nextUpage_ok hc h.head) (by rw [h1]; exact nextUpage_user hc h.head h.user) (hn.trans h.bad)
      (fun hne => absurd (h1.trans hz) hne) (fun _ => ?_) (fun hne => absurd (h1.trans hz) hne) ?_ (h4.trans h.rcv) (h5.trans h.ed)
    · rw [h2, hcur, ← hs, hb.2.1]
    · intro hne; rw [h1, hz, Nat.zero_mod] at hne; exact absurd rfl hne

theorem XC.skip (hc : c.Valid) {s s' : S} (h : XC c B bl h0 s) (hk : B (c.blk s.j.head) = true)
    (e : skipBlock c { s with j := { s.j with bbCurrent := s.j.bbCurrent + 1 } } = (.ok (), s')) : XC c B bl h0 s' ∧ s'.j.head % c.ppb = 0 := by
  have hal := (skip_kj e).2.2.2.2.2.2
  refine ⟨?_, hal⟩
  have hb := blk_ok h.head
  have h1 : s.j.bbCurrent + 1 = cnt B (c.blk s.j.head + 1) := by rw [cnt_succ, if_pos hk, h.cur]
  have hP := ppb_pos c
  have hd := div_mod_range s.j.head c.ppb
  have hm := mod_ppb_lt c s.j.head
  unfold skipBlock at e
  simp only at e
  split at e
  · cases e
  · cases e
    have ha : nextBlock c (c.blk s.j.head) <<< c.log2Ppb % c.ppb = 0 := by rw [shl_ppb]; exact Nat.mul_mod_left _ _
    refine .roll (start_ok (nextBlock_ok hc _)) (start_user hc _) h.bad ?_ ?_ ?_ (fun hz => absurd ha hz) h.rcv h.ed
    · intro hz
      simp only at hz ⊢
      refine h.last.imp id fun h => ⟨h.1, ?_⟩
      unfold nextBlock at hz ⊢
      rw [shl_ppb] at hz ⊢
      split at hz
      · simp at hz
      · next hx =>
        rw [if_neg hx, blk_eq, Nat.add_mul, Nat.one_mul]
        omega
    · intro hz
      simp only at hz ⊢
      rw [h1]
      unfold nextBlock at hz
      rw [shl_ppb] at hz
      split at hz
      · next hx => rw [show c.blk s.j.head + 1 = c.numBlocks by omega]
      · rw [Nat.mul_eq_zero] at hz; omega
    · intro hz
      simp only at hz ⊢
      rw [blk_shl, h1]
      unfold nextBlock at hz ⊢
      rw [shl_ppb] at hz
      split at hz
      · simp at hz
      · next hx => rw [if_neg hx]

theorem prepareHeadLoop_xc (hc : c.Valid) (hh : Healthy c) : ∀ i (s : S), XC c B bl h0 s → s.j.head % c.ppb = 0 →
    (prepareHeadLoop c i s).1 ≠ .error .journalFull → XC c B bl h0 (prepareHeadLoop c i s).2 ∧
      ((prepareHeadLoop c i s).1 = .ok () → B (c.blk (prepareHeadLoop c i s).2.j.head) = false) ∧ (prepareHeadLoop c i s).1 ≠ .error .badBlock := by
  intro i
  induction i with
  | zero => intro s h _ _; exact ⟨h, (fun h => by cases h), (fun h => by cases h)⟩
  | succ i ih =>
    intro s h hz
    unfold prepareHeadLoop
    simp only
    split
    · next hb =>
      intro _
      refine ⟨h.soft (erase_bad _ _) rfl rfl rfl rfl rfl, fun _ => ?_, erase_healthy hh _ _⟩
      have : s.n.chip.bad (c.blk s.j.head) = false := by simpa [nandIsBad] using hb
      rw [h.bad] at this; exact this
    · next hb =>
      have hk : B (c.blk s.j.head) = true := by
        have : s.n.chip.bad (c.blk s.j.head) = true := by simpa [nandIsBad] using hb
        rw [h.bad] at this; exact this
      split
      · next e s1 e1 =>
        intro hne
        unfold skipBlock at e1
        simp only at e1
        split at e1
        · cases e1; exact absurd rfl hne
        · cases e1
      · next s1 e1 =>
        intro hne
        obtain ⟨a, b⟩ := h.skip hc hk e1
        exact ih s1 a b hne

theorem prepareHead_xc (hc : c.Valid) (hh : Healthy c) {s : S} (h : XC c B bl h0 s) (hne : (prepareHead c s).1 ≠ .error .journalFull) :
    XC c B bl h0 (prepareHead c s).2 ∧ ((prepareHead c s).1 = .ok () → B (c.blk (prepareHead c s).2.j.head) = false) ∧ (prepareHead c s).1 ≠ .error .badBlock := by
  revert hne
  unfold prepareHead
  simp only
  split
  · intro hne; exact absurd rfl hne
  · split
    · next hal =>
      intro _
      refine ⟨h.soft rfl rfl rfl rfl rfl rfl, fun _ => h.good fun hz => ?_, (fun h => by cases h)⟩
      exact hal (isAligned_iff.2 hz)
    · next hal =>
      have hz : s.j.head % c.ppb = 0 := isAligned_iff.1 (by simpa using hal)
      exact prepareHeadLoop_xc hc hh maxRetries { s with j := { s.j with dirty := true } } (h.soft rfl rfl rfl rfl rfl rfl) hz

theorem pushMeta_xc (hc : c.Valid) (hh : Healthy c) (m : Option Buf) {s : S} (h : XC c B bl h0 s) (hg : B (c.blk s.j.head) = false) :
    XC c B bl h0 (pushMeta c m s).2 := by
  have hb : ∃ b, bufferMeta c m s.j = { s.j with pageBuf := b } := by unfold bufferMeta; cases m <;> exact ⟨_, rfl⟩
  obtain ⟨b, hb⟩ := hb
  unfold pushMeta
  simp only
  rw [hb]
  simp only
  split
  · rename_i ha
    have hlt := succ_ok hc h.head h.user
    have hc1 : nextUpage c s.j.head = s.j.head + 1 := by
      have h1 := nextUpage_ph hc h.user
      rw [ph_of_lt h.head] at h1
      rcases nextV_cases hc h.user with ⟨a1, a2, a3⟩ | ⟨a1, a2, a3⟩
      · rw [a2, ph_of_lt hlt] at h1; exact h1
      · exact absurd (isAligned_iff.2 a3) ha
    have := h.next hc hg { s.j with pageBuf := b, root := s.j.head, head := s.j.head + 1 } s.n s.count rfl hc1.symm rfl rfl rfl rfl
    unfold rollIfZero at this
    rw [if_neg (by simp)] at this
    exact this
  · split
    · next e s2 e1 =>
      have hj : s2.j = fillHeader { s.j with pageBuf := b } := by have := congrArg (fun x => x.2.j) e1; exact this.symm
      have hn : s2.n.chip.bad = s.n.chip.bad := by have := congrArg (fun x => x.2.n.chip.bad) e1; exact this.symm.trans (prog_bad _ _ _)
      have he : e ≠ .badBlock := by
        intro he; subst he
        have := congrArg Prod.fst e1
        exact prog_healthy hh _ _ _ this
      rw [recoverFrom_ne he]
      exact h.soft hn (by rw [hj]; rfl) (by rw [hj]; rfl) (by rw [hj]; rfl) (by rw [hj]; rfl) (by rw [hj]; rfl)
    · next s2 e1 =>
      have hj : s2.j = fillHeader { s.j with pageBuf := b } := by have := congrArg (fun x => x.2.j) e1; exact this.symm
      have hn : s2.n.chip.bad = s.n.chip.bad := by have := congrArg (fun x => x.2.n.chip.bad) e1; exact this.symm.trans (prog_bad _ _ _)
      have h1 := h.next hc hg { s2.j with dirty := false, root := s.j.head, head := nextUpage c s2.j.head } s2.n s2.count hn (by rw [hj]; rfl) (by rw [hj]; rfl) (by rw [hj]; rfl) (by rw [hj]; rfl) (by rw [hj]; rfl)
      show XC c B bl h0 (commitPush c s.j.head s2)
      unfold commitPush
      simp only
      rw [if_neg (c := (rollIfZero _).enumDone = true) (by rw [h1.ed]; simp)]
      split
      · exact h1.soft rfl rfl rfl rfl rfl rfl
      · exact h1

theorem pushLoop_xc (hc : c.Valid) (hh : Healthy c) {wr : S → Except Err Unit × S} (hw : ∀ s, (wr s).2.j = s.j ∧ (wr s).2.n.chip.bad = s.n.chip.bad ∧ (wr s).1 ≠ .error .badBlock)
    (m : Option Buf) (i : Nat) {s : S} (h : XC c B bl h0 s) : QP (XC c B bl h0) (pushLoop c wr m i s) := by
  cases i with
  | zero => exact .inr h
  | succ i =>
    unfold pushLoop
    simp only
    by_cases hf : (prepareHead c s).1 = .error .journalFull
    · rw [show prepareHead c s = (.error .journalFull, (prepareHead c s).2) from Prod.ext hf rfl]
      simp only
      rw [recoverFrom_ne (by simp)]
      exact .inl rfl
    · obtain ⟨a, b, d⟩ := prepareHead_xc hc hh h hf
      rcases hq : prepareHead c s with ⟨e | ⟨⟩, s1⟩
      · rw [hq] at a d
        simp only
        rw [recoverFrom_ne (fun he => d (by rw [he]))]
        exact .inr a
      · rw [hq] at a b
        have b := b rfl
        simp only at a b ⊢
        obtain ⟨w1, w2, w3⟩ := hw s1
        rcases hr : wr s1 with ⟨e | ⟨⟩, s2⟩
        · rw [hr] at w1 w2 w3
          simp only at w1 w2 ⊢
          rw [recoverFrom_ne (fun he => w3 (by rw [he]))]
          exact .inr (a.soft w2 (by rw [w1]) (by rw [w1]) (by rw [w1]) (by rw [w1]) (by rw [w1]))
        · rw [hr] at w1 w2
          simp only at w1 w2 ⊢
          exact .inr (pushMeta_xc hc hh m (a.soft w2 (by rw [w1]) (by rw [w1]) (by rw [w1]) (by rw [w1]) (by rw [w1])) (by rw [w1]; exact b))

theorem peekLoop_xc : ∀ i b (s : S), XC c B bl h0 s → XC c B bl h0 (peekLoop c i b s).2 := by
  intro i
  induction i with
  | zero => intro b s h; exact h
  | succ i ih =>
    intro b s h
    unfold peekLoop
    simp only
    split
    · split <;> exact h.soft rfl rfl rfl rfl rfl rfl
    · exact ih _ _ h

theorem xc_closed (hc : c.Valid) (hh : Healthy c) : JCl c (XC c B bl h0) where
  enq := fun d m s h => by
    refine pushLoop_xc hc hh (fun s => ?_) m _ h
    unfold wrData
    cases d with
    | none => exact ⟨rfl, rfl, (fun h => by cases h)⟩
    | some d => exact ⟨rfl, prog_bad _ _ _, prog_healthy hh _ _ _⟩
  cpy := fun p m s h => by
    refine pushLoop_xc hc hh (fun s => ⟨rfl, ?_, ?_⟩) _ _ h
    · show (nandCopy c p s.j.head s.n).2.chip.bad = _
      unfold nandCopy
      split
      · rfl
      · exact prog_bad _ _ _
    · show (nandCopy c p s.j.head s.n).1 ≠ _
      unfold nandCopy
      split
      · next e he =>
        unfold nandRead at he
        split at he
        · split at he
          · cases he; intro h; cases h
          · split at he <;> cases he; intro h; cases h
        · cases he; intro h; cases h
      · exact prog_healthy hh _ _ _
  peek := fun s h => by
    unfold peek
    split
    · exact h
    · split
      · exact peekLoop_xc _ _ _ h
      · exact h
  deq := fun s h => by
    unfold dequeue
    simp only
    split
    · exact h
    · split <;> split <;> exact h.soft rfl rfl rfl rfl rfl rfl
  nxt := fun s h => by
    unfold nextRecoverable
    simp only
    rw [if_pos (by rw [h.rcv]; simp)]
    exact h
  clr := fun _ h => h.soft rfl rfl rfl rfl rfl rfl
  ck := fun _ _ h => h.soft rfl rfl rfl rfl rfl rfl
  cnt := fun _ _ h => h.soft rfl rfl rfl rfl rfl rfl
  tick := fun _ h => h.soft rfl rfl rfl rfl rfl rfl

end Dhara

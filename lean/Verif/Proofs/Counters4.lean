/-
C67: no lost block before the head is missed by the count, whatever fails.
-/
import Verif.Proofs.Counters2
import Verif.Proofs.Counters3
import Verif.Proofs.Queue
namespace Dhara

variable {c : Cfg}

theorem cnt_mono_lt {f g : Nat → Bool} {m : Nat} (h : ∀ k, k < m → f k = true → g k = true) : cnt f m ≤ cnt g m := by
  induction m with
  | zero => exact Nat.le_refl _
  | succ m ih =>
    rw [cnt_succ, cnt_succ]
    have h1 := ih fun k hk => h k (by omega)
    have h2 := h m (by omega)
    split
    · next hf => rw [if_pos (h2 hf)]; omega
    · omega

/-- Every lost block before the head's block is counted. `T` and `H` are the positions of the blocks of the queue's beginning and of the head, counted
without going round; the blocks in `E` lie between. -/
structure LW (c : Cfg) (L h0 : Nat) (E : Nat → Bool) (T H : Nat) (s : S) : Prop where
  head : s.j.head < c.pages
  user : c.isU s.j.head
  low : cnt (Wb s.n E) (c.blk s.j.head) ≤ s.j.bbCurrent
  good : s.j.head % c.ppb ≠ 0 → Wb s.n E (c.blk s.j.head) = false
  le : T ≤ H
  win : H < T + c.numBlocks
  eh : H % c.numBlocks = c.blk s.j.head
  et : T % c.numBlocks = c.blk s.j.tailSync
  eb : ∀ k, E k = true → ∃ v, T ≤ v ∧ v < H ∧ v % c.numBlocks = k
  ed : s.j.enumDone = true → s.j.recovery = true
  bm : s.j.recovery = false → s.j.badMeta = false
  tot : L ≤ cnt (Wb s.n E) c.numBlocks
  lst : L ≤ s.j.bbLast ∨ h0 ≤ s.j.head

theorem LW.soft {E : Nat → Bool} {T H : Nat} {s s' : S} (h : LW c L h0 E T H s) (hn : s'.n.chip.bad = s.n.chip.bad) (h1 : s'.j.head = s.j.head)
    (h2 : s'.j.bbCurrent = s.j.bbCurrent) (h3 : s'.j.tailSync = s.j.tailSync) (h4 : s'.j.enumDone = s.j.enumDone) (h5 : s'.j.recovery = s.j.recovery)
    (h6 : s'.j.badMeta = s.j.badMeta) (h7 : s'.j.bbLast = s.j.bbLast) : LW c L h0 E T H s' := by
  have hw : Wb s'.n E = Wb s.n E := by funext k; unfold Wb; rw [hn]
  refine ⟨by rw [h1]; exact h.head, by rw [h1]; exact h.user, by rw [h1, h2, hw]; exact h.low, by rw [h1, hw]; exact h.good, h.le, h.win,
    by rw [h1]; exact h.eh, by rw [h3]; exact h.et, h.eb, by rw [h4, h5]; exact h.ed, by rw [h5, h6]; exact h.bm,
    by rw [hw]; exact h.tot, by rw [h1, h7]; exact h.lst⟩

theorem mod_next (hc : c.Valid) {H : Nat} : (H + 1) % c.numBlocks = nextBlock c (H % c.numBlocks) := by
  have hb := hc.blocks_lo
  have hm := Nat.mod_lt H (show 0 < c.numBlocks by omega)
  unfold nextBlock
  rw [Nat.add_mod]
  split
  · next h =>
    rcases Nat.lt_or_ge 1 c.numBlocks with h1 | h1
    · rw [Nat.mod_eq_of_lt h1, show H % c.numBlocks + 1 = c.numBlocks by omega, Nat.mod_self]
    · have : c.numBlocks = 1 := by omega
      rw [this]; omega
  · next h =>
    rw [Nat.mod_eq_of_lt (show 1 < c.numBlocks by omega)]
    exact Nat.mod_eq_of_lt (by omega)

/-- The head's block is skipped and counted. It may become lost at the same time. -/
theorem LW.skip (hc : c.Valid) {E E' : Nat → Bool} {T H : Nat} {s s' : S} (h : LW c L h0 E T H s) {n' : Nand}
    (hm : ∀ k, Wb n' E' k = true → Wb s.n E k = true ∨ k = c.blk s.j.head) (hE : ∀ k, E' k = true → E k = true ∨ k = c.blk s.j.head)
    (hup : ∀ k, Wb s.n E k = true → Wb n' E' k = true)
    (e : skipBlock c ⟨{ s.j with bbCurrent := s.j.bbCurrent + 1 }, n', s.count⟩ = (.ok (), s')) : LW c L h0 E' T (H + 1) s' := by
  have hb := blk_ok h.head
  have hs : cnt (Wb n' E') (c.blk s.j.head + 1) ≤ s.j.bbCurrent + 1 := by
    have h1 : cnt (Wb n' E') (c.blk s.j.head) ≤ cnt (Wb s.n E) (c.blk s.j.head) :=
      cnt_mono_lt fun k hk hw => (hm k hw).resolve_right (by omega)
    have h2 := h.low
    rw [cnt_succ]
    split <;> omega
  unfold skipBlock at e
  simp only at e
  split at e
  · cases e
  · next hne =>
    cases e
    have ha : nextBlock c (c.blk s.j.head) <<< c.log2Ppb % c.ppb = 0 := by rw [shl_ppb]; exact Nat.mul_mod_left _ _
    have hn := mod_next hc (H := H)
    rw [h.eh] at hn
    have hkeep : ∀ j : Journal, (rollIfZero j).head = j.head ∧ (rollIfZero j).tailSync = j.tailSync ∧ (rollIfZero j).enumDone = j.enumDone ∧
        (rollIfZero j).recovery = j.recovery ∧ (rollIfZero j).badMeta = j.badMeta := by
      intro j; unfold rollIfZero; split <;> exact ⟨rfl, rfl, rfl, rfl, rfl⟩
    obtain ⟨k1, k2, k3, k4, k5⟩ := hkeep { s.j with head := nextBlock c (c.blk s.j.head) <<< c.log2Ppb, bbCurrent := s.j.bbCurrent + 1 }
    have htot : L ≤ cnt (Wb n' E') c.numBlocks := Nat.le_trans h.tot (cnt_mono hup _)
    refine ⟨?_, ?_, ?_, ?_, by have := h.le; omega, ?_, ?_, ?_, ?_, ?_, ?_, htot, ?_⟩
    · simp only [k1]; exact start_ok (nextBlock_ok hc _)
    · simp only [k1]; exact start_user hc _
    · simp only [k1, blk_shl]
      unfold rollIfZero
      simp only
      split
      · next hz =>
        rw [shl_ppb, Nat.mul_eq_zero] at hz
        have := ppb_pos c
        rw [show nextBlock c (c.blk s.j.head) = 0 by omega]
        exact Nat.zero_le _
      · next hz =>
        show cnt (Wb n' E') _ ≤ s.j.bbCurrent + 1
        have : nextBlock c (c.blk s.j.head) ≤ c.blk s.j.head + 1 := by unfold nextBlock; split <;> omega
        exact Nat.le_trans (cnt_le this) hs
    · simp only [k1]; exact fun hz => absurd ha hz
    · have h1 := h.win
      apply Classical.byContradiction
      intro hx
      have : H + 1 = T + c.numBlocks := by omega
      rw [this, Nat.add_mod_right, h.et] at hn
      exact hne hn
    · simp only [k1, blk_shl]; exact hn
    · simp only [k2]; exact h.et
    · intro k hk
      rcases hE k hk with hk | hk
      · obtain ⟨v, a, b, d⟩ := h.eb k hk
        exact ⟨v, a, by omega, d⟩
      · exact ⟨H, h.le, by omega, by rw [hk]; exact h.eh⟩
    · simp only [k3, k4]; exact h.ed
    · simp only [k4, k5]; exact h.bm
    · simp only [k1]
      unfold rollIfZero
      simp only
      have hP := ppb_pos c
      split
      · next hz =>
        rw [shl_ppb, Nat.mul_eq_zero] at hz
        have : c.blk s.j.head + 1 = c.numBlocks := by
          have : nextBlock c (c.blk s.j.head) = 0 := by omega
          unfold nextBlock at this
          split at this <;> omega
        rw [this] at hs
        exact .inl (Nat.le_trans htot hs)
      · next hz =>
        refine h.lst.imp id fun hl => ?_
        rw [shl_ppb] at hz ⊢
        have hd := div_mod_range s.j.head c.ppb
        have hm := mod_ppb_lt c s.j.head
        unfold nextBlock at hz ⊢
        split at hz
        · simp at hz
        · next hx =>
          rw [if_neg hx, blk_eq, Nat.add_mul, Nat.one_mul]
          omega

/-- The head's block is not one of those in `E`. -/
theorem win_fresh {E : Nat → Bool} {T H b : Nat} (hw : H < T + c.numBlocks) (eh : H % c.numBlocks = b)
    (eb : ∀ k, E k = true → ∃ v, T ≤ v ∧ v < H ∧ v % c.numBlocks = k) : E b = false := by
  rw [Bool.eq_false_iff]
  intro hk
  obtain ⟨v, a, b, d⟩ := eb _ hk
  rw [← eh] at d
  have h1 := Nat.div_add_mod v c.numBlocks
  have h2 := Nat.div_add_mod H c.numBlocks
  rw [d] at h1
  rcases Nat.lt_or_ge (v / c.numBlocks) (H / c.numBlocks) with h3 | h3
  · have := Nat.mul_le_mul_left c.numBlocks (Nat.succ_le_of_lt h3)
    rw [Nat.mul_succ] at this
    omega
  · have := Nat.mul_le_mul_left c.numBlocks h3
    omega

theorem LW.fresh {E : Nat → Bool} {T H : Nat} {s : S} (h : LW c L h0 E T H s) : E (c.blk s.j.head) = false := win_fresh h.win h.eh h.eb

theorem prepareHeadLoop_lw (hc : c.Valid) {E : Nat → Bool} {T : Nat} : ∀ i H (s : S), LW c L h0 E T H s →
    (prepareHeadLoop c i s).1 ≠ .error .journalFull → ∃ H', LW c L h0 E T H' (prepareHeadLoop c i s).2 ∧
      ((prepareHeadLoop c i s).1 = .ok () → Wb (prepareHeadLoop c i s).2.n E (c.blk (prepareHeadLoop c i s).2.j.head) = false) := by
  intro i
  induction i with
  | zero => intro H s h _; exact ⟨H, h, (fun h => by cases h)⟩
  | succ i ih =>
    intro H s h
    unfold prepareHeadLoop
    simp only
    split
    · next hb =>
      intro _
      refine ⟨H, h.soft (erase_bad _ _) rfl rfl rfl rfl rfl rfl rfl, fun _ => ?_⟩
      have : s.n.chip.bad (c.blk s.j.head) = false := by simpa [nandIsBad] using hb
      unfold Wb
      rw [erase_bad, this, h.fresh]; rfl
    · split
      · next e s1 e1 =>
        intro hne
        unfold skipBlock at e1
        simp only at e1
        split at e1
        · cases e1; exact absurd rfl hne
        · cases e1
      · next s1 e1 => exact ih _ s1 (h.skip hc (fun k hk => .inl hk) (fun k hk => .inl hk) (fun k hk => hk) e1)

theorem prepareHead_lw (hc : c.Valid) {E : Nat → Bool} {T H : Nat} {s : S} (h : LW c L h0 E T H s) (hne : (prepareHead c s).1 ≠ .error .journalFull) :
    ∃ H', LW c L h0 E T H' (prepareHead c s).2 ∧
      ((prepareHead c s).1 = .ok () → Wb (prepareHead c s).2.n E (c.blk (prepareHead c s).2.j.head) = false) := by
  revert hne
  unfold prepareHead
  simp only
  split
  · intro hne; exact absurd rfl hne
  · split
    · next hal =>
      intro _
      exact ⟨H, h.soft rfl rfl rfl rfl rfl rfl rfl rfl, fun _ => h.good fun hz => hal (isAligned_iff.2 hz)⟩
    · exact prepareHeadLoop_lw hc maxRetries H { s with j := { s.j with dirty := true } } (h.soft rfl rfl rfl rfl rfl rfl rfl rfl)

/-- The head moves to the next page, leaving a block that is not lost. -/
theorem LW.next_low (hc : c.Valid) {E : Nat → Bool} {T H : Nat} {s : S} (h : LW c L h0 E T H s) (hg : Wb s.n E (c.blk s.j.head) = false) (j' : Journal)
    (h1 : j'.head = nextUpage c s.j.head) (h2 : j'.bbCurrent = s.j.bbCurrent) (h3 : j'.bbLast = s.j.bbLast) :
    cnt (Wb s.n E) (c.blk (rollIfZero j').head) ≤ (rollIfZero j').bbCurrent ∧ (L ≤ (rollIfZero j').bbLast ∨ h0 ≤ (rollIfZero j').head) := by
  have hs : cnt (Wb s.n E) (c.blk s.j.head + 1) = cnt (Wb s.n E) (c.blk s.j.head) := by
    rw [cnt_succ, hg]; rfl
  have hlow := h.low
  have hb := blk_ok h.head
  have hp := nextUpage_ph hc h.user
  rw [ph_of_lt h.head] at hp
  have hlt := lt_nextV c s.j.head
  unfold rollIfZero rollStats
  split
  · next hz =>
    refine ⟨?_, .inl ?_⟩
    · show cnt _ (c.blk j'.head) ≤ 0
      rw [hz, blk_eq, Nat.zero_div]; exact Nat.le_refl _
    · show L ≤ j'.bbCurrent
      have hv : c.pages ≤ c.nextV s.j.head := by
        apply Classical.byContradiction
        intro hv
        rw [h1, hp, ph_of_lt (by omega)] at hz
        omega
      have h5 := (Nat.le_div_iff_mul_le (ppb_pos c)).2 (show c.numBlocks * c.ppb ≤ c.nextV s.j.head from hv)
      have : c.blk s.j.head + 1 = c.numBlocks := by
        rw [blk_eq] at hb ⊢
        rcases nextV_blk hc h.user with ⟨e, _⟩ | ⟨e, _⟩ <;> omega
      rw [this] at hs
      have := h.tot
      omega
  · next hz =>
    have hX : L ≤ j'.bbLast ∨ h0 ≤ j'.head := by
      rw [h3, h1]
      refine h.lst.imp id fun hl => ?_
      rw [h1] at hz
      revert hz
      unfold nextUpage
      simp only
      split <;> split <;> omega
    refine ⟨?_, hX⟩
    have hp := nextUpage_ph hc h.user
    rw [ph_of_lt h.head] at hp
    have hlow := h.low
    have hlt := lt_nextV c s.j.head
    have hs : cnt (Wb s.n E) (s.j.head / c.ppb + 1) = cnt (Wb s.n E) (s.j.head / c.ppb) := by
      rw [cnt_succ, ← blk_eq, hg]; rfl
    rw [h2, h1]
    refine Nat.le_trans ?_ hlow
    rw [blk_eq, blk_eq, ← hs]
    refine cnt_le ?_
    rw [hp, ph_div_ppb]
    refine Nat.le_trans (Nat.mod_le _ _) ?_
    rcases nextV_blk hc h.user with ⟨e, _⟩ | ⟨e, _⟩ <;> omega

theorem mark_iff {b k : Nat} {n : Nand} (h : (nandMarkBad c b n).chip.bad k = true) : n.chip.bad k = true ∨ k = b := by
  unfold nandMarkBad at h
  split at h
  · exact .inl h
  · simp only [Chip.marked, upd] at h
    split at h
    · next e => exact .inr e
    · exact .inl h

theorem mark_wb {E : Nat → Bool} {b k : Nat} {n : Nand} (h : Wb (nandMarkBad c b n) E k = true) : Wb n E k = true ∨ k = b := by
  unfold Wb at h ⊢
  rw [Bool.or_eq_true] at h ⊢
  rcases h with h | h
  · rcases mark_iff h with h | h
    · exact .inl (.inl h)
    · exact .inr h
  · exact .inl (.inr h)

/-- What the search for the head leaves alone. -/
structure Ek (j j' : Journal) : Prop where
  bm : j'.badMeta = j.badMeta
  rr : j'.recoverRoot = j.recoverRoot

theorem skip_ek {s : S} {r : Except Err Unit} {s' : S} (h : skipBlock c s = (r, s')) : Ek s.j s'.j := by
  unfold skipBlock at h
  simp only at h
  split at h
  · cases h; exact ⟨rfl, rfl⟩
  · cases h
    unfold rollIfZero rollStats
    split <;> exact ⟨rfl, rfl⟩

theorem prepareHeadLoop_ek : ∀ i (s : S), Ek s.j (prepareHeadLoop c i s).2.j := by
  intro i
  induction i with
  | zero => intro s; exact ⟨rfl, rfl⟩
  | succ i ih =>
    intro s
    unfold prepareHeadLoop
    simp only
    split
    · exact ⟨rfl, rfl⟩
    · split
      · next e1 => have := skip_ek e1; exact ⟨this.bm, this.rr⟩
      · next s1 e1 =>
        have h1 := skip_ek e1
        have h2 := ih s1
        exact ⟨h2.bm.trans h1.bm, h2.rr.trans h1.rr⟩

theorem prepareHead_ek (s : S) : Ek s.j (prepareHead c s).2.j := by
  unfold prepareHead
  simp only
  split
  · exact ⟨rfl, rfl⟩
  · split
    · exact ⟨rfl, rfl⟩
    · have := prepareHeadLoop_ek (c := c) maxRetries { s with j := { s.j with dirty := true } }
      exact ⟨this.bm, this.rr⟩

theorem prepareHead_bm (s : S) : (prepareHead c s).2.j.badMeta = s.j.badMeta := (prepareHead_ek s).bm

theorem dumpMetaLoop_rr : ∀ i (s : S), (dumpMetaLoop c i s).2.j.recoverRoot = s.j.recoverRoot := by
  intro i
  induction i with
  | zero => intro s; rfl
  | succ i ih =>
    intro s
    unfold dumpMetaLoop
    simp only
    have fin : ∀ (e : Err) (s1 : S), s1.j.recoverRoot = s.j.recoverRoot →
        (if e ≠ .badBlock then ((.error e, s1) : Except Err Unit × S)
          else match skipBlock c { { s1 with j := { s1.j with bbCurrent := s1.j.bbCurrent + 1 } } with
              n := nandMarkBad c (c.blk s1.j.head) s1.n } with
            | (.error e, s) => (.error e, s)
            | (.ok (), s) => dumpMetaLoop c i s).2.j.recoverRoot = s.j.recoverRoot := by
      intro e s1 hb
      split
      · exact hb
      · split
        · next e1 => exact (skip_ek e1).rr.trans hb
        · next s2 e1 => exact (ih s2).trans ((skip_ek e1).rr.trans hb)
    have h1 := (prepareHead_ek (c := c) s).rr
    rcases hq : prepareHead c s with ⟨e | ⟨⟩, s1⟩
    · rw [hq] at h1; exact fin e s1 h1
    · rw [hq] at h1
      simp only at h1 ⊢
      rcases hr : progS c s1.j.head s1.j.pageBuf s1 with ⟨e | ⟨⟩, s2⟩
      · have hj : s2.j = s1.j := by have := congrArg (fun x => x.2.j) hr; exact this.symm
        exact fin e s2 (by rw [hj]; exact h1)
      · have hj : s2.j = s1.j := by have := congrArg (fun x => x.2.j) hr; exact this.symm
        show (rollIfZero _).recoverRoot = _
        rw [(roll_kj _).2]
        show s2.j.recoverRoot = _
        rw [hj]; exact h1

/-- dump_meta: only success matters. -/
theorem dumpMetaLoop_lw (hc : c.Valid) {E : Nat → Bool} {T : Nat} : ∀ i H (s : S), LW c L h0 E T H s → (dumpMetaLoop c i s).1 = .ok () →
    (cnt (Wb (dumpMetaLoop c i s).2.n E) (c.blk (dumpMetaLoop c i s).2.j.head) ≤ (dumpMetaLoop c i s).2.j.bbCurrent ∧
      (L ≤ (dumpMetaLoop c i s).2.j.bbLast ∨ h0 ≤ (dumpMetaLoop c i s).2.j.head)) ∧
      (dumpMetaLoop c i s).2.j.badMeta = s.j.badMeta := by
  intro i
  induction i with
  | zero => intro H s h hk; cases hk
  | succ i ih =>
    intro H s h
    unfold dumpMetaLoop
    simp only
    have fin : ∀ (e : Err) (s1 : S), (e = .badBlock → (∃ H, LW c L h0 E T H s1) ∧ s1.j.badMeta = s.j.badMeta) →
        let r := (if e ≠ .badBlock then ((.error e, s1) : Except Err Unit × S)
          else match skipBlock c { { s1 with j := { s1.j with bbCurrent := s1.j.bbCurrent + 1 } } with
              n := nandMarkBad c (c.blk s1.j.head) s1.n } with
            | (.error e, s) => (.error e, s)
            | (.ok (), s) => dumpMetaLoop c i s)
        r.1 = .ok () → (cnt (Wb r.2.n E) (c.blk r.2.j.head) ≤ r.2.j.bbCurrent ∧ (L ≤ r.2.j.bbLast ∨ h0 ≤ r.2.j.head)) ∧ r.2.j.badMeta = s.j.badMeta := by
      intro e s1 hb
      simp only
      split
      · intro hk; cases hk
      · next he =>
        obtain ⟨⟨H1, d2⟩, d3⟩ := hb (Classical.not_not.1 he)
        split
        · intro hk; cases hk
        · next s2 e1 =>
          intro hk
          obtain ⟨r1, r2⟩ := ih (H1 + 1) s2 (d2.skip hc (fun k hk => mark_wb hk) (fun k hk => .inl hk) (Wb.mono (nandMarkBad_evo (c := c) _ _) E) e1) hk
          obtain ⟨_, _, _, _, k5, _⟩ := skip_kj e1
          exact ⟨r1, r2.trans (k5.trans d3)⟩
    have h1 := prepareHead_lw hc h
    have hbm := prepareHead_bm (c := c) s
    rcases hq : prepareHead c s with ⟨e | ⟨⟩, s1⟩
    · rw [hq] at h1 hbm
      refine fin e s1 fun he => ?_
      subst he
      obtain ⟨H', a, _⟩ := h1 (by simp)
      exact ⟨⟨H', a⟩, hbm⟩
    · rw [hq] at h1 hbm
      obtain ⟨H', a, b⟩ := h1 (by simp)
      have b := b rfl
      simp only at a b hbm ⊢
      have hE : (progS c s1.j.head s1.j.pageBuf s1).2.n.chip.bad = s1.n.chip.bad := prog_bad _ _ _
      rcases hr : progS c s1.j.head s1.j.pageBuf s1 with ⟨e | ⟨⟩, s2⟩
      · have hj : s2.j = s1.j := by have := congrArg (fun x => x.2.j) hr; exact this.symm
        rw [hr] at hE
        refine fin e s2 fun he => ⟨⟨H', a.soft hE ?_ ?_ ?_ ?_ ?_ ?_ ?_⟩, ?_⟩ <;> rw [hj]
        exact hbm
      · have hj : s2.j = s1.j := by have := congrArg (fun x => x.2.j) hr; exact this.symm
        rw [hr] at hE
        intro _
        simp only
        have a2 : LW c L h0 E T H' s2 := by refine a.soft hE ?_ ?_ ?_ ?_ ?_ ?_ ?_ <;> rw [hj]
        have hb2 : Wb s2.n E (c.blk s2.j.head) = false := by unfold Wb at b ⊢; rw [hE, hj]; exact b
        refine ⟨a2.next_low hc hb2 { s2.j with recoverMeta := s2.j.head, head := nextUpage c s2.j.head } rfl rfl rfl, ?_⟩
        show (rollIfZero _).badMeta = _
        rw [(roll_keep _).2.1]
        show s2.j.badMeta = _
        rw [hj]; exact hbm

/-- The count is not too low. -/
def Low (c : Cfg) (L h0 : Nat) (s : S) : Prop :=
  cnt (Wb s.n (pend c s.j)) (c.blk s.j.head) ≤ s.j.bbCurrent ∧ (L ≤ s.j.bbLast ∨ h0 ≤ s.j.head)

theorem Low.of {s : S} {n : Nand} {E : Nat → Bool} (h : cnt (Wb n E) (c.blk s.j.head) ≤ s.j.bbCurrent ∧ (L ≤ s.j.bbLast ∨ h0 ≤ s.j.head))
    (hm : ∀ k, Wb s.n (pend c s.j) k = true → Wb n E k = true) : Low c L h0 s := ⟨Nat.le_trans (cnt_mono hm _) h.1, h.2⟩

theorem recoverFrom_li (hc : c.Valid) {e : Err} {T H : Nat} {s : S} (h : LW c L h0 (pend c s.j) T H s) (hrb : RB c s.j) (he : e ≠ .recover) :
    ((recoverFrom c e s).1 = .ok () → LW c L h0 (pend c (recoverFrom c e s).2.j) T (H + 1) (recoverFrom c e s).2) ∧
    ((recoverFrom c e s).1 = .error .recover → s.j.root ≠ NONE → Low c L h0 (recoverFrom c e s).2) := by
  unfold recoverFrom
  simp only
  split
  · exact ⟨(fun h => by cases h), fun h => absurd (Except.error.inj h) he⟩
  · next hb =>
    split
    · next e1 =>
      obtain ⟨_, _, _, k4, _⟩ := skip_keep _ e1
      exact ⟨(fun h => by cases h), fun h => absurd h k4⟩
    · next s1 e1 =>
      obtain ⟨k1, k2, k3, k4, k5, k6, k7⟩ := skip_kj e1
      simp only at k1 k2 k3 k4 k5 k6
      have hpe : pend c s1.j = pend c s.j := pend_congr k3 k4 k5 k6
      have h1 : LW c L h0 (plus (pend c s.j) (c.blk s.j.head)) T (H + 1) s1 := by
        refine h.skip hc (fun k hk => ?_) (fun k hk => ?_) (fun k hk => ?_) e1
        · unfold Wb plus at hk
          unfold Wb
          simp only [Bool.or_eq_true, beq_iff_eq] at hk ⊢
          rcases hk with hk | hk | hk
          · exact .inl (.inl hk)
          · exact .inl (.inr hk)
          · exact .inr hk
        · unfold plus at hk
          simpa only [Bool.or_eq_true, beq_iff_eq] using hk
        · unfold Wb plus
          unfold Wb at hk
          simp only [Bool.or_eq_true] at hk ⊢
          exact hk.imp id .inl
      have hpl : ∀ k, Wb s1.n (pend c s.j) k = true ∨ k = c.blk s.j.head → Wb s1.n (plus (pend c s.j) (c.blk s.j.head)) k = true := by
        intro k hk
        unfold Wb plus
        unfold Wb at hk
        simp only [Bool.or_eq_true, beq_iff_eq] at hk ⊢
        rcases hk with (hk | hk) | hk
        · exact .inl hk
        · exact .inr (.inl hk)
        · exact .inr (.inr hk)
      split
      · next hr =>
        refine ⟨(fun h => by cases h), fun _ _ => ?_⟩
        unfold restartRecovery
        simp only
        split
        · refine Low.of (n := s1.n) (E := plus (pend c s.j) (c.blk s.j.head)) ⟨h1.low, h1.lst⟩ fun k hk => hpl k ?_
          rw [← hpe]
          exact mark_wb (E := pend c s1.j) hk
        · next hn =>
          refine Low.of (n := s1.n) (E := plus (pend c s.j) (c.blk s.j.head)) ⟨h1.low, h1.lst⟩ fun k hk => hpl k ?_
          have hal : alignEq s1.j.recoverMeta s.j.head c.log2Ppb = true := by
            apply Classical.byContradiction; intro hh; exact hn (Or.inr hh)
          have hbm : c.blk s1.j.recoverMeta = c.blk s.j.head := by rw [blk_eq, blk_eq]; exact alignEq_iff.1 hal
          rw [← hpe]
          unfold Wb pend at hk ⊢
          simp only [Bool.or_eq_true, Bool.and_eq_true, beq_iff_eq] at hk ⊢
          rcases hk with hk | ⟨a, hk | ⟨_, hk⟩⟩
          · exact .inl (.inl hk)
          · exact .inl (.inr ⟨a, .inl hk⟩)
          · exact .inr (hk.trans hbm)
      · next hr =>
        have hr : s1.j.recovery = false := by simpa using hr
        have hrs : s.j.recovery = false := by rw [← k3]; exact hr
        have hp : ∀ k, pend c s.j k = false := by intro k; unfold pend; rw [hrs]; rfl
        split
        · next hal =>
          refine ⟨fun _ => ?_, (fun h => by cases h)⟩
          have hp1 : ∀ k, pend c s1.j k = false := by intro k; rw [hpe]; exact hp k
          refine ⟨h1.head, h1.user, ?_, fun hz => absurd k7 hz, h1.le, h1.win, h1.eh, h1.et, fun k hk => ?_, h1.ed, h1.bm, ?_, h1.lst⟩
          · refine Nat.le_trans (cnt_mono (fun k hk => hpl k ?_) _) h1.low
            have := mark_wb hk
            rw [show pend c _ = pend c s.j from hpe] at this
            exact this
          · rw [show pend c _ k = false from hp1 k] at hk; cases hk
          · refine Nat.le_trans h.tot (cnt_mono (fun k hk => ?_) _)
            unfold Wb at hk ⊢
            rw [hp k, Bool.or_false] at hk
            rw [Bool.or_eq_true]
            left
            rw [← k1] at hk
            exact (nandMarkBad_evo (c := c) _ _).bad k hk
        · next hal =>
          have hz : s.j.head % c.ppb ≠ 0 := fun h => hal (isAligned_iff.2 h)
          have h2 : LW c L h0 (plus (pend c s.j) (c.blk s.j.head)) T (H + 1) ⟨{ s1.j with recoverRoot := s1.j.root, recoverNext := c.blockStart s1.j.root }, s1.n, s1.count⟩ :=
            h1.soft rfl rfl rfl rfl rfl rfl rfl rfl
          have fin : ∀ s2 : S, (cnt (Wb s2.n (plus (pend c s.j) (c.blk s.j.head))) (c.blk s2.j.head) ≤ s2.j.bbCurrent ∧ (L ≤ s2.j.bbLast ∨ h0 ≤ s2.j.head)) → s2.j.badMeta = s1.j.badMeta →
              s2.j.recoverRoot = s1.j.root → s.j.root ≠ NONE → Low c L h0 { s2 with j := { s2.j with recovery := true } } := by
            intro s2 a hbm b hroot
            refine Low.of (s := { s2 with j := { s2.j with recovery := true } }) a fun k hk => ?_
            unfold Wb at hk ⊢
            unfold pend at hk
            unfold plus
            rw [show s2.j.badMeta = false by rw [hbm]; exact h1.bm hr] at hk
            simp only [Bool.or_eq_true, Bool.and_eq_true, beq_iff_eq, Bool.false_eq_true, false_and, or_false, true_and] at hk ⊢
            rcases hk with hk | hk
            · exact .inl hk
            · right; right
              rw [hk, b, k2]
              exact hrb hrs hroot hz
          split
          · next e2 s2 heq =>
            refine ⟨(fun h => by cases h), fun hre => ?_⟩
            split at heq
            · unfold dumpMeta at heq
              have := (dumpMetaLoop_fd (c := c) (n0 := s1.n) maxRetries
                { s1 with j := { s1.j with recoverRoot := s1.j.root, recoverNext := c.blockStart s1.j.root } } (FdOk.refl _)).1
              rw [heq] at this
              exact absurd hre this
            · cases heq
          · next s2 heq =>
            refine ⟨(fun h => by cases h), fun _ hroot => ?_⟩
            split at heq
            · unfold dumpMeta at heq
              have h3 := dumpMetaLoop_lw hc maxRetries _ _ h2
              have h4 := dumpMetaLoop_rr (c := c) maxRetries ⟨{ s1.j with recoverRoot := s1.j.root, recoverNext := c.blockStart s1.j.root }, s1.n, s1.count⟩
              rw [heq] at h3 h4
              obtain ⟨a, b⟩ := h3 rfl
              exact fin s2 a b h4 hroot
            · cases heq
              exact fin _ ⟨h2.low, h2.lst⟩ rfl rfl hroot

theorem finishRecovery_low {s : S} (hr : s.j.recovery = true) (h : Low c L h0 s) : Low c L h0 (finishRecovery c s) := by
  have hE : ∀ k, pend c (clearRecovery s.j) k = false := fun k => rfl
  unfold finishRecovery
  simp only
  split
  · next hb =>
    refine Low.of (n := s.n) (E := pend c s.j) h fun k hk => ?_
    unfold Wb at hk ⊢
    rw [show pend c _ k = false from hE k, Bool.or_false] at hk
    rw [Bool.or_eq_true]
    rcases mark_iff hk with hk | hk
    · rcases mark_iff hk with hk | hk
      · exact .inl hk
      · right; unfold pend; simp [hr, hk]
    · right; unfold pend; simp [hr, hk, hb]
  · refine Low.of (n := s.n) (E := pend c s.j) h fun k hk => ?_
    unfold Wb at hk ⊢
    rw [show pend c _ k = false from hE k, Bool.or_false] at hk
    rw [Bool.or_eq_true]
    rcases mark_iff hk with hk | hk
    · exact .inl hk
    · right; unfold pend; simp [hr, hk]

theorem commitPush_low (hc : c.Valid) {T H : Nat} {s : S} (h : LW c L h0 (pend c s.j) T H s) (hg : Wb s.n (pend c s.j) (c.blk s.j.head) = false) :
    Low c L h0 (commitPush c s.j.head s) := by
  have h1 := h.next_low hc hg { s.j with dirty := false, root := s.j.head, head := nextUpage c s.j.head } rfl rfl rfl
  obtain ⟨a, b, d, e⟩ := roll_keep { s.j with dirty := false, root := s.j.head, head := nextUpage c s.j.head }
  obtain ⟨g, i⟩ := roll_kj { s.j with dirty := false, root := s.j.head, head := nextUpage c s.j.head }
  have he : (rollIfZero { s.j with dirty := false, root := s.j.head, head := nextUpage c s.j.head }).enumDone = s.j.enumDone := by
    unfold rollIfZero; split <;> rfl
  unfold commitPush
  simp only
  generalize hj : rollIfZero { s.j with dirty := false, root := s.j.head, head := nextUpage c s.j.head } = j at *
  have hp : pend c j = pend c s.j := pend_congr a i b d
  have h2 : Low c L h0 ⟨j, s.n, s.count⟩ := by
    unfold Low
    simp only [hp]; exact h1
  have hm : Low c L h0 (if j.enumDone = true then finishRecovery c ⟨j, s.n, s.count⟩ else ⟨j, s.n, s.count⟩) := by
    split
    · next hx => exact finishRecovery_low (by rw [a]; exact h.ed (by rw [← he]; exact hx)) h2
    · exact h2
  generalize (if j.enumDone = true then finishRecovery c ⟨j, s.n, s.count⟩ else ⟨j, s.n, s.count⟩) = v at hm
  split
  · exact hm
  · exact hm

/-- What a push leaves. -/
structure PL (c : Cfg) (L h0 : Nat) (s : S) (r : Except Err Unit × S) : Prop where
  ok : r.1 = .ok () → Low c L h0 r.2
  again : r.1 = .error .recover → s.j.root ≠ NONE → Low c L h0 r.2

/-- Every state on the way. -/
structure LI (c : Cfg) (W0 : Nat → Bool) (L h0 : Nat) (T H : Nat) (s : S) : Prop where
  w : LW c L h0 (pend c s.j) T H s
  k : KI c W0 s

theorem LI.keep {T H : Nat} {s s' : S} (h : LI c W0 L h0 T H s) (hb : s'.n.chip.bad = s.n.chip.bad) (hj : s'.j = s.j) (hE : Evo c s.n s'.n) : LI c W0 L h0 T H s' := by
  refine ⟨?_, ?_, ?_⟩
  · rw [hj]; refine h.w.soft hb ?_ ?_ ?_ ?_ ?_ ?_ ?_ <;> rw [hj]
  · rw [hj]; exact h.k.w.mono (Wb.mono hE _) (by rw [hj]) (by rw [hj]) (by rw [hj])
  · rw [hj]; exact h.k.rb

theorem pushMeta_pl (hc : c.Valid) (m : Option Buf) {T H : Nat} {s : S} (h : LI c W0 L h0 T H s) (hg : Wb s.n (pend c s.j) (c.blk s.j.head) = false) :
    ((pushMeta c m s).1 = .ok () → Low c L h0 (pushMeta c m s).2 ) ∧ ((pushMeta c m s).1 = .error .recover → s.j.root ≠ NONE → Low c L h0 (pushMeta c m s).2) := by
  have hb : ∃ b, bufferMeta c m s.j = { s.j with pageBuf := b } := by unfold bufferMeta; cases m <;> exact ⟨_, rfl⟩
  obtain ⟨b, hb⟩ := hb
  unfold pushMeta
  simp only
  rw [hb]
  simp only
  split
  · rename_i ha
    refine ⟨fun _ => ?_, (fun h => by cases h)⟩
    have hlt := succ_ok hc h.w.head h.w.user
    have hc1 : nextUpage c s.j.head = s.j.head + 1 := by
      have h1 := nextUpage_ph hc h.w.user
      rw [ph_of_lt h.w.head] at h1
      rcases nextV_cases hc h.w.user with ⟨a1, a2, a3⟩ | ⟨a1, a2, a3⟩
      · rw [a2, ph_of_lt hlt] at h1; exact h1
      · exact absurd (isAligned_iff.2 a3) ha
    have h2 := h.w.next_low hc hg { s.j with pageBuf := b, root := s.j.head, head := s.j.head + 1 } hc1.symm rfl rfl
    rw [show rollIfZero { s.j with pageBuf := b, root := s.j.head, head := s.j.head + 1 } = { s.j with pageBuf := b, root := s.j.head, head := s.j.head + 1 } by
      unfold rollIfZero; exact if_neg (Nat.succ_ne_zero _)] at h2
    exact h2
  · have f2 : ∀ p d, (progS c p d { s with j := fillHeader { s.j with pageBuf := b } }).1 ≠ .error .recover := by
      intro p d
      exact (prog_fd (c := c) (FdOk.refl s.n) p d).1
    have hE : ∀ p d, (progS c p d { s with j := fillHeader { s.j with pageBuf := b } }).2.n.chip.bad = s.n.chip.bad := fun p d => prog_bad _ _ _
    split
    · next e s2 e1 =>
      have hj : s2.j = fillHeader { s.j with pageBuf := b } := by have := congrArg (fun x => x.2.j) e1; exact this.symm
      have f := f2 ((fillHeader { s.j with pageBuf := b }).head + 1) (fillHeader { s.j with pageBuf := b }).pageBuf
      have hE := hE ((fillHeader { s.j with pageBuf := b }).head + 1) (fillHeader { s.j with pageBuf := b }).pageBuf
      rw [e1] at f hE
      have hp : pend c s2.j = pend c s.j := by rw [hj]; exact pend_congr rfl rfl rfl rfl
      have hk : LW c L h0 (pend c s2.j) T H s2 := by
        rw [hp]; refine h.w.soft hE ?_ ?_ ?_ ?_ ?_ ?_ ?_ <;> rw [hj] <;> rfl
      have hrb : RB c s2.j := by rw [hj]; exact h.k.rb
      obtain ⟨r1, r2⟩ := recoverFrom_li hc (e := e) hk hrb (fun he => f (by rw [he]))
      refine ⟨fun h => ⟨(r1 h).low, (r1 h).lst⟩, fun h hr => r2 h ?_⟩
      rw [hj]; exact hr
    · next s2 e1 =>
      have hj : s2.j = fillHeader { s.j with pageBuf := b } := by have := congrArg (fun x => x.2.j) e1; exact this.symm
      have hE := hE ((fillHeader { s.j with pageBuf := b }).head + 1) (fillHeader { s.j with pageBuf := b }).pageBuf
      rw [e1] at hE
      refine ⟨fun _ => ?_, (fun h => by cases h)⟩
      have hp : pend c s2.j = pend c s.j := by rw [hj]; exact pend_congr rfl rfl rfl rfl
      have hw : LW c L h0 (pend c s2.j) T H s2 := by
        rw [hp]; refine h.w.soft hE ?_ ?_ ?_ ?_ ?_ ?_ ?_ <;> rw [hj] <;> rfl
      have hg2 : Wb s2.n (pend c s2.j) (c.blk s2.j.head) = false := by
        rw [hp]; unfold Wb at hg ⊢; rw [hE, show s2.j.head = s.j.head by rw [hj]; rfl]; exact hg
      have := commitPush_low hc hw hg2
      rw [show s2.j.head = s.j.head by rw [hj]; rfl] at this
      exact this

theorem pushLoop_pl (hc : c.Valid) {wr : S → Except Err Unit × S} (hw : WrK c wr) (hwb : ∀ s, (wr s).2.n.chip.bad = s.n.chip.bad) (m : Option Buf) :
    ∀ i T H (s : S), LI c W0 L h0 T H s → PL c L h0 s (pushLoop c wr m i s) := by
  intro i
  induction i with
  | zero => intro T H s h; exact ⟨(fun h => by cases h), (fun h => by cases h)⟩
  | succ i ih =>
    intro T H s h
    unfold pushLoop
    simp only
    have fin : ∀ (e : Err) (s1 : S), e ≠ .recover → (e = .badBlock → s1.n.dead = false) → (e ≠ .journalFull → (∃ H', LI c W0 L h0 T H' s1) ∧ s1.j.root = s.j.root) →
        PL c L h0 s (match recoverFrom c e s1 with
            | (.error e, s) => ((.error e, s) : Except Err Unit × S)
            | (.ok (), s) => pushLoop c wr m i s) := by
      intro e s1 h1 h2 h3
      by_cases hf : e = .journalFull
      · subst hf
        have : recoverFrom c .journalFull s1 = (.error .journalFull, s1) := rfl
        rw [this]
        exact ⟨(fun h => by cases h), (fun h => by cases h)⟩
      obtain ⟨⟨H1, k1⟩, k2⟩ := h3 hf
      obtain ⟨r1, r2⟩ := recoverFrom_li hc k1.w k1.k.rb h1
      have q1 := (recoverFrom_ki hc k1.k h1 h2).1
      rcases hr : recoverFrom c e s1 with ⟨e' | ⟨⟩, s2⟩
      · rw [hr] at r1 r2
        exact ⟨(fun h => by cases h), fun h hn => r2 h (by rw [k2]; exact hn)⟩
      · rw [hr] at r1 q1
        obtain ⟨a, b⟩ := q1 rfl
        have := ih T _ s2 ⟨r1 rfl, a⟩
        exact ⟨this.ok, fun h hn => this.again h (by rw [b, k2]; exact hn)⟩
    have f := (prepareHead_fd (c := c) (n0 := s.n) (s := s) (FdOk.refl _)).1
    have h1 := prepareHead_cw hc h.k.w
    have h2 := prepareHead_lw hc h.w
    rcases hq : prepareHead c s with ⟨e | ⟨⟩, s1⟩
    · rw [hq] at f h1 h2
      simp only
      refine fin e s1 (fun he => f.nrec (by rw [he])) (fun he => (f.bad (by rw [he])).1) fun he => ?_
      obtain ⟨a, k⟩ := h1 (fun h => he (Except.error.inj h))
      obtain ⟨H1, l, _⟩ := h2 (fun h => he (Except.error.inj h))
      have hp := pend_congr (c := c) k.rcv k.rr k.bm k.rm
      exact ⟨⟨H1, by rw [hp]; exact l, by rw [hp]; exact a, h.k.rb.kj k⟩, k.root⟩
    · rw [hq] at h1 h2
      obtain ⟨a, k⟩ := h1 (by simp)
      obtain ⟨H1, l, lg⟩ := h2 (by simp)
      have lg := lg rfl
      simp only at a k l lg ⊢
      have hp := pend_congr (c := c) k.rcv k.rr k.bm k.rm
      have hk1 : LI c W0 L h0 T H1 s1 := ⟨by rw [hp]; exact l, by rw [hp]; exact a, h.k.rb.kj k⟩
      have hj := hw.j s1
      have hE := hw.evo s1
      have hB := hwb s1
      have f2 := (hw.fd s1.n s1 (FdOk.refl _)).1
      rcases hr : wr s1 with ⟨e | ⟨⟩, s2⟩
      · rw [hr] at hj hE f2 hB
        simp only at hj hE ⊢
        refine fin e s2 (fun he => f2.nrec (by rw [he])) (fun he => (f2.bad (by rw [he])).1) fun _ => ?_
        exact ⟨⟨H1, hk1.keep hB hj hE⟩, by rw [hj]; exact k.root⟩
      · rw [hr] at hj hE hB
        simp only at hj hE hB ⊢
        have hk2 := hk1.keep hB hj hE
        have hg2 : Wb s2.n (pend c s2.j) (c.blk s2.j.head) = false := by
          rw [hj, hp]; unfold Wb at lg ⊢; rw [hB]; exact lg
        obtain ⟨q1, q2⟩ := pushMeta_pl hc m hk2 hg2
        exact ⟨q1, fun h hn => q2 h (by rw [hj, k.root]; exact hn)⟩

theorem Low.soft {s s' : S} (h : Low c L h0 s) (hn : s'.n = s.n) (h1 : s'.j.head = s.j.head) (h2 : s'.j.bbCurrent = s.j.bbCurrent)
    (h4 : s'.j.recovery = s.j.recovery) (h5 : s'.j.recoverRoot = s.j.recoverRoot) (h6 : s'.j.badMeta = s.j.badMeta) (h7 : s'.j.recoverMeta = s.j.recoverMeta) (h8 : s'.j.bbLast = s.j.bbLast) :
    Low c L h0 s' := by
  unfold Low
  rw [pend_congr h4 h5 h6 h7, hn, h1, h2, h8]; exact h

theorem peekLoop_low : ∀ i b (s : S), Low c L h0 s → Low c L h0 (peekLoop c i b s).2 := by
  intro i
  induction i with
  | zero => intro b s h; exact h
  | succ i ih =>
    intro b s h
    unfold peekLoop
    simp only
    split
    · split <;> exact h.soft rfl rfl rfl rfl rfl rfl rfl rfl
    · exact ih _ _ h

theorem jcall_pl (hc : c.Valid) (op : JOp) {T H : Nat} {s : S} (h : LI c W0 L h0 T H s) : PL c L h0 s (jcall c op s) := by
  have hl : Low c L h0 s := ⟨h.w.low, h.w.lst⟩
  cases op with
  | enqueue d m =>
    refine pushLoop_pl hc (wrData_k d) (fun s => ?_) m _ T H s h
    unfold wrData
    cases d with
    | none => rfl
    | some d => exact prog_bad _ _ _
  | copy p m =>
    refine pushLoop_pl hc (wrCopy_k p) (fun s => ?_) _ _ T H s h
    show (nandCopy c p s.j.head s.n).2.chip.bad = _
    unfold nandCopy
    split
    · rfl
    · exact prog_bad _ _ _
  | dequeue =>
    refine ⟨fun _ => ?_, (fun h => by cases h)⟩
    show Low c L h0 (dequeue c s)
    unfold dequeue
    simp only
    split
    · exact hl
    · split <;> split <;> exact hl.soft rfl rfl rfl rfl rfl rfl rfl rfl
  | peek =>
    refine ⟨fun _ => ?_, (fun h => by cases h)⟩
    show Low c L h0 (peek c s).2
    unfold peek
    split
    · exact hl
    · split
      · exact peekLoop_low _ _ _ hl
      · exact hl
  | clear => exact ⟨fun _ => hl.soft rfl rfl rfl rfl rfl rfl rfl rfl, (fun h => by cases h)⟩
  | next =>
    refine ⟨fun _ => ?_, (fun h => by cases h)⟩
    show Low c L h0 (nextRecoverable c s).2
    unfold nextRecoverable
    simp only
    split
    · exact hl
    · split
      · exact hl
      · split <;> exact hl.soft rfl rfl rfl rfl rfl rfl rfl rfl

/-- The positions, from the invariant of histories. -/
theorem QInv.li {s : S} {vts vt vh vr vR vM vn : Nat} (q : QInv c s vts vt vh vr vR vM vn) (hk : KI c W0 s) (hl : Low c L h0 s) (ht : L ≤ cnt W0 c.numBlocks) :
    LI c W0 L h0 (vts / c.ppb) (vh / c.ppb) s := by
  have g := q.geo
  have hle : vts / c.ppb ≤ vh / c.ppb := Nat.div_le_div_right (Nat.le_trans g.l1 g.l2)
  have eh : vh / c.ppb % c.numBlocks = c.blk s.j.head := by rw [blk_eq, g.eh, ph_div_ppb]
  have et : vts / c.ppb % c.numBlocks = c.blk s.j.tailSync := by rw [blk_eq, g.ets, ph_div_ppb]
  have eb : ∀ k, pend c s.j k = true → ∃ v, vts / c.ppb ≤ v ∧ v < vh / c.ppb ∧ v % c.numBlocks = k := by
    intro k hp
    unfold pend at hp
    simp only [Bool.and_eq_true, Bool.or_eq_true, beq_iff_eq] at hp
    obtain ⟨hr, hp⟩ := hp
    rcases q.rst with hcalm | ⟨_, r⟩
    · rw [hcalm.nr] at hr; cases hr
    · have hT : vts / c.ppb ≤ vR / c.ppb := Nat.div_le_div_right (Nat.le_trans g.l1 r.tR)
      rcases hp with hp | ⟨hb, hp⟩
      · exact ⟨vR / c.ppb, hT, r.bR, by rw [hp, blk_eq, r.rr, ph_div_ppb]⟩
      · obtain ⟨b1, b2⟩ := r.bm hb
        obtain ⟨e1, _, e2, _⟩ := r.rm.resolve_left b1
        exact ⟨vM / c.ppb, by omega, b2, by rw [hp, blk_eq, e1, ph_div_ppb]⟩
  have hf : pend c s.j (c.blk s.j.head) = false := win_fresh g.win eh eb
  refine ⟨⟨hk.w.head, hk.w.user, hl.1, fun hz => ?_, hle, g.win, eh, et, eb, ?_, ?_, Nat.le_trans ht (cnt_mono hk.w.lb _), hl.2⟩, hk⟩
  · rw [g.eh, ph_mod_ppb] at hz
    have h1 := (g.hfree hz).1
    unfold Wb
    rw [hf, Bool.or_false, blk_eq, g.eh]; exact h1
  · intro he; rcases q.rst with hcalm | ⟨hr, _⟩
    · exact absurd (hcalm.ed.symm.trans he) (by simp)
    · exact hr
  · intro hr; rcases q.rst with hcalm | ⟨hr', _⟩
    · exact hcalm.bm
    · rw [hr] at hr'; cases hr'

theorem reset_low (j : Journal) (n : Nand) (k : Nat) : Low c 0 0 ⟨resetJournal c j, n, k⟩ := by
  refine ⟨?_, .inl (Nat.zero_le _)⟩
  show cnt _ (c.blk 0) ≤ 0
  rw [blk_eq, Nat.zero_div]; exact Nat.le_refl _

end Dhara

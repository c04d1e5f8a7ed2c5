/-
A push never touches the pages between the synchronised tail and the head: their contents and the erase
counts of their blocks stay the same, whatever the outcome of the push (dhara/journal.c:598-866).
-/
import Verif.Proofs.Evo
import Verif.Proofs.Retire
import Verif.Proofs.Geom
namespace Dhara

variable {c : Cfg}

/-- The pages of the queue from `vts` to `vh` are untouched. -/
def Kp (c : Cfg) (n n' : Nand) (vts vh : Nat) : Prop :=
  ∀ w, vts ≤ w → w < vh → n'.chip.page (c.ph w) = n.chip.page (c.ph w) ∧
    n'.erases (c.ph w / c.ppb) = n.erases (c.ph w / c.ppb)

theorem Kp.refl (n : Nand) (vts vh : Nat) : Kp c n n vts vh := fun _ _ _ => ⟨rfl, rfl⟩

theorem Kp.trans {n n1 n2 : Nand} {vts vh : Nat} (h : Kp c n n1 vts vh) (h' : Kp c n1 n2 vts vh) : Kp c n n2 vts vh :=
  fun w h1 h2 => ⟨((h' w h1 h2).1).trans (h w h1 h2).1, ((h' w h1 h2).2).trans (h w h1 h2).2⟩

theorem Kp.of_eq {n n1 n2 : Nand} {vts vh : Nat} (h : Kp c n n1 vts vh) (e1 : n2.chip.page = n1.chip.page)
    (e2 : n2.erases = n1.erases) : Kp c n n2 vts vh := h.trans fun w _ _ => ⟨by rw [e1], by rw [e2]⟩

/-- The head during a push that started with the head at `vh`. -/
structure Cur (c : Cfg) (n0 : Nand) (vts vh : Nat) (s : S) (v : Nat) : Prop where
  hd : s.j.head = c.ph v
  u : c.isU v
  le : vh ≤ v
  win : c.Win vts v
  ts : s.j.tailSync = c.ph vts
  kp : Kp c n0 s.n vts vh

variable {n0 : Nand} {vts vh : Nat}

theorem Cur.same {s s' : S} {v : Nat} (h : Cur c n0 vts vh s v) (e1 : s'.j.head = s.j.head) (e2 : s'.j.tailSync = s.j.tailSync)
    (e3 : s'.n.chip.page = s.n.chip.page) (e4 : s'.n.erases = s.n.erases) : Cur c n0 vts vh s' v :=
  ⟨e1.trans h.hd, h.u, h.le, h.win, e2.trans h.ts, h.kp.of_eq e3 e4⟩

theorem mark_page (k : Nat) (n : Nand) : (nandMarkBad c k n).chip.page = n.chip.page := by
  unfold nandMarkBad; split <;> rfl

theorem mark_erases' (k : Nat) (n : Nand) : (nandMarkBad c k n).erases = n.erases := by
  unfold nandMarkBad; split <;> rfl

theorem prog_kp {n : Nand} {w d} (hw : c.Win vts w) (hle : vts ≤ w) (hge : vh ≤ w) :
    Kp c n (nandProg c (c.ph w) d n).2 vts vh := by
  intro x h1 h2
  have hne : c.ph x ≠ c.ph w := fun e => by
    have := hw.inj h1 (by omega) hle (Nat.le_refl _) e; omega
  have key : ∀ n' : Nand, n'.erases = n.erases → (∀ q, q ≠ c.ph w → n'.chip.page q = n.chip.page q) →
      n'.chip.page (c.ph x) = n.chip.page (c.ph x) ∧ n'.erases (c.ph x / c.ppb) = n.erases (c.ph x / c.ppb) :=
    fun n' e1 e2 => ⟨e2 _ hne, by rw [e1]⟩
  unfold nandProg
  split
  · exact ⟨rfl, rfl⟩
  · simp only
    split <;> apply key <;> first | rfl | skip
    all_goals
      intro q hq
      simp [Chip.programmed, Chip.garbledPage, upd, hq]

theorem erase_kp {n : Nand} {w : Nat} (hw : c.Win vts w) (hle : vts ≤ w) (hge : vh ≤ w) (hal : w % c.ppb = 0) :
    Kp c n (nandErase c (c.ph w / c.ppb) n).2 vts vh := by
  intro x h1 h2
  have hne : c.ph x / c.ppb ≠ c.ph w / c.ppb := fun e => by
    have := hw.blk_inj h1 (by omega) hle (Nat.le_refl _) e
    have h3 := div_mod_range w c.ppb
    have h4 := div_mod_range x c.ppb
    rw [this] at h4; omega
  have key : ∀ n' : Nand, n'.erases = upd n.erases (c.ph w / c.ppb) (n.erases (c.ph w / c.ppb) + 1) →
      (∀ q, q / c.ppb ≠ c.ph w / c.ppb → n'.chip.page q = n.chip.page q) →
      n'.chip.page (c.ph x) = n.chip.page (c.ph x) ∧ n'.erases (c.ph x / c.ppb) = n.erases (c.ph x / c.ppb) :=
    fun n' e1 e2 => ⟨e2 _ hne, by rw [e1]; simp [upd, hne]⟩
  unfold nandErase
  split
  · exact ⟨rfl, rfl⟩
  · simp only
    split <;> apply key <;> first | rfl | skip
    all_goals
      intro q hq
      simp [Chip.erased, Chip.garbledBlock, Chip.tornBlock, hq]

theorem head_roll' (j : Journal) : (rollIfZero j).head = j.head ∧ (rollIfZero j).tailSync = j.tailSync := by
  unfold rollIfZero; split <;> exact ⟨rfl, rfl⟩

theorem skip_kp (hc : c.Valid) {s : S} {v : Nat} (hl : vts ≤ vh) (h : Cur c n0 vts vh s v) :
    ∀ r s', skipBlock c s = (r, s') → Kp c n0 s'.n vts vh ∧
      (r = .ok () → Cur c n0 vts vh s' ((v / c.ppb + 1) * c.ppb)) := by
  intro r s' e
  have hs : s'.n = s.n := by have := skipBlock_n (c := c) s; rw [e] at this; exact this
  refine ⟨by rw [hs]; exact h.kp, fun hr => ?_⟩
  subst hr
  unfold skipBlock at e
  simp only at e
  split at e
  · cases e
  · next hne =>
    cases e
    have hb : nextBlock c (c.blk s.j.head) = (v / c.ppb + 1) % c.numBlocks := by
      rw [h.hd, blk_eq, ph_div_ppb, nextBlock_ph hc]
    have hle : v ≤ (v / c.ppb + 1) * c.ppb := by
      have := div_mod_range v c.ppb
      have := mod_ppb_lt c v
      rw [Nat.add_mul, Nat.one_mul]; omega
    refine ⟨?_, isU_of_aligned hc (Nat.mul_mod_left _ _), by have := h.le; omega, ?_, (head_roll' _).2.trans h.ts, h.kp⟩
    · show (rollIfZero _).head = _
      rw [(head_roll' _).1]
      show nextBlock c (c.blk s.j.head) <<< c.log2Ppb = _
      rw [hb, shl_ppb, mul_ppb_ph]
    · rw [hb, h.ts, blk_eq, ph_div_ppb] at hne
      have hw := h.win
      unfold Cfg.Win at hw ⊢
      rw [Nat.mul_div_cancel _ (ppb_pos c)]
      apply Classical.byContradiction; intro hn
      have e : v / c.ppb + 1 = vts / c.ppb + c.numBlocks := by omega
      rw [e, Nat.add_mod_right] at hne
      exact hne rfl

theorem prepareHeadLoop_kp (hc : c.Valid) (hl : vts ≤ vh) : ∀ i s v, Cur c n0 vts vh s v → v % c.ppb = 0 →
    Kp c n0 (prepareHeadLoop c i s).2.n vts vh ∧
    ((prepareHeadLoop c i s).1 = .ok () ∨ (prepareHeadLoop c i s).1 = .error .badBlock →
      ∃ v', Cur c n0 vts vh (prepareHeadLoop c i s).2 v' ∧ v' % c.ppb = 0) := by
  intro i
  induction i with
  | zero => intro s v h _; exact ⟨h.kp, fun x => by rcases x with x | x <;> cases x⟩
  | succ i ih =>
    intro s v h hal
    unfold prepareHeadLoop
    simp only
    split
    · have hk := erase_kp (n := s.n) h.win (by have := h.le; omega) h.le hal
      rw [← h.hd, ← blk_eq] at hk
      exact ⟨h.kp.trans hk, fun _ => ⟨v, ⟨h.hd, h.u, h.le, h.win, h.ts, h.kp.trans hk⟩, hal⟩⟩
    · have key := skip_kp hc hl (h.same (s' := { s with j := { s.j with bbCurrent := s.j.bbCurrent + 1 } }) rfl rfl rfl rfl)
      split
      · next e1 =>
        obtain ⟨k1, k2⟩ := key _ _ e1
        refine ⟨k1, fun x => ?_⟩
        unfold skipBlock at e1; simp only at e1
        split at e1 <;> cases e1
        rcases x with x | x <;> cases x
      · next e1 =>
        obtain ⟨k1, k2⟩ := key _ _ e1
        exact ih _ _ (k2 rfl) (Nat.mul_mod_left _ _)

theorem prepareHead_kp (hc : c.Valid) (hl : vts ≤ vh) {s : S} {v : Nat} (h : Cur c n0 vts vh s v) :
    Kp c n0 (prepareHead c s).2.n vts vh ∧
    ((prepareHead c s).1 = .ok () ∨ (prepareHead c s).1 = .error .badBlock →
      ∃ v', Cur c n0 vts vh (prepareHead c s).2 v') := by
  unfold prepareHead
  simp only
  split
  · exact ⟨h.kp, fun x => by rcases x with x | x <;> cases x⟩
  · have h' := h.same (s' := { s with j := { s.j with dirty := true } }) rfl rfl rfl rfl
    split
    · exact ⟨h.kp, fun _ => ⟨v, h'⟩⟩
    · next hal =>
      have hz : v % c.ppb = 0 := by
        have : isAligned s.j.head c.log2Ppb = true := by simpa using hal
        have := isAligned_iff.1 this
        change s.j.head % c.ppb = 0 at this
        rwa [h.hd, ph_mod_ppb] at this
      obtain ⟨k1, k2⟩ := prepareHeadLoop_kp hc hl maxRetries _ v h' hz
      exact ⟨k1, fun x => by obtain ⟨v', k, _⟩ := k2 x; exact ⟨v', k⟩⟩

theorem Cur.prog {s : S} {v : Nat} {d : Buf} (h : Cur c n0 vts vh s v) (hl : vts ≤ vh) :
    Cur c n0 vts vh (progS c s.j.head d s).2 v := by
  have := prog_kp (n := s.n) (d := d) h.win (by have := h.le; omega) h.le
  refine ⟨h.hd, h.u, h.le, h.win, h.ts, ?_⟩
  show Kp c n0 (nandProg c s.j.head d s.n).2 vts vh
  rw [h.hd]; exact h.kp.trans this

theorem dumpMetaLoop_kp (hc : c.Valid) (hl : vts ≤ vh) : ∀ i s v, Cur c n0 vts vh s v →
    Kp c n0 (dumpMetaLoop c i s).2.n vts vh := by
  intro i
  induction i with
  | zero => intro s v h; exact h.kp
  | succ i ih =>
    intro s v h
    unfold dumpMetaLoop
    simp only
    have fin : ∀ (e : Err) (s1 : S), Kp c n0 s1.n vts vh → (e = .badBlock → ∃ v', Cur c n0 vts vh s1 v') →
        Kp c n0 (if e ≠ .badBlock then ((.error e, s1) : Except Err Unit × S)
          else match skipBlock c { { s1 with j := { s1.j with bbCurrent := s1.j.bbCurrent + 1 } } with
              n := nandMarkBad c (c.blk s1.j.head) s1.n } with
            | (.error e, s) => (.error e, s)
            | (.ok (), s) => dumpMetaLoop c i s).2.n vts vh := by
      intro e s1 h1 h2
      split
      · exact h1
      · next he =>
        obtain ⟨v', h3⟩ := h2 (Classical.not_not.1 he)
        have key := skip_kp hc hl (h3.same (s' := { { s1 with j := { s1.j with bbCurrent := s1.j.bbCurrent + 1 } } with
              n := nandMarkBad c (c.blk s1.j.head) s1.n }) rfl rfl (mark_page _ _) (mark_erases' _ _))
        split
        · next e1 => exact (key _ _ e1).1
        · next e1 => exact ih _ _ ((key _ _ e1).2 rfl)
    obtain ⟨p1, p2⟩ := prepareHead_kp hc hl h
    rcases hq : prepareHead c s with ⟨e | ⟨⟩, s1⟩
    · rw [hq] at p1 p2
      exact fin e s1 p1 (fun he => p2 (Or.inr (by rw [he])))
    · rw [hq] at p1 p2
      obtain ⟨v', h1⟩ := p2 (Or.inl rfl)
      simp only
      have hp := h1.prog (d := s1.j.pageBuf) hl
      rcases hr : progS c s1.j.head s1.j.pageBuf s1 with ⟨e | ⟨⟩, s2⟩
      · simp only at hp hr ⊢
        rw [hr] at hp
        exact fin e s2 hp.kp (fun _ => ⟨v', hp⟩)
      · simp only at hp hr ⊢
        rw [hr] at hp
        exact hp.kp

theorem recoverFrom_kp (hc : c.Valid) (hl : vts ≤ vh) {e : Err} {s : S} (h1 : Kp c n0 s.n vts vh)
    (h2 : e = .badBlock → ∃ v', Cur c n0 vts vh s v') :
    Kp c n0 (recoverFrom c e s).2.n vts vh ∧ ((recoverFrom c e s).1 = .ok () → ∃ v', Cur c n0 vts vh (recoverFrom c e s).2 v') := by
  unfold recoverFrom
  simp only
  split
  · exact ⟨h1, fun x => by cases x⟩
  · next he =>
    obtain ⟨v', h3⟩ := h2 (Classical.not_not.1 he)
    have key := skip_kp hc hl (h3.same (s' := { s with j := { s.j with bbCurrent := s.j.bbCurrent + 1 } }) rfl rfl rfl rfl)
    split
    · next e1 => exact ⟨(key _ _ e1).1, fun x => by cases x⟩
    · next s1 e1 =>
      obtain ⟨k1, k2⟩ := key _ _ e1
      have k2 := k2 rfl
      split
      · refine ⟨?_, fun x => by cases x⟩
        unfold restartRecovery
        simp only
        split
        · exact k1.of_eq (mark_page _ _) (mark_erases' _ _)
        · exact k1
      · split
        · exact ⟨k1.of_eq (mark_page _ _) (mark_erases' _ _), fun _ => ⟨_, k2.same rfl rfl (mark_page _ _) (mark_erases' _ _)⟩⟩
        · have kd := dumpMetaLoop_kp hc hl maxRetries _ _ (k2.same (s' := { s1 with j := { s1.j with recoverRoot := s1.j.root, recoverNext := c.blockStart s1.j.root } }) rfl rfl rfl rfl)
          split
          · next h2 =>
            split at h2
            · unfold dumpMeta at h2; rw [h2] at kd; exact ⟨kd, fun x => by cases x⟩
            · cases h2
          · next h2 =>
            split at h2
            · unfold dumpMeta at h2; rw [h2] at kd; exact ⟨kd, fun x => by cases x⟩
            · cases h2; exact ⟨k1, fun x => by cases x⟩

theorem commitPush_keeps (o : Nat) (s : S) : (commitPush c o s).n.chip.page = s.n.chip.page ∧
    (commitPush c o s).n.erases = s.n.erases := by
  unfold commitPush finishRecovery
  simp only
  split <;> split <;> (try split) <;> simp only [mark_page, mark_erases'] <;> exact ⟨trivial, trivial⟩

theorem bufferMeta_keeps (m : Option Buf) (j : Journal) : (bufferMeta c m j).head = j.head ∧ (bufferMeta c m j).tailSync = j.tailSync := by
  unfold bufferMeta; simp only; split <;> exact ⟨rfl, rfl⟩

theorem pushMeta_kp (hc : c.Valid) (hl : vts ≤ vh) (m : Option Buf) {s : S} {v : Nat} (h : Cur c n0 vts vh s v) :
    Kp c n0 (pushMeta c m s).2.n vts vh := by
  unfold pushMeta
  simp only
  split
  · exact h.kp
  · next hl2 =>
    have hl2 : isAligned ((bufferMeta c m s.j).head + 2) c.log2Ppc = true := by simpa using hl2
    have h1 := h.same (s' := { s with j := fillHeader (bufferMeta c m s.j) }) (bufferMeta_keeps _ _).1 (bufferMeta_keeps _ _).2 rfl rfl
    -- the checkpoint page follows the head in the same block
    have hz : (c.ph v + 2) % c.ppc = 0 := by
      rw [(bufferMeta_keeps _ _).1, h.hd] at hl2; exact isAligned_iff.1 hl2
    have h4 := hc.ppc_ge
    obtain ⟨g, hg⟩ := hc.ppc_dvd
    have hlt := ph_lt hc v
    have hmod : (v + 1) % c.ppc = c.ppc - 1 ∧ (v + 1) / c.ppc = v / c.ppc := by
      have hm := ph_mod_ppc hc v
      have h5 := mod_ppc_lt c v
      have h6 : (c.ph v % c.ppc + 2) % c.ppc = 0 := by rw [← Nat.add_mod_mod, Nat.mod_eq_of_lt (show 2 < c.ppc by omega), Nat.add_mod, Nat.mod_mod, ← Nat.add_mod] ; exact hz
      rw [hm] at h6
      have h7 : v % c.ppc + 2 = c.ppc := by
        rcases Nat.lt_or_ge (v % c.ppc + 2) c.ppc with hx | hx
        · rw [Nat.mod_eq_of_lt hx] at h6; omega
        · rw [Nat.mod_eq_sub_mod hx, Nat.mod_eq_of_lt (by omega)] at h6; omega
      have := div_add_lt (v := v) (k := 1) (m := c.ppc) (by omega)
      exact ⟨by omega, this.1⟩
    have hb : (v + 1) / c.ppb = v / c.ppb := div_ppb_of_div_ppc hc hmod.2
    have hph : c.ph v + 1 = c.ph (v + 1) := by
      have e1 := ph_eq_div_mod c v
      have e2 := ph_eq_div_mod c (v + 1)
      have h8 := div_mod_range v c.ppb
      have h9 := div_mod_range (v + 1) c.ppb
      rw [hb] at e2 h9
      omega
    have hw : c.Win vts (v + 1) := by have := h.win; unfold Cfg.Win at this ⊢; rwa [hb]
    have hp := prog_kp (n := s.n) (vh := vh) (d := (fillHeader (bufferMeta c m s.j)).pageBuf) hw (by have := h.le; omega) (by have := h.le; omega)
    have hh : (fillHeader (bufferMeta c m s.j)).head + 1 = c.ph (v + 1) := by
      show (bufferMeta c m s.j).head + 1 = _
      rw [(bufferMeta_keeps _ _).1, h.hd, hph]
    rw [← hh] at hp
    have hk := h.kp.trans hp
    have hcur : Cur c n0 vts vh (progS c ((fillHeader (bufferMeta c m s.j)).head + 1) (fillHeader (bufferMeta c m s.j)).pageBuf
        { s with j := fillHeader (bufferMeta c m s.j) }).2 v := ⟨h1.hd, h1.u, h1.le, h1.win, h1.ts, hk⟩
    split
    · next e1 =>
      change progS c ((fillHeader (bufferMeta c m s.j)).head + 1) (fillHeader (bufferMeta c m s.j)).pageBuf
        { s with j := fillHeader (bufferMeta c m s.j) } = _ at e1
      rw [e1] at hcur
      exact (recoverFrom_kp hc hl hcur.kp (fun _ => ⟨v, hcur⟩)).1
    · next e1 =>
      change progS c ((fillHeader (bufferMeta c m s.j)).head + 1) (fillHeader (bufferMeta c m s.j)).pageBuf
        { s with j := fillHeader (bufferMeta c m s.j) } = _ at e1
      rw [e1] at hcur
      exact hcur.kp.of_eq (commitPush_keeps _ _).1 (commitPush_keeps _ _).2

/-- Writing the user page at the head. -/
structure WrHere (c : Cfg) (wr : S → Except Err Unit × S) : Prop where
  at_ : ∀ s, (wr s).2.n = s.n ∧ (wr s).2.j = s.j ∨ ∃ d, (wr s).2.n = (nandProg c s.j.head d s.n).2 ∧ (wr s).2.j = s.j
  fd : WrFd c wr

theorem wrData_here (d : Option Buf) : WrHere c (wrData c d) := by
  refine ⟨?_, wrData_fd d⟩
  intro s
  unfold wrData
  split
  · exact Or.inl ⟨rfl, rfl⟩
  · exact Or.inr ⟨_, rfl, rfl⟩

theorem wrCopy_here (p : Nat) : WrHere c (wrCopy c p) := by
  refine ⟨?_, wrCopy_fd p⟩
  intro s
  unfold wrCopy nandCopy
  split
  · exact Or.inl ⟨rfl, rfl⟩
  · exact Or.inr ⟨_, rfl, rfl⟩

theorem pushLoop_kp (hc : c.Valid) (hl : vts ≤ vh) {wr : S → Except Err Unit × S} (hw : WrHere c wr) (m : Option Buf) :
    ∀ i s v, Cur c n0 vts vh s v → Kp c n0 (pushLoop c wr m i s).2.n vts vh := by
  intro i
  induction i with
  | zero => intro s v h; exact h.kp
  | succ i ih =>
    intro s v h
    unfold pushLoop
    simp only
    have fin : ∀ (e : Err) (s1 : S), Kp c n0 s1.n vts vh → (e = .badBlock → ∃ v', Cur c n0 vts vh s1 v') →
        Kp c n0 (match recoverFrom c e s1 with
            | (.error e, s) => ((.error e, s) : Except Err Unit × S)
            | (.ok (), s) => pushLoop c wr m i s).2.n vts vh := by
      intro e s1 h1 h2
      have key := recoverFrom_kp hc hl h1 h2
      split
      · next e1 => rw [e1] at key; exact key.1
      · next e1 =>
        rw [e1] at key
        obtain ⟨v', k⟩ := key.2 rfl
        exact ih _ _ k
    obtain ⟨p1, p2⟩ := prepareHead_kp hc hl h
    rcases hq : prepareHead c s with ⟨e | ⟨⟩, s1⟩
    · rw [hq] at p1 p2
      exact fin e s1 p1 (fun he => p2 (Or.inr (by rw [he])))
    · rw [hq] at p1 p2
      obtain ⟨v', h1⟩ := p2 (Or.inl rfl)
      simp only at h1 ⊢
      have hp : Cur c n0 vts vh (wr s1).2 v' := by
        rcases hw.at_ s1 with ⟨a, b⟩ | ⟨d, a, b⟩
        · exact h1.same (by rw [b]) (by rw [b]) (by rw [a]) (by rw [a])
        · have := h1.prog (d := d) hl
          refine ⟨by rw [b]; exact h1.hd, h1.u, h1.le, h1.win, by rw [b]; exact h1.ts, ?_⟩
          rw [a]; exact this.kp
      rcases hr : wr s1 with ⟨e | ⟨⟩, s2⟩
      · rw [hr] at hp
        exact fin e s2 hp.kp (fun _ => ⟨v', hp⟩)
      · rw [hr] at hp
        exact pushMeta_kp hc hl m hp

end Dhara

/-
The counters of bad blocks kept in the checkpoints (dhara/journal.c:106-128) stay in range, and with them those found by a resume (C68).
-/
import Verif.Proofs.Counters
import Verif.Proofs.Closed2
import Verif.Proofs.Healthy4
import Verif.Proofs.Local2
import Verif.Props.CrashSpec
namespace Dhara

variable {c : Cfg}

/-- The counters in a page that looks like a checkpoint are in range. -/
def HdrIn (c : Cfg) (p : Nat) (b : Buf) : Prop := hdrHasMagic b = true → hdrGetBbCurrent b ≤ p / c.ppb ∧ hdrGetBbLast b ≤ c.numBlocks

/-- The counters in every checkpoint on the chip are in range. -/
def DC (c : Cfg) (ch : Chip) : Prop := ∀ p b, p < c.pages → p % c.ppc = c.ppc - 1 → ch.page p = some b → HdrIn c p b

theorem hdrIn_noMagic {p : Nat} {b : Buf} (h : hdrHasMagic b = false) : HdrIn c p b := fun h' => by rw [h] at h'; cases h'

theorem hdrIn_blank (hc : c.Valid) (p : Nat) : HdrIn c p (c.clip Buf.ff) := by
  refine hdrIn_noMagic ?_
  have := hc.pageSize_ge
  have e : c.clip Buf.ff 0 = 0xff := by
    unfold Cfg.clip Buf.slice Buf.ff
    rw [if_pos (by omega)]
  unfold hdrHasMagic
  rw [e]
  rfl

theorem DC.upd {ch : Chip} (h : DC c ch) {p : Nat} {f : Nat → Bool} {x : Option Buf} (hx : p % c.ppc = c.ppc - 1 → ∀ b, x = some b → HdrIn c p b) :
    DC c { ch with page := upd ch.page p x, free := f } := by
  intro q b h1 h2 h3
  simp only [Dhara.upd] at h3
  split at h3
  · next e => subst e; exact hx h2 b h3
  · exact h q b h1 h2 h3

theorem DC.erased (hc : c.Valid) {ch : Chip} (h : DC c ch) (k : Nat) : DC c (ch.erased c k) := by
  intro q b h1 h2 h3
  simp only [Chip.erased] at h3
  split at h3
  · cases h3; exact hdrIn_blank hc q
  · exact h q b h1 h2 h3

theorem nandErase_dc (hc : c.Valid) (hJ : NoForgery c) (k : Nat) {n : Nand} (h : DC c n.chip) : DC c (nandErase c k n).2.chip := by
  unfold nandErase
  split
  · exact h
  · simp only
    split
    · exact h.erased hc k
    · intro q b h1 h2 h3
      simp only [Chip.garbledBlock] at h3
      split at h3
      · exact hdrIn_noMagic (hJ _ _ _ h2 h3)
      · exact h q b h1 h2 h3
    · exact h
    · exact h.erased hc k
    · intro q b h1 h2 h3
      simp only [Chip.tornBlock] at h3
      split at h3
      · exact hdrIn_noMagic (hJ _ _ _ h2 h3)
      · exact h q b h1 h2 h3

theorem nandProg_dc (hJ : NoForgery c) (p : Nat) (d : Buf) {n : Nand} (h : DC c n.chip) (hd : p % c.ppc = c.ppc - 1 → HdrIn c p (c.clip d)) :
    DC c (nandProg c p d n).2.chip := by
  have ok : ∀ f, DC c { n.chip with page := Dhara.upd n.chip.page p (some (c.clip d)), free := f } := by
    intro f
    refine h.upd fun h1 b h2 => ?_
    cases h2; exact hd h1
  have bad : ∀ f, DC c { n.chip with page := Dhara.upd n.chip.page p (c.env.junk n.time p), free := f } :=
    fun f => h.upd fun h1 b h2 => hdrIn_noMagic (hJ _ _ _ h1 h2)
  unfold nandProg
  split
  · exact h
  · simp only
    split
    · exact ok _
    · exact bad _
    · exact h
    · exact ok _
    · exact bad _

theorem nandMarkBad_dc (k : Nat) {n : Nand} (h : DC c n.chip) : DC c (nandMarkBad c k n).chip := by
  unfold nandMarkBad
  split
  · exact h
  · exact h

theorem progS_dc (hJ : NoForgery c) {p : Nat} (d : Buf) {s : S} (h : DC c s.n.chip) (hu : c.isU p) : DC c (progS c p d s).2.n.chip :=
  nandProg_dc hJ p d h fun h1 => absurd h1 hu

theorem skipBlock_chip (s : S) : (skipBlock c s).2.n = s.n := by
  unfold skipBlock
  simp only
  split <;> rfl

theorem prepareHeadLoop_dc (hc : c.Valid) (hJ : NoForgery c) : ∀ i (s : S), DC c s.n.chip → DC c (prepareHeadLoop c i s).2.n.chip := by
  intro i
  induction i with
  | zero => intro s h; exact h
  | succ i ih =>
    intro s h
    unfold prepareHeadLoop
    simp only
    split
    · exact nandErase_dc hc hJ _ h
    · have h1 := skipBlock_chip (c := c) { s with j := { s.j with bbCurrent := s.j.bbCurrent + 1 } }
      split
      · next h2 => rw [h2] at h1; simp only at h1 ⊢; rw [h1]; exact h
      · next h2 => rw [h2] at h1; simp only at h1; exact ih _ (by rw [h1]; exact h)

theorem prepareHead_dc (hc : c.Valid) (hJ : NoForgery c) {s : S} (h : DC c s.n.chip) : DC c (prepareHead c s).2.n.chip := by
  unfold prepareHead
  simp only
  split
  · exact h
  · split
    · exact h
    · exact prepareHeadLoop_dc hc hJ _ _ h

theorem dumpMetaLoop_dc (hc : c.Valid) (hJ : NoForgery c) : ∀ i (s : S), BC c s.j → DC c s.n.chip → DC c (dumpMetaLoop c i s).2.n.chip := by
  intro i
  induction i with
  | zero => intro s _ h; exact h
  | succ i ih =>
    intro s hb h
    unfold dumpMetaLoop
    simp only
    have fin : ∀ (e : Err) (s1 : S), (e = .journalFull ∨ BC c s1.j) → DC c s1.n.chip →
        DC c (if e ≠ .badBlock then ((.error e, s1) : Except Err Unit × S)
          else match skipBlock c { { s1 with j := { s1.j with bbCurrent := s1.j.bbCurrent + 1 } } with
              n := nandMarkBad c (c.blk s1.j.head) s1.n } with
            | (.error e, s) => (.error e, s)
            | (.ok (), s) => dumpMetaLoop c i s).2.n.chip := by
      intro e s1 h0 hd
      rcases h0 with rfl | h0
      · exact hd
      split
      · exact hd
      · have h1 := h0.skip hc (nandMarkBad c (c.blk s1.j.head) s1.n)
        have h3 := skipBlock_chip (c := c) { { s1 with j := { s1.j with bbCurrent := s1.j.bbCurrent + 1 } } with n := nandMarkBad c (c.blk s1.j.head) s1.n }
        have hd := nandMarkBad_dc (c.blk s1.j.head) hd
        split
        · next h2 => rw [h2] at h3; simp only at h3 ⊢; rw [h3]; exact hd
        · next h2 =>
          rw [h2] at h3; simp only at h3
          exact ih _ (h1.of h2 (by simp)) (by rw [h3]; exact hd)
    have h1 := prepareHead_bc hc hb
    have d1 := prepareHead_dc hc hJ h
    rcases hp : prepareHead c s with ⟨e | ⟨⟩, s1⟩
    · simp only
      rw [hp] at h1 d1
      refine fin e s1 ?_ d1
      rcases h1 with h1 | h1
      · exact .inl (Except.error.inj h1)
      · exact .inr h1
    · have h2 := h1.of hp (by simp)
      rw [hp] at d1
      simp only at d1 ⊢
      have d2 := progS_dc hJ s1.j.pageBuf d1 h2.user
      rcases hq : progS c s1.j.head s1.j.pageBuf s1 with ⟨e | ⟨⟩, s2⟩
      · simp only
        have hj : s2.j = s1.j := by have := congrArg (fun x => x.2.j) hq; exact this.symm
        rw [hq] at d2
        exact fin e s2 (.inr (by rw [hj]; exact h2)) d2
      · rw [hq] at d2
        exact d2

theorem restartRecovery_dc (k : Nat) {s : S} (h : DC c s.n.chip) : DC c (restartRecovery c k s).n.chip := by
  unfold restartRecovery
  simp only
  split
  · exact nandMarkBad_dc _ h
  · exact h

theorem recoverFrom_dc (hc : c.Valid) (hJ : NoForgery c) (e : Err) {s : S} (hb : e = .journalFull ∨ BC c s.j) (h : DC c s.n.chip) :
    DC c (recoverFrom c e s).2.n.chip := by
  unfold recoverFrom
  simp only
  rcases hb with rfl | hb
  · exact h
  split
  · exact h
  · have h0 := hb.skip hc s.n
    have h3 := skipBlock_chip (c := c) { s with j := { s.j with bbCurrent := s.j.bbCurrent + 1 } }
    split
    · next h2 => rw [h2] at h3; simp only at h3 ⊢; rw [h3]; exact h
    · next s1 h1 =>
      have h2 : BC c s1.j := h0.of h1 (by simp)
      rw [h1] at h3
      simp only at h3
      have hd : DC c s1.n.chip := by rw [h3]; exact h
      split
      · exact restartRecovery_dc _ hd
      · split
        · exact nandMarkBad_dc _ hd
        · generalize hr : (if ¬ (isAligned s.j.head c.log2Ppc = true) then
              dumpMeta c ⟨{ s1.j with recoverRoot := s1.j.root, recoverNext := c.blockStart s1.j.root }, s1.n, s1.count⟩
            else ((.ok (), ⟨{ s1.j with recoverRoot := s1.j.root, recoverNext := c.blockStart s1.j.root }, s1.n, s1.count⟩) : Except Err Unit × S)) = r
          have hk : DC c r.2.n.chip := by
            rw [← hr]
            split
            · exact dumpMetaLoop_dc hc hJ _ _ (h2.of_eq rfl rfl rfl) hd
            · exact hd
          clear hr
          split
          · exact hk
          · exact hk

theorem finishRecovery_dc {s : S} (h : DC c s.n.chip) : DC c (finishRecovery c s).n.chip := by
  unfold finishRecovery
  simp only
  split
  · exact nandMarkBad_dc _ (nandMarkBad_dc _ h)
  · exact nandMarkBad_dc _ h

theorem commitPush_dc (k : Nat) {s : S} (h : DC c s.n.chip) : DC c (commitPush c k s).n.chip := by
  have last : ∀ v : S, DC c v.n.chip → DC c (if ¬ v.j.recovery then { v with j := { v.j with tailSync := v.j.tail } } else v : S).n.chip := by
    intro v hv
    split <;> exact hv
  have mid : ∀ v : S, DC c v.n.chip → DC c (if v.j.enumDone then finishRecovery c v else v).n.chip := by
    intro v hv
    split
    · exact finishRecovery_dc hv
    · exact hv
  exact last _ (mid ⟨_, s.n, s.count⟩ h)

theorem hdr_cnt_congr {b b' : Buf} (he : ∀ i, i < 16 → b' i = b i) :
    hdrGetBbCurrent b' = hdrGetBbCurrent b ∧ hdrGetBbLast b' = hdrGetBbLast b ∧ hdrHasMagic b' = hdrHasMagic b :=
  ⟨r32_congr fun i hi => he _ (by omega), r32_congr fun i hi => he _ (by omega), by
    unfold hdrHasMagic; rw [he 0 (by omega), he 1 (by omega), he 2 (by omega)]⟩

theorem clip_lo (hc : c.Valid) (d : Buf) : ∀ i, i < 16 → c.clip d i = d i := by
  intro i hi
  have := hc.pageSize_ge
  unfold Cfg.clip Buf.slice
  rw [if_pos (by omega), Nat.zero_add]

theorem numBlocks_lt (hc : c.Valid) : c.numBlocks < 2 ^ 32 := by
  have h1 := hc.pages_hi
  have h2 : c.numBlocks ≤ c.pages := Nat.le_mul_of_pos_right _ (ppb_pos c)
  omega

/-- The header just made holds counters in range. -/
theorem BC.hdrIn (hc : c.Valid) {j : Journal} (h : BC c j) {p : Nat} (hp : j.head ≤ p) : HdrIn c p (c.clip (fillHeader j).pageBuf) := by
  intro _
  obtain ⟨e1, e2, _⟩ := hdr_cnt_congr (clip_lo hc (fillHeader j).pageBuf)
  have hN := numBlocks_lt hc
  have hb := blk_ok h.head
  have hcur := h.cur
  have hlast := h.last
  have f1 : hdrGetBbCurrent (fillHeader j).pageBuf = j.bbCurrent := by
    unfold fillHeader hdrSetBbLast hdrSetBbCurrent hdrGetBbCurrent
    simp only
    rw [r32_w32_other (by omega), r32_w32_same (by omega)]
  have f2 : hdrGetBbLast (fillHeader j).pageBuf = j.bbLast := by
    unfold fillHeader hdrSetBbLast hdrGetBbLast
    simp only
    rw [r32_w32_same (by omega)]
  rw [e1, e2, f1, f2]
  refine ⟨Nat.le_trans hcur ?_, hlast⟩
  rw [← blk_eq]; exact blk_mono hp

theorem pushMeta_dc (hc : c.Valid) (hJ : NoForgery c) (mt : Option Buf) {s : S} (hb : BC c s.j) (h : DC c s.n.chip) : DC c (pushMeta c mt s).2.n.chip := by
  have h1 : BC c (bufferMeta c mt s.j) := by unfold bufferMeta; cases mt <;> exact hb.of_eq rfl rfl rfl
  unfold pushMeta
  simp only
  split
  · exact h
  · have h2 : BC c (fillHeader (bufferMeta c mt s.j)) := h1.of_eq rfl rfl rfl
    have hd : DC c (progS c ((fillHeader (bufferMeta c mt s.j)).head + 1) (fillHeader (bufferMeta c mt s.j)).pageBuf
        ⟨fillHeader (bufferMeta c mt s.j), s.n, s.count⟩).2.n.chip :=
      nandProg_dc hJ _ _ h fun _ => h1.hdrIn hc (Nat.le_succ _)
    split
    · next heq =>
      have := congrArg (fun x => x.2.j) heq
      have this : fillHeader (bufferMeta c mt s.j) = _ := this
      rw [heq] at hd
      exact recoverFrom_dc hc hJ _ (.inr (by rw [this] at h2; exact h2)) hd
    · next heq =>
      rw [heq] at hd
      exact commitPush_dc _ hd

theorem pushLoop_dc (hc : c.Valid) (hJ : NoForgery c) {wr : S → Except Err Unit × S} (hw : ∀ s, (wr s).2.j = s.j)
    (hwd : ∀ s, BC c s.j → DC c s.n.chip → DC c (wr s).2.n.chip) (mt : Option Buf) :
    ∀ i (s : S), BC c s.j → DC c s.n.chip → DC c (pushLoop c wr mt i s).2.n.chip := by
  intro i
  induction i with
  | zero => intro s _ h; exact h
  | succ i ih =>
    intro s hb h
    unfold pushLoop
    simp only
    have fin : ∀ (e : Err) (s1 : S), (e = .journalFull ∨ BC c s1.j) → DC c s1.n.chip →
        DC c (match recoverFrom c e s1 with
            | (.error e, s) => ((.error e, s) : Except Err Unit × S)
            | (.ok (), s) => pushLoop c wr mt i s).2.n.chip := by
      intro e s1 h0 hd
      have h1 := recoverFrom_bc hc e h0
      have hd := recoverFrom_dc hc hJ e h0 hd
      split
      · next h2 => rw [h2] at hd; exact hd
      · next h2 => rw [h2] at hd; exact ih _ (h1.of h2 (by simp)) hd
    have h1 := prepareHead_bc hc hb
    have d1 := prepareHead_dc hc hJ h
    rcases hp : prepareHead c s with ⟨e | ⟨⟩, s1⟩
    · simp only
      rw [hp] at h1 d1
      refine fin e s1 ?_ d1
      rcases h1 with h1 | h1
      · exact .inl (Except.error.inj h1)
      · exact .inr h1
    · have h2 := h1.of hp (by simp)
      rw [hp] at d1
      simp only at d1 ⊢
      have hj := hw s1
      have hd := hwd s1 h2 d1
      rcases hq : wr s1 with ⟨e | ⟨⟩, s2⟩
      · rw [hq] at hj hd; simp only at hj hd ⊢
        exact fin e s2 (.inr (by rw [hj]; exact h2)) hd
      · rw [hq] at hj hd; simp only at hj hd ⊢
        exact pushMeta_dc hc hJ _ (by rw [hj]; exact h2) hd

theorem enqueue_dc (hc : c.Valid) (hJ : NoForgery c) (d m : Option Buf) {s : S} (hb : BC c s.j) (h : DC c s.n.chip) : DC c (enqueue c d m s).2.n.chip := by
  refine pushLoop_dc hc hJ (fun s => ?_) (fun s hb h => ?_) _ _ _ hb h
  · unfold wrData
    cases d <;> rfl
  · unfold wrData
    cases d with
    | none => exact h
    | some d => exact progS_dc hJ _ h hb.user

theorem journalCopy_dc (hc : c.Valid) (hJ : NoForgery c) (p : Nat) (m : Buf) {s : S} (hb : BC c s.j) (h : DC c s.n.chip) :
    DC c (journalCopy c p m s).2.n.chip := by
  refine pushLoop_dc hc hJ (fun _ => rfl) (fun s hb h => ?_) _ _ _ hb h
  unfold wrCopy nandCopy
  simp only
  split
  · exact h
  · exact nandProg_dc hJ _ _ h fun h1 => absurd h1 hb.user

theorem jcall_dc (hc : c.Valid) (hJ : NoForgery c) (op : JOp) {s : S} (hb : BC c s.j) (h : DC c s.n.chip) : DC c (jcall c op s).2.n.chip := by
  cases op with
  | enqueue d m => exact enqueue_dc hc hJ d m hb h
  | copy p m => exact journalCopy_dc hc hJ p m hb h
  | dequeue => show DC c (dequeue c s).n.chip; rw [dequeue_n]; exact h
  | peek => show DC c (peek c s).2.n.chip; rw [peek_n]; exact h
  | clear => exact h
  | next =>
    show DC c (nextRecoverable c s).2.n.chip
    unfold nextRecoverable
    simp only
    split
    · exact h
    · split
      · exact h
      · split <;> exact h

/-! ### What a resume finds -/

theorem findRootLoop_dc (hc : c.Valid) {n : Nand} (h : DC c n.chip) (e : UInt8) {k : Nat} (hk : k < c.numBlocks) : ∀ i root b,
    i ≤ 2 ^ (c.log2Ppb - c.log2Ppc) → findRootLoop c n e k i = .ok (root, b) → hdrGetBbCurrent b ≤ k ∧ hdrGetBbLast b ≤ c.numBlocks := by
  intro i
  induction i with
  | zero => intro root b _ h; cases h
  | succ i ih =>
    intro root b hi hr
    unfold findRootLoop at hr
    simp only at hr
    split at hr
    · exact ih _ _ (by omega) hr
    · next b1 h1 =>
      split at hr
      · next hm =>
        cases hr
        obtain ⟨pg, h2, h3, h4⟩ := nandRead_ok h1
        obtain ⟨_, f1, f2⟩ := grp_fit hc hk (show i < _ by omega)
        have hpos := ppc_pos c
        have he : k <<< c.log2Ppb + (i + 1) <<< c.log2Ppc - 1 = k * c.ppb + i * c.ppc + (c.ppc - 1) := by
          rw [shl_ppb, Nat.shiftLeft_eq]
          show _ + (i + 1) * c.ppc - 1 = _
          rw [Nat.add_mul]; omega
        rw [he] at h2 h4
        obtain ⟨e1, e2, e3⟩ := hdr_cnt_congr (b := pg) (b' := pg.slice 0 c.pageSize) (clip_lo hc pg)
        have hmg : hdrHasMagic pg = true := by
          rw [h3, e3] at hm
          simp only [Bool.and_eq_true] at hm
          exact hm.1
        have hmod : (k * c.ppb + i * c.ppc + (c.ppc - 1)) % c.ppc = c.ppc - 1 := by
          obtain ⟨q, hq⟩ := hc.ppc_dvd
          rw [hq, show k * (c.ppc * q) = k * q * c.ppc by rw [Nat.mul_comm c.ppc q, Nat.mul_assoc], ← Nat.add_mul, Nat.mul_comm, Nat.mul_add_mod]
          exact Nat.mod_eq_of_lt (by omega)
        have hdiv : (k * c.ppb + i * c.ppc + (c.ppc - 1)) / c.ppb = k := by
          rw [show k * c.ppb + i * c.ppc + (c.ppc - 1) = c.ppb * k + (i * c.ppc + (c.ppc - 1)) by rw [Nat.mul_comm k]; omega,
            Nat.mul_add_div (ppb_pos c), Nat.div_eq_of_lt (by omega), Nat.add_zero]
        have := h _ _ h4 hmod h2 hmg
        rw [hdiv] at this
        rw [h3, e1, e2]
        exact this
      · exact ih _ _ (by omega) hr

/-- Where the search for the head may be: on a page of the chip, with the counters in range. -/
structure BCf (c : Cfg) (j : Journal) : Prop where
  head : j.head < c.pages
  cur : j.bbCurrent ≤ j.head / c.ppb
  last : j.bbLast ≤ c.numBlocks

theorem trailFree_le {n : Nand} {p : Nat} : ∀ k cnt, trailFree c n p k cnt ≤ cnt + k := by
  intro k
  induction k with
  | zero => intro cnt; exact Nat.le_refl _
  | succ k ih =>
    intro cnt
    unfold trailFree
    split
    · have := ih (cnt + 1); omega
    · omega

theorem findHeadLoop_bcf (hc : c.Valid) {n : Nand} : ∀ f (j j' : Journal), BCf c j → findHeadLoop c n f j = .ok j' → BC c j' := by
  intro f
  induction f with
  | zero => intro j j' _ h; cases h
  | succ f ih =>
    intro j j' hb h
    have hg : j.head - (j.head &&& (c.ppc - 1)) = j.head / c.ppc * c.ppc := by
      rw [slot_eq]; have := div_mod_range j.head c.ppc; omega
    have hfit : j.head / c.ppc * c.ppc + c.ppc ≤ c.pages := by
      obtain ⟨q, hq⟩ := hc.ppc_dvd_pages
      have hj := hb.head
      rw [hq] at hj ⊢
      have h1 : j.head / c.ppc < q := Nat.div_lt_of_lt_mul hj
      have h2 : (j.head / c.ppc + 1) * c.ppc ≤ q * c.ppc := Nat.mul_le_mul_right _ h1
      rw [Nat.add_mul] at h2
      rw [Nat.mul_comm c.ppc q]; omega
    have hpos := ppc_pos c
    have hdm := div_mod_range j.head c.ppc
    have hml := mod_ppc_lt c j.head
    have hblk : j.head / c.ppb = (j.head / c.ppc * c.ppc) / c.ppb := by
      obtain ⟨q, hq⟩ := hc.ppc_dvd
      rw [hq, ← Nat.div_div_eq_div_mul, ← Nat.div_div_eq_div_mul, Nat.mul_div_cancel _ hpos]
    have hcur := hb.cur
    rw [hblk] at hcur
    unfold findHeadLoop at h
    simp only [hg] at h
    split at h
    · next hcnt =>
      have hle := trailFree_le (c := c) (n := n) (p := j.head / c.ppc * c.ppc) c.ppc 0
      generalize hcn : trailFree c n (j.head / c.ppc * c.ppc) c.ppc 0 = cnt at h hcnt hle
      cases h
      refine ⟨by simp only; omega, ?_, ?_, hb.last⟩
      · show c.isU (j.head / c.ppc * c.ppc + c.ppc - cnt)
        unfold Cfg.isU
        rw [show j.head / c.ppc * c.ppc + c.ppc - cnt = c.ppc * (j.head / c.ppc) + (c.ppc - cnt) by rw [Nat.mul_comm c.ppc]; omega, Nat.mul_add_mod]
        rw [Nat.mod_eq_of_lt (by omega)]
        omega
      · show j.bbCurrent ≤ c.blk (j.head / c.ppc * c.ppc + c.ppc - cnt)
        rw [blk_eq]
        exact Nat.le_trans hcur (Nat.div_le_div_right (by omega))
    · generalize hq : (if j.head / c.ppc * c.ppc + c.ppc ≥ c.pages then
        rollStats { j with head := 0 } else { j with head := j.head / c.ppc * c.ppc + c.ppc }) = q at h
      have hbq : BCf c q := by
        rw [← hq]
        have h1 : j.head / c.ppb < c.numBlocks := by have := blk_ok hb.head; rwa [blk_eq] at this
        split
        · exact ⟨hc.pages_pos, Nat.zero_le _, by have := hb.cur; show j.bbCurrent ≤ _; omega⟩
        · exact ⟨by simp only; omega, Nat.le_trans hcur (Nat.div_le_div_right (by simp only; omega)), hb.last⟩
      split at h
      · next ha =>
        have hq0 : q.head % c.ppb = 0 := isAligned_iff.1 ha
        have hbc : BC c q := ⟨hbq.head, isU_of_aligned hc hq0, by rw [blk_eq]; exact hbq.cur, hbq.last⟩
        split at h
        · cases h; exact hbc.of_eq rfl rfl rfl
        · cases h; exact hbc
      · exact ih _ _ hbq h

theorem findLastGroupLoop_at (hc : c.Valid) {n : Nand} {k : Nat} (hk : k < c.numBlocks) : ∀ f lo hi x, hi ≤ 2 ^ (c.log2Ppb - c.log2Ppc) →
    findLastGroupLoop c n k (2 ^ (c.log2Ppb - c.log2Ppc)) f lo hi = .ok x →
    ∃ m, m < 2 ^ (c.log2Ppb - c.log2Ppc) ∧ x = k * c.ppb + m * c.ppc := by
  intro f
  induction f with
  | zero => intro lo hi x _ h; cases h
  | succ f ih =>
    intro lo hi x hh h
    unfold findLastGroupLoop at h
    simp only at h
    split at h
    · have hm : (lo + (hi - 1)) >>> 1 < hi := by rw [Nat.shiftRight_eq_div_pow]; omega
      split at h
      · exact ih _ _ _ (by omega) h
      · split at h
        · cases h
          exact ⟨_, by omega, (grp_fit hc hk (show (lo + (hi - 1)) >>> 1 < _ by omega)).1⟩
        · exact ih _ _ _ hh h
    · cases h
      exact ⟨0, Nat.two_pow_pos _, by rw [shl_ppb]; omega⟩

/-- The counters a resume finds are in range. -/
theorem journalResume_bc (hc : c.Valid) {n : Nand} (h : DC c n.chip) {j j' : Journal} {r : Except Err Unit} (hr : journalResume c n j = (r, j'))
    (hk : r = .ok () ∨ r = .error .tooBad) : BC c j' := by
  rcases hk with rfl | rfl
  · unfold journalResume at hr
    split at hr
    · cases hr
    · next first b0 h1 =>
      have hfirst := findCheckblock_lt _ _ _ _ h1
      simp only at hr
      split at hr
      · cases hr
      · next last h2 =>
        have hlast := findLastCheckblockLoop_lt hfirst _ _ _ _ h2
        split at hr
        · cases hr
        · next g h3 =>
          obtain ⟨m, hm, hx⟩ := findLastGroupLoop_at hc hlast _ _ _ _ (Nat.le_refl _) h3
          obtain ⟨_, f1, f2⟩ := grp_fit hc hlast hm
          have hpos := ppc_pos c
          have h4 := hc.ppc_ge
          have hgb : g / c.ppb = last := by
            rw [hx, show last * c.ppb + m * c.ppc = c.ppb * last + m * c.ppc by rw [Nat.mul_comm last], Nat.mul_add_div (ppb_pos c),
              Nat.div_eq_of_lt (by omega), Nat.add_zero]
          have hgm : g % c.ppb = m * c.ppc := by
            rw [hx, show last * c.ppb + m * c.ppc = c.ppb * last + m * c.ppc by rw [Nat.mul_comm last], Nat.mul_add_mod, Nat.mod_eq_of_lt (by omega)]
          split at hr
          · cases hr
          · next root b h5 =>
            split at hr
            · cases hr
            · next j2 h6 =>
              cases hr
              unfold findRoot at h5
              have e1 : g &&& (c.ppb - 1) = m * c.ppc := by
                rw [← hgm]; unfold Cfg.ppb; rw [Nat.and_two_pow_sub_one_eq_mod]
              rw [e1, blk_eq, hgb, show (m * c.ppc) >>> c.log2Ppc = m by
                rw [Nat.shiftRight_eq_div_pow]; exact Nat.mul_div_cancel _ hpos] at h5
              obtain ⟨d1, d2⟩ := findRootLoop_dc hc h _ hlast _ _ _ (by omega) h5
              unfold findHead at h6
              have hu : nextUpage c g = g + 1 := by
                have hgp : (g + 1 + 1) % c.ppc = 2 := by
                  obtain ⟨q, hq⟩ := hc.ppc_dvd
                  rw [hx, hq, show last * (c.ppc * q) = last * q * c.ppc by rw [Nat.mul_comm c.ppc q, Nat.mul_assoc], ← Nat.add_mul, Nat.add_assoc,
                    Nat.mul_comm, Nat.mul_add_mod]
                  exact Nat.mod_eq_of_lt (by omega)
                have hna : ¬ isAligned (g + 1 + 1) c.log2Ppc = true := by
                  rw [isAligned_iff]
                  show ¬ (g + 1 + 1) % c.ppc = 0
                  omega
                unfold nextUpage
                simp only
                rw [if_neg hna, if_neg (by omega)]
              rw [hu] at h6
              have : BC c j2 := by
                refine findHeadLoop_bcf hc _ _ _ ?_ h6
                unfold rollIfZero
                rw [if_neg (by simp)]
                exact ⟨by simp only; omega, Nat.le_trans d1 (by
                  show last ≤ (g + 1) / c.ppb
                  rw [← hgb]; exact Nat.div_le_div_right (by omega)), d2⟩
              exact this.of_eq rfl rfl rfl
  · obtain ⟨j0, hj⟩ := resume_tooBad hr
    rw [hj]; exact resetJournal_bc hc _

theorem dc_closed (hc : c.Valid) (hJ : NoForgery c) : Cl2.JCl c (fun s => BC c s.j ∧ DC c s.n.chip) (fun s => DC c s.n.chip) where
  enq := fun d m _ h => (enqueue_bc hc d m h.1).imp (fun e => ⟨e, enqueue_dc hc hJ d m h.1 h.2⟩) (fun e => ⟨e, enqueue_dc hc hJ d m h.1 h.2⟩)
  cpy := fun p m _ h => (journalCopy_bc hc p m h.1).imp (fun e => ⟨e, journalCopy_dc hc hJ p m h.1 h.2⟩) (fun e => ⟨e, journalCopy_dc hc hJ p m h.1 h.2⟩)
  peek := fun _ h => ⟨peek_bc h.1, by rw [peek_n]; exact h.2⟩
  deq := fun _ h => ⟨dequeue_bc h.1, by rw [dequeue_n]; exact h.2⟩
  nxt := fun _ h => ⟨nextRecoverable_bc h.1, jcall_dc hc hJ .next h.1 h.2⟩
  clr := fun _ h => ⟨h.1.of_eq rfl rfl rfl, h.2⟩
  ck := fun _ _ h => ⟨h.1.of_eq rfl rfl rfl, h.2⟩
  cnt := fun _ _ h => h
  dcnt := fun _ _ h => h
  tick := fun _ h => h

theorem step_dc (hc : c.Valid) (hJ : NoForgery c) (op : Op) {s : S} (hb : BC c s.j) (h : DC c s.n.chip) : DC c (step c op s).2.n.chip :=
  (Cl2.step_cl (dc_closed hc hJ) op (s := s) ⟨hb, h⟩).elim And.right And.right

end Dhara

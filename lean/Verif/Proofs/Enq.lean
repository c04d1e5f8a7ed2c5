/-
The push loop shared by dhara_journal_enqueue and dhara_journal_copy
(dhara/journal.c:827-866): outcomes in terms of queue positions.
-/
import Verif.Proofs.Commit
import Verif.Proofs.Evo
import Verif.Proofs.Flags
namespace Dhara

variable {c : Cfg}

/-- The push succeeded; the page went to position `vq`. -/
structure PushOk (c : Cfg) (s s' : S) (m : Option Buf) (Pd : S → Option Buf → Prop)
    (vts vt vh vq vR vM : Nat) : Prop where
  le : vh ≤ vq
  mv : vq = vh ∨ (vh % c.ppb = 0 ∧ vq % c.ppb = 0)
  uq : c.isU vq
  winq : c.Win vts (c.nextV vq)
  root : s'.j.root = c.ph vq
  cnt : s'.count = s.count
  geo : Geo c s' (newTs c s vts vt vq) vt (c.nextV vq)
  keep : CKeep c s.n s'.n vh vq (fun k => inBlks c (vh / c.ppb) (vq / c.ppb) k ∨
    (finishes c s vq ∧ retires c s vR vM k))
  data : ∃ s1 : S, CKeep c s.n s1.n vh vq (inBlks c (vh / c.ppb) (vq / c.ppb)) ∧ s1.j.head = c.ph vq ∧
    Pd s1 (s'.n.chip.page (c.ph vq)) ∧ Evo c s.n s1.n ∧ Evo c s1.n s'.n
  metaq : metaBuf c s' (c.ph vq) = some (metaOf m)
  mkeep : ∀ v, vts ≤ v → v < vh → c.isU v → ¬ (finishes c s vq ∧ v / c.ppb = vR / c.ppb) →
    metaBuf c s' (c.ph v) = metaBuf c s (c.ph v)
  good : s'.n.chip.bad (c.ph vq / c.ppb) = false
  skip : ∀ b, vh / c.ppb ≤ b → b < vq / c.ppb → s'.n.chip.bad (b % c.numBlocks) = true
  going : ¬ finishes c s vq → s'.j.recovery = s.j.recovery ∧ s'.j.enumDone = s.j.enumDone ∧
    s'.j.recoverRoot = s.j.recoverRoot ∧ s'.j.recoverNext = s.j.recoverNext ∧
    s'.j.recoverMeta = s.j.recoverMeta ∧ s'.j.badMeta = s.j.badMeta
  done : finishes c s vq → Calm s' ∧ ∀ k, retires c s vR vM k → s'.n.chip.bad k = true
  dirtyL : c.last vq → s'.j.dirty = false
  dirtyN : ¬ c.last vq → s'.j.dirty = true
  cp : c.last vq → ∃ b, s'.n.chip.page (c.ph (vq + 1)) = some b ∧
    CpPage b (UInt8.ofNat (vq / c.pages)) (c.ph vt) (r32 s.j.pageBuf 16)
  cpnf : c.last vq → s'.n.chip.free (c.ph (vq + 1)) = false
  rest : vh % c.ppb = 0 → ∀ p, p / c.ppb = c.ph vq / c.ppb → p ≠ c.ph vq →
    s'.n.chip.page p = some (c.clip Buf.ff)
  atq : vh % c.ppb ≠ 0 → ∀ p, p ≠ c.ph vq → (c.last vq → p ≠ c.ph (vq + 1)) →
    s'.n.chip.page p = s.n.chip.page p ∧ s'.n.chip.free p = s.n.chip.free p

/-- A block failed during a recovery: the recovery starts again, with the head at `v'`. -/
structure PushAgain (c : Cfg) (s s' : S) (vts vt vh vR vM v' : Nat) : Prop where
  rec0 : s.j.recovery = true
  rec1 : s'.j.recovery = true
  lt : vh / c.ppb < v' / c.ppb
  al : v' % c.ppb = 0
  geo : Geo c s' vts vt v'
  cnt : s'.count = s.count
  keep : CKeep c s.n s'.n vh v' (inBlks c (vh / c.ppb) (v' / c.ppb))
  rgeo : RGeo c s' vt v' vR vM (vR / c.ppb * c.ppb)
  root : s'.j.root = c.ph vR
  enum : s'.j.enumDone = false
  rm : s'.j.recoverMeta = s.j.recoverMeta
  mkeep : ∀ v, vts ≤ v → v / c.ppb < vh / c.ppb → c.isU v →
    metaBuf c s' (c.ph v) = metaBuf c s (c.ph v)
  skip : ∀ b, vh / c.ppb ≤ b → b < v' / c.ppb → s'.n.chip.bad (b % c.numBlocks) = true ∨
    (s'.j.badMeta = true ∧ b % c.numBlocks = c.ph vM / c.ppb)
  bmk : s.j.badMeta = true → s'.j.badMeta = true
  cold : ∀ p, (∀ b, vh / c.ppb ≤ b → b < v' / c.ppb → p / c.ppb ≠ b % c.numBlocks) →
    s'.n.chip.page p = s.n.chip.page p
  bmn : s'.j.badMeta = true → s.j.badMeta = true ∨ vh / c.ppb ≤ vM / c.ppb

/-- A block failed: a recovery begins. The head is now at `v'`. -/
structure PushStart (c : Cfg) (s s' : S) (vts vt vh vM v' : Nat) : Prop where
  rec0 : s.j.recovery = false
  rec1 : s'.j.recovery = true
  hv : vh % c.ppb ≠ 0
  lt : vh / c.ppb < v' / c.ppb
  geo : Geo c s' vts vt v'
  cnt : s'.count = s.count
  keep : CKeep c s.n s'.n vh v' (inBlks c (vh / c.ppb + 1) (v' / c.ppb))
  root : s'.j.root = s.j.root
  rr : s'.j.recoverRoot = s.j.root
  rn : s'.j.recoverNext = c.blockStart s.j.root
  enum : s'.j.enumDone = false
  bm : s'.j.badMeta = false
  rm : (s'.j.recoverMeta = NONE ∧ vh % c.ppc = 0 ∧ v' = c.nextB vh) ∨
    (s'.j.recoverMeta = c.ph vM ∧ vh % c.ppc ≠ 0 ∧ v' = c.nextV vM ∧ c.nextB vh ≤ vM ∧ vM % c.ppb = 0)
  mkeep : ∀ vr, s.j.root = c.ph vr → vts ≤ vr → vr < vh → (vh % c.ppc ≠ 0 → vr / c.ppc = vh / c.ppc) →
    ∀ v, vts ≤ v → v < vh → c.isU v → metaBuf c s' (c.ph v) = metaBuf c s (c.ph v)
  fail : ∃ t, s.n.time ≤ t ∧ t < s'.n.time ∧ c.env.prog t = .fail
  skip : ∀ b, vh / c.ppb < b → b < v' / c.ppb → s'.n.chip.bad (b % c.numBlocks) = true
  rest : s'.j.recoverMeta ≠ NONE → ∀ p, p / c.ppb = c.ph vM / c.ppb → p ≠ c.ph vM →
    s'.n.chip.page p = some (c.clip Buf.ff)
  cold : s'.j.recoverMeta = NONE → ∀ p, p / c.ppb ≠ c.ph vh / c.ppb → s'.n.chip.page p = s.n.chip.page p
  mM : s'.j.recoverMeta ≠ NONE → metaBuf c s' (c.ph vM) = some (metaOf none)

/-- Some program or erase operation between clock `t` and `t'` failed. -/
def Noisy (c : Cfg) (t t' : Nat) : Prop :=
  ∃ t0, t ≤ t0 ∧ t0 < t' ∧ (c.env.prog t0 = .fail ∨ c.env.erase t0 = .fail)

theorem Noisy.mono {t t' u u' : Nat} (h : Noisy c t t') (h1 : u ≤ t) (h2 : t' ≤ u') : Noisy c u u' := by
  obtain ⟨a, b, d, e⟩ := h; exact ⟨a, by omega, by omega, e⟩

/-- Power failed while a block was being erased or the page at the head was being written. -/
inductive PStop (c : Cfg) (s s' : S) (vts vt vh : Nat) : Prop
  | erase (vq : Nat) (h : PErase c s s' vts vh vq)
  | page (s1 : S) (vq : Nat) (hp : Prepared c s s1 vts vt vh vq)
      (hat : ∀ p, p ≠ c.ph vq → (c.last vq → p ≠ c.ph (vq + 1)) →
        s'.n.chip.page p = s1.n.chip.page p ∧ s'.n.chip.free p = s1.n.chip.free p)
      (hbad : s'.n.chip.bad = s1.n.chip.bad)
      (hcp : c.last vq → s'.n.chip.page (c.ph (vq + 1)) = s1.n.chip.page (c.ph (vq + 1)) ∨
        ∃ t, s'.n.chip.page (c.ph (vq + 1)) = c.env.junk t (c.ph (vq + 1)))
      (hfree : ∀ p, s'.n.chip.free p = true → s1.n.chip.free p = true)

/-- At a block boundary: the blocks from `vh` up to `v1` failed and were marked bad. -/
structure Skipped (c : Cfg) (s s1 : S) (vts vt vh v1 : Nat) : Prop where
  le : vh ≤ v1
  al : vh % c.ppb = 0
  al1 : v1 % c.ppb = 0
  jh : JH c s s1 v1
  dirty : s1.j.dirty = true
  keep : CKeep c s.n s1.n vh v1 (inBlks c (vh / c.ppb) (v1 / c.ppb))
  skip : ∀ b, vh / c.ppb ≤ b → b < v1 / c.ppb → s1.n.chip.bad (b % c.numBlocks) = true
  geo : Geo c s1 vts vt v1
  evo : Evo c s.n s1.n
  same : ∀ p, (∀ b, vh / c.ppb ≤ b → b < v1 / c.ppb → p / c.ppb ≠ b % c.numBlocks) →
    s1.n.chip.page p = s.n.chip.page p

theorem Skipped.trans {s s1 s2 : S} {vts vt vh v1 v2 : Nat} (h : Skipped c s s1 vts vt vh v1) (h' : Skipped c s1 s2 vts vt v1 v2) :
    Skipped c s s2 vts vt vh v2 := by
  have d1 := Nat.div_le_div_right (c := c.ppb) h.le
  have d2 := Nat.div_le_div_right (c := c.ppb) h'.le
  refine ⟨Nat.le_trans h.le h'.le, h.al, h'.al1, h.jh.trans h'.jh, h'.dirty, h.keep.trans h'.keep ?_, ?_, h'.geo, h.evo.trans h'.evo,
    fun p hp => (h'.same p fun b h1 h2 => hp b (by omega) h2).trans (h.same p fun b h1 h2 => hp b h1 (by omega))⟩
  · intro k hk
    rcases hk with hk | hk
    · exact inBlks_mono hk (Nat.le_refl _) d2
    · exact inBlks_mono hk d1 (Nat.le_refl _)
  · intro b h1 h2
    by_cases hb : b < v1 / c.ppb
    · exact h'.keep.badm _ (h.skip b h1 hb)
    · exact h'.skip b (by omega) h2

/-- What a power failure during a push leaves behind: an erase or program operation cut short, possibly after some blocks
failed; a page completed; or a recovery in progress. -/
inductive PCrash (c : Cfg) (s s' : S) (m : Option Buf) (Pd : S → Option Buf → Prop)
    (vts vt vh vR vM : Nat) : Prop
  | stop (h : PStop c s s' vts vt vh)
  | done (s'' : S) (vq : Nat) (h : PushOk c s s'' m Pd vts vt vh vq vR vM) (hl : c.last vq)
      (hchip : s''.n.chip = s'.n.chip) (ht : s''.n.time = s'.n.time) (hev : Evo c s''.n s'.n)
  | skip (s1 : S) (v1 : Nat) (hs : Skipped c s s1 vts vt vh v1) (h : PStop c s1 s' vts vt v1) (hev : Evo c s1.n s'.n)
  | mid (h : Noisy c s.n.time s'.n.time) (hm : Recovering s')

/-- Outcomes of a push. -/
inductive PushOut (c : Cfg) (s : S) (m : Option Buf) (Pd : S → Option Buf → Prop) (vts vt vh vR vM : Nat) :
    Except Err Unit × S → Prop
  | ok (s' : S) (vq : Nat) (h : PushOk c s s' m Pd vts vt vh vq vR vM) :
      PushOut c s m Pd vts vt vh vR vM (.ok (), s')
  | again (s' : S) (v' : Nat) (h : PushAgain c s s' vts vt vh vR vM v') :
      PushOut c s m Pd vts vt vh vR vM (.error .recover, s')
  | start (s' : S) (vM' v' : Nat) (h : PushStart c s s' vts vt vh vM' v') :
      PushOut c s m Pd vts vt vh vR vM (.error .recover, s')
  | stop (s' : S) (e : Err) (he : e ≠ .recover) (hub : s'.n.ub = false)
      (hcr : e = .powerLoss → Calm s → PCrash c s s' m Pd vts vt vh vR vM)
      (hsf : e ≠ .powerLoss → (∃ vq, Soft c s s' vts vh vq) ∨ Noisy c s.n.time s'.n.time) :
      PushOut c s m Pd vts vt vh vR vM (.error e, s')

/-! ### Moving to the page to be written -/

/-- Where the dumped metadata is, if any. -/
theorem RSt.meta_pos {s : S} {vts vt vh vR vM vn : Nat} (hr : RSt c s vt vh vR vM vn) (h : vts ≤ vt) :
    s.j.recoverMeta = NONE ∨ (s.j.recoverMeta = c.ph vM ∧ vts ≤ vM ∧ vM < vh ∧ s.j.recoverRoot = c.ph vR ∧
      vts ≤ vR ∧ vR < vh ∧ vR / c.ppb < vh / c.ppb) := by
  rcases hr with h' | ⟨_, g⟩
  · exact Or.inl h'.rm
  · rcases g.rm with h' | ⟨h1, h2, h3, h4⟩
    · exact Or.inl h'
    · have h5 := g.tR
      have h6 := g.bR
      refine Or.inr ⟨h1, ?_, h4, g.rr, by omega, ?_, h6⟩
      · apply Classical.byContradiction; intro hn
        have := Nat.div_le_div_right (c := c.ppb) (by omega : vM ≤ vR)
        omega
      · apply Classical.byContradiction; intro hn
        have := Nat.div_le_div_right (c := c.ppb) (by omega : vh ≤ vR)
        omega

theorem grp_lt_aligned (hc : c.Valid) {v w : Nat} (h : v < w) (ha : w % c.ppb = 0) : v / c.ppc < w / c.ppc := by
  have h1 := mod_ppc_of_ppb_zero hc ha
  have h2 := div_mod_range w c.ppc
  rw [h1] at h2
  rw [Nat.div_lt_iff_lt_mul (ppc_pos c)]; omega

/-- The head moved to a later block boundary: metadata of earlier blocks is unaffected. -/
theorem meta_to_block (hc : c.Valid) {s s' : S} {vts vt vh v' vR vM vn : Nat} {ex : Nat → Prop}
    (g : Geo0 c s vts vt vh) (hr : RSt c s vt vh vR vM vn) (hk : CKeep c s.n s'.n vh v' ex)
    (hh : s'.j.head = c.ph v') (hw : c.Win vts v')
    (e1 : s'.j.recoverMeta = s.j.recoverMeta) (e2 : s'.j.recoverRoot = s.j.recoverRoot)
    {v : Nat} (h1 : vts ≤ v) (h2 : v / c.ppb < vh / c.ppb) :
    metaBuf c s' (c.ph v) = metaBuf c s (c.ph v) := by
  have hlt : v < vh := by
    apply Classical.byContradiction; intro hn
    have := Nat.div_le_div_right (c := c.ppb) (by omega : vh ≤ v); omega
  have hd := Nat.div_le_div_right (c := c.ppb) hk.le
  have hg := grp_lt_of_blk hc h2
  have hg' : v / c.ppc < v' / c.ppc := grp_lt_of_blk hc (by omega)
  refine metaBuf_move hc g.eh hh hw h1 hlt hk.le (by omega) (by omega) e1 (fun hn => ⟨e2, ?_⟩)
    (hk.live hc hw (Nat.le_trans h1 (cpV_ge c v)) (cpV_lt hg))
  rcases hr.meta_pos g.l1 with h | ⟨h, a, b, _⟩
  · exact absurd h hn
  · rw [h]; exact hk.live hc hw a b

/-- The head stayed or moved from a block boundary to a later one. -/
theorem meta_stay (hc : c.Valid) {s s' : S} {vts vt vh vq vR vM vn : Nat} {ex : Nat → Prop}
    (g : Geo0 c s vts vt vh) (hr : RSt c s vt vh vR vM vn) (hk : CKeep c s.n s'.n vh vq ex)
    (hh : s'.j.head = c.ph vq) (hw : c.Win vts vq) (mv : vq = vh ∨ (vh % c.ppb = 0 ∧ vq % c.ppb = 0))
    (e1 : s'.j.recoverMeta = s.j.recoverMeta) (e2 : s'.j.recoverRoot = s.j.recoverRoot)
    (e3 : ∀ v, vts ≤ v → v < vh → v / c.ppc = vh / c.ppc →
      s'.j.pageBuf.slice (c.slot v) 132 = s.j.pageBuf.slice (c.slot v) 132)
    {v : Nat} (h1 : vts ≤ v) (h2 : v < vh) :
    metaBuf c s' (c.ph v) = metaBuf c s (c.ph v) := by
  rcases mv with h | ⟨ha, hb⟩
  · subst h
    by_cases hg : v / c.ppc = vq / c.ppc
    · rw [metaBuf_head hc (lo := vts) hh hw h1 (by omega) hg, metaBuf_head hc (lo := vts) g.eh g.win h1 (by omega) hg,
        e3 v h1 h2 hg]
    · have hlt : v / c.ppc < vq / c.ppc := by
        have := Nat.div_le_div_right (c := c.ppc) (Nat.le_of_lt h2); omega
      refine metaBuf_move hc g.eh hh hw h1 h2 (Nat.le_refl _) hg hg e1 (fun hn => ⟨e2, ?_⟩)
        (hk.live hc hw (Nat.le_trans h1 (cpV_ge c v)) (cpV_lt hlt))
      rcases hr.meta_pos g.l1 with h | ⟨h, a, b, _⟩
      · exact absurd h hn
      · rw [h]; exact hk.live hc hw a b
  · refine meta_to_block hc g hr hk hh hw e1 e2 h1 ?_
    have h3 := div_mod_range vh c.ppb
    rw [ha] at h3
    rw [Nat.div_lt_iff_lt_mul (ppb_pos c)]; omega

theorem RSt.moved {s s' : S} {vt vh vh' vR vM vn : Nat} (hr : RSt c s vt vh vR vM vn) (h : vh ≤ vh')
    (e0 : s'.j.recovery = s.j.recovery) (e5 : s'.j.enumDone = s.j.enumDone)
    (e1 : s'.j.recoverRoot = s.j.recoverRoot) (e2 : s'.j.recoverNext = s.j.recoverNext)
    (e3 : s'.j.recoverMeta = s.j.recoverMeta) (e4 : s'.j.badMeta = s.j.badMeta) :
    RSt c s' vt vh' vR vM vn := by
  rcases hr with h' | ⟨h', g⟩
  · exact Or.inl ⟨e0.trans h'.nr, e3.trans h'.rm, e5.trans h'.ed, e4.trans h'.bm⟩
  · exact Or.inr ⟨e0.trans h', g.mono h e1 e2 e3 e4 g.tR⟩

theorem finishes_congr {s s' : S} {vq : Nat} (h : s'.j.enumDone = s.j.enumDone) :
    finishes c s' vq ↔ finishes c s vq := by unfold finishes; rw [h]

theorem retires_congr {s s' : S} {vR vM : Nat} (h : s'.j.badMeta = s.j.badMeta) :
    retires c s' vR vM = retires c s vR vM := by unfold retires; rw [h]

theorem newTs_congr {s s' : S} {vts vt vq : Nat} (h : s'.j.recovery = s.j.recovery)
    (h' : s'.j.enumDone = s.j.enumDone) : newTs c s' vts vt vq = newTs c s vts vt vq := by
  unfold newTs; rw [h, h']


/-- The state in which a write failed, the head being at `vq`. -/
structure Mid (c : Cfg) (s s2 : S) (vts vt vh vq : Nat) : Prop where
  le : vh ≤ vq
  mv : vq = vh ∨ (vh % c.ppb = 0 ∧ vq % c.ppb = 0)
  cnt : s2.count = s.count
  geo : Geo0 c s2 vts vt vq
  keep : CKeep c s.n s2.n vh vq noEx
  root : s2.j.root = s.j.root
  rcv : s2.j.recovery = s.j.recovery
  en : s2.j.enumDone = s.j.enumDone
  rr : s2.j.recoverRoot = s.j.recoverRoot
  rn : s2.j.recoverNext = s.j.recoverNext
  rm : s2.j.recoverMeta = s.j.recoverMeta
  bm : s2.j.badMeta = s.j.badMeta
  buf : ∀ v, vts ≤ v → v < vh → v / c.ppc = vh / c.ppc → vq = vh →
    s2.j.pageBuf.slice (c.slot v) 132 = s.j.pageBuf.slice (c.slot v) 132
  fail : vh % c.ppb ≠ 0 → ∃ t, s.n.time ≤ t ∧ t < s2.n.time ∧ c.env.prog t = .fail
  skip : ∀ b, vh / c.ppb ≤ b → b < vq / c.ppb → s2.n.chip.bad (b % c.numBlocks) = true
  jh : vq % c.ppb = 0 → JH c s s2 vq
  dirty : s2.j.dirty = true

theorem Mid.rst {s s2 : S} {vts vt vh vq vR vM vn : Nat} (h : Mid c s s2 vts vt vh vq)
    (hr : RSt c s vt vh vR vM vn) : RSt c s2 vt vq vR vM vn :=
  hr.moved h.le h.rcv h.en h.rr h.rn h.rm h.bm

theorem inBlks_one {v0 v : Nat} (h : v0 / c.ppb ≤ v / c.ppb) :
    inBlks c (v0 / c.ppb) (c.nextB v / c.ppb) (c.ph v / c.ppb) := by
  refine ⟨v / c.ppb, h, ?_, ph_div_ppb c v⟩
  rw [nextB_div]; omega

theorem mid_again (hc : c.Valid) {s s2 s' : S} {vts vt vh vq vR vM vn : Nat} (g : Geo c s vts vt vh)
    (hr : RSt c s vt vh vR vM vn) (h : Mid c s s2 vts vt vh vq) {bm : Bool}
    (hrc : s2.j.recovery = true)
    (hj : ∃ d x y, s'.j = s2.j.again c d (c.nextB vq) x y bm) (hcnt : s'.count = s2.count)
    (hk : CKeep c s2.n s'.n vq (c.nextB vq) (fun k => k = c.ph vq / c.ppb ∧ ¬ metaHit c s2 vq))
    (hg : Geo c s' vts vt (c.nextB vq))
    (hb : ¬ metaHit c s2 vq → bm = s2.j.badMeta ∧ s'.n.chip.bad (c.ph vq / c.ppb) = true)
    (hbt : metaHit c s2 vq → bm = true) (hpg : s'.n.chip.page = s2.n.chip.page) :
    PushAgain c s s' vts vt vh vR vM (c.nextB vq) := by
  obtain ⟨d, x, y, ej⟩ := hj
  have hP := ppb_pos c
  have hd := Nat.div_le_div_right (c := c.ppb) h.le
  have hlt : vh / c.ppb < c.nextB vq / c.ppb := by rw [nextB_div]; omega
  have hrg : RGeo c s2 vt vq vR vM vn := by
    rcases h.rst hr with h' | h'
    · rw [h'.nr] at hrc; cases hrc
    · exact h'.2
  have hkeep : CKeep c s.n s'.n vh (c.nextB vq) (inBlks c (vh / c.ppb) (c.nextB vq / c.ppb)) := by
    refine h.keep.trans hk ?_
    intro k hk
    rcases hk with h' | ⟨h', _⟩
    · exact absurd h' (fun h => h)
    · rw [h']; exact inBlks_one hd
  have hbR := hrg.bR
  refine ⟨h.rcv.symm.trans hrc, by rw [ej]; exact hrc, hlt, nextB_mod c vq, hg, hcnt.trans h.cnt, hkeep, ?_, ?_, ?_, ?_, ?_, ?_, ?_, ?_, ?_⟩
  · refine ⟨by rw [ej]; exact hrg.rr, hrg.uR, hrg.tR, by rw [nextB_div]; omega, ?_, ?_, ?_, ?_, ?_, ?_⟩
    · rw [ej]; show c.blockStart s2.j.recoverRoot = _
      rw [hrg.rr, blockStart_eq, ph_div_ppb, mul_ppb_ph]
    · exact isU_of_aligned hc (Nat.mul_mod_left _ _)
    · exact Nat.div_mul_le_self _ _
    · exact Nat.mul_div_cancel _ hP
    · have e : s'.j.recoverMeta = s2.j.recoverMeta := by rw [ej]; rfl
      rw [e]
      rcases hrg.rm with h' | ⟨h1, h2, h3, h4⟩
      · exact Or.inl h'
      · exact Or.inr ⟨h1, h2, h3, by have := lt_nextB c vq; omega⟩
    · have e : s'.j.recoverMeta = s2.j.recoverMeta := by rw [ej]; rfl
      have e' : s'.j.badMeta = bm := by rw [ej]; rfl
      rw [e, e', nextB_div]
      intro hbm
      by_cases hh : metaHit c s2 vq
      · refine ⟨hh.1, ?_⟩
        rcases hrg.rm with h' | ⟨h1, h2, h3, h4⟩
        · exact absurd h' hh.1
        · have := Nat.div_le_div_right (c := c.ppb) (Nat.le_of_lt h4); omega
      · rw [(hb hh).1] at hbm
        have := hrg.bm hbm
        exact ⟨this.1, by omega⟩
  · rw [ej]; exact hrg.rr
  · rw [ej]; rfl
  · rw [ej]; exact h.rm
  · intro v h1 h2 hu
    refine meta_to_block hc g.toGeo0 hr hkeep hg.eh hg.win ?_ ?_ h1 h2
    · rw [ej]; exact h.rm
    · rw [ej]; exact h.rr
  · intro b h1 h2
    rw [nextB_div] at h2
    by_cases hbq : b < vq / c.ppb
    · exact Or.inl (hk.badm _ (h.skip b h1 hbq))
    · have hbe : b = vq / c.ppb := by omega
      by_cases hh : metaHit c s2 vq
      · right
        refine ⟨by rw [ej]; exact hbt hh, ?_⟩
        rw [hbe, ← ph_div_ppb, ← hh.2, blk_eq]
        rcases hrg.rm with h' | h'
        · exact absurd h' hh.1
        · rw [h'.1]
      · left; rw [hbe, ← ph_div_ppb]; exact (hb hh).2
  · intro hbm
    rw [ej]
    show bm = true
    by_cases hh : metaHit c s2 vq
    · exact hbt hh
    · rw [(hb hh).1, h.bm]; exact hbm
  · intro p hp
    rw [hpg]
    exact h.keep.page p fun b h1 h2 he => absurd he (hp b h1 (by rw [nextB_div]; omega))
  · rw [ej]
    show bm = true → _
    intro hbm
    by_cases hh : metaHit c s2 vq
    · right
      rcases hrg.rm with h' | ⟨h1, h2, h3, h4⟩
      · exact absurd h' hh.1
      · have hb2 := hh.2
        rw [h1, blk_eq] at hb2
        have hl1 := h.geo.l1
        have hRM : vR ≤ vM := by
          apply Classical.byContradiction; intro hn
          have := Nat.div_le_div_right (c := c.ppb) (by omega : vM ≤ vR); omega
        have := h.geo.win.blk_inj (v := vM) (w := vq) (by have := hrg.tR; omega) (by omega)
          (by have := h.geo.l2; omega) (Nat.le_refl _) hb2
        omega
    · left; rw [← h.bm, ← (hb hh).1]; exact hbm

theorem mid_keep {s s2 : S} {vts vt vh vq : Nat} (h : Mid c s s2 vts vt vh vq) (hv : vq % c.ppb ≠ 0) : vq = vh := by
  rcases h.mv with h | h
  · exact h
  · exact absurd h.2 hv

theorem calm_of {s : S} {vt vh vR vM vn : Nat} (hr : RSt c s vt vh vR vM vn) (h : s.j.recovery = false) : Calm s := by
  rcases hr with h' | h'
  · exact h'
  · rw [h] at h'; cases h'.1

theorem mid_start (hc : c.Valid) {s s2 s' : S} {vts vt vh vq vR vM vn : Nat} (g : Geo c s vts vt vh)
    (hr : RSt c s vt vh vR vM vn) (h : Mid c s s2 vts vt vh vq)
    (hrc : s2.j.recovery = false) (hv : vq % c.ppb ≠ 0) (hC : vq % c.ppc = 0)
    (hj : ∃ d x y, s'.j = s2.j.started c d (c.nextB vq) x y s2.j.recoverMeta s2.j.pageBuf)
    (hcnt : s'.count = s2.count) (hn : s'.n = s2.n) (hg : Geo c s' vts vt (c.nextB vq)) (vM' : Nat) :
    PushStart c s s' vts vt vh vM' (c.nextB vq) := by
  obtain ⟨d, x, y, ej⟩ := hj
  have he := mid_keep h hv
  subst he
  have hcl := calm_of hr (h.rcv.symm.trans hrc)
  have hlt := lt_nextB c vq
  have hkeep : CKeep c s.n s'.n vq (c.nextB vq) (inBlks c (vq / c.ppb + 1) (c.nextB vq / c.ppb)) := by
    rw [hn]; exact h.keep.mono (by omega) (fun k hk => absurd hk (fun h => h))
  refine ⟨hcl.nr, by rw [ej]; rfl, hv, by rw [nextB_div]; omega, hg, hcnt.trans h.cnt, hkeep, ?_, ?_, ?_, ?_, ?_, ?_, ?_, ?_,
    fun b h1 h2 => by rw [nextB_div] at h2; omega,
    fun hne => absurd (by rw [ej]; exact h.rm.trans hcl.rm) hne,
    fun _ p hp => by
      rw [hn]
      exact h.keep.page p fun b h1 h2 he => by
        have hb : b = vq / c.ppb := by omega
        rw [ph_div_ppb] at hp; rw [hb] at he; exact absurd he hp,
    fun hne => absurd (by rw [ej]; exact h.rm.trans hcl.rm) hne⟩
  · rw [ej]; exact h.root
  · rw [ej]; exact h.root
  · rw [ej]; show c.blockStart s2.j.root = _; rw [h.root]
  · rw [ej]; exact h.en.trans hcl.ed
  · rw [ej]; exact h.bm.trans hcl.bm
  · left; refine ⟨?_, hC, rfl⟩; rw [ej]; exact h.rm.trans hcl.rm
  · intro vr _ _ _ _ v h1 h2 hu
    have e1 : s'.j.recoverMeta = NONE := by rw [ej]; exact h.rm.trans hcl.rm
    have hg1 : v / c.ppc < vq / c.ppc := by
      have h3 := div_mod_range vq c.ppc
      rw [hC] at h3
      rw [Nat.div_lt_iff_lt_mul (ppc_pos c)]; omega
    have hg2 := Nat.div_le_div_right (c := c.ppc) (Nat.le_of_lt hlt)
    rw [metaBuf_cp hc (lo := vts) hg.eh hg.win h1 (by omega) (by omega) (Or.inl e1),
      metaBuf_cp hc (lo := vts) g.eh g.win h1 (by omega) (by omega) (Or.inl hcl.rm)]
    rw [hkeep.live hc hg.win (Nat.le_trans h1 (cpV_ge c v)) (cpV_lt hg1)]
  · obtain ⟨t, h1, h2, h3⟩ := h.fail hv
    exact ⟨t, h1, by rw [hn]; exact h2, h3⟩

/-- A metadata slot of a cleared page buffer. -/
theorem clearUser_slot {b : Buf} {off : Nat} (h1 : off + 132 ≤ c.pageSize) (h2 : 20 ≤ off) :
    (hdrClearUser c b).slice off 132 = Buf.ff.slice 0 132 := by
  funext i
  unfold hdrClearUser Buf.slice Buf.memset Buf.ff
  split
  · rw [if_pos (by omega)]
  · rfl

theorem mid_dump (hc : c.Valid) {s s2 s' : S} {vts vt vh vq vR vM vn : Nat} (g : Geo c s vts vt vh)
    (hr : RSt c s vt vh vR vM vn) (h : Mid c s s2 vts vt vh vq) {vM' : Nat}
    (hrc : s2.j.recovery = false) (hv : vq % c.ppb ≠ 0) (hC : vq % c.ppc ≠ 0)
    (hj : ∃ d x y, s'.j = s2.j.started c d (c.nextV vM') x y (c.ph vM') (hdrClearUser c s2.j.pageBuf))
    (hcnt : s'.count = s2.count) (hle : c.nextB vq ≤ vM') (hal : vM' % c.ppb = 0)
    (hk : CKeep c s2.n s'.n (c.nextB vq) vM' (inBlks c (vq / c.ppb + 1) (vM' / c.ppb)))
    (hpage : s'.n.chip.page (c.ph vM') = some (c.clip s2.j.pageBuf))
    (hg : Geo c s' vts vt (c.nextV vM')) (ht : s2.n.time ≤ s'.n.time)
    (hskip : ∀ b, vq / c.ppb + 1 ≤ b → b < vM' / c.ppb → s'.n.chip.bad (b % c.numBlocks) = true)
    (hrest : ∀ p, p / c.ppb = c.ph vM' / c.ppb → p ≠ c.ph vM' → s'.n.chip.page p = some (c.clip Buf.ff)) :
    PushStart c s s' vts vt vh vM' (c.nextV vM') := by
  obtain ⟨d, x, y, ej⟩ := hj
  have he := mid_keep h hv
  subst he
  have hcl := calm_of hr (h.rcv.symm.trans hrc)
  have hlt := lt_nextB c vq
  have hnx := lt_nextV c vM'
  have hd := Nat.div_le_div_right (c := c.ppb) hle
  rw [nextB_div] at hd
  have hd2 := Nat.div_le_div_right (c := c.ppb) (Nat.le_of_lt hnx)
  have hkeep : CKeep c s.n s'.n vq (c.nextV vM') (inBlks c (vq / c.ppb + 1) (c.nextV vM' / c.ppb)) := by
    refine ((h.keep.mono (w := c.nextB vq) (ex' := noEx) (by omega) (fun _ h => h)).trans hk
      (ex'' := inBlks c (vq / c.ppb + 1) (vM' / c.ppb)) ?_).mono (by omega) ?_
    · intro k hk
      rcases hk with h' | h'
      · exact absurd h' (fun h => h)
      · exact h'
    · intro k hk; exact inBlks_mono hk (Nat.le_refl _) hd2
  have hmM : metaBuf c s' (c.ph vM') = some (metaOf none) := by
    have hnb := nextV_blk_aligned hc hal
    have hz := mod_ppc_of_ppb_zero hc hal
    have hC4 := hc.ppc_ge
    have hgrp : vM' / c.ppc = c.nextV vM' / c.ppc := by
      rw [hnb.1, (div_add_lt (v := vM') (k := 1) (m := c.ppc) (by omega)).1]
    rw [metaBuf_head hc (lo := vts) hg.eh hg.win (by have := g.l1; have := g.l2; omega) (by omega) hgrp, ej]
    show some ((hdrClearUser c s2.j.pageBuf).slice (c.slot vM') 132) = _
    rw [clearUser_slot (slot_fit hc (isU_of_aligned hc hal)) (by unfold Cfg.slot; omega)]
    rfl
  refine ⟨hcl.nr, by rw [ej]; rfl, hv, by omega, hg, hcnt.trans h.cnt, hkeep, ?_, ?_, ?_, ?_, ?_, ?_, ?_, ?_,
    fun b h1 h2 => hskip b (by omega) (by rw [(nextV_blk_aligned hc hal).2] at h2; exact h2), fun _ => hrest,
    fun hN => absurd hN (by rw [ej]; exact ph_ne_none hc _), fun _ => hmM⟩
  · rw [ej]; exact h.root
  · rw [ej]; exact h.root
  · rw [ej]; show c.blockStart s2.j.root = _; rw [h.root]
  · rw [ej]; exact h.en.trans hcl.ed
  · rw [ej]; exact h.bm.trans hcl.bm
  · right; refine ⟨?_, hC, rfl, hle, hal⟩; rw [ej]; rfl
  · intro vr hvr hr1 hr2 hr3 v h1 h2 hu
    have e1 : s'.j.recoverMeta = c.ph vM' := by rw [ej]; rfl
    have e2 : s'.j.recoverRoot = c.ph vr := by rw [ej]; show s2.j.root = _; rw [h.root, hvr]
    have hne : s'.j.recoverMeta ≠ NONE := by rw [e1]; exact ph_ne_none hc _
    have hgn : v / c.ppc < c.nextV vM' / c.ppc := by
      apply grp_lt_of_blk hc
      have := Nat.div_le_div_right (c := c.ppb) (Nat.le_of_lt h2); omega
    by_cases hgv : v / c.ppc = vq / c.ppc
    · rw [metaBuf_dump hc (lo := vts) (vR := vr) hg.eh hg.win h1 (by omega) (by omega) hne e2 hr1 (by omega)
        (by rw [hgv, hr3 hC]), metaBuf_head hc (lo := vts) g.eh g.win h1 (by omega) hgv, e1, hpage]
      simp only [Option.map_some]
      rw [clip_slice (slot_fit hc hu), h.buf v h1 h2 hgv rfl]
    · have hg1 : v / c.ppc < vq / c.ppc := by
        have := Nat.div_le_div_right (c := c.ppc) (Nat.le_of_lt h2); omega
      rw [metaBuf_cp hc (lo := vts) hg.eh hg.win h1 (by omega) (by omega)
          (Or.inr ⟨vr, e2, hr1, by omega, by rw [hr3 hC]; omega⟩),
        metaBuf_cp hc (lo := vts) g.eh g.win h1 (by omega) (by omega) (Or.inl hcl.rm)]
      rw [hkeep.live hc hg.win (Nat.le_trans h1 (cpV_ge c v)) (cpV_lt hg1)]
  · obtain ⟨t, h1, h2, h3⟩ := h.fail hv
    exact ⟨t, h1, by omega, h3⟩

/-- Everything but a retry. -/
theorem mid_rec (hc : c.Valid) {s s2 : S} {m : Option Buf} {Pd : S → Option Buf → Prop}
    {vts vt vh vq vR vM vn : Nat} (g : Geo c s vts vt vh)
    (hr : RSt c s vt vh vR vM vn) (h : Mid c s s2 vts vt vh vq) {r : Except Err Unit × S}
    (ho : RecOut c s2 vts vt vq r) (he : r = recoverFrom c .badBlock s2)
    (hno : Noisy c s.n.time s2.n.time) :
    (∃ s', r = (.ok (), s') ∧ s2.j.recovery = false ∧ vq % c.ppb = 0 ∧ JH c s2 s' (c.nextB vq) ∧
      CKeep c s2.n s'.n vq (c.nextB vq) (fun k => k = c.ph vq / c.ppb) ∧
      Geo c s' vts vt (c.nextB vq) ∧ s'.n.chip.bad (c.ph vq / c.ppb) = true ∧ s'.n.chip.page = s2.n.chip.page) ∨
    ((∃ e s', r = (.error e, s')) ∧ PushOut c s m Pd vts vt vh vR vM r) := by
  have hev := recoverFrom_evo (c := c) .badBlock s2
  rw [← he] at hev
  cases ho with
  | retry s' h1 h2 h3 h4 h5 h6 h7 => exact Or.inl ⟨s', rfl, h1, h2, h3, h4, h5, h6, h7⟩
  | again s' bm h1 h2 h3 h4 h5 h6 h7 h8 =>
    exact Or.inr ⟨⟨_, _, rfl⟩, .again s' _ (mid_again hc g hr h h1 h2 h3 h4 h5 h6 h7 h8)⟩
  | start s' h1 h2 h3 h4 h5 h6 h7 =>
    exact Or.inr ⟨⟨_, _, rfl⟩, .start s' 0 _ (mid_start hc g hr h h1 h2 h3 h4 h5 h6 h7 0)⟩
  | dump s' vM' h1 h2 h3 h4 h5 h6 h7 h8 h9 h10 h11 h12 =>
    exact Or.inr ⟨⟨_, _, rfl⟩, .start s' vM' _ (mid_dump hc g hr h h1 h2 h3 h4 h5 h6 h7 h8 h9 h10 hev.time h11 h12)⟩
  | stop s' e h1 h2 => exact Or.inr ⟨⟨_, _, rfl⟩, .stop s' e h1 h2 (fun hpl _ => .mid (hno.mono (Nat.le_refl _) hev.time) (Or.inr (by
        have hrn := (recoverFrom_fg (c := c) s2).2.2 (by rw [← he]; rw [hpl])
        rw [← he] at hrn
        rw [show s'.j.recoverNext = c.blockStart s2.j.root from hrn]
        exact blockStart_ne hc _)))
      (fun _ => Or.inr (hno.mono (Nat.le_refl _) hev.time))⟩


theorem noEx_elim {k : Nat} {P : Prop} (h : noEx k) : P := False.elim h

/-- The page was written and its metadata recorded. -/
theorem pushed_ok (hc : c.Valid) {s s1 s2 s' : S} {m : Option Buf} {Pd : S → Option Buf → Prop}
    {vts vt vh vq vR vM vn : Nat} (g : Geo c s vts vt vh) (hr : RSt c s vt vh vR vM vn)
    (hp : Prepared c s s1 vts vt vh vq) (hj : s2.j = s1.j) (hcnt : s2.count = s1.count)
    (hat : OnlyAt s1.n s2.n (c.ph vq)) (hd : Pd s1 (s2.n.chip.page (c.ph vq)))
    (hm : PMOk c s2 s' m vts vt vq vR vM) (ev1 : Evo c s.n s1.n) (ev2 : Evo c s1.n s'.n) :
    PushOk c s s' m Pd vts vt vh vq vR vM := by
  have hu := hp.geo.uh
  have J := hp.jh
  have ern : s2.j.enumDone = s.j.enumDone := by rw [hj]; exact J.enumDone
  have erc : s2.j.recovery = s.j.recovery := by rw [hj]; exact J.recovery
  have ebm : s2.j.badMeta = s.j.badMeta := by rw [hj]; exact J.badMeta
  have hfin := finishes_congr (c := c) (vq := vq) ern
  have hret := retires_congr (c := c) (vR := vR) (vM := vM) ebm
  have hle := hp.le
  have hdq := Nat.div_le_div_right (c := c.ppb) hle
  have hlC : vq % c.ppc + 1 < c.ppc := by
    have := mod_ppc_lt c vq; unfold Cfg.isU at hu; omega
  have hb1 : (vq + 1) / c.ppb = vq / c.ppb := div_ppb_of_div_ppc hc (div_add_lt hlC).1
  have k12 : CKeep c s1.n s2.n vq vq noEx := hat.keep (Nat.le_refl _) (Nat.le_refl _) (Nat.le_refl _)
  have k02 : CKeep c s.n s2.n vh vq noEx := hp.keep.trans k12 (fun k hk => by rcases hk with h | h <;> exact h)
  have k23 : CKeep c s2.n s'.n vq vq (fun k => finishes c s vq ∧ retires c s vR vM k) := by
    refine ⟨Nat.le_refl _, ?_, ?_, hm.badm, ?_⟩
    · intro p ho
      exact (hm.at_ p (outside_ne (v := vq) (v' := vq) (w := vq + 1) (by omega) (by omega) ho)).1
    · intro p ho
      exact (hm.at_ p (outside_ne (v := vq) (v' := vq) (w := vq + 1) (by omega) (by omega) ho)).2
    · intro k hk
      rcases hm.badn k hk with h | ⟨h, h'⟩
      · exact Or.inl h
      · right; exact ⟨hfin.1 h, by rw [← hret]; exact h'⟩
  have hvts : vts ≤ vq := Nat.le_trans (Nat.le_trans g.l1 g.l2) hle
  refine ⟨hle, hp.mv, hu, hp.winN, hm.root, ?_, ?_, ?_, ?_, hm.metaq, ?_, ?_, ?_, ?_, ?_, hm.dirtyL, ?_, ?_,
    hm.cpnf, ?_, ?_⟩
  · rw [hm.cnt, hcnt]; exact J.count
  · rw [← newTs_congr erc ern]; exact hm.geo
  · refine k02.trans k23 ?_
    intro k hk
    rcases hk with h | h
    · exact noEx_elim h
    · exact Or.inr h
  · refine ⟨s1, hp.keep.mono (Nat.le_refl _) (fun k hk => noEx_elim hk), hp.geo.eh, ?_, ev1, ev2⟩
    have : s'.n.chip.page (c.ph vq) = s2.n.chip.page (c.ph vq) := by
      refine (hm.at_ _ ?_).1
      intro he
      have := hp.winN.inj hvts (by have := lt_nextV c vq; omega) (by omega : vts ≤ vq + 1) ?_ he
      · omega
      · have := lt_nextV c vq; omega
    rw [this]; exact hd
  · intro v h1 h2 hv hnf
    rw [hm.mkeep v h1 (by omega) hv (by rw [hfin]; exact hnf)]
    refine meta_stay hc g.toGeo0 hr k02 (by rw [hj]; exact hp.geo.eh) hp.geo.win hp.mv ?_ ?_ ?_ h1 h2
    · rw [hj]; exact J.recoverMeta
    · rw [hj]; exact J.recoverRoot
    · intro w _ _ _; rw [hj, J.pageBuf]
  · have hgood : s2.n.chip.bad (c.ph vq / c.ppb) = false := by rw [hat.bad]; exact hp.ready.1
    cases hbb : s'.n.chip.bad (c.ph vq / c.ppb) with
    | false => rfl
    | true =>
      exfalso
      rcases hm.badn _ hbb with h | ⟨h, h'⟩
      · rw [hgood] at h; cases h
      · have hed : s.j.enumDone = true := (hfin.1 h).2
        obtain ⟨_, hrg⟩ := finishes_rec (vts := vts) hr hed
        have hbR := hrg.bR
        rcases h' with h' | ⟨h3, h'⟩
        · have hRq : vR ≤ vq := by
            apply Classical.byContradiction; intro hn
            have := Nat.div_le_div_right (c := c.ppb) (by omega : vq ≤ vR); omega
          have := hp.geo.win.blk_inj hvts (Nat.le_refl _) (Nat.le_trans g.l1 hrg.tR) hRq h'
          omega
        · rw [ebm] at h3
          rcases hrg.rm with h4 | ⟨e1, e2, e3, e4⟩
          · exact absurd h4 (hrg.bm h3).1
          · have hMb := (hrg.bm h3).2
            have hMq : vts ≤ vM := by
              apply Classical.byContradiction; intro hn
              have h5 := hrg.tR; have h6 := g.l1
              have := Nat.div_le_div_right (c := c.ppb) (by omega : vM ≤ vR); omega
            have := hp.geo.win.blk_inj hvts (Nat.le_refl _) hMq (by omega) h'
            omega
  · intro b h1 h2
    exact hm.badm _ (by rw [hat.bad]; exact hp.keep.badm _ (hp.skip b h1 h2))
  · intro hnf
    obtain ⟨a1, a2, a3, a4, a5, a6⟩ := hm.going (by rw [hfin]; exact hnf)
    rw [hj] at a1 a2 a3 a4 a5 a6
    exact ⟨a1.trans J.recovery, a2.trans J.enumDone, a3.trans J.recoverRoot, a4.trans J.recoverNext,
      a5.trans J.recoverMeta, a6.trans J.badMeta⟩
  · intro hf
    have := hm.done (hfin.2 hf)
    rw [hret] at this
    exact this
  · intro hl
    rw [hm.dirtyN hl, hj]; exact hp.dirty
  · intro hl
    have := hm.cp hl
    rw [hj, J.pageBuf] at this
    exact this
  · intro hv p hp1 hp2
    have hq : vq % c.ppb = 0 := by
      rcases hp.mv with h | h
      · rw [h]; exact hv
      · exact h.2
    rw [hm.same (fun hl => (is_last hc hl).2.2.2.2.2.2 hq), hat.page p hp2]
    exact (hp.fresh hv p hp1).1
  · intro hv p hp1 hp2
    have e := hp.same hv
    by_cases hl : c.last vq
    · obtain ⟨a, b⟩ := hm.at_ p (hp2 hl)
      rw [a, b, hat.page p hp1, hat.free p hp1, e]; exact ⟨rfl, rfl⟩
    · rw [hm.same hl, hat.page p hp1, hat.free p hp1, e]; exact ⟨rfl, rfl⟩

/-- Prefix a successful push by skipped blocks. -/
theorem PushOk.lift (hc : c.Valid) {s s1 s' : S} {m : Option Buf} {Pd : S → Option Buf → Prop}
    {vts vt vh vh1 vq vR vM vn : Nat} (g : Geo c s vts vt vh) (hr : RSt c s vt vh vR vM vn)
    (hcalm : Calm s) (J : JH c s s1 vh1) (hle : vh ≤ vh1) (ha : vh % c.ppb = 0) (ha1 : vh1 % c.ppb = 0)
    (hk : CKeep c s.n s1.n vh vh1 (inBlks c (vh / c.ppb) (vh1 / c.ppb)))
    (hsk : ∀ b, vh / c.ppb ≤ b → b < vh1 / c.ppb → s1.n.chip.bad (b % c.numBlocks) = true)
    (hw1 : c.Win vts vh1)
    (hev : Evo c s.n s1.n) (h : PushOk c s1 s' m Pd vts vt vh1 vq vR vM) : PushOk c s s' m Pd vts vt vh vq vR vM := by
  have hnf : ¬ finishes c s vq := fun hf => by have := hf.2; rw [hcalm.ed] at this; cases this
  have hfin := finishes_congr (c := c) (vq := vq) J.enumDone
  have hd1 := Nat.div_le_div_right (c := c.ppb) hle
  have hd2 := Nat.div_le_div_right (c := c.ppb) h.le
  refine ⟨Nat.le_trans hle h.le, ?_, h.uq, h.winq, h.root, h.cnt.trans J.count, ?_, ?_, ?_, h.metaq, ?_, h.good,
    ?_, ?_, fun hf => absurd hf hnf, h.dirtyL, h.dirtyN, ?_, h.cpnf, fun _ => h.rest ha1, fun hv => absurd ha hv⟩
  · right
    refine ⟨ha, ?_⟩
    rcases h.mv with h | h
    · rw [h]; exact ha1
    · exact h.2
  · rw [← newTs_congr J.recovery J.enumDone]; exact h.geo
  · refine hk.trans h.keep ?_
    intro k hk
    rcases hk with h' | h' | ⟨h', _⟩
    · exact Or.inl (inBlks_mono h' (Nat.le_refl _) hd2)
    · exact Or.inl (inBlks_mono h' hd1 (Nat.le_refl _))
    · exact absurd (hfin.1 h') hnf
  · obtain ⟨s0, h1, h2, h3, h4, h5⟩ := h.data
    refine ⟨s0, hk.trans h1 ?_, h2, h3, hev.trans h4, h5⟩
    intro k hk
    rcases hk with h' | h'
    · exact inBlks_mono h' (Nat.le_refl _) hd2
    · exact inBlks_mono h' hd1 (Nat.le_refl _)
  · intro v h1 h2 hu _
    rw [h.mkeep v h1 (by omega) hu (fun hh => hnf (hfin.1 hh.1))]
    exact meta_stay hc g.toGeo0 hr hk J.head hw1 (Or.inr ⟨ha, ha1⟩) J.recoverMeta J.recoverRoot
      (fun w _ _ _ => by rw [J.pageBuf]) h1 h2
  · intro b h1 h2
    by_cases hb : b < vh1 / c.ppb
    · exact h.keep.badm _ (hsk b h1 hb)
    · exact h.skip b (by omega) h2
  · intro _
    obtain ⟨a1, a2, a3, a4, a5, a6⟩ := h.going (fun hh => hnf (hfin.1 hh))
    exact ⟨a1.trans J.recovery, a2.trans J.enumDone, a3.trans J.recoverRoot, a4.trans J.recoverNext,
      a5.trans J.recoverMeta, a6.trans J.badMeta⟩
  · intro hl
    have := h.cp hl
    rw [J.pageBuf] at this
    exact this

theorem pushLoop_spec (hc : c.Valid) {wr : S → Except Err Unit × S} {Pd : S → Option Buf → Prop}
    (hwr : WrSpec c wr Pd) (hev : ∀ s, Evo c s.n (wr s).2.n) {m : Option Buf} {vts vt vR vM vn : Nat} :
    ∀ i s vh, Geo c s vts vt vh → RSt c s vt vh vR vM vn →
      PushOut c s m Pd vts vt vh vR vM (pushLoop c wr m i s) := by
  intro i
  induction i with
  | zero => intro s vh g hr; exact .stop _ _ (by decide) g.noub (by intro h; cases h) (fun _ => Or.inl ⟨vh, Soft.refl g.toGeo0⟩)
  | succ i ih =>
    intro s vh g hr
    unfold pushLoop
    -- what happens after a failure
    have retry : ∀ (s2 : S) (vq : Nat), Mid c s s2 vts vt vh vq → Evo c s.n s2.n →
        Noisy c s.n.time s2.n.time →
        PushOut c s m Pd vts vt vh vR vM
          (match recoverFrom c .badBlock s2 with
            | (.error e, s) => (.error e, s)
            | (.ok (), s) => pushLoop c wr m i s) := by
      intro s2 vq hm hev2 hno
      rcases mid_rec (m := m) (Pd := Pd) hc g hr hm (recoverFrom_spec hc hm.geo) rfl hno with
        ⟨s', e, h1, h2, J2, k2, g2, b2, pg2⟩ | ⟨⟨e, s', he⟩, ho⟩
      · have hev3 : Evo c s2.n s'.n := (Evo.of_eq (recoverFrom_evo .badBlock) e :)
        rw [e]
        simp only
        have hcalm := calm_of hr (hm.rcv.symm.trans h1)
        have hal : vh % c.ppb = 0 := by
          rcases hm.mv with h | h
          · rw [← h]; exact h2
          · exact h.1
        have hlt := lt_nextB c vq
        have hle := hm.le
        have hr2 : RSt c s' vt (c.nextB vq) vR vM vn :=
          (hm.rst hr).moved (by omega) J2.recovery J2.enumDone J2.recoverRoot J2.recoverNext J2.recoverMeta J2.badMeta
        have hdq := Nat.div_le_div_right (c := c.ppb) hle
        have key := ih s' (c.nextB vq) g2 hr2
        have J : ∃ d x y, s'.j = s2.j.moved d (c.ph (c.nextB vq)) (UInt8.ofNat (c.nextB vq / c.pages)) x y := J2.1
        have hev4 := pushLoop_evo (c := c) wr hev m i s'
        generalize pushLoop c wr m i s' = r at key hev4 ⊢
        have k0 : CKeep c s.n s'.n vh (c.nextB vq) (inBlks c (vh / c.ppb) (c.nextB vq / c.ppb)) := by
          refine hm.keep.trans k2 ?_
          intro k hk
          rcases hk with h | h
          · exact noEx_elim h
          · rw [h]; exact inBlks_one hdq
        have hsk0 : ∀ b, vh / c.ppb ≤ b → b < c.nextB vq / c.ppb → s'.n.chip.bad (b % c.numBlocks) = true := by
          intro b hb1 hb2
          rw [nextB_div] at hb2
          by_cases hb : b < vq / c.ppb
          · exact k2.badm _ (hm.skip b hb1 hb)
          · have : b = vq / c.ppb := by omega
            rw [this, ← ph_div_ppb]; exact b2
        have hfg : Fg s2 s' := by
          have := (recoverFrom_fg (c := c) s2).1 (by rw [e])
          rw [e] at this; exact this
        have hS : Skipped c s s' vts vt vh (c.nextB vq) :=
          ⟨by omega, hal, nextB_mod c vq, (hm.jh h2).trans J2, hfg.dirty hm.dirty, k0, hsk0, g2, hev2.trans hev3,
            fun p hp => by
              rw [pg2]
              exact hm.keep.page p fun b hb1 hb2 hb3 => absurd hb3 (hp b hb1 (by rw [nextB_div]; omega))⟩
        have hlift : ∀ {s3 : S} {v3 : Nat}, PushOk c s' s3 m Pd vts vt (c.nextB vq) v3 vR vM → PushOk c s s3 m Pd vts vt vh v3 vR vM :=
          fun h3 => PushOk.lift hc g hr hcalm hS.jh hS.le hal (nextB_mod c vq) k0 hsk0 g2.win hS.evo h3
        cases key with
        | stop s3 e he hub hcr _ =>
          refine .stop _ _ he hub (fun hpl hcal => ?_)
            (fun _ => Or.inr (hno.mono (Nat.le_refl _) (Nat.le_trans hev3.time hev4.time)))
          cases hcr hpl (calm_of hr2 (J2.recovery.trans h1)) with
          | stop h => exact .skip s' _ hS h hev4
          | done s'' v3 h hl e1 e2 e3 => exact .done s'' v3 (hlift h) hl e1 e2 e3
          | skip s1 v1 hs h hev => exact .skip s1 v1 (hS.trans hs) h hev
          | mid h hmm => exact .mid (h.mono hS.evo.time (Nat.le_refl _)) hmm
        | again s3 v3 h3 =>
          have := h3.rec0; rw [J2.recovery, h1] at this; cases this
        | start s3 vM3 v3 h3 => exact absurd (nextB_mod c vq) h3.hv
        | ok s3 v3 h3 =>
          exact .ok s3 v3 (hlift h3)
      · rw [he] at ho ⊢; exact ho
    rcases prepareHead_cases hc g with ⟨s1, vq, h1, hp⟩ | ⟨s1, vq, h1, hp⟩ | ⟨s1, e, h1, h2, h3, h4, h5, h6⟩
    · simp only [h1]
      have hev1 : Evo c s.n s1.n := (Evo.of_eq prepareHead_evo h1 :)
      have hmid : ∀ s2 : S, (∃ B, s2.j = { s1.j with pageBuf := B } ∧ (vq % c.ppb = 0 → B = s1.j.pageBuf) ∧
            ∀ v, v < vq → v / c.ppc = vq / c.ppc → B.slice (c.slot v) 132 = s1.j.pageBuf.slice (c.slot v) 132) →
          s2.count = s1.count → s2.n.dead = false → s2.n.ub = false →
          CKeep c s1.n s2.n vq vq noEx → (∃ t, s1.n.time ≤ t ∧ t < s2.n.time ∧ c.env.prog t = .fail) →
          Mid c s s2 vts vt vh vq := by
        intro s2 ⟨B, ej, eB0, eB⟩ ec hal hub hk ⟨t, ht1, ht2, ht3⟩
        have J := hp.jh
        have G := hp.geo
        have hle := hp.le
        refine ⟨hle, hp.mv, ec.trans J.count, ?_, ?_, by rw [ej]; exact J.root, by rw [ej]; exact J.recovery,
          by rw [ej]; exact J.enumDone, by rw [ej]; exact J.recoverRoot, by rw [ej]; exact J.recoverNext,
          by rw [ej]; exact J.recoverMeta, by rw [ej]; exact J.badMeta, ?_, ?_, ?_, ?_, by rw [ej]; exact hp.dirty⟩
        · exact ⟨by rw [ej]; exact G.ets, by rw [ej]; exact G.et, by rw [ej]; exact G.eh, G.uts, G.ut, G.uh, G.l1,
            G.l2, G.win, by rw [ej]; exact G.ep, hal, hub⟩
        · exact hp.keep.trans hk (fun k hk => by rcases hk with h | h <;> exact h)
        · intro v hv1 hv2 hv3 hv4
          rw [ej]
          show B.slice _ _ = _
          rw [eB v (by omega) (by rw [hv4]; exact hv3), J.pageBuf]
        · intro _; exact ⟨t, by have := hev1.time; omega, ht2, ht3⟩
        · intro b hb1 hb2; exact hk.badm _ (hp.keep.badm _ (hp.skip b hb1 hb2))
        · intro ha
          obtain ⟨⟨d, x, y, e⟩, k⟩ := J
          refine ⟨⟨d, x, y, ?_⟩, ec.trans k⟩
          rw [ej, eB0 ha]; exact e
      have hw := hwr s1 vq hp.geo.eh hp.geo.alive hp.geo.noub hp.ready
      have hevw := hev s1
      generalize wr s1 = r at hw hevw ⊢
      cases hw with
      | stop s2 e e1 e2 hub hcr hsf =>
        simp only
        rw [recoverFrom_ne e1]
        refine .stop _ _ e2 hub (fun he _ => ?_) (fun he => Or.inl ⟨vq, by rw [hsf he]; exact hp.soft⟩)
        obtain ⟨a1, a2, a3⟩ := hcr he
        refine .stop (.page s1 vq hp (fun p h1 _ => ⟨a1.page p h1, a1.free p h1⟩) a1.bad (fun hl => Or.inl (a1.page _ ?_)) ?_)
        · intro he
          have h6 := hp.winN.inj (Nat.le_trans hp.geo.l1 hp.geo.l2) (Nat.le_of_lt (lt_nextV c vq))
            (Nat.le_trans (Nat.le_trans hp.geo.l1 hp.geo.l2) (Nat.le_succ vq)) (lt_nextV c vq) he.symm
          omega
        · intro p hf
          by_cases hpq : p = c.ph vq
          · rw [hpq] at hf ⊢; exact a3 hf
          · rw [← a1.free p hpq]; exact hf
      | fail s2 hj hcnt hal hub hat hf ht =>
        simp only
        refine retry s2 vq (hmid s2 ⟨s1.j.pageBuf, by rw [hj], fun _ => rfl, fun _ _ _ => rfl⟩ hcnt hal hub
          (hat.keep (Nat.le_refl _) (Nat.le_refl _) (Nat.le_refl _)) ⟨s1.n.time, Nat.le_refl _, by omega, hf⟩) (hev1.trans hevw)
          ⟨s1.n.time, hev1.time, by omega, Or.inl hf⟩
      | ok s2 hj hcnt hal hub hat hd =>
        simp only
        have hlC : vq % c.ppc + 1 < c.ppc := by
          have := mod_ppc_lt c vq; have hu := hp.geo.uh; unfold Cfg.isU at hu; omega
        have hb1 : (vq + 1) / c.ppb = vq / c.ppb := div_ppb_of_div_ppc hc (div_add_lt hlC).1
        have hok : HeadOK c s2 (vq + 1) := headOK_advance hp.ready hat (Nat.le_refl _) (by omega) hb1
        have J := hp.jh
        have hr2 : RSt c s2 vt vq vR vM vn :=
          hr.moved hp.le (by rw [hj]; exact J.recovery) (by rw [hj]; exact J.enumDone) (by rw [hj]; exact J.recoverRoot)
            (by rw [hj]; exact J.recoverNext) (by rw [hj]; exact J.recoverMeta) (by rw [hj]; exact J.badMeta)
        have key := pushMeta_spec (m := m) hc (hp.geo.of_wr hj hal hub) hp.winN hok hr2
        have hev2 := pushMeta_evo (c := c) m s2
        generalize pushMeta c m s2 = r at key hev2 ⊢
        cases key with
        | ok s3 h3 => exact .ok s3 vq (pushed_ok hc g hr hp hj hcnt hat hd h3 hev1 (hevw.trans hev2))
        | stop s3 e he hub3 hpl hcr =>
          refine .stop s3 e he hub3 (fun hee hcalm => ?_) (fun hh => absurd hpl hh)
          obtain ⟨hl, ht, hd'⟩ := hcr hee
          have hne : c.ph (vq + 1) ≠ c.ph vq := by
            intro he
            have h6 := hp.winN.inj (Nat.le_trans hp.geo.l1 hp.geo.l2) (Nat.le_of_lt (lt_nextV c vq))
              (Nat.le_trans (Nat.le_trans hp.geo.l1 hp.geo.l2) (Nat.le_succ vq)) (lt_nextV c vq) he.symm
            omega
          have hfr0 : s1.n.chip.free (c.ph vq) = true := by
            have := hp.ready.2 (vq % c.ppb) (Nat.le_refl _) (mod_ppb_lt c vq)
            rwa [← ph_mod_ppb, Nat.div_add_mod'] at this
          rcases hd' with ⟨o1, o2, o3⟩ | hd'
          · refine .stop (.page s1 vq hp ?_ (o1.bad.trans hat.bad) (fun _ => ?_) ?_)
            · intro p h1 h2
              rw [o1.page p (h2 hl), o1.free p (h2 hl), hat.page p h1, hat.free p h1]; exact ⟨rfl, rfl⟩
            · rw [← hat.page _ hne]; exact o2
            · intro p hf
              by_cases hpq : p = c.ph vq
              · rw [hpq]; exact hfr0
              · rw [← hat.free p hpq]
                by_cases hpq' : p = c.ph (vq + 1)
                · rw [hpq'] at hf ⊢; exact o3 hf
                · rw [← o1.free p hpq']; exact hf
          · have hc2 : Calm s2 := calm_of hr2 (by rw [hj, J.recovery]; exact hcalm.nr)
            obtain ⟨s'', p1, p2, p3, p4, p5⟩ := hd' hc2
            exact .done s'' vq (pushed_ok hc g hr hp hj hcnt hat hd p1 hev1 (hevw.trans p4)) hl p2 p3 p5
        | bad s3 _ hl hj3 hcnt3 hg3 hat3 hf3 ht3 ho hrr =>
          obtain ⟨B, ej, eB⟩ := hj3
          have hM : Mid c s s3 vts vt vh vq := by
            refine hmid s3 ⟨B, by rw [ej, hj], fun ha => absurd ha (is_last hc hl).2.2.2.2.2.2, ?_⟩ (hcnt3.trans hcnt) hg3.alive hg3.noub ?_
              ⟨s2.n.time, hevw.time, by omega, hf3⟩
            · intro v hv1 hv2
              rw [eB v, hj]
              have := div_mod_range v c.ppc; have := div_mod_range vq c.ppc
              intro h; rw [hv2] at *; omega
            · have k1 : CKeep c s1.n s2.n vq vq noEx := hat.keep (Nat.le_refl _) (Nat.le_refl _) (Nat.le_refl _)
              have k2 : CKeep c s2.n s3.n vq vq noEx := hat3.keep (Nat.le_refl _) (by omega) (by omega)
              exact k1.trans k2 (fun k hk => by rcases hk with h | h <;> exact h)
          rcases mid_rec (m := m) (Pd := Pd) hc g hr hM ho hrr
              ⟨s2.n.time, Nat.le_trans hev1.time hevw.time, by omega, Or.inl hf3⟩ with ⟨s', e, h1, h2, _⟩ | ⟨_, ho⟩
          · exact absurd h2 (is_last hc hl).2.2.2.2.2.2
          · exact ho
    · simp only [h1]
      have hev1 : Evo c s.n s1.n := (Evo.of_eq prepareHead_evo h1 :)
      refine retry s1 vq ?_ hev1 ⟨s.n.time, Nat.le_refl _, hp.time, Or.inr hp.fate⟩
      have J := hp.jh
      refine ⟨hp.le, Or.inr ⟨hp.al, hp.al'⟩, J.count, hp.geo, hp.keep, J.root, J.recovery, J.enumDone, J.recoverRoot,
        J.recoverNext, J.recoverMeta, J.badMeta, fun v _ _ _ _ => by rw [J.pageBuf], fun h => absurd hp.al h,
        fun b hb1 hb2 => hp.keep.badm _ (hp.skip b hb1 hb2), fun _ => J, by
          have := (prepareHead_fg (c := c) s).2 (by rw [h1])
          rw [h1] at this; exact this⟩
    · simp only [h1]
      rw [recoverFrom_ne h2]
      exact .stop _ _ h3 h4 (fun he _ => by obtain ⟨vq, h⟩ := h5 he; exact .stop (.erase vq h)) (fun he => Or.inl (h6 he))

end Dhara

/-
Journal-level invariant: the queue's geometry and its root, without the map's tree.
-/
import Verif.Proofs.Top
import Verif.Props.JournalSpec
namespace Dhara

variable {c : Cfg}

/-- Invariant of the journal. -/
structure QInv (c : Cfg) (s : S) (vts vt vh vr vR vM vn : Nat) : Prop where
  geo : Geo c s vts vt vh
  rst : RSt c s vt vh vR vM vn
  root : s.j.root = NONE ∨ (s.j.root = c.ph vr ∧ vt ≤ vr ∧ vr < vh ∧ c.isU vr)
  good : Calm s → s.j.root ≠ NONE → s.n.chip.bad (s.j.root / c.ppb) = false

theorem blockStart_ph (v : Nat) : c.blockStart (c.ph v) = c.ph (v / c.ppb * c.ppb) := by
  have h : c.blockStart (c.ph v) = c.ph v - c.ph v % c.ppb := by
    unfold Cfg.blockStart Cfg.ppb; rw [Nat.and_two_pow_sub_one_eq_mod]
  rw [h, ← mul_ppb_ph, ← ph_div_ppb]
  have := div_mod_range (c.ph v) c.ppb
  omega

theorem calm_not_rec {s : S} (h : Calm s) (h' : s.j.recovery = true) : False := by
  have := h.nr; rw [h'] at this; cases this

theorem push_q (hc : c.Valid) {s : S} {m : Option Buf} {Pd : S → Option Buf → Prop} {vts vt vh vr vR vM vn : Nat}
    (hq : QInv c s vts vt vh vr vR vM vn) {r : Except Err Unit} {s' : S}
    (ho : PushOut c s m Pd vts vt vh vR vM (r, s')) (hr : r = .ok () ∨ (r = .error .recover ∧ s.j.root ≠ NONE)) :
    ∃ vts' vt' vh' vr' vR' vM' vn', QInv c s' vts' vt' vh' vr' vR' vM' vn' := by
  have hl1 := hq.geo.l1
  have hl2 := hq.geo.l2
  cases ho with
  | ok _ vq h =>
    have hlt := lt_nextV c vq
    have hle := h.le
    by_cases hf : finishes c s vq
    · exact ⟨_, _, _, vq, 0, 0, 0, h.geo, Or.inl (h.done hf).1, Or.inr ⟨h.root, by omega, hlt, h.uq⟩, fun _ _ => by rw [h.root]; exact h.good⟩
    · obtain ⟨a1, a2, a3, a4, a5, a6⟩ := h.going hf
      exact ⟨_, _, _, vq, _, _, _, h.geo, hq.rst.moved (by omega) a1 a2 a3 a4 a5 a6, Or.inr ⟨h.root, by omega, hlt, h.uq⟩,
        fun _ _ => by rw [h.root]; exact h.good⟩
  | again _ v' h =>
    have hR := h.rgeo.bR
    have : vR < v' := by
      apply Classical.byContradiction; intro hn
      have := Nat.div_le_div_right (c := c.ppb) (by omega : v' ≤ vR); omega
    exact ⟨_, _, _, vR, _, _, _, h.geo, Or.inr ⟨h.rec1, h.rgeo⟩, Or.inr ⟨h.root, h.rgeo.tR, this, h.rgeo.uR⟩,
      fun hk => (calm_not_rec hk h.rec1).elim⟩
  | start _ vM' v' h =>
    rcases hr with hr | ⟨_, hr⟩
    · cases hr
    rcases hq.root with h0 | ⟨b1, b2, b3, b4⟩
    · exact absurd h0 hr
    have hlt := h.lt
    have hb := Nat.div_le_div_right (c := c.ppb) (Nat.le_of_lt b3)
    have hvv : vh < v' := by
      apply Classical.byContradiction; intro hn
      have := Nat.div_le_div_right (c := c.ppb) (by omega : v' ≤ vh); omega
    refine ⟨_, _, _, vr, vr, vM', vr / c.ppb * c.ppb, h.geo, Or.inr ⟨h.rec1, ?_⟩, Or.inr ⟨by rw [h.root]; exact b1, b2, by omega, b4⟩,
      fun hk => (calm_not_rec hk h.rec1).elim⟩
    refine ⟨by rw [h.rr]; exact b1, b4, b2, by omega, by rw [h.rn, b1]; exact blockStart_ph vr, isU_of_aligned hc (Nat.mul_mod_left _ _),
      Nat.div_mul_le_self _ _, Nat.mul_div_cancel _ (ppb_pos c), ?_, fun hbm => ?_⟩
    · rcases h.rm with ⟨h1, _⟩ | ⟨h1, h2, h3, h4, h5⟩
      · exact Or.inl h1
      · refine Or.inr ⟨h1, h5, ?_, by rw [h3]; exact lt_nextV c vM'⟩
        have := Nat.div_le_div_right (c := c.ppb) h4
        rw [nextB_div] at this; omega
    · rw [h.bm] at hbm; cases hbm
  | stop _ e he _ => rcases hr with hr | ⟨hr, _⟩ <;> cases hr; exact absurd rfl he

theorem enqueue_out (hc : c.Valid) (d m : Option Buf) {s : S} {vts vt vh vR vM vn : Nat} (g : Geo c s vts vt vh)
    (hr : RSt c s vt vh vR vM vn) : PushOut c s m (dataPd c d) vts vt vh vR vM (enqueue c d m s) :=
  pushLoop_spec hc (wrData_spec hc d) (wrData_evo d) 8 s vh g hr

theorem copy_out (hc : c.Valid) (p : Nat) (m : Buf) {s : S} {vts vt vh vR vM vn : Nat} (g : Geo c s vts vt vh)
    (hr : RSt c s vt vh vR vM vn) : PushOut c s (some m) (copyPd c p) vts vt vh vR vM (journalCopy c p m s) :=
  pushLoop_spec hc (wrCopy_spec hc p) (wrCopy_evo p) 8 s vh g hr

theorem RSt.calm {s : S} {vt vh vR vM vn : Nat} (h : RSt c s vt vh vR vM vn) (h' : s.j.recovery = false) : Calm s := by
  rcases h with h | ⟨h, _⟩
  · exact h
  · rw [h'] at h; cases h

theorem dequeue_q (hc : c.Valid) {s : S} {vts vt vh vr vR vM vn : Nat}
    (hq : QInv c s vts vt vh vr vR vM vn) (hk : s.j.recovery = false) :
    ∃ vts' vt', QInv c (dequeue c s) vts' vt' vh vr vR vM vn ∧ (dequeue c s).n = s.n ∧ vts ≤ vts' ∧
      (vt < vh → vt' = c.nextV vt) ∧
      (vt < vh → s.j.root = c.ph vr → c.nextV vt ≤ vr → vr < vh → (dequeue c s).j.root = s.j.root) ∧ (vts' = vts ∨ s.j.dirty = false) ∧
      (vt < vh → s.j.dirty = false → vts' = vt') := by
  have hI := hq
  have hcalm := hq.rst.calm hk
  have hl1 := hI.geo.l1
  have hl2 := hI.geo.l2
  by_cases h : s.j.head = s.j.tail
  · have : dequeue c s = s := by unfold dequeue; rw [if_pos h]
    rw [this]; exact ⟨vts, vt, hq, rfl, Nat.le_refl _, fun hlt => absurd (hI.geo.head_eq_tail.1 h) (by omega), fun _ _ _ _ => rfl, Or.inl rfl,
      fun hlt => absurd (hI.geo.head_eq_tail.1 h) (by omega)⟩
  · have hlt : vt < vh := by
      have : vh ≠ vt := fun e => h (hI.geo.head_eq_tail.2 e)
      omega
    have hnx := nextV_le hc hI.geo.ut hI.geo.uh hlt
    have hnl := lt_nextV c vt
    have hnu := nextV_isU hc hI.geo.ut
    have hsz := hI.geo.size_lt
    have ht : nextUpage c s.j.tail = c.ph (c.nextV vt) := by rw [hI.geo.et]; exact nextUpage_ph hc hI.geo.ut
    obtain ⟨vts', hts1, hts2, hts3, hts6, hts7, hts5⟩ : ∃ vts', vts ≤ vts' ∧ vts' ≤ c.nextV vt ∧ c.isU vts' ∧ (vts' = vts ∨ s.j.dirty = false) ∧
        (s.j.dirty = false → vts' = c.nextV vt) ∧
        (if ¬ (s.j.dirty = true ∨ s.j.recovery = true) then c.ph (c.nextV vt) else s.j.tailSync) = c.ph vts' := by
      by_cases hd : s.j.dirty = true
      · exact ⟨vts, Nat.le_refl _, by omega, hI.geo.uts, Or.inl rfl, fun h => absurd h (by rw [hd]; decide),
          by rw [if_neg (by simp [hd])]; exact hI.geo.ets⟩
      · refine ⟨c.nextV vt, by omega, Nat.le_refl _, hnu, Or.inr (by simpa using hd), fun _ => rfl, ?_⟩
        rw [if_pos (by simp [hd, hk])]
    have hres : ∀ (b : Bool), (b = true ↔ wrap (sub32 ((s.j.head + c.pages) % 2 ^ 32) s.j.root) c.pages >
          wrap (sub32 ((s.j.head + c.pages) % 2 ^ 32) (c.ph (c.nextV vt))) c.pages) →
        dequeue c s = { s with j := { s.j with tail := c.ph (c.nextV vt), tailSync := c.ph vts', root := if b = true then NONE else s.j.root } } := by
      intro b hb
      unfold dequeue
      rw [if_neg h]
      simp only [ht]
      by_cases hd : ¬ (s.j.dirty = true ∨ s.j.recovery = true)
      · rw [if_pos hd] at hts5 ⊢
        simp only
        by_cases hb' : b = true
        · rw [if_pos (hb.1 hb'), if_pos hb', hts5]
        · rw [if_neg (fun x => hb' (hb.2 x)), if_neg hb', hts5]
      · rw [if_neg hd] at hts5 ⊢
        simp only
        by_cases hb' : b = true
        · rw [if_pos (hb.1 hb'), if_pos hb', hts5]
        · rw [if_neg (fun x => hb' (hb.2 x)), if_neg hb', hts5]
    obtain ⟨b, hb⟩ : ∃ b : Bool, (b = true ↔ wrap (sub32 ((s.j.head + c.pages) % 2 ^ 32) s.j.root) c.pages >
          wrap (sub32 ((s.j.head + c.pages) % 2 ^ 32) (c.ph (c.nextV vt))) c.pages) :=
      ⟨decide (wrap (sub32 ((s.j.head + c.pages) % 2 ^ 32) s.j.root) c.pages >
          wrap (sub32 ((s.j.head + c.pages) % 2 ^ 32) (c.ph (c.nextV vt))) c.pages), decide_eq_true_iff⟩
    have hdq := hres b hb
    refine ⟨vts', c.nextV vt, ?_, by rw [hdq], hts1, fun _ => rfl, fun _ a1 a2 a3 => ?_, hts6, fun _ => hts7⟩
    rw [hdq]
    refine ⟨⟨⟨rfl, rfl, hI.geo.eh, hts3, hnu, hI.geo.uh, hts2, hnx, hI.geo.win.mono hts1 (Nat.le_refl _), hI.geo.ep,
        hI.geo.alive, hI.geo.noub⟩, hI.geo.hfree⟩, Or.inl ⟨hcalm.nr, hcalm.rm, hcalm.ed, hcalm.bm⟩, ?_, ?_⟩
    · show (if b = true then NONE else s.j.root) = NONE ∨ _
      by_cases hb' : b = true
      · rw [if_pos hb']; exact Or.inl rfl
      · rcases hI.root with h0 | ⟨a1, a2, a3, a4⟩
        · left; rw [if_neg hb']; exact h0
        have o1 : wrap (sub32 ((s.j.head + c.pages) % 2 ^ 32) s.j.root) c.pages = vh - vr := by
          rw [hI.geo.eh, a1]; exact off_eq hc (by omega) (by omega)
        have o2 : wrap (sub32 ((s.j.head + c.pages) % 2 ^ 32) (c.ph (c.nextV vt))) c.pages = vh - c.nextV vt := by
          rw [hI.geo.eh]; exact off_eq hc hnx (by omega)
        rw [o1, o2] at hb
        have : ¬ (vh - vr > vh - c.nextV vt) := fun h => hb' (hb.2 h)
        exact Or.inr ⟨by rw [if_neg hb']; exact a1, by omega, a3, a4⟩
    · intro _ hne
      have hb' : ¬ b = true := fun h' => hne (by simp only; rw [if_pos h'])
      show s.n.chip.bad ((if b = true then NONE else s.j.root) / c.ppb) = false
      rw [if_neg hb']
      refine hI.good hcalm ?_
      intro h0; apply hne; simp only; rw [if_neg hb']; exact h0
    · rw [hdq]
      have o1 : wrap (sub32 ((s.j.head + c.pages) % 2 ^ 32) s.j.root) c.pages = vh - vr := by
        rw [hI.geo.eh, a1]; exact off_eq hc (by omega) (by omega)
      have o2 : wrap (sub32 ((s.j.head + c.pages) % 2 ^ 32) (c.ph (c.nextV vt))) c.pages = vh - c.nextV vt := by
        rw [hI.geo.eh]; exact off_eq hc hnx (by omega)
      rw [o1, o2] at hb
      have hb' : ¬ b = true := fun h => by have := hb.1 h; omega
      show (if b = true then NONE else s.j.root) = _
      rw [if_neg hb']

theorem peekLoop_q (hc : c.Valid) {s : S} {vts vt vh vr vR vM vn : Nat} (hq : QInv c s vts vt vh vr vR vM vn)
    (hk : s.j.recovery = false) (hal : vt % c.ppb = 0) (hlt : vt < vh) : ∀ i b, vt / c.ppb ≤ b → b ≤ vh / c.ppb →
    (∀ k, vt / c.ppb ≤ k → k < b → s.n.chip.bad (k % c.numBlocks) = true) →
    ∃ vt', (peekLoop c i (b % c.numBlocks) s).1 = c.ph vt' ∧ QInv c (peekLoop c i (b % c.numBlocks) s).2 vts vt' vh vr vR vM vn ∧
      (peekLoop c i (b % c.numBlocks) s).2.n = s.n ∧
      (∀ b0, b ≤ b0 → b0 ≤ vh / c.ppb → b0 < b + i → s.n.chip.bad (b0 % c.numBlocks) = false →
        (∀ k, b ≤ k → k < b0 → s.n.chip.bad (k % c.numBlocks) = true) → vt' = b0 * c.ppb) ∧
      ((peekLoop c i (b % c.numBlocks) s).2.j.root = s.j.root ∨ vt' = vh) := by
  intro i
  have hI := hq
  have hcalm := hq.rst.calm hk
  have hl1 := hI.geo.l1
  induction i with
  | zero =>
    intro b _ _ _
    exact ⟨vt, hq.geo.et, hq, rfl, fun b0 _ _ h => absurd h (by omega), Or.inl rfl⟩
  | succ i ih =>
    intro b h1 h2 h3
    unfold peekLoop
    by_cases hcond : b % c.numBlocks = c.blk s.j.head ∨ ¬ (nandIsBad s.n (b % c.numBlocks) = true)
    · rw [if_pos hcond]
      have hfirst : ∀ b0, b ≤ b0 → b0 ≤ vh / c.ppb → b0 < b + (i + 1) → s.n.chip.bad (b0 % c.numBlocks) = false →
          (∀ k, b ≤ k → k < b0 → s.n.chip.bad (k % c.numBlocks) = true) → b * c.ppb = b0 * c.ppb := by
        intro b0 f1 f2 _ _ f5
        by_cases he : b = b0
        · rw [he]
        have hbb := f5 b (Nat.le_refl _) (by omega)
        rcases hcond with hcond | hcond
        · exfalso
          have hw := hI.geo.win
          unfold Cfg.Win at hw
          have hd := Nat.div_le_div_right (c := c.ppb) hl1
          have e : b % c.numBlocks = vh / c.ppb % c.numBlocks := by
            rw [hcond]; unfold Cfg.blk; rw [Nat.shiftRight_eq_div_pow, hI.geo.eh]; exact ph_div_ppb c vh
          have := mod_inj (base := vts / c.ppb) (m := c.numBlocks) (a := b) (b := vh / c.ppb) (by omega) (by omega) (by omega) (by omega) e
          omega
        · exact absurd (show nandIsBad s.n (b % c.numBlocks) = true from hbb) hcond
      have hbvt : vt ≤ b * c.ppb := by
        have := div_mod_range vt c.ppb
        have := Nat.mul_le_mul_right c.ppb h1
        omega
      have hbvh : b * c.ppb ≤ vh := by
        have := div_mod_range vh c.ppb
        have := Nat.mul_le_mul_right c.ppb h2
        omega
      have hU : ∀ v, vt ≤ v → s.n.chip.bad (c.ph v / c.ppb) = false → b * c.ppb ≤ v := by
        intro v a1 a4
        apply Classical.byContradiction; intro hn
        have hd : v / c.ppb < b := (Nat.div_lt_iff_lt_mul (ppb_pos c)).2 (by omega)
        rw [ph_div_ppb] at a4
        rw [h3 _ (Nat.div_le_div_right a1) hd] at a4; cases a4
      have e : (b % c.numBlocks) <<< c.log2Ppb = c.ph (b * c.ppb) := by
        rw [Nat.shiftLeft_eq]; exact mul_ppb_ph c b
      have hu := isU_of_aligned hc (v := b * c.ppb) (Nat.mul_mod_left _ _)
      simp only [e]
      by_cases hh : c.ph (b * c.ppb) = s.j.head
      · rw [if_pos hh]
        refine ⟨b * c.ppb, rfl, ⟨⟨⟨hI.geo.ets, rfl, hI.geo.eh, hI.geo.uts, hu, hI.geo.uh, by omega, hbvh, hI.geo.win, hI.geo.ep,
          hI.geo.alive, hI.geo.noub⟩, hI.geo.hfree⟩, Or.inl ⟨hcalm.nr, hcalm.rm, hcalm.ed, hcalm.bm⟩, Or.inl rfl, fun _ h => absurd rfl h⟩, trivial, hfirst, Or.inr ?_⟩
        exact (hI.geo.win.inj (by omega) (by omega) (by omega) (by omega) (by rw [hh]; exact hI.geo.eh))
      · rw [if_neg hh]
        refine ⟨b * c.ppb, rfl, ⟨⟨⟨hI.geo.ets, rfl, hI.geo.eh, hI.geo.uts, hu, hI.geo.uh, by omega, hbvh, hI.geo.win, hI.geo.ep,
          hI.geo.alive, hI.geo.noub⟩, hI.geo.hfree⟩, Or.inl ⟨hcalm.nr, hcalm.rm, hcalm.ed, hcalm.bm⟩, ?_, fun _ h => hI.good hcalm h⟩, trivial, hfirst, Or.inl rfl⟩
        rcases hI.root with h0 | ⟨a1, a2, a3, a4⟩
        · exact Or.inl h0
        · refine Or.inr ⟨a1, ?_, a3, a4⟩
          have hg := hI.good hcalm (by rw [a1]; exact ph_ne_none hc _)
          rw [a1] at hg
          exact hU vr a2 hg
    · rw [if_neg hcond]
      have hb : s.n.chip.bad (b % c.numBlocks) = true := by
        unfold nandIsBad at hcond
        cases h : s.n.chip.bad (b % c.numBlocks) with
        | true => rfl
        | false => exact absurd (Or.inr (by rw [h]; simp)) hcond
      have hne : b ≠ vh / c.ppb := by
        intro he
        apply hcond; left
        unfold Cfg.blk; rw [Nat.shiftRight_eq_div_pow, hI.geo.eh]
        show _ = c.ph vh / c.ppb
        rw [ph_div_ppb, he]
      rw [nextBlock_ph hc b]
      obtain ⟨vt', r1, r2, r3, r4, r5⟩ := ih (b + 1) (by omega) (by omega) (fun k a1 a2 => by
        by_cases hk : k = b
        · rw [hk]; exact hb
        · exact h3 k a1 (by omega))
      refine ⟨vt', r1, r2, r3, fun b0 f1 f2 f3 f4 f5 => r4 b0 ?_ f2 (by omega) f4 (fun k g1 g2 => f5 k (by omega) g2), r5⟩
      have : b0 ≠ b := fun he => by rw [he, hb] at f4; cases f4
      omega

theorem peek_q (hc : c.Valid) {s : S} {vts vt vh vr vR vM vn : Nat} (hq : QInv c s vts vt vh vr vR vM vn)
    (hk : s.j.recovery = false) : ∃ vt', QInv c (peek c s).2 vts vt' vh vr vR vM vn ∧ (peek c s).2.n = s.n ∧
      (vt = vh → vt' = vt ∧ (peek c s).1 = NONE) ∧ (vt < vh → (peek c s).1 = c.ph vt') ∧ (vt % c.ppb ≠ 0 → vt' = vt) ∧
      (vt < vh → vt % c.ppb = 0 → ∀ b0, vt / c.ppb ≤ b0 → b0 ≤ vh / c.ppb → b0 < vt / c.ppb + 8 →
        s.n.chip.bad (b0 % c.numBlocks) = false →
        (∀ k, vt / c.ppb ≤ k → k < b0 → s.n.chip.bad (k % c.numBlocks) = true) → vt' = b0 * c.ppb) ∧
      ((peek c s).2.j.root = s.j.root ∨ vt' = vh) := by
  unfold peek
  by_cases h : s.j.head = s.j.tail
  · rw [if_pos h]
    have he := hq.geo.head_eq_tail.1 h
    exact ⟨vt, hq, rfl, fun _ => ⟨rfl, rfl⟩, fun h' => absurd he (by omega), fun _ => rfl, fun h' => absurd he (by omega), Or.inl rfl⟩
  · rw [if_neg h]
    have hlt : vt < vh := by
      have := hq.geo.l2
      have : vh ≠ vt := fun e => h (hq.geo.head_eq_tail.2 e)
      omega
    by_cases ha : isAligned s.j.tail c.log2Ppb = true
    · rw [if_pos ha]
      have hal : vt % c.ppb = 0 := by
        rw [hq.geo.et, isAligned_iff] at ha
        have : c.ph vt % c.ppb = 0 := ha
        rwa [ph_mod_ppb] at this
      have hb : c.blk s.j.tail = vt / c.ppb % c.numBlocks := by
        unfold Cfg.blk; rw [Nat.shiftRight_eq_div_pow, hq.geo.et]; exact ph_div_ppb c vt
      rw [hb]
      obtain ⟨vt', h1, h2, h3, h4, h5⟩ := peekLoop_q hc hq hk hal hlt 8 (vt / c.ppb) (Nat.le_refl _)
        (Nat.div_le_div_right (Nat.le_of_lt hlt)) (fun k a b => by omega)
      exact ⟨vt', h2, h3, fun h' => absurd h' (by omega), fun _ => h1, fun h' => absurd hal h', fun _ _ => h4, h5⟩
    · rw [if_neg ha]
      have hal : vt % c.ppb ≠ 0 := by
        intro h'; apply ha; rw [hq.geo.et, isAligned_iff]; show c.ph vt % c.ppb = 0; rw [ph_mod_ppb]; exact h'
      exact ⟨vt, hq, rfl, fun h' => absurd h' (by omega), fun _ => hq.geo.et, fun _ => rfl, fun _ h' => absurd h' hal, Or.inl rfl⟩

theorem next_q (hc : c.Valid) {s : S} {vts vt vh vr vR vM vn : Nat} (hq : QInv c s vts vt vh vr vR vM vn) :
    ∃ vn', QInv c (nextRecoverable c s).2 vts vt vh vr vR vM vn' := by
  unfold nextRecoverable
  simp only
  by_cases hr : s.j.recovery = true
  · rw [if_neg (by simp [hr])]
    rcases hq.rst with hk | ⟨_, hrg⟩
    · exact (calm_not_rec hk hr).elim
    split
    · exact ⟨vn, hq⟩
    · split
      · refine ⟨vn, ⟨⟨hq.geo.ets, hq.geo.et, hq.geo.eh, hq.geo.uts, hq.geo.ut, hq.geo.uh, hq.geo.l1, hq.geo.l2, hq.geo.win, hq.geo.ep,
          hq.geo.alive, hq.geo.noub⟩, hq.geo.hfree⟩, Or.inr ⟨hr, hrg.congr rfl rfl rfl rfl⟩, hq.root, fun hk => (calm_not_rec hk hr).elim⟩
      · rename_i he
        have hne : vn ≠ vR := fun h => he (by rw [hrg.rn, hrg.rr, h])
        have hlt : vn < vR := by have := hrg.nR; omega
        have hnx := nextV_le hc hrg.un hrg.uR hlt
        have hl := lt_nextV c vn
        refine ⟨c.nextV vn, ⟨⟨hq.geo.ets, hq.geo.et, hq.geo.eh, hq.geo.uts, hq.geo.ut, hq.geo.uh, hq.geo.l1, hq.geo.l2, hq.geo.win, hq.geo.ep,
          hq.geo.alive, hq.geo.noub⟩, hq.geo.hfree⟩, Or.inr ⟨hr, ?_⟩, hq.root, fun hk => (calm_not_rec hk hr).elim⟩
        refine ⟨hrg.rr, hrg.uR, hrg.tR, hrg.bR, ?_, nextV_isU hc hrg.un, hnx, ?_, hrg.rm, hrg.bm⟩
        · show nextUpage c s.j.recoverNext = _
          rw [hrg.rn]; exact nextUpage_ph hc hrg.un
        · have h1 := Nat.div_le_div_right (c := c.ppb) hnx
          have h2 := Nat.div_le_div_right (c := c.ppb) (Nat.le_of_lt hl)
          have := hrg.nb; omega
  · rw [if_pos (by simp [hr])]; exact ⟨vn, hq⟩

theorem clear_q {s : S} {vts vt vh vr vR vM vn : Nat} (hq : QInv c s vts vt vh vr vR vM vn) (hk : s.j.recovery = false) :
    QInv c (journalClear c s) vts vh vh vr vR vM vn := by
  have hcalm := hq.rst.calm hk
  have g := hq.geo
  exact ⟨⟨⟨g.ets, g.eh, g.eh, g.uts, g.uh, g.uh, by have := g.l1; have := g.l2; omega, Nat.le_refl _, g.win, g.ep,
    g.alive, g.noub⟩, g.hfree⟩, Or.inl ⟨hcalm.nr, hcalm.rm, hcalm.ed, hcalm.bm⟩, Or.inl rfl, fun _ h => absurd rfl h⟩

theorem reset_q (hc : c.Valid) {s : S} {j : Journal} (hj : s.j = resetJournal c j) (hd : s.n.dead = false)
    (hu : s.n.ub = false) : QInv c s 0 0 0 0 0 0 0 := by
  have hC := hc.ppc_ge
  have u0 : c.isU 0 := by unfold Cfg.isU; rw [Nat.zero_mod]; omega
  have p0 : c.ph 0 = 0 := by unfold Cfg.ph; exact Nat.zero_mod _
  have hr : s.j.root = NONE := by rw [hj]; rfl
  refine ⟨⟨⟨?_, ?_, ?_, u0, u0, u0, Nat.le_refl _, Nat.le_refl _, ?_, ?_, hd, hu⟩, ?_⟩, Or.inl ⟨?_, ?_, ?_, ?_⟩, Or.inl hr, fun _ h => absurd hr h⟩
  · rw [hj, p0]; rfl
  · rw [hj, p0]; rfl
  · rw [hj, p0]; rfl
  · unfold Cfg.Win; have := hc.blocks_lo; omega
  · rw [hj, Nat.zero_div]; rfl
  · intro h; exact absurd (Nat.zero_mod _) h
  · rw [hj]; rfl
  · rw [hj]; rfl
  · rw [hj]; rfl
  · rw [hj]; rfl

/-- Every journal history keeps the invariant. -/
theorem JHist.inv (hc : c.Valid) {s : S} (h : JHist c s) : ∃ vts vt vh vr vR vM vn, QInv c s vts vt vh vr vR vM vn := by
  induction h with
  | fresh s h =>
    obtain ⟨h1, h2, h3 | h3⟩ := h
    · obtain ⟨buf, h3⟩ := h3
      exact ⟨_, _, _, _, _, _, _, reset_q hc h3 h1 h2⟩
    · obtain ⟨j, h3⟩ := h3
      obtain ⟨j0, hj⟩ := resume_tooBad h3
      exact ⟨_, _, _, _, _, _, _, reset_q hc hj h1 h2⟩
  | call s s' op r _ ha hs hr ih =>
    obtain ⟨vts, vt, vh, vr, vR, vM, vn, hq⟩ := ih
    cases op with
    | enqueue d m =>
      have ho := enqueue_out hc d m hq.geo hq.rst
      have hs : enqueue c d m s = (r, s') := hs
      rw [hs] at ho
      exact push_q hc hq ho hr
    | copy p m =>
      have ho := copy_out hc p m hq.geo hq.rst
      have hs : journalCopy c p m s = (r, s') := hs
      rw [hs] at ho
      exact push_q hc hq ho hr
    | dequeue => cases hs; obtain ⟨_, _, h, _⟩ := dequeue_q hc hq ha; exact ⟨_, _, _, _, _, _, _, h⟩
    | peek => cases hs; obtain ⟨_, h, _⟩ := peek_q hc hq ha; exact ⟨_, _, _, _, _, _, _, h⟩
    | clear => cases hs; exact ⟨_, _, _, _, _, _, _, clear_q hq ha⟩
    | next => cases hs; obtain ⟨_, h⟩ := next_q hc hq; exact ⟨_, _, _, _, _, _, _, h⟩

/-- A map in normal operation satisfies the journal's invariant. -/
theorem Inv0.q {s : S} {σ : Nat → Option Buf} {T : Gh c} {vts vt vh vr : Nat} (h : Inv0 c s σ T vts vt vh vr) :
    QInv c s vts vt vh vr 0 0 0 := by
  refine ⟨h.geo, Or.inl h.calm, h.tr.rt, fun _ hne => ?_⟩
  obtain ⟨v, e, _, _, _, hb⟩ := h.tr.live s.j.root ⟨hne, Or.inl rfl⟩
  exact hb

end Dhara

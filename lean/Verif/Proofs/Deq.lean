/-
peek, dequeue, garbage collection (dhara/journal.c:534-587, dhara/map.c:308-320, 508-530).
-/
import Verif.Proofs.Gc
namespace Dhara

variable {c : Cfg}

theorem Geo0.size_lt {s : S} {vts vt vh : Nat} (g : Geo0 c s vts vt vh) : vh < vts + c.pages := by
  have h := g.win
  unfold Cfg.Win at h
  have h1 := div_mod_range vh c.ppb
  have h2 := div_mod_range vts c.ppb
  have h3 := mod_ppb_lt c vh
  have h4 : (vh / c.ppb + 1) * c.ppb ≤ (vts / c.ppb + c.numBlocks) * c.ppb := Nat.mul_le_mul_right _ (by omega)
  rw [Nat.add_mul, Nat.add_mul] at h4
  unfold Cfg.pages
  omega

theorem Geo0.head_eq_tail {s : S} {vts vt vh : Nat} (g : Geo0 c s vts vt vh) : s.j.head = s.j.tail ↔ vh = vt := by
  rw [g.eh, g.et]
  constructor
  · intro h; exact g.win.inj (by have := g.l1; have := g.l2; omega) (Nat.le_refl _) g.l1 g.l2 h
  · intro h; rw [h]

/-- A state that differs only in the tail. -/
def tailS (s : S) (p : Nat) : S := { s with j := { s.j with tail := p } }

theorem mtOf_j {s s' : S} (h1 : s'.n = s.n) (h2 : s'.j.pageBuf = s.j.pageBuf) (h3 : s'.j.head = s.j.head)
    (h4 : s'.j.recoverMeta = s.j.recoverMeta) (h5 : s'.j.recoverRoot = s.j.recoverRoot) : mtOf c s' = mtOf c s := by
  funext p; unfold mtOf metaBuf
  rw [h1, h2, h3, h4, h5]

theorem Tr.congr {s s' : S} {root vt vr vh : Nat} {σ : Nat → Option Buf} (h : Tr c s root vt vr vh σ)
    (hm : mtOf c s' = mtOf c s) (hn : s'.n = s.n) : Tr c s' root vt vr vh σ := by
  refine ⟨h.rt, ?_, ?_, ?_, ?_⟩ <;> (try rw [hm]) <;> (try rw [hn])
  · exact h.ok
  · exact h.live
  · exact h.emp
  · exact h.holds

/-- The tail may be moved past pages that the tree does not use. -/
theorem Tr.tail {s : S} {root vt vt' vr vh : Nat} {σ : Nat → Option Buf} (h : Tr c s root vt vr vh σ)
    (hU : ∀ v, vt ≤ v → v < vh → Used (mtOf c s) root (c.ph v) → s.n.chip.bad (c.ph v / c.ppb) = false → c.isU v → vt' ≤ v) :
    Tr c s root vt' vr vh σ := by
  refine ⟨?_, h.ok, ?_, h.emp, h.holds⟩
  · rcases h.rt with h0 | ⟨a1, a2, a3, a4⟩
    · exact Or.inl h0
    · by_cases hn : root = NONE
      · exact Or.inl hn
      · refine Or.inr ⟨a1, ?_, a3, a4⟩
        have hu : Used (mtOf c s) root (c.ph vr) := ⟨hn, Or.inl a1.symm⟩
        obtain ⟨w, _, _, _, _, _, w6⟩ := h.lt hu
        exact hU vr a2 a3 hu w6 a4
  · intro x hx
    obtain ⟨v, a1, a2, a3, a4, a5, a6⟩ := h.lt hx
    subst a1
    exact ⟨v, rfl, hU v a2 a4 hx a6 a5, a3, a5, a6⟩

/-- The empty tree. -/
theorem Tr.empty {s : S} {vt vr vh : Nat} {σ : Nat → Option Buf} (h : ∀ t, t < NONE → σ t = none) :
    Tr c s NONE vt vr vh σ :=
  ⟨Or.inl rfl, Or.inl rfl, fun x hx => absurd rfl hx.1, fun t ht _ => h t ht,
   fun t q _ hd => by rw [dict_none rfl] at hd; cases hd⟩

structure PeekOk (c : Cfg) (s : S) (σ : Nat → Option Buf) (T : Gh c) (vts vt vh vr : Nat) (vt' : Nat) (s' : S) : Prop where
  inv : Inv0 c s' σ T vts vt' vh vr
  le : vt ≤ vt'
  le' : vt' ≤ vh
  n : s'.n = s.n
  cnt : s'.count = s.count
  root : vt' = vh → s'.j.root = NONE
  hd : s'.j.head = s.j.head
  dt : s'.j.dirty = s.j.dirty

theorem Inv0.data_range {s : S} {σ : Nat → Option Buf} {T : Gh c} {vts vt vh vr : Nat} (hI : Inv0 c s σ T vts vt vh vr) :
    vt = vh → s.j.root = NONE := by
  intro h
  rcases hI.tr.rt with h0 | ⟨_, a2, a3, _⟩
  · exact h0
  · omega

theorem Inv0.setTail {s : S} {σ : Nat → Option Buf} {T : Gh c} (hG : T.Ok) {vts vt vt' vh vr : Nat}
    (hI : Inv0 c s σ T vts vt vh vr) (h1 : vt ≤ vt') (h2 : vt' ≤ vh) (hu : c.isU vt')
    (hU : ∀ v, vt ≤ v → v < vh → Used (mtOf c s) s.j.root (c.ph v) → s.n.chip.bad (c.ph v / c.ppb) = false → c.isU v → vt' ≤ v) :
    Inv0 c (tailS s (c.ph vt')) σ T vts vt' vh vr :=
  ⟨⟨⟨hI.geo.ets, rfl, hI.geo.eh, hI.geo.uts, hu, hI.geo.uh, Nat.le_trans hI.geo.l1 h1, h2, hI.geo.win, hI.geo.ep, hI.geo.alive, hI.geo.noub⟩, hI.geo.hfree⟩,
   ⟨hI.calm.nr, hI.calm.rm, hI.calm.ed, hI.calm.bm⟩, (hI.tr.tail hU).congr (mtOf_j rfl rfl rfl rfl rfl) rfl, hI.stab,
   hG.tail hI rfl rfl (mtOf_j rfl rfl rfl rfl rfl) (Or.inl rfl) (Or.inl rfl) h1 h2 (fun x hx => by
    obtain ⟨v, a1, a2, a3, a4, a5, a6⟩ := hI.tr.lt hx
    subst a1
    exact ⟨v, rfl, a5, a3, Or.inl (hU v a2 a4 hx a6 a5)⟩)⟩

theorem peekLoop_inv (hc : c.Valid) {s : S} {σ : Nat → Option Buf} {T : Gh c} (hG : T.Ok) {vts vt vh vr : Nat}
    (hI : Inv0 c s σ T vts vt vh vr) (hal : vt % c.ppb = 0) (hlt : vt < vh) : ∀ i b, vt / c.ppb ≤ b → b ≤ vh / c.ppb →
    (∀ k, vt / c.ppb ≤ k → k < b → s.n.chip.bad (k % c.numBlocks) = true) →
    ∃ vt' s', peekLoop c i (b % c.numBlocks) s = (c.ph vt', s') ∧ PeekOk c s σ T vts vt vh vr vt' s' := by
  intro i
  have hl1 := hI.geo.l1
  induction i with
  | zero =>
    intro b _ _ _
    exact ⟨vt, s, by unfold peekLoop; rw [hI.geo.et], hI, Nat.le_refl _, by omega, rfl, rfl, hI.data_range, rfl, rfl⟩
  | succ i ih =>
    intro b h1 h2 h3
    unfold peekLoop
    by_cases hcond : b % c.numBlocks = c.blk s.j.head ∨ ¬ (nandIsBad s.n (b % c.numBlocks) = true)
    · rw [if_pos hcond]
      have hbvt : vt ≤ b * c.ppb := by
        have := div_mod_range vt c.ppb
        have := Nat.mul_le_mul_right c.ppb h1
        omega
      have hbvh : b * c.ppb ≤ vh := by
        have := div_mod_range vh c.ppb
        have := Nat.mul_le_mul_right c.ppb h2
        omega
      have hU : ∀ v, vt ≤ v → v < vh → Used (mtOf c s) s.j.root (c.ph v) → s.n.chip.bad (c.ph v / c.ppb) = false → c.isU v → b * c.ppb ≤ v := by
        intro v a1 a2 _ a4 _
        apply Classical.byContradiction; intro hn
        have hd : v / c.ppb < b := (Nat.div_lt_iff_lt_mul (ppb_pos c)).2 (by omega)
        rw [ph_div_ppb] at a4
        rw [h3 _ (Nat.div_le_div_right a1) hd] at a4; cases a4
      have hI' := hI.setTail hG (vt' := b * c.ppb) hbvt hbvh (isU_of_aligned hc (Nat.mul_mod_left _ _)) hU
      have e : (b % c.numBlocks) <<< c.log2Ppb = c.ph (b * c.ppb) := by
        rw [Nat.shiftLeft_eq]; exact mul_ppb_ph c b
      refine ⟨b * c.ppb, tailS s (c.ph (b * c.ppb)), ?_, hI', hbvt, hbvh, rfl, rfl, hI'.data_range, rfl, rfl⟩
      simp only [e]
      by_cases hh : c.ph (b * c.ppb) = s.j.head
      · rw [if_pos hh]
        have hv : b * c.ppb = vh := by
          rw [hI.geo.eh] at hh
          exact hI.geo.win.inj (by omega) hbvh (by omega) (Nat.le_refl _) hh
        have hr : s.j.root = NONE := hI'.data_range hv
        simp only [tailS]
        rw [← hr]
      · rw [if_neg hh]; rfl
    · rw [if_neg hcond]
      have hb : s.n.chip.bad (b % c.numBlocks) = true := by
        unfold nandIsBad at hcond
        cases h : s.n.chip.bad (b % c.numBlocks) with
        | true => rfl
        | false => exact absurd (Or.inr (by rw [h]; simp)) hcond
      have hne : b ≠ vh / c.ppb := by
        intro he
        apply hcond; left
        unfold Cfg.blk; rw [Nat.shiftRight_eq_div_pow, hI.geo.eh]
        show _ = c.ph vh / c.ppb
        rw [ph_div_ppb, he]
      rw [nextBlock_ph hc b]
      exact ih (b + 1) (by omega) (by omega) (fun k a1 a2 => by
        by_cases hk : k = b
        · rw [hk]; exact hb
        · exact h3 k a1 (by omega))

theorem peek_inv (hc : c.Valid) {s : S} {σ : Nat → Option Buf} {T : Gh c} (hG : T.Ok) {vts vt vh vr : Nat}
    (hI : Inv0 c s σ T vts vt vh vr) :
    (peek c s = (NONE, s) ∧ vt = vh) ∨
    ∃ vt' s', peek c s = (c.ph vt', s') ∧ vt < vh ∧ PeekOk c s σ T vts vt vh vr vt' s' := by
  unfold peek
  by_cases h : s.j.head = s.j.tail
  · rw [if_pos h]; exact Or.inl ⟨rfl, (hI.geo.head_eq_tail.1 h).symm⟩
  · rw [if_neg h]
    have hlt : vt < vh := by
      have := hI.geo.l2
      have : vh ≠ vt := fun e => h (hI.geo.head_eq_tail.2 e)
      omega
    right
    by_cases ha : isAligned s.j.tail c.log2Ppb = true
    · rw [if_pos ha]
      have hal : vt % c.ppb = 0 := by
        rw [isAligned_iff, hI.geo.et] at ha
        rw [← ph_mod_ppb]; exact ha
      have e : c.blk s.j.tail = vt / c.ppb % c.numBlocks := by
        unfold Cfg.blk; rw [Nat.shiftRight_eq_div_pow, hI.geo.et]; exact ph_div_ppb c vt
      rw [e]
      obtain ⟨vt', s', h1, h2⟩ := peekLoop_inv hc hG hI hal hlt 8 (vt / c.ppb) (Nat.le_refl _)
        (Nat.div_le_div_right hI.geo.l2) (fun k a b => by omega)
      exact ⟨vt', s', h1, hlt, h2⟩
    · rw [if_neg ha]
      exact ⟨vt, s, by rw [hI.geo.et], hlt, hI, Nat.le_refl _, by omega, rfl, rfl, hI.data_range, rfl, rfl⟩

/-! ### dequeue -/

theorem off_eq (hc : c.Valid) {v w : Nat} (h1 : w ≤ v) (h2 : v < w + c.pages) :
    wrap (sub32 ((c.ph v + c.pages) % 2 ^ 32) (c.ph w)) c.pages = v - w := by
  have hp := hc.pages_hi
  have a1 := ph_lt hc v
  have a2 := ph_lt hc w
  have e32 : (2:Nat)^32 = 4294967296 := by decide
  have e31 : (2:Nat)^31 = 2147483648 := by decide
  have b1 : (c.ph v + c.pages) % 2 ^ 32 = c.ph v + c.pages := Nat.mod_eq_of_lt (by omega)
  have b2 : c.ph w % 2 ^ 32 = c.ph w := Nat.mod_eq_of_lt (by omega)
  have b3 : sub32 (c.ph v + c.pages) (c.ph w) = c.ph v + c.pages - c.ph w := by
    unfold sub32; rw [b2, if_pos (by omega), Nat.mod_eq_of_lt (by omega)]
  rw [b1, b3]
  -- v = v/pages*pages + ph v
  have d1 := div_mod_range v c.pages
  have d2 := div_mod_range w c.pages
  have f1 : v % c.pages = c.ph v := rfl
  have f2 : w % c.pages = c.ph w := rfl
  rw [f1] at d1; rw [f2] at d2
  have hq : v / c.pages = w / c.pages ∨ v / c.pages = w / c.pages + 1 := by
    have g1 := Nat.div_le_div_right (c := c.pages) h1
    have g2 : v / c.pages < w / c.pages + 2 := by
      rw [Nat.div_lt_iff_lt_mul hc.pages_pos, Nat.add_mul]; omega
    omega
  unfold wrap
  rcases hq with hq | hq
  · rw [hq] at d1
    rw [if_pos (by omega)]; omega
  · rw [hq, Nat.add_mul] at d1
    split <;> omega

/-- The state after the tail has moved to `vt'` in dequeue; `ts`: was the synchronised tail moved along. -/
theorem dequeue_inv (hc : c.Valid) {s : S} {σ : Nat → Option Buf} {T : Gh c} (hG : T.Ok) {vts vt vh vr : Nat}
    (hI : Inv0 c s σ T vts vt vh vr) (hnd : vt < vh → ¬ Data (mtOf c s) s.j.root (c.ph vt))
    (hdt : (∀ t, t < NONE → σ t = none) → s.j.dirty = true) :
    ∃ vts' vt', Inv0 c (dequeue c s) σ T vts' vt' vh vr ∧ (dequeue c s).count = s.count ∧
      (vt < vh → vt' = c.nextV vt ∧ (s.j.dirty = false → vts' = vt') ∧ (s.j.dirty = true → vts' = vts)) ∧
      (vt = vh → vt' = vt ∧ vts' = vts) := by
  have hl1 := hI.geo.l1
  have hl2 := hI.geo.l2
  unfold dequeue
  by_cases h : s.j.head = s.j.tail
  · rw [if_pos h]
    have := hI.geo.head_eq_tail.1 h
    exact ⟨vts, vt, hI, rfl, fun h => by omega, fun _ => ⟨rfl, rfl⟩⟩
  · rw [if_neg h]
    have hlt : vt < vh := by
      have : vh ≠ vt := fun e => h (hI.geo.head_eq_tail.2 e)
      omega
    have hnx := nextV_le hc hI.geo.ut hI.geo.uh hlt
    have hnl := lt_nextV c vt
    have hnu := nextV_isU hc hI.geo.ut
    have hsz := hI.geo.size_lt
    have ht : nextUpage c s.j.tail = c.ph (c.nextV vt) := by rw [hI.geo.et]; exact nextUpage_ph hc hI.geo.ut
    have hnd := hnd hlt
    -- the new synchronised tail
    obtain ⟨vts', hts1, hts2, hts3, hts4, hts5⟩ : ∃ vts', vts ≤ vts' ∧ vts' ≤ c.nextV vt ∧ c.isU vts' ∧
        ((s.j.dirty = false → vts' = c.nextV vt) ∧ (s.j.dirty = true → vts' = vts)) ∧
        (if ¬ (s.j.dirty = true ∨ s.j.recovery = true) then c.ph (c.nextV vt) else s.j.tailSync) = c.ph vts' := by
      by_cases hd : s.j.dirty = true
      · exact ⟨vts, Nat.le_refl _, by omega, hI.geo.uts, ⟨fun h => (by rw [hd] at h; cases h), fun _ => rfl⟩,
          by rw [if_neg (by simp [hd])]; exact hI.geo.ets⟩
      · refine ⟨c.nextV vt, by omega, Nat.le_refl _, hnu, ⟨fun _ => rfl, fun h => absurd h hd⟩, ?_⟩
        rw [if_pos (by simp [hd, hI.calm.nr])]
    have hrest : ∀ root', (root' = s.j.root ∨ (root' = NONE ∧ vr < c.nextV vt ∧ (∀ t, t < NONE → σ t = none) ∧ s.j.dirty = true)) → Tr c s root' (c.nextV vt) vr vh σ →
        (∀ x, Used (mtOf c s) s.j.root x → ∃ v, x = c.ph v ∧ c.isU v ∧ v ≤ vr ∧ (c.nextV vt ≤ v ∨ v = vr)) →
        Inv0 c { s with j := { s.j with tail := c.ph (c.nextV vt), tailSync := c.ph vts', root := root' } } σ T vts' (c.nextV vt) vh vr := by
      intro root' hr hT hUs
      refine ⟨⟨⟨rfl, rfl, hI.geo.eh, hts3, hnu, hI.geo.uh, hts2, hnx, hI.geo.win.mono hts1 (Nat.le_refl _), hI.geo.ep,
        hI.geo.alive, hI.geo.noub⟩, hI.geo.hfree⟩, ⟨hI.calm.nr, hI.calm.rm, hI.calm.ed, hI.calm.bm⟩,
        hT.congr (mtOf_j rfl rfl rfl rfl rfl) rfl, ?_, hG.tail hI rfl rfl (mtOf_j rfl rfl rfl rfl rfl) hr ?_ (by omega) hnx hUs⟩
      rotate_left
      · rcases hd : s.j.dirty with _ | _
        · exact Or.inr ⟨rfl, hts4.1 hd⟩
        · exact Or.inl (hts4.2 hd)
      rcases hI.stab with h' | h'
      · refine Or.inl fun a b => ?_
        rcases hr with hr | hr
        · exact h' a (by rw [← hr]; exact b)
        · exact absurd hr.1 b
      · exact Or.inr h'
    -- the result state
    have hres : ∀ (b : Bool), (b = true ↔ wrap (sub32 ((s.j.head + c.pages) % 2 ^ 32) s.j.root) c.pages >
          wrap (sub32 ((s.j.head + c.pages) % 2 ^ 32) (c.ph (c.nextV vt))) c.pages) →
        dequeue c s = { s with j := { s.j with tail := c.ph (c.nextV vt), tailSync := c.ph vts', root := if b = true then NONE else s.j.root } } := by
      intro b hb
      unfold dequeue
      rw [if_neg h]
      simp only [ht]
      by_cases hd : ¬ (s.j.dirty = true ∨ s.j.recovery = true)
      · rw [if_pos hd] at hts5 ⊢
        simp only
        by_cases hb' : b = true
        · rw [if_pos (hb.1 hb'), if_pos hb', hts5]
        · rw [if_neg (fun x => hb' (hb.2 x)), if_neg hb', hts5]
      · rw [if_neg hd] at hts5 ⊢
        simp only
        by_cases hb' : b = true
        · rw [if_pos (hb.1 hb'), if_pos hb', hts5]
        · rw [if_neg (fun x => hb' (hb.2 x)), if_neg hb', hts5]
    obtain ⟨b, hb⟩ : ∃ b : Bool, (b = true ↔ wrap (sub32 ((s.j.head + c.pages) % 2 ^ 32) s.j.root) c.pages >
          wrap (sub32 ((s.j.head + c.pages) % 2 ^ 32) (c.ph (c.nextV vt))) c.pages) :=
      ⟨decide (wrap (sub32 ((s.j.head + c.pages) % 2 ^ 32) s.j.root) c.pages >
          wrap (sub32 ((s.j.head + c.pages) % 2 ^ 32) (c.ph (c.nextV vt))) c.pages), decide_eq_true_iff⟩
    have hdq := hres b hb
    have hgoal : Inv0 c (dequeue c s) σ T vts' (c.nextV vt) vh vr := by
      rw [hdq]
      have hUs : ∀ x, Used (mtOf c s) s.j.root x → ∃ v, x = c.ph v ∧ c.isU v ∧ v ≤ vr ∧ (c.nextV vt ≤ v ∨ v = vr) := by
        intro x hx
        obtain ⟨v, b1, b2, b3, b4, b5, b6⟩ := hI.tr.lt hx
        refine ⟨v, b1, b5, b3, ?_⟩
        by_cases hv : v = vr
        · exact Or.inr hv
        · refine Or.inl (nextV_le hc hI.geo.ut b5 ?_)
          have : v ≠ vt := by
            intro hv'
            subst hv'
            rcases hx.2 with h1 | ⟨rx, h1, h2, h3⟩
            · rcases hI.tr.rt with h0 | ⟨a1, a2, a3, a4⟩
              · exact hx.1 h0
              · rw [h1, a1] at b1
                exact hv (hI.geo.win.inj (by omega) (by omega) (by omega) (by omega) b1.symm)
            · exact hnd ⟨rx, by rw [← b1]; exact h1, h2, by rw [← b1]; exact h3⟩
          omega
      by_cases hroot : s.j.root = NONE
      · refine hrest _ ?_ ?_ hUs
        · split
          · exact Or.inl hroot.symm
          · exact Or.inl rfl
        · have : (if b = true then NONE else s.j.root) = NONE := by
            split
            · rfl
            · exact hroot
          rw [this]
          exact Tr.empty fun t h' => hI.tr.emp t h' (dict_none hroot t)
      · rcases hI.tr.rt with h0 | ⟨a1, a2, a3, a4⟩
        · exact absurd h0 hroot
        have o1 : wrap (sub32 ((s.j.head + c.pages) % 2 ^ 32) s.j.root) c.pages = vh - vr := by
          rw [hI.geo.eh, a1]; exact off_eq hc (by omega) (by omega)
        have o2 : wrap (sub32 ((s.j.head + c.pages) % 2 ^ 32) (c.ph (c.nextV vt))) c.pages = vh - c.nextV vt := by
          rw [hI.geo.eh]; exact off_eq hc hnx (by omega)
        rw [o1, o2] at hb
        by_cases hvr : vr = vt
        · rw [if_pos (hb.2 (by omega))]
          suffices hem : ∀ t, t < NONE → σ t = none from
            hrest _ (Or.inr ⟨rfl, by omega, hem, hdt hem⟩) (Tr.empty hem) hUs
          intro t h'
          -- the root is a filler page
          rcases hI.tr.ok with h1 | ⟨r, h1, h2⟩ | h1
          · exact absurd h1 hroot
          · exact hI.tr.emp t h' (dict_filler h1 h2 t)
          · exfalso
            obtain ⟨r, hr', hid⟩ := h1.rec_of
            apply hnd
            rw [← hvr, ← a1]
            refine ⟨r, hr', hid, ?_⟩
            rw [dict_eq hroot]
            have := tfind_stay (t := r.id) hr' hid (d := 0) (i := 32) (by omega) (by omega) (fun _ _ _ => rfl)
            rw [this]; rfl
        · have hle := nextV_le hc hI.geo.ut a4 (by omega)
          rw [if_neg (fun h => by have := hb.1 h; omega)]
          refine hrest _ (Or.inl rfl) (hI.tr.tail ?_) hUs
          intro v b1 b2 b3 _ b5
          apply nextV_le hc hI.geo.ut b5
          have : v ≠ vt := by
            intro hv
            subst hv
            rcases b3.2 with h1 | ⟨rx, h1, h2, h3⟩
            · rw [a1] at h1
              exact hvr (hI.geo.win.inj (by omega) (by omega) (by omega) (by omega) h1.symm)
            · exact hnd ⟨rx, h1, h2, h3⟩
          omega
    have hcnt : (dequeue c s).count = s.count := by rw [hdq]
    refine ⟨vts', c.nextV vt, ?_, ?_, fun _ => ⟨rfl, hts4⟩, fun h => by omega⟩
    · have := hgoal; unfold dequeue at this; rw [if_neg h] at this; exact this
    · have := hcnt; unfold dequeue at this; rw [if_neg h] at this

/-! ### Garbage collection -/

/-- The map is in normal operation and holds `σ`; no program fails before `T`, or the root's metadata is
where recovery needs it. -/
def Calm0 (c : Cfg) (s : S) (σ : Nat → Option Buf) (T : Gh c) : Prop := ∃ vts vt vh vr, Inv0 c s σ T vts vt vh vr

/-- Outcome of an internal operation that must not change contents. -/
inductive Same (c : Cfg) (s : S) (σ : Nat → Option Buf) (T : Gh c) : Except Err Unit × S → Prop
  | ok (s' : S) (h : Calm0 c s' σ T) (hcnt : s'.count = s.count) : Same c s σ T (.ok (), s')
  | stop (s' : S) (e : Err) (hub : s'.n.ub = false)
      (hcr : e = .powerLoss → T.X s') (hu : T.U σ e s') : Same c s σ T (.error e, s')

theorem Same.mono {s s0 : S} {σ : Nat → Option Buf} {T : Gh c} {r : Except Err Unit × S}
    (h : Same c s σ T r) (hs : s.count = s0.count) : Same c s0 σ T r := by
  cases h with
  | ok s' h hc' => exact .ok s' h (hc'.trans hs)
  | stop s' e hu hx hU => exact .stop s' e hu hx hU

theorem Done.same {s : S} {σ : Nat → Option Buf} {T : Gh c} {vt k : Nat} {r : Except Err Unit × S}
    (h : Done c s σ T vt k r) : Same c s σ T r := by
  cases h with
  | ok s' _ _ _ h hc' _ => exact .ok s' ⟨_, _, _, _, h⟩ hc'
  | stop s' e hu hx hU => exact .stop s' e hu hx hU

theorem Calm0.noub {s : S} {σ : Nat → Option Buf} {T : Gh c} (h : Calm0 c s σ T) : s.n.ub = false := by
  obtain ⟨_, _, _, _, h⟩ := h; exact h.geo.noub

theorem qlen_eq {s : S} {vts vt vh : Nat} (hc : c.Valid) (g : Geo0 c s vts vt vh) : qlen c s = vh - vt := by
  have h1 := g.size_lt
  have h2 := g.l1
  have h3 := g.l2
  have d1 := div_mod_range vh c.pages
  have d2 := div_mod_range vt c.pages
  have l1 := ph_lt hc vh
  have l2 := ph_lt hc vt
  have f1 : vh % c.pages = c.ph vh := rfl
  have f2 : vt % c.pages = c.ph vt := rfl
  rw [f1] at d1; rw [f2] at d2
  have hq : vh / c.pages = vt / c.pages ∨ vh / c.pages = vt / c.pages + 1 := by
    have g1 := Nat.div_le_div_right (c := c.pages) h3
    have g2 : vh / c.pages < vt / c.pages + 2 := by
      rw [Nat.div_lt_iff_lt_mul hc.pages_pos, Nat.add_mul]; omega
    omega
  unfold qlen
  rw [g.eh, g.et]
  rcases hq with hq | hq
  · rw [hq] at d1
    rw [show c.ph vh + c.pages - c.ph vt = (vh - vt) + c.pages by omega, Nat.add_mod_right, Nat.mod_eq_of_lt (by omega)]
  · rw [hq, Nat.add_mul] at d1
    rw [show c.ph vh + c.pages - c.ph vt = vh - vt by omega, Nat.mod_eq_of_lt (by omega)]

theorem qlen_lt (hc : c.Valid) (s : S) : qlen c s < c.pages := Nat.mod_lt _ hc.pages_pos

/-- A round of sync has made progress. -/
def SyncLt (c : Cfg) (s s' : S) : Prop := s'.j.dirty = false ∨ smeas c s' < smeas c s

theorem SyncLt.good (hc : c.Valid) {s s' : S} (h : goodCount c s'.n < goodCount c s.n) : SyncLt c s s' := by
  right
  unfold smeas
  have h1 : (goodCount c s'.n + 1) * ((c.ppc + 1) * (c.pages + 1)) ≤ goodCount c s.n * ((c.ppc + 1) * (c.pages + 1)) :=
    Nat.mul_le_mul_right _ h
  rw [Nat.add_mul (goodCount c s'.n) 1, Nat.one_mul] at h1
  have h2 : (c.ppc - s'.j.head % c.ppc) * (c.pages + 1) ≤ c.ppc * (c.pages + 1) := Nat.mul_le_mul_right _ (Nat.sub_le _ _)
  have h3 := qlen_lt hc s'
  have h4 := Nat.add_mul c.ppc 1 (c.pages + 1)
  omega

theorem SyncLt.adv (hc : c.Valid) {s s' s0 : S} (h : Adv c s s0) (hE : Evo c s.n s'.n) (hd : s'.j.dirty = s0.j.dirty)
    (hh : s'.j.head = s0.j.head) : SyncLt c s s' := by
  rcases h with h | h
  · exact Or.inl (hd.trans h)
  · right
    have hg := goodCount_mono hE
    unfold smeas
    have h1 : goodCount c s'.n * ((c.ppc + 1) * (c.pages + 1)) ≤ goodCount c s.n * ((c.ppc + 1) * (c.pages + 1)) :=
      Nat.mul_le_mul_right _ hg
    have h2 := Nat.mod_lt s'.j.head (ppc_pos c)
    have h3 := qlen_lt hc s'
    rw [hh, h] at h2 ⊢
    have h4 : (c.ppc - s.j.head % c.ppc) = (c.ppc - (s.j.head % c.ppc + 1)) + 1 := by omega
    have h5 := Nat.add_mul (c.ppc - (s.j.head % c.ppc + 1)) 1 (c.pages + 1)
    rw [h4]
    omega

theorem SyncLt.qlen {s s' : S} (h : s'.n = s.n) (hh : s'.j.head = s.j.head) (hq : Dhara.qlen c s' < Dhara.qlen c s) : SyncLt c s s' := by
  right
  unfold smeas
  rw [h, hh]
  omega

theorem dequeue_head (s : S) : (dequeue c s).j.head = s.j.head := by
  unfold dequeue
  split
  · rfl
  · simp only
    split <;> split <;> rfl

theorem dequeue_dirty (s : S) : (dequeue c s).j.dirty = s.j.dirty := by
  unfold dequeue
  split
  · rfl
  · simp only
    split <;> split <;> rfl

/-- peek, raw_gc, dequeue: one round of collection. -/
theorem round_inv (hc : c.Valid) {s : S} {σ : Nat → Option Buf} {T : Gh c} (hG : T.Ok) (hI : Calm0 c s σ T)
    (hdt : (∀ t, t < NONE → σ t = none) → s.j.dirty = true) (hW : T.W σ (s.count % 2 ^ 32) s.n) :
    (peek c s = (NONE, s)) ∨
    (∃ p s1, peek c s = (p, s1) ∧ p ≠ NONE ∧ s1.n = s.n ∧ ((rawGc c p s1).2.n.time ≤ T.t →
      (∃ s2, rawGc c p s1 = (.ok (), s2) ∧ Calm0 c (dequeue c s2) σ T ∧ (dequeue c s2).count = s.count ∧
        SyncLt c s (dequeue c s2)) ∨
      (∃ e s2, rawGc c p s1 = (.error e, s2) ∧ Same c s σ T (tryRecover c e s2) ∧
        ∀ s3, tryRecover c e s2 = (.ok (), s3) → goodCount c s3.n < goodCount c s.n))) := by
  obtain ⟨vts, vt, vh, vr, hI⟩ := hI
  rcases peek_inv hc hG hI with ⟨h, _⟩ | ⟨vt', s1, h, hlt, hp⟩
  · exact Or.inl h
  · refine Or.inr ⟨_, s1, h, ph_ne_none hc _, hp.n, fun hT => ?_⟩
    have hl1 := hI.geo.l1
    have ho : Out0 c s1 σ σ T vt' (fun s' => ¬ Data (mtOf c s') s'.j.root (c.ph vt') ∧ (Adv c s1 s' ∨ s' = s1)) (rawGc c (c.ph vt') s1) := by
      by_cases hv : vt' = vh
      · rcases rawGc_shape hc hp.inv.tr hp.inv.rmok rfl hp.inv.geo.ut with ⟨e, h, he⟩ | ⟨h, hd⟩ | ⟨mt, h, h3, h4, h5⟩
        · rw [h]; exact .stop s1 e (by rw [he]; decide) hp.inv.geo.noub
            (by rw [he]; intro h; cases h) (hG.usoft hp.inv (Soft.refl hp.inv.geo.toGeo0) (Evo.refl _) (by rw [he]; decide) (by rw [he]; decide))
        · rw [h]; exact .ok s1 _ _ _ hp.inv rfl ⟨hd, Or.inr rfl⟩
        · rw [dict_none (hp.root hv)] at h4; cases h4
      · exact rawGc_inv0 hc hG hp.inv (by have := hp.le; omega) (by have := hp.le'; omega) hp.inv.geo.ut hT (by rw [hp.cnt, hp.n]; exact hW)
    have hev := rawGc_evo (c := c) (c.ph vt') s1
    rw [hp.n] at hev
    rcases hr : rawGc c (c.ph vt') s1 with ⟨e | u, s2⟩
    · rw [hr] at ho hev
      have hd := tryRecover_inv hc hG ho (by rw [hp.cnt]; exact hG.wmono hW hev)
      exact Or.inr ⟨e, s2, rfl, hd.same.mono hp.cnt, fun s3 h3 => Nat.lt_of_lt_of_le (hd.good h3) (goodCount_mono hev)⟩
    · rw [hr] at ho hev
      cases ho with
      | ok _ vts2 vh2 vr2 h2 hcnt hQ =>
        obtain ⟨a, b, h3, h4, h5, h6⟩ := dequeue_inv hc hG h2 (fun _ => hQ.1) (fun hem => by
          rcases rawGc_shape hc hp.inv.tr hp.inv.rmok rfl hp.inv.geo.ut with ⟨e, h, he⟩ | ⟨h, hd⟩ | ⟨mt, h, h3, h4, h5⟩
          · rw [hr] at h; cases h
          · rw [hr] at h; cases h; rw [hp.dt]; exact hdt hem
          · obtain ⟨b, _, _, h6⟩ := hp.inv.tr.holds _ _ h3 h4
            rw [hem _ h3] at h6; cases h6)
        refine Or.inl ⟨s2, rfl, ⟨_, _, _, _, h3⟩, h4.trans (hcnt.trans hp.cnt), ?_⟩
        rcases hQ.2 with hA | hA
        · refine SyncLt.adv hc (s0 := s2) ?_ (by rw [dequeue_n]; exact hev) (dequeue_dirty _) (dequeue_head _)
          unfold Adv at hA ⊢
          rw [← hp.hd]; exact hA
        · subst hA
          refine SyncLt.qlen (by rw [dequeue_n]; exact hp.n) (by rw [dequeue_head]; exact hp.hd) ?_
          have q0 := qlen_eq hc hI.geo.toGeo0
          have q1 := qlen_eq hc h3.geo.toGeo0
          have q2 := qlen_eq hc h2.geo.toGeo0
          have q3 := qlen_eq hc hp.inv.geo.toGeo0
          have := h2.geo.l2
          have := hp.le
          have := hp.le'
          rcases Nat.lt_or_ge vt' vh2 with hlt' | hge'
          · have := (h5 hlt').1
            have := lt_nextV c vt'
            omega
          · have := (h6 (by omega)).1
            omega

theorem mapGcLoop_inv (hc : c.Valid) {σ : Nat → Option Buf} {T : Gh c} (hG : T.Ok) (hz : ¬ ∀ t, t < NONE → σ t = none) : ∀ f s, Calm0 c s σ T →
    T.W σ (s.count % 2 ^ 32) s.n → (mapGcLoop c f s).2.n.time ≤ T.t →
    ((∀ σ s, T.U σ .diverge s) ∨ goodCount c s.n + 1 ≤ f) → Same c s σ T (mapGcLoop c f s) := by
  intro f
  induction f with
  | zero =>
    intro s h _ _ hF
    exact .stop s .diverge h.noub (by intro h; cases h) (hF.elim (fun h => h _ _) (fun h => absurd h (by omega)))
  | succ f ih =>
    intro s hI hW hT hF
    unfold mapGcLoop at hT ⊢
    rcases round_inv hc hG hI (fun h => absurd h hz) hW with h | ⟨p, s1, h, hne, hn, hr⟩
    · simp only [h, if_true]
      exact .ok s hI rfl
    · simp only [h] at hT ⊢
      rw [if_neg hne] at hT ⊢
      have hT1 : (rawGc c p s1).2.n.time ≤ T.t := by
        rcases hrg : rawGc c p s1 with ⟨e | u, s2⟩
        · rw [hrg] at hT
          simp only at hT ⊢
          rcases htr : tryRecover c e s2 with ⟨e' | u, s3⟩
          · rw [htr] at hT
            have := (Evo.of_eq (tryRecover_evo (c := c) e) htr :).time
            simp only at hT; omega
          · rw [htr] at hT
            have h1 := (Evo.of_eq (tryRecover_evo (c := c) e) htr :).time
            have h2 := (mapGcLoop_evo (c := c) f s3).time
            simp only at hT; omega
        · rw [hrg] at hT
          simp only [dequeue_n] at hT; exact hT
      rcases hr hT1 with ⟨s2, h1, h2, h3, _⟩ | ⟨e, s2, h1, h2, hgd⟩
      · rw [h1]; exact .ok _ h2 h3
      · rw [h1] at hT ⊢
        simp only at hT ⊢
        rcases htr : tryRecover c e s2 with ⟨e' | u, s3⟩
        · rw [htr] at h2
          cases h2 with
          | stop _ _ hub hx hU => exact .stop _ _ hub hx hU
        · rw [htr] at h2 hT
          cases h2 with
          | ok _ h4 h5 =>
            refine (ih s3 h4 (by
              rw [h5]
              refine hG.wmono hW ?_
              have e1 := rawGc_evo (c := c) p s1
              rw [h1, hn] at e1
              exact e1.trans (Evo.of_eq (tryRecover_evo (c := c) e) htr :)) hT (hF.imp id fun hF => by have := hgd s3 htr; omega)).mono h5

theorem goodCount_le (n : Nand) : goodCount c n ≤ c.numBlocks := by
  unfold goodCount
  exact Nat.le_trans (List.length_filter_le _ _) (by rw [List.length_range]; exact Nat.le_refl _)

theorem fuel_gc {T : Gh c} (hG : T.Ok) (n : Nand) : (∀ σ s, T.U σ .diverge s) ∨ goodCount c n + 1 ≤ c.fuel := by
  rcases hG.udiv with h | h
  · exact Or.inl h
  · right
    have h1 := goodCount_le (c := c) n
    unfold fuelBound at h
    have h2 : (c.numBlocks + 1) * 1 ≤ (c.numBlocks + 1) * ((c.ppc + 1) * (c.pages + 1)) :=
      Nat.mul_le_mul_left _ (Nat.mul_pos (by omega) (by omega))
    omega

theorem mapGc_inv (hc : c.Valid) {σ : Nat → Option Buf} {T : Gh c} (hG : T.Ok) {s : S} (hI : Calm0 c s σ T)
    (hz : (∀ t, t < NONE → σ t = none) → s.count = 0) (hW : T.W σ (s.count % 2 ^ 32) s.n) (hT : (mapGc c s).2.n.time ≤ T.t) : Same c s σ T (mapGc c s) := by
  unfold mapGc at hT ⊢
  split at hT
  · rename_i h; rw [if_pos h]; exact .ok s hI rfl
  · rename_i h; rw [if_neg h]; exact mapGcLoop_inv hc hG (fun hx => h (hz hx)) _ _ hI hW hT (fuel_gc hG _)

theorem gcTimes_inv (hc : c.Valid) {σ : Nat → Option Buf} {T : Gh c} (hG : T.Ok) : ∀ k s, Calm0 c s σ T → ((∀ t, t < NONE → σ t = none) → s.count = 0) →
    T.W σ (s.count % 2 ^ 32) s.n → (gcTimes c k s).2.n.time ≤ T.t → Same c s σ T (gcTimes c k s) := by
  intro k
  induction k with
  | zero => intro s h _ _ _; exact .ok s h rfl
  | succ k ih =>
    intro s hI hz hW hT
    unfold gcTimes at hT ⊢
    have key := mapGc_inv hc hG hI hz hW
    rcases hg : mapGc c s with ⟨e | u, s1⟩
    · rw [hg] at key hT
      cases key hT with
      | stop _ _ hub hx hU => exact .stop _ _ hub hx hU
    · rw [hg] at key hT
      have ht := (gcTimes_evo (c := c) k s1).time
      cases key (by simp only at hT ⊢; omega) with
      | ok _ h1 h2 => exact (ih s1 h1 (fun h => by rw [h2]; exact hz h) (by rw [h2]; exact hG.wmono hW (Evo.of_eq (mapGc_evo (c := c)) hg :)) hT).mono h2

theorem autoGc_inv (hc : c.Valid) {σ : Nat → Option Buf} {T : Gh c} (hG : T.Ok) {s : S} (hI : Calm0 c s σ T)
    (hz : (∀ t, t < NONE → σ t = none) → s.count = 0) (hW : T.W σ (s.count % 2 ^ 32) s.n) (hT : (autoGc c s).2.n.time ≤ T.t) : Same c s σ T (autoGc c s) := by
  unfold autoGc at hT ⊢
  split at hT
  · rename_i h; rw [if_pos h]; exact .ok s hI rfl
  · rename_i h; rw [if_neg h]; exact gcTimes_inv hc hG _ _ hI hz hW hT

/-! ### sync -/

theorem fuel_sync {T : Gh c} (hG : T.Ok) (hc : c.Valid) (s : S) :
    (∀ σ s, T.U σ .diverge s) ∨ (1 ≤ c.fuel ∧ (s.j.dirty = true → smeas c s + 2 ≤ c.fuel)) := by
  rcases hG.udiv with h | h
  · exact Or.inl h
  · right
    unfold fuelBound at h
    refine ⟨by omega, fun _ => ?_⟩
    have h1 := goodCount_le (c := c) s.n
    have h2 := Nat.mul_le_mul_right ((c.ppc + 1) * (c.pages + 1)) h1
    have h3 := qlen_lt hc s
    have h4 : (c.ppc - s.j.head % c.ppc) * (c.pages + 1) ≤ (c.ppc + 1) * (c.pages + 1) := Nat.mul_le_mul_right _ (by omega)
    have h5 := Nat.add_mul c.numBlocks 1 ((c.ppc + 1) * (c.pages + 1))
    unfold smeas
    omega

theorem mapSyncLoop_inv (hc : c.Valid) {σ : Nat → Option Buf} {T : Gh c} (hG : T.Ok) : ∀ f s, Calm0 c s σ T →
    T.W σ (s.count % 2 ^ 32) s.n → (mapSyncLoop c f s).2.n.time ≤ T.t →
    ((∀ σ s, T.U σ .diverge s) ∨ (1 ≤ f ∧ (s.j.dirty = true → smeas c s + 2 ≤ f))) → Same c s σ T (mapSyncLoop c f s) := by
  intro f
  induction f with
  | zero =>
    intro s h _ _ hF
    exact .stop s .diverge h.noub (by intro h; cases h) (hF.elim (fun h => h _ _) (fun h => absurd h.1 (by omega)))
  | succ f ih =>
    intro s hI hW hT hF
    -- what happens after the round
    have fin : ∀ q : Except Err Unit × S, Evo c s.n q.2.n → (∀ s2, q = (.ok (), s2) → s2.n.time ≤ T.t → Calm0 c s2 σ T ∧ s2.count = s.count ∧ SyncLt c s s2) →
        (∀ e s2, q = (.error e, s2) → s2.n.time ≤ T.t → Same c s σ T (tryRecover c e s2) ∧
          ∀ s3, tryRecover c e s2 = (.ok (), s3) → goodCount c s3.n < goodCount c s.n) →
        s.j.dirty = true →
        (match q with
          | (.ok (), s) => mapSyncLoop c f s
          | (.error e, s) =>
            match tryRecover c e s with
            | (.error e, s) => (.error e, s)
            | (.ok (), s) => mapSyncLoop c f s).2.n.time ≤ T.t →
        Same c s σ T (match q with
          | (.ok (), s) => mapSyncLoop c f s
          | (.error e, s) =>
            match tryRecover c e s with
            | (.error e, s) => (.error e, s)
            | (.ok (), s) => mapSyncLoop c f s) := by
      intro q hE h1 h2 hd hT
      have hF' : ∀ s', SyncLt c s s' → ((∀ σ s, T.U σ .diverge s) ∨ (1 ≤ f ∧ (s'.j.dirty = true → smeas c s' + 2 ≤ f))) := by
        intro s' h'
        refine hF.imp id fun hF => ⟨by have := hF.2 hd; omega, fun hd' => ?_⟩
        have := hF.2 hd
        rcases h' with h' | h'
        · rw [hd'] at h'; cases h'
        · omega
      rcases q with ⟨e | u, s2⟩
      · simp only at hT ⊢
        have hev := (tryRecover_evo (c := c) e s2).time
        rcases htr : tryRecover c e s2 with ⟨e' | u, s3⟩
        · rw [htr] at hT hev
          have h2 := (h2 e s2 rfl (by simp only at hT hev; omega)).1
          rw [htr] at h2
          cases h2 with
          | stop _ _ hub hx hU => exact .stop _ _ hub hx hU
        · rw [htr] at hT hev
          have h3 := (mapSyncLoop_evo (c := c) f s3).time
          obtain ⟨h2, hgd⟩ := h2 e s2 rfl (by simp only at hT hev; omega)
          have hgd := hgd s3 htr
          rw [htr] at h2
          cases h2 with
          | ok _ h4 h5 => exact (ih s3 h4 (by rw [h5]; exact hG.wmono hW (hE.trans (Evo.of_eq (tryRecover_evo (c := c) e) htr :))) hT (hF' s3 (SyncLt.good hc hgd))).mono h5
      · simp only at hT ⊢
        have h3 := (mapSyncLoop_evo (c := c) f s2).time
        obtain ⟨h4, h5, h6⟩ := h1 s2 rfl (by omega)
        exact (ih s2 h4 (by rw [h5]; exact hG.wmono hW hE) hT (hF' s2 h6)).mono h5
    unfold mapSyncLoop at hT ⊢
    by_cases hd : ¬ (s.j.dirty = true)
    · rw [if_pos hd]; exact .ok s hI rfl
    · rw [if_neg hd] at hT ⊢
      have hd' : s.j.dirty = true := by simpa using hd
      rcases round_inv hc hG hI (fun _ => hd') hW with h | ⟨p, s1, h, hne, hn, hr⟩
      · simp only [h, if_true] at hT ⊢
        obtain ⟨vts, vt, vh, vr, hI'⟩ := hI
        refine fin _ (padQueue_evo _) ?_ ?_ hd' hT
        · intro s2 hq ht
          have := padQueue_inv0 hc hG hI' (by rw [hq]; exact ht) hW
          rw [hq] at this
          cases this with
          | ok _ _ _ _ h1 h2 hA => exact ⟨⟨_, _, _, _, h1⟩, h2, SyncLt.adv hc hA (Evo.of_eq padQueue_evo hq :) rfl rfl⟩
        · intro e s2 hq ht
          have := padQueue_inv0 hc hG hI' (by rw [hq]; exact ht) hW
          rw [hq] at this
          have hev : Evo c s.n s2.n := (Evo.of_eq padQueue_evo hq :)
          have hdn := tryRecover_inv hc hG this (hG.wmono hW hev)
          exact ⟨hdn.same, fun s3 h3 => Nat.lt_of_lt_of_le (hdn.good h3) (goodCount_mono hev)⟩
      · simp only [h] at hT ⊢
        rw [if_neg hne] at hT ⊢
        refine fin _ ?_ ?_ ?_ hd' hT
        · have e1 := rawGc_evo (c := c) p s1
          rw [hn] at e1
          rcases hg : rawGc c p s1 with ⟨e | u, s3⟩ <;> rw [hg] at e1
          · exact e1
          · simp only [dequeue_n]; exact e1
        · intro s2 hq ht
          rcases hg : rawGc c p s1 with ⟨e | u, s3⟩
          · rw [hg] at hq; cases hq
          · rw [hg] at hq hr
            simp only [Prod.mk.injEq, true_and] at hq
            subst hq
            rw [dequeue_n] at ht
            rcases hr ht with ⟨s4, h1, h2, h3, h4⟩ | ⟨_, _, h1, _⟩
            · cases h1; exact ⟨h2, h3, h4⟩
            · cases h1
        · intro e s2 hq ht
          rcases hg : rawGc c p s1 with ⟨e' | u, s3⟩
          · rw [hg] at hq hr
            simp only [Prod.mk.injEq, Except.error.injEq] at hq
            obtain ⟨rfl, rfl⟩ := hq
            rcases hr ht with ⟨s4, h1, h2, h3, _⟩ | ⟨_, _, h1, h2, h3⟩
            · cases h1
            · cases h1; exact ⟨h2, h3⟩
          · rw [hg] at hq; cases hq

/-- A successful sync leaves the journal clean. -/
theorem mapSyncLoop_clean : ∀ f s s', mapSyncLoop c f s = (.ok (), s') → s'.j.dirty = false := by
  intro f
  induction f with
  | zero => intro s s' h; cases h
  | succ f ih =>
    intro s s' h
    unfold mapSyncLoop at h
    by_cases hd : ¬ (s.j.dirty = true)
    · rw [if_pos hd] at h; cases h; simpa using hd
    · rw [if_neg hd] at h
      simp only at h
      split at h
      · exact ih _ _ h
      · split at h
        · cases h
        · exact ih _ _ h

end Dhara

/-
What the last checkpoint makes persistent of a journal used directly (C61): the invariant behind a power failure.
-/
import Verif.Props.JPowerSpec
import Verif.Proofs.Fifo
import Verif.Proofs.Crash
namespace Dhara

variable {c : Cfg}

/-- The entries of `x` that are left lie on the chip at positions `Ws` from `vts` to `vL`; `vL` was the newest page and `vtc` the tail
when they were saved. -/
structure PE (c : Cfg) (ch : Chip) (x : Saved) (Ws : List Nat) (vts vL vtc : Nat) : Prop where
  root : newest x.all = c.ph vL
  suf : x.left <:+ x.all
  pages : x.left.map Entry.page = Ws.map c.ph
  sorted : Ws.Pairwise (· < ·)
  rng : ∀ v, v ∈ Ws → vts ≤ v ∧ v ≤ vL ∧ c.isU v
  data : ∀ e, e ∈ x.left → ∀ d, e.data = some d → ch.page e.page = some (c.clip d)
  mt : ∀ e, e ∈ x.left → ∀ v, v ∈ Ws → e.page = c.ph v →
    (ch.page (c.ph (c.cpV v))).map (·.slice (c.slot v) 132) = some (metaOf e.mt)
  full : x.left = x.all → vtc = vts
  mem : ∀ v, v ∈ Ws ↔ vts ≤ v ∧ v ≤ vL ∧ c.isU v ∧ ch.bad (c.ph v / c.ppb) = false
  al : vts % c.ppb ≠ 0 → vts ≤ vL → ch.bad (c.ph vts / c.ppb) = false

theorem PE.entry {ch : Chip} {x : Saved} {Ws : List Nat} {vts vL vtc : Nat} (h : PE c ch x Ws vts vL vtc) {e : Entry} (he : e ∈ x.left) :
    ∃ v, v ∈ Ws ∧ e.page = c.ph v := by
  have : e.page ∈ Ws.map c.ph := by rw [← h.pages]; exact List.mem_map_of_mem he
  obtain ⟨v, h1, h2⟩ := List.mem_map.1 this
  exact ⟨v, h1, h2.symm⟩

theorem PE.frame (hc : c.Valid) {ch ch' : Chip} {x : Saved} {Ws : List Nat} {vts vh vL vtc : Nat} (h : PE c ch x Ws vts vL vtc)
    (hl : c.last vL) (hlt : vL + 2 ≤ vh) (htL : vtc ≤ vL) (hk : KeptL c ch ch' vts vh vL) (hb : ∀ k, ch.bad k = true → ch'.bad k = true) :
    PE c ch' x Ws vts vL vtc := by
  have hbad : ∀ v, vts ≤ v → v ≤ vL → (ch'.bad (c.ph v / c.ppb) = false ↔ ch.bad (c.ph v / c.ppb) = false) := by
    intro v h1 h2
    constructor
    · intro h3
      cases h4 : ch.bad (c.ph v / c.ppb) with
      | false => rfl
      | true => rw [hb _ h4] at h3; cases h3
    · exact hk.bd v (by omega) (Or.inl h1)
  refine ⟨h.root, h.suf, h.pages, h.sorted, h.rng, fun e he d hd => ?_, fun e he v hv hp => ?_, h.full, fun v => ?_,
    fun ha hle => (hbad vts (Nat.le_refl _) hle).2 (h.al ha hle)⟩
  · obtain ⟨v, v1, v2⟩ := h.entry he
    have := h.rng v v1
    have hd' := h.data e he d hd
    rw [v2] at hd' ⊢
    rw [(hk.pg v (by omega) (Or.inl this.1)).1]; exact hd'
  · have := h.rng v hv
    have h1 := cpV_le hc hl this.2.1
    have h2 := cpV_ge c v
    rw [(hk.pg (c.cpV v) (by omega) (Or.inl (by omega))).1]
    exact h.mt e he v hv hp
  · rw [h.mem v]
    constructor
    · rintro ⟨a, b, d, e⟩; exact ⟨a, b, d, (hbad v a b).2 e⟩
    · rintro ⟨a, b, d, e⟩; exact ⟨a, b, d, (hbad v a b).1 e⟩

/-- The queue just saved. -/
theorem FInv.saved (hc : c.Valid) {s : S} {L : List Entry} {pk : Bool} {Vs : List Nat} {vt vq vR vM vn : Nat}
    (h : FInv c s L pk Vs vt vt (c.nextV vq) vq vR vM vn) (hl : c.last vq) (hr : s.j.root = c.ph vq) (hle : vt ≤ vq) (k : Nat) :
    PE c s.n.chip ⟨L, L, k⟩ Vs vt vq vt := by
  have hcalm := h.q.rst.calm h.nr
  obtain ⟨e1, e2, e3, e4, e5, e6, e7⟩ := is_last hc hl
  have hq := last_isU hc hl
  have hlt := lt_nextV c vq
  have hle' : ∀ v, v < c.nextV vq → c.isU v → v ≤ vq := by
    intro v h1 h2
    apply Classical.byContradiction; intro hn
    have := nextV_le hc hq h2 (by omega); omega
  refine ⟨by rw [← h.newest hc]; exact hr, List.suffix_refl _, h.en.pages, h.en.sorted, fun v hv => ?_, h.en.data, fun e he v hv hp => ?_,
    fun _ => rfl, fun v => ?_, fun ha _ => h.al ha (by omega)⟩
  · have := h.en.rng v hv
    exact ⟨this.1, hle' v this.2.1 this.2.2, this.2.2⟩
  · have hv' := h.en.rng v hv
    have hv2 := hle' v hv'.2.1 hv'.2.2
    have hm := h.en.mt e he
    rw [hp, metaBuf_cp hc h.q.geo.eh h.q.geo.win hv'.1 (by omega) ?_ (Or.inl hcalm.rm)] at hm
    · exact hm
    · have d1 := Nat.div_le_div_right (c := c.ppc) hv2
      rw [e1]
      omega
  · rw [h.mem v]
    constructor
    · rintro ⟨a, b, d, e⟩; exact ⟨a, hle' v b d, d, e⟩
    · rintro ⟨a, b, d, e⟩; exact ⟨a, by omega, d, e⟩

/-- What is persistent: nothing yet, or what the last checkpoint saved. -/
def JK (c : Cfg) (s : S) (D : Option Saved) (L : List Entry) (Vs : List Nat) (vts vh B : Nat) : Prop :=
  (B = 0 ∧ D = none ∧ (s.j.dirty = false → L = [])) ∨
  ∃ vL vtc x Ws, D = some x ∧ B = vL / c.ppb + 1 ∧ LP0 c s.n.chip vts vh vL vtc x.cookie ∧ PE c s.n.chip x Ws vts vL vtc ∧
    (s.j.dirty = false → x.left = L ∧ Ws = Vs ∧ vh = vL + 2 ∧ c.Win vtc vh ∧ ∃ As, PE c s.n.chip ⟨x.all, x.all, x.cookie⟩ As vtc vL vtc)

/-- Normal operation. -/
def JB (c : Cfg) (s : S) (D : Option Saved) (L : List Entry) (Vs : List Nat) (vts vh : Nat) : Prop :=
  TwoGood c (gd s.n.chip) → ∃ B, FP c (gd s.n.chip) s.n.chip B vh ∧ JK c s D L Vs vts vh B

theorem JK.dirty {s s' : S} {D : Option Saved} {L L' : List Entry} {Vs Vs' : List Nat} {vts vh B : Nat} (h : JK c s D L Vs vts vh B)
    (hn : s'.n.chip = s.n.chip) (hd : s'.j.dirty = true) : JK c s' D L' Vs' vts vh B := by
  rcases h with ⟨h1, h2, _⟩ | ⟨vL, vtc, x, Ws, h1, h2, h3, h4, _⟩
  · exact Or.inl ⟨h1, h2, fun h => by rw [hd] at h; cases h⟩
  · exact Or.inr ⟨vL, vtc, x, Ws, h1, h2, by rw [hn]; exact h3, by rw [hn]; exact h4, fun h => by rw [hd] at h; cases h⟩

theorem JB.congr {s s' : S} {D : Option Saved} {L : List Entry} {Vs : List Nat} {vts vh : Nat} (h : JB c s D L Vs vts vh)
    (hn : s'.n = s.n) (hd : s'.j.dirty = s.j.dirty) : JB c s' D L Vs vts vh := by
  unfold JB JK at *
  rw [hn, hd]; exact h

theorem JB.clear {s s' : S} {D : Option Saved} {L L' : List Entry} {Vs Vs' : List Nat} {vts vh : Nat} (h : JB c s D L Vs vts vh)
    (hn : s'.n = s.n) (hd : s'.j.dirty = true) : JB c s' D L' Vs' vts vh := by
  intro h2
  rw [hn] at h2
  obtain ⟨B, h3, h4⟩ := h h2
  exact ⟨B, by rw [hn]; exact h3, h4.dirty (by rw [hn]) hd⟩

/-- A page was written. -/
theorem JB.push (hc : c.Valid) {s s' : S} {D : Option Saved} {L L' : List Entry} {pk pk' : Bool} {Vs Vs' : List Nat}
    {vts vt vh vr vq vR vM vn vR' vM' vn' : Nat} {m : Option Buf} {Pd : S → Option Buf → Prop}
    (hB : JB c s D L Vs vts vh) (hI : FInv c s L pk Vs vts vt vh vr vR vM vn) (ho : PushOk c s s' m Pd vts vt vh vq vR vM)
    (hnf : ¬ finishes c s vq) (hI' : FInv c s' L' pk' Vs' (newTs c s vts vt vq) vt (c.nextV vq) vq vR' vM' vn') :
    JB c s' (nowSaved s s' L' D) L' Vs' (newTs c s vts vt vq) (c.nextV vq) := by
  have hl2 := hI.q.geo.l2
  have hle := ho.le
  obtain ⟨hs, hbn⟩ := ho.stp hnf
  intro h2
  obtain ⟨B, hf, hk⟩ := hB (h2.mono hs.gd)
  by_cases hl : c.last vq
  · have hts : newTs c s vts vt vq = vt := by
      unfold newTs; rw [if_pos ⟨hl, Or.inl hI.nr⟩]
    rw [hts] at hI' ⊢
    obtain ⟨c1, c2⟩ := commit_lp0 hc hs hf h2 ho.good (ho.cp hl) (ho.cpnf hl) ho.winq hI.q.geo.l1 hI.q.geo.ut (by omega) hl
    refine ⟨_, c1, Or.inr ⟨vq, vt, ⟨L', L', ckGetCount s.j⟩, Vs', ?_, rfl, c2, hI'.saved hc hl ho.root (by omega) _,
      fun _ => ⟨rfl, rfl, (is_last hc hl).1, hI'.q.geo.win, _, hI'.saved hc hl ho.root (by omega) _⟩⟩⟩
    unfold nowSaved; rw [ho.dirtyL hl]; rfl
  · have hts : newTs c s vts vt vq = vts := by
      unfold newTs; rw [if_neg (fun h => hl h.1)]
    rw [hts]
    have hdt := ho.dirtyN hl
    obtain ⟨hf', hk'⟩ := push_lp0 hc hs hbn (ho.winq.mono (Nat.le_refl _) (Nat.le_of_lt (lt_nextV c vq))) hf h2 hl
    refine ⟨B, hf', ?_⟩
    have hD : nowSaved s s' L' D = D := by unfold nowSaved; rw [hdt]; rfl
    rw [hD]
    rcases hk with ⟨h0, hw, _⟩ | ⟨vL, vtc, x, Ws, k1, k2, k3, k4, _⟩
    · exact Or.inl ⟨h0, hw, not_dirty_none hdt⟩
    · obtain ⟨l1, l2⟩ := hk' vL vtc _ k2 k3
      exact Or.inr ⟨vL, vtc, x, Ws, k1, k2, l1, k4.frame hc k3.last k3.lt k3.tcL l2 ho.keep.badm, not_dirty_none hdt⟩

/-- The recovery is over. -/
theorem JB.finish (hc : c.Valid) {s s' : S} {D : Option Saved} {L L' : List Entry} {r : Nat} {got : List Nat} {pk' : Bool} {Vs Vs' : List Nat}
    {vts vt vh vr vq vR vM vn vR' vM' vn' : Nat} {m : Option Buf} {Pd : S → Option Buf → Prop}
    (hD : TwoGood c (goodR c s vR vM) → ∃ B, FP c (goodR c s vR vM) s.n.chip B vh) (hI : RInv c s L r got Vs vts vt vh vr vR vM vn)
    (ho : PushOk c s s' m Pd vts vt vh vq vR vM) (hfin : finishes c s vq)
    (hI' : FInv c s' L' pk' Vs' (newTs c s vts vt vq) vt (c.nextV vq) vq vR' vM' vn') :
    JB c s' (nowSaved s s' L' D) L' Vs' (newTs c s vts vt vq) (c.nextV vq) := by
  intro h2
  have hl2 := hI.q.geo.l2
  have hle := ho.le
  have hd := ho.done hfin
  have hgg : ∀ k, gd s'.n.chip k → goodR c s vR vM k :=
    fun k hk => ⟨gd_mono ho.keep.badm k hk, fun hr => not_gd (hd.2 k hr) hk⟩
  have hs := ho.stpR (good' := gd s'.n.chip) (fun k h => h) hgg
  obtain ⟨B, hf⟩ := hD (h2.mono hgg)
  have hts : newTs c s vts vt vq = vt := by
    unfold newTs; rw [if_pos ⟨hfin.1, Or.inr hfin.2⟩]
  rw [hts] at hI' ⊢
  obtain ⟨c1, c2⟩ := commit_lp0 hc hs hf h2 ho.good (ho.cp hfin.1) (ho.cpnf hfin.1) ho.winq hI.q.geo.l1 hI.q.geo.ut (by omega) hfin.1
  refine ⟨_, c1, Or.inr ⟨vq, vt, ⟨L', L', ckGetCount s.j⟩, Vs', ?_, rfl, c2, hI'.saved hc hfin.1 ho.root (by omega) _,
    fun _ => ⟨rfl, rfl, (is_last hc hfin.1).1, hI'.q.geo.win, _, hI'.saved hc hfin.1 ho.root (by omega) _⟩⟩⟩
  unfold nowSaved; rw [ho.dirtyL hfin.1]; rfl

/-- A call gave up before anything was written. -/
theorem JB.refused (hc : c.Valid) {s s' : S} {D : Option Saved} {L : List Entry} {Vs : List Nat} {vts vh : Nat}
    (hB : JB c s D L Vs vts vh) (hs : Soft c s s' vts vh vh) : JB c s' D L Vs vts vh := by
  rcases hs.dirty with hd | hd
  · rw [hd]; exact hB
  rcases hs.fresh with f | f
  · exact hB.clear f hd
  intro h2
  have hbad : ∀ k, s'.n.chip.bad k = s.n.chip.bad k := fun k => hs.keep.bad_eq (fun hn => hn.elim)
  have hgd : gd s'.n.chip = gd s.n.chip := by funext k; unfold gd; rw [hbad]
  obtain ⟨B, hf, hk⟩ := hB (by rw [← hgd]; exact h2)
  obtain ⟨f1, f2⟩ := soft_lp0 hc hf hs ⟨f.1, f.1⟩ h2
  refine ⟨B, f1, ?_⟩
  rcases hk with ⟨h0, hw, _⟩ | ⟨vL, vtc, x, Ws, k1, k2, k3, k4, _⟩
  · exact Or.inl ⟨h0, hw, not_dirty_none hd⟩
  · obtain ⟨l1, l2⟩ := f2 vL vtc _ k2 k3
    exact Or.inr ⟨vL, vtc, x, Ws, k1, k2, l1, k4.frame hc k3.last k3.lt k3.tcL l2 hs.keep.badm, not_dirty_none hd⟩

/-- The oldest entry is given up. -/
theorem JB.dequeue (hc : c.Valid) {s : S} {D : Option Saved} {e : Entry} {L : List Entry} {Vs Vs' : List Nat} {v0 vts vts' vh : Nat}
    (hB : JB c s D (e :: L) Vs vts vh) (hV : Vs = v0 :: Vs') (hn : (dequeue c s).n = s.n) (hle : vts ≤ vts')
    (hts : vts' = vts ∨ s.j.dirty = false) (hd : (dequeue c s).j.dirty = s.j.dirty) (hr : ∀ v, v ∈ Vs' → vts' ≤ v)
    (hm : s.j.dirty = false → ∀ v, v ∈ Vs' ↔ vts' ≤ v ∧ v < vh ∧ c.isU v ∧ s.n.chip.bad (c.ph v / c.ppb) = false)
    (ha : s.j.dirty = false → vts' % c.ppb ≠ 0 → vts' < vh → s.n.chip.bad (c.ph vts' / c.ppb) = false) :
    JB c (dequeue c s) (dequeued s L D) L Vs' vts' vh := by
  cases hdd : s.j.dirty with
  | true =>
    have : vts' = vts := hts.resolve_right (by rw [hdd]; decide)
    subst this
    have e1 : dequeued s L D = D := by unfold dequeued; rw [hdd]; rfl
    rw [e1]
    exact hB.clear hn (by rw [hd, hdd])
  | false =>
    intro h2
    rw [hn] at h2
    obtain ⟨B, hf, hk⟩ := hB h2
    refine ⟨B, by rw [hn]; exact hf, ?_⟩
    have e1 : dequeued s L D = D.map fun x => { x with left := L } := by unfold dequeued; rw [hdd]; rfl
    rw [e1]
    rcases hk with ⟨h0, hw, hz⟩ | ⟨vL, vtc, x, Ws, k1, k2, k3, k4, k5⟩
    · cases hz hdd
    · obtain ⟨x1, x2, x3, x4, As, x5⟩ := k5 hdd
      subst x2
      subst k1
      have hmem : ∀ a, a ∈ L → a ∈ x.left := fun a ha => by rw [x1]; exact List.mem_cons_of_mem _ ha
      have hsuf : L <:+ x.left := by rw [x1]; exact List.suffix_cons _ _
      refine Or.inr ⟨vL, vtc, { x with left := L }, Vs', rfl, k2, ?_, ?_, fun _ => ⟨rfl, rfl, x3, x4, As, by rw [hn]; exact x5⟩⟩
      · rw [hn]
        exact ⟨k3.last, k3.lt, k3.good, k3.cp, k3.utc, k3.tcL, Nat.le_trans k3.tct hle, k3.wtc, k3.nm, k3.pg⟩
      · rw [hn]
        have hp := k4.pages
        rw [x1, hV, List.map_cons, List.map_cons, List.cons.injEq] at hp
        refine ⟨k4.root, hsuf.trans k4.suf, hp.2, ?_, fun v hv => ⟨hr v hv, ?_⟩, fun a ha => k4.data a (hmem a ha),
          fun a ha v hv => k4.mt a (hmem a ha) v ?_, fun hf => ?_, fun v => ?_,
          fun h1 h2 => ha hdd h1 (by omega)⟩
        · have := k4.sorted; rw [hV] at this; exact (List.pairwise_cons.1 this).2
        · exact (k4.rng v (by rw [hV]; exact List.mem_cons_of_mem _ hv)).2
        · rw [hV]; exact List.mem_cons_of_mem _ hv
        · exfalso
          have hf' : L = x.all := hf
          have := k4.suf.length_le
          rw [x1, ← hf', List.length_cons] at this
          omega
        · rw [hm hdd v]
          have hq := last_isU hc k3.last
          obtain ⟨e1, _⟩ := is_last hc k3.last
          constructor
          · rintro ⟨a, b, d, e⟩
            refine ⟨a, ?_, d, e⟩
            apply Classical.byContradiction; intro hn
            have := nextV_le hc hq d (by omega); omega
          · rintro ⟨a, b, d, e⟩; exact ⟨a, by omega, d, e⟩

end Dhara

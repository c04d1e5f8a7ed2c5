/-
Histories of a journal used directly keep the invariant of JDisk.lean; what a power failure leaves; what resuming finds.
-/
import Verif.Proofs.JDisk
import Verif.Proofs.Drain
import Verif.Proofs.Healthy4
namespace Dhara

variable {c : Cfg}

theorem peek_dirty (s : S) : (peek c s).2.j.dirty = s.j.dirty := by
  have h : ∀ i b, (peekLoop c i b s).2.j.dirty = s.j.dirty := by
    intro i
    induction i with
    | zero => intro b; rfl
    | succ i ih =>
      intro b
      unfold peekLoop
      simp only
      repeat' split
      all_goals first
        | rfl
        | exact ih _
  unfold peek
  split
  · rfl
  · split
    · exact h _ _
    · rfl

theorem FInv.ck {s : S} {L : List Entry} {pk : Bool} {Vs : List Nat} {vts vt vh vr vR vM vn : Nat}
    (h : FInv c s L pk Vs vts vt vh vr vR vM vn) (k : Nat) : FInv c (ckS s k) L pk Vs vts vt vh vr vR vM vn := by
  refine ⟨⟨h.q.geo.ck k, ?_, h.q.root, fun hk hr => h.q.good ⟨hk.nr, hk.rm, hk.ed, hk.bm⟩ hr⟩, h.nr,
    ⟨h.en.pages, h.en.sorted, h.en.rng, h.en.data, fun e he => by rw [metaBuf_ck']; exact h.en.mt e he⟩, h.mem, h.last, h.al, h.pk⟩
  rcases h.q.rst with hk | ⟨h1, h2⟩
  · exact Or.inl ⟨hk.nr, hk.rm, hk.ed, hk.bm⟩
  · exact Or.inr ⟨h1, h2.congr rfl rfl rfl rfl⟩

theorem FInv.softHere {s s' : S} {L : List Entry} {pk : Bool} {Vs : List Nat} {vts vt vh vr vR vM vn vq : Nat}
    (h : FInv c s L pk Vs vts vt vh vr vR vM vn) (hs : Soft c s s' vts vh vq) (hb : s.n.chip.bad (s.j.head / c.ppb) = false) : vq = vh := by
  rcases hs.mv with e | ⟨e1, e2⟩
  · exact e
  · apply Classical.byContradiction; intro hne
    have := hs.le
    have := hs.skip (vh / c.ppb) (Nat.le_refl _) (blk_lt_aligned (by omega) e2)
    rw [h.q.geo.eh, ph_div_ppb, this] at hb; cases hb

/-- The invariant that belongs to a phase. -/
def JPInv (c : Cfg) (s : S) (L : List Entry) (D : Option Saved) : Phase → Prop
  | .calm pk => ∃ Vs vts vt vh vr vR vM vn, FInv c s L pk Vs vts vt vh vr vR vM vn ∧ JB c s D L Vs vts vh
  | .recovering r got => ∃ Vs vts vt vh vr vR vM vn, RInv c s L r got Vs vts vt vh vr vR vM vn ∧
      (TwoGood c (goodR c s vR vM) → ∃ B, FP c (goodR c s vR vM) s.n.chip B vh)

theorem fresh_jp (hc : c.Valid) {s : S} {j : Journal} (hj : s.j = resetJournal c j) (h1 : s.n.dead = false) (h2 : s.n.ub = false)
    (hU : Unformatted c s.n.chip) : JPInv c s [] none (.calm false) := by
  obtain ⟨a1, a2, a3, a4, a5, a6⟩ := reset_inv hc hj (unformatted_ep hc hU) h1 h2
  exact ⟨_, _, _, _, _, _, _, _, FInv.none (reset_q hc hj h1 h2) (by rw [hj]; rfl), fun _ => ⟨0, a4, Or.inl ⟨rfl, rfl, fun _ => rfl⟩⟩⟩

/-- An unreadable or blank chip: nothing is found. -/
theorem resume_none (hc : c.Valid) {n : Nand} (hr : RdOk c n) (hep : EP c (gd n.chip) n.chip 0) (j : Journal) :
    journalResume c n j = (.error .tooBad, resetJournal c j) := by
  have hnone : findCheckblock c n 8 0 = none := by
    rcases findCheckblock_spec hc hr 8 0 with ⟨i, b, _, _, _, h4, h5, h6, _⟩ | ⟨h, _⟩
    · exact absurd h6 (hep.e3 i (Nat.zero_le _) h4 h5 _)
    · exact h
  unfold journalResume
  simp only [hnone]

/-- A power cycle while the journal is clean. -/
theorem JB.restart (hc : c.Valid) {s s' : S} {D : Option Saved} {L : List Entry} {pk : Bool} {Vs : List Nat}
    {vts vt vh vr vR vM vn : Nat} (hI : FInv c s L pk Vs vts vt vh vr vR vM vn) (hB : JB c s D L Vs vts vh) (hcl : s.j.dirty = false)
    (hb : FewBad c s.n.chip) (hr : ∀ p, p < c.pages → c.env.readFail (s.n.time + 1) p = false) {buf : Buf} {r : Except Err Unit}
    (he : jreboot c buf s = (r, s')) :
    JPInv c s' (back D) (D.map fun x => { x with left := x.all }) (.calm false) ∧ (r = .ok () ∨ (r = .error .tooBad ∧ D = none)) := by
  have hs2 := SparseBad.two hc hb
  obtain ⟨B, hf, hk⟩ := hB hs2
  generalize hnn : ({ s.n with time := s.n.time + 1, dead := false } : Nand) = n
  have hch : n.chip = s.n.chip := by rw [← hnn]
  have hrd : RdOk c n := by intro p hp; rw [← hnn]; exact hr p hp
  have hnd : n.dead = false := by rw [← hnn]
  have hnu : n.ub = false := by rw [← hnn]; exact hI.q.geo.noub
  unfold jreboot at he
  rw [hnn] at he
  simp only at he
  rcases hk with ⟨h0, hD, _⟩ | ⟨vL, vtc, x, Ws, k1, k2, k3, k4, k5⟩
  · subst hD
    have hep := hf.ep
    rw [h0] at hep
    rw [← hch] at hep
    rw [resume_none hc hrd hep] at he
    have hr' : r = .error .tooBad := (Prod.mk.inj he).1.symm
    have hs' : s' = { s with j := resetJournal c (journalInit c buf), n := n } := (Prod.mk.inj he).2.symm
    refine ⟨?_, Or.inr ⟨hr', rfl⟩⟩
    have hj : s'.j = resetJournal c (journalInit c buf) := by rw [hs']
    have hn' : s'.n = n := by rw [hs']
    rw [← hn'] at hep hnd hnu
    obtain ⟨a1, a2, a3, a4, a5, a6⟩ := reset_inv hc hj hep hnd hnu
    exact ⟨_, _, _, _, _, _, _, _, FInv.none (reset_q hc hj hnd hnu) (by rw [hj]; rfl), fun _ => ⟨0, a4, Or.inl ⟨rfl, rfl, fun _ => rfl⟩⟩⟩
  · subst k1
    obtain ⟨x1, x2, x3, x4, As, x5⟩ := k5 hcl
    have hep := hf.ep
    rw [k2] at hep
    have g := hI.q.geo
    -- the same chip, with the tail where the checkpoint has it
    have g0 : Geo c ⟨{ s.j with tail := c.ph vtc, tailSync := c.ph vtc }, s.n, s.count⟩ vtc vtc vh :=
      ⟨⟨rfl, rfl, g.eh, k3.utc, k3.utc, g.uh, Nat.le_refl _, by have := k3.tcL; omega, x4, g.ep, g.alive, g.noub⟩, g.hfree⟩
    have k3' : LP0 c s.n.chip vtc vh vL vtc x.cookie :=
      ⟨k3.last, k3.lt, k3.good, k3.cp, k3.utc, k3.tcL, Nat.le_refl _, k3.wtc, k3.nm, k3.pg⟩
    obtain ⟨γ, hL, hg⟩ := lp0_off hc g0 k3'
    rw [← hch] at hep hL hg hb
    obtain ⟨j', vt', vh', r1, r2, r3, _⟩ := resume_ok hc hrd hb hep hL hg (journalInit c buf)
    have htc := r3.tc
    have hts := r3.ts
    have hvt : vt' = vtc := by omega
    subst hvt
    have hvh : vh' = vh := resumed_head hc g0 k3.last x3 (by rw [hch] at r3; exact r3)
    subst hvh
    rw [r1] at he
    have hr' : r = .ok () := (Prod.mk.inj he).1.symm
    have hs' : s' = ⟨j', n, s.count⟩ := (Prod.mk.inj he).2.symm
    refine ⟨?_, Or.inl hr'⟩
    subst hs'
    obtain ⟨g1, g2, g3, g4⟩ := resumed_geo hc (s := ⟨j', n, s.count⟩) r2 r3 hep hL hnd hnu
    rw [← hch] at x5
    have f2 := x5.mem
    have f3 := x5.al
    have htL := r3.tL
    have hlt := r3.lt
    have hLm : vL ∈ As := (f2 vL).2 ⟨htL, Nat.le_refl _, last_isU hc hL.last, hL.good⟩
    obtain ⟨l1, l2, l3, l4, l5, l6, l7⟩ := is_last hc hL.last
    have hle' : ∀ v, v < vh' → c.isU v → v ≤ vL := by
      intro v h1 h2
      apply Classical.byContradiction; intro hn
      have := nextV_le hc (last_isU hc hL.last) h2 (by omega); omega
    have hq : QInv c ⟨j', n, s.count⟩ vt' vt' vh' vL 0 0 0 :=
      ⟨g1, Or.inl g2, Or.inr ⟨r2.root, htL, by omega, last_isU hc hL.last⟩, fun _ _ => by
        show n.chip.bad (j'.root / c.ppb) = false
        rw [r2.root]; exact hL.good⟩
    have hF : FInv c ⟨j', n, s.count⟩ x.all false As vt' vt' vh' vL 0 0 0 := by
      refine ⟨hq, r2.nr, ⟨x5.pages, x5.sorted, fun v hv => ?_, x5.data, fun e he => ?_⟩, fun v => ?_, fun _ => ⟨r2.root, hLm, by omega⟩,
        fun ha _ => f3 ha htL, fun h => by cases h⟩
      · have := x5.rng v hv
        exact ⟨this.1, by omega, this.2.2⟩
      · obtain ⟨v, v1, v2⟩ := x5.entry he
        have hv := x5.rng v v1
        have hm := x5.mt e he v v1 v2
        rw [v2, metaBuf_cp hc (s := ⟨j', n, s.count⟩) (lo := vt') (vh := vh') r2.head r3.win (by omega) (by omega) ?_ (Or.inl r2.rm)]
        · exact hm
        · have e1 := Nat.div_le_div_right (c := c.ppc) hv.2.1
          rw [x3]; omega
      · rw [f2 v]
        constructor
        · rintro ⟨a, b, d, e⟩; exact ⟨a, by omega, d, e⟩
        · rintro ⟨a, b, d, e⟩; exact ⟨a, hle' v b d, d, e⟩
    refine ⟨As, vt', vt', vh', vL, 0, 0, 0, hF, fun _ => ⟨_, g3, Or.inr ⟨vL, vt', { x with left := x.all }, As, rfl, rfl, g4, x5,
      fun _ => ⟨rfl, rfl, x3, r3.win, As, x5⟩⟩⟩⟩

theorem JLog.inv (hc : c.Valid) {s : S} {L : List Entry} {ph : Phase} {D : Option Saved} (h : JLog c s L ph D) : JPInv c s L D ph := by
  induction h with
  | fresh s h hU =>
    obtain ⟨h1, h2, h3 | h3⟩ := h
    · obtain ⟨buf, h3⟩ := h3
      exact fresh_jp hc h3 h1 h2 hU
    · obtain ⟨j, h3⟩ := h3
      obtain ⟨j0, hj⟩ := resume_tooBad h3
      exact fresh_jp hc hj h1 h2 hU
  | append s s' L pk D d m _ ha ih =>
    obtain ⟨Vs, vts, vt, vh, vr, vR, vM, vn, hf, hB⟩ := ih
    obtain ⟨Pd, ho, hd⟩ := ha.out hc hf.q.geo hf.q.rst hf.en
    obtain ⟨vq, hp, hnf, hf'⟩ := hf.push hc ho hd
    exact ⟨_, _, _, _, _, _, _, _, hf', hB.push hc hf hp hnf hf'⟩
  | refused s s' L pk D d m e _ ha he hne hq hb ih =>
    obtain ⟨Vs, vts, vt, vh, vr, vR, vM, vn, hf, hB⟩ := ih
    obtain ⟨Pd, ho, hd⟩ := ha.out hc hf.q.geo hf.q.rst hf.en
    cases ho with
    | again => exact absurd rfl hne
    | start => exact absurd rfl hne
    | stop _ _ _ hub hcr hsf =>
      rcases hsf he.1 with ⟨vq, hs⟩ | hn
      · have := hf.softHere hs hb
        subst this
        exact ⟨_, _, _, _, _, _, _, _, hf.refused hc hs hb, hB.refused hc hs⟩
      · obtain ⟨t, t1, t2, t3⟩ := hn
        have := hq t t1 t2
        rcases t3 with t3 | t3
        · exact absurd t3 this.1
        · exact absurd t3 this.2
  | peek s L pk D _ hs ih =>
    obtain ⟨Vs, vts, vt, vh, vr, vR, vM, vn, hf, hB⟩ := ih
    have hB' := hB.congr (s' := (Dhara.peek c s).2) (peek_same s).n (peek_dirty s)
    rcases hf.peek hc hs with ⟨hV, _, _, h⟩ | ⟨v0, Vr, hV, _, h⟩
    · have hL := hf.en.nil_iff.2 hV
      subst hL
      exact ⟨_, _, _, _, _, _, _, _, h, hB'⟩
    · cases L with
      | nil => have := hf.en.nil_iff.1 rfl; rw [hV] at this; cases this
      | cons a _ => exact ⟨_, _, _, _, _, _, _, _, h, hB'⟩
  | dequeue s L e D _ ih =>
    obtain ⟨Vs, vts, vt, vh, vr, vR, vM, vn, hf, hB⟩ := ih
    obtain ⟨Vs', vts', vt', h, h1, h2, h3, h4, h5⟩ := hf.dequeue hc
    exact ⟨_, _, _, _, _, _, _, _, h, hB.dequeue hc h4 h1 h2 h3 (dequeue_dirty s)
      (fun v hv => by have := h.en.rng v hv; have := h.q.geo.l1; omega)
      (fun hd v => by rw [h5 hd, h.mem v, h1]) (fun hd k1 k2 => by rw [h5 hd] at k1 k2 ⊢; rw [← h1]; exact h.al k1 k2)⟩
  | clear s L pk D _ ih =>
    obtain ⟨Vs, vts, vt, vh, vr, vR, vM, vn, hf, hB⟩ := ih
    exact ⟨_, _, _, _, _, _, _, _, FInv.none (clear_q hf.q hf.nr) hf.nr, hB.clear rfl rfl⟩
  | cookie s L pk D k _ ih =>
    obtain ⟨Vs, vts, vt, vh, vr, vR, vM, vn, hf, hB⟩ := ih
    exact ⟨_, _, _, _, _, _, _, _, hf.ck k, hB.congr rfl rfl⟩
  | mark s L ph D _ ih =>
    cases ph with
    | calm pk =>
      obtain ⟨Vs, vts, vt, vh, vr, vR, vM, vn, hf, hB⟩ := ih
      exact ⟨_, _, _, _, _, _, _, _, hf.mark, hB.clear rfl rfl⟩
    | recovering r got =>
      obtain ⟨Vs, vts, vt, vh, vr, vR, vM, vn, hf, hF⟩ := ih
      exact ⟨_, _, _, _, _, _, _, _, hf.mark, hF⟩
  | restart s s' L pk D buf r _ hcl hb hr he ih =>
    obtain ⟨Vs, vts, vt, vh, vr, vR, vM, vn, hf, hB⟩ := ih
    exact (hB.restart hc hf hcl hb hr he).1
  | begin_ s s' L pk D d m _ hL ha ih =>
    obtain ⟨Vs, vts, vt, vh, vr, vR, vM, vn, hf, hB⟩ := ih
    obtain ⟨Pd, ho, hd⟩ := ha.out hc hf.q.geo hf.q.rst hf.en
    cases ho with
    | again _ v' hp => have := hp.rec0; rw [hf.nr] at this; cases this
    | start _ vM' v' hp =>
      obtain ⟨_, h⟩ := hf.start hc hL hp
      have hlt : vt < vh := by
        cases Vs with
        | nil => exact absurd (hf.en.nil_iff.2 rfl) hL
        | cons a _ => have := hf.en.rng a (List.mem_cons_self ..); omega
      obtain ⟨b1, l1, l2⟩ := hf.last hlt
      have hblk : vr / c.ppb = vh / c.ppb := by
        rcases nextV_blk hc (hf.en.rng vr l1).2.2 with ⟨n1, _⟩ | ⟨_, n2⟩
        · rw [l2] at n1; exact n1.symm
        · rw [l2] at n2; exact absurd n2 hp.hv
      exact ⟨_, _, _, _, _, _, _, _, h, start_fp hc (fun h2 => by obtain ⟨B, h3, _⟩ := hB h2; exact ⟨B, h3⟩) hblk hp⟩
    | stop _ _ he => exact absurd rfl he
  | next s L r got D _ ih =>
    obtain ⟨Vs, vts, vt, vh, vr, vR, vM, vn, hr, hF⟩ := ih
    obtain ⟨_, h⟩ := hr.next hc
    have hn := (next_same (c := c) s).n
    have hbm : (nextRecoverable c s).2.j.badMeta = s.j.badMeta := by
      unfold nextRecoverable
      simp only
      repeat' split
      all_goals rfl
    have hg : goodR c (nextRecoverable c s).2 vR vM = goodR c s vR vM := by unfold goodR; rw [hn, retires_congr hbm]
    exact ⟨_, _, _, _, _, _, _, _, h, by rw [hg, hn]; exact hF⟩
  | rewrite s s' L r got D d m _ ha hrec ih =>
    obtain ⟨Vs, vts, vt, vh, vr, vR, vM, vn, hr, hF⟩ := ih
    obtain ⟨Pd, ho, hd⟩ := ha.out hc hr.q.geo hr.q.rst hr.en
    cases ho with
    | ok _ vq hp =>
      have hnf : ¬ finishes c s vq := fun hf => by have := (hp.done hf).1.nr; rw [hrec] at this; cases this
      obtain ⟨_, h⟩ := hr.push hc hp hd hnf
      exact ⟨_, _, _, _, _, _, _, _, h, rok_fp hc hF hr.q.geo hr.rg hp hnf⟩
  | again s s' L r got D d m _ ha ih =>
    obtain ⟨Vs, vts, vt, vh, vr, vR, vM, vn, hr, hF⟩ := ih
    obtain ⟨Pd, ho, hd⟩ := ha.out hc hr.q.geo hr.q.rst hr.en
    cases ho with
    | again _ v' hp =>
      obtain ⟨_, h⟩ := hr.again hc hp
      exact ⟨_, _, _, _, _, _, _, _, h, again_fp hc hF hp⟩
    | start _ vM' v' hp => have := hp.rec0; rw [hr.rc] at this; cases this
    | stop _ _ he => exact absurd rfl he
  | finish s s' L r got D d m _ ha hrec ht ih =>
    obtain ⟨Vs, vts, vt, vh, vr, vR, vM, vn, hr, hF⟩ := ih
    obtain ⟨Pd, ho, hd⟩ := ha.out hc hr.q.geo hr.q.rst hr.en
    cases ho with
    | ok _ vq hp =>
      have hf : finishes c s vq := by
        apply Classical.byContradiction; intro hnf
        have := (hp.going hnf).1
        rw [hr.rc, hrec] at this; cases this
      obtain ⟨_, h⟩ := hr.finish hc hp hd hf ht
      exact ⟨_, _, _, _, _, _, _, _, h, JB.finish hc hF hr hp hf h⟩

/-! ### Power failure -/

/-- What a power failure leaves on the chip. -/
def JC (c : Cfg) (ch : Chip) (D : Option Saved) : Prop :=
  ∃ B, EP c (gd ch) ch B ∧ ((B = 0 ∧ D = none) ∨
    ∃ vts vL vtc x Ws γ, D = some x ∧ B = vL / c.ppb + 1 ∧ LP0 c ch vts γ vL vtc x.cookie ∧ CG c ch vts vL γ ∧ PE c ch x Ws vts vL vtc)

theorem JB.off (hc : c.Valid) {s : S} {D : Option Saved} {L : List Entry} {Vs : List Nat} {vts vt vh : Nat}
    (hB : JB c s D L Vs vts vh) (g : Geo c s vts vt vh) (h2 : TwoGood c (gd s.n.chip)) : JC c s.n.chip D := by
  obtain ⟨B, hf, hk⟩ := hB h2
  refine ⟨B, hf.ep, ?_⟩
  rcases hk with ⟨h0, hw, _⟩ | ⟨vL, vtc, x, Ws, k1, k2, k3, k4, _⟩
  · exact Or.inl ⟨h0, hw⟩
  · obtain ⟨γ, h1, h3⟩ := lp0_off hc g k3
    exact Or.inr ⟨vts, vL, vtc, x, Ws, γ, k1, k2, h1, h3, k4⟩

theorem JB.stop (hc : c.Valid) (hJ : JunkOk c) {s s' : S} {D : Option Saved} {L : List Entry} {Vs : List Nat} {vts vt vh : Nat}
    (hB : JB c s D L Vs vts vh) (g : Geo c s vts vt vh) (h : PStop c s s' vts vt vh) (h2 : TwoGood c (gd s'.n.chip)) : JC c s'.n.chip D := by
  have key : (∀ k, s.n.chip.bad k = true → s'.n.chip.bad k = true) →
      (∀ B, FP c (gd s.n.chip) s.n.chip B vh → EP c (gd s'.n.chip) s'.n.chip B ∧ ∀ vL vtc k, B = vL / c.ppb + 1 → LP0 c s.n.chip vts vh vL vtc k →
        ∃ γ, LP0 c s'.n.chip vts γ vL vtc k ∧ CG c s'.n.chip vts vL γ ∧ KeptL c s.n.chip s'.n.chip vts vh vL) → JC c s'.n.chip D := by
    intro hb hk
    obtain ⟨B, hf, hd⟩ := hB (h2.mono (gd_mono hb))
    obtain ⟨e1, e2⟩ := hk B hf
    refine ⟨B, e1, ?_⟩
    rcases hd with ⟨h0, hw, _⟩ | ⟨vL, vtc, x, Ws, k1, k2, k3, k4, _⟩
    · exact Or.inl ⟨h0, hw⟩
    · obtain ⟨γ, g1, g2, g3⟩ := e2 vL vtc _ k2 k3
      exact Or.inr ⟨vts, vL, vtc, x, Ws, γ, k1, k2, g1, g2, k4.frame hc k3.last k3.lt k3.tcL g3 hb⟩
  cases h with
  | erase vq h =>
    refine key ?_ fun B hf => erase_lp0 hc hJ hf h h2
    intro k hk
    rcases h.chip with h | h | h <;> rw [h] <;> exact hk
  | page s1 vq hp hat hbad hcp hfree =>
    refine key ?_ fun B hf => page_lp0 hc hJ g hf hp hat hbad hcp h2
    have := (page_stp hc hp hat hbad).1.gd
    intro k hk
    cases hb : s'.n.chip.bad k with
    | true => rfl
    | false => have := this k hb; unfold gd at this; rw [hk] at this; cases this

theorem JB.skipped (hc : c.Valid) {s s1 : S} {D : Option Saved} {L : List Entry} {Vs : List Nat} {vts vt vh v1 : Nat}
    (hB : JB c s D L Vs vts vh) (h : Skipped c s s1 vts vt vh v1) : JB c s1 D L Vs vts v1 := by
  intro h2
  obtain ⟨B, hf, hk⟩ := hB (h2.mono (gd_mono h.keep.badm))
  obtain ⟨f1, f2⟩ := skipped_lp0 hc hf h h2
  refine ⟨B, f1, ?_⟩
  rcases hk with ⟨h0, hw, _⟩ | ⟨vL, vtc, x, Ws, k1, k2, k3, k4, _⟩
  · exact Or.inl ⟨h0, hw, not_dirty_none h.dirty⟩
  · obtain ⟨l1, l2⟩ := f2 vL vtc _ k2 k3
    exact Or.inr ⟨vL, vtc, x, Ws, k1, k2, l1, k4.frame hc k3.last k3.lt k3.tcL l2 h.keep.badm, not_dirty_none h.dirty⟩

/-- The power fails between calls or during an enqueue or copy. -/
theorem Fails.disk (hc : c.Valid) (hJ : JunkOk c) {s s1 : S} {L : List Entry} {pk : Bool} {D : Option Saved} {P : Option Saved → Prop}
    (h : JLog c s L (.calm pk) D) (hf : Fails c s L D s1 P) (h2 : TwoGood c (gd s1.n.chip)) :
    s1.n.ub = false ∧ ∃ D', P D' ∧ JC c s1.n.chip D' := by
  obtain ⟨Vs, vts, vt, vh, vr, vR, vM, vn, hI, hB⟩ := h.inv hc
  cases hf with
  | between => exact ⟨hI.q.geo.noub, D, rfl, hB.off hc hI.q.geo h2⟩
  | during d m _ ha hq =>
    obtain ⟨Pd, ho, hd⟩ := ha.out hc hI.q.geo hI.q.rst hI.en
    cases ho with
    | stop _ _ _ hub hcr hsf =>
      refine ⟨hub, ?_⟩
      rcases hcr rfl (hI.q.rst.calm hI.nr) with h | ⟨s'', vq, h, hl, hchip, _, _⟩ | ⟨s2, v1, hs, h, _⟩ | ⟨hn, hm⟩
      · exact ⟨D, Or.inl rfl, hB.stop hc hJ hI.q.geo h h2⟩
      · obtain ⟨vq', hp, hnf, hI'⟩ := hI.push hc (.ok s'' vq h) hd
        have hB' := hB.push hc hI hp hnf hI'
        rw [← hchip] at h2 ⊢
        refine ⟨_, Or.inr ⟨s''.j.root, ?_⟩, hB'.off hc hI'.q.geo h2⟩
        have : s''.j.dirty = false := h.dirtyL hl
        unfold nowSaved; rw [this]; rfl
      · exact ⟨D, Or.inl rfl, (hB.skipped hc hs).stop hc hJ hs.geo h h2⟩
      · rcases hq with hq | hq
        · exact absurd hm hq
        · obtain ⟨t, t1, t2, t3⟩ := hn
          have := hq t t1 t2
          rcases t3 with t3 | t3
          · exact absurd t3 this.1
          · exact absurd t3 this.2

/-! ### Power-up -/

theorem oldest_pages {L : List Entry} {Vs : List Nat} {v0 : Nat} {Vr : List Nat} (h : L.map Entry.page = Vs.map c.ph) (hV : Vs = v0 :: Vr) :
    oldest L = c.ph v0 := by
  rw [hV] at h
  cases L with
  | nil => simp at h
  | cons a _ => rw [List.map_cons, List.map_cons, List.cons.injEq] at h; exact h.1

theorem JC.restored (hc : c.Valid) {n : Nand} {D : Option Saved} (h : JC c n.chip D) (hr : RdOk c n) (hs : SparseBad c n.chip)
    (hd : n.dead = false) (hu : n.ub = false) (j : Journal) (cnt : Nat) :
    Restored c D (journalResume c n j).1 ⟨(journalResume c n j).2, n, cnt⟩ := by
  obtain ⟨B, hep, h | ⟨vts, vL, vtc, x, Ws, γ, h1, h2, hL, hg, hP⟩⟩ := h
  · obtain ⟨h0, h1⟩ := h
    subst h1
    rw [h0] at hep
    have hnone : findCheckblock c n 8 0 = none := by
      rcases findCheckblock_spec hc hr 8 0 with ⟨i, b, _, _, _, h4, h5, h6, _⟩ | ⟨h, _⟩
      · exact absurd h6 (hep.e3 i (Nat.zero_le _) h4 h5 _)
      · exact h
    have he : journalResume c n j = (.error .tooBad, resetJournal c j) := by
      unfold journalResume
      simp only [hnone]
    rw [he]
    refine ⟨rfl, rfl, ?_⟩
    unfold peek
    rw [if_pos (show (resetJournal c j).head = (resetJournal c j).tail from rfl)]
  · subst h1
    rw [h2] at hep
    obtain ⟨j', vt, vh, r1, r2, r3, _⟩ := resume_ok hc hr hs hep hL hg j
    rw [r1]
    obtain ⟨g1, g2, g3, g4⟩ := resumed_geo hc (s := ⟨j', n, cnt⟩) r2 r3 hep hL hd hu
    have hts := r3.ts
    have htL := r3.tL
    have hlt := r3.lt
    have hhi : vh ≤ (vL / c.ppb + 1) * c.ppb := by
      by_cases ha : vh % c.ppb = 0
      · rw [r3.nxt ha]
      · have e1 := (r3.inb ha).1
        have e2 := div_mod_range vh c.ppb
        have e3 := mod_ppb_lt c vh
        rw [Nat.add_mul, Nat.one_mul, ← e1]; omega
    have hq0 : QInv c ⟨j', n, cnt⟩ vt vt vh vL 0 0 0 :=
      ⟨g1, Or.inl g2, Or.inr ⟨r2.root, htL, by omega, last_isU hc hL.last⟩, fun _ _ => by
        show n.chip.bad (j'.root / c.ppb) = false
        rw [r2.root]; exact hL.good⟩
    refine ⟨rfl, r2.root.trans hP.root.symm, r2.ck, r2.dirty, r2.nr, fun e he => ?_, fun hfull hsh => ?_, fun hsh =>
      hP.drained hc (s := ⟨j', n, cnt⟩) hq0 r2.nr hsh hL.good r3.tc hts htL (by omega) hhi r2.root⟩
    · obtain ⟨v, v1, v2⟩ := hP.entry he
      have hv := hP.rng v v1
      refine ⟨fun d hd' => ?_, ?_⟩
      · unfold nandRead
        have hp : e.page < c.pages := by rw [v2]; exact ph_lt hc v
        rw [if_pos ⟨hp, by omega⟩, if_neg (by rw [hr _ hp]; simp), hP.data e he d hd']
        show Except.ok (c.clip (c.clip d)) = _
        rw [clip_clip]
      · have hm := hP.mt e he v v1 v2
        rw [v2, readMeta_eq hc (Or.inl g2 : RSt c ⟨j', n, cnt⟩ vt vh 0 0 0) hr hv.2.2,
          metaBuf_cp hc (s := ⟨j', n, cnt⟩) (lo := vt) (vh := vh) r2.head r3.win (by omega) (by omega) ?_ (Or.inl r2.rm)]
        · show (match (n.chip.page (c.ph (c.cpV v))).map (·.slice (c.slot v) 132) with | some b => Except.ok b | none => Except.error Err.ecc) = _
          rw [hm]
          unfold Entry.metaBytes
          cases e.mt <;> rfl
        · obtain ⟨l1, l2, l3, l4, l5, l6, l7⟩ := is_last hc hL.last
          have e1 := Nat.div_le_div_right (c := c.ppc) hv.2.1
          have e2 := Nat.div_le_div_right (c := c.ppc) hlt
          omega
    · have f1 := hP.full hfull
      have f2 := hP.mem
      have f3 := hP.al
      have htc := r3.tc
      have hvt : vt = vts := by omega
      subst hvt
      have hq : QInv c ⟨j', n, cnt⟩ vt vt vh vL 0 0 0 :=
        ⟨g1, Or.inl g2, Or.inr ⟨r2.root, htL, by omega, last_isU hc hL.last⟩, fun _ _ => by
          show n.chip.bad (j'.root / c.ppb) = false
          rw [r2.root]; exact hL.good⟩
      obtain ⟨vt', p1, p2, p3, p4, p5, p6, p7⟩ := peek_q hc hq r2.nr
      have hvv : vt < vh := by omega
      have hLm : vL ∈ Ws := (f2 vL).2 ⟨htL, Nat.le_refl _, last_isU hc hL.last, hL.good⟩
      cases hV : Ws with
      | nil => rw [hV] at hLm; cases hLm
      | cons v0 Vr =>
        have m0 := (f2 v0).1 (by rw [hV]; exact List.mem_cons_self ..)
        have hmin : ∀ v, v ∈ Ws → v0 ≤ v := by
          intro v hv
          rw [hV] at hv
          rcases List.mem_cons.1 hv with hv | hv
          · omega
          · have := hP.sorted; rw [hV] at this
            have := (List.pairwise_cons.1 this).1 v hv; omega
        have hold : oldest x.all = c.ph v0 := by rw [← hfull]; exact oldest_pages hP.pages hV
        rw [hold, p4 hvv]
        congr 1
        by_cases ha : vt % c.ppb = 0
        · have k5 := Nat.div_add_mod vt c.ppb
          rw [Nat.mul_comm] at k5
          have hst : v0 / c.ppb * c.ppb ∈ Ws := by
            have d0 := div_mod_range v0 c.ppb
            rw [f2]
            refine ⟨?_, by omega, isU_of_aligned hc (Nat.mul_mod_left _ _), ?_⟩
            · have := Nat.div_le_div_right (c := c.ppb) m0.1
              have := Nat.mul_le_mul_right c.ppb this
              omega
            · have := m0.2.2.2
              rw [ph_div_ppb] at this ⊢
              rw [Nat.mul_div_cancel _ (ppb_pos c)]; exact this
          have hv0 : v0 = v0 / c.ppb * c.ppb := by
            have := hmin _ hst
            have := Nat.div_mul_le_self v0 c.ppb
            omega
          have hbad : ∀ k, vt / c.ppb ≤ k → k < v0 / c.ppb → n.chip.bad (k % c.numBlocks) = true := by
            intro k k1 k2
            cases hb : n.chip.bad (k % c.numBlocks) with
            | true => rfl
            | false =>
              exfalso
              have k3 := Nat.mul_le_mul_right c.ppb k1
              have k4 : k * c.ppb < v0 / c.ppb * c.ppb := Nat.mul_lt_mul_of_pos_right k2 (ppb_pos c)
              have := hmin (k * c.ppb) ((f2 _).2 ⟨by omega, by omega, isU_of_aligned hc (Nat.mul_mod_left _ _), by
                rw [ph_div_ppb, Nat.mul_div_cancel _ (ppb_pos c)]; exact hb⟩)
              omega
          obtain ⟨k, k1, k2⟩ := hsh (vt / c.ppb)
          have hnear : v0 / c.ppb < vt / c.ppb + 8 := by
            apply Classical.byContradiction; intro hn
            have := hbad (vt / c.ppb + k) (by omega) (by omega)
            rw [show n.chip.bad ((vt / c.ppb + k) % c.numBlocks) = false from k2] at this; cases this
          have := p6 hvv ha (v0 / c.ppb) (Nat.div_le_div_right m0.1) (Nat.div_le_div_right (by omega)) hnear
            (by rw [← ph_div_ppb]; exact m0.2.2.2) hbad
          omega
        · rw [p5 ha]
          have := hmin vt ((f2 vt).2 ⟨Nat.le_refl _, htL, g1.ut, f3 ha htL⟩)
          omega

end Dhara

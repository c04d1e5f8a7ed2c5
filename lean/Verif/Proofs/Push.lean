/-
Journal operations that write: prepare, program, dump, recover, push
(dhara/journal.c:617-866).
-/
import Verif.Proofs.Frame
namespace Dhara

variable {c : Cfg}

/-! ### Single chip steps -/

/-- Only page `p` changed, no block was marked. -/
structure OnlyAt (n n' : Nand) (p : Nat) : Prop where
  page : ∀ x, x ≠ p → n'.chip.page x = n.chip.page x
  free : ∀ x, x ≠ p → n'.chip.free x = n.chip.free x
  bad : n'.chip.bad = n.chip.bad

theorem outside_ne {v v' w p : Nat} (h1 : v ≤ w) (h2 : w / c.ppb ≤ v' / c.ppb)
    (ho : Outside c v v' p) : p ≠ c.ph w := by
  intro e
  have a := Nat.div_le_div_right (c := c.ppb) h1
  obtain ⟨e1, e2⟩ := ho (w / c.ppb) a h2 (by rw [e, ph_div_ppb])
  rw [e, ph_mod_ppb] at e2
  have d0 := div_mod_range v c.ppb
  have d1 := div_mod_range w c.ppb
  rw [e1] at d1; omega

theorem OnlyAt.keep {n n' : Nand} {v v' w : Nat} (h : OnlyAt n n' (c.ph w)) (hle : v ≤ v')
    (h1 : v ≤ w) (h2 : w / c.ppb ≤ v' / c.ppb) : CKeep c n n' v v' noEx :=
  ⟨hle, fun p ho => h.page p (outside_ne h1 h2 ho), fun p ho => h.free p (outside_ne h1 h2 ho),
    fun k hk => by rw [h.bad]; exact hk, fun k hk => by rw [h.bad] at hk; exact Or.inl hk⟩

theorem onlyAt_programmed (n : Nand) (p : Nat) (d : Buf) :
    OnlyAt n (n.progTo (n.chip.programmed c p d)) p :=
  ⟨fun x hx => by simp [Nand.progTo, Chip.programmed, upd, hx],
   fun x hx => by simp [Nand.progTo, Chip.programmed, upd, hx], rfl⟩

theorem onlyAt_garbled (n : Nand) (t p : Nat) (b : Bool) :
    OnlyAt n (n.progTo (n.chip.garbledPage c t p b) f) p :=
  ⟨fun x hx => by simp [Nand.progTo, Chip.garbledPage, upd, hx],
   fun x hx => by simp [Nand.progTo, Chip.garbledPage, upd, hx], rfl⟩

theorem blk_changed_keep {n n' : Nand} {v w : Nat} (hle : v ≤ w) (hal : w % c.ppb = 0)
    (hp : ∀ x, x / c.ppb ≠ c.ph w / c.ppb → n'.chip.page x = n.chip.page x)
    (hf : ∀ x, x / c.ppb ≠ c.ph w / c.ppb → n'.chip.free x = n.chip.free x)
    (hb : n'.chip.bad = n.chip.bad) : CKeep c n n' v w noEx := by
  have key : ∀ p, Outside c v w p → p / c.ppb ≠ c.ph w / c.ppb := by
    intro p ho e
    obtain ⟨e1, e2⟩ := ho (w / c.ppb) (Nat.div_le_div_right hle) (Nat.le_refl _)
      (by rw [e, ph_div_ppb])
    have d0 := div_mod_range v c.ppb
    have d1 := div_mod_range w c.ppb
    rw [e1] at d1; omega
  exact ⟨hle, fun p ho => hp p (key p ho), fun p ho => hf p (key p ho),
    fun k hk => by rw [hb]; exact hk, fun k hk => by rw [hb] at hk; exact Or.inl hk⟩

theorem nandMarkBad_eq (hc : c.Valid) {n : Nand} (hd : n.dead = false) (v : Nat) :
    nandMarkBad c (c.ph v / c.ppb) n = { n with chip := n.chip.marked (c.ph v / c.ppb) } := by
  have h : c.ph v / c.ppb < c.numBlocks := by
    rw [ph_div_ppb]; exact Nat.mod_lt _ (by have := hc.blocks_lo; omega)
  unfold nandMarkBad
  rw [hd]
  simp [h]

theorem marked_keep (n : Nand) (v k : Nat) :
    CKeep c n { n with chip := n.chip.marked k } v v (fun x => x = k) :=
  ⟨Nat.le_refl _, fun _ _ => rfl, fun _ _ => rfl,
    fun x hx => by simp only [Chip.marked, upd]; split <;> simp_all,
    fun x hx => by
      simp only [Chip.marked, upd] at hx
      split at hx
      · exact Or.inr (by assumption)
      · exact Or.inl hx⟩

/-! ### prepare_head, summarised -/

theorem Geo0.mk' {s s' : S} {vts vt vh vh' : Nat} (g : Geo0 c s vts vt vh) (hj : JH c s s' vh')
    (hle : vh ≤ vh') (hu : c.isU vh') (hw : c.Win vts vh') (hal : s'.n.dead = false)
    (hub : s'.n.ub = false) : Geo0 c s' vts vt vh' :=
  ⟨by rw [hj.tailSync, g.ets], by rw [hj.tail, g.et], hj.head, g.uts, g.ut, hu, g.l1,
    Nat.le_trans g.l2 hle, hw, hj.epoch, hal, hub⟩

/-- prepare_head succeeded: the head is at `vq` and may be written. -/
structure Prepared (c : Cfg) (s s' : S) (vts vt vh vq : Nat) : Prop where
  le : vh ≤ vq
  mv : vq = vh ∨ (vh % c.ppb = 0 ∧ vq % c.ppb = 0)
  jh : JH c s s' vq
  dirty : s'.j.dirty = true
  keep : CKeep c s.n s'.n vh vq noEx
  geo : Geo0 c s' vts vt vq
  ready : HeadOK c s' vq
  winN : c.Win vts (c.nextV vq)
  skip : ∀ b, vh / c.ppb ≤ b → b < vq / c.ppb → s.n.chip.bad (b % c.numBlocks) = true
  fresh : vh % c.ppb = 0 → ∀ p, p / c.ppb = c.ph vq / c.ppb →
    s'.n.chip.page p = some (c.clip Buf.ff) ∧ s'.n.chip.free p = true
  same : vh % c.ppb ≠ 0 → s'.n = s.n

/-- Power failed while the block at `vq` was being erased. -/
structure PErase (c : Cfg) (s s' : S) (vts vh vq : Nat) : Prop where
  le : vh ≤ vq
  al : vh % c.ppb = 0
  al' : vq % c.ppb = 0
  skip : ∀ b, vh / c.ppb ≤ b → b < vq / c.ppb → s.n.chip.bad (b % c.numBlocks) = true
  good : s.n.chip.bad (c.ph vq / c.ppb) = false
  time : s'.n.time = s.n.time + 1
  chip : s'.n.chip = s.n.chip ∨ s'.n.chip = s.n.chip.erased c (c.ph vq / c.ppb) ∨
    s'.n.chip = s.n.chip.tornBlock c s.n.time (c.ph vq / c.ppb)
  win : c.Win vts vq

/-- prepare_head failed to erase the block at `vq`. -/
structure PrepFailed (c : Cfg) (s s' : S) (vts vt vh vq : Nat) : Prop where
  le : vh ≤ vq
  al : vh % c.ppb = 0
  al' : vq % c.ppb = 0
  jh : JH c s s' vq
  keep : CKeep c s.n s'.n vh vq noEx
  geo : Geo0 c s' vts vt vq
  skip : ∀ b, vh / c.ppb ≤ b → b < vq / c.ppb → s.n.chip.bad (b % c.numBlocks) = true
  fate : c.env.erase s.n.time = .fail
  time : s.n.time < s'.n.time

/-- A push gave up before anything was written: the head is at `vq`, whose block may have been erased. -/
structure Soft (c : Cfg) (s s' : S) (vts vh vq : Nat) : Prop where
  le : vh ≤ vq
  mv : vq = vh ∨ (vh % c.ppb = 0 ∧ vq % c.ppb = 0)
  jh : JH c s s' vq
  win : c.Win vts vq
  alive : s'.n.dead = false
  noub : s'.n.ub = false
  dirty : s' = s ∨ s'.j.dirty = true
  keep : CKeep c s.n s'.n vh vq noEx
  skip : ∀ b, vh / c.ppb ≤ b → b < vq / c.ppb → s.n.chip.bad (b % c.numBlocks) = true
  fresh : s'.n = s.n ∨ (vh % c.ppb = 0 ∧ ∀ p, p / c.ppb = c.ph vq / c.ppb →
    s'.n.chip.page p = some (c.clip Buf.ff) ∧ s'.n.chip.free p = true)

theorem Soft.refl {s : S} {vts vt vh : Nat} (g : Geo0 c s vts vt vh) : Soft c s s vts vh vh :=
  ⟨Nat.le_refl _, Or.inl rfl, ⟨⟨s.j.dirty, s.j.bbCurrent, s.j.bbLast, by rw [← g.eh, ← g.ep]; rfl⟩, rfl⟩, g.win, g.alive, g.noub,
    Or.inl rfl, CKeep.refl _ _, fun b h1 h2 => by omega, Or.inl rfl⟩

theorem Prepared.soft {s s' : S} {vts vt vh vq : Nat} (h : Prepared c s s' vts vt vh vq) : Soft c s s' vts vh vq := by
  refine ⟨h.le, h.mv, h.jh, h.geo.win, h.geo.alive, h.geo.noub, Or.inr h.dirty, h.keep, h.skip, ?_⟩
  by_cases hv : vh % c.ppb = 0
  · exact Or.inr ⟨hv, h.fresh hv⟩
  · exact Or.inl (h.same hv)

theorem Soft.geo (hc : c.Valid) {s s' : S} {vts vt vh vq : Nat} (g : Geo c s vts vt vh) (h : Soft c s s' vts vh vq) : Geo c s' vts vt vq := by
  have hu : c.isU vq := by
    rcases h.mv with e | e
    · rw [e]; exact g.uh
    · exact isU_of_aligned hc e.2
  refine ⟨g.toGeo0.mk' h.jh h.le hu h.win h.alive h.noub, fun hv => ?_⟩
  have e : vq = vh := by
    rcases h.mv with e | e
    · exact e
    · exact absurd e.2 hv
  subst e
  have := g.hfree hv
  rcases h.fresh with hn | ⟨h0, _⟩
  · unfold HeadOK at this ⊢; rw [hn]; exact this
  · exact absurd h0 hv

theorem prepareHead_cases (hc : c.Valid) {s : S} {vts vt vh : Nat} (g : Geo c s vts vt vh) :
    (∃ s' vq, prepareHead c s = (.ok (), s') ∧ Prepared c s s' vts vt vh vq) ∨
    (∃ s' vq, prepareHead c s = (.error .badBlock, s') ∧ PrepFailed c s s' vts vt vh vq) ∨
    (∃ s' e, prepareHead c s = (.error e, s') ∧ e ≠ .badBlock ∧ e ≠ .recover ∧ s'.n.ub = false ∧
      (e = .powerLoss → ∃ vq, PErase c s s' vts vh vq) ∧ (e ≠ .powerLoss → ∃ vq, Soft c s s' vts vh vq)) := by
  have h := prepareHead_spec hc g
  generalize prepareHead c s = r at h ⊢
  obtain ⟨r1, s'⟩ := r
  cases h with
  | stay _ hv hj hn hd hw =>
    left
    have hal : s'.n.dead = false := by rw [hn]; exact g.alive
    have hub : s'.n.ub = false := by rw [hn]; exact g.noub
    refine ⟨s', vh, rfl, Nat.le_refl _, Or.inl rfl, hj, hd, by rw [hn]; exact CKeep.refl _ _,
      g.toGeo0.mk' hj (Nat.le_refl _) g.uh g.win hal hub, ?_, hw, fun b h1 h2 => by omega, fun h => absurd h hv, fun _ => hn⟩
    have := g.hfree hv
    unfold HeadOK at this ⊢
    rw [hn]; exact this
  | erased _ vq hle hv hv' hj hd hskip hgood hn hfate hw =>
    left
    have hal : s'.n.dead = false := by rw [hn]; exact g.alive
    have hub : s'.n.ub = false := by rw [hn]; exact g.noub
    refine ⟨s', vq, rfl, hle, Or.inr ⟨hv, hv'⟩, hj, hd, ?_,
      g.toGeo0.mk' hj hle (isU_of_aligned hc hv') hw hal hub, ?_, ?_, hskip,
      fun _ p hp => by rw [hn]; simp [Nand.eraseTo, Chip.erased, hp], fun h => absurd hv h⟩
    · rw [hn]
      exact blk_changed_keep hle hv' (fun x hx => by simp [Nand.eraseTo, Chip.erased, hx])
        (fun x hx => by simp [Nand.eraseTo, Chip.erased, hx]) rfl
    · rw [HeadOK, hn]
      refine ⟨hgood, fun i _ hi => ?_⟩
      have hP := ppb_pos c
      have : (c.ph vq / c.ppb * c.ppb + i) / c.ppb = c.ph vq / c.ppb :=
        div_of_range hP (by omega) (by omega)
      simp [Nand.eraseTo, Chip.erased, this]
    · have := (nextV_blk_aligned hc hv').2
      unfold Cfg.Win; rw [this]; exact hw
  | failed _ vq hle hv hv' hj hskip hgood hn hfate hw =>
    right; left
    have hal : s'.n.dead = false := by rw [hn]; exact g.alive
    have hub : s'.n.ub = false := by rw [hn]; exact g.noub
    refine ⟨s', vq, rfl, hle, hv, hv', hj, ?_,
      g.toGeo0.mk' hj hle (isU_of_aligned hc hv') hw hal hub, hskip, hfate,
      by rw [hn]; exact Nat.lt_succ_self _⟩
    rw [hn]
    exact blk_changed_keep hle hv' (fun x hx => by simp [Nand.eraseTo, Chip.garbledBlock, hx])
      (fun x hx => by simp [Nand.eraseTo, Chip.garbledBlock, hx]) rfl
  | power _ vq hle hv hv' hskip hgood hub hdead ht hchip hw =>
    right; right
    exact ⟨s', _, rfl, by decide, by decide, hub, fun _ => ⟨vq, hle, hv, hv', hskip, hgood, ht, hchip, hw⟩,
      fun h => absurd rfl h⟩
  | full _ e vq he hn hle hmv hj hd hskip hw =>
    right; right
    refine ⟨s', e, rfl, ?_, ?_, by rw [hn]; exact g.noub, ?_, fun _ => ⟨vq, hle, hmv, hj, hw, by rw [hn]; exact g.alive,
      by rw [hn]; exact g.noub, hd, by rw [hn]; exact (CKeep.refl _ _).mono hle (fun _ h => h), hskip, Or.inl hn⟩⟩
    · rcases he with h | h <;> rw [h] <;> decide
    · rcases he with h | h <;> rw [h] <;> decide
    · intro h; rcases he with h' | h' <;> rw [h'] at h <;> cases h

/-! ### Programming the head page -/

/-- Outcome of writing the page at the head. -/
inductive WrOut (c : Cfg) (s : S) (vh : Nat) (Pd : Option Buf → Prop) : Except Err Unit × S → Prop
  | ok (s' : S) (hj : s'.j = s.j) (hcnt : s'.count = s.count) (hal : s'.n.dead = false)
      (hub : s'.n.ub = false) (hat : OnlyAt s.n s'.n (c.ph vh))
      (hd : Pd (s'.n.chip.page (c.ph vh))) : WrOut c s vh Pd (.ok (), s')
  | fail (s' : S) (hj : s'.j = s.j) (hcnt : s'.count = s.count) (hal : s'.n.dead = false)
      (hub : s'.n.ub = false) (hat : OnlyAt s.n s'.n (c.ph vh))
      (hf : c.env.prog s.n.time = .fail) (ht : s'.n.time = s.n.time + 1) :
      WrOut c s vh Pd (.error .badBlock, s')
  | stop (s' : S) (e : Err) (h1 : e ≠ .badBlock) (h2 : e ≠ .recover) (hub : s'.n.ub = false)
      (hcr : e = .powerLoss → OnlyAt s.n s'.n (c.ph vh) ∧ s'.n.time = s.n.time + 1 ∧
        (s'.n.chip.free (c.ph vh) = true → s.n.chip.free (c.ph vh) = true))
      (hsf : e ≠ .powerLoss → s' = s) :
      WrOut c s vh Pd (.error e, s')

/-- A page writer: whenever the head is writable it behaves as `WrOut`. -/
def WrSpec (c : Cfg) (wr : S → Except Err Unit × S) (Pd : S → Option Buf → Prop) : Prop :=
  ∀ s vh, s.j.head = c.ph vh → s.n.dead = false → s.n.ub = false → HeadOK c s vh →
    WrOut c s vh (Pd s) (wr s)

theorem headOK_canProg (hc : c.Valid) {s : S} {v k : Nat} (h : HeadOK c s v)
    (hk : v % c.ppc + k < c.ppc) : s.n.chip.canProg c (c.ph (v + k)) = true := by
  have hm := mod_mod_ppc hc v
  have hl := mod_ppb_lt c v
  obtain ⟨m, hm2⟩ := hc.ppc_dvd
  have hk2 : v % c.ppb + k < c.ppb := by
    have d := div_mod_range (v % c.ppb) c.ppc
    rw [hm] at d
    have h4 : v % c.ppb / c.ppc < m := by
      rw [Nat.div_lt_iff_lt_mul (ppc_pos c), Nat.mul_comm, ← hm2]; exact hl
    have h5 : (v % c.ppb / c.ppc + 1) * c.ppc ≤ m * c.ppc := Nat.mul_le_mul_right _ h4
    rw [Nat.add_mul, Nat.one_mul] at h5
    have h6 : m * c.ppc = c.ppb := by rw [hm2, Nat.mul_comm]
    omega
  obtain ⟨a1, a2⟩ := div_add_lt hk2
  have e1 : c.ph (v + k) / c.ppb = c.ph v / c.ppb := by rw [ph_div_ppb, ph_div_ppb, a1]
  have e2 : c.ph (v + k) % c.ppb = v % c.ppb + k := by rw [ph_mod_ppb, a2]
  apply canProg_of (ph_lt hc _)
  · rw [e1]; exact h.1
  · intro i h1 h2; rw [e1]; exact h.2 i (by omega) h2

/-- What `dhara_journal_enqueue` leaves in the page. -/
def dataPd (c : Cfg) (d : Option Buf) : S → Option Buf → Prop := fun s pg =>
  match d with
  | some b => pg = some (c.clip b)
  | none => pg = s.n.chip.page s.j.head

/-- What `dhara_journal_copy` leaves in the page. -/
def copyPd (c : Cfg) (p : Nat) : S → Option Buf → Prop := fun s pg =>
  ∃ b, s.n.chip.page p = some b ∧ pg = some (c.clip b)

theorem prog_out (hc : c.Valid) {s : S} {vh : Nat} {d : Buf} {Pd : Option Buf → Prop}
    (hh : s.j.head = c.ph vh) (hal : s.n.dead = false) (hub : s.n.ub = false) (hok : HeadOK c s vh)
    (hPd : Pd (some (c.clip d))) : WrOut c s vh Pd (progS c s.j.head d s) := by
  have hcan := headOK_canProg hc hok (k := 0) (by have := mod_ppc_lt c vh; omega)
  rw [Nat.add_zero] at hcan
  unfold progS
  rw [hh]
  rcases nandProg_spec (c := c) (d := d) hal hub hcan with ⟨hf, h⟩ | ⟨hf, h⟩ | ⟨n', h, h2, h3, h4, h5⟩
  · rw [h]
    refine .ok _ rfl rfl hal hub (onlyAt_programmed _ _ _) ?_
    simpa [Nand.progTo, Chip.programmed, upd] using hPd
  · rw [h]; exact .fail _ rfl rfl hal hub (onlyAt_garbled _ _ _ _) hf rfl
  · rw [h]
    refine .stop _ _ (by decide) (by decide) h2 (fun _ => ⟨?_, h4, ?_⟩) (fun h => absurd rfl h)
    · rcases h5 with h5 | h5 | h5
      · exact ⟨fun _ _ => by rw [h5], fun _ _ => by rw [h5], by rw [h5]⟩
      · have := onlyAt_programmed (c := c) s.n (c.ph vh) d
        exact ⟨fun x hx => by simp only [h5]; exact this.page x hx,
          fun x hx => by simp only [h5]; exact this.free x hx, by simp only [h5]; exact this.bad⟩
      · have := onlyAt_garbled (f := s.n.failed) (c := c) s.n s.n.time (c.ph vh) false
        exact ⟨fun x hx => by simp only [h5]; exact this.page x hx,
          fun x hx => by simp only [h5]; exact this.free x hx, by simp only [h5]; exact this.bad⟩
    · rcases h5 with h5 | h5 | h5
      · rw [h5]; exact id
      · simp only [h5, Chip.programmed, upd]; simp; intro h _ _; exact h
      · simp only [h5, Chip.garbledPage, upd]; simp

theorem wrData_spec (hc : c.Valid) (d : Option Buf) : WrSpec c (wrData c d) (dataPd c d) := by
  intro s vh hh hal hub hok
  cases d with
  | none =>
    exact .ok _ rfl rfl hal hub ⟨fun _ _ => rfl, fun _ _ => rfl, rfl⟩ (by
      show _ = _; rw [hh])
  | some b => exact prog_out hc hh hal hub hok rfl

theorem wrCopy_spec (hc : c.Valid) (p : Nat) : WrSpec c (wrCopy c p) (copyPd c p) := by
  intro s vh hh hal hub hok
  unfold wrCopy nandCopy
  cases hr : nandRead c s.n p 0 c.pageSize with
  | error e =>
    simp only
    rcases nandRead_err hr with h | h <;> subst h <;> exact .stop _ _ (by decide) (by decide) hub (by intro h; cases h) (fun _ => rfl)
  | ok b =>
    simp only
    obtain ⟨pg, hpg, hb, _⟩ := nandRead_ok hr
    exact prog_out hc hh hal hub hok ⟨pg, hpg, by rw [hb, clip_slice_full]⟩

end Dhara

/-
Calls that fail although no program or erase operation fails during them: the invariant holds in the state they
leave behind. The hook of Inv2 is extended by a clock value and remembers whether anything failed since.
-/
import Verif.Proofs.Wr
import Verif.Proofs.Count
namespace Dhara

variable {c : Cfg}

theorem Soft.inv0 (hc : c.Valid) {s s' : S} {σ : Nat → Option Buf} {T : Gh c} (hG : T.Ok) {vts vt vh vr vq : Nat}
    (hI : Inv0 c s σ T vts vt vh vr) (h : Soft c s s' vts vh vq) (hE : Evo c s.n s'.n)
    (hn : ¬ Noisy c s.n.time s'.n.time) : Inv0 c s' σ T vts vt vq vr := by
  have hl1 := hI.geo.l1
  obtain ⟨d, x, y, hj⟩ := h.jh.1
  have hroot : s'.j.root = s.j.root := by rw [hj]; rfl
  have hfr := hI.tr.frame (s' := s') (vh' := vq) h.le (by
    intro v b1 b2 b3 b4 hb
    refine ⟨?_, h.keep.live hc h.win (by omega) b3, fun hb => ?_⟩
    · exact meta_stay hc hI.geo.toGeo0 (hI.rst 0 0 0) h.keep (by rw [hj]; rfl) h.win h.mv (by rw [hj]; rfl) (by rw [hj]; rfl)
        (fun _ _ _ _ => by rw [hj]; rfl) (by omega) b3
    · rw [h.keep.bad_eq, hb]; exact fun hn => hn.elim)
  refine ⟨h.geo hc hI.geo, ?_, by rw [hroot]; exact hfr.1, ?_, hG.soft hI h hE hn⟩
  · exact ⟨by rw [hj]; exact hI.calm.nr, by rw [hj]; exact hI.calm.rm, by rw [hj]; exact hI.calm.ed, by rw [hj]; exact hI.calm.bm⟩
  · rcases h.mv with e | ⟨_, e⟩
    · rcases hI.stab with h' | h'
      · left; intro h1 h2; rw [e] at h1 ⊢; rw [hroot] at h2; exact h' h1 h2
      · exact Or.inr fun t h1 h2 => h' t (by have := hE.time; omega) h2
    · exact Or.inl fun h1 _ => absurd (Nat.mod_eq_zero_of_dvd (Nat.dvd_trans hc.ppc_dvd (Nat.dvd_of_mod_eq_zero e))) h1

theorem Soft.cur (hc : c.Valid) {s s' : S} {σ : Nat → Option Buf} {T : Gh c} {vts vt vh vr vq : Nat}
    (hI : Inv0 c s σ T vts vt vh vr) (h : Soft c s s' vts vh vq) (x : Nat) (hx : Data (mtOf c s') s'.j.root x) :
    Data (mtOf c s) s.j.root x := by
  have hl1 := hI.geo.l1
  obtain ⟨d, x', y, hj⟩ := h.jh.1
  have hroot : s'.j.root = s.j.root := by rw [hj]; rfl
  have hfr := hI.tr.frame (s' := s') (vh' := vq) h.le (by
    intro v b1 b2 b3 b4 hb
    refine ⟨?_, h.keep.live hc h.win (by omega) b3, fun hb => ?_⟩
    · exact meta_stay hc hI.geo.toGeo0 (hI.rst 0 0 0) h.keep (by rw [hj]; rfl) h.win h.mv (by rw [hj]; rfl) (by rw [hj]; rfl)
        (fun _ _ _ _ => by rw [hj]; rfl) (by omega) b3
    · rw [h.keep.bad_eq, hb]; exact fun hn => hn.elim)
  rw [hroot] at hx
  exact hfr.2.2.2 x hx

/-- The hook `T`, which also remembers the clock value `t0`: nothing failed since, or a recovery is or was going on. -/
def Gh.track (T : Gh c) (t0 : Nat) : Gh c where
  t := T.t
  W := T.W
  D0 := fun s vts vt vh vr => T.D0 s vts vt vh vr ∧ t0 ≤ s.n.time
  D1 := fun s vts vt vh vR vM => T.D1 s vts vt vh vR vM ∧ Noisy c t0 s.n.time
  X := T.X
  U := fun σ e s => T.U σ e s ∧ (e ≠ .powerLoss → e ≠ .ub → e ≠ .diverge → ¬ Noisy c t0 s.n.time → Calm0 c s σ T)

theorem Inv0.untrack {s : S} {σ : Nat → Option Buf} {T : Gh c} {t0 vts vt vh vr : Nat} (h : Inv0 c s σ (T.track t0) vts vt vh vr) :
    Inv0 c s σ T vts vt vh vr := ⟨h.geo, h.calm, h.tr, h.stab, h.ext.1⟩

theorem Inv1.untrack {s : S} {σ : Nat → Option Buf} {T : Gh c} {pend : Nat → Prop} {t0 vts vt vh vr vR vM vn : Nat}
    (h : Inv1 c s σ (T.track t0) pend vts vt vh vr vR vM vn) : Inv1 c s σ T pend vts vt vh vr vR vM vn :=
  ⟨h.geo, h.rcv, h.rgeo, h.tr, h.base, h.enum, h.notM, h.ext.1⟩

theorem Gh.track_ok (hc : c.Valid) {T : Gh c} (hG : T.Ok) (t0 : Nat) : (T.track t0).Ok where
  upow := ⟨hG.upow, fun h => absurd rfl h⟩
  usoft := fun h h1 h2 h3 h4 => ⟨hG.usoft h.untrack h1 h2 h3 h4, fun _ _ _ hn => ⟨_, _, _, _, h1.inv0 hc hG h.untrack h2 fun hn' => hn (hn'.mono h.ext.2 (Nat.le_refl _))⟩⟩
  unoisy := fun h h1 h2 h3 => ⟨hG.unoisy h.untrack h1 h2 h3, fun _ _ _ hn => absurd (h1.mono h.ext.2 (Nat.le_refl _)) hn⟩
  uhard := fun h h1 h2 h3 => ⟨hG.uhard h.untrack h1 h2 h3, fun _ _ _ hn => absurd (h.ext.2.mono (Nat.le_refl _) h1) hn⟩
  ustuck := fun h1 h2 h3 h4 h5 h h6 => ⟨hG.ustuck h1 h2 h3 h4 h5 h.untrack h6, fun _ _ _ hn => absurd (h6.mono h.ext.2 (Nat.le_refl _)) hn⟩
  ucong := fun {e s s' σ} h h1 h2 => ⟨hG.ucong h.1 h1 h2, fun a b d hn => by
    obtain ⟨vts, vt, vh, vr, hI⟩ := h.2 a b d (by rw [← h1]; exact hn)
    have hs : s' = cntS s s'.count := by unfold cntS; rw [← h1, ← h2]
    rw [hs]
    exact ⟨_, _, _, _, hI.cnt hG _⟩⟩
  udiv := hG.udiv.imp (fun h σ s => ⟨h σ s, fun _ _ hd => absurd rfl hd⟩) id
  wmono := hG.wmono
  cong0 := fun h h1 h2 h3 h4 => ⟨hG.cong0 h.1 h1 h2 h3 h4, by rw [h1]; exact h.2⟩
  cong1 := fun h h1 h2 => ⟨hG.cong1 h.1 h1 h2, by rw [h1]; exact h.2⟩
  tick := fun {s} _ _ _ _ h => ⟨hG.tick h.1, by
    have : (Dhara.tick s).n.time = s.n.time + 1 := rfl
    have := h.2
    omega⟩
  congX := hG.congX
  push0 := fun h h1 h2 h3 h4 h5 h6 => ⟨hG.push0 h.untrack h1 h2 h3 h4 h5 h6, Nat.le_trans h.ext.2 h5.time⟩
  erase := fun h => hG.erase h.untrack
  page := fun h => hG.page h.untrack
  twin := fun h => hG.twin h.untrack
  noisy := fun h => hG.noisy h.untrack
  skip := fun h => hG.skip h.untrack
  start := fun h h1 h2 h3 h4 h5 => ⟨hG.start h.untrack h1 h2 h3 h4 h5, by
    obtain ⟨t, a, b, d⟩ := h2.fail
    exact ⟨t, Nat.le_trans h.ext.2 a, b, Or.inl d⟩⟩
  rok := fun h h1 h2 h3 h4 => ⟨hG.rok h.untrack h1 h2 h3 h4, h.ext.2.mono (Nat.le_refl _) h3.time⟩
  done := fun h h1 h2 h3 h4 h5 h6 h7 => ⟨hG.done h.untrack h1 h2 h3 h4 h5 h6 h7, by
    obtain ⟨t, a, b, _⟩ := h.ext.2
    have := h6.time
    omega⟩
  again := fun h h1 h2 h3 => ⟨hG.again h.untrack h1 h2 h3, h.ext.2.mono (Nat.le_refl _) h2.time⟩
  crash1 := fun h => hG.crash1 h.untrack
  tail := fun h h1 h2 h3 h4 h5 h6 h7 h8 => ⟨hG.tail h.untrack h1 h2 h3 h4 h5 h6 h7 h8, by rw [h1]; exact h.ext.2⟩
  clear := fun h h1 h2 h3 => ⟨hG.clear h.untrack h1 h2 h3, by rw [h1]; exact h.ext.2⟩
  soft := fun h h1 h2 h3 => ⟨hG.soft h.untrack h1 h2 h3, Nat.le_trans h.ext.2 h2.time⟩

end Dhara

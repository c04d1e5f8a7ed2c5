/-
The balance invariant of a healthy chip is kept by collection (dhara/map.c:212-251, 308-320, 508-530).
-/
import Verif.Proofs.Healthy
import Verif.Proofs.Top
import Verif.Proofs.Epoch
namespace Dhara

variable {c : Cfg}

/-- The page at position `v` of the queue holds the current version of a sector. -/
def cur (c : Cfg) (s : S) (v : Nat) : Prop := Data (mtOf c s) s.j.root (c.ph v)

theorem live_count {s : S} {σ : Nat → Option Buf} {T : Gh c} {vts vt vh vr n : Nat} (hI : Inv0 c s σ T vts vt vh vr)
    (hcnt : Cnt σ n) : live (cur c s) vt vh ≤ n := by
  classical
  obtain ⟨F, h1, h2⟩ := hcnt
  rw [← h2]
  unfold live
  apply Finset.card_le_card_of_injOn (fun v => match mtOf c s (c.ph v) with | some r => r.id | none => 0)
  · intro v hv
    have hv := (Finset.mem_filter.1 hv).2
    obtain ⟨rx, a, b, d⟩ := hv
    show _ ∈ F
    simp only [a]
    rw [h1]
    obtain ⟨p, _, _, h⟩ := hI.tr.holds rx.id _ b d
    exact ⟨b, by rw [h]; rfl⟩
  · intro v hv w hw e
    obtain ⟨v1, v2⟩ := Finset.mem_filter.1 hv
    obtain ⟨w1, w2⟩ := Finset.mem_filter.1 hw
    rw [Finset.mem_Ico] at v1 w1
    obtain ⟨rx, a, b, d⟩ := v2
    obtain ⟨ry, a', b', d'⟩ := w2
    simp only [a, a'] at e
    rw [e, d'] at d
    have := hI.geo.l1
    exact hI.geo.win.inj (by omega) (by omega) (by omega) (by omega) (Option.some.inj d).symm

theorem cur_user {s : S} {σ : Nat → Option Buf} {T : Gh c} {vts vt vh vr v : Nat} (hI : Inv0 c s σ T vts vt vh vr)
    (h1 : vt ≤ v) (h2 : v < vh) (h : cur c s v) : c.isU v := by
  obtain ⟨w, a1, a2, a3, a4, a5, _⟩ := hI.tr.lt (Data.used h)
  have := hI.geo.l1
  have : v = w := hI.geo.win.inj (by omega) (by omega) (by omega) (by omega) a1
  rw [this]; exact a5

/-- The balance, or a short queue. -/
def SBal (c : Cfg) (D : Nat → Prop) (vt vh j : Nat) : Prop := Bal c D c.gk c.bz vt vh j ∨ c.u vh - c.u vt ≤ 1

/-- The balance, except that the page at the tail may be one that a power cycle brought back into the queue. -/
def WBal (c : Cfg) (D : Nat → Prop) (vt vh j : Nat) : Prop :=
  SBal c D vt vh j ∨ (¬ D vt ∧ vt < vh ∧ Bal c D c.gk c.bz (c.nextV vt) vh (j + 1))

theorem SBal.drop {D : Nat → Prop} {vt vh j j' : Nat} (h : SBal c D vt vh j) (hj : j' ≤ j) : SBal c D vt vh j' :=
  h.imp (fun h => h.drop hj) id

theorem WBal.drop {D : Nat → Prop} {vt vh j j' : Nat} (h : WBal c D vt vh j) (hj : j' ≤ j) : WBal c D vt vh j' :=
  h.imp (fun h => h.drop hj) (fun ⟨a, b, d⟩ => ⟨a, b, d.drop (by omega)⟩)

theorem WBal.sub {D D' : Nat → Prop} {vt vh j : Nat} (h : WBal c D vt vh j) (hD : ∀ v, vt ≤ v → v < vh → D' v → D v) :
    WBal c D' vt vh j := by
  rcases h with (h | h) | ⟨a, b, d⟩
  · exact Or.inl (Or.inl (h.sub hD))
  · exact Or.inl (Or.inr h)
  · have := lt_nextV c vt
    exact Or.inr ⟨fun h => a (hD _ (Nat.le_refl _) b h), b, d.sub fun v h1 h2 => hD v (by omega) h2⟩

/-- Dropping a page that is not live restores the balance. -/
theorem WBal.garbage (hc : c.Valid) {D D' : Nat → Prop} {vt vh j : Nat} (h : WBal c D vt vh j) (hu : c.isU vt)
    (hD : ∀ v, vt ≤ v → v < vh → D' v → D v) : SBal c D' (c.nextV vt) vh (j + 1) := by
  have hl := lt_nextV c vt
  have e := u_nextV hc hu
  rcases h with (h | h) | ⟨a, b, d⟩
  · exact Or.inl (h.garbage hc hu hD)
  · right; omega
  · exact Or.inl (d.sub fun v h1 h2 => hD v (by omega) h2)

theorem WBal.live {D : Nat → Prop} {vt vh j : Nat} (h : WBal c D vt vh j) (hD : D vt) : SBal c D vt vh j := by
  rcases h with h | ⟨a, _⟩
  · exact h
  · exact absurd hD a

/-- What the checkpoint of a clean journal says: the tail at the time (`v0`), from which a power cycle would start again. -/
structure CkH (c : Cfg) (s : S) (v0 vt vh vr : Nat) : Prop where
  pg : ∃ b, s.n.chip.page (c.ph (vr + 1)) = some b ∧ hdrGetTail b = c.ph v0 ∧ HdrBB c b
  rt : s.j.root = c.ph vr
  la : c.last vr
  hd : vh = vr + 2
  lr : v0 ≤ vr
  u0 : c.isU v0
  le : v0 ≤ vt
  win : c.Win v0 vh
  bal : WBal c (cur c s) v0 vh 0
  zero : s.count = 0 → c.u vh - c.u v0 ≤ 1

/-- The state of a healthy chip, with `j` collection steps in hand. -/
structure HI (c : Cfg) (s : S) (σ : Nat → Option Buf) (vts vt vh vr j : Nat) : Prop where
  inv : Inv0 c s σ (Gh.triv c 0) vts vt vh vr
  sound : Sound c s.n
  bb : BB c s.j
  cnt : Cnt σ s.count
  le : s.count ≤ c.mcap
  sync : c.gk * (c.u (vh / c.ppc * c.ppc) - c.u vts) ≤ c.bz + c.gk
  bal : WBal c (cur c s) vt vh j
  zero : s.count = 0 → c.u vh - c.u vt ≤ 1
  ck : s.j.dirty = false → (vh = 0 ∧ s.j.root = NONE) ∨ ∃ v0 vl, CkH c s v0 vt vh vl

theorem Fits.one (h : Fits c) : c.gk * 1 ≤ c.bz := by
  obtain ⟨_, h2⟩ := h.split
  have := Nat.mul_le_mul_left c.gk h2
  unfold Cfg.bz; omega

theorem WBal.q (hc : c.Valid) (hF : Fits c) {D : Nat → Prop} {vt vh j : Nat} (h : WBal c D vt vh j) (hu : c.isU vt) (hu' : c.isU vh)
    (hle : vt ≤ vh) : c.gk * (c.u vh - c.u vt) ≤ c.bz + c.gk := by
  rcases h with (h' | h') | ⟨_, h1, h'⟩
  · have := h'.q hle; omega
  · have := Nat.le_trans (Nat.mul_le_mul_left c.gk h') hF.one; omega
  · have := h'.q (nextV_le hc hu hu' h1)
    have e := u_nextV hc hu
    have e2 := u_mono c (nextV_le hc hu hu' h1)
    rw [show c.u vh - c.u vt = (c.u vh - c.u (c.nextV vt)) + 1 by omega, Nat.mul_add, Nat.mul_one]
    omega

theorem HI.q (hc : c.Valid) (hF : Fits c) {s : S} {σ : Nat → Option Buf} {vts vt vh vr j : Nat} (h : HI c s σ vts vt vh vr j) :
    c.gk * (c.u vh - c.u vt) ≤ c.bz + c.gk := h.bal.q hc hF h.inv.geo.ut h.inv.geo.uh h.inv.geo.l2

theorem HI.drop {s : S} {σ : Nat → Option Buf} {vts vt vh vr j j' : Nat} (h : HI c s σ vts vt vh vr j) (hj : j' ≤ j) :
    HI c s σ vts vt vh vr j' :=
  ⟨h.inv, h.sound, h.bb, h.cnt, h.le, h.sync, h.bal.drop hj, h.zero, h.ck⟩

/-- A call's error on a healthy chip. -/
def Halt (c : Cfg) (s : S) (e : Err) : Prop := ¬ Fatal e ∧ (e = .ecc → ∃ σ vts vt vh vr, HI c s σ vts vt vh vr 0)

theorem HI.halt {s : S} {σ : Nat → Option Buf} {vts vt vh vr j : Nat} (h : HI c s σ vts vt vh vr j) {e : Err} (he : ¬ Fatal e) :
    Halt c s e := ⟨he, fun _ => ⟨_, _, _, _, _, h.drop (Nat.zero_le _)⟩⟩

/-- An E_ECC while pushing changes nothing that matters. -/
theorem HI.soft (hc : c.Valid) (hH : Healthy c) {s s' : S} {σ : Nat → Option Buf} {vts vt vh vr j n' k : Nat} (h : HI c s σ vts vt vh vr j)
    (hS : Soft c (ckS (cntS s n') k) s' vts vh vh) (hE : Evo c s.n s'.n) (hbb : BB c s'.j) :
    HI c (cntS s' s.count) σ vts vt vh vr 0 := by
  have hI := (h.inv.cnt Gh.triv_ok n').ck Gh.triv_ok k
  have hI2 := hS.inv0 hc Gh.triv_ok hI hE (fun ⟨t, _, _, hn⟩ => hn.elim (hH t).1 (hH t).2)
  have hcur : ∀ v, cur c s' v → cur c s v := by
    intro v hv
    have := hS.cur hc hI (c.ph v) hv
    rw [mtOf_ck] at this
    exact this
  refine ⟨hI2.cnt Gh.triv_ok _, fun b hb => ?_, hbb, h.cnt, h.le, h.sync, ?_, h.zero, ?_⟩
  · show s'.n.chip.bad b = false
    rw [hS.keep.bad_eq]
    · exact h.sound b hb
    · exact fun h => h.elim
  · exact (h.bal.drop (Nat.zero_le _)).sub fun v _ _ hv => hcur v hv
  · intro hd
    rcases hS.dirty with e | e
    · subst e
      rcases h.ck hd with k | ⟨v0, vl, k⟩
      · exact Or.inl k
      exact Or.inr ⟨v0, vl, k.pg, k.rt, k.la, k.hd, k.lr, k.u0, k.le, k.win, k.bal.sub fun v _ _ hv => hcur v hv, k.zero⟩
    · have hd : s'.j.dirty = false := hd
      rw [e] at hd; cases hd

theorem sync_next (hc : c.Valid) {vh : Nat} (hu : c.isU vh) :
    (c.last vh → c.nextV vh / c.ppc * c.ppc = c.nextV vh) ∧ (¬ c.last vh → c.nextV vh / c.ppc = vh / c.ppc) := by
  constructor
  · intro h
    obtain ⟨a, b, _⟩ := is_last hc h
    have := div_mod_range (c.nextV vh) c.ppc
    rw [a] at this ⊢
    omega
  · intro h
    obtain ⟨a, _, b, _⟩ := not_last hc hu h
    rw [a, b]

theorem deq_root (s : S) : (dequeue c s).j.root = s.j.root ∨ (dequeue c s).j.root = NONE := by
  unfold dequeue
  split
  · exact Or.inl rfl
  · simp only
    split <;> split
    · exact Or.inr rfl
    · exact Or.inl rfl
    · exact Or.inr rfl
    · exact Or.inl rfl

theorem deq_same (s : S) : (dequeue c s).j.pageBuf = s.j.pageBuf ∧ (dequeue c s).j.recoverMeta = s.j.recoverMeta ∧
    (dequeue c s).j.recoverRoot = s.j.recoverRoot ∧ (dequeue c s).j.bbCurrent = s.j.bbCurrent ∧
    (dequeue c s).j.bbLast = s.j.bbLast ∧ (dequeue c s).j.head = s.j.head := by
  unfold dequeue
  split
  · exact ⟨rfl, rfl, rfl, rfl, rfl, rfl⟩
  · simp only
    split <;> split <;> exact ⟨rfl, rfl, rfl, rfl, rfl, rfl⟩

theorem deq_dirty (s : S) : (dequeue c s).j.dirty = s.j.dirty := by
  unfold dequeue
  split
  · rfl
  · simp only
    split <;> split <;> rfl

theorem deq_cur {s : S} {v : Nat} (h : cur c (dequeue c s) v) : cur c s v := by
  obtain ⟨h1, h2, h3, _, _, h4⟩ := deq_same (c := c) s
  have e : mtOf c (dequeue c s) = mtOf c s := mtOf_j (dequeue_n s) h1 h4 h2 h3
  unfold cur at h ⊢
  rw [e] at h
  rcases deq_root (c := c) s with hr | hr
  · rw [hr] at h; exact h
  · obtain ⟨rx, _, _, h⟩ := h
    rw [dict_none hr] at h; cases h

/-- A dequeue leaves the checkpoint alone. -/
theorem CkH.deq {s : S} {v0 vt vt' vh vr : Nat} (h : CkH c s v0 vt vh vr) (hc : (dequeue c s).count = s.count) (hle : vt ≤ vt') (hr : (dequeue c s).j.root ≠ NONE) :
    CkH c (dequeue c s) v0 vt' vh vr := by
  have := h.le
  refine ⟨by rw [dequeue_n]; exact h.pg, ?_, h.la, h.hd, h.lr, h.u0, by omega, h.win, h.bal.sub fun v _ _ hv => deq_cur hv, ?_⟩
  · rcases deq_root (c := c) s with e | e
    · rw [e]; exact h.rt
    · exact absurd e hr
  · rw [hc]; exact h.zero

theorem deq_healthy (hc : c.Valid) {s : S} {σ : Nat → Option Buf} {vts vt vh vr : Nat}
    (hI : Inv0 c s σ (Gh.triv c 0) vts vt vh vr) (hlt : vt < vh) (hnd : ¬ cur c s vt)
    (hdt : (∀ t, t < NONE → σ t = none) → s.j.dirty = true) :
    ∃ vts', Inv0 c (dequeue c s) σ (Gh.triv c 0) vts' (c.nextV vt) vh vr ∧ (dequeue c s).count = s.count ∧ vts ≤ vts' ∧
      (s.j.dirty = false → vts' = c.nextV vt) := by
  obtain ⟨vts', vt', h1, h2, h3, _⟩ := dequeue_inv hc Gh.triv_ok hI (fun _ => hnd) hdt
  obtain ⟨e, h4, h5⟩ := h3 hlt
  subst e
  refine ⟨vts', h1, h2, ?_, h4⟩
  have := lt_nextV c vt
  have := hI.geo.l1
  rcases hd : s.j.dirty with _ | _
  · have := h4 hd; omega
  · have := h5 hd; omega

/-- One collection step on the page at the tail. -/
theorem round_healthy (hc : c.Valid) (hF : Fits c) (hH : Healthy c) {s : S} {σ : Nat → Option Buf} {vts vt vh vr j : Nat}
    (h : HI c s σ vts vt vh vr j) (hj : j + 1 ≤ c.gk) (hlt : vt < vh) (hdc : s.j.dirty = true ∨ s.count ≠ 0) :
    (∃ e s', rawGc c (c.ph vt) s = (.error e, s') ∧ Halt c s' e) ∨
    (∃ s' vts' vh' vr', rawGc c (c.ph vt) s = (.ok (), s') ∧ HI c (dequeue c s') σ vts' (c.nextV vt) vh' vr' (j + 1) ∧
      (vh' = vh ∨ vh' = c.nextV vh) ∧ SBal c (cur c (dequeue c s')) (c.nextV vt) vh' (j + 1)) := by
  have hI := h.inv
  have g1 := hI.geo.l1
  have g2 := hI.geo.l2
  have hnx := nextV_le hc hI.geo.ut hI.geo.uh hlt
  have hlt' := lt_nextV c vt
  have hlh := lt_nextV c vh
  have eu := u_nextV hc hI.geo.ut
  have eh := u_nextV hc hI.geo.uh
  have em := u_mono c hnx
  have hq := h.q hc hF
  rcases rawGc_shape hc hI.tr hI.rmok rfl hI.geo.ut with ⟨e, hr, he⟩ | ⟨hr, hd⟩ | ⟨mt, hr, h3, h4, h5⟩
  · left; exact ⟨e, s, hr, h.halt (by rw [he]; unfold Fatal; decide)⟩
  · right
    obtain ⟨vts', i1, i2, i3, _⟩ := deq_healthy hc hI hlt hd (fun hz => hdc.resolve_right fun h1 => h1 (h.cnt.unique (Cnt.zero hz)))
    have d := deq_same (c := c) s
    have hsb : SBal c (cur c (dequeue c s)) (c.nextV vt) vh (j + 1) := h.bal.garbage hc hI.geo.ut (fun v _ _ hv => deq_cur hv)
    refine ⟨s, vts', vh, vr, hr, ⟨i1, by rw [dequeue_n]; exact h.sound, h.bb.congr d.2.2.2.1 d.2.2.2.2.1, by rw [i2]; exact h.cnt,
      by rw [i2]; exact h.le, ?_, Or.inl hsb, ?_, ?_⟩, Or.inl rfl, hsb⟩
    · refine Nat.le_trans (Nat.mul_le_mul_left _ ?_) h.sync
      have := u_mono c i3; omega
    · intro h0; rw [i2] at h0; have := h.zero h0; omega
    · intro hd'
      rw [deq_dirty] at hd'
      rcases h.ck hd' with k | ⟨v0, vl, k⟩
      · omega
      · refine Or.inr ⟨v0, vl, k.deq i2 (by omega) fun hn => ?_⟩
        have hz : ∀ t, t < NONE → σ t = none := fun t ht => i1.tr.emp t ht (by rw [hn]; exact dict_none rfl _)
        rcases hdc with h1 | h1
        · rw [h1] at hd'; cases hd'
        · exact h1 (h.cnt.unique (Cnt.zero hz))
  · have hI' := hI.ck Gh.triv_ok s.count
    rw [← mtOf_ck s s.count] at h4 h5
    obtain ⟨K, hK, hne⟩ := rawGc_plan (mt := mtOf c (ckS s s.count)) (root := (ckS s s.count).j.root) hI'.tr.ok h3 h4 h5
    have hFl : ∀ s', Fill c (ckS s s.count) s' (some mt) (copyPd c (c.ph vt)) vts vh
        (dict (mtOf c (ckS s s.count)) (ckS s s.count).j.root) σ σ :=
      fun s' => copy_fill hc hI'.geo hI'.tr (recOf_metaOf (b := mt)).1 (fun _ => h4) (fun _ _ _ _ _ => rfl)
        (fun t' ht _ hn => hI'.tr.emp t' ht hn) rfl
    have hcv : cur c s vt := by
      rw [mtOf_ck] at h4
      obtain ⟨_, rq, b1, b2, _⟩ := dict_sound hI.tr.ok (by omega) h4
      exact ⟨rq, b1, by rw [b2]; exact h3, by rw [b2]; exact h4⟩
    have key := push_healthy hc hH (wrCopy_spec hc (c.ph vt)) (wrCopy_evo _) (wrCopy_healthy hH _) hI' hK
      (hF.win hc hI.geo.toGeo0 h.sync) h.sound (h.bb.congr rfl rfl) rfl (fun s' _ => hFl s')
    rcases key with ⟨e, s', hp, he, hx⟩ | ⟨s', hp, P⟩
    · left
      refine ⟨e, s', hr.trans hp, he, fun h' => ?_⟩
      obtain ⟨x1, x2, x3⟩ := hx h'
      have h3 := h.soft hc hH (n' := s.count) x1 x2 x3
      have e2 : s'.count = s.count := x1.jh.2
      rw [← e2] at h3
      exact ⟨_, _, _, _, _, h3⟩
    · right
      obtain ⟨vts1, P1, P2, P3⟩ := P.inv
      have hkd : ∀ v, vt ≤ v → v < vh → cur c s' v → cur c s v ∧ v ≠ vt := by
        intro v a b hv
        have hw := hF.win hc hI.geo.toGeo0 h.sync
        rcases P.used _ (Data.used hv) with hx | hx
        · have := hw.inj (v := v) (w := vh) (by omega) (by omega) (by omega) (by omega) hx; omega
        · refine ⟨?_, fun hh => hne _ hx (by rw [hh])⟩
          have := hK.kd _ hx
          rw [mtOf_ck] at this
          exact this
      have hnc : ¬ cur c s' vt := fun hv => (hkd vt (Nat.le_refl _) hlt hv).2 rfl
      obtain ⟨vts', i1, i2, i3, i4⟩ := deq_healthy hc P1 (by omega) hnc (fun hz => by
        obtain ⟨b, _, _, h6⟩ := hI'.tr.holds _ _ h3 h4
        rw [hz _ h3] at h6; cases h6)
      have d := deq_same (c := c) s'
      have hcn : (dequeue c s').count = s.count := i2.trans P.cnt
      have hsb0 : SBal c (cur c s) vt vh j := h.bal.live hcv
      have hmv : ∀ D', (∀ v, c.nextV vt ≤ v → v < vh → D' v → cur c s v) → live D' (c.nextV vt) (c.nextV vh) ≤ c.mcap →
          SBal c D' (c.nextV vt) (c.nextV vh) (j + 1) := by
        intro D' hD hM
        rcases hsb0 with hb | hb
        · left
          refine hb.move hc hI.geo.ut hI.geo.uh hlt hcv hD hM ?_
          have := hF.bound (hb.q (by omega))
          have := hF.gk_le
          unfold Cfg.bz
          omega
        · right; omega
      have hsb : SBal c (cur c (dequeue c s')) (c.nextV vt) (c.nextV vh) (j + 1) :=
        hmv _ (fun v a b hv => (hkd v (by omega) b (deq_cur hv)).1) (live_count i1 h.cnt |>.trans h.le)
      refine ⟨s', vts', c.nextV vh, vh, hr.trans hp, ⟨i1, by rw [dequeue_n]; exact P.sound, P.bb.congr d.2.2.2.1 d.2.2.2.2.1,
        by rw [hcn]; exact h.cnt, by rw [hcn]; exact h.le, ?_, Or.inl hsb, ?_, ?_⟩, Or.inr rfl, hsb⟩
      · obtain ⟨n1, n2⟩ := sync_next hc hI.geo.uh
        by_cases hl : c.last vh
        · rw [n1 hl, i4 (P.clean hl), eh, eu]
          refine Nat.le_trans (Nat.mul_le_mul_left _ ?_) hq
          omega
        · rw [n2 hl]
          refine Nat.le_trans (Nat.mul_le_mul_left _ ?_) h.sync
          rw [P3 hl] at i3
          have := u_mono c i3; omega
      · intro h0; rw [hcn] at h0; have := h.zero h0; omega
      · intro hd'
        rw [deq_dirty] at hd'
        have hl : c.last vh := by
          apply Classical.byContradiction
          intro hn
          rw [P.dirty hn] at hd'; cases hd'
        have hw1 := P1.geo.win
        rw [P2 hl] at hw1
        refine Or.inr ⟨vt, vh, CkH.deq (vt := vt) ⟨P.cp hl, ?_, hl, (is_last hc hl).1, by omega, hI.geo.ut, Nat.le_refl _, hw1, ?_, ?_⟩ i2 (by omega) ?_⟩
        · exact P.root
        · rcases hmv (cur c s') (fun v a b hv => (hkd v (by omega) b hv).1)
            (Nat.le_trans (live_mono (by omega) (Nat.le_refl _) fun _ _ _ h => h) (live_count P1 h.cnt |>.trans h.le)) with hb | hb
          · exact Or.inr ⟨hnc, by omega, hb.drop (by omega)⟩
          · refine Or.inl (Or.inl (Bal.short (fun v a b => cur_user P1 a b) ?_))
            have h2 : c.u (c.nextV vh) - c.u vt ≤ 2 := by omega
            have h3 := Nat.mul_le_mul_left c.gk h2
            have h4 := Nat.mul_le_mul_left c.gk hF.split.2
            have f4 : c.mcap + 8 * c.ppb ≤ c.ucap := Nat.le.intro hF.split.1
            have f3 := hF.gk_le
            unfold Cfg.bz
            omega
        · intro h0
          have h0' : s.count = 0 := P.cnt.symm.trans h0
          exfalso
          have hl0 := live_count hI h.cnt
          rw [h0'] at hl0
          have hl1 : 0 < live (cur c s) vt vh := by
            classical
            unfold live
            exact Finset.card_pos.2 ⟨vt, Finset.mem_filter.2 ⟨Finset.mem_Ico.2 ⟨Nat.le_refl _, hlt⟩, hcv⟩⟩
          omega
        · intro hn
          obtain ⟨rx, _, x2, x3⟩ := hcv
          obtain ⟨p, _, _, x4⟩ := hI.tr.holds rx.id _ x2 x3
          rw [i1.tr.emp rx.id x2 (by rw [hn]; exact dict_none rfl _)] at x4
          cases x4

/-! ### peek -/

theorem peek_healthy (hc : c.Valid) {s : S} {σ : Nat → Option Buf} {T : Gh c} {vts vt vh vr : Nat}
    (hI : Inv0 c s σ T vts vt vh vr) (hb : Sound c s.n) : (vt < vh → peek c s = (c.ph vt, s)) ∧ (vt = vh → peek c s = (NONE, s)) := by
  have he := hI.geo.head_eq_tail
  unfold peek
  constructor
  · intro hlt
    rw [if_neg (fun h => by have := he.1 h; omega)]
    have hne : ¬ s.j.head = s.j.tail := fun h => by have := he.1 h; omega
    by_cases ha : isAligned s.j.tail c.log2Ppb = true
    · rw [if_pos ha]
      have hal : vt % c.ppb = 0 := by
        rw [isAligned_iff, hI.geo.et] at ha
        rw [← ph_mod_ppb]; exact ha
      have e : c.blk s.j.tail = vt / c.ppb % c.numBlocks := by
        unfold Cfg.blk; rw [Nat.shiftRight_eq_div_pow, hI.geo.et]; exact ph_div_ppb c vt
      have e2 : c.blk s.j.tail <<< c.log2Ppb = s.j.tail := by
        rw [Nat.shiftLeft_eq]
        have h1 : c.blk s.j.tail = s.j.tail / c.ppb := by unfold Cfg.blk; rw [Nat.shiftRight_eq_div_pow]; rfl
        have h2 : s.j.tail % c.ppb = 0 := by rw [hI.geo.et, ph_mod_ppb]; exact hal
        have := div_mod_range s.j.tail c.ppb
        rw [h1]
        show _ * c.ppb = _
        omega
      unfold peekLoop
      have hbad : nandIsBad s.n (c.blk s.j.tail) = false := by
        rw [e]; exact hb _ (Nat.mod_lt _ (by have := hc.blocks_lo; omega))
      rw [if_pos (Or.inr (by rw [hbad]; decide))]
      simp only [e2]
      rw [if_neg (fun h => hne h.symm)]
      rw [hI.geo.et]
      refine Prod.ext rfl ?_
      show { s with j := { s.j with tail := c.ph vt } } = s
      rw [← hI.geo.et]
    · rw [if_neg ha, hI.geo.et]
  · intro h
    rw [if_pos (he.2 h.symm)]

/-! ### gc -/

theorem tryRecover_not {e : Err} (h : ¬ Fatal e) (s : S) : tryRecover c e s = (.error e, s) := by
  unfold tryRecover; rw [if_pos (fun hh => h (by rw [hh]; decide))]

/-- What one call of gc does on a healthy chip: an error other than the excluded ones; or nothing, if the map or
the queue is empty; or the tail moves up one page and the head at most one. -/
theorem mapGc_healthy (hc : c.Valid) (hF : Fits c) (hH : Healthy c) {s : S} {σ : Nat → Option Buf} {vts vt vh vr j : Nat}
    (h : HI c s σ vts vt vh vr j) (hj : j + 1 ≤ c.gk) :
    (∃ e s', mapGc c s = (.error e, s') ∧ Halt c s' e) ∨
    (mapGc c s = (.ok (), s) ∧ (s.count = 0 ∨ vt = vh)) ∨
    (∃ s' vts' vh' vr', mapGc c s = (.ok (), s') ∧ s.count ≠ 0 ∧ vt < vh ∧ HI c s' σ vts' (c.nextV vt) vh' vr' (j + 1) ∧
      (vh' = vh ∨ vh' = c.nextV vh) ∧ SBal c (cur c s') (c.nextV vt) vh' (j + 1)) := by
  have hdv : ¬ Fatal .diverge := by unfold Fatal; decide
  unfold mapGc
  by_cases h0 : s.count = 0
  · rw [if_pos h0]; exact Or.inr (Or.inl ⟨rfl, Or.inl h0⟩)
  · rw [if_neg h0]
    cases hf : c.fuel with
    | zero => left; exact ⟨.diverge, s, rfl, h.halt hdv⟩
    | succ f =>
      unfold mapGcLoop
      simp only
      obtain ⟨p1, p2⟩ := peek_healthy hc h.inv h.sound
      by_cases hlt : vt < vh
      · have hN : c.ph vt ≠ NONE := by have := ph_lt hc vt; have := hc.pages_hi; omega
        rw [p1 hlt, if_neg hN]
        rcases round_healthy hc hF hH h hj hlt (Or.inr h0) with ⟨e, s', hr, he⟩ | ⟨s', vts', vh', vr', hr, h1, h2⟩
        · rw [hr]
          simp only
          rw [tryRecover_not he.1]
          exact Or.inl ⟨e, s', rfl, he⟩
        · rw [hr]
          exact Or.inr (Or.inr ⟨_, vts', vh', vr', rfl, h0, hlt, h1, h2⟩)
      · have he : vt = vh := by have := h.inv.geo.l2; omega
        rw [p2 he, if_pos rfl]
        exact Or.inr (Or.inl ⟨rfl, Or.inr he⟩)

/-- Ready for a page to be added. -/
def Ready (c : Cfg) (s : S) (vt vh : Nat) : Prop :=
  Bal c (cur c s) c.gk c.bz vt vh c.gk ∨ c.u vh - c.u vt + 1 ≤ c.mcap ∨ c.u vh - c.u vt ≤ 1

theorem gcTimes_healthy (hc : c.Valid) (hF : Fits c) (hH : Healthy c) {σ : Nat → Option Buf} : ∀ (i : Nat) (s : S) (vts vt vh vr j : Nat),
    HI c s σ vts vt vh vr j → j + i = c.gk → (j = 0 ∨ SBal c (cur c s) vt vh j) →
    (∃ e s', gcTimes c i s = (.error e, s') ∧ Halt c s' e) ∨
    (∃ s' vts' vt' vh' vr', gcTimes c i s = (.ok (), s') ∧ HI c s' σ vts' vt' vh' vr' 0 ∧ Ready c s' vt' vh' ∧ s'.count = s.count) := by
  intro i
  induction i with
  | zero =>
    intro s vts vt vh vr j h hj hsb
    right
    refine ⟨s, vts, vt, vh, vr, rfl, h.drop (by omega), ?_, rfl⟩
    rcases hsb with hb | hb | hb
    · unfold Cfg.gk at hj; omega
    · left; rw [show j = c.gk by omega] at hb; exact hb
    · exact Or.inr (Or.inr hb)
  | succ i ih =>
    intro s vts vt vh vr j h hj hsb
    unfold gcTimes
    rcases mapGc_healthy hc hF hH h (by omega) with ⟨e, s', hr, he⟩ | ⟨hr, hh⟩ | ⟨s', vts', vh', vr', hr, _, _, h1, _, hs1⟩
    · left; rw [hr]; exact ⟨e, s', rfl, he⟩
    · rw [hr]
      simp only
      have hQ : c.u vh - c.u vt ≤ 1 := by
        rcases hh with hh | hh
        · exact h.zero hh
        · rw [hh]; omega
      exact ih s vts vt vh vr (j + 1) ⟨h.inv, h.sound, h.bb, h.cnt, h.le, h.sync, Or.inl (Or.inr hQ), h.zero, h.ck⟩ (by omega) (Or.inr (Or.inr hQ))
    · rw [hr]
      simp only
      have hcnt : s'.count = s.count := h1.cnt.unique h.cnt
      rcases ih s' _ _ _ _ _ h1 (by omega) (Or.inr hs1) with hx | ⟨s2, a, b, d, e, h2, h3, h4, h5⟩
      · exact Or.inl hx
      · exact Or.inr ⟨s2, a, b, d, e, h2, h3, h4, h5.trans hcnt⟩

theorem size_u (hc : c.Valid) {s : S} {vts vt vh : Nat} (g : Geo0 c s vts vt vh) : journalSize c s.j = c.u vh - c.u vts := by
  rw [journalSize_geo hc g]
  have h1 := g.l1
  have h2 := g.l2
  have h3 := Nat.div_le_div_right (c := c.ppc) (show vts ≤ vh by omega)
  have h4 := Nat.div_le_self vts c.ppc
  have h5 := Nat.div_le_self vh c.ppc
  have h6 := u_mono c (show vts ≤ vh by omega)
  unfold Cfg.u at h6 ⊢
  omega

theorem autoGc_healthy (hc : c.Valid) (hF : Fits c) (hH : Healthy c) {σ : Nat → Option Buf} {s : S} {vts vt vh vr : Nat}
    (h : HI c s σ vts vt vh vr 0) :
    (∃ e s', autoGc c s = (.error e, s') ∧ Halt c s' e) ∨
    (∃ s' vts' vt' vh' vr', autoGc c s = (.ok (), s') ∧ HI c s' σ vts' vt' vh' vr' 0 ∧ Ready c s' vt' vh' ∧ s'.count = s.count) := by
  unfold autoGc
  by_cases hs : journalSize c s.j < mapCapacity c s
  · rw [if_pos hs]
    right
    refine ⟨s, vts, vt, vh, vr, rfl, h, Or.inr (Or.inl ?_), rfl⟩
    have h1 := capacity_le hc hF h.bb
    rw [size_u hc h.inv.geo.toGeo0] at hs
    have := u_mono c h.inv.geo.l1
    omega
  · rw [if_neg hs]
    exact gcTimes_healthy hc hF hH _ s _ _ _ _ 0 h (by unfold Cfg.gk; omega) (Or.inl rfl)

end Dhara

/-
The map's invariant: the tree at the root page holds the sector contents, all its pages are in the
queue; and its preservation by a push.
-/
import Verif.Proofs.Enq
import Verif.Proofs.NoErr
namespace Dhara

variable {c : Cfg}

/-- `x` is the current page of some sector. -/
def Data (mt : Mt) (root x : Nat) : Prop :=
  ∃ rx, mt x = some rx ∧ rx.id < NONE ∧ dict mt root rx.id = some x

theorem Data.used {mt : Mt} {root x : Nat} (h : Data mt root x) : Used mt root x := by
  obtain ⟨rx, h1, h2, h3⟩ := h
  refine ⟨?_, Or.inr ⟨rx, h1, h2, h3⟩⟩
  intro hn; rw [dict_none hn] at h3; cases h3

/-- The tree at `root` (the page at position `vr`) holds the contents `σ`. -/
structure Tr (c : Cfg) (s : S) (root vt vr vh : Nat) (σ : Nat → Option Buf) : Prop where
  rt : root = NONE ∨ (root = c.ph vr ∧ vt ≤ vr ∧ vr < vh ∧ c.isU vr)
  ok : TreeOK (mtOf c s) root
  live : ∀ x, Used (mtOf c s) root x →
    ∃ v, x = c.ph v ∧ vt ≤ v ∧ v ≤ vr ∧ c.isU v ∧ s.n.chip.bad (x / c.ppb) = false
  emp : ∀ t, t < NONE → dict (mtOf c s) root t = none → σ t = none
  holds : ∀ t q, t < NONE → dict (mtOf c s) root t = some q →
    ∃ b, s.n.chip.page q = some b ∧ c.clip b = b ∧ σ t = some b

theorem Tr.root_lt (hc : c.Valid) {s : S} {root vt vr vh : Nat} {σ : Nat → Option Buf}
    (h : Tr c s root vt vr vh σ) : root < 2 ^ 32 := by
  rcases h.rt with h | ⟨h, _⟩
  · omega
  · rw [h]; exact ph_lt32 hc _

theorem Tr.lt {s : S} {root vt vr vh x : Nat} {σ : Nat → Option Buf}
    (h : Tr c s root vt vr vh σ) (hx : Used (mtOf c s) root x) :
    ∃ v, x = c.ph v ∧ vt ≤ v ∧ v ≤ vr ∧ v < vh ∧ c.isU v ∧ s.n.chip.bad (x / c.ppb) = false := by
  obtain ⟨v, h1, h2, h3, h4, h5⟩ := h.live x hx
  rcases h.rt with h0 | ⟨_, _, h0, _⟩
  · exact absurd h0 hx.1
  · exact ⟨v, h1, h2, h3, by omega, h4, h5⟩

/-- The page dumped during a recovery is on the chip. -/
def RmOk (c : Cfg) (s : S) : Prop := s.j.recoverMeta = NONE ∨ s.j.recoverMeta < c.pages

/-- Reading the metadata of a user page stays on the chip. -/
theorem readMeta_ecc (hc : c.Valid) {s : S} (hrm : RmOk c s) {v : Nat} (hu : c.isU v) {e : Err}
    (h : readMeta c s (c.ph v) = .error e) : e = .ecc := by
  have hf := slot_fit hc hu
  unfold readMeta at h
  simp only [slot_off hc] at h
  split at h
  · cases h
  · split at h
    · rename_i h2
      exact nandRead_ecc (by rcases hrm with h3 | h3; exact absurd h3 h2.1; exact h3) hf h
    · rw [ph_cp hc] at h
      exact nandRead_ecc (ph_lt hc _) hf h

theorem Tr.rd (hc : c.Valid) {s : S} {root vt vr vh : Nat} {σ : Nat → Option Buf}
    (h : Tr c s root vt vr vh σ) (hrm : RmOk c s) :
    ∀ p, Used (mtOf c s) root p → ∀ e, readMeta c s p = .error e → e = .ecc := by
  intro p hp e he
  obtain ⟨v, h1, _, _, _, h2, _⟩ := h.lt hp
  rw [h1] at he
  exact readMeta_ecc hc hrm h2 he

theorem mtOf_eq {s s' : S} {p : Nat} (h : metaBuf c s' p = metaBuf c s p) : mtOf c s' p = mtOf c s p := by
  unfold mtOf; rw [h]

/-- A tree survives a change that keeps the metadata and contents of its pages. -/
theorem Tr.frame {s s' : S} {root vt vr vh vh' : Nat} {σ : Nat → Option Buf}
    (h : Tr c s root vt vr vh σ) (hle : vh ≤ vh')
    (hm : ∀ v, vt ≤ v → v ≤ vr → v < vh → c.isU v → Used (mtOf c s) root (c.ph v) →
      metaBuf c s' (c.ph v) = metaBuf c s (c.ph v) ∧ s'.n.chip.page (c.ph v) = s.n.chip.page (c.ph v) ∧
      (s.n.chip.bad (c.ph v / c.ppb) = false → s'.n.chip.bad (c.ph v / c.ppb) = false)) :
    Tr c s' root vt vr vh' σ ∧ (∀ t, dict (mtOf c s') root t = dict (mtOf c s) root t) ∧
    (∀ x, Used (mtOf c s') root x → Used (mtOf c s) root x) ∧
    (∀ x, Data (mtOf c s') root x → Data (mtOf c s) root x) := by
  have hf : ∀ x, Used (mtOf c s) root x → mtOf c s' x = mtOf c s x := by
    intro x hx
    obtain ⟨v, h1, h2, h3, h3', h4, _⟩ := h.lt hx
    rw [h1]; rw [h1] at hx
    exact mtOf_eq (hm v h2 h3 h3' h4 hx).1
  obtain ⟨t1, t2, t3⟩ := tree_frame h.ok hf
  refine ⟨⟨?_, t1, ?_, ?_, ?_⟩, t2, t3, ?_⟩
  · rcases h.rt with h | ⟨a, b, d, e⟩
    · exact Or.inl h
    · exact Or.inr ⟨a, b, by omega, e⟩
  · intro x hx
    obtain ⟨v, h1, h2, h3, h3', h4, h5⟩ := h.lt (t3 x hx)
    refine ⟨v, h1, h2, h3, h4, ?_⟩
    rw [h1] at h5 ⊢
    have := t3 x hx; rw [h1] at this
    exact (hm v h2 h3 h3' h4 this).2.2 h5
  · intro t ht hd; rw [t2] at hd; exact h.emp t ht hd
  · intro t q ht hd
    rw [t2] at hd
    obtain ⟨b, hb⟩ := h.holds t q ht hd
    refine ⟨b, ?_, hb.2⟩
    have hu : Used (mtOf c s) root q := (dict_sound h.ok (by omega) hd).1
    obtain ⟨v, h1, h2, h3, h3', h4, _⟩ := h.lt hu
    rw [h1] at hu hb ⊢
    rw [(hm v h2 h3 h3' h4 hu).2.1]; exact hb.1
  · intro x hx
    have hu := t3 x hx.used
    obtain ⟨rx, h1, h2, h3⟩ := hx
    exact ⟨rx, by rw [← hf x hu]; exact h1, h2, by rw [← t2]; exact h3⟩

/-- What pushing a page with metadata record `r` does to the tree at `root`: the pages `K` are kept,
`D` is the dictionary of the other sectors. -/
structure Plan (mt : Mt) (root : Nat) (r : Rec) (D : Nat → Option Nat) (K : Nat → Prop) : Prop where
  kd : ∀ x, K x → Data mt root x
  res : ∀ (mt' : Mt) (q : Nat), q ≠ NONE → mt' q = some r → (∀ x, K x → mt' x = mt x) →
    TreeOK mt' q ∧
    (∀ t, t < NONE → dict mt' q t = if t = r.id then some q else D t) ∧
    (∀ x, Used mt' q x → x = q ∨ K x)
  dk : ∀ t x, t < NONE → t ≠ r.id → D t = some x → K x ∧ dict mt root t = some x

/-- The page pushed becomes the root of the new tree. -/
theorem push_tree (hc : c.Valid) {s s' : S} {m : Option Buf} {Pd : S → Option Buf → Prop}
    {vts vt vh vq vr vR vM : Nat} {σ σ' : Nat → Option Buf} {D : Nat → Option Nat} {K : Nat → Prop}
    (g : Geo c s vts vt vh) (hT : Tr c s s.j.root vt vr vh σ)
    (hP : Plan (mtOf c s) s.j.root (recOf (metaOf m)) D K)
    (ho : PushOk c s s' m Pd vts vt vh vq vR vM)
    (hK : ∀ v, vt ≤ v → v < vh → K (c.ph v) → finishes c s vq →
      ¬ retires c s vR vM (c.ph v / c.ppb) ∧ v / c.ppb ≠ vR / c.ppb)
    (h1 : ∀ t x, t < NONE → t ≠ (recOf (metaOf m)).id → D t = some x → σ' t = σ t)
    (h2 : ∀ t, t < NONE → t ≠ (recOf (metaOf m)).id → D t = none → σ' t = none)
    (h3 : (recOf (metaOf m)).id < NONE → ∀ s1 : S, CKeep c s.n s1.n vh vq (inBlks c (vh / c.ppb) (vq / c.ppb)) →
      c.Win vts vq → Pd s1 (s'.n.chip.page (c.ph vq)) → Evo c s.n s1.n → Evo c s1.n s'.n → ∃ b, s'.n.chip.page (c.ph vq) = some b ∧ c.clip b = b ∧
        σ' (recOf (metaOf m)).id = some b) :
    Tr c s' s'.j.root vt vq (c.nextV vq) σ' ∧
    (∀ x, Used (mtOf c s') s'.j.root x → x = c.ph vq ∨ K x) := by
  have hle := ho.le
  have hlt := lt_nextV c vq
  have hwq : c.Win vts vq := ho.winq.mono (Nat.le_refl _) (by omega)
  have hKv : ∀ x, K x → ∃ v, x = c.ph v ∧ vt ≤ v ∧ v ≤ vr ∧ v < vh ∧ c.isU v ∧ s.n.chip.bad (x / c.ppb) = false :=
    fun x hx => hT.lt (hP.kd x hx).used
  have hmt : ∀ x, K x → mtOf c s' x = mtOf c s x := by
    intro x hx
    obtain ⟨v, a1, a2, _, a3, a4, _⟩ := hKv x hx
    subst a1
    refine mtOf_eq (ho.mkeep v (by have := g.l1; omega) a3 a4 ?_)
    intro hf; exact (hK v a2 a3 hx hf.1).2 hf.2
  have hpg : ∀ x, K x → s'.n.chip.page x = s.n.chip.page x := by
    intro x hx
    obtain ⟨v, a1, a2, _, a3, a4, _⟩ := hKv x hx
    subst a1
    exact ho.keep.live hc hwq (by have := g.l1; omega) a3
  obtain ⟨r1, r2, r3⟩ := hP.res (mtOf c s') (c.ph vq) (ph_ne_none hc _)
    (by unfold mtOf; rw [ho.metaq]; rfl) hmt
  rw [ho.root]
  have hvt : vt ≤ vq := by have := g.l2; omega
  refine ⟨⟨Or.inr ⟨rfl, hvt, hlt, ho.uq⟩, r1, ?_, ?_, ?_⟩, r3⟩
  · intro x hx
    rcases r3 x hx with h | h
    · exact ⟨vq, h, hvt, Nat.le_refl _, ho.uq, by rw [h]; exact ho.good⟩
    · obtain ⟨v, a1, a2, a2', a3, a4, a5⟩ := hKv x h
      refine ⟨v, a1, a2, by omega, a4, ?_⟩
      rw [ho.keep.bad_eq, a5]
      subst a1
      rintro (hb | ⟨hf, hr⟩)
      · by_cases hbv : v / c.ppb < vh / c.ppb
        · exact not_inBlks hwq (by have := g.l1; omega) hbv (by omega) hb
        · have := Nat.div_le_div_right (c := c.ppb) (Nat.le_of_lt a3)
          rcases ho.mv with hq | ⟨hq, _⟩
          · obtain ⟨b, b1, b2, _⟩ := hb; subst hq; omega
          · have h0 := div_mod_range vh c.ppb
            have h1 := Nat.div_lt_iff_lt_mul (ppb_pos c) (x := v) (y := vh / c.ppb)
            omega
      · exact (hK v a2 a3 h hf).1 hr
  · intro t ht hd
    rw [r2 t ht] at hd
    split at hd
    · cases hd
    · exact h2 t ht (by assumption) hd
  · intro t q ht hd
    rw [r2 t ht] at hd
    split at hd
    · rename_i hid
      cases hd
      obtain ⟨s1, k1, _, k3, k4, k5⟩ := ho.data
      obtain ⟨b, e1, e2, e3⟩ := h3 (by omega) s1 k1 hwq k3 k4 k5
      exact ⟨b, e1, e2, by rw [hid]; exact e3⟩
    · rename_i hid
      obtain ⟨k1, k2⟩ := hP.dk t q ht hid hd
      obtain ⟨b, e1, e2, e3⟩ := hT.holds t q ht k2
      exact ⟨b, by rw [hpg q k1]; exact e1, e2, by rw [h1 t q ht hid hd]; exact e3⟩

/-! ### Plans -/

theorem plan_filler {mt : Mt} {root : Nat} {r : Rec} (h : r.id = NONE) :
    Plan mt root r (fun _ => none) (fun _ => False) := by
  refine ⟨fun _ h => h.elim, ?_, fun t x _ _ h => by cases h⟩
  intro mt' q hq hr _
  refine ⟨Or.inr (Or.inl ⟨r, hr, h⟩), ?_, ?_⟩
  · intro t ht
    rw [dict_filler hr h, if_neg (by omega)]
  · intro x hx
    rcases hx.2 with h' | ⟨rx, _, _, h'⟩
    · exact Or.inl h'
    · rw [dict_filler hr h] at h'; cases h'

theorem plan_insert {mt : Mt} {root : Nat} {r : Rec} {D : Nat → Option Nat}
    (hT : TreeOK mt root) (hid : r.id < NONE) (hP : PathOK mt D r.id r.alt)
    (hD : ∀ t, t < NONE → ∀ x, D t = some x → dict mt root t = some x) :
    Plan mt root r D (fun x => ∃ rx, mt x = some rx ∧ rx.id < NONE ∧ rx.id ≠ r.id ∧ D rx.id = some x) := by
  refine ⟨?_, ?_, ?_⟩
  · rintro x ⟨rx, h1, h2, h3, h4⟩
    exact ⟨rx, h1, h2, hD _ h2 _ h4⟩
  · intro mt' q hq hr hf
    obtain ⟨a1, a2, a3, a4⟩ := insert_spec hP hid rfl hr hq (fun x rx b1 b2 b3 b4 => hf x ⟨rx, b1, b2, b3, b4⟩)
    refine ⟨Or.inr (Or.inr a1), ?_, a4⟩
    intro t ht
    by_cases h : t = r.id
    · rw [if_pos h, h]; exact a2
    · rw [if_neg h]; exact a3 t ht h
  · intro t x ht hne hd
    have h' := hD t ht x hd
    obtain ⟨_, rq, b1, b2, b3⟩ := dict_sound hT (by omega) h'
    exact ⟨⟨rq, b1, b3, by rw [b2]; exact hne, by rw [b2]; exact hd⟩, h'⟩

theorem recOf_metaOf {b : Buf} : (recOf (metaOf (some b))).id = (recOf b).id ∧
    ∀ i, i < 32 → (recOf (metaOf (some b))).alt i = (recOf b).alt i := by
  have key : ∀ k, k + 4 ≤ 132 → r32 (metaOf (some b)) k = r32 b k := by
    intro k hk
    refine r32_congr fun i hi => ?_
    show Buf.slice b 0 132 (k + i) = _
    unfold Buf.slice; rw [if_pos (by omega), Nat.zero_add]
  refine ⟨key 0 (by omega), fun i hi => ?_⟩
  show r32 _ (4 + i <<< 2) = r32 _ (4 + i <<< 2)
  rw [Nat.shiftLeft_eq]
  exact key _ (by omega)

theorem recOf_metaOf_none : (recOf (metaOf none)).id = NONE := by
  show r32 (Buf.ff.slice 0 132) 0 = NONE
  decide

theorem PathOK.congr {mt : Mt} {D : Nat → Option Nat} {t : Nat} {alt alt' : Nat → Nat}
    (h : PathOK mt D t alt) (he : ∀ i, i < 32 → alt' i = alt i) : PathOK mt D t alt' := by
  intro i hi; rw [he i hi]; exact h i hi

end Dhara

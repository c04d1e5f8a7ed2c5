/-
The radix tree of metadata records (dhara/map.c:113-180, map_internals.txt) as a pure
structure: lookups, insertion of a new root record, frame lemmas.
-/
import Verif.Proofs.Geom
namespace Dhara

/-- A decoded metadata record: sector id and 32 alternate pointers. -/
structure Rec where
  id : Nat
  alt : Nat → Nat

/-- Metadata of every page that has some. -/
abbrev Mt := Nat → Option Rec

/-- Bit of a sector number examined at a given depth (most significant first). -/
def bit (x d : Nat) : Bool := x.testBit (31 - d)

/-- `x` and `y` agree on the first `d` bits. -/
def agree (x y d : Nat) : Prop := ∀ i, i < d → bit x i = bit y i

theorem agree_refl (x d : Nat) : agree x x d := fun _ _ => rfl
theorem agree.symm {x y d : Nat} (h : agree x y d) : agree y x d := fun i hi => (h i hi).symm
theorem agree.trans {x y z d : Nat} (h : agree x y d) (h' : agree y z d) : agree x z d :=
  fun i hi => (h i hi).trans (h' i hi)
theorem agree.mono {x y d e : Nat} (h : agree x y d) (he : e ≤ d) : agree x y e :=
  fun i hi => h i (by omega)
theorem agree.succ {x y d : Nat} (h : agree x y d) (hb : bit x d = bit y d) : agree x y (d+1) := by
  intro i hi
  by_cases e : i = d
  · rw [e]; exact hb
  · exact h i (by omega)

theorem agree_all {x y : Nat} (hx : x < 2 ^ 32) (hy : y < 2 ^ 32) (h : agree x y 32) : x = y := by
  apply Nat.eq_of_testBit_eq
  intro i
  by_cases hi : i < 32
  · have := h (31 - i) (by omega)
    unfold bit at this
    have e : 31 - (31 - i) = i := by omega
    rw [e] at this; exact this
  · rw [Nat.testBit_lt_two_pow (Nat.lt_of_lt_of_le hx (Nat.pow_le_pow_right (by omega) (by omega))),
      Nat.testBit_lt_two_pow (Nat.lt_of_lt_of_le hy (Nat.pow_le_pow_right (by omega) (by omega)))]

/-- First bit where two distinct sector numbers differ. -/
theorem first_diff {x y : Nat} (hx : x < 2 ^ 32) (hy : y < 2 ^ 32) (h : x ≠ y) :
    ∃ i, i < 32 ∧ agree x y i ∧ bit x i ≠ bit y i := by
  have key : ∀ n, (∀ i, i < n → ¬ (agree x y i ∧ bit x i ≠ bit y i)) → agree x y n := by
    intro n
    induction n with
    | zero => intro _ i hi; omega
    | succ n ih =>
      intro hn
      have ha := ih fun i hi => hn i (by omega)
      apply ha.succ
      apply Classical.byContradiction; intro hb
      exact hn n (by omega) ⟨ha, hb⟩
  apply Classical.byContradiction; intro hcon
  apply h
  apply agree_all hx hy
  apply key
  intro i hi hh
  exact hcon ⟨i, hi, hh.1, hh.2⟩

/-- Two bits both different from a third are equal. -/
theorem bit_eq_of_ne {a b d : Bool} (h1 : a ≠ d) (h2 : b ≠ d) : a = b := by
  cases a <;> cases b <;> cases d <;> simp_all

/-- Lookup of sector `t` below page `p`, `k` levels from depth `d`. -/
def tfind (mt : Mt) (t : Nat) : Nat → Nat → Nat → Option Nat
  | 0, _, p => some p
  | k + 1, d, p =>
    match mt p with
    | none => none
    | some r =>
      if r.id = NONE then none
      else if bit t d ≠ bit r.id d then
        if r.alt d = NONE then none else tfind mt t k (d + 1) (r.alt d)
      else tfind mt t k (d + 1) p

/-- Well-formed subtree at depth `d`: every alternate pointer at level `i ≥ d` leads to a
well-formed subtree at depth `i + 1` whose id branches off exactly at bit `i`. -/
inductive WF (mt : Mt) : Nat → Nat → Prop
  | mk (d p : Nat) (r : Rec) (h : mt p = some r) (hid : r.id < NONE)
      (hs : ∀ i, d ≤ i → i < 32 → r.alt i ≠ NONE → WF mt (i + 1) (r.alt i))
      (ha : ∀ i, d ≤ i → i < 32 → r.alt i ≠ NONE → ∃ r', mt (r.alt i) = some r' ∧
        agree r'.id r.id i ∧ bit r'.id i ≠ bit r.id i) : WF mt d p

/-- Pages reachable from `p` through alternate pointers at levels `≥ d`. -/
inductive Reach (mt : Mt) : Nat → Nat → Nat → Prop
  | refl (d p : Nat) : Reach mt d p p
  | step (d p q i : Nat) (r : Rec) (h : mt p = some r) (hd : d ≤ i) (hi : i < 32)
      (ha : r.alt i ≠ NONE) (hr : Reach mt (i + 1) (r.alt i) q) : Reach mt d p q

theorem WF.mono {mt : Mt} {d e p : Nat} (h : WF mt d p) (he : d ≤ e) : WF mt e p := by
  cases h with
  | mk _ _ r h hid hs ha =>
    exact WF.mk e p r h hid (fun i hi => hs i (by omega)) (fun i hi => ha i (by omega))

theorem Reach.mono {mt : Mt} {d e p q : Nat} (h : Reach mt e p q) (he : d ≤ e) :
    Reach mt d p q := by
  cases h with
  | refl => exact Reach.refl _ _
  | step _ _ _ i r h hd hi ha hr => exact Reach.step d p q i r h (by omega) hi ha hr

theorem WF.rec_of {mt : Mt} {d p : Nat} (h : WF mt d p) : ∃ r, mt p = some r ∧ r.id < NONE := by
  cases h with
  | mk _ _ r h hid _ _ => exact ⟨r, h, hid⟩

/-- While bits agree the lookup stays at the same page. -/
theorem tfind_stay {mt : Mt} {t p : Nat} {r : Rec} (hr : mt p = some r) (hid : r.id < NONE)
    {d i : Nat} (hdi : d ≤ i) (hi : i ≤ 32) (ha : ∀ j, d ≤ j → j < i → bit t j = bit r.id j) :
    tfind mt t (32 - d) d p = tfind mt t (32 - i) i p := by
  induction i with
  | zero => have : d = 0 := by omega
            subst this; rfl
  | succ i ih =>
    by_cases e : d = i + 1
    · subst e; rfl
    · rw [ih (by omega) (by omega) fun j hj hj' => ha j hj (by omega)]
      have e2 : 32 - i = (32 - (i+1)) + 1 := by omega
      rw [e2]
      simp only [tfind, hr]
      rw [if_neg (by omega), if_neg (by simp [ha i (by omega) (by omega)])]

/-- At the first differing bit the lookup moves to the alternate pointer. -/
theorem tfind_branch {mt : Mt} {t p : Nat} {r : Rec} (hr : mt p = some r) (hid : r.id < NONE)
    {i : Nat} (hi : i < 32) (hb : bit t i ≠ bit r.id i) :
    tfind mt t (32 - i) i p =
      if r.alt i = NONE then none else tfind mt t (32 - (i+1)) (i+1) (r.alt i) := by
  have e2 : 32 - i = (32 - (i+1)) + 1 := by omega
  rw [e2]
  simp only [tfind, hr]
  rw [if_neg (by omega), if_pos hb]

theorem tfind_sound {mt : Mt} {t : Nat} (ht : t < 2 ^ 32) : ∀ k d p r, k + d = 32 →
    WF mt d p → mt p = some r → agree t r.id d → ∀ q, tfind mt t k d p = some q →
    Reach mt d p q ∧ ∃ rq, mt q = some rq ∧ rq.id = t := by
  intro k
  induction k with
  | zero =>
    intro d p r hk hw hr hag q hq
    simp only [tfind, Option.some.injEq] at hq
    subst hq
    have hd : d = 32 := by omega
    subst hd
    refine ⟨Reach.refl _ _, r, hr, ?_⟩
    obtain ⟨r', hr', hid'⟩ := hw.rec_of
    rw [hr] at hr'; cases hr'
    exact (agree_all ht (by omega) hag).symm
  | succ k ih =>
    intro d p r hk hw hr hag q hq
    cases hw with
    | mk _ _ r0 h0 hid hs ha =>
      rw [hr] at h0; cases h0
      simp only [tfind, hr] at hq
      rw [if_neg (by omega)] at hq
      by_cases hb : bit t d ≠ bit r.id d
      · rw [if_pos hb] at hq
        by_cases hn : r.alt d = NONE
        · rw [if_pos hn] at hq; cases hq
        · rw [if_neg hn] at hq
          obtain ⟨r', hr', hag', hb'⟩ := ha d (Nat.le_refl _) (by omega) hn
          have hag2 : agree t r'.id (d+1) := (hag.trans hag'.symm).succ (bit_eq_of_ne hb hb')
          have := ih (d+1) (r.alt d) r' (by omega) (hs d (Nat.le_refl _) (by omega) hn) hr' hag2 q hq
          exact ⟨Reach.step d p q d r hr (Nat.le_refl _) (by omega) hn this.1, this.2⟩
      · rw [if_neg hb] at hq
        simp only [ne_eq, Classical.not_not] at hb
        have := ih (d+1) p r (by omega)
          (WF.mk (d+1) p r hr hid (fun i hi => hs i (by omega)) (fun i hi => ha i (by omega)))
          hr (hag.succ hb) q hq
        exact ⟨this.1.mono (by omega), this.2⟩

theorem reach_find {mt : Mt} {d p q : Nat} (h : Reach mt d p q) : d ≤ 32 → WF mt d p →
    ∀ r, mt p = some r → ∃ rq, mt q = some rq ∧ rq.id < NONE ∧ agree rq.id r.id d ∧
      tfind mt rq.id (32 - d) d p = some q := by
  induction h with
  | refl d p =>
    intro hd hw r hr
    obtain ⟨r', hr', hid'⟩ := hw.rec_of
    rw [hr] at hr'; cases hr'
    refine ⟨r, hr, hid', agree_refl _ _, ?_⟩
    rw [tfind_stay hr hid' hd (Nat.le_refl 32) (fun j _ _ => rfl)]
    simp [tfind]
  | step d p q i r hr hdi hi hne _ ih =>
    intro hd hw r0 hr0
    rw [hr] at hr0; cases hr0
    cases hw with
    | mk _ _ r0 h0 hid hs ha =>
      rw [hr] at h0; cases h0
      obtain ⟨r', hr', hag', hb'⟩ := ha i hdi hi hne
      obtain ⟨rq, hq, hqid, hqa, hqf⟩ := ih (by omega) (hs i hdi hi hne) r' hr'
      have hqi : agree rq.id r.id i := (hqa.mono (by omega)).trans hag'
      have hbi : bit rq.id i ≠ bit r.id i := by rw [hqa i (by omega)]; exact hb'
      refine ⟨rq, hq, hqid, hqi.mono hdi, ?_⟩
      rw [tfind_stay hr hid hdi (by omega) (fun j _ hj => hqi j hj),
        tfind_branch hr hid hi hbi, if_neg hne]
      exact hqf

/-! ### Frame -/

theorem tfind_frame {mt mt' : Mt} {t : Nat} : ∀ k d p, k + d = 32 →
    (∀ q, Reach mt d p q → mt' q = mt q) → tfind mt' t k d p = tfind mt t k d p := by
  intro k
  induction k with
  | zero => intro d p _ _; rfl
  | succ k ih =>
    intro d p hk hf
    have h0 := hf p (Reach.refl _ _)
    simp only [tfind, h0]
    cases hr : mt p with
    | none => rfl
    | some r =>
      simp only
      split
      · rfl
      · split
        · split
          · rfl
          · rename_i hn
            exact ih (d+1) _ (by omega) fun q hq =>
              hf q (Reach.step d p q d r hr (Nat.le_refl _) (by omega) hn hq)
        · exact ih (d+1) p (by omega) fun q hq => hf q (hq.mono (by omega))

theorem wf_frame {mt mt' : Mt} {d p : Nat} (hw : WF mt d p) :
    (∀ q, Reach mt d p q → mt' q = mt q) → WF mt' d p := by
  induction hw with
  | mk d p r h hid hs ha ih =>
    intro hf
    refine WF.mk d p r (by rw [hf p (Reach.refl _ _), h]) hid ?_ ?_
    · intro i hdi hi hn
      exact ih i hdi hi hn fun q hq => hf q (Reach.step d p q i r h hdi hi hn hq)
    · intro i hdi hi hn
      obtain ⟨r', hr', hh⟩ := ha i hdi hi hn
      refine ⟨r', ?_, hh⟩
      rw [hf _ (Reach.step d p _ i r h hdi hi hn (Reach.refl _ _)), hr']

theorem reach_frame {mt mt' : Mt} {d p q : Nat} (hr : Reach mt' d p q) :
    (∀ x, Reach mt d p x → mt' x = mt x) → Reach mt d p q := by
  induction hr with
  | refl => intro _; exact Reach.refl _ _
  | step d p q i r h hdi hi hn _ ih =>
    intro hf
    have h' : mt p = some r := by rw [← hf p (Reach.refl _ _), h]
    exact Reach.step d p q i r h' hdi hi hn
      (ih fun x hx => hf x (Reach.step d p x i r h' hdi hi hn hx))

/-! ### The tree behind a root pointer -/

/-- The lookup function of the tree with the given root page. -/
def dict (mt : Mt) (root t : Nat) : Option Nat :=
  if root = NONE then none else tfind mt t 32 0 root

/-- The tree is empty, or consists of a filler page, or is well-formed. -/
def TreeOK (mt : Mt) (root : Nat) : Prop :=
  root = NONE ∨ (∃ r, mt root = some r ∧ r.id = NONE) ∨ WF mt 0 root

/-- The pages that make up the tree. -/
def Used (mt : Mt) (root x : Nat) : Prop :=
  root ≠ NONE ∧ (x = root ∨ ∃ rx, mt x = some rx ∧ rx.id < NONE ∧ dict mt root rx.id = some x)

theorem dict_none {mt : Mt} {root : Nat} (h : root = NONE) (t : Nat) : dict mt root t = none := by
  simp [dict, h]

theorem dict_filler {mt : Mt} {root : Nat} {r : Rec} (h : mt root = some r) (hid : r.id = NONE)
    (t : Nat) : dict mt root t = none := by
  unfold dict; split
  · rfl
  · simp [tfind, h, hid]

theorem dict_eq {mt : Mt} {root : Nat} (h : root ≠ NONE) (t : Nat) :
    dict mt root t = tfind mt t 32 0 root := by simp [dict, h]

theorem dict_sound {mt : Mt} {root t q : Nat} (hT : TreeOK mt root) (ht : t < 2 ^ 32)
    (h : dict mt root t = some q) :
    Used mt root q ∧ ∃ rq, mt q = some rq ∧ rq.id = t ∧ rq.id < NONE := by
  have hne : root ≠ NONE := by intro e; rw [dict_none e] at h; cases h
  rcases hT with h0 | ⟨r, hr, hid⟩ | hw
  · exact absurd h0 hne
  · rw [dict_filler hr hid] at h; cases h
  · obtain ⟨r, hr, hid⟩ := hw.rec_of
    have h' := h
    rw [dict_eq hne] at h'
    have := tfind_sound ht 32 0 root r (by omega) hw hr (fun i hi => by omega) q h'
    obtain ⟨hre, rq, hq, hqt⟩ := this
    obtain ⟨rq', hq', hqid, _, _⟩ := reach_find hre (by omega) hw r hr
    rw [hq] at hq'; cases hq'
    exact ⟨⟨hne, Or.inr ⟨rq, hq, hqid, by rw [hqt]; exact h⟩⟩, rq, hq, hqt, hqid⟩

theorem reach_used {mt : Mt} {root q : Nat} (hw : WF mt 0 root) (hne : root ≠ NONE)
    (h : Reach mt 0 root q) : Used mt root q := by
  obtain ⟨r, hr, hid⟩ := hw.rec_of
  obtain ⟨rq, hq, hqid, _, hf⟩ := reach_find h (by omega) hw r hr
  exact ⟨hne, Or.inr ⟨rq, hq, hqid, by rw [dict_eq hne]; exact hf⟩⟩

theorem tree_frame {mt mt' : Mt} {root : Nat} (hT : TreeOK mt root)
    (hf : ∀ x, Used mt root x → mt' x = mt x) :
    TreeOK mt' root ∧ (∀ t, dict mt' root t = dict mt root t) ∧
    (∀ x, Used mt' root x → Used mt root x) := by
  by_cases hne : root = NONE
  · refine ⟨Or.inl hne, fun t => by rw [dict_none hne, dict_none hne], fun x hx => absurd hne hx.1⟩
  have hroot : mt' root = mt root := hf root ⟨hne, Or.inl rfl⟩
  rcases hT with h0 | ⟨r, hr, hid⟩ | hw
  · exact absurd h0 hne
  · have hr' : mt' root = some r := by rw [hroot, hr]
    refine ⟨Or.inr (Or.inl ⟨r, hr', hid⟩), fun t => by rw [dict_filler hr hid, dict_filler hr' hid],
      fun x hx => ⟨hne, ?_⟩⟩
    rcases hx.2 with h | ⟨rx, _, _, hd⟩
    · exact Or.inl h
    · rw [dict_filler hr' hid] at hd; cases hd
  · have hf' : ∀ q, Reach mt 0 root q → mt' q = mt q := fun q hq => hf q (reach_used hw hne hq)
    have hw' := wf_frame hw hf'
    have hd : ∀ t, dict mt' root t = dict mt root t := fun t => by
      rw [dict_eq hne, dict_eq hne]; exact tfind_frame 32 0 root (by omega) hf'
    refine ⟨Or.inr (Or.inr hw'), hd, fun x hx => ⟨hne, ?_⟩⟩
    rcases hx.2 with h | ⟨rx, hrx, hxid, hdx⟩
    · exact Or.inl h
    · rw [hd] at hdx
      obtain ⟨hu, rq, hq, hqt, hqid⟩ := dict_sound (Or.inr (Or.inr hw)) (by omega : rx.id < 2^32) hdx
      exact Or.inr ⟨rq, hq, hqid, by rw [hqt]; exact hdx⟩

/-! ### Putting a new record in front of a tree -/

/-- `alt` is a path for `t` in the dictionary `D`: at every level it points to the subtree of
sectors that branch off from `t` at that bit. -/
def PathOK (mt : Mt) (D : Nat → Option Nat) (t : Nat) (alt : Nat → Nat) : Prop :=
  ∀ i, i < 32 →
    (alt i = NONE → ∀ t', t' < NONE → agree t' t i → bit t' i ≠ bit t i → D t' = none) ∧
    (alt i ≠ NONE → WF mt (i+1) (alt i) ∧
      (∃ r', mt (alt i) = some r' ∧ agree r'.id t i ∧ bit r'.id i ≠ bit t i) ∧
      ∀ t', t' < NONE → agree t' t i → bit t' i ≠ bit t i →
        D t' = tfind mt t' (32 - (i+1)) (i+1) (alt i))

/-- Pages reachable through a path are found by the dictionary and differ from the target. -/
theorem path_reach {mt : Mt} {D : Nat → Option Nat} {t : Nat} {alt : Nat → Nat}
    (hP : PathOK mt D t alt) {i x : Nat} (hi : i < 32) (hn : alt i ≠ NONE)
    (hx : Reach mt (i+1) (alt i) x) :
    ∃ rx, mt x = some rx ∧ rx.id < NONE ∧ D rx.id = some x ∧ rx.id ≠ t := by
  obtain ⟨hw, ⟨r', hr', hag, hb⟩, hD⟩ := (hP i hi).2 hn
  obtain ⟨rx, hrx, hxid, hxa, hxf⟩ := reach_find hx (by omega) hw r' hr'
  have h1 : agree rx.id t i := (hxa.mono (by omega)).trans hag
  have h2 : bit rx.id i ≠ bit t i := by rw [hxa i (by omega)]; exact hb
  refine ⟨rx, hrx, hxid, ?_, ?_⟩
  · rw [hD _ hxid h1 h2]; exact hxf
  · intro e; rw [e] at h2; exact h2 rfl

theorem insert_spec {mt mt' : Mt} {D : Nat → Option Nat} {t q : Nat} {r : Rec}
    (hP : PathOK mt D t r.alt) (ht : t < NONE) (hid : r.id = t) (hq : mt' q = some r)
    (hqn : q ≠ NONE)
    (hf : ∀ x rx, mt x = some rx → rx.id < NONE → rx.id ≠ t → D rx.id = some x → mt' x = mt x) :
    WF mt' 0 q ∧ dict mt' q t = some q ∧
    (∀ t', t' < NONE → t' ≠ t → dict mt' q t' = D t') ∧
    (∀ x, Used mt' q x → x = q ∨
      ∃ rx, mt x = some rx ∧ rx.id < NONE ∧ rx.id ≠ t ∧ D rx.id = some x) := by
  have hfr : ∀ i, i < 32 → r.alt i ≠ NONE → ∀ x, Reach mt (i+1) (r.alt i) x → mt' x = mt x := by
    intro i hi hn x hx
    obtain ⟨rx, hrx, hxid, hxD, hxt⟩ := path_reach hP hi hn hx
    exact hf x rx hrx hxid hxt hxD
  have hw : WF mt' 0 q := by
    refine WF.mk 0 q r hq (by omega) ?_ ?_
    · intro i _ hi hn
      exact wf_frame ((hP i hi).2 hn).1 (hfr i hi hn)
    · intro i _ hi hn
      obtain ⟨r', hr', hh⟩ := ((hP i hi).2 hn).2.1
      rw [hid]
      exact ⟨r', by rw [hfr i hi hn _ (Reach.refl _ _), hr'], hh⟩
  have hdne : ∀ t', t' < NONE → t' ≠ t → dict mt' q t' = D t' := by
    intro t' ht' hne
    obtain ⟨i, hi, hag, hb⟩ := first_diff (by omega : t' < 2^32) (by omega : t < 2^32) hne
    rw [dict_eq hqn]
    have e := tfind_stay (mt := mt') (t := t') (p := q) hq (by omega) (Nat.zero_le i) (by omega)
      (fun j _ hj => by rw [hid]; exact hag j hj)
    rw [show (32:Nat) = 32 - 0 from rfl, e, tfind_branch hq (by omega) hi (by rw [hid]; exact hb)]
    by_cases hn : r.alt i = NONE
    · rw [if_pos hn, (hP i hi).1 hn t' ht' hag hb]
    · rw [if_neg hn, ((hP i hi).2 hn).2.2 t' ht' hag hb]
      exact tfind_frame _ _ _ (by omega) (hfr i hi hn)
  refine ⟨hw, ?_, hdne, ?_⟩
  · rw [dict_eq hqn]
    have e := tfind_stay (mt := mt') (t := t) (p := q) hq (by omega) (Nat.zero_le 32) (Nat.le_refl _)
      (fun j _ _ => by rw [hid])
    rw [show (32:Nat) = 32 - 0 from rfl, e]; simp [tfind]
  · intro x hx
    rcases hx.2 with h | ⟨rx, hrx, hxid, hxd⟩
    · exact Or.inl h
    · by_cases hxt : rx.id = t
      · left
        rw [hxt] at hxd
        rw [dict_eq hqn] at hxd
        have e := tfind_stay (mt := mt') (t := t) (p := q) hq (by omega) (Nat.zero_le 32)
          (Nat.le_refl _) (fun j _ _ => by rw [hid])
        rw [show (32:Nat) = 32 - 0 from rfl, e] at hxd
        simp only [Nat.sub_self, tfind, Option.some.injEq] at hxd
        exact hxd.symm
      · right
        -- x is reachable below q, hence below one of the alternates
        have hxd' := hxd
        rw [dict_eq hqn] at hxd'
        have hre := (tfind_sound (by omega : rx.id < 2^32) 32 0 q r (by omega) hw hq
          (fun i hi => by omega) x hxd').1
        cases hre with
        | refl =>
          rw [hq] at hrx; cases hrx; exact absurd hid hxt
        | step _ _ _ i r0 h0 _ hi hn hr0 =>
          rw [hq] at h0; cases h0
          have hr1 := reach_frame hr0 (hfr i hi hn)
          obtain ⟨rx', hrx', hxid', hxD', hxt'⟩ := path_reach hP hi hn hr1
          exact ⟨rx', hrx', hxid', hxt', hxD'⟩

/-- Path of the root's own id. -/
theorem root_path {mt : Mt} {root : Nat} {r : Rec} (hw : WF mt 0 root) (hne : root ≠ NONE)
    (hr : mt root = some r) : PathOK mt (dict mt root) r.id r.alt := by
  cases hw with
  | mk _ _ r0 h0 hid hs ha =>
    rw [hr] at h0; cases h0
    intro i hi
    have step : ∀ t', agree t' r.id i → bit t' i ≠ bit r.id i → dict mt root t' =
        if r.alt i = NONE then none else tfind mt t' (32 - (i+1)) (i+1) (r.alt i) := by
      intro t' hag hb
      rw [dict_eq hne]
      have e := tfind_stay (mt := mt) (t := t') (p := root) hr hid (Nat.zero_le i) (by omega)
        (fun j _ hj => hag j hj)
      rw [show (32:Nat) = 32 - 0 from rfl, e, tfind_branch hr hid hi hb]
    refine ⟨fun hn t' _ hag hb => by rw [step t' hag hb, if_pos hn], fun hn => ?_⟩
    exact ⟨hs i (by omega) hi hn, ha i (by omega) hi hn,
      fun t' _ hag hb => by rw [step t' hag hb, if_neg hn]⟩

/-- Path used by deletion (dhara/map.c:428-457): the cousin `a` at the deepest level takes
over, without the deleted sector. -/
theorem delete_path {mt : Mt} {D : Nat → Option Nat} {t level : Nat} {alt : Nat → Nat} {ra : Rec}
    (hP : PathOK mt D t alt) (ht : t < NONE) (hl : level < 32) (hn : alt level ≠ NONE)
    (hdeep : ∀ i, level < i → i < 32 → alt i = NONE) (hra : mt (alt level) = some ra)
    (alt' : Nat → Nat) (h1 : ∀ i, i < level → alt' i = alt i) (h2 : alt' level = NONE)
    (h3 : ∀ i, level < i → i < 32 → alt' i = ra.alt i) :
    PathOK mt (fun t' => if t' = t then none else D t') ra.id alt' ∧ ra.id ≠ t ∧ ra.id < NONE ∧
      D ra.id = some (alt level) := by
  obtain ⟨hw, ⟨ra', hra', hag, hb⟩, hD⟩ := (hP level hl).2 hn
  rw [hra] at hra'; cases hra'
  have hne : ra.id ≠ t := fun e => by rw [e] at hb; exact hb rfl
  have hself := path_reach hP hl hn (Reach.refl _ _)
  obtain ⟨rx, hrx, hxid, hxD, _⟩ := hself
  rw [hra] at hrx; cases hrx
  refine ⟨?_, hne, hxid, hxD⟩
  intro i hi
  rcases Nat.lt_trichotomy i level with hlt | heq | hgt
  · -- above the cousin's level
    have hagi : ∀ t', agree t' ra.id i → agree t' t i := fun t' h => h.trans (hag.mono (by omega))
    have hbi : ∀ t', bit t' i ≠ bit ra.id i → bit t' i ≠ bit t i := fun t' h => by
      rw [← hag i hlt]; exact h
    have hnt : ∀ t', bit t' i ≠ bit ra.id i → t' ≠ t := fun t' h e => by
      rw [e] at h; exact h (hag i hlt).symm
    rw [h1 i hlt]
    refine ⟨fun h0 t' ht' ha' hb' => ?_, fun h0 => ?_⟩
    · simp only [if_neg (hnt t' hb')]
      exact (hP i hi).1 h0 t' ht' (hagi t' ha') (hbi t' hb')
    · obtain ⟨w, ⟨r', hr', g1, g2⟩, e⟩ := (hP i hi).2 h0
      refine ⟨w, ⟨r', hr', ?_, ?_⟩, fun t' ht' ha' hb' => ?_⟩
      · exact g1.trans (hag.mono (by omega)).symm
      · rw [hag i hlt]; exact g2
      · simp only [if_neg (hnt t' hb')]
        exact e t' ht' (hagi t' ha') (hbi t' hb')
  · subst heq
    rw [h2]
    refine ⟨fun _ t' ht' ha' hb' => ?_, fun h => absurd rfl h⟩
    by_cases e : t' = t
    · simp [e]
    · simp only [if_neg e]
      -- t' shares the first i+1 bits with t
      obtain ⟨j, hj, hja, hjb⟩ := first_diff (by omega : t' < 2^32) (by omega : t < 2^32) e
      have hag' : agree t' t (i+1) := by
        apply (ha'.trans hag).succ
        exact bit_eq_of_ne hb' (fun h => hb h.symm)
      have hji : i < j := by
        apply Classical.byContradiction; intro hn'
        exact hjb (hag' j (by omega))
      exact (hP j hj).1 (hdeep j hji hj) t' ht' hja hjb
  · rw [h3 i hgt hi]
    cases hw with
    | mk _ _ r0 h0 hid hs ha =>
      rw [hra] at h0; cases h0
      have key : ∀ t', t' < NONE → agree t' ra.id i → bit t' i ≠ bit ra.id i →
          (if t' = t then none else D t') =
            if ra.alt i = NONE then none else tfind mt t' (32 - (i+1)) (i+1) (ra.alt i) := by
        intro t' ht' ha' hb'
        have hlb : bit t' level ≠ bit t level := by rw [ha' level hgt]; exact hb
        have hnt : t' ≠ t := fun e => by rw [e] at hlb; exact hlb rfl
        rw [if_neg hnt, hD t' ht' ((ha'.mono (by omega)).trans hag) hlb]
        have e := tfind_stay (mt := mt) (t := t') (p := alt level) hra hid
          (by omega : level + 1 ≤ i) (by omega) (fun j _ hj => ha' j hj)
        rw [e, tfind_branch hra hid hi hb']
      refine ⟨fun h0 t' ht' ha' hb' => by simp only [key t' ht' ha' hb', if_pos h0], fun h0 => ?_⟩
      exact ⟨hs i (by omega) hi h0, ha i (by omega) hi h0,
        fun t' ht' ha' hb' => by simp only [key t' ht' ha' hb', if_neg h0]⟩

end Dhara

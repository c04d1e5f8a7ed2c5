/-
Property C60: the assisted recovery of the journal.
-/
import Verif.Props.Fifo
import Verif.Proofs.Codes
namespace Dhara

variable {c : Cfg}

theorem replicate_getD {k i : Nat} {B : List Nat} {x : Nat} (h : (B ++ List.replicate k NONE)[i]? = some x) : x = B.getD i NONE := by
  by_cases hi : i < B.length
  · rw [List.getElem?_append_left hi] at h
    rw [List.getD_eq_getElem?_getD, h]; rfl
  · rw [List.getElem?_append_right (by omega)] at h
    rw [List.getD_eq_getElem?_getD, List.getElem?_eq_none (by omega)]
    rw [List.getElem?_replicate] at h
    split at h
    · cases h; rfl
    · cases h

theorem RInv.enum (hc : c.Valid) {s : S} {L : List Entry} {r : Nat} {got Vs : List Nat} {vts vt vh vr vR vM vn : Nat}
    (h : RInv c s L r got Vs vts vt vh vr vR vM vn) : s.j.enumDone = true ↔ (toRecover c r).length ≤ got.length := by
  rcases h.gt with ⟨g1, g2⟩ | ⟨g1, k, g2⟩
  · rw [g1]
    constructor
    · intro h; cases h
    · intro hl
      exfalso
      have hd1 := Nat.div_add_mod vn c.ppb
      have hd2 := Nat.div_add_mod vR c.ppb
      have hnb := h.rg.nb
      have hnR := h.rg.nR
      rw [hnb] at hd1
      have hp : upto c r (vn % c.ppb + 1) <+: toRecover c r := by
        rw [toRecover_eq, h.re, ph_mod_ppb]
        exact upto_prefix _ (by omega)
      have := hp.length_le
      rw [h.re, upto_pos hc h.rg.un hnb, List.length_append, ← h.re, ← g2, List.length_singleton] at this
      omega
  · rw [g1, g2, List.length_append]
    simp

/-- C60, enumeration: during a recovery the successive answers of dhara_journal_next_recoverable are the pages of the failed
block, in order, up to the newest page written before the failure, and then "none"; every entry of the queue on the failed
block is among them. -/
theorem recovery_enumerates (hc : c.Valid) (s : S) (L : List Entry) (r : Nat) (got : List Nat)
    (h : Fifo c s L (.recovering r got)) :
    s.j.recovery = true ∧
    (∀ i p, got[i]? = some p → p = (toRecover c r).getD i NONE) ∧
    (nextRecoverable c s).1 = (toRecover c r).getD got.length NONE ∧
    ∀ e, e ∈ L → e.page / c.ppb = r / c.ppb → e.page ∈ toRecover c r := by
  obtain ⟨Vs, vts, vt, vh, vr, vR, vM, vn, hr⟩ := h.inv hc
  have key : ∀ got' s' vn', RInv c s' L r got' Vs vts vt vh vr vR vM vn' → ∀ i p, got'[i]? = some p → p = (toRecover c r).getD i NONE := by
    intro got' s' vn' hr' i p hi
    rcases hr'.gt with ⟨g1, g2⟩ | ⟨g1, k, g2⟩
    · have hd1 := Nat.div_add_mod vn' c.ppb
      have hd2 := Nat.div_add_mod vR c.ppb
      have hnb := hr'.rg.nb
      have hnR := hr'.rg.nR
      rw [hnb] at hd1
      have hp : got' <+: toRecover c r := by
        rw [g2, toRecover_eq, hr'.re, ph_mod_ppb]
        exact upto_prefix _ (by omega)
      obtain ⟨t, ht⟩ := hp
      rw [List.getD_eq_getElem?_getD, ← ht, List.getElem?_append_left (by
        rw [List.getElem?_eq_some_iff] at hi; exact hi.1), hi]; rfl
    · rw [g2] at hi; exact replicate_getD hi
  refine ⟨hr.rc, key _ _ _ hr, ?_, fun e he hb => ?_⟩
  · obtain ⟨vn', hr'⟩ := hr.next hc
    exact key _ _ _ hr' got.length _ (by simp)
  · obtain ⟨v, v1, v2⟩ := hr.en.entry he
    have hv := (hr.mem v).1 v1
    have hl1 := hr.q.geo.l1
    have hbR := hr.rg.bR
    have hvR : vR < vh := by
      apply Classical.byContradiction; intro hn
      have := Nat.div_le_div_right (c := c.ppb) (by omega : vh ≤ vR); omega
    rw [v2, hr.re] at hb
    have hvb := hr.q.geo.win.blk_inj (v := v) (w := vR) (by omega) (by omega) (by have := hr.rg.tR; omega) (by omega) hb
    have hle : v ≤ vR := by
      apply Classical.byContradiction; intro hn
      exact hv.2.2.2.2.1 ⟨hvb, by omega⟩
    have hd1 := Nat.div_add_mod v c.ppb
    have hd2 := Nat.div_add_mod vR c.ppb
    rw [hvb] at hd1
    rw [v2]
    have hp : upto c r (v % c.ppb + 1) <+: toRecover c r := by
      rw [toRecover_eq, hr.re, ph_mod_ppb]
      exact upto_prefix _ (by omega)
    refine hp.subset ?_
    rw [hr.re, upto_pos hc hv.2.2.1 hvb]
    simp

/-- C60, end: an enqueue or copy ends the recovery exactly if it leaves the journal clean and all pages of the failed block
have been enumerated before; the failed block is then marked bad. A page stays where it is until then. -/
theorem recovery_ends (hc : c.Valid) (s s' : S) (L : List Entry) (r : Nat) (got : List Nat) (d m : Option Buf)
    (h : Fifo c s L (.recovering r got)) (ha : Appends c s L d m (.ok (), s')) :
    (s'.j.recovery = false ↔ s'.j.dirty = false ∧ (toRecover c r).length ≤ got.length) ∧
    (s'.j.recovery = false → nandIsBad s'.n (r / c.ppb) = true) ∧
    (s'.j.recovery = true → nandIsBad s.n (r / c.ppb) = false → nandIsBad s'.n (r / c.ppb) = false) := by
  obtain ⟨Vs, vts, vt, vh, vr, vR, vM, vn, hr⟩ := h.inv hc
  obtain ⟨Pd, ho, hd⟩ := ha.out hc hr.q.geo hr.q.rst hr.en
  have hl1 := hr.q.geo.l1
  have htR := hr.rg.tR
  cases ho with
  | ok _ vq hp =>
    have hdirty : s'.j.dirty = false ↔ c.last vq := by
      constructor
      · intro h0
        apply Classical.byContradiction; intro hn
        rw [hp.dirtyN hn] at h0; cases h0
      · exact hp.dirtyL
    rw [← hr.enum hc, hdirty]
    have hrec : s'.j.recovery = false ↔ finishes c s vq := by
      constructor
      · intro h0
        apply Classical.byContradiction; intro hnf
        have := (hp.going hnf).1
        rw [hr.rc, h0] at this; cases this
      · exact fun hf => (hp.done hf).1.nr
    refine ⟨hrec, fun h0 => ?_, fun h0 h1 => ?_⟩
    · rw [hr.re]; exact (hp.done (hrec.1 h0)).2 _ (Or.inl rfl)
    · have hvR : vR < vh := by
        have := hr.rg.bR
        apply Classical.byContradiction; intro hn
        have := Nat.div_le_div_right (c := c.ppb) (by omega : vh ≤ vR); omega
      rw [hr.re] at h1 ⊢
      exact hp.stayGood (fun _ hf => by have := hrec.2 hf; rw [h0] at this; cases this) vR (by omega) hvR h1

/-! ### The procedure of tests/jtutil.c -/

theorem readMeta_no_recover {s : S} {p : Nat} : readMeta c s p ≠ .error .recover := by
  have key : ∀ q off, nandRead c s.n q off metaSize ≠ .error .recover := by
    intro q off hq
    unfold nandRead at hq
    split at hq
    · split at hq
      · cases hq
      · split at hq
        · cases hq
        · cases hq
    · cases hq
  intro h
  unfold readMeta at h
  simp only at h
  split at h
  · split at h
    · cases h
    · cases h
  · split at h
    · exact key _ _ h
    · exact key _ _ h

theorem metaBytes_eq (e : Entry) : metaOf e.mt = e.metaBytes := by
  unfold Entry.metaBytes
  cases e.mt <;> rfl

theorem metaBytes_copy (s : S) (e : Entry) : (entryAt s e.data (some e.metaBytes)).content = e.content := by
  unfold Entry.content
  show (e.data, (entryAt s e.data (some e.metaBytes)).metaBytes) = _
  congr 1
  unfold Entry.metaBytes entryAt
  funext i
  simp only [Option.getD_some, Buf.slice]
  split
  · rename_i h
    rw [if_pos (by omega), Nat.zero_add, Nat.zero_add]
  · rfl

/-- The tail stays where it is while pages are appended. -/
theorem Appends.tail (hc : c.Valid) {s s' : S} {L : List Entry} {ph : Phase} {d m : Option Buf} {x : Except Err Unit}
    (h : Fifo c s L ph) (ha : Appends c s L d m (x, s')) (hx : x = .ok () ∨ x = .error .recover) : s'.j.tail = s.j.tail := by
  obtain ⟨Vs, vts, vt, vh, vr, vR, vM, vn, hq, hen⟩ := h.ents hc
  obtain ⟨Pd, ho, _⟩ := ha.out hc hq.geo hq.rst hen
  cases ho with
  | ok _ vq hp => rw [hp.geo.et, hq.geo.et]
  | again _ v' hp => rw [hp.geo.et, hq.geo.et]
  | start _ vM' v' hp => rw [hp.geo.et, hq.geo.et]
  | stop _ _ he => rcases hx with hx | hx <;> cases hx; exact absurd rfl he

/-- When the queue ends in a run of entries on the block of its newest page, the pages of that block are these entries. -/
theorem FInv.split (hc : c.Valid) {s : S} {L : List Entry} {pk : Bool} {Vs : List Nat} {vts vt vh vr vR vM vn : Nat}
    (h : FInv c s L pk Vs vts vt vh vr vR vM vn) (hL : L ≠ [])
    (ht : s.j.tail / c.ppb ≠ Dhara.newest L / c.ppb ∨ s.j.tail % c.ppb = 0) :
    ∃ O E, L = O ++ E ∧ E.map Entry.page = toRecover c (Dhara.newest L) ∧ ∀ e, e ∈ O → e.page / c.ppb ≠ Dhara.newest L / c.ppb := by
  have hl1 := h.q.geo.l1
  have hVne : Vs ≠ [] := fun h0 => hL (h.en.nil_iff.2 h0)
  have hlt : vt < vh := by
    cases Vs with
    | nil => exact absurd rfl hVne
    | cons a _ => have := h.en.rng a (List.mem_cons_self ..); omega
  obtain ⟨b1, l1, l2⟩ := h.last hlt
  obtain ⟨b2, b3, b4⟩ := h.en.rng vr l1
  have hr := (h.mem vr).1 l1
  have hnew : Dhara.newest L = c.ph vr := by rw [← h.newest hc, b1]
  rw [hnew] at ht ⊢
  have hmax : ∀ v, v < vh → c.isU v → v ≤ vr := by
    intro v h1 h2
    apply Classical.byContradiction; intro hn
    have := nextV_le hc b4 h2 (by omega)
    omega
  -- the tail is not behind the first page of the block
  have htail : vt ≤ vr / c.ppb * c.ppb := by
    have d1 := div_mod_range vt c.ppb
    have d2 := div_mod_range vr c.ppb
    have d3 := Nat.div_le_div_right (c := c.ppb) b2
    rw [h.q.geo.et] at ht
    rcases ht with ht | ht
    · have : vt / c.ppb ≠ vr / c.ppb := fun he => ht (by rw [ph_div_ppb, ph_div_ppb, he])
      have h1 : (vt / c.ppb + 1) * c.ppb ≤ vr / c.ppb * c.ppb := Nat.mul_le_mul_right _ (by omega)
      rw [Nat.add_mul] at h1
      have := mod_ppb_lt c vt
      omega
    · rw [ph_mod_ppb] at ht
      have h1 : vt / c.ppb * c.ppb ≤ vr / c.ppb * c.ppb := Nat.mul_le_mul_right _ d3
      omega
  have hsplit : ∀ n, vr / c.ppb * c.ppb ≤ vr / c.ppb * c.ppb + n → ∀ W : List Nat, W.Pairwise (· < ·) →
      (∀ v, v ∈ W → v / c.ppb ≤ vr / c.ppb) →
      W = W.filter (fun v => decide (v / c.ppb < vr / c.ppb)) ++ W.filter (fun v => decide (v / c.ppb = vr / c.ppb)) := by
    intro _ _ W
    induction W with
    | nil => intro _ _; rfl
    | cons a W ih =>
      intro hs hm
      have hs' := List.pairwise_cons.1 hs
      have ih' := ih hs'.2 (fun v hv => hm v (List.mem_cons_of_mem _ hv))
      by_cases ha : a / c.ppb < vr / c.ppb
      · rw [List.filter_cons_of_pos (by simpa using ha), List.filter_cons_of_neg (by simp; omega), List.cons_append, ← ih']
      · have hall : ∀ v, v ∈ W → v / c.ppb = vr / c.ppb := by
          intro v hv
          have h1 := hs'.1 v hv
          have h2 := hm v (List.mem_cons_of_mem _ hv)
          have h3 := Nat.div_le_div_right (c := c.ppb) (Nat.le_of_lt h1)
          omega
        have e1 : (a :: W).filter (fun v => decide (v / c.ppb < vr / c.ppb)) = [] := by
          rw [List.filter_eq_nil_iff]
          intro v hv
          rcases List.mem_cons.1 hv with hv | hv
          · subst hv; simpa using ha
          · have := hall v hv; simp; omega
        have e2 : (a :: W).filter (fun v => decide (v / c.ppb = vr / c.ppb)) = a :: W := by
          rw [List.filter_eq_self]
          intro v hv
          rcases List.mem_cons.1 hv with hv | hv
          · have := hm a (List.mem_cons_self ..); subst hv; simp; omega
          · have := hall v hv; simpa using this
        rw [e1, e2]; rfl
  have hV := hsplit 0 (Nat.le_refl _) Vs h.en.sorted (fun v hv => by
    have := h.en.rng v hv
    exact Nat.div_le_div_right (hmax v this.2.1 this.2.2))
  have hp := h.en.pages
  rw [hV, List.map_append] at hp
  obtain ⟨O, E, e1, e2, e3⟩ := List.map_eq_append_iff.1 hp
  refine ⟨O, E, e1, ?_, fun e he => ?_⟩
  · rw [e3]
    -- the positions of the block are exactly its user pages
    have key : ∀ k, k ≤ vr % c.ppb + 1 → ∀ W : List Nat, W.Pairwise (· < ·) →
        (∀ v, v ∈ W ↔ vr / c.ppb * c.ppb ≤ v ∧ v < vr / c.ppb * c.ppb + k ∧ c.isU v) → W.map c.ph = upto c (c.ph vr) k := by
      intro k
      induction k with
      | zero =>
        intro _ W _ hW
        cases W with
        | nil => rfl
        | cons a _ => have := (hW a).1 (List.mem_cons_self ..); omega
      | succ k ih =>
        intro hk W hs hW
        have hb : (vr / c.ppb * c.ppb + k) / c.ppb = vr / c.ppb := by
          have hk' : k < c.ppb := by have := mod_ppb_lt c vr; omega
          rw [Nat.mul_comm, Nat.mul_add_div (ppb_pos c), Nat.div_eq_of_lt hk']; rfl
        have hm : (vr / c.ppb * c.ppb + k) % c.ppb = k := by
          have hk' : k < c.ppb := by have := mod_ppb_lt c vr; omega
          rw [Nat.mul_comm, Nat.mul_add_mod, Nat.mod_eq_of_lt hk']
        by_cases hu : c.isU (vr / c.ppb * c.ppb + k)
        · have hin : vr / c.ppb * c.ppb + k ∈ W := (hW _).2 ⟨by omega, by omega, hu⟩
          have hlast : W = W.filter (fun v => decide (v < vr / c.ppb * c.ppb + k)) ++ [vr / c.ppb * c.ppb + k] := by
            have gen : ∀ (a : Nat) (W : List Nat), W.Pairwise (· < ·) → a ∈ W → (∀ v, v ∈ W → v ≤ a) →
                W = W.filter (fun v => decide (v < a)) ++ [a] := by
              intro a W
              induction W with
              | nil => intro _ h _; cases h
              | cons x W ihW =>
                intro hs hin hle
                have hs' := List.pairwise_cons.1 hs
                rcases List.mem_cons.1 hin with hx | hx
                · subst hx
                  have : W = [] := by
                    cases W with
                    | nil => rfl
                    | cons y _ =>
                      have h1 := hs'.1 y (List.mem_cons_self ..)
                      have h2 := hle y (List.mem_cons_of_mem _ (List.mem_cons_self ..))
                      omega
                  subst this
                  simp
                · have := hs'.1 a hx
                  rw [List.filter_cons_of_pos (by simpa using this), List.cons_append,
                    ← ihW hs'.2 hx (fun v hv => hle v (List.mem_cons_of_mem _ hv))]
            exact gen _ W hs hin (fun v hv => by have := (hW v).1 hv; omega)
          have hrec := ih (by omega) (W.filter (fun v => decide (v < vr / c.ppb * c.ppb + k))) (hs.filter _) (fun v => by
            rw [List.mem_filter, hW, decide_eq_true_iff]
            constructor
            · rintro ⟨⟨a1, a2, a3⟩, a4⟩; exact ⟨a1, a4, a3⟩
            · rintro ⟨a1, a2, a3⟩; exact ⟨⟨a1, by omega, a3⟩, a2⟩)
          have hstep := upto_pos hc hu hb
          rw [hm] at hstep
          rw [hlast, List.map_append, hrec, hstep]; rfl
        · have hrec := ih (by omega) W hs (fun v => by
            rw [hW]
            constructor
            · rintro ⟨a1, a2, a3⟩
              refine ⟨a1, ?_, a3⟩
              apply Classical.byContradiction; intro hn
              have : v = vr / c.ppb * c.ppb + k := by omega
              rw [this] at a3; exact hu a3
            · rintro ⟨a1, a2, a3⟩; exact ⟨a1, by omega, a3⟩)
          have hx : ¬ ((c.ph vr / c.ppb * c.ppb + k) % c.ppc ≠ c.ppc - 1) := by
            intro hh
            apply hu
            have e : c.ph vr / c.ppb * c.ppb + k = c.ph (vr / c.ppb * c.ppb + k) := by
              rw [ph_split (vr / c.ppb * c.ppb + k), ph_div_ppb, ph_div_ppb, hb, hm]
            rw [e, ph_mod_ppc hc] at hh
            exact hh
          rw [hrec, upto_succ, if_neg hx, List.append_nil]
    rw [toRecover_eq, ph_mod_ppb]
    refine key _ (Nat.le_refl _) _ (h.en.sorted.filter _) (fun v => ?_)
    rw [List.mem_filter, h.mem, decide_eq_true_iff]
    have d2 := div_mod_range vr c.ppb
    constructor
    · rintro ⟨⟨w1, w2, w3, w4⟩, w5⟩
      have d1 := div_mod_range v c.ppb
      have := hmax v w2 w3
      rw [w5] at d1
      exact ⟨by omega, by omega, w3⟩
    · rintro ⟨w1, w2, w3⟩
      have hb : v / c.ppb = vr / c.ppb := by
        have h1 := Nat.div_le_div_right (c := c.ppb) (by omega : v ≤ vr)
        have h2 := Nat.div_le_div_right (c := c.ppb) w1
        rw [Nat.mul_div_cancel _ (ppb_pos c)] at h2
        omega
      refine ⟨⟨by omega, by omega, w3, ?_⟩, hb⟩
      have := hr.2.2.2
      rw [ph_div_ppb] at this ⊢
      rw [hb]; exact this
  · have : e.page ∈ (Vs.filter (fun v => decide (v / c.ppb < vr / c.ppb))).map c.ph := by rw [← e2]; exact List.mem_map_of_mem he
    obtain ⟨v, h1, h2⟩ := List.mem_map.1 this
    rw [List.mem_filter, decide_eq_true_iff] at h1
    have hv := h.en.rng v h1.1
    intro hh
    rw [← h2] at hh
    have := h.q.geo.win.blk_inj (v := v) (w := vr) (by omega) (by omega) (by omega) (by omega) hh
    omega

/-- Entries up to one on the failed block are not on the block being written. -/
theorem old_not_head (hc : c.Valid) {s : S} {L X Y : List Entry} {e x : Entry} {r : Nat} {got : List Nat}
    (h : Fifo c s L (.recovering r got)) (hL : L = X ++ e :: Y) (he : e.page / c.ppb = r / c.ppb) (hx : x = e ∨ x ∈ X) :
    x.page / c.ppb ≠ s.j.head / c.ppb := by
  obtain ⟨Vs, vts, vt, vh, vr, vR, vM, vn, hr⟩ := h.inv hc
  have hp := hr.en.pages
  rw [hL, List.map_append, List.map_cons] at hp
  obtain ⟨V1, V2, e1, e2, e3⟩ := List.map_eq_append_iff.1 hp.symm
  obtain ⟨ve, V3, f1, f2, f3⟩ := List.map_eq_cons_iff.1 e3
  have hl1 := hr.q.geo.l1
  have hbR := hr.rg.bR
  have hvR : vR < vh := by
    apply Classical.byContradiction; intro hn
    have := Nat.div_le_div_right (c := c.ppb) (by omega : vh ≤ vR); omega
  have hve := hr.en.rng ve (by rw [e1, f1]; simp)
  have hveb : ve / c.ppb = vR / c.ppb := by
    rw [← f2, hr.re] at he
    exact hr.q.geo.win.blk_inj (by omega) (by omega) (by have := hr.rg.tR; omega) (by omega) he
  have key : ∀ v, vt ≤ v → v ≤ ve → c.ph v / c.ppb ≠ s.j.head / c.ppb := by
    intro v h1 h2 hh
    rw [hr.q.geo.eh] at hh
    have := hr.q.geo.win.blk_inj (v := v) (w := vh) (by omega) (by omega) (by omega) (by omega) hh
    have := Nat.div_le_div_right (c := c.ppb) h2
    omega
  rcases hx with hx | hx
  · rw [hx, ← f2]; exact key ve hve.1 (Nat.le_refl _)
  · have : x.page ∈ V1.map c.ph := by rw [e2]; exact List.mem_map_of_mem hx
    obtain ⟨v, g1, g2⟩ := List.mem_map.1 this
    rw [← g2]
    have hv := hr.en.rng v (by rw [e1]; exact List.mem_append_left _ g1)
    have hs := hr.en.sorted
    rw [e1, f1] at hs
    have := (List.pairwise_append.1 hs).2.2 v g1 ve (List.mem_cons_self ..)
    exact key v hv.1 (by omega)

/-- State of the procedure: the entries `O` before the failed block, those on it (`E`), and what has been written since. -/
structure Redo0 (c : Cfg) (s : S) (r t : Nat) (O E : List Entry) (got : List Nat) (R : List Entry) : Prop where
  fifo : Fifo c s (O ++ E ++ R) (.recovering r got)
  tail : s.j.tail = t
  pages : E.map Entry.page = toRecover c r
  old : ∀ e, e ∈ O → e.page / c.ppb ≠ r / c.ppb
  known : ∀ x, x ∈ R.map Entry.content → x = filler ∨ x ∈ E.map Entry.content

/-- What has been written: after `i` turns since the last restart, the first `i` pages of the block. -/
def Written (E R : List Entry) (n i : Nat) : Prop :=
  ∃ D F, R.map Entry.content = D ++ (E.map Entry.content).take i ++ F ∧ (∀ x, x ∈ F → x = filler) ∧
    (i < E.length → F = []) ∧ ∀ x, x ∈ D → x = filler ∨ (n ≠ 0 ∧ x ∈ E.map Entry.content)

theorem toRecover_blk {r p : Nat} (h : p ∈ toRecover c r) : p / c.ppb = r / c.ppb := by
  unfold toRecover at h
  obtain ⟨i, h1, h2⟩ := List.mem_map.1 (List.mem_filter.1 h).1
  have h3 := List.mem_range.1 h1
  have h4 := Nat.mod_lt r (ppb_pos c)
  have h5 : i < c.ppb := by omega
  rw [← h2, Nat.mul_comm, Nat.mul_add_div (ppb_pos c), Nat.div_eq_of_lt h5]; rfl

theorem filler_entry (s : S) : (entryAt s none none).content = filler := rfl

theorem Redo0.ne {s : S} {r t : Nat} {O E R : List Entry} {got : List Nat} (h : Redo0 c s r t O E got R) (hc : c.Valid) : E ≠ [] := by
  intro h0
  obtain ⟨Vs, vts, vt, vh, vr, vR, vM, vn, hr⟩ := h.fifo.inv hc
  have := h.pages
  rw [h0, toRecover_eq, hr.re, ph_mod_ppb, upto_pos hc hr.rg.uR rfl] at this
  simp at this

/-- What was written is not on the failed block. -/
theorem Redo0.off {s : S} {r t : Nat} {O E R : List Entry} {got : List Nat} (h : Redo0 c s r t O E got R) (hc : c.Valid) :
    offBlock c r (O ++ E ++ R) = O ++ R := by
  have hnd := (journal_entries_kept hc _ _ _ h.fifo).1
  have hin := (recovery_enumerates hc _ _ _ _ h.fifo).2.2.2
  rw [List.map_append, List.map_append] at hnd
  unfold offBlock
  rw [List.filter_append, List.filter_append]
  have h1 : O.filter (fun e => decide (e.page / c.ppb ≠ r / c.ppb)) = O :=
    List.filter_eq_self.2 fun e he => by simpa using h.old e he
  have h2 : E.filter (fun e => decide (e.page / c.ppb ≠ r / c.ppb)) = [] :=
    List.filter_eq_nil_iff.2 fun e he => by
      have : e.page ∈ toRecover c r := by rw [← h.pages]; exact List.mem_map_of_mem he
      simpa using toRecover_blk this
  have h3 : R.filter (fun e => decide (e.page / c.ppb ≠ r / c.ppb)) = R :=
    List.filter_eq_self.2 fun e he => by
      rw [decide_eq_true_iff]
      intro hb
      have hm := hin e (List.mem_append_right _ he) hb
      rw [← h.pages] at hm
      unfold List.Nodup at hnd
      exact (List.pairwise_append.1 hnd).2.2 e.page (List.mem_append_right _ hm) e.page (List.mem_map_of_mem he) rfl
  rw [h1, h2, h3, List.append_nil]

/-- A block fails during the procedure. -/
theorem Redo0.restart (hc : c.Valid) {s s' : S} {r t : Nat} {O E R : List Entry} {got : List Nat} {d m : Option Buf}
    (h : Redo0 c s r t O E got R) (ha : Appends c s (O ++ E ++ R) d m (.error .recover, s')) (n : Nat) :
    ∃ R', Redo0 c s' r t O E [] R' ∧ Written E R' (n + 1) 0 := by
  have hE := h.ne hc
  obtain ⟨E0, el, hEl⟩ : ∃ E0 el, E = E0 ++ [el] := ⟨_, _, (List.dropLast_append_getLast hE).symm⟩
  have hbl : el.page / c.ppb = r / c.ppb := by
    apply toRecover_blk
    rw [← h.pages, hEl]; simp
  have hold : ∀ x, x ∈ O ++ E → x.page / c.ppb ≠ s.j.head / c.ppb := by
    intro x hx
    refine old_not_head hc h.fifo (X := O ++ E0) (e := el) (Y := R) (by rw [hEl]; simp) hbl ?_
    rw [hEl, ← List.append_assoc] at hx
    rcases List.mem_append.1 hx with hx | hx
    · exact Or.inr hx
    · rw [List.mem_singleton] at hx; exact Or.inl hx
  have hoff : offBlock c s.j.head (O ++ E ++ R) = O ++ E ++ offBlock c s.j.head R := by
    unfold offBlock
    rw [List.filter_append]
    congr 1
    exact List.filter_eq_self.2 fun e he => by simpa using hold e he
  have hkn : ∀ x, x ∈ (offBlock c s.j.head R).map Entry.content → x = filler ∨ x ∈ E.map Entry.content := by
    intro x hx
    obtain ⟨e, e1, e2⟩ := List.mem_map.1 hx
    exact h.known x (by rw [← e2]; exact List.mem_map_of_mem (List.mem_filter.1 e1).1)
  refine ⟨offBlock c s.j.head R, ⟨?_, ?_, h.pages, h.old, hkn⟩, (offBlock c s.j.head R).map Entry.content, [], by simp, fun x hx => (nomatch hx), fun _ => rfl, ?_⟩
  · rw [← hoff]; exact .again _ _ _ _ _ _ _ h.fifo ha
  · rw [ha.tail hc h.fifo (Or.inr rfl)]; exact h.tail
  · intro x hx
    rcases hkn x hx with hk | hk
    · exact Or.inl hk
    · exact Or.inr ⟨by omega, hk⟩

/-- One turn of the loop appends something: what, and what has been written afterwards if that succeeds. -/
theorem Redo0.turn (hc : c.Valid) {s s' : S} {r t n : Nat} {O E R : List Entry} {got : List Nat} {x : Except Err Unit}
    (h : Redo0 c s r t O E got R) (hw : Written E R n got.length) (hx : rewriteNext c s = (x, s'))
    (hr : x = .ok () ∨ x = .error .recover) :
    ∃ s1 d m got', got'.length = got.length + 1 ∧ Redo0 c s1 r t O E got' R ∧ Appends c s1 (O ++ E ++ R) d m (x, s') ∧
      Written E (R ++ [entryAt s' d m]) n got'.length ∧ ((entryAt s' d m).content = filler ∨ (entryAt s' d m).content ∈ E.map Entry.content) ∧
      s1.j.head = s.j.head := by
  obtain ⟨_, _, hans, _⟩ := recovery_enumerates hc _ _ _ _ h.fifo
  have hlen : E.length = (toRecover c r).length := by rw [← h.pages, List.length_map]
  have h1 : Redo0 c (nextRecoverable c s).2 r t O E (got ++ [(nextRecoverable c s).1]) R := by
    refine ⟨.next _ _ _ _ h.fifo, ?_, h.pages, h.old, h.known⟩
    have : (nextRecoverable c s).2.j.tail = s.j.tail := by
      unfold nextRecoverable
      simp only
      repeat' split
      all_goals rfl
    rw [this]; exact h.tail
  have hus := (journal_entries_kept hc _ _ _ h.fifo).2
  obtain ⟨D, F, w1, w2, w3, w4⟩ := hw
  have hl1 : (got ++ [(nextRecoverable c s).1]).length = got.length + 1 := by simp
  unfold rewriteNext at hx
  simp only at hx
  by_cases hp : (nextRecoverable c s).1 = NONE
  · rw [if_pos hp] at hx
    have hge : E.length ≤ got.length := by
      apply Classical.byContradiction; intro hn
      have hi : got.length < (toRecover c r).length := by omega
      rw [hans, List.getD_eq_getElem?_getD, List.getElem?_eq_getElem hi] at hp
      have hm : (toRecover c r)[got.length] ∈ E.map Entry.page := by rw [h.pages]; exact List.getElem_mem hi
      obtain ⟨e, e1, e2⟩ := List.mem_map.1 hm
      have := (hus e (by simp [e1])).1.1
      have hp' : e.page = NONE := by rw [e2]; exact hp
      have h3 := hc.pages_hi
      rw [hp'] at this
      omega
    refine ⟨_, none, none, _, hl1, h1, by rw [← hx]; exact .enqueue none none, ⟨D, F ++ [filler], ?_, ?_, ?_, w4⟩, Or.inl rfl, (next_same s).head⟩
    · rw [List.map_append, w1, hl1, List.take_of_length_le (by rw [List.length_map]; omega), List.take_of_length_le (by rw [List.length_map]; omega)]
      simp [filler_entry]
    · intro y hy
      rcases List.mem_append.1 hy with hy | hy
      · exact w2 y hy
      · exact List.mem_singleton.1 hy
    · intro hh; rw [hl1] at hh; omega
  · rw [if_neg hp] at hx
    have hi : got.length < E.length := by
      apply Classical.byContradiction; intro hn
      apply hp
      rw [hans, List.getD_eq_getElem?_getD, List.getElem?_eq_none (by omega)]; rfl
    have hpe : E[got.length].page = (nextRecoverable c s).1 := by
      rw [hans, List.getD_eq_getElem?_getD, ← h.pages, List.getElem?_map, List.getElem?_eq_getElem hi]; rfl
    have hmem : E[got.length] ∈ O ++ E ++ R := by
      simp [List.getElem_mem hi]
    cases hm : readMeta c (nextRecoverable c s).2 (nextRecoverable c s).1 with
    | error e =>
      rw [hm] at hx
      cases hx
      rcases hr with hr | hr
      · cases hr
      · cases hr; exact absurd hm readMeta_no_recover
    | ok mb =>
      rw [hm] at hx
      have hmb : mb = E[got.length].metaBytes := by
        obtain ⟨_, _, _, _, _, _, _, _, _, hen⟩ := h1.fifo.ents hc
        have h2 := hen.mt _ hmem
        have h3 := readMeta_ok hm
        rw [← hpe, h2, metaBytes_eq] at h3
        cases h3; rfl
      refine ⟨_, E[got.length].data, some mb, _, hl1, h1, ?_, ⟨D, [], ?_, fun x hx => (nomatch hx), fun _ => rfl, w4⟩, ?_, (next_same s).head⟩
      · rw [← hx, ← hpe]; exact .copy _ _ hmem
      · rw [List.map_append, w1, hl1, w3 hi, hmb, List.map_singleton, metaBytes_copy, List.take_succ, List.getElem?_map,
          List.getElem?_eq_getElem hi]
        simp
      · right; rw [hmb, metaBytes_copy]; exact List.mem_map_of_mem (List.getElem_mem hi)

/-- The whole procedure. -/
theorem Redo0.run (hc : c.Valid) {r t : Nat} {O E : List Entry} (ht : t / c.ppb ≠ r / c.ppb ∨ t % c.ppb = 0) :
    ∀ k n s n' s' got R, Redo0 c s r t O E got R → Written E R n got.length → jtRecover c k n s = (.ok n', s') →
    n ≤ n' ∧ ∃ L' D F, Fifo c s' L' (.calm false) ∧ nandIsBad s'.n (r / c.ppb) = true ∧
      L'.map Entry.content = O.map Entry.content ++ D ++ E.map Entry.content ++ F ∧ (∀ x, x ∈ F → x = filler) ∧
      ∀ x, x ∈ D → x = filler ∨ (n' ≠ 0 ∧ x ∈ E.map Entry.content) := by
  intro k
  induction k with
  | zero => intro n s n' s' got R _ _ h; cases h
  | succ k ih =>
    intro n s n' s' got R h hw hj
    unfold jtRecover at hj
    have hrec := (recovery_enumerates hc _ _ _ _ h.fifo).1
    rw [if_pos hrec] at hj
    rcases hx : rewriteNext c s with ⟨x, s2⟩
    rw [hx] at hj
    cases x with
    | ok u =>
      simp only at hj
      obtain ⟨s1, d, m, got', g1, h1, ha, hw', hk, _⟩ := h.turn hc hw hx (Or.inl rfl)
      by_cases hr2 : s2.j.recovery = true
      · refine ih n s2 n' s' got' (R ++ [entryAt s2 d m]) ⟨?_, ?_, h1.pages, h1.old, ?_⟩ hw' hj
        · rw [← List.append_assoc]; exact .rewrite _ _ _ _ _ _ _ h1.fifo ha hr2
        · rw [ha.tail hc h1.fifo (Or.inl rfl)]; exact h1.tail
        · intro y hy
          rw [List.map_append] at hy
          rcases List.mem_append.1 hy with hy | hy
          · exact h1.known y hy
          · rw [List.map_singleton, List.mem_singleton] at hy; rw [hy]; exact hk
      · have hr3 : s2.j.recovery = false := by simpa using hr2
        have hend := recovery_ends hc _ _ _ _ _ _ _ h1.fifo ha
        have hfin := Fifo.finish _ _ _ _ _ _ _ h1.fifo ha hr3 (by rw [h1.tail]; exact ht)
        rw [h1.off hc] at hfin
        have hj2 : n' = n ∧ s' = s2 := by
          cases k with
          | zero => cases hj
          | succ k => unfold jtRecover at hj; rw [if_neg hr2] at hj; cases hj; exact ⟨rfl, rfl⟩
        obtain ⟨e1, e2⟩ := hj2
        subst e1; subst e2
        have hge : (E.map Entry.content).length ≤ got'.length := by
          rw [List.length_map, ← List.length_map (f := Entry.page), h.pages]; exact (hend.1.1 hr3).2
        obtain ⟨D, F, w1, w2, w3, w4⟩ := hw'
        refine ⟨Nat.le_refl _, _, D, F, hfin, hend.2.1 hr3, ?_, w2, w4⟩
        rw [List.take_of_length_le hge] at w1
        rw [List.append_assoc, List.map_append, w1]
        simp
    | error e =>
      by_cases he : e = .recover
      · subst he
        simp only at hj
        split at hj
        · cases hj
        obtain ⟨s1, d, m, got', g1, h1, ha, hw', hk, _⟩ := h.turn hc hw hx (Or.inr rfl)
        obtain ⟨R', h2, hw2⟩ := h1.restart hc ha n
        obtain ⟨q1, q2⟩ := ih (n + 1) s2 n' s' [] R' h2 hw2 hj
        exact ⟨by omega, q2⟩
      · exfalso
        cases e <;> first | exact he rfl | cases hj

/-- The state in which the procedure begins. -/
theorem redo_start (hc : c.Valid) {s s1 : S} {L : List Entry} {pk : Bool} {d m : Option Buf}
    (h : Fifo c s L (.calm pk)) (hL : L ≠ []) (ha : Appends c s L d m (.error .recover, s1))
    (ht : s.j.tail / c.ppb ≠ newest L / c.ppb ∨ s.j.tail % c.ppb = 0) :
    ∃ O E, (Redo0 c s1 (newest L) s.j.tail O E [] (dumped s1) ∧ Written E (dumped s1) 0 0) ∧ L = O ++ E := by
  obtain ⟨Vs, vts, vt, vh, vr, vR, vM, vn, hf⟩ := h.inv hc
  obtain ⟨O, E, e1, e2, e3⟩ := hf.split hc hL ht
  have h1 := Fifo.begin_ _ _ _ _ _ _ h hL ha
  have hkn : ∀ x, x ∈ (dumped s1).map Entry.content → x = filler := by
    intro x hx
    unfold dumped at hx
    split at hx
    · cases hx
    · rw [List.map_singleton, List.mem_singleton] at hx; rw [hx]; rfl
  have h2 : Redo0 c s1 (newest L) s.j.tail O E [] (dumped s1) :=
    ⟨by rw [← e1]; exact h1, ha.tail hc h (Or.inr rfl), e2, e3, fun x hx => Or.inl (hkn x hx)⟩
  have hw : Written E (dumped s1) 0 0 :=
    ⟨(dumped s1).map Entry.content, [], by simp, fun x hx => (nomatch hx), fun _ => rfl, fun x hx => Or.inl (hkn x hx)⟩
  exact ⟨O, E, ⟨h2, hw⟩, e1⟩

/-- C60, what the recovery achieves: a write to a non-empty queue has failed with E_RECOVER, and the user runs the procedure of
the header file (as tests/jtutil.c does), which may be restarted by further block failures and ends after `n` restarts. Then the
journal is in normal operation again, the failed block is marked bad, and the queue contains everything it contained before, in
the same order; in between and at the end there are pages without contents, and, only if there were restarts, copies of some of
the rewritten pages. (The tail must not be in the middle of the failed block.) -/
theorem recovery_loses_nothing (hc : c.Valid) (s s1 s2 : S) (L : List Entry) (pk : Bool) (d m : Option Buf) (k n : Nat)
    (h : Fifo c s L (.calm pk)) (hL : L ≠ []) (ha : Appends c s L d m (.error .recover, s1))
    (ht : s.j.tail / c.ppb ≠ newest L / c.ppb ∨ s.j.tail % c.ppb = 0) (hr : jtRecover c k 0 s1 = (.ok n, s2)) :
    ∃ L' O D E F, Fifo c s2 L' (.calm false) ∧ nandIsBad s2.n (newest L / c.ppb) = true ∧
      L.map Entry.content = O ++ E ∧ L'.map Entry.content = O ++ D ++ E ++ F ∧
      (∀ x, x ∈ F → x = filler) ∧ ∀ x, x ∈ D → x = filler ∨ (n ≠ 0 ∧ x ∈ E) := by
  obtain ⟨O, E, ⟨h2, hw⟩, e1⟩ := redo_start hc h hL ha ht
  obtain ⟨_, L', D, F, q1, q2, q3, q4, q5⟩ := h2.run hc ht k 0 s1 n s2 [] (dumped s1) hw hr
  exact ⟨L', O.map Entry.content, D, E.map Entry.content, F, q1, q2, by rw [e1, List.map_append], q3, q4, q5⟩

/-! ### The procedure ends -/

/-- A page appended without completing a checkpoint advances the head inside its group. -/
theorem Appends.head (hc : c.Valid) {s s' : S} {L : List Entry} {ph : Phase} {d m : Option Buf}
    (h : Fifo c s L ph) (ha : Appends c s L d m (.ok (), s')) (hd : s'.j.dirty = true) :
    s.j.head % c.ppc + 1 ≤ s'.j.head % c.ppc := by
  obtain ⟨Vs, vts, vt, vh, vr, vR, vM, vn, hq, hen⟩ := h.ents hc
  obtain ⟨Pd, ho, _⟩ := ha.out hc hq.geo hq.rst hen
  cases ho with
  | ok _ vq hp =>
    have hnl : ¬ c.last vq := fun hl => by have := hp.dirtyL hl; rw [hd] at this; cases this
    rw [hp.geo.eh, hq.geo.eh, ph_mod_ppc hc, ph_mod_ppc hc]
    rcases nextV_cases hc hp.uq with ⟨_, h2, h3⟩ | ⟨h1, _⟩
    · rw [h2, h3]
      rcases hp.mv with hm | ⟨hm1, _⟩
      · rw [hm]
      · rw [Nat.mod_eq_zero_of_dvd (Nat.dvd_trans hc.ppc_dvd (Nat.dvd_of_mod_eq_zero hm1))]; exact Nat.succ_le_succ (Nat.zero_le _)
    · exact absurd h1 hnl

theorem rewriteNext_ends (s : S) : (rewriteNext c s).1 ≠ .error .diverge := by
  intro h
  unfold rewriteNext at h
  simp only at h
  split at h
  · have := (enqueue_po (c := c) (k := true) none none (nextRecoverable c s).2).gv _ h
    revert this; decide
  · split at h
    · rename_i e he
      rcases readMeta_err he with h' | h' <;> rw [h'] at h <;> cases h
    · have := (journalCopy_po (c := c) _ _ _).gv _ h
      revert this; decide

theorem toRecover_length (r : Nat) : (toRecover c r).length ≤ c.ppb := by
  unfold toRecover
  refine Nat.le_trans (List.length_filter_le _ _) ?_
  rw [List.length_map, List.length_range]
  exact Nat.mod_lt r (ppb_pos c)

/-- Turns that remain until the recovery ends, if no further block fails. -/
def turns (c : Cfg) (E : List Entry) (got : List Nat) (s : S) : Nat :=
  if got.length < E.length then E.length - got.length + c.ppc else c.ppc - s.j.head % c.ppc

theorem Redo0.ends (hc : c.Valid) {r t : Nat} {O E : List Entry} :
    ∀ k n s got R, n ≤ 7 → Redo0 c s r t O E got R → (∃ n, Written E R n got.length) →
      turns c E got s + (7 - n) * (2 * c.ppb) + 1 ≤ k → (jtRecover c k n s).1 ≠ .error .diverge := by
  intro k
  induction k with
  | zero => intro n s got R _ _ _ hk; omega
  | succ k ih =>
    intro n s got R hn h hw hk hj
    obtain ⟨nw, hw⟩ := hw
    have hpp : c.ppc ≤ c.ppb := Nat.le_of_dvd (Nat.two_pow_pos _) hc.ppc_dvd
    have hmod := Nat.mod_lt s.j.head (ppc_pos c)
    have hE : E.length ≤ c.ppb := by
      rw [← List.length_map (f := Entry.page), h.pages]; exact toRecover_length r
    have hpos : 1 ≤ turns c E got s := by unfold turns; split <;> omega
    unfold jtRecover at hj
    rw [if_pos (recovery_enumerates hc _ _ _ _ h.fifo).1] at hj
    rcases hx : rewriteNext c s with ⟨x, s2⟩
    rw [hx] at hj
    cases x with
    | ok u =>
      simp only at hj
      obtain ⟨s1, d, m, got', g1, h1, ha, hw', hk', hd1⟩ := h.turn hc hw hx (Or.inl rfl)
      by_cases hr2 : s2.j.recovery = true
      · refine ih n s2 got' (R ++ [entryAt s2 d m]) hn ⟨?_, ?_, h1.pages, h1.old, ?_⟩ ⟨_, hw'⟩ ?_ hj
        · rw [← List.append_assoc]; exact .rewrite _ _ _ _ _ _ _ h1.fifo ha hr2
        · rw [ha.tail hc h1.fifo (Or.inl rfl)]; exact h1.tail
        · intro y hy
          rw [List.map_append] at hy
          rcases List.mem_append.1 hy with hy | hy
          · exact h1.known y hy
          · rw [List.map_singleton, List.mem_singleton] at hy; rw [hy]; exact hk'
        · suffices turns c E got' s2 + 1 ≤ turns c E got s by omega
          have hend := (recovery_ends hc _ _ _ _ _ _ _ h1.fifo ha).1
          rw [← h.pages, List.length_map] at hend
          have hmod2 := Nat.mod_lt s2.j.head (ppc_pos c)
          unfold turns at hpos ⊢
          by_cases hlt : got'.length < E.length
          · rw [if_pos hlt, if_pos (by omega)]; omega
          · have hd : s2.j.dirty = true := by
              cases hd : s2.j.dirty with
              | true => rfl
              | false => have := hend.2 ⟨hd, by omega⟩; rw [hr2] at this; cases this
            have hh := ha.head hc h1.fifo hd
            rw [if_neg hlt]
            split
            · omega
            · rw [hd1] at hh
              omega
      · cases k with
        | zero => omega
        | succ k => unfold jtRecover at hj; rw [if_neg hr2] at hj; cases hj
    | error e =>
      by_cases he : e = .recover
      · subst he
        simp only at hj
        split at hj
        · cases hj
        · rename_i hn8
          have hn8' : n + 1 < 8 := by omega
          obtain ⟨s1, d, m, got', g1, h1, ha, hw', hk', hd1⟩ := h.turn hc hw hx (Or.inr rfl)
          obtain ⟨R', h2, hw2⟩ := h1.restart hc ha n
          refine ih (n + 1) s2 [] R' (by omega) h2 ⟨_, hw2⟩ ?_ hj
          have ht : turns c E [] s2 ≤ 2 * c.ppb := by unfold turns; split <;> simp <;> omega
          have h7 : 7 - n = (7 - (n + 1)) + 1 := by omega
          rw [h7, Nat.add_mul, Nat.one_mul] at hk
          omega
      · have hd := rewriteNext_ends (c := c) s
        rw [hx] at hd
        cases e <;> first | exact he rfl | exact hd rfl | cases hj

/-- C60, the end: the recovery procedure ends, after at most sixteen blocks' worth of turns, whatever blocks fail meanwhile (the
procedure itself gives up at the eighth restart). -/
theorem recovery_terminates (hc : c.Valid) (s s1 : S) (L : List Entry) (pk : Bool) (d m : Option Buf) (k : Nat)
    (h : Fifo c s L (.calm pk)) (hL : L ≠ []) (ha : Appends c s L d m (.error .recover, s1))
    (ht : s.j.tail / c.ppb ≠ newest L / c.ppb ∨ s.j.tail % c.ppb = 0) (hk : 16 * c.ppb + 1 ≤ k) :
    (jtRecover c k 0 s1).1 ≠ .error .diverge := by
  obtain ⟨O, E, ⟨h2, hw⟩, _⟩ := redo_start hc h hL ha ht
  refine h2.ends hc k 0 s1 [] (dumped s1) (by omega) ⟨_, hw⟩ ?_
  have hpp : c.ppc ≤ c.ppb := Nat.le_of_dvd (Nat.two_pow_pos _) hc.ppc_dvd
  have hE : E.length ≤ c.ppb := by
    rw [← List.length_map (f := Entry.page), h2.pages]; exact toRecover_length _
  have : turns c E [] s1 ≤ 2 * c.ppb := by unfold turns; split <;> simp <;> omega
  omega

end Dhara

/-! ### A concrete case -/

namespace Dhara.ExRecover
open Dhara.Viol Dhara.Ex2

/-- Eight blocks of eight pages (six of them user pages); the programs at clock 6 (the fifth user page of block 0) and at clock 11
(during the recovery) fail. -/
def cfg : Cfg := mk 3 8 fun t => if t = 6 ∨ t = 11 then .fail else .ok

theorem valid : cfg.Valid := ⟨by decide, by decide, by decide, by decide, by decide⟩

def s1 : S := (enqueue cfg (some (data 0)) (some (data 10)) (j0 cfg)).2
def s2 : S := (enqueue cfg (some (data 1)) (some (data 11)) s1).2
def s3 : S := (enqueue cfg (some (data 2)) (some (data 12)) s2).2
def s4 : S := (enqueue cfg (some (data 3)) (some (data 13)) s3).2

/-- The queue before the failure: pages 0, 1, 2, 4. -/
def q : List Entry :=
  [entryAt s1 (some (data 0)) (some (data 10)), entryAt s2 (some (data 1)) (some (data 11)),
   entryAt s3 (some (data 2)) (some (data 12)), entryAt s4 (some (data 3)) (some (data 13))]

example : q.map Entry.page = [0, 1, 2, 4] := by decide +kernel

theorem ok1 : (enqueue cfg (some (data 0)) (some (data 10)) (j0 cfg)).1 = .ok () := good_iff (by decide +kernel)
theorem ok2 : (enqueue cfg (some (data 1)) (some (data 11)) s1).1 = .ok () := good_iff (by decide +kernel)
theorem ok3 : (enqueue cfg (some (data 2)) (some (data 12)) s2).1 = .ok () := good_iff (by decide +kernel)
theorem ok4 : (enqueue cfg (some (data 3)) (some (data 13)) s3).1 = .ok () := good_iff (by decide +kernel)

theorem enq {s : S} {L : List Entry} {d m : Option Buf} {r : Except Err Unit} (h : (enqueue cfg d m s).1 = r) :
    Appends cfg s L d m (r, (enqueue cfg d m s).2) := by
  have := Appends.enqueue (c := cfg) (s := s) (L := L) d m
  rwa [pair_eq h] at this

theorem fifo4 : Fifo cfg s4 q (.calm false) :=
  .append _ _ _ _ _ _ (.append _ _ _ _ _ _ (.append _ _ _ _ _ _ (.append _ _ _ _ _ _
    (.fresh _ ⟨rfl, rfl, Or.inl ⟨_, rfl⟩⟩) (enq ok1)) (enq ok2)) (enq ok3)) (enq ok4)

/-- The fifth enqueue asks for recovery; the buffered metadata were dumped into page 8. -/
def s5 : S := (enqueue cfg (some (data 4)) (some (data 14)) s4).2

theorem rec5 : (enqueue cfg (some (data 4)) (some (data 14)) s4).1 = .error .recover := isErr_iff (by decide +kernel)

theorem app5 : Appends cfg s4 q (some (data 4)) (some (data 14)) (.error .recover, s5) := enq rec5

theorem q_ne : q ≠ [] := List.cons_ne_nil _ _

/-- The hypothesis of `recovery_enumerates` is met. -/
theorem fifo5 : Fifo cfg s5 (q ++ dumped s5) (.recovering (newest q) []) := .begin_ _ _ _ _ _ _ fifo4 q_ne app5

example : (dumped s5).map Entry.page = [8] ∧ newest q = 4 ∧ toRecover cfg 4 = [0, 1, 2, 4] ∧ (nextRecoverable cfg s5).1 = 0 := by
  decide +kernel

theorem tail4 : s4.j.tail = 0 := by decide +kernel

def result (r : Except Err Nat) : Nat := match r with | .ok n => n | .error _ => 1000

theorem result_iff {r : Except Err Nat} {n : Nat} (hn : n < 1000) (h : result r = n) : r = .ok n := by
  unfold result at h
  split at h
  · rw [h]
  · omega

theorem res : (jtRecover cfg 40 0 s5).1 = .ok 1 := result_iff (by decide) (by decide +kernel)

/-- The procedure of tests/jtutil.c ends after one restart: the hypotheses of `recovery_loses_nothing` are met. -/
theorem recovered : ∃ L' O D E F, Fifo cfg (jtRecover cfg 40 0 s5).2 L' (.calm false) ∧
    nandIsBad (jtRecover cfg 40 0 s5).2.n (newest q / cfg.ppb) = true ∧
    q.map Entry.content = O ++ E ∧ L'.map Entry.content = O ++ D ++ E ++ F ∧
    (∀ x, x ∈ F → x = filler) ∧ ∀ x, x ∈ D → x = filler ∨ (1 ≠ 0 ∧ x ∈ E) :=
  recovery_loses_nothing valid s4 s5 _ q false _ _ 40 1 fifo4 q_ne app5 (Or.inr (by rw [tail4]; rfl)) (pair_eq res)

/-- The hypotheses of `recovery_terminates` are met. -/
example : (jtRecover cfg (16 * cfg.ppb + 1) 0 s5).1 ≠ .error .diverge :=
  recovery_terminates valid s4 s5 q false _ _ _ fifo4 q_ne app5 (Or.inr (by rw [tail4]; rfl)) (Nat.le_refl _)

/-- The blocks 0 and 1 have been retired, the newest page is page 22, and peek answers page 16 of block 2. -/
example : (jtRecover cfg 40 0 s5).2.j.root = 22 ∧ (jtRecover cfg 40 0 s5).2.j.recovery = false ∧
    (peek cfg (jtRecover cfg 40 0 s5).2).1 = 16 ∧
    (List.range 8).map (jtRecover cfg 40 0 s5).2.n.chip.bad = [true, true, false, false, false, false, false, false] := by
  decide +kernel

/-- The hypotheses of `recovery_ends` are met. -/
theorem ok6 : (enqueue cfg none none s5).1 = .ok () := good_iff (by decide +kernel)

example : Appends cfg s5 (q ++ dumped s5) none none (.ok (), (enqueue cfg none none s5).2) := enq ok6

/-! ### A defect

The comment in dhara/journal.c:771 announces that finish_recovery skips the tail forward, but nothing does so. -/

def t4 : S := dequeue cfg (peek cfg s4).2

theorem shallow4 : Shallow cfg s4.n := fun b => ⟨0, by decide, by
  have : ∀ b, s4.n.chip.bad b = false := fun _ => rfl
  exact this _⟩

theorem fifo_t4 : Fifo cfg t4 q.tail (.calm false) :=
  .dequeue _ _ (entryAt s1 (some (data 0)) (some (data 10))) (.peek _ _ _ fifo4 shallow4)

def t5 : S := (enqueue cfg (some (data 4)) (some (data 14)) t4).2

theorem rec_t5 : (enqueue cfg (some (data 4)) (some (data 14)) t4).1 = .error .recover := isErr_iff (by decide +kernel)

theorem res_t : (jtRecover cfg 40 0 t5).1 = .ok 1 := result_iff (by decide) (by decide +kernel)

theorem bad_t : (peek cfg (jtRecover cfg 40 0 t5).2).1 = 1 := by decide +kernel

theorem bad_t' : nandIsBad (jtRecover cfg 40 0 t5).2.n 0 = true := by decide +kernel

theorem q_tail_ne : q.tail ≠ [] := List.cons_ne_nil _ _

/-- C60, the case left out: if the tail is in the middle of the failed block, the recovery does not move it, and afterwards
dhara_journal_peek answers a page of the block that has been given up and marked bad. -/
theorem peek_on_retired_block :
    ∃ (c : Cfg) (s s1 s2 : S) (L : List Entry) (d m : Option Buf) (k n : Nat), c.Valid ∧ Fifo c s L (.calm false) ∧ L ≠ [] ∧
      Appends c s L d m (.error .recover, s1) ∧ jtRecover c k 0 s1 = (.ok n, s2) ∧
      (peek c s2).1 / c.ppb = newest L / c.ppb ∧ nandIsBad s2.n ((peek c s2).1 / c.ppb) = true := by
  refine ⟨cfg, t4, t5, (jtRecover cfg 40 0 t5).2, q.tail, some (data 4), some (data 14), 40, 1, valid, fifo_t4, q_tail_ne, enq rec_t5, pair_eq res_t, ?_, ?_⟩
  · rw [bad_t]; decide +kernel
  · rw [bad_t]; exact bad_t'

end Dhara.ExRecover

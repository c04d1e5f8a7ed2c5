/-
Invariants of the journal as a first-in first-out queue, in normal operation and during recovery.
-/
import Verif.Props.FifoSpec
import Verif.Props.Journal
import Verif.Proofs.Disk
namespace Dhara

variable {c : Cfg}

/-- The entries `L` lie at positions `Vs`, all of them from `vt` to before `vh`, with their data and metadata. -/
structure Ents (c : Cfg) (s : S) (L : List Entry) (Vs : List Nat) (vt vh : Nat) : Prop where
  pages : L.map Entry.page = Vs.map c.ph
  sorted : Vs.Pairwise (· < ·)
  rng : ∀ v, v ∈ Vs → vt ≤ v ∧ v < vh ∧ c.isU v
  data : ∀ e, e ∈ L → ∀ d, e.data = some d → s.n.chip.page e.page = some (c.clip d)
  mt : ∀ e, e ∈ L → metaBuf c s e.page = some (metaOf e.mt)

theorem Ents.entry {s : S} {L : List Entry} {Vs : List Nat} {vt vh : Nat} (h : Ents c s L Vs vt vh) {e : Entry} (he : e ∈ L) :
    ∃ v, v ∈ Vs ∧ e.page = c.ph v := by
  have : e.page ∈ Vs.map c.ph := by rw [← h.pages]; exact List.mem_map_of_mem he
  obtain ⟨v, h1, h2⟩ := List.mem_map.1 this
  exact ⟨v, h1, h2.symm⟩

theorem Ents.empty {s : S} (vt vh : Nat) : Ents c s [] [] vt vh :=
  ⟨rfl, List.Pairwise.nil, fun _ h => (nomatch h), fun _ h => (nomatch h), fun _ h => (nomatch h)⟩

/-- Some entries drop out, the others are unchanged. -/
theorem Ents.keep {s s' : S} {L : List Entry} {Vs : List Nat} {vt vh vh' : Nat} (h : Ents c s L Vs vt vh) (hv : vh ≤ vh')
    (P : Nat → Bool) (h1 : ∀ v, v ∈ Vs → P (c.ph v) = true → s'.n.chip.page (c.ph v) = s.n.chip.page (c.ph v))
    (h2 : ∀ v, v ∈ Vs → P (c.ph v) = true → metaBuf c s' (c.ph v) = metaBuf c s (c.ph v)) :
    Ents c s' (L.filter fun e => P e.page) (Vs.filter fun v => P (c.ph v)) vt vh' := by
  refine ⟨?_, h.sorted.filter _, fun v hm => ?_, fun e he d hd => ?_, fun e he => ?_⟩
  · have e1 : (L.map Entry.page).filter P = (L.filter fun e => P e.page).map Entry.page := by rw [List.filter_map]; rfl
    have e2 : (Vs.map c.ph).filter P = (Vs.filter fun v => P (c.ph v)).map c.ph := by rw [List.filter_map]; rfl
    rw [← e1, ← e2, h.pages]
  · have := h.rng v (List.mem_filter.1 hm).1; exact ⟨this.1, by omega, this.2.2⟩
  · obtain ⟨e1, e2⟩ := List.mem_filter.1 he
    obtain ⟨v, v1, v2⟩ := h.entry e1
    have hd' := h.data e e1 d hd
    rw [v2] at hd' e2 ⊢
    rw [h1 v v1 e2]; exact hd'
  · obtain ⟨e1, e2⟩ := List.mem_filter.1 he
    obtain ⟨v, v1, v2⟩ := h.entry e1
    have hm := h.mt e e1
    rw [v2] at hm e2 ⊢
    rw [h2 v v1 e2]; exact hm

/-- All entries are unchanged. -/
theorem Ents.same {s s' : S} {L : List Entry} {Vs : List Nat} {vt vh vh' : Nat} (h : Ents c s L Vs vt vh) (hv : vh ≤ vh')
    (h1 : ∀ v, v ∈ Vs → s'.n.chip.page (c.ph v) = s.n.chip.page (c.ph v))
    (h2 : ∀ v, v ∈ Vs → metaBuf c s' (c.ph v) = metaBuf c s (c.ph v)) : Ents c s' L Vs vt vh' := by
  have := h.keep (vh' := vh') hv (fun _ => true) (fun v a _ => h1 v a) (fun v a _ => h2 v a)
  simpa using this

/-- One more entry. -/
theorem Ents.snoc {s : S} {L : List Entry} {Vs : List Nat} {vt vh vh' vq : Nat} (h : Ents c s L Vs vt vh) (h1 : vh ≤ vq)
    (h2 : vq < vh') (h3 : c.isU vq) (h4 : vt ≤ vq) {e : Entry} (he : e.page = c.ph vq)
    (hd : ∀ d, e.data = some d → s.n.chip.page (c.ph vq) = some (c.clip d))
    (hm : metaBuf c s (c.ph vq) = some (metaOf e.mt)) : Ents c s (L ++ [e]) (Vs ++ [vq]) vt vh' := by
  refine ⟨?_, ?_, fun v hv => ?_, fun x hx d hd' => ?_, fun x hx => ?_⟩
  · rw [List.map_append, List.map_append, h.pages, List.map_singleton, List.map_singleton, he]
  · rw [List.pairwise_append]
    refine ⟨h.sorted, List.pairwise_singleton _ _, fun a ha b hb => ?_⟩
    rw [List.mem_singleton] at hb
    have := h.rng a ha
    omega
  · rcases List.mem_append.1 hv with hv | hv
    · have := h.rng v hv; exact ⟨by omega, by omega, this.2.2⟩
    · rw [List.mem_singleton] at hv; subst hv; exact ⟨h4, h2, h3⟩
  · rcases List.mem_append.1 hx with hx | hx
    · exact h.data x hx d hd'
    · rw [List.mem_singleton] at hx; subst hx; rw [he]; exact hd d hd'
  · rcases List.mem_append.1 hx with hx | hx
    · exact h.mt x hx
    · rw [List.mem_singleton] at hx; subst hx; rw [he]; exact hm

theorem Ents.nil_iff {s : S} {L : List Entry} {Vs : List Nat} {vt vh : Nat} (h : Ents c s L Vs vt vh) : L = [] ↔ Vs = [] := by
  have := congrArg List.length h.pages
  rw [List.length_map, List.length_map] at this
  rw [← List.length_eq_zero_iff, ← List.length_eq_zero_iff, this]

theorem Ents.nodup {s : S} {L : List Entry} {Vs : List Nat} {vts vt vh : Nat} (h : Ents c s L Vs vt vh) (hw : c.Win vts vh)
    (hl : vts ≤ vt) : (L.map Entry.page).Nodup := by
  rw [h.pages]
  unfold List.Nodup
  rw [List.pairwise_map]
  refine List.Pairwise.imp_of_mem ?_ h.sorted
  intro a b ha hb hab he
  have h1 := h.rng a ha
  have h2 := h.rng b hb
  have := hw.inj (v := a) (w := b) (by omega) (by omega) (by omega) (by omega) he
  omega

/-- The newest entry is the one at the highest position. -/
theorem Ents.newest {s : S} {L : List Entry} {Vs : List Nat} {vt vh vl : Nat} (h : Ents c s L Vs vt vh) (hl : vl ∈ Vs)
    (hmax : ∀ v, v ∈ Vs → v ≤ vl) : newest L = c.ph vl := by
  have h1 : L.reverse.map Entry.page = Vs.reverse.map c.ph := by rw [List.map_reverse, List.map_reverse, h.pages]
  have h2 : Vs.reverse.Pairwise (fun a b => b < a) := List.pairwise_reverse.2 h.sorted
  have h3 : vl ∈ Vs.reverse := List.mem_reverse.2 hl
  have h4 : ∀ v, v ∈ Vs.reverse → v ≤ vl := fun v hv => hmax v (List.mem_reverse.1 hv)
  unfold Dhara.newest
  generalize Vs.reverse = W at *
  generalize L.reverse = K at *
  cases W with
  | nil => cases h3
  | cons a W =>
    cases K with
    | nil => simp at h1
    | cons e K =>
      rw [List.map_cons, List.map_cons, List.cons.injEq] at h1
      show e.page = _
      rw [h1.1]
      rcases List.mem_cons.1 h3 with h3 | h3
      · rw [h3]
      · have := (List.pairwise_cons.1 h2).1 vl h3
        have := h4 a (List.mem_cons_self ..)
        omega

/-- What an appended page is to contain, in terms of queue positions. -/
theorem Appends.out (hc : c.Valid) {s : S} {L : List Entry} {d m : Option Buf} {x : Except Err Unit × S} {Vs : List Nat}
    {vts vt vh vR vM vn : Nat} (h : Appends c s L d m x) (g : Geo c s vts vt vh) (hr : RSt c s vt vh vR vM vn)
    (he : Ents c s L Vs vt vh) : ∃ Pd, PushOut c s m Pd vts vt vh vR vM x ∧
      ∀ s1 : S, (∀ v, vts ≤ v → v < vh → s1.n.chip.page (c.ph v) = s.n.chip.page (c.ph v)) → ∀ pg, Pd s1 pg →
        ∀ b, d = some b → pg = some (c.clip b) := by
  cases h with
  | enqueue d m => exact ⟨_, enqueue_out hc d m g hr, fun s1 _ pg hpd b hb => by subst hb; exact hpd⟩
  | copy e m hm =>
    refine ⟨_, copy_out hc e.page m g hr, fun s1 hk pg hpd b hb => ?_⟩
    obtain ⟨b1, k1, k2⟩ := hpd
    obtain ⟨v, v1, v2⟩ := he.entry hm
    have hv := he.rng v v1
    have hdat := he.data e hm b hb
    have := g.l1
    rw [v2, hk v (by omega) hv.2.1, ← v2, hdat] at k1
    cases k1
    rw [k2, clip_clip]

/-! ### Normal operation -/

/-- The queue `L` lies in the journal at positions `Vs`: the positions from tail to head whose blocks are good. -/
structure FInv (c : Cfg) (s : S) (L : List Entry) (pk : Bool) (Vs : List Nat) (vts vt vh vr vR vM vn : Nat) : Prop where
  q : QInv c s vts vt vh vr vR vM vn
  nr : s.j.recovery = false
  en : Ents c s L Vs vt vh
  mem : ∀ v, v ∈ Vs ↔ vt ≤ v ∧ v < vh ∧ c.isU v ∧ s.n.chip.bad (c.ph v / c.ppb) = false
  last : vt < vh → s.j.root = c.ph vr ∧ vr ∈ Vs ∧ c.nextV vr = vh
  al : vt % c.ppb ≠ 0 → vt < vh → s.n.chip.bad (c.ph vt / c.ppb) = false
  pk : pk = true → vt ∈ Vs

/-- The part of the journal that peek and dequeue leave alone. -/
structure SameQ (s s' : S) : Prop where
  n : s'.n = s.n
  head : s'.j.head = s.j.head
  buf : s'.j.pageBuf = s.j.pageBuf
  rm : s'.j.recoverMeta = s.j.recoverMeta
  rr : s'.j.recoverRoot = s.j.recoverRoot
  rcv : s'.j.recovery = s.j.recovery

theorem SameQ.meta {s s' : S} (h : SameQ s s') (p : Nat) : metaBuf c s' p = metaBuf c s p := by
  unfold metaBuf; rw [h.n, h.head, h.buf, h.rm, h.rr]

theorem dequeue_same (s : S) : SameQ s (dequeue c s) := by
  unfold dequeue
  split
  · exact ⟨rfl, rfl, rfl, rfl, rfl, rfl⟩
  · simp only
    split <;> split <;> exact ⟨rfl, rfl, rfl, rfl, rfl, rfl⟩

theorem peekLoop_same (s : S) : ∀ i b, SameQ s (peekLoop c i b s).2 := by
  intro i
  induction i with
  | zero => intro b; exact ⟨rfl, rfl, rfl, rfl, rfl, rfl⟩
  | succ i ih =>
    intro b
    unfold peekLoop
    split
    · simp only
      split <;> exact ⟨rfl, rfl, rfl, rfl, rfl, rfl⟩
    · exact ih _

theorem peek_same (s : S) : SameQ s (peek c s).2 := by
  unfold peek
  split
  · exact ⟨rfl, rfl, rfl, rfl, rfl, rfl⟩
  · split
    · exact peekLoop_same s _ _
    · exact ⟨rfl, rfl, rfl, rfl, rfl, rfl⟩

/-- Blocks of older entries are not marked bad by a push that does not finish a recovery. -/
theorem PushOk.stayGood {s s' : S} {m : Option Buf} {Pd : S → Option Buf → Prop} {vts vt vh vq vR vM : Nat}
    (hp : PushOk c s s' m Pd vts vt vh vq vR vM) (h : ∀ k, finishes c s vq → ¬ retires c s vR vM k) :
    ∀ v, vts ≤ v → v < vh → s.n.chip.bad (c.ph v / c.ppb) = false → s'.n.chip.bad (c.ph v / c.ppb) = false := by
  intro v w1 w2 w3
  have hle := hp.le
  have hlt := lt_nextV c vq
  have hwq : c.Win vts vq := hp.winq.mono (Nat.le_refl _) (by omega)
  cases hb : s'.n.chip.bad (c.ph v / c.ppb) with
  | false => rfl
  | true =>
    rcases hp.keep.badn _ hb with hb | hb | hb
    · rw [w3] at hb; cases hb
    · rcases hp.mv with hm | ⟨hm1, hm2⟩
      · obtain ⟨b, b1, b2, _⟩ := hb; rw [hm] at b2; omega
      · exact absurd hb (not_inBlks hwq w1 (blk_lt_aligned w2 hm1) (by omega))
    · exact absurd hb.2 (h _ hb.1)

/-- Of the positions passed, only the one written is on a good block. -/
theorem PushOk.only (hc : c.Valid) {s s' : S} {m : Option Buf} {Pd : S → Option Buf → Prop} {vts vt vh vq vR vM v : Nat}
    (hp : PushOk c s s' m Pd vts vt vh vq vR vM) (h1 : vh ≤ v) (h2 : v < c.nextV vq) (h3 : c.isU v)
    (h4 : s'.n.chip.bad (c.ph v / c.ppb) = false) : v = vq := by
  apply Classical.byContradiction; intro hne
  by_cases hv2 : vq < v
  · have := nextV_le hc hp.uq h3 hv2; omega
  · rcases hp.mv with hm | ⟨hm1, hm2⟩
    · omega
    · have := hp.skip (v / c.ppb) (Nat.div_le_div_right (by omega)) (blk_lt_aligned (by omega) hm2)
      rw [← ph_div_ppb, h4] at this; cases this

/-- The new entry of a successful push. -/
theorem PushOk.entry (hc : c.Valid) {s s' : S} {d m : Option Buf} {Pd : S → Option Buf → Prop} {vts vt vh vq vR vM : Nat}
    (hp : PushOk c s s' m Pd vts vt vh vq vR vM)
    (hd : ∀ s1 : S, (∀ v, vts ≤ v → v < vh → s1.n.chip.page (c.ph v) = s.n.chip.page (c.ph v)) → ∀ pg, Pd s1 pg →
      ∀ b, d = some b → pg = some (c.clip b)) :
    ∀ b, (entryAt s' d m).data = some b → s'.n.chip.page (c.ph vq) = some (c.clip b) := by
  intro b hb
  have hlt := lt_nextV c vq
  have hwq : c.Win vts vq := hp.winq.mono (Nat.le_refl _) (by omega)
  obtain ⟨s1, k1, k2, k3, k4, k5⟩ := hp.data
  exact hd s1 (fun v w1 w2 => k1.live hc hwq w1 w2) _ k3 b hb

/-- A successful push appends one entry. -/
theorem FInv.push (hc : c.Valid) {s s' : S} {L : List Entry} {pk : Bool} {Vs : List Nat} {vts vt vh vr vR vM vn : Nat}
    {d m : Option Buf} {Pd : S → Option Buf → Prop}
    (h : FInv c s L pk Vs vts vt vh vr vR vM vn) (ho : PushOut c s m Pd vts vt vh vR vM (.ok (), s'))
    (hd : ∀ s1 : S, (∀ v, vts ≤ v → v < vh → s1.n.chip.page (c.ph v) = s.n.chip.page (c.ph v)) → ∀ pg, Pd s1 pg →
      ∀ b, d = some b → pg = some (c.clip b)) :
    ∃ vq, PushOk c s s' m Pd vts vt vh vq vR vM ∧ ¬ finishes c s vq ∧
      FInv c s' (L ++ [entryAt s' d m]) pk (Vs ++ [vq]) (newTs c s vts vt vq) vt (c.nextV vq) vq vR vM vn := by
  have hcalm := h.q.rst.calm h.nr
  have hl1 := h.q.geo.l1
  have hl2 := h.q.geo.l2
  cases ho with
  | ok _ vq hp =>
    have hle := hp.le
    have hlt := lt_nextV c vq
    have hnf : ¬ finishes c s vq := fun hf => by have := hf.2; rw [hcalm.ed] at this; cases this
    have hwq : c.Win vts vq := hp.winq.mono (Nat.le_refl _) (by omega)
    obtain ⟨a1, a2, a3, a4, a5, a6⟩ := hp.going hnf
    have hgood := hp.stayGood (fun _ hf => absurd hf hnf)
    have hmem : ∀ v, v ∈ Vs ++ [vq] ↔ vt ≤ v ∧ v < c.nextV vq ∧ c.isU v ∧ s'.n.chip.bad (c.ph v / c.ppb) = false := by
      intro v
      rw [List.mem_append, List.mem_singleton, h.mem]
      constructor
      · rintro (⟨w1, w2, w3, w4⟩ | rfl)
        · exact ⟨w1, by omega, w3, hgood v (by omega) w2 w4⟩
        · exact ⟨by omega, hlt, hp.uq, hp.good⟩
      · rintro ⟨w1, w2, w3, w4⟩
        by_cases hv : v < vh
        · refine Or.inl ⟨w1, hv, w3, ?_⟩
          cases hb : s.n.chip.bad (c.ph v / c.ppb) with
          | false => rfl
          | true => rw [hp.keep.badm _ hb] at w4; cases w4
        · exact Or.inr (hp.only hc (by omega) w2 w3 w4)
    have hen : Ents c s' L Vs vt vh := h.en.same (Nat.le_refl _)
      (fun v hv => by have := h.en.rng v hv; exact hp.keep.live hc hwq (by omega) (by omega))
      (fun v hv => by have := h.en.rng v hv; exact hp.mkeep v (by omega) (by omega) this.2.2 (fun hf => hnf hf.1))
    refine ⟨vq, hp, hnf, ⟨⟨hp.geo, h.q.rst.moved (by omega) a1 a2 a3 a4 a5 a6, Or.inr ⟨hp.root, by omega, hlt, hp.uq⟩,
        fun _ _ => by rw [hp.root]; exact hp.good⟩, by rw [a1]; exact h.nr,
        hen.snoc hle hlt hp.uq (by omega) hp.root (hp.entry hc hd) hp.metaq, hmem, ?_, ?_, ?_⟩⟩
    · intro _; exact ⟨hp.root, by simp, rfl⟩
    · intro ha hl
      by_cases hv : vt < vh
      · exact hgood vt hl1 hv (h.al ha hv)
      · have hvv : vt = vh := by omega
        rcases hp.mv with hm | ⟨hm1, hm2⟩
        · have : vt = vq := by omega
          rw [this]; exact hp.good
        · rw [hvv] at ha; exact absurd hm1 ha
    · intro hpk; exact List.mem_append_left _ (h.pk hpk)

/-- What peek does: it answers the page of the oldest entry, or NONE. -/
theorem FInv.peek (hc : c.Valid) {s : S} {L : List Entry} {pk : Bool} {Vs : List Nat} {vts vt vh vr vR vM vn : Nat}
    (h : FInv c s L pk Vs vts vt vh vr vR vM vn) (hs : Shallow c s.n) :
    (Vs = [] ∧ vt = vh ∧ (peek c s).1 = NONE ∧ FInv c (peek c s).2 L false Vs vts vt vh vr vR vM vn) ∨
    (∃ v0 Vr, Vs = v0 :: Vr ∧ (peek c s).1 = c.ph v0 ∧ FInv c (peek c s).2 L true Vs vts v0 vh vr vR vM vn) := by
  obtain ⟨vt', p1, p2, p3, p4, p5, p6, p7⟩ := peek_q hc h.q h.nr
  have hsame := peek_same (c := c) s
  have hl2 := h.q.geo.l2
  by_cases he : vt = vh
  · left
    obtain ⟨e1, e2⟩ := p3 he
    subst e1
    have hV : Vs = [] := by
      cases Vs with
      | nil => rfl
      | cons a _ => have := (h.mem a).1 (List.mem_cons_self ..); omega
    exact ⟨hV, he, e2, ⟨p1, by rw [hsame.rcv]; exact h.nr, h.en.same (Nat.le_refl _) (fun v _ => by rw [p2]) (fun v _ => hsame.meta _),
      by rw [p2]; exact h.mem, fun hlt => absurd he (by omega), by rw [p2]; exact h.al, fun h => by cases h⟩⟩
  · right
    have hlt : vt < vh := by omega
    obtain ⟨l0, l1, l2⟩ := h.last hlt
    cases hV : Vs with
    | nil => rw [hV] at l1; cases l1
    | cons v0 Vr =>
      have m0 := (h.mem v0).1 (by rw [hV]; exact List.mem_cons_self ..)
      have hmin : ∀ v, v ∈ Vs → v0 ≤ v := by
        intro v hv
        rw [hV] at hv
        rcases List.mem_cons.1 hv with hv | hv
        · omega
        · have := h.en.sorted; rw [hV] at this
          have := (List.pairwise_cons.1 this).1 v hv; omega
      have hvt : vt' = v0 := by
        by_cases ha : vt % c.ppb = 0
        · -- the block of the oldest entry is the first good one
          have hst : v0 / c.ppb * c.ppb ∈ Vs := by
            have d0 := div_mod_range v0 c.ppb
            rw [h.mem]
            refine ⟨?_, by omega, isU_of_aligned hc (Nat.mul_mod_left _ _), ?_⟩
            · have := Nat.div_le_div_right (c := c.ppb) m0.1
              have := Nat.mul_le_mul_right c.ppb this
              have := Nat.div_add_mod vt c.ppb
              rw [Nat.mul_comm] at this
              omega
            · have := m0.2.2.2
              rw [ph_div_ppb] at this ⊢
              rw [Nat.mul_div_cancel _ (ppb_pos c)]; exact this
          have hv0 : v0 = v0 / c.ppb * c.ppb := by
            have := hmin _ hst
            have := Nat.div_mul_le_self v0 c.ppb
            omega
          have hbad : ∀ k, vt / c.ppb ≤ k → k < v0 / c.ppb → s.n.chip.bad (k % c.numBlocks) = true := by
            intro k k1 k2
            cases hb : s.n.chip.bad (k % c.numBlocks) with
            | true => rfl
            | false =>
              exfalso
              have k3 := Nat.mul_le_mul_right c.ppb k1
              have k4 : k * c.ppb < v0 / c.ppb * c.ppb := Nat.mul_lt_mul_of_pos_right k2 (ppb_pos c)
              have k5 := Nat.div_add_mod vt c.ppb
              rw [Nat.mul_comm] at k5
              have := hmin (k * c.ppb) ((h.mem _).2 ⟨by omega, by omega, isU_of_aligned hc (Nat.mul_mod_left _ _), by
                rw [ph_div_ppb, Nat.mul_div_cancel _ (ppb_pos c)]; exact hb⟩)
              omega
          obtain ⟨k, k1, k2⟩ := hs (vt / c.ppb)
          have hnear : v0 / c.ppb < vt / c.ppb + 8 := by
            apply Classical.byContradiction; intro hn
            have := hbad (vt / c.ppb + k) (by omega) (by omega)
            rw [k2] at this; cases this
          have := p6 hlt ha (v0 / c.ppb) (Nat.div_le_div_right m0.1) (Nat.div_le_div_right (by omega)) hnear
            (by rw [← ph_div_ppb]; exact m0.2.2.2) hbad
          omega
        · rw [p5 ha]
          have := hmin vt ((h.mem vt).2 ⟨Nat.le_refl _, hlt, h.q.geo.ut, h.al ha hlt⟩)
          omega
      subst hvt
      have hen := h.en
      have hmr := hmin _ l1
      rw [← hV]
      refine ⟨_, _, hV, p4 hlt, ⟨p1, by rw [hsame.rcv]; exact h.nr, ?_, ?_, ?_, fun _ _ => by rw [p2]; exact m0.2.2.2,
        fun _ => by rw [hV]; exact List.mem_cons_self ..⟩⟩
      · have := hen.same (s' := (Dhara.peek c s).2) (Nat.le_refl _) (fun v _ => by rw [p2]) (fun v _ => hsame.meta _)
        exact ⟨this.pages, this.sorted, fun v hv => ⟨hmin v hv, (this.rng v hv).2⟩, this.data, this.mt⟩
      · intro v
        rw [p2]
        constructor
        · intro hv; have := (h.mem v).1 hv; exact ⟨hmin v hv, this.2⟩
        · rintro ⟨w1, w2⟩; exact (h.mem v).2 ⟨by omega, w2⟩
      · intro _
        refine ⟨?_, l1, l2⟩
        rcases p7 with p7 | p7
        · rw [p7]; exact l0
        · exfalso; have := lt_nextV c vr; omega

theorem FInv.dequeue (hc : c.Valid) {s : S} {e : Entry} {L : List Entry} {Vs : List Nat} {vts vt vh vr vR vM vn : Nat}
    (hp : FInv c s (e :: L) true Vs vts vt vh vr vR vM vn) :
    ∃ Vs' vts' vt', FInv c (Dhara.dequeue c s) L false Vs' vts' vt' vh vr vR vM vn ∧ (Dhara.dequeue c s).n = s.n ∧
      vts ≤ vts' ∧ (vts' = vts ∨ s.j.dirty = false) ∧ Vs = vt :: Vs' ∧ (s.j.dirty = false → vts' = vt') := by
  obtain ⟨v0, Vr, hV⟩ : ∃ v0 Vr, Vs = v0 :: Vr := by
    cases Vs with
    | nil => have := hp.en.pages; simp at this
    | cons a b => exact ⟨a, b, rfl⟩
  have hv0 : vt = v0 := by
    have h1 := hp.pk rfl
    have h2 := (hp.mem v0).1 (by rw [hV]; exact List.mem_cons_self ..)
    have h3 := hp.en.sorted
    rw [hV] at h1 h3
    rcases List.mem_cons.1 h1 with h1 | h1
    · exact h1
    · have := (List.pairwise_cons.1 h3).1 vt h1; omega
  subst hV
  subst hv0
  obtain ⟨vts', vt', d1, d2, d3, d4, d5, d6, d7⟩ := dequeue_q hc hp.q hp.nr
  have hsame := dequeue_same (c := c) s
  have m0 := (hp.mem vt).1 (List.mem_cons_self ..)
  have hvt := d4 m0.2.1
  subst hvt
  have hsrt := List.pairwise_cons.1 hp.en.sorted
  have hpg := hp.en.pages
  rw [List.map_cons, List.map_cons, List.cons.injEq] at hpg
  have hl := lt_nextV c vt
  have hrng : ∀ v, v ∈ Vr → c.nextV vt ≤ v ∧ v < vh ∧ c.isU v := fun v hv => by
    have := (hp.mem v).1 (List.mem_cons_of_mem _ hv)
    exact ⟨nextV_le hc m0.2.2.1 this.2.2.1 (hsrt.1 v hv), this.2.1, this.2.2.1⟩
  refine ⟨Vr, vts', c.nextV vt, ?_, d2, d3, d6, rfl, d7 m0.2.1⟩
  refine ⟨d1, by rw [hsame.rcv]; exact hp.nr,
    ⟨hpg.2, hsrt.2, hrng, fun x hx => by rw [d2]; exact hp.en.data x (List.mem_cons_of_mem _ hx),
      fun x hx => by rw [hsame.meta]; exact hp.en.mt x (List.mem_cons_of_mem _ hx)⟩, ?_, ?_, ?_, fun h => by cases h⟩
  · intro v
    rw [d2]
    constructor
    · intro hv
      have := (hp.mem v).1 (List.mem_cons_of_mem _ hv)
      exact ⟨(hrng v hv).1, this.2⟩
    · rintro ⟨w1, w2⟩
      rcases List.mem_cons.1 ((hp.mem v).2 ⟨by omega, w2⟩) with hv | hv
      · omega
      · exact hv
  · intro hlt
    obtain ⟨l0, l1, l2⟩ := hp.last m0.2.1
    rcases List.mem_cons.1 l1 with hv | hv
    · rw [hv] at l2; omega
    · have := hrng _ hv
      exact ⟨by rw [d5 m0.2.1 l0 this.1 this.2.1]; exact l0, hv, l2⟩
  · intro ha _
    rw [d2]
    rcases nextV_blk hc m0.2.2.1 with ⟨b1, _⟩ | ⟨_, b2⟩
    · rw [ph_div_ppb, b1, ← ph_div_ppb]; exact m0.2.2.2
    · exact absurd b2 ha

theorem FInv.none {s : S} {vts vt vr vR vM vn : Nat} (h : QInv c s vts vt vt vr vR vM vn)
    (hn : s.j.recovery = false) : FInv c s [] false [] vts vt vt vr vR vM vn := by
  refine ⟨h, hn, Ents.empty _ _, fun v => ?_, fun h => absurd h (by omega), fun _ h => absurd h (by omega), fun h => by cases h⟩
  constructor
  · intro h; cases h
  · rintro ⟨_, h, _⟩; omega

/-- A push that gave up before anything was written leaves the queue as it is. -/
theorem FInv.refused (hc : c.Valid) {s s' : S} {L : List Entry} {pk : Bool} {Vs : List Nat} {vts vt vh vr vR vM vn vq : Nat}
    (h : FInv c s L pk Vs vts vt vh vr vR vM vn) (hs : Soft c s s' vts vh vq) (hb : s.n.chip.bad (s.j.head / c.ppb) = false) :
    FInv c s' L pk Vs vts vt vh vr vR vM vn := by
  have hl1 := h.q.geo.l1
  have hvq : vq = vh := by
    rcases hs.mv with e | ⟨e1, e2⟩
    · exact e
    · apply Classical.byContradiction; intro hne
      have := hs.le
      have := hs.skip (vh / c.ppb) (Nat.le_refl _) (blk_lt_aligned (by omega) e2)
      rw [h.q.geo.eh, ph_div_ppb, this] at hb; cases hb
  subst hvq
  have hcalm := h.q.rst.calm h.nr
  have hcalm' : Calm s' := ⟨hs.jh.recovery.trans hcalm.nr, hs.jh.recoverMeta.trans hcalm.rm, hs.jh.enumDone.trans hcalm.ed,
    hs.jh.badMeta.trans hcalm.bm⟩
  have hbad : ∀ k, s'.n.chip.bad k = s.n.chip.bad k := by
    intro k
    cases h1 : s.n.chip.bad k with
    | true => exact hs.keep.badm k h1
    | false =>
      cases h2 : s'.n.chip.bad k with
      | false => rfl
      | true =>
        rcases hs.keep.badn k h2 with h3 | h3
        · rw [h1] at h3; cases h3
        · exact h3.elim
  refine ⟨⟨hs.geo hc h.q.geo, Or.inl hcalm', by rw [hs.jh.root]; exact h.q.root, fun _ hr => ?_⟩, hcalm'.nr, ?_, fun v => by rw [hbad]; exact h.mem v,
    fun hlt => by rw [hs.jh.root]; exact h.last hlt, fun h1 h2 => by rw [hbad]; exact h.al h1 h2, h.pk⟩
  · rw [hbad, hs.jh.root]; rw [hs.jh.root] at hr; exact h.q.good hcalm hr
  · refine h.en.same (Nat.le_refl _) (fun v hv => ?_) (fun v hv => ?_)
    · have := h.en.rng v hv; exact hs.keep.live hc hs.win (by omega) this.2.1
    · have := h.en.rng v hv
      exact meta_stay hc h.q.geo.toGeo0 h.q.rst hs.keep hs.jh.head hs.win hs.mv hs.jh.recoverMeta hs.jh.recoverRoot
        (fun _ _ _ _ => by rw [hs.jh.pageBuf]) (by omega) this.2.1

/-- The root page is the newest entry. -/
theorem FInv.newest (hc : c.Valid) {s : S} {L : List Entry} {pk : Bool} {Vs : List Nat} {vts vt vh vr vR vM vn : Nat}
    (h : FInv c s L pk Vs vts vt vh vr vR vM vn) : s.j.root = newest L := by
  by_cases he : vt < vh
  · obtain ⟨l0, l1, l2⟩ := h.last he
    rw [l0, h.en.newest l1 fun v hv => ?_]
    apply Classical.byContradiction; intro hn
    have h1 := h.en.rng v hv
    have h2 := h.en.rng vr l1
    have := nextV_le hc h2.2.2 h1.2.2 (by omega)
    omega
  · have hV : Vs = [] := by
      cases Vs with
      | nil => rfl
      | cons a _ => have := (h.mem a).1 (List.mem_cons_self ..); omega
    rw [h.en.nil_iff.2 hV]
    rcases h.q.root with h0 | ⟨_, h1, h2, _⟩
    · exact h0
    · omega

/-! ### Recovery -/

/-- The first `k` pages of the block of `r`, without checkpoint pages. -/
def upto (c : Cfg) (r k : Nat) : List Nat :=
  ((List.range k).map fun i => r / c.ppb * c.ppb + i).filter fun p => p % c.ppc ≠ c.ppc - 1

theorem toRecover_eq (r : Nat) : toRecover c r = upto c r (r % c.ppb + 1) := rfl

theorem upto_succ (r k : Nat) : upto c r (k + 1) = upto c r k ++
    (if (r / c.ppb * c.ppb + k) % c.ppc ≠ c.ppc - 1 then [r / c.ppb * c.ppb + k] else []) := by
  unfold upto
  rw [List.range_succ, List.map_append, List.filter_append]
  congr 1
  rw [List.map_singleton, List.filter_cons]
  by_cases h : (r / c.ppb * c.ppb + k) % c.ppc ≠ c.ppc - 1
  · rw [if_pos h, if_pos (by simpa using h)]; rfl
  · rw [if_neg h, if_neg (by simpa using h)]; rfl

theorem upto_prefix (r : Nat) {k l : Nat} (h : k ≤ l) : upto c r k <+: upto c r l := by
  induction l with
  | zero => have : k = 0 := by omega
            subst this; exact List.prefix_refl _
  | succ l ih =>
    by_cases hk : k = l + 1
    · subst hk; exact List.prefix_refl _
    · refine (ih (by omega)).trans ?_
      rw [upto_succ]; exact List.prefix_append _ _

theorem ph_split (v : Nat) : c.ph v = c.ph v / c.ppb * c.ppb + v % c.ppb := by
  rw [← ph_mod_ppb]
  have := Nat.div_add_mod (c.ph v) c.ppb
  rw [Nat.mul_comm] at this; omega

/-- One more page of the block. -/
theorem upto_pos (hc : c.Valid) {v vR : Nat} (hu : c.isU v) (hb : v / c.ppb = vR / c.ppb) :
    upto c (c.ph vR) (v % c.ppb + 1) = upto c (c.ph vR) (v % c.ppb) ++ [c.ph v] := by
  have e : c.ph vR / c.ppb * c.ppb + v % c.ppb = c.ph v := by
    rw [ph_split v, ph_div_ppb, ph_div_ppb, hb]
  rw [upto_succ, e, if_pos (userPage_ph hc hu).2]

/-- The pages of the block up to the next user page. -/
theorem upto_next (hc : c.Valid) {v vR : Nat} (hu : c.isU v) (hb : v / c.ppb = vR / c.ppb)
    (hn : c.nextV v / c.ppb = vR / c.ppb) :
    upto c (c.ph vR) (c.nextV v % c.ppb) = upto c (c.ph vR) (v % c.ppb) ++ [c.ph v] := by
  have hd := Nat.div_add_mod v c.ppb
  have hd' := Nat.div_add_mod (c.nextV v) c.ppb
  rw [hb] at hd
  rw [hn] at hd'
  rcases nextV_cases hc hu with ⟨a1, a2, a3⟩ | ⟨a1, a2, a3⟩
  · have : c.nextV v % c.ppb = v % c.ppb + 1 := by omega
    rw [this, upto_pos hc hu hb]
  · have h2 : c.nextV v % c.ppb = v % c.ppb + 1 + 1 := by omega
    have e : c.ph vR / c.ppb * c.ppb + (v % c.ppb + 1) = c.ph v + 1 := by
      rw [ph_split v, ph_div_ppb, ph_div_ppb, hb]; omega
    have hx : (c.ph v + 1) % c.ppc = c.ppc - 1 := by
      have h4 := hc.ppc_ge
      have h5 : c.ph v % c.ppc = v % c.ppc := ph_mod_ppc hc v
      rw [Nat.add_mod, h5, Nat.mod_eq_of_lt (show 1 < c.ppc by omega), Nat.mod_eq_of_lt (by omega)]; omega
    rw [h2, upto_succ, e, if_neg (by simp [hx]), List.append_nil, upto_pos hc hu hb]

/-- Invariant during a recovery. -/
structure RInv (c : Cfg) (s : S) (L : List Entry) (r : Nat) (got : List Nat) (Vs : List Nat) (vts vt vh vr vR vM vn : Nat) :
    Prop where
  q : QInv c s vts vt vh vr vR vM vn
  rc : s.j.recovery = true
  rg : RGeo c s vt vh vR vM vn
  en : Ents c s L Vs vt vh
  mem : ∀ v, v ∈ Vs ↔ vt ≤ v ∧ v < vh ∧ c.isU v ∧ s.n.chip.bad (c.ph v / c.ppb) = false ∧
    ¬ (v / c.ppb = vR / c.ppb ∧ vR < v) ∧ ¬ (s.j.badMeta = true ∧ v / c.ppb = vM / c.ppb)
  al : vt % c.ppb ≠ 0 → s.n.chip.bad (c.ph vt / c.ppb) = false
  re : r = c.ph vR
  gt : (s.j.enumDone = false ∧ got = upto c r (vn % c.ppb)) ∨
    (s.j.enumDone = true ∧ ∃ k, got = toRecover c r ++ List.replicate k NONE)

theorem bad_mono {n n' : Nand} {v v' k : Nat} {ex : Nat → Prop} (h : CKeep c n n' v v' ex) (hb : n'.chip.bad k = false) :
    n.chip.bad k = false := by
  cases hk : n.chip.bad k with
  | false => rfl
  | true => rw [h.badm _ hk] at hb; cases hb

/-- A recovery begins. -/
theorem FInv.start (hc : c.Valid) {s s' : S} {L : List Entry} {pk : Bool} {Vs : List Nat} {vts vt vh vr vR vM vn : Nat}
    {vM' v' : Nat} (h : FInv c s L pk Vs vts vt vh vr vR vM vn) (hL : L ≠ []) (hp : PushStart c s s' vts vt vh vM' v') :
    ∃ Vs', RInv c s' (L ++ dumped s') (Dhara.newest L) [] Vs' vts vt v' vr vr vM' (vr / c.ppb * c.ppb) := by
  have hl1 := h.q.geo.l1
  have hVne : Vs ≠ [] := fun h0 => hL (h.en.nil_iff.2 h0)
  have hlt : vt < vh := by
    cases Vs with
    | nil => exact absurd rfl hVne
    | cons a _ => have := h.en.rng a (List.mem_cons_self ..); omega
  obtain ⟨b1, l1, l2⟩ := h.last hlt
  have hr := h.en.rng vr l1
  obtain ⟨b2, b3, b4⟩ := hr
  have hblk : vr / c.ppb = vh / c.ppb := by
    rcases nextV_blk hc b4 with ⟨n1, _⟩ | ⟨_, n2⟩
    · rw [l2] at n1; exact n1.symm
    · rw [l2] at n2; exact absurd n2 hp.hv
  have hplt := hp.lt
  have hvv : vh < v' := by
    apply Classical.byContradiction; intro hn
    have := Nat.div_le_div_right (c := c.ppb) (by omega : v' ≤ vh); omega
  have hwin := hp.geo.win
  have hrg : RGeo c s' vt v' vr vM' (vr / c.ppb * c.ppb) := by
    refine ⟨by rw [hp.rr]; exact b1, b4, b2, by omega, by rw [hp.rn, b1]; exact blockStart_ph vr, isU_of_aligned hc (Nat.mul_mod_left _ _),
      Nat.div_mul_le_self _ _, Nat.mul_div_cancel _ (ppb_pos c), ?_, fun hbm => ?_⟩
    · rcases hp.rm with ⟨h1, _⟩ | ⟨h1, h2, h3, h4, h5⟩
      · exact Or.inl h1
      · refine Or.inr ⟨h1, h5, ?_, by rw [h3]; exact lt_nextV c vM'⟩
        have := Nat.div_le_div_right (c := c.ppb) h4
        rw [nextB_div] at this; omega
    · rw [hp.bm] at hbm; cases hbm
  have hq : QInv c s' vts vt v' vr vr vM' (vr / c.ppb * c.ppb) :=
    ⟨hp.geo, Or.inr ⟨hp.rec1, hrg⟩, Or.inr ⟨by rw [hp.root]; exact b1, b2, by omega, b4⟩, fun hk => (calm_not_rec hk hp.rec1).elim⟩
  have hmax : ∀ v, v < vh → c.isU v → v ≤ vr := by
    intro v h1 h2
    apply Classical.byContradiction; intro hn
    have := nextV_le hc b4 h2 (by omega)
    omega
  have hgrp : vh % c.ppc ≠ 0 → vr / c.ppc = vh / c.ppc := by
    intro hne
    rcases nextV_cases hc b4 with ⟨a1, a2, a3⟩ | ⟨a1, a2, a3⟩
    · rw [← l2, a2]; exact ((div_add_lt (v := vr) (k := 1) (m := c.ppc) (by omega)).1).symm
    · rw [← l2, a2] at hne; exact absurd a3 hne
  have hgood : ∀ v, vts ≤ v → v < vh → s.n.chip.bad (c.ph v / c.ppb) = false → s'.n.chip.bad (c.ph v / c.ppb) = false := by
    intro v w1 w2 w3
    cases hb : s'.n.chip.bad (c.ph v / c.ppb) with
    | false => rfl
    | true =>
      rcases hp.keep.badn _ hb with hb | hb
      · rw [w3] at hb; cases hb
      · exact absurd hb (not_inBlks hwin w1 (by have := Nat.div_le_div_right (c := c.ppb) (Nat.le_of_lt w2); omega) (by omega))
  have hen : Ents c s' L Vs vt vh := h.en.same (Nat.le_refl _)
    (fun v hv => by have := h.en.rng v hv; exact hp.keep.live hc hwin (by omega) (by omega))
    (fun v hv => by
      have := h.en.rng v hv
      exact hp.mkeep vr b1 (by omega) b3 hgrp v (by omega) (by omega) this.2.2)
  have hnew : Dhara.newest L = c.ph vr := by rw [← h.newest hc, b1]
  have hgt : (s'.j.enumDone = false ∧ [] = upto c (Dhara.newest L) (vr / c.ppb * c.ppb % c.ppb)) ∨
      (s'.j.enumDone = true ∧ ∃ k, [] = toRecover c (Dhara.newest L) ++ List.replicate k NONE) :=
    Or.inl ⟨hp.enum, by rw [Nat.mul_mod_left]; rfl⟩
  have hold : ∀ v, v < vh → (v ∈ Vs ↔ vt ≤ v ∧ v < v' ∧ c.isU v ∧ s'.n.chip.bad (c.ph v / c.ppb) = false ∧
      ¬ (v / c.ppb = vr / c.ppb ∧ vr < v) ∧ ¬ (s'.j.badMeta = true ∧ v / c.ppb = vM' / c.ppb)) := by
    intro v hv
    rw [h.mem]
    constructor
    · rintro ⟨w1, w2, w3, w4⟩
      exact ⟨w1, by omega, w3, hgood v (by omega) w2 w4, fun hh => by have := hmax v w2 w3; omega,
        fun hh => by rw [hp.bm] at hh; cases hh.1⟩
    · rintro ⟨w1, w2, w3, w4, _, _⟩
      exact ⟨w1, hv, w3, bad_mono hp.keep w4⟩
  rcases hp.rm with ⟨h1, h2, h3⟩ | ⟨h1, h2, h3, h4, h5⟩
  · have hdm : dumped s' = [] := by unfold dumped; rw [if_pos h1]
    rw [hdm, List.append_nil]
    refine ⟨Vs, hq, hp.rec1, hrg, ⟨hen.pages, hen.sorted, fun v hv => ?_, hen.data, hen.mt⟩, fun v => ?_,
      fun ha => hgood vt hl1 hlt (h.al ha hlt), hnew, hgt⟩
    · have := hen.rng v hv; exact ⟨this.1, by omega, this.2.2⟩
    · by_cases hv : v < vh
      · exact hold v hv
      · constructor
        · intro hm; have := hen.rng v hm; omega
        · rintro ⟨w1, w2, w3, w4, w5, w6⟩
          exfalso
          have e1 := Nat.div_le_div_right (c := c.ppb) (by omega : vh ≤ v)
          have e2 := blk_lt_aligned (c := c) w2 (by rw [h3]; exact nextB_mod c vh)
          rw [h3, nextB_div] at e2
          exact w5 ⟨by omega, by omega⟩
  · have hne : s'.j.recoverMeta ≠ NONE := by rw [h1]; exact ph_ne_none hc _
    have hdm : dumped s' = [⟨c.ph vM', Option.none, Option.none⟩] := by unfold dumped; rw [if_neg hne, h1]
    rw [hdm]
    have hna := nextV_blk_aligned hc h5
    have hMb := Nat.div_le_div_right (c := c.ppb) h4
    rw [nextB_div] at hMb
    have hvM : vh ≤ vM' := by
      apply Classical.byContradiction; intro hn
      have := Nat.div_le_div_right (c := c.ppb) (by omega : vM' ≤ vh); omega
    have huM := isU_of_aligned hc h5
    have hgM : s'.n.chip.bad (c.ph vM' / c.ppb) = false := by
      have hun : v' % c.ppb ≠ 0 := by
        rcases nextV_blk hc huM with ⟨_, n2⟩ | ⟨n1, _⟩
        · rw [h3]; exact n2
        · omega
      have := (hp.geo.hfree hun).1
      rw [ph_div_ppb] at this ⊢
      rw [h3, hna.2] at this; exact this
    refine ⟨Vs ++ [vM'], hq, hp.rec1, hrg, hen.snoc hvM (by omega) huM (by omega) rfl (fun d hd => by cases hd) (hp.mM hne), fun v => ?_,
      fun ha => hgood vt hl1 hlt (h.al ha hlt), hnew, hgt⟩
    rw [List.mem_append, List.mem_singleton]
    by_cases hv : v < vh
    · rw [hold v hv]
      constructor
      · rintro (h | rfl)
        · exact h
        · omega
      · exact Or.inl
    · constructor
      · rintro (hm | rfl)
        · have := hen.rng v hm; omega
        · exact ⟨by omega, by omega, huM, hgM, fun hh => by omega, fun hh => by rw [hp.bm] at hh; cases hh.1⟩
      · rintro ⟨w1, w2, w3, w4, w5, w6⟩
        right
        have e1 := Nat.div_le_div_right (c := c.ppb) (by omega : vh ≤ v)
        by_cases hb : v / c.ppb = vh / c.ppb
        · exact absurd ⟨by omega, by omega⟩ w5
        by_cases hb2 : v / c.ppb < vM' / c.ppb
        · have := hp.skip (v / c.ppb) (by omega) (by rw [h3, hna.2]; exact hb2)
          rw [← ph_div_ppb, w4] at this; cases this
        · have : vM' ≤ v := by
            apply Classical.byContradiction; intro hn
            have := blk_lt_aligned (c := c) (by omega : v < vM') h5; omega
          omega

theorem next_same (s : S) : SameQ s (nextRecoverable c s).2 := by
  unfold nextRecoverable
  simp only
  repeat' split
  all_goals exact ⟨rfl, rfl, rfl, rfl, rfl, rfl⟩

/-- One page of the failed block is enumerated. -/
theorem RInv.next (hc : c.Valid) {s : S} {L : List Entry} {r : Nat} {got Vs : List Nat} {vts vt vh vr vR vM vn : Nat}
    (h : RInv c s L r got Vs vts vt vh vr vR vM vn) :
    ∃ vn', RInv c (nextRecoverable c s).2 L r (got ++ [(nextRecoverable c s).1]) Vs vts vt vh vr vR vM vn' := by
  have hq := h.q
  have hrg := h.rg
  have hr := h.rc
  rcases h.gt with ⟨g1, g2⟩ | ⟨g1, k, g2⟩
  · by_cases he : s.j.recoverNext = s.j.recoverRoot
    · have hv : vn = vR := by
        rw [hrg.rn, hrg.rr] at he
        have h1 := div_mod_range vn c.ppb
        have h2 := div_mod_range vR c.ppb
        have e : vn % c.ppb = vR % c.ppb := by rw [← ph_mod_ppb, he, ph_mod_ppb]
        have := hrg.nb
        rw [this] at h1
        omega
      have hs : nextRecoverable c s = (s.j.recoverNext, { s with j := { s.j with enumDone := true } }) := by
        unfold nextRecoverable
        rw [if_neg (by simp [hr]), if_neg (by simp [g1]), if_pos he]
      rw [hs]
      have hrg' : RGeo c { s with j := { s.j with enumDone := true } } vt vh vR vM vn := hrg.congr rfl rfl rfl rfl
      refine ⟨vn, ⟨⟨⟨hq.geo.ets, hq.geo.et, hq.geo.eh, hq.geo.uts, hq.geo.ut, hq.geo.uh, hq.geo.l1, hq.geo.l2, hq.geo.win, hq.geo.ep,
          hq.geo.alive, hq.geo.noub⟩, hq.geo.hfree⟩, Or.inr ⟨hr, hrg'⟩, hq.root, fun hk => (calm_not_rec hk hr).elim⟩, hr, hrg',
          h.en.same (Nat.le_refl _) (fun _ _ => rfl) (fun _ _ => rfl), h.mem, h.al, h.re, Or.inr ⟨rfl, 0, ?_⟩⟩
      rw [g2, hrg.rn, hv, List.replicate_zero, List.append_nil, toRecover_eq, h.re, ph_mod_ppb, upto_pos hc hrg.uR rfl]
    · have hne : vn ≠ vR := fun hv => he (by rw [hrg.rn, hrg.rr, hv])
      have hlt : vn < vR := by have := hrg.nR; omega
      have hnx := nextV_le hc hrg.un hrg.uR hlt
      have hl := lt_nextV c vn
      have hs : nextRecoverable c s = (s.j.recoverNext, { s with j := { s.j with recoverNext := nextUpage c s.j.recoverNext } }) := by
        unfold nextRecoverable
        rw [if_neg (by simp [hr]), if_neg (by simp [g1]), if_neg he]
      rw [hs]
      have hnb : c.nextV vn / c.ppb = vR / c.ppb := by
        have h1 := Nat.div_le_div_right (c := c.ppb) hnx
        have h2 := Nat.div_le_div_right (c := c.ppb) (Nat.le_of_lt hl)
        have := hrg.nb; omega
      have hrg' : RGeo c { s with j := { s.j with recoverNext := nextUpage c s.j.recoverNext } } vt vh vR vM (c.nextV vn) := by
        refine ⟨hrg.rr, hrg.uR, hrg.tR, hrg.bR, ?_, nextV_isU hc hrg.un, hnx, hnb, hrg.rm, hrg.bm⟩
        show nextUpage c s.j.recoverNext = _
        rw [hrg.rn]; exact nextUpage_ph hc hrg.un
      refine ⟨c.nextV vn, ⟨⟨⟨hq.geo.ets, hq.geo.et, hq.geo.eh, hq.geo.uts, hq.geo.ut, hq.geo.uh, hq.geo.l1, hq.geo.l2, hq.geo.win, hq.geo.ep,
          hq.geo.alive, hq.geo.noub⟩, hq.geo.hfree⟩, Or.inr ⟨hr, hrg'⟩, hq.root, fun hk => (calm_not_rec hk hr).elim⟩, hr, hrg',
          h.en.same (Nat.le_refl _) (fun _ _ => rfl) (fun _ _ => rfl), h.mem, h.al, h.re, Or.inl ⟨g1, ?_⟩⟩
      rw [g2, hrg.rn, h.re, upto_next hc hrg.un hrg.nb hnb]
  · have hs : nextRecoverable c s = (NONE, s) := by
      unfold nextRecoverable
      rw [if_neg (by simp [hr]), if_pos (by simp [g1])]
    rw [hs]
    refine ⟨vn, ⟨h.q, h.rc, h.rg, h.en, h.mem, h.al, h.re, Or.inr ⟨g1, k + 1, ?_⟩⟩⟩
    rw [g2, List.append_assoc, List.replicate_succ']

/-- A page is written during a recovery that goes on. -/
theorem RInv.push (hc : c.Valid) {s s' : S} {L : List Entry} {r : Nat} {got Vs : List Nat} {vts vt vh vr vR vM vn vq : Nat}
    {d m : Option Buf} {Pd : S → Option Buf → Prop}
    (h : RInv c s L r got Vs vts vt vh vr vR vM vn) (hp : PushOk c s s' m Pd vts vt vh vq vR vM)
    (hd : ∀ s1 : S, (∀ v, vts ≤ v → v < vh → s1.n.chip.page (c.ph v) = s.n.chip.page (c.ph v)) → ∀ pg, Pd s1 pg →
      ∀ b, d = some b → pg = some (c.clip b)) (hnf : ¬ finishes c s vq) :
    ∃ vts', RInv c s' (L ++ [entryAt s' d m]) r got (Vs ++ [vq]) vts' vt (c.nextV vq) vq vR vM vn := by
  have hl1 := h.q.geo.l1
  have hl2 := h.q.geo.l2
  have hle := hp.le
  have hlt := lt_nextV c vq
  have hbR := h.rg.bR
  have hbM := h.rg.bm
  have hqb := Nat.div_le_div_right (c := c.ppb) hle
  have hwq : c.Win vts vq := hp.winq.mono (Nat.le_refl _) (by omega)
  obtain ⟨a1, a2, a3, a4, a5, a6⟩ := hp.going hnf
  have hgood := hp.stayGood (fun _ hf => absurd hf hnf)
  have hrst := h.q.rst.moved (s' := s') (vh' := c.nextV vq) (by omega) a1 a2 a3 a4 a5 a6
  have hrg : RGeo c s' vt (c.nextV vq) vR vM vn := h.rg.mono (by omega) a3 a4 a5 a6 h.rg.tR
  have hvtR : vt < vh := by
    have := h.rg.tR
    apply Classical.byContradiction; intro hn
    have := Nat.div_le_div_right (c := c.ppb) (by omega : vh ≤ vR); omega
  have hen : Ents c s' L Vs vt vh := h.en.same (Nat.le_refl _)
    (fun v hv => by have := h.en.rng v hv; exact hp.keep.live hc hwq (by omega) (by omega))
    (fun v hv => by have := h.en.rng v hv; exact hp.mkeep v (by omega) (by omega) this.2.2 (fun hf => hnf hf.1))
  refine ⟨_, ⟨hp.geo, hrst, Or.inr ⟨hp.root, by omega, hlt, hp.uq⟩, fun _ _ => by rw [hp.root]; exact hp.good⟩, by rw [a1]; exact h.rc, hrg,
    hen.snoc hle hlt hp.uq (by omega) hp.root (hp.entry hc hd) hp.metaq, fun v => ?_, fun ha => hgood vt hl1 hvtR (h.al ha), h.re, ?_⟩
  · rw [List.mem_append, List.mem_singleton, h.mem, a6]
    constructor
    · rintro (⟨w1, w2, w3, w4, w5, w6⟩ | rfl)
      · exact ⟨w1, by omega, w3, hgood v (by omega) w2 w4, w5, w6⟩
      · exact ⟨by omega, hlt, hp.uq, hp.good, fun hh => by omega, fun hh => by have := (hbM hh.1).2; omega⟩
    · rintro ⟨w1, w2, w3, w4, w5, w6⟩
      by_cases hv : v < vh
      · exact Or.inl ⟨w1, hv, w3, bad_mono hp.keep w4, w5, w6⟩
      · exact Or.inr (hp.only hc (by omega) w2 w3 w4)
  · rw [a2]; exact h.gt

/-- The recovery is over. -/
theorem RInv.finish (hc : c.Valid) {s s' : S} {L : List Entry} {r : Nat} {got Vs : List Nat} {vts vt vh vr vR vM vn vq : Nat}
    {d m : Option Buf} {Pd : S → Option Buf → Prop}
    (h : RInv c s L r got Vs vts vt vh vr vR vM vn) (hp : PushOk c s s' m Pd vts vt vh vq vR vM)
    (hd : ∀ s1 : S, (∀ v, vts ≤ v → v < vh → s1.n.chip.page (c.ph v) = s.n.chip.page (c.ph v)) → ∀ pg, Pd s1 pg →
      ∀ b, d = some b → pg = some (c.clip b)) (hf : finishes c s vq)
    (ht : s.j.tail / c.ppb ≠ r / c.ppb ∨ s.j.tail % c.ppb = 0) :
    ∃ Vs', FInv c s' (offBlock c r L ++ [entryAt s' d m]) false Vs' (newTs c s vts vt vq) vt (c.nextV vq) vq 0 0 0 := by
  have hl1 := h.q.geo.l1
  have hl2 := h.q.geo.l2
  have hle := hp.le
  have hlt := lt_nextV c vq
  have hbR := h.rg.bR
  have htR := h.rg.tR
  have hqb := Nat.div_le_div_right (c := c.ppb) hle
  have hwq : c.Win vts vq := hp.winq.mono (Nat.le_refl _) (by omega)
  obtain ⟨hcalm, hret⟩ := hp.done hf
  have hvR : vR < vh := by
    apply Classical.byContradiction; intro hn
    have := Nat.div_le_div_right (c := c.ppb) (by omega : vh ≤ vR); omega
  have hMpos : s.j.badMeta = true → vts ≤ vM ∧ vM < vh ∧ vR / c.ppb < vM / c.ppb := by
    intro hb
    obtain ⟨m1, m2⟩ := h.rg.bm hb
    rcases h.rg.rm with h' | ⟨h1, h2, h3, h4⟩
    · exact absurd h' m1
    · refine ⟨?_, h4, h3⟩
      apply Classical.byContradiction; intro hn
      have := Nat.div_le_div_right (c := c.ppb) (by omega : vM ≤ vR); omega
  -- which older blocks are good now
  have hgood : ∀ v, vts ≤ v → v < vh → (s'.n.chip.bad (c.ph v / c.ppb) = false ↔ s.n.chip.bad (c.ph v / c.ppb) = false ∧
      v / c.ppb ≠ vR / c.ppb ∧ ¬ (s.j.badMeta = true ∧ v / c.ppb = vM / c.ppb)) := by
    intro v w1 w2
    constructor
    · intro w4
      refine ⟨bad_mono hp.keep w4, fun he => ?_, fun he => ?_⟩
      · have := hret _ (Or.inl rfl)
        rw [ph_div_ppb, ← he, ← ph_div_ppb, w4] at this; cases this
      · have := hret _ (Or.inr ⟨he.1, rfl⟩)
        rw [ph_div_ppb, ← he.2, ← ph_div_ppb, w4] at this; cases this
    · rintro ⟨w4, w5, w6⟩
      cases hb : s'.n.chip.bad (c.ph v / c.ppb) with
      | false => rfl
      | true =>
        rcases hp.keep.badn _ hb with hb | hb | hb
        · rw [w4] at hb; cases hb
        · rcases hp.mv with hm | ⟨hm1, hm2⟩
          · obtain ⟨b, b1, b2, _⟩ := hb; rw [hm] at b2; omega
          · exact absurd hb (not_inBlks hwq w1 (blk_lt_aligned w2 hm1) (by omega))
        · rcases hb.2 with hb | ⟨hb1, hb⟩
          · exact absurd (h.q.geo.win.blk_inj w1 (by omega) (by omega) (by omega) hb) w5
          · have hM := hMpos hb1
            exact absurd ⟨hb1, h.q.geo.win.blk_inj w1 (by omega) hM.1 (by omega) hb⟩ w6
  have hblk : ∀ v, vts ≤ v → v < vh → (c.ph v / c.ppb ≠ r / c.ppb ↔ v / c.ppb ≠ vR / c.ppb) := by
    intro v w1 w2
    rw [h.re]
    constructor
    · intro hh he; apply hh; rw [ph_div_ppb, ph_div_ppb, he]
    · intro hh he; exact hh (h.q.geo.win.blk_inj w1 (by omega) (by omega) (by omega) he)
  have hen : Ents c s' (offBlock c r L) (Vs.filter fun v => decide (c.ph v / c.ppb ≠ r / c.ppb)) vt vh :=
    h.en.keep (Nat.le_refl _) (fun p => decide (p / c.ppb ≠ r / c.ppb))
      (fun v hv _ => by have := h.en.rng v hv; exact hp.keep.live hc hwq (by omega) (by omega))
      (fun v hv hP => by
        have := h.en.rng v hv
        exact hp.mkeep v (by omega) (by omega) this.2.2 (fun hx => (hblk v (by omega) (by omega)).1 (of_decide_eq_true hP) hx.2))
  refine ⟨_ ++ [vq], ⟨hp.geo, Or.inl hcalm, Or.inr ⟨hp.root, by omega, hlt, hp.uq⟩, fun _ _ => by rw [hp.root]; exact hp.good⟩,
    hcalm.nr, hen.snoc hle hlt hp.uq (by omega) hp.root (hp.entry hc hd) hp.metaq, fun v => ?_, fun _ => ⟨hp.root, by simp, rfl⟩, ?_,
    fun h => by cases h⟩
  · rw [List.mem_append, List.mem_singleton, List.mem_filter, h.mem, decide_eq_true_iff]
    constructor
    · rintro (⟨⟨w1, w2, w3, w4, w5, w6⟩, w7⟩ | rfl)
      · exact ⟨w1, by omega, w3, (hgood v (by omega) w2).2 ⟨w4, (hblk v (by omega) w2).1 w7, w6⟩⟩
      · exact ⟨by omega, hlt, hp.uq, hp.good⟩
    · rintro ⟨w1, w2, w3, w4⟩
      by_cases hv : v < vh
      · obtain ⟨g1, g2, g3⟩ := (hgood v (by omega) hv).1 w4
        exact Or.inl ⟨⟨w1, hv, w3, g1, fun hh => g2 hh.1, g3⟩, (hblk v (by omega) hv).2 g2⟩
      · exact Or.inr (hp.only hc (by omega) w2 w3 w4)
  · intro ha _
    refine (hgood vt hl1 (by omega)).2 ⟨h.al ha, ?_, fun hh => ?_⟩
    · rcases ht with ht | ht
      · rw [h.q.geo.et] at ht; exact (hblk vt hl1 (by omega)).1 ht
      · rw [h.q.geo.et, ph_mod_ppb] at ht; exact absurd ht ha
    · have := hMpos hh.1
      have := Nat.div_le_div_right (c := c.ppb) htR
      omega

/-- A block fails during the recovery. -/
theorem RInv.again (hc : c.Valid) {s s' : S} {L : List Entry} {r : Nat} {got Vs : List Nat} {vts vt vh vr vR vM vn v' : Nat}
    (h : RInv c s L r got Vs vts vt vh vr vR vM vn) (hp : PushAgain c s s' vts vt vh vR vM v') :
    ∃ Vs', RInv c s' (offBlock c s.j.head L) r [] Vs' vts vt v' vR vR vM (vR / c.ppb * c.ppb) := by
  have hl1 := h.q.geo.l1
  have hl2 := h.q.geo.l2
  have hbR := h.rg.bR
  have htR := h.rg.tR
  have hplt := hp.lt
  have hwin := hp.geo.win
  have hvv : vh < v' := by
    apply Classical.byContradiction; intro hn
    have := Nat.div_le_div_right (c := c.ppb) (by omega : v' ≤ vh); omega
  have hvR : vR < vh := by
    apply Classical.byContradiction; intro hn
    have := Nat.div_le_div_right (c := c.ppb) (by omega : vh ≤ vR); omega
  have hgood : ∀ v, vts ≤ v → v / c.ppb < vh / c.ppb → s.n.chip.bad (c.ph v / c.ppb) = false → s'.n.chip.bad (c.ph v / c.ppb) = false := by
    intro v w1 w2 w3
    cases hb : s'.n.chip.bad (c.ph v / c.ppb) with
    | false => rfl
    | true =>
      rcases hp.keep.badn _ hb with hb | hb
      · rw [w3] at hb; cases hb
      · exact absurd hb (not_inBlks hwin w1 w2 (by omega))
  have hblk : ∀ v, vts ≤ v → v < vh → (c.ph v / c.ppb ≠ s.j.head / c.ppb ↔ v / c.ppb < vh / c.ppb) := by
    intro v w1 w2
    have hd := Nat.div_le_div_right (c := c.ppb) (Nat.le_of_lt w2)
    rw [h.q.geo.eh]
    constructor
    · intro hh
      apply Classical.byContradiction; intro hn
      have : v / c.ppb = vh / c.ppb := by omega
      apply hh; rw [ph_div_ppb, ph_div_ppb, this]
    · intro hh he
      have := h.q.geo.win.blk_inj w1 (by omega) (by omega) (Nat.le_refl _) he
      omega
  have hen : Ents c s' (offBlock c s.j.head L) (Vs.filter fun v => decide (c.ph v / c.ppb ≠ s.j.head / c.ppb)) vt v' :=
    h.en.keep (by omega) (fun p => decide (p / c.ppb ≠ s.j.head / c.ppb))
      (fun v hv _ => by have := h.en.rng v hv; exact hp.keep.live hc hwin (by omega) (by omega))
      (fun v hv hP => by
        have := h.en.rng v hv
        exact hp.mkeep v (by omega) ((hblk v (by omega) (by omega)).1 (of_decide_eq_true hP)) this.2.2)
  refine ⟨_, ⟨hp.geo, Or.inr ⟨hp.rec1, hp.rgeo⟩, Or.inr ⟨hp.root, htR, by omega, h.rg.uR⟩, fun hk => (calm_not_rec hk hp.rec1).elim⟩,
    hp.rec1, hp.rgeo, hen, fun v => ?_, fun ha => ?_, h.re, Or.inl ⟨hp.enum, by rw [Nat.mul_mod_left]; rfl⟩⟩
  · rw [List.mem_filter, h.mem, decide_eq_true_iff]
    constructor
    · rintro ⟨⟨w1, w2, w3, w4, w5, w6⟩, w7⟩
      have hb := (hblk v (by omega) w2).1 w7
      refine ⟨w1, by omega, w3, hgood v (by omega) hb w4, w5, fun hh => ?_⟩
      rcases hp.bmn hh.1 with hx | hx
      · exact w6 ⟨hx, hh.2⟩
      · omega
    · rintro ⟨w1, w2, w3, w4, w5, w6⟩
      have hb : v / c.ppb < vh / c.ppb := by
        apply Classical.byContradiction; intro hn
        have hb' := blk_lt_aligned (c := c) w2 hp.al
        rcases hp.skip (v / c.ppb) (by omega) hb' with hx | ⟨hx1, hx2⟩
        · rw [← ph_div_ppb, w4] at hx; cases hx
        · rw [← ph_div_ppb] at hx2
          refine w6 ⟨hx1, ?_⟩
          obtain ⟨m1, m2⟩ := hp.rgeo.bm hx1
          rcases hp.rgeo.rm with h' | ⟨h1, h2, h3, h4⟩
          · exact absurd h' m1
          · refine hwin.blk_inj (by omega) (by omega) ?_ (by omega) hx2
            apply Classical.byContradiction; intro hn
            have := Nat.div_le_div_right (c := c.ppb) (by omega : vM ≤ vR); omega
      have hv : v < vh := by
        apply Classical.byContradiction; intro hn
        have := Nat.div_le_div_right (c := c.ppb) (by omega : vh ≤ v); omega
      exact ⟨⟨w1, hv, w3, bad_mono hp.keep w4, w5, fun hh => w6 ⟨hp.bmk hh.1, hh.2⟩⟩, (hblk v (by omega) hv).2 hb⟩
  · have := Nat.div_le_div_right (c := c.ppb) htR
    exact hgood vt hl1 (by omega) (h.al ha)

/-! ### Histories -/

/-- The invariant that belongs to a phase. -/
def FPInv (c : Cfg) (s : S) (L : List Entry) : Phase → Prop
  | .calm pk => ∃ Vs vts vt vh vr vR vM vn, FInv c s L pk Vs vts vt vh vr vR vM vn
  | .recovering r got => ∃ Vs vts vt vh vr vR vM vn, RInv c s L r got Vs vts vt vh vr vR vM vn

theorem metaBuf_mark (s : S) (p : Nat) : metaBuf c (markDirty s) p = metaBuf c s p := rfl

theorem QInv.mark {s : S} {vts vt vh vr vR vM vn : Nat} (h : QInv c s vts vt vh vr vR vM vn) :
    QInv c (markDirty s) vts vt vh vr vR vM vn := by
  have g := h.geo
  refine ⟨⟨⟨g.ets, g.et, g.eh, g.uts, g.ut, g.uh, g.l1, g.l2, g.win, g.ep, g.alive, g.noub⟩, g.hfree⟩, ?_, h.root,
    fun hk hr => h.good ⟨hk.nr, hk.rm, hk.ed, hk.bm⟩ hr⟩
  rcases h.rst with hk | ⟨h1, h2⟩
  · exact Or.inl ⟨hk.nr, hk.rm, hk.ed, hk.bm⟩
  · exact Or.inr ⟨h1, h2.congr rfl rfl rfl rfl⟩

theorem FInv.mark {s : S} {L : List Entry} {pk : Bool} {Vs : List Nat} {vts vt vh vr vR vM vn : Nat}
    (h : FInv c s L pk Vs vts vt vh vr vR vM vn) : FInv c (markDirty s) L pk Vs vts vt vh vr vR vM vn :=
  ⟨h.q.mark, h.nr, ⟨h.en.pages, h.en.sorted, h.en.rng, h.en.data, h.en.mt⟩, h.mem, h.last, h.al, h.pk⟩

theorem RInv.mark {s : S} {L : List Entry} {r : Nat} {got : List Nat} {Vs : List Nat} {vts vt vh vr vR vM vn : Nat}
    (h : RInv c s L r got Vs vts vt vh vr vR vM vn) : RInv c (markDirty s) L r got Vs vts vt vh vr vR vM vn :=
  ⟨h.q.mark, h.rc, h.rg.congr rfl rfl rfl rfl, ⟨h.en.pages, h.en.sorted, h.en.rng, h.en.data, h.en.mt⟩, h.mem, h.al, h.re, h.gt⟩

theorem Fifo.inv (hc : c.Valid) {s : S} {L : List Entry} {ph : Phase} (h : Fifo c s L ph) : FPInv c s L ph := by
  induction h with
  | fresh s h =>
    obtain ⟨h1, h2, h3 | h3⟩ := h
    · obtain ⟨buf, h3⟩ := h3
      exact ⟨_, _, _, _, _, _, _, _, FInv.none (reset_q hc h3 h1 h2) (by rw [h3]; rfl)⟩
    · obtain ⟨j, h3⟩ := h3
      obtain ⟨j0, hj⟩ := resume_tooBad h3
      exact ⟨_, _, _, _, _, _, _, _, FInv.none (reset_q hc hj h1 h2) (by rw [hj]; rfl)⟩
  | append s s' L pk d m _ ha ih =>
    obtain ⟨Vs, vts, vt, vh, vr, vR, vM, vn, hf⟩ := ih
    obtain ⟨Pd, ho, hd⟩ := ha.out hc hf.q.geo hf.q.rst hf.en
    obtain ⟨_, _, _, hf'⟩ := hf.push hc ho hd
    exact ⟨_, _, _, _, _, _, _, _, hf'⟩
  | refused s s' L pk d m e _ ha he hne hq hb ih =>
    obtain ⟨Vs, vts, vt, vh, vr, vR, vM, vn, hf⟩ := ih
    obtain ⟨Pd, ho, hd⟩ := ha.out hc hf.q.geo hf.q.rst hf.en
    cases ho with
    | again => exact absurd rfl hne
    | start => exact absurd rfl hne
    | stop _ _ _ hub hcr hsf =>
      rcases hsf he.1 with ⟨vq, hs⟩ | hn
      · exact ⟨_, _, _, _, _, _, _, _, hf.refused hc hs hb⟩
      · obtain ⟨t, t1, t2, t3⟩ := hn
        have := hq t t1 t2
        rcases t3 with t3 | t3
        · exact absurd t3 this.1
        · exact absurd t3 this.2
  | peek s L pk _ hs ih =>
    obtain ⟨Vs, vts, vt, vh, vr, vR, vM, vn, hf⟩ := ih
    rcases hf.peek hc hs with ⟨hV, _, _, h⟩ | ⟨v0, Vr, hV, _, h⟩
    · have hL := hf.en.nil_iff.2 hV
      subst hL
      exact ⟨_, _, _, _, _, _, _, _, h⟩
    · cases L with
      | nil => have := hf.en.nil_iff.1 rfl; rw [hV] at this; cases this
      | cons a _ => exact ⟨_, _, _, _, _, _, _, _, h⟩
  | dequeue s L e _ ih =>
    obtain ⟨Vs, vts, vt, vh, vr, vR, vM, vn, hf⟩ := ih
    obtain ⟨_, _, _, h, _⟩ := hf.dequeue hc
    exact ⟨_, _, _, _, _, _, _, _, h⟩
  | clear s L pk _ ih =>
    obtain ⟨Vs, vts, vt, vh, vr, vR, vM, vn, hf⟩ := ih
    exact ⟨_, _, _, _, _, _, _, _, FInv.none (clear_q hf.q hf.nr) hf.nr⟩
  | mark s L ph _ ih =>
    cases ph with
    | calm pk =>
      obtain ⟨Vs, vts, vt, vh, vr, vR, vM, vn, hf⟩ := ih
      exact ⟨_, _, _, _, _, _, _, _, hf.mark⟩
    | recovering r got =>
      obtain ⟨Vs, vts, vt, vh, vr, vR, vM, vn, hf⟩ := ih
      exact ⟨_, _, _, _, _, _, _, _, hf.mark⟩
  | begin_ s s' L pk d m _ hL ha ih =>
    obtain ⟨Vs, vts, vt, vh, vr, vR, vM, vn, hf⟩ := ih
    obtain ⟨Pd, ho, hd⟩ := ha.out hc hf.q.geo hf.q.rst hf.en
    cases ho with
    | again _ v' hp => have := hp.rec0; rw [hf.nr] at this; cases this
    | start _ vM' v' hp =>
      obtain ⟨_, h⟩ := hf.start hc hL hp
      exact ⟨_, _, _, _, _, _, _, _, h⟩
    | stop _ _ he => exact absurd rfl he
  | next s L r got _ ih =>
    obtain ⟨Vs, vts, vt, vh, vr, vR, vM, vn, hr⟩ := ih
    obtain ⟨_, h⟩ := hr.next hc
    exact ⟨_, _, _, _, _, _, _, _, h⟩
  | rewrite s s' L r got d m _ ha hrec ih =>
    obtain ⟨Vs, vts, vt, vh, vr, vR, vM, vn, hr⟩ := ih
    obtain ⟨Pd, ho, hd⟩ := ha.out hc hr.q.geo hr.q.rst hr.en
    cases ho with
    | ok _ vq hp =>
      have hnf : ¬ finishes c s vq := fun hf => by have := (hp.done hf).1.nr; rw [hrec] at this; cases this
      obtain ⟨_, h⟩ := hr.push hc hp hd hnf
      exact ⟨_, _, _, _, _, _, _, _, h⟩
  | again s s' L r got d m _ ha ih =>
    obtain ⟨Vs, vts, vt, vh, vr, vR, vM, vn, hr⟩ := ih
    obtain ⟨Pd, ho, hd⟩ := ha.out hc hr.q.geo hr.q.rst hr.en
    cases ho with
    | again _ v' hp =>
      obtain ⟨_, h⟩ := hr.again hc hp
      exact ⟨_, _, _, _, _, _, _, _, h⟩
    | start _ vM' v' hp => have := hp.rec0; rw [hr.rc] at this; cases this
    | stop _ _ he => exact absurd rfl he
  | finish s s' L r got d m _ ha hrec ht ih =>
    obtain ⟨Vs, vts, vt, vh, vr, vR, vM, vn, hr⟩ := ih
    obtain ⟨Pd, ho, hd⟩ := ha.out hc hr.q.geo hr.q.rst hr.en
    cases ho with
    | ok _ vq hp =>
      have hf : finishes c s vq := by
        apply Classical.byContradiction; intro hnf
        have := (hp.going hnf).1
        rw [hr.rc, hrec] at this; cases this
      obtain ⟨_, h⟩ := hr.finish hc hp hd hf ht
      exact ⟨_, _, _, _, _, _, _, _, h⟩

/-- The geometry and the entries, in any phase. -/
theorem Fifo.ents (hc : c.Valid) {s : S} {L : List Entry} {ph : Phase} (h : Fifo c s L ph) :
    ∃ Vs vts vt vh vr vR vM vn, QInv c s vts vt vh vr vR vM vn ∧ Ents c s L Vs vt vh := by
  have := h.inv hc
  cases ph with
  | calm pk => obtain ⟨_, _, _, _, _, _, _, _, h⟩ := this; exact ⟨_, _, _, _, _, _, _, _, h.q, h.en⟩
  | recovering r got => obtain ⟨_, _, _, _, _, _, _, _, h⟩ := this; exact ⟨_, _, _, _, _, _, _, _, h.q, h.en⟩

end Dhara

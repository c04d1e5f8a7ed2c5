/-
Taking everything out of a journal after a power cycle (C61): the pages answered are those of the user positions from tail to head
whose blocks are not bad.
-/
import Verif.Proofs.JDisk
namespace Dhara

variable {c : Cfg}

theorem least_nat {P : Nat → Prop} : ∀ n, P n → ∃ m, m ≤ n ∧ P m ∧ ∀ k, k < m → ¬ P k := by
  intro n
  induction n using Nat.strongRecOn with
  | ind n ih =>
    intro hn
    by_cases h : ∃ k, k < n ∧ P k
    · obtain ⟨k, h1, h2⟩ := h
      obtain ⟨m, m1, m2, m3⟩ := ih k h1 h2
      exact ⟨m, by omega, m2, m3⟩
    · exact ⟨n, Nat.le_refl _, hn, fun k h1 h2 => h ⟨k, h1, h2⟩⟩

/-- Position `v` is answered when the tail is at `vt`: its block is good, or the tail is in the middle of it. -/
def Seen (c : Cfg) (ch : Chip) (vt v : Nat) : Prop :=
  ch.bad (c.ph v / c.ppb) = false ∨ (v / c.ppb = vt / c.ppb ∧ vt % c.ppb ≠ 0)

theorem drain_eq (hc : c.Valid) {vh vL : Nat} (hL2 : vL < vh) (hL3 : vh ≤ (vL / c.ppb + 1) * c.ppb) :
    ∀ m k (s : S) (vts vt vr vR vM vn : Nat) (Vs : List Nat), vh ≤ vt + m → m ≤ k → QInv c s vts vt vh vr vR vM vn →
      s.j.recovery = false → Shallow c s.n → s.n.chip.bad (c.ph vL / c.ppb) = false → Vs.Pairwise (· < ·) →
      (∀ v, v ∈ Vs ↔ vt ≤ v ∧ v < vh ∧ c.isU v ∧ Seen c s.n.chip vt v) → drain c k s = Vs.map c.ph := by
  intro m
  induction m with
  | zero =>
    intro k s vts vt vr vR vM vn Vs h1 _ hq hk hsh hg hs hm
    have hV : Vs = [] := by
      cases Vs with
      | nil => rfl
      | cons a l => have := (hm a).1 (List.mem_cons_self ..); omega
    have hvt : vt = vh := by have := hq.geo.l2; omega
    obtain ⟨_, _, _, p3, _⟩ := peek_q hc hq hk
    rw [hV]
    cases k with
    | zero => rfl
    | succ k => unfold drain; rw [if_pos (p3 hvt).2]; rfl
  | succ m ih =>
    intro k s vts vt vr vR vM vn Vs h1 hmk hq hk hsh hg hs hm
    obtain ⟨k, rfl⟩ : ∃ k', k = k' + 1 := ⟨k - 1, by omega⟩
    obtain ⟨vt', p1, p2, p3, p4, p5, p6, p7⟩ := peek_q hc hq hk
    by_cases hvt : vt = vh
    · have hV : Vs = [] := by
        cases Vs with
        | nil => rfl
        | cons a l => have := (hm a).1 (List.mem_cons_self ..); omega
      rw [hV]
      unfold drain; rw [if_pos (p3 hvt).2]; rfl
    have hlt : vt < vh := by have := hq.geo.l2; omega
    have hP := ppb_pos c
    -- what peek answers is the first position seen
    have key : vt' ∈ Vs ∧ (∀ v, v ∈ Vs → vt' ≤ v) ∧ (vt % c.ppb = 0 → s.n.chip.bad (c.ph vt' / c.ppb) = false) := by
      by_cases ha : vt % c.ppb = 0
      · have hb : vt / c.ppb ≤ vL / c.ppb := by
          have := Nat.div_lt_of_lt_mul (show vt < c.ppb * (vL / c.ppb + 1) by rw [Nat.mul_comm]; omega)
          omega
        have hgL : s.n.chip.bad (vL / c.ppb % c.numBlocks) = false := by rw [← ph_div_ppb]; exact hg
        obtain ⟨b0, m1, ⟨m2, m4⟩, m3⟩ := least_nat (P := fun b => vt / c.ppb ≤ b ∧ s.n.chip.bad (b % c.numBlocks) = false) _ ⟨hb, hgL⟩
        have hbad : ∀ k, vt / c.ppb ≤ k → k < b0 → s.n.chip.bad (k % c.numBlocks) = true := by
          intro k k1 k2
          cases hbk : s.n.chip.bad (k % c.numBlocks) with
          | true => rfl
          | false => exact absurd ⟨k1, hbk⟩ (m3 k k2)
        obtain ⟨i, i1, i2⟩ := hsh (vt / c.ppb)
        have hnear : b0 < vt / c.ppb + 8 := by
          apply Classical.byContradiction; intro hn
          have := hbad (vt / c.ppb + i) (by omega) (by omega)
          rw [i2] at this; cases this
        have hL0 := div_mod_range vL c.ppb
        have hm1 := Nat.mul_le_mul_right c.ppb m1
        have hm2 := Nat.mul_le_mul_right c.ppb m2
        have hv0 := div_mod_range vt c.ppb
        have he := p6 hlt ha b0 m2 (Nat.le_trans m1 (Nat.div_le_div_right (by omega))) hnear m4 hbad
        have hgood : s.n.chip.bad (c.ph vt' / c.ppb) = false := by
          rw [he, ph_div_ppb, Nat.mul_div_cancel _ hP]; exact m4
        refine ⟨(hm vt').2 ⟨by omega, by omega, isU_of_aligned hc (by rw [he]; exact Nat.mul_mod_left _ _), Or.inl hgood⟩, ?_, fun _ => hgood⟩
        intro v hv
        obtain ⟨v1, v2, v3, v4⟩ := (hm v).1 hv
        have hvg : s.n.chip.bad (v / c.ppb % c.numBlocks) = false := by
          rcases v4 with v4 | ⟨_, v4⟩
          · rw [← ph_div_ppb]; exact v4
          · exact absurd ha v4
        have : b0 ≤ v / c.ppb := by
          apply Classical.byContradiction; intro hn
          exact m3 (v / c.ppb) (by omega) ⟨Nat.div_le_div_right v1, hvg⟩
        have := Nat.mul_le_mul_right c.ppb this
        have := div_mod_range v c.ppb
        omega
      · have he := p5 ha
        refine ⟨(hm vt').2 ⟨by omega, by omega, by rw [he]; exact hq.geo.ut, Or.inr ⟨by rw [he], ha⟩⟩, fun v hv => ?_, fun h => absurd h ha⟩
        rw [he]; exact ((hm v).1 hv).1
    obtain ⟨k1, k2, k3⟩ := key
    have hvt' := (hm vt').1 k1
    obtain ⟨Vr, hV⟩ : ∃ Vr, Vs = vt' :: Vr := by
      cases hVs : Vs with
      | nil => rw [hVs] at k1; cases k1
      | cons a l =>
        have ha := k2 a (by rw [hVs]; exact List.mem_cons_self ..)
        rw [hVs] at k1 hs
        rcases List.mem_cons.1 k1 with e | e
        · exact ⟨l, by rw [e]⟩
        · have := (List.pairwise_cons.1 hs).1 vt' e; omega
    have hk1 : (peek c s).2.j.recovery = false := by rw [(peek_same s).rcv]; exact hk
    obtain ⟨vts', vt'', d1, d2, d3, d4, _⟩ := dequeue_q hc p1 hk1
    have hd4 := d4 hvt'.2.1
    have hn : (dequeue c (peek c s).2).n = s.n := d2.trans p2
    have hnl := lt_nextV c vt'
    subst hV
    have hs' := List.pairwise_cons.1 hs
    unfold drain
    rw [p4 hlt, if_neg (ph_ne_none hc vt'), List.map_cons]
    congr 1
    refine ih k _ vts' vt'' vr vR vM vn Vr (by omega) (by omega) d1 (by rw [(dequeue_same _).rcv]; exact hk1) (by rw [hn]; exact hsh)
      (by rw [hn]; exact hg) hs'.2 (fun v => ?_)
    rw [hn, hd4]
    have hblk := nextV_blk hc hvt'.2.2.1
    constructor
    · intro hv
      obtain ⟨v1, v2, v3, v4⟩ := (hm v).1 (List.mem_cons_of_mem _ hv)
      have hge := nextV_le hc hvt'.2.2.1 v3 (hs'.1 v hv)
      refine ⟨hge, v2, v3, ?_⟩
      rcases v4 with v4 | ⟨v4, v5⟩
      · exact Or.inl v4
      · have he := p5 v5
        rw [he] at hblk hge ⊢
        rcases hblk with ⟨b1, b2⟩ | ⟨b1, b2⟩
        · exact Or.inr ⟨by rw [v4, b1], b2⟩
        · have := Nat.div_le_div_right (c := c.ppb) hge
          omega
    · rintro ⟨v1, v2, v3, v4⟩
      have hmem : v ∈ vt' :: Vr := by
        refine (hm v).2 ⟨by omega, v2, v3, ?_⟩
        rcases v4 with v4 | ⟨v4, v5⟩
        · exact Or.inl v4
        · rcases hblk with ⟨b1, b2⟩ | ⟨b1, b2⟩
          · by_cases ha : vt % c.ppb = 0
            · left
              rw [ph_div_ppb, v4, b1, ← ph_div_ppb]; exact k3 ha
            · right
              rw [p5 ha] at v4 b1
              exact ⟨by rw [v4, b1], ha⟩
          · exact absurd b2 v5
      rcases List.mem_cons.1 hmem with e | e
      · omega
      · exact e

theorem exists_sorted (a b : Nat) (Q : Nat → Prop) : ∃ V : List Nat, V.Pairwise (· < ·) ∧ ∀ v, v ∈ V ↔ a ≤ v ∧ v < b ∧ Q v := by
  classical
  refine ⟨(List.range' a (b - a)).filter fun v => decide (Q v), (List.pairwise_lt_range' ..).filter _, fun v => ?_⟩
  rw [List.mem_filter, List.mem_range'_1]
  simp only [decide_eq_true_eq]
  constructor
  · rintro ⟨⟨h1, h2⟩, h3⟩; exact ⟨h1, by omega, h3⟩
  · rintro ⟨h1, h2, h3⟩; exact ⟨⟨h1, by omega⟩, h3⟩

/-- The entries left come one after the other. -/
theorem PE.drained (hc : c.Valid) {s : S} {x : Saved} {Ws : List Nat} {vts vL vtc vt vh vr vR vM vn : Nat}
    (hP : PE c s.n.chip x Ws vts vL vtc) (hq : QInv c s vt vt vh vr vR vM vn) (hk : s.j.recovery = false) (hsh : Shallow c s.n)
    (hg : s.n.chip.bad (c.ph vL / c.ppb) = false) (htc : vtc ≤ vt) (hts : vt ≤ vts) (htL : vt ≤ vL) (hlt : vL < vh)
    (hhi : vh ≤ (vL / c.ppb + 1) * c.ppb) (hr : s.j.root = c.ph vL) :
    ∃ J1 J2, drain c c.pages s = J1 ++ x.left.map Entry.page ++ J2 ∧ (x.left = x.all → J1 = []) ∧
        (x.left ≠ [] → ∀ p, p ∈ J2 → p / c.ppb = s.j.root / c.ppb ∧ s.j.root < p) := by
  have hPb := ppb_pos c
  have hsz := hq.geo.size_lt
  have hdr : ∀ Vs : List Nat, Vs.Pairwise (· < ·) → (∀ v, v ∈ Vs ↔ vt ≤ v ∧ v < vh ∧ c.isU v ∧ Seen c s.n.chip vt v) →
      drain c c.pages s = Vs.map c.ph := fun Vs h1 h2 =>
    drain_eq hc hlt hhi (vh - vt) c.pages s vt vt vr vR vM vn Vs (by omega) (by omega) hq hk hsh hg h1 h2
  by_cases hW : Ws = []
  · obtain ⟨V, v1, v2⟩ := exists_sorted vt vh fun v => c.isU v ∧ Seen c s.n.chip vt v
    have hl : x.left = [] := by
      have := hP.pages; rw [hW] at this; simpa using this
    refine ⟨V.map c.ph, [], ?_, fun hf => ?_, fun h => absurd hl h⟩
    · rw [hl, hdr V v1 v2]; simp
    · exfalso
      have := hP.root
      rw [← hf, hl] at this
      exact ph_ne_none hc vL this.symm
  have htsL : vts ≤ vL := by
    cases hWs : Ws with
    | nil => exact absurd hWs hW
    | cons a l => have := hP.rng a (by rw [hWs]; exact List.mem_cons_self ..); omega
  obtain ⟨V1, a1, a2⟩ := exists_sorted vt vts fun v => c.isU v ∧ Seen c s.n.chip vt v
  obtain ⟨V3, b1, b2⟩ := exists_sorted (vL + 1) vh fun v => c.isU v ∧ Seen c s.n.chip vt v
  have hseen : ∀ v, vts ≤ v → Seen c s.n.chip vt v → v ≤ vL → s.n.chip.bad (c.ph v / c.ppb) = false := by
    intro v h1 h2 h3
    rcases h2 with h2 | ⟨h2, h4⟩
    · exact h2
    · have e1 := Nat.div_le_div_right (c := c.ppb) hts
      have e2 := Nat.div_le_div_right (c := c.ppb) h1
      have e3 : vts / c.ppb = vt / c.ppb := by omega
      have d1 := div_mod_range vts c.ppb
      have d2 := div_mod_range vt c.ppb
      rw [e3] at d1
      have := hP.al (by omega) htsL
      rw [ph_div_ppb, e3] at this
      rw [ph_div_ppb, h2]; exact this
  refine ⟨V1.map c.ph, V3.map c.ph, ?_, fun hf => ?_, fun _ p hp => ?_⟩
  · rw [hP.pages, ← List.map_append, ← List.map_append]
    apply hdr
    · rw [List.pairwise_append, List.pairwise_append]
      refine ⟨⟨a1, hP.sorted, fun u hu w hw => ?_⟩, b1, fun u hu w hw => ?_⟩
      · have := (a2 u).1 hu; have := hP.rng w hw; omega
      · have := (b2 w).1 hw
        rcases List.mem_append.1 hu with hu | hu
        · have := (a2 u).1 hu; omega
        · have := hP.rng u hu; omega
    · intro v
      rw [List.mem_append, List.mem_append, a2, b2, hP.mem]
      constructor
      · rintro ((⟨h1, h2, h3⟩ | ⟨h1, h2, h3, h4⟩) | ⟨h1, h2, h3⟩)
        · exact ⟨h1, by omega, h3⟩
        · exact ⟨by omega, by omega, h3, Or.inl h4⟩
        · exact ⟨by omega, h2, h3⟩
      · rintro ⟨h1, h2, h3, h4⟩
        by_cases q1 : v < vts
        · exact Or.inl (Or.inl ⟨h1, q1, h3, h4⟩)
        · by_cases q2 : v ≤ vL
          · exact Or.inl (Or.inr ⟨by omega, q2, h3, hseen v (by omega) h4 q2⟩)
          · exact Or.inr ⟨by omega, h2, h3, h4⟩
  · have := hP.full hf
    cases V1 with
    | nil => rfl
    | cons a l => have := (a2 a).1 (List.mem_cons_self ..); omega
  · obtain ⟨v, hv, rfl⟩ := List.mem_map.1 hp
    obtain ⟨h1, h2, _⟩ := (b2 v).1 hv
    have e0 : v / c.ppb = vL / c.ppb := by
      have e1 := Nat.div_le_div_right (c := c.ppb) (by omega : vL ≤ v)
      have e2 := Nat.div_lt_of_lt_mul (show v < c.ppb * (vL / c.ppb + 1) by rw [Nat.mul_comm]; omega)
      omega
    have e3 : c.ph v / c.ppb = c.ph vL / c.ppb := by rw [ph_div_ppb, ph_div_ppb, e0]
    rw [hr]
    refine ⟨e3, ?_⟩
    have d1 := div_mod_range (c.ph v) c.ppb
    have d2 := div_mod_range (c.ph vL) c.ppb
    have d3 := div_mod_range v c.ppb
    have d4 := div_mod_range vL c.ppb
    rw [ph_mod_ppb] at d1 d2
    rw [e3] at d1
    rw [e0] at d3
    omega

end Dhara

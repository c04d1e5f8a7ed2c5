/-
Erase counts: the head visits the blocks round-robin and erases a block exactly when it enters it
(dhara/journal.c:598-648).
-/
import Verif.Proofs.Evo
import Verif.Proofs.Geom
namespace Dhara

variable {c : Cfg}

/-- How often `k` occurs among the `m` numbers `U, U+1, …` modulo `N`. -/
def visits (N U m k : Nat) : Nat := (m + (N - 1 - (k + N - U % N) % N)) / N

theorem visits_succ {N U m k : Nat} (hN : 0 < N) (hk : k < N) :
    visits N U (m + 1) k = visits N U m k + if (U + m) % N = k then 1 else 0 := by
  have hU := Nat.mod_lt U hN
  have hj : ∃ j, j < N ∧ (k + N - U % N) % N = j ∧ (U + j) % N = k := by
    refine ⟨(k + N - U % N) % N, Nat.mod_lt _ hN, rfl, ?_⟩
    rw [Nat.add_mod, Nat.mod_mod, ← Nat.add_mod, Nat.add_mod]
    by_cases h : U % N ≤ k
    · rw [show k + N - U % N = (k - U % N) + N by omega, Nat.add_mod_right,
        Nat.mod_eq_of_lt (a := k - U % N) (by omega), show U % N + (k - U % N) = k by omega,
        Nat.mod_eq_of_lt hk]
    · rw [Nat.mod_eq_of_lt (a := k + N - U % N) (by omega), show U % N + (k + N - U % N) = k + N by omega,
        Nat.add_mod_right, Nat.mod_eq_of_lt hk]
  obtain ⟨j, j1, j2, j3⟩ := hj
  unfold visits
  rw [j2, show m + 1 + (N - 1 - j) = m + (N - 1 - j) + 1 by omega, Nat.succ_div]
  congr 1
  have key : N ∣ m + (N - 1 - j) + 1 ↔ (U + m) % N = k := by
    rw [show m + (N - 1 - j) + 1 = m + N - j by omega]
    constructor
    · rintro ⟨q, hq⟩
      have : U + m + N = U + j + N * q := by omega
      have h2 : (U + m + N) % N = (U + j + N * q) % N := by rw [this]
      rw [Nat.add_mod_right, Nat.add_mul_mod_self_left, j3] at h2
      exact h2
    · intro h
      have h2 : (U + m + N) % N = (U + j) % N := by rw [Nat.add_mod_right, h, j3]
      have h3 := Nat.sub_mod_eq_zero_of_mod_eq h2
      rw [show U + m + N - (U + j) = m + N - j by omega] at h3
      exact Nat.dvd_of_mod_eq_zero h3
  by_cases h : (U + m) % N = k
  · rw [if_pos h, if_pos (key.2 h)]
  · rw [if_neg h, if_neg (fun x => h (key.1 x))]

theorem visits_zero {N U k : Nat} (hN : 0 < N) : visits N U 0 k = 0 := by
  unfold visits; apply Nat.div_eq_of_lt; omega

theorem visits_near {N U m k k' : Nat} (hN : 0 < N) : visits N U m k ≤ visits N U m k' + 1 := by
  unfold visits
  rw [← Nat.add_div_right _ hN]
  apply Nat.div_le_div_right; omega

/-- The chip's erase counters after the head has entered `m` blocks, starting with block `U`. -/
def Worn (c : Cfg) (e0 : Nat → Nat) (U m : Nat) (n : Nand) : Prop :=
  ∀ k, k < c.numBlocks → n.erases k ≤ e0 k + visits c.numBlocks U m k ∧
    (n.chip.bad k = false → n.erases k = e0 k + visits c.numBlocks U m k)

def Loose (c : Cfg) (e0 : Nat → Nat) (U : Nat) (s : S) : Prop := ∃ m, Worn c e0 U m s.n

/-- Between pushes. -/
def Settled (c : Cfg) (e0 : Nat → Nat) (U : Nat) (s : S) : Prop :=
  ∃ m v, s.j.head = c.ph v ∧ c.isU v ∧ Worn c e0 U m s.n ∧ v ≤ (U + m) * c.ppb ∧ (U + m) * c.ppb < v + c.ppb

/-- The block of the head has been entered. -/
def InBlk (c : Cfg) (e0 : Nat → Nat) (U : Nat) (s : S) : Prop :=
  ∃ m v, s.j.head = c.ph v ∧ c.isU v ∧ Worn c e0 U m s.n ∧ U + m = v / c.ppb + 1

def Err.hard : Err → Bool
  | .badBlock => true
  | .journalFull => true
  | .powerLoss => true
  | .ecc => true
  | .ub => true
  | _ => false

/-- What a call that writes leaves behind. -/
def Wears (c : Cfg) (e0 : Nat → Nat) (U : Nat) {α : Type} (r : Except Err α × S) : Prop :=
  Loose c e0 U r.2 ∧ ((∀ e, r.1 = .error e → e.hard = false) → Settled c e0 U r.2)

variable {e0 : Nat → Nat} {U : Nat}

theorem Settled.loose {s : S} (h : Settled c e0 U s) : Loose c e0 U s := by
  obtain ⟨m, _, _, _, h, _⟩ := h; exact ⟨m, h⟩

theorem InBlk.loose {s : S} (h : InBlk c e0 U s) : Loose c e0 U s := by
  obtain ⟨m, _, _, _, h, _⟩ := h; exact ⟨m, h⟩

theorem Settled.out {s : S} {α : Type} {r : Except Err α} (h : Settled c e0 U s) : Wears c e0 U (r, s) :=
  ⟨h.loose, fun _ => h⟩

theorem Loose.out {s : S} {α : Type} {e : Err} (h : Loose c e0 U s) (he : e.hard = true) :
    Wears c e0 U ((.error e, s) : Except Err α × S) :=
  ⟨h, fun x => by have := x e rfl; rw [he] at this; cases this⟩

/-- SameHead head and counters, no block unmarked. -/
structure SameHead (s s' : S) : Prop where
  head : s'.j.head = s.j.head
  er : s'.n.erases = s.n.erases
  bad : ∀ k, s.n.chip.bad k = true → s'.n.chip.bad k = true

theorem Worn.same {m : Nat} {s s' : S} (h : Worn c e0 U m s.n) (e : SameHead s s') : Worn c e0 U m s'.n := by
  intro k hk
  rw [e.er]
  refine ⟨(h k hk).1, fun hb => (h k hk).2 ?_⟩
  cases h1 : s.n.chip.bad k with
  | false => rfl
  | true => rw [e.bad k h1] at hb; cases hb

theorem Settled.same {s s' : S} (h : Settled c e0 U s) (e : SameHead s s') : Settled c e0 U s' := by
  obtain ⟨m, v, a, b, d, f⟩ := h; exact ⟨m, v, by rw [e.head, a], b, d.same e, f⟩

theorem InBlk.same {s s' : S} (h : InBlk c e0 U s) (e : SameHead s s') : InBlk c e0 U s' := by
  obtain ⟨m, v, a, b, d, f⟩ := h; exact ⟨m, v, by rw [e.head, a], b, d.same e, f⟩

theorem Loose.same {s s' : S} (h : Loose c e0 U s) (e : SameHead s s') : Loose c e0 U s' := by
  obtain ⟨m, d⟩ := h; exact ⟨m, d.same e⟩

theorem SameHead.refl (s : S) : SameHead s s := ⟨rfl, rfl, fun _ h => h⟩
theorem SameHead.trans {s s1 s2 : S} (h : SameHead s s1) (h' : SameHead s1 s2) : SameHead s s2 :=
  ⟨h'.head.trans h.head, h'.er.trans h.er, fun k x => h'.bad k (h.bad k x)⟩
theorem SameHead.of_n {s s' : S} (h1 : s'.j.head = s.j.head) (h2 : s'.n = s.n) : SameHead s s' :=
  ⟨h1, by rw [h2], fun k h => by rw [h2]; exact h⟩

theorem same_mark (k : Nat) (s : S) : SameHead s { s with n := nandMarkBad c k s.n } := by
  refine ⟨rfl, ?_, (nandMarkBad_evo (c := c) k s.n).bad⟩
  show (nandMarkBad c k s.n).erases = _
  unfold nandMarkBad; split <;> rfl

theorem prog_erases (p : Nat) (d : Buf) (n : Nand) : (nandProg c p d n).2.erases = n.erases := by
  unfold nandProg; split
  · rfl
  · simp only; split <;> rfl

theorem same_prog (p : Nat) (d : Buf) (s : S) : SameHead s (progS c p d s).2 :=
  ⟨rfl, prog_erases _ _ _, (nandProg_evo (c := c) p d s.n).bad⟩

theorem head_roll (j : Journal) : (rollIfZero j).head = j.head := by
  unfold rollIfZero; split <;> rfl

theorem Settled.inBlk {s : S} (h : Settled c e0 U s) (hn : isAligned s.j.head c.log2Ppb = false) :
    InBlk c e0 U s := by
  obtain ⟨m, v, a, b, d, f, g⟩ := h
  refine ⟨m, v, a, b, d, ?_⟩
  have h1 : ¬ (c.ph v % c.ppb = 0) := by
    intro e; rw [a, isAligned_iff.2 e] at hn; cases hn
  rw [ph_mod_ppb] at h1
  have h2 := div_mod_range v c.ppb
  have h3 := mod_ppb_lt c v
  have e2 : (v / c.ppb + 1) * c.ppb = v / c.ppb * c.ppb + c.ppb := by rw [Nat.add_mul, Nat.one_mul]
  have e1 : (U + m) * c.ppb / c.ppb = v / c.ppb + 1 := by
    apply div_of_range (ppb_pos c) <;> rw [e2]
    · apply Classical.byContradiction; intro hx
      have hlt : (U + m) * c.ppb < (v / c.ppb + 1) * c.ppb := by omega
      have := Nat.lt_of_mul_lt_mul_right hlt
      have := Nat.mul_le_mul_right c.ppb (show U + m ≤ v / c.ppb by omega)
      omega
    · omega
  rwa [Nat.mul_div_cancel _ (ppb_pos c)] at e1

/-- Leaving a block that was entered, or that is bad. -/
theorem skip_out (hc : c.Valid) {s : S} (h : InBlk c e0 U s ∨
      (Settled c e0 U s ∧ isAligned s.j.head c.log2Ppb = true ∧ s.n.chip.bad (c.blk s.j.head) = true)) :
    ∀ r s', skipBlock c s = (r, s') → s'.n = s.n ∧ (r = .error .journalFull ∧ s' = s ∨ r = .ok () ∧
      Settled c e0 U s' ∧ isAligned s'.j.head c.log2Ppb = true) := by
  intro r s' e
  have hs : s'.n = s.n := by have := skipBlock_n (c := c) s; rw [e] at this; exact this
  refine ⟨hs, ?_⟩
  unfold skipBlock at e
  simp only at e
  split at e
  · cases e; exact Or.inl ⟨rfl, rfl⟩
  · cases e
    refine Or.inr ⟨rfl, ?_⟩
    have key : ∃ m v, s.j.head = c.ph v ∧ Worn c e0 U m s.n ∧ U + m = v / c.ppb + 1 := by
      rcases h with ⟨m, v, a, b, d, f⟩ | ⟨⟨m, v, a, b, d, f, g⟩, h2, h3⟩
      · exact ⟨m, v, a, d, f⟩
      · rw [a] at h2 h3
        have h2 := isAligned_iff.1 h2
        change c.ph v % c.ppb = 0 at h2
        rw [ph_mod_ppb] at h2
        rw [blk_eq, ph_div_ppb] at h3
        have hv : U + m = v / c.ppb := by
          have h4 := div_mod_range v c.ppb
          have := div_of_range (v := (U + m) * c.ppb) (k := v / c.ppb) (ppb_pos c) (by omega) (by omega)
          rwa [Nat.mul_div_cancel _ (ppb_pos c)] at this
        refine ⟨m + 1, v, a, ?_, by omega⟩
        intro k hk
        have hN : 0 < c.numBlocks := by omega
        rw [visits_succ hN hk]
        by_cases hk2 : (U + m) % c.numBlocks = k
        · rw [if_pos hk2]
          refine ⟨by have := (d k hk).1; omega, fun hb => ?_⟩
          rw [← hk2, hv, h3] at hb; cases hb
        · rw [if_neg hk2]; exact d k hk
    obtain ⟨m, v, a, d, f⟩ := key
    have hh : nextBlock c (c.blk s.j.head) <<< c.log2Ppb = c.ph ((v / c.ppb + 1) * c.ppb) := by
      rw [a, blk_eq, ph_div_ppb, nextBlock_ph hc, shl_ppb, mul_ppb_ph]
    have hz : (v / c.ppb + 1) * c.ppb % c.ppb = 0 := Nat.mul_mod_left _ _
    refine ⟨⟨m, (v / c.ppb + 1) * c.ppb, ?_, isU_of_aligned hc hz, d, ?_, ?_⟩, ?_⟩
    · show (rollIfZero _).head = _; rw [head_roll]; exact hh
    · rw [f]; exact Nat.le_refl _
    · rw [f]; have := ppb_pos c; omega
    · apply isAligned_iff.2
      change (rollIfZero _).head % c.ppb = 0
      rw [head_roll]
      show nextBlock c (c.blk s.j.head) <<< c.log2Ppb % c.ppb = 0
      rw [hh, ph_mod_ppb, hz]

/-- The block of the head is about to be entered. -/
def PrepWear (c : Cfg) (e0 : Nat → Nat) (U : Nat) (r : Except Err Unit × S) : Prop :=
  match r.1 with
  | .ok _ => InBlk c e0 U r.2
  | .error .badBlock => InBlk c e0 U r.2
  | .error .powerLoss => Loose c e0 U r.2
  | .error _ => Settled c e0 U r.2

theorem prepareHeadLoop_wear (hc : c.Valid) : ∀ i s, Settled c e0 U s → isAligned s.j.head c.log2Ppb = true →
    PrepWear c e0 U (prepareHeadLoop c i s) := by
  intro i
  induction i with
  | zero => intro s h _; exact h
  | succ i ih =>
    intro s h hal
    unfold prepareHeadLoop
    simp only
    split
    · -- erase
      have h0 := h
      obtain ⟨m, v, a, b, d, f, g⟩ := h
      have h2 := isAligned_iff.1 hal
      change s.j.head % c.ppb = 0 at h2
      rw [a, ph_mod_ppb] at h2
      have hv : U + m = v / c.ppb := by
        have h4 := div_mod_range v c.ppb
        have := div_of_range (v := (U + m) * c.ppb) (k := v / c.ppb) (ppb_pos c) (by omega) (by omega)
        rwa [Nat.mul_div_cancel _ (ppb_pos c)] at this
      have hin : ∀ n' : Nand, n'.erases = upd s.n.erases (c.blk s.j.head) (s.n.erases (c.blk s.j.head) + 1) →
          n'.chip.bad = s.n.chip.bad → s.n.chip.bad (c.blk s.j.head) = false → InBlk c e0 U { s with n := n' } := by
        intro n' e1 e2 e3
        refine ⟨m + 1, v, a, b, ?_, by omega⟩
        intro k hk
        have hN : 0 < c.numBlocks := by omega
        rw [visits_succ hN hk]
        show n'.erases k ≤ _ ∧ (n'.chip.bad k = false → n'.erases k = _)
        rw [e1, e2, a, blk_eq, ph_div_ppb, hv]
        rw [a, blk_eq, ph_div_ppb] at e3
        simp only [upd]
        have hd := d k hk
        by_cases hk2 : k = v / c.ppb % c.numBlocks
        · rw [if_pos hk2, if_pos hk2.symm, ← hk2]
          rw [← hk2] at e3
          have := hd.2 e3
          exact ⟨by omega, fun _ => by omega⟩
        · rw [if_neg hk2, if_neg (fun e => hk2 e.symm)]; exact hd
      next hb =>
      have hb : s.n.chip.bad (c.blk s.j.head) = false := by
        cases hx : s.n.chip.bad (c.blk s.j.head) with
        | false => rfl
        | true => exact absurd hx hb
      unfold nandErase PrepWear
      by_cases hd : s.n.dead = true
      · simp only [hd, if_true]; exact h0.loose
      · simp only [hd]
        rcases c.env.erase s.n.time with _ | _ | (_ | _ | _)
        · exact hin _ rfl rfl hb
        · exact hin _ rfl rfl hb
        all_goals
          refine InBlk.loose (s := { s with n := _ }) (hin _ ?_ ?_ hb) <;> rfl
    · next hb =>
      have hb : s.n.chip.bad (c.blk s.j.head) = true := by
        simp only [Bool.not_eq_true', Bool.not_eq_false, nandIsBad] at hb
        exact Bool.not_eq_false _ ▸ (by simpa using hb)
      have hs : SameHead s { s with j := { s.j with bbCurrent := s.j.bbCurrent + 1 } } := .of_n rfl rfl
      have key := skip_out hc (s := { s with j := { s.j with bbCurrent := s.j.bbCurrent + 1 } })
        (Or.inr ⟨h.same hs, hal, hb⟩)
      split
      · next e1 =>
        obtain ⟨_, k⟩ := key _ _ e1
        rcases k with ⟨k1, k2⟩ | ⟨k1, _⟩
        · cases k1; rw [k2]; exact h.same hs
        · cases k1
      · next e1 =>
        obtain ⟨_, k⟩ := key _ _ e1
        rcases k with ⟨k1, k2⟩ | ⟨_, k2, k3⟩
        · cases k1
        · exact ih _ k2 k3

theorem prepareHead_wear (hc : c.Valid) {s : S} (h : Settled c e0 U s) : PrepWear c e0 U (prepareHead c s) := by
  unfold prepareHead
  simp only
  split
  · exact h
  · have hs : SameHead s { s with j := { s.j with dirty := true } } := .of_n rfl rfl
    split
    · next hal => exact (h.same hs).inBlk (by simpa using hal)
    · next hal => exact prepareHeadLoop_wear hc _ _ (h.same hs) (by simpa using hal)

/-- Moving on to the next user page. -/
theorem InBlk.next (hc : c.Valid) {s s' : S} (h : InBlk c e0 U s) (e1 : s'.n.erases = s.n.erases)
    (e2 : ∀ k, s.n.chip.bad k = true → s'.n.chip.bad k = true) (e3 : s'.j.head = nextUpage c s.j.head) :
    Settled c e0 U s' := by
  obtain ⟨m, v, a, b, d, f⟩ := h
  have hw : Worn c e0 U m s'.n := by
    intro k hk
    rw [e1]
    refine ⟨(d k hk).1, fun hb => (d k hk).2 ?_⟩
    cases h1 : s.n.chip.bad k with
    | false => rfl
    | true => rw [e2 k h1] at hb; cases hb
  refine ⟨m, c.nextV v, by rw [e3, a, nextUpage_ph hc b], nextV_isU hc b, hw, ?_, ?_⟩
  · rw [f]
    have h1 := div_mod_range (c.nextV v) c.ppb
    have h2 := mod_ppb_lt c (c.nextV v)
    rw [Nat.add_mul, Nat.one_mul]
    rcases nextV_blk hc b with ⟨x, y⟩ | ⟨x, y⟩
    · rw [x] at h1; omega
    · rw [x, Nat.add_mul, Nat.one_mul] at h1; omega
  · rw [f]
    have h1 := div_mod_range (c.nextV v) c.ppb
    have hp := ppb_pos c
    rw [Nat.add_mul, Nat.one_mul]
    rcases nextV_blk hc b with ⟨x, y⟩ | ⟨x, y⟩
    · rw [x] at h1; omega
    · rw [x, Nat.add_mul, Nat.one_mul] at h1; omega

theorem dumpMetaLoop_wear (hc : c.Valid) : ∀ i s, Settled c e0 U s → Wears c e0 U (dumpMetaLoop c i s) := by
  intro i
  induction i with
  | zero => intro s h; exact h.out
  | succ i ih =>
    intro s h
    unfold dumpMetaLoop
    simp only
    have fin : ∀ (e : Err) (s1 : S), (e = .badBlock → InBlk c e0 U s1) → (e.hard = true → Loose c e0 U s1) →
        (e.hard = false → Settled c e0 U s1) →
        Wears c e0 U (if e ≠ .badBlock then ((.error e, s1) : Except Err Unit × S)
          else match skipBlock c { { s1 with j := { s1.j with bbCurrent := s1.j.bbCurrent + 1 } } with
              n := nandMarkBad c (c.blk s1.j.head) s1.n } with
            | (.error e, s) => (.error e, s)
            | (.ok (), s) => dumpMetaLoop c i s) := by
      intro e s1 h1 h2 h3
      split
      · cases hh : e.hard with
        | true => exact (h2 hh).out hh
        | false => exact (h3 hh).out
      · next he =>
        have hb := h1 (by simpa using he)
        have hs : SameHead s1 { { s1 with j := { s1.j with bbCurrent := s1.j.bbCurrent + 1 } } with
            n := nandMarkBad c (c.blk s1.j.head) s1.n } :=
          ⟨rfl, (same_mark (c := c) (c.blk s1.j.head) s1).er, (same_mark (c := c) (c.blk s1.j.head) s1).bad⟩
        have key := skip_out hc (Or.inl (hb.same hs))
        split
        · next e1 =>
          obtain ⟨_, k⟩ := key _ _ e1
          rcases k with ⟨k1, k2⟩ | ⟨k1, _⟩
          · cases k1; rw [k2]; exact (hb.same hs).loose.out rfl
          · cases k1
        · next e1 =>
          obtain ⟨_, k⟩ := key _ _ e1
          rcases k with ⟨k1, k2⟩ | ⟨_, k2, k3⟩
          · cases k1
          · exact ih _ k2
    have hp := prepareHead_wear hc h
    rcases hq : prepareHead c s with ⟨e | ⟨⟩, s1⟩
    · rw [hq] at hp
      simp only
      apply fin <;> cases e <;> intro hh <;> first | exact hp | exact hp.loose | cases hh
    · rw [hq] at hp
      have hp : InBlk c e0 U s1 := hp
      simp only
      have hs := same_prog (c := c) s1.j.head s1.j.pageBuf s1
      rcases hr : progS c s1.j.head s1.j.pageBuf s1 with ⟨e | ⟨⟩, s2⟩
      · rw [hr] at hs
        simp only
        have hp2 := hp.same hs
        refine fin e s2 (fun _ => hp2) (fun _ => hp2.loose) (fun he => ?_)
        have : e = .badBlock ∨ e = .powerLoss := by
          unfold progS nandProg at hr
          split at hr
          · cases hr; exact Or.inr rfl
          · simp only at hr
            split at hr <;> cases hr <;> first | exact Or.inl rfl | exact Or.inr rfl
        rcases this with rfl | rfl <;> cases he
      · rw [hr] at hs
        simp only
        have hp2 := hp.same hs
        refine Settled.out (hp2.next hc rfl (fun _ h => h) ?_)
        show (rollIfZero _).head = _; rw [head_roll]

theorem restartRecovery_same (o : Nat) (s : S) : SameHead s (restartRecovery c o s) := by
  unfold restartRecovery
  simp only
  split
  · exact (same_mark (c := c) (c.blk o) s).trans (.of_n rfl rfl)
  · exact .of_n rfl rfl

theorem recoverFrom_wear (hc : c.Valid) {e : Err} {s : S} (h1 : e = .badBlock → InBlk c e0 U s)
    (h2 : e.hard = true → Loose c e0 U s) (h3 : e.hard = false → Settled c e0 U s) :
    Wears c e0 U (recoverFrom c e s) := by
  unfold recoverFrom
  simp only
  split
  · cases hh : e.hard with
    | true => exact (h2 hh).out hh
    | false => exact (h3 hh).out
  · next he =>
    have hb := h1 (by simpa using he)
    have hs : SameHead s { s with j := { s.j with bbCurrent := s.j.bbCurrent + 1 } } := .of_n rfl rfl
    have key := skip_out hc (Or.inl (hb.same hs))
    split
    · next e1 =>
      obtain ⟨_, k⟩ := key _ _ e1
      rcases k with ⟨k1, k2⟩ | ⟨k1, _⟩
      · cases k1; rw [k2]; exact (hb.same hs).loose.out rfl
      · cases k1
    · next s1 e1 =>
      obtain ⟨_, k⟩ := key _ _ e1
      rcases k with ⟨k1, k2⟩ | ⟨_, k2, k3⟩
      · cases k1
      · split
        · exact (k2.same (restartRecovery_same _ _)).out
        · split
          · exact (k2.same (same_mark _ _)).out
          · have k2' : Settled c e0 U { s1 with j := { s1.j with recoverRoot := s1.j.root, recoverNext := c.blockStart s1.j.root } } :=
              k2.same (.of_n rfl rfl)
            have kd := dumpMetaLoop_wear hc maxRetries _ k2'
            split
            · next h2 =>
              split at h2
              · unfold dumpMeta at h2; rw [h2] at kd; exact kd
              · cases h2
            · next h2 =>
              split at h2
              · unfold dumpMeta at h2; rw [h2] at kd
                exact ((kd.2 (fun _ x => by cases x)).same (.of_n rfl rfl)).out
              · cases h2; exact (k2'.same (.of_n rfl rfl)).out

theorem finishRecovery_same (s : S) : SameHead s (finishRecovery c s) := by
  unfold finishRecovery
  simp only
  have h1 := same_mark (c := c) (c.blk s.j.recoverRoot) s
  split
  · exact (h1.trans (same_mark (c := c) (c.blk s.j.recoverMeta) { s with n := nandMarkBad c (c.blk s.j.recoverRoot) s.n })).trans (.of_n rfl rfl)
  · exact h1.trans (.of_n rfl rfl)

theorem mark_erases (k : Nat) (n : Nand) : (nandMarkBad c k n).erases = n.erases := by
  unfold nandMarkBad; split <;> rfl

theorem commitPush_head (o : Nat) (s : S) : (commitPush c o s).j.head = nextUpage c s.j.head := by
  unfold commitPush finishRecovery clearRecovery
  simp only
  split <;> split <;> simp only [head_roll] <;> (try split) <;> simp only [head_roll]

theorem commitPush_erases (o : Nat) (s : S) : (commitPush c o s).n.erases = s.n.erases := by
  unfold commitPush finishRecovery
  simp only
  split <;> split <;> (try split) <;> simp only [mark_erases]

theorem head_bufferMeta (m : Option Buf) (j : Journal) : (bufferMeta c m j).head = j.head := by
  unfold bufferMeta; simp only; split <;> rfl

theorem progS_hard {p : Nat} {d : Buf} {s s' : S} {e : Err} (hr : progS c p d s = (.error e, s')) :
    e = .badBlock ∨ e = .powerLoss := by
  unfold progS nandProg at hr
  split at hr
  · cases hr; exact Or.inr rfl
  · simp only at hr
    split at hr <;> cases hr <;> first | exact Or.inl rfl | exact Or.inr rfl

theorem pushMeta_wear (hc : c.Valid) (m : Option Buf) {s : S} (h : InBlk c e0 U s) :
    Wears c e0 U (pushMeta c m s) := by
  unfold pushMeta
  simp only
  have hs0 : SameHead s { s with j := bufferMeta c m s.j } := .of_n (head_bufferMeta _ _) rfl
  have h0 := h.same hs0
  split
  · next hn =>
    refine Settled.out (h0.next hc rfl (fun _ h => h) ?_)
    show (bufferMeta c m s.j).head + 1 = nextUpage c (bufferMeta c m s.j).head
    rw [head_bufferMeta] at hn ⊢
    obtain ⟨_, v, a, b, _⟩ := h
    have hn : ¬ ((s.j.head + 2) % c.ppc = 0) := fun e => hn (isAligned_iff.2 e)
    rw [nextUpage]
    have hl := ph_lt hc v
    have hu : ¬ isAligned (s.j.head + 1 + 1) c.log2Ppc = true := fun e => hn (isAligned_iff.1 e)
    rw [if_neg hu, if_neg]
    rw [a]
    intro hge
    have he : c.ph v + 1 = c.pages := by omega
    obtain ⟨k, hk⟩ := hc.ppc_dvd_pages
    have : (c.ph v + 1) % c.ppc = 0 := by rw [he, hk]; exact Nat.mul_mod_right _ _
    have h4 := hc.ppc_ge
    have hm := ph_mod_ppc hc v
    have h5 := mod_ppc_lt c (c.ph v)
    have h6 : c.isU (c.ph v) := by unfold Cfg.isU; rw [hm]; exact b
    unfold Cfg.isU at h6
    have := div_add_lt (v := c.ph v) (k := 1) (m := c.ppc) (by omega)
    omega
  · have hs1 : SameHead s { s with j := fillHeader (bufferMeta c m s.j) } := .of_n (head_bufferMeta _ _) rfl
    have h1 := h.same hs1
    have hp := same_prog (c := c) ((fillHeader (bufferMeta c m s.j)).head + 1) (fillHeader (bufferMeta c m s.j)).pageBuf
      { s with j := fillHeader (bufferMeta c m s.j) }
    split
    · next e1 =>
      have he := progS_hard e1
      change progS c ((fillHeader (bufferMeta c m s.j)).head + 1) (fillHeader (bufferMeta c m s.j)).pageBuf
        { s with j := fillHeader (bufferMeta c m s.j) } = _ at e1
      rw [e1] at hp
      have h2 := h1.same hp
      refine recoverFrom_wear hc (fun _ => h2) (fun _ => h2.loose) (fun x => ?_)
      rcases he with rfl | rfl <;> cases x
    · next e1 =>
      change progS c ((fillHeader (bufferMeta c m s.j)).head + 1) (fillHeader (bufferMeta c m s.j)).pageBuf
        { s with j := fillHeader (bufferMeta c m s.j) } = _ at e1
      rw [e1] at hp
      have h2 := h1.same hp
      exact Settled.out (h2.next hc (commitPush_erases _ _) (commitPush_evo _ _).bad (commitPush_head _ _))

/-- Writing the user page. -/
def WrHard (wr : S → Except Err Unit × S) : Prop :=
  ∀ s, SameHead s (wr s).2 ∧ ∀ e, (wr s).1 = .error e → e.hard = true

theorem wrData_ok (d : Option Buf) : WrHard (wrData c d) := by
  intro s
  unfold wrData
  split
  · exact ⟨.refl _, fun e h => by cases h⟩
  · next b =>
    refine ⟨same_prog _ _ _, fun e h => ?_⟩
    rcases progS_hard (s' := (progS c s.j.head b s).2) (Prod.ext h rfl) with rfl | rfl <;> rfl

theorem wrCopy_ok (p : Nat) : WrHard (wrCopy c p) := by
  intro s
  unfold wrCopy nandCopy nandRead
  split
  · next e h =>
    refine ⟨.of_n rfl rfl, fun e' h' => ?_⟩
    cases h'
    split at h
    · split at h
      · cases h; rfl
      · split at h <;> cases h; rfl
    · cases h; rfl
  · next b h =>
    have h1 := same_prog (c := c) s.j.head b s
    refine ⟨⟨rfl, h1.er, h1.bad⟩, fun e h' => ?_⟩
    rcases progS_hard (s' := (progS c s.j.head b s).2) (Prod.ext h' rfl) with rfl | rfl <;> rfl

theorem pushLoop_wear (hc : c.Valid) {wr : S → Except Err Unit × S} (hw : WrHard wr) (m : Option Buf) :
    ∀ i s, Settled c e0 U s → Wears c e0 U (pushLoop c wr m i s) := by
  intro i
  induction i with
  | zero => intro s h; exact h.out
  | succ i ih =>
    intro s h
    unfold pushLoop
    simp only
    have fin : ∀ (e : Err) (s1 : S), (e = .badBlock → InBlk c e0 U s1) → (e.hard = true → Loose c e0 U s1) →
        (e.hard = false → Settled c e0 U s1) →
        Wears c e0 U (match recoverFrom c e s1 with
            | (.error e, s) => ((.error e, s) : Except Err Unit × S)
            | (.ok (), s) => pushLoop c wr m i s) := by
      intro e s1 h1 h2 h3
      have key := recoverFrom_wear hc h1 h2 h3
      split
      · next h2 => rw [h2] at key; exact key
      · next h2 => rw [h2] at key; exact ih _ (key.2 (fun _ x => by cases x))
    have hp := prepareHead_wear hc h
    rcases hq : prepareHead c s with ⟨e | ⟨⟩, s1⟩
    · rw [hq] at hp
      simp only
      apply fin <;> cases e <;> intro hh <;> first | exact hp | exact hp.loose | cases hh
    · rw [hq] at hp
      have hp : InBlk c e0 U s1 := hp
      simp only
      obtain ⟨hs, hr0⟩ := hw s1
      rcases hr : wr s1 with ⟨e | ⟨⟩, s2⟩
      · rw [hr] at hs
        simp only
        have hp2 := hp.same hs
        refine fin e s2 (fun _ => hp2) (fun _ => hp2.loose) (fun he => ?_)
        have := hr0 e (by rw [hr]); rw [he] at this; cases this
      · rw [hr] at hs
        simp only
        exact pushMeta_wear hc m (hp.same hs)

theorem Wears.ok {s : S} {α : Type} {a : α} (h : Wears c e0 U ((.ok a, s) : Except Err α × S)) : Settled c e0 U s :=
  h.2 (fun _ x => by cases x)

theorem Wears.of_eq {α : Type} {r r' : Except Err α × S} (h : Wears c e0 U r) (e : r = r') : Wears c e0 U r' := e ▸ h

theorem Wears.recov {s : S} {α : Type} (h : Wears c e0 U ((.error .recover, s) : Except Err α × S)) : Settled c e0 U s :=
  h.2 (fun _ x => by cases x; rfl)

/-- The result matters only for whether the error was a hard one. -/
theorem Wears.cast {s s' : S} {α β : Type} {e : Err} (h : Wears c e0 U ((.error e, s) : Except Err α × S))
    (hs : SameHead s s') : Wears c e0 U ((.error e, s') : Except Err β × S) := by
  refine ⟨h.1.same hs, fun x => (h.2 fun e' h' => ?_).same hs⟩
  cases h'; exact x e rfl

theorem enqueue_wear (hc : c.Valid) (d m : Option Buf) {s : S} (h : Settled c e0 U s) :
    Wears c e0 U (enqueue c d m s) := pushLoop_wear hc (wrData_ok d) m _ _ h

theorem journalCopy_wear (hc : c.Valid) (p : Nat) (m : Buf) {s : S} (h : Settled c e0 U s) :
    Wears c e0 U (journalCopy c p m s) := pushLoop_wear hc (wrCopy_ok p) (some m) _ _ h

theorem nextRecoverable_head (s : S) : (nextRecoverable c s).2.j.head = s.j.head := by
  unfold nextRecoverable; simp only; split
  · rfl
  · split
    · rfl
    · split <;> rfl

theorem peekLoop_head : ∀ i b (s : S), (peekLoop c i b s).2.j.head = s.j.head := by
  intro i
  induction i with
  | zero => intro b s; rfl
  | succ i ih =>
    intro b s; unfold peekLoop; split
    · simp only; split <;> rfl
    · exact ih _ _

theorem peek_head (s : S) : (peek c s).2.j.head = s.j.head := by
  unfold peek; split
  · rfl
  · split
    · exact peekLoop_head 8 _ _
    · rfl

theorem dequeue_head (s : S) : (dequeue c s).j.head = s.j.head := by
  unfold dequeue; split
  · rfl
  · simp only; split <;> split <;> rfl

theorem rawGc_wear (hc : c.Valid) (p : Nat) {s : S} (h : Settled c e0 U s) : Wears c e0 U (rawGc c p s) := by
  unfold rawGc
  split
  · exact h.out
  · simp only
    split
    · exact h.out
    · split
      · exact h.out
      · exact h.out
      · split
        · exact h.out
        · exact journalCopy_wear hc _ _ (h.same (.of_n rfl rfl))

theorem padQueue_wear (hc : c.Valid) {s : S} (h : Settled c e0 U s) : Wears c e0 U (padQueue c s) := by
  unfold padQueue
  simp only
  have h1 : Settled c e0 U { s with j := ckSetCount s.j s.count } := h.same (.of_n rfl rfl)
  split
  · exact enqueue_wear hc none none h1
  · split
    · exact h1.out
    · exact journalCopy_wear hc _ _ h1

theorem tryRecoverLoop_wear (hc : c.Valid) : ∀ f r s, Settled c e0 U s → Wears c e0 U (tryRecoverLoop c f r s) := by
  intro f
  induction f with
  | zero => intro r s h; exact h.out
  | succ f ih =>
    intro r s h
    unfold tryRecoverLoop
    simp only
    split
    · exact h.out
    · have h1 : Settled c e0 U (nextRecoverable c s).2 := h.same (.of_n (nextRecoverable_head _) (nextRecoverable_n _))
      have h0 : Wears c e0 U (if (nextRecoverable c s).1 = NONE then padQueue c (nextRecoverable c s).2
          else rawGc c (nextRecoverable c s).1 (nextRecoverable c s).2) := by
        split
        · exact padQueue_wear hc h1
        · exact rawGc_wear hc _ h1
      split
      · next h => rw [h] at h0; exact ih _ _ h0.ok
      · next h =>
        rw [h] at h0
        split
        · exact h0
        · next he =>
          have he : _ = Err.recover := Classical.not_not.1 he
          subst he
          split
          · exact h0.recov.out
          · exact ih _ _ h0.recov

theorem tryRecover_wear (hc : c.Valid) {e : Err} {s : S}
    (h : Wears c e0 U ((.error e, s) : Except Err Unit × S)) : Wears c e0 U (tryRecover c e s) := by
  unfold tryRecover; split
  · exact h
  · next he =>
    have he : e = Err.recover := Classical.not_not.1 he
    subst he
    exact tryRecoverLoop_wear hc _ _ _ h.recov

theorem mapGcLoop_wear (hc : c.Valid) : ∀ f s, Settled c e0 U s → Wears c e0 U (mapGcLoop c f s) := by
  intro f
  induction f with
  | zero => intro s h; exact h.out
  | succ f ih =>
    intro s h
    unfold mapGcLoop
    simp only
    have h1 : Settled c e0 U (peek c s).2 := h.same (.of_n (peek_head _) (peek_n _))
    split
    · exact h1.out
    · have h0 := rawGc_wear hc (peek c s).1 h1
      split
      · next h => rw [h] at h0; exact (h0.ok.same (.of_n (dequeue_head _) (dequeue_n _))).out
      · next h =>
        rw [h] at h0
        have h2 := tryRecover_wear hc h0
        split
        · next h3 => rw [h3] at h2; exact h2
        · next h3 => rw [h3] at h2; exact ih _ h2.ok

theorem mapGc_wear (hc : c.Valid) {s : S} (h : Settled c e0 U s) : Wears c e0 U (mapGc c s) := by
  unfold mapGc; split
  · exact h.out
  · exact mapGcLoop_wear hc _ _ h

theorem gcTimes_wear (hc : c.Valid) : ∀ k s, Settled c e0 U s → Wears c e0 U (gcTimes c k s) := by
  intro k
  induction k with
  | zero => intro s h; exact h.out
  | succ k ih =>
    intro s h
    unfold gcTimes
    have h0 := mapGc_wear hc h
    split
    · next h3 => rw [h3] at h0; exact h0
    · next h3 => rw [h3] at h0; exact ih _ h0.ok

theorem autoGc_wear (hc : c.Valid) {s : S} (h : Settled c e0 U s) : Wears c e0 U (autoGc c s) := by
  unfold autoGc; split
  · exact h.out
  · exact gcTimes_wear hc _ _ h

theorem prepareWrite_wear (hc : c.Valid) (t : Nat) {s : S} (h : Settled c e0 U s) :
    Wears c e0 U (prepareWrite c t s) := by
  have h0 := autoGc_wear hc h
  unfold prepareWrite
  rcases hp : autoGc c s with ⟨e | ⟨⟩, s1⟩
  · rw [hp] at h0; exact h0.cast (.refl _)
  · rw [hp] at h0
    have h0 := h0.ok
    simp only
    split
    · split
      · exact h0.out
      · exact Settled.out (h0.same (.of_n rfl rfl))
    · exact h0.out
    · exact Settled.out (h0.same (.of_n rfl rfl))

theorem writeLoop_wear (hc : c.Valid) (t : Nat) (push : Buf → S → Except Err Unit × S)
    (hp : ∀ m s, Settled c e0 U s → Wears c e0 U (push m s)) :
    ∀ f s, Settled c e0 U s → Wears c e0 U (writeLoop c t push f s) := by
  intro f
  induction f with
  | zero => intro s h; exact h.out
  | succ f ih =>
    intro s h
    unfold writeLoop
    have h0 := prepareWrite_wear hc t h
    rcases hp1 : prepareWrite c t s with ⟨e | m, s1⟩
    · rw [hp1] at h0; exact h0.cast (.refl _)
    · rw [hp1] at h0
      have h1 := hp m s1 h0.ok
      simp only
      rcases hp2 : push m s1 with ⟨e | ⟨⟩, s2⟩
      · rw [hp2] at h1
        simp only
        have h2 := tryRecover_wear hc (Wears.cast (β := Unit) (s' := { s2 with count := s.count }) h1 (.of_n rfl rfl))
        rcases hp3 : tryRecover c e { s2 with count := s.count } with ⟨e' | ⟨⟩, s3⟩
        · rw [hp3] at h2; exact h2
        · rw [hp3] at h2; exact ih _ h2.ok
      · rw [hp2] at h1; exact h1

theorem tryDelete_wear (hc : c.Valid) (t : Nat) {s : S} (h : Settled c e0 U s) : Wears c e0 U (tryDelete c t s) := by
  unfold tryDelete
  split
  · exact h.out
  · exact h.out
  · split
    · exact Settled.out (h.same (.of_n rfl rfl))
    · simp only
      split
      · exact h.out
      · have h1 : Settled c e0 U { s with j := ckSetCount s.j (sub32 s.count 1) } := h.same (.of_n rfl rfl)
        split
        · next h2 =>
          exact (journalCopy_wear hc _ _ h1).of_eq h2
        · next h2 =>
          exact Settled.out (((journalCopy_wear hc _ _ h1).of_eq h2).ok.same (.of_n rfl rfl))

theorem mapTrimLoop_wear (hc : c.Valid) (t : Nat) : ∀ f s, Settled c e0 U s → Wears c e0 U (mapTrimLoop c t f s) := by
  intro f
  induction f with
  | zero => intro s h; exact h.out
  | succ f ih =>
    intro s h
    unfold mapTrimLoop
    have h0 := autoGc_wear hc h
    split
    · next h3 => rw [h3] at h0; exact h0
    · next h3 =>
      rw [h3] at h0
      have h1 := tryDelete_wear hc t h0.ok
      split
      · next h4 => rw [h4] at h1; exact h1
      · next h4 =>
        rw [h4] at h1
        have h2 := tryRecover_wear hc h1
        split
        · next h5 => rw [h5] at h2; exact h2
        · next h5 => rw [h5] at h2; exact ih _ h2.ok

theorem mapSyncLoop_wear (hc : c.Valid) : ∀ f s, Settled c e0 U s → Wears c e0 U (mapSyncLoop c f s) := by
  intro f
  induction f with
  | zero => intro s h; exact h.out
  | succ f ih =>
    intro s h
    unfold mapSyncLoop
    simp only
    split
    · exact h.out
    · have h1 : Settled c e0 U (peek c s).2 := h.same (.of_n (peek_head _) (peek_n _))
      have fin : ∀ (e : Err) (s1 : S), Wears c e0 U ((.error e, s1) : Except Err Unit × S) →
          Wears c e0 U (match tryRecover c e s1 with
            | (.error e, s) => ((.error e, s) : Except Err Unit × S)
            | (.ok (), s) => mapSyncLoop c f s) := by
        intro e s1 h1
        have h2 := tryRecover_wear hc h1
        split
        · next h5 => rw [h5] at h2; exact h2
        · next h5 => rw [h5] at h2; exact ih _ h2.ok
      by_cases hn : (peek c s).1 = NONE
      · rw [if_pos hn]
        have h0 := padQueue_wear hc h1
        rcases hq : padQueue c (peek c s).2 with ⟨e | ⟨⟩, s1⟩
        · rw [hq] at h0; exact fin e s1 h0
        · rw [hq] at h0; exact ih _ h0.ok
      · rw [if_neg hn]
        have h0 := rawGc_wear hc (peek c s).1 h1
        rcases hq : rawGc c (peek c s).1 (peek c s).2 with ⟨e | ⟨⟩, s1⟩
        · rw [hq] at h0; simp only; exact fin e s1 h0
        · rw [hq] at h0; simp only
          exact ih _ (h0.ok.same (.of_n (dequeue_head _) (dequeue_n _)))

theorem mapCopySector_wear (hc : c.Valid) (a b : Nat) {s : S} (h : Settled c e0 U s) :
    Wears c e0 U (mapCopySector c a b s) := by
  unfold mapCopySector
  split
  · exact mapTrimLoop_wear hc _ _ _ h
  · exact h.out
  · exact writeLoop_wear hc _ _ (fun m s h => journalCopy_wear hc _ m h) _ _ h

theorem call_wear (hc : c.Valid) (op : Op) {s : S} (h : Settled c e0 U s) : Wears c e0 U (call c op s) := by
  cases op with
  | write d b => exact writeLoop_wear hc _ _ (fun m s h => enqueue_wear hc _ _ h) _ _ h
  | copyPage a b => exact writeLoop_wear hc _ _ (fun m s h => journalCopy_wear hc _ m h) _ _ h
  | copySector a b => exact mapCopySector_wear hc _ _ h
  | trim t => exact mapTrimLoop_wear hc _ _ _ h
  | clear =>
    show Wears c e0 U (.ok (), mapClear c s)
    refine Settled.out (h.same ?_)
    unfold mapClear; split <;> exact .of_n rfl rfl
  | sync => exact mapSyncLoop_wear hc _ _ h
  | gc => exact mapGc_wear hc h

theorem step_wear (hc : c.Valid) (op : Op) {s : S} (h : Settled c e0 U s) : Wears c e0 U (step c op s) :=
  call_wear hc op (h.same ⟨rfl, rfl, fun _ h => h⟩)

/-- Starting point. -/
theorem Settled.start {s : S} {v : Nat} (hh : s.j.head = c.ph v) (hu : c.isU v) :
    Settled c s.n.erases ((v + (c.ppb - 1)) / c.ppb) s := by
  have hp := ppb_pos c
  refine ⟨0, v, hh, hu, ?_, ?_, ?_⟩
  · intro k hk; rw [visits_zero (by omega)]; exact ⟨Nat.le_refl _, fun _ => rfl⟩
  · have h1 := div_mod_range (v + (c.ppb - 1)) c.ppb
    have h2 := mod_ppb_lt c (v + (c.ppb - 1))
    rw [Nat.add_zero]; omega
  · have h1 := Nat.div_mul_le_self (v + (c.ppb - 1)) c.ppb
    rw [Nat.add_zero]; omega

theorem Loose.level {s : S} (h : Loose c e0 U s) {a b : Nat} (ha : a < c.numBlocks) (hb : b < c.numBlocks)
    (hg : s.n.chip.bad b = false) : s.n.erases a - e0 a ≤ s.n.erases b - e0 b + 1 := by
  obtain ⟨m, h⟩ := h
  have h1 := (h a ha).1
  have h2 := (h b hb).2 hg
  have := visits_near (N := c.numBlocks) (U := U) (m := m) (k := a) (k' := b) (by omega)
  omega

end Dhara

/-
Counting user pages and live pages of the queue: the arithmetic behind automatic collection
(dhara/map.c:100-111, 308-320).
-/
import Verif.Proofs.Geom
import Mathlib.Data.Finset.Card
import Mathlib.Order.Interval.Finset.Nat
namespace Dhara

variable {c : Cfg}

/-- Number of user positions below `v`. -/
def Cfg.u (c : Cfg) (v : Nat) : Nat := v - v / c.ppc

theorem u_succ (c : Cfg) (v : Nat) : c.u (v + 1) = if v % c.ppc = c.ppc - 1 then c.u v else c.u v + 1 := by
  have hp := ppc_pos c
  have hl := mod_ppc_lt c v
  have hd := Nat.div_le_self v c.ppc
  unfold Cfg.u
  split
  · rename_i h
    have := (div_add_eq (v := v) (k := 1) (m := c.ppc) (by omega) hp).1
    rw [this]; omega
  · rename_i h
    have := (div_add_lt (v := v) (k := 1) (m := c.ppc) (by omega)).1
    rw [this]; omega

theorem u_le_succ (c : Cfg) (v : Nat) : c.u v ≤ c.u (v + 1) := by
  rw [u_succ]; split <;> omega

theorem u_mono (c : Cfg) {v w : Nat} (h : v ≤ w) : c.u v ≤ c.u w := by
  induction h with
  | refl => exact Nat.le_refl _
  | step _ ih => exact Nat.le_trans ih (u_le_succ c _)

theorem u_add_le (c : Cfg) (v k : Nat) : c.u (v + k) ≤ c.u v + k := by
  induction k with
  | zero => exact Nat.le_refl _
  | succ k ih =>
    have := u_succ c (v + k)
    rw [show v + (k + 1) = v + k + 1 by omega, this]
    split <;> omega

theorem u_succ_user {v : Nat} (hu : c.isU v) : c.u (v + 1) = c.u v + 1 := by
  rw [u_succ, if_neg hu]

theorem u_nextV (hc : c.Valid) {v : Nat} (hu : c.isU v) : c.u (c.nextV v) = c.u v + 1 := by
  rcases nextV_cases hc hu with ⟨a, b, d⟩ | ⟨a, b, d⟩
  · rw [b, u_succ_user hu]
  · have h1 := (div_add_lt (v := v) (k := 1) (m := c.ppc) (by omega)).2
    rw [b, u_succ, if_pos (by omega), u_succ_user hu]

theorem u_lt (hc : c.Valid) {v w : Nat} (hu : c.isU v) (h : v < w) : c.u v + 1 ≤ c.u w := by
  rw [← u_succ_user hu]; exact u_mono c h

theorem u_mul (hc : c.Valid) (b : Nat) : c.u (b * c.ppb) = b * (c.ppb - c.ppb / c.ppc) := by
  obtain ⟨g, hg⟩ := hc.ppc_dvd
  have hp := ppc_pos c
  have e : b * c.ppb / c.ppc = b * g := by
    rw [hg, show b * (c.ppc * g) = c.ppc * (b * g) by rw [Nat.mul_left_comm]]
    exact Nat.mul_div_cancel_left _ hp
  have e2 : c.ppb / c.ppc = g := by rw [hg]; exact Nat.mul_div_cancel_left _ hp
  unfold Cfg.u
  rw [e, e2, Nat.mul_sub]

open Classical in
/-- How many positions in `[a, b)` satisfy `D`. -/
noncomputable def live (D : Nat → Prop) (a b : Nat) : Nat := ((Finset.Ico a b).filter D).card

theorem live_mono {D D' : Nat → Prop} {a a' b b' : Nat} (ha : a' ≤ a) (hb : b ≤ b')
    (h : ∀ v, a ≤ v → v < b → D v → D' v) : live D a b ≤ live D' a' b' := by
  classical
  unfold live
  apply Finset.card_le_card
  intro v hv
  simp only [Finset.mem_filter, Finset.mem_Ico] at hv ⊢
  exact ⟨⟨by omega, by omega⟩, h v hv.1.1 hv.1.2 hv.2⟩

theorem live_front {D D' : Nat → Prop} {a a' b : Nat} (ha : a < a') (hab : a' ≤ b) (h0 : D a)
    (h : ∀ v, a' ≤ v → v < b → D' v → D v) : live D' a' b + 1 ≤ live D a b := by
  classical
  unfold live
  have : a ∉ (Finset.Ico a' b).filter D' := by simp; omega
  rw [← Finset.card_insert_of_notMem this]
  apply Finset.card_le_card
  intro v hv
  simp only [Finset.mem_insert, Finset.mem_filter, Finset.mem_Ico] at hv ⊢
  rcases hv with hv | hv
  · subst hv; exact ⟨⟨by omega, by omega⟩, h0⟩
  · exact ⟨⟨by omega, by omega⟩, h v hv.1.1 hv.1.2 hv.2⟩

theorem live_le_u {D : Nat → Prop} {a b : Nat} (h : ∀ v, a ≤ v → v < b → D v → c.isU v) : live D a b ≤ c.u b - c.u a := by
  classical
  by_cases hab : a ≤ b
  · obtain ⟨n, rfl⟩ := Nat.exists_eq_add_of_le hab
    induction n with
    | zero => unfold live; simp
    | succ n ih =>
      have ih := ih (fun v h1 h2 => h v h1 (by omega)) (by omega)
      have hs : live D a (a + (n + 1)) ≤ live D a (a + n) + (if c.isU (a + n) then 1 else 0) := by
        unfold live
        have e : Finset.Ico a (a + (n + 1)) = insert (a + n) (Finset.Ico a (a + n)) := by
          ext v; simp only [Finset.mem_Ico, Finset.mem_insert]; omega
        rw [e, Finset.filter_insert]
        split
        · rename_i hD
          rw [if_pos (h _ (by omega) (by omega) hD)]
          exact Finset.card_insert_le _ _
        · omega
      have hu := u_succ c (a + n)
      have hm := u_mono c (show a ≤ a + n by omega)
      rw [show a + (n + 1) = a + n + 1 by omega] at hs ⊢
      by_cases hU : c.isU (a + n)
      · rw [if_pos hU] at hs
        rw [if_neg hU] at hu
        omega
      · rw [if_neg hU] at hs
        have hx := u_le_succ c (a + n)
        omega
  · unfold live
    rw [Finset.Ico_eq_empty (by omega)]; simp

/-- The balance of automatic collection, with `j` steps in hand: wherever the tail gets to (`m`),
the queue would not be too long. `k` collection steps are made for each page added. -/
def Bal (c : Cfg) (D : Nat → Prop) (k Z vt vh j : Nat) : Prop :=
  ∀ m, vt ≤ m → m ≤ vh → k * ((c.u vh - c.u m) + live D vt m) + (c.u m - c.u vt) + j ≤ Z

variable {D D' : Nat → Prop} {k Z vt vh j : Nat}

theorem Bal.drop {j' : Nat} (h : Bal c D k Z vt vh j) (hj : j' ≤ j) : Bal c D k Z vt vh j' :=
  fun m h1 h2 => by have := h m h1 h2; omega

theorem Bal.sub (h : Bal c D k Z vt vh j) (hD : ∀ v, vt ≤ v → v < vh → D' v → D v) : Bal c D' k Z vt vh j := by
  intro m h1 h2
  have h3 : live D' vt m ≤ live D vt m := live_mono (Nat.le_refl _) (Nat.le_refl _) (fun v a b => hD v a (by omega))
  have h4 := Nat.mul_le_mul_left k (Nat.add_le_add_left h3 (c.u vh - c.u m))
  have := h m h1 h2
  omega

theorem Bal.q (h : Bal c D k Z vt vh j) (hle : vt ≤ vh) : k * (c.u vh - c.u vt) + j ≤ Z := by
  have := h vt (Nat.le_refl _) hle
  have e : live D vt vt = 0 := by unfold live; simp
  rw [e, Nat.add_zero] at this
  omega

/-- Dropping a page at the tail that is not live earns a step. -/
theorem Bal.garbage (hc : c.Valid) (h : Bal c D k Z vt vh j) (hu : c.isU vt)
    (hD : ∀ v, vt ≤ v → v < vh → D' v → D v) : Bal c D' k Z (c.nextV vt) vh (j + 1) := by
  intro m h1 h2
  have hl := lt_nextV c vt
  have e := u_nextV hc hu
  have e2 := u_mono c h1
  have h3 : live D' (c.nextV vt) m ≤ live D vt m := live_mono (by omega) (Nat.le_refl _) (fun v a b => hD v (by omega) (by omega))
  have h4 := Nat.mul_le_mul_left k (Nat.add_le_add_left h3 (c.u vh - c.u m))
  have := h m (by omega) h2
  omega

theorem u_past (hc : c.Valid) {v m : Nat} (hu : c.isU v) (h1 : v < m) (h2 : m ≤ c.nextV v) : c.u m = c.u (c.nextV v) := by
  have a := u_mono c h2
  have b := u_lt hc hu h1
  have d := u_nextV hc hu
  omega

/-- Moving a live page from the tail to the head also earns a step. -/
theorem Bal.move (hc : c.Valid) {M : Nat} (h : Bal c D k Z vt vh j) (hut : c.isU vt) (huh : c.isU vh) (hlt : vt < vh) (h0 : D vt)
    (hD : ∀ v, c.nextV vt ≤ v → v < vh → D' v → D v) (hM : live D' (c.nextV vt) (c.nextV vh) ≤ M)
    (hZ : k * M + (c.u vh - c.u vt) + (j + 1) ≤ Z) : Bal c D' k Z (c.nextV vt) (c.nextV vh) (j + 1) := by
  intro m h1 h2
  have hl := lt_nextV c vt
  have e := u_nextV hc hut
  have e' := u_nextV hc huh
  have e2 := u_mono c h1
  have e3 := u_mono c (Nat.le_of_lt hlt)
  by_cases hm : m ≤ vh
  · have h3 : live D' (c.nextV vt) m + 1 ≤ live D vt m := live_front hl h1 h0 (fun v a b => hD v a (by omega))
    have e4 := u_mono c hm
    have h4 : k * (c.u (c.nextV vh) - c.u m + live D' (c.nextV vt) m) ≤ k * (c.u vh - c.u m + live D vt m) :=
      Nat.mul_le_mul_left k (by omega)
    have := h m (by omega) hm
    omega
  · have e5 := u_past hc huh (by omega) h2
    have h3 : live D' (c.nextV vt) m ≤ M := Nat.le_trans (live_mono (Nat.le_refl _) h2 (fun _ _ _ h => h)) hM
    have h4 : k * (c.u (c.nextV vh) - c.u m + live D' (c.nextV vt) m) ≤ k * M := Nat.mul_le_mul_left k (by omega)
    omega

/-- Adding a page costs `k` steps. -/
theorem Bal.push (hc : c.Valid) {M : Nat} (h : Bal c D k Z vt vh (j + k)) (huh : c.isU vh) (hle : vt ≤ vh)
    (hD : ∀ v, vt ≤ v → v < vh → D' v → D v) (hM : live D' vt (c.nextV vh) ≤ M)
    (hZ : k * M + (c.u vh - c.u vt + 1) + j ≤ Z) : Bal c D' k Z vt (c.nextV vh) j := by
  intro m h1 h2
  have e' := u_nextV hc huh
  have e2 := u_mono c h1
  have e3 := u_mono c hle
  by_cases hm : m ≤ vh
  · have h3 : live D' vt m ≤ live D vt m := live_mono (Nat.le_refl _) (Nat.le_refl _) (fun v a b => hD v a (by omega))
    have e4 := u_mono c hm
    have h4 : k * (c.u (c.nextV vh) - c.u m + live D' vt m) ≤ k * (c.u vh - c.u m + live D vt m + 1) :=
      Nat.mul_le_mul_left k (by omega)
    rw [Nat.mul_add k _ 1, Nat.mul_one] at h4
    have := h m (by omega) hm
    omega
  · have e5 := u_past hc huh (by omega) h2
    have h3 : live D' vt m ≤ M := Nat.le_trans (live_mono (Nat.le_refl _) h2 (fun _ _ _ h => h)) hM
    have h4 : k * (c.u (c.nextV vh) - c.u m + live D' vt m) ≤ k * M := Nat.mul_le_mul_left k (by omega)
    omega

/-- A short queue is balanced. -/
theorem Bal.short (hU : ∀ v, vt ≤ v → v < vh → D v → c.isU v)
    (hZ : k * (c.u vh - c.u vt) + (c.u vh - c.u vt) ≤ Z) : Bal c D k Z vt vh 0 := by
  intro m h1 h2
  have h3 := live_le_u (c := c) (D := D) (a := vt) (b := m) (fun v a b => hU v a (by omega))
  have e1 := u_mono c h1
  have e2 := u_mono c h2
  have h4 : k * (c.u vh - c.u m + live D vt m) ≤ k * (c.u vh - c.u vt) := Nat.mul_le_mul_left k (by omega)
  omega

end Dhara

/-
C46: reads stay on the chip. C22: every call terminates.

`nandRead` (Model/Nand.lean) answers `ub` exactly when the page or the byte range is off the chip, and no
function of the model swallows that error; loops of the code are modelled with `c.fuel` iterations and
answer `diverge` when those are used up.
-/
import Verif.Props.Violations
import Verif.Props.Live
import Verif.Props.Map
import Verif.Proofs.Time
import Verif.Proofs.Fuel
namespace Dhara

variable {c : Cfg}

/-- The failing state of C41: a recovery is going on although no page was ever the root. -/
def RootlessRecovery (s : S) : Prop := s.j.recovery = true ∧ s.j.recoverRoot = NONE

/-- The call hands dhara_nand_copy a page of its caller's choice only if that page exists. -/
def Op.OnChip (c : Cfg) : Op → Prop
  | .copyPage src _ => src < c.pages
  | _ => True

/-- The hook: `k0` sectors at the start. -/
def Gh.total (c : Cfg) (t k0 : Nat) (ub dv : Bool) : Gh c :=
  ⟨t, fun σ k n => n.ub = false → Cnt σ k ∧ k0 ≤ k + 1, fun _ _ _ _ _ => True, fun _ _ _ _ _ _ => True, fun _ => True,
   fun _ e s => (e = .ub → ub = true) ∧ (e = .diverge → dv = true) ∨ (s.j.recovery = true ∧ s.j.recoverRoot = NONE ∧ k0 ≤ 1)⟩

theorem Gh.total_ok {t k0 : Nat} {ub dv : Bool} (hd : dv = true ∨ fuelBound c ≤ c.fuel) : (Gh.total c t k0 ub dv).Ok where
  upow := Or.inl ⟨(fun h => by cases h), (fun h => by cases h)⟩
  usoft := fun _ _ _ h1 h2 => Or.inl ⟨fun h => absurd h h1, fun h => absurd h h2⟩
  unoisy := fun _ _ h1 h2 => Or.inl ⟨fun h => absurd h h1, fun h => absurd h h2⟩
  uhard := fun _ _ h1 h2 => Or.inl ⟨fun h => absurd h h1, fun h => absurd h h2⟩
  ucong := fun h _ h2 => by rcases h with h | h; exact Or.inl h; exact Or.inr (by rw [h2]; exact h)
  soft := fun _ _ _ _ => trivial
  ustuck := fun h1 h2 hW hub hz _ _ => by
    obtain ⟨h3, h4⟩ := hW hub
    have := h3.unique (Cnt.zero hz)
    exact Or.inr ⟨h1, h2, by omega⟩
  udiv := by
    rcases hd with h | h
    · exact Or.inl fun _ _ => Or.inl ⟨(fun h => by cases h), fun _ => h⟩
    · exact Or.inr h
  wmono := fun h hE hub => h (by
    cases hb : (_ : Nand).ub with
    | false => rfl
    | true => rw [hE.ub hb] at hub; cases hub)
  cong0 := fun _ _ _ _ _ => trivial
  cong1 := fun _ _ _ => trivial
  tick := fun _ => trivial
  congX := fun _ _ _ => trivial
  push0 := fun _ _ _ _ _ _ _ => trivial
  erase := fun _ _ _ _ _ => trivial
  page := fun _ _ _ _ _ _ _ _ _ => trivial
  twin := fun _ _ _ _ _ _ _ _ _ _ => trivial
  noisy := fun _ _ _ _ _ => trivial
  skip := fun _ _ _ _ _ _ => trivial
  start := fun _ _ _ _ _ _ => trivial
  rok := fun _ _ _ _ _ => trivial
  done := fun _ _ _ _ _ _ _ _ => trivial
  again := fun _ _ _ _ => trivial
  crash1 := fun _ _ _ _ => trivial
  tail := fun _ _ _ _ _ _ _ _ _ => trivial
  clear := fun _ _ _ _ => trivial

/-- No call but clear removes more than one sector. -/
theorem effect_count {s s' : S} {σ σ' : Nat → Option Buf} {op : Op} (hv : op.Valid) (hcl : op ≠ .clear)
    (h : Effect c s s' σ σ' op) {k k' : Nat} (hk : Cnt σ k) (hk' : Cnt σ' k') : k ≤ k' + 1 := by
  have put : ∀ t b, t < NONE → σ' = upd σ t (some b) → k ≤ k' + 1 := by
    intro t b ht he
    subst he
    cases hσ : σ t with
    | none => have := (hk.insert_new (b := b) ht hσ).unique hk'; omega
    | some b' => have := (hk.insert_old (b := b) hσ).unique hk'; omega
  have del : ∀ t, t < NONE → σ' = upd σ t none → k ≤ k' + 1 := by
    intro t ht he
    subst he
    cases hσ : σ t with
    | none => have := (hk.erase_none hσ).unique hk'; omega
    | some b' => have := (hk.erase ht hσ).1.unique hk'; omega
  cases op with
  | write dst data => exact put _ _ hv h
  | copyPage src dst => obtain ⟨b, h1, _⟩ := h; exact put _ _ hv h1
  | copySector src dst =>
    cases hσ : σ src with
    | none => exact del _ hv.2 (h.1 hσ)
    | some b => obtain ⟨b', h1, _⟩ := h.2 b hσ; exact put _ _ hv.2 h1
  | trim t => exact del _ hv h
  | clear => exact absurd rfl hcl
  | sync => have h : σ' = σ := h; subst h; have := hk.unique hk'; omega
  | gc => have h : σ' = σ := h; subst h; have := hk.unique hk'; omega

theorem clear_ok (s : S) : (step c .clear s).1 = .ok () := rfl

/-- The error of a failed call is as the hook says. -/
theorem total_core (hc : c.Valid) {s s' : S} {σ : Nat → Option Buf} (h : MInv c s σ (Gh.triv c s'.n.time)) {op : Op} (hv : op.Valid) {e : Err}
    (hs : step c op s = (.error e, s')) {ub dv : Bool} (hsrc : op.OnChip c ∨ ub = true) (hd : dv = true ∨ fuelBound c ≤ c.fuel)
    (hne : e ≠ .mapFull) :
    (e = .ub → ub = true) ∧ (e = .diverge → dv = true) ∨ (RootlessRecovery s' ∧ s.count ≤ 1) := by
  have hG : (Gh.total c s'.n.time s.count ub dv).Ok := Gh.total_ok hd
  have hcl : op ≠ .clear := by
    intro he; subst he
    have := clear_ok (c := c) s; rw [hs] at this; cases this
  have hM : MInv c (tick s) σ (Gh.total c s'.n.time s.count ub dv) :=
    MInv.tick hG (h.congr_T (Nat.le_refl _) fun _ _ _ _ _ => trivial)
  have hlt := h.cnt.lt
  have key := call_inv hc hG op hM hv
    (fun _ => by rw [show (tick s).count = s.count from rfl, Nat.mod_eq_of_lt hlt]; exact ⟨h.cnt, by omega⟩)
    (fun _ s1 σ1 k _ hef hk hub => by
      rw [Nat.mod_eq_of_lt hk.lt]
      exact ⟨hk, effect_count hv hcl (hef hub) h.cnt hk⟩)
    (fun src dst he => by
      rcases hsrc with hs | hs
      · subst he; exact Or.inl hs
      · subst hs; exact Or.inr fun _ _ => Or.inl ⟨fun _ => rfl, (fun h => by cases h)⟩)
    (by rw [show call c op (tick s) = step c op s from rfl, hs]; exact Nat.le_refl _)
  rw [show call c op (tick s) = step c op s from rfl, hs] at key
  cases key with
  | full => exact absurd rfl hne
  | stop _ _ _ _ _ hu =>
    rcases hu with hu | ⟨h1, h2, h3⟩
    · exact Or.inl hu
    · exact Or.inr ⟨⟨h1, h2⟩, h3⟩

/-- The invariant of a history with power failures. -/
theorem PRun.minv (hc : c.Valid) (hJ : NoForgery c) {s : S} (h : PRun c s) {t : Nat} (hx : ¬ Exposed c s ∨ ProgsOk c s.n.time t) :
    ∃ σ, MInv c s σ (Gh.triv c t) := by
  obtain ⟨evs, d, hl⟩ := run_has_log hc hJ s h
  obtain ⟨⟨⟨vts, vt, vh, vr, g, hcalm, hT, hD, hR⟩, hcnt⟩, hd⟩ := hl.inv hc hJ
  refine ⟨_, ⟨_, _, _, _, ⟨g, hcalm, hT, ?_, trivial⟩⟩, hcnt⟩
  rcases hx with hx | hx
  · exact Or.inl (not_exposed hc g hT hx)
  · exact Or.inr hx

/-- C46: after any history, a call (which succeeds, is refused or fails) reads only bytes that exist. The exception is
the defect of C41: a recovery without a root, which can begin only if at most one sector was in use. -/
theorem reads_on_chip (hc : c.Valid) (s s' : S) (h : Hist c s) (op : Op) (hv : op.Valid) (ho : op.OnChip c)
    (hs : step c op s = (.error .ub, s')) : RootlessRecovery s' ∧ s.count ≤ 1 := by
  obtain ⟨evs, _, hrep⟩ := h.rep hc
  rcases total_core hc (hrep _) hv hs (ub := false) (dv := true) (Or.inl ho) (Or.inl rfl) (by decide) with ⟨h1, _⟩ | h1
  · cases h1 rfl
  · exact h1

/-- C46 with power failures in the history. -/
theorem reads_on_chip_run (hc : c.Valid) (hJ : NoForgery c) (s s' : S) (h : PRun c s) (op : Op) (hv : op.Valid) (ho : op.OnChip c)
    (hx : ¬ Exposed c s ∨ ProgsOk c s.n.time s'.n.time) (hs : step c op s = (.error .ub, s')) : RootlessRecovery s' ∧ s.count ≤ 1 := by
  obtain ⟨σ, hM⟩ := h.minv hc hJ hx
  rcases total_core hc hM hv hs (ub := false) (dv := true) (Or.inl ho) (Or.inl rfl) (by decide) with ⟨h1, _⟩ | h1
  · cases h1 rfl
  · exact h1

/-- C46 for `dhara_map_find` and `dhara_map_read`. -/
theorem find_read_on_chip (hc : c.Valid) (s : S) (h : Hist c s) (t : Nat) (ht : t < NONE) :
    mapFind c s t ≠ .error .ub ∧ mapRead c s t ≠ .error .ub := by
  obtain ⟨evs, _, hrep⟩ := h.rep hc
  constructor
  · rcases mapFind_exact hc (hrep 0).calm ht with ⟨q, b, h1, _⟩ | ⟨h1, _⟩ | ⟨h1, _⟩ <;> rw [h1] <;> exact fun h => by cases h
  · rcases mapRead_exact hc (hrep 0).calm ht with h1 | ⟨h1, _⟩ <;> rw [h1] <;> exact fun h => by cases h

/-- C46 for find and read with power failures in the history. -/
theorem find_read_on_chip_run (hc : c.Valid) (hJ : NoForgery c) (s : S) (h : PRun c s) (t : Nat) (ht : t < NONE) :
    mapFind c s t ≠ .error .ub ∧ mapRead c s t ≠ .error .ub := by
  obtain ⟨evs, d, hl⟩ := run_has_log hc hJ s h
  have hcal := (hl.inv hc hJ).1.calm
  constructor
  · rcases mapFind_exact hc hcal ht with ⟨q, b, h1, _⟩ | ⟨h1, _⟩ | ⟨h1, _⟩ <;> rw [h1] <;> exact fun h => by cases h
  · rcases mapRead_exact hc hcal ht with h1 | ⟨h1, _⟩ <;> rw [h1] <;> exact fun h => by cases h

/-- C46 with at least two sectors in use: no exception. -/
theorem reads_on_chip_in_use (hc : c.Valid) (s : S) (h : Hist c s) (op : Op) (hv : op.Valid) (ho : op.OnChip c)
    (h2 : 2 ≤ mapSize s) : (step c op s).1 ≠ .error .ub := by
  intro he
  have := (reads_on_chip hc s _ h op hv ho (Viol.pair_eq he)).2
  have h2 : 2 ≤ s.count := h2
  omega

/-- C22: after any history, for every failure schedule, no loop of any call runs for more than `fuelBound c` rounds (the
model answers `diverge` when a loop does not end within `c.fuel` rounds). The exception is the defect of C41. -/
theorem calls_terminate (hc : c.Valid) (hf : fuelBound c ≤ c.fuel) (s s' : S) (h : Hist c s) (op : Op) (hv : op.Valid)
    (hs : step c op s = (.error .diverge, s')) : RootlessRecovery s' ∧ s.count ≤ 1 := by
  obtain ⟨evs, _, hrep⟩ := h.rep hc
  rcases total_core hc (hrep _) hv hs (ub := true) (dv := false) (Or.inr rfl) (Or.inr hf) (by decide) with ⟨_, h1⟩ | h1
  · cases h1 rfl
  · exact h1

/-- C22 with power failures in the history. -/
theorem calls_terminate_run (hc : c.Valid) (hJ : NoForgery c) (hf : fuelBound c ≤ c.fuel) (s s' : S) (h : PRun c s) (op : Op)
    (hv : op.Valid) (hx : ¬ Exposed c s ∨ ProgsOk c s.n.time s'.n.time) (hs : step c op s = (.error .diverge, s')) :
    RootlessRecovery s' ∧ s.count ≤ 1 := by
  obtain ⟨σ, hM⟩ := h.minv hc hJ hx
  rcases total_core hc hM hv hs (ub := true) (dv := false) (Or.inr rfl) (Or.inr hf) (by decide) with ⟨_, h1⟩ | h1
  · cases h1 rfl
  · exact h1

/-- C22 with at least two sectors in use: no exception. -/
theorem calls_terminate_in_use (hc : c.Valid) (hf : fuelBound c ≤ c.fuel) (s : S) (h : Hist c s) (op : Op) (hv : op.Valid)
    (h2 : 2 ≤ mapSize s) : (step c op s).1 ≠ .error .diverge := by
  intro he
  have := (calls_terminate hc hf s _ h op hv (Viol.pair_eq he)).2
  have h2 : 2 ≤ s.count := h2
  omega

/-- C22: the number of rounds granted to the loops is immaterial. A call that ends ends in the same way when more are granted,
so the bound `fuelBound c` holds for the loops of the code, which are not limited at all. -/
theorem fuel_immaterial (hc : c.Valid) (hf : fuelBound c ≤ c.fuel) (s : S) (h : Hist c s) (op : Op) (hv : op.Valid)
    (h2 : 2 ≤ mapSize s) (f : Nat) (hle : c.fuel ≤ f) : step (c.fu f) op s = step c op s :=
  step_fu (calls_terminate_in_use hc hf s h op hv h2) hle

/-- Rounds of a loop times operations per round. -/
def opBound (c : Cfg) : Nat :=
  fuelBound c * ((c.gcr + 1) * (fuelBound c * (152 + 152 * fuelBound c)) + (152 + 152 * fuelBound c))

/-- C22: no call performs more than `opBound c` program and erase operations, a number that depends on the geometry and on the
collection ratio alone, however many rounds `f` its loops are granted; the model's clock counts these operations (and one for the
start of the call). -/
theorem operations_bounded (hc : c.Valid) (hf : c.fuel = fuelBound c) (s : S) (h : Hist c s) (op : Op) (hv : op.Valid)
    (h2 : 2 ≤ mapSize s) (f : Nat) (hle : fuelBound c ≤ f) :
    (step (c.fu f) op s).2.n.time ≤ s.n.time + 1 + opBound c := by
  rw [fuel_immaterial hc (Nat.le_of_eq hf.symm) s h op hv h2 f (by omega)]
  have h3 := call_tm (c := c) op (tick s)
  unfold Tm Cfg.t2 Cfg.t1 at h3
  rw [hf] at h3
  exact h3

/-! ### Power-up -/

theorem findCheckblock_ge {n : Nand} : ∀ i blk {b : Nat} {buf : Buf}, findCheckblock c n i blk = some (b, buf) → blk ≤ b := by
  intro i
  induction i with
  | zero => intro blk b buf h; cases h
  | succ i ih =>
    intro blk b buf h
    unfold findCheckblock at h
    simp only at h
    split at h
    · split at h
      · have := ih _ h; omega
      · split at h
        · have := ih _ h; omega
        · split at h
          · cases h; exact Nat.le_refl _
          · have := ih _ h; omega
    · cases h

theorem findLastCheckblockLoop_ends {n : Nand} {ep : UInt8} {first : Nat} : ∀ f lo hi, hi + 1 - lo < f →
    findLastCheckblockLoop c n ep first f lo hi ≠ .error .diverge := by
  intro f
  induction f with
  | zero => intro lo hi h; omega
  | succ f ih =>
    intro lo hi h
    unfold findLastCheckblockLoop
    simp only
    have hmid : (lo + hi) >>> 1 = (lo + hi) / 2 := Nat.shiftRight_eq_div_pow _ 1
    split
    · split
      · rename_i found b hfc
        have := findCheckblock_ge _ _ hfc
        split
        · split
          · exact fun h => by cases h
          · exact ih _ _ (by omega)
        · split
          · exact fun h => by cases h
          · split
            · exact fun h => by cases h
            · rename_i nf b' hfc'
              have := findCheckblock_ge _ _ hfc'
              split
              · exact fun h => by cases h
              · exact ih _ _ (by omega)
      · split
        · exact fun h => by cases h
        · exact ih _ _ (by omega)
    · exact fun h => by cases h

theorem findLastGroupLoop_ends {n : Nand} {blk ng : Nat} : ∀ f lo hi, hi - lo < f →
    findLastGroupLoop c n blk ng f lo hi ≠ .error .diverge := by
  intro f
  induction f with
  | zero => intro lo hi h; omega
  | succ f ih =>
    intro lo hi h
    unfold findLastGroupLoop
    simp only
    have hmid : (lo + (hi - 1)) >>> 1 = (lo + (hi - 1)) / 2 := Nat.shiftRight_eq_div_pow _ 1
    split
    · split
      · exact ih _ _ (by omega)
      · split
        · exact fun h => by cases h
        · exact ih _ _ (by omega)
    · exact fun h => by cases h

theorem findHeadLoop_ends (hc : c.Valid) {n : Nand} : ∀ f (j : Journal), c.ppb - j.head % c.ppb < f →
    findHeadLoop c n f j ≠ .error .diverge := by
  intro f
  induction f with
  | zero => intro j h; omega
  | succ f ih =>
    intro j h
    unfold findHeadLoop
    simp only
    split
    · exact fun h => by cases h
    · rw [slot_eq]
      generalize hj1 : (if _ ≥ c.pages then _ else _ : Journal) = j1
      by_cases hal : isAligned j1.head c.log2Ppb = true
      · rw [if_pos hal]
        split <;> exact fun h => by cases h
      · rw [if_neg hal]
        have hal : ¬ j1.head % 2 ^ c.log2Ppb = 0 := fun hx => hal (isAligned_iff.2 hx)
        by_cases hge : j.head - j.head % c.ppc + c.ppc ≥ c.pages
        · rw [if_pos hge] at hj1
          subst hj1
          exact absurd (Nat.zero_mod _) hal
        · rw [if_neg hge] at hj1
          subst hj1
          refine ih _ ?_
          have hal : ¬ (j.head - j.head % c.ppc + c.ppc) % c.ppb = 0 := hal
          show c.ppb - (j.head - j.head % c.ppc + c.ppc) % c.ppb < f
          have h4 := hc.ppb_ge
          obtain ⟨g, hg⟩ := hc.ppc_dvd
          have hC := hc.ppc_ge
          have e1 := Nat.div_add_mod j.head c.ppc
          have e2 : j.head - j.head % c.ppc + c.ppc = c.ppc * (j.head / c.ppc + 1) := by
            rw [Nat.mul_add, Nat.mul_one]; omega
          have e3 : j.head % c.ppb = c.ppc * (j.head / c.ppc % g) + j.head % c.ppc := by
            rw [hg, Nat.mod_mul]; omega
          rw [e2] at hal ⊢
          rw [hg, Nat.mul_mod_mul_left] at hal ⊢
          rw [e3, hg] at h
          have e4 : (j.head / c.ppc + 1) % g ≠ 0 := fun hx => hal (by rw [hx]; rfl)
          have e5 : (j.head / c.ppc + 1) % g = j.head / c.ppc % g + 1 := by
            have hg1 : 0 < g := by
              rcases Nat.eq_zero_or_pos g with hx | hx
              · subst hx; omega
              · exact hx
            have hlt := Nat.mod_lt (j.head / c.ppc) hg1
            rcases Nat.lt_or_ge (j.head / c.ppc % g + 1) g with hx | hx
            · conv => lhs; rw [← Nat.div_add_mod (j.head / c.ppc) g]
              rw [Nat.add_assoc, Nat.mul_add_mod, Nat.mod_eq_of_lt hx]
            · exfalso; apply e4
              conv => lhs; rw [← Nat.div_add_mod (j.head / c.ppc) g]
              rw [Nat.add_assoc, Nat.mul_add_mod, show j.head / c.ppc % g + 1 = g by omega, Nat.mod_self]
          rw [e5, Nat.mul_add, Nat.mul_one]
          have := Nat.mod_lt j.head (show 0 < c.ppc by omega)
          have e6 : c.ppc * (j.head / c.ppc % g + 1) ≤ c.ppc * g := by
            refine Nat.mul_le_mul_left _ ?_
            have : 0 < g := by
              rcases Nat.eq_zero_or_pos g with hx | hx
              · subst hx; omega
              · exact hx
            exact Nat.mod_lt _ this
          rw [Nat.mul_add, Nat.mul_one] at e6
          omega

theorem findRootLoop_err {n : Nand} {ep : UInt8} {blk : Nat} : ∀ i {e : Err}, findRootLoop c n ep blk i = .error e → e = .tooBad := by
  intro i
  induction i with
  | zero => intro e h; cases h; rfl
  | succ i ih =>
    intro e h
    unfold findRootLoop at h
    simp only at h
    split at h
    · exact ih h
    · split at h
      · cases h
      · exact ih h

/-- C22 for `dhara_map_resume`: on every chip, whatever its pages hold, it ends and reports success or E_TOO_BAD. -/
theorem resume_terminates (hc : c.Valid) (s : S) :
    (mapResume c s).1 = .ok () ∨ (mapResume c s).1 = .error .tooBad := by
  unfold mapResume journalResume
  simp only
  split
  · rename_i e j h
    right
    split at h
    · cases h; rfl
    · split at h
      · rename_i e' he
        rw [findLastCheckblockLoop_err _ _ _ he] at he
        exact absurd he (findLastCheckblockLoop_ends _ _ _ (by have := hc.blocks_lo; omega))
      · split at h
        · rename_i e' he
          rw [findLastGroupLoop_err _ _ _ he] at he
          exact absurd he (findLastGroupLoop_ends _ _ _ (Nat.lt_succ_self _))
        · split at h
          · rename_i e' he
            cases h
            rw [findRootLoop_err _ he]
          · split at h
            · rename_i e' he
              rw [findHeadLoop_err _ _ he] at he
              exact absurd he (findHeadLoop_ends hc _ _ (by omega))
            · cases h
  · exact Or.inl rfl

end Dhara

/-! ### A history to which the theorems apply: three sectors, then a write whose block fails -/
namespace Dhara.ExT
open Viol

/-- Eight pages per block, 40 blocks; the program at clock 6 fails. -/
def cT : Cfg := { mk 3 40 (fun t => if t = 6 then .fail else .ok) with fuel := 66263 }

theorem validT : cT.Valid := ⟨by decide, by decide, by decide, by decide, by decide⟩
theorem fuelT : cT.fuel = fuelBound cT := by decide +kernel

/-- The history. -/
def sT : S := run cT [.write 2 (data 1), .write 3 (data 2)] (start cT)

theorem goodT : runGood cT [.write 2 (data 1), .write 3 (data 2)] (start cT) = true := by decide +kernel

theorem histT : Hist cT sT := by
  refine hist_run cT _ _ (.fresh _ ⟨blankChip cT, fun _ => 0, 7, rfl, rfl, rfl⟩) ?_ goodT
  intro op h
  simp only [List.mem_cons, List.not_mem_nil, or_false] at h
  rcases h with h | h <;> subst h <;> simp [Op.Valid]

theorem sizeT : 2 ≤ mapSize sT := by decide +kernel

/-- The next write goes through a recovery. -/
theorem recoversT : (step cT (.write 5 (data 3)) sT).2.j.bbCurrent = 1 ∧ good (step cT (.write 5 (data 3)) sT).1 = true := by
  decide +kernel

/-- The call ends and stays on the chip, by the theorems. -/
example : (step cT (.write 5 (data 3)) sT).1 ≠ .error .ub ∧ (step cT (.write 5 (data 3)) sT).1 ≠ .error .diverge ∧
    ∀ f, fuelBound cT ≤ f → (step (cT.fu f) (.write 5 (data 3)) sT).2.n.time ≤ sT.n.time + 1 + opBound cT :=
  ⟨reads_on_chip_in_use validT sT histT _ (by show 5 < NONE; decide) trivial sizeT,
   calls_terminate_in_use validT (Nat.le_of_eq fuelT.symm) sT histT _ (by show 5 < NONE; decide) sizeT,
   operations_bounded validT fuelT sT histT _ (by show 5 < NONE; decide) sizeT⟩

end Dhara.ExT

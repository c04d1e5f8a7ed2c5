/-
The invariant in its two modes (normal operation, recovery), and how a push moves between them.
-/
import Verif.Proofs.Inv
import Verif.Proofs.Keep
namespace Dhara

variable {c : Cfg}

/-- No program operation fails in the time interval. -/
def NoFail (c : Cfg) (a b : Nat) : Prop := ∀ t, a ≤ t → t < b → c.env.prog t ≠ .fail

/-- The root's metadata is in the buffer if the buffer holds any. -/
def Stable (c : Cfg) (s : S) (vr vh : Nat) : Prop :=
  vh % c.ppc ≠ 0 → s.j.root ≠ NONE → vr / c.ppc = vh / c.ppc

/-- Hook for statements about the chip that are carried along with the invariant: `t` is a clock
value up to which program failures are restricted, `W` the contents (with their sector count) that
may be made persistent up to a given chip state, `D0`/`D1` what is claimed in normal operation/during a recovery, `X` what
is claimed when power fails, `U` which errors may be reported (with what contents before the call and in what
state). -/
structure Gh (c : Cfg) where
  t : Nat
  W : (Nat → Option Buf) → Nat → Nand → Prop
  D0 : S → Nat → Nat → Nat → Nat → Prop
  D1 : S → Nat → Nat → Nat → Nat → Nat → Prop
  X : S → Prop
  U : (Nat → Option Buf) → Err → S → Prop

/-- Blocks not marked bad. -/
def goodCount (c : Cfg) (n : Nand) : Nat := ((List.range c.numBlocks).filter fun b => !n.chip.bad b).length

/-- Steps a recovery still has to take (a restart begins again). -/
def rmeas (c : Cfg) (s : S) : Nat :=
  if s.j.enumDone = true then c.ppc - s.j.head % c.ppc
  else (s.j.recoverRoot % c.ppb - s.j.recoverNext % c.ppb) + c.ppc + 2

/-- A bound on `rmeas`. -/
def rmax (c : Cfg) : Nat := c.ppb + c.ppc + 2

/-- Pages in the queue (checkpoint pages included). -/
def qlen (c : Cfg) (s : S) : Nat := (s.j.head + c.pages - s.j.tail) % c.pages

/-- Steps a sync still has to take. -/
def smeas (c : Cfg) (s : S) : Nat :=
  goodCount c s.n * ((c.ppc + 1) * (c.pages + 1)) + (c.ppc - s.j.head % c.ppc) * (c.pages + 1) + qlen c s

/-- Loop iterations that suffice for every loop of every call. -/
def fuelBound (c : Cfg) : Nat :=
  9 * (rmax c + 1) + (c.numBlocks + 1) * ((c.ppc + 1) * (c.pages + 1)) + c.pages + 3

theorem filter_len_mono {p q : Nat → Bool} {l : List Nat} (h : ∀ x, p x = true → q x = true) :
    (l.filter p).length ≤ (l.filter q).length := by
  induction l with
  | nil => exact Nat.le_refl _
  | cons a l ih =>
    simp only [List.filter_cons]
    cases hp : p a <;> cases hq : q a <;> simp <;> first | omega | (rw [h a hp] at hq; cases hq)

theorem filter_len_lt {p q : Nat → Bool} {l : List Nat} {x : Nat} (hx : x ∈ l) (hq : q x = true) (hp : p x = false)
    (h : ∀ x, p x = true → q x = true) : (l.filter p).length < (l.filter q).length := by
  induction l with
  | nil => cases hx
  | cons a l ih =>
    simp only [List.filter_cons]
    by_cases ha : a = x
    · subst ha
      have := filter_len_mono (l := l) h
      rw [hq, hp]; simp; omega
    · have := ih (by rcases List.mem_cons.1 hx with h' | h'; exact absurd h'.symm ha; exact h')
      cases hp : p a <;> cases hq : q a <;> simp <;> first | omega | (rw [h a hp] at hq; cases hq)

/-- Normal operation. -/
structure Inv0 (c : Cfg) (s : S) (σ : Nat → Option Buf) (T : Gh c) (vts vt vh vr : Nat) : Prop where
  geo : Geo c s vts vt vh
  calm : Calm s
  tr : Tr c s s.j.root vt vr vh σ
  stab : Stable c s vr vh ∨ NoFail c s.n.time T.t
  ext : T.D0 s vts vt vh vr

/-- A recovery is going on; `pend` has been handed out by next_recoverable but not yet dealt with. -/
structure Inv1 (c : Cfg) (s : S) (σ : Nat → Option Buf) (T : Gh c) (pend : Nat → Prop)
    (vts vt vh vr vR vM vn : Nat) : Prop where
  geo : Geo c s vts vt vh
  rcv : s.j.recovery = true
  rgeo : RGeo c s vt vh vR vM vn
  tr : Tr c s s.j.root vt vr vh σ
  base : Tr c s s.j.recoverRoot vt vR vh σ
  enum : ∀ v, vt ≤ v → v < vh → Data (mtOf c s) s.j.root (c.ph v) → v / c.ppb = vR / c.ppb →
    v ≤ vR ∧ ((s.j.enumDone = false ∧ vn ≤ v) ∨ pend (c.ph v))
  notM : ∀ v, vt ≤ v → v < vh → Used (mtOf c s) s.j.root (c.ph v) → s.j.badMeta = true →
    v / c.ppb ≠ vM / c.ppb
  ext : T.D1 s vts vt vh vR vM

/-- The hook is preserved by everything the code does. -/
structure Gh.Ok (T : Gh c) : Prop where
  upow : ∀ {σ : Nat → Option Buf} {s : S}, T.U σ .powerLoss s
  usoft : ∀ {e : Err} {s s' : S} {σ : Nat → Option Buf} {vts vt vh vr vq : Nat}, Inv0 c s σ T vts vt vh vr →
    Soft c s s' vts vh vq → Evo c s.n s'.n → e ≠ .ub → e ≠ .diverge → T.U σ e s'
  unoisy : ∀ {e : Err} {s s' : S} {σ : Nat → Option Buf} {vts vt vh vr : Nat}, Inv0 c s σ T vts vt vh vr →
    Noisy c s.n.time s'.n.time → e ≠ .ub → e ≠ .diverge → T.U σ e s'
  uhard : ∀ {e : Err} {s s' : S} {σ : Nat → Option Buf} {pend : Nat → Prop} {vts vt vh vr vR vM vn : Nat},
    Inv1 c s σ T pend vts vt vh vr vR vM vn → s.n.time ≤ s'.n.time → e ≠ .ub → e ≠ .diverge → T.U σ e s'
  ustuck : ∀ {e : Err} {s s0 : S} {σ : Nat → Option Buf} {k : Nat} {n : Nand} {vts vt vh vr : Nat}, s.j.recovery = true →
    s.j.recoverRoot = NONE → T.W σ k n → n.ub = false → (∀ t, t < NONE → σ t = none) →
    Inv0 c s0 σ T vts vt vh vr → Noisy c s0.n.time s.n.time → T.U σ e s
  ucong : ∀ {e : Err} {s s' : S} {σ : Nat → Option Buf}, T.U σ e s → s'.n = s.n → s'.j = s.j → T.U σ e s'
  udiv : (∀ σ s, T.U σ .diverge s) ∨ fuelBound c ≤ c.fuel
  soft : ∀ {s s' : S} {σ : Nat → Option Buf} {vts vt vh vr vq : Nat}, Inv0 c s σ T vts vt vh vr →
    Soft c s s' vts vh vq → Evo c s.n s'.n → ¬ Noisy c s.n.time s'.n.time → T.D0 s' vts vt vq vr
  wmono : ∀ {σ : Nat → Option Buf} {k : Nat} {n n' : Nand}, T.W σ k n → Evo c n n' → T.W σ k n'
  cong0 : ∀ {s s' : S} {vts vt vh vr : Nat}, T.D0 s vts vt vh vr → s'.n = s.n →
    s'.j.dirty = s.j.dirty → s'.j.root = s.j.root → mtOf c s' = mtOf c s → T.D0 s' vts vt vh vr
  cong1 : ∀ {s s' : S} {vts vt vh vR vM : Nat}, T.D1 s vts vt vh vR vM → s'.n = s.n →
    s'.j.badMeta = s.j.badMeta → T.D1 s' vts vt vh vR vM
  tick : ∀ {s : S} {vts vt vh vr : Nat}, T.D0 s vts vt vh vr → T.D0 (Dhara.tick s) vts vt vh vr
  congX : ∀ {s s' : S}, T.X s → s'.n = s.n → s'.j = s.j → T.X s'
  push0 : ∀ {s s' : S} {σ σ' : Nat → Option Buf} {m : Option Buf} {Pd : S → Option Buf → Prop}
    {vts vt vh vr vq vR vM : Nat}, Inv0 c s σ T vts vt vh vr → PushOk c s s' m Pd vts vt vh vq vR vM →
    Tr c s' s'.j.root vt vq (c.nextV vq) σ' → Calm s' → T.W σ' (r32 s.j.pageBuf 16) s'.n → Evo c s.n s'.n →
    FdOk s.n s'.n → T.D0 s' (newTs c s vts vt vq) vt (c.nextV vq) vq
  erase : ∀ {s s' : S} {σ : Nat → Option Buf} {vts vt vh vr vq : Nat}, Inv0 c s σ T vts vt vh vr →
    PErase c s s' vts vh vq → Evo c s.n s'.n → Kp c s.n s'.n vts vh → (Recovering s' ∨ FdOk s.n s'.n) → T.X s'
  page : ∀ {s s1 s' : S} {σ : Nat → Option Buf} {vts vt vh vr vq : Nat}, Inv0 c s σ T vts vt vh vr →
    Prepared c s s1 vts vt vh vq →
    (∀ p, p ≠ c.ph vq → (c.last vq → p ≠ c.ph (vq + 1)) →
        s'.n.chip.page p = s1.n.chip.page p ∧ s'.n.chip.free p = s1.n.chip.free p) →
    s'.n.chip.bad = s1.n.chip.bad →
    (c.last vq → s'.n.chip.page (c.ph (vq + 1)) = s1.n.chip.page (c.ph (vq + 1)) ∨
        ∃ t, s'.n.chip.page (c.ph (vq + 1)) = c.env.junk t (c.ph (vq + 1))) →
    (∀ p, s'.n.chip.free p = true → s1.n.chip.free p = true) → Evo c s.n s'.n → Kp c s.n s'.n vts vh → (Recovering s' ∨ FdOk s.n s'.n) → T.X s'
  twin : ∀ {s s1 s' : S} {σ σ' : Nat → Option Buf} {m : Option Buf} {Pd : S → Option Buf → Prop}
    {vts vt vh vr vq vR vM : Nat}, Inv0 c s σ T vts vt vh vr → PushOk c s s1 m Pd vts vt vh vq vR vM →
    Tr c s1 s1.j.root vt vq (c.nextV vq) σ' → Calm s1 → T.W σ' (r32 s.j.pageBuf 16) s1.n → Evo c s.n s1.n →
    s1.n.chip = s'.n.chip → s1.n.time = s'.n.time → Evo c s1.n s'.n → (Recovering s' ∨ FdOk s.n s'.n) → T.X s'
  noisy : ∀ {s s' : S} {σ : Nat → Option Buf} {vts vt vh vr : Nat}, Inv0 c s σ T vts vt vh vr →
    Noisy c s.n.time s'.n.time → Recovering s' → Evo c s.n s'.n → Kp c s.n s'.n vts vh → T.X s'
  skip : ∀ {s s1 s' : S} {σ : Nat → Option Buf} {vts vt vh vr v1 : Nat}, Inv0 c s σ T vts vt vh vr →
    Skipped c s s1 vts vt vh v1 → PStop c s1 s' vts vt v1 → Evo c s1.n s'.n → Kp c s.n s'.n vts vh → (Recovering s' ∨ FdOk s.n s'.n) → T.X s'
  start : ∀ {s s' : S} {σ : Nat → Option Buf} {vts vt vh vr vM v' : Nat}, Inv0 c s σ T vts vt vh vr →
    s.j.root ≠ NONE → PushStart c s s' vts vt vh vM v' → Evo c s.n s'.n →
    vh % c.ppb ≠ 0 → FdBut s.n s'.n (c.blk s.j.head) → T.D1 s' vts vt v' vr vM
  rok : ∀ {s s' : S} {σ : Nat → Option Buf} {pend : Nat → Prop} {m : Option Buf} {Pd : S → Option Buf → Prop}
    {vts vt vh vr vR vM vn vq : Nat}, Inv1 c s σ T pend vts vt vh vr vR vM vn →
    PushOk c s s' m Pd vts vt vh vq vR vM → ¬ finishes c s vq → Evo c s.n s'.n → FdOk s.n s'.n →
    T.D1 s' (newTs c s vts vt vq) vt (c.nextV vq) vR vM
  done : ∀ {s s' : S} {σ : Nat → Option Buf} {pend : Nat → Prop} {m : Option Buf} {Pd : S → Option Buf → Prop}
    {vts vt vh vr vR vM vn vq : Nat}, Inv1 c s σ T pend vts vt vh vr vR vM vn →
    PushOk c s s' m Pd vts vt vh vq vR vM → finishes c s vq →
    Tr c s' s'.j.root vt vq (c.nextV vq) σ → Calm s' → T.W σ (r32 s.j.pageBuf 16) s'.n → Evo c s.n s'.n → FdOk s.n s'.n →
    T.D0 s' (newTs c s vts vt vq) vt (c.nextV vq) vq
  again : ∀ {s s' : S} {σ : Nat → Option Buf} {pend : Nat → Prop}
    {vts vt vh vr vR vM vn v' : Nat}, Inv1 c s σ T pend vts vt vh vr vR vM vn →
    PushAgain c s s' vts vt vh vR vM v' → Evo c s.n s'.n →
    (∀ b, s'.n.failed b = true → s.n.failed b = true ∨ s'.n.chip.bad b = true ∨
      (s'.j.badMeta = true ∧ b = c.blk s'.j.recoverMeta)) → T.D1 s' vts vt v' vR vM
  crash1 : ∀ {s s' : S} {σ : Nat → Option Buf} {pend : Nat → Prop}
    {vts vt vh vr vR vM vn : Nat}, Inv1 c s σ T pend vts vt vh vr vR vM vn →
    Recovering s' → Evo c s.n s'.n → Kp c s.n s'.n vts vh → T.X s'
  tail : ∀ {s s' : S} {σ : Nat → Option Buf} {vts vt vh vr vts' vt' : Nat}, Inv0 c s σ T vts vt vh vr →
    s'.n = s.n → s'.j.dirty = s.j.dirty → mtOf c s' = mtOf c s →
    (s'.j.root = s.j.root ∨ (s'.j.root = NONE ∧ vr < vt' ∧ (∀ t, t < NONE → σ t = none) ∧ s.j.dirty = true)) →
    (vts' = vts ∨ (s.j.dirty = false ∧ vts' = vt')) → vt ≤ vt' → vt' ≤ vh →
    (∀ x, Used (mtOf c s) s.j.root x → ∃ v, x = c.ph v ∧ c.isU v ∧ v ≤ vr ∧ (vt' ≤ v ∨ v = vr)) →
    T.D0 s' vts' vt' vh vr
  clear : ∀ {s s' : S} {σ : Nat → Option Buf} {vts vt vh vr : Nat}, Inv0 c s σ T vts vt vh vr →
    s'.n = s.n → s'.j.dirty = true → s'.j.root = NONE → T.D0 s' vts vh vh vr

/-- A recovery without a root: it never ends. -/
structure Zombie (s : S) : Prop where
  rcv : s.j.recovery = true
  root : s.j.root = NONE
  rr : s.j.recoverRoot = NONE
  en : s.j.enumDone = false
  rn : s.j.recoverNext ≠ NONE

/-- The hook that says nothing. -/
def Gh.triv (c : Cfg) (t : Nat) : Gh c := ⟨t, fun _ _ _ => True, fun _ _ _ _ _ => True, fun _ _ _ _ _ _ => True, fun _ => True, fun _ _ _ => True⟩

theorem Gh.triv_ok {t : Nat} : (Gh.triv c t).Ok := by
  constructor <;> intros <;> first | exact trivial | exact Or.inl fun _ _ => trivial

theorem Inv0.congr_T {s : S} {σ : Nat → Option Buf} {T T' : Gh c} {vts vt vh vr : Nat}
    (h : Inv0 c s σ T vts vt vh vr) (hT : T'.t ≤ T.t) (hD : T.D0 s vts vt vh vr → T'.D0 s vts vt vh vr) :
    Inv0 c s σ T' vts vt vh vr :=
  ⟨h.geo, h.calm, h.tr, by
    rcases h.stab with h | h
    · exact Or.inl h
    · exact Or.inr fun t h1 h2 => h t h1 (by omega), hD h.ext⟩

theorem stable_after (hc : c.Valid) {s : S} {vq : Nat} (hu : c.isU vq) : Stable c s vq (c.nextV vq) := by
  intro h _
  by_cases hl : c.last vq
  · obtain ⟨e, h2, _⟩ := is_last hc hl
    rw [e] at h; exact absurd h2 h
  · obtain ⟨e, _, h3, _⟩ := not_last hc hu hl
    rw [e, h3]

/-- Pages of the tree survive a push. -/
theorem pushOk_frame (hc : c.Valid) {s s' : S} {m : Option Buf} {Pd : S → Option Buf → Prop}
    {vts vt vh vq vR vM : Nat} (g : Geo c s vts vt vh)
    (ho : PushOk c s s' m Pd vts vt vh vq vR vM) (hnf : ¬ finishes c s vq) {v : Nat} (h1 : vt ≤ v)
    (h2 : v < vh) (hu : c.isU v) :
    metaBuf c s' (c.ph v) = metaBuf c s (c.ph v) ∧ s'.n.chip.page (c.ph v) = s.n.chip.page (c.ph v) ∧
      (s.n.chip.bad (c.ph v / c.ppb) = false → s'.n.chip.bad (c.ph v / c.ppb) = false) := by
  have hl := g.l1
  have hwq : c.Win vts vq := ho.winq.mono (Nat.le_refl _) (by have := lt_nextV c vq; omega)
  refine ⟨ho.mkeep v (by omega) h2 hu (fun h => hnf h.1), ho.keep.live hc hwq (by omega) h2, fun hb => ?_⟩
  rw [ho.keep.bad_eq, hb]
  rintro (hb | ⟨hf, _⟩)
  · by_cases hbv : v / c.ppb < vh / c.ppb
    · exact not_inBlks hwq (by omega) hbv (by omega) hb
    · have := Nat.div_le_div_right (c := c.ppb) (Nat.le_of_lt h2)
      rcases ho.mv with hq | ⟨hq, _⟩
      · obtain ⟨b, b1, b2, _⟩ := hb; subst hq; omega
      · have h0 := div_mod_range vh c.ppb
        have h1 := Nat.div_lt_iff_lt_mul (ppb_pos c) (x := v) (y := vh / c.ppb)
        omega
  · exact hnf hf

/-- What the caller of a push guarantees about contents. -/
structure Fill (c : Cfg) (s s' : S) (m : Option Buf) (Pd : S → Option Buf → Prop) (vts vh : Nat)
    (D : Nat → Option Nat) (σ σ' : Nat → Option Buf) : Prop where
  h1 : ∀ t x, t < NONE → t ≠ (recOf (metaOf m)).id → D t = some x → σ' t = σ t
  h2 : ∀ t, t < NONE → t ≠ (recOf (metaOf m)).id → D t = none → σ' t = none
  h3 : (recOf (metaOf m)).id < NONE → ∀ (s1 : S) (vq : Nat) (pg : Option Buf), pg = s'.n.chip.page s'.j.root →
      CKeep c s.n s1.n vh vq (inBlks c (vh / c.ppb) (vq / c.ppb)) →
      c.Win vts vq → Pd s1 pg → Evo c s.n s1.n → Evo c s1.n s'.n → ∃ b, pg = some b ∧ c.clip b = b ∧ σ' (recOf (metaOf m)).id = some b

/-- Outcome of an operation started in normal operation; the tail stays at `vt`, `Q` holds of the
result of a success. -/
inductive Out0 (c : Cfg) (s : S) (σ σ' : Nat → Option Buf) (T : Gh c) (vt : Nat) (Q : S → Prop) :
    Except Err Unit × S → Prop
  | ok (s' : S) (vts vh vr : Nat) (h : Inv0 c s' σ' T vts vt vh vr) (hcnt : s'.count = s.count) (hQ : Q s') :
      Out0 c s σ σ' T vt Q (.ok (), s')
  | recov (s' : S) (vts vh vr vR vM vn : Nat)
      (h : Inv1 c s' σ T (fun _ => False) vts vt vh vr vR vM vn) (hcnt : s'.count = s.count) :
      Out0 c s σ σ' T vt Q (.error .recover, s')
  | zombie (s' : S) (h : Zombie s') (hub : s'.n.ub = false) (hcnt : s'.count = s.count)
      (hcr : ∀ s'' : S, s''.n = s'.n → s''.j.recovery = true → T.X s'') (hz : ∀ t, t < NONE → σ t = none)
      (hno : ∃ s0 vts vt vh vr, Inv0 c s0 σ T vts vt vh vr ∧ Noisy c s0.n.time s'.n.time) :
      Out0 c s σ σ' T vt Q (.error .recover, s')
  | stop (s' : S) (e : Err) (he : e ≠ .recover) (hub : s'.n.ub = false)
      (hcr : e = .powerLoss → T.X s') (hu : T.U σ e s') :
      Out0 c s σ σ' T vt Q (.error e, s')

theorem Out0.mono {s s0 : S} {σ σ' : Nat → Option Buf} {T : Gh c} {vt : Nat} {Q Q' : S → Prop}
    {r : Except Err Unit × S} (h : Out0 c s σ σ' T vt Q r) (hs : s.count = s0.count) (hQ : ∀ s', Q s' → Q' s') :
    Out0 c s0 σ σ' T vt Q' r := by
  cases h with
  | ok s' _ _ _ h hc' hq => exact .ok s' _ _ _ h (hc'.trans hs) (hQ _ hq)
  | recov s' _ _ _ _ _ _ h hc' => exact .recov s' _ _ _ _ _ _ h (hc'.trans hs)
  | zombie s' h hu hc' hx hz hno => exact .zombie s' h hu (hc'.trans hs) hx hz hno
  | stop s' e he hu hx hU => exact .stop s' e he hu hx hU

/-- The new tree consists of the page pushed and pages in `K`. -/
def Made (c : Cfg) (vts vh : Nat) (K : Nat → Prop) (s' : S) : Prop :=
  ∃ vq, vh ≤ vq ∧ c.Win vts vq ∧ ∀ x, Used (mtOf c s') s'.j.root x → x = c.ph vq ∨ K x

/-- The push has completed a checkpoint group or moved on in it. -/
def Adv (c : Cfg) (s s' : S) : Prop := s'.j.dirty = false ∨ s'.j.head % c.ppc = s.j.head % c.ppc + 1

theorem pushOk_adv (hc : c.Valid) {s s' : S} {m : Option Buf} {Pd : S → Option Buf → Prop}
    {vts vt vh vq vR vM : Nat} (g : Geo c s vts vt vh) (h : PushOk c s s' m Pd vts vt vh vq vR vM) : Adv c s s' := by
  by_cases hl : c.last vq
  · exact Or.inl (h.dirtyL hl)
  · right
    rw [h.geo.eh, g.eh, ph_mod_ppc hc, ph_mod_ppc hc]
    obtain ⟨e, h1, h2, _⟩ := not_last hc h.uq hl
    rw [e]
    have hvq : vq % c.ppc = vh % c.ppc := by
      rcases h.mv with h' | ⟨a, b⟩
      · rw [h']
      · rw [Nat.mod_eq_zero_of_dvd (Nat.dvd_trans hc.ppc_dvd (Nat.dvd_of_mod_eq_zero a)),
          Nat.mod_eq_zero_of_dvd (Nat.dvd_trans hc.ppc_dvd (Nat.dvd_of_mod_eq_zero b))]
    have d1 := div_mod_range vq c.ppc
    have d2 := div_mod_range (vq + 1) c.ppc
    rw [h2] at d2
    omega

theorem push_inv0 (hc : c.Valid) {s : S} {m : Option Buf} {Pd : S → Option Buf → Prop} {T : Gh c} (hG : T.Ok)
    {vts vt vh vr vR vM : Nat} {σ σ' : Nat → Option Buf} {D : Nat → Option Nat} {K : Nat → Prop}
    (hI : Inv0 c s σ T vts vt vh vr)
    (hP : Plan (mtOf c s) s.j.root (recOf (metaOf m)) D K)
    {r : Except Err Unit × S} (hF : Fill c s r.2 m Pd vts vh D σ σ') (ho : PushOut c s m Pd vts vt vh vR vM r) (hT : r.2.n.time ≤ T.t)
    (hE : Evo c s.n r.2.n) (hKp : Kp c s.n r.2.n vts vh) (hFd : Fd c s.n s.j.recovery s.j.head r)
    (hW : r.1 = .ok () → T.W σ' (r32 s.j.pageBuf 16) r.2.n)
    (hUe : ∀ e, r.1 = .error e → (e ≠ .ub ∧ e ≠ .diverge) ∨ ∀ σ s, T.U σ e s)
    (hFc : r.1 = .error .powerLoss → ∀ s' s1 : S, Pd s1 (s'.n.chip.page s'.j.root) → Evo c s.n s1.n → Evo c s1.n s'.n →
      ∃ σc, Fill c s s' m Pd vts vh D σ σc ∧ T.W σc (r32 s.j.pageBuf 16) s'.n) :
    Out0 c s σ σ' T vt (fun s' => Made c vts vh K s' ∧ Adv c s s') r := by
  have hcalm := hI.calm
  have hnf : ∀ vq, ¬ finishes c s vq := fun vq hf => by have := hf.2; rw [hcalm.ed] at this; cases this
  have key : ∀ {s' : S} {σ' : Nat → Option Buf} {vq : Nat}, PushOk c s s' m Pd vts vt vh vq vR vM →
      Fill c s s' m Pd vts vh D σ σ' → T.W σ' (r32 s.j.pageBuf 16) s'.n → Evo c s.n s'.n →
      (Tr c s' s'.j.root vt vq (c.nextV vq) σ' ∧ Calm s') ∧ (Made c vts vh K s' ∧ Adv c s s') := by
    intro s' σ' vq h hF hW hE
    obtain ⟨t1, t2⟩ := push_tree hc hI.geo hI.tr hP h (fun v _ _ _ hf => absurd hf (hnf vq)) hF.h1 hF.h2
      (fun hid s1 a b d e f => hF.h3 hid s1 vq _ (by rw [h.root]) a b d e f)
    obtain ⟨a1, a2, a3, a4, a5, a6⟩ := h.going (hnf vq)
    have hc' : Calm s' := ⟨a1.trans hcalm.nr, a5.trans hcalm.rm, a2.trans hcalm.ed, a6.trans hcalm.bm⟩
    exact ⟨⟨t1, hc'⟩,
      ⟨vq, h.le, h.winq.mono (Nat.le_refl _) (by have := lt_nextV c vq; omega), t2⟩, pushOk_adv hc hI.geo h⟩
  cases ho with
  | stop s' e he hub hcr hsf =>
    refine .stop s' e he hub (fun hee => ?_) (by
      by_cases hp : e = .powerLoss
      · subst hp; exact hG.upow
      rcases hUe e rfl with ⟨u1, u2⟩ | hu
      · rcases hsf hp with ⟨vq, h⟩ | h
        · exact hG.usoft hI h hE u1 u2
        · exact hG.unoisy hI h u1 u2
      · exact hu _ _)
    have hfp : Recovering s' ∨ FdOk s.n s'.n := hFd.pow (by rw [hee])
    cases hcr hee hcalm with
    | stop h =>
      cases h with
      | erase vq h => exact hG.erase hI h hE hKp hfp
      | page s1 vq hp h1 h2 h3 h4 => exact hG.page hI hp h1 h2 h3 h4 hE hKp hfp
    | skip s1 v1 hs h hev => exact hG.skip hI hs h hev hKp hfp
    | done s'' vq h hl e1 e2 e3 =>
      obtain ⟨sx, _, _, hP, ev1, ev2⟩ := h.data
      obtain ⟨σc, f1, f2⟩ := hFc (by rw [hee]) s'' sx (by rw [h.root]; exact hP) ev1 ev2
      obtain ⟨t1, hc'⟩ := (key h f1 f2 (ev1.trans ev2)).1
      exact hG.twin hI h t1 hc' f2 (ev1.trans ev2) e1 e2 e3 hfp
    | mid h hm => exact hG.noisy hI h hm hE hKp
  | again s' v' h => have := h.rec0; rw [hcalm.nr] at this; cases this
  | ok s' vq h =>
    obtain ⟨⟨t1, hc'⟩, k2⟩ := key h hF (hW rfl) hE
    exact .ok s' _ _ vq ⟨h.geo, hc', t1, Or.inl (stable_after hc h.uq), hG.push0 hI h t1 hc' (hW rfl) hE (hFd.ok rfl)⟩ h.cnt k2
  | start s' vM' v' h =>
    by_cases hroot : s.j.root = NONE
    · refine .zombie s' ⟨h.rec1, by rw [h.root, hroot], by rw [h.rr, hroot], h.enum, ?_⟩ h.geo.noub h.cnt (by
        intro s'' hs hrc
        obtain ⟨t, b1, b2, b3⟩ := h.fail
        exact hG.noisy hI ⟨t, b1, by rw [hs]; omega, Or.inl b3⟩ (Or.inl hrc) (by rw [hs]; exact hE) (by rw [hs]; exact hKp))
        (fun t ht => hI.tr.emp t ht (dict_none hroot t))
        ⟨s, _, _, _, _, hI, by obtain ⟨t, b1, b2, b3⟩ := h.fail; exact ⟨t, b1, b2, Or.inl b3⟩⟩
      rw [h.rn]; exact blockStart_ne hc _
    · have hst : Stable c s vr vh := by
        rcases hI.stab with h' | h'
        · exact h'
        · obtain ⟨t, b1, b2, b3⟩ := h.fail
          exact absurd b3 (h' t b1 (by simp only at hT; omega))
      rcases hI.tr.rt with h0 | ⟨e0, e1, e2, e3⟩
      · exact absurd h0 hroot
      have hl1 := hI.geo.l1
      obtain ⟨hfd1, hfd2⟩ := hFd.start rfl hcalm.nr
      rw [hI.geo.eh, ph_mod_ppb] at hfd1
      have hltv : vh ≤ v' := by
        apply Classical.byContradiction; intro hn
        have := Nat.div_le_div_right (c := c.ppb) (by omega : v' ≤ vh); have := h.lt; omega
      have hfr := hI.tr.frame (s' := s') (vh' := v') hltv (by
        intro v b1 b2 b3 b4 _
        refine ⟨h.mkeep vr e0 (by omega) e2 (fun hC => hst hC hroot) v (by omega) b3 b4,
          h.keep.live hc h.geo.win (by omega) b3, fun hb => ?_⟩
        rw [h.keep.bad_eq, hb]
        exact not_inBlks h.geo.win (by omega) (by have := Nat.div_le_div_right (c := c.ppb) (Nat.le_of_lt b3); omega) (by omega))
      obtain ⟨f1, f2, f3, f4⟩ := hfr
      have hvr : vr / c.ppb ≤ vh / c.ppb := Nat.div_le_div_right (Nat.le_of_lt e2)
      have hlt := h.lt
      refine .recov s' vts v' vr vr vM' (vr / c.ppb * c.ppb)
        ⟨h.geo, h.rec1, ?_, by rw [h.root]; exact f1, by rw [h.rr]; exact f1, ?_, ?_, hG.start hI hroot h hE hfd1 hfd2⟩ h.cnt
      · refine ⟨by rw [h.rr]; exact e0, e3, e1, by omega, ?_, isU_of_aligned hc (Nat.mul_mod_left _ _),
          Nat.div_mul_le_self _ _, Nat.mul_div_cancel _ (ppb_pos c), ?_, ?_⟩
        · rw [h.rn, e0, blockStart_eq, ph_div_ppb, mul_ppb_ph]
        · rcases h.rm with ⟨a1, _⟩ | ⟨a1, a2, a3, a4, a5⟩
          · exact Or.inl a1
          · refine Or.inr ⟨a1, a5, ?_, by rw [a3]; exact lt_nextV c _⟩
            have := Nat.div_le_div_right (c := c.ppb) a4; rw [nextB_div] at this; omega
        · intro hb; rw [h.bm] at hb; cases hb
      · intro v b1 b2 b3 b4
        rw [h.root] at b3
        obtain ⟨w, w1, w2, w3, w4, _⟩ := hI.tr.lt (f4 _ b3).used
        have : v = w := h.geo.win.inj (by omega) (by omega) (by omega) (by omega) w1
        subst this
        refine ⟨w3, Or.inl ⟨h.enum, ?_⟩⟩
        rw [← b4]; exact Nat.div_mul_le_self _ _
      · intro v _ _ _ hb; rw [h.bm] at hb; cases hb

/-- A push keeps the pages between the synchronised tail and the head. -/
theorem push_kp (hc : c.Valid) {s : S} {vts vt vh : Nat} (g : Geo c s vts vt vh) {wr : S → Except Err Unit × S} (hw : WrHere c wr)
    (m : Option Buf) (i : Nat) : Kp c s.n (pushLoop c wr m i s).2.n vts vh :=
  pushLoop_kp hc (by have := g.l1; have := g.l2; omega) hw m i s vh
    ⟨g.eh, g.uh, Nat.le_refl _, g.win, g.ets, Kp.refl _ _ _⟩

/-- Outcome of a push during a recovery. -/
inductive Out1 (c : Cfg) (s : S) (σ : Nat → Option Buf) (T : Gh c) (vt d : Nat) : Except Err Unit × S → Prop
  | ok (s' : S) (vts vh vr vR vM vn : Nat) (h : Inv1 c s' σ T (fun _ => False) vts vt vh vr vR vM vn)
      (hcnt : s'.count = s.count) (hm : rmeas c s' ≤ rmeas c s)
      (hm' : s.j.enumDone = true → rmeas c s' + d ≤ rmeas c s) : Out1 c s σ T vt d (.ok (), s')
  | done (s' : S) (vts vh vr : Nat) (h : Inv0 c s' σ T vts vt vh vr)
      (hcnt : s'.count = s.count) (hg : goodCount c s'.n < goodCount c s.n) : Out1 c s σ T vt d (.ok (), s')
  | again (s' : S) (vts vh vr vR vM vn : Nat)
      (h : Inv1 c s' σ T (fun _ => False) vts vt vh vr vR vM vn) (hcnt : s'.count = s.count) :
      Out1 c s σ T vt d (.error .recover, s')
  | stop (s' : S) (e : Err) (he : e ≠ .recover) (hub : s'.n.ub = false)
      (hcr : e = .powerLoss → T.X s') (hu : T.U σ e s') : Out1 c s σ T vt d (.error e, s')

theorem Out1.mono {s : S} {k : Nat} {j : Journal} {σ : Nat → Option Buf} {T : Gh c} {vt d d' : Nat}
    {r : Except Err Unit × S} (h : Out1 c { s with j := j, count := k } σ T vt d r) (hs : k = s.count)
    (h1 : j.enumDone = s.j.enumDone) (h2 : rmeas c { s with j := j, count := k } = rmeas c s) (hd : d' ≤ d) :
    Out1 c s σ T vt d' r := by
  cases h with
  | ok s' _ _ _ _ _ _ h hc' hm hm' =>
    refine .ok s' _ _ _ _ _ _ h (hc'.trans hs) (by rw [← h2]; exact hm) (fun he => ?_)
    have := hm' (h1.trans he)
    rw [h2] at this; omega
  | done s' _ _ _ h hc' hg => exact .done s' _ _ _ h (hc'.trans hs) hg
  | again s' _ _ _ _ _ _ h hc' => exact .again s' _ _ _ _ _ _ h (hc'.trans hs)
  | stop s' e he hu hx hU => exact .stop s' e he hu hx hU

theorem goodCount_mono {n n' : Nand} (h : Evo c n n') : goodCount c n' ≤ goodCount c n := by
  unfold goodCount
  refine filter_len_mono fun b hb => ?_
  cases hn : n.chip.bad b with
  | false => rfl
  | true => rw [h.bad b hn] at hb; cases hb

theorem pushOk_good (hc : c.Valid) {s s' : S} {m : Option Buf} {Pd : S → Option Buf → Prop} {T : Gh c}
    {vts vt vh vr vR vM vn vq : Nat} {σ : Nat → Option Buf} {pend : Nat → Prop}
    (hI : Inv1 c s σ T pend vts vt vh vr vR vM vn) (h : PushOk c s s' m Pd vts vt vh vq vR vM) (hE : Evo c s.n s'.n)
    (hf : finishes c s vq) : goodCount c s'.n < goodCount c s.n := by
  have hrr := hI.rgeo.rr
  have hu : Used (mtOf c s) s.j.recoverRoot (c.ph vR) := ⟨by rw [hrr]; exact ph_ne_none hc _, Or.inl hrr.symm⟩
  obtain ⟨v, e1, _, _, _, hb⟩ := hI.base.live _ hu
  have hb' := (h.done hf).2 (c.ph vR / c.ppb) (Or.inl rfl)
  unfold goodCount
  refine filter_len_lt (x := c.ph vR / c.ppb) (List.mem_range.2 ?_) (by rw [hb]; rfl) (by rw [hb']; rfl) (fun b hb => ?_)
  · exact Nat.div_lt_of_lt_mul (by have := ph_lt hc vR; unfold Cfg.pages at this; rw [Nat.mul_comm]; exact this)
  · cases hn : s.n.chip.bad b with
    | false => rfl
    | true => rw [hE.bad b hn] at hb; cases hb

theorem pushOk_rmeas (hc : c.Valid) {s s' : S} {m : Option Buf} {Pd : S → Option Buf → Prop}
    {vts vt vh vR vM vq : Nat} (g : Geo c s vts vt vh)
    (h : PushOk c s s' m Pd vts vt vh vq vR vM) (hf : ¬ finishes c s vq) :
    rmeas c s' ≤ rmeas c s ∧ (s.j.enumDone = true → rmeas c s' + 1 ≤ rmeas c s) := by
  obtain ⟨a1, a2, a3, a4, a5, a6⟩ := h.going hf
  unfold rmeas
  rw [a2, a3, a4]
  by_cases he : s.j.enumDone = true
  · rw [if_pos he, if_pos he]
    rcases pushOk_adv hc g h with h' | h'
    · exfalso
      have hl : c.last vq := by
        apply Classical.byContradiction; intro hn
        rw [h.dirtyN hn] at h'; cases h'
      exact hf ⟨hl, he⟩
    · have := Nat.mod_lt s'.j.head (ppc_pos c)
      rw [h'] at this ⊢
      exact ⟨by omega, fun _ => by omega⟩
  · rw [if_neg he, if_neg he]
    exact ⟨Nat.le_refl _, fun h => absurd h he⟩

theorem push_inv1 (hc : c.Valid) {s : S} {m : Option Buf} {Pd : S → Option Buf → Prop} {T : Gh c} (hG : T.Ok)
    {vts vt vh vr vR vM vn : Nat} {σ : Nat → Option Buf} {D : Nat → Option Nat} {K pend : Nat → Prop}
    (hI : Inv1 c s σ T pend vts vt vh vr vR vM vn)
    (hP : Plan (mtOf c s) s.j.root (recOf (metaOf m)) D K)
    {r : Except Err Unit × S} (hF : Fill c s r.2 m Pd vts vh D σ σ) (hKp : ∀ x, K x → ¬ pend x)
    (ho : PushOut c s m Pd vts vt vh vR vM r) (hE : Evo c s.n r.2.n) (hkp : Kp c s.n r.2.n vts vh) (hrc : r.1 ≠ .ok () → r.2.j.recovery = true) (hFd : Fd c s.n s.j.recovery s.j.head r)
    (hW : T.W σ (r32 s.j.pageBuf 16) s.n) (hUe : ∀ e, r.1 = .error e → (e ≠ .ub ∧ e ≠ .diverge) ∨ ∀ σ s, T.U σ e s) : Out1 c s σ T vt 1 r := by
  have hrg := hI.rgeo
  have hl1 := hI.geo.l1
  have hbR := hrg.bR
  have hRvh : vR < vh := by
    apply Classical.byContradiction; intro hn
    have := Nat.div_le_div_right (c := c.ppb) (by omega : vh ≤ vR); omega
  cases ho with
  | stop s' e he hub _ _ =>
    refine .stop s' e he hub (fun _ => hG.crash1 hI (Or.inl (hrc (by intro h; cases h))) hE hkp) ?_
    rcases hUe e rfl with ⟨u1, u2⟩ | hu
    · exact hG.uhard hI hE.time u1 u2
    · exact hu _ _
  | start s' vM' v' h => have := h.rec0; rw [hI.rcv] at this; cases this
  | ok s' vq h =>
    have hle := h.le
    have hlt := lt_nextV c vq
    have hwq : c.Win vts vq := h.winq.mono (Nat.le_refl _) (by omega)
    -- kept pages are not in the failed blocks once enumeration is done
    have hK : ∀ v, vt ≤ v → v < vh → K (c.ph v) → finishes c s vq →
        ¬ retires c s vR vM (c.ph v / c.ppb) ∧ v / c.ppb ≠ vR / c.ppb := by
      intro v b1 b2 b3 hf
      have hd := hP.kd _ b3
      have hvR : v / c.ppb ≠ vR / c.ppb := by
        intro he
        rcases (hI.enum v b1 b2 hd he).2 with h' | h'
        · have := hf.2; rw [h'.1] at this; cases this
        · exact hKp _ b3 h'
      refine ⟨?_, hvR⟩
      rintro (h' | ⟨h3, h'⟩)
      · exact hvR (hI.geo.win.blk_inj (by omega) (by omega) (by have := hrg.tR; omega) (by omega) h')
      · rcases hrg.rm with h4 | ⟨_, _, h5, h6⟩
        · exact (hrg.bm h3).1 h4
        · refine hI.notM v b1 b2 hd.used h3 (hI.geo.win.blk_inj (by omega) (by omega) ?_ (by omega) h')
          apply Classical.byContradiction; intro hn
          have := Nat.div_le_div_right (c := c.ppb) (by have := hrg.tR; omega : vM ≤ vR); omega
    obtain ⟨t1, t2⟩ := push_tree hc hI.geo hI.tr hP h hK hF.h1 hF.h2
      (fun hid s1 a b d e f => hF.h3 hid s1 vq _ (by rw [h.root]) a b d e f)
    by_cases hf : finishes c s vq
    · exact .done s' _ _ vq ⟨h.geo, (h.done hf).1, t1, Or.inl (stable_after hc h.uq),
        hG.done hI h hf t1 (h.done hf).1 (hG.wmono hW hE) hE (hFd.ok rfl)⟩ h.cnt (pushOk_good hc hI h hE hf)
    · obtain ⟨a1, a2, a3, a4, a5, a6⟩ := h.going hf
      have hfr := hI.base.frame (s' := s') (vh' := c.nextV vq) (by omega)
        (fun v b1 b2 b3 b4 _ => pushOk_frame hc hI.geo h hf b1 b3 b4)
      have hbq : vh / c.ppb ≤ vq / c.ppb := Nat.div_le_div_right hle
      refine .ok s' _ _ vq vR vM vn ⟨h.geo, a1.trans hI.rcv, hrg.mono (by omega) a3 a4 a5 a6 hrg.tR,
        t1, by rw [a3]; exact hfr.1, ?_, ?_, hG.rok hI h hf hE (hFd.ok rfl)⟩ h.cnt (pushOk_rmeas hc hI.geo h hf).1 (pushOk_rmeas hc hI.geo h hf).2
      · intro v b1 b2 b3 b4
        rcases t2 _ b3.used with h' | h'
        · have : v = vq := h.winq.inj (by omega) (by omega) (by have := hI.geo.l2; omega) (by omega) h'
          subst this; omega
        · have hd := hP.kd _ h'
          obtain ⟨w, w1, w2, w3, w4, _⟩ := hI.tr.lt hd.used
          have : v = w := h.winq.inj (by omega) (by omega) (by omega) (by omega) w1
          subst this
          obtain ⟨e1, e2⟩ := hI.enum v b1 w4 hd b4
          refine ⟨e1, ?_⟩
          rw [a2]
          rcases e2 with e2 | e2
          · exact Or.inl e2
          · exact absurd e2 (hKp _ h')
      · intro v b1 b2 b3 b4
        rw [a6] at b4
        rcases t2 _ b3 with h' | h'
        · have : v = vq := h.winq.inj (by omega) (by omega) (by have := hI.geo.l2; omega) (by omega) h'
          subst this
          have := (hrg.bm b4).2; omega
        · have hd := hP.kd _ h'
          obtain ⟨w, w1, w2, w3, w4, _⟩ := hI.tr.lt hd.used
          have : v = w := h.winq.inj (by omega) (by omega) (by omega) (by omega) w1
          subst this
          exact hI.notM v b1 w4 hd.used b4
  | again s' v' h =>
    have hlt := h.lt
    have hltv : vh ≤ v' := by
      apply Classical.byContradiction; intro hn
      have := Nat.div_le_div_right (c := c.ppb) (by omega : v' ≤ vh); omega
    have hfr := hI.base.frame (s' := s') (vh' := v') hltv (by
      intro v b1 b2 b3 b4 _
      have hvb : v / c.ppb ≤ vR / c.ppb := Nat.div_le_div_right b2
      refine ⟨h.mkeep v (by omega) (by omega) b4, h.keep.live hc h.geo.win (by omega) b3, fun hb => ?_⟩
      rw [h.keep.bad_eq, hb]
      exact not_inBlks h.geo.win (by omega) (by omega) (by omega))
    obtain ⟨f1, f2, f3, f4⟩ := hfr
    have hrr : s.j.recoverRoot = c.ph vR := hrg.rr
    have hrr' : s'.j.recoverRoot = c.ph vR := h.rgeo.rr
    rw [hrr] at f1 f3 f4
    refine .again s' vts v' vR vR vM _ ⟨h.geo, h.rec1, h.rgeo, by rw [h.root]; exact f1, by rw [hrr']; exact f1, ?_, ?_, hG.again hI h hE (hFd.again rfl hI.rcv)⟩ h.cnt
    · intro v b1 b2 b3 b4
      rw [h.root] at b3
      have hd := f4 _ b3
      rw [← hrr] at hd
      obtain ⟨w, w1, w2, w3, w4, _⟩ := hI.base.lt hd.used
      have : v = w := h.geo.win.inj (by omega) (by omega) (by omega) (by omega) w1
      subst this
      refine ⟨w3, Or.inl ⟨h.enum, ?_⟩⟩
      rw [← b4]; exact Nat.div_mul_le_self _ _
    · intro v b1 b2 b3 b4
      rw [h.root] at b3
      have hd := f3 _ b3
      rw [← hrr] at hd
      obtain ⟨w, w1, w2, w3, w4, _⟩ := hI.base.lt hd
      have : v = w := h.geo.win.inj (by omega) (by omega) (by omega) (by omega) w1
      subst this
      have hvb : v / c.ppb ≤ vR / c.ppb := Nat.div_le_div_right w3
      rcases h.rgeo.rm with h' | ⟨_, _, h', _⟩
      · exact absurd h' (h.rgeo.bm b4).1
      · omega

end Dhara

/-
C37 (gc empties the queue page by page), C38 (a chip without block failures never fills up) and C48 (on a chip on which
nothing goes wrong every call does its work). The terms Healthy, Faultless, Sound, Readable and Fits are explained in
Props/FaultSpec.lean, the queue `c.slots tail head` in Props/JournalSpec.lean.
-/
import Verif.Proofs.Healthy3
import Verif.Proofs.Faultless
import Verif.Props.Total
namespace Dhara

variable {c : Cfg}

/-! ### C38 -/

theorem sound_before {s : S} {op : Op} (h : Sound c (step c op s).2.n) : Sound c s.n := by
  intro b hb
  cases hx : s.n.chip.bad b with
  | false => rfl
  | true =>
    have := (call_evo (c := c) op (tick s)).bad b hx
    have h2 : (step c op s).2.n.chip.bad b = false := h b hb
    exact absurd (this.symm.trans h2) (by decide)

theorem Hist.healthy (hc : c.Valid) (hF : Fits c) (hH : Healthy c) {s : S} (h : Hist c s) (hb : Sound c s.n) :
    ∃ σ vts vt vh vr, HI c s σ vts vt vh vr 0 := by
  induction h with
  | fresh s h => exact ⟨_, _, _, _, _, h.healthy hc hb⟩
  | call s s' op r h hv hs hr ih =>
    obtain ⟨σ, vts, vt, vh, vr, hI⟩ := ih (sound_before (c := c) (op := op) (by rw [hs]; exact hb))
    have key := call_healthy hc hF hH op hv hI.tick
    rw [show Dhara.call c op (tick s) = step c op s from rfl, hs] at key
    rcases key with ⟨e, h1, h2, h3⟩ | ⟨_, h2⟩
    · rcases hr with hr | hr
      · rw [hr] at h1; cases h1
      · rw [hr] at h1; cases h1; exact absurd rfl h2
    · exact h2
  | failed s s' op e h hv hs he hq ih =>
    obtain ⟨σ, vts, vt, vh, vr, hI⟩ := ih (sound_before (c := c) (op := op) (by rw [hs]; exact hb))
    have key := call_healthy hc hF hH op hv hI.tick
    rw [show Dhara.call c op (tick s) = step c op s from rfl, hs] at key
    rcases key with ⟨e', h1, h2, h3⟩ | ⟨_, h2⟩
    · cases h1
      refine h3.2 ?_
      by_cases hx : e = .ecc
      · exact hx
      · exact absurd ⟨he.1, hx, he.2.1, he.2.2⟩ h3.1
    · exact h2

/-- C38: on a chip without bad blocks on which no program and no erase fails, a call that fails fails because the map is
full, a read failed, or the power did. So it does not fail with E_JOURNAL_FULL, E_TOO_BAD, E_RECOVER or E_BAD_BLOCK, however
long the history and however full the map. -/
theorem healthy_never_full (hc : c.Valid) (hF : Fits c) (hH : Healthy c) (hf : fuelBound c ≤ c.fuel) (s s' : S) (h : Hist c s)
    (hb : Sound c s.n) (op : Op) (hv : op.Valid) (ho : op.OnChip c) (e : Err) (hs : step c op s = (.error e, s')) :
    e = .mapFull ∨ e = .ecc ∨ e = .powerLoss := by
  obtain ⟨σ, vts, vt, vh, vr, hI⟩ := h.healthy hc hF hH hb
  have key := call_healthy hc hF hH op hv hI.tick
  have hfo := call_faultless (Q := False) ⟨hH, False.elim⟩ op (s := tick s) ⟨False.elim, False.elim, hI.inv.calm.nr⟩
  rw [show Dhara.call c op (tick s) = step c op s from rfl, hs] at key hfo
  have nr : ¬ RootlessRecovery s' := fun hx => by have := hfo.ok.nr; rw [hx.1] at this; cases this
  rcases key with ⟨e', h1, _, h3⟩ | ⟨h1, _⟩
  · cases h1
    rcases Classical.em (e = .ub) with rfl | h4
    · exact absurd (reads_on_chip hc s s' h op hv ho hs).1 nr
    · rcases Classical.em (e = .diverge) with rfl | h5
      · exact absurd (calls_terminate hc hf s s' h op hv hs).1 nr
      · by_cases h6 : e = .ecc
        · exact Or.inr (Or.inl h6)
        · by_cases h7 : e = .powerLoss
          · exact Or.inr (Or.inr h7)
          · exact absurd ⟨h7, h6, h4, h5⟩ h3.1
  · rcases h1 with h1 | h1
    · cases h1
    · cases h1; exact Or.inl rfl

/-- C38, whatever the number of rounds granted to the loops and whatever page the caller wants copied. -/
theorem healthy_never_full_any (hc : c.Valid) (hF : Fits c) (hH : Healthy c) (s : S) (h : Hist c s) (hb : Sound c s.n) (op : Op)
    (hv : op.Valid) : (step c op s).1 ≠ .error .journalFull ∧ (step c op s).1 ≠ .error .tooBad ∧ (step c op s).1 ≠ .error .recover ∧
      (step c op s).1 ≠ .error .badBlock := by
  obtain ⟨σ, vts, vt, vh, vr, hI⟩ := h.healthy hc hF hH hb
  have key := call_healthy hc hF hH op hv hI.tick
  have key : HOut c (step c op s) := key
  have : ∀ e, Fatal e → e ≠ .mapFull → (step c op s).1 ≠ .error e := by
    intro e he hm hx
    rcases key with ⟨e', h1, _, h3⟩ | ⟨h1, _⟩
    · rw [hx] at h1; cases h1; exact h3.1 he
    · rcases h1 with h1 | h1
      · rw [hx] at h1; cases h1
      · rw [hx] at h1; cases h1; exact hm rfl
  exact ⟨this _ (by decide) (by decide), this _ (by decide) (by decide), this _ (by decide) (by decide), this _ (by decide) (by decide)⟩

/-- C38: such a chip stays without bad blocks, also when a call fails because a page could not be read, so the theorems apply to
the next call. -/
theorem healthy_stays_sound (hc : c.Valid) (hF : Fits c) (hH : Healthy c) (s s' : S) (h : Hist c s) (hb : Sound c s.n) (op : Op)
    (hv : op.Valid) (r : Except Err Unit) (hs : step c op s = (r, s')) (hr : r = .ok () ∨ r = .error .mapFull ∨ r = .error .ecc) :
    Sound c s'.n ∧ Hist c s' := by
  obtain ⟨σ, vts, vt, vh, vr, hI⟩ := h.healthy hc hF hH hb
  have key := call_healthy hc hF hH op hv hI.tick
  rw [show Dhara.call c op (tick s) = step c op s from rfl, hs] at key
  have hh : Hist c s' := by
    rcases hr with hr | hr | hr
    · exact .call s s' op r h hv hs (Or.inl hr)
    · exact .call s s' op r h hv hs (Or.inr hr)
    · rw [hr] at hs
      exact .failed s s' op _ h hv hs ⟨by decide, by decide, by decide⟩ (fun t _ _ => hH t)
  refine ⟨?_, hh⟩
  rcases key with ⟨e', h1, h2, h3⟩ | ⟨_, _, _, _, _, _, h2⟩
  · rcases hr with hr | hr | hr
    · rw [hr] at h1; cases h1
    · rw [hr] at h1; cases h1; exact absurd rfl h2
    · rw [hr] at h1; cases h1
      obtain ⟨_, _, _, _, _, h4⟩ := h3.2 rfl
      exact h4.sound
  · exact h2.sound

/-! ### C48 -/

/-- C48: on a chip on which nothing goes wrong every call succeeds, or is refused because the map is full. -/
theorem faultless_calls_succeed (hc : c.Valid) (hF : Fits c) (hN : Faultless c) (hf : fuelBound c ≤ c.fuel) (s : S) (h : Hist c s)
    (hb : Sound c s.n) (hr : Readable s.n) (op : Op) (hv : op.Valid) (ho : op.OnChip c) :
    ((step c op s).1 = .ok () ∨ (step c op s).1 = .error .mapFull) ∧
    Hist c (step c op s).2 ∧ Sound c (step c op s).2.n ∧ Readable (step c op s).2.n := by
  have hH : Healthy c := fun t => by
    obtain ⟨h1, h2, _⟩ := hN t
    rw [h1, h2]; exact ⟨by decide, by decide⟩
  have h1 : (step c op s).1 = .ok () ∨ (step c op s).1 = .error .mapFull := by
    obtain ⟨σ, vts, vt, vh, vr, hI⟩ := h.healthy hc hF hH hb
    have hfo := call_faultless (Q := True) ⟨hH, fun _ => hN⟩ op (s := tick s) ⟨fun _ => hr, fun _ => hI.inv.geo.alive, hI.inv.calm.nr⟩
    have hfo : FO True (step c op s) := hfo
    rcases hx : step c op s with ⟨e | u, s'⟩
    · rw [hx] at hfo
      have hne := hfo.er e rfl
      rcases healthy_never_full hc hF hH hf s s' h hb op hv ho e hx with h1 | h1 | h1
      · right; rw [h1]
      · exact absurd (Or.inr (Or.inr ⟨trivial, Or.inl h1⟩)) hne
      · exact absurd (Or.inr (Or.inr ⟨trivial, Or.inr h1⟩)) hne
    · exact Or.inl rfl
  exact ⟨h1, .call s _ op _ h hv rfl h1, (healthy_stays_sound hc hF hH s _ h hb op hv _ rfl (h1.imp id Or.inl)).1,
    (call_evo (c := c) op (tick s)).read hN hr⟩

/-- C48: the whole life of a map on such a chip. From power-up on a chip without checkpoints, every sequence of calls goes through
without an error other than E_MAP_FULL, there is a log of what the calls did, and afterwards every sector reads as the log says. -/
theorem faultless_life (hc : c.Valid) (hF : Fits c) (hN : Faultless c) (hf : fuelBound c ≤ c.fuel) (s0 : S) (h0 : Fresh c s0)
    (hb : Sound c s0.n) (hr : Readable s0.n) (ops : List Op) (hv : ∀ op, op ∈ ops → op.Valid ∧ op.OnChip c) :
    (∀ k op, ops[k]? = some op → (step c op (Viol.run c (ops.take k) s0)).1 = .ok () ∨
      (step c op (Viol.run c (ops.take k) s0)).1 = .error .mapFull) ∧
    ∃ evs, Log c (Viol.run c ops s0) evs ∧ ∀ t, t < NONE → Looks c (Viol.run c ops s0) t (contents evs t) := by
  have key : ∀ (ops : List Op) (s : S), (∀ op, op ∈ ops → op.Valid ∧ op.OnChip c) → Hist c s → Sound c s.n → Readable s.n →
      Hist c (Viol.run c ops s) ∧ Sound c (Viol.run c ops s).n ∧ Readable (Viol.run c ops s).n := by
    intro ops
    induction ops with
    | nil => intro s _ h1 h2 h3; exact ⟨h1, h2, h3⟩
    | cons op ops ih =>
      intro s hv h1 h2 h3
      obtain ⟨a, b⟩ := hv op (List.mem_cons_self ..)
      obtain ⟨_, h4, h5, h6⟩ := faultless_calls_succeed hc hF hN hf s h1 h2 h3 op a b
      exact ih _ (fun o ho => hv o (List.mem_cons_of_mem _ ho)) h4 h5 h6
  refine ⟨?_, ?_⟩
  · intro k op hk
    obtain ⟨a, b⟩ := hv op (List.mem_of_getElem? hk)
    obtain ⟨h1, h2, h3⟩ := key (ops.take k) s0 (fun o ho => hv o (List.mem_of_mem_take ho)) (.fresh _ h0) hb hr
    exact (faultless_calls_succeed hc hF hN hf _ h1 h2 h3 op a b).1
  · obtain ⟨h1, _, _⟩ := key ops s0 hv (.fresh _ h0) hb hr
    obtain ⟨evs, h2, h3⟩ := h1.rep hc
    exact ⟨evs, h2, fun t ht => h3.looks hc (fun p _ => (hN _).2.2 p) ht⟩

/-! ### C37 -/

/-- The queue by positions. -/
def posQ (c : Cfg) (vt n : Nat) : List Nat := ((List.range' vt n).filter fun v => v % c.ppc ≠ c.ppc - 1).map c.ph

theorem slots_pos (hc : c.Valid) {vt vh : Nat} (h1 : vt ≤ vh) (h2 : vh < vt + c.pages) : c.slots (c.ph vt) (c.ph vh) = posQ c vt (vh - vt) := by
  unfold Cfg.slots posQ
  rw [dist_ph hc h1 h2, List.range'_eq_map_range, List.filter_map, List.filter_map, List.map_map]
  have e : ∀ i, (c.ph vt + i) % c.pages = c.ph (vt + i) := fun i => by unfold Cfg.ph; rw [Nat.mod_add_mod]
  rw [show ((fun i => (c.ph vt + i) % c.pages) : Nat → Nat) = c.ph ∘ (fun i => vt + i) from funext e]
  congr 1
  apply List.filter_congr
  intro i _
  have e2 := ph_mod_ppc hc (vt + i)
  simp only [Function.comp, e2]

theorem posQ_cons (hc : c.Valid) {vt vh : Nat} (hu : c.isU vt) (hu' : c.isU vh) (h : vt < vh) :
    posQ c vt (vh - vt) = c.ph vt :: posQ c (c.nextV vt) (vh - c.nextV vt) := by
  have hu0 : vt % c.ppc ≠ c.ppc - 1 := hu
  have hle := nextV_le hc hu hu' h
  unfold posQ
  rcases nextV_cases hc hu with ⟨a, b, d⟩ | ⟨a, b, d⟩
  · rw [b, show vh - vt = (vh - (vt + 1)) + 1 by omega, List.range'_succ, List.filter_cons_of_pos (by simpa using hu0)]
    rfl
  · rw [b] at hle ⊢
    have hl : (vt + 1) % c.ppc = c.ppc - 1 := by
      have := (div_add_lt (v := vt) (k := 1) (m := c.ppc) (by omega)).2
      omega
    rw [show vh - vt = (vh - (vt + 2)) + 1 + 1 by omega, List.range'_succ, List.range'_succ, List.filter_cons_of_pos (by simpa using hu0),
      List.filter_cons_of_neg (by simpa using hl)]
    rfl

theorem posQ_snoc (hc : c.Valid) {vt vh : Nat} (hu' : c.isU vh) (h : vt ≤ vh) :
    posQ c vt (c.nextV vh - vt) = posQ c vt (vh - vt) ++ [c.ph vh] := by
  have hu0 : vh % c.ppc ≠ c.ppc - 1 := hu'
  unfold posQ
  rcases nextV_cases hc hu' with ⟨a, b, d⟩ | ⟨a, b, d⟩
  · rw [b, show vh + 1 - vt = (vh - vt) + 1 by omega, List.range'_concat, List.filter_append, List.map_append]
    congr 1
    rw [show vt + 1 * (vh - vt) = vh by omega, List.filter_cons_of_pos (by simpa using hu0)]
    rfl
  · have hl : (vh + 1) % c.ppc = c.ppc - 1 := by
      have := (div_add_lt (v := vh) (k := 1) (m := c.ppc) (by omega)).2
      omega
    rw [b, show vh + 2 - vt = (vh - vt) + 1 + 1 by omega, List.range'_concat, List.range'_concat, List.append_assoc, List.filter_append, List.map_append]
    congr 1
    rw [show vt + 1 * (vh - vt) = vh by omega, show vt + 1 * (vh - vt + 1) = vh + 1 by omega, List.cons_append, List.nil_append,
      List.filter_cons_of_pos (by simpa using hu0), List.filter_cons_of_neg (by simpa using hl)]
    rfl

theorem Geo0.queue (hc : c.Valid) {s : S} {vts vt vh : Nat} (g : Geo0 c s vts vt vh) : c.slots s.j.tail s.j.head = posQ c vt (vh - vt) := by
  rw [g.et, g.eh]
  exact slots_pos hc g.l2 (by have := g.size_lt; have := g.l1; omega)

/-- The page in front of the tail is not in the queue. -/
theorem gone (hc : c.Valid) {v vh : Nat} (hu : c.isU v) (hu' : c.isU vh) (h1 : c.nextV v ≤ vh) (h2 : vh < c.nextV v + c.pages) :
    c.ph v ∉ posQ c (c.nextV v) (vh - c.nextV v) := by
  intro h
  unfold posQ at h
  rw [List.mem_map] at h
  obtain ⟨w, h3, h4⟩ := h
  rw [List.mem_filter, List.mem_range'_1] at h3
  have hlt := lt_nextV c v
  obtain ⟨⟨w1, w2⟩, w3⟩ := h3
  have hp := hc.pages_pos
  -- w is a full turn further
  have hw : v + c.pages ≤ w := by
    apply Classical.byContradiction; intro hn
    unfold Cfg.ph at h4
    have := mod_inj (a := w) (b := v) (base := v) (m := c.pages) (by omega) (by omega) (by omega) (by omega) h4
    omega
  rcases nextV_cases hc hu with ⟨a, b, d⟩ | ⟨a, b, d⟩
  · omega
  · have : vh = v + 1 + c.pages := by omega
    have hd := hc.ppc_dvd_pages
    have hl : (v + 1) % c.ppc = c.ppc - 1 := by
      have := (div_add_lt (v := v) (k := 1) (m := c.ppc) (by omega)).2
      omega
    apply hu'
    rw [this, Nat.add_mod, Nat.mod_eq_zero_of_dvd hd, Nat.add_zero, Nat.mod_mod, hl]

theorem gc_step (hc : c.Valid) (hF : Fits c) (hH : Healthy c) {s s' : S} (hI : ∃ σ vts vt vh vr, HI c s σ vts vt vh vr 0) (hn : s.count ≠ 0)
    (hs : step c .gc s = (.ok (), s')) :
    ∃ p new, (new = [] ∨ new = [s.j.head]) ∧ s.j.tail = p ∧ c.slots s.j.tail s.j.head = p :: (c.slots s.j.tail s.j.head).tail ∧
      c.slots s'.j.tail s'.j.head = (c.slots s.j.tail s.j.head).tail ++ new ∧ p ∉ c.slots s'.j.tail s'.j.head ∧ s'.count = s.count := by
  obtain ⟨σ, vts, vt, vh, vr, hI⟩ := hI
  have hI := hI.tick
  have hs : mapGc c (tick s) = (.ok (), s') := hs
  have g := hI.inv.geo
  have et : s.j.tail = c.ph vt := g.et
  have eh : s.j.head = c.ph vh := g.eh
  have hq : c.slots s.j.tail s.j.head = posQ c vt (vh - vt) := g.toGeo0.queue hc
  rcases mapGc_healthy hc hF hH hI (by unfold Cfg.gk; omega) with ⟨e, s2, hr, _⟩ | ⟨_, h0 | h0⟩ | ⟨s2, vts', vh', vr', hr, _, hlt, h1, h2⟩
  · rw [hr] at hs; cases hs
  · exact absurd h0 hn
  · have := hI.inv.data_range h0
    exact absurd (hI.cnt.unique (Cnt.zero fun t ht => hI.inv.tr.emp t ht (dict_none this t))) hn
  · rw [hr] at hs; cases hs
    have g' := h1.inv.geo
    have hq' : c.slots s'.j.tail s'.j.head = posQ c (c.nextV vt) (vh' - c.nextV vt) := g'.toGeo0.queue hc
    have hcons := posQ_cons hc g.ut g.uh hlt
    have hle := nextV_le hc g.ut g.uh hlt
    have hsz := g'.toGeo0.size_lt
    have hl' := g'.l1
    have hg : c.ph vt ∉ posQ c (c.nextV vt) (vh' - c.nextV vt) := gone hc g.ut g'.uh g'.l2 (by omega)
    refine ⟨c.ph vt, if vh' = vh then [] else [s.j.head], ?_, et, ?_, ?_, ?_, h1.cnt.unique hI.cnt⟩
    · split
      · exact Or.inl rfl
      · exact Or.inr rfl
    · rw [hq, hcons]; rfl
    · rw [hq', hq, hcons, List.tail_cons]
      rcases h2 with h2 | h2
      · rw [if_pos h2, h2, List.append_nil]
      · rw [if_neg (by have := lt_nextV c vh; omega), h2, posQ_snoc hc g.uh hle, eh]
    · rw [hq']; exact hg

/-- `k` successful calls of gc lead from `s` to `s'`. -/
inductive GcRun (c : Cfg) : Nat → S → S → Prop
  | zero (s : S) : GcRun c 0 s s
  | succ (k : Nat) (s s1 s' : S) : step c .gc s = (.ok (), s1) → GcRun c k s1 s' → GcRun c (k + 1) s s'

/-- A kind of state that is kept by gc and in which the chip is in good order. -/
structure GcOk (c : Cfg) (P : S → Prop) : Prop where
  hi : ∀ s, P s → ∃ σ vts vt vh vr, HI c s σ vts vt vh vr 0
  gc : ∀ s s', P s → step c .gc s = (.ok (), s') → P s'

theorem collects_core (hc : c.Valid) (hF : Fits c) (hH : Healthy c) {P : S → Prop} (hP : GcOk c P) (s s' : S) (h : P s) (hn : mapSize s ≠ 0)
    (k : Nat) (hk : GcRun c k s s') :
    ∃ new, new.length ≤ k ∧ c.slots s'.j.tail s'.j.head = (c.slots s.j.tail s.j.head ++ new).drop k := by
  induction hk with
  | zero s => exact ⟨[], Nat.le_refl _, by rw [List.append_nil]; rfl⟩
  | succ k s s1 s' hs _ ih =>
    obtain ⟨p, n1, h1, _, h2, h3, _, h4⟩ := gc_step hc hF hH (hP.hi s h) hn hs
    obtain ⟨n2, h5, h6⟩ := ih (hP.gc s s1 h hs) (by show s1.count ≠ 0; rw [h4]; exact hn)
    refine ⟨n1 ++ n2, ?_, ?_⟩
    · rw [List.length_append]
      rcases h1 with h1 | h1 <;> rw [h1] <;> simp only [List.length_nil, List.length_cons] <;> omega
    · rw [h6, h3, h2, List.tail_cons, ← List.append_assoc, List.cons_append, List.cons_append, List.drop_succ_cons]

theorem never_grows_core (hc : c.Valid) (hF : Fits c) (hH : Healthy c) {P : S → Prop} (hP : GcOk c P) (s s' : S) (h : P s)
    (k : Nat) (hk : GcRun c k s s') : (c.slots s'.j.tail s'.j.head).length ≤ (c.slots s.j.tail s.j.head).length := by
  by_cases hn : s.count = 0
  · have : ∀ k s s', s.count = 0 → GcRun c k s s' → s'.j = s.j := by
      intro k s s' h0 hk
      induction hk with
      | zero s => rfl
      | succ k s s1 s' hs _ ih =>
        have hs : mapGc c (tick s) = (.ok (), s1) := hs
        unfold mapGc at hs
        rw [if_pos (show (tick s).count = 0 from h0)] at hs
        cases hs
        exact (ih h0).trans rfl
    rw [this k s s' hn hk]
  · obtain ⟨new, h1, h2⟩ := collects_core hc hF hH hP s s' h hn k hk
    rw [h2, List.length_drop, List.length_append]; omega

theorem removes_core (hc : c.Valid) (hF : Fits c) (hH : Healthy c) {P : S → Prop} (hP : GcOk c P) (s s' : S) (h : P s) (hn : mapSize s ≠ 0)
    (i p : Nat) (hp : (c.slots s.j.tail s.j.head)[i]? = some p) (hk : GcRun c (i + 1) s s') : p ∉ c.slots s'.j.tail s'.j.head := by
  induction i generalizing s with
  | zero =>
    cases hk with
    | succ k s s1 s' hs hk =>
      cases hk
      obtain ⟨q, n1, h1, _, h2, h3, h4, _⟩ := gc_step hc hF hH (hP.hi s h) hn hs
      rw [h2] at hp
      cases hp
      exact h4
  | succ i ih =>
    cases hk with
    | succ k s s1 s' hs hk =>
      obtain ⟨q, n1, h1, _, h2, h3, _, h4⟩ := gc_step hc hF hH (hP.hi s h) hn hs
      refine ih s1 (hP.gc s s1 h hs) (by show s1.count ≠ 0; rw [h4]; exact hn) ?_ hk
      rw [h2, List.getElem?_cons_succ] at hp
      rw [h3, List.getElem?_append_left (List.getElem?_eq_some_iff.1 hp).1]
      exact hp

theorem hist_gcOk (hc : c.Valid) (hF : Fits c) (hH : Healthy c) : GcOk c (fun s => Hist c s ∧ Sound c s.n) :=
  ⟨fun _ h => h.1.healthy hc hF hH h.2, fun s s1 h hs => ⟨.call s s1 .gc _ h.1 trivial hs (Or.inl rfl),
    (healthy_stays_sound hc hF hH s s1 h.1 h.2 .gc trivial _ hs (Or.inl rfl)).1⟩⟩

/-- C37: on a chip without block failures, each gc on a map with contents removes the oldest page from the queue and adds at most
one; so `k` calls remove the `k` oldest pages and add at most `k`, and the queue never gets longer. -/
theorem gc_collects (hc : c.Valid) (hF : Fits c) (hH : Healthy c) (s s' : S) (h : Hist c s) (hb : Sound c s.n) (hn : mapSize s ≠ 0)
    (k : Nat) (hk : GcRun c k s s') :
    ∃ new, new.length ≤ k ∧ c.slots s'.j.tail s'.j.head = (c.slots s.j.tail s.j.head ++ new).drop k :=
  collects_core hc hF hH (hist_gcOk hc hF hH) s s' ⟨h, hb⟩ hn k hk

/-- C37: gc never makes the queue longer. -/
theorem gc_never_grows (hc : c.Valid) (hF : Fits c) (hH : Healthy c) (s s' : S) (h : Hist c s) (hb : Sound c s.n)
    (k : Nat) (hk : GcRun c k s s') : (c.slots s'.j.tail s'.j.head).length ≤ (c.slots s.j.tail s.j.head).length :=
  never_grows_core hc hF hH (hist_gcOk hc hF hH) s s' ⟨h, hb⟩ k hk

/-- C37: the page at index `i` of the queue (garbage or not) is out of the queue after `i + 1` calls of gc; if it held a sector,
the sector has been moved (C08: gc leaves the contents alone). -/
theorem gc_removes (hc : c.Valid) (hF : Fits c) (hH : Healthy c) (s s' : S) (h : Hist c s) (hb : Sound c s.n) (hn : mapSize s ≠ 0)
    (i p : Nat) (hp : (c.slots s.j.tail s.j.head)[i]? = some p) (hk : GcRun c (i + 1) s s') : p ∉ c.slots s'.j.tail s'.j.head :=
  removes_core hc hF hH (hist_gcOk hc hF hH) s s' ⟨h, hb⟩ hn i p hp hk

end Dhara

/-! ### A chip to which the theorems apply: a few calls, then two collections -/
namespace Dhara.ExH
open Viol

/-- Eight pages per block, 40 blocks, nothing fails. -/
def cH : Cfg := { mk 3 40 (fun _ => .ok) with fuel := 66263 }

theorem validH : cH.Valid := ⟨by decide, by decide, by decide, by decide, by decide⟩
theorem fuelH : fuelBound cH ≤ cH.fuel := by decide +kernel
theorem fitsH : Fits cH := ⟨by decide, by decide⟩
theorem faultlessH : Faultless cH := fun _ => ⟨rfl, rfl, fun _ => rfl⟩
theorem healthyH : Healthy cH := fun _ => ⟨(fun h => by cases h), (fun h => by cases h)⟩
theorem freshH : Fresh cH (start cH) := ⟨blankChip cH, fun _ => 0, 7, rfl, rfl, rfl⟩
theorem soundH : Sound cH (start cH).n := fun _ _ => rfl
theorem readableH : Readable (start cH).n := fun _ h => by cases h

/-- The calls. -/
def opsH : List Op := [.write 2 (data 1), .write 3 (data 2), .write 2 (data 3), .copySector 2 7, .trim 3]

theorem opsH_ok : ∀ op, op ∈ opsH → op.Valid ∧ op.OnChip cH := by
  intro op h
  unfold opsH at h
  simp only [List.mem_cons, List.not_mem_nil, or_false] at h
  rcases h with h | h | h | h | h <;> subst h <;> simp [Op.Valid, Op.OnChip]

/-- C48 applies. -/
theorem life_example : ∃ evs, Log cH (run cH opsH (start cH)) evs ∧
    ∀ t, t < NONE → Looks cH (run cH opsH (start cH)) t (contents evs t) :=
  (faultless_life validH fitsH faultlessH fuelH _ freshH soundH readableH opsH opsH_ok).2

theorem histH : ∀ ops s, Hist cH s → Sound cH s.n → Readable s.n → (∀ op, op ∈ ops → op.Valid ∧ op.OnChip cH) →
    Hist cH (run cH ops s) ∧ Sound cH (run cH ops s).n := by
  intro ops
  induction ops with
  | nil => intro s h1 h2 _ _; exact ⟨h1, h2⟩
  | cons op ops ih =>
    intro s h1 h2 h3 hv
    obtain ⟨a, b⟩ := hv op (List.mem_cons_self ..)
    obtain ⟨_, h4, h5, h6⟩ := faultless_calls_succeed validH fitsH faultlessH fuelH s h1 h2 h3 op a b
    exact ih _ h4 h5 h6 (fun o ho => hv o (List.mem_cons_of_mem _ ho))

theorem sizeH : mapSize (run cH opsH (start cH)) = 2 := by decide +kernel
theorem queueH : cH.slots (run cH opsH (start cH)).j.tail (run cH opsH (start cH)).j.head = [0, 1, 2, 4, 5] := by decide +kernel
theorem gc1H : (step cH .gc (run cH opsH (start cH))).1 = .ok () := good_iff (by decide +kernel)
theorem gc2H : (step cH .gc (step cH .gc (run cH opsH (start cH))).2).1 = .ok () := good_iff (by decide +kernel)

/-- C37 and C38 apply: page 1, which held sector 3, is out of the queue after two calls of gc. -/
theorem gc_example : 1 ∉ cH.slots (step cH .gc (step cH .gc (run cH opsH (start cH))).2).2.j.tail
    (step cH .gc (step cH .gc (run cH opsH (start cH))).2).2.j.head := by
  obtain ⟨h, hb⟩ := histH opsH (start cH) (.fresh _ freshH) soundH readableH opsH_ok
  refine gc_removes validH fitsH healthyH _ _ h hb (by rw [sizeH]; decide) 1 1 (by rw [queueH]; rfl) ?_
  exact .succ 1 _ _ _ (Prod.ext gc1H rfl) (.succ 0 _ _ _ (Prod.ext gc2H rfl) (.zero _))

end Dhara.ExH

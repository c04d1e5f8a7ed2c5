/-
C37, C38 and C48 for maps that are switched off and on: lives of a map in which the power is cut any number of times while the
journal is clean (for instance, just after a sync), and calls fail because a page could not be read.
-/
import Verif.Props.Healthy
import Verif.Proofs.Healthy4
import Verif.Props.Crash
namespace Dhara

variable {c : Cfg}

/-- The states of a map after a life with restarts: power-up on a chip that carries no checkpoint, then any calls (each of which
succeeds, is refused with E_MAP_FULL, or reports another error although no program or erase operation failed), and power cycles at
moments at which the journal is clean and no read fails during power-up. -/
inductive Life (c : Cfg) : S → Prop
  | fresh (n : Nand) (buf : Buf) (k : Nat) (s : S) : n.dead = false → n.ub = false → Unformatted c n.chip →
      mapResume c (mapInit c buf k n) = (.error .tooBad, s) → Life c s
  | call (s s' : S) (op : Op) (r : Except Err Unit) : Life c s → op.Valid → step c op s = (r, s') →
      (r = .ok () ∨ r = .error .mapFull) → Life c s'
  | failed (s s' : S) (op : Op) (e : Err) : Life c s → op.Valid → step c op s = (.error e, s') → e.Reported →
      Quiet c s.n.time s'.n.time → Life c s'
  | restart (s s' : S) : Life c s → s.j.dirty = false → Powered c s s' → Life c s'

/-- `evs` is a log of such a life; a restart does not change it. -/
inductive LifeLog (c : Cfg) : S → List Ev → Prop
  | fresh (n : Nand) (buf : Buf) (k : Nat) (s : S) : n.dead = false → n.ub = false → Unformatted c n.chip →
      mapResume c (mapInit c buf k n) = (.error .tooBad, s) → LifeLog c s []
  | ok (s s' : S) (op : Op) (evs new : List Ev) : LifeLog c s evs → op.Valid → step c op s = (.ok (), s') →
      Records c s s' evs op new → LifeLog c s' (new ++ evs)
  | full (s s' : S) (op : Op) (evs : List Ev) : LifeLog c s evs → op.Valid → step c op s = (.error .mapFull, s') → LifeLog c s' evs
  | failed (s s' : S) (op : Op) (e : Err) (evs : List Ev) : LifeLog c s evs → op.Valid → step c op s = (.error e, s') → e.Reported →
      Quiet c s.n.time s'.n.time → LifeLog c s' evs
  | restart (s s' : S) (evs : List Ev) : LifeLog c s evs → s.j.dirty = false → Powered c s s' → LifeLog c s' evs

theorem Effect.records {s s' : S} {evs : List Ev} {σ' : Nat → Option Buf} {op : Op} (he : Effect c (tick s) s' (contents evs) σ' op) :
    ∃ new, Records c s s' evs op new ∧ σ' = contents (new ++ evs) := by
  cases op with
  | write dst data => exact ⟨_, rfl, he⟩
  | trim t => exact ⟨_, rfl, he⟩
  | clear => exact ⟨_, rfl, he⟩
  | sync => exact ⟨_, rfl, he⟩
  | gc => exact ⟨_, rfl, he⟩
  | copyPage p dst =>
    obtain ⟨b, h2, h3⟩ := he
    exact ⟨_, ⟨b, rfl, h3⟩, h2⟩
  | copySector src dst =>
    obtain ⟨h2, h3⟩ := he
    cases hcs : contents evs src with
    | none => refine ⟨[.del dst], ?_, h2 hcs⟩; simp only [Records, hcs]
    | some b =>
      obtain ⟨b', h4, h5⟩ := h3 b hcs
      refine ⟨[.put dst b'], ?_, h4⟩; simp only [Records, hcs]; exact ⟨b', rfl, h5⟩

theorem Sound.few (hc : c.Valid) {n : Nand} (h : Sound c n) : FewBad c n.chip := by
  have := hc.blocks_lo
  intro i hi
  exact ⟨i, i + 1, Nat.le_refl _, by omega, by omega, h i (by omega), h (i + 1) (by omega)⟩

theorem PInv.sig_wd {s : S} {σ σ' : Nat → Option Buf} (h : PInv c s σ WD) (he : ∀ t, t < NONE → σ' t = σ t) : PInv c s σ' WD := by
  obtain ⟨⟨vts, vt, vh, vr, g, hcalm, hT, hD, hR⟩, hcnt⟩ := h
  exact ⟨⟨vts, vt, vh, vr, g, hcalm, hT.sig he, hD, hR⟩, hcnt.congr he⟩

/-- The chip of a restarted map is the chip it had. -/
theorem reboot_chip {s s' : S} {buf : Buf} {cnt : Nat} {r : Except Err Unit} (h : reboot c buf cnt s = (r, s')) :
    s'.n = { s.n with time := s.n.time + 1, dead := false } := by
  have h' : mapResume c (mapInit c buf cnt { s.n with time := s.n.time + 1, dead := false }) = (r, s') := h
  unfold mapResume at h'
  split at h' <;> cases h' <;> rfl

/-- What is known about a life with restarts on a chip without block failures. -/
theorem Life.inv (hc : c.Valid) (hF : Fits c) (hH : Healthy c) (hJ : NoForgery c) {s : S} (h : Life c s) (hb : Sound c s.n) :
    ∃ evs, LifeLog c s evs ∧ PInv c s (contents evs) WD ∧ ∃ σ vts vt vh vr, HI c s σ vts vt vh vr 0 := by
  induction h with
  | fresh n buf k s h1 h2 h3 h4 =>
    exact ⟨[], .fresh n buf k s h1 h2 h3 h4, fresh_wd hc h1 h2 h3 h4, _, _, _, _, _, Fresh.healthy hc ⟨n, buf, k, h1, h2, h4⟩ hb⟩
  | call s s' op r h hv hs hr ih =>
    obtain ⟨evs, hl, hP, σ, vts, vt, vh, vr, hI⟩ := ih (sound_before (c := c) (op := op) (by rw [hs]; exact hb))
    have key := call_healthy hc hF hH op hv hI.tick
    have key2 := (call_wd hc hJ hP op hv (Or.inr fun t _ _ => (hH t).1)).1
    rw [show Dhara.call c op (tick s) = step c op s from rfl, hs] at key
    rw [hs] at key2
    have hI' : ∃ σ vts vt vh vr, HI c s' σ vts vt vh vr 0 := by
      rcases key with ⟨e, h1, h2, h3⟩ | ⟨_, h2⟩
      · rcases hr with hr | hr
        · rw [hr] at h1; cases h1
        · rw [hr] at h1; cases h1; exact absurd rfl h2
      · exact h2
    cases key2 with
    | ok _ σ' h1 he _ =>
      obtain ⟨new, h2, h3⟩ := Effect.records he
      exact ⟨new ++ evs, .ok s s' op evs new hl hv hs h2, h3 ▸ h1.wd, hI'⟩
    | full _ h1 _ _ => exact ⟨evs, .full s s' op evs hl hv hs, h1.wd, hI'⟩
    | stop _ e he _ => rcases hr with h | h <;> cases h; exact absurd rfl he
  | failed s s' op e h hv hs he hq ih =>
    obtain ⟨evs, hl, hP, σ, vts, vt, vh, vr, hI⟩ := ih (sound_before (c := c) (op := op) (by rw [hs]; exact hb))
    have key := call_healthy hc hF hH op hv hI.tick
    have key2 := (call_wd hc hJ hP op hv (Or.inr fun t _ _ => (hH t).1)).2 e s' hs he.1 he.2.1 he.2.2 (hq.noisy (Nat.le_succ _))
    rw [show Dhara.call c op (tick s) = step c op s from rfl, hs] at key
    refine ⟨evs, .failed s s' op e evs hl hv hs he hq, key2.wd, ?_⟩
    rcases key with ⟨e', h1, h2, h3⟩ | ⟨_, h2⟩
    · cases h1
      refine h3.2 ?_
      by_cases hx : e = .ecc
      · exact hx
      · exact absurd ⟨he.1, hx, he.2.1, he.2.2⟩ h3.1
    · exact h2
  | restart s s' h hcl hp ih =>
    obtain ⟨hfb, hrd, buf, cnt, r, he⟩ := hp
    have hn := reboot_chip he
    have hb' : Sound c s.n := fun b hbb => by have := hb b hbb; rw [hn] at this; exact this
    obtain ⟨evs, hl, hP, σ, vts, vt, vh, vr, hI⟩ := ih hb'
    refine ⟨evs, .restart s s' evs hl hcl ⟨hfb, hrd, buf, cnt, r, he⟩, ?_⟩
    by_cases hroot : s.j.root = NONE
    · obtain ⟨_, _, _, _, σ', _, _, _, _, h1, h2, h3⟩ := restart_blank hc hP hb' hcl hroot hfb hrd he
      exact ⟨h2.sig_wd fun t ht => (h1 t ht).symm, _, _, _, _, _, h3⟩
    · obtain ⟨_, _, _, σ', _, _, _, _, h1, h2, h3⟩ := restart_healthy hc hF hI hP hcl hroot hfb hrd he
      exact ⟨h2.sig_wd fun t ht => (h1 t ht).symm, _, _, _, _, _, h3⟩

/-! ### C38 -/

/-- C38 with restarts: on a chip without bad blocks on which no program and no erase fails, a call that fails fails because the map is
full, a read failed, or the power did, however often the map was restarted before. -/
theorem life_never_full (hc : c.Valid) (hF : Fits c) (hH : Healthy c) (hJ : NoForgery c) (hf : fuelBound c ≤ c.fuel) (s s' : S) (h : Life c s)
    (hb : Sound c s.n) (op : Op) (hv : op.Valid) (ho : op.OnChip c) (e : Err) (hs : step c op s = (.error e, s')) :
    e = .mapFull ∨ e = .ecc ∨ e = .powerLoss := by
  obtain ⟨evs, _, hP, σ, vts, vt, vh, vr, hI⟩ := h.inv hc hF hH hJ hb
  have key := call_healthy hc hF hH op hv hI.tick
  have hfo := call_faultless (Q := False) ⟨hH, False.elim⟩ op (s := tick s) ⟨False.elim, False.elim, hI.inv.calm.nr⟩
  rw [show Dhara.call c op (tick s) = step c op s from rfl, hs] at key hfo
  have nr : ¬ RootlessRecovery s' := fun hx => by have := hfo.ok.nr; rw [hx.1] at this; cases this
  have hM : MInv c s (contents evs) (Gh.triv c s'.n.time) := by
    obtain ⟨⟨vts, vt, vh, vr, g, hcalm, hT, hD, hR⟩, hcnt⟩ := hP
    exact ⟨⟨_, _, _, _, ⟨g, hcalm, hT, Or.inr fun t _ _ => (hH t).1, trivial⟩⟩, hcnt⟩
  rcases key with ⟨e', h1, h2, h3⟩ | ⟨h1, _⟩
  · cases h1
    have ht := total_core hc hM hv hs (ub := false) (dv := false) (Or.inl ho) (Or.inr hf) h2
    rcases ht with ⟨h4, h5⟩ | ⟨h4, _⟩
    · by_cases h6 : e = .ecc
      · exact Or.inr (Or.inl h6)
      · by_cases h7 : e = .powerLoss
        · exact Or.inr (Or.inr h7)
        · exact absurd ⟨h7, h6, fun h => absurd (h4 h) (by decide), fun h => absurd (h5 h) (by decide)⟩ h3.1
    · exact absurd h4 nr
  · rcases h1 with h1 | h1
    · cases h1
    · cases h1; exact Or.inl rfl

/-- C38 with restarts: the chip stays without bad blocks, so the theorem applies to the next call. -/
theorem life_stays_sound (hc : c.Valid) (hF : Fits c) (hH : Healthy c) (hJ : NoForgery c) (s s' : S) (h : Life c s) (hb : Sound c s.n) (op : Op)
    (hv : op.Valid) (r : Except Err Unit) (hs : step c op s = (r, s')) (hr : r = .ok () ∨ r = .error .mapFull ∨ r = .error .ecc) :
    Sound c s'.n ∧ Life c s' := by
  obtain ⟨evs, _, hP, σ, vts, vt, vh, vr, hI⟩ := h.inv hc hF hH hJ hb
  have key := call_healthy hc hF hH op hv hI.tick
  rw [show Dhara.call c op (tick s) = step c op s from rfl, hs] at key
  have hh : Life c s' := by
    rcases hr with hr | hr | hr
    · exact .call s s' op r h hv hs (Or.inl hr)
    · exact .call s s' op r h hv hs (Or.inr hr)
    · rw [hr] at hs
      exact .failed s s' op _ h hv hs ⟨by decide, by decide, by decide⟩ (fun t _ _ => hH t)
  refine ⟨?_, hh⟩
  rcases key with ⟨e', h1, h2, h3⟩ | ⟨_, _, _, _, _, _, h2⟩
  · rcases hr with hr | hr | hr
    · rw [hr] at h1; cases h1
    · rw [hr] at h1; cases h1; exact absurd rfl h2
    · rw [hr] at h1; cases h1
      obtain ⟨_, _, _, _, _, h4⟩ := h3.2 rfl
      exact h4.sound
  · exact h2.sound

/-- C38: a power cycle while the journal is clean. Power-up finds the map (or, if nothing was ever written, reports E_TOO_BAD and
starts an empty one); the chip is as before, so the theorems apply again; the size and every sector are as before. -/
theorem life_power_cycle (hc : c.Valid) (hF : Fits c) (hH : Healthy c) (hJ : NoForgery c) (s s' : S) (h : Life c s) (hb : Sound c s.n)
    (hcl : s.j.dirty = false) (hr : ∀ p, p < c.pages → c.env.readFail (s.n.time + 1) p = false) (buf : Buf) (cnt : Nat) (r : Except Err Unit)
    (he : reboot c buf cnt s = (r, s')) :
    (r = .ok () ∨ (r = .error .tooBad ∧ mapSize s = 0)) ∧ Life c s' ∧ Sound c s'.n ∧ s'.n.chip = s.n.chip ∧ mapSize s' = mapSize s ∧
    ∀ t o, t < NONE → ReadsOk c s → (Looks c s' t o ↔ Looks c s t o) := by
  have hn := reboot_chip he
  have hfb := hb.few hc
  have hlife : Life c s' := .restart s s' h hcl ⟨hfb, hr, buf, cnt, r, he⟩
  have hb' : Sound c s'.n := by rw [hn]; exact hb
  obtain ⟨evs, hl, hP, σ, vts, vt, vh, vr, hI⟩ := h.inv hc hF hH hJ hb
  have hro : ReadsOk c s' := by intro p hp; rw [hn]; exact hr p hp
  have key : (r = .ok () ∨ (r = .error .tooBad ∧ mapSize s = 0)) ∧ PInv c s' (contents evs) WD := by
    by_cases hroot : s.j.root = NONE
    · obtain ⟨h0, _, _, _, σ', _, _, _, _, h1, h2, _⟩ := restart_blank hc hP hb hcl hroot hfb hr he
      refine ⟨Or.inr ⟨h0, ?_⟩, h2.sig_wd fun t ht => (h1 t ht).symm⟩
      exact hI.cnt.unique (Cnt.zero fun t ht => hI.inv.tr.emp t ht (by rw [hroot]; exact dict_none rfl _))
    · obtain ⟨h0, _, _, σ', _, _, _, _, h1, h2, _⟩ := restart_healthy hc hF hI hP hcl hroot hfb hr he
      exact ⟨Or.inl h0, h2.sig_wd fun t ht => (h1 t ht).symm⟩
  refine ⟨key.1, hlife, hb', by rw [hn], key.2.cnt.unique hP.cnt, fun t o ht hr0 => ?_⟩
  have h1 := hP.calm.looks hc hr0 ht
  have h2 := key.2.calm.looks hc hro ht
  constructor
  · intro h3
    rw [← key.2.calm.of_looks hc ht h3]; exact h1
  · intro h3
    rw [← hP.calm.of_looks hc ht h3]; exact h2

/-- After a successful sync the journal is clean, so a power cycle is harmless. -/
theorem sync_clean {s s' : S} (hs : step c .sync s = (.ok (), s')) : s'.j.dirty = false := mapSyncLoop_clean _ _ _ hs

/-! ### C37 -/

theorem life_gcOk (hc : c.Valid) (hF : Fits c) (hH : Healthy c) (hJ : NoForgery c) : GcOk c (fun s => Life c s ∧ Sound c s.n) :=
  ⟨fun _ h => by obtain ⟨_, _, _, h⟩ := h.1.inv hc hF hH hJ h.2; exact h,
   fun s s1 h hs => ((life_stays_sound hc hF hH hJ s s1 h.1 h.2 .gc trivial _ hs (Or.inl rfl))).symm⟩

/-- C37 with restarts: `k` calls of gc remove the `k` oldest pages from the queue and add at most `k`. -/
theorem life_gc_collects (hc : c.Valid) (hF : Fits c) (hH : Healthy c) (hJ : NoForgery c) (s s' : S) (h : Life c s) (hb : Sound c s.n)
    (hn : mapSize s ≠ 0) (k : Nat) (hk : GcRun c k s s') :
    ∃ new, new.length ≤ k ∧ c.slots s'.j.tail s'.j.head = (c.slots s.j.tail s.j.head ++ new).drop k :=
  collects_core hc hF hH (life_gcOk hc hF hH hJ) s s' ⟨h, hb⟩ hn k hk

/-- C37 with restarts: gc never makes the queue longer. -/
theorem life_gc_never_grows (hc : c.Valid) (hF : Fits c) (hH : Healthy c) (hJ : NoForgery c) (s s' : S) (h : Life c s) (hb : Sound c s.n)
    (k : Nat) (hk : GcRun c k s s') : (c.slots s'.j.tail s'.j.head).length ≤ (c.slots s.j.tail s.j.head).length :=
  never_grows_core hc hF hH (life_gcOk hc hF hH hJ) s s' ⟨h, hb⟩ k hk

/-- C37 with restarts: the page at index `i` of the queue is out of it after `i + 1` calls of gc. -/
theorem life_gc_removes (hc : c.Valid) (hF : Fits c) (hH : Healthy c) (hJ : NoForgery c) (s s' : S) (h : Life c s) (hb : Sound c s.n)
    (hn : mapSize s ≠ 0) (i p : Nat) (hp : (c.slots s.j.tail s.j.head)[i]? = some p) (hk : GcRun c (i + 1) s s') :
    p ∉ c.slots s'.j.tail s'.j.head :=
  removes_core hc hF hH (life_gcOk hc hF hH hJ) s s' ⟨h, hb⟩ hn i p hp hk

/-! ### C48 -/

/-- What the application does: a call, or a sync followed by a power cycle (which leaves arbitrary values in memory). -/
inductive Act where
  | op (op : Op)
  | cycle (buf : Buf) (cnt : Nat)

/-- Its execution. The power is cut only if the sync succeeds. -/
def act (c : Cfg) : Act → S → Except Err Unit × S
  | .op op, s => step c op s
  | .cycle buf cnt, s =>
    match step c .sync s with
    | (.ok (), s) => reboot c buf cnt s
    | (.error e, s) => (.error e, s)

def acts (c : Cfg) : List Act → S → S
  | [], s => s
  | a :: as, s => acts c as (act c a s).2

def Act.Fine (c : Cfg) : Act → Prop
  | .op o => o.Valid ∧ o.OnChip c
  | .cycle _ _ => True

/-- C48 with restarts, one call. -/
theorem life_calls_succeed (hc : c.Valid) (hF : Fits c) (hN : Faultless c) (hJ : NoForgery c) (hf : fuelBound c ≤ c.fuel) (s : S) (h : Life c s)
    (hb : Sound c s.n) (hr : Readable s.n) (op : Op) (hv : op.Valid) (ho : op.OnChip c) :
    ((step c op s).1 = .ok () ∨ (step c op s).1 = .error .mapFull) ∧
    Life c (step c op s).2 ∧ Sound c (step c op s).2.n ∧ Readable (step c op s).2.n := by
  have hH : Healthy c := fun t => by
    obtain ⟨h1, h2, _⟩ := hN t
    rw [h1, h2]; exact ⟨by decide, by decide⟩
  have h1 : (step c op s).1 = .ok () ∨ (step c op s).1 = .error .mapFull := by
    obtain ⟨_, _, _, σ, vts, vt, vh, vr, hI⟩ := h.inv hc hF hH hJ hb
    have hfo := call_faultless (Q := True) ⟨hH, fun _ => hN⟩ op (s := tick s) ⟨fun _ => hr, fun _ => hI.inv.geo.alive, hI.inv.calm.nr⟩
    have hfo : FO True (step c op s) := hfo
    rcases hx : step c op s with ⟨e | u, s'⟩
    · rw [hx] at hfo
      have hne := hfo.er e rfl
      rcases life_never_full hc hF hH hJ hf s s' h hb op hv ho e hx with h1 | h1 | h1
      · right; rw [h1]
      · exact absurd (Or.inr (Or.inr ⟨trivial, Or.inl h1⟩)) hne
      · exact absurd (Or.inr (Or.inr ⟨trivial, Or.inr h1⟩)) hne
    · exact Or.inl rfl
  exact ⟨h1, .call s _ op _ h hv rfl h1, (life_stays_sound hc hF hH hJ s _ h hb op hv _ rfl (h1.imp id Or.inl)).1,
    (call_evo (c := c) op (tick s)).read hN hr⟩

theorem mapFull_sync {s s' : S} (h : step c .sync s = (.error .mapFull, s')) : False :=
  mapSyncLoop_nf _ _ (congrArg Prod.fst h)

theorem act_ok (hc : c.Valid) (hF : Fits c) (hN : Faultless c) (hJ : NoForgery c) (hf : fuelBound c ≤ c.fuel) (s : S) (h : Life c s)
    (hb : Sound c s.n) (hr : Readable s.n) (a : Act) (ha : a.Fine c) :
    ((act c a s).1 = .ok () ∨ ((∃ op, a = .op op) ∧ (act c a s).1 = .error .mapFull) ∨
      ((∃ buf cnt, a = .cycle buf cnt) ∧ (act c a s).1 = .error .tooBad ∧ mapSize (act c a s).2 = 0)) ∧
    Life c (act c a s).2 ∧ Sound c (act c a s).2.n ∧ Readable (act c a s).2.n := by
  have hH : Healthy c := fun t => by
    obtain ⟨h1, h2, _⟩ := hN t
    rw [h1, h2]; exact ⟨by decide, by decide⟩
  cases a with
  | op op =>
    obtain ⟨h1, h2⟩ := life_calls_succeed hc hF hN hJ hf s h hb hr op ha.1 ha.2
    refine ⟨?_, h2⟩
    rcases h1 with h1 | h1
    · exact Or.inl h1
    · exact Or.inr (Or.inl ⟨⟨op, rfl⟩, h1⟩)
  | cycle buf cnt =>
    obtain ⟨h1, h2, h3, h4⟩ := life_calls_succeed hc hF hN hJ hf s h hb hr .sync trivial trivial
    rcases hx : step c .sync s with ⟨e | u, s1⟩
    · rw [hx] at h1
      rcases h1 with h1 | h1
      · cases h1
      · cases h1; exact absurd hx mapFull_sync
    · rw [hx] at h2 h3 h4
      rcases hy : reboot c buf cnt s1 with ⟨r, s2⟩
      have e : act c (.cycle buf cnt) s = (r, s2) := by unfold act; simp only [hx, hy]
      rw [e]
      obtain ⟨k1, k2, k3, k4, k5, _⟩ := life_power_cycle hc hF hH hJ s1 s2 h2 h3 (sync_clean hx) (fun p _ => (hN _).2.2 p) buf cnt r hy
      refine ⟨?_, k2, k3, ?_⟩
      · rcases k1 with k1 | ⟨k1, k6⟩
        · exact Or.inl k1
        · exact Or.inr (Or.inr ⟨⟨buf, cnt, rfl⟩, k1, by rw [← k6]; exact k5⟩)
      · intro p; rw [k4]; exact h4 p

/-- C48: the whole life of a map on a chip on which nothing goes wrong, with restarts. From power-up on a chip that carries no
checkpoint, every sequence of calls and orderly restarts (sync, then power off and on) goes through: no call fails except with
E_MAP_FULL, no power-up except with E_TOO_BAD when the map is empty, and in the end every sector reads as the log of the calls says. -/
theorem faultless_restarts (hc : c.Valid) (hF : Fits c) (hN : Faultless c) (hJ : NoForgery c) (hf : fuelBound c ≤ c.fuel) (s0 : S) (h0 : Life c s0)
    (hb : Sound c s0.n) (hr : Readable s0.n) (as : List Act) (hv : ∀ a, a ∈ as → a.Fine c) :
    (∀ k a, as[k]? = some a → (act c a (acts c (as.take k) s0)).1 = .ok () ∨
      ((∃ op, a = .op op) ∧ (act c a (acts c (as.take k) s0)).1 = .error .mapFull) ∨
      ((∃ buf cnt, a = .cycle buf cnt) ∧ (act c a (acts c (as.take k) s0)).1 = .error .tooBad ∧
        mapSize (act c a (acts c (as.take k) s0)).2 = 0)) ∧
    ∃ evs, LifeLog c (acts c as s0) evs ∧ ∀ t, t < NONE → Looks c (acts c as s0) t (contents evs t) := by
  have hH : Healthy c := fun t => by
    obtain ⟨h1, h2, _⟩ := hN t
    rw [h1, h2]; exact ⟨by decide, by decide⟩
  have key : ∀ (as : List Act) (s : S), (∀ a, a ∈ as → a.Fine c) → Life c s → Sound c s.n → Readable s.n →
      Life c (acts c as s) ∧ Sound c (acts c as s).n ∧ Readable (acts c as s).n := by
    intro as
    induction as with
    | nil => intro s _ h1 h2 h3; exact ⟨h1, h2, h3⟩
    | cons a as ih =>
      intro s hv h1 h2 h3
      obtain ⟨_, h4, h5, h6⟩ := act_ok hc hF hN hJ hf s h1 h2 h3 a (hv a (List.mem_cons_self ..))
      exact ih _ (fun o ho => hv o (List.mem_cons_of_mem _ ho)) h4 h5 h6
  refine ⟨?_, ?_⟩
  · intro k a hk
    obtain ⟨h1, h2, h3⟩ := key (as.take k) s0 (fun o ho => hv o (List.mem_of_mem_take ho)) h0 hb hr
    exact (act_ok hc hF hN hJ hf _ h1 h2 h3 a (hv a (List.mem_of_getElem? hk))).1
  · obtain ⟨h1, h2, _⟩ := key as s0 hv h0 hb hr
    obtain ⟨evs, h3, h4, _⟩ := h1.inv hc hF hH hJ h2
    exact ⟨evs, h3, fun t ht => h4.calm.looks hc (fun p _ => (hN _).2.2 p) ht⟩

end Dhara

/-! ### An example: calls, a restart, calls, a restart before which gc has run -/
namespace Dhara.ExH
open Viol

theorem noForgeryH : NoForgery cH := fun _ _ _ _ h => by cases h

theorem lifeH : Life cH (start cH) := .fresh (blankChip cH) (fun _ => 0) 7 _ rfl rfl
  (fun _ _ _ _ h => by cases h; decide) rfl

def actsH : List Act := [.cycle Buf.ff 3, .op (.write 2 (data 1)), .op (.write 3 (data 2)), .cycle Buf.ff 1, .op (.write 2 (data 3)), .op .gc,
  .op .gc, .cycle Buf.ff 9, .op (.copySector 2 7)]

theorem actsH_ok : ∀ a, a ∈ actsH → a.Fine cH := by
  intro a h
  unfold actsH at h
  simp only [List.mem_cons, List.not_mem_nil, or_false] at h
  rcases h with h | h | h | h | h | h | h | h | h <;> subst h <;> simp [Act.Fine, Op.Valid, Op.OnChip]

/-- C48 applies to it. -/
theorem restart_example : ∃ evs, LifeLog cH (acts cH actsH (start cH)) evs ∧
    ∀ t, t < NONE → Looks cH (acts cH actsH (start cH)) t (contents evs t) :=
  (faultless_restarts validH fitsH faultlessH noForgeryH fuelH _ lifeH soundH readableH actsH actsH_ok).2

theorem restart_size : mapSize (acts cH actsH (start cH)) = 3 := by decide +kernel
theorem restart_good : (act cH (.cycle Buf.ff 9) (acts cH (actsH.take 7) (start cH))).1 = .ok () := good_iff (by decide +kernel)

end Dhara.ExH

/-
Properties C01-C06, C09-C11, C15, C16, C39 of the map (and C07, C08): theorems about every history of
calls, whatever program, erase and read operations the chip fails.
-/
import Verif.Proofs.Top
namespace Dhara

variable {c : Cfg}

theorem Calm0.looks (hc : c.Valid) {s : S} {σ : Nat → Option Buf} {T : Gh c} (h : Calm0 c s σ T) (hr : ReadsOk c s) {t : Nat} (ht : t < NONE) :
    Looks c s t (σ t) := by
  have h1 := mapRead_exact hc h ht
  have h2 := mapFind_exact hc h ht
  have nf : ¬ ∃ p, p < c.pages ∧ c.env.readFail s.n.time p = true := by
    rintro ⟨p, hp, hf⟩; rw [hr p hp] at hf; cases hf
  have h1 : mapRead c s t = .ok ((σ t).getD (c.clip Buf.ff)) := by
    rcases h1 with h1 | ⟨_, h1⟩
    · exact h1
    · exact absurd h1 nf
  rcases h2 with ⟨q, b, h3, h4, _⟩ | ⟨h3, h4⟩ | ⟨_, h3⟩
  · rw [h4] at h1 ⊢; exact ⟨⟨q, h3⟩, h1⟩
  · rw [h4] at h1 ⊢; exact ⟨h3, h1⟩
  · exact absurd h3 nf

theorem Calm0.of_looks (hc : c.Valid) {s : S} {σ : Nat → Option Buf} {T : Gh c} (h : Calm0 c s σ T) {t : Nat} (ht : t < NONE) {o : Option Buf}
    (hl : Looks c s t o) : σ t = o := by
  have h2 := mapFind_exact hc h ht
  cases o with
  | none =>
    rcases h2 with ⟨q, b, h3, h4, _⟩ | ⟨h3, h4⟩ | ⟨h3, _⟩
    · rw [hl.1] at h3; cases h3
    · exact h4
    · rw [hl.1] at h3; cases h3
  | some b =>
    obtain ⟨⟨p, hp⟩, hb⟩ := hl
    rcases mapRead_exact hc h ht with h1 | ⟨h1, _⟩
    · rcases h2 with ⟨q, b', h3, h4, _⟩ | ⟨h3, h4⟩ | ⟨h3, _⟩
      · rw [h4] at h1 ⊢; rw [hb] at h1; exact congrArg some (Except.ok.inj h1).symm
      · rw [hp] at h3; cases h3
      · rw [hp] at h3; cases h3
    · rw [hb] at h1; cases h1

theorem Rep.looks (hc : c.Valid) {s : S} {σ : Nat → Option Buf} (h : Rep c s σ) (hr : ReadsOk c s) {t : Nat} (ht : t < NONE) :
    Looks c s t (σ t) := (h 0).calm.looks hc hr ht

theorem Rep.of_looks (hc : c.Valid) {s : S} {σ : Nat → Option Buf} (h : Rep c s σ) {t : Nat} (ht : t < NONE) {o : Option Buf}
    (hl : Looks c s t o) : σ t = o := (h 0).calm.of_looks hc ht hl

theorem Cnt.countIs {σ : Nat → Option Buf} {n : Nat} (h : Cnt σ n) : CountIs σ n := by
  obtain ⟨F, h1, h2⟩ := h
  refine ⟨F.toList, F.nodup_toList, by rw [Finset.length_toList, h2], fun t => ?_⟩
  rw [Finset.mem_toList, h1, Option.isSome_iff_ne_none]

/-! ### C01 -/

/-- C01: after every history there is a log of what the successful calls did, and every read returns what
the log says (or E_ECC if the chip fails a read at that moment). -/
theorem map_is_dictionary (hc : c.Valid) (s : S) (h : Hist c s) :
    ∃ evs, Log c s evs ∧ ∀ t, t < NONE →
      mapRead c s t = .ok ((contents evs t).getD c.blank) ∨
      (mapRead c s t = .error .ecc ∧ ∃ p, p < c.pages ∧ c.env.readFail s.n.time p = true) := by
  obtain ⟨evs, h1, h2⟩ := h.rep hc
  exact ⟨evs, h1, fun t ht => mapRead_exact hc (h2 0).calm ht⟩

/-- A call other than the two copies. -/
def Op.noCopy : Op → Prop
  | .copyPage _ _ => False
  | .copySector _ _ => False
  | _ => True

/-- Histories of writes, trims, clears, syncs and gcs, with the log they determine: `log` is computed from
the calls and their results alone. -/
inductive Plain (c : Cfg) : S → List Ev → Prop
  | fresh (s : S) : Fresh c s → Plain c s []
  | write (s s' : S) (evs : List Ev) (t : Nat) (d : Buf) : Plain c s evs → t < NONE → step c (.write t d) s = (.ok (), s') →
      Plain c s' (.put t (c.clip d) :: evs)
  | refused (s s' : S) (evs : List Ev) (t : Nat) (d : Buf) : Plain c s evs → t < NONE →
      step c (.write t d) s = (.error .mapFull, s') → Plain c s' evs
  | trim (s s' : S) (evs : List Ev) (t : Nat) : Plain c s evs → t < NONE → step c (.trim t) s = (.ok (), s') →
      Plain c s' (.del t :: evs)
  | clear (s s' : S) (evs : List Ev) : Plain c s evs → step c .clear s = (.ok (), s') → Plain c s' (.wipe :: evs)
  | sync (s s' : S) (evs : List Ev) : Plain c s evs → step c .sync s = (.ok (), s') → Plain c s' evs
  | gc (s s' : S) (evs : List Ev) : Plain c s evs → step c .gc s = (.ok (), s') → Plain c s' evs

theorem Plain.rep (hc : c.Valid) {s : S} {evs : List Ev} (h : Plain c s evs) : Rep c s (contents evs) := by
  induction h with
  | fresh s h => exact h.rep hc
  | write s s' evs t d _ ht hs ih =>
    have key := step_rep hc (.write t d) ih ht
    rw [hs] at key
    cases key with
    | ok _ σ' h1 he _ => exact (show σ' = contents (.put t (c.clip d) :: evs) from he) ▸ h1
  | refused s s' evs t d _ ht hs ih =>
    have key := step_rep hc (.write t d) ih ht
    rw [hs] at key
    cases key with
    | full _ h1 _ _ => exact h1
    | stop _ _ he _ => exact absurd rfl he
  | trim s s' evs t _ ht hs ih =>
    have key := step_rep hc (.trim t) ih ht
    rw [hs] at key
    cases key with
    | ok _ σ' h1 he _ => exact (show σ' = contents (.del t :: evs) from he) ▸ h1
  | clear s s' evs _ hs ih =>
    have key := step_rep hc .clear ih trivial
    rw [hs] at key
    cases key with
    | ok _ σ' h1 he _ => exact (show σ' = contents (.wipe :: evs) from he) ▸ h1
  | sync s s' evs _ hs ih =>
    have key := step_rep hc .sync ih trivial
    rw [hs] at key
    cases key with
    | ok _ σ' h1 he _ => exact (show σ' = contents evs from he) ▸ h1
  | gc s s' evs _ hs ih =>
    have key := step_rep hc .gc ih trivial
    rw [hs] at key
    cases key with
    | ok _ σ' h1 he _ => exact (show σ' = contents evs from he) ▸ h1

/-- C01 for histories without copies, where the log is determined by the calls: every read returns the
latest write not trimmed or cleared since. -/
theorem read_returns_latest_write (hc : c.Valid) (s : S) (evs : List Ev) (h : Plain c s evs) (hr : ReadsOk c s) (t : Nat)
    (ht : t < NONE) : mapRead c s t = .ok ((contents evs t).getD c.blank) := by
  rcases mapRead_exact hc (h.rep hc 0).calm ht with h1 | ⟨_, p, hp, hf⟩
  · exact h1
  · rw [hr p hp] at hf; cases hf

/-! ### C02, C03, C05, C09, C10 -/

/-- C02: a successful write, copy or trim leaves every other sector alone. -/
theorem other_sectors_untouched (hc : c.Valid) (s s' : S) (h : Hist c s) (op : Op) (hv : op.Valid)
    (hs : step c op s = (.ok (), s')) (hr : ReadsOk c s') (dst : Nat)
    (hop : (∃ d, op = .write dst d) ∨ (∃ p, op = .copyPage p dst) ∨ (∃ x, op = .copySector x dst) ∨ op = .trim dst)
    (t : Nat) (ht : t < NONE) (hne : t ≠ dst) (o : Option Buf) (hl : Looks c s t o) : Looks c s' t o := by
  obtain ⟨evs, _, hrep⟩ := h.rep hc
  have ho := hrep.of_looks hc ht hl
  have key := step_rep hc op hrep hv
  rw [hs] at key
  cases key with
  | ok _ σ' h1 he _ =>
    have hk := h1.looks hc hr ht
    suffices σ' t = o by rw [this] at hk; exact hk
    rw [← ho]
    have hu : ∀ x, upd (contents evs) dst x t = contents evs t := fun x => if_neg hne
    rcases hop with ⟨d, e⟩ | ⟨p, e⟩ | ⟨x, e⟩ | e <;> subst e
    · exact (show σ' = _ from he) ▸ hu _
    · obtain ⟨b, h2, _⟩ := he; rw [h2]; exact hu _
    · obtain ⟨h2, h3⟩ := he
      cases hx : contents evs x with
      | none => rw [h2 hx]; exact hu _
      | some b => obtain ⟨b', h4, _⟩ := h3 b hx; rw [h4]; exact hu _
    · exact (show σ' = _ from he) ▸ hu _

/-- C03: gc and sync change no sector and not the size. -/
theorem gc_sync_keep_contents (hc : c.Valid) (s s' : S) (h : Hist c s) (op : Op) (hop : op = .gc ∨ op = .sync)
    (hs : step c op s = (.ok (), s')) (hr : ReadsOk c s') :
    mapSize s' = mapSize s ∧ ∀ t, t < NONE → ∀ o, Looks c s t o → Looks c s' t o := by
  obtain ⟨evs, _, hrep⟩ := h.rep hc
  have hv : op.Valid := by rcases hop with e | e <;> subst e <;> trivial
  have key := step_rep hc op hrep hv
  rw [hs] at key
  cases key with
  | ok _ σ' h1 he _ =>
    have he : σ' = contents evs := by rcases hop with e | e <;> subst e <;> exact he
    subst he
    refine ⟨(h1 0).cnt.unique (hrep 0).cnt, fun t ht o hl => ?_⟩
    have := h1.looks hc hr ht
    rw [hrep.of_looks hc ht hl] at this; exact this

/-- C05: a call refused with E_MAP_FULL changes nothing. -/
theorem refused_changes_nothing (hc : c.Valid) (s s' : S) (h : Hist c s) (op : Op) (hv : op.Valid)
    (hs : step c op s = (.error .mapFull, s')) (hr : ReadsOk c s') :
    mapSize s' = mapSize s ∧ ∀ t, t < NONE → ∀ o, Looks c s t o → Looks c s' t o := by
  obtain ⟨evs, _, hrep⟩ := h.rep hc
  have key := step_rep hc op hrep hv
  rw [hs] at key
  cases key with
  | full _ h1 _ _ =>
    refine ⟨(h1 0).cnt.unique (hrep 0).cnt, fun t ht o hl => ?_⟩
    have := h1.looks hc hr ht
    rw [hrep.of_looks hc ht hl] at this; exact this
  | stop _ _ he _ => exact absurd rfl he

/-- C09: a trim removes its sector; trimming an unmapped sector changes no sector and not the size;
trimming a mapped sector lowers the size by one; trimming the only sector leaves the map empty. -/
theorem trim_removes (hc : c.Valid) (s s' : S) (h : Hist c s) (t : Nat) (ht : t < NONE)
    (hs : step c (.trim t) s = (.ok (), s')) (hr : ReadsOk c s') :
    Looks c s' t none ∧
    (∀ u, u < NONE → u ≠ t → ∀ o, Looks c s u o → Looks c s' u o) ∧
    (Looks c s t none → mapSize s' = mapSize s) ∧
    (∀ b, Looks c s t (some b) → mapSize s' + 1 = mapSize s) ∧
    (∀ b, Looks c s t (some b) → mapSize s = 1 → ∀ u, u < NONE → Looks c s' u none) := by
  obtain ⟨evs, _, hrep⟩ := h.rep hc
  have key := step_rep hc (.trim t) hrep ht
  rw [hs] at key
  cases key with
  | ok _ σ' h1 he _ =>
    have he : σ' = upd (contents evs) t none := he
    subst he
    have hl := fun u hu => h1.looks hc hr (t := u) hu
    have hcnt : ∀ b, Looks c s t (some b) → mapSize s' + 1 = mapSize s := by
      intro b hb
      obtain ⟨h2, h3⟩ := (hrep 0).cnt.erase ht (hrep.of_looks hc ht hb)
      have := (h1 0).cnt.unique h2
      show s'.count + 1 = s.count
      omega
    refine ⟨?_, ?_, ?_, hcnt, ?_⟩
    · have := hl t ht
      rw [show upd (contents evs) t none t = none from if_pos rfl] at this; exact this
    · intro u hu hne o ho
      have := hl u hu
      rw [show upd (contents evs) t none u = contents evs u from if_neg hne, hrep.of_looks hc hu ho] at this; exact this
    · intro hb
      exact (h1 0).cnt.unique ((hrep 0).cnt.erase_none (hrep.of_looks hc ht hb))
    · intro b hb h1' u hu
      have h0 : s'.count = 0 := by have := hcnt b hb; unfold mapSize at *; omega
      have h2 := (h1 0).cnt
      rw [h0] at h2
      have := hl u hu
      rw [h2.zero_iff u hu] at this; exact this

/-- C10: after clear the map is empty. -/
theorem clear_empties (hc : c.Valid) (s s' : S) (h : Hist c s) (r : Except Err Unit) (hs : step c .clear s = (r, s')) (hr : ReadsOk c s') :
    r = .ok () ∧ mapSize s' = 0 ∧ ∀ t, t < NONE → Looks c s' t none := by
  have hok : r = .ok () := by
    unfold step call at hs; cases hs; rfl
  subst hok
  obtain ⟨evs, _, hrep⟩ := h.rep hc
  have key := step_rep hc .clear hrep trivial
  rw [hs] at key
  cases key with
  | ok _ σ' h1 he _ =>
    have he : σ' = fun _ => none := he
    subst he
    exact ⟨rfl, (h1 0).cnt.unique (Cnt.zero fun _ _ => rfl), fun t ht => h1.looks hc hr ht⟩

/-- What a successful write does to its own sector. -/
theorem write_stores (hc : c.Valid) (s s' : S) (h : Hist c s) (t : Nat) (d : Buf) (ht : t < NONE)
    (hs : step c (.write t d) s = (.ok (), s')) (hr : ReadsOk c s') : Looks c s' t (some (c.clip d)) := by
  obtain ⟨evs, _, hrep⟩ := h.rep hc
  have key := step_rep hc (.write t d) hrep ht
  rw [hs] at key
  cases key with
  | ok _ σ' h1 he _ =>
    have := h1.looks hc hr ht
    rw [show σ' = _ from he, show upd (contents evs) t (some (c.clip d)) t = _ from if_pos rfl] at this; exact this

/-! ### C04, C06 -/

/-- C04: the size is the number of sectors that find locates. -/
theorem size_counts_mapped (hc : c.Valid) (s : S) (h : Hist c s) (hr : ReadsOk c s) :
    ∃ l : List Nat, l.Nodup ∧ l.length = mapSize s ∧ ∀ t, t ∈ l ↔ t < NONE ∧ ∃ p, mapFind c s t = .ok p := by
  obtain ⟨evs, _, hrep⟩ := h.rep hc
  obtain ⟨l, h1, h2, h3⟩ := (hrep 0).cnt.countIs
  refine ⟨l, h1, h2, fun t => ?_⟩
  rw [h3]
  constructor
  · rintro ⟨ht, hn⟩
    refine ⟨ht, ?_⟩
    have := hrep.looks hc hr ht
    cases hσ : contents evs t with
    | none => exact absurd hσ hn
    | some b => rw [hσ] at this; exact this.1
  · rintro ⟨ht, p, hp⟩
    refine ⟨ht, fun hn => ?_⟩
    have := hrep.looks hc hr ht
    rw [hn] at this; rw [this.1] at hp; cases hp

/-- C06: only insertions are refused, and only when the size has reached the capacity. -/
theorem refusal_means_full (hc : c.Valid) (s s' : S) (h : Hist c s) (op : Op) (hv : op.Valid)
    (hs : step c op s = (.error .mapFull, s')) :
    mapCapacity c s' ≤ mapSize s' ∧
    ∃ dst, ((∃ d, op = .write dst d) ∨ (∃ p, op = .copyPage p dst) ∨ (∃ x, op = .copySector x dst)) ∧
      ∀ b, ¬ Looks c s dst (some b) := by
  obtain ⟨evs, _, hrep⟩ := h.rep hc
  have key := step_rep hc op hrep hv
  rw [hs] at key
  cases key with
  | full _ h1 hcap hop =>
    obtain ⟨dst, h2, h3⟩ := hop
    refine ⟨hcap, dst, h2, fun b hb => ?_⟩
    have hd : dst < NONE := by
      rcases h2 with ⟨_, e⟩ | ⟨_, e⟩ | ⟨_, e⟩ <;> subst e
      · exact hv
      · exact hv
      · exact hv.2
    rw [hrep.of_looks hc hd hb] at h3; cases h3
  | stop _ _ he _ => exact absurd rfl he

/-- C06: a call that makes the map grow adds one sector, and it did so after an automatic collection that ended with
the size still below the capacity. -/
theorem growth_within_capacity (hc : c.Valid) (s s' : S) (h : Hist c s) (op : Op) (hv : op.Valid)
    (hs : step c op s = (.ok (), s')) (hgrow : mapSize s < mapSize s') :
    mapSize s' = mapSize s + 1 ∧ Room c s s' := by
  obtain ⟨evs, _, hrep⟩ := h.rep hc
  have key := step_rep hc op hrep hv
  rw [hs] at key
  cases key with
  | ok _ σ' h1 he hg =>
    have h2 := (h1 0).cnt
    have h0 := (hrep 0).cnt
    have hput : ∀ dst b, dst < NONE → σ' = upd (contents evs) dst (some b) → s'.count ≤ s.count + 1 := by
      intro dst b hd e
      rw [e] at h2
      cases ho : contents evs dst with
      | none => rw [h2.unique (h0.insert_new hd ho)]
      | some b0 => rw [h2.unique (h0.insert_old ho)]; omega
    have hdel : ∀ dst, dst < NONE → σ' = upd (contents evs) dst none → s'.count ≤ s.count + 1 := by
      intro dst hd e
      rw [e] at h2
      cases ho : contents evs dst with
      | none => rw [h2.unique (h0.erase_none ho)]; omega
      | some b0 => rw [h2.unique (h0.erase hd ho).1]; omega
    have hle : s'.count ≤ s.count + 1 := by
      cases op with
      | write dst d => exact hput dst _ hv he
      | copyPage p dst => obtain ⟨b, e, _⟩ := he; exact hput dst b hv e
      | copySector x dst =>
        cases hx : contents evs x with
        | none => exact hdel dst hv.2 (he.1 hx)
        | some b => obtain ⟨b', e, _⟩ := he.2 b hx; exact hput dst b' hv.2 e
      | trim t => exact hdel t hv he
      | clear =>
        rw [show σ' = fun _ => none from he] at h2
        rw [h2.unique (Cnt.zero fun _ _ => rfl)]; omega
      | sync => rw [show σ' = _ from he] at h2; rw [h2.unique h0]; omega
      | gc => rw [show σ' = _ from he] at h2; rw [h2.unique h0]; omega
    have hgrow' : s.count < s'.count := hgrow
    have e : s'.count = s.count + 1 := by omega
    obtain ⟨a, b, d1, d2, d3, d4, d5, d6⟩ := hg e
    have : (tick s).n.time = s.n.time + 1 := rfl
    exact ⟨e, a, b, d1, by omega, d3, d4, d5, d6⟩

/-! ### C07, C08 -/

/-- C07: copy_sector makes the destination look like the source did, unless the source's page was not
programmed or was erased during the call. -/
theorem copy_sector_copies (hc : c.Valid) (s s' : S) (h : Hist c s) (src dst : Nat) (h1 : src < NONE) (h2 : dst < NONE)
    (hs : step c (.copySector src dst) s = (.ok (), s')) (hr : ReadsOk c s') :
    (Looks c s src none → Looks c s' dst none) ∧
    (∀ b p, Looks c s src (some b) → mapFind c (tick s) src = .ok p → Undisturbed c s.n s'.n p → Looks c s' dst (some b)) := by
  obtain ⟨evs, _, hrep⟩ := h.rep hc
  have key := step_rep hc (.copySector src dst) hrep ⟨h1, h2⟩
  rw [hs] at key
  cases key with
  | ok _ σ' h3 he _ =>
    have hl := h3.looks hc hr h2
    obtain ⟨e1, e2⟩ := he
    constructor
    · intro ho
      rw [e1 (hrep.of_looks hc h1 ho)] at hl
      rw [show upd (contents evs) dst none dst = none from if_pos rfl] at hl; exact hl
    · intro b p ho hp hu
      obtain ⟨b', e3, e4⟩ := e2 b (hrep.of_looks hc h1 ho)
      rw [e4 p hp hu] at e3
      rw [e3, show upd (contents evs) dst (some b) dst = _ from if_pos rfl] at hl; exact hl

/-- C08: copy_page maps the raw contents of the source page, unless it was not programmed or was erased
during the call. -/
theorem copy_page_copies (hc : c.Valid) (s s' : S) (h : Hist c s) (p dst : Nat) (h2 : dst < NONE)
    (hs : step c (.copyPage p dst) s = (.ok (), s')) (hr : ReadsOk c s') (b : Buf) (hb : s.n.chip.page p = some b)
    (hu : Undisturbed c s.n s'.n p) : Looks c s' dst (some (c.clip b)) := by
  obtain ⟨evs, _, hrep⟩ := h.rep hc
  have key := step_rep hc (.copyPage p dst) hrep h2
  rw [hs] at key
  cases key with
  | ok _ σ' h3 he _ =>
    have hl := h3.looks hc hr h2
    obtain ⟨b', e1, e2⟩ := he
    rw [e1, e2 b hb hu, show upd (contents evs) dst (some (c.clip b)) dst = _ from if_pos rfl] at hl; exact hl

/-! ### C11, C39 -/

/-- C11: find succeeds exactly for mapped sectors, and returns a user page on the chip that holds the
sector's data, in a block not marked bad. -/
theorem find_locates_data (hc : c.Valid) (s : S) (h : Hist c s) (hr : ReadsOk c s) (t : Nat) (ht : t < NONE) :
    (mapFind c s t = .error .notFound ∧ mapRead c s t = .ok c.blank) ∨
    (∃ p b, mapFind c s t = .ok p ∧ p < c.pages ∧ p % c.ppc ≠ c.ppc - 1 ∧ nandIsBad s.n (p / c.ppb) = false ∧
      s.n.chip.page p = some b ∧ mapRead c s t = .ok b) := by
  obtain ⟨evs, _, hrep⟩ := h.rep hc
  have hl := hrep.looks hc hr ht
  rcases mapFind_exact hc (hrep 0).calm ht with ⟨q, b, h3, h4, h5, _, h6, h7, h8⟩ | ⟨h3, h4⟩ | ⟨_, p, hp, hf⟩
  · rw [h4] at hl; exact Or.inr ⟨q, b, h3, h6, h7, h8, h5, hl.2⟩
  · rw [h4] at hl; exact Or.inl hl
  · rw [hr p hp] at hf; cases hf

theorem traceLoop_id {s : S} {t : Nat} : ∀ k d p mb nm, k + d = 32 → mtOf c s p = some (recOf mb) → WF (mtOf c s) d p →
    agree t (recOf mb).id d → ∀ q nm', traceLoop c s t k d p mb nm = (.ok q, nm') → ∃ r : Rec, r.id < NONE ∧ agree t r.id 32 := by
  intro k
  induction k with
  | zero =>
    intro d p mb nm hk hm hw ha q nm' _
    obtain ⟨r, h1, h2⟩ := hw.rec_of
    rw [hm] at h1; cases h1
    exact ⟨_, h2, by have : d = 32 := by omega
                     subst this; exact ha⟩
  | succ k ih =>
    intro d p mb nm hk hm hw ha q nm' h
    have hd32 : d < 32 := by omega
    unfold traceLoop at h
    simp only at h
    split at h
    · cases h
    · split at h
      · rename_i hb
        have hbit := (dBit_ne hd32).1 hb
        split at h
        · cases h
        · rename_i hn
          cases hw with
          | mk _ _ r0 h0 hid0 hs hal =>
          rw [hm] at h0; cases h0
          obtain ⟨r', hr', hag', hb'⟩ := hal d (Nat.le_refl _) hd32 hn
          cases hread : readMeta c s (metaGetAlt mb d) with
          | error e => rw [hread] at h; cases h
          | ok mb' =>
            rw [hread] at h
            have hre : recOf mb' = r' := by
              have : mtOf c s (metaGetAlt mb d) = some r' := hr'
              rw [readMeta_mt hread] at this; exact Option.some.inj this
            refine ih (d+1) _ mb' _ (by omega) (readMeta_mt hread) (hs d (Nat.le_refl _) hd32 hn) ?_ q nm' h
            rw [hre]
            exact (ha.trans hag'.symm).succ (bit_eq_of_ne hbit hb')
      · rename_i hb
        have hbit : bit t d = bit (recOf mb).id d := by
          apply Classical.byContradiction; intro h; exact hb ((dBit_ne hd32).2 h)
        exact ih (d+1) p mb _ (by omega) hm (hw.mono (by omega)) (ha.succ hbit) q nm' h

/-- C39: the reserved sector number is never reported as mapped. (Every other 32-bit sector number is
covered by the other theorems.) -/
theorem reserved_sector_unmapped (hc : c.Valid) (s : S) (h : Hist c s) (p : Nat) : mapFind c s NONE ≠ .ok p := by
  obtain ⟨evs, _, hrep⟩ := h.rep hc
  obtain ⟨vts, vt, vh, vr, hI⟩ := (hrep 0).calm
  intro hp
  unfold mapFind tracePath at hp
  simp only at hp
  split at hp
  · cases hp
  · rename_i hn
    cases hread : readMeta c s s.j.root with
    | error e => rw [hread] at hp; cases hp
    | ok mb =>
      rw [hread] at hp
      simp only at hp
      have hm := readMeta_mt hread
      rcases hI.tr.ok with h0 | ⟨r, hr, hid⟩ | hw
      · exact hn h0
      · rw [hm] at hr; cases hr
        have e : metaGetId mb = NONE := hid
        unfold traceLoop at hp
        simp only [e, if_true] at hp
        cases hp
      · rcases hl : traceLoop c s NONE 32 0 s.j.root mb (metaSetId freshMeta NONE) with ⟨e | q, nm'⟩
        · rw [hl] at hp; cases hp
        · obtain ⟨r, h1, h2⟩ := traceLoop_id 32 0 _ mb _ (by omega) hm hw (fun i hi => by omega) q nm' hl
          have := agree_all (by omega) (by omega) h2
          omega

/-! ### C15, C16 -/

/-- C15: if none of the first eight blocks is good and carries a readable checkpoint, resume reports
E_TOO_BAD. -/
theorem resume_blank (n : Nand) (buf : Buf) (k : Nat)
    (hb : ∀ b, b < 8 → b < c.numBlocks → nandIsBad n b = true ∨
      (∀ pg, nandRead c n (b * c.ppb + (c.ppc - 1)) 0 c.pageSize = .ok pg → hdrHasMagic pg = false)) (hc : c.Valid) :
    ∃ s, mapResume c (mapInit c buf k n) = (.error .tooBad, s) := by
  have key : ∀ i b, i + b = 8 → findCheckblock c n i b = none := by
    intro i
    induction i with
    | zero => intro b _; rfl
    | succ i ih =>
      intro b hi
      unfold findCheckblock
      split
      · rename_i hlt
        simp only
        have hp : (b <<< c.log2Ppb) ||| (c.ppc - 1) = b * c.ppb + (c.ppc - 1) := by
          rw [or_mask, Nat.shiftLeft_eq]
          have : c.ppc ∣ b * 2 ^ c.log2Ppb := Nat.dvd_trans hc.ppc_dvd (Nat.dvd_mul_left _ _)
          rw [Nat.div_mul_cancel this]; rfl
        rw [hp]
        rcases hb b (by omega) hlt with h | h
        · rw [if_pos h]; exact ih _ (by omega)
        · split
          · exact ih _ (by omega)
          · cases hr : nandRead c n (b * c.ppb + (c.ppc - 1)) 0 c.pageSize with
            | error e => exact ih _ (by omega)
            | ok pg =>
              simp only
              rw [h pg hr, if_neg (by decide)]; exact ih _ (by omega)
      · rfl
  unfold mapResume journalResume
  have : findCheckblock c (mapInit c buf k n).n maxRetries 0 = none := key 8 0 rfl
  rw [this]
  exact ⟨_, rfl⟩

/-- C15: whenever resume reports E_TOO_BAD the map is empty (and, being the start of a history, usable). -/
theorem resume_tooBad_empty (hc : c.Valid) (s : S) (h : Fresh c s) (hr : ReadsOk c s) :
    mapSize s = 0 ∧ ∀ t, t < NONE → Looks c s t none :=
  ⟨(h.rep hc 0).cnt.unique (Cnt.zero fun _ _ => rfl), fun t ht => (h.rep hc).looks hc hr ht⟩

/-- C16: no call of a history, nor the call that ends it with an error, makes the driver erase or program
a bad block, program out of order or twice, or touch a page or block that does not exist (see
`nandErase`, `nandProg`, `nandMarkBad`, which record such misuse in `ub`). -/
theorem nand_contract (hc : c.Valid) (s : S) (h : Hist c s) (op : Op) (hv : op.Valid) :
    s.n.ub = false ∧ (step c op s).2.n.ub = false := by
  obtain ⟨evs, _, hrep⟩ := h.rep hc
  refine ⟨(hrep 0).calm.noub, ?_⟩
  have key := step_rep hc op hrep hv
  generalize step c op s = r at key
  cases key with
  | ok _ _ h1 _ _ => exact (h1 0).calm.noub
  | full _ h1 _ _ => exact (h1 0).calm.noub
  | stop _ _ _ h1 => exact h1

end Dhara

/-
Path tracing (dhara/map.c:113-180) computes dictionary lookups and insertion paths.
-/
import Verif.Proofs.Trie
namespace Dhara

/-- Decode a metadata slice. -/
def recOf (b : Buf) : Rec := { id := metaGetId b, alt := metaGetAlt b }

/-- The metadata slice stored for page `p` (what read_meta returns when no read fails). -/
def metaBuf (c : Cfg) (s : S) (p : Nat) : Option Buf :=
  let offset := hdrUserOffset (p &&& (c.ppc - 1))
  if alignEq p s.j.head c.log2Ppc then some (s.j.pageBuf.slice offset metaSize)
  else if s.j.recoverMeta ≠ NONE ∧ alignEq p s.j.recoverRoot c.log2Ppc then
    (s.n.chip.page s.j.recoverMeta).map (·.slice offset metaSize)
  else (s.n.chip.page (p ||| (c.ppc - 1))).map (·.slice offset metaSize)

/-- Decoded metadata of all pages. -/
def mtOf (c : Cfg) (s : S) : Mt := fun p => (metaBuf c s p).map recOf

theorem nandRead_ok {c : Cfg} {n : Nand} {p off len : Nat} {b : Buf}
    (h : nandRead c n p off len = .ok b) :
    ∃ pg, n.chip.page p = some pg ∧ b = pg.slice off len ∧ p < c.pages := by
  unfold nandRead at h
  split at h
  · rename_i hr
    split at h
    · cases h
    · split at h
      · cases h
      · rename_i pg hpg
        cases h
        exact ⟨pg, hpg, rfl, hr.1⟩
  · cases h

theorem nandRead_err {c : Cfg} {n : Nand} {p off len : Nat} {e : Err}
    (h : nandRead c n p off len = .error e) : e = .ecc ∨ e = .ub := by
  unfold nandRead at h
  split at h
  · split at h
    · cases h; exact Or.inl rfl
    · split at h
      · cases h; exact Or.inl rfl
      · cases h
  · cases h; exact Or.inr rfl

theorem readMeta_ok {c : Cfg} {s : S} {p : Nat} {b : Buf} (h : readMeta c s p = .ok b) :
    metaBuf c s p = some b := by
  unfold readMeta at h
  unfold metaBuf
  simp only at h ⊢
  split at h
  · rename_i h1; rw [if_pos h1]
    split at h
    · cases h; rfl
    · cases h
  · rename_i h1; rw [if_neg h1]
    split at h
    · rename_i h2; rw [if_pos h2]
      obtain ⟨pg, hpg, hb, _⟩ := nandRead_ok h
      rw [hpg, hb]; rfl
    · rename_i h2; rw [if_neg h2]
      obtain ⟨pg, hpg, hb, _⟩ := nandRead_ok h
      rw [hpg, hb]; rfl

theorem readMeta_err {c : Cfg} {s : S} {p : Nat} {e : Err} (h : readMeta c s p = .error e) :
    e = .ecc ∨ e = .ub := by
  unfold readMeta at h
  simp only at h
  split at h
  · split at h
    · cases h
    · cases h; exact Or.inr rfl
  · split at h <;> exact nandRead_err h

theorem readMeta_mt {c : Cfg} {s : S} {p : Nat} {b : Buf} (h : readMeta c s p = .ok b) :
    mtOf c s p = some (recOf b) := by
  unfold mtOf; rw [readMeta_ok h]; rfl

/-! ### Metadata buffer fields -/

theorem metaGetAlt_setAlt_same {m : Buf} {i v : Nat} (hv : v < 2 ^ 32) :
    metaGetAlt (metaSetAlt m i v) i = v := by
  unfold metaGetAlt metaSetAlt; exact r32_w32_same hv

theorem metaGetAlt_setAlt_ne {m : Buf} {i j v : Nat} (h : i ≠ j) :
    metaGetAlt (metaSetAlt m i v) j = metaGetAlt m j := by
  unfold metaGetAlt metaSetAlt
  apply r32_w32_other
  simp only [Nat.shiftLeft_eq]; omega

theorem metaGetId_setAlt {m : Buf} {i v : Nat} : metaGetId (metaSetAlt m i v) = metaGetId m := by
  unfold metaGetId metaSetAlt
  apply r32_w32_other
  simp only [Nat.shiftLeft_eq]; omega

theorem metaGetId_setId {m : Buf} {v : Nat} (hv : v < 2 ^ 32) :
    metaGetId (metaSetId m v) = v := by
  unfold metaGetId metaSetId; exact r32_w32_same hv

theorem metaGetAlt_setId {m : Buf} {i v : Nat} :
    metaGetAlt (metaSetId m v) i = metaGetAlt m i := by
  unfold metaGetAlt metaSetId
  apply r32_w32_other
  simp only [Nat.shiftLeft_eq]; omega

theorem metaGetAlt_lt (m : Buf) (i : Nat) : metaGetAlt m i < 2 ^ 32 := r32_lt _ _
theorem metaGetId_lt (m : Buf) : metaGetId m < 2 ^ 32 := r32_lt _ _

theorem fillNone_id : ∀ k d m, metaGetId (fillNone k d m) = metaGetId m := by
  intro k
  induction k with
  | zero => intro d m; rfl
  | succ k ih => intro d m; rw [fillNone, ih, metaGetId_setAlt]

theorem fillNone_alt : ∀ k d m i, metaGetAlt (fillNone k d m) i =
    if d ≤ i ∧ i < d + k then NONE else metaGetAlt m i := by
  intro k
  induction k with
  | zero => intro d m i; rw [fillNone, if_neg (by omega)]
  | succ k ih =>
    intro d m i
    rw [fillNone, ih]
    by_cases h1 : d + 1 ≤ i ∧ i < d + 1 + k
    · rw [if_pos h1, if_pos (by omega)]
    · rw [if_neg h1]
      by_cases h2 : i = d
      · subst h2; rw [metaGetAlt_setAlt_same (by decide), if_pos (by omega)]
      · rw [metaGetAlt_setAlt_ne (Ne.symm h2), if_neg (by omega)]

theorem dBit_ne {t id d : Nat} (hd : d < 32) :
    ((t ^^^ id) &&& dBit d) ≠ 0 ↔ bit t d ≠ bit id d := by
  have e : dBit d = 2 ^ (31 - d) := by
    unfold dBit
    rw [Nat.shiftLeft_eq, Nat.one_mul]
    congr 1; omega
  rw [e]
  unfold bit
  constructor
  · intro h hb
    apply h
    apply Nat.eq_of_testBit_eq
    intro i
    rw [Nat.testBit_and, Nat.testBit_xor, Nat.testBit_two_pow, Nat.zero_testBit]
    by_cases hi : 31 - d = i
    · subst hi; rw [hb]; simp
    · simp [hi]
  · intro h h0
    have := congrArg (fun x => x.testBit (31 - d)) h0
    simp only [Nat.testBit_and, Nat.testBit_xor, Nat.testBit_two_pow, Nat.zero_testBit,
      decide_true, Bool.and_true] at this
    apply h
    revert this
    cases t.testBit (31 - d) <;> cases id.testBit (31 - d) <;> simp

/-- Path conditions established for the levels above `d`. -/
def PathUpTo (mt : Mt) (D : Nat → Option Nat) (t : Nat) (alt : Nat → Nat) (d : Nat) : Prop :=
  ∀ i, i < d →
    (alt i = NONE → ∀ t', t' < NONE → agree t' t i → bit t' i ≠ bit t i → D t' = none) ∧
    (alt i ≠ NONE → WF mt (i+1) (alt i) ∧
      (∃ r', mt (alt i) = some r' ∧ agree r'.id t i ∧ bit r'.id i ≠ bit t i) ∧
      ∀ t', t' < NONE → agree t' t i → bit t' i ≠ bit t i →
        D t' = tfind mt t' (32 - (i+1)) (i+1) (alt i))

theorem PathUpTo.congr {mt : Mt} {D : Nat → Option Nat} {t : Nat} {alt alt' : Nat → Nat} {d : Nat}
    (h : PathUpTo mt D t alt d) (he : ∀ i, i < d → alt' i = alt i) : PathUpTo mt D t alt' d := by
  intro i hi; rw [he i hi]; exact h i hi

/-- Result of tracing: the lookup, and a path for the target. -/
def TraceOK (mt : Mt) (D : Nat → Option Nat) (t : Nat) (r : Except Err Nat × Buf) : Prop :=
  match r with
  | (.ok q, nm) => D t = some q ∧ PathOK mt D t (recOf nm).alt ∧ (recOf nm).id = t
  | (.error .notFound, nm) => D t = none ∧ PathOK mt D t (recOf nm).alt ∧ (recOf nm).id = t
  | (.error e, _) => e = .ecc

theorem traceLoop_spec {c : Cfg} {s : S} {mt : Mt} {D : Nat → Option Nat} {t : Nat}
    (hmt : ∀ p b, readMeta c s p = .ok b → mt p = some (recOf b)) (ht : t < NONE)
    (hrd : ∀ p r, mt p = some r → r.id < NONE → D r.id = some p → ∀ e, readMeta c s p = .error e → e = .ecc) :
    ∀ k d p mb nm, k + d = 32 → p < 2 ^ 32 → p ≠ NONE → mt p = some (recOf mb) → WF mt d p →
      agree t (recOf mb).id d → metaGetId nm = t → PathUpTo mt D t (metaGetAlt nm) d →
      (∀ t', t' < NONE → agree t' t d → D t' = tfind mt t' k d p) →
      TraceOK mt D t (traceLoop c s t k d p mb nm) := by
  intro k
  induction k with
  | zero =>
    intro d p mb nm hk hp hpn hr hw hag hid hpath hD
    have hd : d = 32 := by omega
    subst hd
    simp only [traceLoop, TraceOK]
    exact ⟨by rw [hD t ht (agree_refl _ _)]; rfl, hpath, hid⟩
  | succ k ih =>
    intro d p mb nm hk hp hpn hr hw hag hid hpath hD
    obtain ⟨r, hr', hrid⟩ := hw.rec_of
    rw [hr] at hr'; cases hr'
    have hidn : metaGetId mb ≠ NONE := by
      have : (recOf mb).id < NONE := hrid
      intro e; simp only [recOf] at this; omega
    have hd32 : d < 32 := by omega
    have hkk : k + 1 = 32 - d := by omega
    have hk' : k = 32 - (d + 1) := by omega
    cases hw with
    | mk _ _ r0 h0 hid0 hs ha =>
    rw [hr] at h0; cases h0
    unfold traceLoop
    simp only
    rw [if_neg hidn]
    by_cases hb : ((t ^^^ metaGetId mb) &&& dBit d) ≠ 0
    · rw [if_pos hb]
      have hbit : bit t d ≠ bit (recOf mb).id d := (dBit_ne hd32).1 hb
      -- the record for level d points to the page we leave
      have hpath' : ∀ nm', (∀ i, i < d → metaGetAlt nm' i = metaGetAlt nm i) →
          metaGetAlt nm' d = p → PathUpTo mt D t (metaGetAlt nm') (d+1) := by
        intro nm' hlow hdp i hi
        by_cases e : i = d
        · subst e
          rw [hdp]
          refine ⟨fun h => absurd h hpn, fun _ => ⟨?_, ⟨_, hr, hag.symm, Ne.symm hbit⟩, ?_⟩⟩
          · exact WF.mk (i+1) p _ hr hid0 (fun j hj => hs j (by omega)) (fun j hj => ha j (by omega))
          · intro t' ht' hag' hb'
            rw [hD t' ht' hag', hkk]
            have e1 : bit t' i = bit (recOf mb).id i := bit_eq_of_ne hb' (Ne.symm hbit)
            exact tfind_stay hr hid0 (Nat.le_succ i) (by omega) (fun j hj hj' => by
              have : j = i := by omega
              subst this; exact e1)
        · have hi' : i < d := by omega
          rw [hlow i hi']; exact hpath i hi'
      by_cases hn : metaGetAlt mb d = NONE
      · rw [if_pos hn]
        simp only [TraceOK]
        have e0 : ∀ i, metaGetAlt (fillNone k (d+1) (metaSetAlt nm d p)) i =
            if i = d then p else if d + 1 ≤ i ∧ i < 32 then NONE else metaGetAlt nm i := by
          intro i
          rw [fillNone_alt]
          by_cases e : i = d
          · subst e; rw [if_neg (by omega), if_pos rfl, metaGetAlt_setAlt_same hp]
          · rw [if_neg e]
            have : d + 1 + k = 32 := by omega
            rw [this]
            split
            · rfl
            · rw [metaGetAlt_setAlt_ne (Ne.symm e)]
        have hDn : ∀ t', t' < NONE → agree t' t (d+1) → D t' = none := by
          intro t' ht' hag'
          rw [hD t' ht' (hag'.mono (by omega)), hkk]
          have hb2 : bit t' d ≠ bit (recOf mb).id d := by rw [hag' d (by omega)]; exact hbit
          rw [tfind_branch hr hid0 hd32 hb2, if_pos (show (recOf mb).alt d = NONE from hn)]
        refine ⟨hDn t ht (agree_refl _ _), ?_, ?_⟩
        · have hup := hpath' (fillNone k (d+1) (metaSetAlt nm d p))
            (fun i hi => by rw [e0, if_neg (by omega), if_neg (by omega)])
            (by rw [e0, if_pos rfl])
          intro i hi
          by_cases hid' : i < d + 1
          · exact hup i hid'
          · have : metaGetAlt (fillNone k (d+1) (metaSetAlt nm d p)) i = NONE := by
              rw [e0, if_neg (by omega), if_pos (by omega)]
            refine ⟨fun _ t' ht' hag' _ => hDn t' ht' (hag'.mono (by omega)), fun h => absurd this h⟩
        · show metaGetId _ = t
          rw [fillNone_id, metaGetId_setAlt, hid]
      · rw [if_neg hn]
        cases hread : readMeta c s (metaGetAlt mb d) with
        | error e =>
          simp only
          have he : e = .ecc := by
            obtain ⟨r', hr', hag', hb'⟩ := ha d (Nat.le_refl _) hd32 hn
            obtain ⟨r2, hr2, hid2⟩ := (hs d (Nat.le_refl _) hd32 hn).rec_of
            have : r2 = r' := Option.some.inj (hr2.symm.trans hr')
            subst this
            refine hrd _ r2 hr' hid2 ?_ e hread
            have hag2 : agree r2.id t d := hag'.trans hag.symm
            rw [hD r2.id hid2 hag2, hkk, tfind_branch hr hid0 hd32 hb', if_neg (show (recOf mb).alt d ≠ NONE from hn)]
            have := tfind_stay (t := r2.id) hr' hid2 (d := d + 1) (i := 32) (by omega) (by omega) (fun _ _ _ => rfl)
            exact this
          subst he; simp [TraceOK]
        | ok mb' =>
          simp only
          have hr2 := hmt _ _ hread
          obtain ⟨r', hr', hag', hb'⟩ := ha d (Nat.le_refl _) hd32 hn
          have hre : recOf mb' = r' := by
            have : mt (metaGetAlt mb d) = some r' := hr'
            rw [hr2] at this; exact Option.some.inj this
          apply ih (d+1) (metaGetAlt mb d) mb' (metaSetAlt nm d p) (by omega) (metaGetAlt_lt _ _) hn hr2
            (hs d (Nat.le_refl _) hd32 hn)
          · rw [hre]
            exact (hag.trans hag'.symm).succ (bit_eq_of_ne hbit hb')
          · rw [metaGetId_setAlt, hid]
          · exact hpath' _ (fun i hi => metaGetAlt_setAlt_ne (by omega)) (metaGetAlt_setAlt_same hp)
          · intro t' ht' hag2
            rw [hD t' ht' (hag2.mono (by omega)), hkk]
            have hb2 : bit t' d ≠ bit (recOf mb).id d := by rw [hag2 d (by omega)]; exact hbit
            rw [tfind_branch hr hid0 hd32 hb2, if_neg (show (recOf mb).alt d ≠ NONE from hn), hk']; rfl
    · rw [if_neg hb]
      have hbit : bit t d = bit (recOf mb).id d := by
        apply Classical.byContradiction; intro h; exact hb ((dBit_ne hd32).2 h)
      have halt : metaGetAlt (metaSetAlt nm d (metaGetAlt mb d)) d = (recOf mb).alt d :=
        metaGetAlt_setAlt_same (metaGetAlt_lt _ _)
      apply ih (d+1) p mb _ (by omega) hp hpn hr
        (WF.mk (d+1) p _ hr hid0 (fun j hj => hs j (by omega)) (fun j hj => ha j (by omega)))
        (hag.succ hbit)
      · rw [metaGetId_setAlt, hid]
      · intro i hi
        by_cases e : i = d
        · subst e
          rw [halt]
          have key : ∀ t', t' < NONE → agree t' t i → bit t' i ≠ bit t i → D t' =
              if (recOf mb).alt i = NONE then none
              else tfind mt t' (32 - (i+1)) (i+1) ((recOf mb).alt i) := by
            intro t' ht' hag2 hb2
            rw [hD t' ht' hag2, hkk]
            exact tfind_branch hr hid0 hd32 (by rw [← hbit]; exact hb2)
          refine ⟨fun hn t' ht' h1 h2 => by rw [key t' ht' h1 h2, if_pos hn], fun hn => ?_⟩
          obtain ⟨r', hr', hag', hb'⟩ := ha i (Nat.le_refl _) hd32 hn
          refine ⟨hs i (Nat.le_refl _) hd32 hn, ⟨r', hr', ?_, ?_⟩,
            fun t' ht' h1 h2 => by rw [key t' ht' h1 h2, if_neg hn]⟩
          · exact hag'.trans hag.symm
          · rw [hbit]; exact hb'
        · rw [metaGetAlt_setAlt_ne (Ne.symm e)]; exact hpath i (by omega)
      · intro t' ht' hag2
        rw [hD t' ht' (hag2.mono (by omega)), hkk]
        rw [tfind_stay hr hid0 (Nat.le_succ d) (by omega) (fun j hj hj' => by
          have : j = d := by omega
          subst this
          rw [hag2 j (by omega)]; exact hbit), hk']

theorem tracePath_spec {c : Cfg} {s : S} {mt : Mt} {t : Nat} {nm0 : Buf}
    (hmt : ∀ p b, readMeta c s p = .ok b → mt p = some (recOf b)) (ht : t < NONE)
    (hroot : s.j.root < 2 ^ 32) (hT : TreeOK mt s.j.root)
    (hrd : ∀ p, Used mt s.j.root p → ∀ e, readMeta c s p = .error e → e = .ecc) :
    TraceOK mt (dict mt s.j.root) t (tracePath c s t nm0) := by
  have empty : (∀ t', dict mt s.j.root t' = none) →
      TraceOK mt (dict mt s.j.root) t
        (.error .notFound, fillNone 32 0 (metaSetId nm0 t)) := by
    intro h
    simp only [TraceOK]
    refine ⟨h t, ?_, ?_⟩
    · intro i hi
      have e : (recOf (fillNone 32 0 (metaSetId nm0 t))).alt i = NONE := by
        show metaGetAlt _ i = _
        rw [fillNone_alt, if_pos (by omega)]
      exact ⟨fun _ t' _ _ _ => h t', fun hn => absurd e hn⟩
    · show metaGetId _ = t
      rw [fillNone_id, metaGetId_setId (by omega)]
  unfold tracePath
  simp only
  by_cases hn : s.j.root = NONE
  · rw [if_pos hn]; exact empty fun t' => dict_none hn t'
  · rw [if_neg hn]
    cases hread : readMeta c s s.j.root with
    | error e =>
      simp only
      have he := hrd _ ⟨hn, Or.inl rfl⟩ e hread
      subst he; simp [TraceOK]
    | ok mb =>
      simp only
      have hr := hmt _ _ hread
      rcases hT with h0 | ⟨r, hr', hid⟩ | hw
      · exact absurd h0 hn
      · rw [hr] at hr'; cases hr'
        have : traceLoop c s t 32 0 s.j.root mb (metaSetId nm0 t) =
            (.error .notFound, fillNone 32 0 (metaSetId nm0 t)) := by
          unfold traceLoop
          have e : metaGetId mb = NONE := hid
          simp only [e, if_true]
        rw [this]
        exact empty fun t' => dict_filler hr hid t'
      · apply traceLoop_spec hmt ht (fun p r h1 h2 h3 => hrd p ⟨hn, Or.inr ⟨r, h1, h2, h3⟩⟩) 32 0 _ mb _ (by omega) hroot hn hr hw
          (fun i hi => by omega) (metaGetId_setId (by omega)) (fun i hi => by omega)
        intro t' _ _
        rw [dict_eq hn]

end Dhara

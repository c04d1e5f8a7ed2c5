/-
The API calls as a whole: lookups, reads, copies, clear, and histories of calls.
-/
import Verif.Proofs.Fails
import Verif.Props.MapSpec
namespace Dhara

variable {c : Cfg}

/-! ### Path tracing reads only pages of the tree -/

theorem traceLoop_read {s : S} {t : Nat} {root : Nat} (hne : root ≠ NONE) (hroot : WF (mtOf c s) 0 root) :
    ∀ k d p mb nm, k + d = 32 → mtOf c s p = some (recOf mb) → WF (mtOf c s) d p →
      (∀ q, Reach (mtOf c s) d p q → Reach (mtOf c s) 0 root q) → ∀ e nm', traceLoop c s t k d p mb nm = (.error e, nm') → e ≠ .notFound →
      ∃ x, Used (mtOf c s) root x ∧ readMeta c s x = .error e := by
  intro k
  induction k with
  | zero => intro d p mb nm _ _ _ _ e nm' h; unfold traceLoop at h; cases h
  | succ k ih =>
    intro d p mb nm hk hm hw hr e nm' h he
    have hd32 : d < 32 := by omega
    unfold traceLoop at h
    simp only at h
    split at h
    · cases h; exact absurd rfl he
    · split at h
      · split at h
        · cases h; exact absurd rfl he
        · rename_i hn
          cases hw with
          | mk _ _ r0 h0 hid0 hs ha =>
          rw [hm] at h0; cases h0
          have hr' : ∀ q, Reach (mtOf c s) (d+1) (metaGetAlt mb d) q → Reach (mtOf c s) 0 root q :=
            fun q hq => hr q (Reach.step d p q d _ hm (Nat.le_refl _) hd32 hn hq)
          cases hread : readMeta c s (metaGetAlt mb d) with
          | error e' =>
            rw [hread] at h; cases h
            exact ⟨_, reach_used hroot hne (hr' _ (Reach.refl _ _)), hread⟩
          | ok mb' =>
            rw [hread] at h
            exact ih (d+1) _ mb' _ (by omega) (readMeta_mt hread) (hs d (Nat.le_refl _) hd32 hn) hr' e nm' h he
      · exact ih (d+1) p mb _ (by omega) hm (hw.mono (by omega)) (fun q hq => hr q (hq.mono (by omega))) e nm' h he

theorem tracePath_read {s : S} {t : Nat} {nm0 nm' : Buf} {e : Err} (hT : TreeOK (mtOf c s) s.j.root)
    (h : tracePath c s t nm0 = (.error e, nm')) (he : e ≠ .notFound) :
    ∃ x, Used (mtOf c s) s.j.root x ∧ readMeta c s x = .error e := by
  unfold tracePath at h
  simp only at h
  split at h
  · cases h; exact absurd rfl he
  · rename_i hn
    cases hread : readMeta c s s.j.root with
    | error e' =>
      rw [hread] at h; cases h
      exact ⟨_, ⟨hn, Or.inl rfl⟩, hread⟩
    | ok mb =>
      rw [hread] at h
      simp only at h
      have hm := readMeta_mt hread
      rcases hT with h0 | ⟨r, hr, hid⟩ | hw
      · exact absurd h0 hn
      · rw [hm] at hr; cases hr
        unfold traceLoop at h
        have e' : metaGetId mb = NONE := hid
        simp only [e', if_true] at h
        cases h; exact absurd rfl he
      · exact traceLoop_read hn hw 32 0 _ mb _ (by omega) hm hw (fun _ h => h) e nm' h he

theorem readMeta_calm (hc : c.Valid) {s : S} {v : Nat} {r : Rec} (hrm : s.j.recoverMeta = NONE) (hu : c.isU v)
    (hm : mtOf c s (c.ph v) = some r) {e : Err} (h : readMeta c s (c.ph v) = .error e) :
    e = .ecc ∧ c.env.readFail s.n.time (c.ph (c.cpV v)) = true := by
  unfold readMeta at h
  simp only at h
  split at h
  · rw [slot_off hc, if_pos (slot_fit hc hu)] at h; cases h
  · rename_i h1
    split at h
    · rename_i h2; exact absurd hrm h2.1
    · rename_i h2
      rw [ph_cp hc] at h
      unfold nandRead at h
      split at h
      · split at h
        · rename_i h4; cases h; exact ⟨rfl, h4⟩
        · split at h
          · rename_i h4
            unfold mtOf metaBuf at hm
            simp only at hm
            rw [if_neg h1, if_neg h2, ph_cp hc, h4] at hm
            cases hm
          · cases h
      · rename_i h3
        exfalso; apply h3
        refine ⟨ph_lt hc _, ?_⟩
        rw [slot_off hc]
        have h5 := hc.slots_fit
        have h6 : v % c.ppc < c.ppc - 1 := by
          have := Nat.mod_lt v (ppc_pos c); unfold Cfg.isU at hu; omega
        have h7 : (v % c.ppc + 1) * 132 ≤ (c.ppc - 1) * 132 := Nat.mul_le_mul_right _ (by omega)
        unfold Cfg.slot
        rw [Nat.add_mul] at h7
        omega

/-- In normal operation path tracing fails only if the chip fails to read a page. -/
theorem Inv0.trace_err (hc : c.Valid) {s : S} {σ : Nat → Option Buf} {T : Gh c} {vts vt vh vr : Nat} (h : Inv0 c s σ T vts vt vh vr) {t : Nat}
    {nm nm' : Buf} {e : Err} (hp : tracePath c s t nm = (.error e, nm')) (he : e ≠ .notFound) :
    e = .ecc ∧ ∃ p, p < c.pages ∧ c.env.readFail s.n.time p = true := by
  obtain ⟨x, hx, hr⟩ := tracePath_read h.tr.ok hp he
  obtain ⟨v, a1, _, _, _, a5, _⟩ := h.tr.lt hx
  obtain ⟨r, hm⟩ : ∃ r, mtOf c s x = some r := by
    rcases hx with ⟨hn, hx | ⟨rx, hx, _⟩⟩
    · rcases h.tr.ok with h0 | ⟨r, hr, _⟩ | hw
      · exact absurd h0 hn
      · exact ⟨r, by rw [hx]; exact hr⟩
      · obtain ⟨r, hr, _⟩ := hw.rec_of; exact ⟨r, by rw [hx]; exact hr⟩
    · exact ⟨rx, hx⟩
  rw [a1] at hr hm
  obtain ⟨b1, b2⟩ := readMeta_calm hc h.calm.rm a5 hm hr
  exact ⟨b1, _, ph_lt hc _, b2⟩

/-- Where the sector's page is, exactly; or a read failed. -/
theorem mapFind_exact (hc : c.Valid) {s : S} {σ : Nat → Option Buf} {T : Gh c} {t : Nat} (hI : Calm0 c s σ T) (ht : t < NONE) :
    (∃ q b, mapFind c s t = .ok q ∧ σ t = some b ∧ s.n.chip.page q = some b ∧ c.clip b = b ∧ q < c.pages ∧
      q % c.ppc ≠ c.ppc - 1 ∧ s.n.chip.bad (q / c.ppb) = false) ∨
    (mapFind c s t = .error .notFound ∧ σ t = none) ∨
    (mapFind c s t = .error .ecc ∧ ∃ p, p < c.pages ∧ c.env.readFail s.n.time p = true) := by
  rcases mapFind_inv hc hI ht with h | h | h
  · exact Or.inl h
  · exact Or.inr (Or.inl h)
  · refine Or.inr (Or.inr ?_)
    obtain ⟨vts, vt, vh, vr, hI⟩ := hI
    unfold mapFind at h ⊢
    rcases hp : tracePath c s t freshMeta with ⟨e | q, nm⟩
    · rw [hp] at h
      obtain ⟨h1, h2⟩ := hI.trace_err hc hp (by cases h; decide)
      subst h1; exact ⟨rfl, h2⟩
    · rw [hp] at h; cases h

/-- What a read returns. -/
theorem mapRead_exact (hc : c.Valid) {s : S} {σ : Nat → Option Buf} {T : Gh c} {t : Nat} (hI : Calm0 c s σ T) (ht : t < NONE) :
    mapRead c s t = .ok ((σ t).getD (c.clip Buf.ff)) ∨
    (mapRead c s t = .error .ecc ∧ ∃ p, p < c.pages ∧ c.env.readFail s.n.time p = true) := by
  rcases mapFind_exact hc hI ht with ⟨q, b, h1, h2, h3, h4, h5, _⟩ | ⟨h1, h2⟩ | ⟨h1, h2⟩
  · unfold mapRead; rw [h1]
    simp only
    unfold nandRead
    rw [if_pos ⟨h5, by omega⟩]
    split
    · rename_i h; exact Or.inr ⟨rfl, q, h5, h⟩
    · rw [h3]; left; simp only; rw [h2]
      show Except.ok (c.clip b) = _
      rw [h4]; rfl
  · left; unfold mapRead; rw [h1]; simp only; rw [h2]; rfl
  · right; unfold mapRead; rw [h1]; exact ⟨rfl, h2⟩

/-! ### Calls -/

/-- What a successful call does to the logical contents. -/
def Effect (c : Cfg) (s s' : S) (σ σ' : Nat → Option Buf) : Op → Prop
  | .write dst data => σ' = upd σ dst (some (c.clip data))
  | .copyPage p dst => ∃ b, σ' = upd σ dst (some b) ∧
      ∀ b0, s.n.chip.page p = some b0 → Undisturbed c s.n s'.n p → b = c.clip b0
  | .copySector src dst => (σ src = none → σ' = upd σ dst none) ∧
      (∀ b, σ src = some b → ∃ b', σ' = upd σ dst (some b') ∧
        ∀ p, mapFind c s src = .ok p → Undisturbed c s.n s'.n p → b' = b)
  | .trim t => σ' = upd σ t none
  | .clear => σ' = fun _ => none
  | .sync => σ' = σ
  | .gc => σ' = σ

/-- The map's state represents the contents `σ`. -/
structure MInv (c : Cfg) (s : S) (σ : Nat → Option Buf) (T : Gh c) : Prop where
  calm : Calm0 c s σ T
  cnt : Cnt σ s.count

/-- Outcome of a call. -/
inductive COut (c : Cfg) (s : S) (σ : Nat → Option Buf) (T : Gh c) (op : Op) : Except Err Unit × S → Prop
  | ok (s' : S) (σ' : Nat → Option Buf) (h : MInv c s' σ' T) (he : Effect c s s' σ σ' op)
      (hg : s'.count = s.count + 1 → Room c s s') : COut c s σ T op (.ok (), s')
  | full (s' : S) (h : MInv c s' σ T) (hcap : mapCapacity c s' ≤ s'.count)
      (hop : ∃ dst, ((∃ d, op = .write dst d) ∨ (∃ p, op = .copyPage p dst) ∨ (∃ p, op = .copySector p dst)) ∧ σ dst = none) :
      COut c s σ T op (.error .mapFull, s')
  | stop (s' : S) (e : Err) (he : e ≠ .mapFull) (hub : s'.n.ub = false)
      (hcr : e = .powerLoss → T.X s') (hu : T.U σ e s') : COut c s σ T op (.error e, s')

theorem undist_page {n n1 n' : Nand} {p : Nat} (e1 : Evo c n n1) (e2 : Evo c n1 n') (hub : n'.ub = false)
    (hu : Undisturbed c n n' p) : n1.chip.page p = n.chip.page p := by
  have h1 := e1.erases (p / c.ppb)
  have h2 := e2.erases (p / c.ppb)
  have h3 := hu.2
  have hub1 : n1.ub = false := by
    cases hb : n1.ub with
    | false => rfl
    | true => rw [e2.ub hb] at hub; cases hub
  exact (e1.keep hub1 p hu.1 (by omega)).1

theorem WOut.cnt {s s' : S} {σ : Nat → Option Buf} {dst : Nat} {b : Buf} (hd : dst < NONE) (h0 : Cnt σ s.count)
    (h : (σ dst ≠ none ∧ s'.count = s.count) ∨ (σ dst = none ∧ s'.count = s.count + 1 ∧ Room c s s')) :
    Cnt (upd σ dst (some b)) s'.count := by
  rcases h with ⟨h1, h2⟩ | ⟨h1, h2, _⟩
  · obtain ⟨b', hb⟩ := Option.ne_none_iff_exists'.1 h1
    rw [h2]; exact h0.insert_old hb
  · rw [h2]; exact h0.insert_new hd h1

theorem WOut.room {s s' : S} {σ : Nat → Option Buf} {dst : Nat}
    (h : (σ dst ≠ none ∧ s'.count = s.count) ∨ (σ dst = none ∧ s'.count = s.count + 1 ∧ Room c s s')) :
    s'.count = s.count + 1 → Room c s s' := by
  rcases h with ⟨_, h⟩ | ⟨_, _, h⟩
  · intro h'; omega
  · exact fun _ => h

theorem TOut.room {s s' : S} {σ : Nat → Option Buf} {t : Nat} (ht : t < NONE) (h0 : Cnt σ s.count)
    (h : Cnt (upd σ t none) s'.count) : s'.count = s.count + 1 → Room c s s' := by
  intro h'
  exfalso
  cases hs : σ t with
  | none => have := h.unique (h0.erase_none hs); omega
  | some b =>
    obtain ⟨h1, h2⟩ := h0.erase ht hs
    have := h.unique h1; omega

theorem Same.out {s : S} {σ : Nat → Option Buf} {T : Gh c} {op : Op} {r : Except Err Unit × S} (h : Same c s σ T r) (hn : NF r)
    (h0 : Cnt σ s.count) (he : ∀ s', Effect c s s' σ σ op) : COut c s σ T op r := by
  cases h with
  | ok s' h h1 => exact .ok s' σ ⟨h, by rw [h1]; exact h0⟩ (he s') (fun h => by omega)
  | stop s' e hub hx hU => exact .stop s' e (nf_err hn) hub hx hU

theorem copyPage_out (hc : c.Valid) {s : S} {σ : Nat → Option Buf} {T : Gh c} (hG : T.Ok) {src dst : Nat} (h : MInv c s σ T) (hd : dst < NONE)
    (hW : T.W σ (s.count % 2 ^ 32) s.n)
    (hWb : Goes (mapCopyPage c src dst s).1 → ∀ b n' k, Evo c s.n n' → (∀ b0, n'.ub = false → s.n.chip.page src = some b0 → Undisturbed c s.n n' src → b = c.clip b0) →
      Cnt (upd σ dst (some b)) k → T.W (upd σ dst (some b)) (k % 2 ^ 32) n')
    (hsrc : src < c.pages ∨ ∀ σ s, T.U σ .ub s)
    (hT : (mapCopyPage c src dst s).2.n.time ≤ T.t) :
    (∃ s' b, mapCopyPage c src dst s = (.ok (), s') ∧ MInv c s' (upd σ dst (some b)) T ∧
      (∀ b0, s.n.chip.page src = some b0 → Undisturbed c s.n s'.n src → b = c.clip b0) ∧ (s'.count = s.count + 1 → Room c s s')) ∨
    (∃ s', mapCopyPage c src dst s = (.error .mapFull, s') ∧ MInv c s' σ T ∧ mapCapacity c s' ≤ s'.count ∧ σ dst = none) ∨
    (∃ s' e, mapCopyPage c src dst s = (.error e, s') ∧ e ≠ .mapFull ∧ s'.n.ub = false ∧ (e = .powerLoss → T.X s') ∧ T.U σ e s') := by
  have key := mapCopyPage_inv hc hG h.calm h.cnt hW (fun hne b0 n1 n' k e1 e2 hp hk => hWb hne _ _ _ (e1.trans e2) (by
    intro b1 hub hb1 hu
    rw [undist_page e1 e2 hub hu, hb1] at hp
    cases hp; rfl) hk) hsrc hd hT
  generalize mapCopyPage c src dst s = r at key ⊢
  cases key with
  | ok s' b n1 h1 h2 e1 e2 hR hcl =>
    refine Or.inl ⟨s', b, rfl, ⟨h1, WOut.cnt hd h.cnt h2⟩, ?_, WOut.room h2⟩
    intro b0 hb0 hu
    obtain ⟨b1, h3, h4⟩ := hR
    rw [undist_page e1 e2 h1.noub hu, hb0] at h3
    cases h3; exact h4
  | full s' h1 h2 hn hcap => exact Or.inr (Or.inl ⟨s', rfl, ⟨h1, by rw [h2]; exact h.cnt⟩, hcap, hn⟩)
  | stop s' e he hub hx hU => exact Or.inr (Or.inr ⟨s', e, rfl, he, hub, hx, hU⟩)

theorem call_inv (hc : c.Valid) {s : S} {σ : Nat → Option Buf} {T : Gh c} (hG : T.Ok) (op : Op) (h : MInv c s σ T) (hv : op.Valid)
    (hW : T.W σ (s.count % 2 ^ 32) s.n)
    (hWop : Goes (call c op s).1 → ∀ (s' : S) (σ' : Nat → Option Buf) (k : Nat), Evo c s.n s'.n → (s'.n.ub = false → Effect c s s' σ σ' op) →
      Cnt σ' k → T.W σ' (k % 2 ^ 32) s'.n)
    (hsrc : ∀ src dst, op = .copyPage src dst → src < c.pages ∨ ∀ σ s, T.U σ .ub s)
    (hT : (call c op s).2.n.time ≤ T.t) : COut c s σ T op (call c op s) := by
  cases op with
  | write dst data =>
    have key := mapWrite_inv hc hG h.calm (dst := dst) (data := data) h.cnt hW
      (fun hne n' k e hk => hWop hne { s with n := n' } _ k e (fun _ => rfl) hk) hv hT
    show COut c s σ T _ (mapWrite c dst data s)
    generalize mapWrite c dst data s = r at key ⊢
    cases key with
    | ok s' b n1 h1 h2 e1 e2 hR hcl => 
      refine .ok s' _ ⟨h1, WOut.cnt hv h.cnt h2⟩ ?_ (WOut.room h2)
      show _ = _
      rw [hR]
    | full s' h1 h2 hn hcap => exact .full s' ⟨h1, by rw [h2]; exact h.cnt⟩ hcap ⟨dst, Or.inl ⟨data, rfl⟩, hn⟩
    | stop s' e he hub hx hU => exact .stop s' e he hub hx hU
  | copyPage src dst =>
    show COut c s σ T _ (mapCopyPage c src dst s)
    rcases copyPage_out hc hG h hv hW (fun hne b n' k e hb hk => hWop hne { s with n := n' } _ k e (fun hub => ⟨b, rfl, fun b0 => hb b0 hub⟩) hk) (hsrc _ _ rfl) hT with
      ⟨s', b, h1, h2, h3, h5⟩ | ⟨s', h1, h2, h3, h4⟩ | ⟨s', e, h1, h2, h3, h4, h5⟩
    · rw [h1]; exact .ok s' _ h2 ⟨b, rfl, h3⟩ h5
    · rw [h1]; exact .full s' h2 h3 ⟨dst, Or.inr (Or.inl ⟨src, rfl⟩), h4⟩
    · rw [h1]; exact .stop s' e h2 h3 h4 h5
  | copySector src dst =>
    obtain ⟨hs, hd⟩ := hv
    have hT' : (mapCopySector c src dst s).2.n.time ≤ T.t := hT
    show COut c s σ T _ (mapCopySector c src dst s)
    unfold mapCopySector at hT' ⊢
    rcases mapFind_exact hc h.calm hs with ⟨q, b, h1, h2, h3, h4, hq, _⟩ | ⟨h1, h2⟩ | ⟨h1, _⟩
    · rw [h1] at hT' ⊢
      simp only at hT' ⊢
      have hWb : Goes (mapCopyPage c q dst s).1 → ∀ b' n' k, Evo c s.n n' → (∀ b0, n'.ub = false → s.n.chip.page q = some b0 → Undisturbed c s.n n' q → b' = c.clip b0) →
          Cnt (upd σ dst (some b')) k → T.W (upd σ dst (some b')) (k % 2 ^ 32) n' := by
        intro hne b' n' k e hb hk
        refine hWop (by
          show Goes (mapCopySector c src dst s).1
          unfold mapCopySector; rw [h1]; exact hne) { s with n := n' } _ k e (fun hub => ⟨(fun hn => by rw [hn] at h2; cases h2), ?_⟩) hk
        intro b1 hb1
        refine ⟨b', rfl, ?_⟩
        intro p hp hu
        rw [h1] at hp; cases hp
        rw [h2] at hb1; cases hb1
        rw [hb b hub h3 hu, h4]
      rcases copyPage_out hc hG h hd hW hWb (Or.inl hq) hT' with ⟨s', b', g1, g2, g3, g5⟩ | ⟨s', g1, g2, g3, g4⟩ | ⟨s', e, g1, g2, g3, g4, g5⟩
      · rw [g1]
        refine .ok s' _ g2 ⟨(fun hn => by rw [hn] at h2; cases h2), ?_⟩ g5
        intro b1 hb1
        refine ⟨b', rfl, ?_⟩
        intro p hp hu
        rw [h1] at hp; cases hp
        rw [h2] at hb1; cases hb1
        rw [g3 b h3 hu, h4]
      · rw [g1]; exact .full s' g2 g3 ⟨dst, Or.inr (Or.inr ⟨src, rfl⟩), g4⟩
      · rw [g1]; exact .stop s' e g2 g3 g4 g5
    · rw [h1] at hT' ⊢
      simp only at hT' ⊢
      have key := mapTrimLoop_inv hc hG hd c.fuel s h.calm h.cnt hW (fun hgo n' k e hk => hWop (by
          show Goes (mapCopySector c src dst s).1
          unfold mapCopySector; rw [h1]; exact hgo) { s with n := n' } _ k e
        (fun _ => ⟨fun _ => rfl, fun b hb => by rw [h2] at hb; cases hb⟩) hk) hT' (fuel_gc hG _)
      unfold mapTrim
      generalize mapTrimLoop c dst c.fuel s = r at key ⊢
      cases key with
      | ok s' g1 g2 =>
        refine .ok s' _ ⟨g1, g2⟩ ⟨fun _ => rfl, ?_⟩ (TOut.room hd h.cnt g2)
        intro b hb; rw [h2] at hb; cases hb
      | stop s' e he hub hx hU => exact .stop s' e he hub hx hU
    · rw [h1]; exact .stop s _ (by decide) h.calm.noub (by intro h; cases h) (by
        obtain ⟨_, _, _, _, hI⟩ := h.calm
        exact hG.usoft hI (Soft.refl hI.geo.toGeo0) (Evo.refl _) (by decide) (by decide))
  | trim t =>
    have key := mapTrimLoop_inv hc hG hv c.fuel s h.calm h.cnt hW (fun hgo n' k e hk => hWop hgo { s with n := n' } _ k e (fun _ => rfl) hk) hT (fuel_gc hG _)
    show COut c s σ T _ (mapTrimLoop c t c.fuel s)
    generalize mapTrimLoop c t c.fuel s = r at key ⊢
    cases key with
    | ok s' g1 g2 => exact .ok s' _ ⟨g1, g2⟩ rfl (TOut.room hv h.cnt g2)
    | stop s' e he hub hx hU => exact .stop s' e he hub hx hU
  | clear =>
    show COut c s σ T _ (.ok (), mapClear c s)
    refine .ok _ (fun _ => none) ?_ rfl (fun h' => by unfold mapClear at h'; split at h' <;> [(have : (0:Nat) = s.count + 1 := h'); skip] <;> omega)
    unfold mapClear
    split
    · obtain ⟨vts, vt, vh, vr, hI⟩ := h.calm
      exact ⟨⟨_, _, _, _, clear_inv hG hI 0 (fun _ _ => rfl)⟩, Cnt.zero fun _ _ => rfl⟩
    · rename_i h0
      have h0 : s.count = 0 := by omega
      have hz := h.cnt; rw [h0] at hz
      have := hz.zero_iff
      refine ⟨h.calm.sig fun t ht => (this t ht).symm, ?_⟩
      rw [h0]; exact Cnt.zero fun _ _ => rfl
  | sync => exact (mapSyncLoop_inv hc hG c.fuel s h.calm hW hT (fuel_sync hG hc s)).out (mapSyncLoop_nf _ _) h.cnt (fun _ => rfl)
  | gc => exact (mapGc_inv hc hG h.calm (fun hx => h.cnt.unique (Cnt.zero hx)) hW hT).out (mapGc_nf _) h.cnt (fun _ => rfl)

/-- A call that reports an error although no program or erase operation failed during it leaves the invariant intact. -/
theorem call_failed (hc : c.Valid) {s s' : S} {σ : Nat → Option Buf} {T : Gh c} (hG : T.Ok) (op : Op) (h : MInv c s σ T) (hv : op.Valid)
    (hW : T.W σ (s.count % 2 ^ 32) s.n)
    (hWop : Goes (call c op s).1 → ∀ (s' : S) (σ' : Nat → Option Buf) (k : Nat), Evo c s.n s'.n → (s'.n.ub = false → Effect c s s' σ σ' op) →
      Cnt σ' k → T.W σ' (k % 2 ^ 32) s'.n)
    (hsrc : ∀ src dst, op = .copyPage src dst → src < c.pages ∨ ∀ σ s, T.U σ .ub s) {e : Err} (hs : call c op s = (.error e, s'))
    (hT : s'.n.time ≤ T.t) (h1 : e ≠ .powerLoss) (h2 : e ≠ .ub) (h3 : e ≠ .diverge) (hq : ¬ Noisy c s.n.time s'.n.time) : MInv c s' σ T := by
  have hct := call_ct (c := c) op s
  rw [hs] at hct
  have key := call_inv hc (Gh.track_ok hc hG s.n.time) op (σ := σ) (s := s)
    ⟨by
      obtain ⟨vts, vt, vh, vr, hI⟩ := h.calm
      exact ⟨vts, vt, vh, vr, hI.geo, hI.calm, hI.tr, hI.stab, hI.ext, Nat.le_refl _⟩, h.cnt⟩ hv hW hWop
    (fun src dst ho => (hsrc src dst ho).imp id fun hu σ s => ⟨hu σ s, fun _ hn => absurd rfl hn⟩) (by rw [hs]; exact hT)
  rw [hs] at key
  cases key with
  | full _ h _ _ =>
    obtain ⟨⟨vts, vt, vh, vr, hI⟩, h2⟩ := h
    exact ⟨⟨_, _, _, _, hI.untrack⟩, h2⟩
  | stop _ _ he hub hx hU => exact ⟨hU.2 h1 h2 h3 hq, by have hct : s'.count = s.count := hct e rfl; rw [hct]; exact h.cnt⟩

/-! ### Histories -/

theorem Quiet.noisy {a a' b : Nat} (h : Quiet c a b) (ha : a ≤ a') : ¬ Noisy c a' b := by
  rintro ⟨t, h1, h2, h3 | h3⟩
  · exact (h t (Nat.le_trans ha h1) h2).1 h3
  · exact (h t (Nat.le_trans ha h1) h2).2 h3

theorem Calm0.unique {s : S} {σ σ' : Nat → Option Buf} {T T' : Gh c} (h : Calm0 c s σ T) (h' : Calm0 c s σ' T') :
    ∀ t, t < NONE → σ' t = σ t := by
  obtain ⟨_, _, _, _, h⟩ := h
  obtain ⟨_, _, _, _, h'⟩ := h'
  intro t ht
  cases hd : dict (mtOf c s) s.j.root t with
  | none => rw [h.tr.emp t ht hd, h'.tr.emp t ht hd]
  | some q =>
    obtain ⟨b, h1, _, h2⟩ := h.tr.holds t q ht hd
    obtain ⟨b', h1', _, h2'⟩ := h'.tr.holds t q ht hd
    rw [h1] at h1'; cases h1'
    rw [h2, h2']

theorem MInv.congr_T {s : S} {σ : Nat → Option Buf} {T T' : Gh c} (h : MInv c s σ T) (hT : T'.t ≤ T.t)
    (hD : ∀ vts vt vh vr, T.D0 s vts vt vh vr → T'.D0 s vts vt vh vr) : MInv c s σ T' := by
  obtain ⟨⟨_, _, _, _, h1⟩, h2⟩ := h
  exact ⟨⟨_, _, _, _, h1.congr_T hT (hD _ _ _ _)⟩, h2⟩

theorem MInv.tick {s : S} {σ : Nat → Option Buf} {T : Gh c} (hG : T.Ok) (h : MInv c s σ T) : MInv c (tick s) σ T := by
  obtain ⟨⟨vts, vt, vh, vr, hI⟩, h2⟩ := h
  refine ⟨⟨vts, vt, vh, vr, ⟨⟨⟨hI.geo.ets, hI.geo.et, hI.geo.eh, hI.geo.uts, hI.geo.ut, hI.geo.uh, hI.geo.l1, hI.geo.l2,
    hI.geo.win, hI.geo.ep, hI.geo.alive, hI.geo.noub⟩, hI.geo.hfree⟩, ⟨hI.calm.nr, hI.calm.rm, hI.calm.ed, hI.calm.bm⟩, ?_, ?_, hG.tick hI.ext⟩⟩, h2⟩
  · exact ⟨hI.tr.rt, hI.tr.ok, hI.tr.live, hI.tr.emp, hI.tr.holds⟩
  · rcases hI.stab with h | h
    · exact Or.inl h
    · refine Or.inr fun t h1 h2 => h t ?_ h2
      have : (Dhara.tick s).n.time = s.n.time + 1 := rfl
      omega

/-- The map's state represents `σ`, whatever happens next. -/
def Rep (c : Cfg) (s : S) (σ : Nat → Option Buf) : Prop := ∀ t, MInv c s σ (Gh.triv c t)

/-- Outcome of a call on a state that represents `σ`. -/
inductive ROut (c : Cfg) (s : S) (σ : Nat → Option Buf) (op : Op) : Except Err Unit × S → Prop
  | ok (s' : S) (σ' : Nat → Option Buf) (h : Rep c s' σ') (he : Effect c s s' σ σ' op)
      (hg : s'.count = s.count + 1 → Room c s s') : ROut c s σ op (.ok (), s')
  | full (s' : S) (h : Rep c s' σ) (hcap : mapCapacity c s' ≤ s'.count)
      (hop : ∃ dst, ((∃ d, op = .write dst d) ∨ (∃ p, op = .copyPage p dst) ∨ (∃ p, op = .copySector p dst)) ∧ σ dst = none) :
      ROut c s σ op (.error .mapFull, s')
  | stop (s' : S) (e : Err) (he : e ≠ .mapFull) (hub : s'.n.ub = false)
      (hsf : e ≠ .powerLoss → e ≠ .ub → e ≠ .diverge → ¬ Noisy c s.n.time s'.n.time → Rep c s' σ) : ROut c s σ op (.error e, s')

theorem call_rep (hc : c.Valid) {s : S} {σ : Nat → Option Buf} (op : Op) (h : Rep c s σ) (hv : op.Valid) :
    ROut c s σ op (call c op s) := by
  have key := fun t hT => call_inv hc Gh.triv_ok op (h t) hv trivial (fun _ _ _ _ _ _ _ => trivial) (fun _ _ _ => Or.inr fun _ _ => trivial) hT
  have hfl := fun (t : Nat) (e : Err) (s' : S) => call_failed hc (T := Gh.triv c t) Gh.triv_ok op (h t) hv trivial (fun _ _ _ _ _ _ _ => trivial) (fun _ _ _ => Or.inr fun _ _ => trivial) (e := e) (s' := s')
  generalize call c op s = r at key hfl
  obtain ⟨r, s'⟩ := r
  have k0 := key s'.n.time (Nat.le_refl _)
  cases k0 with
  | ok _ σ' h1 he hg =>
    refine .ok s' σ' (fun T => ?_) he hg
    by_cases hT : s'.n.time ≤ T
    · cases key T hT with
      | ok _ σ2 h3 _ _ =>
        have hu := h3.calm.unique h1.calm
        exact ⟨h3.calm.sig hu, h3.cnt.congr hu⟩
    · exact h1.congr_T (by show T ≤ s'.n.time; omega) (fun _ _ _ _ _ => trivial)
  | full _ h1 hcap hop =>
    refine .full s' (fun T => ?_) hcap hop
    by_cases hT : s'.n.time ≤ T
    · cases key T hT with
      | full _ h3 _ _ => exact h3
      | stop _ _ he _ => exact absurd rfl he
    · exact h1.congr_T (by show T ≤ s'.n.time; omega) (fun _ _ _ _ _ => trivial)
  | stop _ e he hub =>
    refine .stop s' e he hub fun h1 h2 h3 h4 T => ?_
    by_cases hT : s'.n.time ≤ T
    · exact hfl T e s' rfl hT h1 h2 h3 h4
    · exact (hfl s'.n.time e s' rfl (Nat.le_refl _) h1 h2 h3 h4).congr_T (by show T ≤ s'.n.time; omega) (fun _ _ _ _ _ => trivial)

theorem step_rep (hc : c.Valid) {s : S} {σ : Nat → Option Buf} (op : Op) (h : Rep c s σ) (hv : op.Valid) :
    ROut c (tick s) σ op (step c op s) := call_rep hc op (fun T => (h T).tick Gh.triv_ok) hv

theorem reset_rep (hc : c.Valid) {s : S} {j : Journal} (hj : s.j = resetJournal c j) (h0 : s.count = 0) (hd : s.n.dead = false)
    (hu : s.n.ub = false) : Rep c s (fun _ => none) := by
  intro T
  have hC := hc.ppc_ge
  have u0 : c.isU 0 := by unfold Cfg.isU; rw [Nat.zero_mod]; omega
  have p0 : c.ph 0 = 0 := by unfold Cfg.ph; exact Nat.zero_mod _
  refine ⟨⟨0, 0, 0, 0, ⟨⟨⟨?_, ?_, ?_, u0, u0, u0, Nat.le_refl _, Nat.le_refl _, ?_, ?_, hd, hu⟩, ?_⟩, ⟨?_, ?_, ?_, ?_⟩, ?_, ?_, trivial⟩⟩, ?_⟩
  · rw [hj, p0]; rfl
  · rw [hj, p0]; rfl
  · rw [hj, p0]; rfl
  · unfold Cfg.Win; have := hc.blocks_lo; omega
  · rw [hj, Nat.zero_div]; rfl
  · intro h; exact absurd (Nat.zero_mod _) h
  · rw [hj]; rfl
  · rw [hj]; rfl
  · rw [hj]; rfl
  · rw [hj]; rfl
  · have : s.j.root = NONE := by rw [hj]; rfl
    rw [this]; exact Tr.empty fun _ _ => rfl
  · exact Or.inl fun h => absurd (Nat.zero_mod _) h
  · rw [h0]; exact Cnt.zero fun _ _ => rfl

theorem findLastCheckblockLoop_err {n : Nand} {ep : UInt8} {first : Nat} : ∀ f lo hi {e : Err},
    findLastCheckblockLoop c n ep first f lo hi = .error e → e = .diverge := by
  intro f
  induction f with
  | zero => intro lo hi e h; unfold findLastCheckblockLoop at h; cases h; rfl
  | succ f ih =>
    intro lo hi e h
    unfold findLastCheckblockLoop at h
    simp only at h
    split at h
    · split at h
      · split at h
        · split at h
          · cases h
          · exact ih _ _ h
        · split at h
          · cases h
          · split at h
            · cases h
            · split at h
              · cases h
              · exact ih _ _ h
      · split at h
        · cases h
        · exact ih _ _ h
    · cases h

theorem findLastGroupLoop_err {n : Nand} {blk ng : Nat} : ∀ f lo hi {e : Err},
    findLastGroupLoop c n blk ng f lo hi = .error e → e = .diverge := by
  intro f
  induction f with
  | zero => intro lo hi e h; unfold findLastGroupLoop at h; cases h; rfl
  | succ f ih =>
    intro lo hi e h
    unfold findLastGroupLoop at h
    simp only at h
    split at h
    · split at h
      · exact ih _ _ h
      · split at h
        · cases h
        · exact ih _ _ h
    · cases h

theorem findHeadLoop_err {n : Nand} : ∀ f j {e : Err}, findHeadLoop c n f j = .error e → e = .diverge := by
  intro f
  induction f with
  | zero => intro j e h; unfold findHeadLoop at h; cases h; rfl
  | succ f ih =>
    intro j e h
    unfold findHeadLoop at h
    simp only at h
    generalize hj1 : (if _ ≥ c.pages then _ else _ : Journal) = j1 at h
    split at h
    · cases h
    · split at h
      · split at h <;> cases h
      · exact ih _ h

/-- A resume that reports E_TOO_BAD has reset the journal. -/
theorem resume_tooBad {n : Nand} {j j' : Journal} (h : journalResume c n j = (.error .tooBad, j')) :
    ∃ j0, j' = resetJournal c j0 := by
  unfold journalResume at h
  split at h
  · cases h; exact ⟨_, rfl⟩
  · simp only at h
    split at h
    · rename_i h1; cases h; cases findLastCheckblockLoop_err _ _ _ h1
    · split at h
      · rename_i h1; cases h; cases findLastGroupLoop_err _ _ _ h1
      · split at h
        · cases h; exact ⟨_, rfl⟩
        · split at h
          · rename_i h1; cases h; cases findHeadLoop_err _ _ h1
          · cases h

theorem Fresh.rep (hc : c.Valid) {s : S} (h : Fresh c s) : Rep c s (fun _ => none) := by
  obtain ⟨n, buf, k, h1, h2, h3⟩ := h
  unfold mapResume at h3
  rcases hr : journalResume c (mapInit c buf k n).n (mapInit c buf k n).j with ⟨e | u, j⟩
  · rw [hr] at h3
    simp only at h3
    cases h3
    obtain ⟨j0, hj⟩ := resume_tooBad hr
    exact reset_rep hc hj rfl h1 h2
  · rw [hr] at h3; cases h3

/-- Every history has a log, and the state represents the log's contents. -/
theorem Hist.rep (hc : c.Valid) {s : S} (h : Hist c s) : ∃ evs, Log c s evs ∧ Rep c s (contents evs) := by
  induction h with
  | fresh s h => exact ⟨[], .fresh s h, h.rep hc⟩
  | call s s' op r h hv hs hr ih =>
    obtain ⟨evs, hl, hrep⟩ := ih
    have key := step_rep hc op hrep hv
    rw [hs] at key
    cases key with
    | ok _ σ' h1 he _ =>
      suffices ∃ new, Records c s s' evs op new ∧ σ' = contents (new ++ evs) by
        obtain ⟨new, h2, h3⟩ := this
        exact ⟨new ++ evs, .ok s s' op evs new hl hv hs h2, h3 ▸ h1⟩
      cases op with
      | write dst data => exact ⟨_, rfl, he⟩
      | trim t => exact ⟨_, rfl, he⟩
      | clear => exact ⟨_, rfl, he⟩
      | sync => exact ⟨_, rfl, he⟩
      | gc => exact ⟨_, rfl, he⟩
      | copyPage p dst =>
        obtain ⟨b, h2, h3⟩ := he
        exact ⟨_, ⟨b, rfl, h3⟩, h2⟩
      | copySector src dst =>
        obtain ⟨h2, h3⟩ := he
        cases hcs : contents evs src with
        | none => refine ⟨[.del dst], ?_, h2 hcs⟩; simp only [Records, hcs]
        | some b =>
          obtain ⟨b', h4, h5⟩ := h3 b hcs
          refine ⟨[.put dst b'], ?_, h4⟩; simp only [Records, hcs]; exact ⟨b', rfl, h5⟩
    | full _ h1 _ _ => exact ⟨evs, .full s s' op evs hl hv hs, h1⟩
    | stop _ e he _ => rcases hr with h | h <;> cases h; exact absurd rfl he
  | failed s s' op e h hv hs hr hq ih =>
    obtain ⟨evs, hl, hrep⟩ := ih
    have key := step_rep hc op hrep hv
    rw [hs] at key
    cases key with
    | full _ h1 _ _ => exact ⟨evs, .full s s' op evs hl hv hs, h1⟩
    | stop _ _ he _ hsf => exact ⟨evs, .failed s s' op e evs hl hv hs hr hq, hsf hr.1 hr.2.1 hr.2.2 (hq.noisy (Nat.le_succ _))⟩

end Dhara

/-
While a call is running, the data of every sector is on the chip: the hook for Inv2 that says so.
-/
import Verif.Proofs.Top
import Verif.Proofs.Disk3
namespace Dhara

variable {c : Cfg}

/-- Every sector of `σ` has its data in a page between `lo` and `hi`. -/
def HeldIn (c : Cfg) (n : Nand) (lo hi : Nat) (σ : Nat → Option Buf) : Prop :=
  ∀ t b, t < NONE → σ t = some b → ∃ v, lo ≤ v ∧ v < hi ∧ n.chip.page (c.ph v) = some b

/-- The tree at the root holds `σ`. -/
def HeldT (c : Cfg) (s : S) (σ : Nat → Option Buf) : Prop :=
  ∀ t, t < NONE → (dict (mtOf c s) s.j.root t = none → σ t = none) ∧
    ∀ q, dict (mtOf c s) s.j.root t = some q → ∃ b, s.n.chip.page q = some b ∧ σ t = some b

/-- Every sector of `σ` has its data in some page. -/
def HeldX (c : Cfg) (n : Nand) (σ : Nat → Option Buf) : Prop :=
  ∀ t b, t < NONE → σ t = some b → ∃ p, p < c.pages ∧ n.chip.page p = some b

/-- The hook. -/
def Gh.held (c : Cfg) (t : Nat) (W : (Nat → Option Buf) → Nat → Nand → Prop) : Gh c :=
  ⟨t, W,
   fun s vts _ vh _ => ∃ σ k, W σ k s.n ∧ (HeldT c s σ ∨ (s.j.dirty = true ∧ HeldIn c s.n vts vh σ)),
   fun s vts _ vh _ _ => ∃ σ k, W σ k s.n ∧ HeldIn c s.n vts vh σ,
   fun s => ∃ σ k, W σ k s.n ∧ HeldX c s.n σ, fun _ _ _ => True⟩

theorem HeldT.at {s : S} {σ σ0 : Nat → Option Buf} {vts vt vh vr : Nat} (h : HeldT c s σ) (g : Geo c s vts vt vh)
    (hT : Tr c s s.j.root vt vr vh σ0) : HeldIn c s.n vts vh σ := by
  intro t b ht hb
  cases hd : dict (mtOf c s) s.j.root t with
  | none => rw [(h t ht).1 hd] at hb; cases hb
  | some q =>
    obtain ⟨b', h1, h2⟩ := (h t ht).2 q hd
    rw [hb] at h2; cases h2
    obtain ⟨v, e1, e2, _, e3, _⟩ := hT.lt (dict_sound hT.ok (by omega) hd).1
    have := g.l1
    exact ⟨v, by omega, e3, by rw [← e1]; exact h1⟩

theorem HeldIn.x (hc : c.Valid) {n : Nand} {lo hi : Nat} {σ : Nat → Option Buf} (h : HeldIn c n lo hi σ) : HeldX c n σ := by
  intro t b ht hb
  obtain ⟨v, _, _, h3⟩ := h t b ht hb
  exact ⟨_, ph_lt hc v, h3⟩

theorem HeldIn.kp {n n' : Nand} {lo hi : Nat} {σ : Nat → Option Buf} (h : HeldIn c n lo hi σ) (hk : Kp c n n' lo hi) :
    HeldIn c n' lo hi σ := by
  intro t b ht hb
  obtain ⟨v, h1, h2, h3⟩ := h t b ht hb
  exact ⟨v, h1, h2, by rw [(hk v h1 h2).1]; exact h3⟩

theorem Tr.heldT {s : S} {vt vh vr : Nat} {σ : Nat → Option Buf} (h : Tr c s s.j.root vt vr vh σ) : HeldT c s σ := by
  intro t ht
  refine ⟨h.emp t ht, fun q hq => ?_⟩
  obtain ⟨b, h1, _, h2⟩ := h.holds t q ht hq
  exact ⟨b, h1, h2⟩

theorem Gh.held_ok (hc : c.Valid) {t : Nat} {W : (Nat → Option Buf) → Nat → Nand → Prop}
    (hWm : ∀ σ k n n', W σ k n → Evo c n n' → W σ k n') : (Gh.held c t W).Ok := by
  -- everything the tree or the queue holds at the start of a push is there at its end
  have at0 : ∀ {s : S} {σ : Nat → Option Buf} {vts vt vh vr : Nat}, Inv0 c s σ (Gh.held c t W) vts vt vh vr →
      ∃ σ k, W σ k s.n ∧ HeldIn c s.n vts vh σ := by
    intro s σ vts vt vh vr hI
    obtain ⟨σ1, k, h1, h2⟩ := hI.ext
    rcases h2 with h2 | h2
    · exact ⟨σ1, k, h1, h2.at hI.geo hI.tr⟩
    · exact ⟨σ1, k, h1, h2.2⟩
  have fin : ∀ {s s' : S} {vts vh : Nat}, (∃ σ k, W σ k s.n ∧ HeldIn c s.n vts vh σ) → Evo c s.n s'.n →
      Kp c s.n s'.n vts vh → (Gh.held c t W).X s' := by
    rintro s s' vts vh ⟨σ, k, h1, h2⟩ hE hK
    exact ⟨σ, k, hWm _ _ _ _ h1 hE, (h2.kp hK).x hc⟩
  refine
  { upow := trivial
    usoft := fun _ _ _ _ _ => trivial
    unoisy := fun _ _ _ _ => trivial
    uhard := fun _ _ _ _ => trivial
    ustuck := fun _ _ _ _ _ _ _ => trivial
    ucong := fun _ _ _ => trivial
    udiv := Or.inl fun _ _ => trivial
    soft := ?_
    wmono := fun h e => hWm _ _ _ _ h e
    cong0 := ?_
    cong1 := ?_
    tick := ?_
    congX := ?_
    push0 := fun _ _ hT _ hW _ _ => ⟨_, _, hW, Or.inl hT.heldT⟩
    erase := fun hI _ hE hK _ => fin (at0 hI) hE hK
    page := fun hI _ _ _ _ _ hE hK _ => fin (at0 hI) hE hK
    twin := ?_
    noisy := fun hI _ _ hE hK => fin (at0 hI) hE hK
    skip := fun hI hs _ hE hK _ => fin (at0 hI) (hs.evo.trans hE) hK
    start := ?_
    rok := ?_
    done := fun _ _ _ hT _ hW _ _ => ⟨_, _, hW, Or.inl hT.heldT⟩
    again := ?_
    crash1 := fun hI _ hE hK => fin hI.ext hE hK
    tail := ?_
    clear := ?_ }
  · intro s s' σ vts vt vh vr vq hI h hE _
    rcases h.dirty with hd | hd
    · subst hd
      obtain ⟨σ1, k, h1, h2⟩ := hI.ext
      refine ⟨σ1, k, h1, h2.imp id fun h2 => ⟨h2.1, ?_⟩⟩
      intro t b ht hb
      obtain ⟨v, a1, a2, a3⟩ := h2.2 t b ht hb
      exact ⟨v, a1, Nat.lt_of_lt_of_le a2 h.le, a3⟩
    · obtain ⟨σ1, k, h1, h2⟩ := at0 hI
      refine ⟨σ1, k, hWm _ _ _ _ h1 hE, Or.inr ⟨hd, ?_⟩⟩
      intro t b ht hb
      obtain ⟨v, a1, a2, a3⟩ := h2 t b ht hb
      exact ⟨v, a1, Nat.lt_of_lt_of_le a2 h.le, by rw [h.keep.live hc h.win a1 a2]; exact a3⟩
  · intro s s' vts vt vh vr h hn hd hr hm
    obtain ⟨σ, k, h1, h2⟩ := h
    refine ⟨σ, k, by rw [hn]; exact h1, ?_⟩
    simp only [HeldT] at h2 ⊢
    rw [hn, hd, hr, hm]; exact h2
  · intro s s' vts vt vh vR vM h hn _
    obtain ⟨σ, k, h1, h2⟩ := h
    exact ⟨σ, k, by rw [hn]; exact h1, by rw [hn]; exact h2⟩
  · intro s vts vt vh vr h
    obtain ⟨σ, k, h1, h2⟩ := h
    exact ⟨σ, k, hWm _ _ _ _ h1 (tick_evo' _), h2⟩
  · intro s s' h hn _
    obtain ⟨σ, k, h1, h2⟩ := h
    exact ⟨σ, k, by rw [hn]; exact h1, by rw [hn]; exact h2⟩
  · intro s s1 s' σ σ' m Pd vts vt vh vr vq vR vM hI ho hT hcalm hW hE' hch _ hE _
    refine ⟨σ', _, hWm _ _ _ _ hW hE, ?_⟩
    have := (hT.heldT.at ho.geo hT).x hc
    unfold HeldX at this ⊢
    rw [← hch]; exact this
  · intro s s' σ vts vt vh vr vM v' hI _ h hE _ _
    obtain ⟨σ1, k, h1, h2⟩ := at0 hI
    refine ⟨σ1, k, hWm _ _ _ _ h1 hE, ?_⟩
    intro t b ht hb
    obtain ⟨v, a1, a2, a3⟩ := h2 t b ht hb
    have hlt := h.lt
    have hltv : vh ≤ v' := by
      apply Classical.byContradiction; intro hn
      have := Nat.div_le_div_right (c := c.ppb) (by omega : v' ≤ vh); omega
    exact ⟨v, a1, by omega, by rw [h.keep.live hc h.geo.win a1 a2]; exact a3⟩
  · intro s s' σ pend m Pd vts vt vh vr vR vM vn vq hI h hnf hE _
    obtain ⟨σ1, k, h1, h2⟩ := hI.ext
    refine ⟨σ1, k, hWm _ _ _ _ h1 hE, ?_⟩
    have hts : newTs c s vts vt vq = vts := by
      unfold newTs
      rw [if_neg]
      rintro ⟨hl, h' | h'⟩
      · rw [hI.rcv] at h'; cases h'
      · exact hnf ⟨hl, h'⟩
    rw [hts]
    intro t b ht hb
    obtain ⟨v, a1, a2, a3⟩ := h2 t b ht hb
    have hle := h.le
    have hlt := lt_nextV c vq
    exact ⟨v, a1, by omega, by rw [h.keep.live hc (h.winq.mono (Nat.le_refl _) (by omega)) a1 a2]; exact a3⟩
  · intro s s' σ pend vts vt vh vr vR vM vn v' hI h hE _
    obtain ⟨σ1, k, h1, h2⟩ := hI.ext
    refine ⟨σ1, k, hWm _ _ _ _ h1 hE, ?_⟩
    intro t b ht hb
    obtain ⟨v, a1, a2, a3⟩ := h2 t b ht hb
    have hlt := h.lt
    have hltv : vh ≤ v' := by
      apply Classical.byContradiction; intro hn
      have := Nat.div_le_div_right (c := c.ppb) (by omega : v' ≤ vh); omega
    exact ⟨v, a1, by omega, by rw [h.keep.live hc h.geo.win a1 a2]; exact a3⟩
  · intro s s' σ vts vt vh vr vts' vt' hI hn hd hm hr hts h1 h2 hu
    obtain ⟨σ1, k, a1, a2⟩ := hI.ext
    refine ⟨σ1, k, by rw [hn]; exact a1, ?_⟩
    rcases a2 with a2 | ⟨a2, a3⟩
    · left
      rcases hr with hr | ⟨hr, _, hz⟩
      · unfold HeldT at a2 ⊢
        rw [hm, hr, hn]; exact a2
      · intro t ht
        have hnone : dict (mtOf c s) s.j.root t = none := by
          cases hq : dict (mtOf c s) s.j.root t with
          | none => rfl
          | some q =>
            obtain ⟨b, _, _, h3⟩ := hI.tr.holds t q ht hq
            rw [hz.1 t ht] at h3; cases h3
        refine ⟨fun _ => (a2 t ht).1 hnone, fun q hq => ?_⟩
        rw [dict_none hr] at hq; cases hq
    · right
      refine ⟨hd.trans a2, ?_⟩
      rcases hts with h | ⟨h, _⟩
      · rw [h, hn]; exact a3
      · rw [h] at a2; cases a2
  · intro s s' σ vts vt vh vr hI hn hd hr
    obtain ⟨σ1, k, h1, h2⟩ := at0 hI
    exact ⟨σ1, k, by rw [hn]; exact h1, Or.inr ⟨hd, by rw [hn]; exact h2⟩⟩

end Dhara

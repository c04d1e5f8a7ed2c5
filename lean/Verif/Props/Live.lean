/-
C17: live data is never erased, and never left on a block marked bad.
-/
import Verif.Proofs.Held
import Verif.Props.Crash
import Verif.Props.Journal
import Verif.Props.Example3
namespace Dhara

variable {c : Cfg}

/-- Some page of the chip holds `b`. -/
def OnChip (c : Cfg) (n : Nand) (b : Buf) : Prop := ∃ p, p < c.pages ∧ n.chip.page p = some b

/-- The sectors whose contents the call replaces or removes. -/
def Op.Touches : Op → Nat → Prop
  | .write dst _, t => t = dst
  | .copyPage _ dst, t => t = dst
  | .copySector _ dst, t => t = dst
  | .trim x, t => t = x
  | .clear, _ => True
  | .sync, _ => False
  | .gc, _ => False

theorem effect_touch {s s' : S} {σ σ' : Nat → Option Buf} {op : Op} (h : Effect c s s' σ σ' op) {t : Nat} (ht : ¬ op.Touches t) :
    σ' t = σ t := by
  cases op with
  | write dst d => simp only [Effect] at h; rw [h]; exact if_neg ht
  | copyPage p dst => obtain ⟨b, h, _⟩ := h; rw [h]; exact if_neg ht
  | copySector src dst =>
    cases hs : σ src with
    | none => rw [h.1 hs]; exact if_neg ht
    | some b => obtain ⟨b', h', _⟩ := h.2 b hs; rw [h']; exact if_neg ht
  | trim x => simp only [Effect] at h; rw [h]; exact if_neg ht
  | clear => exact absurd trivial ht
  | sync => simp only [Effect] at h; rw [h]
  | gc => simp only [Effect] at h; rw [h]

/-- What the chip may have to hold during the call. -/
def WL (c : Cfg) (op : Op) (s : S) (σ0 : Nat → Option Buf) : (Nat → Option Buf) → Nat → Nand → Prop := fun σ' _ n =>
  (∀ t, t < NONE → σ' t = σ0 t) ∨ ∃ n0, Evo c (tick s).n n0 ∧ Evo c n0 n ∧ (n0.ub = false → Effect c (tick s) { tick s with n := n0 } σ0 σ' op)

theorem wl_mono {op : Op} {s : S} {σ0 : Nat → Option Buf} : ∀ σ k n n', WL c op s σ0 σ k n → Evo c n n' → WL c op s σ0 σ k n' := by
  intro σ k n n' h hE
  rcases h with h | ⟨n0, h3, h4, h5⟩
  · exact Or.inl h
  · exact Or.inr ⟨n0, h3, h4.trans hE, h5⟩

theorem live_core (hc : c.Valid) {s s' : S} {σ : Nat → Option Buf} {vts vt vh vr : Nat} (g : Geo c s vts vt vh) (hcalm : Calm s)
    (hT : Tr c s s.j.root vt vr vh σ) (hcnt : Cnt σ s.count) {op : Op} (hv : op.Valid)
    (hst : Stable c s vr vh ∨ NoFail c s.n.time s'.n.time) (hs : step c op s = (.error .powerLoss, s')) :
    ∃ σ', ((∀ t, t < NONE → σ' t = σ t) ∨ ∃ n0, Evo c n0 s'.n ∧ Effect c (tick s) { tick s with n := n0 } σ σ' op) ∧
      ∀ t b, t < NONE → σ' t = some b → OnChip c s'.n b := by
  have hG : (Gh.held c s'.n.time (WL c op s σ)).Ok := Gh.held_ok hc wl_mono
  have hI : Inv0 c s σ (Gh.held c s'.n.time (WL c op s σ)) vts vt vh vr :=
    ⟨g, hcalm, hT, hst, σ, 0, Or.inl (fun _ _ => rfl), Or.inl hT.heldT⟩
  have key := call_inv hc hG op (MInv.tick hG ⟨⟨_, _, _, _, hI⟩, hcnt⟩) hv (Or.inl (fun _ _ => rfl))
    (fun _ s1 σ1 k hE hef _ => Or.inr ⟨s1.n, hE, Evo.refl _, fun hub => effect_congr (hef hub) rfl⟩)
    (fun _ _ _ => Or.inr fun _ _ => trivial)
    (by rw [show call c op (tick s) = step c op s from rfl, hs]; exact Nat.le_refl _)
  rw [show call c op (tick s) = step c op s from rfl, hs] at key
  cases key with
  | stop _ _ _ hub hcr _ =>
    obtain ⟨σ', k, hW, hX⟩ := hcr rfl
    refine ⟨σ', ?_, hX⟩
    rcases hW with h | ⟨n0, h1, h2, h3⟩
    · exact Or.inl h
    · refine Or.inr ⟨n0, h2, h3 ?_⟩
      cases hh : n0.ub with
      | false => rfl
      | true => rw [h2.ub hh] at hub; cases hub

/-- C17: power is cut at any operation of any call, with any program, erase and read failures before it in this and earlier
calls. Then the data `b` in the current page `p` of every sector that the call does not itself replace or remove is still in some
page of the chip. Since the adversary may cut the power after any operation, this says that no erase or program at any time
destroys live data. -/
theorem live_data_survives (hc : c.Valid) (s s' : S) (h : Hist c s) (op : Op) (hv : op.Valid)
    (hs : step c op s = (.error .powerLoss, s')) (t p : Nat) (ht : t < NONE) (hn : ¬ op.Touches t)
    (hf : mapFind c s t = .ok p) : ∃ b, s.n.chip.page p = some b ∧ OnChip c s'.n b := by
  obtain ⟨evs, _, hrep⟩ := h.rep hc
  obtain ⟨⟨vts, vt, vh, vr, hI⟩, hcnt⟩ := hrep s'.n.time
  obtain ⟨σ', h1, h2⟩ := live_core hc hI.geo hI.calm hI.tr hcnt hv hI.stab hs
  rcases mapFind_exact hc (hrep 0).calm ht with ⟨q, b, h3, h4, h5, _⟩ | ⟨h3, _⟩ | ⟨h3, _⟩
  · rw [hf] at h3; cases h3
    refine ⟨b, h5, h2 t b ht ?_⟩
    rcases h1 with h1 | ⟨n0, _, h1⟩
    · rw [h1 t ht]; exact h4
    · rw [effect_touch h1 hn]; exact h4
  · rw [hf] at h3; cases h3
  · rw [hf] at h3; cases h3

/-- C17, the sector being written: at every moment its old data or its new data is on the chip. -/
theorem written_data_survives (hc : c.Valid) (s s' : S) (h : Hist c s) (t p : Nat) (d : Buf) (ht : t < NONE)
    (hs : step c (.write t d) s = (.error .powerLoss, s')) (hf : mapFind c s t = .ok p) :
    OnChip c s'.n (c.clip d) ∨ ∃ b, s.n.chip.page p = some b ∧ OnChip c s'.n b := by
  obtain ⟨evs, _, hrep⟩ := h.rep hc
  obtain ⟨⟨vts, vt, vh, vr, hI⟩, hcnt⟩ := hrep s'.n.time
  obtain ⟨σ', h1, h2⟩ := live_core hc hI.geo hI.calm hI.tr hcnt (show (Op.write t d).Valid from ht) hI.stab hs
  rcases mapFind_exact hc (hrep 0).calm ht with ⟨q, b, h3, h4, h5, _⟩ | ⟨h3, _⟩ | ⟨h3, _⟩
  · rw [hf] at h3; cases h3
    rcases h1 with h1 | ⟨n0, _, h1⟩
    · exact Or.inr ⟨b, h5, h2 t b ht (by rw [h1 t ht]; exact h4)⟩
    · refine Or.inl (h2 t _ ht ?_)
      simp only [Effect] at h1
      rw [h1]; exact if_pos rfl
  · rw [hf] at h3; cases h3
  · rw [hf] at h3; cases h3

/-- C17 with power failures in the history. -/
theorem live_data_survives_run (hc : c.Valid) (hJ : NoForgery c) (s s' : S) (h : PRun c s) (op : Op) (hv : op.Valid)
    (hx : ¬ Exposed c s ∨ ProgsOk c s.n.time s'.n.time)
    (hs : step c op s = (.error .powerLoss, s')) (t p : Nat) (ht : t < NONE) (hn : ¬ op.Touches t)
    (hf : mapFind c s t = .ok p) : ∃ b, s.n.chip.page p = some b ∧ OnChip c s'.n b := by
  obtain ⟨evs, d, hl⟩ := run_has_log hc hJ s h
  have hcal := (hl.inv hc hJ).1.calm
  obtain ⟨⟨⟨vts, vt, vh, vr, g, hcalm, hT, hD, hR⟩, hcnt⟩, hd⟩ := hl.inv hc hJ
  obtain ⟨σ', h1, h2⟩ := live_core hc g hcalm hT hcnt hv (by
    rcases hx with hx | hx
    · exact Or.inl (not_exposed hc g hT hx)
    · exact Or.inr hx) hs
  rcases mapFind_exact hc hcal ht with ⟨q, b, h3, h4, h5, _⟩ | ⟨h3, _⟩ | ⟨h3, _⟩
  · rw [hf] at h3; cases h3
    refine ⟨b, h5, h2 t b ht ?_⟩
    rcases h1 with h1 | ⟨n0, _, h1⟩
    · rw [h1 t ht]; exact h4
    · rw [effect_touch h1 hn]; exact h4
  · rw [hf] at h3; cases h3
  · rw [hf] at h3; cases h3

/-- C17 for the journal: a push, whatever its outcome (success, recovery, any error, power failure), changes no page
between the synchronised tail and the head, and erases no block that contains one. -/
theorem push_keeps_queue (hc : c.Valid) (s : S) (h : JHist c s) (d m : Option Buf) (p : Nat) (mt : Buf) (x : Nat)
    (hx : c.Between s.j.tailSync x s.j.head) :
    ((enqueue c d m s).2.n.chip.page x = s.n.chip.page x ∧ (enqueue c d m s).2.n.erases (x / c.ppb) = s.n.erases (x / c.ppb)) ∧
    ((journalCopy c p mt s).2.n.chip.page x = s.n.chip.page x ∧
      (journalCopy c p mt s).2.n.erases (x / c.ppb) = s.n.erases (x / c.ppb)) := by
  obtain ⟨vts, vt, vh, vr, vR, vM, vn, hq⟩ := h.inv hc
  have g := hq.geo
  obtain ⟨v, h2, h3, _, h1⟩ := between_pos hc g.toGeo0 hx
  rw [h1]
  exact ⟨push_kp hc g (wrData_here _) _ 8 v h2 h3, push_kp hc g (wrCopy_here _) _ 8 v h2 h3⟩

/-- C17: after every history of successful (or refused) calls, the page that find reports is in a block not marked bad. -/
theorem live_page_on_good_block (hc : c.Valid) (s : S) (h : Hist c s) (t p : Nat) (ht : t < NONE) (hf : mapFind c s t = .ok p) :
    p < c.pages ∧ nandIsBad s.n (p / c.ppb) = false := by
  obtain ⟨evs, _, hrep⟩ := h.rep hc
  rcases mapFind_exact hc (hrep 0).calm ht with ⟨q, b, h3, _, _, _, h6, _, h8⟩ | ⟨h3, _⟩ | ⟨h3, _⟩
  · rw [hf] at h3; cases h3; exact ⟨h6, h8⟩
  · rw [hf] at h3; cases h3
  · rw [hf] at h3; cases h3

/-- The same with power failures in the history. -/
theorem live_page_on_good_block_run (hc : c.Valid) (hJ : NoForgery c) (s : S) (h : PRun c s) (t p : Nat) (ht : t < NONE)
    (hf : mapFind c s t = .ok p) : p < c.pages ∧ nandIsBad s.n (p / c.ppb) = false := by
  obtain ⟨evs, d, hl⟩ := run_has_log hc hJ s h
  rcases mapFind_exact hc (hl.inv hc hJ).1.calm ht with ⟨q, b, h3, _, _, _, h6, _, h8⟩ | ⟨h3, _⟩ | ⟨h3, _⟩
  · rw [hf] at h3; cases h3; exact ⟨h6, h8⟩
  · rw [hf] at h3; cases h3
  · rw [hf] at h3; cases h3

end Dhara

namespace Dhara.Ex3
open Dhara.Viol

theorem prun2 : PRun c s2 := by
  have g : good (step c .sync s0).1 = true := by decide +kernel
  have hp1 : PRun c s1 := .step _ _ _ prun0 (.ok _ _ .sync trivial (pair_eq (good_iff g)) trivial (Or.inr (progs _ _)))
  refine prun_run _ _ hp1 ?_ (by decide +kernel)
  intro op h
  simp only [List.mem_cons, List.not_mem_nil, or_false] at h
  rcases h with h | h <;> subst h <;> simp [Op.Valid, Op.noCopy]

/-- The theorem applies: power fails in the middle of a write, and sector 3 is still there. -/
theorem live_example : ∃ p b, mapFind c s2 3 = .ok p ∧ s2.n.chip.page p = some b ∧ OnChip c s3.n b := by
  have h1 : found (mapFind c s2 3) = true := by decide +kernel
  obtain ⟨p, hp⟩ := found_iff h1
  obtain ⟨b, h2, h3⟩ := live_data_survives_run valid noForgery s2 s3 prun2 (.write 5 (data 6)) (by show 5 < NONE; decide)
    (Or.inr (progs _ _)) step3 3 p (by decide) (by show ¬ (3 : Nat) = 5; decide) hp
  exact ⟨p, b, hp, h2, h3⟩

end Dhara.Ex3

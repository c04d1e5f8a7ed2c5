/-
Which errors a push can report: E_MAP_FULL, fuel exhaustion and contract violations by reads come from elsewhere.
-/
import Verif.Proofs.Trace
namespace Dhara

variable {c : Cfg} {e0 : Err}

/-- The result is not the error `e0`. -/
def NE {α β : Type} (e0 : Err) (r : Except Err α × β) : Prop := r.1 ≠ .error e0

/-- Errors that a push never reports by itself. -/
def Odd (e : Err) : Prop := e = .mapFull ∨ e = .ub ∨ e = .diverge

instance (e : Err) : Decidable (Odd e) := by unfold Odd; infer_instance

theorem Odd.ne (ho : Odd e0) {e : Err} (h : ¬ Odd e) : e ≠ e0 := fun he => h (he ▸ ho)

theorem ne_err {α β : Type} {e : Err} {b : β} (h : NE e0 ((.error e, b) : Except Err α × β)) : e ≠ e0 := by
  intro he; subst he; exact h rfl

theorem ne_ok {α β : Type} {a : α} {b : β} : NE e0 ((.ok a, b) : Except Err α × β) := by
  intro h; cases h

theorem ne_of {α β : Type} {e : Err} {b : β} (h : e ≠ e0) : NE e0 ((.error e, b) : Except Err α × β) := by
  intro h'; cases h'; exact h rfl

theorem NE.state {α β γ : Type} {e : Err} {b : β} (h : NE e0 ((.error e, b) : Except Err α × β)) (g : γ) {α' : Type} :
    NE e0 ((.error e, g) : Except Err α' × γ) := ne_of (ne_err h)

theorem nandRead_ecc {n : Nand} {p off len : Nat} (hp : p < c.pages) (ho : off + len ≤ c.pageSize) {e : Err}
    (h : nandRead c n p off len = .error e) : e = .ecc := by
  unfold nandRead at h
  rw [if_pos ⟨hp, ho⟩] at h
  split at h
  · cases h; rfl
  · split at h
    · cases h; rfl
    · cases h

theorem nandErase_ne (ho : Odd e0) (b : Nat) (n : Nand) : NE e0 (nandErase c b n) := by
  rcases ho with rfl | rfl | rfl <;>
  unfold nandErase NE <;> split <;> first | simp; done | (simp only; split <;> simp)

theorem nandProg_ne (ho : Odd e0) (p : Nat) (d : Buf) (n : Nand) : NE e0 (nandProg c p d n) := by
  rcases ho with rfl | rfl | rfl <;>
  unfold nandProg NE <;> split <;> first | simp; done | (simp only; split <;> simp)

theorem nandCopy_ne (ho : Odd e0) {p : Nat} (hp : e0 ≠ .ub ∨ p < c.pages) (q : Nat) (n : Nand) : NE e0 (nandCopy c p q n) := by
  unfold nandCopy
  cases h : nandRead c n p 0 c.pageSize with
  | error e =>
    refine ne_of ?_
    rcases hp with hp | hp
    · rcases nandRead_err h with h | h
      · rw [h]; exact ho.ne (by decide)
      · rw [h]; exact Ne.symm hp
    · rw [nandRead_ecc hp (by omega) h]; exact ho.ne (by decide)
  | ok b => exact nandProg_ne ho _ _ _

theorem skipBlock_ne (ho : Odd e0) (s : S) : NE e0 (skipBlock c s) := by
  rcases ho with rfl | rfl | rfl <;> unfold skipBlock NE <;> simp only <;> split <;> simp

theorem prepareHeadLoop_ne (ho : Odd e0) : ∀ i s, NE e0 (prepareHeadLoop c i s) := by
  intro i
  induction i with
  | zero => intro s; exact ne_of (ho.ne (by decide))
  | succ i ih =>
    intro s
    unfold prepareHeadLoop
    simp only
    split
    · exact nandErase_ne ho _ _
    · have h := skipBlock_ne ho (c := c) { s with j := { s.j with bbCurrent := s.j.bbCurrent + 1 } }
      rcases hs : skipBlock c { s with j := { s.j with bbCurrent := s.j.bbCurrent + 1 } } with ⟨e | u, s'⟩
      · rw [hs] at h; exact h
      · exact ih _

theorem prepareHead_ne (ho : Odd e0) (s : S) : NE e0 (prepareHead c s) := by
  unfold prepareHead
  simp only
  split
  · exact ne_of (ho.ne (by decide))
  · split
    · exact ne_ok
    · exact prepareHeadLoop_ne ho _ _

theorem progS_ne (ho : Odd e0) (p : Nat) (d : Buf) (s : S) : NE e0 (progS c p d s) := nandProg_ne ho _ _ _

theorem dumpMetaLoop_ne (ho : Odd e0) : ∀ i s, NE e0 (dumpMetaLoop c i s) := by
  intro i
  induction i with
  | zero => intro s; exact ne_of (ho.ne (by decide))
  | succ i ih =>
    intro s
    unfold dumpMetaLoop
    have key : ∀ r : Except Err Unit × S, NE e0 r → NE e0 (match r with
        | (.ok (), s) =>
          (.ok (), { s with j := { (rollIfZero { s.j with recoverMeta := s.j.head, head := nextUpage c s.j.head }) with
            pageBuf := hdrClearUser c (rollIfZero { s.j with recoverMeta := s.j.head, head := nextUpage c s.j.head }).pageBuf } })
        | (.error e, s) =>
          if e ≠ .badBlock then (.error e, s)
          else
            match skipBlock c { s with j := { s.j with bbCurrent := s.j.bbCurrent + 1 }, n := nandMarkBad c (c.blk s.j.head) s.n } with
            | (.error e, s) => (.error e, s)
            | (.ok (), s) => dumpMetaLoop c i s) := by
      rintro ⟨e | u, s'⟩ h
      · simp only
        split
        · exact h
        · have h2 := skipBlock_ne ho (c := c) { s' with j := { s'.j with bbCurrent := s'.j.bbCurrent + 1 }, n := nandMarkBad c (c.blk s'.j.head) s'.n }
          rcases hs : skipBlock c { s' with j := { s'.j with bbCurrent := s'.j.bbCurrent + 1 }, n := nandMarkBad c (c.blk s'.j.head) s'.n } with ⟨e | u, s2⟩
          · rw [hs] at h2; exact h2
          · exact ih _
      · exact ne_ok
    have h1 : NE e0 (match prepareHead c s with
        | (.error e, s) => (.error e, s)
        | (.ok (), s) => progS c s.j.head s.j.pageBuf s) := by
      have h := prepareHead_ne ho (c := c) s
      rcases hp : prepareHead c s with ⟨e | u, s'⟩
      · rw [hp] at h; exact h
      · exact progS_ne ho _ _ _
    exact key _ h1

theorem recoverFrom_noerr (ho : Odd e0) {e : Err} (he : e ≠ e0) (s : S) : NE e0 (recoverFrom c e s) := by
  unfold recoverFrom
  simp only
  split
  · exact ne_of he
  · have h2 := skipBlock_ne ho (c := c) { s with j := { s.j with bbCurrent := s.j.bbCurrent + 1 } }
    rcases hs : skipBlock c { s with j := { s.j with bbCurrent := s.j.bbCurrent + 1 } } with ⟨e | u, s2⟩
    · rw [hs] at h2; exact h2
    · simp only
      split
      · exact ne_of (ho.ne (by decide))
      · split
        · exact ne_ok
        · have key : ∀ r : Except Err Unit × S, NE e0 r → NE e0 (match r with
              | (.error e, s) => (.error e, s)
              | (.ok (), s) => ((.error .recover, { s with j := { s.j with recovery := true } }) : Except Err Unit × S)) := by
            rintro ⟨e | u, s'⟩ h
            · exact h
            · exact ne_of (ho.ne (by decide))
          apply key
          split
          · exact dumpMetaLoop_ne ho _ _
          · exact ne_ok

theorem pushMeta_ne (ho : Odd e0) (m : Option Buf) (s : S) : NE e0 (pushMeta c m s) := by
  unfold pushMeta
  simp only
  split
  · exact ne_ok
  · generalize hs : ({ s with j := fillHeader (bufferMeta c m s.j) } : S) = s1
    have h := progS_ne ho (c := c) (s1.j.head + 1) s1.j.pageBuf s1
    have : ∀ p d, progS c p d ({ j := fillHeader (bufferMeta c m s.j), n := s.n, count := s.count } : S) = progS c p d s1 := by
      intro p d; rw [← hs]
    subst hs
    generalize progS c _ _ _ = r at h ⊢
    rcases r with ⟨e | u, s'⟩
    · exact recoverFrom_noerr ho (ne_err h) _
    · exact ne_ok

theorem pushLoop_ne (ho : Odd e0) (wr : S → Except Err Unit × S) (hw : ∀ s, NE e0 (wr s)) (m : Option Buf) :
    ∀ i s, NE e0 (pushLoop c wr m i s) := by
  intro i
  induction i with
  | zero => intro s; exact ne_of (ho.ne (by decide))
  | succ i ih =>
    intro s
    unfold pushLoop
    have key : ∀ r : Except Err Unit × S, NE e0 r → NE e0 (match r with
        | (.ok (), s) => pushMeta c m s
        | (.error e, s) =>
          match recoverFrom c e s with
          | (.error e, s) => (.error e, s)
          | (.ok (), s) => pushLoop c wr m i s) := by
      rintro ⟨e | u, s'⟩ h
      · simp only
        have h2 := recoverFrom_noerr ho (c := c) (ne_err h) s'
        rcases hs : recoverFrom c e s' with ⟨e | u, s2⟩
        · rw [hs] at h2; exact h2
        · exact ih _
      · exact pushMeta_ne ho _ _
    apply key
    have h := prepareHead_ne ho (c := c) s
    rcases hp : prepareHead c s with ⟨e | u, s'⟩
    · rw [hp] at h; exact h
    · exact hw _

end Dhara

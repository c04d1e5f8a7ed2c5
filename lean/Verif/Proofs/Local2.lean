/-
C58, continued: resuming depends only on cells of the chip that exist, whatever they contain.
-/
import Verif.Proofs.Local
namespace Dhara
variable {c : Cfg}

theorem findCheckblock_sim {n n' : Nand} (h : NSim c n n') : ∀ i k, findCheckblock c n i k = findCheckblock c n' i k := by
  intro i
  induction i with
  | zero => intro k; rfl
  | succ i ih =>
    intro k
    unfold findCheckblock
    by_cases hk : k < c.numBlocks
    · have hb : nandIsBad n k = nandIsBad n' k := by
        cases h with
        | mk ch hh => exact hh.bad k hk
      simp only [hk, if_true, hb, nandRead_sim h, ih]
    · simp only [hk, if_false]

theorem findCheckblock_lt {n : Nand} : ∀ i k x b, findCheckblock c n i k = some (x, b) → x < c.numBlocks := by
  intro i
  induction i with
  | zero => intro k x b h; cases h
  | succ i ih =>
    intro k x b h
    unfold findCheckblock at h
    simp only at h
    split at h
    · rename_i hk
      split at h
      · exact ih _ _ _ h
      · split at h
        · exact ih _ _ _ h
        · split at h
          · cases h; exact hk
          · exact ih _ _ _ h
    · cases h

theorem findLastCheckblockLoop_sim {n n' : Nand} (h : NSim c n n') (e : UInt8) (first : Nat) : ∀ f lo hi,
    findLastCheckblockLoop c n e first f lo hi = findLastCheckblockLoop c n' e first f lo hi := by
  intro f
  induction f with
  | zero => intro lo hi; rfl
  | succ f ih =>
    intro lo hi
    unfold findLastCheckblockLoop
    simp only [findCheckblock_sim h, ih]

theorem findLastCheckblockLoop_lt {n : Nand} {e : UInt8} {first : Nat} (hf : first < c.numBlocks) : ∀ f lo hi x,
    findLastCheckblockLoop c n e first f lo hi = .ok x → x < c.numBlocks := by
  intro f
  induction f with
  | zero => intro lo hi x h; cases h
  | succ f ih =>
    intro lo hi x h
    unfold findLastCheckblockLoop at h
    simp only at h
    split at h
    · split at h
      · rename_i hk
        have := findCheckblock_lt _ _ _ _ hk
        split at h
        · split at h
          · cases h; exact hf
          · exact ih _ _ _ h
        · split at h
          · cases h; exact this
          · split at h
            · cases h; exact this
            · split at h
              · cases h; exact this
              · exact ih _ _ _ h
      · split at h
        · cases h; exact hf
        · exact ih _ _ _ h
    · cases h; exact hf

theorem cpFree_sim {n n' : Nand} (h : NSim c n n') {p : Nat} (hp : p + c.ppc ≤ c.pages) : cpFree c n p = cpFree c n' p := by
  unfold cpFree
  rw [Bool.eq_iff_iff, List.all_eq_true, List.all_eq_true]
  have key : ∀ i ∈ List.range c.ppc, nandIsFree n (p + i) = nandIsFree n' (p + i) := by
    intro i hi
    have := List.mem_range.1 hi
    cases h with
    | mk ch hh => exact hh.free _ (by omega)
  constructor <;> intro g i hi
  · rw [← key i hi]; exact g i hi
  · rw [key i hi]; exact g i hi

/-- Groups of a block. -/
theorem grp_fit (hc : c.Valid) {k m : Nat} (hk : k < c.numBlocks) (hm : m < 2 ^ (c.log2Ppb - c.log2Ppc)) :
    (m <<< c.log2Ppc ||| k <<< c.log2Ppb) = k * c.ppb + m * c.ppc ∧ k * c.ppb + m * c.ppc + c.ppc ≤ c.pages ∧ m * c.ppc + c.ppc ≤ c.ppb := by
  have h1 : c.ppb = 2 ^ (c.log2Ppb - c.log2Ppc) * c.ppc := by
    unfold Cfg.ppb Cfg.ppc; rw [← Nat.pow_add]; congr 1; have := hc.ppc_facts; omega
  have h2 : (m + 1) * c.ppc ≤ 2 ^ (c.log2Ppb - c.log2Ppc) * c.ppc := Nat.mul_le_mul_right _ hm
  have h3 : (k + 1) * c.ppb ≤ c.numBlocks * c.ppb := Nat.mul_le_mul_right _ hk
  rw [Nat.add_mul] at h2 h3
  have hpos := ppc_pos c
  refine ⟨?_, ?_, by omega⟩
  · have hlt : m <<< c.log2Ppc < 2 ^ c.log2Ppb := by
      rw [Nat.shiftLeft_eq]
      show m * c.ppc < c.ppb
      omega
    rw [Nat.or_comm, ← Nat.shiftLeft_add_eq_or_of_lt hlt, shl_ppb, Nat.shiftLeft_eq]
    rfl
  · unfold Cfg.pages; omega

theorem findLastGroupLoop_sim (hc : c.Valid) {n n' : Nand} (h : NSim c n n') {k : Nat} (hk : k < c.numBlocks) : ∀ f lo hi, hi ≤ 2 ^ (c.log2Ppb - c.log2Ppc) →
    findLastGroupLoop c n k (2 ^ (c.log2Ppb - c.log2Ppc)) f lo hi = findLastGroupLoop c n' k (2 ^ (c.log2Ppb - c.log2Ppc)) f lo hi := by
  intro f
  induction f with
  | zero => intro lo hi _; rfl
  | succ f ih =>
    intro lo hi hh
    unfold findLastGroupLoop
    by_cases hlo : lo < hi
    · simp only [hlo, if_true]
      have hm : (lo + (hi - 1)) >>> 1 < hi := by rw [Nat.shiftRight_eq_div_pow]; omega
      obtain ⟨e, f1, f2⟩ := grp_fit hc hk (show (lo + (hi - 1)) >>> 1 < _ by omega)
      rw [e, cpFree_sim h f1, ih _ _ (by omega), ih _ _ hh]
      by_cases hm2 : (lo + (hi - 1)) >>> 1 + 1 ≥ 2 ^ (c.log2Ppb - c.log2Ppc)
      · simp only [hm2, decide_true, Bool.true_or]
      · obtain ⟨_, f3, _⟩ := grp_fit hc hk (show (lo + (hi - 1)) >>> 1 + 1 < _ by omega)
        rw [Nat.add_mul] at f3
        rw [cpFree_sim h (p := k * c.ppb + (lo + (hi - 1)) >>> 1 * c.ppc + c.ppc) (by omega)]
    · simp only [hlo, if_false]

theorem findLastGroupLoop_lt (hc : c.Valid) {n : Nand} {k : Nat} (hk : k < c.numBlocks) : ∀ f lo hi x, hi ≤ 2 ^ (c.log2Ppb - c.log2Ppc) →
    findLastGroupLoop c n k (2 ^ (c.log2Ppb - c.log2Ppc)) f lo hi = .ok x → x < c.pages ∧ c.isU x := by
  intro f
  induction f with
  | zero => intro lo hi x _ h; cases h
  | succ f ih =>
    intro lo hi x hh h
    unfold findLastGroupLoop at h
    simp only at h
    split at h
    · have hm : (lo + (hi - 1)) >>> 1 < hi := by rw [Nat.shiftRight_eq_div_pow]; omega
      split at h
      · exact ih _ _ _ (by omega) h
      · split at h
        · cases h
          obtain ⟨e, f1, f2⟩ := grp_fit hc hk (show (lo + (hi - 1)) >>> 1 < _ by omega)
          have := ppc_pos c
          rw [e]
          refine ⟨by omega, ?_⟩
          unfold Cfg.isU
          obtain ⟨q, hq⟩ := hc.ppc_dvd
          rw [hq, show k * (c.ppc * q) = k * q * c.ppc by rw [Nat.mul_comm c.ppc q, Nat.mul_assoc], ← Nat.add_mul, Nat.mul_mod_left]
          have := hc.ppc_ge
          omega
        · exact ih _ _ _ hh h
    · cases h
      exact ⟨start_ok hk, start_user hc k⟩

theorem findRootLoop_sim {n n' : Nand} (h : NSim c n n') (e : UInt8) (k : Nat) : ∀ i, findRootLoop c n e k i = findRootLoop c n' e k i := by
  intro i
  induction i with
  | zero => rfl
  | succ i ih => unfold findRootLoop; simp only [nandRead_sim h, ih]

theorem trailFree_sim {n n' : Nand} (h : NSim c n n') {p : Nat} (hp : p + c.ppc ≤ c.pages) : ∀ k cnt, cnt + k = c.ppc → trailFree c n p k cnt = trailFree c n' p k cnt := by
  intro k
  induction k with
  | zero => intros; rfl
  | succ k ih =>
    intro cnt hk
    unfold trailFree
    have hf : nandIsFree n (p + c.ppc - cnt - 1) = nandIsFree n' (p + c.ppc - cnt - 1) := by
      cases h with
      | mk ch hh => exact hh.free _ (by omega)
    rw [hf, ih _ (by omega)]

theorem findHeadLoop_sim (hc : c.Valid) {n n' : Nand} (h : NSim c n n') : ∀ f (j : Journal), j.head < c.pages → findHeadLoop c n f j = findHeadLoop c n' f j := by
  intro f
  induction f with
  | zero => intro j _; rfl
  | succ f ih =>
    intro j hj
    have hg : j.head - (j.head &&& (c.ppc - 1)) = j.head / c.ppc * c.ppc := by
      rw [slot_eq]; have := div_mod_range j.head c.ppc; omega
    have hfit : j.head / c.ppc * c.ppc + c.ppc ≤ c.pages := by
      obtain ⟨q, hq⟩ := hc.ppc_dvd_pages
      rw [hq] at hj ⊢
      have h1 : j.head / c.ppc < q := Nat.div_lt_of_lt_mul hj
      have h2 : (j.head / c.ppc + 1) * c.ppc ≤ q * c.ppc := Nat.mul_le_mul_right _ h1
      rw [Nat.add_mul] at h2
      rw [Nat.mul_comm c.ppc q]; omega
    have hpos := hc.pages_pos
    unfold findHeadLoop
    simp only [hg, trailFree_sim h hfit c.ppc 0 (by omega)]
    split
    · rfl
    · split
      · rw [ih _ (by exact hpos)]
      · rename_i hlt
        rw [ih _ (by simp only; omega)]

theorem journalResume_sim (hc : c.Valid) {n n' : Nand} (h : NSim c n n') (j : Journal) : journalResume c n j = journalResume c n' j := by
  unfold journalResume findLastCheckblock findLastGroup findRoot findHead
  simp only [findCheckblock_sim h, findLastCheckblockLoop_sim h, findRootLoop_sim h]
  cases h1 : findCheckblock c n' maxRetries 0 with
  | none => rfl
  | some x =>
    obtain ⟨first, b0⟩ := x
    have hfirst := findCheckblock_lt _ _ _ _ h1
    simp only
    cases h2 : findLastCheckblockLoop c n' (hdrGetEpoch b0) first (c.numBlocks + 1) first (c.numBlocks - 1) with
    | error e => rfl
    | ok last =>
      have hlast := findLastCheckblockLoop_lt hfirst _ _ _ _ h2
      simp only [findLastGroupLoop_sim hc h hlast _ _ _ (Nat.le_refl _)]
      cases h3 : findLastGroupLoop c n' last (2 ^ (c.log2Ppb - c.log2Ppc)) (2 ^ (c.log2Ppb - c.log2Ppc) + 1) 0 (2 ^ (c.log2Ppb - c.log2Ppc)) with
      | error e => rfl
      | ok g =>
        have hg := findLastGroupLoop_lt hc hlast _ _ _ _ (Nat.le_refl _) h3
        simp only
        split
        · rfl
        · rw [findHeadLoop_sim hc h]
          unfold rollIfZero rollStats
          split
          · exact nextUpage_ok hc hg.1
          · exact nextUpage_ok hc hg.1

end Dhara

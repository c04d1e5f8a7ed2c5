/-
Properties C23 (checkpoint geometry), C24 (byte codecs), C35 (error strings), C44 (resume is
repeatable). Statements use only the functions of the model and ordinary arithmetic.
-/
import Verif.Proofs.Arith
import Verif.Model.Map
namespace Dhara

/-! ### C23 -/

/-- Byte interval of metadata slice `k` in the checkpoint page (journal.c:89-93), as a
predicate on byte offsets. -/
def inSlice (k i : Nat) : Prop := hdrUserOffset k ≤ i ∧ i < hdrUserOffset k + metaSize

/-- C23: for page sizes of at least 2^9 and any block size of at least four pages, the checkpoint period
is a power of two with at least 4 and at most ppb pages; a header, a cookie and one slice per
user page fit in the page; and no larger period (within the block) fits. -/
theorem checkpoint_period_maximal (c : Cfg) (h9 : 9 ≤ c.log2PageSize)
    (hb : 2 ≤ c.log2Ppb) :
    4 ≤ c.ppc ∧ c.ppc ≤ c.ppb ∧
    headerSize + cookieSize + (c.ppc - 1) * metaSize ≤ c.pageSize ∧
    (∀ k, k ≤ c.log2Ppb → headerSize + cookieSize + (2 ^ k - 1) * metaSize ≤ c.pageSize →
      2 ^ k ≤ c.ppc) := by
  have e512 : (512:Nat) ≤ 2 ^ c.log2PageSize :=
    Nat.pow_le_pow_right (n := 2) (i := 9) (by omega) h9
  have hi : ∀ x : Nat, ((2:Int) ^ x) = ((2 ^ x : Nat) : Int) := by intro x; push_cast; rfl
  have hs := choosePpc_spec c.log2PageSize c.log2Ppb (by omega) (by rw [hi]; omega)
  simp only at hs
  obtain ⟨h1, h2, h3, h4⟩ := hs
  rw [hi, hi] at h3
  have hpc : c.log2Ppc = choosePpc c.log2PageSize c.log2Ppb := rfl
  rw [← hpc] at h1 h2 h3 h4
  have hpos : 0 < 2 ^ c.log2Ppc := Nat.two_pow_pos _
  unfold Cfg.ppc Cfg.ppb Cfg.pageSize
  refine ⟨?_, Nat.pow_le_pow_right (by omega) h2, by omega, ?_⟩
  · have : c.log2Ppc ≠ 1 := by
      intro e
      have h5 := h4 (by omega)
      rw [e, hi, hi] at h5
      have : (2:Nat) ^ (1+1) = 4 := by decide
      rw [this] at h5
      omega
    exact Nat.pow_le_pow_right (n := 2) (i := 2) (by omega) (by omega)
  · intro k hk hfit
    apply Nat.pow_le_pow_right (by omega)
    apply Classical.byContradiction; intro hn
    have h5 := h4 (by omega)
    rw [hi, hi] at h5
    have h6 : 2 ^ (c.log2Ppc + 1) ≤ 2 ^ k := Nat.pow_le_pow_right (by omega) (by omega)
    have : 0 < 2 ^ k := Nat.two_pow_pos _
    omega

/-- C23: the slices of two different user pages of a group are disjoint, every slice lies inside the
page, and no slice touches the header or the cookie. -/
theorem slices_disjoint_and_inside (c : Cfg) (h9 : 9 ≤ c.log2PageSize) (h16 : c.log2PageSize ≤ 16)
    (hb : 2 ≤ c.log2Ppb) (k : Nat) (hk : k < c.ppc - 1) :
    (∀ i, inSlice k i → headerSize + cookieSize ≤ i ∧ i < c.pageSize) ∧
    (∀ k', k' < c.ppc - 1 → k' ≠ k → ∀ i, inSlice k i → ¬ inSlice k' i) := by
  obtain ⟨h4, _, hfit, _⟩ := checkpoint_period_maximal c h9 hb
  have hle : c.pageSize ≤ 2 ^ 16 := Nat.pow_le_pow_right (by omega) h16
  have e16 : (2:Nat) ^ 16 = 65536 := by decide
  have hc : c.ppc ≤ 500 := by omega
  -- ppc is a power of two, hence at most 256
  have hc2 : c.ppc ≤ 256 := by
    unfold Cfg.ppc at hc ⊢
    have : c.log2Ppc < 9 := by
      apply Classical.byContradiction; intro hn
      have : (2:Nat) ^ 9 ≤ 2 ^ c.log2Ppc := Nat.pow_le_pow_right (by omega) (by omega)
      have e9 : (2:Nat) ^ 9 = 512 := by decide
      omega
    exact Nat.pow_le_pow_right (n := 2) (j := 8) (by omega) (by omega)
  have hko := hdrUserOffset_lt (k := k) (by omega)
  constructor
  · intro i hi
    unfold inSlice at hi
    rw [hko] at hi
    omega
  · intro k' hk' hne i hi hi'
    unfold inSlice at hi hi'
    rw [hko] at hi
    rw [hdrUserOffset_lt (k := k') (by omega)] at hi'
    omega

/-- A concrete geometry (2 KiB pages, 64 pages per block): the period is 16. -/
example : choosePpc 11 6 = 4 ∧ choosePpc 12 6 = 4 ∧ choosePpc 9 6 = 2 := by decide

/-! ### C24 -/

/-- C24: `dhara_r32` after `dhara_w32` yields the 32-bit value written. -/
theorem r32_w32_roundtrip (b : Buf) (o v : Nat) (h : v < 2 ^ 32) : r32 (w32 b o v) o = v :=
  r32_w32_same h

/-- C24: `dhara_r16` after `dhara_w16` yields the 16-bit value written. -/
theorem r16_w16_roundtrip (b : Buf) (o v : Nat) (h : v < 2 ^ 16) : r16 (w16 b o v) o = v := by
  unfold r16
  simp only [w16]
  rw [if_pos trivial, if_neg (by omega), if_pos trivial]
  simp only [UInt8.toNat_ofNat', Nat.shiftRight_eq_div_pow]
  have h1 : v % 2 ^ 8 < 2 ^ 8 := Nat.mod_lt _ (by decide)
  rw [Nat.or_comm, ← Nat.shiftLeft_add_eq_or_of_lt h1, Nat.shiftLeft_eq]
  omega

/-- C24: bytes are stored least significant first, and exactly four bytes are written. -/
theorem w32_bytes (b : Buf) (o v : Nat) :
    (∀ k, k < 4 → (w32 b o v (o + k)).toNat = v / 256 ^ k % 256) ∧
    (∀ i, i < o ∨ o + 4 ≤ i → w32 b o v i = b i) := by
  refine ⟨?_, fun i hi => w32_other hi⟩
  intro k hk
  have h : k = 0 ∨ k = 1 ∨ k = 2 ∨ k = 3 := by omega
  rcases h with h | h | h | h <;> subst h <;>
    simp [w32, UInt8.toNat_ofNat', Nat.shiftRight_eq_div_pow]

/-- C24: the 16-bit variant. -/
theorem w16_bytes (b : Buf) (o v : Nat) :
    (∀ k, k < 2 → (w16 b o v (o + k)).toNat = v / 256 ^ k % 256) ∧
    (∀ i, i < o ∨ o + 2 ≤ i → w16 b o v i = b i) := by
  constructor
  · intro k hk
    have h : k = 0 ∨ k = 1 := by omega
    rcases h with h | h <;> subst h <;>
      simp [w16, UInt8.toNat_ofNat', Nat.shiftRight_eq_div_pow]
  · intro i hi
    simp only [w16]
    rw [if_neg (by omega), if_neg (by omega)]

/-- C24: `dhara_w32` after `dhara_r32` changes nothing. -/
theorem w32_r32_id (b : Buf) (o : Nat) : w32 b o (r32 b o) = b := by
  funext i
  have h0 := (b o).toNat_lt; have h1 := (b (o+1)).toNat_lt
  have h2 := (b (o+2)).toNat_lt; have h3 := (b (o+3)).toNat_lt
  have key : ∀ (x : Nat) (y : UInt8), x % 256 = y.toNat → UInt8.ofNat x = y := by
    intro x y hxy
    apply UInt8.toNat_inj.1
    simpa [UInt8.toNat_ofNat'] using hxy
  simp only [w32]
  by_cases e0 : i = o
  · rw [if_pos e0, e0]; apply key; rw [r32_eq]; omega
  rw [if_neg e0]
  by_cases e1 : i = o + 1
  · rw [if_pos e1, e1]; apply key; rw [r32_eq, Nat.shiftRight_eq_div_pow]; omega
  rw [if_neg e1]
  by_cases e2 : i = o + 2
  · rw [if_pos e2, e2]; apply key; rw [r32_eq, Nat.shiftRight_eq_div_pow]; omega
  rw [if_neg e2]
  by_cases e3 : i = o + 3
  · rw [if_pos e3, e3]; apply key; rw [r32_eq, Nat.shiftRight_eq_div_pow]; omega
  rw [if_neg e3]

/-- C24: the checkpoint header fields and the cookie all read back as written, in the order in
which push_meta writes them, and the metadata area is untouched. -/
theorem header_fields_roundtrip (j : Journal) (count : Nat)
    (ht : j.tail < 2 ^ 32) (hc : j.bbCurrent < 2 ^ 32) (hl : j.bbLast < 2 ^ 32)
    (hn : count < 2 ^ 32) :
    let b := (fillHeader (ckSetCount j count)).pageBuf
    hdrHasMagic b = true ∧ hdrGetEpoch b = j.epoch ∧ hdrGetTail b = j.tail ∧
    hdrGetBbCurrent b = j.bbCurrent ∧ hdrGetBbLast b = j.bbLast ∧
    ckGetCount (fillHeader (ckSetCount j count)) = count ∧
    (∀ i, headerSize + cookieSize ≤ i → b i = j.pageBuf i) := by
  simp only [fillHeader, ckSetCount, ckGetCount, hdrHasMagic, hdrGetEpoch, hdrGetTail,
    hdrGetBbCurrent, hdrGetBbLast, hdrSetBbLast, hdrSetBbCurrent, hdrSetTail]
  refine ⟨?_, ?_, ?_, ?_, ?_, ?_, ?_⟩
  · rw [w32_other (by omega), w32_other (by omega), w32_other (by omega), w32_other (by omega),
      w32_other (by omega), w32_other (by omega), w32_other (by omega), w32_other (by omega),
      w32_other (by omega)]
    simp [hdrSetEpoch, hdrPutMagic, upd]
  · rw [w32_other (by omega), w32_other (by omega), w32_other (by omega)]
    simp [hdrSetEpoch, upd]
  · rw [r32_w32_other (by omega), r32_w32_other (by omega), r32_w32_same ht]
  · rw [r32_w32_other (by omega), r32_w32_same hc]
  · rw [r32_w32_same hl]
  · rw [r32_w32_other (by omega), r32_w32_other (by omega), r32_w32_other (by omega)]
    rw [← r32_w32_same (b := j.pageBuf) (o := 16) hn]
    apply r32_congr
    intro i hi
    have hne : ∀ k, k < 4 → (16 + i = k) = False := fun k hk => by simp; omega
    simp only [hdrSetEpoch, hdrPutMagic, upd]
    rw [if_neg (by omega), if_neg (by omega), if_neg (by omega), if_neg (by omega)]
    rw [r32_w32_same (b := j.pageBuf) (o := 16) hn]
  · intro i hi
    rw [w32_other (by omega), w32_other (by omega), w32_other (by omega)]
    simp only [hdrSetEpoch, hdrPutMagic, upd]
    rw [if_neg (by omega), if_neg (by omega), if_neg (by omega), if_neg (by omega),
      w32_other (by omega)]

/-- C24: sector id and alt pointers of a metadata record read back as written and do not disturb
each other. -/
theorem meta_fields_roundtrip (m : Buf) (v : Nat) (hv : v < 2 ^ 32) :
    metaGetId (metaSetId m v) = v ∧
    (∀ i, metaGetAlt (metaSetId m v) i = metaGetAlt m i) ∧
    (∀ i, metaGetAlt (metaSetAlt m i v) i = v) ∧
    (∀ i k, k ≠ i → metaGetAlt (metaSetAlt m i v) k = metaGetAlt m k) ∧
    (∀ i, metaGetId (metaSetAlt m i v) = metaGetId m) := by
  unfold metaGetId metaSetId metaGetAlt metaSetAlt
  refine ⟨r32_w32_same hv, fun i => r32_w32_other ?_, fun i => r32_w32_same hv,
    fun i k hk => r32_w32_other ?_, fun i => r32_w32_other ?_⟩ <;>
    simp only [Nat.shiftLeft_eq] <;> omega

example : r32 (w32 (fun _ => 0) 5 0xdeadbeef) 5 = 0xdeadbeef := by decide

/-! ### C35 -/

/-- C35: each of the nine defined codes (0 = no error, 1..8) has its own message, different from
'Unknown error'; every other integer gives 'Unknown error'. -/
theorem strerror_spec :
    (∀ a b : Int, 0 ≤ a → a < 9 → 0 ≤ b → b < 9 → a ≠ b → strerror a ≠ strerror b) ∧
    (∀ a : Int, 0 ≤ a → a < 9 → strerror a ≠ "Unknown error") ∧
    (∀ a : Int, a < 0 ∨ 9 ≤ a → strerror a = "Unknown error") := by
  have cases9 : ∀ a : Int, 0 ≤ a → a < 9 →
      a = 0 ∨ a = 1 ∨ a = 2 ∨ a = 3 ∨ a = 4 ∨ a = 5 ∨ a = 6 ∨ a = 7 ∨ a = 8 := by omega
  refine ⟨?_, ?_, ?_⟩
  · intro a b ha ha' hb hb' hne
    rcases cases9 a ha ha' with h | h | h | h | h | h | h | h | h <;>
    rcases cases9 b hb hb' with k | k | k | k | k | k | k | k | k <;>
    subst h <;> subst k <;> first | exact absurd rfl hne | decide
  · intro a ha ha'
    rcases cases9 a ha ha' with h | h | h | h | h | h | h | h | h <;> subst h <;> decide
  · intro a ha
    unfold strerror
    rw [if_neg (by omega)]

/-- C35: the message of each code (error.c:22-32 read as a specification). -/
theorem strerror_messages :
    strerror 0 = "No error" ∧
    (∀ e : Err, ∀ x, e.code = some x → strerror x =
      match e with
      | .badBlock => "Bad page/eraseblock"
      | .ecc => "ECC failure"
      | .tooBad => "Too many bad blocks"
      | .recover => "Journal recovery is required"
      | .journalFull => "Journal is full"
      | .notFound => "No such sector"
      | .mapFull => "Sector map is full"
      | .corruptMap => "Sector map is corrupted"
      | .ub | .diverge | .powerLoss => "Unknown error") := by
  refine ⟨by decide, ?_⟩
  intro e x h
  cases e <;> simp only [Err.code, Option.some.injEq, reduceCtorEq] at h <;> subst h <;> decide

/-- C35: the enumeration's own codes are among the defined ones and pairwise distinct. -/
theorem err_codes_distinct (a b : Err) (x : Int) (ha : a.code = some x) (hb : b.code = some x) :
    a = b ∧ 1 ≤ x ∧ x ≤ 8 := by
  cases a <;> cases b <;> simp [Err.code] at ha hb <;> (subst ha; simp_all)

/-! ### C44 -/

/-- C44: resume does not touch the chip (nor its wear, nor the contract flag). -/
theorem resume_keeps_chip (c : Cfg) (s : S) : (mapResume c s).2.n = s.n := by
  unfold mapResume
  split <;> rfl

/-- Two drivers that present the same chip, with the same pages readable. -/
def SameChip (c : Cfg) (n n' : Nand) : Prop :=
  n.chip = n'.chip ∧ ∀ p, c.env.readFail n.time p = c.env.readFail n'.time p

section
variable {c : Cfg} {n n' : Nand} (h : SameChip c n n')
include h

theorem SameChip.read (p off len : Nat) : nandRead c n p off len = nandRead c n' p off len := by
  unfold nandRead; rw [h.1, h.2]

theorem SameChip.isBad (b : Nat) : nandIsBad n b = nandIsBad n' b := by
  unfold nandIsBad; rw [h.1]
theorem SameChip.isFree (b : Nat) : nandIsFree n b = nandIsFree n' b := by
  unfold nandIsFree; rw [h.1]

theorem SameChip.findCheckblock (i blk : Nat) :
    findCheckblock c n i blk = findCheckblock c n' i blk := by
  induction i generalizing blk with
  | zero => rfl
  | succ i ih => unfold Dhara.findCheckblock; simp only [h.isBad, h.read, ih]

theorem SameChip.findLastCheckblockLoop (e : UInt8) (first fuel lo hi : Nat) :
    findLastCheckblockLoop c n e first fuel lo hi =
      findLastCheckblockLoop c n' e first fuel lo hi := by
  induction fuel generalizing lo hi with
  | zero => rfl
  | succ k ih => unfold Dhara.findLastCheckblockLoop; simp only [h.findCheckblock, ih]

theorem SameChip.cpFree (p : Nat) : cpFree c n p = cpFree c n' p := by
  unfold Dhara.cpFree; simp only [h.isFree]

theorem SameChip.findLastGroupLoop (blk g fuel lo hi : Nat) :
    findLastGroupLoop c n blk g fuel lo hi = findLastGroupLoop c n' blk g fuel lo hi := by
  induction fuel generalizing lo hi with
  | zero => rfl
  | succ k ih => unfold Dhara.findLastGroupLoop; simp only [h.cpFree, ih]

theorem SameChip.findRootLoop (e : UInt8) (blk i : Nat) :
    findRootLoop c n e blk i = findRootLoop c n' e blk i := by
  induction i with
  | zero => rfl
  | succ k ih => unfold Dhara.findRootLoop; simp only [h.read, ih]

theorem SameChip.trailFree (f k cnt : Nat) : trailFree c n f k cnt = trailFree c n' f k cnt := by
  induction k generalizing cnt with
  | zero => rfl
  | succ k ih => unfold Dhara.trailFree; simp only [h.isFree, ih]

theorem SameChip.findHeadLoop (fuel : Nat) (j : Journal) :
    findHeadLoop c n fuel j = findHeadLoop c n' fuel j := by
  induction fuel generalizing j with
  | zero => rfl
  | succ k ih => unfold Dhara.findHeadLoop; simp only [h.trailFree, ih]

theorem SameChip.journalResume (j : Journal) : journalResume c n j = journalResume c n' j := by
  unfold Dhara.journalResume Dhara.findLastCheckblock Dhara.findLastGroup Dhara.findRoot
    Dhara.findHead
  simp only [h.findCheckblock, h.findLastCheckblockLoop, h.findLastGroupLoop, h.findRootLoop,
    h.findHeadLoop]

end

/-- C44: a second resume (from any RAM contents, any stale count, at any later time at which the
same pages are readable) of the same chip reports the same result; if it succeeds, the resulting
map is the same in every component, journal state and sector count included. -/
theorem resume_repeatable (c : Cfg) (n n' : Nand) (hn : SameChip c n n') (buf buf' : Buf)
    (cnt cnt' : Nat) :
    (mapResume c (mapInit c buf cnt n)).1 = (mapResume c (mapInit c buf' cnt' n')).1 ∧
    ((mapResume c (mapInit c buf cnt n)).1 = .ok () →
      (mapResume c (mapInit c buf cnt n)).2.j = (mapResume c (mapInit c buf' cnt' n')).2.j ∧
      (mapResume c (mapInit c buf cnt n)).2.count = (mapResume c (mapInit c buf' cnt' n')).2.count) := by
  have key : (journalResume c n (journalInit c buf)).1 = (journalResume c n' (journalInit c buf')).1 ∧
      ((journalResume c n (journalInit c buf)).1 = .ok () →
        (journalResume c n (journalInit c buf)).2 = (journalResume c n' (journalInit c buf')).2) := by
    rw [← hn.journalResume]
    unfold journalResume
    cases findCheckblock c n maxRetries 0 with
    | none => exact ⟨rfl, fun h => by cases h⟩
    | some fb =>
      obtain ⟨first, b0⟩ := fb
      simp only
      cases findLastCheckblock c n (hdrGetEpoch b0) first with
      | error e => exact ⟨rfl, fun h => by cases h⟩
      | ok last =>
        simp only
        cases findLastGroup c n last with
        | error e => exact ⟨rfl, fun h => by cases h⟩
        | ok g =>
          simp only
          cases findRoot c n (hdrGetEpoch b0) g with
          | error e => exact ⟨rfl, fun h => by cases h⟩
          | ok rb =>
            obtain ⟨root, b⟩ := rb
            simp only [journalInit, resetJournal, clearRecovery, rawJournal]
            split <;> simp_all
  unfold mapResume mapInit
  simp only
  revert key
  cases hA : journalResume c n (journalInit c buf) with
  | mk r j =>
  cases hB : journalResume c n' (journalInit c buf') with
  | mk r' j' =>
  intro ⟨h1, h2⟩
  simp only at h1 h2
  subst h1
  cases r with
  | error e => exact ⟨rfl, fun h => by cases h⟩
  | ok u => 
    have := h2 rfl
    subst this
    exact ⟨rfl, fun _ => ⟨rfl, rfl⟩⟩

end Dhara

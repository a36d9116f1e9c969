import Verif.Proofs.SimdBits

/-!
# The SIMD backends satisfy the laws
-/

namespace Yasai

/-! ## Sliding along one file -/

theorem same_lane {s t : Square} (h : s.file = t.file) :
    (bitPos s < 64 ↔ bitPos t < 64) ∧ (s < t → bitPos t ≤ bitPos s + 8) := by
  unfold Square.file at h
  constructor
  · unfold bitPos; split <;> split <;> omega
  · intro hlt
    have := Fin.lt_def.1 hlt
    unfold bitPos; split <;> split <;> omega

theorem mem_sq {b : BB} {i : Nat} (h : i < 82 ∧ i ≠ 63) : mem b (sqOf i h) = b.getLsbD i := by
  rw [mem, bitPos_sqOf]

theorem xor_beq_zero (a b : BB) : ((a ^^^ b) == 0#128) = (a == b) := by
  rw [Bool.eq_iff_iff, beq_iff_eq, beq_iff_eq, BitVec.xor_eq_zero_iff]

theorem allTrue64_cmpeq (a b : BB) : Wasm32.allTrue64 (cmpeq64 a b) = (a == b) := by
  unfold Wasm32.allTrue64 cmpeq64 map64
  rw [Bool.eq_iff_iff, beq_iff_eq, lo64_mk64, hi64_mk64]
  have one : BitVec.allOnes 64 ≠ 0#64 := by decide
  constructor
  · intro h
    rw [← mk64_hi_lo a, ← mk64_hi_lo b]
    by_cases h1 : lo64 a = lo64 b
    · by_cases h2 : hi64 a = hi64 b
      · rw [h1, h2]
      · simp [h2] at h
    · simp [h1] at h
  · rintro rfl
    simp

theorem cmpeq64_self (b : BB) : cmpeq64 b b = mk64 (BitVec.allOnes 64) (BitVec.allOnes 64) := by
  simp [cmpeq64, map64]

theorem simd_positiveConsecutive (occ m : BB) (hm : Ok m) (h1 : OneFile m) (s : Square) :
    mem (simdSlidingPositiveConsecutive occ m) s = true ↔ SlidePos occ m s := by
  unfold simdSlidingPositiveConsecutive SlidePos
  simp only [mem_and, Bool.and_eq_true]
  rw [and_comm]
  apply and_congr_right
  intro hs
  have hs82 := bitPos_lt s
  rw [cmpeq64_self, add64, map64, hi64_mk64, lo64_mk64, add_allOnes, add_allOnes]
  rw [mem, BitVec.getLsbD_xor, getLsbD_mk64]
  by_cases hl : bitPos s < 64
  · rw [if_pos hl]
    have e : (occ &&& m).getLsbD (bitPos s) = (lo64 (occ &&& m)).getLsbD (bitPos s) := by
      rw [getLsbD_lo64, decide_eq_true hl, Bool.true_and]
    rw [e, ← BitVec.getLsbD_xor, getLsbD_xor_dec _ _ hl]
    constructor
    · intro h t ht1 ht2
      rw [← bitPos_le_iff]
      apply Nat.le_of_not_lt; intro hlt
      have := h _ hlt
      unfold mem at ht1 ht2
      simp [ht1, ht2] at this
      omega
    · intro h j hj
      rw [getLsbD_lo64, BitVec.getLsbD_and]
      cases e1 : occ.getLsbD j with
      | false => simp
      | true =>
        cases e2 : m.getLsbD j with
        | false => simp
        | true =>
          have hok := hm j e2
          have := h (sqOf j hok) (by rw [mem_sq]; exact e2) (by rw [mem_sq]; exact e1)
          rw [← bitPos_le_iff, bitPos_sqOf] at this
          omega
  · rw [if_neg hl]
    have e : (occ &&& m).getLsbD (bitPos s) = (hi64 (occ &&& m)).getLsbD (bitPos s - 64) := by
      rw [getLsbD_hi64, decide_eq_true (by omega), Bool.true_and,
        show 64 + (bitPos s - 64) = bitPos s by omega]
    rw [e, ← BitVec.getLsbD_xor, getLsbD_xor_dec _ _ (by omega)]
    constructor
    · intro h t ht1 ht2
      rw [← bitPos_le_iff]
      apply Nat.le_of_not_lt; intro hlt
      have hlane := (same_lane (h1 s t hs ht1)).1
      have := h (bitPos t - 64) (by omega)
      unfold mem at ht1 ht2
      rw [getLsbD_hi64, show 64 + (bitPos t - 64) = bitPos t by omega, BitVec.getLsbD_and] at this
      simp [ht1, ht2] at this
      omega
    · intro h j hj
      rw [getLsbD_hi64, BitVec.getLsbD_and]
      cases e1 : occ.getLsbD (64 + j) with
      | false => simp
      | true =>
        cases e2 : m.getLsbD (64 + j) with
        | false => simp
        | true =>
          have hok := hm _ e2
          have := h (sqOf _ hok) (by rw [mem_sq]; exact e2) (by rw [mem_sq]; exact e1)
          rw [← bitPos_le_iff, bitPos_sqOf] at this
          omega

theorem ok_simd_positiveConsecutive (occ m : BB) (hm : Ok m) :
    Ok (simdSlidingPositiveConsecutive occ m) := ok_and_right _ hm

/-- One 64-bit lane after the smearing steps of `sliding_negative_consecutive`. -/
theorem smear64 (x : BitVec 64) (i : Nat) :
    ((((x ||| x >>> 1) ||| (x ||| x >>> 1) >>> 2) |||
      ((x ||| x >>> 1) ||| (x ||| x >>> 1) >>> 2) >>> 4) >>> 1).getLsbD i = true ↔
      ∃ d, 1 ≤ d ∧ d ≤ 8 ∧ x.getLsbD (i + d) = true := by
  simp only [BitVec.getLsbD_ushiftRight, BitVec.getLsbD_or, Bool.or_eq_true]
  constructor
  · rintro (((h | h) | (h | h)) | ((h | h) | (h | h)))
    · exact ⟨1, by omega, by omega, by rw [← h]; congr 1; omega⟩
    · exact ⟨2, by omega, by omega, by rw [← h]; congr 1; omega⟩
    · exact ⟨3, by omega, by omega, by rw [← h]; congr 1; omega⟩
    · exact ⟨4, by omega, by omega, by rw [← h]; congr 1; omega⟩
    · exact ⟨5, by omega, by omega, by rw [← h]; congr 1; omega⟩
    · exact ⟨6, by omega, by omega, by rw [← h]; congr 1; omega⟩
    · exact ⟨7, by omega, by omega, by rw [← h]; congr 1; omega⟩
    · exact ⟨8, by omega, by omega, by rw [← h]; congr 1; omega⟩
  · rintro ⟨d, h1, h2, h⟩
    have hd : d = 1 ∨ d = 2 ∨ d = 3 ∨ d = 4 ∨ d = 5 ∨ d = 6 ∨ d = 7 ∨ d = 8 := by omega
    rcases hd with rfl | rfl | rfl | rfl | rfl | rfl | rfl | rfl
    · left; left; left; rw [← h]; congr 1; omega
    · left; left; right; rw [← h]; congr 1; omega
    · left; right; left; rw [← h]; congr 1; omega
    · left; right; right; rw [← h]; congr 1; omega
    · right; left; left; rw [← h]; congr 1; omega
    · right; left; right; rw [← h]; congr 1; omega
    · right; right; left; rw [← h]; congr 1; omega
    · right; right; right; rw [← h]; congr 1; omega

theorem hi64_or (a b : BB) : hi64 (a ||| b) = hi64 a ||| hi64 b := by
  apply BitVec.eq_of_getLsbD_eq; intro i hi
  simp only [BitVec.getLsbD_or, getLsbD_hi64, hi, decide_true, Bool.true_and]
theorem lo64_or (a b : BB) : lo64 (a ||| b) = lo64 a ||| lo64 b := by
  apply BitVec.eq_of_getLsbD_eq; intro i hi
  simp only [BitVec.getLsbD_or, getLsbD_lo64, hi, decide_true, Bool.true_and]

theorem simd_negativeConsecutive (occ m : BB) (hm : Ok m) (h1 : OneFile m) (s : Square) :
    mem (simdSlidingNegativeConsecutive occ m) s = true ↔ SlideNeg occ m s := by
  unfold simdSlidingNegativeConsecutive SlideNeg andnot
  have hs82 := bitPos_lt s
  have hs128 : bitPos s < 128 := by omega
  dsimp only
  rw [mem_and, Bool.and_eq_true, and_comm]
  apply and_congr_right
  intro hs
  generalize hx : occ &&& m = x
  rw [mem, BitVec.getLsbD_not, decide_eq_true hs128, Bool.true_and, Bool.not_eq_true']
  have key : (srl64 ((x ||| srl64 x 1 ||| srl64 (x ||| srl64 x 1) 2) |||
      srl64 (x ||| srl64 x 1 ||| srl64 (x ||| srl64 x 1) 2) 4) 1).getLsbD (bitPos s) = true ↔
      ∃ t, mem m t = true ∧ mem occ t = true ∧ s < t := by
    rw [show (srl64 ((x ||| srl64 x 1 ||| srl64 (x ||| srl64 x 1) 2) |||
      srl64 (x ||| srl64 x 1 ||| srl64 (x ||| srl64 x 1) 2) 4) 1).getLsbD (bitPos s) =
      if bitPos s < 64 then
        ((((lo64 x ||| lo64 x >>> 1) ||| (lo64 x ||| lo64 x >>> 1) >>> 2) |||
          ((lo64 x ||| lo64 x >>> 1) ||| (lo64 x ||| lo64 x >>> 1) >>> 2) >>> 4) >>> 1).getLsbD
            (bitPos s)
      else ((((hi64 x ||| hi64 x >>> 1) ||| (hi64 x ||| hi64 x >>> 1) >>> 2) |||
          ((hi64 x ||| hi64 x >>> 1) ||| (hi64 x ||| hi64 x >>> 1) >>> 2) >>> 4) >>> 1).getLsbD
            (bitPos s - 64) by
        rw [srl64, getLsbD_mk64]
        simp only [srl64, hi64_or, lo64_or, hi64_mk64, lo64_mk64]]
    constructor
    · intro h
      have hex : ∃ d, 1 ≤ d ∧ x.getLsbD (bitPos s + d) = true := by
        split at h
        · rw [smear64] at h
          obtain ⟨d, hd1, _, hd⟩ := h
          rw [getLsbD_lo64, Bool.and_eq_true] at hd
          exact ⟨d, hd1, hd.2⟩
        · rw [smear64] at h
          obtain ⟨d, hd1, _, hd⟩ := h
          rw [getLsbD_hi64, Bool.and_eq_true] at hd
          exact ⟨d, hd1, by rw [← hd.2]; congr 1; omega⟩
      obtain ⟨d, hd1, hd⟩ := hex
      rw [← hx, BitVec.getLsbD_and, Bool.and_eq_true] at hd
      have hok := hm _ hd.2
      exact ⟨sqOf _ hok, by rw [mem_sq]; exact hd.2, by rw [mem_sq]; exact hd.1, by
        rw [← bitPos_lt_iff, bitPos_sqOf]; omega⟩
    · rintro ⟨t, ht1, ht2, hlt⟩
      obtain ⟨hl, h8⟩ := same_lane (h1 s t hs ht1)
      have h8 := h8 hlt
      rw [← bitPos_lt_iff] at hlt
      have ht82 := bitPos_lt t
      have hxt : x.getLsbD (bitPos t) = true := by
        rw [← hx, BitVec.getLsbD_and]; unfold mem at ht1 ht2; rw [ht1, ht2]; rfl
      split
      · rw [smear64]
        refine ⟨bitPos t - bitPos s, by omega, by omega, ?_⟩
        rw [getLsbD_lo64, show bitPos s + (bitPos t - bitPos s) = bitPos t by omega, hxt]
        simp; omega
      · rw [smear64]
        refine ⟨bitPos t - bitPos s, by omega, by omega, ?_⟩
        rw [getLsbD_hi64, show 64 + (bitPos s - 64 + (bitPos t - bitPos s)) = bitPos t by omega, hxt]
        simp; omega
  constructor
  · intro h t ht1 ht2
    apply Fin.not_lt.1; intro hlt
    rw [key.2 ⟨t, ht1, ht2, hlt⟩] at h; cases h
  · intro h
    rw [Bool.eq_false_iff]; intro h'
    obtain ⟨t, ht1, ht2, hlt⟩ := key.1 h'
    exact absurd (h t ht1 ht2) (Fin.not_le.2 hlt)

theorem ok_simd_negativeConsecutive (occ m : BB) (hm : Ok m) :
    Ok (simdSlidingNegativeConsecutive occ m) := ok_and_right _ hm

/-! ## aarch64 and wasm32 sliding -/

theorem bb9I_bits (i : Nat) : CoreBB.bb9I.getLsbD i = decide (i = 81) := by
  by_cases h : i < 128
  · have : ∀ i : Fin 128, CoreBB.bb9I.getLsbD i = decide (i.val = 81) := by decide +kernel
    exact this ⟨i, h⟩
  · rw [BitVec.getLsbD_of_ge _ _ (by omega)]; symm; simp; omega

theorem bb1A_bits (i : Nat) : CoreBB.bb1A.getLsbD i = decide (i = 0) := by
  by_cases h : i < 128
  · have : ∀ i : Fin 128, CoreBB.bb1A.getLsbD i = decide (i.val = 0) := by decide +kernel
    exact this ⟨i, h⟩
  · rw [BitVec.getLsbD_of_ge _ _ (by omega)]; symm; simp; omega

theorem const17_bits (i : Nat) : (0x00020000#64).getLsbD i = decide (i = 17) := by
  by_cases h : i < 64
  · have : ∀ i : Fin 64, (0x00020000#64).getLsbD i = decide (i.val = 17) := by decide +kernel
    exact this ⟨i, h⟩
  · rw [BitVec.getLsbD_of_ge _ _ (by omega)]; symm; simp; omega

theorem eq_zero_bits {w : Nat} {x : BitVec w} : x = 0#w ↔ ∀ i, x.getLsbD i = false := by
  constructor
  · rintro rfl; simp
  · intro h; apply BitVec.eq_of_getLsbD_eq; intro i _; rw [h]; simp

theorem exists_bit {w : Nat} {x : BitVec w} (h : x ≠ 0#w) : ∃ i, x.getLsbD i = true := by
  apply Classical.byContradiction; intro hne; apply h
  rw [eq_zero_bits]; intro i
  cases e : x.getLsbD i with
  | false => rfl
  | true => exact absurd ⟨i, e⟩ hne

theorem simd_tz (x : BB) :
    (if lo64 x = 0#64 then trailingZeros (hi64 x ||| 0x00020000#64) + 64
      else trailingZeros (lo64 x)) = trailingZeros (x ||| CoreBB.bb9I) := by
  split
  · rename_i h0
    rw [eq_zero_bits] at h0
    symm
    obtain ⟨h1, h2, h3⟩ := trailingZeros_spec (hi64 x ||| 0x00020000#64)
      ⟨17, by rw [BitVec.getLsbD_or, const17_bits]; simp⟩
    generalize trailingZeros (hi64 x ||| 0x00020000#64) = k at h1 h2 h3
    apply trailingZeros_eq
    · rw [BitVec.getLsbD_or, getLsbD_hi64, const17_bits] at h2
      rw [BitVec.getLsbD_or, bb9I_bits, Bool.or_eq_true]
      rw [Bool.or_eq_true, Bool.and_eq_true] at h2
      rcases h2 with ⟨_, h⟩ | h
      · left; rw [Nat.add_comm]; exact h
      · right; simp only [decide_eq_true_eq] at h ⊢; omega
    · intro j hj
      rw [BitVec.getLsbD_or, bb9I_bits]
      by_cases hj64 : j < 64
      · have := h0 j
        rw [getLsbD_lo64, decide_eq_true hj64, Bool.true_and] at this
        rw [this]; simp; omega
      · have := h3 (j - 64) (by omega)
        rw [BitVec.getLsbD_or, getLsbD_hi64, const17_bits, show 64 + (j - 64) = j by omega,
          decide_eq_true (show j - 64 < 64 by omega), Bool.true_and] at this
        rw [Bool.or_eq_false_iff] at this ⊢
        refine ⟨this.1, ?_⟩
        have := this.2
        simp only [decide_eq_false_iff_not] at this ⊢
        omega
  · rename_i h0
    obtain ⟨h1, h2, h3⟩ := trailingZeros_spec (lo64 x) (exists_bit h0)
    generalize trailingZeros (lo64 x) = k at h1 h2 h3
    symm
    rw [getLsbD_lo64, Bool.and_eq_true] at h2
    apply trailingZeros_eq
    · rw [BitVec.getLsbD_or, h2.2]; rfl
    · intro j hj
      have := h3 j hj
      rw [getLsbD_lo64, decide_eq_true (by omega), Bool.true_and] at this
      rw [BitVec.getLsbD_or, this, bb9I_bits]
      simp; omega

theorem simd_lz (x : BB) :
    127 - (if hi64 x = 0#64 then leadingZeros (lo64 x ||| 1#64) + 64 else leadingZeros (hi64 x)) =
      127 - leadingZeros (x ||| CoreBB.bb1A) := by
  have e128 : ∀ y : BB, 127 - leadingZeros y = 128 - 1 - leadingZeros y := fun _ => rfl
  rw [e128]
  symm
  split
  · rename_i h0
    rw [eq_zero_bits] at h0
    obtain ⟨h1, h2, h3⟩ := leadingZeros_spec (lo64 x ||| 1#64)
      ⟨0, by rw [BitVec.getLsbD_or]; simp⟩
    rw [show 127 - (leadingZeros (lo64 x ||| 1#64) + 64) = 64 - 1 - leadingZeros (lo64 x ||| 1#64)
      by omega]
    generalize 64 - 1 - leadingZeros (lo64 x ||| 1#64) = k at h2 h3
    have hk := BitVec.lt_of_getLsbD h2
    apply leadingZeros_eq
    · rw [BitVec.getLsbD_or, getLsbD_lo64, decide_eq_true hk, Bool.true_and,
        BitVec.getLsbD_one] at h2
      rw [BitVec.getLsbD_or, bb1A_bits]
      rw [Bool.or_eq_true] at h2 ⊢
      rcases h2 with h | h
      · exact Or.inl h
      · right; simp at h ⊢; omega
    · intro j hj
      rw [BitVec.getLsbD_or, bb1A_bits]
      by_cases hj64 : j < 64
      · have := h3 j hj
        rw [BitVec.getLsbD_or, getLsbD_lo64, decide_eq_true hj64, Bool.true_and,
          Bool.or_eq_false_iff] at this
        rw [this.1]; simp; omega
      · have := h0 (j - 64)
        rw [getLsbD_hi64, show 64 + (j - 64) = j by omega] at this
        by_cases hj128 : j < 128
        · rw [decide_eq_true (by omega), Bool.true_and] at this
          rw [this]; simp; omega
        · rw [BitVec.getLsbD_of_ge _ _ (by omega)]; simp; omega
  · rename_i h0
    obtain ⟨h1, h2, h3⟩ := leadingZeros_spec (hi64 x) (exists_bit h0)
    rw [show 127 - leadingZeros (hi64 x) = 64 + (64 - 1 - leadingZeros (hi64 x)) by omega]
    generalize 64 - 1 - leadingZeros (hi64 x) = k at h2 h3
    rw [getLsbD_hi64, Bool.and_eq_true] at h2
    apply leadingZeros_eq
    · rw [BitVec.getLsbD_or, h2.2]; rfl
    · intro j hj
      rw [BitVec.getLsbD_or, bb1A_bits]
      by_cases hj128 : j < 128
      · have := h3 (j - 64) (by omega)
        rw [getLsbD_hi64, decide_eq_true (by omega), Bool.true_and,
          show 64 + (j - 64) = j by omega] at this
        rw [this]; simp; omega
      · rw [BitVec.getLsbD_of_ge _ _ (by omega)]; simp; omega

theorem simd_lz_le (x : BB) :
    (if hi64 x = 0#64 then leadingZeros (lo64 x ||| 1#64) + 64 else leadingZeros (hi64 x)) ≤ 127 := by
  split
  · have := (leadingZeros_spec (lo64 x ||| 1#64) ⟨0, by rw [BitVec.getLsbD_or]; simp⟩).1
    omega
  · rename_i h0
    have := (leadingZeros_spec (hi64 x) (exists_bit h0)).1
    omega

theorem simdSlidingPositive_eq (J : Junk) (occ m : BB) (hm : Ok m) :
    simdSlidingPositive J occ m = CoreBB.slidingPositive J occ m := by
  rw [core_slidingPositive_eq]
  unfold simdSlidingPositive
  dsimp only
  rw [simd_tz, readTable_lt J _ (by have := core_tz_le (occ &&& m); omega)]
  unfold CoreBB.maskedBBs simdMaskedValues
  rw [← BitVec.and_assoc]
  congr 1
  apply BitVec.eq_of_getLsbD_eq
  intro i _
  rw [BitVec.getLsbD_and, allBits_getLsbD]
  cases e : m.getLsbD i with
  | false => rfl
  | true => simp only [decide_eq_true (hm i e), Bool.true_and]

theorem simdSlidingNegative_eq (J : Junk) (occ m : BB) (hm : Ok m) :
    simdSlidingNegative J occ m = CoreBB.slidingNegative J occ m := by
  rw [core_slidingNegative_eq J occ m hm]
  unfold simdSlidingNegative
  dsimp only
  rw [usizeSub_le (simd_lz_le _), simd_lz,
    readTable_lt J _ (by have := core_lz_le (ok_and_right occ hm); omega)]
  unfold CoreBB.maskedBBs simdMaskedValues CoreBB.not
  apply BitVec.eq_of_getLsbD_eq
  intro i hi
  simp only [BitVec.getLsbD_and, BitVec.getLsbD_not, allBits_getLsbD, hi, decide_true,
    Bool.true_and]
  cases e : m.getLsbD i with
  | false => rfl
  | true => simp only [decide_eq_true (hm i e), Bool.true_and, Bool.and_true]

/-! ## `vacant_files` -/

theorem sub64_packF (f g : Nat → BitVec 9) (h : ∀ i, (g i).toNat ≤ (f i).toNat) :
    sub64 (packF f) (packF g) = packF (fun i => f i - g i) := by
  have hsub := packF_sub f g h
  have hle := packF_le f g h
  have hlo : (lo64 (packF g)).toNat ≤ (lo64 (packF f)).toNat := by
    rw [toNat_lo64, toNat_lo64, toNat_packF, toNat_packF]
    have b : ∀ i, (f i).toNat < 512 := fun i => (f i).isLt
    have := h 0; have := h 1; have := h 2; have := h 3; have := h 4; have := h 5; have := h 6
    have := b 0; have := b 1; have := b 2; have := b 3; have := b 4; have := b 5; have := b 6
    have e : ∀ (x : Nat → BitVec 9), (x 0).toNat + 2^9 * (x 1).toNat + 2^18 * (x 2).toNat +
        2^27 * (x 3).toNat + 2^36 * (x 4).toNat + 2^45 * (x 5).toNat + 2^54 * (x 6).toNat +
        2^64 * (x 7).toNat + 2^73 * (x 8).toNat = ((x 0).toNat + 2^9 * (x 1).toNat +
        2^18 * (x 2).toNat + 2^27 * (x 3).toNat + 2^36 * (x 4).toNat + 2^45 * (x 5).toNat +
        2^54 * (x 6).toNat) + 2^64 * ((x 7).toNat + 2^9 * (x 8).toNat) := fun x => by omega
    rw [e f, e g, Nat.add_mul_mod_self_left, Nat.add_mul_mod_self_left, Nat.mod_eq_of_lt (by omega),
      Nat.mod_eq_of_lt (by omega)]
    omega
  have hhi : (hi64 (packF g)).toNat ≤ (hi64 (packF f)).toNat := by
    rw [toNat_hi64, toNat_hi64]; omega
  rw [← hsub]
  apply BitVec.eq_of_toNat_eq
  rw [sub64, map64, toNat_mk64, BitVec.toNat_sub_of_le hlo, BitVec.toNat_sub_of_le hhi,
    BitVec.toNat_sub_of_le hle]
  rw [toNat_lo64, toNat_lo64, toNat_hi64, toNat_hi64] at *
  omega

theorem srl64_8_packF (f : Nat → BitVec 9) :
    srl64 (packF (fun _ => 256#9) &&& packF f) 8 =
      packF (fun i => if (f i).getLsbD 8 then 1#9 else 0#9) := by
  have h256 : ∀ j : Fin 9, (256#9).getLsbD j = decide (j.val = 8) := by decide
  have h1 : ∀ j : Fin 9, (1#9).getLsbD j = decide (j.val = 0) := by decide
  have hbit : ∀ k j, k < 9 → j < 9 → (packF (fun _ => 256#9) &&& packF f).getLsbD (fieldOff k + j) =
      (decide (j = 8) && (f k).getLsbD 8) := by
    intro k j hk hj
    rw [BitVec.getLsbD_and, packF_getLsbD _ _ _ hk hj, packF_getLsbD _ _ _ hk hj]
    have := h256 ⟨j, hj⟩
    simp only at this
    rw [this]
    by_cases h8 : j = 8
    · subst h8; rfl
    · simp [h8]
  have hok : Ok (packF (fun _ => 256#9) &&& packF f) := ok_and_left _ (ok_packF _)
  apply BitVec.eq_of_getLsbD_eq
  intro i hi
  rw [getLsbD_srl64]
  rcases index_cases i with ⟨k, j, hk, hj, rfl⟩ | rfl | h
  · rw [packF_getLsbD _ _ _ hk hj]
    have hr : (if (f k).getLsbD 8 then 1#9 else 0#9 : BitVec 9).getLsbD j =
        (decide (j = 0) && (f k).getLsbD 8) := by
      have := h1 ⟨j, hj⟩
      simp only at this
      split
      · rename_i h; rw [this, h, Bool.and_true]
      · rename_i h; rw [Bool.eq_false_iff.2 h]; simp
    rw [hr]
    have hoff : fieldOff k = if k < 7 then 9 * k else 9 * k + 1 := rfl
    have general : ∀ q, q = fieldOff k + j + 8 → q ≠ 63 →
        (packF (fun _ => 256#9) &&& packF f).getLsbD q = (decide (j = 0) && (f k).getLsbD 8) := by
      intro q hq hq63
      by_cases hj0 : j = 0
      · subst hj0
        rw [hq, Nat.add_zero, hbit k 8 hk (by omega)]; simp
      · rw [decide_eq_false hj0, Bool.false_and]
        by_cases hlast : k = 8
        · rw [ok_false hok q (Or.inr (by subst hlast; rw [hq, hoff]; simp; omega))]
        · by_cases h6 : k = 6
          · by_cases hj1 : j = 1
            · exfalso; apply hq63; rw [hq, hoff, h6, hj1]; simp
            · rw [show q = fieldOff 7 + (j - 2) by
                rw [hq, hoff, h6]; simp [fieldOff]; omega, hbit 7 _ (by omega) (by omega)]
              rw [decide_eq_false (by omega), Bool.false_and]
          · rw [show q = fieldOff (k + 1) + (j - 1) by
                rw [hq]; unfold fieldOff; split <;> split <;> omega,
              hbit (k + 1) _ (by omega) (by omega)]
            rw [decide_eq_false (by omega), Bool.false_and]
    have hj0' : j ≠ 0 → (decide (j = 0) && (f k).getLsbD 8) = false := by
      intro h; simp [h]
    have h63 : (packF (fun _ => 256#9) &&& packF f).getLsbD 63 = false := ok_false hok _ (Or.inl rfl)
    split
    · by_cases hlt : 8 + (fieldOff k + j) < 64
      · rw [decide_eq_true hlt, Bool.true_and]
        by_cases e63 : 8 + (fieldOff k + j) = 63
        · rw [e63, h63]
          symm; apply hj0'; intro hj0; subst hj0; split at hoff <;> omega
        · exact general _ (by omega) e63
      · rw [decide_eq_false hlt, Bool.false_and]
        symm; apply hj0'; intro hj0; subst hj0; split at hoff <;> omega
    · by_cases hlt : 8 + (fieldOff k + j - 64) < 64
      · rw [decide_eq_true hlt, Bool.true_and]
        exact general _ (by omega) (by omega)
      · exfalso; split at hoff <;> omega
  · rw [packF_getLsbD_63]; simp
  · rw [packF_getLsbD_high _ _ h, if_neg (by omega), ok_false hok _ (Or.inr (by omega)),
      Bool.and_false]

theorem simd_vacantFiles (b : BB) (hb : Ok b)
    (h : ∀ s t, mem b s = true → mem b t = true → s.file = t.file → s.rank = 9 → s = t) :
    Ok (simdVacantFiles b) ∧
      ∀ s, mem (simdVacantFiles b) s = true ↔ ∀ t, mem b t = true → t.file ≠ s.file := by
  let x : Nat → BitVec 9 := fun i => if i < 9 then field b i else 0#9
  have hbx : b = packF x := by
    conv => lhs; rw [← packF_field b hb]
    apply packF_congr; intro i hi; simp only [x, hi, if_true]
  have hx : ∀ i, (x i).toNat ≤ (256#9).toNat := by
    intro i
    by_cases hi : i < 9
    · simp only [x, hi, if_true]; exact field_le b h hb i hi
    · simp [x, hi]
  have hv : ∀ i, (256#9 ^^^ (256#9 - (if (256#9 - x i).getLsbD 8 then 1#9 else 0#9))) =
      (if x i = 0#9 then 511#9 else 0#9) := fun i => (field_vacant (x i) (hx i)).1
  have hv2 : ∀ i, (if (256#9 - x i).getLsbD 8 then 1#9 else 0#9 : BitVec 9).toNat ≤ (256#9).toNat :=
    fun i => (field_vacant (x i) (hx i)).2
  have e : simdVacantFiles b = packF fun i => if field b i = 0#9 then 511#9 else 0#9 := by
    unfold simdVacantFiles
    dsimp only
    rw [simdVacantMask_eq]
    conv => lhs; rw [hbx]
    rw [sub64_packF _ _ hx, srl64_8_packF,
      sub64_packF (fun _ => 256#9) (fun i => if (256#9 - x i).getLsbD 8 then 1#9 else 0#9) hv2,
      packF_xor]
    simp only [hv]
    apply packF_congr
    intro i hi
    simp only [x, hi, if_true]
  rw [e]
  exact ⟨ok_packF _, mem_vacantResult b hb⟩

/-! ## x86_64 sliding -/

namespace X86

/-- The AVX2 sequence computes a 128-bit decrement in each half. -/
theorem dec128 (x : BB) :
    sub64 (add64 x (mk64 (BitVec.allOnes 64) (BitVec.allOnes 64)))
      ((cmpeq64 (add64 x (mk64 (BitVec.allOnes 64) (BitVec.allOnes 64)))
        (mk64 (BitVec.allOnes 64) (BitVec.allOnes 64)) ^^^
          mk64 (BitVec.allOnes 64) (BitVec.allOnes 64)) <<< 64) = x - 1#128 := by
  have hx := x.isLt
  have hadd : add64 x (mk64 (BitVec.allOnes 64) (BitVec.allOnes 64)) =
      mk64 (hi64 x - 1#64) (lo64 x - 1#64) := by
    rw [add64, map64, hi64_mk64, lo64_mk64, add_allOnes, add_allOnes]
  rw [hadd]
  have hlo : lo64 x - 1#64 = BitVec.allOnes 64 ↔ lo64 x = 0#64 := by
    constructor
    · intro h
      have : lo64 x - 1#64 + 1#64 = BitVec.allOnes 64 + 1#64 := by rw [h]
      rw [BitVec.sub_add_cancel] at this
      rw [this]; decide
    · intro h; rw [h]; decide
  have hmlo := toNat_lo64 x
  have hmhi := toNat_hi64 x
  by_cases h0 : lo64 x = 0#64
  · have hshl : (cmpeq64 (mk64 (hi64 x - 1#64) (lo64 x - 1#64))
        (mk64 (BitVec.allOnes 64) (BitVec.allOnes 64)) ^^^
          mk64 (BitVec.allOnes 64) (BitVec.allOnes 64)) <<< 64 = 0#128 := by
      apply BitVec.eq_of_getLsbD_eq
      intro i hi
      simp only [cmpeq64, map64, lo64_mk64, hi64_mk64, if_pos (hlo.2 h0)]
      rw [BitVec.getLsbD_shiftLeft, BitVec.getLsbD_xor, getLsbD_mk64, getLsbD_mk64]
      by_cases hi64 : i < 64
      · simp [hi64]
      · simp [show i - 64 < 64 by omega]
    rw [hshl]
    apply BitVec.eq_of_toNat_eq
    rw [h0] at hmlo ⊢
    simp only [sub64, map64, lo64_mk64, hi64_mk64, toNat_mk64]
    have z1 : (lo64 0#128).toNat = 0 := by rw [toNat_lo64]; rfl
    have z2 : (hi64 0#128).toNat = 0 := by rw [toNat_hi64]; rfl
    simp only [BitVec.toNat_sub, z1, z2, BitVec.toNat_ofNat, hmhi] at hmlo ⊢
    omega
  · have hne : lo64 x - 1#64 ≠ BitVec.allOnes 64 := fun h => h0 (hlo.1 h)
    have hshl : (cmpeq64 (mk64 (hi64 x - 1#64) (lo64 x - 1#64))
        (mk64 (BitVec.allOnes 64) (BitVec.allOnes 64)) ^^^
          mk64 (BitVec.allOnes 64) (BitVec.allOnes 64)) <<< 64 = mk64 (BitVec.allOnes 64) 0#64 := by
      apply BitVec.eq_of_getLsbD_eq
      intro i hi
      simp only [cmpeq64, map64, lo64_mk64, hi64_mk64, if_neg hne]
      rw [BitVec.getLsbD_shiftLeft, BitVec.getLsbD_xor, getLsbD_mk64, getLsbD_mk64, getLsbD_mk64]
      by_cases hi64 : i < 64
      · simp [hi64]
      · simp [show i - 64 < 64 by omega, hi64, hi]
    rw [hshl]
    have hne0 : (lo64 x).toNat ≠ 0 := fun h => h0 (BitVec.eq_of_toNat_eq (by rw [h]; rfl))
    apply BitVec.eq_of_toNat_eq
    simp only [sub64, map64, lo64_mk64, hi64_mk64, toNat_mk64]
    simp only [BitVec.toNat_sub, BitVec.toNat_ofNat, BitVec.toNat_allOnes, hmhi, hmlo] at hne0 ⊢
    omega

theorem half_positive (occ m : BB) (hm : Ok m) (s : Square) :
    mem (((occ &&& m) ^^^ ((occ &&& m) - 1#128)) &&& m) s = true ↔ SlidePos occ m s := by
  unfold SlidePos
  rw [mem_and, Bool.and_eq_true, and_comm]
  apply and_congr_right
  intro _
  have hs82 := bitPos_lt s
  rw [mem, getLsbD_xor_dec _ _ (by omega)]
  constructor
  · intro h t ht1 ht2
    rw [← bitPos_le_iff]
    apply Nat.le_of_not_lt; intro hlt
    have := h _ hlt
    unfold mem at ht1 ht2
    simp [ht1, ht2] at this
  · intro h j hj
    rw [BitVec.getLsbD_and]
    cases e1 : occ.getLsbD j with
    | false => simp
    | true =>
      cases e2 : m.getLsbD j with
      | false => simp
      | true =>
        have hok := hm j e2
        have := h (sqOf j hok) (by rw [mem_sq]; exact e2) (by rw [mem_sq]; exact e1)
        rw [← bitPos_le_iff, bitPos_sqOf] at this
        omega

theorem slidingPositives_eq (occ m0 m1 : BB) : slidingPositives occ m0 m1 =
    (((occ &&& m1) ^^^ ((occ &&& m1) - 1#128)) &&& m1) |||
    (((occ &&& m0) ^^^ ((occ &&& m0) - 1#128)) &&& m0) := by
  unfold slidingPositives map2
  dsimp only
  rw [cmpeq64_self, dec128, dec128]

theorem getLsbD_srl16 (a : BB) (n i : Nat) : (srl16 a n).getLsbD i =
    (decide (i < 128) && (decide (i % 16 + n < 16) && a.getLsbD (i + n))) := by
  rw [srl16, getLsbD_ofBits]

/-- The smearing steps within 16-bit lanes, for a bit whose byte is known. -/
theorem smear16 (x : BB) (i : Nat) :
    (srl16 ((x ||| srl16 x 1 ||| srl16 (x ||| srl16 x 1) 2) |||
      srl16 (x ||| srl16 x 1 ||| srl16 (x ||| srl16 x 1) 2) 4) 1).getLsbD i = true ↔
      i < 128 ∧ ∃ d, 1 ≤ d ∧ d ≤ 8 ∧ i % 16 + d < 16 ∧ x.getLsbD (i + d) = true := by
  simp only [getLsbD_srl16, BitVec.getLsbD_or, Bool.or_eq_true, Bool.and_eq_true,
    decide_eq_true_eq]
  constructor
  · rintro ⟨h128, hl, h⟩
    refine ⟨h128, ?_⟩
    rcases h with ((h | ⟨_, hm, h⟩) | ⟨_, hm, (h | ⟨_, hm2, h⟩)⟩) |
      ⟨_, hm, ((h | ⟨_, hm2, h⟩) | ⟨_, hm2, (h | ⟨_, hm3, h⟩)⟩)⟩
    · exact ⟨1, by omega, by omega, by omega, h⟩
    · exact ⟨2, by omega, by omega, by omega, h⟩
    · exact ⟨3, by omega, by omega, by omega, h⟩
    · exact ⟨4, by omega, by omega, by omega, h⟩
    · exact ⟨5, by omega, by omega, by omega, h⟩
    · exact ⟨6, by omega, by omega, by omega, h⟩
    · exact ⟨7, by omega, by omega, by omega, h⟩
    · exact ⟨8, by omega, by omega, by omega, h⟩
  · rintro ⟨h128, d, h1, h2, h3, h⟩
    refine ⟨h128, by omega, ?_⟩
    have hlt := BitVec.lt_of_getLsbD h
    have hd : d = 1 ∨ d = 2 ∨ d = 3 ∨ d = 4 ∨ d = 5 ∨ d = 6 ∨ d = 7 ∨ d = 8 := by omega
    rcases hd with rfl | rfl | rfl | rfl | rfl | rfl | rfl | rfl
    · left; left; left; exact h
    · left; left; right; exact ⟨by omega, by omega, h⟩
    · left; right; exact ⟨by omega, by omega, Or.inl h⟩
    · left; right; exact ⟨by omega, by omega, Or.inr ⟨by omega, by omega, h⟩⟩
    · right; exact ⟨by omega, by omega, Or.inl (Or.inl h)⟩
    · right; exact ⟨by omega, by omega, Or.inl (Or.inr ⟨by omega, by omega, h⟩)⟩
    · right; exact ⟨by omega, by omega, Or.inr ⟨by omega, by omega, Or.inl h⟩⟩
    · right; exact ⟨by omega, by omega, Or.inr ⟨by omega, by omega, Or.inr ⟨by omega, by omega, h⟩⟩⟩

theorem maskedValues_bits (k : Nat) (hk : k < 16) (i : Nat) :
    (maskedVectors k).getLsbD i = decide (i < 8 * k) := by
  by_cases hi : i < 128
  · have : ∀ k : Fin 16, ∀ i : Fin 128,
      (maskedVectors k).getLsbD i = decide (i.val < 8 * k.val) := by
      decide +kernel
    exact this ⟨k, hk⟩ ⟨i, hi⟩
  · rw [BitVec.getLsbD_of_ge _ _ (by omega)]; symm; simp; omega

theorem zeroByteMask_bits (x : BB) (j : Nat) : (zeroByteMask x).getLsbD j =
    (decide (j < 16) && decide (x.extractLsb' (8 * j) 8 = 0#8)) := by
  rw [zeroByteMask, getLsbD_ofBits]

theorem byte_zero (x : BB) (j : Nat) : x.extractLsb' (8 * j) 8 = 0#8 ↔
    ∀ d, d < 8 → x.getLsbD (8 * j + d) = false := by
  rw [eq_zero_bits]
  constructor
  · intro h d hd
    have := h d
    rw [BitVec.getLsbD_extractLsb', decide_eq_true hd, Bool.true_and] at this
    exact this
  · intro h d
    rw [BitVec.getLsbD_extractLsb']
    by_cases hd : d < 8
    · rw [h d hd, Bool.and_false]
    · simp [hd]

/-- `k` is the index of the highest nonzero byte of `x` (or 0). -/
def TopByte (x : BB) (k : Nat) : Prop :=
  k < 16 ∧ (k = 0 ∨ ∃ i, 8 * k ≤ i ∧ x.getLsbD i = true) ∧ ∀ i, 8 * k + 8 ≤ i → x.getLsbD i = false

theorem half_negative (occ m : BB) (hm : Ok m) (k : Nat) (hk : TopByte (occ &&& m) k) (s : Square) :
    mem (andnot (srl16 (((occ &&& m) ||| srl16 (occ &&& m) 1 |||
        srl16 ((occ &&& m) ||| srl16 (occ &&& m) 1) 2) |||
      srl16 ((occ &&& m) ||| srl16 (occ &&& m) 1 |||
        srl16 ((occ &&& m) ||| srl16 (occ &&& m) 1) 2) 4) 1 |||
      maskedVectors k) m) s = true ↔ SlideNeg occ m s := by
  unfold SlideNeg andnot
  have hs82 := bitPos_lt s
  have hs128 : bitPos s < 128 := by omega
  rw [mem_and, Bool.and_eq_true, and_comm]
  apply and_congr_right
  intro hs
  obtain ⟨hk16, htop, habove⟩ := hk
  generalize hx : occ &&& m = x at htop habove
  rw [mem, BitVec.getLsbD_not, decide_eq_true hs128, Bool.true_and, Bool.not_eq_true',
    BitVec.getLsbD_or, maskedValues_bits k hk16]
  have toSq : ∀ i, x.getLsbD i = true → ∃ t, bitPos t = i ∧ mem m t = true ∧ mem occ t = true := by
    intro i hi
    rw [← hx, BitVec.getLsbD_and, Bool.and_eq_true] at hi
    have hok := hm i hi.2
    exact ⟨sqOf i hok, bitPos_sqOf i hok, by rw [mem_sq]; exact hi.2, by rw [mem_sq]; exact hi.1⟩
  rw [Bool.or_eq_false_iff]
  constructor
  · rintro ⟨h1, h2⟩ t ht1 ht2
    rw [← bitPos_le_iff]
    apply Nat.le_of_not_lt; intro hlt
    have ht : x.getLsbD (bitPos t) = true := by
      unfold mem at ht1 ht2; rw [← hx, BitVec.getLsbD_and, ht1, ht2]; rfl
    simp only [decide_eq_false_iff_not] at h2
    have ht8 : bitPos t < 8 * k + 8 := by
      apply Nat.lt_of_not_le; intro h; rw [habove _ h] at ht; cases ht
    rw [Bool.eq_false_iff] at h1
    apply h1
    rw [smear16]
    refine ⟨hs128, bitPos t - bitPos s, by omega, by omega, by omega, ?_⟩
    rw [show bitPos s + (bitPos t - bitPos s) = bitPos t by omega]; exact ht
  · intro h
    constructor
    · rw [Bool.eq_false_iff]; intro h'
      rw [smear16] at h'
      obtain ⟨_, d, hd1, _, _, hd⟩ := h'
      obtain ⟨t, ht, ht1, ht2⟩ := toSq _ hd
      have := h t ht1 ht2
      rw [← bitPos_le_iff] at this
      omega
    · simp only [decide_eq_false_iff_not]; intro hlt
      rcases htop with h0 | ⟨i, hi, hb⟩
      · omega
      · obtain ⟨t, ht, ht1, ht2⟩ := toSq _ hb
        have := h t ht1 ht2
        rw [← bitPos_le_iff] at this
        omega

theorem const16_bits (j : Nat) : (0x00010000#32).getLsbD j = decide (j = 16) := by
  by_cases h : j < 32
  · have : ∀ i : Fin 32, (0x00010000#32).getLsbD i = decide (i.val = 16) := by decide +kernel
    exact this ⟨j, h⟩
  · rw [BitVec.getLsbD_of_ge _ _ (by omega)]; symm; simp; omega

theorem ones32_bits (j : Nat) : (0xffffffff#32).getLsbD j = decide (j < 32) := by
  by_cases h : j < 32
  · have : ∀ i : Fin 32, (0xffffffff#32).getLsbD i = decide (i.val < 32) := by decide +kernel
    exact this ⟨j, h⟩
  · rw [BitVec.getLsbD_of_ge _ _ (by omega)]; symm; simp; omega

theorem ones16_bits (j : Nat) : (0xffff#32).getLsbD j = decide (j < 16) := by
  by_cases h : j < 32
  · have : ∀ i : Fin 32, (0xffff#32).getLsbD i = decide (i.val < 16) := by decide +kernel
    exact this ⟨j, h⟩
  · rw [BitVec.getLsbD_of_ge _ _ (by omega)]; symm; simp; omega

theorem topByte_of (x : BB) (k : Nat) (hk : k < 16)
    (h1 : k = 0 ∨ ¬ (x.extractLsb' (8 * k) 8 = 0#8))
    (h2 : ∀ j, k < j → j < 16 → x.extractLsb' (8 * j) 8 = 0#8) : TopByte x k := by
  refine ⟨hk, ?_, ?_⟩
  · rcases h1 with h | h
    · exact Or.inl h
    · right
      obtain ⟨d, hd⟩ := exists_bit h
      rw [BitVec.getLsbD_extractLsb', Bool.and_eq_true] at hd
      exact ⟨8 * k + d, by omega, hd.2⟩
  · intro i hi
    by_cases h : i < 128
    · have := (byte_zero x (i / 8)).1 (h2 (i / 8) (by omega) (by omega)) (i % 8) (by omega)
      rw [show 8 * (i / 8) + i % 8 = i by omega] at this
      exact this
    · exact BitVec.getLsbD_of_ge _ _ (by omega)

theorem topByte_e1 (x y : BB) : TopByte x
    (31 - leadingZeros ((((zeroByteMask y ++ zeroByteMask x : BitVec 32) &&& 0xffff#32) ^^^
      0xffff#32) ||| 0x0001#32)) := by
  have bits : ∀ j, (((((zeroByteMask y ++ zeroByteMask x : BitVec 32) &&& 0xffff#32) ^^^
      0xffff#32) ||| 0x0001#32)).getLsbD j =
      ((decide (j < 16) && !decide (x.extractLsb' (8 * j) 8 = 0#8)) || decide (j = 0)) := by
    intro j
    rw [BitVec.getLsbD_or, BitVec.getLsbD_xor, BitVec.getLsbD_and,
      show (zeroByteMask y ++ zeroByteMask x : BitVec 32).getLsbD j =
        if j < 16 then (zeroByteMask x).getLsbD j else (zeroByteMask y).getLsbD (j - 16) from
        BitVec.getLsbD_append, ones16_bits, zeroByteMask_bits]
    by_cases h : j < 16
    · have : (0x0001#32).getLsbD j = decide (j = 0) := by
        rw [BitVec.getLsbD_one]; simp
      rw [this]; simp [h]
    · have : (0x0001#32).getLsbD j = decide (j = 0) := by
        rw [BitVec.getLsbD_one]; simp
      rw [this]; simp [h]
  obtain ⟨h1, h2, h3⟩ := leadingZeros_spec ((((zeroByteMask y ++ zeroByteMask x : BitVec 32) &&&
    0xffff#32) ^^^ 0xffff#32) ||| 0x0001#32) ⟨0, by rw [bits]; simp⟩
  rw [show (32 - 1 : Nat) = 31 from rfl] at h2 h3
  generalize 31 - leadingZeros ((((zeroByteMask y ++ zeroByteMask x : BitVec 32) &&& 0xffff#32) ^^^
      0xffff#32) ||| 0x0001#32) = k at h2 h3
  rw [bits] at h2
  simp only [Bool.or_eq_true, Bool.and_eq_true, decide_eq_true_eq, Bool.not_eq_true',
    decide_eq_false_iff_not] at h2
  apply topByte_of
  · rcases h2 with h | h <;> omega
  · rcases h2 with h | h
    · exact Or.inr h.2
    · exact Or.inl h
  · intro j hj hj16
    have := h3 j hj
    rw [bits, Bool.or_eq_false_iff] at this
    have := this.1
    rw [decide_eq_true hj16, Bool.true_and] at this
    simpa using this

theorem topByte_e0 (x y : BB) : TopByte y
    (15 - leadingZeros (((zeroByteMask y ++ zeroByteMask x : BitVec 32) ^^^ 0xffffffff#32) |||
      0x00010000#32)) := by
  have bits : ∀ j, 16 ≤ j → ((((zeroByteMask y ++ zeroByteMask x : BitVec 32) ^^^ 0xffffffff#32) |||
      0x00010000#32)).getLsbD j =
      ((decide (j < 32) && !decide (y.extractLsb' (8 * (j - 16)) 8 = 0#8)) || decide (j = 16)) := by
    intro j h16
    rw [BitVec.getLsbD_or, BitVec.getLsbD_xor,
      show (zeroByteMask y ++ zeroByteMask x : BitVec 32).getLsbD j =
        if j < 16 then (zeroByteMask x).getLsbD j else (zeroByteMask y).getLsbD (j - 16) from
        BitVec.getLsbD_append, ones32_bits, if_neg (by omega), zeroByteMask_bits, const16_bits]
    by_cases h : j < 32
    · simp [h, show j - 16 < 16 by omega]
    · simp [h, show ¬ j - 16 < 16 by omega]
  obtain ⟨h1, h2, h3⟩ := leadingZeros_spec (((zeroByteMask y ++ zeroByteMask x : BitVec 32) ^^^
    0xffffffff#32) ||| 0x00010000#32) ⟨16, by rw [bits _ (by omega)]; simp⟩
  rw [show (32 - 1 : Nat) = 31 from rfl] at h2 h3
  have hk16 : 16 ≤ 31 - leadingZeros (((zeroByteMask y ++ zeroByteMask x : BitVec 32) ^^^
      0xffffffff#32) ||| 0x00010000#32) := by
    apply Nat.le_of_not_lt; intro hlt
    have := h3 16 hlt
    rw [bits _ (by omega)] at this
    simp at this
  rw [show 15 - leadingZeros (((zeroByteMask y ++ zeroByteMask x : BitVec 32) ^^^
      0xffffffff#32) ||| 0x00010000#32) = 31 - leadingZeros (((zeroByteMask y ++ zeroByteMask x :
      BitVec 32) ^^^ 0xffffffff#32) ||| 0x00010000#32) - 16 by omega]
  generalize 31 - leadingZeros (((zeroByteMask y ++ zeroByteMask x : BitVec 32) ^^^
      0xffffffff#32) ||| 0x00010000#32) = k at h2 h3 hk16
  rw [bits k hk16] at h2
  simp only [Bool.or_eq_true, Bool.and_eq_true, decide_eq_true_eq, Bool.not_eq_true',
    decide_eq_false_iff_not] at h2
  apply topByte_of
  · rcases h2 with h | h <;> omega
  · rcases h2 with h | h
    · exact Or.inr h.2
    · exact Or.inl (by omega)
  · intro j hj hj16
    have := h3 (j + 16) (by omega)
    rw [bits _ (by omega), Bool.or_eq_false_iff] at this
    have := this.1
    rw [decide_eq_true (by omega), Bool.true_and, Nat.add_sub_cancel] at this
    simpa using this

/-- The subtraction `15 - lz` does not underflow. -/
theorem lz_e0 (mv : BitVec 32) :
    leadingZeros ((mv ^^^ 0xffffffff#32) ||| 0x00010000#32) ≤ 15 := by
  have hb : ((mv ^^^ 0xffffffff#32) ||| 0x00010000#32).getLsbD 16 = true := by
    rw [BitVec.getLsbD_or, const16_bits]; simp
  obtain ⟨h1, h2, h3⟩ := leadingZeros_spec ((mv ^^^ 0xffffffff#32) ||| 0x00010000#32) ⟨16, hb⟩
  apply Nat.le_of_not_lt; intro h
  have := h3 16 (by omega)
  rw [hb] at this
  cases this

/-- The subtraction `31 - lz` does not underflow. -/
theorem lz_e1 (mv : BitVec 32) :
    leadingZeros (((mv &&& 0xffff#32) ^^^ 0xffff#32) ||| 0x0001#32) ≤ 31 := by
  have := (leadingZeros_spec (((mv &&& 0xffff#32) ^^^ 0xffff#32) ||| 0x0001#32)
    ⟨0, by rw [BitVec.getLsbD_or]; simp⟩).1
  omega

theorem slidingNegatives_spec (J : Junk) (occ m0 m1 : BB) (h0 : Ok m0) (h1 : Ok m1) :
    Ok (slidingNegatives J occ m0 m1) ∧
    ∀ s, mem (slidingNegatives J occ m0 m1) s = true ↔ SlideNeg occ m0 s ∨ SlideNeg occ m1 s := by
  constructor
  · unfold slidingNegatives map2
    exact ok_or (ok_and_right _ h1) (ok_and_right _ h0)
  · intro s
    have e0 := half_negative occ m0 h0 _ (topByte_e0 (occ &&& m1) (occ &&& m0)) s
    have e1 := half_negative occ m1 h1 _ (topByte_e1 (occ &&& m1) (occ &&& m0)) s
    rw [← e0, ← e1, or_comm, ← Bool.or_eq_true, ← mem_or]
    unfold slidingNegatives map2
    dsimp only
    rw [usizeSub_le (lz_e0 _), usizeSub_le (lz_e1 _),
      readTable_lt J _ (topByte_e0 (occ &&& m1) (occ &&& m0)).1,
      readTable_lt J _ (topByte_e1 (occ &&& m1) (occ &&& m0)).1]

theorem lawful (J : Junk) : Lawful (build J) where
  empty := rfl
  single := simdSingle_eq
  isEmpty b := by show ((b &&& b) == 0#128) = _; rw [BitVec.and_self]
  eq a b := by
    show (((a ^^^ b) &&& (a ^^^ b)) == 0#128) = _
    rw [BitVec.and_self, xor_beq_zero]
  contains b s := by
    show (!((b &&& simdSingle s) == 0#128)) = _
    rw [simdSingle_eq]
    have hok : Ok (b &&& CoreBB.single s) := ok_and_right _ (ok_single s)
    have := eq_zero_iff hok
    cases e : mem b s with
    | false =>
      rw [this.2 (by intro t; by_cases h : t = s <;> simp [h, e])]; rfl
    | true =>
      have hne : ¬ (b &&& CoreBB.single s = 0#128) := by
        rw [this]; intro h; have := h s; simp [e] at this
      simp [hne]
  count := simdCount_eq
  and _ _ := rfl
  or _ _ := rfl
  xor _ _ := rfl
  not a := by show andnot a simdOnes = _; rw [simdOnes_eq]; rfl
  iter := simdIter_eq J
  shl := simd_shl
  shr := simd_shr
  slidingPositiveConsecutive occ m hm h1 := ⟨ok_simd_positiveConsecutive occ m hm,
    simd_positiveConsecutive occ m hm h1⟩
  slidingNegativeConsecutive occ m hm h1 := ⟨ok_simd_negativeConsecutive occ m hm,
    simd_negativeConsecutive occ m hm h1⟩
  slidingPositives occ m0 m1 h0 h1 := by
    show Ok (slidingPositives occ m0 m1) ∧ ∀ s, mem (slidingPositives occ m0 m1) s = true ↔ _
    rw [slidingPositives_eq]
    refine ⟨ok_or (ok_and_right _ h1) (ok_and_right _ h0), fun s => ?_⟩
    rw [mem_or, Bool.or_eq_true, half_positive _ _ h0, half_positive _ _ h1, or_comm]
  slidingNegatives := slidingNegatives_spec J
  vacantFiles _ b hb h := ⟨_, rfl, simd_vacantFiles b hb h⟩

end X86

theorem mk64_zero : mk64 0#64 0#64 = 0#128 := by decide

theorem slidingPos_pair (J : Junk) (occ m0 m1 : BB) (h0 : Ok m0) (h1 : Ok m1) :
    Ok (simdSlidingPositive J occ m0 ||| simdSlidingPositive J occ m1) ∧
    ∀ s, mem (simdSlidingPositive J occ m0 ||| simdSlidingPositive J occ m1) s = true ↔
      SlidePos occ m0 s ∨ SlidePos occ m1 s := by
  rw [simdSlidingPositive_eq J _ _ h0, simdSlidingPositive_eq J _ _ h1]
  exact (core_lawful J).slidingPositives occ m0 m1 h0 h1

theorem slidingNeg_pair (J : Junk) (occ m0 m1 : BB) (h0 : Ok m0) (h1 : Ok m1) :
    Ok (simdSlidingNegative J occ m0 ||| simdSlidingNegative J occ m1) ∧
    ∀ s, mem (simdSlidingNegative J occ m0 ||| simdSlidingNegative J occ m1) s = true ↔
      SlideNeg occ m0 s ∨ SlideNeg occ m1 s := by
  rw [simdSlidingNegative_eq J _ _ h0, simdSlidingNegative_eq J _ _ h1]
  exact (core_lawful J).slidingNegatives occ m0 m1 h0 h1

theorem contains_single (b : BB) (s : Square) : (!((b &&& CoreBB.single s) == 0#128)) = mem b s := by
  have := (X86.lawful Junk.zero).contains b s
  rw [← this]
  show _ = (!((b &&& simdSingle s) == 0#128))
  rw [simdSingle_eq]

namespace Aarch64

theorem qmovn_zero (x : BitVec 64) : qmovn x = 0#32 ↔ x = 0#64 := by
  unfold qmovn
  have hx := x.isLt
  split
  · rename_i h
    constructor
    · intro h'
      apply BitVec.eq_of_toNat_eq
      have := congrArg BitVec.toNat h'
      simp at this ⊢
      omega
    · rintro rfl; rfl
  · rename_i h
    constructor
    · intro h'; exact absurd h' (by decide)
    · rintro rfl; simp at h

theorem isEmpty_eq (b : BB) : isEmpty b = (b == 0#128) := by
  unfold isEmpty
  rw [Bool.eq_iff_iff, beq_iff_eq, beq_iff_eq]
  have split0 : ∀ (h l : BitVec 32), (h ++ l : BitVec 64) = 0#64 ↔ h = 0#32 ∧ l = 0#32 := by
    intro h l
    have ht : (h ++ l : BitVec 64).toNat = 2 ^ 32 * h.toNat + l.toNat := toNat_app h l
    constructor
    · intro e
      rw [e] at ht
      simp only [BitVec.toNat_ofNat] at ht
      exact ⟨BitVec.eq_of_toNat_eq (by simp only [BitVec.toNat_ofNat]; omega),
        BitVec.eq_of_toNat_eq (by simp only [BitVec.toNat_ofNat]; omega)⟩
    · rintro ⟨rfl, rfl⟩; rfl
  rw [split0, qmovn_zero, qmovn_zero]
  constructor
  · rintro ⟨h1, h2⟩
    rw [← mk64_hi_lo b, h1, h2]; rfl
  · rintro rfl; exact ⟨by decide, by decide⟩

theorem lawful (J : Junk) : Lawful (build J) where
  empty := mk64_zero
  single := simdSingle_eq
  isEmpty := isEmpty_eq
  eq a b := by show isEmpty (a ^^^ b) = _; rw [isEmpty_eq, xor_beq_zero]
  contains b s := by
    show (!isEmpty (simdSingle s &&& b)) = _
    rw [isEmpty_eq, BitVec.and_comm, simdSingle_eq, contains_single]
  count := simdCount_eq
  and _ _ := rfl
  or _ _ := rfl
  xor _ _ := rfl
  not a := by show simdOnes &&& ~~~a = _; rw [simdOnes_eq, BitVec.and_comm]; rfl
  iter := simdIter_eq J
  shl := simd_shl
  shr := simd_shr
  slidingPositiveConsecutive occ m hm h1 := ⟨ok_simd_positiveConsecutive occ m hm,
    simd_positiveConsecutive occ m hm h1⟩
  slidingNegativeConsecutive occ m hm h1 := ⟨ok_simd_negativeConsecutive occ m hm,
    simd_negativeConsecutive occ m hm h1⟩
  slidingPositives := slidingPos_pair J
  slidingNegatives := slidingNeg_pair J
  vacantFiles _ b hb h := ⟨_, rfl, simd_vacantFiles b hb h⟩

end Aarch64

namespace Wasm32

theorem lawful (J : Junk) : Lawful (build J) where
  empty := mk64_zero
  single := simdSingle_eq
  isEmpty b := by show (!anyTrue b) = _; unfold anyTrue; rw [Bool.not_not]
  eq a b := by show allTrue64 (cmpeq64 a b) = _; exact allTrue64_cmpeq a b
  contains b s := by
    show anyTrue (b &&& simdSingle s) = _
    unfold anyTrue
    rw [simdSingle_eq, contains_single]
  count := simdCount_eq
  and _ _ := rfl
  or _ _ := rfl
  xor _ _ := rfl
  not a := by show simdOnes &&& ~~~a = _; rw [simdOnes_eq, BitVec.and_comm]; rfl
  iter := simdIter_eq J
  shl := simd_shl
  shr := simd_shr
  slidingPositiveConsecutive occ m hm h1 := ⟨ok_simd_positiveConsecutive occ m hm,
    simd_positiveConsecutive occ m hm h1⟩
  slidingNegativeConsecutive occ m hm h1 := by
    show Ok (simdSlidingNegative J occ m) ∧ ∀ s, mem (simdSlidingNegative J occ m) s = true ↔ _
    rw [simdSlidingNegative_eq J _ _ hm]
    exact (core_lawful J).slidingNegativeConsecutive occ m hm h1
  slidingPositives := slidingPos_pair J
  slidingNegatives := slidingNeg_pair J
  vacantFiles _ b hb h := ⟨_, rfl, simd_vacantFiles b hb h⟩

end Wasm32

end Yasai

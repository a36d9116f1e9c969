import Verif.Proofs.CoreLawful
import Verif.Model.Simd

/-!
# Bit-level lemmas for the SIMD backends
-/

namespace Yasai

@[simp] theorem getLsbD_lo64 (b : BB) (i : Nat) :
    (lo64 b).getLsbD i = (decide (i < 64) && b.getLsbD i) := by
  simp [lo64]

@[simp] theorem getLsbD_hi64 (b : BB) (i : Nat) :
    (hi64 b).getLsbD i = (decide (i < 64) && b.getLsbD (64 + i)) := by
  simp [hi64]

theorem getLsbD_mk64 (h l : BitVec 64) (i : Nat) :
    (mk64 h l).getLsbD i = if i < 64 then l.getLsbD i else h.getLsbD (i - 64) := by
  unfold mk64; exact BitVec.getLsbD_append

theorem toNat_mk64 (h l : BitVec 64) : (mk64 h l).toNat = 2 ^ 64 * h.toNat + l.toNat := by
  unfold mk64; exact toNat_app _ _

theorem toNat_lo64 (b : BB) : (lo64 b).toNat = b.toNat % 2 ^ 64 := by
  simp [lo64, BitVec.extractLsb']

theorem toNat_hi64 (b : BB) : (hi64 b).toNat = b.toNat / 2 ^ 64 := by
  have := b.isLt
  simp [hi64, BitVec.extractLsb', Nat.shiftRight_eq_div_pow]
  omega

theorem mk64_hi_lo (b : BB) : mk64 (hi64 b) (lo64 b) = b := by
  apply BitVec.eq_of_toNat_eq
  rw [toNat_mk64, toNat_lo64, toNat_hi64]
  omega

@[simp] theorem lo64_mk64 (h l : BitVec 64) : lo64 (mk64 h l) = l := by
  apply BitVec.eq_of_toNat_eq
  rw [toNat_lo64, toNat_mk64]
  have := l.isLt
  omega

@[simp] theorem hi64_mk64 (h l : BitVec 64) : hi64 (mk64 h l) = h := by
  apply BitVec.eq_of_toNat_eq
  rw [toNat_hi64, toNat_mk64]
  have := l.isLt
  omega

theorem getLsbD_ofBits (n : Nat) (f : Nat → Bool) (i : Nat) :
    (ofBits n f).getLsbD i = (decide (i < n) && f i) := by
  induction n with
  | zero => simp
  | succ n ih =>
    rw [ofBits, BitVec.getLsbD_cons, ih]
    by_cases h : i = n
    · subst h; simp
    · rw [if_neg h]
      have : decide (i < n) = decide (i < n + 1) := by
        rw [decide_eq_decide]; omega
      rw [this]

/-- Bits of `x - 1` when the lowest set bit of `x` is `k`. -/
theorem getLsbD_dec {w : Nat} (x : BitVec w) (k j : Nat) (hk : x.getLsbD k = true)
    (hmin : ∀ i, i < k → x.getLsbD i = false) :
    (x - 1#w).getLsbD j = if j < k then true else if j = k then false else x.getLsbD j := by
  have hkw := BitVec.lt_of_getLsbD hk
  have hlow : x.toNat % 2 ^ k = 0 := by
    apply Nat.eq_of_testBit_eq
    intro i
    rw [Nat.testBit_mod_two_pow]
    by_cases hi : i < k
    · have := hmin i hi
      rw [BitVec.getLsbD] at this
      simp [this]
    · simp [hi]
  have hbit : x.toNat / 2 ^ k % 2 = 1 := by
    rw [BitVec.getLsbD, Nat.testBit_eq_decide_div_mod_eq] at hk
    simpa using hk
  have hpos : 0 < 2 ^ k := Nat.two_pow_pos k
  -- x = 2^(k+1) * m + 2^k
  obtain ⟨q, hq⟩ : ∃ q, x.toNat = 2 ^ k * q := ⟨x.toNat / 2 ^ k, by
    have := Nat.div_add_mod x.toNat (2 ^ k); omega⟩
  have hq2 : q % 2 = 1 := by
    rw [hq, Nat.mul_div_cancel_left _ hpos] at hbit; exact hbit
  have e1 : 2 ^ (k + 1) * (q / 2) = 2 ^ k * (q - 1) := by
    rw [Nat.pow_succ, Nat.mul_assoc]; congr 1; omega
  have e2 : 2 ^ k * q = 2 ^ k * (q - 1) + 2 ^ k := by
    conv => lhs; rw [show q = (q - 1) + 1 by omega]
    rw [Nat.mul_add, Nat.mul_one]
  have hx : x.toNat = 2 ^ (k + 1) * (q / 2) + 2 ^ k := by
    rw [e1, hq]; exact e2
  have hw0 : 1 % 2 ^ w = 1 := Nat.mod_eq_of_lt (by
    calc 1 < 2 := by omega
      _ = 2 ^ 1 := rfl
      _ ≤ 2 ^ w := Nat.pow_le_pow_right (by omega) (by omega))
  have hd : (x - 1#w).toNat = 2 ^ (k + 1) * (q / 2) + (2 ^ k - 1) := by
    rw [BitVec.toNat_sub_of_le (by
      show (1#w).toNat ≤ x.toNat
      simp only [BitVec.toNat_ofNat, hw0]; omega)]
    simp only [BitVec.toNat_ofNat, hw0]
    omega
  have hlt : 2 ^ k - 1 < 2 ^ (k + 1) := by rw [Nat.pow_succ]; omega
  have hlt2 : 2 ^ k < 2 ^ (k + 1) := by rw [Nat.pow_succ]; omega
  rw [BitVec.getLsbD, BitVec.getLsbD, hd, hx, Nat.testBit_two_pow_mul_add _ hlt,
    Nat.testBit_two_pow_mul_add _ hlt2, Nat.testBit_two_pow_sub_one, Nat.testBit_two_pow]
  by_cases h1 : j < k
  · simp [h1, show j < k + 1 by omega]
  · by_cases h2 : j = k
    · subst h2; simp
    · simp [h1, h2, show ¬ j < k + 1 by omega]

theorem add_allOnes {w : Nat} (x : BitVec w) : x + BitVec.allOnes w = x - 1#w := by
  rw [BitVec.sub_eq_add_neg, BitVec.neg_one_eq_allOnes]

/-- `x ^ (x - 1)` selects everything up to and including the lowest set bit. -/
theorem getLsbD_xor_dec {w : Nat} (x : BitVec w) (i : Nat) (hi : i < w) :
    (x ^^^ (x - 1#w)).getLsbD i = true ↔ ∀ j, j < i → x.getLsbD j = false := by
  by_cases hx : ∃ k, x.getLsbD k = true
  · obtain ⟨_, h2, h3⟩ := trailingZeros_spec x hx
    generalize trailingZeros x = k at h2 h3
    rw [BitVec.getLsbD_xor, getLsbD_dec x k i h2 h3]
    by_cases h : i < k
    · simp only [h, if_true, h3 i h, Bool.xor_true, Bool.not_false, true_iff]
      intro j hj; exact h3 j (by omega)
    · by_cases he : i = k
      · subst he; simp [h2]; exact h3
      · simp only [h, he, if_false, Bool.xor_self]
        constructor
        · intro hf; cases hf
        · intro hall; rw [hall k (by omega)] at h2; cases h2
  · have hf : ∀ j, x.getLsbD j = false := by
      intro j; cases e : x.getLsbD j with
      | false => rfl
      | true => exact absurd ⟨j, e⟩ hx
    have h0 : x = 0#w := BitVec.eq_of_getLsbD_eq (by intro i _; rw [hf]; simp)
    subst h0
    constructor
    · intro _ j _; simp
    · intro _
      rw [BitVec.zero_sub, BitVec.neg_one_eq_allOnes]
      simp [hi]

/-- `x & (x - 1)` removes the lowest set bit. -/
theorem getLsbD_and_dec {w : Nat} (x : BitVec w) (hx : ∃ k, x.getLsbD k = true) (i : Nat)
    : (x &&& (x - 1#w)).getLsbD i = (x.getLsbD i && !decide (i = trailingZeros x)) := by
  obtain ⟨_, h2, h3⟩ := trailingZeros_spec x hx
  generalize trailingZeros x = k at h2 h3
  by_cases hi : i < w
  · rw [BitVec.getLsbD_and, getLsbD_dec x k i h2 h3]
    by_cases h : i < k
    · simp [h3 i h]
    · by_cases he : i = k
      · simp [he]
      · simp [h, he]
  · rw [BitVec.getLsbD_of_ge _ _ (by omega), BitVec.getLsbD_of_ge _ _ (by omega)]; simp

theorem filter_of_find {p : Nat → Bool} {l : List Nat} (hn : l.Nodup) {k : Nat}
    (h : l.find? p = some k) :
    l.filter p = k :: l.filter (fun i => p i && !decide (i = k)) := by
  induction l with
  | nil => cases h
  | cons a l ih =>
    rw [List.nodup_cons] at hn
    by_cases hp : p a = true
    · rw [List.find?_cons_of_pos hp] at h
      cases h
      rw [List.filter_cons_of_pos hp, List.filter_cons_of_neg (by simp)]
      congr 1
      apply List.filter_congr
      intro x hx
      have : x ≠ k := by rintro rfl; exact hn.1 hx
      simp [this]
    · rw [List.find?_cons_of_neg hp] at h
      rw [List.filter_cons_of_neg hp, List.filter_cons_of_neg (by simp [hp])]
      exact ih hn.2 h

theorem popAll_eq (n : Nat) (x : BitVec 64)
    (hn : ((List.range 64).filter (fun i => x.getLsbD i)).length ≤ n) :
    popAll n x = (List.range 64).filter (fun i => x.getLsbD i) := by
  induction n generalizing x with
  | zero =>
    rw [popAll]
    symm; apply List.eq_nil_of_length_eq_zero; omega
  | succ n ih =>
    rw [popAll]
    by_cases hx : x = 0#64
    · rw [if_pos hx, hx]
      symm; rw [List.filter_eq_nil_iff]; intro i _; simp
    · rw [if_neg hx]
      have hex : ∃ k, x.getLsbD k = true := by
        apply Classical.byContradiction; intro hne
        apply hx
        apply BitVec.eq_of_getLsbD_eq
        intro i _
        cases e : x.getLsbD i with
        | false => simp
        | true => exact absurd ⟨i, e⟩ hne
      have hfind : (List.range 64).find? (fun i => x.getLsbD i) = some (trailingZeros x) := by
        obtain ⟨i, hi⟩ := hex
        obtain ⟨k, hk, _⟩ := find_range_spec 64 (fun i => x.getLsbD i)
          ⟨i, BitVec.lt_of_getLsbD hi, hi⟩
        rw [trailingZeros, hk]; rfl
      have hf := filter_of_find List.nodup_range hfind
      have e : (List.range 64).filter (fun i => (x &&& (x - 1#64)).getLsbD i) =
          (List.range 64).filter (fun i => x.getLsbD i && !decide (i = trailingZeros x)) := by
        apply List.filter_congr; intro i _; exact getLsbD_and_dec x hex i
      rw [hf] at hn ⊢
      rw [ih _ (by rw [e]; simp only [List.length_cons] at hn; omega), e]

theorem all_eq_lanes (j : Nat → Square) : Square.all =
    (List.range 63).map (fun n => Square.fromU8Unchecked j (n + 1)) ++
    (List.range 18).map (fun n => Square.fromU8Unchecked j (n + 64)) := by
  have e : Square.all =
      (List.range 63).map (fun n => Square.fromU8Unchecked (fun _ => 0) (n + 1)) ++
      (List.range 18).map (fun n => Square.fromU8Unchecked (fun _ => 0) (n + 64)) := by
    decide +kernel
  rw [e]
  congr 1 <;> apply List.map_congr_left <;> intro n hn <;> rw [List.mem_range] at hn <;>
    unfold Square.fromU8Unchecked <;> rw [dif_pos (by omega), dif_pos (by omega)]

theorem bitPos_lane0 (j : Nat → Square) (n : Nat) (h : n < 63) : bitPos (Square.fromU8Unchecked j (n + 1)) = n := by
  unfold Square.fromU8Unchecked bitPos
  rw [dif_pos (by omega)]; simp only [Nat.add_sub_cancel]; rw [if_pos h]

theorem bitPos_lane1 (j : Nat → Square) (n : Nat) (h : n < 18) : bitPos (Square.fromU8Unchecked j (n + 64)) = 64 + n := by
  unfold Square.fromU8Unchecked bitPos
  rw [dif_pos (by omega)]; simp only; rw [if_neg (by omega)]; omega

theorem simdIter_eq (J : Junk) (b : BB) (h : Ok b) : simdIter J b = Square.all.filter (mem b) := by
  unfold simdIter
  have len : ∀ x : BitVec 64, ((List.range 64).filter (fun i => x.getLsbD i)).length ≤ 64 := by
    intro x
    have := List.length_filter_le (fun i => x.getLsbD i) (List.range 64)
    simpa using this
  rw [popAll_eq _ _ (len _), popAll_eq _ _ (len _), all_eq_lanes J.square, List.filter_append,
    List.filter_map, List.filter_map]
  congr 1
  · congr 1
    rw [show List.range 64 = List.range 63 ++ [63] by decide, List.filter_append]
    have : [63].filter (fun i => (lo64 b).getLsbD i) = [] := by
      rw [List.filter_eq_nil_iff]; intro i hi
      simp only [List.mem_singleton] at hi; subst hi
      rw [getLsbD_lo64, ok_false h 63 (Or.inl rfl)]; simp
    rw [this, List.append_nil]
    apply List.filter_congr
    intro n hn
    rw [List.mem_range] at hn
    rw [getLsbD_lo64, Function.comp, mem, bitPos_lane0 _ n hn, decide_eq_true (by omega),
      Bool.true_and]
  · congr 1
    rw [show List.range 64 = List.range 18 ++ (List.range 46).map (· + 18) by decide,
      List.filter_append]
    have : ((List.range 46).map (· + 18)).filter (fun i => (hi64 b).getLsbD i) = [] := by
      rw [List.filter_eq_nil_iff]; intro i hi
      simp only [List.mem_map, List.mem_range] at hi
      obtain ⟨n, hn, rfl⟩ := hi
      rw [getLsbD_hi64, ok_false h _ (Or.inr (by omega))]; simp
    rw [this, List.append_nil]
    apply List.filter_congr
    intro n hn
    rw [List.mem_range] at hn
    rw [getLsbD_hi64, Function.comp, mem, bitPos_lane1 _ n hn, decide_eq_true (by omega),
      Bool.true_and]

theorem simdCount_eq (b : BB) (h : Ok b) : simdCount b = Square.all.countP (mem b) := by
  rw [← countOnes_eq b h]
  unfold simdCount countOnes
  rw [show List.range 128 = List.range 64 ++ (List.range 64).map (64 + ·) by decide,
    List.countP_append, List.countP_map]
  congr 1
  · apply List.countP_congr; intro i hi; rw [List.mem_range] at hi; rw [getLsbD_lo64, decide_eq_true hi, Bool.true_and]
  · apply List.countP_congr; intro i hi; rw [List.mem_range] at hi
    rw [getLsbD_hi64, decide_eq_true hi, Bool.true_and]; rfl

theorem simdSingle_eq (s : Square) : simdSingle s = CoreBB.single s := by
  have : ∀ s : Fin 81, simdSingle s = CoreBB.single s := by decide +kernel
  exact this s

theorem simdOnes_eq : simdOnes = allBits := by decide +kernel

theorem simdVacantMask_eq : simdVacantMask = packF (fun _ => 256#9) := by decide +kernel

theorem getLsbD_sll64 (b : BB) (i : Nat) : (sll64 b 1).getLsbD i =
    (decide (i ≠ 0 ∧ i ≠ 64 ∧ i < 128) && b.getLsbD (i - 1)) := by
  rw [sll64, getLsbD_mk64]
  split
  · rename_i h
    rw [BitVec.getLsbD_shiftLeft, getLsbD_lo64]
    by_cases h0 : i = 0
    · simp [h0]
    · simp [h, h0, show ¬ i < 1 by omega, show i ≠ 64 by omega, show i < 128 by omega,
        show i - 1 < 64 by omega]
  · rename_i h
    rw [BitVec.getLsbD_shiftLeft, getLsbD_hi64]
    by_cases h1 : i = 64
    · simp [h1]
    · by_cases h2 : i < 128
      · rw [show 64 + (i - 64 - 1) = i - 1 by omega]
        simp [h1, h2, show i ≠ 0 by omega, show i - 64 < 64 by omega,
          show ¬ i - 64 < 1 by omega, show i - 64 - 1 < 64 by omega]
      · simp [show ¬ i - 64 < 64 by omega, h2]

theorem getLsbD_srl64 (b : BB) (n i : Nat) : (srl64 b n).getLsbD i =
    if i < 64 then decide (n + i < 64) && b.getLsbD (n + i) else
      decide (n + (i - 64) < 64) && b.getLsbD (64 + (n + (i - 64))) := by
  rw [srl64, getLsbD_mk64]
  split
  · rw [BitVec.getLsbD_ushiftRight, getLsbD_lo64]
  · rw [BitVec.getLsbD_ushiftRight, getLsbD_hi64]

theorem sqOf_val (i : Nat) (h : i < 82 ∧ i ≠ 63) :
    (sqOf i h).val = if i < 63 then i else i - 1 := by
  unfold sqOf; split <;> rfl

theorem rank9_bit {b : BB} (hd : ∀ t, mem b t = true → t.rank ≠ 9) :
    b.getLsbD 62 = false ∧ b.getLsbD 81 = false := by
  constructor
  · cases e : b.getLsbD 62 with
    | false => rfl
    | true => exact absurd rfl (hd (62 : Fin 81) e)
  · cases e : b.getLsbD 81 with
    | false => rfl
    | true => exact absurd rfl (hd (80 : Fin 81) e)

theorem simd_shl (b : BB) (h : Ok b) (hd : ∀ t, mem b t = true → t.rank ≠ 9) :
    Ok (sll64 b 1) ∧ ∀ s, mem (sll64 b 1) s = true ↔ ∃ t, mem b t = true ∧ s.val = t.val + 1 := by
  obtain ⟨h62, h81⟩ := rank9_bit hd
  constructor
  · intro i hi
    rw [getLsbD_sll64] at hi
    simp only [Bool.and_eq_true, decide_eq_true_eq] at hi
    obtain ⟨⟨h1, h2, h3⟩, h4⟩ := hi
    have := h _ h4
    have : i - 1 ≠ 62 := by intro e; rw [e, h62] at h4; cases h4
    have : i - 1 ≠ 81 := by intro e; rw [e, h81] at h4; cases h4
    omega
  · intro s
    rw [mem, getLsbD_sll64]
    simp only [Bool.and_eq_true, decide_eq_true_eq]
    constructor
    · rintro ⟨⟨h1, h2, h3⟩, h4⟩
      have hok := h _ h4
      refine ⟨sqOf _ hok, by rw [mem, bitPos_sqOf]; exact h4, ?_⟩
      have hs := bitPos_lt s
      rw [sqOf_val]
      have e : bitPos s = if s.val < 63 then s.val else s.val + 1 := rfl
      split at e <;> split <;> omega
    · rintro ⟨t, ht, hst⟩
      have hr := hd t ht
      have hb : bitPos s = bitPos t + 1 ∧ bitPos s ≠ 64 := by
        unfold Square.rank at hr
        unfold bitPos; split <;> split <;> omega
      have := bitPos_lt s
      refine ⟨by omega, ?_⟩
      rw [hb.1]; exact ht

theorem simd_shr (b : BB) (h : Ok b) (hd : ∀ t, mem b t = true → t.rank ≠ 1) :
    Ok (srl64 b 1) ∧ ∀ s, mem (srl64 b 1) s = true ↔ ∃ t, mem b t = true ∧ t.val = s.val + 1 := by
  have h64 : b.getLsbD 64 = false := by
    cases e : b.getLsbD 64 with
    | false => rfl
    | true => exact absurd rfl (hd (63 : Fin 81) e)
  constructor
  · intro i hi
    rw [getLsbD_srl64] at hi
    split at hi <;> simp only [Bool.and_eq_true, decide_eq_true_eq] at hi <;>
      have := h _ hi.2 <;> omega
  · intro s
    rw [mem, getLsbD_srl64]
    have hs := bitPos_lt s
    have hs' := bitPos_ne s
    constructor
    · intro hi
      have key : b.getLsbD (bitPos s + 1) = true := by
        split at hi <;> simp only [Bool.and_eq_true, decide_eq_true_eq] at hi
        · rw [Nat.add_comm]; exact hi.2
        · rw [show bitPos s + 1 = 64 + (1 + (bitPos s - 64)) by omega]; exact hi.2
      have hok := h _ key
      refine ⟨sqOf _ hok, by rw [mem, bitPos_sqOf]; exact key, ?_⟩
      rw [sqOf_val]
      have e : bitPos s = if s.val < 63 then s.val else s.val + 1 := rfl
      split at e <;> split <;> omega
    · rintro ⟨t, ht, hst⟩
      have hr := hd t ht
      have hb : bitPos t = bitPos s + 1 := by
        unfold Square.rank at hr
        unfold bitPos; split <;> split <;> omega
      unfold mem at ht
      rw [hb] at ht
      split <;> simp only [Bool.and_eq_true, decide_eq_true_eq]
      · rw [Nat.add_comm]; exact ⟨by omega, ht⟩
      · rw [show 64 + (1 + (bitPos s - 64)) = bitPos s + 1 by omega]; exact ⟨by omega, ht⟩

end Yasai

import Verif.Proofs.Bits

/-!
# Bit primitives: trailing/leading zeros, masks, counting
-/

namespace Yasai

theorem find_range_spec (n : Nat) (p : Nat → Bool) (h : ∃ i, i < n ∧ p i = true) :
    ∃ k, (List.range n).find? p = some k ∧ k < n ∧ p k = true ∧ ∀ j, j < k → p j = false := by
  cases e : (List.range n).find? p with
  | none =>
    rw [List.find?_eq_none] at e
    obtain ⟨i, hi, hp⟩ := h
    exact absurd hp (e i (List.mem_range.2 hi))
  | some k =>
    refine ⟨k, rfl, ?_, ?_, ?_⟩
    · exact List.mem_range.1 (List.mem_of_find?_eq_some e)
    · exact List.find?_some e
    · intro j hj
      have := (List.find?_range_eq_some).1 e
      simpa using this.2.2 j hj

theorem trailingZeros_spec {w : Nat} (x : BitVec w) (h : ∃ i, x.getLsbD i = true) :
    trailingZeros x < w ∧ x.getLsbD (trailingZeros x) = true ∧
      ∀ j, j < trailingZeros x → x.getLsbD j = false := by
  obtain ⟨i, hi⟩ := h
  obtain ⟨k, hk, h1, h2, h3⟩ := find_range_spec w (fun i => x.getLsbD i)
    ⟨i, BitVec.lt_of_getLsbD hi, hi⟩
  unfold trailingZeros
  rw [hk]
  exact ⟨h1, h2, h3⟩

theorem trailingZeros_eq {w : Nat} (x : BitVec w) (k : Nat) (hk : x.getLsbD k = true)
    (hmin : ∀ j, j < k → x.getLsbD j = false) : trailingZeros x = k := by
  obtain ⟨_, h2, h3⟩ := trailingZeros_spec x ⟨k, hk⟩
  rcases Nat.lt_trichotomy (trailingZeros x) k with h | h | h
  · rw [hmin _ h] at h2; cases h2
  · exact h
  · rw [h3 _ h] at hk; cases hk

theorem leadingZeros_spec {w : Nat} (x : BitVec w) (h : ∃ i, x.getLsbD i = true) :
    leadingZeros x < w ∧ x.getLsbD (w - 1 - leadingZeros x) = true ∧
      ∀ j, w - 1 - leadingZeros x < j → x.getLsbD j = false := by
  obtain ⟨i, hi⟩ := h
  have hiw := BitVec.lt_of_getLsbD hi
  obtain ⟨k, hk, h1, h2, h3⟩ := find_range_spec w (fun i => x.getMsbD i)
    ⟨w - 1 - i, by omega, by
      simp only [BitVec.getMsbD]
      rw [show w - 1 - (w - 1 - i) = i by omega, hi]
      simp; omega⟩
  unfold leadingZeros
  rw [hk]
  simp only [Option.getD_some]
  refine ⟨h1, ?_, ?_⟩
  · simp only [BitVec.getMsbD, Bool.and_eq_true] at h2
    exact h2.2
  · intro j hj
    by_cases hjw : j < w
    · have := h3 (w - 1 - j) (by omega)
      simp only [BitVec.getMsbD] at this
      rw [show w - 1 - (w - 1 - j) = j by omega] at this
      simp only [Bool.and_eq_false_iff, decide_eq_false_iff_not] at this
      rcases this with h | h
      · omega
      · exact h
    · exact BitVec.getLsbD_of_ge _ _ (by omega)

theorem leadingZeros_eq {w : Nat} (x : BitVec w) (k : Nat) (hk : x.getLsbD k = true)
    (hmax : ∀ j, k < j → x.getLsbD j = false) : w - 1 - leadingZeros x = k := by
  obtain ⟨_, h2, h3⟩ := leadingZeros_spec x ⟨k, hk⟩
  rcases Nat.lt_trichotomy (w - 1 - leadingZeros x) k with h | h | h
  · rw [h3 _ h] at hk; cases hk
  · exact h
  · rw [hmax _ h] at h2; cases h2

/-- The mask `(1 << i) - 1`. -/
theorem getLsbD_lowMask {w : Nat} (i j : Nat) (hi : i < w) :
    ((1#w <<< i) - 1#w).getLsbD j = decide (j < i) := by
  have h2 : (1#w <<< i - 1#w).toNat = 2 ^ i - 1 := by
    have hlt : 2 ^ i < 2 ^ w := Nat.pow_lt_pow_right (by omega) hi
    have hpos : 0 < 2 ^ i := Nat.two_pow_pos i
    have h1 : (1 : Nat) % 2 ^ w = 1 := Nat.mod_eq_of_lt (by omega)
    simp only [BitVec.toNat_sub, BitVec.toNat_shiftLeft, BitVec.toNat_ofNat, h1,
      Nat.shiftLeft_eq, Nat.one_mul]
    rw [Nat.mod_eq_of_lt hlt]
    rw [show 2 ^ w - 1 + 2 ^ i = 2 ^ w + (2 ^ i - 1) by omega, Nat.add_mod_left,
      Nat.mod_eq_of_lt (by omega)]
  rw [BitVec.getLsbD, h2, Nat.testBit_two_pow_sub_one]

theorem range_filter_squares :
    (List.range 128).filter (fun i => decide (i < 82 ∧ i ≠ 63)) = Square.all.map bitPos := by
  decide +kernel

theorem countOnes_eq (b : BB) (h : Ok b) : countOnes b = Square.all.countP (mem b) := by
  unfold countOnes
  have h1 : (List.range 128).countP (fun i => b.getLsbD i) =
      ((List.range 128).filter (fun i => decide (i < 82 ∧ i ≠ 63))).countP
        (fun i => b.getLsbD i) := by
    rw [List.countP_filter]
    apply List.countP_congr
    intro i _
    constructor
    · intro hi; simp only [Bool.and_eq_true, decide_eq_true_eq]; exact ⟨hi, h i hi⟩
    · intro hi; simp only [Bool.and_eq_true, decide_eq_true_eq] at hi; exact hi.1
  rw [h1, range_filter_squares, List.countP_map]
  rfl

theorem foldl_ofPred (f : Square → Bool) (l : List Square) (acc : BB) (s : Square) :
    mem (l.foldl (fun acc s => if f s then acc ||| CoreBB.single s else acc) acc) s =
      (mem acc s || (decide (s ∈ l) && f s)) := by
  induction l generalizing acc with
  | nil => simp
  | cons a l ih =>
    simp only [List.foldl_cons, ih]
    by_cases h : s = a
    · subst h; by_cases hf : f s = true
      · simp [hf]
      · simp [hf]
    · by_cases hf : f a = true
      · simp [hf, h]
      · simp [hf, h]

theorem ok_foldl_ofPred (f : Square → Bool) (l : List Square) (acc : BB) (h : Ok acc) :
    Ok (l.foldl (fun acc s => if f s then acc ||| CoreBB.single s else acc) acc) := by
  induction l generalizing acc with
  | nil => simpa
  | cons a l ih =>
    simp only [List.foldl_cons]
    apply ih
    split
    · exact ok_or h (ok_single a)
    · exact h

theorem mem_all (s : Square) : s ∈ Square.all := by simp [Square.all]

@[simp] theorem mem_ofPred (f : Square → Bool) (s : Square) : mem (CoreBB.ofPred f) s = f s := by
  unfold CoreBB.ofPred
  rw [foldl_ofPred]
  simp [mem_all]

theorem ok_ofPred (f : Square → Bool) : Ok (CoreBB.ofPred f) := by
  unfold CoreBB.ofPred
  exact ok_foldl_ofPred f _ _ ok_zero

end Yasai

import Verif.Proofs.BitPrim

/-!
# A bitboard as nine 9-bit fields, one per file
-/

namespace Yasai

/-- The bitboard with the given files (index 0 is file 1; bit 0 of a field is rank 1). -/
def packF (f : Nat → BitVec 9) : BB :=
  0#46 ++ f 8 ++ f 7 ++ 0#1 ++ f 6 ++ f 5 ++ f 4 ++ f 3 ++ f 2 ++ f 1 ++ f 0

/-- Bit offset of a file. -/
def fieldOff (i : Nat) : Nat := if i < 7 then 9 * i else 9 * i + 1

/-- Field of a bitboard. -/
def field (b : BB) (i : Nat) : BitVec 9 := b.extractLsb' (fieldOff i) 9

theorem toNat_app {n m : Nat} (x : BitVec n) (y : BitVec m) :
    (x ++ y).toNat = 2 ^ m * x.toNat + y.toNat := by
  rw [BitVec.toNat_append, ← Nat.shiftLeft_add_eq_or_of_lt y.isLt, Nat.shiftLeft_eq, Nat.mul_comm]

theorem toNat_packF (f : Nat → BitVec 9) : (packF f).toNat =
    (f 0).toNat + 2^9 * (f 1).toNat + 2^18 * (f 2).toNat + 2^27 * (f 3).toNat +
    2^36 * (f 4).toNat + 2^45 * (f 5).toNat + 2^54 * (f 6).toNat +
    2^64 * (f 7).toNat + 2^73 * (f 8).toNat := by
  unfold packF
  simp only [toNat_app, BitVec.toNat_ofNat]
  omega

theorem packF_getLsbD (f : Nat → BitVec 9) (k j : Nat) (hk : k < 9) (hj : j < 9) :
    (packF f).getLsbD (fieldOff k + j) = (f k).getLsbD j := by
  have hk' : k = 0 ∨ k = 1 ∨ k = 2 ∨ k = 3 ∨ k = 4 ∨ k = 5 ∨ k = 6 ∨ k = 7 ∨ k = 8 := by omega
  unfold packF fieldOff
  rcases hk' with h | h | h | h | h | h | h | h | h <;> subst h <;>
    simp only [Nat.reduceLT, Nat.reduceMul, if_true, if_false, Nat.reduceAdd] <;>
    repeat (rw [BitVec.getLsbD_append]; first | rw [if_pos (by omega)] | rw [if_neg (by omega)])
  all_goals (congr 1 <;> omega)

theorem packF_getLsbD_63 (f : Nat → BitVec 9) : (packF f).getLsbD 63 = false := by
  unfold packF
  repeat (rw [BitVec.getLsbD_append]; first | rw [if_pos (by omega)] | rw [if_neg (by omega)])
  simp

theorem packF_getLsbD_high (f : Nat → BitVec 9) (i : Nat) (h : 82 ≤ i) :
    (packF f).getLsbD i = false := by
  unfold packF
  repeat (rw [BitVec.getLsbD_append]; rw [if_neg (by omega)])
  simp

theorem index_cases (i : Nat) :
    (∃ k j, k < 9 ∧ j < 9 ∧ i = fieldOff k + j) ∨ i = 63 ∨ 82 ≤ i := by
  by_cases h1 : i < 63
  · left; exact ⟨i / 9, i % 9, by omega, by omega, by unfold fieldOff; rw [if_pos (by omega)]; omega⟩
  · by_cases h2 : i = 63
    · right; left; exact h2
    · by_cases h3 : 82 ≤ i
      · right; right; exact h3
      · left; exact ⟨(i - 1) / 9, (i - 1) % 9, by omega, by omega, by
          unfold fieldOff; rw [if_neg (by omega)]; omega⟩

theorem ok_packF (f : Nat → BitVec 9) : Ok (packF f) := by
  intro i hi
  rcases index_cases i with ⟨k, j, hk, hj, rfl⟩ | rfl | h
  · unfold fieldOff; split <;> omega
  · rw [packF_getLsbD_63] at hi; cases hi
  · rw [packF_getLsbD_high _ _ h] at hi; cases hi

theorem ok_false {b : BB} (h : Ok b) (i : Nat) (hi : i = 63 ∨ 82 ≤ i) : b.getLsbD i = false := by
  cases e : b.getLsbD i with
  | false => rfl
  | true => have := h i e; omega

theorem packF_field (b : BB) (h : Ok b) : packF (field b) = b := by
  apply BitVec.eq_of_getLsbD_eq
  intro i _
  rcases index_cases i with ⟨k, j, hk, hj, rfl⟩ | rfl | h'
  · rw [packF_getLsbD _ _ _ hk hj, field, BitVec.getLsbD_extractLsb', decide_eq_true hj,
      Bool.true_and]
  · rw [packF_getLsbD_63, ok_false h _ (Or.inl rfl)]
  · rw [packF_getLsbD_high _ _ h', ok_false h _ (Or.inr h')]

theorem bitPos_eq_field (s : Square) : bitPos s = fieldOff (s.val / 9) + s.val % 9 := by
  unfold bitPos fieldOff
  by_cases h : s.val < 63
  · rw [if_pos h, if_pos (by omega)]; omega
  · rw [if_neg h, if_neg (by omega)]; omega

theorem mem_packF (f : Nat → BitVec 9) (s : Square) :
    mem (packF f) s = (f (s.val / 9)).getLsbD (s.val % 9) := by
  have h81 := s.isLt
  unfold mem
  rw [bitPos_eq_field, packF_getLsbD _ _ _ (by omega) (by omega)]

theorem packF_sub (f g : Nat → BitVec 9) (h : ∀ i, (g i).toNat ≤ (f i).toNat) :
    packF f - packF g = packF (fun i => f i - g i) := by
  have e : ∀ i, (f i).toNat = (g i).toNat + (f i - g i).toNat := fun i => by
    rw [BitVec.toNat_sub_of_le (by exact h i)]; have := h i; omega
  have hs : (packF f).toNat = (packF g).toNat + (packF (fun i => f i - g i)).toNat := by
    rw [toNat_packF, toNat_packF, toNat_packF, e 0, e 1, e 2, e 3, e 4, e 5, e 6, e 7, e 8]
    omega
  apply BitVec.eq_of_toNat_eq
  rw [BitVec.toNat_sub_of_le (by show (packF g).toNat ≤ _; omega)]
  omega

theorem packF_le (f g : Nat → BitVec 9) (h : ∀ i, (g i).toNat ≤ (f i).toNat) :
    (packF g).toNat ≤ (packF f).toNat := by
  rw [toNat_packF, toNat_packF]
  have := h 0; have := h 1; have := h 2; have := h 3; have := h 4; have := h 5; have := h 6
  have := h 7; have := h 8
  omega

/-- The result fields of `vacant_files` for one file. -/
theorem field_vacant : ∀ x : BitVec 9, x.toNat ≤ 256 →
    (256#9 ^^^ (256#9 - (if (256#9 - x).getLsbD 8 then 1#9 else 0#9))) =
      (if x = 0#9 then 511#9 else 0#9) ∧
    (if (256#9 - x).getLsbD 8 then 1#9 else 0#9 : BitVec 9).toNat ≤ 256 := by decide +kernel

/-- If no file has its bottom square together with another square, fields are at most 256. -/
theorem field_le (b : BB)
    (h : ∀ s t, mem b s = true → mem b t = true → s.file = t.file → s.rank = 9 → s = t)
    (hb : Ok b) (i : Nat) (hi : i < 9) : (field b i).toNat ≤ 256 := by
  have key : ∀ x : BitVec 9, (∀ j : Fin 8, x.getLsbD 8 = true → x.getLsbD j = false) →
      x.toNat ≤ 256 := by decide +kernel
  apply key
  intro j h8
  have hb' := packF_field b hb
  have m1 : mem b ⟨9 * i + 8, by omega⟩ = true := by
    rw [← hb', mem_packF]; simp only
    rw [show (9 * i + 8) / 9 = i by omega, show (9 * i + 8) % 9 = 8 by omega]; exact h8
  cases e : (field b i).getLsbD j with
  | false => rfl
  | true =>
    have m2 : mem b ⟨9 * i + j, by omega⟩ = true := by
      rw [← hb', mem_packF]; simp only
      rw [show (9 * i + j.val) / 9 = i by omega, show (9 * i + j.val) % 9 = j by omega]; exact e
    have := h _ _ m1 m2 (by simp [Square.file]; omega) (by simp [Square.rank])
    simp at this; omega

theorem field_eq_zero_iff (b : BB) (hb : Ok b) (i : Nat) (hi : i < 9) :
    field b i = 0#9 ↔ ∀ t, mem b t = true → t.file ≠ i + 1 := by
  have hb' := packF_field b hb
  constructor
  · intro h t ht hf
    rw [← hb', mem_packF] at ht
    rw [show t.val / 9 = i by unfold Square.file at hf; omega, h] at ht
    simp at ht
  · intro h
    apply BitVec.eq_of_getLsbD_eq
    intro j hj
    cases e : (field b i).getLsbD j with
    | false => simp
    | true =>
      exfalso
      refine h ⟨9 * i + j, by omega⟩ ?_ (by simp [Square.file]; omega)
      rw [← hb', mem_packF]; simp only
      rw [show (9 * i + j) / 9 = i by omega, show (9 * i + j) % 9 = j by omega]; exact e

theorem vacantMask_eq : CoreBB.vacantMask = packF (fun _ => 256#9) := by decide +kernel

theorem packF_congr {f g : Nat → BitVec 9} (h : ∀ i, i < 9 → f i = g i) : packF f = packF g := by
  unfold packF
  rw [h 0 (by omega), h 1 (by omega), h 2 (by omega), h 3 (by omega), h 4 (by omega),
    h 5 (by omega), h 6 (by omega), h 7 (by omega), h 8 (by omega)]

theorem packF_xor (f g : Nat → BitVec 9) : packF f ^^^ packF g = packF (fun i => f i ^^^ g i) := by
  apply ext_of_ok (ok_xor (ok_packF _) (ok_packF _)) (ok_packF _)
  intro s
  simp [mem_packF]

theorem mem_vacantResult (b : BB) (hb : Ok b) (s : Square) :
    mem (packF fun i => if field b i = 0#9 then 511#9 else 0#9) s = true ↔
      ∀ t, mem b t = true → t.file ≠ s.file := by
  have h81 := s.isLt
  rw [mem_packF]
  have := field_eq_zero_iff b hb (s.val / 9) (by omega)
  have e : s.file = s.val / 9 + 1 := rfl
  rw [← e] at this
  rw [← this]
  split
  · rename_i h
    have h511 : ∀ j : Fin 9, (511#9).getLsbD j = true := by decide
    simp only [h, iff_true]
    exact h511 ⟨s.val % 9, by omega⟩
  · rename_i h
    simp only [h, iff_false]
    simp

end Yasai

import Verif.Model.Bits

/-!
# Bitboards as sets of squares: basic lemmas and the laws of a backend
-/

namespace Yasai

/-- Membership of a square in a bitboard. -/
def mem (b : BB) (s : Square) : Bool := b.getLsbD (bitPos s)

/-- Only bits that belong to squares are set. -/
def Ok (b : BB) : Prop := ∀ i, b.getLsbD i = true → i < 82 ∧ i ≠ 63

theorem bitPos_lt (s : Square) : bitPos s < 82 := by
  unfold bitPos; split <;> omega

theorem bitPos_ne (s : Square) : bitPos s ≠ 63 := by
  unfold bitPos; split <;> omega

theorem bitPos_inj {s t : Square} : bitPos s = bitPos t ↔ s = t := by
  constructor
  · unfold bitPos; intro h; apply Fin.ext; split at h <;> split at h <;> omega
  · rintro rfl; rfl

theorem bitPos_lt_iff {s t : Square} : bitPos s < bitPos t ↔ s < t := by
  unfold bitPos
  constructor
  · intro h; apply Fin.lt_def.2; split at h <;> split at h <;> omega
  · intro h; have := Fin.lt_def.1 h; split <;> split <;> omega

theorem bitPos_le_iff {s t : Square} : bitPos s ≤ bitPos t ↔ s ≤ t := by
  rw [← Nat.not_lt, ← Fin.not_lt, bitPos_lt_iff]

/-- The square of a bit position. -/
def sqOf (i : Nat) (h : i < 82 ∧ i ≠ 63) : Square :=
  if h' : i < 63 then ⟨i, by omega⟩ else ⟨i - 1, by omega⟩

theorem bitPos_sqOf (i : Nat) (h : i < 82 ∧ i ≠ 63) : bitPos (sqOf i h) = i := by
  unfold sqOf bitPos
  split
  · simp [*]
  · simp only
    split <;> omega

theorem allBits_getLsbD (i : Nat) : allBits.getLsbD i = decide (i < 82 ∧ i ≠ 63) := by
  by_cases hi : i < 128
  · have : ∀ i : Fin 128, allBits.getLsbD i = decide (i.val < 82 ∧ i.val ≠ 63) := by decide +kernel
    exact this ⟨i, hi⟩
  · rw [BitVec.getLsbD_of_ge _ _ (by omega)]
    symm; simp; omega

theorem ext_of_ok {a b : BB} (ha : Ok a) (hb : Ok b) (h : ∀ s, mem a s = mem b s) : a = b := by
  apply BitVec.eq_of_getLsbD_eq
  intro i _
  by_cases hi : i < 82 ∧ i ≠ 63
  · have := h (sqOf i hi)
    simpa [mem, bitPos_sqOf] using this
  · have h1 : a.getLsbD i = false := by
      cases e : a.getLsbD i
      · rfl
      · exact absurd (ha i e) hi
    have h2 : b.getLsbD i = false := by
      cases e : b.getLsbD i
      · rfl
      · exact absurd (hb i e) hi
    rw [h1, h2]

@[simp] theorem mem_zero (s : Square) : mem 0#128 s = false := by simp [mem]
@[simp] theorem mem_and (a b : BB) (s : Square) : mem (a &&& b) s = (mem a s && mem b s) := by
  simp [mem]
@[simp] theorem mem_or (a b : BB) (s : Square) : mem (a ||| b) s = (mem a s || mem b s) := by
  simp [mem]
@[simp] theorem mem_xor (a b : BB) (s : Square) : mem (a ^^^ b) s = (mem a s ^^ mem b s) := by
  simp [mem]
@[simp] theorem mem_single (t s : Square) : mem (CoreBB.single t) s = decide (s = t) := by
  have h1 := bitPos_lt s
  have h2 := bitPos_lt t
  simp only [mem, CoreBB.single, BitVec.getLsbD_shiftLeft, BitVec.getLsbD_one]
  rw [Bool.eq_iff_iff]
  simp only [Bool.and_eq_true, decide_eq_true_eq, Bool.not_eq_true', decide_eq_false_iff_not]
  rw [← bitPos_inj]
  omega
theorem mem_allBits (s : Square) : mem allBits s = true := by
  simp only [mem, allBits_getLsbD, decide_eq_true_eq]
  exact ⟨bitPos_lt s, bitPos_ne s⟩
@[simp] theorem mem_not (a : BB) (s : Square) : mem (CoreBB.not a) s = !mem a s := by
  have h := mem_allBits s
  have := bitPos_lt s
  have h3 : bitPos s < 128 := by omega
  unfold mem at h
  simp [CoreBB.not, mem, h, h3]

theorem ok_zero : Ok 0#128 := by intro i h; simp at h
theorem ok_and_left {a : BB} (b : BB) (h : Ok a) : Ok (a &&& b) := by
  intro i hi; simp at hi; exact h i hi.1
theorem ok_and_right (a : BB) {b : BB} (h : Ok b) : Ok (a &&& b) := by
  intro i hi; simp at hi; exact h i hi.2
theorem ok_or {a b : BB} (ha : Ok a) (hb : Ok b) : Ok (a ||| b) := by
  intro i hi; simp at hi; rcases hi with hi | hi
  · exact ha i hi
  · exact hb i hi
theorem ok_xor {a b : BB} (ha : Ok a) (hb : Ok b) : Ok (a ^^^ b) := by
  intro i hi
  by_cases h : a.getLsbD i = true
  · exact ha i h
  · by_cases h' : b.getLsbD i = true
    · exact hb i h'
    · simp [h, h'] at hi
theorem ok_allBits : Ok allBits := by
  intro i hi; rw [allBits_getLsbD] at hi; simpa using hi
theorem ok_not (a : BB) : Ok (CoreBB.not a) := ok_and_right _ ok_allBits
theorem ok_single (s : Square) : Ok (CoreBB.single s) := by
  intro i hi
  have h1 := bitPos_lt s
  have h2 := bitPos_ne s
  simp only [CoreBB.single, BitVec.getLsbD_shiftLeft, BitVec.getLsbD_one, Bool.and_eq_true,
    decide_eq_true_eq, Bool.not_eq_true', decide_eq_false_iff_not] at hi
  omega

theorem eq_zero_iff {a : BB} (ha : Ok a) : a = 0#128 ↔ ∀ s, mem a s = false := by
  constructor
  · rintro rfl s; simp
  · intro h; exact ext_of_ok ha ok_zero (by simpa using h)

/-- Slide towards larger square numbers inside `m`, stopping at the first member of `occ`. -/
def SlidePos (occ m : BB) (s : Square) : Prop :=
  mem m s = true ∧ ∀ t, mem m t = true → mem occ t = true → s ≤ t

/-- Slide towards smaller square numbers inside `m`, stopping at the first member of `occ`. -/
def SlideNeg (occ m : BB) (s : Square) : Prop :=
  mem m s = true ∧ ∀ t, mem m t = true → mem occ t = true → t ≤ s

/-- All members of `m` lie on one file. -/
def OneFile (m : BB) : Prop := ∀ s t, mem m s = true → mem m t = true → s.file = t.file

/-- The laws of a bitboard backend that the rest of the crate relies on. -/
structure Lawful (K : Backend) : Prop where
  empty : K.empty = 0#128
  single : ∀ s, K.single s = CoreBB.single s
  isEmpty : ∀ b, K.isEmpty b = (b == 0#128)
  contains : ∀ b s, K.contains b s = mem b s
  count : ∀ b, Ok b → K.count b = Square.all.countP (mem b)
  and : ∀ a b, K.and a b = a &&& b
  or : ∀ a b, K.or a b = a ||| b
  xor : ∀ a b, K.xor a b = a ^^^ b
  not : ∀ a, K.not a = CoreBB.not a
  eq : ∀ a b, K.eq a b = (a == b)
  iter : ∀ b, Ok b → K.iter b = Square.all.filter (mem b)
  shl : ∀ b, Ok b → (∀ t, mem b t = true → t.rank ≠ 9) →
    Ok (K.shl b) ∧ ∀ s, mem (K.shl b) s = true ↔ ∃ t, mem b t = true ∧ s.val = t.val + 1
  shr : ∀ b, Ok b → (∀ t, mem b t = true → t.rank ≠ 1) →
    Ok (K.shr b) ∧ ∀ s, mem (K.shr b) s = true ↔ ∃ t, mem b t = true ∧ t.val = s.val + 1
  slidingPositiveConsecutive : ∀ occ m, Ok m → OneFile m →
    Ok (K.slidingPositiveConsecutive occ m) ∧
    ∀ s, mem (K.slidingPositiveConsecutive occ m) s = true ↔ SlidePos occ m s
  slidingNegativeConsecutive : ∀ occ m, Ok m → OneFile m →
    Ok (K.slidingNegativeConsecutive occ m) ∧
    ∀ s, mem (K.slidingNegativeConsecutive occ m) s = true ↔ SlideNeg occ m s
  slidingPositives : ∀ occ m0 m1, Ok m0 → Ok m1 →
    Ok (K.slidingPositives occ m0 m1) ∧
    ∀ s, mem (K.slidingPositives occ m0 m1) s = true ↔ SlidePos occ m0 s ∨ SlidePos occ m1 s
  slidingNegatives : ∀ occ m0 m1, Ok m0 → Ok m1 →
    Ok (K.slidingNegatives occ m0 m1) ∧
    ∀ s, mem (K.slidingNegatives occ m0 m1) s = true ↔ SlideNeg occ m0 s ∨ SlideNeg occ m1 s
  vacantFiles : ∀ oc b, Ok b →
    (∀ s t, mem b s = true → mem b t = true → s.file = t.file → s.rank = 9 → s = t) →
    ∃ r, K.vacantFiles oc b = some r ∧ Ok r ∧
      ∀ s, mem r s = true ↔ ∀ t, mem b t = true → t.file ≠ s.file

end Yasai

import Verif.Props.VacantExact
import Verif.Props.DeadPawns
import Verif.Props.PawnAlone

/-!
# C86: doubled pawns, file by file, build by build
-/

namespace Yasai

open Spec

/-- The lower `n` digits of the subtraction need a borrow. -/
def borrows (b : BB) (n : Nat) : Prop := num (fun _ => 256) n < num (digit b) n

theorem borrows_succ (b : BB) (n : Nat) :
    borrows b (n + 1) ↔ 256 < digit b n ∨ (digit b n = 256 ∧ borrows b n) := by
  unfold borrows
  rw [num_gt _ _ (digit_lt b), num_gt _ _ (digit_lt b)]
  constructor
  · rintro ⟨i, hi, h1, h2⟩
    rcases Nat.lt_or_ge i n with h | h
    · exact .inr ⟨h2 n h (by omega), i, h, h1, fun j h3 h4 => h2 j h3 (by omega)⟩
    · have : i = n := by omega
      subst this
      exact .inl h1
  · rintro (h | ⟨h, i, hi, h1, h2⟩)
    · exact ⟨n, by omega, h, fun j _ _ => by omega⟩
    · refine ⟨i, by omega, h1, fun j h3 h4 => ?_⟩
      rcases Nat.lt_or_ge j n with h5 | h5
      · exact h2 j h3 h5
      · have : j = n := by omega
        rw [this]; exact h

/-- One digit of a subtraction, with what is below it and above it. -/
theorem digit_sub {X p low lowm x h H : Nat} (hp : 0 < p) (h1 : low < p) (h2 : lowm < p)
    (hx : x < 512) (hX : X + (low + p * (x + 512 * h)) = lowm + p * (256 + 512 * H)) :
    X / p / 256 % 2 = 1 ↔ (x = 0 ∧ ¬ lowm < low) ∨ 256 < x ∨ (x = 256 ∧ lowm < low) := by
  have hdm := Nat.div_add_mod X p
  have hr := Nat.mod_lt X hp
  generalize X / p = q at *
  generalize X % p = r at *
  subst hdm
  by_cases hlt : lowm < low
  · have hq : q + x + 512 * h + 1 = 256 + 512 * H := by
      have e : p * (q + x + 512 * h) + (r + low) = lowm + p * (256 + 512 * H) := by
        rw [← hX, Nat.add_assoc q, Nat.mul_add p q]; omega
      have : p * (q + x + 512 * h) < p * (256 + 512 * H) := by omega
      have l1 := Nat.lt_of_mul_lt_mul_left this
      have : p * (256 + 512 * H) < p * (q + x + 512 * h + 2) := by
        rw [Nat.mul_add p _ 2]; omega
      have l2 := Nat.lt_of_mul_lt_mul_left this
      omega
    omega
  · have hq : q + x + 512 * h = 256 + 512 * H := by
      have e : p * (q + x + 512 * h) + (r + low) = lowm + p * (256 + 512 * H) := by
        rw [← hX, Nat.add_assoc q, Nat.mul_add p q]; omega
      have : p * (q + x + 512 * h) < p * (256 + 512 * H + 1) := by
        rw [Nat.mul_add p _ 1]; omega
      have l1 := Nat.lt_of_mul_lt_mul_left this
      have : p * (256 + 512 * H) < p * (q + x + 512 * h + 1) := by rw [Nat.mul_add p _ 1]; omega
      have l2 := Nat.lt_of_mul_lt_mul_left this
      omega
    omega

/-- The top bit of a digit of the difference. -/
theorem top_bit_iff {b : BB} (hb : Ok b) (hx : Ok (CoreBB.vacantMask - b)) (i : Nat) (hi : i < 9) :
    (field (CoreBB.vacantMask - b) i).getLsbD 8 = true ↔
      (digit b i = 0 ∧ ¬ borrows b i) ∨ borrows b (i + 1) := by
  obtain ⟨hx7, hx9⟩ := (sub_ok_iff hb).1 hx
  rw [field, BitVec.getLsbD_extractLsb', decide_eq_true (by omega : 8 < 9), Bool.true_and]
  show (CoreBB.vacantMask - b).toNat.testBit _ = true ↔ _
  have hX : (CoreBB.vacantMask - b).toNat + b.toNat = CoreBB.vacantMask.toNat := by
    rw [BitVec.toNat_sub]
    have := b.isLt
    have := CoreBB.vacantMask.isLt
    omega
  rw [Nat.testBit_eq_decide_div_mod_eq, decide_eq_true_eq]
  rw [vacantMask_toNat, toNat_digits hb] at hX
  generalize (CoreBB.vacantMask - b).toNat = X at hX ⊢
  clear hx hx9
  rw [borrows_succ, Nat.pow_add, ← Nat.div_div_eq_div_mul]
  have l := fun n => num_lt (digit b) n (digit_lt b)
  have lm := fun n => num_lt (fun _ => 256) n (fun _ => by omega)
  have hd := digit_lt b
  unfold borrows
  generalize digit b = d at *
  have : i = 0 ∨ i = 1 ∨ i = 2 ∨ i = 3 ∨ i = 4 ∨ i = 5 ∨ i = 6 ∨ i = 7 ∨ i = 8 := by omega
  rcases this with rfl | rfl | rfl | rfl | rfl | rfl | rfl | rfl | rfl
  · exact digit_sub (p := 2 ^ 0) (h := d 1 + 512 * d 2 + 262144 * d 3 + 134217728 * d 4 + 68719476736 * d 5 + 35184372088832 * d 6 + 36028797018963968 * d 7 + 18446744073709551616 * d 8)
      (H := 256 + 512 * 256 + 262144 * 256 + 134217728 * 256 + 68719476736 * 256 + 35184372088832 * 256 + 36028797018963968 * 256 + 18446744073709551616 * 256) (by decide) (l 0) (lm 0) (hd 0)
      (by simp only [num, Nat.zero_add] at hX ⊢; omega)
  · exact digit_sub (p := 2 ^ 9) (h := d 2 + 512 * d 3 + 262144 * d 4 + 134217728 * d 5 + 68719476736 * d 6 + 70368744177664 * d 7 + 36028797018963968 * d 8)
      (H := 256 + 512 * 256 + 262144 * 256 + 134217728 * 256 + 68719476736 * 256 + 70368744177664 * 256 + 36028797018963968 * 256) (by decide) (l 1) (lm 1) (hd 1)
      (by simp only [num, Nat.zero_add] at hX ⊢; omega)
  · exact digit_sub (p := 2 ^ 18) (h := d 3 + 512 * d 4 + 262144 * d 5 + 134217728 * d 6 + 137438953472 * d 7 + 70368744177664 * d 8)
      (H := 256 + 512 * 256 + 262144 * 256 + 134217728 * 256 + 137438953472 * 256 + 70368744177664 * 256) (by decide) (l 2) (lm 2) (hd 2)
      (by simp only [num, Nat.zero_add] at hX ⊢; omega)
  · exact digit_sub (p := 2 ^ 27) (h := d 4 + 512 * d 5 + 262144 * d 6 + 268435456 * d 7 + 137438953472 * d 8)
      (H := 256 + 512 * 256 + 262144 * 256 + 268435456 * 256 + 137438953472 * 256) (by decide) (l 3) (lm 3) (hd 3)
      (by simp only [num, Nat.zero_add] at hX ⊢; omega)
  · exact digit_sub (p := 2 ^ 36) (h := d 5 + 512 * d 6 + 524288 * d 7 + 268435456 * d 8)
      (H := 256 + 512 * 256 + 524288 * 256 + 268435456 * 256) (by decide) (l 4) (lm 4) (hd 4)
      (by simp only [num, Nat.zero_add] at hX ⊢; omega)
  · exact digit_sub (p := 2 ^ 45) (h := d 6 + 1024 * d 7 + 524288 * d 8)
      (H := 256 + 1024 * 256 + 524288 * 256) (by decide) (l 5) (lm 5) (hd 5)
      (by simp only [num, Nat.zero_add] at hX ⊢; omega)
  · exact digit_sub (p := 2 ^ 54) (h := 2 * d 7 + 1024 * d 8)
      (H := 2 * 256 + 1024 * 256) (by decide) (l 6) (lm 6) (hd 6)
      (by simp only [num, Nat.zero_add] at hX ⊢; omega)
  · exact digit_sub (p := 2 ^ 64) (h := d 8) (H := 256) (by decide)
      (by have := l 7; omega) (by have := lm 7; omega) (hd 7) (by omega)
  · have e : num (fun _ => 256) 8 < num d 8 ↔
        num (fun _ => 256) 7 + 2 ^ 64 * 256 < num d 7 + 2 ^ 64 * d 7 := by
      have h1 := l 7
      have h2 := lm 7
      show num (fun _ => 256) 7 + 512 ^ 7 * 256 < num d 7 + 512 ^ 7 * d 7 ↔ _
      generalize num d 7 = a at *
      generalize num (fun _ => 256) 7 = c at *
      omega
    rw [e]
    have h1 := l 7
    have h2 := lm 7
    have h3 := hd 7
    generalize num d 7 = a at *
    generalize num (fun _ => 256) 7 = c at *
    exact digit_sub (p := 2 ^ 73) (h := 0) (H := 0) (by decide) (by omega) (by omega) (hd 8)
      (by omega)

theorem runsOut_borrows {b : BB} (hb : Ok b) (top : Nat) (ht : top ≤ 9) :
    Props.RunsOut (mem b) top ↔ borrows b top := by
  rw [runsOut_iff hb top ht, borrows, num_gt _ _ (digit_lt b)]

theorem digit_zero {b : BB} (hb : Ok b) (i : Nat) (hi : i < 9) : digit b i = 0 ↔
    ∀ s : Square, s.file = i + 1 → mem b s = false := by
  have key : ∀ x : BitVec 9, x.toNat = 0 ↔ ∀ j : Fin 9, x.getLsbD j.val = false := by decide +kernel
  rw [digit, key]
  constructor
  · intro h s hs
    unfold Square.file at hs
    have es : s = ⟨9 * i + s.val % 9, by omega⟩ := Fin.ext (by simp only; omega)
    have := h ⟨s.val % 9, by omega⟩
    rw [← mem_field hb i _ hi (by omega), ← es] at this
    exact this
  · intro h j
    rw [← mem_field hb i j.val hi j.isLt, h _ (by simp only [Square.file]; omega)]

/-! ## 64-bit lanes -/

/-- The files of the half of the register in which file `f` lies. -/
def half (b : BB) (f : Nat) : BB := packF fun j => if (j < 7 ↔ f ≤ 7) then field b j else 0#9

theorem ok_half (b : BB) (f : Nat) : Ok (half b f) := ok_packF _

theorem mem_half {b : BB} (hb : Ok b) (f : Nat) (t : Square) :
    mem (half b f) t = (mem b t && decide (t.file ≤ 7 ↔ f ≤ 7)) := by
  have bt := t.bounds
  have e : mem b t = (field b (t.val / 9)).getLsbD (t.val % 9) := by
    rw [← mem_field hb _ _ (by omega) (by omega)]
    congr 1
    exact Fin.ext (by simp only; omega)
  unfold half
  rw [mem_packF, e]
  have hi : t.val / 9 < 7 ↔ t.file ≤ 7 := by unfold Square.file; omega
  by_cases h : t.file ≤ 7 ↔ f ≤ 7
  · rw [if_pos (hi.trans h), decide_eq_true h, Bool.and_true]
  · rw [if_neg (fun h' => h (hi.symm.trans h')), decide_eq_false h, Bool.and_false]
    simp

theorem digit_half (b : BB) (f j : Nat) (hj : j < 9) :
    digit (half b f) j = if (j < 7 ↔ f ≤ 7) then digit b j else 0 := by
  have e : field (half b f) j = if (j < 7 ↔ f ≤ 7) then field b j else 0#9 := by
    apply BitVec.eq_of_getLsbD_eq
    intro i hi
    rw [← mem_field (ok_half b f) j i hj hi, half, mem_packF]
    simp only
    rw [show (9 * j + i) / 9 = j by omega, show (9 * j + i) % 9 = i by omega]
  unfold digit
  rw [e]
  split <;> rfl

theorem num_congr {d e : Nat → Nat} (n : Nat) (h : ∀ i, i < n → d i = e i) : num d n = num e n := by
  induction n with
  | zero => rfl
  | succ n ih => rw [num, num, ih fun i hi => h i (by omega), h n (by omega)]

theorem borrows_half_low (b : BB) (f n : Nat) (hf : f ≤ 7) (hn : n ≤ 7) :
    borrows (half b f) n ↔ borrows b n := by
  unfold borrows
  rw [num_congr (d := digit (half b f)) n fun i hi => by
    rw [digit_half _ _ _ (by omega), if_pos (iff_of_true (by omega) hf)]]

theorem borrows_half_high (b : BB) (f : Nat) (hf : ¬ f ≤ 7) : ¬ borrows (half b f) 7 := by
  unfold borrows
  rw [num_gt _ _ (digit_lt _)]
  rintro ⟨i, hi, h, _⟩
  rw [digit_half _ _ _ (by omega), if_neg (by omega)] at h
  omega

/-- The top bit of a digit of the difference in two lanes. -/
theorem top_bit_lanes {b : BB} (hb : Ok b) (i : Nat) (hi : i < 9) :
    (field (sub64 simdVacantMask b) i).getLsbD 8 = true ↔
      (digit b i = 0 ∧ ¬ borrows (half b (i + 1)) i) ∨ borrows (half b (i + 1)) (i + 1) := by
  rw [field, BitVec.getLsbD_extractLsb', decide_eq_true (by omega : 8 < 9), Bool.true_and, sub64,
    map64, getLsbD_mk64]
  have hd := digit_lt b
  have l := fun n => num_lt (digit b) n (digit_lt b)
  have lm := fun n => num_lt (fun _ => 256) n (fun _ => by omega)
  have hmask : simdVacantMask.toNat = num (fun _ => 256) 7 + 2 ^ 64 * 256 + 2 ^ 73 * 256 := by
    decide +kernel
  have hbn := toNat_digits hb
  have l7 := l 7
  have lm7 := lm 7
  rcases Nat.lt_or_ge i 7 with h7 | h7
  · have ho : fieldOff i = 9 * i := if_pos h7
    rw [if_pos (by omega), borrows_half_low _ _ _ (by omega) (by omega),
      borrows_half_low _ _ _ (by omega) (by omega)]
    show (lo64 simdVacantMask - lo64 b).toNat.testBit _ = true ↔ _
    have hlo : (lo64 b).toNat = num (digit b) 7 := by
      rw [toNat_lo64, hbn]; omega
    have hlm : (lo64 simdVacantMask).toNat = num (fun _ => 256) 7 := by
      rw [toNat_lo64, hmask]; generalize num (fun _ => 256) 7 = y at *; omega
    have hX : ∃ c, (lo64 simdVacantMask - lo64 b).toNat + num (digit b) 7 =
        num (fun _ => 256) 7 + 2 ^ 64 * c := by
      rw [BitVec.toNat_sub, hlo, hlm]
      refine ⟨(2 ^ 64 - num (digit b) 7 + num (fun _ => 256) 7 + num (digit b) 7 -
        num (fun _ => 256) 7) / 2 ^ 64 - (2 ^ 64 - num (digit b) 7 + num (fun _ => 256) 7) / 2 ^ 64, ?_⟩
      generalize num (digit b) 7 = x at *
      generalize num (fun _ => 256) 7 = y at *
      omega
    obtain ⟨c, hX⟩ := hX
    rw [Nat.testBit_eq_decide_div_mod_eq, decide_eq_true_eq, ho]
    generalize (lo64 simdVacantMask - lo64 b).toNat = X at hX ⊢
    rw [borrows_succ, Nat.pow_add, ← Nat.div_div_eq_div_mul]
    unfold borrows
    clear hlo hlm hbn hmask hb
    generalize digit b = d at *
    have : i = 0 ∨ i = 1 ∨ i = 2 ∨ i = 3 ∨ i = 4 ∨ i = 5 ∨ i = 6 := by omega
    rcases this with rfl | rfl | rfl | rfl | rfl | rfl | rfl
    · exact digit_sub (p := 2 ^ 0) (h := d 1 + 512 * d 2 + 262144 * d 3 + 134217728 * d 4 + 68719476736 * d 5 + 35184372088832 * d 6)
        (H := 256 + 512 * 256 + 262144 * 256 + 134217728 * 256 + 68719476736 * 256 + 35184372088832 * 256 + 36028797018963968 * c) (by decide) (l 0) (lm 0) (hd 0)
        (by simp only [num, Nat.zero_add] at hX ⊢; omega)
    · exact digit_sub (p := 2 ^ 9) (h := d 2 + 512 * d 3 + 262144 * d 4 + 134217728 * d 5 + 68719476736 * d 6)
        (H := 256 + 512 * 256 + 262144 * 256 + 134217728 * 256 + 68719476736 * 256 + 70368744177664 * c) (by decide) (l 1) (lm 1) (hd 1)
        (by simp only [num, Nat.zero_add] at hX ⊢; omega)
    · exact digit_sub (p := 2 ^ 18) (h := d 3 + 512 * d 4 + 262144 * d 5 + 134217728 * d 6)
        (H := 256 + 512 * 256 + 262144 * 256 + 134217728 * 256 + 137438953472 * c) (by decide) (l 2) (lm 2) (hd 2)
        (by simp only [num, Nat.zero_add] at hX ⊢; omega)
    · exact digit_sub (p := 2 ^ 27) (h := d 4 + 512 * d 5 + 262144 * d 6)
        (H := 256 + 512 * 256 + 262144 * 256 + 268435456 * c) (by decide) (l 3) (lm 3) (hd 3)
        (by simp only [num, Nat.zero_add] at hX ⊢; omega)
    · exact digit_sub (p := 2 ^ 36) (h := d 5 + 512 * d 6)
        (H := 256 + 512 * 256 + 524288 * c) (by decide) (l 4) (lm 4) (hd 4)
        (by simp only [num, Nat.zero_add] at hX ⊢; omega)
    · exact digit_sub (p := 2 ^ 45) (h := d 6)
        (H := 256 + 1024 * c) (by decide) (l 5) (lm 5) (hd 5)
        (by simp only [num, Nat.zero_add] at hX ⊢; omega)
    · exact digit_sub (p := 2 ^ 54) (h := 0)
        (H := 2 * c) (by decide) (l 6) (lm 6) (hd 6)
        (by simp only [num, Nat.zero_add] at hX ⊢; omega)
  · have ho : fieldOff i = 9 * i + 1 := if_neg (by omega)
    rw [if_neg (by omega)]
    show (hi64 simdVacantMask - hi64 b).toNat.testBit _ = true ↔ _
    have hhi : (hi64 b).toNat = digit b 7 + 512 * digit b 8 := by
      rw [toNat_hi64, hbn]; omega
    have hhm : (hi64 simdVacantMask).toNat = 256 + 512 * 256 := by
      rw [toNat_hi64, hmask]; generalize num (fun _ => 256) 7 = y at *; omega
    have h7d := hd 7
    have h8d := hd 8
    have hX : ∃ c, (hi64 simdVacantMask - hi64 b).toNat + (digit b 7 + 512 * digit b 8) =
        256 + 512 * 256 + 2 ^ 64 * c := by
      rw [BitVec.toNat_sub, hhi, hhm]
      refine ⟨if 256 + 512 * 256 < digit b 7 + 512 * digit b 8 then 1 else 0, ?_⟩
      split <;> omega
    obtain ⟨c, hX⟩ := hX
    rw [Nat.testBit_eq_decide_div_mod_eq, decide_eq_true_eq, ho]
    generalize (hi64 simdVacantMask - hi64 b).toNat = X at hX ⊢
    have hh := borrows_half_high b (i + 1) (by omega)
    have e7 : digit (half b (i + 1)) 7 = digit b 7 := by
      rw [digit_half _ _ _ (by omega), if_pos (by omega)]
    have e8 : digit (half b (i + 1)) 8 = digit b 8 := by
      rw [digit_half _ _ _ (by omega), if_pos (by omega)]
    have : i = 7 ∨ i = 8 := by omega
    rcases this with rfl | rfl
    · have h := digit_sub (X := X) (p := 1) (low := 0) (lowm := 0) (x := digit b 7) (h := digit b 8)
        (H := 256 + 2 ^ 55 * c) (by omega) (by omega) (by omega) h7d (by omega)
      rw [borrows_succ _ 7, e7, show 9 * 7 + 1 + 8 - 64 = 8 by rfl, show (2 : Nat) ^ 8 = 256 by rfl]
      rw [Nat.div_one] at h
      rw [h]
      simp [hh]
    · have h := digit_sub (X := X) (p := 512) (low := digit b 7) (lowm := 256) (x := digit b 8) (h := 0)
        (H := 2 ^ 46 * c) (by omega) (by omega) (by omega) h8d (by omega)
      have e : borrows (half b (8 + 1)) 8 ↔ 256 < digit b 7 := by
        rw [borrows_succ, e7]
        simp [hh]
      rw [borrows_succ _ 8, e8, e, show 9 * 8 + 1 + 8 - 64 = 9 + 8 by rfl, Nat.pow_add,
        ← Nat.div_div_eq_div_mul]
      exact h

theorem simd_vacant_eq (b : BB) : simdVacantFiles b =
    packF fun i => if (field (sub64 simdVacantMask b) i).getLsbD 8 then 511#9 else 0#9 := by
  unfold simdVacantFiles
  dsimp only
  generalize sub64 simdVacantMask b = x
  have e : simdVacantMask &&& x = packF (fun _ => 256#9) &&& packF (field x) := by
    rw [simdVacantMask_eq]
    apply BitVec.eq_of_getLsbD_eq
    intro i hi
    rw [BitVec.getLsbD_and, BitVec.getLsbD_and]
    rcases index_cases i with ⟨k, j, hk, hj, rfl⟩ | rfl | h
    · rw [packF_getLsbD (field x) k j hk hj, field, BitVec.getLsbD_extractLsb', decide_eq_true hj,
        Bool.true_and]
    · rw [packF_getLsbD_63, Bool.false_and, Bool.false_and]
    · rw [packF_getLsbD_high _ _ h, Bool.false_and, Bool.false_and]
  rw [e, srl64_8_packF, simdVacantMask_eq, sub64_packF (fun _ => 256#9) _ fun i => by split <;> decide,
    last_xor]

namespace Props

/-- What the portable build takes for a vacant file: a file without a member, unless the file before it
needs a borrow; and a file that itself needs one. -/
def TakenForVacant (m : Square → Bool) (f : Nat) : Prop :=
  ((∀ t, m t = true → t.file ≠ f) ∧ ¬ RunsOut m (f - 1)) ∨ RunsOut m f

theorem vacant_exact {b : BB} (hok : Ok b) (oc : Bool) (r : BB)
    (h : CoreBB.vacantFilesC oc b = .ok r) :
    Ok r ∧ ∀ s, mem r s = true ↔ TakenForVacant (mem b) s.file := by
  rw [vacantFilesC_eq] at h
  split at h
  · cases h
  · split at h
    · next hx =>
      cases h
      refine ⟨ok_packF _, fun s => ?_⟩
      have bs := s.bounds
      have hi : s.val / 9 = s.file - 1 := by unfold Square.file; omega
      have hbit := top_bit_iff hok hx (s.val / 9) (by omega)
      have e : mem (packF fun i => if (field (CoreBB.vacantMask - b) i).getLsbD 8 then 511#9
          else 0#9) s = (field (CoreBB.vacantMask - b) (s.val / 9)).getLsbD 8 := by
        rw [mem_packF]
        cases (field (CoreBB.vacantMask - b) (s.val / 9)).getLsbD 8
        · exact (by decide : ∀ j : Fin 9, (0#9).getLsbD j.val = false) ⟨s.val % 9, by omega⟩
        · exact (by decide : ∀ j : Fin 9, (511#9).getLsbD j.val = true) ⟨s.val % 9, by omega⟩
      rw [e, hbit, hi, show s.file - 1 + 1 = s.file by omega, ← runsOut_borrows hok _ (by omega),
        ← runsOut_borrows hok _ (by omega), digit_zero hok _ (by omega), TakenForVacant,
        show s.file - 1 + 1 = s.file by omega]
      refine or_congr_left (and_congr_left fun _ => forall_congr' fun t => ?_)
      rw [← Bool.not_eq_true]
      exact ⟨fun h h1 h2 => h h2 h1, fun h h1 h2 => h h2 h1⟩
    · cases h

/-- The squares in the same half of the register as file `f`: files 1 to 7, or 8 and 9. -/
def InHalf (m : Square → Bool) (f : Nat) (t : Square) : Bool := m t && decide (t.file ≤ 7 ↔ f ≤ 7)

theorem inHalf_eq {b : BB} (hb : Ok b) (f : Nat) : InHalf (mem b) f = mem (half b f) :=
  funext fun t => (mem_half hb f t).symm

theorem none_half {b : BB} (hb : Ok b) (f : Nat) :
    (∀ t : Square, mem (half b f) t = true → t.file ≠ f) ↔
      ∀ t : Square, mem b t = true → t.file ≠ f := by
  refine forall_congr' fun t => ?_
  rw [mem_half hb, Bool.and_eq_true, decide_eq_true_eq]
  exact ⟨fun h h1 h2 => h ⟨h1, by rw [h2]⟩ h2, fun h h1 => h h1.1⟩

/-- Without a borrow out of the lower half, the halves do not matter. -/
theorem taken_half {b : BB} (hb : Ok b) (h7 : ¬ RunsOut (mem b) 7) (f : Nat) (h0 : 1 ≤ f) (hf : f ≤ 9) :
    TakenForVacant (InHalf (mem b) f) f ↔ TakenForVacant (mem b) f := by
  rw [inHalf_eq hb]
  unfold TakenForVacant
  rw [none_half hb, runsOut_borrows (ok_half b f) _ (by omega), runsOut_borrows (ok_half b f) _ hf,
    runsOut_borrows hb _ (by omega), runsOut_borrows hb _ hf]
  rw [runsOut_borrows hb _ (by omega)] at h7
  rcases Nat.lt_or_ge 7 f with h | h
  · have hh := borrows_half_high b f (by omega)
    have e8 : borrows (half b f) 8 ↔ borrows b 8 := by
      rw [borrows_succ _ 7, borrows_succ b 7, digit_half _ _ _ (by omega), if_pos (by omega)]
      exact or_congr_right (and_congr_right fun _ => ⟨fun x => absurd x hh, fun x => absurd x h7⟩)
    have e9 : borrows (half b f) 9 ↔ borrows b 9 := by
      rw [borrows_succ _ 8, borrows_succ b 8, digit_half _ _ _ (by omega), if_pos (by omega), e8]
    have : f = 8 ∨ f = 9 := by omega
    rcases this with rfl | rfl
    · rw [e8]
      exact or_congr_left (and_congr_right fun _ => ⟨fun _ => h7, fun _ => hh⟩)
    · rw [e9]
      exact or_congr_left (and_congr_right fun _ => not_congr e8)
  · rw [borrows_half_low _ _ _ h (by omega), borrows_half_low _ _ _ h h]

theorem simd_exact {b : BB} (hok : Ok b) (s : Square) :
    mem (simdVacantFiles b) s = true ↔ TakenForVacant (InHalf (mem b) s.file) s.file := by
  have bs := s.bounds
  have hi : s.val / 9 = s.file - 1 := by unfold Square.file; omega
  have hbit := top_bit_lanes hok (s.val / 9) (by omega)
  have e : mem (packF fun i => if (field (sub64 simdVacantMask b) i).getLsbD 8 then 511#9
      else 0#9) s = (field (sub64 simdVacantMask b) (s.val / 9)).getLsbD 8 := by
    rw [mem_packF]
    cases (field (sub64 simdVacantMask b) (s.val / 9)).getLsbD 8
    · exact (by decide : ∀ j : Fin 9, (0#9).getLsbD j.val = false) ⟨s.val % 9, by omega⟩
    · exact (by decide : ∀ j : Fin 9, (511#9).getLsbD j.val = true) ⟨s.val % 9, by omega⟩
  rw [simd_vacant_eq, e, hbit, hi, show s.file - 1 + 1 = s.file by omega, digit_zero hok _ (by omega),
    inHalf_eq hok, TakenForVacant, none_half hok, runsOut_borrows (ok_half b _) _ (by omega),
    runsOut_borrows (ok_half b _) _ (by omega), show s.file - 1 + 1 = s.file by omega]
  refine or_congr_left (and_congr_left fun _ => forall_congr' fun t => ?_)
  rw [← Bool.not_eq_true]
  exact ⟨fun h h1 h2 => h h2 h1, fun h h1 h2 => h h2 h1⟩

theorem vacant_all (i : Fin 4) (J : Junk) {b : BB} (hok : Ok b) (oc : Bool)
    (hin : i = 0 → ¬ RunsOut (mem b) 7 ∧ ¬ RunsOut (mem b) 9) :
    ∃ r, (buildAt i J).vacantFiles oc b = some r ∧ Ok r ∧
      ∀ s, mem r s = true ↔ TakenForVacant (InHalf (mem b) s.file) s.file := by
  by_cases hi : i = 0
  · subst hi
    obtain ⟨h7, h9⟩ := hin rfl
    have L := lawful_of_mem (buildAt_mem 0 J)
    have hc : (buildAt 0 J).contains b = mem b := funext fun s => L.contains b s
    have hex := exactly_when J hok
    rw [hc] at hex
    obtain ⟨h1, h2, h3, h4⟩ := hex
    have hw : ∃ r, CoreBB.vacantFilesC oc b = .ok r := by
      cases e : CoreBB.vacantFilesC oc b with
      | ok r => exact ⟨r, rfl⟩
      | panic =>
        cases oc
        · exact absurd e h3
        · exact absurd (h1.1 e) h9
      | broken =>
        cases oc
        · exact ((h4.1 e).elim h7 h9).elim
        · exact absurd (h2.1 e).1 h7
    obtain ⟨r, hr⟩ := hw
    obtain ⟨o, hm⟩ := vacant_exact hok oc r hr
    refine ⟨r, ?_, o, fun s => ?_⟩
    · show CoreBB.vacantFiles J oc b = some r
      rcases core_vacantFiles_sim J oc b with h | ⟨h, _⟩
      · rw [hr] at h
        cases e : CoreBB.vacantFiles J oc b with
        | none => rw [e] at h; cases h
        | some x => rw [e] at h; cases h; rfl
      · rw [hr] at h; cases h
    · rw [hm, taken_half hok h7 _ s.file_pos s.file_le]
  · have vac : (buildAt i J).vacantFiles = fun _ b => some (simdVacantFiles b) := by
      match i, hi with
      | 1, _ | 2, _ | 3, _ => rfl
    exact ⟨simdVacantFiles b, by rw [vac], by rw [simd_vacant_eq]; exact ok_packF _, simd_exact hok⟩

/-- C86.  `vacant_files` of each build, file by file.  The SIMD builds always return.  For the portable
build the hypothesis is that it does not panic and stays within the contracts (`C80_exactly_when`). -/
theorem C86_vacant_files (i : Fin 4) (J : Junk) {b : BB} (hb : Built (buildAt i J) b) (oc : Bool)
    (hin : i = 0 → ¬ RunsOut ((buildAt i J).contains b) 7 ∧ ¬ RunsOut ((buildAt i J).contains b) 9) :
    ∃ r, (buildAt i J).vacantFiles oc b = some r ∧ ∀ s, (buildAt i J).contains r s = true ↔
      TakenForVacant (InHalf ((buildAt i J).contains b) s.file) s.file := by
  have L := lawful_of_mem (buildAt_mem i J)
  have hc : ∀ x, (buildAt i J).contains x = mem x := fun x => funext fun s => L.contains x s
  rw [hc] at hin
  obtain ⟨r, h1, _, h2⟩ := vacant_all i J (hb.ok L) oc hin
  exact ⟨r, h1, fun s => by rw [hc, hc]; exact h2 s⟩

/-- The pawns of the side to move. -/
def OwnPawn (p : Position) (t : Square) : Bool := decide (p.pieceAt t = some ⟨.pawn, p.sideToMove⟩)

theorem mem_ownPawns {p : Position} (hr : Repr p.inner) :
    mem (p.inner.playerBB p.inner.side &&& p.inner.pieceBB .pawn) = OwnPawn p := by
  funext t
  rw [Bool.eq_iff_iff, mem_own_kind hr, OwnPawn, decide_eq_true_eq]
  exact Iff.rfl

theorem vacantAgree_of_chain (E : Env) (i j : Fin 4) (J J' : Junk) {p : Position} (hr : Repr p.inner)
    (h7 : ¬ RunsOut (OwnPawn p) 7) (h9 : ¬ RunsOut (OwnPawn p) 9) :
    VacantAgree E (buildAt i J) (buildAt j J') p.inner := by
  have hok : Ok (p.inner.playerBB p.inner.side &&& p.inner.pieceBB .pawn) :=
    ok_and_left _ (hr.okPlayer _)
  rw [← mem_ownPawns hr] at h7 h9
  obtain ⟨r, e, o, h⟩ := vacant_all i J hok E.overflowChecks fun _ => ⟨h7, h9⟩
  obtain ⟨r', e', o', h'⟩ := vacant_all j J' hok E.overflowChecks fun _ => ⟨h7, h9⟩
  unfold VacantAgree
  rw [e, e']
  congr 1
  exact ext_of_ok o o' fun s => Bool.eq_iff_iff.2 ((h s).trans (h' s).symm)

/-- C86.  C51 without its condition on doubled pawns: any two builds list the same moves in the same
order when no pawn of the side to move is dead, unless their chain makes the portable build panic or
leave the contracts. -/
theorem C86_builds_agree (E : Env) (i j : Fin 4) (J J' : Junk) (pp : CorePartialPosition)
    (ms : List Move) (p : Position) (h : Visited E (buildAt i J) pp ms p) (hd : NoDeadPawn p)
    (h7 : ¬ RunsOut (OwnPawn p) 7) (h9 : ¬ RunsOut (OwnPawn p) 9) :
    p.legalMoves E (buildAt i J) = p.legalMoves E (buildAt j J') := by
  have L := lawful_of_mem (buildAt_mem i J)
  have L' := lawful_of_mem (buildAt_mem j J')
  have hc := h.consistent (buildAt_mem i J)
  refine legalMoves_any L L' hc.1 hc.2 (fuAgree_of_pawns L L' hc.1 fun s hs hdd => ?_)
    (vacantAgree_of_chain E i j J J' hc.1 h7 h9)
  have hr := hd s hs
  change s.rank ≠ (match p.inner.side with | .black => 1 | .white => 9) at hr
  cases hq : p.inner.side <;> rw [hq] at hdd hr <;> simp [Dead] at hdd <;> exact hr hdd

/-- C86.  The same for C84, where pawns may be dead: the SIMD builds add the pawns that go round the
edge, and nothing else. -/
theorem C86_wraps (E : Env) (i : Fin 4) (hi : i ≠ 0) (J J' : Junk) (pp : CorePartialPosition)
    (ms : List Move) (p : Position) (h : Visited E (buildAt 0 J) pp ms p)
    (h7 : ¬ RunsOut (OwnPawn p) 7) (h9 : ¬ RunsOut (OwnPawn p) 9)
    (h1k : ∀ s t, p.pieceAt s = some ⟨.king, p.sideToMove⟩ →
      p.pieceAt t = some ⟨.king, p.sideToMove⟩ → s = t)
    (l0 l1 : List Move) (hl0 : p.legalMoves E (buildAt 0 J) = some l0)
    (hl1 : p.legalMoves E (buildAt i J') = some l1) (m : Move) :
    (p.inCheck (buildAt 0 J) = some false → (m ∈ l1 ↔ m ∈ l0 ∨
      WrapMove (view p) (fun t => ∀ k, p.pieceAt t ≠ some ⟨k, p.sideToMove⟩) m ∧
        NoNewAttack (view p) m)) ∧
    (p.inCheck (buildAt 0 J) = some true → ∀ st, p.state = some st → (m ∈ l1 ↔ m ∈ l0 ∨
      ∃ king ch, p.pieceAt king = some ⟨.king, p.sideToMove⟩ ∧
        (∀ s, (buildAt 0 J).contains st.attackInfo.checkers s = true ↔ s = ch) ∧
        WrapMove (view p) (fun t => t = ch ∨ Between ch t king) m ∧ NoNewAttack (view p) m)) := by
  have hva := vacantAgree_of_chain E 0 i J J' (h.consistent (buildAt_mem 0 J)).1 h7 h9
  exact ⟨fun hc => (listed_of_agree E i hi J J' pp ms p h hva h1k hc l0 l1 hl0 hl1 m).1,
    fun hc st hst => recorded_of_agree E i hi J J' pp ms p h hva h1k hc st hst l0 l1 hl0 hl1 m⟩

/-- C86.  Which files are taken wrongly: a file with members is taken for vacant exactly if it needs a
borrow, and a vacant file for occupied exactly if the file before it does. -/
theorem C86_files (m : Square → Bool) (f : Nat) (h1 : 1 ≤ f) (h9 : f ≤ 9) :
    (TakenForVacant m f ∧ (∃ t, m t = true ∧ t.file = f) ↔ RunsOut m f) ∧
    (¬ TakenForVacant m f ∧ (∀ t, m t = true → t.file ≠ f) ↔
      RunsOut m (f - 1) ∧ ∀ t, m t = true → t.file ≠ f) := by
  have hocc : RunsOut m f → ∃ t, m t = true ∧ t.file = f := by
    rintro ⟨g, hg, ⟨s, _, hs, _, hf, _⟩, hr⟩
    by_cases e : g = f
    · exact ⟨s, hs, hf.trans e⟩
    · let t : Square := ⟨9 * (f - 1) + 8, by omega⟩
      have ht : t.file = f := by simp only [t, Square.file]; omega
      have hk : t.rank = 9 := by simp only [t, Square.rank]; omega
      exact ⟨t, (hr t (by omega) (by omega)).2 hk, ht⟩
  unfold TakenForVacant
  constructor
  · constructor
    · rintro ⟨h | h, t, h2, h3⟩
      · exact absurd h3 (h.1 t h2)
      · exact h
    · exact fun h => ⟨.inr h, hocc h⟩
  · refine and_congr_left fun hn => ?_
    constructor
    · intro h
      exact Classical.byContradiction fun h2 => h (.inl ⟨hn, h2⟩)
    · rintro h (h2 | h2)
      · exact h2.2 h
      · obtain ⟨t, h3, h4⟩ := hocc h2
        exact hn t h3 h4

theorem parts_no_drop {K : Backend} (hK : Lawful K) {q : PartialPosition} (hr : Repr q) {target : BB}
    {to : Square} {pc : Piece} (l : List PieceKind) : Move.drop to pc ∉ l.flatMap (parts K q target) := by
  intro h
  obtain ⟨k, _, h⟩ := List.mem_flatMap.1 h
  by_cases hk : k = .pawn
  · subst hk
    obtain ⟨t, _, h⟩ := List.mem_flatMap.1 h
    obtain ⟨_, h⟩ := destMoves_shape h
    cases h
  · obtain ⟨_, _, _, _, _, e, _⟩ := parts_other hK hr hk h
    cases e

/-- C86.  The drops listed by each build when no check is recorded.  For pawns the condition on files is
not that of the rules: see `C86_files`. -/
theorem C86_drops (E : Env) (i : Fin 4) (J : Junk) (pp : CorePartialPosition)
    (ms : List Move) (p : Position) (h : Visited E (buildAt i J) pp ms p)
    (h1k : ∀ s t, p.pieceAt s = some ⟨.king, p.sideToMove.flip⟩ →
      p.pieceAt t = some ⟨.king, p.sideToMove.flip⟩ → s = t)
    (hin : i = 0 → ¬ RunsOut (OwnPawn p) 7 ∧ ¬ RunsOut (OwnPawn p) 9)
    (hc : p.inCheck (buildAt i J) = some false) (l : List Move)
    (hl : p.legalMoves E (buildAt i J) = some l) (to : Square) (k : PieceKind) (c : Color) :
    .drop to ⟨k, c⟩ ∈ l ↔ c = p.sideToMove ∧ k.isHandPiece = true ∧ 0 < (view p).hand c k ∧
      p.pieceAt to = none ∧ ¬ Dead k c to ∧
      (k = .pawn → TakenForVacant (InHalf (OwnPawn p) to.file) to.file ∧
        ¬ Unanswered (view p) (.drop to ⟨k, c⟩)) := by
  have L := lawful_of_mem (buildAt_mem i J)
  have hr : Repr p.inner := (h.consistent (buildAt_mem i J)).1
  obtain ⟨st, hst, hpin⟩ := h.pinned (buildAt_mem i J)
  simp only [Position.inCheck, hst, Option.bind_eq_bind, Option.bind_some, Option.pure_def,
    Option.some.injEq, Bool.not_eq_false'] at hc
  have hok : Ok (p.inner.playerBB p.inner.side &&& p.inner.pieceBB .pawn) :=
    ok_and_left _ (hr.okPlayer _)
  rw [← mem_ownPawns hr] at hin ⊢
  obtain ⟨r, hvf, _, hvac⟩ := vacant_all i J hok E.overflowChecks hin
  obtain ⟨heok, hem⟩ := emptySquares_spec L hr
  obtain ⟨pt, hpt, hptok, hptm⟩ := pawnDropTarget_of L hr h1k E (st := st.fresh (buildAt i J) p.inner)
    rfl heok hvf hvac
  have hpt0 : p.inner.pawnDropTarget E (buildAt i J) st
      (emptySquares (buildAt i J) p.inner) = some pt := by
    rw [← hpt]
    unfold PartialPosition.pawnDropTarget PartialPosition.isPawnDropMate
    rw [hpin]
    rfl
  have hleg : p.inner.isLegal (buildAt i J) st (.drop to ⟨k, c⟩) = true := rfl
  rw [legalMoves_noCheck hst hc ⟨pt, hpt0⟩ hl, hleg, and_iff_left rfl, view_eq]
  unfold allList
  rw [List.mem_append, or_iff_right (parts_no_drop L hr _)]
  unfold dropMoves
  rw [List.mem_flatMap, hpt0, Option.getD_some]
  constructor
  · rintro ⟨pk, hpk, hm⟩
    rw [mem_handKinds] at hpk
    by_cases hp : pk = .pawn
    · subst hp
      rw [if_pos rfl, mem_dropKind L hptok] at hm
      obtain ⟨to', e, h1, h2⟩ := hm
      cases e
      rw [hptm, hem] at h1
      exact ⟨rfl, hpk.1, hpk.2, h1.1, h2, fun _ => ⟨h1.2.1, fun hu => h1.2.2
        ((refused_iff_unanswered_of (P := p.inner.spec) h1k rfl h1.1).2 hu)⟩⟩
    · rw [if_neg hp, mem_dropKind L heok] at hm
      obtain ⟨to', e, h1, h2⟩ := hm
      cases e
      exact ⟨rfl, hpk.1, hpk.2, (hem _).1 h1, h2, fun e => absurd e hp⟩
  · rintro ⟨h2, h3, h4, h5, h6, h7⟩
    have h2 : c = p.inner.side := h2
    subst h2
    refine ⟨k, mem_handKinds.2 ⟨h3, h4⟩, ?_⟩
    by_cases hp : k = .pawn
    · subst hp
      rw [if_pos rfl, mem_dropKind L hptok]
      obtain ⟨h8, h9⟩ := h7 rfl
      exact ⟨to, rfl, (hptm to).2 ⟨(hem to).2 h5, h8, fun hu => h9
        ((refused_iff_unanswered_of (P := p.inner.spec) h1k rfl h5).1 hu)⟩, h6⟩
    · rw [if_neg hp, mem_dropKind L heok]
      exact ⟨to, rfl, (hem to).2 h5, h6⟩

/-! ## Concrete cases -/

section
open Examples

/-- `doubled` with the pawns on file 7. -/
def doubledOn7 : CorePartialPosition :=
  { doubled with board := boardOf [(5,9,.king,.black),(5,1,.king,.white),(7,9,.pawn,.black),
      (7,8,.pawn,.black)] }

/-- The files onto which a pawn can be dropped on rank 5, by each build. -/
def dropFiles (i : Fin 4) (pp : CorePartialPosition) : Option (List Nat) :=
  (Position.new env0 (buildAt i otherJunk) pp).bind fun p =>
    (p.legalMoves env0 (buildAt i otherJunk)).map fun l =>
      [1, 2, 3, 4, 5, 6, 7, 8, 9].filter fun f => l.any (· == .drop (sq f 5) ⟨.pawn, .black⟩)

/-- In `doubledOn3` each build drops a third pawn on file 3 and none on the vacant file 4.  In
`doubledOn7` the SIMD builds drop a third pawn on file 7; file 8 is in the other half. -/
theorem C86_example :
    (∀ i, dropFiles i doubledOn3 = some [1, 2, 3, 5, 6, 7, 8, 9]) ∧
    (∀ i, i ≠ 0 → dropFiles i doubledOn7 = some [1, 2, 3, 4, 5, 6, 7, 8, 9]) := by
  decide +kernel

/-- The hypotheses of `C86_drops`, `C86_builds_agree` and `C86_wraps` hold in `doubledOn3`, where those
of C51 and C84 do not. -/
example : ∃ p, Visited env0 (buildAt 0 otherJunk) doubledOn3 [] p ∧ NoDeadPawn p ∧
    ¬ BottomPawnAlone p ∧ ¬ RunsOut (OwnPawn p) 7 ∧ ¬ RunsOut (OwnPawn p) 9 ∧
    p.inCheck (buildAt 0 otherJunk) = some false := by
  have h : (Position.new env0 (buildAt 0 otherJunk) doubledOn3).any (fun p =>
      p.sideToMove == .black && p.inCheck (buildAt 0 otherJunk) == some false &&
      Square.all.all (fun s => OwnPawn p s == (s == sq 3 9 || s == sq 3 8))) = true := by
    decide +kernel
  simp only [Option.any_eq_true, Bool.and_eq_true, List.all_eq_true, beq_iff_eq] at h
  obtain ⟨p, hp, ⟨hside, hc⟩, hall⟩ := h
  have hpawn : ∀ s, OwnPawn p s = true ↔ s = sq 3 9 ∨ s = sq 3 8 := by
    intro s
    rw [hall s (by simp [Square.all])]
    simp
  have hpa : ∀ s, p.pieceAt s = some ⟨.pawn, p.sideToMove⟩ ↔ s = sq 3 9 ∨ s = sq 3 8 := by
    intro s
    rw [← hpawn, OwnPawn, decide_eq_true_eq]
  have hno : ∀ top, 4 ≤ top → ¬ RunsOut (OwnPawn p) top := by
    rintro top ht ⟨f, _, ⟨s, _, hs, _, hf, _⟩, hr⟩
    have e : f = 3 := by
      rcases (hpawn s).1 hs with rfl | rfl <;> exact hf.symm
    have := (hr (sq 4 9) (by rw [e]; decide) ht).2 (by decide)
    rw [hpawn] at this
    exact absurd this (by decide)
  refine ⟨p, ⟨p, hp, .start⟩, ?_, ?_, hno 7 (by omega), hno 9 (by omega), hc⟩
  · intro s hs
    rw [hpa] at hs
    rw [hside]
    rcases hs with rfl | rfl <;> decide
  · intro hb
    have := hb (sq 3 9) (sq 3 8) ((hpa _).2 (.inl rfl)) ((hpa _).2 (.inr rfl)) (by decide) (by decide)
    exact absurd this (by decide)

end

end Props

end Yasai

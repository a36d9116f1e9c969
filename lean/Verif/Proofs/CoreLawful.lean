import Verif.Proofs.Fields

/-!
# The portable backend satisfies the laws
-/

namespace Yasai

theorem getLsbD_maskedBBs (i j : Nat) (hi : i < 128) :
    (CoreBB.maskedBBs i).getLsbD j = decide (j < 82 ∧ j ≠ 63 ∧ j < i) := by
  unfold CoreBB.maskedBBs
  rw [BitVec.getLsbD_and, allBits_getLsbD, getLsbD_lowMask _ _ hi]
  rw [Bool.eq_iff_iff]; simp; omega

theorem readTable_lt (J : Junk) {len i : Nat} (table : Nat → BB) (h : i < len) :
    readTable J len table i = table i := if_pos h

theorem usizeSub_le {a b : Nat} (h : b ≤ a) : usizeSub a b = a - b := if_pos h

theorem fromU128Unchecked_ok (J : Junk) {x : BB} (h : Ok x) : fromU128Unchecked J x = x := by
  unfold fromU128Unchecked
  rw [if_pos]
  apply BitVec.eq_of_getLsbD_eq
  intro i hi
  rw [BitVec.getLsbD_and, BitVec.getLsbD_not, allBits_getLsbD]
  cases e : x.getLsbD i with
  | false => simp
  | true => simp [decide_eq_true (h i e)]

/-- The index `tz + 1` is at most 82. -/
theorem core_tz_le (x : BB) : trailingZeros (x ||| CoreBB.bb9I) ≤ 81 := by
  have h9 : bitPos (80 : Square) = 81 := rfl
  have e := mem_single 80 80
  unfold mem at e
  obtain ⟨h1, h2, h3⟩ := trailingZeros_spec (x ||| CoreBB.bb9I) ⟨81, by
    simp [CoreBB.bb9I, ← h9, e]⟩
  apply Nat.le_of_not_lt; intro h
  have := h3 81 h
  simp [CoreBB.bb9I, ← h9, e] at this

/-- The index `127 - lz` does not underflow and is at most 81. -/
theorem core_lz_le {x : BB} (hx : Ok x) : leadingZeros (x ||| CoreBB.bb1A) ≤ 127 ∧
    127 - leadingZeros (x ||| CoreBB.bb1A) ≤ 81 := by
  have h9 : bitPos (0 : Square) = 0 := rfl
  have e0 := mem_single 0 0
  unfold mem at e0
  obtain ⟨h1, h2, h3⟩ := leadingZeros_spec (x ||| CoreBB.bb1A) ⟨0, by
    simp [CoreBB.bb1A, ← h9, e0]⟩
  have hok : Ok (x ||| CoreBB.bb1A) := ok_or hx (ok_single 0)
  have := (hok _ h2).1
  omega

theorem core_slidingPositive_eq (J : Junk) (occ m : BB) : CoreBB.slidingPositive J occ m =
    m &&& CoreBB.maskedBBs (trailingZeros ((occ &&& m) ||| CoreBB.bb9I) + 1) := by
  unfold CoreBB.slidingPositive
  have := core_tz_le (occ &&& m)
  dsimp only
  rw [readTable_lt J _ (by omega)]

theorem core_slidingNegative_eq (J : Junk) (occ m : BB) (hm : Ok m) :
    CoreBB.slidingNegative J occ m =
    m &&& CoreBB.not (CoreBB.maskedBBs (127 - leadingZeros ((occ &&& m) ||| CoreBB.bb1A))) := by
  unfold CoreBB.slidingNegative
  have := core_lz_le (ok_and_right occ hm)
  dsimp only
  rw [usizeSub_le this.1, readTable_lt J _ (by omega)]

theorem core_slidingPositive (J : Junk) (occ m : BB) (hm : Ok m) (s : Square) :
    mem (CoreBB.slidingPositive J occ m) s = true ↔ SlidePos occ m s := by
  rw [core_slidingPositive_eq]
  unfold SlidePos
  have h9 : bitPos (80 : Square) = 81 := rfl
  obtain ⟨h1, h2, h3⟩ := trailingZeros_spec ((occ &&& m) ||| CoreBB.bb9I) ⟨81, by
    have := mem_single 80 80
    unfold mem at this
    simp [CoreBB.bb9I, ← h9, this]⟩
  generalize trailingZeros ((occ &&& m) ||| CoreBB.bb9I) = tz at h1 h2 h3
  have hle : tz ≤ 81 := by
    apply Nat.le_of_not_lt; intro h
    have := h3 81 h
    have e := mem_single 80 80
    unfold mem at e
    simp [CoreBB.bb9I, ← h9, e] at this
  simp only [mem_and, Bool.and_eq_true]
  apply and_congr_right
  intro hs
  rw [mem, getLsbD_maskedBBs _ _ (by omega)]
  simp only [decide_eq_true_eq]
  constructor
  · intro ⟨_, _, h⟩ t ht1 ht2
    rw [← bitPos_le_iff]
    apply Nat.le_of_not_lt; intro hlt
    have := h3 (bitPos t) (by omega)
    unfold mem at ht1 ht2
    simp [ht1, ht2] at this
  · intro h
    refine ⟨bitPos_lt s, bitPos_ne s, ?_⟩
    simp only [BitVec.getLsbD_or, BitVec.getLsbD_and, Bool.or_eq_true, Bool.and_eq_true] at h2
    rcases h2 with ⟨ho, hmm⟩ | h2
    · have hp := hm tz hmm
      have := h (sqOf tz hp) (by rw [mem, bitPos_sqOf]; exact hmm) (by rw [mem, bitPos_sqOf]; exact ho)
      rw [← bitPos_le_iff, bitPos_sqOf] at this
      omega
    · have hp := ok_single 80 tz h2
      have : mem CoreBB.bb9I (sqOf tz hp) = true := by rw [mem, bitPos_sqOf]; exact h2
      unfold CoreBB.bb9I at this
      simp only [mem_single, decide_eq_true_eq] at this
      have h4 := bitPos_sqOf tz hp
      rw [this] at h4
      have := bitPos_lt s
      omega

theorem core_slidingNegative (J : Junk) (occ m : BB) (hm : Ok m) (s : Square) :
    mem (CoreBB.slidingNegative J occ m) s = true ↔ SlideNeg occ m s := by
  rw [core_slidingNegative_eq J occ m hm]
  unfold SlideNeg
  have h9 : bitPos (0 : Square) = 0 := rfl
  have e0 := mem_single 0 0
  unfold mem at e0
  obtain ⟨h1, h2, h3⟩ := leadingZeros_spec ((occ &&& m) ||| CoreBB.bb1A) ⟨0, by
    simp [CoreBB.bb1A, ← h9, e0]⟩
  rw [show (128 - 1 : Nat) = 127 by rfl] at h2 h3
  have hlt : 127 - leadingZeros ((occ &&& m) ||| CoreBB.bb1A) < 128 := by omega
  generalize 127 - leadingZeros ((occ &&& m) ||| CoreBB.bb1A) = hb at h2 h3 hlt ⊢
  simp only [mem_and, Bool.and_eq_true, mem_not]
  apply and_congr_right
  intro hs
  rw [mem, getLsbD_maskedBBs _ _ (by omega)]
  have hs1 := bitPos_lt s
  have hs2 := bitPos_ne s
  rw [Bool.not_eq_true', decide_eq_false_iff_not]
  have e : (¬ (bitPos s < 82 ∧ bitPos s ≠ 63 ∧ bitPos s < hb)) ↔ hb ≤ bitPos s := by omega
  rw [e]
  constructor
  · intro h t ht1 ht2
    rw [← bitPos_le_iff]
    apply Nat.le_of_not_lt; intro hlt
    have := h3 (bitPos t) (by omega)
    unfold mem at ht1 ht2
    simp [ht1, ht2] at this
  · intro h
    simp only [BitVec.getLsbD_or, BitVec.getLsbD_and, Bool.or_eq_true, Bool.and_eq_true] at h2
    rcases h2 with ⟨ho, hmm⟩ | h2
    · have hp := hm hb hmm
      have := h (sqOf hb hp) (by rw [mem, bitPos_sqOf]; exact hmm) (by rw [mem, bitPos_sqOf]; exact ho)
      rw [← bitPos_le_iff, bitPos_sqOf] at this
      omega
    · have hp := ok_single 0 hb h2
      have : mem CoreBB.bb1A (sqOf hb hp) = true := by rw [mem, bitPos_sqOf]; exact h2
      unfold CoreBB.bb1A at this
      simp only [mem_single, decide_eq_true_eq] at this
      have h4 := bitPos_sqOf hb hp
      rw [this] at h4
      omega

theorem ok_core_slidingPositive (J : Junk) (occ m : BB) (hm : Ok m) :
    Ok (CoreBB.slidingPositive J occ m) :=
  ok_and_left _ hm

theorem ok_core_slidingNegative (J : Junk) (occ m : BB) (hm : Ok m) :
    Ok (CoreBB.slidingNegative J occ m) :=
  ok_and_left _ hm

theorem core_shiftDown (b : BB) (hd : ∀ t, mem b t = true → t.rank ≠ 9) (s : Square) :
    mem (CoreBB.shiftDown b 1) s = true ↔ ∃ t, mem b t = true ∧ s.val = t.val + 1 := by
  unfold CoreBB.shiftDown
  rw [mem_ofPred]
  constructor
  · intro h
    split at h
    · rename_i h1
      simp only [Bool.and_eq_true, decide_eq_true_eq] at h
      exact ⟨⟨s.val - 1, by omega⟩, h.2, by simp; omega⟩
    · cases h
  · rintro ⟨t, ht, hst⟩
    have hr := hd t ht
    rw [dif_pos (by omega)]
    simp only [Bool.and_eq_true, decide_eq_true_eq]
    refine ⟨by unfold Square.rank at *; omega, ?_⟩
    have : (⟨s.val - 1, by omega⟩ : Square) = t := by apply Fin.ext; simp; omega
    rw [this]; exact ht

theorem core_shiftUp (b : BB) (hd : ∀ t, mem b t = true → t.rank ≠ 1) (s : Square) :
    mem (CoreBB.shiftUp b 1) s = true ↔ ∃ t, mem b t = true ∧ t.val = s.val + 1 := by
  unfold CoreBB.shiftUp
  rw [mem_ofPred]
  constructor
  · intro h
    split at h
    · rename_i h1
      simp only [Bool.and_eq_true, decide_eq_true_eq] at h
      exact ⟨⟨s.val + 1, h1⟩, h.2, rfl⟩
    · cases h
  · rintro ⟨t, ht, hst⟩
    have hr := hd t ht
    rw [dif_pos (by omega)]
    simp only [Bool.and_eq_true, decide_eq_true_eq]
    refine ⟨by unfold Square.rank at *; omega, ?_⟩
    have : (⟨s.val + 1, by omega⟩ : Square) = t := by apply Fin.ext; simp; omega
    rw [this]; exact ht

theorem core_shiftUp8 (f : Nat → BitVec 9) :
    CoreBB.shiftUp (packF f) 8 = packF (fun i => if (f i).getLsbD 8 then 1#9 else 0#9) := by
  apply ext_of_ok (ok_ofPred _) (ok_packF _)
  intro s
  rw [mem_packF, mem_ofPred]
  have h81 := s.isLt
  by_cases hr : s.val % 9 = 0
  · rw [dif_pos (by omega)]
    have e : s.rank + 8 ≤ 9 := by unfold Square.rank; omega
    simp only [e, decide_true, Bool.true_and]
    show mem (packF f) _ = _
    rw [mem_packF]
    simp only
    rw [show (s.val + 8) / 9 = s.val / 9 by omega, show (s.val + 8) % 9 = 8 by omega, hr]
    cases h : (f (s.val / 9)).getLsbD 8 <;> simp
  · have e : ¬ s.rank + 8 ≤ 9 := by unfold Square.rank; omega
    simp only [e, decide_false, Bool.false_and, dite_eq_ite, ite_self]
    symm
    have h0 : ∀ j : Fin 9, j.val ≠ 0 → (1#9).getLsbD j = false := by decide
    split
    · exact h0 ⟨s.val % 9, by omega⟩ hr
    · simp

theorem core_vacantFiles (J : Junk) (oc : Bool) (b : BB) (hb : Ok b)
    (h : ∀ s t, mem b s = true → mem b t = true → s.file = t.file → s.rank = 9 → s = t) :
    ∃ r, CoreBB.vacantFiles J oc b = some r ∧ Ok r ∧
      ∀ s, mem r s = true ↔ ∀ t, mem b t = true → t.file ≠ s.file := by
  refine ⟨packF fun i => if field b i = 0#9 then 511#9 else 0#9, ?_, ok_packF _,
    mem_vacantResult b hb⟩
  let x : Nat → BitVec 9 := fun i => if i < 9 then field b i else 0#9
  have hbx : b = packF x := by
    rw [← packF_field b hb]
    rw [packF_field b hb]
    conv => lhs; rw [← packF_field b hb]
    apply packF_congr; intro i hi; simp only [x, hi, if_true]
  have hx : ∀ i, (x i).toNat ≤ (256#9).toNat := by
    intro i
    by_cases hi : i < 9
    · simp only [x, hi, if_true]; exact field_le b h hb i hi
    · simp [x, hi]
  have hs1 : ∀ (f g : Nat → BitVec 9), (∀ i, (g i).toNat ≤ (f i).toNat) →
      CoreBB.checkedSub oc (packF f) (packF g) = some (packF fun i => f i - g i) := by
    intro f g hfg
    unfold CoreBB.checkedSub
    have := packF_le f g hfg
    rw [if_neg (by simp; intro _; omega), packF_sub f g hfg]
  unfold CoreBB.vacantFiles
  have hv : ∀ i, (256#9 ^^^ (256#9 - (if (256#9 - x i).getLsbD 8 then 1#9 else 0#9))) =
      (if x i = 0#9 then 511#9 else 0#9) := fun i => (field_vacant (x i) (hx i)).1
  have hv2 : ∀ i, (if (256#9 - x i).getLsbD 8 then 1#9 else 0#9 : BitVec 9).toNat ≤ (256#9).toNat :=
    fun i => (field_vacant (x i) (hx i)).2
  rw [vacantMask_eq, hbx, hs1 _ _ hx]
  simp only [Option.bind_eq_bind, Option.bind_some, fromU128Unchecked_ok J (ok_packF _),
    core_shiftUp8]
  rw [hs1 (fun _ => 256#9) (fun i => if (256#9 - x i).getLsbD 8 then 1#9 else 0#9) hv2]
  simp only [Option.bind_some, fromU128Unchecked_ok J (ok_packF _), packF_xor, hv]
  rw [← hbx]
  show some _ = some _
  congr 1

theorem core_lawful (J : Junk) : Lawful (CoreBB.build J) where
  empty := rfl
  single _ := rfl
  isEmpty _ := rfl
  eq _ _ := rfl
  contains _ _ := rfl
  count b h := countOnes_eq b h
  and _ _ := rfl
  or _ _ := rfl
  xor _ _ := rfl
  not _ := rfl
  iter _ _ := rfl
  shl b _ hd := ⟨ok_ofPred _, core_shiftDown b hd⟩
  shr b _ hd := ⟨ok_ofPred _, core_shiftUp b hd⟩
  slidingPositiveConsecutive occ m hm _ := ⟨ok_core_slidingPositive J occ m hm,
    core_slidingPositive J occ m hm⟩
  slidingNegativeConsecutive occ m hm _ := ⟨ok_core_slidingNegative J occ m hm,
    core_slidingNegative J occ m hm⟩
  slidingPositives occ m0 m1 h0 h1 := ⟨ok_or (ok_core_slidingPositive J occ m0 h0)
    (ok_core_slidingPositive J occ m1 h1), fun s => by
      show mem (_ ||| _) s = true ↔ _
      rw [mem_or, Bool.or_eq_true, core_slidingPositive J _ _ h0, core_slidingPositive J _ _ h1]⟩
  slidingNegatives occ m0 m1 h0 h1 := ⟨ok_or (ok_core_slidingNegative J occ m0 h0)
    (ok_core_slidingNegative J occ m1 h1), fun s => by
      show mem (_ ||| _) s = true ↔ _
      rw [mem_or, Bool.or_eq_true, core_slidingNegative J _ _ h0, core_slidingNegative J _ _ h1]⟩
  vacantFiles oc b hb h := core_vacantFiles J oc b hb h

end Yasai

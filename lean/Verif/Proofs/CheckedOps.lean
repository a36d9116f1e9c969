import Verif.Proofs.Checked
import Verif.Proofs.SimdLawful

/-!
# The checked operations of the four builds follow those of the model
-/

namespace Yasai

instance : LawfulMonad Watched := LawfulMonad.mk' (m := Watched)
  (id_map := fun x => by cases x <;> rfl)
  (pure_bind := fun _ _ => rfl)
  (bind_assoc := fun x _ _ => by cases x <;> rfl)

section
variable {P : Prop}

theorem readTable_sim (J : Junk) (len : Nat) (table : Nat → BB) (i : Nat) :
    Sim (i < len) (readTableC len table i) (some (readTable J len table i)) := by
  unfold readTableC readTable
  split
  · exact .inl rfl
  · next h => exact .inr ⟨rfl, h⟩

theorem fromU128_sim (J : Junk) (x : BB) :
    Sim (Ok x) (fromU128UncheckedC x) (some (fromU128Unchecked J x)) := by
  by_cases h : x &&& ~~~allBits = 0#128
  · unfold fromU128UncheckedC fromU128Unchecked
    rw [if_pos h, if_pos h]
    exact .inl rfl
  · refine .inr ⟨if_neg h, fun ho => h ?_⟩
    apply BitVec.eq_of_getLsbD_eq
    intro i hi
    rw [BitVec.getLsbD_and, BitVec.getLsbD_not]
    have h1 := ho i
    cases hx : x.getLsbD i with
    | false => simp
    | true =>
      have h2 := h1 hx
      simp [allBits_getLsbD, h2]

theorem fromU8_sim (j : Nat → Square) (n : Nat) :
    Sim (1 ≤ n ∧ n ≤ 81) (fromU8UncheckedC n) (some (Square.fromU8Unchecked j n)) := by
  unfold fromU8UncheckedC Square.fromU8Unchecked
  split
  · exact .inl rfl
  · next h => exact .inr ⟨rfl, h⟩

theorem mapM_sim {α β : Type} {f : α → Watched β} {g : α → β} {l : List α}
    (h : ∀ x ∈ l, Sim P (f x) (some (g x))) : Sim P (l.mapM f) (some (l.map g)) := by
  induction l with
  | nil => exact .inl rfl
  | cons x l ih =>
    rw [List.mapM_cons]
    exact sim_let (h x List.mem_cons_self)
      (sim_let (ih fun y hy => h y (List.mem_cons_of_mem _ hy)) (sim_pure _))

theorem mem_popAll {x : BitVec 64} {n : Nat} (h : n ∈ popAll 64 x) : n < 64 ∧ x.getLsbD n = true := by
  have len : ((List.range 64).filter (fun i => x.getLsbD i)).length ≤ 64 := by
    have := List.length_filter_le (fun i => x.getLsbD i) (List.range 64)
    simpa using this
  rw [popAll_eq _ _ len, List.mem_filter, List.mem_range] at h
  exact h

theorem simdIter_sim (J : Junk) (b : BB) : Sim (Ok b) (simdIterC b) (some (simdIter J b)) := by
  refine sim_let (mapM_sim fun n hn => (fromU8_sim J.square _).mono fun h => ?_)
    (sim_let (mapM_sim fun n hn => (fromU8_sim J.square _).mono fun h => ?_) (sim_pure _))
  · obtain ⟨h1, h2⟩ := mem_popAll hn
    omega
  · obtain ⟨h1, h2⟩ := mem_popAll hn
    rw [getLsbD_hi64, Bool.and_eq_true] at h2
    have := h _ h2.2
    omega

theorem core_positive_sim (J : Junk) (b m : BB) :
    Sim P (CoreBB.slidingPositiveC b m) (some (CoreBB.slidingPositive J b m)) :=
  sim_let ((readTable_sim J _ _ _).mono fun _ => by
    have := core_tz_le (b &&& m); omega) (sim_pure _)

theorem core_negative_sim (J : Junk) (b m : BB) :
    Sim (Ok m) (CoreBB.slidingNegativeC b m) (some (CoreBB.slidingNegative J b m)) :=
  sim_let ((readTable_sim J _ _ _).mono fun h => by
    have := core_lz_le (ok_and_right b h)
    rw [usizeSub_le this.1]
    omega) (sim_pure _)

theorem simd_positive_sim (J : Junk) (b m : BB) :
    Sim P (simdSlidingPositiveC b m) (some (simdSlidingPositive J b m)) :=
  sim_let ((readTable_sim J _ _ _).mono fun _ => by
    rw [simd_tz]
    have := core_tz_le (b &&& m); omega) (sim_pure _)

theorem simd_negative_sim (J : Junk) (b m : BB) :
    Sim (Ok m) (simdSlidingNegativeC b m) (some (simdSlidingNegative J b m)) :=
  sim_let ((readTable_sim J _ _ _).mono fun h => by
    rw [usizeSub_le (simd_lz_le _), simd_lz]
    have := core_lz_le (ok_and_right b h)
    omega) (sim_pure _)

theorem x86_negatives_sim (J : Junk) (b m0 m1 : BB) :
    Sim P (X86.slidingNegativesC b m0 m1) (some (X86.slidingNegatives J b m0 m1)) := by
  refine sim_let ((readTable_sim J _ _ _).mono fun _ => ?_)
    (sim_let ((readTable_sim J _ _ _).mono fun _ => ?_) (sim_pure _))
  · rw [usizeSub_le (X86.lz_e0 _)]
    exact (X86.topByte_e0 (b &&& m1) (b &&& m0)).1
  · rw [usizeSub_le (X86.lz_e1 _)]
    exact (X86.topByte_e1 (b &&& m1) (b &&& m0)).1

theorem two_sim {f : BB → BB → Watched BB} {g : BB → BB → BB} {Q : BB → Prop}
    (h : ∀ b m, Sim (Q m) (f b m) (some (g b m))) (b m n : BB) :
    Sim (Q m ∧ Q n) (simdTwo f b m n) (some (g b m ||| g b n)) :=
  sim_let ((h b m).mono fun h => h.1) (sim_let ((h b n).mono fun h => h.2) (sim_pure _))

/-- No pawn on rank 9 shares its file. -/
def LoneBottom (b : BB) : Prop :=
  Ok b ∧ ∀ s t, mem b s = true → mem b t = true → s.file = t.file → s.rank = 9 → s = t

theorem core_vacantFilesC (oc : Bool) (b : BB) (h : LoneBottom b) :
    CoreBB.vacantFilesC oc b ≠ .broken := by
  obtain ⟨hb, h⟩ := h
  have hok : ∀ f, fromU128UncheckedC (packF f) = .ok (packF f) := fun f => by
    rcases fromU128_sim Junk.zero (packF f) with e | ⟨_, e⟩
    · rw [e, fromU128Unchecked_ok Junk.zero (ok_packF _)]; rfl
    · exact absurd (ok_packF _) e
  let x : Nat → BitVec 9 := fun i => if i < 9 then field b i else 0#9
  have hbx : b = packF x := by
    conv => lhs; rw [← packF_field b hb]
    apply packF_congr; intro i hi; simp only [x, hi, if_true]
  have hx : ∀ i, (x i).toNat ≤ (256#9).toNat := by
    intro i
    by_cases hi : i < 9
    · simp only [x, hi, if_true]; exact field_le b h hb i hi
    · simp [x, hi]
  have hs1 : ∀ (f g : Nat → BitVec 9), (∀ i, (g i).toNat ≤ (f i).toNat) →
      CoreBB.checkedSub oc (packF f) (packF g) = some (packF fun i => f i - g i) := by
    intro f g hfg
    unfold CoreBB.checkedSub
    have := packF_le f g hfg
    rw [if_neg (by simp; intro _; omega), packF_sub f g hfg]
  have hv2 : ∀ i, (if (256#9 - x i).getLsbD 8 then 1#9 else 0#9 : BitVec 9).toNat ≤ (256#9).toNat :=
    fun i => (field_vacant (x i) (hx i)).2
  unfold CoreBB.vacantFilesC
  rw [vacantMask_eq, hbx, hs1 _ _ hx]
  show (fromU128UncheckedC (packF fun i => 256#9 - x i) >>= _) ≠ _
  rw [hok]
  show (Watched.lift (CoreBB.checkedSub oc _ (CoreBB.shiftUp (packF fun i => 256#9 - x i) 8)) >>= _) ≠ _
  rw [core_shiftUp8,
    hs1 (fun _ => 256#9) (fun i => if (256#9 - x i).getLsbD 8 then 1#9 else 0#9) hv2]
  show (fromU128UncheckedC (packF _) >>= _) ≠ _
  rw [hok]
  exact fun h => by cases h

theorem core_vacantFiles_sim (J : Junk) (oc : Bool) (b : BB) :
    Sim (LoneBottom b) (CoreBB.vacantFilesC oc b) (CoreBB.vacantFiles J oc b) := by
  have h : Sim False (CoreBB.vacantFilesC oc b) (CoreBB.vacantFiles J oc b) := by
    refine sim_bind (sim_lift _) fun bb _ => sim_let ((fromU128_sim J bb).mono False.elim)
      (sim_bind (sim_lift _) fun r _ => sim_let ((fromU128_sim J r).mono False.elim) (sim_pure _))
  rcases h with h | ⟨h, _⟩
  · exact .inl h
  · exact .inr ⟨h, fun hb => core_vacantFilesC oc b hb h⟩

end

theorem core_tracks (J : Junk) : Tracks (CoreBB.build J) CoreBB.checked LoneBottom where
  iter _ := .inl rfl
  slidingPositiveConsecutive b m := core_positive_sim J b m
  slidingNegativeConsecutive b m := core_negative_sim J b m
  slidingPositives b m n := two_sim (Q := Ok) (fun b m => core_positive_sim J b m) b m n
  slidingNegatives b m n := two_sim (fun b m => core_negative_sim J b m) b m n
  vacantFiles oc b := core_vacantFiles_sim J oc b

theorem x86_tracks (J : Junk) : Tracks (X86.build J) X86.checked (fun _ => True) where
  iter b := simdIter_sim J b
  slidingPositiveConsecutive _ _ := .inl rfl
  slidingNegativeConsecutive _ _ := .inl rfl
  slidingPositives _ _ _ := .inl rfl
  slidingNegatives b m n := x86_negatives_sim J b m n
  vacantFiles _ _ := .inl rfl

theorem aarch64_tracks (J : Junk) : Tracks (Aarch64.build J) Aarch64.checked (fun _ => True) where
  iter b := simdIter_sim J b
  slidingPositiveConsecutive _ _ := .inl rfl
  slidingNegativeConsecutive _ _ := .inl rfl
  slidingPositives b m n := two_sim (Q := Ok) (fun b m => simd_positive_sim J b m) b m n
  slidingNegatives b m n := two_sim (fun b m => simd_negative_sim J b m) b m n
  vacantFiles _ _ := .inl rfl

theorem wasm32_tracks (J : Junk) : Tracks (Wasm32.build J) Wasm32.checked (fun _ => True) where
  iter b := simdIter_sim J b
  slidingPositiveConsecutive _ _ := .inl rfl
  slidingNegativeConsecutive b m := simd_negative_sim J b m
  slidingPositives b m n := two_sim (Q := Ok) (fun b m => simd_positive_sim J b m) b m n
  slidingNegatives b m n := two_sim (fun b m => simd_negative_sim J b m) b m n
  vacantFiles _ _ := .inl rfl

end Yasai

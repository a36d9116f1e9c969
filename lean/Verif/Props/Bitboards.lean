import Verif.Proofs.Undo

/-!
# C26, C27: bitboards are sets of squares, and `vacant_files`
-/

namespace Yasai.Props

open Yasai

/-- The bitboards that the operations of `Bitboard` produce.  Shifts are allowed for sets without a
square on the edge rank they would leave, and `vacant_files` for sets without a bottom square
sharing its file (outside these conditions the backends differ, see DESIGN.md). -/
inductive Built (K : Backend) : BB → Prop
  | empty : Built K K.empty
  | single (s : Square) : Built K (K.single s)
  | and {a b : BB} : Built K a → Built K b → Built K (K.and a b)
  | or {a b : BB} : Built K a → Built K b → Built K (K.or a b)
  | xor {a b : BB} : Built K a → Built K b → Built K (K.xor a b)
  | not {a : BB} : Built K a → Built K (K.not a)
  | shl {a : BB} : Built K a → (∀ s, K.contains a s = true → s.rank ≠ 9) → Built K (K.shl a)
  | shr {a : BB} : Built K a → (∀ s, K.contains a s = true → s.rank ≠ 1) → Built K (K.shr a)
  | slidingPositives {occ a b : BB} : Built K occ → Built K a → Built K b →
      Built K (K.slidingPositives occ a b)
  | slidingNegatives {occ a b : BB} : Built K occ → Built K a → Built K b →
      Built K (K.slidingNegatives occ a b)
  | slidingPositiveConsecutive {occ a : BB} : Built K occ → Built K a →
      (∀ s t, K.contains a s = true → K.contains a t = true → s.file = t.file) →
      Built K (K.slidingPositiveConsecutive occ a)
  | slidingNegativeConsecutive {occ a : BB} : Built K occ → Built K a →
      (∀ s t, K.contains a s = true → K.contains a t = true → s.file = t.file) →
      Built K (K.slidingNegativeConsecutive occ a)
  | vacantFiles {oc : Bool} {a r : BB} : Built K a →
      (∀ s t, K.contains a s = true → K.contains a t = true → s.file = t.file → s.rank = 9 →
        s = t) →
      K.vacantFiles oc a = some r → Built K r

theorem Built.ok {K : Backend} (hK : Lawful K) {b : BB} (h : Built K b) : Ok b := by
  induction h with
  | empty => rw [hK.empty]; exact ok_zero
  | single s => rw [hK.single]; exact ok_single s
  | and _ _ ih _ => rw [hK.and]; exact ok_and_left _ ih
  | or _ _ i j => rw [hK.or]; exact ok_or i j
  | xor _ _ i j => rw [hK.xor]; exact ok_xor i j
  | not _ _ => rw [hK.not]; exact ok_not _
  | shl _ h i => exact (hK.shl _ i (fun t ht => h t (by rw [hK.contains]; exact ht))).1
  | shr _ h i => exact (hK.shr _ i (fun t ht => h t (by rw [hK.contains]; exact ht))).1
  | slidingPositives _ _ _ _ i j => exact (hK.slidingPositives _ _ _ i j).1
  | slidingNegatives _ _ _ _ i j => exact (hK.slidingNegatives _ _ _ i j).1
  | slidingPositiveConsecutive _ _ h _ i =>
    exact (hK.slidingPositiveConsecutive _ _ i (fun s t => by
      rw [← hK.contains, ← hK.contains]; exact h s t)).1
  | slidingNegativeConsecutive _ _ h _ i =>
    exact (hK.slidingNegativeConsecutive _ _ i (fun s t => by
      rw [← hK.contains, ← hK.contains]; exact h s t)).1
  | vacantFiles _ h e i =>
    obtain ⟨r, e', hr, _⟩ := hK.vacantFiles _ _ i (fun s t => by
      rw [← hK.contains, ← hK.contains]; exact h s t)
    rw [e] at e'
    cases e'
    exact hr

/-- C27.  Every bitboard built with the API behaves as a set of squares, in every backend. -/
theorem C27_set_semantics (K : Backend) (hK : K ∈ backends) {a b : BB} (ha : Built K a)
    (hb : Built K b) :
    (∀ s, K.contains K.empty s = false) ∧
    (∀ s t, K.contains (K.single t) s = decide (s = t)) ∧
    (∀ s, K.contains (K.and a b) s = (K.contains a s && K.contains b s)) ∧
    (∀ s, K.contains (K.or a b) s = (K.contains a s || K.contains b s)) ∧
    (∀ s, K.contains (K.xor a b) s = (K.contains a s ^^ K.contains b s)) ∧
    (∀ s, K.contains (K.not a) s = !K.contains a s) ∧
    (K.isEmpty a = true ↔ ∀ s, K.contains a s = false) ∧
    (K.count a = (Square.all.filter (K.contains a)).length) ∧
    ((∀ s, K.contains a s = K.contains b s) → a = b) ∧
    (K.iter a).Pairwise (· < ·) ∧
    (∀ s, s ∈ K.iter a ↔ K.contains a s = true) := by
  have L := lawful_of_mem hK
  have oa := ha.ok L
  have ob := hb.ok L
  refine ⟨?_, ?_, ?_, ?_, ?_, ?_, ?_, ?_, ?_, ?_, ?_⟩
  · intro s; rw [L.contains, L.empty]; exact mem_zero s
  · intro s t; rw [L.contains, L.single]; exact mem_single t s
  · intro s; rw [L.contains, L.contains, L.contains, L.and]; exact mem_and _ _ s
  · intro s; rw [L.contains, L.contains, L.contains, L.or]; exact mem_or _ _ s
  · intro s; rw [L.contains, L.contains, L.contains, L.xor]; exact mem_xor _ _ s
  · intro s; rw [L.contains, L.contains, L.not]; exact mem_not _ s
  · rw [L.isEmpty, beq_iff_eq, eq_zero_iff oa]; simp only [L.contains]
  · rw [L.count a oa, List.countP_eq_length_filter]
    congr 1; apply List.filter_congr; intro s _; rw [L.contains]
  · intro h; exact ext_of_ok oa ob (fun s => by rw [← L.contains, ← L.contains]; exact h s)
  · rw [L.iter a oa]
    apply List.Pairwise.filter
    unfold Square.all
    exact List.pairwise_lt_finRange 81
  · intro s; rw [L.iter a oa, L.contains]; simp [mem_all]

/-- C45.  In every backend `==` on bitboards is equality of sets. -/
theorem C45_eq_is_set_equality (K : Backend) (hK : K ∈ backends) {a b : BB} (ha : Built K a)
    (hb : Built K b) : K.eq a b = true ↔ ∀ s, K.contains a s = K.contains b s := by
  have L := lawful_of_mem hK
  rw [L.eq, beq_iff_eq]
  constructor
  · rintro rfl; intro s; rfl
  · intro h
    exact ext_of_ok (ha.ok L) (hb.ok L) fun s => by rw [← L.contains, ← L.contains]; exact h s

/-- C45: two sets built in different ways, and two sets that differ. -/
example (K : Backend) (hK : K ∈ backends) :
    Built K (K.or (K.single 80) (K.single 3)) ∧ Built K (K.xor (K.single 3) (K.single 80)) ∧
    K.eq (K.or (K.single 80) (K.single 3)) (K.xor (K.single 3) (K.single 80)) = true ∧
    K.eq (K.or (K.single 80) (K.single 3)) (K.single 80) = false ∧
    K.eq (K.or (K.single 80) (K.single 3)) (K.single 3) = false := by
  have L := lawful_of_mem hK
  refine ⟨.or (.single _) (.single _), .xor (.single _) (.single _), ?_⟩
  simp only [L.eq, L.or, L.xor, L.single]
  decide +kernel

/-- C26.  Without a bottom square sharing its file with another square, `vacant_files` does not
panic and is the set of the squares of the files without a member. -/
theorem C26_vacant_files (K : Backend) (hK : K ∈ backends) (oc : Bool) {b : BB} (hb : Built K b)
    (h : ∀ s t, K.contains b s = true → K.contains b t = true → s.file = t.file → s.rank = 9 →
      s = t) :
    ∃ r, K.vacantFiles oc b = some r ∧ Built K r ∧
      ∀ s, K.contains r s = true ↔ ∀ t, K.contains b t = true → t.file ≠ s.file := by
  have L := lawful_of_mem hK
  obtain ⟨r, e, _, hr⟩ := L.vacantFiles oc b (hb.ok L) (fun s t => by
    rw [← L.contains, ← L.contains]; exact h s t)
  refine ⟨r, e, .vacantFiles hb h e, ?_⟩
  intro s
  rw [L.contains, hr s]
  simp only [L.contains]

/-- C26 is not vacuous: the pawns of the initial position, and two pawns on one file above the
bottom rank. -/
example (K : Backend) (hK : K ∈ backends) :
    ∃ b, Built K b ∧ K.contains b 6 = true ∧ K.contains b 5 = true ∧ K.contains b 17 = true ∧
      (∀ s t, K.contains b s = true → K.contains b t = true → s.file = t.file → s.rank = 9 →
        s = t) := by
  have L := lawful_of_mem hK
  refine ⟨K.or (K.or (K.single 6) (K.single 5)) (K.single 17),
    .or (.or (.single _) (.single _)) (.single _), ?_⟩
  simp only [L.contains, L.or, L.single, mem_or, mem_single]
  decide +kernel

/-- The condition of C26 is needed: with a bottom square and another square on the same file the
portable build panics on the subtraction (overflow checks on) or reports the file as vacant. -/
theorem C26_condition_needed :
    CoreBB.backend.vacantFiles true (CoreBB.single 80 ||| CoreBB.single 72) = none ∧
    ∃ r, CoreBB.backend.vacantFiles false (CoreBB.single 8 ||| CoreBB.single 0) = some r ∧
      CoreBB.contains r 4 = true := by
  constructor
  · decide +kernel
  · refine ⟨_, rfl, ?_⟩
    decide +kernel

end Yasai.Props

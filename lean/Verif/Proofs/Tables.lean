import Verif.Model.Tables
import Verif.Proofs.Bits
import Verif.Proofs.BitPrim
import Verif.Proofs.Geometry

/-!
# The attack tables compute the movement rules
-/

namespace Yasai

open Spec

/-- The direction of a delta as a pair. -/
def Delta.dir (d : Delta) : Int × Int := (d.file, d.rank)

/-! ## Step tables -/

theorem foldl_pieceAttack {K : Backend} (hK : Lawful K) (s : Square) (l : List Delta) (acc : BB)
    (hacc : Ok acc) :
    Ok (l.foldl (fun acc d => match s.shift d.file d.rank with
      | some to => K.or acc (K.single to) | none => acc) acc) ∧
    ∀ t, mem (l.foldl (fun acc d => match s.shift d.file d.rank with
      | some to => K.or acc (K.single to) | none => acc) acc) t = true ↔
      mem acc t = true ∨ ∃ d ∈ l, Disp s t d.file d.rank := by
  induction l generalizing acc with
  | nil => simp [hacc]
  | cons d l ih =>
    simp only [List.foldl_cons]
    cases h : s.shift d.file d.rank with
    | none =>
      obtain ⟨h1, h2⟩ := ih acc hacc
      refine ⟨h1, fun t => ?_⟩
      rw [h2 t]
      constructor
      · rintro (h | ⟨e, he, h⟩)
        · exact .inl h
        · exact .inr ⟨e, List.mem_cons_of_mem _ he, h⟩
      · rintro (h' | ⟨e, he, h'⟩)
        · exact .inl h'
        · rcases List.mem_cons.1 he with rfl | he
          · rw [← shift_eq_some, h] at h'; cases h'
          · exact .inr ⟨e, he, h'⟩
    | some to =>
      rw [shift_eq_some] at h
      obtain ⟨h1, h2⟩ := ih (K.or acc (K.single to)) (by
        rw [hK.or, hK.single]; exact ok_or hacc (ok_single to))
      refine ⟨h1, fun t => ?_⟩
      rw [h2 t, hK.or, hK.single, mem_or, mem_single, Bool.or_eq_true, decide_eq_true_eq]
      constructor
      · rintro ((h' | rfl) | ⟨e, he, h'⟩)
        · exact .inl h'
        · exact .inr ⟨d, List.mem_cons_self, h⟩
        · exact .inr ⟨e, List.mem_cons_of_mem _ he, h'⟩
      · rintro (h' | ⟨e, he, h'⟩)
        · exact .inl (.inl h')
        · rcases List.mem_cons.1 he with rfl | he
          · exact .inl (.inr (disp_unique h' h))
          · exact .inr ⟨e, he, h'⟩

theorem ok_pieceAttack {K : Backend} (hK : Lawful K) (ds : Color → List Delta) (s : Square)
    (c : Color) : Ok (pieceAttack K ds s c) :=
  (foldl_pieceAttack hK s (ds c) K.empty (by rw [hK.empty]; exact ok_zero)).1

theorem mem_pieceAttack {K : Backend} (hK : Lawful K) (ds : Color → List Delta) (s : Square)
    (c : Color) (t : Square) :
    mem (pieceAttack K ds s c) t = true ↔ ∃ d ∈ ds c, Disp s t d.file d.rank := by
  refine ((foldl_pieceAttack hK s (ds c) K.empty (by rw [hK.empty]; exact ok_zero)).2 t).trans ?_
  rw [hK.empty]
  simp

/-- The deltas of a table are the steps of a kind. -/
theorem mem_stepTable {K : Backend} (hK : Lawful K) (ds : Color → List Delta) (k : PieceKind)
    (hd : ∀ c, (∀ d ∈ ds c, (d.file, fwd c * d.rank) ∈ steps k) ∧
      (∀ d ∈ steps k, (⟨d.1, fwd c * d.2⟩ : Delta) ∈ ds c)) (s : Square) (c : Color) (t : Square) :
    mem (pieceAttack K ds s c) t = true ↔ Step k c s t := by
  rw [mem_pieceAttack hK]
  have hf : fwd c * fwd c = 1 := by cases c <;> rfl
  constructor
  · rintro ⟨d, h1, h2⟩
    refine ⟨_, (hd c).1 d h1, ?_⟩
    simp only [← Int.mul_assoc, hf, Int.one_mul]
    exact h2
  · rintro ⟨d, h1, h2⟩
    exact ⟨_, (hd c).2 d h1, h2⟩

theorem mem_fuAttack {K : Backend} (hK : Lawful K) (s : Square) (c : Color) (t : Square) :
    mem (fuAttack K s c) t = true ↔ Step .pawn c s t :=
  mem_stepTable hK fuDeltas .pawn (by intro c; cases c <;> decide) s c t

theorem mem_keAttack {K : Backend} (hK : Lawful K) (s : Square) (c : Color) (t : Square) :
    mem (keAttack K s c) t = true ↔ Step .knight c s t :=
  mem_stepTable hK keDeltas .knight (by intro c; cases c <;> decide) s c t

theorem mem_giAttack {K : Backend} (hK : Lawful K) (s : Square) (c : Color) (t : Square) :
    mem (giAttack K s c) t = true ↔ Step .silver c s t :=
  mem_stepTable hK giDeltas .silver (by intro c; cases c <;> decide) s c t

theorem mem_kiAttack {K : Backend} (hK : Lawful K) (s : Square) (c : Color) (t : Square) :
    mem (kiAttack K s c) t = true ↔ Step .gold c s t :=
  mem_stepTable hK kiDeltas .gold (by intro c; cases c <;> decide) s c t

theorem mem_ouAttack {K : Backend} (hK : Lawful K) (s : Square) (c : Color) (t : Square) :
    mem (ouAttack K s c) t = true ↔ Step .king c s t :=
  mem_stepTable hK ouDeltas .king (by intro c; cases c <;> decide) s c t

/-! ## Ray walks -/

/-- No blocker strictly between two squares. -/
def Clear (occ : BB) (s t : Square) : Prop := ∀ u, Between s u t → mem occ u = false

theorem mem_slidingAttackLoop {K : Backend} (hK : Lawful K) (occ : BB) (d : Delta)
    (hd : d.dir ∈ directions) (n : Nat) (bb : BB) (hbb : Ok bb) (x : Square) :
    Ok (slidingAttackLoop K occ d n bb (some x)) ∧
    ∀ t, mem (slidingAttackLoop K occ d n bb (some x)) t = true ↔ mem bb t = true ∨
      ∃ m : Nat, m < n ∧ Disp x t (m * d.file) (m * d.rank) ∧
        ∀ j : Nat, j < m → ∀ u, Disp x u (j * d.file) (j * d.rank) → mem occ u = false := by
  induction n generalizing bb x with
  | zero => simp [slidingAttackLoop, hbb]
  | succ n ih =>
    have hbb' : Ok (K.or bb (K.single x)) := by
      rw [hK.or, hK.single]; exact ok_or hbb (ok_single x)
    have hzero : ∀ y, Disp x y (((0 : Nat) : Int) * d.file) (((0 : Nat) : Int) * d.rank) ↔ y = x := by
      intro y
      unfold Disp
      constructor
      · intro h; apply Square.ext_coords <;> omega
      · rintro rfl; omega
    have hmem : ∀ t, mem (K.or bb (K.single x)) t = true ↔ mem bb t = true ∨ t = x := by
      intro t; rw [hK.or, hK.single, mem_or, mem_single, Bool.or_eq_true, decide_eq_true_eq]
    unfold slidingAttackLoop
    simp only [hK.contains]
    by_cases hx : mem occ x = true
    · rw [if_pos hx]
      refine ⟨hbb', fun t => ?_⟩
      rw [hmem]
      apply or_congr Iff.rfl
      constructor
      · rintro rfl
        exact ⟨0, by omega, (hzero t).2 rfl, fun j hj => by omega⟩
      · rintro ⟨m, hm, h1, h2⟩
        cases m with
        | zero => exact (hzero t).1 h1
        | succ m =>
          have := h2 0 (by omega) x ((hzero x).2 rfl)
          rw [hx] at this; cases this
    · rw [if_neg hx]
      simp only [Bool.not_eq_true] at hx
      cases hs : x.shift d.file d.rank with
      | none =>
        have e : slidingAttackLoop K occ d n (K.or bb (K.single x)) none = K.or bb (K.single x) := by
          cases n <;> rfl
        rw [e]
        refine ⟨hbb', fun t => ?_⟩
        rw [hmem]
        apply or_congr Iff.rfl
        constructor
        · rintro rfl
          exact ⟨0, by omega, (hzero t).2 rfl, fun j hj => by omega⟩
        · rintro ⟨m, hm, h1, h2⟩
          cases m with
          | zero => exact (hzero t).1 h1
          | succ m =>
            obtain ⟨u, hu⟩ := ray_convex hd (m := 1) (n := m + 1) (by omega) h1
            have : x.shift d.file d.rank = some u := by
              rw [shift_eq_some]; simpa [Delta.dir] using hu
            rw [hs] at this; cases this
      | some y =>
        rw [shift_eq_some] at hs
        obtain ⟨h1, h2⟩ := ih (K.or bb (K.single x)) hbb' y
        refine ⟨h1, fun t => ?_⟩
        have hsucc : ∀ (m : Nat) (t : Square), Disp y t (m * d.file) (m * d.rank) ↔
            Disp x t (((m + 1 : Nat) : Int) * d.file) (((m + 1 : Nat) : Int) * d.rank) := by
          intro m t
          unfold Disp at *
          rw [Int.natCast_add, Int.add_mul, Int.add_mul]
          omega
        rw [h2, hmem]
        constructor
        · rintro ((h | rfl) | ⟨m, hm, h3, h4⟩)
          · exact .inl h
          · exact .inr ⟨0, by omega, (hzero t).2 rfl, fun j hj => by omega⟩
          · refine .inr ⟨m + 1, by omega, (hsucc m t).1 h3, fun j hj u hu => ?_⟩
            cases j with
            | zero => rw [(hzero u).1 hu]; exact hx
            | succ j => exact h4 j (by omega) u ((hsucc j u).2 hu)
        · rintro (h | ⟨m, hm, h3, h4⟩)
          · exact .inl (.inl h)
          · cases m with
            | zero => exact .inl (.inr ((hzero t).1 h3))
            | succ m =>
              exact .inr ⟨m, by omega, (hsucc m t).2 h3,
                fun j hj u hu => h4 (j + 1) (by omega) u ((hsucc j u).1 hu)⟩

/-- `sliding_attack` walks the ray up to and including the first occupied square. -/
theorem slidingAttack_spec {K : Backend} (hK : Lawful K) (s : Square) (occ : BB) (d : Delta)
    (hd : d.dir ∈ directions) :
    Ok (slidingAttack K s occ d) ∧
    ∀ t, mem (slidingAttack K s occ d) t = true ↔ OnRay d.dir s t ∧ Clear occ s t := by
  unfold slidingAttack
  cases hs : s.shift d.file d.rank with
  | none =>
    simp only [slidingAttackLoop]
    rw [hK.empty]
    refine ⟨ok_zero, fun t => ?_⟩
    simp only [mem_zero, Bool.false_eq_true, false_iff, not_and]
    rintro ⟨n, hn, h⟩
    obtain ⟨u, hu⟩ := ray_convex hd (m := 1) (n := n) hn h
    have : s.shift d.file d.rank = some u := by
      rw [shift_eq_some]; simpa [Delta.dir] using hu
    rw [hs] at this; cases this
  | some y =>
    rw [shift_eq_some] at hs
    obtain ⟨h1, h2⟩ := mem_slidingAttackLoop hK occ d hd 9 K.empty (by
      rw [hK.empty]; exact ok_zero) y
    refine ⟨h1, fun t => ?_⟩
    rw [h2, hK.empty, mem_zero]
    simp only [Bool.false_eq_true, false_or]
    have hsucc : ∀ (m : Nat) (t : Square), Disp y t (m * d.file) (m * d.rank) ↔
        Disp s t (((m + 1 : Nat) : Int) * d.file) (((m + 1 : Nat) : Int) * d.rank) := by
      intro m t
      unfold Disp at *
      rw [Int.natCast_add, Int.add_mul, Int.add_mul]
      omega
    constructor
    · rintro ⟨m, hm, h3, h4⟩
      have h5 := (hsucc m t).1 h3
      refine ⟨⟨m + 1, by omega, h5⟩, fun u hu => ?_⟩
      rw [between_of_ray hd (by omega) h5] at hu
      obtain ⟨j, hj, hjm, hu⟩ := hu
      obtain ⟨j, rfl⟩ : ∃ i, j = i + 1 := ⟨j - 1, by omega⟩
      exact h4 j (by omega) u ((hsucc j u).2 hu)
    · rintro ⟨⟨n, hn, h3⟩, h4⟩
      obtain ⟨m, rfl⟩ : ∃ i, n = i + 1 := ⟨n - 1, by omega⟩
      have := ray_le hd h3
      refine ⟨m, by omega, (hsucc m t).2 h3, fun j hj u hu => h4 u ?_⟩
      rw [between_of_ray hd (by omega) h3]
      exact ⟨j + 1, by omega, by omega, (hsucc j u).1 hu⟩

/-- Nine units of fuel are enough for the loop of `sliding_attack`: more fuel changes nothing. -/
theorem slidingAttackLoop_fuel {K : Backend} (hK : Lawful K) (s : Square) (occ : BB) (d : Delta)
    (hd : d.dir ∈ directions) (n : Nat) :
    slidingAttackLoop K occ d (9 + n) K.empty (s.shift d.file d.rank) = slidingAttack K s occ d := by
  unfold slidingAttack
  cases s.shift d.file d.rank with
  | none => cases n <;> rfl
  | some y =>
    have h0 : Ok K.empty := by rw [hK.empty]; exact ok_zero
    obtain ⟨h1, h2⟩ := mem_slidingAttackLoop hK occ d hd (9 + n) K.empty h0 y
    obtain ⟨h3, h4⟩ := mem_slidingAttackLoop hK occ d hd 9 K.empty h0 y
    apply ext_of_ok h1 h3
    intro t
    rw [Bool.eq_iff_iff, h2, h4]
    apply or_congr Iff.rfl
    constructor
    · rintro ⟨m, hm, h5, h6⟩
      exact ⟨m, by have := ray_le hd h5; omega, h5, h6⟩
    · rintro ⟨m, hm, h5, h6⟩
      exact ⟨m, by omega, h5, h6⟩

theorem ok_slidingAttack {K : Backend} (hK : Lawful K) (s : Square) (occ : BB) (d : Delta)
    (hd : d.dir ∈ directions) : Ok (slidingAttack K s occ d) := (slidingAttack_spec hK s occ d hd).1

theorem mem_slidingAttack {K : Backend} (hK : Lawful K) (s : Square) (occ : BB) (d : Delta)
    (hd : d.dir ∈ directions) (t : Square) :
    mem (slidingAttack K s occ d) t = true ↔ OnRay d.dir s t ∧ Clear occ s t :=
  (slidingAttack_spec hK s occ d hd).2 t

theorem mem_rayMask {K : Backend} (hK : Lawful K) (s : Square) (d : Delta)
    (hd : d.dir ∈ directions) (t : Square) :
    mem (slidingAttack K s K.empty d) t = true ↔ OnRay d.dir s t := by
  rw [mem_slidingAttack hK s _ d hd, hK.empty]
  simp [Clear]

/-- The directions towards smaller square numbers. -/
def negDirs : List (Int × Int) := [(0, -1), (-1, 0), (-1, -1), (-1, 1)]

/-- The directions towards larger square numbers. -/
def posDirs : List (Int × Int) := [(0, 1), (1, 0), (1, 1), (1, -1)]

theorem negDirs_sub {d : Int × Int} (h : d ∈ negDirs) : d ∈ directions := by
  revert d; decide
theorem posDirs_sub {d : Int × Int} (h : d ∈ posDirs) : d ∈ directions := by
  revert d; decide

theorem ray_order_neg {d : Int × Int} (hd : d ∈ negDirs) {s t u : Square} (ht : OnRay d s t)
    (hu : OnRay d s u) : t < u ↔ Between s u t := by
  obtain ⟨n, hn, ht⟩ := ht
  obtain ⟨m, hm, hu⟩ := hu
  rw [between_of_ray (negDirs_sub hd) hn ht, Fin.lt_def, t.val_eq, u.val_eq]
  have := s.bounds
  have := t.bounds
  have := u.bounds
  constructor
  · intro h
    refine ⟨m, hm, ?_, hu⟩
    simp only [negDirs, List.mem_cons, List.not_mem_nil, or_false] at hd
    unfold Disp at *
    rcases hd with rfl | rfl | rfl | rfl <;> simp only at * <;> omega
  · rintro ⟨m', hm', h1, h2⟩
    obtain ⟨_, rfl⟩ := ray_unique (negDirs_sub hd) (negDirs_sub hd) hm hm' hu h2
    simp only [negDirs, List.mem_cons, List.not_mem_nil, or_false] at hd
    unfold Disp at *
    rcases hd with rfl | rfl | rfl | rfl <;> simp only at * <;> omega

theorem ray_order_pos {d : Int × Int} (hd : d ∈ posDirs) {s t u : Square} (ht : OnRay d s t)
    (hu : OnRay d s u) : u < t ↔ Between s u t := by
  obtain ⟨n, hn, ht⟩ := ht
  obtain ⟨m, hm, hu⟩ := hu
  rw [between_of_ray (posDirs_sub hd) hn ht, Fin.lt_def, t.val_eq, u.val_eq]
  have := s.bounds
  have := t.bounds
  have := u.bounds
  constructor
  · intro h
    refine ⟨m, hm, ?_, hu⟩
    simp only [posDirs, List.mem_cons, List.not_mem_nil, or_false] at hd
    unfold Disp at *
    rcases hd with rfl | rfl | rfl | rfl <;> simp only at * <;> omega
  · rintro ⟨m', hm', h1, h2⟩
    obtain ⟨_, rfl⟩ := ray_unique (posDirs_sub hd) (posDirs_sub hd) hm hm' hu h2
    simp only [posDirs, List.mem_cons, List.not_mem_nil, or_false] at hd
    unfold Disp at *
    rcases hd with rfl | rfl | rfl | rfl <;> simp only at * <;> omega

theorem between_onRay {d : Int × Int} (hd : d ∈ directions) {s u t : Square} (ht : OnRay d s t)
    (h : Between s u t) : OnRay d s u := by
  obtain ⟨n, hn, ht⟩ := ht
  rw [between_of_ray hd hn ht] at h
  obtain ⟨m, hm, _, h⟩ := h
  exact ⟨m, hm, h⟩

theorem slideNeg_ray {K : Backend} (hK : Lawful K) (occ : BB) (s : Square) (d : Delta)
    (hd : d.dir ∈ negDirs) (t : Square) :
    SlideNeg occ (slidingAttack K s K.empty d) t ↔ OnRay d.dir s t ∧ Clear occ s t := by
  have hd' := negDirs_sub hd
  unfold SlideNeg
  simp only [mem_rayMask hK s d hd']
  constructor
  · rintro ⟨h1, h2⟩
    refine ⟨h1, fun u hu => ?_⟩
    have h3 := between_onRay hd' h1 hu
    cases e : mem occ u
    · rfl
    · have h4 := h2 u h3 e
      have h5 := (ray_order_neg hd h1 h3).2 hu
      exact absurd h4 (Fin.not_le.2 h5)
  · rintro ⟨h1, h2⟩
    refine ⟨h1, fun u hu e => ?_⟩
    rw [← Fin.not_lt]
    intro h
    have := h2 u ((ray_order_neg hd h1 hu).1 h)
    rw [e] at this; cases this

theorem slidePos_ray {K : Backend} (hK : Lawful K) (occ : BB) (s : Square) (d : Delta)
    (hd : d.dir ∈ posDirs) (t : Square) :
    SlidePos occ (slidingAttack K s K.empty d) t ↔ OnRay d.dir s t ∧ Clear occ s t := by
  have hd' := posDirs_sub hd
  unfold SlidePos
  simp only [mem_rayMask hK s d hd']
  constructor
  · rintro ⟨h1, h2⟩
    refine ⟨h1, fun u hu => ?_⟩
    have h3 := between_onRay hd' h1 hu
    cases e : mem occ u
    · rfl
    · have h4 := h2 u h3 e
      have h5 := (ray_order_pos hd h1 h3).2 hu
      exact absurd h4 (Fin.not_le.2 h5)
  · rintro ⟨h1, h2⟩
    refine ⟨h1, fun u hu e => ?_⟩
    rw [← Fin.not_lt]
    intro h
    have := h2 u ((ray_order_pos hd h1 hu).1 h)
    rw [e] at this; cases this

/-! ## Lance, bishop, rook -/

theorem slide_lance {c : Color} {s t : Square} :
    Slide .lance c s t ↔ OnRay (lanceDelta c).dir s t := by
  unfold Slide
  cases c <;> simp [slides, lanceDelta, Delta.N, Delta.S, Delta.dir, fwd]

theorem slide_bishop {c : Color} {s t : Square} :
    Slide .bishop c s t ↔ OnRay Delta.NE.dir s t ∨ OnRay Delta.SE.dir s t ∨
      OnRay Delta.SW.dir s t ∨ OnRay Delta.NW.dir s t := by
  unfold Slide
  cases c <;> simp [slides, diagonals, Delta.NE, Delta.SE, Delta.SW, Delta.NW, Delta.dir, fwd] <;>
    grind

theorem slide_rook {c : Color} {s t : Square} :
    Slide .rook c s t ↔ OnRay Delta.N.dir s t ∨ OnRay Delta.E.dir s t ∨
      OnRay Delta.S.dir s t ∨ OnRay Delta.W.dir s t := by
  unfold Slide
  cases c <;> simp [slides, orthogonals, Delta.N, Delta.E, Delta.S, Delta.W, Delta.dir, fwd] <;>
    grind

theorem oneFile_rayMask {K : Backend} (hK : Lawful K) (s : Square) (d : Delta)
    (hd : d.dir ∈ directions) (h0 : d.file = 0) : OneFile (slidingAttack K s K.empty d) := by
  intro t u ht hu
  rw [mem_rayMask hK s d hd] at ht hu
  obtain ⟨m, _, ht⟩ := ht
  obtain ⟨n, _, hu⟩ := hu
  unfold Disp at *
  simp only [Delta.dir, h0, Int.mul_zero] at *
  omega

theorem kyPseudo_spec {K : Backend} (hK : Lawful K) (s : Square) (c : Color) :
    Ok (kyPseudoAttack K s c) ∧
    ∀ t, mem (kyPseudoAttack K s c) t = true ↔ Slide .lance c s t := by
  have hd : (lanceDelta c).dir ∈ directions := by cases c <;> decide
  refine ⟨ok_slidingAttack hK s _ _ hd, fun t => ?_⟩
  rw [slide_lance]
  exact mem_rayMask hK s _ hd t

theorem kyAttack_spec {K : Backend} (hK : Lawful K) (s : Square) (c : Color) (occ : BB) :
    Ok (kyAttack K s c occ) ∧
    ∀ t, mem (kyAttack K s c occ) t = true ↔ Slide .lance c s t ∧ Clear occ s t := by
  unfold kyAttack kyPseudoAttack
  simp only [slide_lance]
  cases c with
  | black =>
    have hd : (lanceDelta .black).dir ∈ negDirs := by decide
    obtain ⟨h1, h2⟩ := hK.slidingNegativeConsecutive occ
      (slidingAttack K s K.empty (lanceDelta .black)) (ok_slidingAttack hK s _ _ (negDirs_sub hd))
      (oneFile_rayMask hK s _ (negDirs_sub hd) rfl)
    refine ⟨h1, fun t => ?_⟩
    simp only [h2, slideNeg_ray hK occ s _ hd]
  | white =>
    have hd : (lanceDelta .white).dir ∈ posDirs := by decide
    obtain ⟨h1, h2⟩ := hK.slidingPositiveConsecutive occ
      (slidingAttack K s K.empty (lanceDelta .white)) (ok_slidingAttack hK s _ _ (posDirs_sub hd))
      (oneFile_rayMask hK s _ (posDirs_sub hd) rfl)
    refine ⟨h1, fun t => ?_⟩
    simp only [h2, slidePos_ray hK occ s _ hd]

theorem slidingTable_spec {K : Backend} (hK : Lawful K) (D : SlideDirs)
    (h1 : D.neg0.dir ∈ negDirs) (h2 : D.neg1.dir ∈ negDirs) (h3 : D.pos0.dir ∈ posDirs)
    (h4 : D.pos1.dir ∈ posDirs) (s : Square) (occ : BB) :
    Ok (slidingTableAttack K D s occ) ∧
    ∀ t, mem (slidingTableAttack K D s occ) t = true ↔
      (OnRay D.neg0.dir s t ∨ OnRay D.neg1.dir s t ∨ OnRay D.pos0.dir s t ∨ OnRay D.pos1.dir s t) ∧
        Clear occ s t := by
  unfold slidingTableAttack
  obtain ⟨a1, a2⟩ := hK.slidingNegatives occ (slidingAttack K s K.empty D.neg0)
    (slidingAttack K s K.empty D.neg1) (ok_slidingAttack hK s _ _ (negDirs_sub h1))
    (ok_slidingAttack hK s _ _ (negDirs_sub h2))
  obtain ⟨b1, b2⟩ := hK.slidingPositives occ (slidingAttack K s K.empty D.pos0)
    (slidingAttack K s K.empty D.pos1) (ok_slidingAttack hK s _ _ (posDirs_sub h3))
    (ok_slidingAttack hK s _ _ (posDirs_sub h4))
  rw [hK.or]
  refine ⟨ok_or a1 b1, fun t => ?_⟩
  rw [mem_or, Bool.or_eq_true, a2, b2, slideNeg_ray hK occ s _ h1, slideNeg_ray hK occ s _ h2,
    slidePos_ray hK occ s _ h3, slidePos_ray hK occ s _ h4]
  grind

theorem slidingPseudo_spec {K : Backend} (hK : Lawful K) (D : SlideDirs)
    (h1 : D.neg0.dir ∈ directions) (h2 : D.neg1.dir ∈ directions) (h3 : D.pos0.dir ∈ directions)
    (h4 : D.pos1.dir ∈ directions) (s : Square) :
    Ok (slidingPseudoAttack K D s) ∧
    ∀ t, mem (slidingPseudoAttack K D s) t = true ↔
      OnRay D.neg0.dir s t ∨ OnRay D.neg1.dir s t ∨ OnRay D.pos0.dir s t ∨
        OnRay D.pos1.dir s t := by
  unfold slidingPseudoAttack
  have e : K.empty = 0#128 := hK.empty
  simp only [hK.or]
  refine ⟨ok_or (ok_or (ok_or (ok_or (by rw [e]; exact ok_zero) (ok_slidingAttack hK s _ _ h1))
    (ok_slidingAttack hK s _ _ h2)) (ok_slidingAttack hK s _ _ h3))
    (ok_slidingAttack hK s _ _ h4), fun t => ?_⟩
  simp only [mem_or, Bool.or_eq_true, mem_rayMask hK s _ h1, mem_rayMask hK s _ h2,
    mem_rayMask hK s _ h3, mem_rayMask hK s _ h4]
  rw [e, mem_zero]
  simp [or_assoc]

theorem kaAttack_spec {K : Backend} (hK : Lawful K) (s : Square) (occ : BB) (c : Color) :
    Ok (kaAttack K s occ) ∧
    ∀ t, mem (kaAttack K s occ) t = true ↔ Slide .bishop c s t ∧ Clear occ s t := by
  simp only [slide_bishop]
  exact slidingTable_spec hK kaDirs (by decide) (by decide) (by decide) (by decide) s occ

theorem hiAttack_spec {K : Backend} (hK : Lawful K) (s : Square) (occ : BB) (c : Color) :
    Ok (hiAttack K s occ) ∧
    ∀ t, mem (hiAttack K s occ) t = true ↔ Slide .rook c s t ∧ Clear occ s t := by
  simp only [slide_rook]
  exact slidingTable_spec hK hiDirs (by decide) (by decide) (by decide) (by decide) s occ

theorem kaPseudo_spec {K : Backend} (hK : Lawful K) (s : Square) (c : Color) :
    Ok (slidingPseudoAttack K kaDirs s) ∧
    ∀ t, mem (slidingPseudoAttack K kaDirs s) t = true ↔ Slide .bishop c s t := by
  simp only [slide_bishop]
  exact slidingPseudo_spec hK kaDirs (by decide) (by decide) (by decide) (by decide) s

theorem hiPseudo_spec {K : Backend} (hK : Lawful K) (s : Square) (c : Color) :
    Ok (slidingPseudoAttack K hiDirs s) ∧
    ∀ t, mem (slidingPseudoAttack K hiDirs s) t = true ↔ Slide .rook c s t := by
  simp only [slide_rook]
  exact slidingPseudo_spec hK hiDirs (by decide) (by decide) (by decide) (by decide) s

/-! ## All kinds -/

theorem slide_proBishop {c : Color} {s t : Square} :
    Slide .proBishop c s t ↔ Slide .bishop c s t := Iff.rfl
theorem slide_proRook {c : Color} {s t : Square} :
    Slide .proRook c s t ↔ Slide .rook c s t := Iff.rfl
theorem not_slide {k : PieceKind} (h : slides k = []) (c : Color) (s t : Square) :
    ¬ Slide k c s t := by
  unfold Slide; simp [h]
theorem not_step {k : PieceKind} (h : steps k = []) (c : Color) (s t : Square) :
    ¬ Step k c s t := by
  unfold Step; simp [h]

/-- `Clear` as the occupancy condition of `reaches_iff`. -/
theorem reaches_mem {occ : BB} {k : PieceKind} {c : Color} {s t : Square} :
    Reaches (fun u => mem occ u = true) k c s t ↔
      Step k c s t ∨ (Slide k c s t ∧ Clear occ s t) := by
  rw [reaches_iff]
  unfold Clear
  simp only [Bool.not_eq_true]

theorem tableAttack_spec {K : Backend} (hK : Lawful K) (k : PieceKind) (s : Square) (c : Color)
    (occ : BB) :
    Ok (tableAttack K k s c occ) ∧
    ∀ t, mem (tableAttack K k s c occ) t = true ↔
      Reaches (fun u => mem occ u = true) k c s t := by
  have gold : ∀ k, steps k = goldSteps → slides k = [] → ∀ t,
      mem (kiAttack K s c) t = true ↔ Reaches (fun u => mem occ u = true) k c s t := by
    intro k h1 h2 t
    rw [mem_kiAttack hK, reaches_mem]
    constructor
    · intro h; left; unfold Step at *; rw [h1]; exact h
    · rintro (h | h)
      · unfold Step at *; rw [h1] at h; exact h
      · exact absurd h.1 (not_slide h2 _ _ _)
  have stepOnly : ∀ (k : PieceKind) (b : BB), slides k = [] →
      (∀ t, mem b t = true ↔ Step k c s t) → ∀ t,
      mem b t = true ↔ Reaches (fun u => mem occ u = true) k c s t := by
    intro k b h1 h2 t
    rw [h2, reaches_mem]
    constructor
    · exact .inl
    · rintro (h | h)
      · exact h
      · exact absurd h.1 (not_slide h1 _ _ _)
  have slideOnly : ∀ (k : PieceKind) (b : BB), steps k = [] →
      (∀ t, mem b t = true ↔ Slide k c s t ∧ Clear occ s t) → ∀ t,
      mem b t = true ↔ Reaches (fun u => mem occ u = true) k c s t := by
    intro k b h1 h2 t
    rw [h2, reaches_mem]
    constructor
    · exact .inr
    · rintro (h | h)
      · exact absurd h (not_step h1 _ _ _)
      · exact h
  cases k <;> simp only [tableAttack]
  case pawn => exact ⟨ok_pieceAttack hK _ _ _, stepOnly _ _ rfl (mem_fuAttack hK s c)⟩
  case lance => exact ⟨(kyAttack_spec hK s c occ).1, slideOnly _ _ rfl (kyAttack_spec hK s c occ).2⟩
  case knight => exact ⟨ok_pieceAttack hK _ _ _, stepOnly _ _ rfl (mem_keAttack hK s c)⟩
  case silver => exact ⟨ok_pieceAttack hK _ _ _, stepOnly _ _ rfl (mem_giAttack hK s c)⟩
  case gold => exact ⟨ok_pieceAttack hK _ _ _, gold _ rfl rfl⟩
  case bishop => exact ⟨(kaAttack_spec hK s occ c).1, slideOnly _ _ rfl (kaAttack_spec hK s occ c).2⟩
  case rook => exact ⟨(hiAttack_spec hK s occ c).1, slideOnly _ _ rfl (hiAttack_spec hK s occ c).2⟩
  case king => exact ⟨ok_pieceAttack hK _ _ _, stepOnly _ _ rfl (mem_ouAttack hK s c)⟩
  case proPawn => exact ⟨ok_pieceAttack hK _ _ _, gold _ rfl rfl⟩
  case proLance => exact ⟨ok_pieceAttack hK _ _ _, gold _ rfl rfl⟩
  case proKnight => exact ⟨ok_pieceAttack hK _ _ _, gold _ rfl rfl⟩
  case proSilver => exact ⟨ok_pieceAttack hK _ _ _, gold _ rfl rfl⟩
  case proBishop =>
    rw [hK.or]
    refine ⟨ok_or (kaAttack_spec hK s occ c).1 (ok_pieceAttack hK _ _ _), fun t => ?_⟩
    rw [mem_or, Bool.or_eq_true, (kaAttack_spec hK s occ c).2, mem_ouAttack hK, reaches_mem, or_comm]
    exact Iff.rfl
  case proRook =>
    rw [hK.or]
    refine ⟨ok_or (hiAttack_spec hK s occ c).1 (ok_pieceAttack hK _ _ _), fun t => ?_⟩
    rw [mem_or, Bool.or_eq_true, (hiAttack_spec hK s occ c).2, mem_ouAttack hK, reaches_mem, or_comm]
    exact Iff.rfl

theorem mem_tableAttack {K : Backend} (hK : Lawful K) (k : PieceKind) (s : Square) (c : Color)
    (occ : BB) (t : Square) :
    mem (tableAttack K k s c occ) t = true ↔ Reaches (fun u => mem occ u = true) k c s t :=
  (tableAttack_spec hK k s c occ).2 t

/-! ## The between table -/

theorem not_between_of_not_aligned {s u t : Square}
    (h : ((t.file : Int) - s.file = 0 ∧ (t.rank : Int) - s.rank = 0) ∨
      ((t.file : Int) - s.file ≠ 0 ∧ (t.rank : Int) - s.rank ≠ 0 ∧
        ((t.file : Int) - s.file).natAbs ≠ ((t.rank : Int) - s.rank).natAbs)) :
    ¬ Between s u t := by
  rintro ⟨d, hd, m, n, hm, hmn, h1, h2⟩
  rw [mem_directions] at hd
  unfold Disp at *
  rcases hd with rfl | rfl | rfl | rfl | rfl | rfl | rfl | rfl <;> simp only at * <;> omega

theorem betweenDelta_ray {s t : Square}
    (h : ¬(((t.file : Int) - s.file = 0 ∧ (t.rank : Int) - s.rank = 0) ∨
      ((t.file : Int) - s.file ≠ 0 ∧ (t.rank : Int) - s.rank ≠ 0 ∧
        ((t.file : Int) - s.file).natAbs ≠ ((t.rank : Int) - s.rank).natAbs))) :
    ∃ d, betweenDelta ((t.file : Int) - s.file) ((t.rank : Int) - s.rank) = some d ∧
      d.dir ∈ directions ∧ OnRay d.dir s t := by
  unfold betweenDelta OnRay
  have := s.bounds
  have := t.bounds
  split
  · split
    · refine ⟨_, rfl, by decide, ((t.rank : Int) - s.rank).natAbs, by omega, ?_⟩
      simp only [Disp, Delta.dir, Delta.N]; omega
    · split
      · refine ⟨_, rfl, by decide, ((t.rank : Int) - s.rank).natAbs, by omega, ?_⟩
        simp only [Disp, Delta.dir, Delta.S]; omega
      · omega
  · split
    · split
      · refine ⟨_, rfl, by decide, ((t.file : Int) - s.file).natAbs, by omega, ?_⟩
        simp only [Disp, Delta.dir, Delta.E]; omega
      · split
        · refine ⟨_, rfl, by decide, ((t.file : Int) - s.file).natAbs, by omega, ?_⟩
          simp only [Disp, Delta.dir, Delta.NE]; omega
        · refine ⟨_, rfl, by decide, ((t.file : Int) - s.file).natAbs, by omega, ?_⟩
          simp only [Disp, Delta.dir, Delta.SE]; omega
    · split
      · refine ⟨_, rfl, by decide, ((t.file : Int) - s.file).natAbs, by omega, ?_⟩
        simp only [Disp, Delta.dir, Delta.W]; omega
      · split
        · refine ⟨_, rfl, by decide, ((t.file : Int) - s.file).natAbs, by omega, ?_⟩
          simp only [Disp, Delta.dir, Delta.SW]; omega
        · refine ⟨_, rfl, by decide, ((t.file : Int) - s.file).natAbs, by omega, ?_⟩
          simp only [Disp, Delta.dir, Delta.NW]; omega

theorem betweenTable_spec {K : Backend} (hK : Lawful K) (s t : Square) :
    Ok (betweenTable K s t) ∧ ∀ u, mem (betweenTable K s t) u = true ↔ Between s u t := by
  unfold betweenTable
  dsimp only
  split
  · rename_i h
    rw [hK.empty]
    refine ⟨ok_zero, fun u => ?_⟩
    simp [not_between_of_not_aligned h]
  · rename_i h
    obtain ⟨d, h1, h2, h3⟩ := betweenDelta_ray h
    simp only [h1]
    rw [hK.and, hK.not, hK.single]
    refine ⟨ok_and_right _ (ok_not _), fun u => ?_⟩
    rw [mem_and, mem_not, Bool.and_eq_true, mem_slidingAttack hK _ _ _ h2, mem_single]
    simp only [Bool.not_eq_true', decide_eq_false_iff_not]
    obtain ⟨n, hn, h3⟩ := h3
    rw [between_of_ray h2 hn h3]
    constructor
    · rintro ⟨⟨⟨m, hm, hu⟩, hc⟩, hne⟩
      refine ⟨m, hm, ?_, hu⟩
      rcases Nat.lt_trichotomy m n with h | rfl | h
      · exact h
      · exact absurd (disp_unique hu h3) hne
      · have := hc t ((between_of_ray h2 hm hu).2 ⟨n, hn, h, h3⟩)
        simp at this
    · rintro ⟨m, hm, hmn, hu⟩
      refine ⟨⟨⟨m, hm, hu⟩, fun v hv => ?_⟩, ?_⟩
      · rw [between_of_ray h2 hm hu] at hv
        obtain ⟨j, hj, hjm, hv⟩ := hv
        rw [mem_single, decide_eq_false_iff_not]
        rintro rfl
        have := (ray_unique h2 h2 hj hn hv h3).2
        omega
      · rintro rfl
        have := (ray_unique h2 h2 hm hn hu h3).2
        omega

theorem mem_betweenTable {K : Backend} (hK : Lawful K) (s t u : Square) :
    mem (betweenTable K s t) u = true ↔ Between s u t := (betweenTable_spec hK s t).2 u

/-! ## Files -/

theorem filesTable_spec {K : Backend} (hK : Lawful K) (f : Nat) :
    Ok (filesTable K f) ∧ ∀ s, mem (filesTable K f) s = true ↔ s.file = f := by
  have h : filesTable K f = CoreBB.ofPred (fun s => decide (s.file = f)) := by
    unfold filesTable CoreBB.ofPred
    rw [hK.empty]
    congr 1
    funext acc s
    simp only [decide_eq_true_eq, hK.or, hK.single]
  rw [h]
  exact ⟨ok_ofPred _, fun s => by rw [mem_ofPred, decide_eq_true_eq]⟩

end Yasai

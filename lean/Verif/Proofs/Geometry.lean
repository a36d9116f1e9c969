import Verif.Spec.Lines

/-!
# Geometry of steps, slides and betweenness
-/

namespace Yasai

open Spec

theorem Square.file_pos (s : Square) : 1 ≤ s.file := by unfold Square.file; omega
theorem Square.file_le (s : Square) : s.file ≤ 9 := by unfold Square.file; omega
theorem Square.rank_pos (s : Square) : 1 ≤ s.rank := by unfold Square.rank; omega
theorem Square.rank_le (s : Square) : s.rank ≤ 9 := by unfold Square.rank; omega
theorem Square.val_eq (s : Square) : s.val = 9 * (s.file - 1) + (s.rank - 1) := by
  unfold Square.file Square.rank; omega

theorem Square.ext_coords {s t : Square} (h1 : s.file = t.file) (h2 : s.rank = t.rank) : s = t := by
  apply Fin.ext; rw [Square.val_eq s, Square.val_eq t, h1, h2]

theorem ofCoords_eq_some {f r : Int} {t : Square} :
    Square.ofCoords f r = some t ↔ (t.file : Int) = f ∧ (t.rank : Int) = r := by
  unfold Square.ofCoords
  split
  · rename_i h
    simp only [Option.some.injEq]
    constructor
    · rintro rfl
      simp only [Square.file, Square.rank]
      omega
    · rintro ⟨h1, h2⟩
      apply Fin.ext
      have := t.val_eq
      have := t.file_pos
      have := t.rank_pos
      simp only
      omega
  · rename_i h
    constructor
    · intro h'; cases h'
    · rintro ⟨h1, h2⟩
      have := t.file_pos
      have := t.rank_pos
      have := t.file_le
      have := t.rank_le
      omega

theorem shift_eq_some {s t : Square} {df dr : Int} : s.shift df dr = some t ↔ Disp s t df dr := by
  unfold Square.shift Disp
  exact ofCoords_eq_some

theorem exists_of_coords {f r : Int} (h : 1 ≤ f ∧ f ≤ 9 ∧ 1 ≤ r ∧ r ≤ 9) :
    ∃ t : Square, (t.file : Int) = f ∧ (t.rank : Int) = r := by
  refine ⟨⟨((f - 1) * 9 + (r - 1)).toNat, by omega⟩, ?_⟩
  simp only [Square.file, Square.rank]
  omega

theorem disp_unique {s t u : Square} {df dr : Int} (h1 : Disp s t df dr) (h2 : Disp s u df dr) :
    t = u := by
  unfold Disp at *
  apply Square.ext_coords <;> omega

/-- All coordinates of a square in range, as integers. -/
theorem Square.bounds (s : Square) :
    1 ≤ (s.file : Int) ∧ (s.file : Int) ≤ 9 ∧ 1 ≤ (s.rank : Int) ∧ (s.rank : Int) ≤ 9 := by
  have := s.file_pos
  have := s.rank_pos
  have := s.file_le
  have := s.rank_le
  omega

/-- `t` is on the ray from `s` in direction `d`. -/
def OnRay (d : Int × Int) (s t : Square) : Prop :=
  ∃ n : Nat, 1 ≤ n ∧ Disp s t (n * d.1) (n * d.2)

theorem mem_directions {d : Int × Int} : d ∈ directions ↔
    d = (0, 1) ∨ d = (0, -1) ∨ d = (1, 0) ∨ d = (-1, 0) ∨ d = (1, 1) ∨ d = (1, -1) ∨
      d = (-1, 1) ∨ d = (-1, -1) := by
  simp [directions]

theorem ray_unique {d e : Int × Int} (hd : d ∈ directions) (he : e ∈ directions) {s t : Square}
    {m n : Nat} (hm : 1 ≤ m) (hn : 1 ≤ n) (h1 : Disp s t (m * d.1) (m * d.2))
    (h2 : Disp s t (n * e.1) (n * e.2)) : d = e ∧ m = n := by
  rw [mem_directions] at hd he
  unfold Disp at *
  rcases hd with rfl | rfl | rfl | rfl | rfl | rfl | rfl | rfl <;>
  rcases he with rfl | rfl | rfl | rfl | rfl | rfl | rfl | rfl <;>
  simp only [Prod.mk.injEq, true_and] at * <;> omega

theorem ray_le {d : Int × Int} (hd : d ∈ directions) {s t : Square}
    {n : Nat} (h1 : Disp s t (n * d.1) (n * d.2)) : n ≤ 8 := by
  rw [mem_directions] at hd
  unfold Disp at *
  have := s.bounds
  have := t.bounds
  rcases hd with rfl | rfl | rfl | rfl | rfl | rfl | rfl | rfl <;> simp only at * <;> omega

theorem ray_convex {d : Int × Int} (hd : d ∈ directions) {s t : Square}
    {m n : Nat} (hm : m ≤ n) (h1 : Disp s t (n * d.1) (n * d.2)) :
    ∃ u, Disp s u (m * d.1) (m * d.2) := by
  have h : 1 ≤ (s.file : Int) + m * d.1 ∧ (s.file : Int) + m * d.1 ≤ 9 ∧
      1 ≤ (s.rank : Int) + m * d.2 ∧ (s.rank : Int) + m * d.2 ≤ 9 := by
    rw [mem_directions] at hd
    unfold Disp at *
    have := s.bounds
    have := t.bounds
    rcases hd with rfl | rfl | rfl | rfl | rfl | rfl | rfl | rfl <;> simp only at * <;> omega
  exact exists_of_coords h

theorem OnRay.ne {d : Int × Int} (hd : d ∈ directions) {s t : Square} (h : OnRay d s t) :
    s ≠ t := by
  rintro rfl
  obtain ⟨n, hn, h⟩ := h
  rw [mem_directions] at hd
  unfold Disp at *
  rcases hd with rfl | rfl | rfl | rfl | rfl | rfl | rfl | rfl <;> simp only at * <;> omega

theorem OnRay.dir_unique {d e : Int × Int} (hd : d ∈ directions) (he : e ∈ directions)
    {s t : Square} (h1 : OnRay d s t) (h2 : OnRay e s t) : d = e := by
  obtain ⟨m, hm, h1⟩ := h1
  obtain ⟨n, hn, h2⟩ := h2
  exact (ray_unique hd he hm hn h1 h2).1

/-! ## Betweenness -/

theorem between_of_ray {d : Int × Int} (hd : d ∈ directions) {s u t : Square} {n : Nat}
    (hn : 1 ≤ n) (ht : Disp s t (n * d.1) (n * d.2)) :
    Between s u t ↔ ∃ m : Nat, 1 ≤ m ∧ m < n ∧ Disp s u (m * d.1) (m * d.2) := by
  constructor
  · rintro ⟨e, he, m, n', hm, hmn, h1, h2⟩
    obtain ⟨rfl, rfl⟩ := ray_unique hd he hn (by omega) ht h2
    exact ⟨m, hm, hmn, h1⟩
  · rintro ⟨m, hm, hmn, h⟩
    exact ⟨d, hd, m, n, hm, hmn, h, ht⟩

theorem between_symm {s u t : Square} (h : Between s u t) : Between t u s := by
  obtain ⟨d, hd, m, n, hm, hmn, h1, h2⟩ := h
  refine ⟨(-d.1, -d.2), ?_, n - m, n, by omega, by omega, ?_⟩
  · rw [mem_directions] at hd ⊢
    rcases hd with rfl | rfl | rfl | rfl | rfl | rfl | rfl | rfl <;> simp
  · rw [mem_directions] at hd
    unfold Disp at *
    rcases hd with rfl | rfl | rfl | rfl | rfl | rfl | rfl | rfl <;> simp only at * <;> omega

theorem between_comm {s u t : Square} : Between s u t ↔ Between t u s :=
  ⟨between_symm, between_symm⟩

theorem between_ne_left {s u t : Square} (h : Between s u t) : s ≠ u := by
  obtain ⟨d, hd, m, n, hm, hmn, h1, h2⟩ := h
  exact OnRay.ne hd ⟨m, hm, h1⟩

theorem between_ne_right {s u t : Square} (h : Between s u t) : t ≠ u :=
  between_ne_left (between_symm h)

theorem between_ne_ends {s u t : Square} (h : Between s u t) : s ≠ t := by
  obtain ⟨d, hd, m, n, hm, hmn, h1, h2⟩ := h
  exact OnRay.ne hd ⟨n, by omega, h2⟩

/-- a – b – c and a – c – d give a – b – d. -/
theorem between_trans {a b c d : Square} (h1 : Between a b c) (h2 : Between a c d) :
    Between a b d := by
  obtain ⟨e, he, m, n, hm, hmn, h1, h1'⟩ := h1
  obtain ⟨e', he', m', n', hm', hmn', h2, h2'⟩ := h2
  obtain ⟨rfl, rfl⟩ := ray_unique he he' (by omega) hm' h1' h2
  exact ⟨e, he, m, n', hm, by omega, h1, h2'⟩

/-- a – b – c and a – c – d give b – c – d. -/
theorem between_trans_right {a b c d : Square} (h1 : Between a b c) (h2 : Between a c d) :
    Between b c d := by
  obtain ⟨e, he, m, n, hm, hmn, h1, h1'⟩ := h1
  obtain ⟨e', he', m', n', hm', hmn', h2, h2'⟩ := h2
  obtain ⟨rfl, rfl⟩ := ray_unique he he' (by omega) hm' h1' h2
  refine ⟨e, he, n - m, n' - m, by omega, by omega, ?_⟩
  rw [mem_directions] at he
  unfold Disp at *
  rcases he with rfl | rfl | rfl | rfl | rfl | rfl | rfl | rfl <;> simp only at * <;> omega

/-- Two squares between `a` and `d` are ordered. -/
theorem between_linear {a b c d : Square} (h1 : Between a b d) (h2 : Between a c d) :
    b = c ∨ Between a b c ∨ Between a c b := by
  obtain ⟨e, he, m, n, hm, hmn, h1, h1'⟩ := h1
  obtain ⟨e', he', m', n', hm', hmn', h2, h2'⟩ := h2
  obtain ⟨rfl, rfl⟩ := ray_unique he he' (by omega) (by omega) h1' h2'
  rcases Nat.lt_trichotomy m m' with h | rfl | h
  · exact .inr (.inl ⟨e, he, m, m', hm, h, h1, h2⟩)
  · exact .inl (disp_unique h1 h2)
  · exact .inr (.inr ⟨e, he, m', m, hm', h, h2, h1⟩)

/-- Two squares beyond `b` seen from `a` are ordered. -/
theorem between_beyond {a b c d : Square} (h1 : Between a b c) (h2 : Between a b d) :
    c = d ∨ Between a c d ∨ Between a d c := by
  obtain ⟨e, he, m, n, hm, hmn, h1, h1'⟩ := h1
  obtain ⟨e', he', m', n', hm', hmn', h2, h2'⟩ := h2
  obtain ⟨rfl, rfl⟩ := ray_unique he he' hm hm' h1 h2
  rcases Nat.lt_trichotomy n n' with h | rfl | h
  · exact .inr (.inl ⟨e, he, n, n', by omega, h, h1', h2'⟩)
  · exact .inl (disp_unique h1' h2')
  · exact .inr (.inr ⟨e, he, n', n, by omega, h, h2', h1'⟩)

/-- a – b – d and b – c – d give a – b – c. -/
theorem between_inner {a b c d : Square} (h1 : Between a b d) (h2 : Between b c d) :
    Between a b c :=
  between_symm (between_trans_right (between_symm h2) (between_symm h1))

/-- a – b – d and b – c – d give a – c – d. -/
theorem between_outer {a b c d : Square} (h1 : Between a b d) (h2 : Between b c d) :
    Between a c d :=
  between_symm (between_trans (between_symm h2) (between_symm h1))

/-! ## Steps and slides -/

/-- A single step of a piece. -/
def Step (k : PieceKind) (c : Color) (s t : Square) : Prop :=
  ∃ d ∈ steps k, Disp s t d.1 (fwd c * d.2)

/-- `t` lies on a line along which the piece slides. -/
def Slide (k : PieceKind) (c : Color) (s t : Square) : Prop :=
  ∃ d ∈ slides k, OnRay (d.1, fwd c * d.2) s t

theorem slide_dir {k : PieceKind} {c : Color} {d : Int × Int} (h : d ∈ slides k) :
    (d.1, fwd c * d.2) ∈ directions := by
  revert d
  cases k <;> cases c <;> decide

theorem reaches_iff {occ : Square → Prop} {k : PieceKind} {c : Color} {s t : Square} :
    Reaches occ k c s t ↔ Step k c s t ∨ (Slide k c s t ∧ ∀ u, Between s u t → ¬ occ u) := by
  unfold Reaches Step Slide OnRay
  apply or_congr Iff.rfl
  constructor
  · rintro ⟨d, hd, n, hn, h1, h2⟩
    refine ⟨⟨d, hd, n, hn, h1⟩, fun u hu => ?_⟩
    rw [between_of_ray (slide_dir hd) hn h1] at hu
    obtain ⟨m, hm, hmn, hu⟩ := hu
    exact h2 m hm hmn u hu
  · rintro ⟨⟨d, hd, n, hn, h1⟩, h2⟩
    refine ⟨d, hd, n, hn, h1, fun m hm hmn u hu => h2 u ?_⟩
    rw [between_of_ray (slide_dir hd) hn h1]
    exact ⟨m, hm, hmn, hu⟩

theorem steps_small {k : PieceKind} {d : Int × Int} (h : d ∈ steps k) :
    (-1 ≤ d.1 ∧ d.1 ≤ 1) ∧ (-1 ≤ d.2 ∧ d.2 ≤ 1 ∨ (d.2 = 2 ∧ d.1 ≠ 0)) ∧ d ≠ (0, 0) := by
  revert d
  cases k <;> decide

theorem fwd_cases (c : Color) : fwd c = 1 ∨ fwd c = -1 := by cases c <;> decide

theorem step_not_between {k : PieceKind} {c : Color} {s u t : Square} (h : Step k c s t) :
    ¬ Between s u t := by
  obtain ⟨d, hd, h⟩ := h
  rintro ⟨e, he, m, n, hm, hmn, h1, h2⟩
  obtain ⟨⟨a1, a2⟩, a3, a4⟩ := steps_small hd
  rw [mem_directions] at he
  unfold Disp at *
  rcases fwd_cases c with hc | hc <;> rw [hc] at h <;>
  rcases he with rfl | rfl | rfl | rfl | rfl | rfl | rfl | rfl <;> simp only at * <;> omega

theorem step_ne {k : PieceKind} {c : Color} {s t : Square} (h : Step k c s t) : s ≠ t := by
  rintro rfl
  obtain ⟨d, hd, h⟩ := h
  obtain ⟨⟨a1, a2⟩, a3, a4⟩ := steps_small hd
  unfold Disp at h
  apply a4
  rcases fwd_cases c with hc | hc <;> rw [hc] at h
  · exact Prod.ext (by simp only; omega) (by simp only; omega)
  · exact Prod.ext (by simp only; omega) (by simp only; omega)

theorem slide_ne {k : PieceKind} {c : Color} {s t : Square} (h : Slide k c s t) : s ≠ t := by
  obtain ⟨d, hd, h⟩ := h
  exact h.ne (slide_dir hd)

theorem reaches_ne {occ : Square → Prop} {k : PieceKind} {c : Color} {s t : Square}
    (h : Reaches occ k c s t) : s ≠ t := by
  rw [reaches_iff] at h
  rcases h with h | h
  · exact step_ne h
  · exact slide_ne h.1

theorem slide_between_left {k : PieceKind} {c : Color} {s u t : Square} (h : Slide k c s t)
    (hu : Between s u t) : Slide k c s u := by
  obtain ⟨d, hd, n, hn, h⟩ := h
  rw [between_of_ray (slide_dir hd) hn h] at hu
  obtain ⟨m, hm, hmn, hu⟩ := hu
  exact ⟨d, hd, m, hm, hu⟩

theorem slide_between_right {k : PieceKind} {c : Color} {s u t : Square} (h : Slide k c s t)
    (hu : Between s u t) : Slide k c u t := by
  obtain ⟨d, hd, n, hn, h⟩ := h
  have hd' := slide_dir (c := c) hd
  rw [between_of_ray hd' hn h] at hu
  obtain ⟨m, hm, hmn, hu⟩ := hu
  refine ⟨d, hd, n - m, by omega, ?_⟩
  generalize (d.1, fwd c * d.2) = e at *
  rw [mem_directions] at hd'
  unfold Disp at *
  rcases hd' with rfl | rfl | rfl | rfl | rfl | rfl | rfl | rfl <;> simp only at * <;> omega

theorem flip_fwd (c : Color) : fwd c.flip = - fwd c := by cases c <;> rfl

theorem steps_neg {k : PieceKind} {d : Int × Int} (h : d ∈ steps k) : (-d.1, d.2) ∈ steps k := by
  revert d
  cases k <;> decide

theorem slides_neg {k : PieceKind} {d : Int × Int} (h : d ∈ slides k) :
    (-d.1, d.2) ∈ slides k := by
  revert d
  cases k <;> decide

theorem step_symm {k : PieceKind} {c : Color} {s t : Square} (h : Step k c s t) :
    Step k c.flip t s := by
  obtain ⟨d, hd, h⟩ := h
  refine ⟨(-d.1, d.2), steps_neg hd, ?_⟩
  rw [flip_fwd]
  unfold Disp at *
  simp only [Int.neg_mul]
  generalize fwd c * d.2 = x at *
  omega

theorem slide_symm {k : PieceKind} {c : Color} {s t : Square} (h : Slide k c s t) :
    Slide k c.flip t s := by
  obtain ⟨d, hd, n, hn, h⟩ := h
  refine ⟨(-d.1, d.2), slides_neg hd, n, hn, ?_⟩
  rw [flip_fwd]
  unfold Disp at *
  simp only [Int.neg_mul, Int.mul_neg] at *
  generalize (n : Int) * (fwd c * d.2) = x at *
  generalize (n : Int) * d.1 = y at *
  omega

theorem flip_flip (c : Color) : c.flip.flip = c := by cases c <;> rfl

theorem step_comm {k : PieceKind} {c : Color} {s t : Square} :
    Step k c s t ↔ Step k c.flip t s :=
  ⟨step_symm, fun h => by have := step_symm h; rwa [flip_flip] at this⟩

theorem slide_comm {k : PieceKind} {c : Color} {s t : Square} :
    Slide k c s t ↔ Slide k c.flip t s :=
  ⟨slide_symm, fun h => by have := slide_symm h; rwa [flip_flip] at this⟩

/-- Reversal: `s` reaches `t` iff the same kind of the other colour reaches `s` from `t`. -/
theorem reaches_comm {occ : Square → Prop} {k : PieceKind} {c : Color} {s t : Square} :
    Reaches occ k c s t ↔ Reaches occ k c.flip t s := by
  rw [reaches_iff, reaches_iff, step_comm, slide_comm]
  simp only [between_comm]

end Yasai

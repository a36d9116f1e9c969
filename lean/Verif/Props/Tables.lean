import Verif.Proofs.Tables
import Verif.Proofs.Undo

/-!
# C25, C28, C29: attack tables and the between table
-/

namespace Yasai.Props

open Yasai Spec

/-- `t` is found by walking from `s` in steps of `d`, up to and including the first occupied
square. -/
def WalkReaches (occ : Square → Bool) (d : Int × Int) (s t : Square) : Prop :=
  ∃ n : Nat, 1 ≤ n ∧ Disp s t (n * d.1) (n * d.2) ∧
    ∀ m : Nat, 1 ≤ m → m < n → ∀ u, Disp s u (m * d.1) (m * d.2) → occ u = false

theorem walkReaches_iff {occ : Square → Bool} {d : Int × Int} (hd : d ∈ directions)
    {s t : Square} :
    WalkReaches occ d s t ↔ OnRay d s t ∧ ∀ u, Between s u t → occ u = false := by
  constructor
  · rintro ⟨n, hn, h1, h2⟩
    refine ⟨⟨n, hn, h1⟩, fun u hu => ?_⟩
    rw [between_of_ray hd hn h1] at hu
    obtain ⟨m, hm, hmn, hu⟩ := hu
    exact h2 m hm hmn u hu
  · rintro ⟨⟨n, hn, h1⟩, h2⟩
    exact ⟨n, hn, h1, fun m hm hmn u hu => h2 u ((between_of_ray hd hn h1).2 ⟨m, hm, hmn, hu⟩)⟩

/-- C25.  The bit tricks for lance, bishop and rook equal the ray walks, for every square, colour
and occupancy. -/
theorem C25_sliding_attacks (K : Backend) (hK : K ∈ backends) (s t : Square) (occ : BB) :
    (∀ c, K.contains (kyAttack K s c occ) t = true ↔
      WalkReaches (K.contains occ) (0, fwd c) s t) ∧
    (K.contains (kaAttack K s occ) t = true ↔
      ∃ d ∈ diagonals, WalkReaches (K.contains occ) d s t) ∧
    (K.contains (hiAttack K s occ) t = true ↔
      ∃ d ∈ orthogonals, WalkReaches (K.contains occ) d s t) := by
  have L := lawful_of_mem hK
  have hc : K.contains occ = mem occ := funext fun u => L.contains occ u
  rw [hc]
  simp only [L.contains]
  refine ⟨fun c => ?_, ?_, ?_⟩
  · rw [(kyAttack_spec L s c occ).2, walkReaches_iff (by cases c <;> decide), slide_lance]
    have e : (lanceDelta c).dir = (0, fwd c) := by cases c <;> rfl
    rw [e]
    exact Iff.rfl
  · rw [(kaAttack_spec L s occ .black).2]
    unfold Slide
    constructor
    · rintro ⟨⟨d, hd, h1⟩, h2⟩
      refine ⟨(d.1, fwd .black * d.2), ?_, (walkReaches_iff (slide_dir hd)).2 ⟨h1, h2⟩⟩
      exact (by decide : ∀ d ∈ slides .bishop, (d.1, fwd .black * d.2) ∈ diagonals) d hd
    · rintro ⟨d, hd, h⟩
      have hd' : d ∈ directions := (by decide : ∀ d ∈ diagonals, d ∈ directions) d hd
      rw [walkReaches_iff hd'] at h
      refine ⟨⟨(d.1, -d.2), ?_, ?_⟩, h.2⟩
      · exact (by decide : ∀ d ∈ diagonals, (d.1, -d.2) ∈ slides .bishop) d hd
      · have e : (d.1, fwd .black * -d.2) = d := by
          apply Prod.ext
          · rfl
          · simp only [fwd]; omega
        rw [e]; exact h.1
  · rw [(hiAttack_spec L s occ .black).2]
    unfold Slide
    constructor
    · rintro ⟨⟨d, hd, h1⟩, h2⟩
      refine ⟨(d.1, fwd .black * d.2), ?_, (walkReaches_iff (slide_dir hd)).2 ⟨h1, h2⟩⟩
      exact (by decide : ∀ d ∈ slides .rook, (d.1, fwd .black * d.2) ∈ orthogonals) d hd
    · rintro ⟨d, hd, h⟩
      have hd' : d ∈ directions := (by decide : ∀ d ∈ orthogonals, d ∈ directions) d hd
      rw [walkReaches_iff hd'] at h
      refine ⟨⟨(d.1, -d.2), ?_, ?_⟩, h.2⟩
      · exact (by decide : ∀ d ∈ orthogonals, (d.1, -d.2) ∈ slides .rook) d hd
      · have e : (d.1, fwd .black * -d.2) = d := by
          apply Prod.ext
          · rfl
          · simp only [fwd]; omega
        rw [e]; exact h.1

/-- C25, all kinds: `ATTACK_TABLE.attack` is the movement rule of the piece. -/
theorem C25_attack_table (K : Backend) (hK : K ∈ backends) (k : PieceKind) (c : Color)
    (s t : Square) (occ : BB) :
    K.contains (tableAttack K k s c occ) t = true ↔
      Reaches (fun u => K.contains occ u = true) k c s t := by
  have L := lawful_of_mem hK
  simp only [L.contains]
  exact mem_tableAttack L k s c occ t

/-- C28.  Reversing the colour reverses the attack relation. -/
theorem C28_attack_reversal (K : Backend) (hK : K ∈ backends) (k : PieceKind) (c : Color)
    (s t : Square) (occ : BB) :
    K.contains (tableAttack K k s c occ) t = K.contains (tableAttack K k t c.flip occ) s := by
  rw [Bool.eq_iff_iff, C25_attack_table K hK, C25_attack_table K hK]
  exact reaches_comm

/-- C29.  The between table holds exactly the squares strictly between two squares. -/
theorem C29_between (K : Backend) (hK : K ∈ backends) (a b u : Square) :
    K.contains (betweenTable K a b) u = true ↔ Between a u b := by
  have L := lawful_of_mem hK
  rw [L.contains]
  exact mem_betweenTable L a b u

/-- C29, unaligned squares have nothing between them. -/
theorem C29_unaligned (K : Backend) (hK : K ∈ backends) (a b : Square)
    (h : a.file ≠ b.file ∧ a.rank ≠ b.rank ∧
      ((a.file : Int) - b.file).natAbs ≠ ((a.rank : Int) - b.rank).natAbs) :
    K.isEmpty (betweenTable K a b) = true := by
  have L := lawful_of_mem hK
  rw [L.isEmpty, beq_iff_eq, eq_zero_iff (betweenTable_spec L a b).1]
  intro u
  rw [← Bool.not_eq_true, mem_betweenTable L]
  apply not_between_of_not_aligned
  right
  omega

/-- The kind whose slides `pseudo_attack` holds: the promoted bishop and rook count as the plain
ones. -/
def plainSlider : PieceKind → PieceKind
  | .proBishop => .bishop
  | .proRook => .rook
  | k => k

/-- C50.  `pseudo_attack` is the movement of the piece on an empty board (for the promoted bishop
and rook, without their king steps). -/
theorem C50_pseudo_attack (K : Backend) (hK : K ∈ backends) (k : PieceKind) (c : Color)
    (s t : Square) :
    K.contains (tablePseudoAttack K k s c) t = true ↔
      Reaches (fun _ => False) (plainSlider k) c s t := by
  have L := lawful_of_mem hK
  rw [L.contains]
  have slider : ∀ k', steps k' = [] → (Slide k' c s t ↔ Reaches (fun _ => False) k' c s t) := by
    intro k' h
    unfold Slide Reaches OnRay
    constructor
    · rintro ⟨d, hd, n, hn, h1⟩
      exact .inr ⟨d, hd, n, hn, h1, fun _ _ _ _ _ => not_false⟩
    · rintro (⟨d, hd, _⟩ | ⟨d, hd, n, hn, h1, _⟩)
      · rw [h] at hd; cases hd
      · exact ⟨d, hd, n, hn, h1⟩
  have other : ∀ k', mem (tableAttack K k' s c K.empty) t = true ↔
      Reaches (fun _ => False) k' c s t := by
    intro k'
    rw [mem_tableAttack L, L.empty]
    simp only [mem_zero, Bool.false_eq_true]
  cases k with
  | lance => exact ((kyPseudo_spec L s c).2 t).trans (slider .lance rfl)
  | bishop => exact ((kaPseudo_spec L s c).2 t).trans (slider .bishop rfl)
  | rook => exact ((hiPseudo_spec L s c).2 t).trans (slider .rook rfl)
  | proBishop => exact ((kaPseudo_spec L s c).2 t).trans (slider .bishop rfl)
  | proRook => exact ((hiPseudo_spec L s c).2 t).trans (slider .rook rfl)
  | pawn => exact other .pawn
  | knight => exact other .knight
  | silver => exact other .silver
  | gold => exact other .gold
  | king => exact other .king
  | proPawn => exact other .proPawn
  | proLance => exact other .proLance
  | proKnight => exact other .proKnight
  | proSilver => exact other .proSilver

/-- C50.  `FILES[f]` holds exactly the squares of file `f`. -/
theorem C50_files (K : Backend) (hK : K ∈ backends) (f : Nat) (s : Square) :
    K.contains (filesTable K f) s = true ↔ s.file = f := by
  have L := lawful_of_mem hK
  rw [L.contains]
  exact (filesTable_spec L f).2 s

/-- C50.  `PROMOTABLE` is the promotion zone; the comparisons with `RELATIVE_RANKS` in the move
generator are the dead-piece rule; relative ranks count from the far side. -/
theorem C50_ranks (s : Square) (c : Color) :
    (promotable s c = true ↔ InZone c s) ∧
    (¬ 1 < relativeRanks s c ↔ Dead .pawn c s) ∧ (¬ 1 < relativeRanks s c ↔ Dead .lance c s) ∧
    (¬ 2 < relativeRanks s c ↔ Dead .knight c s) ∧
    relativeRanks s .black = s.rank ∧ relativeRanks s .white = 10 - s.rank := by
  have h1 := s.rank_pos
  have h2 := s.rank_le
  refine ⟨?_, ?_, ?_, ?_, rfl, rfl⟩
  · unfold promotable
    rw [decide_eq_true_iff]
    cases c <;> simp only [relativeRanks, Square.relativeRank, InZone] <;> omega
  all_goals cases c <;> simp only [relativeRanks, Square.relativeRank, Dead] <;> omega

/-- Non-trivial instances: a rook on 5e with a blocker on 5c and a bishop line. -/
example : Between (42 : Square) 41 38 ∧ ¬ Between (42 : Square) 40 48 ∧
    WalkReaches (fun u => decide (u = 38)) (0, -1) 40 38 ∧
    ¬ WalkReaches (fun u => decide (u = 38)) (0, -1) 40 37 := by
  have hd : ((0, -1) : Int × Int) ∈ directions := by decide
  refine ⟨⟨(0, -1), hd, 1, 4, by decide, by decide, by decide, by decide⟩, ?_,
    ⟨2, by decide, by decide, ?_⟩, ?_⟩
  · apply not_between_of_not_aligned; decide
  · intro m h1 h2 u hu
    obtain rfl : m = 1 := by omega
    have : Disp 40 39 (((1 : Nat) : Int) * (0, -1).1) (((1 : Nat) : Int) * (0, -1).2) := by decide
    rw [disp_unique hu this]; decide
  · rintro ⟨n, hn, h1, h2⟩
    have h3 : Disp 40 37 (((3 : Nat) : Int) * (0, -1).1) (((3 : Nat) : Int) * (0, -1).2) := by decide
    obtain ⟨_, rfl⟩ := ray_unique hd hd hn (by decide) h1 h3
    have := h2 2 (by decide) (by decide) 38 (by decide)
    exact absurd this (by decide)

end Yasai.Props

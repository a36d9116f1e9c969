import Verif.Proofs.Evasions
import Verif.Proofs.Count
import Verif.Proofs.Decide

/-!
# Moves of a single piece on an empty board
-/

namespace Yasai

open Spec

/-! ## Destinations on an empty board -/

/-- All squares a piece reaches on an empty board (with repetitions). -/
def reachList (k : PieceKind) (c : Color) (s : Square) : List Square :=
  (steps k).filterMap (fun d => s.shift d.1 (fwd c * d.2)) ++
  (slides k).flatMap fun d => [1, 2, 3, 4, 5, 6, 7, 8].filterMap fun n : Nat =>
    s.shift (n * d.1) (n * (fwd c * d.2))

theorem mem_reachList {occ : Square → Prop} {k : PieceKind} {c : Color} {s t : Square}
    (h : Reaches occ k c s t) : t ∈ reachList k c s := by
  unfold reachList
  rw [List.mem_append]
  rcases h with ⟨d, hd, h⟩ | ⟨d, hd, n, hn, h, _⟩
  · left
    rw [List.mem_filterMap]
    exact ⟨d, hd, shift_eq_some.2 h⟩
  · right
    rw [List.mem_flatMap]
    refine ⟨d, hd, ?_⟩
    rw [List.mem_filterMap]
    refine ⟨n, ?_, shift_eq_some.2 h⟩
    have := ray_le (slide_dir (c := c) hd) (s := s) (t := t) h
    have : n = 1 ∨ n = 2 ∨ n = 3 ∨ n = 4 ∨ n = 5 ∨ n = 6 ∨ n = 7 ∨ n = 8 := by omega
    simpa using this

/-- The promotion choices of a move. -/
def choices (k : PieceKind) (c : Color) (frm to : Square) : List Bool :=
  (if k.promote.isSome && (decide (InZone c frm) || decide (InZone c to)) then [true] else []) ++
  (if decide (Dead k c to) then [] else [false])

/-- The moves of a piece on an empty board, except to the square `no`. -/
def freeMoves (no : Option Square) (k : PieceKind) (c : Color) (s : Square) : List Move :=
  ((reachList k c s).filter (fun t => decide (some t ≠ no))).flatMap fun t =>
    (choices k c s t).map (Move.normal s t)

/-- Rank counted from the far side. -/
def relRank (c : Color) (s : Square) : Nat :=
  match c with
  | .black => s.rank
  | .white => 10 - s.rank

/-- Upper bounds for the number of free moves of each kind, by rank. -/
def maxFree (k : PieceKind) (r : Nat) : Nat :=
  (match k with
  | .pawn => [0, 1, 2, 2, 1, 1, 1, 1, 1]
  | .lance => [0, 1, 3, 5, 6, 7, 8, 9, 10]
  | .knight => [0, 0, 2, 2, 4, 2, 2, 2, 2]
  | .silver => [4, 10, 10, 8, 5, 5, 5, 5, 3]
  | .bishop => [16, 20, 24, 20, 22, 18, 15, 13, 11]
  | .rook => [32, 32, 32, 19, 19, 19, 19, 19, 19]
  | .king => [5, 8, 8, 8, 8, 8, 8, 8, 5]
  | .proBishop => [13, 18, 20, 22, 24, 22, 20, 18, 13]
  | .proRook => [21, 24, 24, 24, 24, 24, 24, 24, 21]
  | _ => [3, 6, 6, 6, 6, 6, 6, 6, 5]).getD (r - 1) 0

/-- The same when the opponent's king stands on the farthest rank: it takes two moves from a rook on
that rank. -/
def maxFree' (k : PieceKind) (r : Nat) : Nat :=
  if k = .rook ∧ r = 1 then 30 else maxFree k r

theorem length_flatMap_le {α β : Type} (l : List α) (p : α → Bool) (f : α → List β) :
    ((l.filter p).flatMap f).length ≤ (l.flatMap f).length := by
  induction l with
  | nil => exact Nat.le_refl _
  | cons a l ih =>
    rw [List.filter_cons, List.flatMap_cons, List.length_append]
    split
    · rw [List.flatMap_cons, List.length_append]; omega
    · omega

theorem free_none : ∀ c ∈ [Color.black, .white], ∀ k ∈ PieceKind.all, ∀ s ∈ Square.all,
    ((reachList k c s).flatMap fun t => (choices k c s t).map (Move.normal s t)).length ≤
      maxFree k (relRank c s) := by decide +kernel

theorem free_rook : ∀ c ∈ [Color.black, .white], ∀ s ∈ Square.all, ∀ t ∈ Square.all,
    relRank c s = 1 → relRank c t = 1 → s ≠ t → (freeMoves (some t) .rook c s).length ≤ 30 := by
  decide +kernel

end Yasai

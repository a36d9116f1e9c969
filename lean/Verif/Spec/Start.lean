import Verif.Spec.Rules

/-!
# The initial position of a game, as a diagram
-/

namespace Yasai.Spec

open Yasai

/-- Ranks 1 to 9 from top to bottom, files 9 to 1 from left to right, in the letters of SFEN: capitals
are Black's pieces. -/
def initialDiagram : List (List Char) :=
  [['l', 'n', 's', 'g', 'k', 'g', 's', 'n', 'l'],
   ['.', 'r', '.', '.', '.', '.', '.', 'b', '.'],
   ['p', 'p', 'p', 'p', 'p', 'p', 'p', 'p', 'p'],
   ['.', '.', '.', '.', '.', '.', '.', '.', '.'],
   ['.', '.', '.', '.', '.', '.', '.', '.', '.'],
   ['.', '.', '.', '.', '.', '.', '.', '.', '.'],
   ['P', 'P', 'P', 'P', 'P', 'P', 'P', 'P', 'P'],
   ['.', 'B', '.', '.', '.', '.', '.', 'R', '.'],
   ['L', 'N', 'S', 'G', 'K', 'G', 'S', 'N', 'L']]

/-- The piece written by a letter. -/
def letter : Char → Option Piece
  | 'P' => some ⟨.pawn, .black⟩
  | 'L' => some ⟨.lance, .black⟩
  | 'N' => some ⟨.knight, .black⟩
  | 'S' => some ⟨.silver, .black⟩
  | 'G' => some ⟨.gold, .black⟩
  | 'B' => some ⟨.bishop, .black⟩
  | 'R' => some ⟨.rook, .black⟩
  | 'K' => some ⟨.king, .black⟩
  | 'p' => some ⟨.pawn, .white⟩
  | 'l' => some ⟨.lance, .white⟩
  | 'n' => some ⟨.knight, .white⟩
  | 's' => some ⟨.silver, .white⟩
  | 'g' => some ⟨.gold, .white⟩
  | 'b' => some ⟨.bishop, .white⟩
  | 'r' => some ⟨.rook, .white⟩
  | 'k' => some ⟨.king, .white⟩
  | _ => none

/-- The initial position: the diagram, empty hands, Black to move. -/
def initial : Pos where
  board := fun s => letter (((initialDiagram.getD (s.rank - 1) []).getD (9 - s.file)) '.')
  hand := fun _ _ => 0
  side := .black

end Yasai.Spec

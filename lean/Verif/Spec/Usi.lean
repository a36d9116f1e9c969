import Verif.Spec.Rules

/-!
# The USI notation of moves
-/

namespace Yasai.Spec

/-- The square is written as a digit for the file and a letter for the rank. -/
def Written (s : Square) (a b : Char) : Prop :=
  ['1', '2', '3', '4', '5', '6', '7', '8', '9'][s.file - 1]? = some a ∧
  ['a', 'b', 'c', 'd', 'e', 'f', 'g', 'h', 'i'][s.rank - 1]? = some b

/-- The letters of the pieces that can be dropped. -/
def usiLetters : List (PieceKind × Char) :=
  [(.pawn, 'P'), (.lance, 'L'), (.knight, 'N'), (.silver, 'S'), (.gold, 'G'), (.bishop, 'B'),
   (.rook, 'R')]

/-- `Usi m t`: the text `t` stands for the move `m`. -/
inductive Usi : Move → List Char → Prop where
  /-- `7g7f` -/
  | board {frm to : Square} {a b c d : Char} : Written frm a b → Written to c d →
      Usi (.normal frm to false) [a, b, c, d]
  /-- `8h2b+` -/
  | promotion {frm to : Square} {a b c d : Char} : Written frm a b → Written to c d →
      Usi (.normal frm to true) [a, b, c, d, '+']
  /-- `P*5e` -/
  | drop {to : Square} {k : PieceKind} {col : Color} {x a b : Char} : (k, x) ∈ usiLetters →
      Written to a b → Usi (.drop to ⟨k, col⟩) [x, '*', a, b]

end Yasai.Spec

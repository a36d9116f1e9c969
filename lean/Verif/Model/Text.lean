import Verif.Model.Perft
import Verif.Model.Start

/-!
# The text printed by the example

/repo/examples/perft.rs prints moves with `to_usi_owned` of `shogi_core` (its documented behaviour: the
USI notation).  A text is a list of characters.  The lines with the time are not modelled.
-/

namespace Yasai

/-- `Square::to_usi`: the file as a digit, the rank as a letter. -/
def Square.text (s : Square) : List Char := [Char.ofNat (48 + s.file), Char.ofNat (96 + s.rank)]

/-- `PieceKind::to_usi`. -/
def PieceKind.text : PieceKind → List Char
  | .pawn => ['P']
  | .lance => ['L']
  | .knight => ['N']
  | .silver => ['S']
  | .gold => ['G']
  | .bishop => ['B']
  | .rook => ['R']
  | .king => ['K']
  | .proPawn => ['+', 'P']
  | .proLance => ['+', 'L']
  | .proKnight => ['+', 'N']
  | .proSilver => ['+', 'S']
  | .proBishop => ['+', 'B']
  | .proRook => ['+', 'R']

/-- `Move::to_usi_owned`: the colour of a dropped piece is not written. -/
def Move.text : Move → List Char
  | .normal frm to pr => Square.text frm ++ Square.text to ++ if pr then ['+'] else []
  | .drop to pc => pc.kind.text ++ '*' :: Square.text to

/-- `println!("{}: {count}", m.to_usi_owned())` (/repo/examples/perft.rs:43), without the line end. -/
def perftLine (x : Move × Nat) : List Char := x.1.text ++ ':' :: ' ' :: Nat.toDigits 10 x.2

/-- `main` of /repo/examples/perft.rs:6-24 with the depth given: the lines printed by `perft` and the
total.  The assertion of line 10 is a panic. -/
def exampleMain (E : Env) (K : Backend) (depth : Nat) : Option (List (List Char) × Nat) := do
  let pos ← Position.default E K
  let ms ← pos.legalMoves E K
  if ms.length = 30 then
    let (lines, total, _) ← perftRoot E K depth pos
    pure (lines.map perftLine, total)
  else none

end Yasai

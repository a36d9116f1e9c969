import Verif.Model.ShogiCore

/-!
# The sequence of numbers of a generator and the numbering of the table entries
-/

namespace Yasai.Spec

open Yasai

/-- The `n`-th number (from 0) that a generator gives from a state on. -/
def draws {σ : Type} (next : σ → BitVec 64 × σ) (r : σ) : Nat → BitVec 64
  | 0 => (next r).1
  | n + 1 => draws next (next r).2 n

/-- Black 0, White 1. -/
def colorNo : Color → Nat
  | .black => 0
  | .white => 1

/-- The kinds numbered 0 to 13. -/
def kindNo : PieceKind → Nat
  | .pawn => 0
  | .lance => 1
  | .knight => 2
  | .silver => 3
  | .gold => 4
  | .bishop => 5
  | .rook => 6
  | .king => 7
  | .proPawn => 8
  | .proLance => 9
  | .proKnight => 10
  | .proSilver => 11
  | .proBishop => 12
  | .proRook => 13

/-- Number of the draw for a square, colour and kind. -/
def boardDraw (s : Square) (c : Color) (k : PieceKind) : Nat :=
  28 * s.val + 14 * colorNo c + kindNo k

/-- Number of the draw for the `n`-th piece (from 0) of a kind in hand. -/
def handDraw (c : Color) (k : PieceKind) (n : Nat) : Nat :=
  2268 + (7 * colorNo c + kindNo k) * 18 + n

end Yasai.Spec

import Verif.Model.ShogiCore

/-!
# Zobrist hashing from scratch
-/

namespace Yasai.Spec

open Yasai

/-- XOR of a list of words. -/
def xorAll (l : List (BitVec 64)) : BitVec 64 := l.foldr (· ^^^ ·) 0#64

/-- The XOR of the table entries of all pieces on the board. -/
def boardHash (tbl : Square → Piece → BitVec 64) (b : Square → Option Piece) : BitVec 64 :=
  xorAll (Square.all.map fun s => match b s with | some p => tbl s p | none => 0#64)

/-- The kinds that can be held in hand. -/
def handKinds : List PieceKind := [.pawn, .lance, .knight, .silver, .gold, .bishop, .rook]

/-- The XOR of the table entries of all pieces in the hands: the `i`-th piece of a kind (from 0)
contributes entry `i`. -/
def handHash (tbl : Color → PieceKind → Nat → BitVec 64) (h : Color → PieceKind → Nat) :
    BitVec 64 :=
  xorAll (Color.all.flatMap fun c => handKinds.flatMap fun k =>
    (List.range (h c k)).map (tbl c k))

end Yasai.Spec

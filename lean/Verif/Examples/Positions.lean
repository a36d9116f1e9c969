import Verif.Model.Perft
import Verif.Model.Start

/-!
# Concrete positions used to show that hypotheses are satisfiable, and as counterexamples
-/

namespace Yasai.Examples

open Yasai

/-- Square from file (1..9) and rank (1..9). -/
def sq (f r : Nat) : Square := (Square.ofCoords f r).getD 0

/-- Board from a list of entries `(file, rank, kind, colour)`. -/
def boardOf (l : List (Nat × Nat × PieceKind × Color)) : Square → Option Piece := fun s =>
  match l.find? (fun e => e.1 == s.file && e.2.1 == s.rank) with
  | some e => some ⟨e.2.2.1, e.2.2.2⟩
  | none => none

/-- Hand from a list of counts. -/
def handOf (l : List (PieceKind × Nat)) : Hand :=
  ⟨fun k => match l.find? (fun e => decide (e.1 = k)) with | some e => e.2 | none => 0⟩

/-- An environment with constant "random" numbers. -/
def env0 : Env := ⟨fun _ _ _ => 0#64, fun _ _ _ => 0#64, true⟩

/-- The initial position of a game. -/
abbrev startpos : CorePartialPosition := CorePartialPosition.startpos

/-- The position with 593 legal moves
("sfen R8/2K1S1SSk/4B4/9/9/9/9/9/1L1L1L3 b RBGSNLP3g3n17p 1", /repo/src/movegen.rs:463). -/
def maxMoves : CorePartialPosition where
  side := .black
  ply := 1#16
  hands := fun c => match c with
    | .black => handOf [(.rook,1),(.bishop,1),(.gold,1),(.silver,1),(.knight,1),(.lance,1),(.pawn,1)]
    | .white => handOf [(.gold,3),(.knight,3),(.pawn,17)]
  board := boardOf ([
    (9,1,.rook,.black),(7,2,.king,.black),(5,2,.silver,.black),(3,2,.silver,.black),
    (2,2,.silver,.black),(1,2,.king,.white),(5,3,.bishop,.black),
    (8,9,.lance,.black),(6,9,.lance,.black),(4,9,.lance,.black)])

/-- A small middle-game position: Black can capture a promoted silver with promotion, or drop a
pawn; White's rook pins a gold. -/
def skirmish : CorePartialPosition where
  side := .black
  ply := 41#16
  hands := fun c => match c with
    | .black => handOf [(.pawn,2),(.knight,1)]
    | .white => handOf [(.bishop,1)]
  board := boardOf ([
    (5,9,.king,.black),(5,8,.gold,.black),(2,8,.rook,.black),(7,7,.pawn,.black),(9,9,.lance,.black),
    (5,1,.king,.white),(5,3,.rook,.white),(2,3,.proSilver,.white),(4,3,.pawn,.white),
    (1,1,.lance,.white)])

end Yasai.Examples

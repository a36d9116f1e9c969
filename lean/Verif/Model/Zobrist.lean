import Verif.Model.ShogiCore

/-!
# Zobrist keys: /repo/src/zobrist.rs
-/

namespace Yasai

/-- `Key` (/repo/src/zobrist.rs:9); its operators `!`, `&`, `^` (lines 15-48) are those of the `u64`
inside. -/
abbrev Key := BitVec 64

/-- `Key::ZERO` (/repo/src/zobrist.rs:12). -/
def Key.ZERO : Key := 0#64

/-- `Key::COLOR` (/repo/src/zobrist.rs:13). -/
def Key.COLOR : Key := 1#64

/-- What the model leaves open about the build and the run: the numbers drawn from `StdRng`
(/repo/src/zobrist.rs:69-84) and whether arithmetic overflow panics (debug) or wraps (release). -/
structure Env where
  rngBoard : Square → Color → PieceKind → BitVec 64
  rngHand : Color → PieceKind → Nat → BitVec 64
  overflowChecks : Bool

/-- `ZobristTable::MAX_HAND_NUM` (/repo/src/zobrist.rs:56). -/
def maxHandNum : Nat := 18

/-- `ZobristTable::board` (/repo/src/zobrist.rs:58-60) with the entry of lines 70-77. -/
def Env.zobBoard (E : Env) (sq : Square) (p : Piece) : Key :=
  E.rngBoard sq p.color p.kind &&& ~~~Key.COLOR

/-- `ZobristTable::hand` (/repo/src/zobrist.rs:61-63) with the entries of lines 78-84: `none` when
an index is out of bounds; row 7 (`King`) exists but is never filled. -/
def Env.zobHand (E : Env) (c : Color) (pk : PieceKind) (num : Nat) : Option Key :=
  if num < maxHandNum then
    if pk.isHandPiece then some (E.rngHand c pk num &&& ~~~Key.COLOR)
    else if pk = .king then some Key.ZERO
    else none
  else none

end Yasai

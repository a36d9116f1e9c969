import Verif.Model.Position

/-!
# The initial position
-/

namespace Yasai

/-- `shogi_core::PartialPosition::startpos()`: the initial position of a game. -/
def CorePartialPosition.startpos : CorePartialPosition where
  side := .black
  ply := 1#16
  hands := fun _ => ⟨fun _ => 0⟩
  board := fun s =>
    let back : Nat → PieceKind := fun f => match f with
      | 1 | 9 => .lance
      | 2 | 8 => .knight
      | 3 | 7 => .silver
      | 4 | 6 => .gold
      | _ => .king
    match s.rank, s.file with
    | 1, f => some ⟨back f, .white⟩
    | 2, 2 => some ⟨.bishop, .white⟩
    | 2, 8 => some ⟨.rook, .white⟩
    | 3, _ => some ⟨.pawn, .white⟩
    | 7, _ => some ⟨.pawn, .black⟩
    | 8, 8 => some ⟨.bishop, .black⟩
    | 8, 2 => some ⟨.rook, .black⟩
    | 9, f => some ⟨back f, .black⟩
    | _, _ => none

/-- `Position::default` (/repo/src/position.rs:256-260). -/
def Position.default (E : Env) (K : Backend) : Option Position :=
  Position.new E K CorePartialPosition.startpos

end Yasai

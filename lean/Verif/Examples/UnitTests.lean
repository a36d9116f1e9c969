import Verif.Model.Backends
import Verif.Examples.Positions

/-!
# The unit tests of the repository, run on the model

Every `#[test]` of /repo/src with fixed data, as an `example` evaluated by the kernel.  These are
tests: they validate the transcription of the code into the model, and of `shogi_core` and the SIMD
intrinsics as far as the tests reach.  Left out because they are too slow for the kernel: `perft` and
`capture_all_pawns` (they pass when the model is compiled, see DESIGN.md); `maximum_moves` is
`C22_attained`; `uniqueness` depends on the concrete random numbers.
-/

namespace Yasai.Examples.UnitTests

open Yasai Yasai.Examples

/-- The four builds. -/
def all : List Backend := builds Junk.zero

/-- A set of squares, given as (file, rank). -/
def toBB (K : Backend) (l : List (Nat × Nat)) : BB :=
  l.foldl (fun acc e => K.or acc (K.single (sq e.1 e.2))) K.empty

/-- Squares, given as (file, rank). -/
def sqs (l : List (Nat × Nat)) : List Square := l.map fun e => sq e.1 e.2

/-! ## /repo/src/bitboard.rs -/

/-- `empty`, `single`, `contains` (lines 119-136). -/
example : ∀ K ∈ all, K.isEmpty K.empty = true ∧
    Square.all.all (fun s => K.count (K.single s) == 1 && K.contains (K.single s) s) = true := by
  decide +kernel

/-- `bit_ops` (lines 138-154). -/
example : ∀ K ∈ all, let bb1 := K.single (sq 1 1)
    K.eq K.empty (K.and K.empty bb1) = true ∧ K.eq bb1 (K.or K.empty bb1) = true ∧
    K.eq bb1 (K.xor K.empty bb1) = true ∧
    K.eq K.empty (K.xor (K.and (K.or K.empty bb1) bb1) bb1) = true := by
  decide +kernel

/-- `shift` (lines 156-160). -/
example : ∀ K ∈ all, K.eq (K.single (sq 1 2)) (K.shl (K.single (sq 1 1))) = true ∧
    K.eq (K.single (sq 9 8)) (K.shr (K.single (sq 9 9))) = true := by
  decide +kernel

/-- `sliding_positives` (lines 162-183). -/
example : ∀ K ∈ all,
    K.eq (K.or (toBB K [(8,3),(8,7)]) (toBB K [(7,4),(7,6)]))
      (K.slidingPositives (toBB K [(8,3),(8,7)]) (toBB K [(7,4),(8,3),(9,2)])
        (toBB K [(7,6),(8,7),(9,8)])) = true ∧
    K.eq (K.or (toBB K [(6,8),(8,6)]) (toBB K [(6,7),(7,6)]))
      (K.slidingPositives (toBB K [(6,8),(8,6)]) (toBB K [(6,7),(6,8),(6,9)])
        (toBB K [(7,6),(8,6),(9,6)])) = true := by
  decide +kernel

/-- `sliding_negatives` (lines 185-205). -/
example : ∀ K ∈ all,
    K.eq (K.or (toBB K [(2,3),(2,7)]) (toBB K [(3,4),(3,6)]))
      (K.slidingNegatives (toBB K [(2,3),(2,7)]) (toBB K [(3,4),(2,3),(1,2)])
        (toBB K [(3,6),(2,7),(1,8)])) = true ∧
    K.eq (K.or (toBB K [(2,4),(4,2)]) (toBB K [(3,4),(4,3)]))
      (K.slidingNegatives (toBB K [(2,4),(4,2)]) (toBB K [(3,4),(2,4),(1,4)])
        (toBB K [(4,3),(4,2),(4,1)])) = true := by
  decide +kernel

/-- `vacant_files` (lines 207-222). -/
example : ∀ K ∈ all, ∀ oc,
    K.vacantFiles oc K.empty = some (K.not K.empty) ∧
    K.vacantFiles oc (toBB K [(1,1),(2,2),(3,3),(4,4),(5,5),(6,6),(7,7),(8,8),(9,9)]) =
      some K.empty ∧
    (K.vacantFiles oc (toBB K [(1,1),(3,1),(5,1),(7,1),(9,1)])).any (fun odd =>
      (K.vacantFiles oc (toBB K [(1,9),(3,9),(5,9),(7,9),(9,9)])).any fun odd2 =>
      (K.vacantFiles oc (toBB K [(2,1),(4,1),(6,1),(8,1)])).any fun even =>
        K.eq odd odd2 && K.eq K.empty (K.and odd even) &&
        K.eq (K.not K.empty) (K.or odd even)) = true := by
  decide +kernel

/-! ## /repo/src/tables.rs -/

/-- "sfen p8/1p7/2p6/3p5/9/3L5/2L6/1L7/L8 b - 1" (/repo/src/tables.rs:292). -/
def lances1 : CorePartialPosition where
  side := .black
  ply := 1#16
  hands := fun c => match c with
    | .black => handOf []
    | .white => handOf []
  board := boardOf [
    (9,1,.pawn,.white),(8,2,.pawn,.white),(7,3,.pawn,.white),(6,4,.pawn,.white),
    (6,6,.lance,.black),(7,7,.lance,.black),(8,8,.lance,.black),(9,9,.lance,.black)]

/-- "sfen l8/1l7/2l6/3l5/9/3P5/2P6/1P7/P8 w - 1" (/repo/src/tables.rs:324). -/
def lances2 : CorePartialPosition where
  side := .white
  ply := 1#16
  hands := fun c => match c with
    | .black => handOf []
    | .white => handOf []
  board := boardOf [
    (9,1,.lance,.white),(8,2,.lance,.white),(7,3,.lance,.white),(6,4,.lance,.white),
    (6,6,.pawn,.black),(7,7,.pawn,.black),(8,8,.pawn,.black),(9,9,.pawn,.black)]

/-- The squares of `ATTACK_TABLE.ky.attack`, on a position. -/
def ky (K : Backend) (pp : CorePartialPosition) (s : Nat × Nat) (c : Color) : List Square :=
  K.iter (kyAttack K (sq s.1 s.2) c ((PartialPosition.ofCore K pp).occupiedBB K))

/-- `lance_attack` (lines 266-343). -/
example : ∀ K ∈ all,
    ky K startpos (1,9) .black = sqs [(1,7),(1,8)] ∧ ky K startpos (9,9) .black = sqs [(9,7),(9,8)] ∧
    ky K startpos (1,1) .white = sqs [(1,2),(1,3)] ∧
    ky K startpos (9,1) .white = sqs [(9,2),(9,3)] ∧
    ky K lances1 (9,9) .black = sqs [(9,1),(9,2),(9,3),(9,4),(9,5),(9,6),(9,7),(9,8)] ∧
    ky K lances1 (8,8) .black = sqs [(8,2),(8,3),(8,4),(8,5),(8,6),(8,7)] ∧
    ky K lances1 (7,7) .black = sqs [(7,3),(7,4),(7,5),(7,6)] ∧
    ky K lances1 (6,6) .black = sqs [(6,4),(6,5)] ∧
    ky K lances2 (9,1) .white = sqs [(9,2),(9,3),(9,4),(9,5),(9,6),(9,7),(9,8),(9,9)] ∧
    ky K lances2 (8,2) .white = sqs [(8,3),(8,4),(8,5),(8,6),(8,7),(8,8)] ∧
    ky K lances2 (7,3) .white = sqs [(7,4),(7,5),(7,6),(7,7)] ∧
    ky K lances2 (6,4) .white = sqs [(6,5),(6,6)] := by
  decide +kernel

/-- `sliding_attack` (lines 345-379). -/
example : ∀ K ∈ all, let occ := (PartialPosition.ofCore K startpos).occupiedBB K
    K.iter (kaAttack K (sq 2 2) occ) = sqs [(1,1),(1,3),(3,1),(3,3)] ∧
    K.iter (kaAttack K (sq 8 8) occ) = sqs [(7,7),(7,9),(9,7),(9,9)] ∧
    K.iter (hiAttack K (sq 2 8) occ) =
      sqs [(1,8),(2,7),(2,9),(3,8),(4,8),(5,8),(6,8),(7,8),(8,8)] ∧
    K.iter (hiAttack K (sq 8 2) occ) =
      sqs [(2,2),(3,2),(4,2),(5,2),(6,2),(7,2),(8,1),(8,3),(9,2)] := by
  decide +kernel

/-! ## /repo/src/movegen.rs -/

/-- "sfen lnsgkg1nl/1r5s1/pppppp1pp/6p2/9/2P6/PP1PPPPPP/7R1/LNSGKGSNL b Bb 1" (/repo/src/movegen.rs:435). -/
def dropMovesPos : CorePartialPosition where
  side := .black
  ply := 1#16
  hands := fun c => match c with
    | .black => handOf [(.bishop,1)]
    | .white => handOf [(.bishop,1)]
  board := boardOf [
    (9,1,.lance,.white),(8,1,.knight,.white),(7,1,.silver,.white),(6,1,.gold,.white),
    (5,1,.king,.white),(4,1,.gold,.white),(2,1,.knight,.white),(1,1,.lance,.white),
    (8,2,.rook,.white),(2,2,.silver,.white),(9,3,.pawn,.white),(8,3,.pawn,.white),
    (7,3,.pawn,.white),(6,3,.pawn,.white),(5,3,.pawn,.white),(4,3,.pawn,.white),
    (2,3,.pawn,.white),(1,3,.pawn,.white),(3,4,.pawn,.white),(7,6,.pawn,.black),
    (9,7,.pawn,.black),(8,7,.pawn,.black),(6,7,.pawn,.black),(5,7,.pawn,.black),
    (4,7,.pawn,.black),(3,7,.pawn,.black),(2,7,.pawn,.black),(1,7,.pawn,.black),
    (2,8,.rook,.black),(9,9,.lance,.black),(8,9,.knight,.black),(7,9,.silver,.black),
    (6,9,.gold,.black),(5,9,.king,.black),(4,9,.gold,.black),(3,9,.silver,.black),
    (2,9,.knight,.black),(1,9,.lance,.black)]

/-- "sfen 9/9/9/9/9/7p1/7+r1/6KN1/4k1S2 b Pr2b4g3s3n4l16p 1" (/repo/src/movegen.rs:486). -/
def evasionPos : CorePartialPosition where
  side := .black
  ply := 1#16
  hands := fun c => match c with
    | .black => handOf [(.pawn,1)]
    | .white => handOf [(.rook,1),(.bishop,2),(.gold,4),(.silver,3),(.knight,3),(.lance,4),(.pawn,16)]
  board := boardOf [
    (2,6,.pawn,.white),(2,7,.proRook,.white),(3,8,.king,.black),(2,8,.knight,.black),
    (5,9,.king,.white),(3,9,.silver,.black)]

/-- "sfen lnsgkgsnl/1r5s1/pppppppp1/9/8L/9/PPPPPPPP1/1B5S1/LNSGKGSN1 w Pp 1" (/repo/src/movegen.rs:512). -/
def pawnDropW : CorePartialPosition where
  side := .white
  ply := 1#16
  hands := fun c => match c with
    | .black => handOf [(.pawn,1)]
    | .white => handOf [(.pawn,1)]
  board := boardOf [
    (9,1,.lance,.white),(8,1,.knight,.white),(7,1,.silver,.white),(6,1,.gold,.white),
    (5,1,.king,.white),(4,1,.gold,.white),(3,1,.silver,.white),(2,1,.knight,.white),
    (1,1,.lance,.white),(8,2,.rook,.white),(2,2,.silver,.white),(9,3,.pawn,.white),
    (8,3,.pawn,.white),(7,3,.pawn,.white),(6,3,.pawn,.white),(5,3,.pawn,.white),
    (4,3,.pawn,.white),(3,3,.pawn,.white),(2,3,.pawn,.white),(1,5,.lance,.black),
    (9,7,.pawn,.black),(8,7,.pawn,.black),(7,7,.pawn,.black),(6,7,.pawn,.black),
    (5,7,.pawn,.black),(4,7,.pawn,.black),(3,7,.pawn,.black),(2,7,.pawn,.black),
    (8,8,.bishop,.black),(2,8,.silver,.black),(9,9,.lance,.black),(8,9,.knight,.black),
    (7,9,.silver,.black),(6,9,.gold,.black),(5,9,.king,.black),(4,9,.gold,.black),
    (3,9,.silver,.black),(2,9,.knight,.black)]

/-- "sfen lnsgkgsn1/1r5s1/pppppppp1/9/8l/9/PPPPPPPP1/1B5S1/LNSGKGSN1 b Ppl 1" (/repo/src/movegen.rs:546). -/
def pawnDropB : CorePartialPosition where
  side := .black
  ply := 1#16
  hands := fun c => match c with
    | .black => handOf [(.pawn,1)]
    | .white => handOf [(.pawn,1),(.lance,1)]
  board := boardOf [
    (9,1,.lance,.white),(8,1,.knight,.white),(7,1,.silver,.white),(6,1,.gold,.white),
    (5,1,.king,.white),(4,1,.gold,.white),(3,1,.silver,.white),(2,1,.knight,.white),
    (8,2,.rook,.white),(2,2,.silver,.white),(9,3,.pawn,.white),(8,3,.pawn,.white),
    (7,3,.pawn,.white),(6,3,.pawn,.white),(5,3,.pawn,.white),(4,3,.pawn,.white),
    (3,3,.pawn,.white),(2,3,.pawn,.white),(1,5,.lance,.white),(9,7,.pawn,.black),
    (8,7,.pawn,.black),(7,7,.pawn,.black),(6,7,.pawn,.black),(5,7,.pawn,.black),
    (4,7,.pawn,.black),(3,7,.pawn,.black),(2,7,.pawn,.black),(8,8,.bishop,.black),
    (2,8,.silver,.black),(9,9,.lance,.black),(8,9,.knight,.black),(7,9,.silver,.black),
    (6,9,.gold,.black),(5,9,.king,.black),(4,9,.gold,.black),(3,9,.silver,.black),
    (2,9,.knight,.black)]

/-- "sfen 9/7pp/8k/7P1/7G1/9/9/9/9 b P2r2b3g4s4n4l14p 1" (/repo/src/movegen.rs:583). -/
def mate0 : CorePartialPosition where
  side := .black
  ply := 1#16
  hands := fun c => match c with
    | .black => handOf [(.pawn,1)]
    | .white => handOf [(.rook,2),(.bishop,2),(.gold,3),(.silver,4),(.knight,4),(.lance,4),(.pawn,14)]
  board := boardOf [
    (2,2,.pawn,.white),(1,2,.pawn,.white),(1,3,.king,.white),(2,4,.pawn,.black),
    (2,5,.gold,.black)]

/-- "sfen 9/7pp/7gk/9/7G1/9/9/9/9 b P2r2b2g4s4n4l15p 1" (/repo/src/movegen.rs:604). -/
def mate1 : CorePartialPosition where
  side := .black
  ply := 1#16
  hands := fun c => match c with
    | .black => handOf [(.pawn,1)]
    | .white => handOf [(.rook,2),(.bishop,2),(.gold,2),(.silver,4),(.knight,4),(.lance,4),(.pawn,15)]
  board := boardOf [
    (2,2,.pawn,.white),(1,2,.pawn,.white),(2,3,.gold,.white),(1,3,.king,.white),
    (2,5,.gold,.black)]

/-- "sfen 9/7pp/6Rgk/9/7G1/9/9/9/9 b Pr2b2g4s4n4l15p 1" (/repo/src/movegen.rs:625). -/
def mate2 : CorePartialPosition where
  side := .black
  ply := 1#16
  hands := fun c => match c with
    | .black => handOf [(.pawn,1)]
    | .white => handOf [(.rook,1),(.bishop,2),(.gold,2),(.silver,4),(.knight,4),(.lance,4),(.pawn,15)]
  board := boardOf [
    (2,2,.pawn,.white),(1,2,.pawn,.white),(3,3,.rook,.black),(2,3,.gold,.white),
    (1,3,.king,.white),(2,5,.gold,.black)]

/-- "sfen 9/7np/8k/7P1/7G1/9/9/9/9 b P2r2b3g4s3n4l15p 1" (/repo/src/movegen.rs:646). -/
def mate3 : CorePartialPosition where
  side := .black
  ply := 1#16
  hands := fun c => match c with
    | .black => handOf [(.pawn,1)]
    | .white => handOf [(.rook,2),(.bishop,2),(.gold,3),(.silver,4),(.knight,3),(.lance,4),(.pawn,15)]
  board := boardOf [
    (2,2,.knight,.white),(1,2,.pawn,.white),(1,3,.king,.white),(2,4,.pawn,.black),
    (2,5,.gold,.black)]

/-- "sfen 6B2/7np/8k/7P1/7G1/9/9/9/9 b P2rb3g4s3n4l15p 1" (/repo/src/movegen.rs:667). -/
def mate4 : CorePartialPosition where
  side := .black
  ply := 1#16
  hands := fun c => match c with
    | .black => handOf [(.pawn,1)]
    | .white => handOf [(.rook,2),(.bishop,1),(.gold,3),(.silver,4),(.knight,3),(.lance,4),(.pawn,15)]
  board := boardOf [
    (3,1,.bishop,.black),(2,2,.knight,.white),(1,2,.pawn,.white),(1,3,.king,.white),
    (2,4,.pawn,.black),(2,5,.gold,.black)]

/-- "sfen 7k1/5G2l/6B2/9/9/9/9/9/9 b P2rb3g4s4n3l17p 1" (/repo/src/movegen.rs:690). -/
def mate5 : CorePartialPosition where
  side := .black
  ply := 1#16
  hands := fun c => match c with
    | .black => handOf [(.pawn,1)]
    | .white => handOf [(.rook,2),(.bishop,1),(.gold,3),(.silver,4),(.knight,4),(.lance,3),(.pawn,17)]
  board := boardOf [
    (2,1,.king,.white),(4,2,.gold,.black),(1,2,.lance,.white),(3,3,.bishop,.black)]

/-- "sfen 8k/9/7+Rr/8L/9/9/9/9/9 b P2b4g4s4n3l17p 1" (/repo/src/movegen.rs:710). -/
def mate6 : CorePartialPosition where
  side := .black
  ply := 1#16
  hands := fun c => match c with
    | .black => handOf [(.pawn,1)]
    | .white => handOf [(.bishop,2),(.gold,4),(.silver,4),(.knight,4),(.lance,3),(.pawn,17)]
  board := boardOf [
    (1,1,.king,.white),(2,3,.proRook,.black),(1,3,.rook,.white),(1,4,.lance,.black)]

/-- `legal_moves()` after `Position::new`. -/
def moves (K : Backend) (pp : CorePartialPosition) : Option (List Move) :=
  Position.new env0 K pp >>= fun p => p.legalMoves env0 K

/-- The drops in a list of moves. -/
def drops (l : List Move) : List (Square × Piece) :=
  l.filterMap fun m => match m with
    | .drop to piece => some (to, piece)
    | .normal .. => none

/-- `from_default` (lines 412-416). -/
example : ∀ K ∈ all, (moves K startpos).map List.length = some 30 := by
  decide +kernel

/-- `drop_moves` (lines 418-445). -/
example : (moves CoreBB.backend dropMovesPos).map (fun l => (drops l).length) = some 43 := by
  decide +kernel

/-- `evasion_moves` (lines 469-492). -/
example : ∀ K ∈ all, (moves K evasionPos).map (fun l => l.map Move.to) = some [sq 2 9] := by
  decide +kernel

/-- `pawn_drop` (lines 494-562). -/
example : ∀ K ∈ all,
    (moves K pawnDropW).any (fun l => (drops l).length == 6 &&
      (drops l).all fun e => e.2 == ⟨.pawn, .white⟩) = true ∧
    (moves K pawnDropB).any (fun l => (drops l).length == 7 &&
      (drops l).all fun e => e.2 == ⟨.pawn, .black⟩) = true := by
  decide +kernel

/-- `is_pawn_drop_mate()` after `Position::new`. -/
def dropMate (K : Backend) (pp : CorePartialPosition) (s : Square) : Option Bool :=
  Position.new env0 K pp >>= fun p => p.state.map fun st => p.inner.isPawnDropMate K st s

/-- `is_pawn_drop_mate` (lines 564-721). -/
example : ∀ K ∈ all,
    dropMate K mate0 (sq 1 4) = some true ∧ dropMate K mate1 (sq 1 4) = some false ∧
    dropMate K mate2 (sq 1 4) = some true ∧ dropMate K mate3 (sq 1 4) = some false ∧
    dropMate K mate4 (sq 1 4) = some true ∧ dropMate K mate5 (sq 2 2) = some false ∧
    dropMate K mate6 (sq 1 2) = some false := by
  decide +kernel

/-! ## /repo/src/position.rs -/

/-- `default` (lines 451-487). -/
example : ∀ K ∈ all, (Position.default env0 K).any (fun p =>
    Square.all.all (fun s => decide (p.pieceAt s =
      if s.rank = 7 then some ⟨.pawn, .black⟩
      else if s.rank = 3 then some ⟨.pawn, .white⟩
      else if s = sq 8 8 then some ⟨.bishop, .black⟩
      else if s = sq 2 8 then some ⟨.rook, .black⟩
      else if s = sq 2 2 then some ⟨.bishop, .white⟩
      else if s = sq 8 2 then some ⟨.rook, .white⟩
      else if s.rank = 9 ∨ s.rank = 1 then
        some ⟨[.lance, .knight, .silver, .gold, .king, .gold, .silver, .knight, .lance].getD
          (s.file - 1) .king, if s.rank = 9 then .black else .white⟩
      else none)) &&
    [Color.black, .white].all (fun c => PieceKind.all.all fun pk =>
      ((p.hand c).count pk).getD 0 == 0) &&
    p.sideToMove == .black && p.ply == 1#16 && p.inCheck K == some false) = true := by
  decide +kernel

/-- The moves of `do_undo_move`. -/
def line : List Move :=
  [.normal (sq 7 7) (sq 7 6) false, .normal (sq 3 3) (sq 3 4) false,
   .normal (sq 8 8) (sq 2 2) true, .normal (sq 3 1) (sq 2 2) false,
   .drop (sq 3 3) ⟨.bishop, .black⟩]

/-- `do_undo_move` (lines 489-559). -/
example : ∀ K ∈ all, (Position.default env0 K).any (fun p0 =>
    (line.foldlM (fun (p : Position) m => p.doMove env0 K m) p0).any fun p =>
      p.pieceAt (sq 2 2) == some ⟨.silver, .white⟩ && p.pieceAt (sq 3 1) == none &&
      p.pieceAt (sq 3 3) == some ⟨.bishop, .black⟩ &&
      p.pieceAt (sq 7 6) == some ⟨.pawn, .black⟩ && p.pieceAt (sq 7 7) == none &&
      PieceKind.all.all (fun pk => ((p.hand .black).count pk).getD 0 == 0) &&
      PieceKind.all.any (fun pk => ((p.hand .white).count pk).getD 0 != 0) &&
      p.sideToMove == .white && p.ply == 6#16 && p.inCheck K == some true &&
      (line.reverse.foldlM (fun (p : Position) m => p.undoMove env0 K m) p).any fun p' =>
        Square.all.all (fun s => p'.pieceAt s == p0.pieceAt s) && p'.sideToMove == .black &&
        p'.ply == 1#16 && p'.inCheck K == some false) = true := by
  decide +kernel

/-- "sfen 6p1k/9/6P1G/9/8L/9/9/9/9 b RBLrb3g4s4n2l16p 1" (/repo/src/position.rs:625). -/
def checkPos : CorePartialPosition where
  side := .black
  ply := 1#16
  hands := fun c => match c with
    | .black => handOf [(.rook,1),(.bishop,1),(.lance,1)]
    | .white => handOf [(.rook,1),(.bishop,1),(.gold,3),(.silver,4),(.knight,4),(.lance,2),(.pawn,16)]
  board := boardOf [
    (3,1,.pawn,.white),(1,1,.king,.white),(3,3,.pawn,.black),(1,3,.gold,.black),
    (1,5,.lance,.black)]

/-- `is_check_move` (lines 610-706). -/
example : ∀ K ∈ all, (Position.new env0 K checkPos).any (fun p =>
    [(Move.drop (sq 1 2) ⟨.lance, .black⟩, true), (.drop (sq 1 4) ⟨.lance, .black⟩, false),
     (.drop (sq 2 2) ⟨.bishop, .black⟩, true), (.drop (sq 5 5) ⟨.bishop, .black⟩, false),
     (.drop (sq 2 1) ⟨.rook, .black⟩, true), (.drop (sq 5 1) ⟨.rook, .black⟩, false),
     (.normal (sq 1 3) (sq 1 2) false, true), (.normal (sq 1 3) (sq 2 2) false, true),
     (.normal (sq 1 3) (sq 2 3) false, true), (.normal (sq 1 3) (sq 1 4) false, false)].all
      fun e => p.isCheckMove K e.1 == some e.2) = true := by
  decide +kernel

/-! ## /repo/src/zobrist.rs -/

/-- "sfen 9/9/9/9/9/9/9/9/9 b 2R2B4G4S4N4L18P 1" (/repo/src/zobrist.rs:111). -/
def fullBlack : CorePartialPosition where
  side := .black
  ply := 1#16
  hands := fun c => match c with
    | .black => handOf [(.rook,2),(.bishop,2),(.gold,4),(.silver,4),(.knight,4),(.lance,4),(.pawn,18)]
    | .white => handOf []
  board := boardOf [
    ]

/-- "sfen 9/9/9/9/9/9/9/9/9 b 2r2b4g4s4n4l18p 1" (/repo/src/zobrist.rs:115). -/
def fullWhite : CorePartialPosition where
  side := .black
  ply := 1#16
  hands := fun c => match c with
    | .black => handOf []
    | .white => handOf [(.rook,2),(.bishop,2),(.gold,4),(.silver,4),(.knight,4),(.lance,4),(.pawn,18)]
  board := boardOf [
    ]

/-- An environment with some varied numbers. -/
def env1 : Env where
  rngBoard s c k := BitVec.ofNat 64 (0x9e3779b97f4a7c15 *
    (s.val + 81 * PieceKind.all.idxOf k + 1134 * (if c = .black then 0 else 1) + 1))
  rngHand c k n := BitVec.ofNat 64 (0xd1342543de82ef95 *
    (n + 18 * PieceKind.all.idxOf k + 252 * (if c = .black then 0 else 1) + 1))
  overflowChecks := true

/-- The empty board. -/
def emptyPos : CorePartialPosition := ⟨.black, 1#16, fun _ => handOf [], fun _ => none⟩

/-- `empty`, `default`, `full_hands` (lines 96-120), with the numbers of `env1`. -/
example : ∀ K ∈ all,
    (Position.new env1 K emptyPos >>= fun p => p.key) = some 0#64 ∧
    (Position.default env1 K).any (fun p => p.key.any fun k => k != 0#64) = true ∧
    (Position.new env1 K fullBlack).any (fun p => (Position.new env1 K fullWhite).any fun p' =>
      p.keys.any fun k => p'.keys.any fun k' => k.1 == 0#64 && k'.1 == 0#64 && k.2 != k'.2) =
        true := by
  decide +kernel

/-- Keys after a list of moves from the initial position. -/
def keysAfter (K : Backend) (l : List Move) : Option (Key × Key) :=
  Position.default env1 K >>= fun p => l.foldlM (fun (p : Position) m => p.doMove env1 K m) p >>= fun p => p.keys

/-- `joined` (lines 205-270). -/
example : ∀ K ∈ all, (keysAfter K [.normal (sq 7 7) (sq 7 6) false, .normal (sq 3 3) (sq 3 4) false,
      .normal (sq 2 7) (sq 2 6) false]).any (fun k =>
    keysAfter K [.normal (sq 2 7) (sq 2 6) false, .normal (sq 7 7) (sq 7 6) false,
      .normal (sq 3 3) (sq 3 4) false] == some k) = true := by
  decide +kernel

/-- `same_board` (lines 272-366). -/
example : ∀ K ∈ all, (keysAfter K [.normal (sq 7 7) (sq 7 6) false, .normal (sq 3 3) (sq 3 4) false,
      .normal (sq 8 8) (sq 2 2) false, .normal (sq 3 1) (sq 2 2) false,
      .drop (sq 8 8) ⟨.bishop, .black⟩, .normal (sq 2 2) (sq 3 1) false]).any (fun k =>
    (keysAfter K [.normal (sq 7 7) (sq 7 6) false, .normal (sq 3 3) (sq 3 4) false,
      .normal (sq 8 8) (sq 2 2) false, .normal (sq 3 1) (sq 4 2) false,
      .normal (sq 2 2) (sq 8 8) false, .normal (sq 4 2) (sq 3 1) false]).any fun k' =>
      k != k' && k.1 == k'.1) = true := by
  decide +kernel

end Yasai.Examples.UnitTests

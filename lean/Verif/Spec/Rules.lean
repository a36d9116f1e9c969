import Verif.Model.ShogiCore

/-!
# The rules of shogi

A self-contained mailbox-style definition of the rules: movement, attack, check, the effect of a
move, legal moves and checkmate.  It uses only the basic types (colours, kinds, pieces, squares with
`file` and `rank`, moves) and mentions no bitboard, no table and no cached information.

Black's forward direction is towards rank 1, White's towards rank 9.
-/

namespace Yasai.Spec

open Yasai

/-- A position as the rules see it. -/
structure Pos where
  board : Square → Option Piece
  hand : Color → PieceKind → Nat
  side : Color

/-- `t` is displaced from `s` by `df` files and `dr` ranks. -/
def Disp (s t : Square) (df dr : Int) : Prop :=
  (t.file : Int) = s.file + df ∧ (t.rank : Int) = s.rank + dr

/-- Rank change of one step forward. -/
def fwd : Color → Int
  | .black => -1
  | .white => 1

/-- The six steps of a gold, as (sideways, forward). -/
def goldSteps : List (Int × Int) := [(0, 1), (-1, 1), (1, 1), (-1, 0), (1, 0), (0, -1)]

/-- The eight steps of a king. -/
def kingSteps : List (Int × Int) :=
  [(0, 1), (-1, 1), (1, 1), (-1, 0), (1, 0), (0, -1), (-1, -1), (1, -1)]

/-- The single steps (jumps for the knight) of each kind, as (sideways, forward). -/
def steps : PieceKind → List (Int × Int)
  | .pawn => [(0, 1)]
  | .lance => []
  | .knight => [(-1, 2), (1, 2)]
  | .silver => [(0, 1), (-1, 1), (1, 1), (-1, -1), (1, -1)]
  | .gold => goldSteps
  | .bishop => []
  | .rook => []
  | .king => kingSteps
  | .proPawn => goldSteps
  | .proLance => goldSteps
  | .proKnight => goldSteps
  | .proSilver => goldSteps
  | .proBishop => kingSteps
  | .proRook => kingSteps

/-- Diagonal directions. -/
def diagonals : List (Int × Int) := [(-1, 1), (1, 1), (-1, -1), (1, -1)]

/-- Orthogonal directions. -/
def orthogonals : List (Int × Int) := [(0, 1), (0, -1), (-1, 0), (1, 0)]

/-- The directions in which each kind slides any distance, as (sideways, forward). -/
def slides : PieceKind → List (Int × Int)
  | .lance => [(0, 1)]
  | .bishop => diagonals
  | .rook => orthogonals
  | .proBishop => diagonals
  | .proRook => orthogonals
  | _ => []

/-- A piece of kind `k` and colour `c` on `s` reaches `t` when the squares satisfying `occ` are
occupied: by a single step, or by sliding over unoccupied squares. -/
def Reaches (occ : Square → Prop) (k : PieceKind) (c : Color) (s t : Square) : Prop :=
  (∃ d ∈ steps k, Disp s t d.1 (fwd c * d.2)) ∨
  (∃ d ∈ slides k, ∃ n : Nat, 1 ≤ n ∧ Disp s t (n * d.1) (n * (fwd c * d.2)) ∧
    ∀ m : Nat, 1 ≤ m → m < n → ∀ u, Disp s u (m * d.1) (m * (fwd c * d.2)) → ¬ occ u)

/-- Square `s` is occupied. -/
def Occ (b : Square → Option Piece) (s : Square) : Prop := b s ≠ none

/-- The piece on `s` attacks `t` on board `b` and has colour `c`. -/
def AttacksFrom (b : Square → Option Piece) (c : Color) (s t : Square) : Prop :=
  ∃ k, b s = some ⟨k, c⟩ ∧ Reaches (Occ b) k c s t

/-- Some piece of colour `c` attacks `t`. -/
def Attacked (b : Square → Option Piece) (c : Color) (t : Square) : Prop :=
  ∃ s, AttacksFrom b c s t

/-- The king of colour `c` is attacked. -/
def InCheck (b : Square → Option Piece) (c : Color) : Prop :=
  ∃ k, b k = some ⟨.king, c⟩ ∧ Attacked b c.flip k

/-- What each kind promotes to; gold, king and promoted pieces do not promote. -/
def promoted : PieceKind → Option PieceKind
  | .pawn => some .proPawn
  | .lance => some .proLance
  | .knight => some .proKnight
  | .silver => some .proSilver
  | .bishop => some .proBishop
  | .rook => some .proRook
  | _ => none

/-- What each promoted kind was before. -/
def demoted : PieceKind → Option PieceKind
  | .proPawn => some .pawn
  | .proLance => some .lance
  | .proKnight => some .knight
  | .proSilver => some .silver
  | .proBishop => some .bishop
  | .proRook => some .rook
  | _ => none

/-- The unpromoted kind. -/
def base (k : PieceKind) : PieceKind := (demoted k).getD k

/-- The kinds that can be held in hand. -/
def handKind : PieceKind → Bool
  | .pawn | .lance | .knight | .silver | .gold | .bishop | .rook => true
  | _ => false

/-- Replaces the contents of one square. -/
def put (b : Square → Option Piece) (s : Square) (v : Option Piece) : Square → Option Piece :=
  fun u => if u = s then v else b u

/-- The kind after a move with the given promotion choice. -/
def movedKind (k : PieceKind) (promote : Bool) : PieceKind :=
  if promote then (promoted k).getD k else k

/-- The position after a move. -/
def apply (P : Pos) : Move → Pos
  | .normal frm to promote =>
    match P.board frm with
    | none => P
    | some p =>
      { board := put (put P.board frm none) to (some ⟨movedKind p.kind promote, p.color⟩)
        hand := fun c k =>
          match P.board to with
          | some q => if c = P.side ∧ k = base q.kind then P.hand c k + 1 else P.hand c k
          | none => P.hand c k
        side := P.side.flip }
  | .drop to p =>
    { board := put P.board to (some p)
      hand := fun c k => if c = P.side ∧ k = p.kind then P.hand c k - 1 else P.hand c k
      side := P.side.flip }

/-- The square lies in the promotion zone of `c` (the three farthest ranks). -/
def InZone (c : Color) (s : Square) : Prop :=
  match c with
  | .black => s.rank ≤ 3
  | .white => 7 ≤ s.rank

/-- A piece of kind `k` and colour `c` on `t` could never move again. -/
def Dead (k : PieceKind) (c : Color) (t : Square) : Prop :=
  match k, c with
  | .pawn, .black | .lance, .black => t.rank = 1
  | .pawn, .white | .lance, .white => t.rank = 9
  | .knight, .black => t.rank ≤ 2
  | .knight, .white => 8 ≤ t.rank
  | _, _ => False

/-- The move follows the movement, capture, promotion and drop rules (king safety and pawn-drop
mate aside). -/
def PseudoLegal (P : Pos) : Move → Prop
  | .normal frm to promote =>
    ∃ k, P.board frm = some ⟨k, P.side⟩ ∧
      Reaches (Occ P.board) k P.side frm to ∧
      (∀ q, P.board to = some q → q.color ≠ P.side) ∧
      (promote = true → promoted k ≠ none ∧ (InZone P.side frm ∨ InZone P.side to)) ∧
      (promote = false → ¬ Dead k P.side to)
  | .drop to p =>
    p.color = P.side ∧ handKind p.kind = true ∧ 0 < P.hand P.side p.kind ∧
      P.board to = none ∧
      ¬ Dead p.kind P.side to ∧
      (p.kind = .pawn → ∀ s, s.file = to.file → P.board s ≠ some ⟨.pawn, P.side⟩)

/-- The move is pseudo-legal and does not leave the mover's king attacked. -/
def Safe (P : Pos) (m : Move) : Prop :=
  PseudoLegal P m ∧ ¬ InCheck (apply P m).board P.side

/-- The side to move is checkmated: its king is attacked and no move saves it. -/
def Mated (P : Pos) : Prop :=
  InCheck P.board P.side ∧ ∀ m, ¬ Safe P m

/-- The move is a pawn drop. -/
def IsPawnDrop : Move → Prop
  | .normal _ _ _ => False
  | .drop _ p => p.kind = .pawn

/-- The legal moves: safe, and not a pawn drop giving checkmate. -/
def Legal (P : Pos) (m : Move) : Prop :=
  Safe P m ∧ (IsPawnDrop m → ¬ Mated (apply P m))

/-- The first rank of `c`, seen from that side. -/
def HomeRank (c : Color) (s : Square) : Prop :=
  s.rank = match c with | .black => 9 | .white => 1

/-- No two unpromoted pawns of one side on a file. -/
def NoTwoPawns (P : Pos) : Prop :=
  ∀ c s t, P.board s = some ⟨.pawn, c⟩ → P.board t = some ⟨.pawn, c⟩ → s.file = t.file → s = t

/-- The positions that can occur in a game, and some more: at most one king per side (kings may be
missing), the side that just moved is not in check, no unpromoted pawn on its last rank, and no
unpromoted pawn on its first rank that shares its file with another one of its side.  (By the rules no
two pawns ever share a file: `NoTwoPawns`, which implies the last condition.) -/
structure Valid (P : Pos) : Prop where
  oneKing : ∀ c s t, P.board s = some ⟨.king, c⟩ → P.board t = some ⟨.king, c⟩ → s = t
  notInCheck : ¬ InCheck P.board P.side.flip
  homePawn : ∀ c s t, P.board s = some ⟨.pawn, c⟩ → P.board t = some ⟨.pawn, c⟩ →
    s.file = t.file → HomeRank c s → s = t
  noDeadPawn : ∀ c s, P.board s = some ⟨.pawn, c⟩ → ¬ Dead .pawn c s

/-- As `Valid`, but the side that just moved may be in check (from a piece: the two kings are still
not next to each other). -/
structure Loose (P : Pos) : Prop where
  oneKing : ∀ c s t, P.board s = some ⟨.king, c⟩ → P.board t = some ⟨.king, c⟩ → s = t
  kingsApart : ∀ c s t, P.board s = some ⟨.king, c⟩ → P.board t = some ⟨.king, c.flip⟩ →
    ¬ Reaches (Occ P.board) .king c s t
  homePawn : ∀ c s t, P.board s = some ⟨.pawn, c⟩ → P.board t = some ⟨.pawn, c⟩ →
    s.file = t.file → HomeRank c s → s = t
  noDeadPawn : ∀ c s, P.board s = some ⟨.pawn, c⟩ → ¬ Dead .pawn c s

/-- As `Valid`, without any condition on check: at most one king each, and the conditions on pawns. -/
structure Tame (P : Pos) : Prop where
  oneKing : ∀ c s t, P.board s = some ⟨.king, c⟩ → P.board t = some ⟨.king, c⟩ → s = t
  homePawn : ∀ c s t, P.board s = some ⟨.pawn, c⟩ → P.board t = some ⟨.pawn, c⟩ →
    s.file = t.file → HomeRank c s → s = t
  noDeadPawn : ∀ c s, P.board s = some ⟨.pawn, c⟩ → ¬ Dead .pawn c s

/-- The conditions on pawns only. -/
structure PawnsOk (P : Pos) : Prop where
  homePawn : ∀ c s t, P.board s = some ⟨.pawn, c⟩ → P.board t = some ⟨.pawn, c⟩ →
    s.file = t.file → HomeRank c s → s = t
  noDeadPawn : ∀ c s, P.board s = some ⟨.pawn, c⟩ → ¬ Dead .pawn c s

/-- Number of pieces of basic kind `k` on the board and in the hands. -/
def total (P : Pos) (k : PieceKind) : Nat :=
  Square.all.countP (fun s => match P.board s with
    | some p => decide (base p.kind = k)
    | none => false) + P.hand .black k + P.hand .white k

/-- The number of pieces of each basic kind in a standard set. -/
def standardCount : PieceKind → Nat
  | .pawn => 18
  | .lance | .knight | .silver | .gold => 4
  | .bishop | .rook | .king => 2
  | _ => 0

/-- At most a standard set of pieces is in play (and hands hold only hand pieces). -/
def Material (P : Pos) : Prop :=
  (∀ k, total P k ≤ standardCount k) ∧
  ∀ c k, handKind k = false → P.hand c k = 0

/-- The king of colour `c` is on the board. -/
def HasKing (P : Pos) (c : Color) : Prop := ∃ s, P.board s = some ⟨.king, c⟩

end Yasai.Spec

/-!
# Types of the `shogi_core` 0.1.4 crate used by yasai

The source of `shogi_core` is not available in the sandbox; the definitions here state the
documented behaviour that yasai relies on.  They are part of the trusted base (see DESIGN.md).
-/

namespace Yasai

/-- `shogi_core::Color` (imported in /repo/src/position.rs:4).  `Color::NUM = 2`, order Black, White. -/
inductive Color where
  | black
  | white
deriving DecidableEq, Repr, Inhabited

/-- `Color::flip` (used e.g. /repo/src/position.rs:86). -/
def Color.flip : Color → Color
  | .black => .white
  | .white => .black

/-- `Color::all()` (used e.g. /repo/src/position.rs:23). -/
def Color.all : List Color := [.black, .white]

/-- `shogi_core::PieceKind`.  The order fixes `array_index` (see the array literal of
/repo/src/position.rs:386-401, which lists one entry per kind in this order). -/
inductive PieceKind where
  | pawn | lance | knight | silver | gold | bishop | rook | king
  | proPawn | proLance | proKnight | proSilver | proBishop | proRook
deriving DecidableEq, Repr, Inhabited

/-- `PieceKind::all()` (used /repo/src/zobrist.rs:72). -/
def PieceKind.all : List PieceKind :=
  [.pawn, .lance, .knight, .silver, .gold, .bishop, .rook, .king,
   .proPawn, .proLance, .proKnight, .proSilver, .proBishop, .proRook]

/-- `PieceKind::promote() -> Option<PieceKind>` (used /repo/src/position.rs:78). -/
def PieceKind.promote : PieceKind → Option PieceKind
  | .pawn => some .proPawn
  | .lance => some .proLance
  | .knight => some .proKnight
  | .silver => some .proSilver
  | .bishop => some .proBishop
  | .rook => some .proRook
  | _ => none

/-- `PieceKind::unpromote() -> Option<PieceKind>` (used /repo/src/position.rs:109). -/
def PieceKind.unpromote : PieceKind → Option PieceKind
  | .proPawn => some .pawn
  | .proLance => some .lance
  | .proKnight => some .knight
  | .proSilver => some .silver
  | .proBishop => some .bishop
  | .proRook => some .rook
  | _ => none

/-- `shogi_core::Piece`: a kind and a colour (`to_parts`, `piece_kind`, `color`;
used /repo/src/position.rs:219,277,322-323). -/
structure Piece where
  kind : PieceKind
  color : Color
deriving DecidableEq, Repr, Inhabited

/-- `Piece::promote() -> Option<Piece>` (used /repo/src/position.rs:123). -/
def Piece.promote (p : Piece) : Option Piece :=
  match p.kind.promote with
  | some k => some ⟨k, p.color⟩
  | none => none

/-- `shogi_core::Square`.  Represented by its `array_index()` (0..80);
`index()` is `array_index() + 1`. -/
abbrev Square := Fin 81

namespace Square

/-- `Square::file()`, 1..9 (used /repo/src/tables.rs:203). -/
def file (s : Square) : Nat := s.val / 9 + 1

/-- `Square::rank()`, 1..9 (used /repo/src/tables.rs:204). -/
def rank (s : Square) : Nat := s.val % 9 + 1

/-- `Square::all()`: ascending (used /repo/src/position.rs:18). -/
def all : List Square := List.finRange 81

/-- The square with the given file and rank if it is on the board (`Square::new`). -/
def ofCoords (f r : Int) : Option Square :=
  if h : 1 ≤ f ∧ f ≤ 9 ∧ 1 ≤ r ∧ r ≤ 9 then
    some ⟨((f - 1) * 9 + (r - 1)).toNat, by omega⟩
  else none

/-- `Square::shift(file_delta, rank_delta) -> Option<Square>` (used /repo/src/tables.rs:47). -/
def shift (s : Square) (df dr : Int) : Option Square :=
  ofCoords ((s.file : Int) + df) ((s.rank : Int) + dr)

/-- `Square::relative_rank(color)` (used /repo/src/tables.rs:232): the rank seen from `color`. -/
def relativeRank (s : Square) : Color → Nat
  | .black => s.rank
  | .white => 10 - s.rank

/-- `Square::from_u8_unchecked` (used /repo/src/movegen.rs:94 and in the SIMD iterators).
Undefined behaviour in Rust outside 1..81: the model then returns whatever `junk` says (see
`Junk`). -/
def fromU8Unchecked (junk : Nat → Square) (n : Nat) : Square :=
  if h : 1 ≤ n ∧ n ≤ 81 then ⟨n - 1, by omega⟩ else junk n

end Square

/-- `shogi_core::Move`. -/
inductive Move where
  | normal (frm to : Square) (promote : Bool)
  | drop (to : Square) (piece : Piece)
deriving DecidableEq, Repr, Inhabited

/-- `Move::to()` (used /repo/src/position.rs:100). -/
def Move.to : Move → Square
  | .normal _ to _ => to
  | .drop to _ => to

/-- `Move::from()` (used /repo/src/movegen.rs:325). -/
def Move.frm : Move → Option Square
  | .normal frm _ _ => some frm
  | .drop _ _ => none

/-- The kinds that can be held in hand, in the order of `Hand::all_hand_pieces()`
(used /repo/src/position.rs:24, /repo/src/movegen.rs:295). -/
def Hand.allHandPieces : List PieceKind :=
  [.pawn, .lance, .knight, .silver, .gold, .bishop, .rook]

/-- Whether a kind can be held in hand. -/
def PieceKind.isHandPiece (k : PieceKind) : Bool :=
  match k with
  | .pawn | .lance | .knight | .silver | .gold | .bishop | .rook => true
  | _ => false

/-- `shogi_core::Hand`: one `u8` counter per hand kind.  Counters of kinds that are not hand
pieces do not exist in the code and are never read by the model. -/
structure Hand where
  cnt : PieceKind → Nat

/-- `Hand::count(pk) -> Option<u8>`: `None` for kinds that cannot be in hand
(used /repo/src/position.rs:25,115,156). -/
def Hand.count (h : Hand) (k : PieceKind) : Option Nat :=
  if k.isHandPiece then some (h.cnt k) else none

/-- Sets one counter (helper for `added`/`removed`). -/
def Hand.set (h : Hand) (k : PieceKind) (n : Nat) : Hand :=
  ⟨fun k' => if k' = k then n else h.cnt k'⟩

/-- `Hand::added(pk) -> Option<Hand>` (used /repo/src/position.rs:120,202): `None` for a kind that
cannot be in hand.  A full `u8` counter is modelled as `None` too. -/
def Hand.added (h : Hand) (k : PieceKind) : Option Hand :=
  if k.isHandPiece then
    if h.cnt k < 255 then some (h.set k (h.cnt k + 1)) else none
  else none

/-- `Hand::removed(pk) -> Option<Hand>` (used /repo/src/position.rs:148,191): `None` when there is
nothing to remove. -/
def Hand.removed (h : Hand) (k : PieceKind) : Option Hand :=
  if k.isHandPiece then
    if 0 < h.cnt k then some (h.set k (h.cnt k - 1)) else none
  else none

/-- `shogi_core::PartialPosition` as seen through the accessors used by
/repo/src/position.rs:309-335: `side_to_move`, `ply`, `hand_of_a_player`, `piece_at`. -/
structure CorePartialPosition where
  side : Color
  ply : BitVec 16
  hands : Color → Hand
  board : Square → Option Piece

end Yasai

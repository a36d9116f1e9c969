import Verif.Model.Tables
import Verif.Model.Zobrist

/-!
# Positions: /repo/src/position.rs
-/

namespace Yasai

/-- `PartialPosition` of yasai (/repo/src/position.rs:264-271).  Arrays indexed by `array_index()`
of a square, colour or kind are functions of it. -/
structure PartialPosition where
  side : Color
  ply : BitVec 16
  hands : Color → Hand
  board : Square → Option Piece
  playerBB : Color → BB
  pieceBB : PieceKind → BB

/-- `AttackInfo` (/repo/src/position.rs:349-356). -/
structure AttackInfo where
  checkers : BB
  checkables : PieceKind → BB
  pinned : Color → BB

/-- `State` (/repo/src/position.rs:338-346). -/
structure State where
  keys : Key × Key
  captured : Option Piece
  lastMoved : Option Piece
  attackInfo : AttackInfo

/-- `Position` (/repo/src/position.rs:8-12).  The head of `states` is the last element of the
`Vec<State>`.  The accessors of lines 210-229, 239-245, 290-292 and 432-438 are field selections or
calls of the functions below with the same name. -/
structure Position where
  inner : PartialPosition
  states : List State

namespace PartialPosition

/-- `xor_piece` (/repo/src/position.rs:275-280). -/
def xorPiece (K : Backend) (q : PartialPosition) (sq : Square) (p : Piece) : PartialPosition :=
  { q with
    playerBB := fun c => if c = p.color then K.xor (q.playerBB c) (K.single sq) else q.playerBB c
    pieceBB := fun k => if k = p.kind then K.xor (q.pieceBB k) (K.single sq) else q.pieceBB k }

/-- `piece_at` (/repo/src/position.rs:282-284). -/
def pieceAt (q : PartialPosition) (sq : Square) : Option Piece := q.board sq

/-- Assignment through `piece_at_mut` (/repo/src/position.rs:286-288). -/
def setPieceAt (q : PartialPosition) (sq : Square) (v : Option Piece) : PartialPosition :=
  { q with board := fun s => if s = sq then v else q.board s }

/-- Assignment through `hand_of_a_player_mut` (/repo/src/position.rs:294-296). -/
def setHand (q : PartialPosition) (c : Color) (h : Hand) : PartialPosition :=
  { q with hands := fun c' => if c' = c then h else q.hands c' }

/-- `occupied_bitboard` (/repo/src/position.rs:298-300). -/
def occupiedBB (K : Backend) (q : PartialPosition) : BB :=
  K.or (q.playerBB .black) (q.playerBB .white)

/-- `king_position` (/repo/src/position.rs:302-306). -/
def kingPosition (K : Backend) (q : PartialPosition) (c : Color) : Option Square :=
  (K.iter (K.and (q.playerBB c) (q.pieceBB .king))).head?

/-- One iteration of the board loop of `From<shogi_core::PartialPosition>`
(/repo/src/position.rs:318-325). -/
def fromStep (K : Backend) (pp : CorePartialPosition) (q : PartialPosition) (sq : Square) :
    PartialPosition :=
  let q := q.setPieceAt sq (pp.board sq)
  match pp.board sq with
  | some p =>
    { q with
      playerBB := fun c =>
        if c = p.color then K.or (q.playerBB c) (K.single sq) else q.playerBB c
      pieceBB := fun k =>
        if k = p.kind then K.or (q.pieceBB k) (K.single sq) else q.pieceBB k }
  | none => q

/-- `From<shogi_core::PartialPosition>` (/repo/src/position.rs:309-335). -/
def ofCore (K : Backend) (pp : CorePartialPosition) : PartialPosition :=
  Square.all.foldl (fromStep K pp)
    { side := pp.side
      ply := pp.ply
      hands := pp.hands
      board := fun _ => none
      playerBB := fun _ => K.empty
      pieceBB := fun _ => K.empty }

end PartialPosition

namespace AttackInfo

/-- The sniper set of `AttackInfo::new` for the king of `c` on `sq`
(/repo/src/position.rs:366-370). -/
def snipers (K : Backend) (q : PartialPosition) (c : Color) (sq : Square) : BB :=
  K.and
    (K.or
      (K.or
        (K.and (tablePseudoAttack K .lance sq c) (q.pieceBB .lance))
        (K.and (tablePseudoAttack K .bishop sq c) (K.or (q.pieceBB .bishop) (q.pieceBB .proBishop))))
      (K.and (tablePseudoAttack K .rook sq c) (K.or (q.pieceBB .rook) (q.pieceBB .proRook))))
    (q.playerBB c.flip)

/-- The loop over snipers (/repo/src/position.rs:371-376). -/
def pinnedOf (K : Backend) (q : PartialPosition) (c : Color) : BB :=
  match q.kingPosition K c with
  | some sq =>
    (K.iter (snipers K q c sq)).foldl (fun acc sniper =>
      let blockers := K.and (betweenTable K sq sniper) (q.occupiedBB K)
      if K.count blockers = 1 then K.or acc blockers else acc) K.empty
  | none => K.empty

/-- The array literal of `AttackInfo::new` (/repo/src/position.rs:379-402). -/
def checkablesOf (K : Backend) (q : PartialPosition) : PieceKind → BB :=
  let opp := q.side.flip
  let occ := q.occupiedBB K
  match q.kingPosition K opp with
  | some sq => fun pk =>
    match pk with
    | .pawn => fuAttack K sq opp
    | .lance => kyAttack K sq opp occ
    | .knight => keAttack K sq opp
    | .silver => giAttack K sq opp
    | .gold => kiAttack K sq opp
    | .bishop => kaAttack K sq occ
    | .rook => hiAttack K sq occ
    | .king => K.empty
    | .proPawn => kiAttack K sq opp
    | .proLance => kiAttack K sq opp
    | .proKnight => kiAttack K sq opp
    | .proSilver => kiAttack K sq opp
    | .proBishop => K.or (kaAttack K sq occ) (kiAttack K sq opp)
    | .proRook => K.or (hiAttack K sq occ) (giAttack K sq opp)
  | none => fun _ => K.empty

/-- `AttackInfo::new` (/repo/src/position.rs:359-411). -/
def new (K : Backend) (checkers : BB) (q : PartialPosition) : AttackInfo :=
  { checkers := checkers
    checkables := checkablesOf K q
    pinned := pinnedOf K q }

/-- `AttackInfo::calculate_checkers` (/repo/src/position.rs:413-430). -/
def calculateCheckers (K : Backend) (q : PartialPosition) : BB :=
  let c := q.side
  let occ := q.occupiedBB K
  match q.kingPosition K c with
  | some sq =>
    K.and
      (K.or (K.or (K.or (K.or (K.or (K.or
        (K.and (fuAttack K sq c) (q.pieceBB .pawn))
        (K.and (kyAttack K sq c occ) (q.pieceBB .lance)))
        (K.and (keAttack K sq c) (q.pieceBB .knight)))
        (K.and (giAttack K sq c) (K.or (q.pieceBB .silver) (q.pieceBB .proRook))))
        (K.and (kaAttack K sq occ) (K.or (q.pieceBB .bishop) (q.pieceBB .proBishop))))
        (K.and (hiAttack K sq occ) (K.or (q.pieceBB .rook) (q.pieceBB .proRook))))
        (K.and (kiAttack K sq c)
          (K.or (K.or (K.or (K.or (K.or (q.pieceBB .gold) (q.pieceBB .proPawn))
            (q.pieceBB .proLance)) (q.pieceBB .proKnight)) (q.pieceBB .proSilver))
            (q.pieceBB .proBishop))))
      (q.playerBB c.flip)
  | none => K.empty

end AttackInfo

namespace Position

/-- The board part of the key computed by `Position::new` (/repo/src/position.rs:18-22). -/
def newBoardKey (E : Env) (q : PartialPosition) : Key :=
  Square.all.foldl (fun k sq =>
    match q.board sq with
    | some p => k ^^^ E.zobBoard sq p
    | none => k) Key.ZERO

/-- The inner loop `for i in 0..num` (/repo/src/position.rs:26-28); `none` on index out of bounds. -/
def newHandKeyLoop (E : Env) (c : Color) (pk : PieceKind) (num : Nat) (k : Key) : Option Key :=
  (List.range num).foldlM (fun k i => do
    let z ← E.zobHand c pk i
    pure (k ^^^ z)) k

/-- The hand part of the key computed by `Position::new` (/repo/src/position.rs:23-31). -/
def newHandKey (E : Env) (q : PartialPosition) : Option Key :=
  Color.all.foldlM (fun k c =>
    Hand.allHandPieces.foldlM (fun k pk =>
      match (q.hands c).count pk with
      | some num => newHandKeyLoop E c pk num k
      | none => pure k) k) Key.ZERO

/-- `Position::new` (/repo/src/position.rs:15-43). -/
def new (E : Env) (K : Backend) (pp : CorePartialPosition) : Option Position := do
  let inner := PartialPosition.ofCore K pp
  let key0 := newBoardKey E inner
  let key1 ← newHandKey E inner
  let checkers := AttackInfo.calculateCheckers K inner
  pure
    { inner := inner
      states := [{ keys := (key0, key1), captured := none, lastMoved := none,
                   attackInfo := AttackInfo.new K checkers inner }] }

/-- `side_to_move` (/repo/src/position.rs:45-47). -/
def sideToMove (p : Position) : Color := p.inner.side

/-- `ply` (/repo/src/position.rs:49-51). -/
def ply (p : Position) : BitVec 16 := p.inner.ply

/-- `hand` (/repo/src/position.rs:53-55). -/
def hand (p : Position) (c : Color) : Hand := p.inner.hands c

/-- `piece_at` (/repo/src/position.rs:57-59). -/
def pieceAt (p : Position) (sq : Square) : Option Piece := p.inner.pieceAt sq

/-- `state` (/repo/src/position.rs:247-249): panics when the history is empty. -/
def state (p : Position) : Option State := p.states.head?

/-- `captured` (/repo/src/position.rs:231-233); the outer `none` is the panic of `state`. -/
def captured (p : Position) : Option (Option Piece) := p.state.map (·.captured)

/-- `last_moved` (/repo/src/position.rs:235-237). -/
def lastMoved (p : Position) : Option (Option Piece) := p.state.map (·.lastMoved)

/-- `key` (/repo/src/position.rs:61-63). -/
def key (p : Position) : Option (BitVec 64) := do
  let st ← p.state
  pure (st.keys.1 ^^^ st.keys.2)

/-- `keys` (/repo/src/position.rs:65-67). -/
def keys (p : Position) : Option (BitVec 64 × BitVec 64) := do
  let st ← p.state
  pure (st.keys.1, st.keys.2)

/-- `in_check` (/repo/src/position.rs:69-71). -/
def inCheck (K : Backend) (p : Position) : Option Bool := do
  let st ← p.state
  pure (!K.isEmpty st.attackInfo.checkers)

/-- `AttackInfo::checkable` (/repo/src/position.rs:440-442) through `Position::checkable`
(lines 251-253). -/
def checkable (K : Backend) (st : State) (pk : PieceKind) (sq : Square) : Bool :=
  K.contains (st.attackInfo.checkables pk) sq

/-- `is_check_move` (/repo/src/position.rs:72-96). -/
def isCheckMove (K : Backend) (p : Position) (m : Move) : Option Bool :=
  match m with
  | .normal frm to promote => do
    let piece ← p.inner.pieceAt frm
    let pk := piece.kind
    let pk := if promote then pk.promote.getD pk else pk
    let st ← p.state
    if checkable K st pk to then pure true
    else
      let c := p.inner.side.flip
      if K.contains (st.attackInfo.pinned c) frm then do
        let sq ← p.inner.kingPosition K c
        pure (!(K.contains (betweenTable K sq frm) to || K.contains (betweenTable K sq to) frm))
      else pure false
  | .drop to piece => do
    let st ← p.state
    pure (checkable K st piece.kind to)

/-- `self.inner.ply += 1` (/repo/src/position.rs:167). -/
def plyAdd (E : Env) (n : BitVec 16) : Option (BitVec 16) :=
  if E.overflowChecks && n == 65535#16 then none else some (n + 1#16)

/-- `self.inner.ply -= 1` (/repo/src/position.rs:206). -/
def plySub (E : Env) (n : BitVec 16) : Option (BitVec 16) :=
  if E.overflowChecks && n == 0#16 then none else some (n - 1#16)

/-- The capture block of `do_move` (/repo/src/position.rs:107-121): new keys and inner state. -/
def doCapture (E : Env) (K : Backend) (c : Color) (to : Square) (captured : Option Piece)
    (keys : Key × Key) (q : PartialPosition) : Option ((Key × Key) × PartialPosition) :=
  match captured with
  | some p => do
    let pk := p.kind
    let pkU := pk.unpromote.getD pk
    let n ← (q.hands c).count pkU
    let z ← E.zobHand c pkU n
    let keys := (keys.1 ^^^ E.zobBoard to p, keys.2 ^^^ z)
    let q := q.xorPiece K to p
    let hand ← (q.hands c).added pkU
    pure (keys, q.setHand c hand)
  | none => pure (keys, q)

/-- `target_piece` in `do_move` (/repo/src/position.rs:122-126): panics when the piece cannot
promote. -/
def targetPiece (piece : Piece) (promote : Bool) : Option Piece :=
  if promote then piece.promote else some piece

/-- The update of the inner state by a board move (/repo/src/position.rs:128-132). -/
def moveInner (K : Backend) (c : Color) (q : PartialPosition) (frm to : Square)
    (piece target : Piece) : PartialPosition :=
  let q := q.xorPiece K frm piece
  let q := q.xorPiece K to target
  let q := q.setPieceAt frm none
  let q := q.setPieceAt to (some target)
  { q with side := c.flip }

/-- The update of the inner state by a drop (/repo/src/position.rs:144-149). -/
def dropInner (K : Backend) (c : Color) (q : PartialPosition) (to : Square) (piece : Piece) :
    Option PartialPosition := do
  let q := q.xorPiece K to piece
  let q := q.setPieceAt to (some piece)
  let hand ← (q.hands c).removed piece.kind
  let q := q.setHand c hand
  pure { q with side := c.flip }

/-- The end of `do_move` (/repo/src/position.rs:167-174). -/
def pushState (E : Env) (K : Backend) (states : List State) (q : PartialPosition)
    (keys : Key × Key) (captured lastMoved : Option Piece) (checkers : BB) : Option Position := do
  let ply ← plyAdd E q.ply
  let q := { q with ply := ply }
  let keys := (keys.1 ^^^ Key.COLOR, keys.2)
  pure
    { inner := q
      states := { keys := keys, captured := captured, lastMoved := lastMoved,
                  attackInfo := AttackInfo.new K checkers q } :: states }

/-- `do_move` (/repo/src/position.rs:97-175). -/
def doMove (E : Env) (K : Backend) (p : Position) (m : Move) : Option Position := do
  let c := p.sideToMove
  let isCheck ← p.isCheckMove K m
  let captured := p.inner.pieceAt m.to
  let st ← p.state
  match m with
  | .normal frm to promote => do
    let piece ← p.inner.pieceAt frm
    let (keys, q) ← doCapture E K c to captured st.keys p.inner
    let target ← targetPiece piece promote
    let q := moveInner K c q frm to piece target
    let keys := (keys.1 ^^^ E.zobBoard frm piece ^^^ E.zobBoard to target, keys.2)
    let checkers := if isCheck then AttackInfo.calculateCheckers K q else K.empty
    pushState E K p.states q keys captured (some piece) checkers
  | .drop to piece => do
    let q ← dropInner K c p.inner to piece
    let n ← (q.hands c).count piece.kind
    let z ← E.zobHand c piece.kind n
    let keys := (st.keys.1 ^^^ E.zobBoard to piece, st.keys.2 ^^^ z)
    let checkers := if isCheck then K.single to else K.empty
    pushState E K p.states q keys captured (some piece) checkers

/-- The capture block of `undo_move` (/repo/src/position.rs:186-192). -/
def undoCapture (K : Backend) (c : Color) (to : Square) (captured : Option Piece)
    (q : PartialPosition) : Option PartialPosition :=
  match captured with
  | some p => do
    let pk := p.kind
    let pkU := pk.unpromote.getD pk
    let q := q.xorPiece K to p
    let hand ← (q.hands c).removed pkU
    pure (q.setHand c hand)
  | none => pure q

/-- The update of the inner state when a board move is undone
(/repo/src/position.rs:184-197). -/
def undoNormal (K : Backend) (c : Color) (st : State) (q : PartialPosition) (frm to : Square) :
    Option PartialPosition := do
  let lastMoved ← st.lastMoved
  let captured := st.captured
  let q ← undoCapture K c to captured q
  let q := q.xorPiece K frm lastMoved
  let atTo ← q.pieceAt to
  let q := q.xorPiece K to atTo
  let q := q.setPieceAt frm (some lastMoved)
  pure (q.setPieceAt to captured)

/-- The update of the inner state when a drop is undone (/repo/src/position.rs:199-202). -/
def undoDrop (K : Backend) (c : Color) (q : PartialPosition) (to : Square) (piece : Piece) :
    Option PartialPosition := do
  let q := q.xorPiece K to piece
  let q := q.setPieceAt to none
  let hand ← (q.hands c).added piece.kind
  pure (q.setHand c hand)

/-- The end of `undo_move` (/repo/src/position.rs:205-207). -/
def popState (E : Env) (c : Color) (states : List State) (q : PartialPosition) :
    Option Position := do
  let ply ← plySub E q.ply
  pure { inner := { q with side := c, ply := ply }, states := states.tail }

/-- `undo_move` (/repo/src/position.rs:176-208). -/
def undoMove (E : Env) (K : Backend) (p : Position) (m : Move) : Option Position :=
  let c := p.sideToMove.flip
  match m with
  | .normal frm to _ => do
    let st ← p.state
    let q ← undoNormal K c st p.inner frm to
    popState E c p.states q
  | .drop to piece => do
    let q ← undoDrop K c p.inner to piece
    popState E c p.states q

end Position

end Yasai

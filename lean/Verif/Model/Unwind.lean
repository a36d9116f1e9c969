import Verif.Model.Position

/-!
# `do_move` and `undo_move` statement by statement, with what a panic leaves behind

`Position.doMove` and `Position.undoMove` say only that a call panics.  A caller who catches the panic
(`std::panic::catch_unwind`) still has the position, with the writes made so far.  Here the two
functions are written once more, as sequences of statements on the inner position; a panic keeps the
inner position of that moment.  `states` is written by the last statement of each function only.
-/

namespace Yasai

/-- Statements that read and write the inner position and may panic: the inner position afterwards, and
the value unless there was a panic. -/
def Run (α : Type) : Type := PartialPosition → PartialPosition × Option α

namespace Run

instance : Monad Run where
  pure a := fun q => (q, some a)
  bind x f := fun q =>
    match x q with
    | (q', some a) => f a q'
    | (q', none) => (q', none)

/-- `self.inner`. -/
def get : Run PartialPosition := fun q => (q, some q)

/-- A write to `self.inner`. -/
def modify (f : PartialPosition → PartialPosition) : Run Unit := fun q => (f q, some ())

/-- `unwrap()`, an index, an addition with overflow check: a panic on `none`. -/
def unwrap {α : Type} (o : Option α) : Run α := fun q => (q, o)

end Run

/-- How a call ends. -/
inductive Outcome
  | done (p : Position)
  | panicked (p : Position)

namespace Position

/-- The body of `do_move` (/repo/src/position.rs:97-175) up to `self.states.push(…)`; the result is
the entry to be pushed. -/
def doMoveBody (E : Env) (K : Backend) (p : Position) (m : Move) : Run State := do
  let c := p.sideToMove
  let isCheck ← Run.unwrap (p.isCheckMove K m)
  let captured := p.inner.pieceAt m.to
  let st ← Run.unwrap p.state
  let (keys, lastMoved, checkers) ← (match m with
    | .normal frm to promote => do
      let piece ← Run.unwrap ((← Run.get).pieceAt frm)
      let keys ← (match captured with
        | some cp => do
          let pk := cp.kind
          let pkU := pk.unpromote.getD pk
          let n ← Run.unwrap (((← Run.get).hands c).count pkU)
          let z ← Run.unwrap (E.zobHand c pkU n)
          Run.modify (·.xorPiece K to cp)
          let hand ← Run.unwrap (((← Run.get).hands c).added pkU)
          Run.modify (·.setHand c hand)
          pure (st.keys.1 ^^^ E.zobBoard to cp, st.keys.2 ^^^ z)
        | none => pure st.keys)
      let target ← Run.unwrap (if promote then piece.promote else some piece)
      Run.modify (·.xorPiece K frm piece)
      Run.modify (·.xorPiece K to target)
      Run.modify (·.setPieceAt frm none)
      Run.modify (·.setPieceAt to (some target))
      Run.modify ({ · with side := c.flip })
      let keys := (keys.1 ^^^ E.zobBoard frm piece ^^^ E.zobBoard to target, keys.2)
      let q ← Run.get
      pure (keys, some piece, if isCheck then AttackInfo.calculateCheckers K q else K.empty)
    | .drop to piece => do
      Run.modify (·.xorPiece K to piece)
      Run.modify (·.setPieceAt to (some piece))
      let hand ← Run.unwrap (((← Run.get).hands c).removed piece.kind)
      Run.modify (·.setHand c hand)
      Run.modify ({ · with side := c.flip })
      let n ← Run.unwrap (((← Run.get).hands c).count piece.kind)
      let z ← Run.unwrap (E.zobHand c piece.kind n)
      let keys := (st.keys.1 ^^^ E.zobBoard to piece, st.keys.2 ^^^ z)
      pure (keys, some piece, if isCheck then K.single to else K.empty))
  let ply ← Run.unwrap (plyAdd E (← Run.get).ply)
  Run.modify ({ · with ply := ply })
  let keys := (keys.1 ^^^ Key.COLOR, keys.2)
  let q ← Run.get
  pure { keys := keys, captured := captured, lastMoved := lastMoved,
         attackInfo := AttackInfo.new K checkers q }

/-- `do_move` with its panics. -/
def doMoveCaught (E : Env) (K : Backend) (p : Position) (m : Move) : Outcome :=
  match p.doMoveBody E K m p.inner with
  | (q, some st) => .done { inner := q, states := st :: p.states }
  | (q, none) => .panicked { inner := q, states := p.states }

/-- The body of `undo_move` (/repo/src/position.rs:176-208) up to `self.states.pop()`. -/
def undoMoveBody (E : Env) (K : Backend) (p : Position) (m : Move) : Run Unit := do
  let c := p.sideToMove.flip
  match m with
  | .normal frm to _ => do
    let st ← Run.unwrap p.state
    let lastMoved ← Run.unwrap st.lastMoved
    let captured := st.captured
    match captured with
    | some cp => do
      let pk := cp.kind
      let pkU := pk.unpromote.getD pk
      Run.modify (·.xorPiece K to cp)
      let hand ← Run.unwrap (((← Run.get).hands c).removed pkU)
      Run.modify (·.setHand c hand)
    | none => pure ()
    Run.modify (·.xorPiece K frm lastMoved)
    let atTo ← Run.unwrap ((← Run.get).pieceAt to)
    Run.modify (·.xorPiece K to atTo)
    Run.modify (·.setPieceAt frm (some lastMoved))
    Run.modify (·.setPieceAt to captured)
  | .drop to piece => do
    Run.modify (·.xorPiece K to piece)
    Run.modify (·.setPieceAt to none)
    let hand ← Run.unwrap (((← Run.get).hands c).added piece.kind)
    Run.modify (·.setHand c hand)
  Run.modify ({ · with side := c })
  let ply ← Run.unwrap (plySub E (← Run.get).ply)
  Run.modify ({ · with ply := ply })

/-- `undo_move` with its panics. -/
def undoMoveCaught (E : Env) (K : Backend) (p : Position) (m : Move) : Outcome :=
  match p.undoMoveBody E K m p.inner with
  | (q, some _) => .done { inner := q, states := p.states.tail }
  | (q, none) => .panicked { inner := q, states := p.states }

end Position

end Yasai

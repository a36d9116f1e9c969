import Verif.Model.Unwind
import Verif.Proofs.AgreeAny

/-!
# The statement-by-statement form of `do_move` and `undo_move`
-/

set_option linter.unusedSimpArgs false

namespace Yasai

open Spec

namespace Run

theorem bind_apply {α β : Type} (x : Run α) (f : α → Run β) (q : PartialPosition) :
    (x >>= f) q = match x q with
      | (q', some a) => f a q'
      | (q', none) => (q', none) := rfl

theorem pure_apply {α : Type} (a : α) (q : PartialPosition) : (pure a : Run α) q = (q, some a) := rfl

theorem get_apply (q : PartialPosition) : Run.get q = (q, some q) := rfl

theorem modify_apply (f : PartialPosition → PartialPosition) (q : PartialPosition) :
    Run.modify f q = (f q, some ()) := rfl

theorem unwrap_apply {α : Type} (o : Option α) (q : PartialPosition) : Run.unwrap o q = (q, o) := rfl

/-- Two runs that agree, panics and what they leave included, on inner positions with proper
bitboards. -/
def Agree {α : Type} (x y : Run α) : Prop := ∀ q, OkBoards q → x q = y q ∧ OkBoards (x q).1

theorem Agree.bind {α β : Type} {x y : Run α} {f g : α → Run β} (h : Agree x y)
    (h' : ∀ a, Agree (f a) (g a)) : Agree (x >>= f) (y >>= g) := by
  intro q hq
  obtain ⟨e, ok⟩ := h q hq
  rw [bind_apply, bind_apply, ← e]
  cases hx : x q with
  | mk q' o =>
    rw [hx] at ok
    cases o with
    | none => exact ⟨rfl, ok⟩
    | some a => exact h' a q' ok

/-- After `get` the value is the present inner position, so it may be used as such. -/
theorem Agree.get_bind {β : Type} {f g : PartialPosition → Run β}
    (h : ∀ q, OkBoards q → f q q = g q q ∧ OkBoards (f q q).1) :
    Agree (Run.get >>= f) (Run.get >>= g) := fun q hq => h q hq

theorem Agree.pure {α : Type} (a : α) : Agree (pure a) (pure a) := fun _ hq => ⟨rfl, hq⟩

theorem Agree.unwrap {α : Type} (o : Option α) : Agree (Run.unwrap o) (Run.unwrap o) :=
  fun _ hq => ⟨rfl, hq⟩

theorem Agree.modify {f g : PartialPosition → PartialPosition}
    (h : ∀ q, OkBoards q → f q = g q ∧ OkBoards (f q)) : Agree (Run.modify f) (Run.modify g) :=
  fun q hq => ⟨by rw [modify_apply, modify_apply, (h q hq).1], (h q hq).2⟩

theorem Agree.xorPiece {K K' : Backend} (hK : Lawful K) (hK' : Lawful K') (s : Square) (pc : Piece) :
    Agree (Run.modify (·.xorPiece K s pc)) (Run.modify (·.xorPiece K' s pc)) :=
  Agree.modify fun _ hq => ⟨xorPiece_agree hK hK' .., okBoards_xorPiece hK hq s pc⟩

theorem Agree.other {f : PartialPosition → PartialPosition}
    (h : ∀ q, (f q).playerBB = q.playerBB ∧ (f q).pieceBB = q.pieceBB) :
    Agree (Run.modify f) (Run.modify f) :=
  Agree.modify fun q hq => ⟨rfl, ⟨by rw [(h q).1]; exact hq.okPlayer, by rw [(h q).2]; exact hq.okPiece⟩⟩

theorem Agree.read {α β : Type} (o : PartialPosition → Option α) {f g : α → Run β}
    (h : ∀ a, Agree (f a) (g a)) :
    Agree (Run.get >>= fun q => Run.unwrap (o q) >>= f) (Run.get >>= fun q => Run.unwrap (o q) >>= g) :=
  Agree.get_bind fun q hq => (Agree.bind (Agree.unwrap (o q)) h) q hq

end Run

namespace Position

open Run

/-- The statements give what `doMove` gives, or a panic exactly when it does. -/
theorem doMoveCaught_done (E : Env) (K : Backend) (p p' : Position) (m : Move) :
    p.doMoveCaught E K m = .done p' ↔ p.doMove E K m = some p' := by
  unfold doMoveCaught doMoveBody doMove
  simp only [bind_apply, unwrap_apply, get_apply, modify_apply, pure_apply]
  cases h1 : p.isCheckMove K m with
  | none => simp
  | some isCheck =>
  cases h2 : p.state with
  | none => simp
  | some st =>
  cases m with
  | normal frm to promote =>
    dsimp only [Move.to]
    simp only [bind_apply, unwrap_apply, get_apply, modify_apply, pure_apply, Option.bind_eq_bind,
      Option.bind_some]
    cases h3 : p.inner.pieceAt frm with
    | none => simp
    | some piece =>
    cases h4 : p.inner.pieceAt to with
    | none =>
      simp only [doCapture, pure_apply, Option.pure_def, Option.bind_some, targetPiece]
      cases h5 : (if promote = true then piece.promote else some piece) with
      | none => simp
      | some target =>
      simp only [Option.bind_some, pushState, moveInner, Option.bind_eq_bind]
      cases h6 : plyAdd E (PartialPosition.ply _) with
      | none => simp
      | some n => simp
    | some cp =>
      simp only [doCapture, bind_apply, unwrap_apply, get_apply, modify_apply, pure_apply,
        Option.bind_eq_bind]
      cases h7 : (p.inner.hands p.sideToMove).count (cp.kind.unpromote.getD cp.kind) with
      | none => simp
      | some n =>
      simp only [Option.bind_some]
      cases h8 : E.zobHand p.sideToMove (cp.kind.unpromote.getD cp.kind) n with
      | none => simp
      | some z =>
      simp only [Option.bind_some]
      cases h9 : ((p.inner.xorPiece K to cp).hands p.sideToMove).added
          (cp.kind.unpromote.getD cp.kind) with
      | none => simp
      | some hand =>
      simp only [Option.bind_some, Option.pure_def, targetPiece]
      cases h5 : (if promote = true then piece.promote else some piece) with
      | none => simp
      | some target =>
      simp only [Option.bind_some, pushState, moveInner, Option.bind_eq_bind]
      cases h6 : plyAdd E (PartialPosition.ply _) with
      | none => simp
      | some n => simp
  | drop to piece =>
    dsimp only [Move.to]
    simp only [bind_apply, unwrap_apply, get_apply, modify_apply, pure_apply, Option.bind_eq_bind,
      Option.bind_some, dropInner]
    cases h3 : (((p.inner.xorPiece K to piece).setPieceAt to (some piece)).hands
        p.sideToMove).removed piece.kind with
    | none => simp
    | some hand =>
    simp only [Option.bind_some, Option.pure_def]
    cases h4 : Hand.count _ piece.kind with
    | none => simp
    | some n =>
    simp only [Option.bind_some]
    cases h5 : E.zobHand p.sideToMove piece.kind n with
    | none => simp
    | some z =>
    simp only [Option.bind_some, pushState, Option.bind_eq_bind]
    cases h6 : plyAdd E (PartialPosition.ply _) with
    | none => simp
    | some n => simp

theorem undoMoveCaught_done (E : Env) (K : Backend) (p p' : Position) (m : Move) :
    p.undoMoveCaught E K m = .done p' ↔ p.undoMove E K m = some p' := by
  unfold undoMoveCaught undoMoveBody undoMove
  cases m with
  | normal frm to promote =>
    simp only [bind_apply, unwrap_apply, get_apply, modify_apply, pure_apply, Option.bind_eq_bind]
    cases h2 : p.state with
    | none => simp
    | some st =>
    simp only [bind_apply, unwrap_apply, get_apply, modify_apply, pure_apply, Option.bind_some,
      undoNormal, Option.bind_eq_bind]
    cases h3 : st.lastMoved with
    | none => simp
    | some lm =>
    simp only [Option.bind_some]
    cases h4 : st.captured with
    | none =>
      simp only [bind_apply, unwrap_apply, get_apply, modify_apply, pure_apply, undoCapture,
        Option.pure_def, Option.bind_some]
      cases h5 : PartialPosition.pieceAt _ to with
      | none => simp
      | some t =>
      simp only [Option.bind_some, popState, Option.bind_eq_bind]
      cases h6 : plySub E (PartialPosition.ply _) with
      | none => simp
      | some n => simp
    | some cp =>
      simp only [bind_apply, unwrap_apply, get_apply, modify_apply, pure_apply, undoCapture,
        Option.bind_eq_bind]
      cases h7 : Hand.removed _ (cp.kind.unpromote.getD cp.kind) with
      | none => simp
      | some hand =>
      simp only [Option.bind_some, Option.pure_def]
      cases h5 : PartialPosition.pieceAt _ to with
      | none => simp
      | some t =>
      simp only [Option.bind_some, popState, Option.bind_eq_bind]
      cases h6 : plySub E (PartialPosition.ply _) with
      | none => simp
      | some n => simp
  | drop to piece =>
    simp only [bind_apply, unwrap_apply, get_apply, modify_apply, pure_apply, Option.bind_eq_bind,
      undoDrop]
    cases h3 : Hand.added _ piece.kind with
    | none => simp
    | some hand =>
    simp only [Option.bind_some, Option.pure_def, popState, Option.bind_eq_bind]
    cases h6 : plySub E (PartialPosition.ply _) with
    | none => simp
    | some n => simp

/-- The statements of `do_move` do the same in all builds, up to a panic or to the end. -/
theorem doMoveBody_agree {K K' : Backend} (hK : Lawful K) (hK' : Lawful K') (E : Env) {p : Position}
    (h : OkBoards p.inner) (m : Move) : Agree (p.doMoveBody E K m) (p.doMoveBody E K' m) := by
  unfold doMoveBody
  rw [isCheckMove_any hK hK' h m]
  refine Agree.bind (Agree.unwrap _) fun isCheck => Agree.bind (Agree.unwrap _) fun st => ?_
  refine Agree.bind ?_ fun ⟨keys, lastMoved, checkers⟩ => ?_
  · cases m with
    | normal frm to promote =>
      refine Agree.read _ fun piece => Agree.bind ?_ fun keys => Agree.bind (Agree.unwrap _) fun target =>
        Agree.bind (Agree.xorPiece hK hK' _ _) fun _ => Agree.bind (Agree.xorPiece hK hK' _ _) fun _ =>
        Agree.bind (Agree.other fun _ => ⟨rfl, rfl⟩) fun _ =>
        Agree.bind (Agree.other fun _ => ⟨rfl, rfl⟩) fun _ =>
        Agree.bind (Agree.other fun _ => ⟨rfl, rfl⟩) fun _ => Agree.get_bind fun q hq => ?_
      · cases p.inner.pieceAt (Move.to (.normal frm to promote)) with
        | none => exact Agree.pure _
        | some cp =>
          exact Agree.read _ fun n => Agree.bind (Agree.unwrap _) fun z =>
            Agree.bind (Agree.xorPiece hK hK' _ _) fun _ => Agree.read _ fun hand =>
            Agree.bind (Agree.other fun _ => ⟨rfl, rfl⟩) fun _ => Agree.pure _
      · rw [calculateCheckers_agree hK hK' hq, hK.empty, hK'.empty]
        exact Agree.pure _ q hq
    | drop to piece =>
      refine Agree.bind (Agree.xorPiece hK hK' _ _) fun _ =>
        Agree.bind (Agree.other fun _ => ⟨rfl, rfl⟩) fun _ => Agree.read _ fun hand =>
        Agree.bind (Agree.other fun _ => ⟨rfl, rfl⟩) fun _ =>
        Agree.bind (Agree.other fun _ => ⟨rfl, rfl⟩) fun _ => Agree.read _ fun n =>
        Agree.bind (Agree.unwrap _) fun z => ?_
      rw [hK.single, hK'.single, hK.empty, hK'.empty]
      exact Agree.pure _
  · refine Agree.read _ fun n => Agree.bind (Agree.other fun _ => ⟨rfl, rfl⟩) fun _ =>
      Agree.get_bind fun q hq => ?_
    rw [attackInfo_agree hK hK' hq]
    exact Agree.pure _ q hq

theorem undoMoveBody_agree {K K' : Backend} (hK : Lawful K) (hK' : Lawful K') (E : Env)
    (p : Position) (m : Move) : Agree (p.undoMoveBody E K m) (p.undoMoveBody E K' m) := by
  have fin : Agree
      (do Run.modify ({ · with side := p.sideToMove.flip })
          let ply ← Run.unwrap (plySub E (← Run.get).ply)
          Run.modify ({ · with ply := ply }))
      (do Run.modify ({ · with side := p.sideToMove.flip })
          let ply ← Run.unwrap (plySub E (← Run.get).ply)
          Run.modify ({ · with ply := ply })) :=
    Agree.bind (Agree.other fun _ => ⟨rfl, rfl⟩) fun _ => Agree.read _ fun n =>
      Agree.other fun _ => ⟨rfl, rfl⟩
  unfold undoMoveBody
  cases m with
  | normal frm to promote =>
    refine Agree.bind (Agree.unwrap _) fun st => Agree.bind (Agree.unwrap _) fun lm => ?_
    cases st.captured with
    | none =>
      exact Agree.bind (Agree.xorPiece hK hK' _ _) fun _ => Agree.read _ fun t =>
        Agree.bind (Agree.xorPiece hK hK' _ _) fun _ =>
        Agree.bind (Agree.other fun _ => ⟨rfl, rfl⟩) fun _ =>
        Agree.bind (Agree.other fun _ => ⟨rfl, rfl⟩) fun _ => fin
    | some cp =>
      exact Agree.bind (Agree.xorPiece hK hK' _ _) fun _ => Agree.read _ fun hand =>
        Agree.bind (Agree.other fun _ => ⟨rfl, rfl⟩) fun _ =>
        Agree.bind (Agree.xorPiece hK hK' _ _) fun _ => Agree.read _ fun t =>
        Agree.bind (Agree.xorPiece hK hK' _ _) fun _ =>
        Agree.bind (Agree.other fun _ => ⟨rfl, rfl⟩) fun _ =>
        Agree.bind (Agree.other fun _ => ⟨rfl, rfl⟩) fun _ => fin
  | drop to piece =>
    exact Agree.bind (Agree.xorPiece hK hK' _ _) fun _ =>
        Agree.bind (Agree.other fun _ => ⟨rfl, rfl⟩) fun _ => Agree.read _ fun hand =>
        Agree.bind (Agree.other fun _ => ⟨rfl, rfl⟩) fun _ => fin

theorem doMoveCaught_agree {K K' : Backend} (hK : Lawful K) (hK' : Lawful K') (E : Env)
    {p : Position} (h : OkBoards p.inner) (m : Move) :
    p.doMoveCaught E K m = p.doMoveCaught E K' m := by
  unfold doMoveCaught
  rw [(doMoveBody_agree hK hK' E h m p.inner h).1]

theorem undoMoveCaught_agree {K K' : Backend} (hK : Lawful K) (hK' : Lawful K') (E : Env)
    {p : Position} (h : OkBoards p.inner) (m : Move) :
    p.undoMoveCaught E K m = p.undoMoveCaught E K' m := by
  unfold undoMoveCaught
  rw [(undoMoveBody_agree hK hK' E p m p.inner h).1]

/-- A panic leaves proper bitboards and the history. -/
theorem doMoveCaught_panicked {K : Backend} (hK : Lawful K) (E : Env) {p p' : Position}
    (h : OkBoards p.inner) {m : Move} (hm : p.doMoveCaught E K m = .panicked p') :
    OkBoards p'.inner ∧ p'.states = p.states := by
  have := (doMoveBody_agree hK hK E h m p.inner h).2
  unfold doMoveCaught at hm
  split at hm
  · cases hm
  · next e => cases hm; rw [e] at this; exact ⟨this, rfl⟩

theorem undoMoveCaught_panicked {K : Backend} (hK : Lawful K) (E : Env) {p p' : Position}
    (h : OkBoards p.inner) {m : Move} (hm : p.undoMoveCaught E K m = .panicked p') :
    OkBoards p'.inner ∧ p'.states = p.states := by
  have := (undoMoveBody_agree hK hK E p m p.inner h).2
  unfold undoMoveCaught at hm
  split at hm
  · cases hm
  · next e => cases hm; rw [e] at this; exact ⟨this, rfl⟩

end Position

end Yasai

import Verif.Props.Undo
import Verif.Proofs.Effect

/-!
# Sessions: histories of `do_move` and `undo_move`
-/

namespace Yasai.Props

open Yasai Spec

/-- A history of calls on a `Position` that starts as `p0`: `do_move` with moves allowed by `A`, and
`undo_move` of the move done last.  The list is the stack of moves done and not undone (last move
first). -/
inductive Session (E : Env) (K : Backend) (A : Position → Move → Prop) (p0 : Position) :
    List Move → Position → Prop
  | start : Session E K A p0 [] p0
  | move {ms : List Move} {p p' : Position} {m : Move} :
      Session E K A p0 ms p → A p m → p.doMove E K m = some p' → Session E K A p0 (m :: ms) p'
  | undo {ms : List Move} {p p' : Position} {m : Move} :
      Session E K A p0 (m :: ms) p → p.undoMove E K m = some p' → Session E K A p0 ms p'

/-- A history of `do_move` calls only. -/
inductive Play (E : Env) (K : Backend) (A : Position → Move → Prop) (p0 : Position) :
    List Move → Position → Prop
  | start : Play E K A p0 [] p0
  | move {ms : List Move} {p p' : Position} {m : Move} :
      Play E K A p0 ms p → A p m → p.doMove E K m = some p' → Play E K A p0 (m :: ms) p'

/-- The board, hands and side shown by the accessors. -/
def view (p : Position) : Pos where
  board := p.pieceAt
  hand c k := ((p.hand c).count k).getD 0
  side := p.sideToMove

theorem view_eq (p : Position) : view p = p.inner.spec := rfl

/-- A board move changes the square; a drop goes to an empty square. -/
def Shape (p : Position) : Move → Prop
  | .normal frm to _ => frm ≠ to
  | .drop to _ => p.pieceAt to = none

theorem shape_good {p : Position} {m : Move} (h : Shape p m) : GoodShape p.inner.board m := by
  cases m <;> exact h

theorem shape_drops {p : Position} {m : Move} (h : Shape p m) : DropsOnEmpty p m := by
  rintro to pc rfl; exact h

theorem shape_of_pseudoLegal {p : Position} {m : Move} (h : PseudoLegal (view p) m) :
    Shape p m := by
  cases m with
  | normal frm to promote => obtain ⟨k, _, h, _⟩ := h; exact reaches_ne h
  | drop to pc => exact h.2.2.2.1

theorem shape_of_legal {p : Position} {m : Move} (h : Legal (view p) m) : Shape p m :=
  shape_of_pseudoLegal h.1.1

/-- Undone moves leave no trace: every session ends where plain play of the remaining moves ends. -/
theorem Session.play {E : Env} {K : Backend} (hK : K ∈ backends) {A : Position → Move → Prop}
    (hA : ∀ p m, A p m → Shape p m) {p0 p : Position} {ms : List Move}
    (h : Session E K A p0 ms p) : Play E K A p0 ms p := by
  induction h with
  | start => exact .start
  | move _ ha hm ih => exact .move ih ha hm
  | undo _ hu ih =>
    cases ih with
    | move ih ha hm =>
      have := C01_undo_inverts_do E K hK _ _ _ (shape_drops (hA _ _ ha)) hm
      rw [this] at hu
      cases hu
      exact ih

/-- Conversely plain play is a session. -/
theorem Play.session {E : Env} {K : Backend} {A : Position → Move → Prop} {p0 p : Position}
    {ms : List Move} (h : Play E K A p0 ms p) : Session E K A p0 ms p := by
  induction h with
  | start => exact .start
  | move _ ha hm ih => exact .move ih ha hm

theorem Session.mono {E : Env} {K : Backend} {A B : Position → Move → Prop}
    (hAB : ∀ p m, A p m → B p m) {p0 p : Position} {ms : List Move}
    (h : Session E K A p0 ms p) : Session E K B p0 ms p := by
  induction h with
  | start => exact .start
  | move _ ha hm ih => exact .move ih (hAB _ _ ha) hm
  | undo _ hu ih => exact .undo ih hu

end Yasai.Props

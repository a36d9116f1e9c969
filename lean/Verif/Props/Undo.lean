import Verif.Proofs.Undo
import Verif.Examples.Positions

/-!
# C01, C02: `undo_move` is the exact inverse of `do_move`
-/

namespace Yasai.Props

open Yasai

/-- The moves the property speaks about: a drop must go to an empty square.  (Board moves need no
condition.) -/
def DropsOnEmpty (p : Position) (m : Move) : Prop :=
  ∀ to piece, m = .drop to piece → p.pieceAt to = none

/-- C01.  Whenever `do_move` returns, `undo_move` of the same move returns and gives back the whole
`Position` value (board, bitboards, hands, side, ply, history with keys and attack info). -/
theorem C01_undo_inverts_do (E : Env) (K : Backend) (hK : K ∈ backends) (p p' : Position)
    (m : Move) (hm : DropsOnEmpty p m) (h : p.doMove E K m = some p') :
    p'.undoMove E K m = some p :=
  undoMove_doMove (lawful_of_mem hK) hm h

/-- A run of moves, each of the shape of C01, none of which panics. -/
inductive Run (E : Env) (K : Backend) : Position → List Move → Position → Prop
  | nil (p : Position) : Run E K p [] p
  | cons {p p' p'' : Position} {m : Move} {ms : List Move} :
      DropsOnEmpty p m → p.doMove E K m = some p' → Run E K p' ms p'' → Run E K p (m :: ms) p''

/-- Undoes the moves of a list from its last element to its first. -/
def undoAll (E : Env) (K : Backend) (ms : List Move) (p : Position) : Option Position :=
  ms.reverse.foldlM (fun p m => p.undoMove E K m) p

/-- C02.  Undoing a whole game in reverse order restores the initial `Position` value. -/
theorem C02_unwind_restores (E : Env) (K : Backend) (hK : K ∈ backends) (p p' : Position)
    (ms : List Move) (h : Run E K p ms p') : undoAll E K ms p' = some p := by
  induction h with
  | nil p => rfl
  | cons hd hm _ ih =>
    unfold undoAll at ih ⊢
    rw [List.reverse_cons, List.foldlM_append, ih]
    simp [C01_undo_inverts_do E K hK _ _ _ hd hm]

open Yasai.Examples

/-- Hypotheses of C01 hold for a capture with promotion after two opening moves: 7g7f, 3c3d,
8h2b+ from the initial position. -/
example : ∃ p p', (Position.new env0 CoreBB.backend startpos >>= fun p =>
      p.doMove env0 CoreBB.backend (.normal (sq 7 7) (sq 7 6) false) >>= fun p =>
      p.doMove env0 CoreBB.backend (.normal (sq 3 3) (sq 3 4) false)) = some p ∧
    DropsOnEmpty p (.normal (sq 8 8) (sq 2 2) true) ∧
    p.doMove env0 CoreBB.backend (.normal (sq 8 8) (sq 2 2) true) = some p' ∧
    p.pieceAt (sq 2 2) = some ⟨.bishop, .white⟩ := by
  have h : ((Position.new env0 CoreBB.backend startpos >>= fun p =>
      p.doMove env0 CoreBB.backend (.normal (sq 7 7) (sq 7 6) false) >>= fun p =>
      p.doMove env0 CoreBB.backend (.normal (sq 3 3) (sq 3 4) false)).any fun p =>
      (p.doMove env0 CoreBB.backend (.normal (sq 8 8) (sq 2 2) true)).isSome &&
      decide (p.pieceAt (sq 2 2) = some ⟨.bishop, .white⟩)) = true := by decide +kernel
  rw [Option.any_eq_true] at h
  obtain ⟨p, hp, h⟩ := h
  rw [Bool.and_eq_true, decide_eq_true_eq] at h
  obtain ⟨p', hp'⟩ := Option.isSome_iff_exists.1 h.1
  exact ⟨p, p', hp, fun _ _ e => (by cases e), hp', h.2⟩

/-- Hypotheses of C01 hold for a drop. -/
example : ∃ p p', Position.new env0 CoreBB.backend maxMoves = some p ∧
    DropsOnEmpty p (.drop (sq 5 5) ⟨.gold, .black⟩) ∧
    p.doMove env0 CoreBB.backend (.drop (sq 5 5) ⟨.gold, .black⟩) = some p' := by
  have h : ((Position.new env0 CoreBB.backend maxMoves).any fun p =>
      (p.doMove env0 CoreBB.backend (.drop (sq 5 5) ⟨.gold, .black⟩)).isSome &&
      decide (p.pieceAt (sq 5 5) = none)) = true := by decide +kernel
  rw [Option.any_eq_true] at h
  obtain ⟨p, hp, h⟩ := h
  rw [Bool.and_eq_true, decide_eq_true_eq] at h
  obtain ⟨p', hp'⟩ := Option.isSome_iff_exists.1 h.1
  exact ⟨p, p', hp, fun to pc e => (by cases e; exact h.2), hp'⟩

/-- Hypotheses of C02 hold for a game of two moves. -/
example : ∃ p p', Position.new env0 CoreBB.backend startpos = some p ∧
    Run env0 CoreBB.backend p
      [.normal (sq 7 7) (sq 7 6) false, .normal (sq 3 3) (sq 3 4) false] p' := by
  have h : ((Position.new env0 CoreBB.backend startpos).any fun p =>
      (p.doMove env0 CoreBB.backend (.normal (sq 7 7) (sq 7 6) false)).any fun p =>
      (p.doMove env0 CoreBB.backend (.normal (sq 3 3) (sq 3 4) false)).isSome) = true := by
    decide +kernel
  rw [Option.any_eq_true] at h
  obtain ⟨p, hp, h⟩ := h
  rw [Option.any_eq_true] at h
  obtain ⟨p1, hp1, h⟩ := h
  obtain ⟨p2, hp2⟩ := Option.isSome_iff_exists.1 h
  exact ⟨p, p2, hp, .cons (fun _ _ e => (by cases e)) hp1
    (.cons (fun _ _ e => (by cases e)) hp2 (.nil _))⟩

end Yasai.Props

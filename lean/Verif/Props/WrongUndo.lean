import Verif.Props.Boards

/-!
# C77: which arguments make `undo_move` restore the position
-/

namespace Yasai.Props

open Yasai Spec

/-- The same move up to the promotion flag of a board move. -/
def SameButFlag : Move → Move → Prop
  | .normal frm to _, .normal frm' to' _ => frm' = frm ∧ to' = to
  | .drop to pc, .drop to' pc' => to' = to ∧ pc' = pc
  | _, _ => False

/-- The same move up to the promotion flag of a board move and the colour of a dropped piece. -/
def SameButColour : Move → Move → Prop
  | .normal frm to _, .normal frm' to' _ => frm' = frm ∧ to' = to
  | .drop to pc, .drop to' pc' => to' = to ∧ pc'.kind = pc.kind
  | _, _ => False

theorem undo_normal_effect {E : Env} {K : Backend} {p q : Position} {f t : Square} {b : Bool}
    (h : p.undoMove E K (.normal f t b) = some q) : ∃ st lm, p.state = some st ∧
      st.lastMoved = some lm ∧ p.pieceAt t ≠ none ∧
      (∀ s, q.pieceAt s = if s = t then st.captured else if s = f then some lm else p.pieceAt s) ∧
      (st.captured = none → ∀ c, q.hand c = p.hand c) := by
  simp only [Position.undoMove, Option.bind_eq_bind, Option.bind_eq_some_iff, Position.undoNormal,
    Position.popState, Option.pure_def] at h
  obtain ⟨st, hst, q1, ⟨lm, hlm, q2, h2, pc, h3, e1⟩, n, hn, e⟩ := h
  cases e1
  cases e
  have hb : q2.board = p.inner.board ∧ (st.captured = none → q2.hands = p.inner.hands) := by
    cases hc : st.captured with
    | none =>
      rw [hc] at h2
      cases h2
      exact ⟨rfl, fun _ => rfl⟩
    | some cp =>
      rw [hc] at h2
      simp only [Position.undoCapture, Option.bind_eq_bind, Option.bind_eq_some_iff,
        Option.pure_def] at h2
      obtain ⟨hand, _, e⟩ := h2
      cases e
      exact ⟨rfl, fun e => by cases e⟩
  refine ⟨st, lm, hst, hlm, ?_, fun s => ?_, fun e c => ?_⟩
  · have : q2.board t = some pc := h3
    rw [hb.1] at this
    show p.inner.board t ≠ none
    rw [this]; simp
  · show (if s = t then st.captured else if s = f then some lm else q2.board s) = _
    rw [hb.1]; rfl
  · show q2.hands c = p.inner.hands c
    rw [hb.2 e]

theorem undo_drop_effect {E : Env} {K : Backend} (L : Lawful K) {p q : Position} {t : Square}
    {pc : Piece} (h : p.undoMove E K (.drop t pc) = some q) :
    (∀ s, q.pieceAt s = if s = t then none else p.pieceAt s) ∧
    (∀ c k, ((q.hand c).count k).getD 0 = ((p.hand c).count k).getD 0 +
      if c = p.sideToMove.flip ∧ k = pc.kind then 1 else 0) ∧
    q.sideToMove = p.sideToMove.flip ∧
    (∀ c, q.inner.playerBB c = p.inner.playerBB c ^^^ condSingle (c = pc.color) t) := by
  simp only [Position.undoMove, Option.bind_eq_bind, Option.bind_eq_some_iff, Position.undoDrop,
    Position.popState, Option.pure_def] at h
  obtain ⟨q1, ⟨hand, h2, e1⟩, n, hn, e⟩ := h
  cases e1
  cases e
  refine ⟨fun s => rfl, fun c k => ?_, rfl, fun c => ?_⟩
  · show (((if c = p.sideToMove.flip then hand else p.inner.hands c)).count k).getD 0 = _
    by_cases e : c = p.sideToMove.flip
    · subst e
      rw [if_pos rfl, Hand.count_added h2 k]
      by_cases e' : k = pc.kind
      · simp only [e', and_self, if_true]; rfl
      · simp only [e', and_false, if_false]; rfl
    · simp [e, Position.hand]
  · exact xorPiece_player L p.inner t pc c

theorem undo_flag {E : Env} {K : Backend} (p : Position) (f t : Square) (b b' : Bool) :
    p.undoMove E K (.normal f t b) = p.undoMove E K (.normal f t b') := rfl

/-- Undoing a drop with the wrong colour returns. -/
theorem undo_colour {E : Env} {K : Backend} {p q : Position} {t : Square} {pc pc' : Piece}
    (hk : pc'.kind = pc.kind) (h : p.undoMove E K (.drop t pc) = some q) :
    ∃ q', p.undoMove E K (.drop t pc') = some q' := by
  simp only [Position.undoMove, Option.bind_eq_bind, Option.bind_eq_some_iff, Position.undoDrop,
    Position.popState, Option.pure_def] at h ⊢
  obtain ⟨q1, ⟨hand, h2, e1⟩, n, hn, e⟩ := h
  cases e1
  exact ⟨_, _, ⟨hand, by rw [hk]; exact h2, rfl⟩, n, hn, rfl⟩

/-- C77.  After `do_move(m)` of a pseudo-legal move, `undo_move(x)` gives back the position exactly
if `x` is `m`, but for the promotion flag, which is not read.  Any other argument leads to a panic or
to another position; and to one that shows other pieces or hands, except that a drop undone with the
wrong colour damages only the hidden bitboards. -/
theorem C77_undo_argument (E : Env) (K : Backend) (hK : K ∈ backends) (p p' : Position) (m : Move)
    (hm : PseudoLegal (view p) m) (h : p.doMove E K m = some p') (x : Move) :
    (p'.undoMove E K x = some p ↔ SameButFlag m x) ∧
    ((∃ q, p'.undoMove E K x = some q ∧ view q = view p) ↔ SameButColour m x) := by
  have L := lawful_of_mem hK
  have hv : view p' = apply (view p) m := spec_doMove h
  have hun : p'.undoMove E K m = some p := C01_undo_inverts_do E K hK p p' m (fun to pc e => by
    subst e; exact hm.2.2.2.1) h
  -- what the wrong arguments show
  have key : ∀ q, p'.undoMove E K x = some q → view q = view p → SameButColour m x := by
    intro q hq hqv
    have hqb : ∀ s, q.pieceAt s = p.pieceAt s := fun s => congrFun (congrArg Pos.board hqv) s
    have hpb : ∀ s, p'.pieceAt s = (apply (view p) m).board s :=
      fun s => congrFun (congrArg Pos.board hv) s
    have hqh : ∀ c k, ((q.hand c).count k).getD 0 = ((p.hand c).count k).getD 0 :=
      fun c k => congrFun (congrFun (congrArg Pos.hand hqv) c) k
    cases m with
    | normal frm to b =>
      obtain ⟨k, hfrm, hre, hto, _, _⟩ := hm
      have hfrm : p.pieceAt frm = some ⟨k, p.sideToMove⟩ := hfrm
      have hne : frm ≠ to := reaches_ne hre
      obtain ⟨isCheck, st, piece, kq, target, ply, h1, hst, hpiece, hcap, htarget, hply, hi, hs⟩ :=
        doMove_normal h
      have hp1 : p'.pieceAt frm = none := by
        show p'.inner.board frm = none
        rw [hi]; simp [Position.moveInner, PartialPosition.setPieceAt, hne]
      have hp2 : p'.pieceAt to = some target := by
        show p'.inner.board to = some target
        rw [hi]; simp [Position.moveInner, PartialPosition.setPieceAt]
      have htc : target.color = p.sideToMove := by
        rw [targetPiece_color htarget]
        have : some piece = some ⟨k, p.sideToMove⟩ := hpiece.symm.trans hfrm
        cases this; rfl
      cases x with
      | normal f t b' =>
        obtain ⟨st', lm, hst', hlm, hne', hb, _⟩ := undo_normal_effect hq
        unfold Position.state at hst'
        rw [hs] at hst'
        cases hst'
        have hft : t ≠ frm := fun e => hne' (by rw [e]; exact hp1)
        have hf : f = frm := by
          have := hb frm
          rw [hqb, hfrm, if_neg (Ne.symm hft)] at this
          split at this
          · next e => exact e.symm
          · rw [hp1] at this; cases this
        refine ⟨hf, ?_⟩
        have := hb to
        rw [hqb] at this
        split at this
        · next e => exact e.symm
        · rw [if_neg (by rw [hf]; exact Ne.symm hne), hp2] at this
          exact absurd htc (hto _ this)
      | drop t pc =>
        have := (undo_drop_effect L hq).1 frm
        rw [hqb, hfrm] at this
        split at this
        · cases this
        · rw [hp1] at this; cases this
    | drop to piece =>
      obtain ⟨hcol, _, hpos, hemp, _⟩ := hm
      have hp2 : p'.pieceAt to = some piece := by
        rw [hpb]; simp [apply, put]
      have hhand : ((p'.hand p.sideToMove).count piece.kind).getD 0 + 1 =
          ((p.hand p.sideToMove).count piece.kind).getD 0 := by
        have e : ((p'.hand p.sideToMove).count piece.kind).getD 0 =
            if p.sideToMove = (view p).side ∧ piece.kind = piece.kind then
              ((p.hand p.sideToMove).count piece.kind).getD 0 - 1
            else ((p.hand p.sideToMove).count piece.kind).getD 0 :=
          congrFun (congrFun (congrArg Pos.hand hv) p.sideToMove) piece.kind
        rw [if_pos ⟨rfl, rfl⟩] at e
        have hpos : 0 < ((p.hand p.sideToMove).count piece.kind).getD 0 := hpos
        omega
      have hemp : p.pieceAt to = none := hemp
      cases x with
      | normal f t b' =>
        obtain ⟨isCheck, st, q1, n, z, ply, h1, hst, hq1, hn, hz, hply, hi, hs⟩ := doMove_drop h
        obtain ⟨st', lm, hst', hlm, hne', hb, hh⟩ := undo_normal_effect hq
        unfold Position.state at hst'
        rw [hs] at hst'
        cases hst'
        have := hqh p.sideToMove piece.kind
        rw [hh hemp] at this
        omega
      | drop t pc =>
        obtain ⟨e1, e2, _, _⟩ := undo_drop_effect L hq
        have ht : t = to := by
          have := e1 to
          rw [hqb, hemp] at this
          split at this
          · next e => exact e.symm
          · rw [hp2] at this; cases this
        refine ⟨ht, ?_⟩
        have := e2 p.sideToMove piece.kind
        rw [hqh] at this
        split at this
        · next e => exact e.2.symm
        · omega
  constructor
  · constructor
    · intro hq
      have := key p hq rfl
      cases m with
      | normal frm to b => cases x <;> exact this
      | drop to piece =>
        cases x with
        | normal => exact this
        | drop t pc =>
          obtain ⟨e1, e2⟩ := this
          refine ⟨e1, ?_⟩
          subst e1
          have a := (undo_drop_effect L hq).2.2.2 piece.color
          have b := (undo_drop_effect L hun).2.2.2 piece.color
          have hc : piece.color = pc.color := by
            apply Decidable.byContradiction
            intro hc
            unfold condSingle at a b
            rw [if_neg hc] at a
            rw [if_pos rfl, a] at b
            have := congrArg (fun b => mem b t) b
            simp [mem_xor] at this
          cases piece; cases pc
          cases e2
          cases hc
          rfl
    · intro hs
      cases m with
      | normal frm to b =>
        cases x with
        | normal f t b' =>
          obtain ⟨e1, e2⟩ := hs
          subst e1 e2
          exact hun
        | drop => exact hs.elim
      | drop to piece =>
        cases x with
        | normal => exact hs.elim
        | drop t pc =>
          obtain ⟨e1, e2⟩ := hs
          subst e1 e2
          exact hun
  · constructor
    · rintro ⟨q, hq, hqv⟩
      exact key q hq hqv
    · intro hs
      cases m with
      | normal frm to b =>
        cases x with
        | normal f t b' =>
          obtain ⟨e1, e2⟩ := hs
          subst e1 e2
          exact ⟨p, hun, rfl⟩
        | drop => exact hs.elim
      | drop to piece =>
        cases x with
        | normal => exact hs.elim
        | drop t pc =>
          obtain ⟨e1, e2⟩ := hs
          subst e1
          obtain ⟨q, hq⟩ := undo_colour (pc' := pc) e2 hun
          refine ⟨q, hq, ?_⟩
          obtain ⟨a1, a2, a3, _⟩ := undo_drop_effect L hq
          obtain ⟨b1, b2, b3, _⟩ := undo_drop_effect L hun
          unfold view
          congr 1
          · funext s; rw [a1, b1]
          · funext c k; rw [a2, b2, e2]
          · rw [a3, b3]

section
open Yasai.Examples

/-- C77: White answers a drop; undoing a capture with the wrong flag, or a drop with the wrong colour
or square. -/
example : ∃ p p' p'' q, Position.new env0 CoreBB.backend skirmish = some p ∧
    PseudoLegal (view p) (.normal (sq 2 8) (sq 2 3) true) ∧
    p.doMove env0 CoreBB.backend (.normal (sq 2 8) (sq 2 3) true) = some p' ∧
    p'.undoMove env0 CoreBB.backend (.normal (sq 2 8) (sq 2 3) false) = some p ∧
    PseudoLegal (view p) (.drop (sq 6 4) ⟨.knight, .black⟩) ∧
    p.doMove env0 CoreBB.backend (.drop (sq 6 4) ⟨.knight, .black⟩) = some p'' ∧
    p''.undoMove env0 CoreBB.backend (.drop (sq 6 4) ⟨.knight, .white⟩) = some q ∧
    view q = view p ∧ q ≠ p ∧
    ∃ r, p''.undoMove env0 CoreBB.backend (.drop (sq 6 5) ⟨.knight, .black⟩) = some r ∧
      view r ≠ view p := by
  have h : ((Position.new env0 CoreBB.backend skirmish).any fun p =>
      decide (PseudoLegal (view p) (.normal (sq 2 8) (sq 2 3) true)) &&
      decide (PseudoLegal (view p) (.drop (sq 6 4) ⟨.knight, .black⟩)) &&
      (p.doMove env0 CoreBB.backend (.normal (sq 2 8) (sq 2 3) true)).isSome &&
      (p.doMove env0 CoreBB.backend (.drop (sq 6 4) ⟨.knight, .black⟩)).any fun p'' =>
        (p''.undoMove env0 CoreBB.backend (.drop (sq 6 5) ⟨.knight, .black⟩)).isSome) = true := by
    decide +kernel
  simp only [Option.any_eq_true, Bool.and_eq_true, decide_eq_true_eq] at h
  obtain ⟨p, h0, ⟨⟨h1, h2⟩, h3⟩, p'', h4, h5⟩ := h
  obtain ⟨p', h3⟩ := Option.isSome_iff_exists.1 h3
  obtain ⟨r, h5⟩ := Option.isSome_iff_exists.1 h5
  have a := C77_undo_argument env0 _ core_mem p p' _ h1 h3 (.normal (sq 2 8) (sq 2 3) false)
  have b := C77_undo_argument env0 _ core_mem p p'' _ h2 h4 (.drop (sq 6 4) ⟨.knight, .white⟩)
  have c := C77_undo_argument env0 _ core_mem p p'' _ h2 h4 (.drop (sq 6 5) ⟨.knight, .black⟩)
  obtain ⟨q, hq, hv⟩ := b.2.2 ⟨rfl, rfl⟩
  refine ⟨p, p', p'', q, h0, h1, h3, a.1.2 ⟨rfl, rfl⟩, h2, h4, hq, hv, fun e => ?_, r, h5, fun e => ?_⟩
  · rw [e] at hq
    have := (b.1.1 hq).2
    cases this
  · have := (c.2.1 ⟨r, h5, e⟩).1
    revert this
    decide

/-- C77 needs the rules: after a move that captures an own piece, another argument gives the old board
and hands back too. -/
theorem C77_own_capture : ∃ p p' q, Position.new env0 CoreBB.backend startpos = some p ∧
    p.doMove env0 CoreBB.backend (.normal (sq 7 7) (sq 6 7) false) = some p' ∧
    p'.undoMove env0 CoreBB.backend (.normal (sq 7 7) (sq 5 7) false) = some q ∧
    view q = view p := by
  have h : ((Position.new env0 CoreBB.backend startpos).any fun p =>
      (p.doMove env0 CoreBB.backend (.normal (sq 7 7) (sq 6 7) false)).any fun p' =>
      (p'.undoMove env0 CoreBB.backend (.normal (sq 7 7) (sq 5 7) false)).any fun q =>
        decide (∀ s, q.pieceAt s = p.pieceAt s) && decide (q.sideToMove = p.sideToMove) &&
        decide (∀ c k, ((q.hand c).count k).getD 0 = ((p.hand c).count k).getD 0)) = true := by
    decide +kernel
  simp only [Option.any_eq_true, Bool.and_eq_true, decide_eq_true_eq] at h
  obtain ⟨p, h0, p', h1, q, h2, ⟨h3, h4⟩, h5⟩ := h
  refine ⟨p, p', q, h0, h1, h2, ?_⟩
  unfold view
  rw [h4]
  congr 1
  · funext s; exact h3 s
  · funext c k; exact h5 c k

end

end Yasai.Props

import Verif.Props.Anywhere
import Verif.Props.MovePanic
import Verif.Proofs.Unwind

/-!
# C60, C61: arbitrary callers

C60: no sequence of safe calls whatsoever leads to undefined behaviour in the SIMD builds.  C61: what a
panicking `do_move` leaves behind.

Everything public on `Position` is a safe function.  Here the caller does whatever they like: any
root, any moves (also from empty squares, onto occupied squares, onto the same square), `undo_move`
of any move at any time, and going on with the position after a panic was caught.
-/

namespace Yasai.Props

open Yasai Spec

/-- The positions that a caller can get hold of by any sequence of calls: `do_move` and `undo_move`
with any arguments, also when the call panicked and the caller goes on with what it left. -/
inductive Anyhow (E : Env) (K : Backend) (pp : CorePartialPosition) : Position → Prop
  | new {p : Position} : Position.new E K pp = some p → Anyhow E K pp p
  | doMove {p p' : Position} (m : Move) :
      Anyhow E K pp p → p.doMove E K m = some p' → Anyhow E K pp p'
  | undoMove {p p' : Position} (m : Move) :
      Anyhow E K pp p → p.undoMove E K m = some p' → Anyhow E K pp p'
  | doMovePanicked {p p' : Position} (m : Move) :
      Anyhow E K pp p → p.doMoveCaught E K m = .panicked p' → Anyhow E K pp p'
  | undoMovePanicked {p p' : Position} (m : Move) :
      Anyhow E K pp p → p.undoMoveCaught E K m = .panicked p' → Anyhow E K pp p'

/-- What is true of all of them: bitboards hold squares only. -/
def Boards (p : Position) : Prop :=
  OkBoards p.inner ∧ ∀ st ∈ p.states, Ok st.attackInfo.checkers

theorem Boards.state {p : Position} (h : Boards p) (st : State) (hst : p.state = some st) :
    Ok st.attackInfo.checkers :=
  h.2 st (List.mem_of_head? hst)

theorem pushState_eq {E : Env} {K : Backend} {l : List State} {q : PartialPosition}
    {keys : Key × Key} {a b : Option Piece} {c : BB} {p' : Position}
    (h : Position.pushState E K l q keys a b c = some p') :
    ∃ st, p'.states = st :: l ∧ st.attackInfo.checkers = c := by
  simp only [Position.pushState, Option.bind_eq_bind, Option.bind_eq_some_iff] at h
  obtain ⟨n, _, h⟩ := h
  cases h
  exact ⟨_, rfl, rfl⟩

theorem doMove_checkers {E : Env} {K : Backend} (hK : Lawful K) {p p' : Position} {m : Move}
    (hp : OkBoards p.inner) (h : p.doMove E K m = some p') :
    ∃ st, p'.states = st :: p.states ∧ Ok st.attackInfo.checkers := by
  unfold Position.doMove at h
  obtain ⟨isCheck, _, h⟩ := Option.bind_eq_some_iff.1 h
  obtain ⟨st, _, h⟩ := Option.bind_eq_some_iff.1 h
  cases m with
  | normal frm to promote =>
    obtain ⟨piece, hpiece, h⟩ := Option.bind_eq_some_iff.1 h
    obtain ⟨kq, hkq, h⟩ := Option.bind_eq_some_iff.1 h
    obtain ⟨target, _, h⟩ := Option.bind_eq_some_iff.1 h
    obtain ⟨st', hs, hc⟩ := pushState_eq h
    refine ⟨st', hs, ?_⟩
    rw [hc]
    split
    · exact ok_calculateCheckers hK
        (okBoards_moveInner hK (okBoards_doCapture hK hp hkq) _ _ _ _ _)
    · rw [hK.empty]; exact ok_zero
  | drop to piece =>
    obtain ⟨q, hq, h⟩ := Option.bind_eq_some_iff.1 h
    obtain ⟨n, _, h⟩ := Option.bind_eq_some_iff.1 h
    obtain ⟨z, _, h⟩ := Option.bind_eq_some_iff.1 h
    obtain ⟨st', hs, hc⟩ := pushState_eq h
    refine ⟨st', hs, ?_⟩
    rw [hc]
    split
    · rw [hK.single]; exact ok_single _
    · rw [hK.empty]; exact ok_zero

theorem doMove_okBoards {E : Env} {K : Backend} (hK : Lawful K) {p p' : Position} {m : Move}
    (hp : OkBoards p.inner) (h : p.doMove E K m = some p') : OkBoards p'.inner := by
  have := (Position.doMoveBody_agree hK hK E hp m p.inner hp).2
  rw [← Position.doMoveCaught_done, Position.doMoveCaught] at h
  split at h
  · next e => cases h; rw [e] at this; exact this
  · cases h

theorem undoMove_okBoards {E : Env} {K : Backend} (hK : Lawful K) {p p' : Position} {m : Move}
    (hp : OkBoards p.inner) (h : p.undoMove E K m = some p') :
    OkBoards p'.inner ∧ p'.states = p.states.tail := by
  have := (Position.undoMoveBody_agree hK hK E p m p.inner hp).2
  rw [← Position.undoMoveCaught_done, Position.undoMoveCaught] at h
  split at h
  · next e => cases h; rw [e] at this; exact ⟨this, rfl⟩
  · cases h

theorem Anyhow.boards {E : Env} {K : Backend} (hK : Lawful K) {pp : CorePartialPosition}
    {p : Position} (h : Anyhow E K pp p) : Boards p := by
  induction h with
  | @new p h =>
    obtain ⟨h1, h2⟩ := consistent_new hK h
    refine ⟨h1, fun st hst => ?_⟩
    simp only [Position.new, Option.bind_eq_bind, Option.bind_eq_some_iff] at h
    obtain ⟨key1, _, h⟩ := h
    cases h
    exact h2 st (by rw [List.mem_singleton.1 hst]; rfl)
  | doMove m _ h ih =>
    obtain ⟨st, hs, hc⟩ := doMove_checkers hK ih.1 h
    refine ⟨doMove_okBoards hK ih.1 h, fun st' hst' => ?_⟩
    rw [hs] at hst'
    rcases List.mem_cons.1 hst' with rfl | hst'
    · exact hc
    · exact ih.2 _ hst'
  | undoMove m _ h ih =>
    obtain ⟨hok, hs⟩ := undoMove_okBoards hK ih.1 h
    refine ⟨hok, fun st hst => ih.2 st ?_⟩
    rw [hs] at hst
    exact List.mem_of_mem_tail hst
  | doMovePanicked m _ h ih =>
    obtain ⟨hok, hs⟩ := Position.doMoveCaught_panicked hK E ih.1 h
    exact ⟨hok, by rw [hs]; exact ih.2⟩
  | undoMovePanicked m _ h ih =>
    obtain ⟨hok, hs⟩ := Position.undoMoveCaught_panicked hK E ih.1 h
    exact ⟨hok, by rw [hs]; exact ih.2⟩

theorem Anyhow.agree {E : Env} {K K' : Backend} (hK : Lawful K) (hK' : Lawful K')
    {pp : CorePartialPosition} {p : Position} (h : Anyhow E K pp p) : Anyhow E K' pp p := by
  induction h with
  | new h => exact .new (by rw [← new_agree hK hK']; exact h)
  | doMove m hp h ih =>
    exact .doMove m ih (by rw [← doMove_any hK hK' E (hp.boards hK).1]; exact h)
  | undoMove m hp h ih => exact .undoMove m ih (by rw [← undoMove_agree hK hK']; exact h)
  | doMovePanicked m hp h ih =>
    exact .doMovePanicked m ih
      (by rw [← Position.doMoveCaught_agree hK hK' E (hp.boards hK).1]; exact h)
  | undoMovePanicked m hp h ih =>
    exact .undoMovePanicked m ih
      (by rw [← Position.undoMoveCaught_agree hK hK' E (hp.boards hK).1]; exact h)

/-- C60.  Whatever calls a caller makes, the positions that can come about are the same in all four
builds and do not depend on what happens outside the contracts of `unsafe` functions, and neither do
the results of `in_check`, `is_check_move`, `do_move` and `undo_move` (panics, and what a panic leaves
of the position, included). -/
theorem C60_any_calls (E : Env) (i j : Fin 4) (J J' : Junk) (pp : CorePartialPosition)
    (p : Position) :
    (Anyhow E (buildAt i J) pp p ↔ Anyhow E (buildAt j J') pp p) ∧
    (Anyhow E (buildAt i J) pp p →
      p.inCheck (buildAt i J) = p.inCheck (buildAt j J') ∧
      (∀ m, p.isCheckMove (buildAt i J) m = p.isCheckMove (buildAt j J') m) ∧
      (∀ m, p.doMoveCaught E (buildAt i J) m = p.doMoveCaught E (buildAt j J') m) ∧
      (∀ m, p.undoMoveCaught E (buildAt i J) m = p.undoMoveCaught E (buildAt j J') m)) := by
  have L := lawful_of_mem (buildAt_mem i J)
  have L' := lawful_of_mem (buildAt_mem j J')
  refine ⟨⟨Anyhow.agree L L', Anyhow.agree L' L⟩, fun h => ?_⟩
  have hb := (h.boards L).1
  exact ⟨inCheck_any L L' p, isCheckMove_any L L' hb, Position.doMoveCaught_agree L L' E hb,
    Position.undoMoveCaught_agree L L' E hb⟩

/-- C60, `legal_moves` of the x86_64, aarch64 and wasm32 builds: they agree on every position that
any calls can produce, and never leave the contracts. -/
theorem C60_simd_legal_moves (E : Env) (i j : Fin 4) (hi : i ≠ 0) (hj : j ≠ 0) (J J' : Junk)
    (pp : CorePartialPosition) (p : Position) (h : Anyhow E (buildAt i J) pp p) :
    p.legalMoves E (buildAt i J) = p.legalMoves E (buildAt j J') := by
  have hb := h.boards (lawful_of_mem (buildAt_mem i J))
  exact legalMoves_any (lawful_of_mem (buildAt_mem i J)) (lawful_of_mem (buildAt_mem j J')) hb.1
    hb.state (simd_fuAgree i j hi hj J J' hb.1) (simd_vacantAgree E i j hi hj J J' _)

/-- C60, `legal_moves` of the portable build: the only thing that can lead out of the contracts is
`vacant_files` on a pawn of the side to move on rank 9 that shares its file
(`C41_unsound_on_doubled_pawns` shows that it can). -/
theorem C60_portable_legal_moves (E : Env) (J J' : Junk) (pp : CorePartialPosition) (p : Position)
    (h : Anyhow E (buildAt 0 J) pp p)
    (hpawn : ∀ s t, (buildAt 0 J).contains (p.inner.pieceBitboard (buildAt 0 J)
        ⟨.pawn, p.sideToMove⟩) s = true →
      (buildAt 0 J).contains (p.inner.pieceBitboard (buildAt 0 J) ⟨.pawn, p.sideToMove⟩) t = true →
      s.file = t.file → s.rank = 9 → s = t) :
    p.legalMoves E (buildAt 0 J) = p.legalMoves E (buildAt 0 J') := by
  have L := lawful_of_mem (buildAt_mem 0 J)
  have L' := lawful_of_mem (buildAt_mem 0 J')
  have hb := h.boards L
  refine legalMoves_any L L' hb.1 hb.state (portable_fuAgree J J' _) ?_
  have hok : Ok (p.inner.playerBB p.inner.side &&& p.inner.pieceBB .pawn) :=
    ok_and_left _ (hb.1.okPlayer _)
  have hp : ∀ s t, mem (p.inner.playerBB p.inner.side &&& p.inner.pieceBB .pawn) s = true →
      mem (p.inner.playerBB p.inner.side &&& p.inner.pieceBB .pawn) t = true →
      s.file = t.file → s.rank = 9 → s = t := by
    intro s t hs ht
    simp only [L.contains, PartialPosition.pieceBitboard, L.and] at hpawn
    rw [BitVec.and_comm] at hs ht
    exact hpawn s t hs ht
  obtain ⟨r, e, o, r2⟩ := L.vacantFiles E.overflowChecks _ hok hp
  obtain ⟨r', e', o', r2'⟩ := L'.vacantFiles E.overflowChecks _ hok hp
  unfold VacantAgree
  rw [e, e']
  congr 1
  exact ext_of_ok o o' fun s => Bool.eq_iff_iff.2 ((r2 s).trans (r2' s).symm)

/-! ## C61: what a panicking `do_move` leaves behind -/

/-- The two ways of running `do_move` and `undo_move` agree: the statements end normally, with the
same position, exactly when `doMove`/`undoMove` do not panic. -/
theorem C61_statements (E : Env) (K : Backend) (p p' : Position) (m : Move) :
    (p.doMoveCaught E K m = .done p' ↔ p.doMove E K m = some p') ∧
    (p.undoMoveCaught E K m = .done p' ↔ p.undoMove E K m = some p') :=
  ⟨Position.doMoveCaught_done E K p p' m, Position.undoMoveCaught_done E K p p' m⟩

/-- The panics of `do_move` on a board move that come before the first write. -/
def CleanPanic (p : Position) (frm to : Square) (promote : Bool) : Prop :=
  p.pieceAt frm = none ∨
  (∃ c, p.pieceAt to = some ⟨.king, c⟩) ∨
  (∃ q, p.pieceAt to = some q ∧ (p.hand p.sideToMove).count (base q.kind) = some 18) ∨
  (promote = true ∧ p.pieceAt to = none ∧ ∃ q, p.pieceAt frm = some q ∧ promoted q.kind = none)

/-- C61.  When `do_move` panics on a board move, the history is as it was, and the position is as it
was exactly if the reason is one of `CleanPanic`.  (The other reasons, by `C52_do_move_panics_iff`:
promotion of a piece that cannot promote while capturing, and overflow of the move counter.) -/
theorem C61_board_move (E : Env) (K : Backend) (hK : K ∈ backends)
    (pp : CorePartialPosition) (ms : List Move) (p p' : Position) (h : Visited E K pp ms p)
    (frm to : Square) (promote : Bool)
    (hm : p.doMoveCaught E K (.normal frm to promote) = .panicked p') :
    p'.states = p.states ∧ (p' = p ↔ CleanPanic p frm to promote) := by
  have hc := h.callable hK
  obtain ⟨st, hst, _⟩ := hc.state
  have flip : ∀ c : Color, c.flip ≠ c := by intro c; cases c <;> decide
  have pro : ∀ {piece : Piece}, (if promote = true then piece.promote else some piece) = none ↔
      promote = true ∧ promoted piece.kind = none := by
    intro piece
    rw [promoted_eq]
    cases promote <;> simp [Piece.promote]
    cases piece.kind.promote <;> simp
  unfold Position.doMoveCaught Position.doMoveBody at hm
  simp only [Run.bind_apply, Run.unwrap_apply, Run.get_apply, Run.modify_apply, Run.pure_apply,
    hst, Move.to] at hm
  cases h1 : p.isCheckMove K (.normal frm to promote) with
  | none =>
    rw [h1] at hm
    cases hm
    refine ⟨rfl, fun _ => ?_, fun _ => rfl⟩
    apply Classical.byContradiction
    intro hno
    obtain ⟨b, hb⟩ := isCheckMove_total hK hc (m := .normal frm to promote)
      (by rintro _ ⟨⟩; exact fun e => hno (.inl e))
    rw [h1] at hb
    cases hb
  | some isCheck =>
  simp only [h1] at hm
  cases h3 : p.inner.pieceAt frm with
  | none =>
    rw [h3] at hm
    cases hm
    exact ⟨rfl, fun _ => .inl h3, fun _ => rfl⟩
  | some piece =>
  simp only [h3] at hm
  cases h4 : p.inner.pieceAt to with
  | none =>
    simp only [h4, Run.pure_apply] at hm
    cases h5 : (if promote = true then piece.promote else some piece) with
    | none =>
      simp only [h5] at hm
      cases hm
      exact ⟨rfl, fun _ => .inr (.inr (.inr ⟨(pro.1 h5).1, h4, piece, h3, (pro.1 h5).2⟩)), fun _ => rfl⟩
    | some target =>
    simp only [h5] at hm
    cases h6 : Position.plyAdd E (PartialPosition.ply _) with
    | some n => rw [h6] at hm; cases hm
    | none =>
    rw [h6] at hm
    cases hm
    refine ⟨rfl, fun e => absurd (congrArg (·.inner.side) e) (flip _), ?_⟩
    rintro (e | ⟨c, e⟩ | ⟨q, e, _⟩ | ⟨e1, _, q, e2, e3⟩)
    · cases h3.symm.trans e
    · cases h4.symm.trans e
    · cases h4.symm.trans e
    · cases h3.symm.trans e2
      cases h5.symm.trans (pro.2 ⟨e1, e3⟩)
  | some cp =>
    have hbase : cp.kind.unpromote.getD cp.kind = base cp.kind := by rw [base, demoted_eq]
    simp only [h4, Run.bind_apply, Run.unwrap_apply, Run.get_apply, Run.modify_apply,
      Run.pure_apply, hbase] at hm
    cases h7 : (p.inner.hands p.sideToMove).count (base cp.kind) with
    | none =>
      simp only [h7] at hm
      cases hm
      refine ⟨rfl, fun _ => .inr (.inl ⟨cp.color, ?_⟩), fun _ => rfl⟩
      have : (base cp.kind).isHandPiece = false := by
        cases e : (base cp.kind).isHandPiece with
        | false => rfl
        | true => rw [count_eq e] at h7; cases h7
      rw [← unpromote_king this]
      exact h4
    | some n =>
    have hhand : (base cp.kind).isHandPiece = true := by
      cases e : (base cp.kind).isHandPiece with
      | true => rfl
      | false => simp [Hand.count, e] at h7
    have hn : n ≤ 18 := by
      rw [count_eq hhand] at h7
      cases h7
      exact hc.hands _ _ hhand
    have hking : ∀ c, p.pieceAt to ≠ some ⟨.king, c⟩ := by
      intro c e
      cases h4.symm.trans e
      cases hhand
    simp only [h7] at hm
    cases h8 : E.zobHand p.sideToMove (base cp.kind) n with
    | none =>
      simp only [h8] at hm
      cases hm
      refine ⟨rfl, fun _ => .inr (.inr (.inl ⟨cp, h4, ?_⟩)), fun _ => rfl⟩
      have : ¬ n < 18 := by
        intro hlt
        obtain ⟨z, hz⟩ := zobHand_some E p.sideToMove hhand hlt
        rw [h8] at hz
        cases hz
      rw [show n = 18 by omega] at h7
      exact h7
    | some z =>
    have hlt := zobHand_lt h8
    have hno : ¬ CleanPanic p frm to promote := by
      rintro (e | ⟨c, e⟩ | ⟨q, e, e'⟩ | ⟨_, e, _⟩)
      · cases h3.symm.trans e
      · exact hking c e
      · cases h4.symm.trans e
        cases h7.symm.trans e'
        omega
      · cases h4.symm.trans e
    simp only [h8] at hm
    cases h9 : ((p.inner.xorPiece K to cp).hands p.sideToMove).added (base cp.kind) with
    | none =>
      exfalso
      have : (p.inner.hands p.sideToMove).added (base cp.kind) = none := h9
      unfold Hand.added at this
      rw [count_eq hhand] at h7
      cases h7
      rw [if_pos hhand, if_pos (by omega)] at this
      cases this
    | some hand =>
    simp only [h9] at hm
    cases h5 : (if promote = true then piece.promote else some piece) with
    | none =>
      simp only [h5] at hm
      cases hm
      refine ⟨rfl, fun e => ?_, fun e => absurd e hno⟩
      have e2 := congrArg (fun x => (x.inner.hands p.sideToMove).cnt (base cp.kind)) e
      have : (p.inner.hands p.sideToMove).added (base cp.kind) = some hand := h9
      have h10 := (added_eq this).2
      simp [PartialPosition.setHand, h10, Hand.set] at e2
    | some target =>
    simp only [h5] at hm
    cases h6 : Position.plyAdd E (PartialPosition.ply _) with
    | some n => rw [h6] at hm; cases hm
    | none =>
    rw [h6] at hm
    cases hm
    exact ⟨rfl, fun e => absurd (congrArg (·.inner.side) e) (flip _), fun e => absurd e hno⟩

/-- C61.  When `do_move` panics on a drop, the position is damaged: the dropped piece stands on the
board, and the bitboard of its kind is changed on that square.  The history is as it was. -/
theorem C61_drop (E : Env) (K : Backend) (hK : K ∈ backends)
    (pp : CorePartialPosition) (ms : List Move) (p p' : Position) (h : Visited E K pp ms p)
    (to : Square) (piece : Piece) (hm : p.doMoveCaught E K (.drop to piece) = .panicked p') :
    p'.states = p.states ∧ p'.pieceAt to = some piece ∧
    K.contains (p'.inner.pieceBB piece.kind) to = !K.contains (p.inner.pieceBB piece.kind) to := by
  have L := lawful_of_mem hK
  have hc := h.callable hK
  obtain ⟨st, hst, _⟩ := hc.state
  obtain ⟨isCheck, h1⟩ := isCheckMove_total hK hc (m := .drop to piece) (by rintro _ ⟨⟩)
  have hx : K.contains ((p.inner.xorPiece K to piece).pieceBB piece.kind) to =
      !K.contains (p.inner.pieceBB piece.kind) to := by
    simp [PartialPosition.xorPiece, L.contains, L.xor, L.single, mem_xor, mem_single]
  have hb : ((p.inner.xorPiece K to piece).setPieceAt to (some piece)).board to = some piece := by
    simp [PartialPosition.setPieceAt]
  unfold Position.doMoveCaught Position.doMoveBody at hm
  simp only [Run.bind_apply, Run.unwrap_apply, Run.get_apply, Run.modify_apply, Run.pure_apply,
    hst, h1, Move.to] at hm
  cases h3 : (((p.inner.xorPiece K to piece).setPieceAt to (some piece)).hands
      p.sideToMove).removed piece.kind with
  | none => rw [h3] at hm; cases hm; exact ⟨rfl, hb, hx⟩
  | some hand =>
  simp only [h3] at hm
  cases h4 : (((((p.inner.xorPiece K to piece).setPieceAt to (some piece)).setHand p.sideToMove
      hand)).hands p.sideToMove).count piece.kind with
  | none => simp only [h4] at hm; cases hm; exact ⟨rfl, hb, hx⟩
  | some n =>
  simp only [h4] at hm
  cases h5 : E.zobHand p.sideToMove piece.kind n with
  | none => simp only [h5] at hm; cases hm; exact ⟨rfl, hb, hx⟩
  | some z =>
  simp only [h5] at hm
  cases h6 : Position.plyAdd E (PartialPosition.ply _) with
  | none => rw [h6] at hm; cases hm; exact ⟨rfl, hb, hx⟩
  | some n => rw [h6] at hm; cases hm

/-- C61.  When `undo_move` panics, the history is as it was.  For a board move the position is as it
was exactly if no move is in force; for a drop it is always damaged. -/
theorem C61_undo (E : Env) (K : Backend) (hK : K ∈ backends)
    (pp : CorePartialPosition) (ms : List Move) (p p' : Position) (h : Visited E K pp ms p) :
    (∀ frm to promote, p.undoMoveCaught E K (.normal frm to promote) = .panicked p' →
      p'.states = p.states ∧ (p' = p ↔ ms = [])) ∧
    (∀ to piece, p.undoMoveCaught E K (.drop to piece) = .panicked p' →
      p'.states = p.states ∧ p'.pieceAt to = none ∧
      K.contains (p'.inner.pieceBB piece.kind) to = !K.contains (p.inner.pieceBB piece.kind) to) := by
  have L := lawful_of_mem hK
  have flip : ∀ c : Color, c.flip ≠ c := by intro c; cases c <;> decide
  have hx : ∀ (q : PartialPosition) (s : Square) (pc : Piece),
      K.contains ((q.xorPiece K s pc).pieceBB pc.kind) s = !K.contains (q.pieceBB pc.kind) s := by
    intro q s pc
    simp [PartialPosition.xorPiece, L.contains, L.xor, L.single, mem_xor, mem_single]
  have hne : ∀ (q : PartialPosition) (s : Square) (pc : Piece), q.xorPiece K s pc ≠ q := by
    intro q s pc e
    have := hx q s pc
    rw [e] at this
    cases hb : K.contains (q.pieceBB pc.kind) s <;> rw [hb] at this <;> cases this
  refine ⟨fun frm to promote hm => ?_, fun to piece hm => ?_⟩
  · rcases h.last hK with ⟨rfl, st, hst, hl⟩ | ⟨hms, st, moved, hst, hl, hcap⟩
    · have hst : p.state = some st := by rw [Position.state, hst]; rfl
      unfold Position.undoMoveCaught Position.undoMoveBody at hm
      simp only [Run.bind_apply, Run.unwrap_apply, hst, hl] at hm
      cases hm
      exact ⟨rfl, fun _ => rfl, fun _ => rfl⟩
    · suffices hs : p'.states = p.states ∧ p'.inner ≠ p.inner from
        ⟨hs.1, fun e => absurd (congrArg (·.inner) e) hs.2, fun e => absurd e hms⟩
      unfold Position.undoMoveCaught Position.undoMoveBody at hm
      simp only [Run.bind_apply, Run.unwrap_apply, hst, hl] at hm
      cases h4 : st.captured with
      | none =>
        simp only [h4, Run.bind_apply, Run.unwrap_apply, Run.get_apply, Run.modify_apply]
          at hm
        cases h5 : (p.inner.xorPiece K frm moved).pieceAt to with
        | none => simp only [h5] at hm; cases hm; exact ⟨rfl, hne _ _ _⟩
        | some t =>
        simp only [h5] at hm
        cases h6 : Position.plySub E (PartialPosition.ply _) with
        | some n => rw [h6] at hm; cases hm
        | none => rw [h6] at hm; cases hm; exact ⟨rfl, fun e => flip _ (congrArg (·.side) e)⟩
      | some cp =>
        simp only [h4, Run.bind_apply, Run.unwrap_apply, Run.get_apply, Run.modify_apply]
          at hm
        cases h7 : ((p.inner.xorPiece K to cp).hands p.sideToMove.flip).removed
            (cp.kind.unpromote.getD cp.kind) with
        | none => simp only [h7] at hm; cases hm; exact ⟨rfl, hne _ _ _⟩
        | some hand =>
        simp only [h7] at hm
        cases h5 : ((((p.inner.xorPiece K to cp).setHand p.sideToMove.flip hand).xorPiece K frm
            moved)).pieceAt to with
        | none =>
          simp only [h5] at hm
          cases hm
          refine ⟨rfl, fun e => ?_⟩
          have e2 := congrArg (fun x => (x.hands p.sideToMove.flip).cnt
            (cp.kind.unpromote.getD cp.kind)) e
          have h10 : (p.inner.hands p.sideToMove.flip).removed (cp.kind.unpromote.getD cp.kind) =
              some hand := h7
          have hpos := (Hand.cnt_pos_of_removed h10).2
          unfold Hand.removed at h10
          rw [if_pos (Hand.cnt_pos_of_removed h10).1, if_pos hpos] at h10
          cases h10
          simp [PartialPosition.setHand, PartialPosition.xorPiece, Hand.set] at e2
          omega
        | some t =>
        simp only [h5] at hm
        cases h6 : Position.plySub E (PartialPosition.ply _) with
        | some n => rw [h6] at hm; cases hm
        | none => rw [h6] at hm; cases hm; exact ⟨rfl, fun e => flip _ (congrArg (·.side) e)⟩
  · have hb : ((p.inner.xorPiece K to piece).setPieceAt to none).board to = none := by
      simp [PartialPosition.setPieceAt]
    unfold Position.undoMoveCaught Position.undoMoveBody at hm
    simp only [Run.bind_apply, Run.unwrap_apply, Run.get_apply, Run.modify_apply] at hm
    cases h3 : (((p.inner.xorPiece K to piece).setPieceAt to none).hands
        p.sideToMove.flip).added piece.kind with
    | none => simp only [h3] at hm; cases hm; exact ⟨rfl, hb, hx _ _ _⟩
    | some hand =>
    simp only [h3] at hm
    cases h6 : Position.plySub E (PartialPosition.ply _) with
    | some n => rw [h6] at hm; cases hm
    | none => rw [h6] at hm; cases hm; exact ⟨rfl, hb, hx _ _ _⟩

/-! ## Concrete cases -/

section
open Yasai.Examples

/-- What a call left behind, if it panicked. -/
def left : Outcome → Option Position
  | .panicked p => some p
  | .done _ => none

theorem left_eq {o : Outcome} {p : Position} (h : left o = some p) : o = .panicked p := by
  cases o with
  | done _ => cases h
  | panicked _ => cases h; rfl

/-- C61: a gold takes a pawn and "promotes".  The panic leaves Black with the pawn in hand, which
still stands on the board, and Black to move. -/
example : ∃ p0 p, Position.new env0 CoreBB.backend startpos = some p0 ∧
    p0.doMoveCaught env0 CoreBB.backend (.normal (sq 4 9) (sq 3 3) true) = .panicked p ∧
    ¬ CleanPanic p0 (sq 4 9) (sq 3 3) true ∧
    (p.hand .black).count .pawn = some 1 ∧ p.pieceAt (sq 3 3) = some ⟨.pawn, .white⟩ ∧
    p.sideToMove = .black := by
  have h : ((Position.new env0 CoreBB.backend startpos).any fun p0 =>
      (left (p0.doMoveCaught env0 CoreBB.backend (.normal (sq 4 9) (sq 3 3) true))).any fun p =>
        decide ((p.hand .black).count .pawn = some 1) &&
        decide (p.pieceAt (sq 3 3) = some ⟨.pawn, .white⟩) && decide (p.sideToMove = .black) &&
        decide ((p0.hand .black).count .pawn = some 0)) = true := by
    decide +kernel
  simp only [Option.any_eq_true, Bool.and_eq_true, decide_eq_true_eq] at h
  obtain ⟨p0, h0, p, hp, ⟨⟨ha, hb⟩, hc⟩, hd⟩ := h
  refine ⟨p0, p, h0, left_eq hp, fun hclean => ?_, ha, hb, hc⟩
  have := ((C61_board_move env0 _ core_mem startpos [] p0 p ⟨p0, h0, .start⟩ _ _ _ (left_eq hp)).2.2
    hclean)
  rw [this, hd] at ha
  cases ha

/-- C60, C61: a drop of a gold that Black does not have.  The call panics, the board then shows the
gold, no proper session leads to this position, and `legal_moves` still returns. -/
example : ∃ p, Anyhow env0 (buildAt 1 Junk.zero) startpos p ∧
    p.pieceAt (sq 5 5) = some ⟨.gold, .black⟩ ∧ (p.hand .black).count .gold = some 0 ∧
    p.ply = 1#16 ∧ (p.legalMoves env0 (buildAt 1 Junk.zero)).isSome = true := by
  have h : ((Position.new env0 (buildAt 1 Junk.zero) startpos).any fun p0 =>
      (left (p0.doMoveCaught env0 (buildAt 1 Junk.zero) (.drop (sq 5 5) ⟨.gold, .black⟩))).any fun p =>
        decide (p.pieceAt (sq 5 5) = some ⟨.gold, .black⟩) &&
        decide ((p.hand .black).count .gold = some 0) && decide (p.ply = 1#16) &&
        (p.legalMoves env0 (buildAt 1 Junk.zero)).isSome) = true := by
    decide +kernel
  simp only [Option.any_eq_true, Bool.and_eq_true, decide_eq_true_eq] at h
  obtain ⟨p0, h0, p, hp, ⟨⟨ha, hb⟩, hc⟩, hd⟩ := h
  exact ⟨p, .doMovePanicked _ (.new h0) (left_eq hp), ha, hb, hc, hd⟩

/-- C61: `7g7f` taken back as a move to the empty square 5e.  The panic leaves the pawn doubled on the
bitboards. -/
example : ∃ p0 p1 p, Position.new env0 CoreBB.backend startpos = some p0 ∧
    p0.doMove env0 CoreBB.backend (.normal (sq 7 7) (sq 7 6) false) = some p1 ∧
    p1.undoMoveCaught env0 CoreBB.backend (.normal (sq 7 7) (sq 5 5) false) = .panicked p ∧
    CoreBB.backend.contains (p.inner.pieceBB .pawn) (sq 7 7) = true ∧
    CoreBB.backend.contains (p.inner.pieceBB .pawn) (sq 7 6) = true := by
  have h : ((Position.new env0 CoreBB.backend startpos).any fun p0 =>
      (p0.doMove env0 CoreBB.backend (.normal (sq 7 7) (sq 7 6) false)).any fun p1 =>
      (left (p1.undoMoveCaught env0 CoreBB.backend (.normal (sq 7 7) (sq 5 5) false))).any fun p =>
        CoreBB.backend.contains (p.inner.pieceBB .pawn) (sq 7 7) &&
        CoreBB.backend.contains (p.inner.pieceBB .pawn) (sq 7 6)) = true := by
    decide +kernel
  simp only [Option.any_eq_true, Bool.and_eq_true] at h
  obtain ⟨p0, h0, p1, h1, p, hp, ha, hb⟩ := h
  exact ⟨p0, p1, p, h0, h1, left_eq hp, ha, hb⟩

/-- C61: nothing stands on the origin; the position is as before. -/
example : ∃ p0, Position.new env0 CoreBB.backend startpos = some p0 ∧
    p0.doMoveCaught env0 CoreBB.backend (.normal (sq 5 5) (sq 3 3) false) = .panicked p0 := by
  have h : ((Position.new env0 CoreBB.backend startpos).any fun p0 =>
      decide (p0.pieceAt (sq 5 5) = none) &&
      (left (p0.doMoveCaught env0 CoreBB.backend (.normal (sq 5 5) (sq 3 3) false))).isSome) = true := by
    decide +kernel
  simp only [Option.any_eq_true, Bool.and_eq_true, decide_eq_true_eq, Option.isSome_iff_exists] at h
  obtain ⟨p0, h0, he, p, hp⟩ := h
  have := (C61_board_move env0 _ core_mem startpos [] p0 p ⟨p0, h0, .start⟩ _ _ _
    (left_eq hp)).2.2 (.inl he)
  exact ⟨p0, h0, by rw [left_eq hp, this]⟩

end

end Yasai.Props

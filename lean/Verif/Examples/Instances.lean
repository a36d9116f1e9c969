import Verif.Props.Same
import Verif.Props.Usize
import Verif.Props.Contracts
import Verif.Props.Parts
import Verif.Props.Loose
import Verif.Props.Games
import Verif.Props.Wild
import Verif.Props.Boards
import Verif.Props.Refine
import Verif.Props.Divide
import Verif.Props.Siblings
import Verif.Props.NewCheck
import Verif.Props.Complete
import Verif.Props.Crowded
import Verif.Props.Mirror
import Verif.Props.WrongUndo
import Verif.Props.PseudoCheck

/-!
The theorems at work on one game: bishops are exchanged, then Black drops the bishop with check.
Every example applies a theorem of `Props/` to it, so that all of its hypotheses are met at once.
-/

namespace Yasai.Examples

open Yasai.Props Yasai.Spec

/-- Plays listed moves from the initial position. -/
def played (xs : List Move) : Option Position :=
  (Position.new env0 CoreBB.backend startpos).bind (tryPlay xs)

theorem startpos_valid : Valid (rootView startpos) := startpos_standard.valid

theorem of_played {xs : List Move} {f : Position → Bool} (h : (played xs).any f = true) :
    ∃ p, Reached env0 CoreBB.backend startpos xs.reverse p ∧ f p = true := by
  rw [Option.any_eq_true] at h
  obtain ⟨p, hp, hf⟩ := h
  rw [played, Option.bind_eq_some_iff] at hp
  obtain ⟨p0, h0, hp⟩ := hp
  refine ⟨p, ?_, hf⟩
  have := tryPlay_reached startpos_valid xs (ms := []) ⟨p0, h0, .start⟩ hp
  simpa using this

/-- 7g7f 3c3d 8h2b+ 3a2b. -/
def exchange : List Move := [.normal (sq 7 7) (sq 7 6) false, .normal (sq 3 3) (sq 3 4) false,
  .normal (sq 8 8) (sq 2 2) true, .normal (sq 3 1) (sq 2 2) false]

/-- ... B*3c. -/
def dropCheck : Move := .drop (sq 3 3) ⟨.bishop, .black⟩

/-- The position `p` after the exchange, the position `q` after the drop, and what `legal_moves`
returns there. -/
structure Game (p q : Position) (l l' : List Move) : Prop where
  before : Reached env0 CoreBB.backend startpos exchange.reverse p
  after : Reached env0 CoreBB.backend startpos (dropCheck :: exchange.reverse) q
  move : p.doMove env0 CoreBB.backend dropCheck = some q
  moves : p.legalMoves env0 CoreBB.backend = some l
  moves' : q.legalMoves env0 CoreBB.backend = some l'
  listed : dropCheck ∈ l
  listed' : .normal (sq 2 2) (sq 3 3) false ∈ l'
  king : q.pieceAt (sq 5 1) = some ⟨.king, .white⟩
  side : p.sideToMove = .black
  side' : q.sideToMove = .white
  ply : p.ply = 5#16
  check : q.inCheck CoreBB.backend = some true
  attacks : AttacksFrom q.pieceAt .black (sq 3 3) (sq 5 1)
  empty : q.pieceAt (sq 5 5) = none

theorem game : ∃ p q l l', Game p q l l' := by
  have h : (played exchange).any (fun p => (p.legalMoves env0 CoreBB.backend).any fun l =>
      (p.doMove env0 CoreBB.backend dropCheck).any fun q =>
      (q.legalMoves env0 CoreBB.backend).any fun l' =>
      l.contains dropCheck && l'.contains (.normal (sq 2 2) (sq 3 3) false) &&
      decide (q.pieceAt (sq 5 1) = some ⟨.king, .white⟩) && decide (p.sideToMove = .black) &&
      decide (q.sideToMove = .white) && decide (p.ply = 5#16) &&
      decide (q.inCheck CoreBB.backend = some true) &&
      decide (AttacksFrom q.pieceAt .black (sq 3 3) (sq 5 1)) &&
      decide (q.pieceAt (sq 5 5) = none)) = true := by
    decide +kernel
  obtain ⟨p, hr, hf⟩ := of_played h
  simp only [Option.any_eq_true, Bool.and_eq_true, decide_eq_true_eq, List.contains_iff_mem] at hf
  obtain ⟨l, hl, q, hq, l', hl', ⟨⟨⟨⟨⟨⟨⟨h1, h2⟩, h3⟩, h4⟩, h5⟩, h6⟩, h7⟩, h8⟩, h9⟩ := hf
  exact ⟨p, q, l, l', hr, hr.move (C05_legal_moves_sound _ _ core_mem _ startpos_valid _ _ hr l hl _ h1)
    hq, hq, hl, hl', h1, h2, h3, h4, h5, h6, h7, h8, h9⟩

theorem Game.legal {p q : Position} {l l' : List Move} (g : Game p q l l') :
    Legal (view p) dropCheck :=
  C05_legal_moves_sound _ _ core_mem _ startpos_valid _ _ g.before _ g.moves _ g.listed

theorem Game.legal' {p q : Position} {l l' : List Move} (g : Game p q l l') :
    Legal (view q) (.normal (sq 2 2) (sq 3 3) false) :=
  C05_legal_moves_sound _ _ core_mem _ startpos_valid _ _ g.after _ g.moves' _ g.listed'

/-- C03: what the drop changed. -/
example : ∃ p q l l', Game p q l l' ∧ q.pieceAt (sq 3 3) = some ⟨.bishop, .black⟩ ∧
    ((q.hand .black).count .bishop).getD 0 + 1 = ((p.hand .black).count .bishop).getD 0 := by
  obtain ⟨p, q, l, l', g⟩ := game
  obtain ⟨_, _, h3, _, h5, _⟩ := C03_drop _ _ _ _ _ _ g.legal g.move
  refine ⟨p, q, l, l', g, h3, ?_⟩
  have := h5 .black .bishop
  rwa [g.side, if_pos ⟨rfl, rfl⟩] at this

/-- C04: no bishop was lost. -/
example : ∃ p q l l', Game p q l l' ∧ total (view q) .bishop = total (view p) .bishop ∧
    ∃ p0, Position.new env0 CoreBB.backend startpos = some p0 ∧
      ∀ k, total (view q) k = total (view p0) k := by
  obtain ⟨p, q, l, l', g⟩ := game
  obtain ⟨p0, h0, hs⟩ := g.after
  exact ⟨p, q, l, l', g, C04_move_conserves _ _ _ _ _ (shape_of_legal g.legal) g.move _, p0, h0,
    C04_session_conserves _ _ core_mem _ _ _ hs⟩

/-- C06, C07, C10, C37: the list of the moves out of check. -/
example : ∃ p q l l', Game p q l l' ∧ l'.Nodup ∧ (∀ m, m ∈ l' ↔ Legal (view q) m) ∧
    ¬ InCheck q.pieceAt .black ∧ (∀ m ∈ l', ∀ c, q.pieceAt m.to ≠ some ⟨.king, c⟩) ∧
    ∀ c, HasKing (view q) c := by
  obtain ⟨p, q, l, l', g⟩ := game
  refine ⟨p, q, l, l', g, C07_legal_moves_nodup _ _ core_mem _ startpos_valid _ _ g.after _ g.moves',
    fun m => ⟨C05_legal_moves_sound _ _ core_mem _ startpos_valid _ _ g.after _ g.moves' m,
      C06_legal_moves_complete _ _ core_mem _ startpos_valid _ _ g.after _ g.moves' m⟩, ?_,
    C37_no_king_capture _ _ core_mem _ startpos_valid _ _ g.after _ g.moves', fun c =>
    (C37_kings_stay _ _ core_mem _ startpos_valid _ _ g.after c).2 (startpos_standard.kings c)⟩
  have := (C10_king_safe _ _ core_mem _ startpos_valid _ _ g.before _ ⟨l, g.moves, g.listed⟩ _ g.move).1
  rwa [g.side] at this

/-- C08, C09, C54, C66: the check is predicted and reported. -/
example : ∃ p q l l', Game p q l l' ∧ p.isCheckMove CoreBB.backend dropCheck = some true ∧
    InCheck (apply (view p) dropCheck).board .white ∧
    CheckedByPiece (apply (view p) dropCheck).board .white := by
  obtain ⟨p, q, l, l', g⟩ := game
  obtain ⟨b, h1, h2, h3⟩ := C09_is_check_move_exact _ _ core_mem _ startpos_valid _ _ g.before _ g.legal
  have hb : b = true := by
    have := h3 _ g.move
    rw [g.check] at this
    exact (Option.some.inj this).symm
  subst hb
  obtain ⟨b', h4, h5⟩ := C54_is_check_move_pseudo _ _ core_mem _ startpos_valid _ _ g.before _
    g.legal.1.1
  rw [h1] at h4
  cases h4
  rw [g.side] at h2 h5
  exact ⟨p, q, l, l', g, h1, h2.1 rfl, h5.1 rfl⟩

/-- C11: no checkmate. -/
example : ∃ p q l l', Game p q l l' ∧ ¬ Checkmated (view q) := by
  obtain ⟨p, q, l, l', g⟩ := game
  refine ⟨p, q, l, l', g, fun h => ?_⟩
  have := ((C11_mate_iff _ _ core_mem _ startpos_valid _ _ g.after _ g.moves').2 h).2
  exact absurd g.listed' (by rw [this]; exact List.not_mem_nil)

/-- C17, C20, C49, C62, C63: keys, history and ply of the position in check. -/
example : ∃ p q l l', Game p q l l' ∧ q.states.length = 6 ∧ q.ply = 6#16 ∧
    q.keys = some
      (boardHash env0.zobBoard q.pieceAt ^^^ 1#64,
       handHash (fun c k n => (env0.zobHand c k n).getD 0#64)
         (fun c k => ((q.hand c).count k).getD 0)) ∧
    (∃ a b, q.keys = some (a, b) ∧ a.toNat % 2 = 1 ∧ b.toNat % 2 = 0) ∧
    (∀ k, total (view q) k = standardCount k) := by
  obtain ⟨p, q, l, l', g⟩ := game
  obtain ⟨p0, h0, hs⟩ := g.after
  have hs' := hs.mono fun _ _ => shape_of_legal
  obtain ⟨a, b, h1, _, h2, h3, _⟩ := C20_key_parity _ _ core_mem _ _ _ _ h0 hs'
  refine ⟨p, q, l, l', g, (C49_history_length _ _ core_mem _ _ _ g.after).1, ?_,
    C17_incremental_hash _ _ core_mem _ _ _ _ h0 hs', ⟨a, b, h1, h3, h2⟩,
    (C62_games _ _ core_mem _ _ g.after).1⟩
  rw [(C34_ply _ _ core_mem _ _ _ hs').1, (C35_new_reproduces _ _ core_mem _ _ h0).2.2.2]
  rfl

/-- C19: `Position::new` on the same board and hands has other keys than the position after five moves,
and no two orders of the moves have different ones. -/
example : ∃ p q l l', Game p q l l' ∧ ∀ pp' r, Position.new env0 CoreBB.backend pp' = some r →
    (∀ s, q.pieceAt s = r.pieceAt s) → q.keys ≠ r.keys := by
  obtain ⟨p, q, l, l', g⟩ := game
  obtain ⟨p0, h0, hs⟩ := g.after
  exact ⟨p, q, l, l', g, fun pp' r hr hb => C19_odd_history_differs _ _ core_mem _ _ _ _ _ _ h0
    (hs.mono fun _ _ => shape_of_legal) (by decide) hr hb⟩

/-- C21: a list of calls: look, play, look again, take back. -/
example : ∃ p0 ms p, Position.new env0 CoreBB.backend startpos = some p0 ∧
    [Call.legalMoves, .doMove 7, .keys, .isCheckMove 3, .doMove 3, .inCheck, .undo, .key].foldlM
      (Call.run env0 CoreBB.backend) ([], p0) = some (ms, p) := by
  obtain ⟨p0, h0, ms, p, h, _⟩ := C21_no_panic env0 _ core_mem _ startpos_standard
    [Call.legalMoves, .doMove 7, .keys, .isCheckMove 3, .doMove 3, .inCheck, .undo, .key]
    (fun _ => by decide)
  exact ⟨p0, ms, p, h0, h⟩

/-- C22, C31, C47: the position after the exchange, to depth 4. -/
example : ∃ p q l l', Game p q l l' ∧ l.length ≤ 593 ∧
    (∃ n, perft env0 CoreBB.backend 4 p = some (n, p) ∧ GameCount (view p) 4 n) ∧
    (∃ n, perftTest env0 CoreBB.backend 4 p = some (n, p) ∧ GameCount (view p) 4 n) := by
  obtain ⟨p, q, l, l', g⟩ := game
  obtain ⟨x, hx, hn, _⟩ := C22_legal_moves_total _ _ core_mem _ startpos_standard _ _ g.before
  rw [g.moves] at hx
  cases hx
  exact ⟨p, q, l, l', g, hn,
    C31_perft_total _ _ core_mem _ startpos_standard 4 _ _ g.before (fun _ => by rw [g.ply]; decide),
    C31_perft_test_total _ _ core_mem _ startpos_standard 4 _ _ g.before
      (fun _ => by rw [g.ply]; decide)⟩

/-- C24, C41, C51: the x86_64 build sees the same game, whatever lies outside its contracts. -/
example (J J' : Junk) : ∃ p q l l', Game p q l l' ∧
    Reached env0 (buildAt 1 J) startpos exchange.reverse p ∧
    p.legalMoves env0 (buildAt 1 J) = some l ∧
    p.legalMoves env0 (buildAt 1 J') = some l ∧
    p.doMove env0 (buildAt 2 J) dropCheck = some q := by
  obtain ⟨p, q, l, l', g⟩ := game
  have h1 := (C24_backends_agree env0 _ _ core_mem (buildAt_mem 1 J) _ startpos_valid).2 exchange.reverse p
  have h2 := (C24_backends_agree env0 _ _ core_mem (buildAt_mem 2 J) _ startpos_valid).2 exchange.reverse p
  have h3 := (C41_no_undefined_behaviour env0 1 J J' _ startpos_valid).2 exchange.reverse p
  have hr := h1.1.1 g.before
  refine ⟨p, q, l, l', g, hr, ?_, ?_, ?_⟩
  · rw [← (h1.2 g.before).2.2.1, g.moves]
  · rw [← (h3.2 hr).2.2.1, ← (h1.2 g.before).2.2.1, g.moves]
  · rw [← (h2.2 g.before).2.2.2.1, g.move]

/-- C36, C40, C73: one bishop gives check, so a move of another piece captures it or steps between. -/
example : ∃ p q l l', Game p q l l' ∧ l'.length ≤ 280 ∧
    ∀ m ∈ l', m.frm = some (sq 5 1) ∨ (m.frm ≠ none ∧ m.to = sq 3 3) ∨
      Between (sq 3 3) m.to (sq 5 1) := by
  obtain ⟨p, q, l, l', g⟩ := game
  have hc : InCheck (view q).board (view q).side := by
    obtain ⟨b, hb, hi⟩ := C08_in_check_exact _ _ core_mem _ startpos_valid _ _ g.after
    rw [g.check] at hb
    cases hb
    exact hi.1 rfl
  obtain ⟨x, hx, hn, _⟩ := C40_in_check_returns _ _ core_mem _ startpos_valid _ _ g.after hc
  rw [g.moves'] at hx
  cases hx
  refine ⟨p, q, l, l', g, hn, fun m hm => ?_⟩
  refine (C36_evasions _ _ core_mem _ startpos_valid _ _ g.after _ g.moves' (sq 5 1) ?_ m hm).2 _ ?_
  · rw [g.side']; exact g.king
  · rw [g.side']; exact g.attacks

/-- C38: the cached checkers. -/
example : ∃ p q l l', Game p q l l' ∧ ∃ st, q.state = some st ∧
    CoreBB.backend.contains st.attackInfo.checkers (sq 3 3) = true := by
  obtain ⟨p, q, l, l', g⟩ := game
  obtain ⟨st, hst, h1, _⟩ := C38_caches_exact _ _ core_mem _ startpos_valid _ _ g.after
  refine ⟨p, q, l, l', g, st, hst, (h1 _).2 ⟨sq 5 1, ?_, ?_⟩⟩
  · rw [g.side']; exact g.king
  · rw [g.side']; exact g.attacks

/-- C42: the files of two pawns and the reach of a rook, in the portable and in the wasm32 build. -/
example (J J' : Junk) (oc : Bool) :
    (buildAt 0 J).vacantFiles oc ((buildAt 0 J).or ((buildAt 0 J).single (sq 7 6))
      ((buildAt 0 J).single (sq 2 7))) =
    (buildAt 0 J').vacantFiles oc ((buildAt 0 J).or ((buildAt 0 J).single (sq 7 6))
      ((buildAt 0 J).single (sq 2 7))) := by
  have ha : Built (buildAt 0 J) ((buildAt 0 J).or ((buildAt 0 J).single (sq 7 6))
      ((buildAt 0 J).single (sq 2 7))) := .or (.single _) (.single _)
  refine (C42_operations_in_contract 0 J J' ha ha ha).2.2.2.2.2 (fun s t hs ht hf _ => ?_) oc
  have hset := C27_set_semantics (buildAt 0 J) (buildAt_mem 0 J) (.single (sq 7 6)) (.single (sq 2 7))
  rw [hset.2.2.2.1, hset.2.1, hset.2.1] at hs ht
  simp only [Bool.or_eq_true, decide_eq_true_eq] at hs ht
  rcases hs with rfl | rfl <;> rcases ht with rfl | rfl
  · rfl
  · exact absurd hf (by decide)
  · exact absurd hf (by decide)
  · rfl

/-- C52, C53: with no piece on 5e, `do_move` from there and `undo_move` to there panic. -/
example : ∃ p q l l', Game p q l l' ∧
    q.doMove env0 CoreBB.backend (.normal (sq 5 5) (sq 5 6) false) = none ∧
    q.undoMove env0 CoreBB.backend (.normal (sq 5 6) (sq 5 5) false) = none := by
  obtain ⟨p, q, l, l', g⟩ := game
  have hv := g.after.visited
  exact ⟨p, q, l, l', g, (C52_do_move_panics_iff _ _ core_mem _ _ _ hv _).2 (.inl g.empty),
    ((C53_undo_move_panics_iff _ _ core_mem _ _ _ hv).1 _ _ _).2 (.inr g.empty)⟩

/-- C55: `leftInCheck` is accepted, and the capture of the king is listed but panics. -/
example : ∃ p l, Position.new env0 CoreBB.backend leftInCheck = some p ∧
    p.legalMoves env0 CoreBB.backend = some l ∧ l.Nodup ∧ .normal (sq 9 1) (sq 5 1) true ∈ l ∧
    p.doMove env0 CoreBB.backend (.normal (sq 9 1) (sq 5 1) true) = none := by
  obtain ⟨_, p, l, hp, hl, _, _, hm, hs⟩ := C55_exception
  exact ⟨p, l, hp, hl, ((C55_loose _ _ core_mem _ leftInCheck_loose _ hp).2 l hl).1, hm,
    (C55_king_capture _ _ core_mem _ leftInCheck_loose _ hp _ _ _ hs (by decide +kernel)).2⟩

/-- C70, C71: bitboards and attackers in the position in check. -/
example : ∃ p q l l', Game p q l l' ∧ Mirrors CoreBB.backend q ∧
    CoreBB.backend.contains (q.inner.attackersTo CoreBB.backend .black (sq 5 1)
      (q.inner.occupiedBB CoreBB.backend)) (sq 3 3) = true := by
  obtain ⟨p, q, l, l', g⟩ := game
  have hv := g.after.visited
  exact ⟨p, q, l, l', g, (C70_bitboards_mirror_board _ _ core_mem _ _ _ hv).1,
    (C71_attackers _ _ core_mem _ _ _ hv .black (sq 5 1) (sq 3 3)).2.1.2 g.attacks⟩

/-- C16, C18, C19, C76: the opening moves in two orders. -/
example : ∃ p p', Reached env0 CoreBB.backend startpos
      [.normal (sq 2 7) (sq 2 6) false, .normal (sq 3 3) (sq 3 4) false,
        .normal (sq 7 7) (sq 7 6) false] p ∧
    Reached env0 CoreBB.backend startpos
      [.normal (sq 7 7) (sq 7 6) false, .normal (sq 3 3) (sq 3 4) false,
        .normal (sq 2 7) (sq 2 6) false] p' ∧
    p'.key = p.key ∧ p'.legalMoves env0 CoreBB.backend = p.legalMoves env0 CoreBB.backend := by
  have h : (played [.normal (sq 7 7) (sq 7 6) false, .normal (sq 3 3) (sq 3 4) false,
        .normal (sq 2 7) (sq 2 6) false]).any (fun p =>
      (played [.normal (sq 2 7) (sq 2 6) false, .normal (sq 3 3) (sq 3 4) false,
        .normal (sq 7 7) (sq 7 6) false]).any fun p' =>
      decide (∀ s, p'.pieceAt s = p.pieceAt s) && decide (p'.sideToMove = p.sideToMove) &&
      decide (∀ c k, (p'.hand c).count k = (p.hand c).count k)) = true := by
    decide +kernel
  obtain ⟨p, hr, h⟩ := of_played h
  obtain ⟨p', hr', h⟩ := of_played h
  simp only [Bool.and_eq_true, decide_eq_true_eq] at h
  obtain ⟨⟨h1, h2⟩, h3⟩ := h
  obtain ⟨p0, h0, hs⟩ := hr
  obtain ⟨p0', h0', hs'⟩ := hr'
  have hk := C18_transpositions _ _ core_mem _ _ _ _ _ _ _ _ h0' h0
    (hs'.mono fun _ _ => shape_of_legal) (hs.mono fun _ _ => shape_of_legal) rfl h1 h3 h2
  refine ⟨p, p', ⟨p0, h0, hs⟩, ⟨p0', h0', hs'⟩, hk.2, ?_⟩
  refine (C16_two_histories _ _ _ core_mem _ _ startpos_valid startpos_valid _ _ p p' ⟨p0, h0, hs⟩
    ⟨p0', h0', hs'⟩ ?_).2.2
  unfold view
  rw [h2]
  congr 1
  · exact funext h1
  · funext c k; rw [h3]

/-- C77: only the drop itself takes the drop back. -/
example : ∃ p q l l', Game p q l l' ∧ q.undoMove env0 CoreBB.backend dropCheck = some p ∧
    q.undoMove env0 CoreBB.backend (.drop (sq 3 3) ⟨.rook, .black⟩) ≠ some p := by
  obtain ⟨p, q, l, l', g⟩ := game
  have h := fun x => (C77_undo_argument _ _ core_mem _ _ _ g.legal.1.1 g.move x).1
  exact ⟨p, q, l, l', g, (h _).2 (by simp [SameButFlag, dropCheck]),
    fun e => absurd ((h _).1 e) (by simp [SameButFlag, dropCheck])⟩

end Yasai.Examples

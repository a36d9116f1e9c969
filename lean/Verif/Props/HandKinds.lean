import Verif.Props.SameAny

/-!
# C100: hands matter only through the kinds the side to move holds
-/

namespace Yasai.Props

open Yasai Spec

/-! ## Any position -/

/-- The position with other hands. -/
def withHands (p : Position) (h : Color → Hand) : Position :=
  { p with inner := { p.inner with hands := h } }

theorem generateDrop_footprint {E E' : Env} (hE : E'.overflowChecks = E.overflowChecks) (K : Backend)
    (q : PartialPosition) (h : Color → Hand) (n : BitVec 16)
    (hk : ∀ k, 0 < ((h q.side).count k).getD 0 ↔ 0 < ((q.hands q.side).count k).getD 0)
    {st st' : State} (hst : st'.attackInfo = st.attackInfo) (av : Av) (target : BB) :
    PartialPosition.generateDrop E' K { q with hands := h, ply := n } st' av target =
      q.generateDrop E K st av target := by
  have : (Hand.allHandPieces.filter fun pk => decide (((h q.side).count pk).getD 0 > 0)) =
      Hand.allHandPieces.filter fun pk => decide (((q.hands q.side).count pk).getD 0 > 0) := by
    refine List.filter_congr fun pk _ => ?_
    exact decide_eq_decide.2 (hk pk)
  have hm : ∀ to, PartialPosition.isPawnDropMate K { q with hands := h, ply := n } st' to =
      q.isPawnDropMate K st to := by
    intro to
    unfold PartialPosition.isPawnDropMate
    simp only [hst]
    rfl
  have ht : ∀ target, PartialPosition.pawnDropTarget E' K { q with hands := h, ply := n } st' target =
      q.pawnDropTarget E K st target := by
    intro target
    unfold PartialPosition.pawnDropTarget
    simp only [hE, hm]
    rfl
  unfold PartialPosition.generateDrop
  simp only [this, ht]

/-- C100.  All that `legal_moves` looks at, in any position whatever: board, bitboards, side to move, which
kinds the side to move holds, and the attack information recorded last.  Not the numbers in hand, the
opponent's hand, the move counter, the keys, the history, or the hash tables.  `in_check` and
`is_check_move` look at no hand at all. -/
theorem C100_any (E E' : Env) (K : Backend) (p p' : Position)
    (hE : E'.overflowChecks = E.overflowChecks) (hboard : p'.inner.board = p.inner.board)
    (hplayer : p'.inner.playerBB = p.inner.playerBB) (hpiece : p'.inner.pieceBB = p.inner.pieceBB)
    (hside : p'.inner.side = p.inner.side)
    (hst : p'.states.head?.map (·.attackInfo) = p.states.head?.map (·.attackInfo)) :
    ((∀ k, 0 < ((p'.hand p.sideToMove).count k).getD 0 ↔ 0 < ((p.hand p.sideToMove).count k).getD 0) →
      p'.legalMoves E' K = p.legalMoves E K) ∧
    p'.inCheck K = p.inCheck K ∧ ∀ m, p'.isCheckMove K m = p.isCheckMove K m := by
  obtain ⟨⟨side', ply', hands', board', playerBB', pieceBB'⟩, states'⟩ := p'
  obtain ⟨q, states⟩ := p
  simp only at hboard hplayer hpiece hside hst
  subst hboard hplayer hpiece hside
  cases states with
  | nil =>
    cases states' with
    | nil =>
      refine ⟨fun _ => ?_, ?_, fun m => ?_⟩
      · unfold Position.legalMoves
        simp only [Position.state, List.head?_nil, Option.bind_eq_bind, Option.bind_none]
      · unfold Position.inCheck
        simp only [Position.state, List.head?_nil, Option.bind_eq_bind, Option.bind_none]
      · unfold Position.isCheckMove
        cases m <;> simp only [Position.state, List.head?_nil, Option.bind_eq_bind, Option.bind_none] <;> rfl
    | cons st' _ => cases hst
  | cons st sts =>
    cases states' with
    | nil => cases hst
    | cons st' sts' =>
      have hst : st'.attackInfo = st.attackInfo := Option.some.inj hst
      refine ⟨fun hk => ?_, ?_, fun m => ?_⟩
      · have hd := @generateDrop_footprint E E' hE K q hands' ply' hk st st' hst
        have h1 : ∀ av, PartialPosition.generateAll E' K { q with hands := hands', ply := ply' } st' av =
            q.generateAll E K st av := by
          intro av
          unfold PartialPosition.generateAll
          simp only [hd]
          rfl
        have h2 : ∀ av, PartialPosition.generateEvasions E' K { q with hands := hands', ply := ply' } st' av =
            q.generateEvasions E K st av := by
          intro av
          unfold PartialPosition.generateEvasions PartialPosition.checkersAttacks
          simp only [hd, hst]
          rfl
        have h3 : PartialPosition.isLegal K { q with hands := hands', ply := ply' } st' =
            q.isLegal K st := by
          funext m
          unfold PartialPosition.isLegal
          simp only [hst]
          rfl
        unfold Position.legalMoves
        simp only [Position.state, List.head?_cons, Option.bind_eq_bind, Option.bind_some, hst, h1, h2, h3]
      · unfold Position.inCheck
        simp only [Position.state, List.head?_cons, hst, Option.bind_eq_bind, Option.bind_some]
      · unfold Position.isCheckMove
        cases m <;>
          simp only [Position.state, List.head?_cons, Option.bind_eq_bind, Option.bind_some, Position.checkable, hst] <;> rfl

/-! ## The rules -/

/-- The opponent's hand does not decide whether a dropped pawn mates: nothing can be dropped between. -/
theorem C100_rules {P Q : Pos} (hv : Valid P) (hb : Q.board = P.board) (hs : Q.side = P.side) (m : Move)
    (hheld : ∀ to pc, m = .drop to pc → (0 < P.hand P.side pc.kind ↔ 0 < Q.hand P.side pc.kind)) :
    Legal P m ↔ Legal Q m := by
  have hv' : Valid Q := ⟨hb ▸ hv.oneKing, hb ▸ hs ▸ hv.notInCheck, hb ▸ hv.homePawn, hb ▸ hv.noDeadPawn⟩
  have hps : PseudoLegal P m ↔ PseudoLegal Q m := by
    cases m with
    | normal frm to pr => simp only [PseudoLegal, hb, hs]
    | drop to pc => simp only [PseudoLegal, hb, hs, hheld to pc rfl]
  have hap : (apply Q m).board = (apply P m).board := by
    cases m with
    | normal frm to pr =>
      simp only [apply, hb]
      cases P.board frm <;> simp only [hb]
    | drop to pc => simp only [apply, hb]
  have hsafe : Safe P m ↔ Safe Q m := by
    unfold Safe
    rw [hps, hap, hs]
  have href : Refused P m ↔ Refused Q m := by
    cases m with
    | normal frm to pr => exact Iff.rfl
    | drop to pc => simp only [Refused, hb, hs]
  unfold Legal
  rw [← hsafe]
  refine and_congr_right fun hsf => forall_congr' fun hp => not_congr ?_
  cases m with
  | normal frm to pr => cases hp
  | drop to pc =>
    rw [← refused_iff hv hsf.1 hp, ← refused_iff hv' (hps.1 hsf.1) hp, href]

/-! ## Legal play -/

/-- C100.  Two positions, reached by legal play from any two valid roots in any two builds, that show the
same board and side to move.  `in_check` and `is_check_move` agree.  The lists of `legal_moves` have the
same board moves, and the same drops of each kind that the side to move holds in both or in neither; if
this is so for every kind, the lists are the same, in the same order, whatever the numbers, and whatever
the opponent holds. -/
theorem C100_play (E E' : Env) (K K' : Backend) (hK : K ∈ backends) (hK' : K' ∈ backends)
    (pp pp' : CorePartialPosition) (hv : Valid (rootView pp)) (hv' : Valid (rootView pp'))
    (ms ms' : List Move) (p p' : Position) (h : Reached E K pp ms p) (h' : Reached E' K' pp' ms' p')
    (hb : ∀ s, p'.pieceAt s = p.pieceAt s) (hs : p'.sideToMove = p.sideToMove) :
    p'.inCheck K' = p.inCheck K ∧ (∀ m, p'.isCheckMove K' m = p.isCheckMove K m) ∧
    (∀ l l', p.legalMoves E K = some l → p'.legalMoves E' K' = some l' →
      ∀ m, (∀ to pc, m = .drop to pc →
        (0 < ((p.hand p.sideToMove).count pc.kind).getD 0 ↔
          0 < ((p'.hand p.sideToMove).count pc.kind).getD 0)) → (m ∈ l ↔ m ∈ l')) ∧
    ((∀ k, 0 < ((p.hand p.sideToMove).count k).getD 0 ↔
        0 < ((p'.hand p.sideToMove).count k).getD 0) →
      p'.legalMoves E' K' = p.legalMoves E K) := by
  obtain ⟨hi, hp⟩ := reached_inv hK hv h
  obtain ⟨hi', hp'⟩ := reached_inv hK' hv' h'
  have hbb : p'.inner.board = p.inner.board := funext hb
  have hss : p'.inner.side = p.inner.side := hs
  have hiw : Inv K (withHands p p'.inner.hands) :=
    ⟨⟨hi.repr.okPlayer, hi.repr.okPiece, hi.repr.player, hi.repr.piece⟩, hi.state⟩
  have hview : SamePos (withHands p p'.inner.hands).inner p'.inner := by
    unfold SamePos withHands PartialPosition.spec
    rw [hbb, hss]
  have hL := lawful_of_mem hK
  have hL' := lawful_of_mem hK'
  obtain ⟨c1, c2, c3⟩ := C100_any E E K p (withHands p p'.inner.hands) rfl rfl rfl rfl rfl rfl
  refine ⟨?_, fun m => ?_, fun l l' hl hl' m hm => ?_, fun hk => ?_⟩
  · rw [← inCheck_same hL hL' hiw hi' hview, c2]
  · rw [← isCheckMove_same hL hL' hiw hi' hview, c3]
  · rw [(legalMoves_exact hK hv h hl).2 m, (legalMoves_exact hK' hv' h' hl').2 m]
    exact C100_rules hp hbb hss m hm
  · have hpw : Valid (withHands p p'.inner.hands).inner.spec := by
      rw [hview]
      exact hp'
    rw [← legalMoves_same hL hL' (E := E) (E' := E') hiw hi' hview hpw]
    exact c1 fun k => (hk k).symm

/-! ## Concrete cases -/

section
open Yasai.Examples

/-- A pawn dropped on 1b mates, whatever White could drop. -/
def cornered (black white : List (PieceKind × Nat)) : CorePartialPosition where
  side := .black
  ply := 1#16
  hands := fun
    | .black => handOf black
    | .white => handOf white
  board := boardOf [(9,9,.king,.black),(1,3,.gold,.black),(1,1,.king,.white),(2,1,.lance,.white)]

/-- One pawn or three in hand, and an opponent with nothing or with a rook and two golds in hand: the
hypotheses hold, the lists are equal, the mating drop is left out of both, and a lance in hand more is
not the same. -/
theorem C100_example : Valid (rootView (cornered [(.pawn, 1)] [])) ∧
    Valid (rootView (cornered [(.pawn, 3)] [(.rook, 1), (.gold, 2)])) ∧
    ((Position.new env0 CoreBB.backend (cornered [(.pawn, 1)] [])).any fun p =>
      (Position.new env0 CoreBB.backend (cornered [(.pawn, 3)] [(.rook, 1), (.gold, 2)])).any fun p' =>
      (Position.new env0 CoreBB.backend (cornered [(.pawn, 1), (.lance, 1)] [])).any fun p'' =>
      (p.legalMoves env0 CoreBB.backend).any fun l => (p'.legalMoves env0 CoreBB.backend).any fun l' =>
        (p''.legalMoves env0 CoreBB.backend).any fun l'' =>
        decide (l = l') && decide (.drop (sq 1 2) ⟨.pawn, .black⟩ ∉ l) &&
        decide (.drop (sq 1 4) ⟨.pawn, .black⟩ ∈ l) && decide (l'' ≠ l) &&
        decide (.drop (sq 1 2) ⟨.lance, .black⟩ ∈ l'')) = true := by
  decide +kernel

end

end Yasai.Props

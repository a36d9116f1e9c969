import Verif.Props.MovePanic
import Verif.Props.Legal
import Verif.Proofs.PanicExact

/-!
# C55: fresh positions in which the opponent is in check

`Position::new` accepts positions that cannot occur in a game because the side that just moved has
left its king attacked.  The generator is still right about them, with one exception.
-/

namespace Yasai.Props

open Yasai Spec

/-- C55.  In a position made by `Position::new` in which the opponent's king may be attacked,
`in_check()` is exact, and `legal_moves()` lists without repetition: only safe moves, all legal
moves, and among the moves that are not pawn drops exactly the safe ones.  A listed move can only
fail to be legal as a mating pawn drop when the opponent's king was attacked already. -/
theorem C55_loose (E : Env) (K : Backend) (hK : K ∈ backends) (pp : CorePartialPosition)
    (hv : Loose (rootView pp)) (p : Position) (h : Position.new E K pp = some p) :
    (∃ b, p.inCheck K = some b ∧ (b = true ↔ InCheck pp.board pp.side)) ∧
    ∀ l, p.legalMoves E K = some l →
      l.Nodup ∧ (∀ m ∈ l, Safe (rootView pp) m) ∧ (∀ m, Legal (rootView pp) m → m ∈ l) ∧
      (∀ m, ¬ IsPawnDrop m → (m ∈ l ↔ Safe (rootView pp) m)) ∧
      (∀ m ∈ l, ¬ Legal (rootView pp) m → IsPawnDrop m ∧ Mated (apply (rootView pp) m) ∧
        InCheck pp.board pp.side.flip) := by
  have L := lawful_of_mem hK
  have hi := inv_new L h
  have hvw : p.inner.spec = rootView pp := view_new hK h
  have hv' : Loose p.inner.spec := by rw [hvw]; exact hv
  refine ⟨?_, fun l hl => ?_⟩
  · have := inCheck_spec L hi hv'
    have e1 : p.inner.board = pp.board := congrArg Pos.board hvw
    have e2 : p.inner.side = pp.side := congrArg Pos.side hvw
    rw [e1, e2] at this
    exact this
  · obtain ⟨st, _, heq, hnd, hmem⟩ := legalMoves_loose E L hi hv'
    rw [heq, Option.map_eq_some_iff] at hl
    obtain ⟨av, hav, rfl⟩ := hl
    obtain ⟨_, rfl⟩ := appendAll_eq_some hav
    rw [List.nil_append]
    have hperm := filterLoop_perm (p.inner.isLegal K st) (pseudoList E K p.inner st)
    have hm : ∀ m, m ∈ filterLoop (p.inner.isLegal K st) (pseudoList E K p.inner st).length 0
        (pseudoList E K p.inner st) ↔ Generated (rootView pp) m := by
      intro m
      rw [hperm.mem_iff, List.mem_filter, hmem m, hvw]
    refine ⟨hperm.nodup_iff.2 (hnd.filter _), fun m h => ((hm m).1 h).1, fun m h => ?_,
      fun m hp => ?_, fun m h hnl => ?_⟩
    · rw [hm]
      refine ⟨h.1, fun hp hr => ?_⟩
      cases m with
      | normal _ _ _ => exact hp
      | drop to pc => exact h.2 hp (mated_of_refused hv h.1.1 hp hr)
    · rw [hm]
      exact ⟨fun h => h.1, fun h => ⟨h, fun e => absurd e hp⟩⟩
    · rw [hm] at h
      have h1 : IsPawnDrop m ∧ Mated (apply (rootView pp) m) := by
        apply Classical.byContradiction
        intro hn
        exact hnl ⟨h.1, fun hp hmt => hn ⟨hp, hmt⟩⟩
      refine ⟨h1.1, h1.2, ?_⟩
      apply Classical.byContradiction
      intro hn
      have : Valid (rootView pp) := ⟨hv.oneKing, hn, hv.homePawn, hv.noDeadPawn⟩
      exact hnl ((listed_iff this).1 h)

/-- C55.  Capturing the opponent's king is listed when it is safe, and playing it panics. -/
theorem C55_king_capture (E : Env) (K : Backend) (hK : K ∈ backends) (pp : CorePartialPosition)
    (hv : Loose (rootView pp)) (p : Position) (h : Position.new E K pp = some p)
    (frm to : Square) (promote : Bool) (hs : Safe (rootView pp) (.normal frm to promote))
    (hto : pp.board to = some ⟨.king, pp.side.flip⟩) :
    (∀ l, p.legalMoves E K = some l → .normal frm to promote ∈ l) ∧
    p.doMove E K (.normal frm to promote) = none := by
  refine ⟨fun l hl => ?_, ?_⟩
  · exact (((C55_loose E K hK pp hv p h).2 l hl).2.2.2.1
      (.normal frm to promote) (fun h => h)).2 hs
  · rw [C52_do_move_panics_iff E K hK pp [] p ⟨p, h, .start⟩]
    refine .inr (.inl ⟨pp.side.flip, ?_⟩)
    have hvw : view p = rootView pp := view_new hK h
    show (view p).board to = _
    rw [hvw]
    exact hto

/-- C55.  `legal_moves()` does not panic when the side to move is in check. -/
theorem C55_in_check_no_panic (E : Env) (K : Backend) (hK : K ∈ backends)
    (pp : CorePartialPosition) (hv : Loose (rootView pp)) (p : Position)
    (h : Position.new E K pp = some p) (hc : InCheck pp.board pp.side) :
    ∃ l, p.legalMoves E K = some l ∧ l.length ≤ 280 := by
  have L := lawful_of_mem hK
  have hvw : p.inner.spec = rootView pp := view_new hK h
  refine legalMoves_inCheck E L (inv_new L h) (by rw [hvw]; exact hv) ?_
  have e1 : p.inner.board = pp.board := congrArg Pos.board hvw
  have e2 : p.inner.side = pp.side := congrArg Pos.side hvw
  rw [e1, e2]
  exact hc

/-! ## Concrete cases -/

open Yasai.Examples

/-- White has left its king attacked by the rook.  The pawn drop on 5b is double check and mate. -/
def leftInCheck : CorePartialPosition where
  side := .black
  ply := 9#16
  hands := fun c => match c with
    | .black => handOf [(.pawn, 1)]
    | .white => handOf []
  board := boardOf ([
    (9,9,.king,.black),(9,1,.rook,.black),(5,3,.gold,.black),
    (5,1,.king,.white),(4,1,.lance,.white),(4,2,.pawn,.white),(6,2,.gold,.white)])

theorem leftInCheck_loose : Loose (rootView leftInCheck) := by decide +kernel

theorem leftInCheck_mated :
    Mated (apply (rootView leftInCheck) (.drop (sq 5 2) ⟨.pawn, .black⟩)) := by
  refine ⟨by decide +kernel, fun m hm => ?_⟩
  cases m with
  | drop to pc =>
    have h : ∀ k, (apply (rootView leftInCheck) (.drop (sq 5 2) ⟨.pawn, .black⟩)).hand .white k = 0 :=
      by decide +kernel
    have := hm.1.2.2.1
    exact absurd (h pc.kind) (Nat.ne_of_gt this)
  | normal frm to pr =>
    have hwhite : ∀ s k, (apply (rootView leftInCheck)
        (.drop (sq 5 2) ⟨.pawn, .black⟩)).board s = some ⟨k, .white⟩ →
        s ∈ [sq 5 1, sq 4 1, sq 4 2, sq 6 2] := by decide +kernel
    have hno : ∀ s ∈ [sq 5 1, sq 4 1, sq 4 2, sq 6 2], ∀ to pr, ¬ Safe (apply
        (rootView leftInCheck) (.drop (sq 5 2) ⟨.pawn, .black⟩)) (.normal s to pr) := by
      decide +kernel
    obtain ⟨⟨k, hk, _⟩, _⟩ := id hm
    exact hno frm (hwhite frm k hk) to pr hm

/-- The hypotheses are met in a position that is not valid; the exception occurs: a mating pawn
drop is listed; the capture of the king is listed. -/
theorem C55_exception : ¬ Valid (rootView leftInCheck) ∧
    ∃ p l, Position.new env0 CoreBB.backend leftInCheck = some p ∧
      p.legalMoves env0 CoreBB.backend = some l ∧
      .drop (sq 5 2) ⟨.pawn, .black⟩ ∈ l ∧
      Mated (apply (rootView leftInCheck) (.drop (sq 5 2) ⟨.pawn, .black⟩)) ∧
      .normal (sq 9 1) (sq 5 1) true ∈ l ∧
      Safe (rootView leftInCheck) (.normal (sq 9 1) (sq 5 1) true) := by
  refine ⟨fun hv => hv.notInCheck (by decide +kernel), ?_⟩
  have h : (Position.new env0 CoreBB.backend leftInCheck).any (fun p =>
      (p.legalMoves env0 CoreBB.backend).any fun l =>
        decide (Move.drop (sq 5 2) ⟨.pawn, .black⟩ ∈ l) &&
        decide (Move.normal (sq 9 1) (sq 5 1) true ∈ l)) = true := by
    decide +kernel
  simp only [Option.any_eq_true, Bool.and_eq_true, decide_eq_true_eq] at h
  obtain ⟨p, hp, l, hl, h1, h2⟩ := h
  have hc := (C55_loose env0 _ core_mem _ leftInCheck_loose p hp).2 l hl
  exact ⟨p, l, hp, hl, h1, leftInCheck_mated, h2, hc.2.1 _ h2⟩

/-- Both kings are attacked. -/
def bothInCheck : CorePartialPosition where
  side := .black
  ply := 9#16
  hands := fun _ => handOf [(.pawn, 1)]
  board := boardOf [(9,9,.king,.black),(9,1,.rook,.white),(5,9,.rook,.black),(5,1,.king,.white)]

/-- The hypotheses of `C55_in_check_no_panic` hold there. -/
example : Loose (rootView bothInCheck) ∧ InCheck bothInCheck.board .black ∧
    InCheck bothInCheck.board .white ∧ (Position.new env0 CoreBB.backend bothInCheck).isSome := by
  decide +kernel

/-- Why only fresh positions: after a quiet move the old attack on the white king is forgotten. -/
theorem C55_only_fresh : ∃ p p', Position.new env0 CoreBB.backend leftInCheck = some p ∧
    Safe (rootView leftInCheck) (.normal (sq 9 9) (sq 8 9) false) ∧
    p.doMove env0 CoreBB.backend (.normal (sq 9 9) (sq 8 9) false) = some p' ∧
    InCheck p'.pieceAt p'.sideToMove ∧ p'.inCheck CoreBB.backend = some false := by
  have h : (Position.new env0 CoreBB.backend leftInCheck).any (fun p =>
      (p.doMove env0 CoreBB.backend (.normal (sq 9 9) (sq 8 9) false)).any fun p' =>
        decide (InCheck p'.pieceAt p'.sideToMove) &&
        p'.inCheck CoreBB.backend == some false) = true := by
    decide +kernel
  simp only [Option.any_eq_true, Bool.and_eq_true, decide_eq_true_eq, beq_iff_eq] at h
  obtain ⟨p, hp, p', hp', h1, h2⟩ := h
  exact ⟨p, p', hp, by decide +kernel, hp', h1, h2⟩

end Yasai.Props

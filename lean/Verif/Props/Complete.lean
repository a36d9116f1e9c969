import Verif.Props.Pseudo
import Verif.Proofs.Complete

/-!
# C65: no legal move is missing, however the position arose
-/

namespace Yasai.Props

open Yasai Spec

theorem Roamed.oneKing {E : Env} {K : Backend} (hK : K ∈ backends) {pp : CorePartialPosition}
    {ms : List Move} {p : Position}
    (hv : ∀ c s t, (rootView pp).board s = some ⟨.king, c⟩ →
      (rootView pp).board t = some ⟨.king, c⟩ → s = t) (h : Roamed E K pp ms p) :
    ∀ c s t, (view p).board s = some ⟨.king, c⟩ → (view p).board t = some ⟨.king, c⟩ → s = t := by
  obtain ⟨p0, h0, hs⟩ := h
  have hp := hs.play hK (fun _ _ h => shape_of_pseudoLegal h)
  clear hs
  induction hp with
  | start => rw [view_new hK h0]; exact hv
  | move _ ha hm ih =>
    rw [view_eq, spec_doMove hm, ← view_eq]
    exact oneKing_apply ih ha

theorem Tame.roamed {E : Env} {K : Backend} (hK : K ∈ backends) {pp : CorePartialPosition}
    {ms : List Move} {p : Position} (hv : Tame (rootView pp)) (h : Roamed E K pp ms p) :
    Tame p.inner.spec := by
  have h1 := h.oneKing hK hv.oneKing
  have h2 := h.pawnsOk hK ⟨hv.homePawn, hv.noDeadPawn⟩
  rw [view_eq] at h1 h2
  exact ⟨h1, h2.1, h2.2⟩

/-- C65.  Let the moves made be pseudo-legal only, so that kings may have been left in check and
`in_check` may be wrong (`C64_unanswered_check_forgotten`).  The list of `legal_moves` still contains
every legal move. -/
theorem C65_no_legal_move_missing (E : Env) (K : Backend) (hK : K ∈ backends)
    (pp : CorePartialPosition) (hv : Tame (rootView pp)) (ms : List Move) (p : Position)
    (h : Roamed E K pp ms p) (l : List Move) (hl : p.legalMoves E K = some l) (m : Move)
    (hm : Legal (view p) m) : m ∈ l := by
  have L := lawful_of_mem hK
  have hr := (h.visited.consistent hK).1
  have ht := Tame.roamed hK hv h
  obtain ⟨st, hst, _, hpin, hcs⟩ := h.caches hK
  obtain ⟨h1, _⟩ := legalMoves_sound E L hr ⟨ht.homePawn, ht.noDeadPawn⟩ hst hcs
  rw [h1] at hl
  obtain ⟨av, hav, rfl⟩ := Option.map_eq_some_iff.1 hl
  have := appendAll_eq_some hav
  rw [List.nil_append] at this
  subst this
  rw [(filterLoop_perm _ _).mem_iff, List.mem_filter]
  apply legalMoves_complete E L hr ht hpin hcs
  rw [view_eq] at hm
  refine ⟨hm.1, fun hd href => ?_⟩
  cases m with
  | normal _ _ _ => exact hd
  | drop to pc => exact hm.2 hd (mated_of_refused ht hm.1.1 hd href)

/-- C65.  If no king is attacked, the list is exactly that of the legal moves, whatever was ignored
before. -/
theorem C65_exact_when_no_king_is_attacked (E : Env) (K : Backend) (hK : K ∈ backends)
    (pp : CorePartialPosition) (hv : Tame (rootView pp)) (ms : List Move) (p : Position)
    (h : Roamed E K pp ms p) (hc : ∀ c, ¬ InCheck p.pieceAt c) (l : List Move)
    (hl : p.legalMoves E K = some l) (m : Move) : m ∈ l ↔ Legal (view p) m := by
  have L := lawful_of_mem hK
  have hr := (h.visited.consistent hK).1
  have ht := Tame.roamed hK hv h
  obtain ⟨st, hst, _, hpin, hcs⟩ := h.caches hK
  obtain ⟨h1, _⟩ := legalMoves_sound E L hr ⟨ht.homePawn, ht.noDeadPawn⟩ hst hcs
  rw [h1] at hl
  obtain ⟨av, hav, rfl⟩ := Option.map_eq_some_iff.1 hl
  have := appendAll_eq_some hav
  rw [List.nil_append] at this
  subst this
  rw [(filterLoop_perm _ _).mem_iff, List.mem_filter,
    legalMoves_exact_calm E L hr ht hpin hcs (hc _), view_eq]
  exact Yasai.listed_iff ⟨ht.oneKing, hc _, ht.homePawn, ht.noDeadPawn⟩

section
open Examples

/-- C65 in the position of `C64_unanswered_check_forgotten`: `in_check` is wrong there, and the escape
of the king is listed. -/
example : Tame (rootView unanswered) ∧
    ∃ p l, Roamed env0 CoreBB.backend unanswered
      [.normal (sq 1 1) (sq 1 2) false, .normal (sq 9 7) (sq 9 6) false] p ∧
    p.inCheck CoreBB.backend = some false ∧ Legal (view p) (.normal (sq 5 9) (sq 4 9) false) ∧
    p.legalMoves env0 CoreBB.backend = some l ∧ .normal (sq 5 9) (sq 4 9) false ∈ l := by
  have hv : Tame (rootView unanswered) := by decide +kernel
  refine ⟨hv, ?_⟩
  have h : (Position.new env0 CoreBB.backend unanswered).any (fun p0 =>
      decide (PseudoLegal (view p0) (.normal (sq 9 7) (sq 9 6) false)) &&
      (p0.doMove env0 CoreBB.backend (.normal (sq 9 7) (sq 9 6) false)).any fun p1 =>
        decide (PseudoLegal (view p1) (.normal (sq 1 1) (sq 1 2) false)) &&
        (p1.doMove env0 CoreBB.backend (.normal (sq 1 1) (sq 1 2) false)).any fun p =>
          decide (Safe (view p) (.normal (sq 5 9) (sq 4 9) false)) &&
          p.inCheck CoreBB.backend == some false &&
          (p.legalMoves env0 CoreBB.backend).isSome) = true := by
    decide +kernel
  simp only [Option.any_eq_true, Bool.and_eq_true, beq_iff_eq, decide_eq_true_eq,
    Option.isSome_iff_exists] at h
  obtain ⟨p0, hp0, h1, p1, hp1, h2, p, hp, ⟨h3, h4⟩, l, hl⟩ := h
  have hr : Roamed env0 CoreBB.backend unanswered
      [.normal (sq 1 1) (sq 1 2) false, .normal (sq 9 7) (sq 9 6) false] p :=
    ⟨p0, hp0, .move (.move .start h1 hp1) h2 hp⟩
  have hleg : Legal (view p) (.normal (sq 5 9) (sq 4 9) false) := ⟨h3, fun e => e.elim⟩
  exact ⟨p, l, hr, h4, hleg, hl,
    C65_no_legal_move_missing env0 _ core_mem _ hv _ _ hr _ hl _ hleg⟩

/-- Black ignores the check, and White moves the rook off the file of Black's king: now the second
theorem applies. -/
example : ∃ p l, Roamed env0 CoreBB.backend unanswered
      [.normal (sq 5 1) (sq 6 1) false, .normal (sq 9 7) (sq 9 6) false] p ∧
    (∀ c, ¬ InCheck p.pieceAt c) ∧ p.legalMoves env0 CoreBB.backend = some l ∧ 3 < l.length := by
  have h : (Position.new env0 CoreBB.backend unanswered).any (fun p0 =>
      decide (PseudoLegal (view p0) (.normal (sq 9 7) (sq 9 6) false)) &&
      (p0.doMove env0 CoreBB.backend (.normal (sq 9 7) (sq 9 6) false)).any fun p1 =>
        decide (PseudoLegal (view p1) (.normal (sq 5 1) (sq 6 1) false)) &&
        (p1.doMove env0 CoreBB.backend (.normal (sq 5 1) (sq 6 1) false)).any fun p =>
          decide (¬ InCheck p.pieceAt .black) && decide (¬ InCheck p.pieceAt .white) &&
          (p.legalMoves env0 CoreBB.backend).any fun l => decide (3 < l.length)) = true := by
    decide +kernel
  simp only [Option.any_eq_true, Bool.and_eq_true, decide_eq_true_eq] at h
  obtain ⟨p0, hp0, h1, p1, hp1, h2, p, hp, ⟨h3, h4⟩, l, hl, h5⟩ := h
  exact ⟨p, l, ⟨p0, hp0, .move (.move .start h1 hp1) h2 hp⟩, by intro c; cases c <;> assumption,
    hl, h5⟩

end

end Yasai.Props

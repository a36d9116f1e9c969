import Verif.Props.Games
import Verif.Proofs.Pseudo

/-!
# C64: the rules of movement in every position
-/

namespace Yasai.Props

open Yasai Spec

/-- A history from `Position::new(pp)` with pseudo-legal moves: the rules of movement and dropping are
kept, but a king may be left in check. -/
def Roamed (E : Env) (K : Backend) (pp : CorePartialPosition) (ms : List Move) (p : Position) : Prop :=
  ∃ p0, Position.new E K pp = some p0 ∧ Session E K (fun p m => PseudoLegal (view p) m) p0 ms p

/-- The same with unhindered moves: any own piece may go to any square without an own piece, but not
over other pieces, and be dropped onto any empty square. -/
def Wandered (E : Env) (K : Backend) (pp : CorePartialPosition) (ms : List Move) (p : Position) :
    Prop :=
  ∃ p0, Position.new E K pp = some p0 ∧ Session E K (fun p m => Unhindered (view p) m) p0 ms p

theorem Roamed.wandered {E : Env} {K : Backend} {pp : CorePartialPosition} {ms : List Move}
    {p : Position} (h : Roamed E K pp ms p) : Wandered E K pp ms p := by
  obtain ⟨p0, h0, hs⟩ := h
  exact ⟨p0, h0, hs.mono fun _ _ hl => unhindered_of_pseudoLegal hl⟩

theorem shape_of_unhindered {p : Position} {m : Move} (h : Unhindered (view p) m) : Shape p m := by
  cases m with
  | normal frm to promote => exact h.2.1
  | drop to pc => exact h.2.2

theorem Wandered.visited {E : Env} {K : Backend} {pp : CorePartialPosition} {ms : List Move}
    {p : Position} (h : Wandered E K pp ms p) : Visited E K pp ms p := by
  obtain ⟨p0, h0, hs⟩ := h
  exact ⟨p0, h0, hs.mono fun _ _ hl => shape_of_unhindered hl⟩

theorem Roamed.visited {E : Env} {K : Backend} {pp : CorePartialPosition} {ms : List Move}
    {p : Position} (h : Roamed E K pp ms p) : Visited E K pp ms p := by
  obtain ⟨p0, h0, hs⟩ := h
  exact ⟨p0, h0, hs.mono fun _ _ hl => shape_of_pseudoLegal hl⟩

theorem Wandered.caches {E : Env} {K : Backend} (hK : K ∈ backends) {pp : CorePartialPosition}
    {ms : List Move} {p : Position} (h : Wandered E K pp ms p) : CacheSound K p := by
  have L := lawful_of_mem hK
  obtain ⟨p0, h0, hs⟩ := h
  have hp := hs.play hK (fun _ _ h => shape_of_unhindered h)
  clear hs
  suffices Repr p.inner ∧ CacheSound K p from this.2
  induction hp with
  | start => exact ⟨(consistent_new L h0).1, cacheSound_new L h0⟩
  | move _ ha hm ih =>
    exact ⟨(consistent_doMove L ih.1 (shape_good (shape_of_unhindered ha)) hm).1,
      cacheSound_doMove L ih.1 ih.2 (by rw [← view_eq]; exact ha) hm⟩

theorem Roamed.caches {E : Env} {K : Backend} (hK : K ∈ backends) {pp : CorePartialPosition}
    {ms : List Move} {p : Position} (h : Roamed E K pp ms p) : CacheSound K p :=
  h.wandered.caches hK

theorem Roamed.pawnsOk {E : Env} {K : Backend} (hK : K ∈ backends) {pp : CorePartialPosition}
    {ms : List Move} {p : Position} (hv : PawnsOk (rootView pp)) (h : Roamed E K pp ms p) :
    PawnsOk (view p) := by
  obtain ⟨p0, h0, hs⟩ := h
  have hp := hs.play hK (fun _ _ h => shape_of_pseudoLegal h)
  clear hs
  induction hp with
  | start => rw [view_new hK h0]; exact hv
  | move _ ha hm ih =>
    rw [view_eq, spec_doMove hm, ← view_eq]
    exact pawnsOk_apply ih ha

/-- C64.  `in_check` never reports a check that is not there: after any history of pseudo-legal moves
from any root, if it answers true then a king of the side to move is attacked. -/
theorem C64_reported_checks_exist (E : Env) (K : Backend) (hK : K ∈ backends)
    (pp : CorePartialPosition) (ms : List Move) (p : Position) (h : Roamed E K pp ms p)
    (hc : p.inCheck K = some true) : InCheck p.pieceAt p.sideToMove := by
  have L := lawful_of_mem hK
  obtain ⟨st, hst, _, _, hok, hcs⟩ := h.caches hK
  simp only [Position.inCheck, hst, Option.bind_eq_bind, Option.bind_some, Option.pure_def,
    Option.some.injEq, Bool.not_eq_true'] at hc
  have hex : ∃ s, mem st.attackInfo.checkers s = true := by
    apply Classical.byContradiction
    intro hno
    have : st.attackInfo.checkers = 0#128 := by
      refine ext_of_ok hok ok_zero fun s => ?_
      rw [mem_zero, ← Bool.not_eq_true]
      exact fun hs => hno ⟨s, hs⟩
    rw [L.isEmpty, this] at hc
    cases hc
  obtain ⟨s, hs⟩ := hex
  obtain ⟨king, hk, ha⟩ := hcs s hs
  exact ⟨king, kingPosition_sound L (h.visited.consistent hK).1 hk, s, ha⟩

/-- C64.  Let the root have no pawn on its last rank and no pawn on its home rank with another pawn of
its side on the file; there may be any number of kings, in check or not.  After any history of
pseudo-legal moves made and taken back, every move that `legal_moves` lists obeys the rules of movement
and dropping, and none is listed twice; `legal_moves` panics only if there are 594 such moves; and
`do_move` of a listed move panics only because a king is captured, because a hand holds eighteen pieces
of the kind captured, or because the move counter is full. -/
theorem C64_rules_of_movement (E : Env) (K : Backend) (hK : K ∈ backends) (pp : CorePartialPosition)
    (hhome : ∀ c s t, (rootView pp).board s = some ⟨.pawn, c⟩ →
      (rootView pp).board t = some ⟨.pawn, c⟩ → s.file = t.file → HomeRank c s → s = t)
    (hdead : ∀ c s, (rootView pp).board s = some ⟨.pawn, c⟩ → ¬ Dead .pawn c s)
    (ms : List Move) (p : Position) (h : Roamed E K pp ms p) :
    (∀ l, p.legalMoves E K = some l →
      l.Nodup ∧ ∀ m ∈ l, PseudoLegal (view p) m ∧
        (p.doMove E K m = none ↔
          (∃ c, p.pieceAt m.to = some ⟨.king, c⟩) ∨
          (∃ q, p.pieceAt m.to = some q ∧
            (p.hand p.sideToMove).count (base q.kind) = some 18) ∨
          (E.overflowChecks = true ∧ p.ply = 65535#16))) ∧
    (p.legalMoves E K = none →
      ∃ l : List Move, l.length = 594 ∧ l.Nodup ∧ ∀ m ∈ l, PseudoLegal (view p) m) := by
  have L := lawful_of_mem hK
  have hvis := h.visited
  have hv := h.pawnsOk hK ⟨hhome, hdead⟩
  obtain ⟨st, hst, _, _, hcs⟩ := h.caches hK
  obtain ⟨h1, h2, h3⟩ := legalMoves_sound E L (hvis.consistent hK).1 (by rw [← view_eq]; exact hv)
    hst hcs
  rw [← view_eq] at h3
  rw [h1]
  constructor
  · intro l hl
    obtain ⟨av, hav, rfl⟩ := Option.map_eq_some_iff.1 hl
    have := appendAll_eq_some hav
    rw [List.nil_append] at this
    subst this
    have hperm := filterLoop_perm (p.inner.isLegal K st) (pseudoList E K p.inner st)
    refine ⟨hperm.nodup_iff.2 (h2.filter _), fun m hm => ?_⟩
    have hm := h3 m (List.mem_filter.1 (hperm.mem_iff.1 hm)).1
    refine ⟨hm, ?_⟩
    rw [C52_do_move_panics_iff E K hK pp ms p hvis m]
    cases m with
    | normal frm to promote =>
      obtain ⟨k, hfrm, _, _, hpr, _⟩ := hm
      have hfrm : p.pieceAt frm = some ⟨k, p.sideToMove⟩ := hfrm
      constructor
      · rintro (e | e | e | ⟨e1, q, e2, e3⟩ | e)
        · rw [hfrm] at e; cases e
        · exact .inl e
        · exact .inr (.inl e)
        · rw [hfrm] at e2; cases e2
          exact absurd e3 (hpr e1).1
        · exact .inr (.inr e)
      · rintro (e | e | e)
        · exact .inr (.inl e)
        · exact .inr (.inr (.inl e))
        · exact .inr (.inr (.inr (.inr e)))
    | drop to pc =>
      obtain ⟨hc, _, hhand, hemp, _⟩ := hm
      have hemp : p.pieceAt to = none := hemp
      have hc : pc.color = p.sideToMove := hc
      have hhand : 0 < ((p.hand pc.color).count pc.kind).getD 0 := by rw [hc]; exact hhand
      constructor
      · rintro (e | e)
        · rw [← hc] at e; omega
        · exact .inr (.inr e)
      · rintro (⟨c, e⟩ | ⟨q, e, _⟩ | e)
        · rw [Move.to, hemp] at e; cases e
        · rw [Move.to, hemp] at e; cases e
        · exact .inr e
  · intro hn
    have hn := Option.map_eq_none_iff.1 hn
    have hlen : 594 ≤ (pseudoList E K p.inner st).length := by
      apply Classical.byContradiction
      intro hlt
      rw [appendAll_nil_some (by unfold maxLegalMoves; omega)] at hn
      cases hn
    exact ⟨(pseudoList E K p.inner st).take 594, by rw [List.length_take]; omega,
      h2.sublist (List.take_sublist ..), fun m hm => h3 m (List.mem_of_mem_take hm)⟩

section
open Examples

/-- C64 on three black kings, one of them left in check: White may take it as far as `legal_moves` is
concerned, and `do_move` panics. -/
example : ∃ p l, Roamed env0 CoreBB.backend threeKings [.normal (sq 7 5) (sq 7 4) false] p ∧
    p.legalMoves env0 CoreBB.backend = some l ∧ .normal (sq 5 5) (sq 5 9) false ∈ l ∧
    p.doMove env0 CoreBB.backend (.normal (sq 5 5) (sq 5 9) false) = none ∧ 5 < l.length := by
  have h : (Position.new env0 CoreBB.backend threeKings).any (fun p0 =>
      p0.pieceAt (sq 7 5) == some ⟨.pawn, .black⟩ && p0.pieceAt (sq 7 4) == none &&
      p0.sideToMove == .black &&
      (p0.doMove env0 CoreBB.backend (.normal (sq 7 5) (sq 7 4) false)).any fun p =>
        (p.doMove env0 CoreBB.backend (.normal (sq 5 5) (sq 5 9) false)).isNone &&
        (p.legalMoves env0 CoreBB.backend).any fun l =>
          l.contains (.normal (sq 5 5) (sq 5 9) false) && decide (5 < l.length)) = true := by
    decide +kernel
  simp only [Option.any_eq_true, Bool.and_eq_true, beq_iff_eq, Option.isNone_iff_eq_none,
    decide_eq_true_eq, List.contains_iff_mem] at h
  obtain ⟨p0, hp0, ⟨⟨h1, h2⟩, h3⟩, p, hp, h4, l, hl, h5, h6⟩ := h
  refine ⟨p, l, ⟨p0, hp0, .move .start ?_ hp⟩, hl, h5, h4, h6⟩
  have hto : (view p0).board (sq 7 4) = none := h2
  refine ⟨.pawn, ?_, .inl ⟨(0, 1), by simp [steps], ?_⟩, ?_, fun e => (by cases e), fun _ => ?_⟩
  · show p0.pieceAt _ = some ⟨.pawn, p0.sideToMove⟩
    rw [h1, h3]
  · show Disp _ _ _ (fwd p0.sideToMove * _)
    rw [h3]
    unfold Disp
    decide
  · intro q hq; rw [hto] at hq; cases hq
  · show ¬ Dead .pawn p0.sideToMove _
    rw [h3]; decide

/-- The hypotheses about pawns hold of that root. -/
example : (∀ c s t, (rootView threeKings).board s = some ⟨.pawn, c⟩ →
      (rootView threeKings).board t = some ⟨.pawn, c⟩ → s.file = t.file → HomeRank c s → s = t) ∧
    ∀ c s, (rootView threeKings).board s = some ⟨.pawn, c⟩ → ¬ Dead .pawn c s := by
  have key : ∀ c s, (rootView threeKings).board s = some ⟨.pawn, c⟩ →
      ¬ HomeRank c s ∧ ¬ Dead .pawn c s := by
    decide +kernel
  exact ⟨fun c s t h1 _ _ hh => absurd hh (key c s h1).1, fun c s h => (key c s h).2⟩

/-- A white rook attacks Black's king. -/
def unanswered : CorePartialPosition where
  side := .black
  ply := 1#16
  hands := fun _ => handOf []
  board := boardOf [(5,9,.king,.black),(9,7,.pawn,.black),(5,1,.rook,.white),(1,1,.king,.white)]

/-- The converse of `C64_reported_checks_exist` needs legal moves: when Black ignores the check and
White plays elsewhere, `in_check` answers false although the rook still attacks the king, and
`legal_moves` lists moves that leave it so. -/
theorem C64_unanswered_check_forgotten : Valid (rootView unanswered) ∧
    ∃ p l, Roamed env0 CoreBB.backend unanswered
      [.normal (sq 1 1) (sq 1 2) false, .normal (sq 9 7) (sq 9 6) false] p ∧
    InCheck p.pieceAt p.sideToMove ∧ p.inCheck CoreBB.backend = some false ∧
    p.legalMoves env0 CoreBB.backend = some l ∧ .normal (sq 9 6) (sq 9 5) false ∈ l := by
  refine ⟨by decide +kernel, ?_⟩
  have h : (Position.new env0 CoreBB.backend unanswered).any (fun p0 =>
      decide (PseudoLegal (view p0) (.normal (sq 9 7) (sq 9 6) false)) &&
      (p0.doMove env0 CoreBB.backend (.normal (sq 9 7) (sq 9 6) false)).any fun p1 =>
        decide (PseudoLegal (view p1) (.normal (sq 1 1) (sq 1 2) false)) &&
        (p1.doMove env0 CoreBB.backend (.normal (sq 1 1) (sq 1 2) false)).any fun p =>
          decide (InCheck p.pieceAt p.sideToMove) && p.inCheck CoreBB.backend == some false &&
          (p.legalMoves env0 CoreBB.backend).any fun l =>
            l.contains (.normal (sq 9 6) (sq 9 5) false)) = true := by
    decide +kernel
  simp only [Option.any_eq_true, Bool.and_eq_true, beq_iff_eq, decide_eq_true_eq,
    List.contains_iff_mem] at h
  obtain ⟨p0, hp0, h1, p1, hp1, h2, p, hp, ⟨h3, h4⟩, l, hl, h5⟩ := h
  exact ⟨p, l, ⟨p0, hp0, .move (.move .start h1 hp1) h2 hp⟩, h3, h4, hl, h5⟩

end

end Yasai.Props

import Verif.Props.Divide
import Verif.Props.MovePanic

/-!
# C62, C63: games from the initial position; when the queries panic
-/

namespace Yasai.Props

open Yasai Spec

/-- C13.  `Dead` says what it should: a piece is dead on a square exactly if it reaches no square from
there, whatever else is on the board. -/
theorem C13_dead_means_stuck (occ : Square → Prop) (k : PieceKind) (c : Color) (t : Square) :
    Dead k c t ↔ ∀ u, ¬ Reaches occ k c t u := by
  have b := t.bounds
  constructor
  · intro h u hr
    have bu := u.bounds
    rcases hr with ⟨d, hd, h1, h2⟩ | ⟨d, hd, n, hn, ⟨h1, h2⟩, _⟩
    · cases k <;> cases c <;> simp only [Dead] at h <;>
        simp only [steps, List.mem_cons, List.not_mem_nil, or_false] at hd
      all_goals first
        | (subst hd; simp only [fwd] at h2; omega)
        | (rcases hd with rfl | rfl <;> simp only [fwd] at h2 <;> omega)
    · cases k <;> cases c <;> simp only [Dead] at h <;>
        simp only [slides, List.mem_cons, List.not_mem_nil, or_false] at hd
      all_goals (subst hd; simp only [fwd] at h2; omega)
  · intro h
    apply Classical.byContradiction
    intro hd
    have step : ∀ d ∈ steps k, ¬ (1 ≤ (t.file : Int) + d.1 ∧ (t.file : Int) + d.1 ≤ 9 ∧
        1 ≤ (t.rank : Int) + fwd c * d.2 ∧ (t.rank : Int) + fwd c * d.2 ≤ 9) := by
      intro d hd hb
      obtain ⟨u, h1, h2⟩ := exists_of_coords hb
      exact h u (.inl ⟨d, hd, h1, h2⟩)
    have slide : ∀ d ∈ slides k, ¬ (1 ≤ (t.file : Int) + d.1 ∧ (t.file : Int) + d.1 ≤ 9 ∧
        1 ≤ (t.rank : Int) + fwd c * d.2 ∧ (t.rank : Int) + fwd c * d.2 ≤ 9) := by
      intro d hd hb
      obtain ⟨u, h1, h2⟩ := exists_of_coords hb
      refine h u (.inr ⟨d, hd, 1, Nat.le_refl 1, ⟨?_, ?_⟩, fun m h1 h2 => by omega⟩)
      · rw [h1]; simp
      · rw [h2]; simp
    cases k <;> cases c <;>
      simp only [Dead, steps, slides, goldSteps, kingSteps, diagonals, orthogonals, List.mem_cons,
        List.not_mem_nil, forall_eq_or_imp, or_false, forall_eq, fwd, false_implies,
        implies_true] at hd step slide <;> omega

/-- C62.  Every position of every game from `Position::default()`: the forty pieces of a set are there,
each side has exactly one king, no file has two pawns of a side, every piece could move on an empty
board, the side that just moved is not in check, `legal_moves` returns at most 593 moves, and the
side to move can be read off the number of moves, the move counter and the lowest bit of the key. -/
theorem C62_games (E : Env) (K : Backend) (hK : K ∈ backends) (ms : List Move) (p : Position)
    (h : Reached E K .startpos ms p) :
    (∀ k, total (view p) k = standardCount k) ∧
    (∀ c, ∃ s, p.pieceAt s = some ⟨.king, c⟩ ∧ ∀ t, p.pieceAt t = some ⟨.king, c⟩ → t = s) ∧
    (∀ c s t, p.pieceAt s = some ⟨.pawn, c⟩ → p.pieceAt t = some ⟨.pawn, c⟩ →
      s.file = t.file → s = t) ∧
    (∀ s k c, p.pieceAt s = some ⟨k, c⟩ → ∃ u, Reaches (fun _ => False) k c s u) ∧
    ¬ InCheck p.pieceAt p.sideToMove.flip ∧
    (∃ l, p.legalMoves E K = some l ∧ l.length ≤ 593) ∧
    (p.sideToMove = .black ↔ ms.length % 2 = 0) ∧
    (p.sideToMove = .black ↔ p.ply.toNat % 2 = 1) ∧
    (∃ x, p.key = some x ∧ (p.sideToMove = .black ↔ x.toNat % 2 = 0)) := by
  have hst := startpos_standard
  have hstd := reached_standard hK hst h
  obtain ⟨p0, h0, hs⟩ := h
  have hr : Reached E K .startpos ms p := ⟨p0, h0, hs⟩
  have hsS : Session E K Shape p0 ms p := hs.mono fun _ _ h => shape_of_legal h
  have hside : p.sideToMove = .black ↔ ms.length % 2 = 0 := by
    have := side_play (hsS.play hK (fun _ _ h => h))
    rwa [new_side (lawful_of_mem hK) h0] at this
  have hply0 : p0.ply = 1#16 := (C35_new_reproduces E K hK _ p0 h0).2.2.2
  refine ⟨fun k => ?_, fun c => ?_, ?_, fun s k c e => ?_, hstd.valid.notInCheck, ?_, hside, ?_, ?_⟩
  · rw [C04_session_conserves E K hK p0 p ms hs k, view_new hK h0]
    revert k
    decide +kernel
  · obtain ⟨s, hk⟩ := hstd.kings c
    exact ⟨s, hk, fun t ht => hstd.valid.oneKing c t s ht hk⟩
  · exact C12_never_doubled E K hK _ (by unfold NoTwoPawns; decide +kernel) ms p hr
  · apply Classical.byContradiction
    intro hn
    exact C13_never_dead E K hK _ (by decide +kernel) ms p hr s k c e
      ((C13_dead_means_stuck _ _ _ _).2 fun u hu => hn ⟨u, hu⟩)
  · obtain ⟨l, hl, hn, _⟩ := C22_legal_moves_total E K hK _ hst ms p hr
    exact ⟨l, hl, hn⟩
  · rw [(C34_ply E K hK p0 p ms hsS).1, hply0, hside]
    simp only [BitVec.toNat_add, BitVec.toNat_ofNat]
    omega
  · obtain ⟨a, b, _, hk, _, _, hpar, _⟩ := C20_key_parity E K hK _ p0 p ms h0 hsS
    exact ⟨_, hk, by rw [hside, hpar]⟩

/-- C63.  On every position that `Position::new` accepts and after every history, `is_check_move`
panics exactly on board moves from an empty square; `in_check`, `key` and `keys` never panic. -/
theorem C63_queries (E : Env) (K : Backend) (hK : K ∈ backends)
    (pp : CorePartialPosition) (ms : List Move) (p : Position) (h : Visited E K pp ms p) :
    (∀ frm to promote, p.isCheckMove K (.normal frm to promote) = none ↔ p.pieceAt frm = none) ∧
    (∀ to pc, p.isCheckMove K (.drop to pc) ≠ none) ∧
    p.inCheck K ≠ none ∧ p.key ≠ none ∧ p.keys ≠ none := by
  have hc := h.callable hK
  obtain ⟨st, hst, _⟩ := hc.state
  refine ⟨fun frm to promote => ⟨fun e => ?_, fun e => ?_⟩, fun to pc e => ?_, ?_, ?_, ?_⟩
  · apply Classical.byContradiction
    intro hne
    obtain ⟨b, hb⟩ := isCheckMove_total hK hc (m := .normal frm to promote) (fun f hf => by
      cases hf; exact hne)
    rw [hb] at e; cases e
  · have e' : p.inner.pieceAt frm = none := e
    simp [Position.isCheckMove, e']
  · obtain ⟨b, hb⟩ := isCheckMove_total hK hc (m := .drop to pc) (fun f hf => by cases hf)
    rw [hb] at e; cases e
  · simp [Position.inCheck, hst]
  · simp [Position.key, hst]
  · simp [Position.keys, hst]

/-! ## Concrete cases -/

section
open Yasai.Examples

/-- A knight is dead on its two last ranks, a silver on none. -/
example : (∀ u, ¬ Reaches (fun _ => True) .knight .black (sq 5 2) u) ∧
    ∃ u, Reaches (fun _ => True) .silver .black (sq 5 1) u := by
  refine ⟨(C13_dead_means_stuck _ _ _ _).1 (by decide), ?_⟩
  apply Classical.byContradiction
  intro h
  exact absurd ((C13_dead_means_stuck _ _ _ _).2 fun u hu => h ⟨u, hu⟩)
    (show ¬ Dead .silver .black (sq 5 1) by decide)

/-- Plays the moves as long as they are listed. -/
def playListed (E : Env) (K : Backend) : List Move → Position → Option Position
  | [], p => some p
  | m :: ms, p => do
    let l ← p.legalMoves E K
    if m ∈ l then playListed E K ms (← p.doMove E K m) else none

theorem playListed_session {E : Env} {K : Backend} {p0 : Position} : ∀ {ms acc : List Move}
    {p p' : Position}, Session E K (Listed E K) p0 acc p → playListed E K ms p = some p' →
    Session E K (Listed E K) p0 (ms.reverse ++ acc) p'
  | [], _, _, _, hs, h => by cases h; exact hs
  | m :: ms, acc, p, p', hs, h => by
    simp only [playListed, Option.bind_eq_bind, Option.bind_eq_some_iff] at h
    obtain ⟨l, hl, h⟩ := h
    split at h
    · rename_i hm
      simp only [Option.bind_eq_some_iff] at h
      obtain ⟨q, hq, h⟩ := h
      rw [List.reverse_cons, List.append_assoc]
      exact playListed_session (.move hs ⟨l, hl, hm⟩ hq) h
    · cases h

/-- A game with an exchange of bishops and a bishop drop. -/
def exchange : List Move :=
  [.normal (sq 7 7) (sq 7 6) false, .normal (sq 3 3) (sq 3 4) false,
   .normal (sq 8 8) (sq 2 2) true, .normal (sq 3 1) (sq 2 2) false,
   .drop (sq 5 5) ⟨.bishop, .black⟩]

/-- C62 covers the game `exchange`, after which White is to move and has a bishop in hand. -/
example : ∃ p, Reached env0 CoreBB.backend .startpos exchange.reverse p ∧
    p.sideToMove = .white ∧ (p.hand .white).count .bishop = some 1 := by
  have h : (Position.default env0 CoreBB.backend).any (fun p0 =>
      (playListed env0 CoreBB.backend exchange p0).any fun p =>
        decide (p.sideToMove = .white) && (p.hand .white).count .bishop == some 1) = true := by
    decide +kernel
  simp only [Option.any_eq_true, Bool.and_eq_true, decide_eq_true_eq, beq_iff_eq] at h
  obtain ⟨p0, h0, p, hp, h1, h2⟩ := h
  have hs := playListed_session .start hp
  rw [List.append_nil] at hs
  exact ⟨p, (C10_listed_session _ _ core_mem _ startpos_standard.valid p0 p h0 _ hs).1, h1, h2⟩

/-- C63 on a position with illegal pieces: `is_check_move` answers for a move no piece can make and
panics on an empty origin. -/
example : ∃ p, Visited env0 CoreBB.backend threeKings [] p ∧
    p.isCheckMove CoreBB.backend (.normal (sq 2 1) (sq 9 9) true) = some false ∧
    p.isCheckMove CoreBB.backend (.normal (sq 2 2) (sq 9 9) true) = none := by
  have h : (Position.new env0 CoreBB.backend threeKings).any (fun p =>
      p.isCheckMove CoreBB.backend (.normal (sq 2 1) (sq 9 9) true) == some false &&
      p.isCheckMove CoreBB.backend (.normal (sq 2 2) (sq 9 9) true) == none) = true := by
    decide +kernel
  simp only [Option.any_eq_true, Bool.and_eq_true, beq_iff_eq] at h
  obtain ⟨p, hp, h1, h2⟩ := h
  exact ⟨p, ⟨p, hp, .start⟩, h1, h2⟩

end

end Yasai.Props

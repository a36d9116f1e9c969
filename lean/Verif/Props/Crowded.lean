import Verif.Props.Ignored
import Verif.Props.Capacity
import Verif.Proofs.PanicAny

/-!
# C68: the move buffer after ignored checks
-/

namespace Yasai.Props

open Yasai Spec

theorem Roamed.material {E : Env} {K : Backend} (hK : K ∈ backends) {pp : CorePartialPosition}
    {ms : List Move} {p : Position} (hm : Material (rootView pp)) (h : Roamed E K pp ms p) :
    Material (view p) := by
  obtain ⟨p0, h0, hs⟩ := h
  have hp := hs.play hK (fun _ _ h => shape_of_pseudoLegal h)
  clear hs
  refine ⟨fun k => ?_, view_hand_zero p⟩
  have : total (view p) k = total (view p0) k := by
    induction hp with
    | start => rfl
    | move _ ha hm ih => rw [C04_move_conserves E K _ _ _ (shape_of_pseudoLegal ha) hm, ih]
  rw [this, view_new hK h0]
  exact hm.1 k

/-- C68.  Whatever pseudo-legal moves were made, with any number of kings and any pieces: if `in_check`
answers true then `legal_moves` returns, with at most 280 moves. -/
theorem C68_recorded_check_returns (E : Env) (K : Backend) (hK : K ∈ backends)
    (pp : CorePartialPosition) (hv : PawnsOk (rootView pp)) (ms : List Move) (p : Position)
    (h : Roamed E K pp ms p) (hc : p.inCheck K = some true) :
    ∃ l, p.legalMoves E K = some l ∧ l.length ≤ 280 := by
  have L := lawful_of_mem hK
  have hr := (h.visited.consistent hK).1
  have hv' := h.pawnsOk hK hv
  rw [view_eq] at hv'
  obtain ⟨st, hst, _, _, hcs⟩ := h.caches hK
  simp only [Position.inCheck, hst, Option.bind_eq_bind, Option.bind_some, Option.pure_def,
    Option.some.injEq, Bool.not_eq_true'] at hc
  exact legalMoves_of_length E L hr hv' hst hcs (by decide)
    (pseudoList_length L hr hv' hcs (by rw [hc]; decide))

theorem relRank_one {c : Color} {t : Square} (h : ¬ Dead .pawn c t) : relRank c t ≠ 1 := by
  intro e
  apply h
  revert e
  cases c <;> simp [relRank, Dead] <;> omega

/-- C68.  At most a standard set of pieces: `legal_moves` returns, with at most 593 moves, if the
opponent's king is on the board and is not attacked or does not stand on the mover's last rank, or if
a kind is missing in the mover's hand.  The mover's own king may have been left attacked. -/
theorem C68_returns (E : Env) (K : Backend) (hK : K ∈ backends)
    (pp : CorePartialPosition) (hv : Tame (rootView pp)) (hm : Material (rootView pp))
    (ms : List Move) (p : Position) (h : Roamed E K pp ms p)
    (hk : (∃ t, p.pieceAt t = some ⟨.king, p.sideToMove.flip⟩ ∧
        (¬ InCheck p.pieceAt p.sideToMove.flip ∨ ¬ Dead .pawn p.sideToMove t)) ∨
      ∃ k, handKind k = true ∧ (view p).hand p.sideToMove k = 0) :
    ∃ l, p.legalMoves E K = some l ∧ l.length ≤ 593 := by
  have L := lawful_of_mem hK
  have hr := (h.visited.consistent hK).1
  have ht := Tame.roamed hK hv h
  have hmat := h.material hK hm
  obtain ⟨st, hst, _, _, hcs⟩ := h.caches hK
  obtain ⟨_, hnd, hps⟩ := legalMoves_sound E L hr ⟨ht.homePawn, ht.noDeadPawn⟩ hst hcs
  refine legalMoves_of_length E L hr ⟨ht.homePawn, ht.noDeadPawn⟩ hst hcs (Nat.le_refl _) ?_
  rw [view_eq] at hmat
  refine length_le_593_tame ht hmat ?_ hnd hps
  rcases hk with ⟨t, h1, h2⟩ | ⟨k, h1, h2⟩
  · exact .inl ⟨t, h1, h2.imp_right relRank_one⟩
  · right
    have : inHand p.inner.spec k = false := by
      rw [← view_eq]
      unfold inHand
      have e : (view p).hand (view p).side k = 0 := h2
      rw [e]
      rfl
    revert this h1
    cases k <;> simp +decide [fullHand] <;> intro e <;> simp [e]

/-- C68.  Places for 595 moves would do whenever the opponent's king is on the board, and 599 in any
case. -/
theorem C68_595_would_do (P : Pos) (hv : Tame P) (hm : Material P) (l : List Move) (hn : l.Nodup)
    (hl : ∀ m ∈ l, PseudoLegal P m) :
    l.length ≤ 599 ∧ (HasKing P P.side.flip → l.length ≤ 595) :=
  ⟨length_le_599 hv hm hn hl, fun hk => length_le_595 hv hm hk hn hl⟩

/-- C68.  Exactly when `legal_moves` panics, if the opponent's king is not attacked: no check is
recorded and there are 594 pseudo-legal moves that are not mating pawn drops.  In general the first
implication holds without the condition on pawn drops. -/
theorem C68_panics_iff (E : Env) (K : Backend) (hK : K ∈ backends)
    (pp : CorePartialPosition) (hv : Tame (rootView pp)) (ms : List Move) (p : Position)
    (h : Roamed E K pp ms p) :
    (p.legalMoves E K = none → p.inCheck K = some false ∧
      ∃ l : List Move, l.Nodup ∧ l.length = 594 ∧ ∀ m ∈ l, PseudoLegal (view p) m ∧
        (¬ InCheck p.pieceAt p.sideToMove.flip → IsPawnDrop m → ¬ Mated (apply (view p) m))) ∧
    (p.inCheck K = some false → (∃ l : List Move, l.Nodup ∧ l.length = 594 ∧ ∀ m ∈ l,
        PseudoLegal (view p) m ∧ (IsPawnDrop m → ¬ Mated (apply (view p) m))) →
      p.legalMoves E K = none) := by
  have L := lawful_of_mem hK
  have hr := (h.visited.consistent hK).1
  have ht := Tame.roamed hK hv h
  have ht' : Tame (view p) := by rw [view_eq]; exact ht
  obtain ⟨st, hst, _, hpin, hcs⟩ := h.caches hK
  have hic : p.inCheck K = some (!K.isEmpty st.attackInfo.checkers) := by
    simp only [Position.inCheck, hst, Option.bind_eq_bind, Option.bind_some, Option.pure_def]
  obtain ⟨h1, hnd, hps⟩ := legalMoves_sound E L hr ⟨ht.homePawn, ht.noDeadPawn⟩ hst hcs
  have hmax : maxLegalMoves = 593 := rfl
  have hm : K.isEmpty st.attackInfo.checkers = true → ∀ m, m ∈ pseudoList E K p.inner st ↔
      PseudoLegal (view p) m ∧ (IsPawnDrop m → ¬ Refused (view p) m) := by
    intro hc m
    unfold pseudoList
    rw [if_pos hc, allList_fresh hpin, mem_allList L hr ht rfl, view_eq]
  rw [h1, Option.map_eq_none_iff, appendAll_nil_none, hic]
  constructor
  · intro hlt
    have hc : K.isEmpty st.attackInfo.checkers = true := by
      apply Classical.byContradiction
      intro hn
      have := pseudoList_length (E := E) L hr ⟨ht.homePawn, ht.noDeadPawn⟩ hcs hn
      omega
    refine ⟨by rw [hc]; rfl, (pseudoList E K p.inner st).take 594,
      hnd.sublist (List.take_sublist ..), by rw [List.length_take]; omega, fun m hmm => ?_⟩
    obtain ⟨a, b⟩ := (hm hc m).1 (List.mem_of_mem_take hmm)
    refine ⟨a, fun hnc hpd hmt => ?_⟩
    cases m with
    | normal _ _ _ => exact hpd
    | drop to pc =>
      exact b hpd ((refused_iff ⟨ht'.oneKing, hnc, ht'.homePawn, ht'.noDeadPawn⟩ a hpd).2 hmt)
  · rintro hc ⟨l, hn, hlen, hl⟩
    simp only [Option.some.injEq, Bool.not_eq_false'] at hc
    have := length_le_of_nodup_subset hn fun m hmm => (hm hc m).2 ⟨(hl m hmm).1, fun hpd href => by
      cases m with
      | normal _ _ _ => exact hpd
      | drop to pc => exact (hl _ hmm).2 hpd (mated_of_refused ht' (hl _ hmm).1 hpd href)⟩
    omega

section
open Examples

/-- `maxMoves` with White to move. -/
def crowded : CorePartialPosition := { maxMoves with side := .white }

theorem crowded_standard : Standard (rootView crowded) where
  valid := by decide +kernel
  material := by
    refine ⟨fun k => ?_, fun c k hk => ?_⟩
    · cases k <;> decide +kernel
    · simp only [rootView, Hand.count, ← handKind_eq, hk, Bool.false_eq_true, if_false, Option.getD_none]
  kings := by
    intro c
    cases c
    · exact ⟨sq 7 2, by decide +kernel⟩
    · exact ⟨sq 1 2, by decide +kernel⟩

/-- C68.  The condition of `C68_returns` on the opponent's king is needed: a legal position with a
standard set of pieces, one pseudo-legal move (White's king steps onto the line of the rook), both
kings on the board: `legal_moves` panics. -/
theorem C68_panics_with_both_kings : ∃ p, Standard (rootView crowded) ∧
    Roamed env0 CoreBB.backend crowded [.normal (sq 1 2) (sq 1 1) false] p ∧
    Tame (view p) ∧ Material (view p) ∧ HasKing (view p) .black ∧ HasKing (view p) .white ∧
    p.legalMoves env0 CoreBB.backend = none := by
  have h : (Position.new env0 CoreBB.backend crowded).any (fun p0 =>
      decide (PseudoLegal (view p0) (.normal (sq 1 2) (sq 1 1) false)) &&
      (p0.doMove env0 CoreBB.backend (.normal (sq 1 2) (sq 1 1) false)).any fun p =>
        decide ((view p).board (sq 7 2) = some ⟨.king, .black⟩) &&
        decide ((view p).board (sq 1 1) = some ⟨.king, .white⟩) &&
        (p.legalMoves env0 CoreBB.backend).isNone) = true := by
    decide +kernel
  simp only [Option.any_eq_true, Bool.and_eq_true, decide_eq_true_eq, Option.isNone_iff_eq_none] at h
  obtain ⟨p0, hp0, h1, p, hp, ⟨h2, h3⟩, h4⟩ := h
  have hr : Roamed env0 CoreBB.backend crowded [.normal (sq 1 2) (sq 1 1) false] p :=
    ⟨p0, hp0, .move .start h1 hp⟩
  have ht : Tame (rootView crowded) := crowded_standard.valid.loose.tame
  exact ⟨p, crowded_standard, hr, by rw [view_eq]; exact Tame.roamed core_mem ht hr,
    hr.material core_mem crowded_standard.material, ⟨_, h2⟩, ⟨_, h3⟩, h4⟩

/-- C68.  595 is attained: the pseudo-legal moves of that position. -/
theorem C68_595_attained : ∃ (P : Pos) (l : List Move), Tame P ∧ Material P ∧ HasKing P P.side.flip ∧
    l.Nodup ∧ (∀ m ∈ l, PseudoLegal P m) ∧ l.length = 595 := by
  obtain ⟨p, _, hr, ht, hm, hb, hw, _⟩ := C68_panics_with_both_kings
  have L := lawful_of_mem core_mem
  obtain ⟨st, hst, _, _, hcs⟩ := hr.caches core_mem
  have ht' : Tame p.inner.spec := by rw [← view_eq]; exact ht
  obtain ⟨_, hnd, hps⟩ := legalMoves_sound env0 L (hr.visited.consistent core_mem).1
    ⟨ht'.homePawn, ht'.noDeadPawn⟩ hst hcs
  refine ⟨view p, pseudoList env0 CoreBB.backend p.inner st, ht, hm, ?_, hnd,
    by rw [view_eq]; exact hps, ?_⟩
  · cases e : (view p).side with
    | black => exact hw
    | white => exact hb
  · have h : (Position.new env0 CoreBB.backend crowded).any (fun p0 =>
        (p0.doMove env0 CoreBB.backend (.normal (sq 1 2) (sq 1 1) false)).any fun p =>
          p.state.any fun st => (pseudoList env0 CoreBB.backend p.inner st).length == 595) = true := by
      decide +kernel
    simp only [Option.any_eq_true, beq_iff_eq] at h
    obtain ⟨p0, hp0, p', hp', st', hst', h⟩ := h
    obtain ⟨q0, hq0, hs⟩ := hr
    have hpl := hs.play core_mem (fun _ _ h => shape_of_pseudoLegal h)
    cases hpl with
    | move hpl ha hm =>
      cases hpl
      rw [hp0] at hq0
      cases hq0
      rw [hp'] at hm
      cases hm
      rw [hst'] at hst
      cases hst
      exact h

/-- The hypotheses of `C68_returns` hold after a check was ignored: Black's king is attacked and White's
does not stand on Black's last rank. -/
example : ∃ p l, Roamed env0 CoreBB.backend unanswered
      [.normal (sq 1 1) (sq 1 2) false, .normal (sq 9 7) (sq 9 6) false] p ∧
    InCheck p.pieceAt p.sideToMove ∧ p.legalMoves env0 CoreBB.backend = some l := by
  have h : (Position.new env0 CoreBB.backend unanswered).any (fun p0 =>
      decide (PseudoLegal (view p0) (.normal (sq 9 7) (sq 9 6) false)) &&
      (p0.doMove env0 CoreBB.backend (.normal (sq 9 7) (sq 9 6) false)).any fun p1 =>
        decide (PseudoLegal (view p1) (.normal (sq 1 1) (sq 1 2) false)) &&
        (p1.doMove env0 CoreBB.backend (.normal (sq 1 1) (sq 1 2) false)).any fun p =>
          decide (InCheck p.pieceAt p.sideToMove) &&
          decide (p.pieceAt (sq 1 2) = some ⟨.king, p.sideToMove.flip⟩) &&
          decide (¬ Dead .pawn p.sideToMove (sq 1 2))) = true := by
    decide +kernel
  simp only [Option.any_eq_true, Bool.and_eq_true, decide_eq_true_eq] at h
  obtain ⟨p0, hp0, h1, p1, hp1, h2, p, hp, ⟨h3, h4⟩, h5⟩ := h
  have hr : Roamed env0 CoreBB.backend unanswered
      [.normal (sq 1 1) (sq 1 2) false, .normal (sq 9 7) (sq 9 6) false] p :=
    ⟨p0, hp0, .move (.move .start h1 hp1) h2 hp⟩
  have hm : Material (rootView unanswered) := by
    refine ⟨fun k => ?_, fun c k hk => ?_⟩
    · cases k <;> decide +kernel
    · simp only [rootView, Hand.count, ← handKind_eq, hk, Bool.false_eq_true, if_false, Option.getD_none]
  obtain ⟨l, hl, _⟩ := C68_returns env0 _ core_mem unanswered (by decide +kernel) hm _ p hr
    (.inl ⟨_, h4, .inr h5⟩)
  exact ⟨p, l, hr, h3, hl⟩

/-- `C68_recorded_check_returns` with the uncovered check of `attacking`. -/
example : ∃ p l, Roamed env0 CoreBB.backend attacking [.normal (sq 7 7) (sq 7 6) false] p ∧
    p.inCheck CoreBB.backend = some true ∧ p.legalMoves env0 CoreBB.backend = some l ∧
    l.length ≤ 280 := by
  have h : (Position.new env0 CoreBB.backend attacking).any (fun p0 =>
      decide (PseudoLegal (view p0) (.normal (sq 7 7) (sq 7 6) false)) &&
      (p0.doMove env0 CoreBB.backend (.normal (sq 7 7) (sq 7 6) false)).any fun p =>
        p.inCheck CoreBB.backend == some true) = true := by
    decide +kernel
  simp only [Option.any_eq_true, Bool.and_eq_true, beq_iff_eq, decide_eq_true_eq] at h
  obtain ⟨p0, hp0, h1, p, hp, hc⟩ := h
  have hr : Roamed env0 CoreBB.backend attacking [.normal (sq 7 7) (sq 7 6) false] p :=
    ⟨p0, hp0, .move .start h1 hp⟩
  have hv : Tame (rootView attacking) := by decide +kernel
  obtain ⟨l, hl, hlen⟩ := C68_recorded_check_returns env0 _ core_mem attacking
    ⟨hv.homePawn, hv.noDeadPawn⟩ _ p hr hc
  exact ⟨p, l, hr, hc, hl, hlen⟩

end

end Yasai.Props

import Verif.Props.Contracts
import Verif.Proofs.AgreeAny

/-!
# C51: the builds on positions that no legal game reaches

`Position::new` accepts positions with several kings or none, with the opponent in check, with dead
pieces, doubled pawns and too many pieces.  Here `pp` is any of them, and `do_move` gets any move that
changes the square or drops onto an empty one.
-/

namespace Yasai.Props

open Yasai Spec

/-- A history from `Position::new(pp)` with moves of the right shape, legal or not. -/
def Visited (E : Env) (K : Backend) (pp : CorePartialPosition) (ms : List Move) (p : Position) :
    Prop :=
  ∃ p0, Position.new E K pp = some p0 ∧ Session E K Shape p0 ms p

theorem Reached.visited {E : Env} {K : Backend} {pp : CorePartialPosition} {ms : List Move}
    {p : Position} (h : Reached E K pp ms p) : Visited E K pp ms p := by
  obtain ⟨p0, h0, hs⟩ := h
  exact ⟨p0, h0, hs.mono fun _ _ hl => shape_of_legal hl⟩

theorem Visited.consistent {E : Env} {K : Backend} (hK : K ∈ backends) {pp : CorePartialPosition}
    {ms : List Move} {p : Position} (h : Visited E K pp ms p) : Consistent p := by
  obtain ⟨p0, h0, hs⟩ := h
  have hp := hs.play hK (fun _ _ h => h)
  clear hs
  induction hp with
  | start => exact consistent_new (lawful_of_mem hK) h0
  | move _ ha hm ih => exact consistent_doMove (lawful_of_mem hK) ih.1 (shape_good ha) hm

theorem Visited.agree {E : Env} {K K' : Backend} (hK : K ∈ backends) (hK' : K' ∈ backends)
    {pp : CorePartialPosition} {ms : List Move} {p : Position} (h : Visited E K pp ms p) :
    Visited E K' pp ms p := by
  have L := lawful_of_mem hK
  have L' := lawful_of_mem hK'
  obtain ⟨p0, h0, hs⟩ := h
  refine ⟨p0, by rw [← new_agree L L']; exact h0, ?_⟩
  have hp := hs.play hK (fun _ _ h => h)
  clear hs
  apply Play.session
  induction hp with
  | start => exact .start
  | move hp ha hm ih =>
    refine .move ih ha ?_
    rw [← doMove_any L L' E (Visited.consistent hK ⟨p0, h0, hp.session⟩).1]
    exact hm

/-- No pawn of the side to move is on its last rank. -/
def NoDeadPawn (p : Position) : Prop :=
  ∀ s, p.pieceAt s = some ⟨.pawn, p.sideToMove⟩ → s.rank ≠ (match p.sideToMove with
    | .black => 1
    | .white => 9)

/-- A pawn of the side to move on rank 9 is the only one of that side on its file. -/
def BottomPawnAlone (p : Position) : Prop :=
  ∀ s t, p.pieceAt s = some ⟨.pawn, p.sideToMove⟩ → p.pieceAt t = some ⟨.pawn, p.sideToMove⟩ →
    s.file = t.file → s.rank = 9 → s = t

/-- C51.  On every position that `Position::new` accepts and after every history, any two builds
agree on `in_check`, `is_check_move`, `do_move` and `undo_move`; on `legal_moves` they agree when
no pawn of the side to move is dead and none on rank 9 shares its file. -/
theorem C51_builds_agree (E : Env) (K K' : Backend) (hK : K ∈ backends) (hK' : K' ∈ backends)
    (pp : CorePartialPosition) :
    Position.new E K pp = Position.new E K' pp ∧
    ∀ ms p, (Visited E K pp ms p ↔ Visited E K' pp ms p) ∧
      (Visited E K pp ms p →
        p.inCheck K = p.inCheck K' ∧
        (∀ m, p.isCheckMove K m = p.isCheckMove K' m) ∧
        (∀ m, p.doMove E K m = p.doMove E K' m) ∧
        (∀ m, p.undoMove E K m = p.undoMove E K' m) ∧
        (NoDeadPawn p → BottomPawnAlone p → p.legalMoves E K = p.legalMoves E K')) := by
  have L := lawful_of_mem hK
  have L' := lawful_of_mem hK'
  refine ⟨new_agree L L' E pp, fun ms p => ⟨⟨Visited.agree hK hK', Visited.agree hK' hK⟩,
    fun h => ?_⟩⟩
  have hc := h.consistent hK
  refine ⟨inCheck_any L L' p, isCheckMove_any L L' hc.1,
    doMove_any L L' E hc.1, undoMove_agree L L' E p, fun h1 h2 => ?_⟩
  refine legalMoves_any L L' hc.1 hc.2 (fuAgree_of_pawns L L' hc.1 fun s hs hd => ?_)
    (vacantAgree_of_pawns L L' E hc.1 h2)
  have hr := h1 s hs
  change s.rank ≠ (match p.inner.side with | .black => 1 | .white => 9) at hr
  cases hq : p.inner.side <;> rw [hq] at hd hr <;> simp [Dead] at hd <;> exact hr hd

/-- The SIMD builds shift pawns in the same way, and no pawn comes from outside the board. -/
theorem simd_fuAgree (i j : Fin 4) (hi : i ≠ 0) (hj : j ≠ 0) (J J' : Junk) {q : PartialPosition}
    (h : OkBoards q) : FuAgree (buildAt i J) (buildAt j J') q := by
  have L := lawful_of_mem (buildAt_mem i J)
  have L' := lawful_of_mem (buildAt_mem j J')
  have shr : ∀ (k : Fin 4) (J : Junk), k ≠ 0 → (buildAt k J).shr = fun b => srl64 b 1 := by
    intro k J hk
    match k, hk with
    | 1, _ | 2, _ | 3, _ => rfl
  have shl : ∀ (k : Fin 4) (J : Junk), k ≠ 0 → (buildAt k J).shl = fun b => sll64 b 1 := by
    intro k J hk
    match k, hk with
    | 1, _ | 2, _ | 3, _ => rfl
  intro target ht
  unfold fuTo PartialPosition.pieceBitboard
  rw [shr i J hi, shr j J' hj, shl i J hi, shl j J' hj]
  simp only [L.and, L'.and]
  refine ⟨trivial, fun to hto => ?_⟩
  rw [mem_and, Bool.and_eq_true] at hto
  have hto := hto.1
  have hok : ∀ c, Ok (q.pieceBB .pawn &&& q.playerBB c) := fun c => ok_and_left _ (h.okPiece _)
  cases hq : q.side <;> rw [hq] at hto <;> dsimp only at hto ⊢
  · intro e
    have : to = (80 : Fin 81) := Fin.ext e
    rw [this, mem_srl64_last (hok _)] at hto
    cases hto
  · intro e
    have : to = (0 : Fin 81) := Fin.ext e
    rw [this, mem_sll64_first] at hto
    cases hto

theorem simd_vacantAgree (E : Env) (i j : Fin 4) (hi : i ≠ 0) (hj : j ≠ 0) (J J' : Junk)
    (q : PartialPosition) : VacantAgree E (buildAt i J) (buildAt j J') q := by
  have vac : ∀ (k : Fin 4) (J : Junk), k ≠ 0 →
      (buildAt k J).vacantFiles = fun _ b => some (simdVacantFiles b) := by
    intro k J hk
    match k, hk with
    | 1, _ | 2, _ | 3, _ => rfl
  unfold VacantAgree
  rw [vac i J hi, vac j J' hj]

/-- In the portable build no pawn comes from outside the board. -/
theorem portable_fuAgree (J J' : Junk) (q : PartialPosition) :
    FuAgree (buildAt 0 J) (buildAt 0 J') q := by
  have L' := lawful_of_mem (buildAt_mem 0 J')
  intro target ht
  refine ⟨rfl, fun to hto => ?_⟩
  rw [L'.and, mem_and, Bool.and_eq_true] at hto
  have hto := hto.1
  unfold fuTo at hto
  cases hq : q.side <;> rw [hq] at hto <;> dsimp only at hto ⊢
  · change mem (CoreBB.shiftUp _ 1) to = true at hto
    rw [CoreBB.shiftUp, mem_ofPred] at hto
    intro e
    rw [dif_neg (by omega)] at hto
    cases hto
  · change mem (CoreBB.shiftDown _ 1) to = true at hto
    rw [CoreBB.shiftDown, mem_ofPred] at hto
    intro e
    rw [dif_neg (by omega)] at hto
    cases hto

/-- C51.  The x86_64, aarch64 and wasm32 builds (`i`, `j` in 1, 2, 3) list the same moves on every
accepted position, whatever happens outside the contracts of `unsafe` functions: these builds never
leave them. -/
theorem C51_simd_agree (E : Env) (i j : Fin 4) (hi : i ≠ 0) (hj : j ≠ 0) (J J' : Junk)
    (pp : CorePartialPosition) (ms : List Move) (p : Position)
    (h : Visited E (buildAt i J) pp ms p) :
    p.legalMoves E (buildAt i J) = p.legalMoves E (buildAt j J') := by
  have hc := h.consistent (buildAt_mem i J)
  exact legalMoves_any (lawful_of_mem (buildAt_mem i J)) (lawful_of_mem (buildAt_mem j J')) hc.1 hc.2
    (simd_fuAgree i j hi hj J J' hc.1) (simd_vacantAgree E i j hi hj J J' _)

/-- C51.  The portable build stays within the contracts on every accepted position where no pawn of
the side to move on rank 9 shares its file; `C41_unsound_on_doubled_pawns` shows that this is
needed. -/
theorem C51_portable_in_contract (E : Env) (J J' : Junk) (pp : CorePartialPosition)
    (ms : List Move) (p : Position) (h : Visited E (buildAt 0 J) pp ms p)
    (hb : BottomPawnAlone p) :
    p.legalMoves E (buildAt 0 J) = p.legalMoves E (buildAt 0 J') := by
  have L := lawful_of_mem (buildAt_mem 0 J)
  have L' := lawful_of_mem (buildAt_mem 0 J')
  have hc := h.consistent (buildAt_mem 0 J)
  exact legalMoves_any L L' hc.1 hc.2 (portable_fuAgree J J' _) (vacantAgree_of_pawns L L' E hc.1 hb)

/-! ## Concrete cases -/

section
open Yasai.Examples

/-- `C51_simd_agree` covers `deadPawn` and `doubled`, on which C24 says nothing: both are accepted. -/
example : (Position.new env0 (buildAt 2 otherJunk) deadPawn).isSome = true ∧
    (Position.new env0 (buildAt 3 otherJunk) doubled).isSome = true := by
  decide +kernel

/-- Three black kings, no white one, a dead black knight and two black pawns on one file: not a shogi
position, but covered by `C51_builds_agree` with both conditions on pawns. -/
def threeKings : CorePartialPosition where
  side := .black
  ply := 1#16
  hands := fun c => match c with
    | .black => handOf [(.pawn,2)]
    | .white => handOf []
  board := boardOf [(5,9,.king,.black),(4,9,.king,.black),(1,1,.king,.black),(7,7,.pawn,.black),
    (7,5,.pawn,.black),(2,1,.knight,.black),(5,5,.rook,.white)]

example : ∃ p l, Visited env0 CoreBB.backend threeKings [] p ∧ NoDeadPawn p ∧ BottomPawnAlone p ∧
    ¬ Valid (view p) ∧ p.legalMoves env0 CoreBB.backend = some l ∧ 5 < l.length := by
  have h : (Position.new env0 CoreBB.backend threeKings).any (fun p =>
      p.sideToMove == .black &&
      Square.all.all (fun s => p.pieceAt s != some ⟨.pawn, .black⟩ || (s.rank != 1 && s.rank != 9))
      && p.pieceAt (sq 5 9) == some ⟨.king, .black⟩ && p.pieceAt (sq 4 9) == some ⟨.king, .black⟩
      && (p.legalMoves env0 CoreBB.backend).any fun l => decide (5 < l.length)) = true := by
    decide +kernel
  simp only [Option.any_eq_true, Bool.and_eq_true, List.all_eq_true, beq_iff_eq,
    decide_eq_true_eq] at h
  obtain ⟨p, hp, ⟨⟨⟨hside, hp1⟩, hk1⟩, hk2⟩, l, hl, hlen⟩ := h
  have hp2 : ∀ s, p.pieceAt s = some ⟨.pawn, .black⟩ → s.rank ≠ 1 ∧ s.rank ≠ 9 := by
    intro s hs
    have := hp1 s (by simp [Square.all])
    rw [hs] at this
    simpa using this
  refine ⟨p, l, ⟨p, hp, .start⟩, ?_, ?_, ?_, hl, hlen⟩
  · intro s hs
    rw [hside] at hs ⊢
    exact (hp2 s hs).1
  · intro s t hs _ _ h9
    rw [hside] at hs
    exact absurd h9 (hp2 s hs).2
  · intro hv
    have := hv.oneKing .black (sq 5 9) (sq 4 9) hk1 hk2
    exact absurd this (by decide)

end

end Yasai.Props

import Verif.Proofs.CheckedPure
import Verif.Props.Wild

/-!
# C78: no call outside a contract is made

C41, C42 and C60 say that nothing depends on what a call outside a contract would give.  Here the
calls themselves are watched: in the transcription of `Verif/Model/Checked.lean` the first call of
`Square::from_u8_unchecked`, `Bitboard::from_u128_unchecked` or a table read outside its contract ends
the run as `broken`, also when its result would not have mattered.  (A table read outside the bounds
would panic in Rust; it counts as broken, so these panics are excluded too.)
-/

namespace Yasai.Props

open Yasai Spec

/-- The checked operations of the `i`-th build (portable, x86_64, aarch64, wasm32). -/
def checkedAt (i : Fin 4) : Checked :=
  [CoreBB.checked, X86.checked, Aarch64.checked, Wasm32.checked][i.val]'(by simp)

/-- Where `vacant_files` of the `i`-th build is within its contract. -/
def VacantIn (i : Fin 4) (b : BB) : Prop := i = 0 → LoneBottom b

theorem checkedAt_tracks (i : Fin 4) (J : Junk) : Tracks (buildAt i J) (checkedAt i) (VacantIn i) := by
  have up : ∀ {K C}, Tracks K C (fun _ => True) → Tracks K C (VacantIn i) := fun h =>
    { h with vacantFiles := fun oc b => (h.vacantFiles oc b).mono fun _ => trivial }
  match i with
  | 0 =>
    have h := core_tracks J
    exact { h with vacantFiles := fun oc b => (h.vacantFiles oc b).mono fun hb => hb rfl }
  | 1 => exact up (x86_tracks J)
  | 2 => exact up (aarch64_tracks J)
  | 3 => exact up (wasm32_tracks J)

theorem fuFrom_at (i : Fin 4) (J : Junk) {q : PartialPosition} (h : OkBoards q) :
    FuFrom (buildAt i J) q := by
  intro target ht to hto
  by_cases hi : i = 0
  · subst hi
    exact (portable_fuAgree J J q target ht).2 to hto
  · exact (simd_fuAgree i i hi hi J J h target ht).2 to hto

/-- C78, what the watch looks for: `from_u8_unchecked` wants 1 to 81, `from_u128_unchecked` wants only
bits of squares (the lowest 63 and the 18 from 64 on), a table wants an index below its length. -/
theorem C78_contracts (n len : Nat) (x : BB) (table : Nat → BB) :
    (fromU8UncheckedC n = .broken ↔ n = 0 ∨ 81 < n) ∧
    (fromU128UncheckedC x = .broken ↔ ∃ i, (i = 63 ∨ 82 ≤ i) ∧ x.getLsbD i = true) ∧
    (readTableC len table n = .broken ↔ len ≤ n) := by
  refine ⟨?_, ?_, ?_⟩
  · unfold fromU8UncheckedC; split <;> simp <;> omega
  · have hbit : ∀ i, allBits.getLsbD i = true ↔ i < 82 ∧ i ≠ 63 := by
      intro i
      by_cases hi : i < 128
      · exact (by decide +kernel : ∀ i : Fin 128, allBits.getLsbD i.val = true ↔ i.val < 82 ∧ i.val ≠ 63)
          ⟨i, hi⟩
      · rw [BitVec.getLsbD_of_ge _ _ (by omega)]; simp; omega
    unfold fromU128UncheckedC
    split
    · next h =>
      refine ⟨fun h => (nomatch h), fun ⟨i, hi, hx⟩ => ?_⟩
      have hlt := BitVec.lt_of_getLsbD hx
      have hz : (x &&& ~~~allBits).getLsbD i = false := by rw [h]; simp
      rw [BitVec.getLsbD_and, hx, BitVec.getLsbD_not] at hz
      have : allBits.getLsbD i = true := by simpa [hlt] using hz
      have := (hbit i).1 this
      omega
    · next h =>
      refine ⟨fun _ => ?_, fun _ => rfl⟩
      apply Classical.byContradiction
      intro hn
      apply h
      apply BitVec.eq_of_getLsbD_eq
      intro i hlt
      rw [BitVec.getLsbD_and, BitVec.getLsbD_not]
      cases hx : x.getLsbD i
      · simp
      · have hnot : ¬ (i = 63 ∨ 82 ≤ i) := fun hi => hn ⟨i, hi, hx⟩
        have := (hbit i).2 (by omega)
        simp [this]
  · unfold readTableC; split <;> simp <;> omega

/-- C78, the constants of the portable build: the entries of `MASKED_BBS` and `VACANT_MASK` are made
within the contract. -/
theorem C78_constants :
    (∀ i < 83, fromU128UncheckedC (CoreBB.maskedBBs i) = .ok (CoreBB.maskedBBs i)) ∧
    fromU128UncheckedC CoreBB.vacantMask = .ok CoreBB.vacantMask := by
  refine ⟨fun i _ => ?_, by decide +kernel⟩
  have h : CoreBB.maskedBBs i &&& ~~~allBits = 0#128 := by
    unfold CoreBB.maskedBBs
    rw [BitVec.and_comm allBits, BitVec.and_assoc]
    simp
  simp [fromU128UncheckedC, h]

/-- C78.  The checked transcription is the model with the calls watched: in every position
whatsoever, and whatever a call outside a contract would give, it is broken or ends as the model
says. -/
theorem C78_checked_run (E : Env) (i : Fin 4) (J : Junk) (pp : CorePartialPosition) (p : Position)
    (m : Move) :
    (Position.newC (buildAt i J) (checkedAt i) E pp = .broken ∨
      Position.newC (buildAt i J) (checkedAt i) E pp = Watched.lift (Position.new E (buildAt i J) pp)) ∧
    (p.isCheckMoveC (buildAt i J) (checkedAt i) m = .broken ∨
      p.isCheckMoveC (buildAt i J) (checkedAt i) m = Watched.lift (p.isCheckMove (buildAt i J) m)) ∧
    (p.doMoveC (buildAt i J) (checkedAt i) E m = .broken ∨
      p.doMoveC (buildAt i J) (checkedAt i) E m = Watched.lift (p.doMove E (buildAt i J) m)) ∧
    (p.legalMovesC (buildAt i J) (checkedAt i) E = .broken ∨
      p.legalMovesC (buildAt i J) (checkedAt i) E = Watched.lift (p.legalMoves E (buildAt i J))) := by
  have L := lawful_of_mem (buildAt_mem i J)
  have T := checkedAt_tracks i J
  have weak : ∀ {α : Type} {r : Watched α} {o : Option α}, Sim False r o → r = .broken ∨ r = Watched.lift o :=
    fun h => h.symm.imp_left fun h => h.1
  exact ⟨weak (new_sim L T E pp), weak (isCheckMove_sim L T False.elim m),
    weak (doMove_sim L T E False.elim m),
    weak (legalMoves_sim L T E False.elim False.elim False.elim False.elim)⟩

/-- C78.  Nothing is left unwatched: in every position whatsoever, also with bits outside the squares
in its bitboards, the checked run never uses what a call outside a contract would give.  (`checkedAt`
does not even know it.) -/
theorem C78_all_watched (E : Env) (i : Fin 4) (J J' : Junk) (pp : CorePartialPosition) (p : Position)
    (m : Move) :
    Position.newC (buildAt i J) (checkedAt i) E pp = Position.newC (buildAt i J') (checkedAt i) E pp ∧
    p.isCheckMoveC (buildAt i J) (checkedAt i) m = p.isCheckMoveC (buildAt i J') (checkedAt i) m ∧
    p.doMoveC (buildAt i J) (checkedAt i) E m = p.doMoveC (buildAt i J') (checkedAt i) E m ∧
    p.legalMovesC (buildAt i J) (checkedAt i) E = p.legalMovesC (buildAt i J') (checkedAt i) E := by
  have h : (buildAt i J).strip = (buildAt i J').strip := by
    match i with
    | 0 => rfl
    | 1 => rfl
    | 2 => rfl
    | 3 => rfl
  rw [← newC_strip, ← isCheckMoveC_strip, ← doMoveC_strip, ← legalMovesC_strip, h, newC_strip,
    isCheckMoveC_strip, doMoveC_strip, legalMovesC_strip]
  exact ⟨rfl, rfl, rfl, rfl⟩

/-- C78.  Whatever calls a caller makes, also with positions and moves that make no sense and after
panics that were caught, `Position::new`, `is_check_move` and `do_move` of every build stay within the
contracts.  (`undo_move` and the other public functions make no such call at all.) -/
theorem C78_any_calls (E : Env) (i : Fin 4) (J : Junk) (pp : CorePartialPosition) :
    Position.newC (buildAt i J) (checkedAt i) E pp = Watched.lift (Position.new E (buildAt i J) pp) ∧
    ∀ p, Anyhow E (buildAt i J) pp p → ∀ m,
      p.isCheckMoveC (buildAt i J) (checkedAt i) m = Watched.lift (p.isCheckMove (buildAt i J) m) ∧
      p.doMoveC (buildAt i J) (checkedAt i) E m = Watched.lift (p.doMove E (buildAt i J) m) := by
  have L := lawful_of_mem (buildAt_mem i J)
  have T := checkedAt_tracks i J
  have strong : ∀ {α : Type} {r : Watched α} {o : Option α}, Sim True r o → r = Watched.lift o :=
    fun h => h.resolve_right fun h => h.2 trivial
  refine ⟨strong (new_sim L T E pp), fun p h m => ?_⟩
  have hb := (h.boards L).1
  exact ⟨strong (isCheckMove_sim L T (fun _ => hb) m), strong (doMove_sim L T E (fun _ => hb) m)⟩

theorem legalMoves_checked {E : Env} {i : Fin 4} {J : Junk} {p : Position} (hb : OkBoards p.inner)
    (hs : ∀ st, p.state = some st → Ok st.attackInfo.checkers)
    (hv : i = 0 → LoneBottom ((buildAt i J).and (p.inner.playerBB p.inner.side)
      (p.inner.pieceBB .pawn))) :
    p.legalMovesC (buildAt i J) (checkedAt i) E = Watched.lift (p.legalMoves E (buildAt i J)) :=
  (legalMoves_sim (P := True) (lawful_of_mem (buildAt_mem i J)) (checkedAt_tracks i J) E
    (fun _ => hb) (fun _ => fuFrom_at i J hb) (fun _ _ _ _ _ => hv) (fun _ => hs)).resolve_right
    fun h => h.2 trivial

/-- C78, `legal_moves` of the x86_64, aarch64 and wasm32 builds: within the contracts in every
position that any calls can produce. -/
theorem C78_simd_legal_moves (E : Env) (i : Fin 4) (hi : i ≠ 0) (J : Junk)
    (pp : CorePartialPosition) (p : Position) (h : Anyhow E (buildAt i J) pp p) :
    p.legalMovesC (buildAt i J) (checkedAt i) E = Watched.lift (p.legalMoves E (buildAt i J)) := by
  have hb := h.boards (lawful_of_mem (buildAt_mem i J))
  exact legalMoves_checked hb.1 hb.state fun h => absurd h hi

/-- C78, `legal_moves` of the portable build: within the contracts in every position that any calls
can produce, unless a pawn of the side to move on rank 9 shares its file. -/
theorem C78_portable_legal_moves (E : Env) (J : Junk) (pp : CorePartialPosition) (p : Position)
    (h : Anyhow E (buildAt 0 J) pp p)
    (hpawn : ∀ s t, (buildAt 0 J).contains (p.inner.pieceBitboard (buildAt 0 J)
        ⟨.pawn, p.sideToMove⟩) s = true →
      (buildAt 0 J).contains (p.inner.pieceBitboard (buildAt 0 J) ⟨.pawn, p.sideToMove⟩) t = true →
      s.file = t.file → s.rank = 9 → s = t) :
    p.legalMovesC (buildAt 0 J) (checkedAt 0) E = Watched.lift (p.legalMoves E (buildAt 0 J)) := by
  have L := lawful_of_mem (buildAt_mem 0 J)
  have hb := h.boards L
  refine legalMoves_checked hb.1 hb.state fun _ => ⟨?_, fun s t hs ht => ?_⟩
  · rw [L.and]; exact ok_and_left _ (hb.1.okPlayer _)
  · rw [L.and, BitVec.and_comm] at hs ht
    simp only [L.contains, PartialPosition.pieceBitboard, L.and] at hpawn
    exact hpawn s t hs ht

/-- C78, the game of shogi: from a valid position all four builds stay within the contracts for
ever. -/
theorem C78_legal_play (E : Env) (i : Fin 4) (J : Junk) (pp : CorePartialPosition)
    (hv : Valid (rootView pp)) (ms : List Move) (p : Position)
    (h : Reached E (buildAt i J) pp ms p) :
    p.legalMovesC (buildAt i J) (checkedAt i) E = Watched.lift (p.legalMoves E (buildAt i J)) ∧
    ∀ m, p.isCheckMoveC (buildAt i J) (checkedAt i) m = Watched.lift (p.isCheckMove (buildAt i J) m) ∧
      p.doMoveC (buildAt i J) (checkedAt i) E m = Watched.lift (p.doMove E (buildAt i J) m) := by
  have L := lawful_of_mem (buildAt_mem i J)
  have T := checkedAt_tracks i J
  have strong : ∀ {α : Type} {r : Watched α} {o : Option α}, Sim True r o → r = Watched.lift o :=
    fun h => h.resolve_right fun h => h.2 trivial
  have hc := h.visited.consistent (buildAt_mem i J)
  have hval := (reached_inv (buildAt_mem i J) hv h).2
  have hb := hc.1.okBoards
  refine ⟨legalMoves_checked hb hc.2 fun _ => ⟨?_, fun s t hs ht => ?_⟩, fun m =>
    ⟨strong (isCheckMove_sim L T (fun _ => hb) m), strong (doMove_sim L T E (fun _ => hb) m)⟩⟩
  · rw [L.and]; exact ok_and_left _ (hb.okPlayer _)
  · have hpm : ∀ s, mem ((buildAt i J).and (p.inner.playerBB p.inner.side) (p.inner.pieceBB .pawn)) s
        = true → (view p).board s = some ⟨.pawn, p.inner.side⟩ := by
      intro s
      rw [L.and, mem_and, Bool.and_eq_true, hc.1.piece, hc.1.player]
      rintro ⟨⟨k1, h2⟩, c1, h1⟩
      rw [h1] at h2; cases h2; exact h1
    intro hf hr
    cases hside : p.inner.side with
    | black =>
      rw [hside] at hpm
      rw [hside] at hs ht
      exact hval.homePawn .black s t (hpm s hs) (hpm t ht) hf hr
    | white =>
      rw [hside] at hpm
      rw [hside] at hs
      exact absurd hr (hval.noDeadPawn .white s (hpm s hs))

/-- The condition on pawns is needed: in the position `doubled` the portable build makes a call
outside a contract, in debug and in release builds. -/
theorem C78_broken_on_doubled_pawns (oc : Bool) : ∃ p,
    Position.new { Examples.env0 with overflowChecks := oc } (buildAt 0 Junk.zero) doubled = some p ∧
    p.legalMovesC (buildAt 0 Junk.zero) (checkedAt 0) { Examples.env0 with overflowChecks := oc } =
      .broken := by
  have h : (Position.new { Examples.env0 with overflowChecks := oc } (buildAt 0 Junk.zero) doubled).any
      (fun p => match p.legalMovesC (buildAt 0 Junk.zero) (checkedAt 0)
          { Examples.env0 with overflowChecks := oc } with
        | .broken => true
        | _ => false) = true := by
    cases oc <;> decide +kernel
  obtain ⟨p, hp, h⟩ := (Option.any_eq_true _ _).1 h
  refine ⟨p, hp, ?_⟩
  split at h
  · next e => exact e
  · cases h

/-! ## Concrete cases -/

section
open Yasai.Examples

/-- The watch works: a bit above the squares breaks the iterator of the SIMD builds, and all the
squares do not. -/
example : (checkedAt 1).iter (1#128 <<< 64) = .ok [⟨63, by omega⟩] ∧
    (checkedAt 1).iter (1#128 <<< 82) = .broken ∧ (checkedAt 2).iter allBits = .ok Square.all := by
  decide +kernel

/-- A piece above the squares breaks the table read of the sliding operations. -/
example : (checkedAt 0).slidingNegatives (1#128 <<< 100) (1#128 <<< 100) 0#128 = .broken ∧
    (checkedAt 2).slidingNegatives (1#128 <<< 100) 0#128 (1#128 <<< 100) = .broken ∧
    (checkedAt 3).slidingNegativeConsecutive (1#128 <<< 100) (1#128 <<< 100) = .broken := by
  decide +kernel

/-- The statements speak about runs that end with moves: in the initial position every build gives its
30 moves without leaving the contracts. -/
example (i : Fin 4) : ((Position.new env0 (buildAt i otherJunk) startpos).any fun p =>
    match p.legalMovesC (buildAt i otherJunk) (checkedAt i) env0 with
    | .ok l => l.length == 30
    | _ => false) = true := by
  revert i; decide +kernel

end

end Yasai.Props

import Verif.Props.Agree
import Verif.Props.Bitboards

/-!
# C41, C42: the contracts of `unsafe` constructors and the bounds of constant tables

The model leaves open what `Square::from_u8_unchecked`, `Bitboard::from_u128_unchecked` and an
out-of-bounds table read do outside their contract (`Junk`).  A program that never leaves the
contracts gives the same results for all choices.
-/

namespace Yasai.Props

open Yasai Spec

/-- The `i`-th build (portable, x86_64, aarch64, wasm32) with junk `J`. -/
def buildAt (i : Fin 4) (J : Junk) : Backend := (builds J)[i.val]'(by simp [builds])

theorem buildAt_mem (i : Fin 4) (J : Junk) : buildAt i J ∈ backends :=
  ⟨J, List.getElem_mem _⟩

/-- C41.  In every session from a valid position no result depends on what happens outside the
contracts: whatever `unsafe` constructors and out-of-bounds reads would give (`J`, `J'`),
`Position::new`, the histories possible and every call give the same. -/
theorem C41_no_undefined_behaviour (E : Env) (i : Fin 4) (J J' : Junk) (pp : CorePartialPosition)
    (hv : Valid (rootView pp)) :
    Position.new E (buildAt i J) pp = Position.new E (buildAt i J') pp ∧
    ∀ ms p, (Reached E (buildAt i J) pp ms p ↔ Reached E (buildAt i J') pp ms p) ∧
      (Reached E (buildAt i J) pp ms p →
        p.inCheck (buildAt i J) = p.inCheck (buildAt i J') ∧
        (∀ m, p.isCheckMove (buildAt i J) m = p.isCheckMove (buildAt i J') m) ∧
        p.legalMoves E (buildAt i J) = p.legalMoves E (buildAt i J') ∧
        (∀ m, p.doMove E (buildAt i J) m = p.doMove E (buildAt i J') m) ∧
        (∀ m, p.undoMove E (buildAt i J) m = p.undoMove E (buildAt i J') m)) := by
  obtain ⟨h1, h2⟩ := C24_backends_agree E (buildAt i J) (buildAt i J') (buildAt_mem i J)
    (buildAt_mem i J') pp hv
  refine ⟨h1, fun ms p => ⟨(h2 ms p).1, fun h => ?_⟩⟩
  obtain ⟨a, b, c, d, e, _⟩ := (h2 ms p).2 h
  exact ⟨a, b, c, d, e⟩

/-- C42.  The same operation by operation: on bitboards built with the API (see `Built`), no
operation of a build depends on what happens outside the contracts. -/
theorem C42_operations_in_contract (i : Fin 4) (J J' : Junk) {a b c : BB}
    (ha : Built (buildAt i J) a) (hb : Built (buildAt i J) b) (hc : Built (buildAt i J) c) :
    (buildAt i J).iter a = (buildAt i J').iter a ∧
    (buildAt i J).count a = (buildAt i J').count a ∧
    (buildAt i J).slidingPositives a b c = (buildAt i J').slidingPositives a b c ∧
    (buildAt i J).slidingNegatives a b c = (buildAt i J').slidingNegatives a b c ∧
    ((∀ s t, (buildAt i J).contains b s = true → (buildAt i J).contains b t = true →
        s.file = t.file) →
      (buildAt i J).slidingPositiveConsecutive a b =
        (buildAt i J').slidingPositiveConsecutive a b ∧
      (buildAt i J).slidingNegativeConsecutive a b =
        (buildAt i J').slidingNegativeConsecutive a b) ∧
    ((∀ s t, (buildAt i J).contains a s = true → (buildAt i J).contains a t = true →
        s.file = t.file → s.rank = 9 → s = t) →
      ∀ oc, (buildAt i J).vacantFiles oc a = (buildAt i J').vacantFiles oc a) := by
  have L := lawful_of_mem (buildAt_mem i J)
  have L' := lawful_of_mem (buildAt_mem i J')
  have oa := ha.ok L
  have ob := hb.ok L
  have oc := hc.ok L
  simp only [L.contains]
  refine ⟨?_, ?_, ?_, ?_, fun h => ⟨?_, ?_⟩, fun h o => ?_⟩
  · rw [L.iter a oa, L'.iter a oa]
  · rw [L.count a oa, L'.count a oa]
  · obtain ⟨p, q⟩ := L.slidingPositives a b c ob oc
    obtain ⟨p', q'⟩ := L'.slidingPositives a b c ob oc
    exact ext_of_ok p p' fun s => Bool.eq_iff_iff.2 ((q s).trans (q' s).symm)
  · obtain ⟨p, q⟩ := L.slidingNegatives a b c ob oc
    obtain ⟨p', q'⟩ := L'.slidingNegatives a b c ob oc
    exact ext_of_ok p p' fun s => Bool.eq_iff_iff.2 ((q s).trans (q' s).symm)
  · obtain ⟨p, q⟩ := L.slidingPositiveConsecutive a b ob h
    obtain ⟨p', q'⟩ := L'.slidingPositiveConsecutive a b ob h
    exact ext_of_ok p p' fun s => Bool.eq_iff_iff.2 ((q s).trans (q' s).symm)
  · obtain ⟨p, q⟩ := L.slidingNegativeConsecutive a b ob h
    obtain ⟨p', q'⟩ := L'.slidingNegativeConsecutive a b ob h
    exact ext_of_ok p p' fun s => Bool.eq_iff_iff.2 ((q s).trans (q' s).symm)
  · obtain ⟨r, e, p, q⟩ := L.vacantFiles o a oa h
    obtain ⟨r', e', p', q'⟩ := L'.vacantFiles o a oa h
    rw [e, e']
    congr 1
    exact ext_of_ok p p' fun s => Bool.eq_iff_iff.2 ((q s).trans (q' s).symm)

/-! ## Concrete cases: the contracts can be broken -/

section
open Yasai.Examples

/-- Two Black pawns on file 7, one of them on the bottom rank, and a pawn in hand.  Not a legal
shogi position, but `Position::new` accepts it. -/
def doubled : CorePartialPosition where
  side := .black
  ply := 1#16
  hands := fun c => match c with
    | .black => handOf [(.pawn,1)]
    | .white => handOf []
  board := boardOf [(5,9,.king,.black),(5,1,.king,.white),(7,9,.pawn,.black),(7,8,.pawn,.black)]

/-- Another choice of junk. -/
def otherJunk : Junk := ⟨fun _ => 0, fun _ => allBits, fun _ => 0#128⟩

/-- The validity hypothesis of C41 is needed: on `doubled` the portable build calls
`Bitboard::from_u128_unchecked` with a bit outside the 81 squares (/repo/src/bitboard/core.rs:74),
in debug and in release builds, and the result depends on what that gives. -/
theorem C41_unsound_on_doubled_pawns (oc : Bool) : ∃ p l l',
    Position.new { env0 with overflowChecks := oc } (buildAt 0 Junk.zero) doubled = some p ∧
    Position.new { env0 with overflowChecks := oc } (buildAt 0 otherJunk) doubled = some p ∧
    p.legalMoves { env0 with overflowChecks := oc } (buildAt 0 Junk.zero) = some l ∧
    p.legalMoves { env0 with overflowChecks := oc } (buildAt 0 otherJunk) = some l' ∧
    l ≠ l' := by
  have hn : Position.new { env0 with overflowChecks := oc } (buildAt 0 Junk.zero) doubled =
      Position.new { env0 with overflowChecks := oc } (buildAt 0 otherJunk) doubled :=
    new_agree (lawful_of_mem (buildAt_mem 0 Junk.zero)) (lawful_of_mem (buildAt_mem 0 otherJunk))
      _ _
  have h : (Position.new { env0 with overflowChecks := oc } (buildAt 0 Junk.zero) doubled).any
      (fun p =>
        (p.legalMoves { env0 with overflowChecks := oc } (buildAt 0 Junk.zero)).any fun l =>
        (p.legalMoves { env0 with overflowChecks := oc } (buildAt 0 otherJunk)).any fun l' =>
          decide (l ≠ l')) = true := by
    cases oc <;> decide +kernel
  simp only [Option.any_eq_true, decide_eq_true_eq] at h
  obtain ⟨p, hp, l, hl, l', hl', hne⟩ := h
  exact ⟨p, l, l', hp, hn ▸ hp, hl, hl', hne⟩

/-- A Black pawn on its last rank; `Position::new` accepts it. -/
def deadPawn : CorePartialPosition where
  side := .black
  ply := 1#16
  hands := fun _ => handOf []
  board := boardOf [(5,9,.king,.black),(5,1,.king,.white),(2,1,.pawn,.black)]

/-- The validity hypothesis of C24 is needed: on `deadPawn` the x86_64 build lists a pawn move from
2a to 1i (the 64-bit shift runs into the next file), the portable build does not. -/
theorem C24_needs_valid : ∃ p l l',
    Position.new env0 (buildAt 0 Junk.zero) deadPawn = some p ∧
    Position.new env0 (buildAt 1 Junk.zero) deadPawn = some p ∧
    p.legalMoves env0 (buildAt 0 Junk.zero) = some l ∧
    p.legalMoves env0 (buildAt 1 Junk.zero) = some l' ∧
    .normal (sq 2 1) (sq 1 9) false ∉ l ∧ .normal (sq 2 1) (sq 1 9) false ∈ l' := by
  have hn : Position.new env0 (buildAt 0 Junk.zero) deadPawn =
      Position.new env0 (buildAt 1 Junk.zero) deadPawn :=
    new_agree (lawful_of_mem (buildAt_mem 0 Junk.zero)) (lawful_of_mem (buildAt_mem 1 Junk.zero))
      _ _
  have h : (Position.new env0 (buildAt 0 Junk.zero) deadPawn).any (fun p =>
        (p.legalMoves env0 (buildAt 0 Junk.zero)).any fun l =>
        (p.legalMoves env0 (buildAt 1 Junk.zero)).any fun l' =>
          decide (.normal (sq 2 1) (sq 1 9) false ∉ l ∧ .normal (sq 2 1) (sq 1 9) false ∈ l')) =
            true := by
    decide +kernel
  simp only [Option.any_eq_true, decide_eq_true_eq] at h
  obtain ⟨p, hp, l, hl, l', hl', h1, h2⟩ := h
  exact ⟨p, l, l', hp, hn ▸ hp, hl, hl', h1, h2⟩

end

end Yasai.Props

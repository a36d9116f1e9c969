import Verif.Examples.UnitTests
import Verif.Proofs.Separate

/-!
# Tests with the numbers of the real generator

The known answer of `rand` for `StdRng`, and the unit tests of /repo/src/zobrist.rs, evaluated in
the model.
-/

namespace Yasai.Examples.UnitTests

open Yasai Spec Proofs

/-- The known answer of `rand` 0.8 (`rngs::std::test::test_stdrng_construction`): seed
`[1,0,0,0, 23,0,0,0, 200,1,0,0, 210,30,0,0, 0, …]`, first `next_u64`. -/
example : (StdRng.fromSeed (⟨1#32, 23#32, 456#32, 7890#32⟩, ⟨0#32, 0#32, 0#32, 0#32⟩)).nextU64.1 =
    10719222850664546238#64 := by decide +kernel

/-- The second known answer: a generator seeded with the next 32 bytes. -/
example :
    let r0 := (StdRng.fromSeed (⟨1#32, 23#32, 456#32, 7890#32⟩, ⟨0#32, 0#32, 0#32, 0#32⟩)).nextU64.2
    (StdRng.fromSeed (⟨r0.word 2, r0.word 3, r0.word 4, r0.word 5⟩,
      ⟨r0.word 6, r0.word 7, r0.word 8, r0.word 9⟩)).nextU64.1 = 14064965282130556830#64 := by
  decide +kernel

/-- `stdEnv` with its numbers as literals. -/
def litEnv (oc : Bool) : Env where
  rngBoard s c k := BitVec.ofNat 64 (drawLit (boardDraw s c k))
  rngHand c k n :=
    if k.isHandPiece = true ∧ n < 18 then BitVec.ofNat 64 (drawLit (handDraw c k n)) else 0#64
  overflowChecks := oc

theorem stdEnv_eq (oc : Bool) : stdEnv oc = litEnv oc := by
  have hb : (stdEnv oc).rngBoard = (litEnv oc).rngBoard := by
    funext s c k
    rw [stdEnv, ofRng_board]
    apply BitVec.eq_of_toNat_eq
    have := boardDraw_lt s c k
    rw [draw_lit (by omega), litEnv, BitVec.toNat_ofNat, Nat.mod_eq_of_lt]
    exact Lanes.lane_lt ..
  have hh : (stdEnv oc).rngHand = (litEnv oc).rngHand := by
    funext c k n
    by_cases h : k.isHandPiece = true ∧ n < 18
    · rw [stdEnv, ofRng_hand _ _ _ _ _ h.1 _ h.2]
      apply BitVec.eq_of_toNat_eq
      have := handDraw_lt c h.1 h.2
      rw [draw_lit (by omega), litEnv]
      simp only [if_pos h]
      rw [BitVec.toNat_ofNat, Nat.mod_eq_of_lt]
      exact Lanes.lane_lt ..
    · rw [stdEnv, ofRng_hand_unused _ _ _ _ _ _ h, litEnv]
      simp only [if_neg h]
  have e : ∀ E E' : Env, E.rngBoard = E'.rngBoard → E.rngHand = E'.rngHand →
      E.overflowChecks = E'.overflowChecks → E = E' := by
    rintro ⟨⟩ ⟨⟩ h1 h2 h3
    cases h1; cases h2; cases h3
    rfl
  exact e _ _ hb hh rfl

/-- The first number. -/
example : (StdRng.nextU64 (StdRng.seedFromU64 2022#64)).1 = 0x86564cd8c46e9387#64 := by
  decide +kernel

/-- `default`, `full_hands` (/repo/src/zobrist.rs:100-121). -/
example : ∀ K ∈ all,
    (Position.default (stdEnv true) K).any (fun p => p.key.any fun k => k != 0#64) = true ∧
    (Position.new (stdEnv true) K fullBlack).any (fun p =>
      (Position.new (stdEnv true) K fullWhite).any fun p' =>
        p.keys.any fun k => p'.keys.any fun k' => k.1 == 0#64 && k'.1 == 0#64 && k.2 != k'.2) =
        true := by
  rw [stdEnv_eq]
  decide +kernel

/-- The moves of `same_board`. -/
def sameBoard0 : List Move :=
  [.normal (sq 7 7) (sq 7 6) false, .normal (sq 3 3) (sq 3 4) false,
   .normal (sq 8 8) (sq 2 2) false, .normal (sq 3 1) (sq 2 2) false,
   .drop (sq 8 8) ⟨.bishop, .black⟩, .normal (sq 2 2) (sq 3 1) false]

/-- The other moves of `same_board`. -/
def sameBoard1 : List Move :=
  [.normal (sq 7 7) (sq 7 6) false, .normal (sq 3 3) (sq 3 4) false,
   .normal (sq 8 8) (sq 2 2) false, .normal (sq 3 1) (sq 4 2) false,
   .normal (sq 2 2) (sq 8 8) false, .normal (sq 4 2) (sq 3 1) false]

/-- `keys()` after the moves from the initial position. -/
def keysStd (E : Env) (K : Backend) (l : List Move) : Option (Key × Key) :=
  Position.default E K >>= fun p0 =>
    l.foldlM (fun (p : Position) m => p.doMove E K m) p0 >>= fun p => p.keys

/-- `same_board` (/repo/src/zobrist.rs:284-367). -/
example : ∀ K ∈ all, (keysStd (stdEnv true) K sameBoard0).any (fun k =>
    (keysStd (stdEnv true) K sameBoard1).any fun k' => k != k' && k.1 == k'.1) = true := by
  rw [stdEnv_eq]
  decide +kernel

end Yasai.Examples.UnitTests

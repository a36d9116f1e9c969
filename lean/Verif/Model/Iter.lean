import Verif.Model.Checked

/-!
# `SquareIterator`, call by call

/repo/src/bitboard/x86_64.rs:224-257, /repo/src/bitboard/aarch64.rs:199-232 and
/repo/src/bitboard/wasm32.rs:170-203 (the same code; the lanes are `i64` in the first and `u64` in the
others, on which the operations used here agree).  `Backend.iter` and `Checked.iter` give the squares
of a whole loop at once; here `next` is one call.
-/

namespace Yasai

/-- `SquareIterator([_; 2])`. -/
structure SquareIterator where
  lane0 : BitVec 64
  lane1 : BitVec 64
  deriving DecidableEq

namespace SquareIterator

/-- `into_iter`: the two lanes of the bitboard (`values`). -/
def ofBB (b : BB) : SquareIterator := ⟨lo64 b, hi64 b⟩

/-- `pop_lsb`: the result and the new value of the lane; `as u8` keeps the lowest eight bits. -/
def popLsb (n : BitVec 64) : BitVec 8 × BitVec 64 :=
  (BitVec.ofNat 8 (trailingZeros n), n &&& (n - 1#64))

/-- `a + b` in `u8`. -/
def addU8 (overflowChecks : Bool) (a b : BitVec 8) : Watched (BitVec 8) :=
  if overflowChecks = true ∧ 256 ≤ a.toNat + b.toNat then .panic else .ok (a + b)

variable (overflowChecks : Bool)

/-- `Iterator::next`: the result and the iterator afterwards. -/
def next (it : SquareIterator) : Watched (Option Square × SquareIterator) :=
  if it.lane0 ≠ 0#64 then do
    let r := popLsb it.lane0
    let n ← addU8 overflowChecks r.1 1
    let sq ← fromU8UncheckedC n.toNat
    pure (some sq, { it with lane0 := r.2 })
  else if it.lane1 ≠ 0#64 then do
    let r := popLsb it.lane1
    let n ← addU8 overflowChecks r.1 64
    let sq ← fromU8UncheckedC n.toNat
    pure (some sq, { it with lane1 := r.2 })
  else pure (none, it)

/-- The results of `n` calls of `next`. -/
def calls : Nat → SquareIterator → Watched (List (Option Square))
  | 0, _ => pure []
  | n + 1, it => do
    let r ← it.next overflowChecks
    let l ← calls n r.2
    pure (r.1 :: l)

/-- `for sq in bitboard`: the squares until the first `None`, for at most `n` rounds. -/
def loop : Nat → SquareIterator → Watched (List Square)
  | 0, _ => pure []
  | n + 1, it => do
    let r ← it.next overflowChecks
    match r.1 with
    | none => pure []
    | some s => do
      let l ← loop n r.2
      pure (s :: l)

end SquareIterator

end Yasai

import Verif.Model.ShogiCore

/-!
# Bitboards: common carrier, bit primitives and the backend interface
-/

namespace Yasai

/-- The common carrier of all bitboards: 128 bits.  Squares 0..62 use bits 0..62 and squares
63..80 use bits 64..81 ("18 bits and 63 bits out of 2 64-bit int are used",
/repo/src/bitboard/core.rs:5; /repo/src/bitboard/x86_64.rs:7-19). -/
abbrev BB := BitVec 128

/-- Bit position of a square. -/
def bitPos (s : Square) : Nat := if s.val < 63 then s.val else s.val + 1

/-- All 81 squares (/repo/src/bitboard/core.rs:12 `mask`, /repo/src/bitboard/x86_64.rs:193). -/
def allBits : BB := 0x0003ffff7fffffffffffffff#128

/-- `u128::trailing_zeros` / `u64::trailing_zeros`. -/
def trailingZeros {w : Nat} (x : BitVec w) : Nat :=
  ((List.range w).find? (fun i => x.getLsbD i)).getD w

/-- `u128::leading_zeros` / `u64::leading_zeros` / `u32::leading_zeros`. -/
def leadingZeros {w : Nat} (x : BitVec w) : Nat :=
  ((List.range w).find? (fun i => x.getMsbD i)).getD w

/-- `count_ones`. -/
def countOnes {w : Nat} (x : BitVec w) : Nat :=
  (List.range w).countP (fun i => x.getLsbD i)

/-- What happens outside the contract of an operation.  Rust leaves it undefined (`unsafe`
constructors) or panics (table index out of bounds); the model leaves it open: every theorem about
`backends` holds for every choice of these functions. -/
structure Junk where
  /-- `Square::from_u8_unchecked` outside `1..=81` -/
  square : Nat → Square
  /-- `Bitboard::from_u128_unchecked` on a value with bits outside the 81 squares -/
  bits : BB → BB
  /-- reading a constant table out of bounds -/
  entry : Nat → BB

/-- One choice, used to evaluate concrete cases. -/
def Junk.zero : Junk := ⟨fun _ => 0, fun _ => 0#128, fun _ => 0#128⟩

/-- `table[i]` for a constant table with `len` entries. -/
def readTable (J : Junk) (len : Nat) (table : Nat → BB) (i : Nat) : BB :=
  if i < len then table i else J.entry i

/-- `a - b` in `usize` used as an index: a borrow panics in debug builds; in release builds it wraps
to an index that is out of bounds of every table. -/
def usizeSub (a b : Nat) : Nat := if b ≤ a then a - b else 2 ^ 64 + a - b

/-- `Bitboard::from_u128_unchecked`: the value must have no bit outside the 81 squares. -/
def fromU128Unchecked (J : Junk) (x : BB) : BB := if x &&& ~~~allBits = 0#128 then x else J.bits x

/-- The interface of `Bitboard` used by the rest of the crate: inherent methods, operators and the
trait `Occupied` (/repo/src/bitboard.rs:1-19).  `vacantFiles` takes the overflow-check mode of the
build and returns `none` when the subtraction panics.  The macros of /repo/src/bitboard.rs:22-82 give
`and`, `or` and `xor` also by reference and as assignments; these are the same functions. -/
structure Backend where
  empty : BB
  single : Square → BB
  isEmpty : BB → Bool
  contains : BB → Square → Bool
  count : BB → Nat
  and : BB → BB → BB
  or : BB → BB → BB
  xor : BB → BB → BB
  not : BB → BB
  /-- `PartialEq::eq` -/
  eq : BB → BB → Bool
  /-- iteration order of `into_iter` -/
  iter : BB → List Square
  shl : BB → BB
  shr : BB → BB
  /-- `sliding_positive_consecutive(&self, mask)` -/
  slidingPositiveConsecutive : BB → BB → BB
  /-- `sliding_negative_consecutive(&self, mask)` -/
  slidingNegativeConsecutive : BB → BB → BB
  /-- `sliding_positives(&self, masks)` with `masks[0]`, `masks[1]` -/
  slidingPositives : BB → BB → BB → BB
  /-- `sliding_negatives(&self, masks)` with `masks[0]`, `masks[1]` -/
  slidingNegatives : BB → BB → BB → BB
  vacantFiles : Bool → BB → Option BB
  /-- `Square::from_u8_unchecked` outside its contract (movegen.rs:94) -/
  junkSquare : Nat → Square

/-! ## The portable backend: `shogi_core::Bitboard` plus /repo/src/bitboard/core.rs -/

namespace CoreBB

/-- `shogi_core::Bitboard::single`. -/
def single (s : Square) : BB := 1#128 <<< bitPos s

/-- `shogi_core::Bitboard::contains`. -/
def contains (b : BB) (s : Square) : Bool := b.getLsbD (bitPos s)

/-- The set of the squares satisfying `f` (helper for the trusted `shift_up`/`shift_down`). -/
def ofPred (f : Square → Bool) : BB :=
  Square.all.foldl (fun acc s => if f s then acc ||| single s else acc) 0#128

/-- `shogi_core::Bitboard::shift_down(delta)`: moves every square `delta` ranks down (South);
squares leaving the board vanish. -/
def shiftDown (b : BB) (delta : Nat) : BB :=
  ofPred fun s => if h : delta ≤ s.val then
    decide (delta < s.rank) && contains b ⟨s.val - delta, by omega⟩ else false

/-- `shogi_core::Bitboard::shift_up(delta)`: moves every square `delta` ranks up (North);
squares leaving the board vanish. -/
def shiftUp (b : BB) (delta : Nat) : BB :=
  ofPred fun s => if h : s.val + delta < 81 then
    decide (s.rank + delta ≤ 9) && contains b ⟨s.val + delta, h⟩ else false

/-- `VACANT_MASK_VALUE` (/repo/src/bitboard/core.rs:6). -/
def vacantMask : BB := 0x0002010040201008040201_00#128

/-- `BB_1A` (/repo/src/bitboard/core.rs:8): square array index 0. -/
def bb1A : BB := single 0

/-- `BB_9I` (/repo/src/bitboard/core.rs:9): square array index 80. -/
def bb9I : BB := single 80

/-- The entries of `MASKED_BBS` (/repo/src/bitboard/core.rs:11-20), a table of length 83. -/
def maskedBBs (i : Nat) : BB := allBits &&& ((1#128 <<< i) - 1#128)

/-- `sliding_positive` (/repo/src/bitboard/core.rs:26-30). -/
def slidingPositive (J : Junk) (bb mask : BB) : BB :=
  let tz := trailingZeros ((bb &&& mask) ||| bb9I)
  mask &&& readTable J 83 maskedBBs (tz + 1)

/-- `shogi_core::Bitboard::not`: complement within the 81 squares. -/
def not (b : BB) : BB := ~~~b &&& allBits

/-- `sliding_negative` (/repo/src/bitboard/core.rs:36-40). -/
def slidingNegative (J : Junk) (bb mask : BB) : BB :=
  let lz := leadingZeros ((bb &&& mask) ||| bb1A)
  mask &&& not (readTable J 83 maskedBBs (usizeSub 127 lz))

/-- `u128` subtraction: with overflow checks a borrow panics, without it wraps. -/
def checkedSub (overflowChecks : Bool) (a b : BB) : Option BB :=
  if overflowChecks && decide (a.toNat < b.toNat) then none else some (a - b)

/-- `vacant_files` (/repo/src/bitboard/core.rs:68-77). -/
def vacantFiles (J : Junk) (overflowChecks : Bool) (b : BB) : Option BB := do
  let bb ← checkedSub overflowChecks vacantMask b
  let bb := fromU128Unchecked J bb
  let r ← checkedSub overflowChecks vacantMask (shiftUp bb 8)
  pure (vacantMask ^^^ fromU128Unchecked J r)

/-- The portable backend (/repo/src/bitboard/core.rs:42-78; the remaining operations are those of
`shogi_core::Bitboard`). -/
def build (J : Junk) : Backend where
  empty := 0#128
  single := single
  isEmpty b := b == 0#128
  contains := contains
  count b := countOnes b
  and a b := a &&& b
  or a b := a ||| b
  xor a b := a ^^^ b
  not := not
  eq a b := a == b
  iter b := Square.all.filter (contains b)
  shl b := shiftDown b 1
  shr b := shiftUp b 1
  slidingPositiveConsecutive bb mask := slidingPositive J bb mask
  slidingNegativeConsecutive bb mask := slidingNegative J bb mask
  slidingPositives bb m0 m1 := slidingPositive J bb m0 ||| slidingPositive J bb m1
  slidingNegatives bb m0 m1 := slidingNegative J bb m0 ||| slidingNegative J bb m1
  vacantFiles := vacantFiles J
  junkSquare := J.square

/-- The portable backend with one choice of junk. -/
abbrev backend : Backend := build Junk.zero

end CoreBB

end Yasai

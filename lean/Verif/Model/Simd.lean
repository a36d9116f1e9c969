import Verif.Model.Bits

/-!
# The SIMD backends

`/repo/src/bitboard/x86_64.rs`, `/repo/src/bitboard/aarch64.rs`, `/repo/src/bitboard/wasm32.rs`.

A 128-bit vector is a `BitVec 128`; lane 0 of two 64-bit lanes is the low half.  A 256-bit AVX2
vector is a pair of 128-bit halves: every AVX2 instruction used works within 128-bit halves.
The definitions in the first sections state the documented effect of the intrinsics (trusted).
-/

namespace Yasai

/-! ## Vectors -/

/-- Low 64-bit lane. -/
def lo64 (b : BB) : BitVec 64 := b.extractLsb' 0 64

/-- High 64-bit lane. -/
def hi64 (b : BB) : BitVec 64 := b.extractLsb' 64 64

/-- Vector from high and low lanes (argument order of `_mm_set_epi64x`). -/
def mk64 (hi lo : BitVec 64) : BB := hi ++ lo

/-- Applies a binary operation to both 64-bit lanes. -/
def map64 (f : BitVec 64 → BitVec 64 → BitVec 64) (a b : BB) : BB :=
  mk64 (f (hi64 a) (hi64 b)) (f (lo64 a) (lo64 b))

/-- A bit vector from its bits. -/
def ofBits : (n : Nat) → (Nat → Bool) → BitVec n
  | 0, _ => 0#0
  | n + 1, f => BitVec.cons (f n) (ofBits n f)

/-- 64-bit lane addition (`_mm_add_epi64`, `vaddq_u64`, `u64x2_add`). -/
def add64 : BB → BB → BB := map64 (· + ·)

/-- 64-bit lane subtraction (`_mm_sub_epi64`, `vsubq_u64`, `u64x2_sub`). -/
def sub64 : BB → BB → BB := map64 (· - ·)

/-- 64-bit lane equality: all ones or zero (`_mm_cmpeq_epi64`, `vceqq_u64`, `u64x2_eq`). -/
def cmpeq64 : BB → BB → BB := map64 fun x y => if x = y then BitVec.allOnes 64 else 0#64

/-- 64-bit lane logical shift right (`_mm_srli_epi64`, `vshrq_n_u64`, `u64x2_shr`). -/
def srl64 (a : BB) (n : Nat) : BB := mk64 (hi64 a >>> n) (lo64 a >>> n)

/-- 64-bit lane shift left (`_mm_slli_epi64`, `vshlq_n_u64`, `u64x2_shl`). -/
def sll64 (a : BB) (n : Nat) : BB := mk64 (hi64 a <<< n) (lo64 a <<< n)

/-- 16-bit lane logical shift right (`_mm256_srli_epi16`, one 128-bit half). -/
def srl16 (a : BB) (n : Nat) : BB :=
  ofBits 128 fun i => decide (i % 16 + n < 16) && a.getLsbD (i + n)

/-- Byte-wise comparison with zero followed by `movemask_epi8` (one 128-bit half): bit `j` is set
iff byte `j` is zero (`_mm256_cmpeq_epi8` gives `0xff` there, `_mm256_movemask_epi8` takes the top
bit of each byte). -/
def zeroByteMask (a : BB) : BitVec 16 :=
  ofBits 16 fun j => decide (a.extractLsb' (8 * j) 8 = 0#8)

/-- `_mm_andnot_si128(a, b)` = `!a & b`. -/
def andnot (a b : BB) : BB := ~~~a &&& b

/-! ## Iteration: `SquareIterator` (identical in the three files) -/

/-- The values of `pop_lsb` until the lane is zero (/repo/src/bitboard/x86_64.rs:226-233).  At most
64 bits can be popped, so 64 units of fuel suffice. -/
def popAll : Nat → BitVec 64 → List Nat
  | 0, _ => []
  | n + 1, x => if x = 0#64 then [] else trailingZeros x :: popAll n (x &&& (x - 1#64))

/-- `IntoIterator`/`Iterator::next` (/repo/src/bitboard/x86_64.rs:235-257,
/repo/src/bitboard/aarch64.rs:210-232, /repo/src/bitboard/wasm32.rs:181-203): the low lane first,
with offset 1, then the high lane with offset 64. -/
def simdIter (J : Junk) (b : BB) : List Square :=
  (popAll 64 (lo64 b)).map (fun n => Square.fromU8Unchecked J.square (n + 1)) ++
  (popAll 64 (hi64 b)).map (fun n => Square.fromU8Unchecked J.square (n + 64))

/-- `SINGLE_VALUES` / `SINGLES` and `single` (/repo/src/bitboard/x86_64.rs:7-19,49-52,
/repo/src/bitboard/aarch64.rs:7-19,41-44, /repo/src/bitboard/wasm32.rs:6-18,43-45). -/
def simdSingle (s : Square) : BB :=
  if s.val < 63 then mk64 0#64 (1#64 <<< s.val) else mk64 (1#64 <<< (s.val - 63)) 0#64

/-- `count` (/repo/src/bitboard/x86_64.rs:62-65, aarch64.rs:58-61, wasm32.rs:55-58). -/
def simdCount (b : BB) : Nat := countOnes (lo64 b) + countOnes (hi64 b)

/-- The constant of `Not` (/repo/src/bitboard/x86_64.rs:193, aarch64.rs:171, wasm32.rs:32). -/
def simdOnes : BB := mk64 0x0003ffff#64 0x7fffffffffffffff#64

/-- The constant of `vacant_files` (/repo/src/bitboard/x86_64.rs:156, aarch64.rs:138,
wasm32.rs:119). -/
def simdVacantMask : BB := mk64 0x00020100#64 0x4020100804020100#64

/-- `vacant_files` (/repo/src/bitboard/x86_64.rs:154-164, aarch64.rs:136-143, wasm32.rs:118-124).
SIMD subtraction wraps and never panics. -/
def simdVacantFiles (b : BB) : BB :=
  let mask := simdVacantMask
  let sub := sub64 mask b
  let shr := srl64 (mask &&& sub) 8
  mask ^^^ sub64 mask shr

/-- `sliding_positive_consecutive` (/repo/src/bitboard/x86_64.rs:85-97, aarch64.rs:109-117,
wasm32.rs:99-105). -/
def simdSlidingPositiveConsecutive (b mask : BB) : BB :=
  let and := b &&& mask
  let all := cmpeq64 b b
  let add := add64 and all
  let xor := and ^^^ add
  xor &&& mask

/-- `sliding_negative_consecutive` (/repo/src/bitboard/x86_64.rs:98-107, aarch64.rs:118-127). -/
def simdSlidingNegativeConsecutive (b mask : BB) : BB :=
  let m := b &&& mask
  let m := m ||| srl64 m 1
  let m := m ||| srl64 m 2
  let m := m ||| srl64 m 4
  let m := srl64 m 1
  andnot m mask

/-! ## x86_64 (AVX2) -/

namespace X86

/-- A 256-bit vector: (high half, low half). -/
abbrev V256 := BB × BB

/-- Applies a 128-bit operation to both halves. -/
def map2 (f : BB → BB → BB) (a b : V256) : V256 := (f a.1 b.1, f a.2 b.2)

/-- The 16 entries of `MASKED_VALUES` (/repo/src/bitboard/x86_64.rs:21-38): entry `i` as
`(high, low)`, written `(low, high)` in the source. -/
def maskedValues : Nat → BitVec 64 × BitVec 64
  | 0 => (0x0#64, 0x0#64)
  | 1 => (0x0#64, 0x00000000000000ff#64)
  | 2 => (0x0#64, 0x000000000000ffff#64)
  | 3 => (0x0#64, 0x0000000000ffffff#64)
  | 4 => (0x0#64, 0x00000000ffffffff#64)
  | 5 => (0x0#64, 0x000000ffffffffff#64)
  | 6 => (0x0#64, 0x0000ffffffffffff#64)
  | 7 => (0x0#64, 0x00ffffffffffffff#64)
  | 8 => (0x0#64, BitVec.allOnes 64)
  | 9 => (0x00000000000000ff#64, BitVec.allOnes 64)
  | 10 => (0x000000000000ffff#64, BitVec.allOnes 64)
  | 11 => (0x0000000000ffffff#64, BitVec.allOnes 64)
  | 12 => (0x00000000ffffffff#64, BitVec.allOnes 64)
  | 13 => (0x000000ffffffffff#64, BitVec.allOnes 64)
  | 14 => (0x0000ffffffffffff#64, BitVec.allOnes 64)
  | 15 => (0x00ffffffffffffff#64, BitVec.allOnes 64)
  | _ => (0x0#64, 0x0#64) -- not an entry

/-- `MASKED_VALUES` as vectors. -/
def maskedVectors (i : Nat) : BB := mk64 (maskedValues i).1 (maskedValues i).2

/-- `sliding_positives` (/repo/src/bitboard/x86_64.rs:108-127). -/
def slidingPositives (b m0 m1 : BB) : BB :=
  let self256 : V256 := (b, b)
  let mask256 : V256 := (m0, m1)
  let masked := map2 (· &&& ·) self256 mask256
  let all := map2 cmpeq64 self256 self256
  let add := map2 add64 masked all
  let cmp := map2 cmpeq64 add all
  let x := map2 (· ^^^ ·) cmp all
  let shl : V256 := (x.1 <<< 64, x.2 <<< 64)
  let dec := map2 sub64 add shl
  let xor := map2 (· ^^^ ·) masked dec
  let ret := map2 (· &&& ·) xor mask256
  ret.2 ||| ret.1

/-- `sliding_negatives` (/repo/src/bitboard/x86_64.rs:128-153). -/
def slidingNegatives (J : Junk) (b m0 m1 : BB) : BB :=
  let self256 : V256 := (b, b)
  let mask256 : V256 := (m0, m1)
  let masked := map2 (· &&& ·) self256 mask256
  let mv : BitVec 32 := zeroByteMask masked.1 ++ zeroByteMask masked.2
  let e0 := readTable J 16 maskedVectors
    (usizeSub 15 (leadingZeros ((mv ^^^ 0xffffffff#32) ||| 0x00010000#32)))
  let e1 := readTable J 16 maskedVectors
    (usizeSub 31 (leadingZeros (((mv &&& 0xffff#32) ^^^ 0xffff#32) ||| 0x0001#32)))
  let m := masked
  let m := map2 (· ||| ·) m (srl16 m.1 1, srl16 m.2 1)
  let m := map2 (· ||| ·) m (srl16 m.1 2, srl16 m.2 2)
  let m := map2 (· ||| ·) m (srl16 m.1 4, srl16 m.2 4)
  let m := map2 (· ||| ·) (srl16 m.1 1, srl16 m.2 1) (e0, e1)
  let ret := map2 andnot m mask256
  ret.2 ||| ret.1

/-- The x86_64 backend (/repo/src/bitboard/x86_64.rs:40-257). -/
def build (J : Junk) : Backend where
  empty := 0#128
  single := simdSingle
  -- `_mm_test_all_zeros(a, b) == 1` iff `a & b == 0` (lines 54-56)
  isEmpty b := (b &&& b) == 0#128
  -- lines 58-60
  contains b s := !((b &&& simdSingle s) == 0#128)
  count := simdCount
  and a b := a &&& b
  or a b := a ||| b
  xor a b := a ^^^ b
  -- lines 185-211
  not b := andnot b simdOnes
  -- lines 213-222
  eq a b := ((a ^^^ b) &&& (a ^^^ b)) == 0#128
  iter := simdIter J
  shl b := sll64 b 1
  shr b := srl64 b 1
  slidingPositiveConsecutive := simdSlidingPositiveConsecutive
  slidingNegativeConsecutive := simdSlidingNegativeConsecutive
  slidingPositives := slidingPositives
  slidingNegatives := slidingNegatives J
  vacantFiles _ b := some (simdVacantFiles b)
  junkSquare := J.square

end X86

/-! ## Shared by aarch64 and wasm32 -/

/-- The entries of `MASKED_VALUES` (/repo/src/bitboard/aarch64.rs:21-30, wasm32.rs:20-29), a table of
length 83: `(1 << i) - 1` as a `u128`, split into two lanes. -/
def simdMaskedValues (i : Nat) : BB := (1#128 <<< i) - 1#128

/-- `sliding_positive` (/repo/src/bitboard/aarch64.rs:70-83, wasm32.rs:66-74). -/
def simdSlidingPositive (J : Junk) (b mask : BB) : BB :=
  let m := b &&& mask
  let tz := if lo64 m = 0#64 then trailingZeros (hi64 m ||| 0x00020000#64) + 64
    else trailingZeros (lo64 m)
  mask &&& readTable J 83 simdMaskedValues (tz + 1)

/-- `sliding_negative` (/repo/src/bitboard/aarch64.rs:84-97, wasm32.rs:75-86); `vbicq_u64(a, b)` and
`v128_andnot(a, b)` are `a & !b`. -/
def simdSlidingNegative (J : Junk) (b mask : BB) : BB :=
  let m := b &&& mask
  let lz := if hi64 m = 0#64 then leadingZeros (lo64 m ||| 1#64) + 64 else leadingZeros (hi64 m)
  mask &&& ~~~readTable J 83 simdMaskedValues (usizeSub 127 lz)

/-! ## aarch64 (NEON) -/

namespace Aarch64

/-- `vqmovn_u64`: saturating narrowing of one 64-bit lane to 32 bits. -/
def qmovn (x : BitVec 64) : BitVec 32 :=
  if x.toNat ≤ 0xffffffff then x.truncate 32 else BitVec.allOnes 32

/-- `is_empty` (/repo/src/bitboard/aarch64.rs:46-52). -/
def isEmpty (b : BB) : Bool := (qmovn (hi64 b) ++ qmovn (lo64 b) : BitVec 64) == 0#64

/-- The aarch64 backend (/repo/src/bitboard/aarch64.rs:32-232). -/
def build (J : Junk) : Backend where
  empty := mk64 0#64 0#64
  single := simdSingle
  isEmpty := isEmpty
  -- lines 54-56
  contains b s := !isEmpty (simdSingle s &&& b)
  count := simdCount
  and a b := a &&& b
  or a b := a ||| b
  xor a b := a ^^^ b
  -- lines 164-190: `vbicq_u64(ones, self)` = `ones & !self`
  not b := simdOnes &&& ~~~b
  -- lines 192-197
  eq a b := isEmpty (a ^^^ b)
  iter := simdIter J
  shl b := sll64 b 1
  shr b := srl64 b 1
  slidingPositiveConsecutive := simdSlidingPositiveConsecutive
  slidingNegativeConsecutive := simdSlidingNegativeConsecutive
  slidingPositives b m0 m1 := simdSlidingPositive J b m0 ||| simdSlidingPositive J b m1
  slidingNegatives b m0 m1 := simdSlidingNegative J b m0 ||| simdSlidingNegative J b m1
  vacantFiles _ b := some (simdVacantFiles b)
  junkSquare := J.square

end Aarch64

/-! ## wasm32 (simd128) -/

namespace Wasm32

/-- `v128_any_true`. -/
def anyTrue (b : BB) : Bool := !(b == 0#128)

/-- `u64x2_all_true`: both lanes are nonzero. -/
def allTrue64 (b : BB) : Bool := !(lo64 b == 0#64) && !(hi64 b == 0#64)

/-- The wasm32 backend (/repo/src/bitboard/wasm32.rs:34-203). -/
def build (J : Junk) : Backend where
  empty := mk64 0#64 0#64
  single := simdSingle
  -- lines 47-49
  isEmpty b := !anyTrue b
  -- lines 51-53
  contains b s := anyTrue (b &&& simdSingle s)
  count := simdCount
  and a b := a &&& b
  or a b := a ||| b
  xor a b := a ^^^ b
  -- lines 145-161: `v128_andnot(ONES, self)` = `ONES & !self`
  not b := simdOnes &&& ~~~b
  -- lines 163-168
  eq a b := allTrue64 (cmpeq64 a b)
  iter := simdIter J
  shl b := sll64 b 1
  shr b := srl64 b 1
  slidingPositiveConsecutive := simdSlidingPositiveConsecutive
  -- line 107-109
  slidingNegativeConsecutive := simdSlidingNegative J
  slidingPositives b m0 m1 := simdSlidingPositive J b m0 ||| simdSlidingPositive J b m1
  slidingNegatives b m0 m1 := simdSlidingNegative J b m0 ||| simdSlidingNegative J b m1
  vacantFiles _ b := some (simdVacantFiles b)
  junkSquare := J.square

end Wasm32

end Yasai

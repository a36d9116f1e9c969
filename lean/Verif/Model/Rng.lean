import Verif.Model.Zobrist

/-!
# The concrete Zobrist table: `ZOBRIST_TABLE` (/repo/src/zobrist.rs:66-87)

`StdRng` is that of rand 0.8.5 (/repo/Cargo.toml): ChaCha with 12 rounds behind a buffer of four
blocks (rand_chacha 0.3, rand_core 0.6), seeded through PCG32.  These crates are not in the sandbox;
their documented algorithms are written out here (trusted; see the known answers in
`Examples/ZobristTests.lean`).
-/

namespace Yasai

/-! ## ChaCha -/

/-- Four 32-bit words: a row of the ChaCha state. -/
structure V4 where
  x0 : BitVec 32
  x1 : BitVec 32
  x2 : BitVec 32
  x3 : BitVec 32
deriving DecidableEq

namespace V4

/-- Wrapping addition of words. -/
def add (a b : V4) : V4 := ⟨a.x0 + b.x0, a.x1 + b.x1, a.x2 + b.x2, a.x3 + b.x3⟩

/-- `rotate_left(x ^ y, n)` of words. -/
def xorRot (a b : V4) (n : Nat) : V4 :=
  ⟨(a.x0 ^^^ b.x0).rotateLeft n, (a.x1 ^^^ b.x1).rotateLeft n,
   (a.x2 ^^^ b.x2).rotateLeft n, (a.x3 ^^^ b.x3).rotateLeft n⟩

/-- Moves word `i + 1` to place `i`. -/
def rot1 (a : V4) : V4 := ⟨a.x1, a.x2, a.x3, a.x0⟩

/-- The words in order. -/
def toList (a : V4) : List (BitVec 32) := [a.x0, a.x1, a.x2, a.x3]

end V4

/-- The ChaCha state: four rows. -/
structure ChaCha where
  a : V4
  b : V4
  c : V4
  d : V4
deriving DecidableEq

namespace ChaCha

/-- The quarter round on each of the four columns. -/
def round (s : ChaCha) : ChaCha :=
  let a := s.a.add s.b
  let d := s.d.xorRot a 16
  let c := s.c.add d
  let b := s.b.xorRot c 12
  let a := a.add b
  let d := d.xorRot a 8
  let c := c.add d
  let b := b.xorRot c 7
  ⟨a, b, c, d⟩

/-- Turns diagonals into columns. -/
def diagonalize (s : ChaCha) : ChaCha := ⟨s.a, s.b.rot1, s.c.rot1.rot1, s.d.rot1.rot1.rot1⟩

/-- Turns columns into diagonals. -/
def undiagonalize (s : ChaCha) : ChaCha := ⟨s.a, s.b.rot1.rot1.rot1, s.c.rot1.rot1, s.d.rot1⟩

/-- A column round and a diagonal round. -/
def doubleRound (s : ChaCha) : ChaCha := (diagonalize s.round).round.undiagonalize

/-- The initial state: constants, key, 64-bit block counter, stream number 0. -/
def init (key : V4 × V4) (ctr : BitVec 64) : ChaCha :=
  ⟨⟨0x61707865#32, 0x3320646e#32, 0x79622d32#32, 0x6b206574#32⟩, key.1, key.2,
   ⟨ctr.truncate 32, (ctr >>> 32).truncate 32, 0#32, 0#32⟩⟩

/-- The 16 words of a block with 12 rounds. -/
def block12 (key : V4 × V4) (ctr : BitVec 64) : List (BitVec 32) :=
  let s := init key ctr
  let r := s.doubleRound.doubleRound.doubleRound.doubleRound.doubleRound.doubleRound
  (r.a.add s.a).toList ++ (r.b.add s.b).toList ++ (r.c.add s.c).toList ++ (r.d.add s.d).toList

end ChaCha

/-! ## `StdRng` -/

/-- `ChaCha12Rng`: `BlockRng` with a buffer of 64 words. -/
structure StdRng where
  key : V4 × V4
  /-- number of the next block to generate -/
  ctr : BitVec 64
  results : List (BitVec 32)
  /-- number of words of the buffer already used -/
  index : Nat

namespace StdRng

/-- `SeedableRng::from_seed`, the seed as eight little-endian words. -/
def fromSeed (key : V4 × V4) : StdRng := ⟨key, 0#64, List.replicate 64 0#32, 64⟩

/-- The step of the PCG generator in `SeedableRng::seed_from_u64`. -/
def pcgStep (s : BitVec 64) : BitVec 64 :=
  s * 6364136223846793005#64 + 11634580027462260723#64

/-- The output function of PCG32 (XSH RR). -/
def pcgOut (s : BitVec 64) : BitVec 32 :=
  ((((s >>> 18) ^^^ s) >>> 27).truncate 32).rotateRight (s >>> 59).toNat

/-- The key made by `seed_from_u64`. -/
def pcgKey (seed : BitVec 64) : V4 × V4 :=
  let s1 := pcgStep seed
  let s2 := pcgStep s1
  let s3 := pcgStep s2
  let s4 := pcgStep s3
  let s5 := pcgStep s4
  let s6 := pcgStep s5
  let s7 := pcgStep s6
  let s8 := pcgStep s7
  (⟨pcgOut s1, pcgOut s2, pcgOut s3, pcgOut s4⟩, ⟨pcgOut s5, pcgOut s6, pcgOut s7, pcgOut s8⟩)

/-- `SeedableRng::seed_from_u64`. -/
def seedFromU64 (seed : BitVec 64) : StdRng := fromSeed (pcgKey seed)

/-- The four blocks that fill the buffer. -/
def fourBlocks (key : V4 × V4) (ctr : BitVec 64) : List (BitVec 32) :=
  ChaCha.block12 key ctr ++ ChaCha.block12 key (ctr + 1#64) ++ ChaCha.block12 key (ctr + 2#64) ++
    ChaCha.block12 key (ctr + 3#64)

/-- `BlockRng::generate_and_set`. -/
def refill (r : StdRng) (index : Nat) : StdRng :=
  { r with ctr := r.ctr + 4#64, results := fourBlocks r.key r.ctr, index := index }

/-- A word of the buffer. -/
def word (r : StdRng) (i : Nat) : BitVec 32 := r.results.getD i 0#32

/-- A `u64` from its low and high words. -/
def join (lo hi : BitVec 32) : BitVec 64 := hi ++ lo

/-- `BlockRng::next_u64`, which is `rng.gen::<u64>()`. -/
def nextU64 (r : StdRng) : BitVec 64 × StdRng :=
  if r.index < 63 then
    (join (r.word r.index) (r.word (r.index + 1)), { r with index := r.index + 2 })
  else if 64 ≤ r.index then
    let r := r.refill 2
    (join (r.word 0) (r.word 1), r)
  else
    let lo := r.word 63
    let r := r.refill 1
    (join lo (r.word 0), r)

end StdRng

/-! ## The initialiser of `ZOBRIST_TABLE`, for any generator -/

section
variable {σ : Type} (next : σ → BitVec 64 × σ)

/-- The triples in the order of the nested loops over squares, colours and kinds
(/repo/src/zobrist.rs:70-72). -/
def boardSlots : List (Square × Color × PieceKind) :=
  Square.all.flatMap fun sq => Color.all.flatMap fun c => PieceKind.all.map fun pk => (sq, c, pk)

/-- The triples in the order of the nested loops over colours, kinds and numbers
(/repo/src/zobrist.rs:78-80). -/
def handSlots : List (Color × PieceKind × Nat) :=
  Color.all.flatMap fun c => Hand.allHandPieces.flatMap fun pk =>
    (List.range maxHandNum).map fun n => (c, pk, n)

/-- One iteration of the loop body (/repo/src/zobrist.rs:73-74, 81): an array element is set to the
next number.  (The mask `& !Key::COLOR` is applied in `Env.zobBoard`, `Env.zobHand`.) -/
def fillSlot {ι : Type} [DecidableEq ι] (st : (ι → BitVec 64) × σ) (i : ι) :
    (ι → BitVec 64) × σ :=
  let (x, r) := next st.2
  (fun j => if j = i then x else st.1 j, r)

/-- The array `board` and the generator after the first loop (/repo/src/zobrist.rs:67-77). -/
def fillBoard (r : σ) : (Square × Color × PieceKind → BitVec 64) × σ :=
  boardSlots.foldl (fillSlot next) (fun _ => 0#64, r)

/-- The array `hands` (/repo/src/zobrist.rs:68, 78-84). -/
def fillHands (r : σ) : (Color × PieceKind × Nat → BitVec 64) × σ :=
  handSlots.foldl (fillSlot next) (fun _ => 0#64, r)

/-- The environment with the table drawn from a generator. -/
def Env.ofRng (r : σ) (overflowChecks : Bool) : Env where
  rngBoard sq c pk := (fillBoard next r).1 (sq, c, pk)
  rngHand c pk n := (fillHands next (fillBoard next r).2).1 (c, pk, n)
  overflowChecks := overflowChecks

end

/-- The environment of the code: `StdRng::seed_from_u64(2022)` (/repo/src/zobrist.rs:69). -/
def stdEnv (overflowChecks : Bool) : Env :=
  Env.ofRng StdRng.nextU64 (StdRng.seedFromU64 2022#64) overflowChecks

end Yasai

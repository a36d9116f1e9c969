import Verif.Model.Tables
import Verif.Model.Simd

/-!
# The initialisers of the static tables

`Model/Tables.lean` gives each table entry by a function.  Here the loops that fill the tables are
written out: arrays are functions of the index, `for` loops are folds, `x[i] = v` is `upd`.
Index types are squares, colours and small numbers; where the index is a computed number, an index
out of bounds is `none`.
-/

namespace Yasai

/-- `a[i] = v`. -/
def upd {ι α : Type} [DecidableEq ι] (a : ι → α) (i : ι) (v : α) : ι → α :=
  fun j => if j = i then v else a j

/-! ## tables.rs -/

/-- `PieceAttackTable::new` (/repo/src/tables.rs:42-54). -/
def pieceTableNew (K : Backend) (deltas : Color → List Delta) : Square × Color → BB :=
  Square.all.foldl (fun table sq =>
    Color.all.foldl (fun table color =>
      (deltas color).foldl (fun table delta =>
        match sq.shift delta.file delta.rank with
        | some to => upd table (sq, color) (K.or (table (sq, color)) (K.single to))
        | none => table) table) table) (fun _ => K.empty)

/-- `LanceAttackTable::new` (/repo/src/tables.rs:80-94). -/
def lanceTableNew (K : Backend) : Square × Color → BB :=
  Square.all.foldl (fun masks sq =>
    Color.all.foldl (fun masks c =>
      upd masks (sq, c) (slidingAttack K sq K.empty
        (match c with
          | .black => Delta.N
          | .white => Delta.S))) masks) (fun _ => K.empty)

/-- `SlidingAttackTable` (/repo/src/tables.rs:109-112). -/
structure SlidingTable where
  masks : Square × Nat × Nat → BB
  mergedMasks : Square → BB

/-- `SlidingAttackTable::new` (/repo/src/tables.rs:115-132). -/
def SlidingTable.new (K : Backend) (deltas : List (List Delta)) : SlidingTable :=
  Square.all.foldl (fun (T : SlidingTable) sq =>
    let (masks, mergedMask) :=
      deltas.zipIdx.foldl (fun (acc : (Square × Nat × Nat → BB) × BB) (dsi : List Delta × Nat) =>
        dsi.1.zipIdx.foldl (fun (acc : (Square × Nat × Nat → BB) × BB) (dj : Delta × Nat) =>
          let masks := upd acc.1 (sq, dsi.2, dj.2) (slidingAttack K sq K.empty dj.1)
          (masks, K.or acc.2 (masks (sq, dsi.2, dj.2)))) acc) (T.masks, K.empty)
    ⟨masks, upd T.mergedMasks sq mergedMask⟩) ⟨fun _ => K.empty, fun _ => K.empty⟩

/-- `AttackTable` (/repo/src/tables.rs:145-154). -/
structure AttackTable where
  fu : Square × Color → BB
  ky : Square × Color → BB
  ke : Square × Color → BB
  gi : Square × Color → BB
  ka : SlidingTable
  hi : SlidingTable
  ki : Square × Color → BB
  ou : Square × Color → BB

/-- `ATTACK_TABLE` (/repo/src/tables.rs:186-195). -/
def AttackTable.init (K : Backend) : AttackTable where
  fu := pieceTableNew K fuDeltas
  ky := lanceTableNew K
  ke := pieceTableNew K keDeltas
  gi := pieceTableNew K giDeltas
  ka := SlidingTable.new K [[Delta.NE, Delta.SE], [Delta.SW, Delta.NW]]
  hi := SlidingTable.new K [[Delta.N, Delta.E], [Delta.S, Delta.W]]
  ki := pieceTableNew K kiDeltas
  ou := pieceTableNew K ouDeltas

/-- `LanceAttackTable::attack` (/repo/src/tables.rs:100-106). -/
def lanceLookup (K : Backend) (masks : Square × Color → BB) (sq : Square) (c : Color) (occ : BB) : BB :=
  let mask := masks (sq, c)
  match c with
  | .black => K.slidingNegativeConsecutive occ mask
  | .white => K.slidingPositiveConsecutive occ mask

/-- `SlidingAttackTable::attack` (/repo/src/tables.rs:139-142). -/
def SlidingTable.attack (K : Backend) (T : SlidingTable) (sq : Square) (occ : BB) : BB :=
  K.or (K.slidingNegatives occ (T.masks (sq, 0, 0)) (T.masks (sq, 0, 1)))
    (K.slidingPositives occ (T.masks (sq, 1, 0)) (T.masks (sq, 1, 1)))

/-- `AttackTable::attack` (/repo/src/tables.rs:157-174), reading the arrays. -/
def AttackTable.attack (K : Backend) (T : AttackTable) (pk : PieceKind) (sq : Square) (c : Color)
    (occ : BB) : BB :=
  match pk with
  | .pawn => T.fu (sq, c)
  | .lance => lanceLookup K T.ky sq c occ
  | .knight => T.ke (sq, c)
  | .silver => T.gi (sq, c)
  | .bishop => T.ka.attack K sq occ
  | .rook => T.hi.attack K sq occ
  | .gold | .proPawn | .proLance | .proKnight | .proSilver => T.ki (sq, c)
  | .king => T.ou (sq, c)
  | .proBishop => K.or (T.ka.attack K sq occ) (T.ou (sq, c))
  | .proRook => K.or (T.hi.attack K sq occ) (T.ou (sq, c))

/-- `AttackTable::pseudo_attack` (/repo/src/tables.rs:176-183), reading the arrays. -/
def AttackTable.pseudoAttack (K : Backend) (T : AttackTable) (pk : PieceKind) (sq : Square)
    (c : Color) : BB :=
  match pk with
  | .lance => T.ky (sq, c)
  | .bishop | .proBishop => T.ka.mergedMasks sq
  | .rook | .proRook => T.hi.mergedMasks sq
  | pk => T.attack K pk sq c K.empty

/-- A number as `i8`. -/
def i8 (n : Nat) : BitVec 8 := BitVec.ofNat 8 n

/-- `i8::abs`; it panics in debug builds for -128, which does not occur here. -/
def i8abs (x : BitVec 8) : BitVec 8 := if x.slt 0#8 then -x else x

/-- `i8::cmp(&0)`. -/
def i8cmp (x : BitVec 8) : Ordering := if x.slt 0#8 then .lt else if x = 0#8 then .eq else .gt

/-- The body of the loop of `BETWEEN_TABLE` (/repo/src/tables.rs:202-223); `none` is
`unreachable!()`.  The differences of coordinates between 1 and 9 do not overflow. -/
def betweenBody (K : Backend) (bbs : Square × Square → BB) (sq0 sq1 : Square) :
    Option (Square × Square → BB) := do
  let df := i8 sq1.file - i8 sq0.file
  let dr := i8 sq1.rank - i8 sq0.rank
  if (df ||| dr) = 0#8 ∨ (df ≠ 0#8 ∧ dr ≠ 0#8 ∧ i8abs df ≠ i8abs dr) then
    return bbs
  let delta ←
    match i8cmp df, i8cmp dr with
    | .eq, .lt => some Delta.N
    | .lt, .eq => some Delta.E
    | .eq, .gt => some Delta.S
    | .gt, .eq => some Delta.W
    | .lt, .lt => some Delta.NE
    | .lt, .gt => some Delta.SE
    | .gt, .gt => some Delta.SW
    | .gt, .lt => some Delta.NW
    | _, _ => none
  return upd bbs (sq0, sq1)
    (K.and (slidingAttack K sq0 (K.single sq1) delta) (K.not (K.single sq1)))

/-- `BETWEEN_TABLE` (/repo/src/tables.rs:198-226). -/
def betweenInit (K : Backend) : Option (Square × Square → BB) :=
  Square.all.foldlM (fun bbs sq0 => Square.all.foldlM (fun bbs sq1 => betweenBody K bbs sq0 sq1) bbs)
    (fun _ => K.empty)

/-- The loop of `RELATIVE_RANKS` (/repo/src/tables.rs:228-236). -/
def relativeRanksInit : Square × Color → Nat :=
  Square.all.foldl (fun ranks sq =>
    Color.all.foldl (fun ranks c => upd ranks (sq, c) (sq.relativeRank c)) ranks) (fun _ => 0)

/-- The loop of `PROMOTABLE` (/repo/src/tables.rs:238-248), which reads `RELATIVE_RANKS`. -/
def promotableInit (ranks : Square × Color → Nat) : Square × Color → Bool :=
  Square.all.foldl (fun table sq =>
    Color.all.foldl (fun table c => if ranks (sq, c) ≤ 3 then upd table (sq, c) true else table)
      table) (fun _ => false)

/-- The loop of `FILES` (/repo/src/tables.rs:250-256), an array of 10 entries. -/
def filesInit (K : Backend) : Option (Nat → BB) :=
  Square.all.foldlM (fun bbs sq =>
    if sq.file < 10 then some (upd bbs sq.file (K.or (bbs sq.file) (K.single sq))) else none)
    (fun _ => K.empty)

/-! ## The constants of the bitboard files -/

/-- `let mut i = 0; while i < n { values[i] = f(i); i += 1 }`. -/
def constLoop (n : Nat) (init : BB) (f : Nat → BB) : Nat → BB :=
  (List.range n).foldl (fun values i => upd values i (f i)) (fun _ => init)

/-- `SINGLE_VALUES` / `SINGLES` (/repo/src/bitboard/x86_64.rs:7-19, aarch64.rs:7-19, wasm32.rs:6-18). -/
def singleValues : Nat → BB :=
  constLoop 81 (mk64 0#64 0#64) fun i =>
    if i < 63 then mk64 0#64 (1#64 <<< i) else mk64 (1#64 <<< (i - 63)) 0#64

/-- `MASKED_VALUES` (/repo/src/bitboard/aarch64.rs:21-30, wasm32.rs:20-29): `u as u64` and
`(u >> 64) as u64` of `(1_u128 << i) - 1`. -/
def maskedValuesInit : Nat → BB :=
  constLoop 83 (mk64 0#64 0#64) fun i =>
    let u : BitVec 128 := (1#128 <<< i) - 1#128
    mk64 ((u >>> 64).truncate 64) (u.truncate 64)

/-- `MASKED_BBS` (/repo/src/bitboard/core.rs:11-20). -/
def maskedBBsInit (J : Junk) : Nat → BB :=
  let mask : BitVec 128 := 0x0003ffff7fffffffffffffff#128
  constLoop 83 0#128 fun i => fromU128Unchecked J (mask &&& ((1#128 <<< i) - 1#128))

end Yasai

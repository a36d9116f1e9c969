import Verif.Model.Bits

/-!
# Attack tables: /repo/src/tables.rs

Lazy static tables are modelled by functions computing the entry that the initialiser stores.
-/

namespace Yasai

/-- `Delta` (/repo/src/tables.rs:6-10). -/
structure Delta where
  file : Int
  rank : Int
deriving DecidableEq, Repr

namespace Delta
/-! Constants of /repo/src/tables.rs:14-25. -/
def N : Delta := ⟨0, -1⟩
def E : Delta := ⟨-1, 0⟩
def S : Delta := ⟨0, 1⟩
def W : Delta := ⟨1, 0⟩
def NE : Delta := ⟨-1, -1⟩
def SE : Delta := ⟨-1, 1⟩
def SW : Delta := ⟨1, 1⟩
def NW : Delta := ⟨1, -1⟩
def NNE : Delta := ⟨-1, -2⟩
def NNW : Delta := ⟨1, -2⟩
def SSE : Delta := ⟨-1, 2⟩
def SSW : Delta := ⟨1, 2⟩
end Delta

open Delta in
/-- `BFU_DELTAS`, `WFU_DELTAS` (/repo/src/tables.rs:31-32). -/
def fuDeltas : Color → List Delta
  | .black => [N]
  | .white => [S]

open Delta in
/-- `BKE_DELTAS`, `WKE_DELTAS` (/repo/src/tables.rs:33-34). -/
def keDeltas : Color → List Delta
  | .black => [NNE, NNW]
  | .white => [SSE, SSW]

open Delta in
/-- `BGI_DELTAS`, `WGI_DELTAS` (/repo/src/tables.rs:35-36). -/
def giDeltas : Color → List Delta
  | .black => [N, NE, SE, SW, NW]
  | .white => [S, NE, SE, SW, NW]

open Delta in
/-- `BKI_DELTAS`, `WKI_DELTAS` (/repo/src/tables.rs:37-38). -/
def kiDeltas : Color → List Delta
  | .black => [N, E, S, W, NE, NW]
  | .white => [N, E, S, W, SE, SW]

open Delta in
/-- `BOU_DELTAS`, `WOU_DELTAS` (/repo/src/tables.rs:39-40). -/
def ouDeltas : Color → List Delta
  | .black => [N, E, S, W, NE, SE, SW, NW]
  | .white => [N, E, S, W, NE, SE, SW, NW]

/-- One entry of `PieceAttackTable::new` and `attack` (/repo/src/tables.rs:42-58). -/
def pieceAttack (K : Backend) (deltas : Color → List Delta) (sq : Square) (c : Color) : BB :=
  (deltas c).foldl (fun acc d =>
    match sq.shift d.file d.rank with
    | some to => K.or acc (K.single to)
    | none => acc) K.empty

/-- The `while let` loop of `sliding_attack` (/repo/src/tables.rs:65-71), with fuel.  A ray has at
most 8 squares, so 9 units of fuel never run out (`slidingAttackLoop_fuel`). -/
def slidingAttackLoop (K : Backend) (occ : BB) (d : Delta) : Nat → BB → Option Square → BB
  | 0, bb, _ => bb
  | _ + 1, bb, none => bb
  | n + 1, bb, some to =>
    let bb := K.or bb (K.single to)
    if K.contains occ to then bb
    else slidingAttackLoop K occ d n bb (to.shift d.file d.rank)

/-- `sliding_attack` (/repo/src/tables.rs:62-73). -/
def slidingAttack (K : Backend) (sq : Square) (occ : BB) (d : Delta) : BB :=
  slidingAttackLoop K occ d 9 K.empty (sq.shift d.file d.rank)

/-- The direction chosen in `LanceAttackTable::new` (/repo/src/tables.rs:84-87). -/
def lanceDelta : Color → Delta
  | .black => Delta.N
  | .white => Delta.S

/-- `LanceAttackTable::masks` and `pseudo_attack` (/repo/src/tables.rs:80-98). -/
def kyPseudoAttack (K : Backend) (sq : Square) (c : Color) : BB :=
  slidingAttack K sq K.empty (lanceDelta c)

/-- `LanceAttackTable::attack` (/repo/src/tables.rs:100-106). -/
def kyAttack (K : Backend) (sq : Square) (c : Color) (occ : BB) : BB :=
  let mask := kyPseudoAttack K sq c
  match c with
  | .black => K.slidingNegativeConsecutive occ mask
  | .white => K.slidingPositiveConsecutive occ mask

/-- The four directions of a `SlidingAttackTable`: `[[neg0, neg1], [pos0, pos1]]`
(/repo/src/tables.rs:115). -/
structure SlideDirs where
  neg0 : Delta
  neg1 : Delta
  pos0 : Delta
  pos1 : Delta

/-- Bishop directions (/repo/src/tables.rs:191). -/
def kaDirs : SlideDirs := ⟨Delta.NE, Delta.SE, Delta.SW, Delta.NW⟩

/-- Rook directions (/repo/src/tables.rs:192). -/
def hiDirs : SlideDirs := ⟨Delta.N, Delta.E, Delta.S, Delta.W⟩

/-- `SlidingAttackTable::pseudo_attack`: the merged mask (/repo/src/tables.rs:118-127,135-137). -/
def slidingPseudoAttack (K : Backend) (D : SlideDirs) (sq : Square) : BB :=
  K.or (K.or (K.or (K.or K.empty (slidingAttack K sq K.empty D.neg0))
    (slidingAttack K sq K.empty D.neg1)) (slidingAttack K sq K.empty D.pos0))
    (slidingAttack K sq K.empty D.pos1)

/-- `SlidingAttackTable::attack` (/repo/src/tables.rs:139-142). -/
def slidingTableAttack (K : Backend) (D : SlideDirs) (sq : Square) (occ : BB) : BB :=
  K.or
    (K.slidingNegatives occ (slidingAttack K sq K.empty D.neg0) (slidingAttack K sq K.empty D.neg1))
    (K.slidingPositives occ (slidingAttack K sq K.empty D.pos0) (slidingAttack K sq K.empty D.pos1))

/-! The fields of `ATTACK_TABLE` (/repo/src/tables.rs:186-195). -/

def fuAttack (K : Backend) : Square → Color → BB := pieceAttack K fuDeltas
def keAttack (K : Backend) : Square → Color → BB := pieceAttack K keDeltas
def giAttack (K : Backend) : Square → Color → BB := pieceAttack K giDeltas
def kiAttack (K : Backend) : Square → Color → BB := pieceAttack K kiDeltas
def ouAttack (K : Backend) : Square → Color → BB := pieceAttack K ouDeltas
def kaAttack (K : Backend) : Square → BB → BB := slidingTableAttack K kaDirs
def hiAttack (K : Backend) : Square → BB → BB := slidingTableAttack K hiDirs

/-- `AttackTable::attack` (/repo/src/tables.rs:157-174). -/
def tableAttack (K : Backend) (pk : PieceKind) (sq : Square) (c : Color) (occ : BB) : BB :=
  match pk with
  | .pawn => fuAttack K sq c
  | .lance => kyAttack K sq c occ
  | .knight => keAttack K sq c
  | .silver => giAttack K sq c
  | .bishop => kaAttack K sq occ
  | .rook => hiAttack K sq occ
  | .gold | .proPawn | .proLance | .proKnight | .proSilver => kiAttack K sq c
  | .king => ouAttack K sq c
  | .proBishop => K.or (kaAttack K sq occ) (ouAttack K sq c)
  | .proRook => K.or (hiAttack K sq occ) (ouAttack K sq c)

/-- `AttackTable::pseudo_attack` (/repo/src/tables.rs:176-183). -/
def tablePseudoAttack (K : Backend) (pk : PieceKind) (sq : Square) (c : Color) : BB :=
  match pk with
  | .lance => kyPseudoAttack K sq c
  | .bishop | .proBishop => slidingPseudoAttack K kaDirs sq
  | .rook | .proRook => slidingPseudoAttack K hiDirs sq
  | pk => tableAttack K pk sq c K.empty

/-- The direction computed in `BETWEEN_TABLE` from the signs of the coordinate differences
(/repo/src/tables.rs:210-220). -/
def betweenDelta (df dr : Int) : Option Delta :=
  if df = 0 then
    if dr < 0 then some Delta.N else if dr > 0 then some Delta.S else none
  else if df < 0 then
    if dr = 0 then some Delta.E else if dr < 0 then some Delta.NE else some Delta.SE
  else
    if dr = 0 then some Delta.W else if dr > 0 then some Delta.SW else some Delta.NW

/-- `BETWEEN_TABLE[sq0][sq1]` (/repo/src/tables.rs:198-226).  `df | dr == 0` is
`(df | dr) == 0`, i.e. both are zero; the `unreachable!()` arm is `none` of `betweenDelta` and is
excluded by that test. -/
def betweenTable (K : Backend) (sq0 sq1 : Square) : BB :=
  let df : Int := (sq1.file : Int) - sq0.file
  let dr : Int := (sq1.rank : Int) - sq0.rank
  if (df = 0 ∧ dr = 0) ∨ (df ≠ 0 ∧ dr ≠ 0 ∧ df.natAbs ≠ dr.natAbs) then K.empty
  else
    match betweenDelta df dr with
    | some d => K.and (slidingAttack K sq0 (K.single sq1) d) (K.not (K.single sq1))
    | none => K.empty

/-- `RELATIVE_RANKS` (/repo/src/tables.rs:228-236). -/
def relativeRanks (sq : Square) (c : Color) : Nat := sq.relativeRank c

/-- `PROMOTABLE` (/repo/src/tables.rs:238-248). -/
def promotable (sq : Square) (c : Color) : Bool := decide (relativeRanks sq c ≤ 3)

/-- `FILES[f]` (/repo/src/tables.rs:250-256). -/
def filesTable (K : Backend) (f : Nat) : BB :=
  Square.all.foldl (fun acc sq => if sq.file = f then K.or acc (K.single sq) else acc) K.empty

end Yasai

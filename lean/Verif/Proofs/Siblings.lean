import Verif.Proofs.Separate

/-!
# Proofs: the changes of the board key made by the moves of one side
-/

set_option exponentiation.threshold 4000

namespace Yasai.Proofs

open Yasai Spec Lanes

/-- 39 bits of number `n`: enough to tell the changes apart. -/
def small (n : Nat) : Nat := half n % 2 ^ 39

/-- Entry `j` of all squares. -/
def sPack (j : Nat) : Nat := pack 40 (fun s => small (28 * s + j)) 81

/-- Entry `j` of all squares; 0 for `j = 28`. -/
def sCol (j : Nat) : Nat := bif Nat.beq j 28 then 0 else sPack j

/-- The distances, as differences of square numbers, over which a piece of kind `k` moves in one
direction or the other. -/
def absOffs : Nat → List Nat
  | 0 => [1]
  | 1 => [1, 2, 3, 4, 5, 6, 7, 8]
  | 2 => [7, 11]
  | 3 => [1, 8, 10]
  | 5 => [8, 16, 24, 32, 40, 48, 56, 64, 10, 20, 30, 50, 60, 70, 80]
  | 6 => [1, 2, 3, 4, 5, 6, 7, 8, 9, 18, 27, 36, 45, 54, 63, 72]
  | 12 => [8, 16, 24, 32, 40, 48, 56, 64, 10, 20, 30, 50, 60, 70, 80, 1, 9]
  | 13 => [1, 2, 3, 4, 5, 6, 7, 8, 9, 18, 27, 36, 45, 54, 63, 72, 10]
  | _ => [1, 8, 9, 10]

/-- The distances over which a piece moves to a higher square number (`up`) or to a lower one. -/
def offs (c : Color) (up : Bool) (k : Nat) : List Nat :=
  match k, (match c with | .black => up | .white => !up) with
  | 0, true => []
  | 1, true => []
  | 2, true => [7]
  | 2, false => [11]
  | 3, true => [8, 10]
  | 4, true | 8, true | 9, true | 10, true | 11, true => [1, 9, 8]
  | 4, false | 8, false | 9, false | 10, false | 11, false => [1, 9, 10]
  | k, _ => absOffs k

/-- The kind after promotion. -/
def proNo : Nat → List Nat
  | 0 => [8]
  | 1 => [9]
  | 2 => [10]
  | 3 => [11]
  | 5 => [12]
  | 6 => [13]
  | _ => []

/-- Blocks of changes: a drop; a move without capture or promotion, in either direction; any other
move, with the contents of the destination and the kinds before and after. -/
inductive SKey where
  | drop (k : Nat)
  | quiet (k o : Nat)
  | move (q k k' : Nat) (up : Bool) (o : Nat)

/-- Lane `i` is the XOR of lane `i` of `a` and lane `i + o` of `b`. -/
def shifted (a b o : Nat) : Nat × Nat :=
  (81 - o, (a ^^^ (b >>> (40 * o))) % 2 ^ (40 * (81 - o)))

/-- The lanes of a block, for the side with offset `c` (0 or 14). -/
def sblock (c : Nat) : SKey → Nat × Nat
  | .drop k => (81, sCol (c + k))
  | .quiet k o => shifted (sCol (c + k)) (sCol (c + k)) o
  | .move q k k' up o =>
    bif up then shifted (sCol (c + k)) (sCol (c + k') ^^^ sCol q) o
    else shifted (sCol (c + k') ^^^ sCol q) (sCol (c + k)) o

/-- The moves of kind `k` to a destination with contents `q`. -/
def moveKeys (c : Color) (q k : Nat) : List SKey :=
  (bif Nat.beq q 28 then proNo k else k :: proNo k).flatMap fun k' =>
    (offs c true k).map (.move q k k' true) ++ (offs c false k).map (.move q k k' false)

/-- The kinds by number. -/
def kindNos : List Nat := [0, 1, 2, 3, 4, 5, 6, 7, 8, 9, 10, 11, 12, 13]

/-- The contents of a destination: empty or a piece of the other side. -/
def contents : Color → List Nat
  | .black => [28, 14, 15, 16, 17, 18, 19, 20, 21, 22, 23, 24, 25, 26, 27]
  | .white => [28, 0, 1, 2, 3, 4, 5, 6, 7, 8, 9, 10, 11, 12, 13]

/-- All blocks of changes by the moves of a side. -/
def skeys (c : Color) : List SKey :=
  [0, 1, 2, 3, 4, 5, 6].map .drop ++
    (kindNos.flatMap (fun k => (absOffs k).map (.quiet k)) ++
      (contents c).flatMap fun q => kindNos.flatMap fun k => moveKeys c q k)

/-- Offset of the entries of a side. -/
def base14 : Color → Nat
  | .black => 0
  | .white => 14

/-- Whether all changes by moves of a side are different. -/
def sibCheck (c : Color) (n : Nat) : Bool :=
  distinctBlocks 40 20 network ((skeys c).map (sblock (base14 c))) n

end Yasai.Proofs

import Verif.Model.Movegen
import Verif.Model.Backends

/-!
# The same code with the contracts checked

A second transcription of the functions that reach an operation with a contract:
`Square::from_u8_unchecked`, `Bitboard::from_u128_unchecked` and the indexing of the constant tables
of the bitboards.  Here a call outside the contract ends the run with `broken`, instead of going on
with some value.  `K` is used only for operations without a contract (`tablePseudoAttack` never
reaches the sliding operations), everything else comes from `C`, which knows no `Junk`.

The iterators are lazy in Rust; here `iter` makes all the calls at once, so a run that is not
`broken` makes only calls within the contract however many elements are asked for
(`C79_early_exit`).
-/

namespace Yasai

/-- How a call ends: with a value, with a panic, or at the first call outside a contract. -/
inductive Watched (α : Type) where
  | ok (a : α)
  | panic
  | broken
  deriving DecidableEq

namespace Watched

/-- Sequencing: a panic or a broken contract ends the run. -/
def bind {α β : Type} : Watched α → (α → Watched β) → Watched β
  | ok a, f => f a
  | panic, _ => panic
  | broken, _ => broken

instance : Monad Watched where
  pure := ok
  bind := Watched.bind

/-- A part of the model that cannot break a contract. -/
def lift {α : Type} : Option α → Watched α
  | some a => ok a
  | none => panic

end Watched

/-! ## The three operations with a contract -/

/-- `table[i]` for a constant table with `len` entries. -/
def readTableC (len : Nat) (table : Nat → BB) (i : Nat) : Watched BB :=
  if i < len then .ok (table i) else .broken

/-- `Bitboard::from_u128_unchecked`. -/
def fromU128UncheckedC (x : BB) : Watched BB := if x &&& ~~~allBits = 0#128 then .ok x else .broken

/-- `Square::from_u8_unchecked`. -/
def fromU8UncheckedC (n : Nat) : Watched Square :=
  if h : 1 ≤ n ∧ n ≤ 81 then .ok ⟨n - 1, by omega⟩ else .broken

/-! ## Bitboards -/

/-- The operations of a build that contain such calls. -/
structure Checked where
  iter : BB → Watched (List Square)
  slidingPositiveConsecutive : BB → BB → Watched BB
  slidingNegativeConsecutive : BB → BB → Watched BB
  slidingPositives : BB → BB → BB → Watched BB
  slidingNegatives : BB → BB → BB → Watched BB
  vacantFiles : Bool → BB → Watched BB

namespace CoreBB

/-- `sliding_positive` (/repo/src/bitboard/core.rs:26-30). -/
def slidingPositiveC (bb mask : BB) : Watched BB := do
  let tz := trailingZeros ((bb &&& mask) ||| bb9I)
  let e ← readTableC 83 maskedBBs (tz + 1)
  pure (mask &&& e)

/-- `sliding_negative` (/repo/src/bitboard/core.rs:36-40). -/
def slidingNegativeC (bb mask : BB) : Watched BB := do
  let lz := leadingZeros ((bb &&& mask) ||| bb1A)
  let e ← readTableC 83 maskedBBs (usizeSub 127 lz)
  pure (mask &&& not e)

/-- `vacant_files` (/repo/src/bitboard/core.rs:68-77). -/
def vacantFilesC (overflowChecks : Bool) (b : BB) : Watched BB := do
  let bb ← Watched.lift (checkedSub overflowChecks vacantMask b)
  let bb ← fromU128UncheckedC bb
  let r ← Watched.lift (checkedSub overflowChecks vacantMask (shiftUp bb 8))
  let r ← fromU128UncheckedC r
  pure (vacantMask ^^^ r)

/-- The portable backend; its iterator is that of `shogi_core`. -/
def checked : Checked where
  iter b := .ok (Square.all.filter (contains b))
  slidingPositiveConsecutive := slidingPositiveC
  slidingNegativeConsecutive := slidingNegativeC
  slidingPositives bb m0 m1 := do
    let a ← slidingPositiveC bb m0
    let b ← slidingPositiveC bb m1
    pure (a ||| b)
  slidingNegatives bb m0 m1 := do
    let a ← slidingNegativeC bb m0
    let b ← slidingNegativeC bb m1
    pure (a ||| b)
  vacantFiles := vacantFilesC

end CoreBB

/-- `SquareIterator` (/repo/src/bitboard/x86_64.rs:226-257, /repo/src/bitboard/aarch64.rs:201-232,
/repo/src/bitboard/wasm32.rs:172-203). -/
def simdIterC (b : BB) : Watched (List Square) := do
  let lo ← (popAll 64 (lo64 b)).mapM fun n => fromU8UncheckedC (n + 1)
  let hi ← (popAll 64 (hi64 b)).mapM fun n => fromU8UncheckedC (n + 64)
  pure (lo ++ hi)

/-- `sliding_positive` (/repo/src/bitboard/aarch64.rs:70-83, wasm32.rs:66-74). -/
def simdSlidingPositiveC (b mask : BB) : Watched BB := do
  let m := b &&& mask
  let tz := if lo64 m = 0#64 then trailingZeros (hi64 m ||| 0x00020000#64) + 64
    else trailingZeros (lo64 m)
  let e ← readTableC 83 simdMaskedValues (tz + 1)
  pure (mask &&& e)

/-- `sliding_negative` (/repo/src/bitboard/aarch64.rs:84-97, wasm32.rs:75-86). -/
def simdSlidingNegativeC (b mask : BB) : Watched BB := do
  let m := b &&& mask
  let lz := if hi64 m = 0#64 then leadingZeros (lo64 m ||| 1#64) + 64 else leadingZeros (hi64 m)
  let e ← readTableC 83 simdMaskedValues (usizeSub 127 lz)
  pure (mask &&& ~~~e)

namespace X86

/-- `sliding_negatives` (/repo/src/bitboard/x86_64.rs:128-153). -/
def slidingNegativesC (b m0 m1 : BB) : Watched BB := do
  let self256 : V256 := (b, b)
  let mask256 : V256 := (m0, m1)
  let masked := map2 (· &&& ·) self256 mask256
  let mv : BitVec 32 := zeroByteMask masked.1 ++ zeroByteMask masked.2
  let e0 ← readTableC 16 maskedVectors
    (usizeSub 15 (leadingZeros ((mv ^^^ 0xffffffff#32) ||| 0x00010000#32)))
  let e1 ← readTableC 16 maskedVectors
    (usizeSub 31 (leadingZeros (((mv &&& 0xffff#32) ^^^ 0xffff#32) ||| 0x0001#32)))
  let m := masked
  let m := map2 (· ||| ·) m (srl16 m.1 1, srl16 m.2 1)
  let m := map2 (· ||| ·) m (srl16 m.1 2, srl16 m.2 2)
  let m := map2 (· ||| ·) m (srl16 m.1 4, srl16 m.2 4)
  let m := map2 (· ||| ·) (srl16 m.1 1, srl16 m.2 1) (e0, e1)
  let ret := map2 andnot m mask256
  pure (ret.2 ||| ret.1)

/-- The x86_64 backend. -/
def checked : Checked where
  iter := simdIterC
  slidingPositiveConsecutive b m := .ok (simdSlidingPositiveConsecutive b m)
  slidingNegativeConsecutive b m := .ok (simdSlidingNegativeConsecutive b m)
  slidingPositives b m0 m1 := .ok (slidingPositives b m0 m1)
  slidingNegatives := slidingNegativesC
  vacantFiles _ b := .ok (simdVacantFiles b)

end X86

/-- `sliding_positives` and `sliding_negatives` of /repo/src/bitboard/aarch64.rs:128-135 and
/repo/src/bitboard/wasm32.rs:110-117. -/
def simdTwo (f : BB → BB → Watched BB) (b m0 m1 : BB) : Watched BB := do
  let x ← f b m0
  let y ← f b m1
  pure (x ||| y)

/-- The aarch64 backend. -/
def Aarch64.checked : Checked where
  iter := simdIterC
  slidingPositiveConsecutive b m := .ok (simdSlidingPositiveConsecutive b m)
  slidingNegativeConsecutive b m := .ok (simdSlidingNegativeConsecutive b m)
  slidingPositives := simdTwo simdSlidingPositiveC
  slidingNegatives := simdTwo simdSlidingNegativeC
  vacantFiles _ b := .ok (simdVacantFiles b)

/-- The wasm32 backend. -/
def Wasm32.checked : Checked where
  iter := simdIterC
  slidingPositiveConsecutive b m := .ok (simdSlidingPositiveConsecutive b m)
  slidingNegativeConsecutive := simdSlidingNegativeC
  slidingPositives := simdTwo simdSlidingPositiveC
  slidingNegatives := simdTwo simdSlidingNegativeC
  vacantFiles _ b := .ok (simdVacantFiles b)

/-! ## Attack tables (/repo/src/tables.rs:100-106,139-142) -/

section
variable (K : Backend) (C : Checked)

/-- `LanceAttackTable::attack`. -/
def kyAttackC (sq : Square) (c : Color) (occ : BB) : Watched BB :=
  let mask := kyPseudoAttack K sq c
  match c with
  | .black => C.slidingNegativeConsecutive occ mask
  | .white => C.slidingPositiveConsecutive occ mask

/-- `SlidingAttackTable::attack`. -/
def slidingTableAttackC (D : SlideDirs) (sq : Square) (occ : BB) : Watched BB := do
  let n ← C.slidingNegatives occ (slidingAttack K sq K.empty D.neg0) (slidingAttack K sq K.empty D.neg1)
  let p ← C.slidingPositives occ (slidingAttack K sq K.empty D.pos0) (slidingAttack K sq K.empty D.pos1)
  pure (K.or n p)

def kaAttackC : Square → BB → Watched BB := slidingTableAttackC K C kaDirs
def hiAttackC : Square → BB → Watched BB := slidingTableAttackC K C hiDirs

/-! ## Positions (/repo/src/position.rs) -/

namespace PartialPosition

/-- `king_position` (/repo/src/position.rs:302-306). -/
def kingPositionC (q : PartialPosition) (c : Color) : Watched (Option Square) := do
  let l ← C.iter (K.and (q.playerBB c) (q.pieceBB .king))
  pure l.head?

end PartialPosition

namespace AttackInfo

/-- The pinned pieces in `AttackInfo::new` (/repo/src/position.rs:363-377). -/
def pinnedOfC (q : PartialPosition) (c : Color) : Watched BB := do
  match ← q.kingPositionC K C c with
  | some sq => do
    let l ← C.iter (snipers K q c sq)
    pure (l.foldl (fun acc sniper =>
      let blockers := K.and (betweenTable K sq sniper) (q.occupiedBB K)
      if K.count blockers = 1 then K.or acc blockers else acc) K.empty)
  | none => pure K.empty

/-- The array literal of `AttackInfo::new` (/repo/src/position.rs:379-409). -/
def checkablesOfC (q : PartialPosition) : Watched (PieceKind → BB) := do
  let opp := q.side.flip
  let occ := q.occupiedBB K
  match ← q.kingPositionC K C opp with
  | some sq => do
    let ka ← kaAttackC K C sq occ
    let hi ← hiAttackC K C sq occ
    let ki := kiAttack K sq opp
    let gi := giAttack K sq opp
    let ky ← kyAttackC K C sq opp occ
    pure fun pk =>
      match pk with
      | .pawn => fuAttack K sq opp
      | .lance => ky
      | .knight => keAttack K sq opp
      | .silver => gi
      | .gold => ki
      | .bishop => ka
      | .rook => hi
      | .king => K.empty
      | .proPawn => ki
      | .proLance => ki
      | .proKnight => ki
      | .proSilver => ki
      | .proBishop => K.or ka ki
      | .proRook => K.or hi gi
  | none => pure fun _ => K.empty

/-- `AttackInfo::new` (/repo/src/position.rs:359-411). -/
def newC (checkers : BB) (q : PartialPosition) : Watched AttackInfo := do
  let black ← pinnedOfC K C q .black
  let white ← pinnedOfC K C q .white
  let checkables ← checkablesOfC K C q
  pure
    { checkers := checkers
      checkables := checkables
      pinned := fun c => match c with
        | .black => black
        | .white => white }

/-- `AttackInfo::calculate_checkers` (/repo/src/position.rs:413-430). -/
def calculateCheckersC (q : PartialPosition) : Watched BB := do
  let c := q.side
  let occ := q.occupiedBB K
  match ← q.kingPositionC K C c with
  | some sq => do
    let ky ← kyAttackC K C sq c occ
    let ka ← kaAttackC K C sq occ
    let hi ← hiAttackC K C sq occ
    pure (K.and
      (K.or (K.or (K.or (K.or (K.or (K.or
        (K.and (fuAttack K sq c) (q.pieceBB .pawn))
        (K.and ky (q.pieceBB .lance)))
        (K.and (keAttack K sq c) (q.pieceBB .knight)))
        (K.and (giAttack K sq c) (K.or (q.pieceBB .silver) (q.pieceBB .proRook))))
        (K.and ka (K.or (q.pieceBB .bishop) (q.pieceBB .proBishop))))
        (K.and hi (K.or (q.pieceBB .rook) (q.pieceBB .proRook))))
        (K.and (kiAttack K sq c)
          (K.or (K.or (K.or (K.or (K.or (q.pieceBB .gold) (q.pieceBB .proPawn))
            (q.pieceBB .proLance)) (q.pieceBB .proKnight)) (q.pieceBB .proSilver))
            (q.pieceBB .proBishop))))
      (q.playerBB c.flip))
  | none => pure K.empty

end AttackInfo

namespace Position

/-- `Position::new` (/repo/src/position.rs:15-43). -/
def newC (E : Env) (pp : CorePartialPosition) : Watched Position := do
  let inner := PartialPosition.ofCore K pp
  let key0 := newBoardKey E inner
  let key1 ← Watched.lift (newHandKey E inner)
  let checkers ← AttackInfo.calculateCheckersC K C inner
  let info ← AttackInfo.newC K C checkers inner
  pure
    { inner := inner
      states := [{ keys := (key0, key1), captured := none, lastMoved := none,
                   attackInfo := info }] }

/-- `is_check_move` (/repo/src/position.rs:72-96). -/
def isCheckMoveC (p : Position) (m : Move) : Watched Bool :=
  match m with
  | .normal frm to promote => do
    let piece ← Watched.lift (p.inner.pieceAt frm)
    let pk := piece.kind
    let pk := if promote then pk.promote.getD pk else pk
    let st ← Watched.lift p.state
    if checkable K st pk to then pure true
    else
      let c := p.inner.side.flip
      if K.contains (st.attackInfo.pinned c) frm then do
        let king ← p.inner.kingPositionC K C c
        let sq ← Watched.lift king
        pure (!(K.contains (betweenTable K sq frm) to || K.contains (betweenTable K sq to) frm))
      else pure false
  | .drop to piece => do
    let st ← Watched.lift p.state
    pure (checkable K st piece.kind to)

/-- The end of `do_move` (/repo/src/position.rs:167-174). -/
def pushStateC (E : Env) (states : List State) (q : PartialPosition)
    (keys : Key × Key) (captured lastMoved : Option Piece) (checkers : BB) : Watched Position := do
  let ply ← Watched.lift (plyAdd E q.ply)
  let q := { q with ply := ply }
  let keys := (keys.1 ^^^ Key.COLOR, keys.2)
  let info ← AttackInfo.newC K C checkers q
  pure
    { inner := q
      states := { keys := keys, captured := captured, lastMoved := lastMoved,
                  attackInfo := info } :: states }

/-- `do_move` (/repo/src/position.rs:97-175). -/
def doMoveC (E : Env) (p : Position) (m : Move) : Watched Position := do
  let c := p.sideToMove
  let isCheck ← p.isCheckMoveC K C m
  let captured := p.inner.pieceAt m.to
  let st ← Watched.lift p.state
  match m with
  | .normal frm to promote => do
    let piece ← Watched.lift (p.inner.pieceAt frm)
    let (keys, q) ← Watched.lift (doCapture E K c to captured st.keys p.inner)
    let target ← Watched.lift (targetPiece piece promote)
    let q := moveInner K c q frm to piece target
    let keys := (keys.1 ^^^ E.zobBoard frm piece ^^^ E.zobBoard to target, keys.2)
    let checkers ← if isCheck then AttackInfo.calculateCheckersC K C q else pure K.empty
    pushStateC K C E p.states q keys captured (some piece) checkers
  | .drop to piece => do
    let q ← Watched.lift (dropInner K c p.inner to piece)
    let n ← Watched.lift ((q.hands c).count piece.kind)
    let z ← Watched.lift (E.zobHand c piece.kind n)
    let keys := (st.keys.1 ^^^ E.zobBoard to piece, st.keys.2 ^^^ z)
    let checkers := if isCheck then K.single to else K.empty
    pushStateC K C E p.states q keys captured (some piece) checkers

end Position

/-! ## Move generation (/repo/src/movegen.rs) -/

namespace PartialPosition

/-- `generate_for_fu` (/repo/src/movegen.rs:87-116). -/
def generateForFuC (q : PartialPosition) (av : Av) (target : BB) : Watched Av := do
  let c := q.side
  let (toBB, delta) :=
    match c with
    | .black => (K.shr (q.pieceBitboard K ⟨.pawn, .black⟩), 1)
    | .white => (K.shl (q.pieceBitboard K ⟨.pawn, .white⟩), 255)
  let l ← C.iter (K.and toBB target)
  l.foldlM (fun av to => do
    let frm ← fromU8UncheckedC ((to.val + 1 + delta) % 256)
    Watched.lift (pushForward c 1 av frm to)) av

/-- The two nested loops of the other generators: over the pieces and over the squares that one
attacks. -/
def fold2C (frms : BB) (att : Square → Watched BB) (target : BB)
    (push : Av → Square → Square → Option Av) (av : Av) : Watched Av := do
  let l ← C.iter frms
  l.foldlM (fun av frm => do
    let a ← att frm
    let l ← C.iter (K.and a target)
    l.foldlM (fun av to => Watched.lift (push av frm to)) av) av

/-- `generate_for_ky` (/repo/src/movegen.rs:117-143). -/
def generateForKyC (q : PartialPosition) (av : Av) (target : BB) : Watched Av :=
  fold2C K C (K.and (q.playerBB q.side) (q.pieceBB .lance))
    (fun frm => kyAttackC K C frm q.side (q.occupiedBB K)) target
    (fun av frm to => pushForward q.side 1 av frm to) av

/-- `generate_for_ke` (/repo/src/movegen.rs:144-170). -/
def generateForKeC (q : PartialPosition) (av : Av) (target : BB) : Watched Av :=
  fold2C K C (K.and (q.playerBB q.side) (q.pieceBB .knight))
    (fun frm => pure (keAttack K frm q.side)) target
    (fun av frm to => pushForward q.side 2 av frm to) av

/-- `generate_for_gi` (/repo/src/movegen.rs:171-190). -/
def generateForGiC (q : PartialPosition) (av : Av) (target : BB) : Watched Av :=
  fold2C K C (K.and (q.playerBB q.side) (q.pieceBB .silver))
    (fun frm => pure (giAttack K frm q.side)) target
    (fun av frm to => pushOptional q.side (promotable frm q.side) av frm to) av

/-- `generate_for_ka` (/repo/src/movegen.rs:191-210). -/
def generateForKaC (q : PartialPosition) (av : Av) (target : BB) : Watched Av :=
  fold2C K C (K.and (q.playerBB q.side) (q.pieceBB .bishop))
    (fun frm => kaAttackC K C frm (q.occupiedBB K)) target
    (fun av frm to => pushOptional q.side (promotable frm q.side) av frm to) av

/-- `generate_for_hi` (/repo/src/movegen.rs:211-230). -/
def generateForHiC (q : PartialPosition) (av : Av) (target : BB) : Watched Av :=
  fold2C K C (K.and (q.playerBB q.side) (q.pieceBB .rook))
    (fun frm => hiAttackC K C frm (q.occupiedBB K)) target
    (fun av frm to => pushOptional q.side (promotable frm q.side) av frm to) av

/-- `generate_for_ki` (/repo/src/movegen.rs:232-249). -/
def generateForKiC (q : PartialPosition) (av : Av) (target : BB) : Watched Av :=
  fold2C K C (K.and (K.or (K.or (K.or (K.or (q.pieceBB .gold) (q.pieceBB .proPawn))
      (q.pieceBB .proLance)) (q.pieceBB .proKnight)) (q.pieceBB .proSilver)) (q.playerBB q.side))
    (fun frm => pure (kiAttack K frm q.side)) target
    (fun av frm to => Av.push av (.normal frm to false)) av

/-- `generate_for_ou` (/repo/src/movegen.rs:250-261). -/
def generateForOuC (q : PartialPosition) (av : Av) (target : BB) : Watched Av :=
  fold2C K C (K.and (q.playerBB q.side) (q.pieceBB .king))
    (fun frm => pure (ouAttack K frm q.side)) target
    (fun av frm to => Av.push av (.normal frm to false)) av

/-- `generate_for_um` (/repo/src/movegen.rs:262-276). -/
def generateForUmC (q : PartialPosition) (av : Av) (target : BB) : Watched Av :=
  fold2C K C (K.and (q.playerBB q.side) (q.pieceBB .proBishop))
    (fun frm => do
      let ka ← kaAttackC K C frm (q.occupiedBB K)
      pure (K.or ka (ouAttack K frm q.side))) target
    (fun av frm to => Av.push av (.normal frm to false)) av

/-- `generate_for_ry` (/repo/src/movegen.rs:277-291). -/
def generateForRyC (q : PartialPosition) (av : Av) (target : BB) : Watched Av :=
  fold2C K C (K.and (q.playerBB q.side) (q.pieceBB .proRook))
    (fun frm => do
      let hi ← hiAttackC K C frm (q.occupiedBB K)
      pure (K.or hi (ouAttack K frm q.side))) target
    (fun av frm to => Av.push av (.normal frm to false)) av

/-- `attackers_to` (/repo/src/movegen.rs:381-391). -/
def attackersToC (q : PartialPosition) (c : Color) (to : Square) (occ : BB) : Watched BB := do
  let opp := c.flip
  let ky ← kyAttackC K C to opp occ
  let ka ← kaAttackC K C to occ
  let hi ← hiAttackC K C to occ
  pure (K.and
    (K.or (K.or (K.or (K.or (K.or (K.or
      (K.and (fuAttack K to opp) (q.pieceBB .pawn))
      (K.and ky (q.pieceBB .lance)))
      (K.and (keAttack K to opp) (q.pieceBB .knight)))
      (K.and (giAttack K to opp)
        (K.or (K.or (q.pieceBB .silver) (q.pieceBB .proRook)) (q.pieceBB .king))))
      (K.and ka (K.or (q.pieceBB .bishop) (q.pieceBB .proBishop))))
      (K.and hi (K.or (q.pieceBB .rook) (q.pieceBB .proRook))))
      (K.and (kiAttack K to opp)
        (K.or (K.or (K.or (K.or (K.or (K.or (q.pieceBB .gold) (q.pieceBB .proPawn))
          (q.pieceBB .proLance)) (q.pieceBB .proKnight)) (q.pieceBB .proSilver))
          (q.pieceBB .proBishop)) (q.pieceBB .king))))
    (q.playerBB c))

/-- `attackers_to_except_klp` (/repo/src/movegen.rs:394-403). -/
def attackersToExceptKlpC (q : PartialPosition) (c : Color) (to : Square) : Watched BB := do
  let opp := c.flip
  let occ := q.occupiedBB K
  let ka ← kaAttackC K C to occ
  let hi ← hiAttackC K C to occ
  pure (K.and
    (K.or (K.or (K.or (K.or
      (K.and (keAttack K to opp) (q.pieceBB .knight))
      (K.and (giAttack K to opp) (K.or (q.pieceBB .silver) (q.pieceBB .proRook))))
      (K.and ka (K.or (q.pieceBB .bishop) (q.pieceBB .proBishop))))
      (K.and hi (K.or (q.pieceBB .rook) (q.pieceBB .proRook))))
      (K.and (kiAttack K to opp)
        (K.or (K.or (K.or (K.or (K.or (q.pieceBB .gold) (q.pieceBB .proPawn))
          (q.pieceBB .proLance)) (q.pieceBB .proKnight)) (q.pieceBB .proSilver))
          (q.pieceBB .proBishop))))
    (q.playerBB c))

/-- The loop over the escape squares in `is_pawn_drop_mate` (/repo/src/movegen.rs:371-376): `true`
as soon as one is not attacked. -/
def anyC (f : Square → Watched Bool) : List Square → Watched Bool
  | [] => pure false
  | s :: l => do
    let b ← f s
    if b then pure true else anyC f l

/-- `is_pawn_drop_mate` (/repo/src/movegen.rs:349-379). -/
def isPawnDropMateC (q : PartialPosition) (st : State) (sq : Square) : Watched Bool := do
  let c := q.side
  let attackers ← q.attackersToC K C c sq (q.occupiedBB K)
  if K.isEmpty attackers then pure false
  else
    let captureCandidates ← q.attackersToExceptKlpC K C c.flip sq
    if !K.isEmpty (K.and captureCandidates
        (K.or (K.not (st.attackInfo.pinned c.flip)) (filesTable K sq.file))) then pure false
    else
      match ← q.kingPositionC K C c.flip with
      | some king =>
        let single := K.single sq
        let escape := K.and (K.and (ouAttack K king c.flip) (K.not (q.playerBB c.flip)))
          (K.not single)
        let occupied := K.or (q.occupiedBB K) single
        let l ← C.iter escape
        let free ← anyC (fun to => do
          let a ← q.attackersToC K C c to occupied
          pure (K.isEmpty a)) l
        pure (!free)
      | none => pure true

/-- The restriction of the drop targets of a pawn (/repo/src/movegen.rs:297-308). -/
def pawnDropTargetC (E : Env) (q : PartialPosition) (st : State) (target : BB) : Watched BB := do
  let c := q.side
  let vacant ← C.vacantFiles E.overflowChecks (K.and (q.playerBB c) (q.pieceBB .pawn))
  let target := K.and target vacant
  match ← q.kingPositionC K C c.flip with
  | some sq => do
    let l ← C.iter (fuAttack K sq c.flip)
    match l.head? with
    | some to =>
      if K.contains target to then do
        let mate ← q.isPawnDropMateC K C st to
        if mate then pure (K.and target (K.not (K.single to))) else pure target
      else pure target
    | none => pure target
  | none => pure target

/-- `generate_drop` (/repo/src/movegen.rs:292-322). -/
def generateDropC (E : Env) (q : PartialPosition) (st : State) (av : Av) (target : BB) : Watched Av :=
  let c := q.side
  let hand := q.hands c
  (Hand.allHandPieces.filter fun pk => decide ((hand.count pk).getD 0 > 0)).foldlM
    (fun av pk => do
      let target ← if pk = .pawn then q.pawnDropTargetC K C E st target else pure target
      let l ← C.iter target
      l.foldlM (fun av to => Watched.lift
        (if dropAllowed pk c to then av.push (.drop to ⟨pk, c⟩) else pure av)) av) av

/-- `generate_all` (/repo/src/movegen.rs:29-42). -/
def generateAllC (E : Env) (q : PartialPosition) (st : State) (av : Av) : Watched Av := do
  let target := K.not (q.playerBB q.side)
  let av ← q.generateForFuC K C av target
  let av ← q.generateForKyC K C av target
  let av ← q.generateForKeC K C av target
  let av ← q.generateForGiC K C av target
  let av ← q.generateForKaC K C av target
  let av ← q.generateForHiC K C av target
  let av ← q.generateForKiC K C av target
  let av ← q.generateForOuC K C av target
  let av ← q.generateForUmC K C av target
  let av ← q.generateForRyC K C av target
  q.generateDropC K C E st av (K.and (K.not (q.occupiedBB K)) (K.not K.empty))

/-- The loop over the checkers in `generate_evasions` (/repo/src/movegen.rs:47-58). -/
def checkersAttacksC (q : PartialPosition) (st : State) (king : Square) : Watched (BB × Nat) := do
  let c := q.side
  let l ← C.iter st.attackInfo.checkers
  l.foldlM (fun (acc : BB × Nat) ch => do
    let piece ← Watched.lift (q.pieceAt ch)
    let pk := piece.kind
    if pk = .proRook ∧ ch.file ≠ king.file ∧ ch.rank ≠ king.rank then do
      let hi ← hiAttackC K C ch (q.occupiedBB K)
      pure (K.or acc.1 hi, acc.2 + 1)
    else pure (K.or acc.1 (tablePseudoAttack K pk ch c.flip), acc.2 + 1)) (K.empty, 0)

/-- `generate_evasions` (/repo/src/movegen.rs:44-86). -/
def generateEvasionsC (E : Env) (q : PartialPosition) (st : State) (av : Av) : Watched Av := do
  let c := q.side
  let king ← q.kingPositionC K C c
  let king ← Watched.lift king
  let (attacks, count) ← q.checkersAttacksC K C st king
  let l ← C.iter (K.and (K.and (ouAttack K king c) (K.not (q.playerBB c))) (K.not attacks))
  let av ← l.foldlM (fun av to => Watched.lift (Av.push av (.normal king to false))) av
  if count > 1 then pure av
  else
    let l ← C.iter st.attackInfo.checkers
    let ch ← Watched.lift l.head?
    let targetDrop := betweenTable K ch king
    let targetMove := K.or targetDrop st.attackInfo.checkers
    let av ← q.generateForFuC K C av targetMove
    let av ← q.generateForKyC K C av targetMove
    let av ← q.generateForKeC K C av targetMove
    let av ← q.generateForGiC K C av targetMove
    let av ← q.generateForKaC K C av targetMove
    let av ← q.generateForHiC K C av targetMove
    let av ← q.generateForKiC K C av targetMove
    let av ← q.generateForUmC K C av targetMove
    let av ← q.generateForRyC K C av targetMove
    if !K.isEmpty targetDrop then q.generateDropC K C E st av targetDrop else pure av

/-- The first test of `is_legal` (/repo/src/movegen.rs:329-333): a king moves to an attacked
square. -/
def exposedC (q : PartialPosition) (frm to : Square) : Watched Bool :=
  if q.pieceAt frm = some ⟨.king, q.side⟩ then do
    let a ← q.attackersToC K C q.side.flip to (q.occupiedBB K)
    pure (!K.isEmpty a)
  else pure false

/-- `is_legal` (/repo/src/movegen.rs:324-348). -/
def isLegalC (q : PartialPosition) (st : State) (m : Move) : Watched Bool :=
  match m.frm with
  | some frm => do
    let c := q.side
    let exposed ← q.exposedC K C frm m.to
    if exposed then pure false
    else if K.contains (st.attackInfo.pinned c) frm then do
      match ← q.kingPositionC K C c with
      | some sq =>
        if !(K.contains (betweenTable K sq frm) m.to || K.contains (betweenTable K sq m.to) frm)
        then pure false else pure true
      | none => pure true
    else pure true
  | none => pure true

end PartialPosition

/-- The filtering loop of `legal_moves` (/repo/src/movegen.rs:18-25). -/
def filterLoopC (ok : Move → Watched Bool) : Nat → Nat → Av → Watched Av
  | 0, _, av => pure av
  | n + 1, i, av =>
    match av[i]? with
    | none => pure av
    | some m => do
      let b ← ok m
      if b then filterLoopC ok n (i + 1) av else filterLoopC ok n i (av.swapRemove i)

/-- `legal_moves` (/repo/src/movegen.rs:10-27). -/
def Position.legalMovesC (E : Env) (p : Position) : Watched (List Move) := do
  let st ← Watched.lift p.state
  let av ←
    if !K.isEmpty st.attackInfo.checkers then p.inner.generateEvasionsC K C E st []
    else p.inner.generateAllC K C E st []
  filterLoopC (p.inner.isLegalC K C st) av.length 0 av

end

end Yasai

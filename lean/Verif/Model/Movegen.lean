import Verif.Model.Position

/-!
# Move generation: /repo/src/movegen.rs

Functions that take `av: &mut ArrayVec<Move, 593>` take the current contents and return the new
contents, `none` when a `push` exceeds the capacity (arrayvec panics) or another panic happens.
Functions of `&self` take the inner position `q` and, where they read the attack info, the current
state `st` (`self.state()`, which is the same throughout a call).
-/

namespace Yasai

/-- `MAX_LEGAL_MOVES` (/repo/src/movegen.rs:7). -/
def maxLegalMoves : Nat := 593

/-- `ArrayVec<Move, MAX_LEGAL_MOVES>`. -/
abbrev Av := List Move

/-- `ArrayVec::push`: panics when full. -/
def Av.push (av : Av) (m : Move) : Option Av :=
  if av.length < maxLegalMoves then some (av ++ [m]) else none

namespace PartialPosition

/-- `piece_bitboard` (/repo/src/position.rs:218-221). -/
def pieceBitboard (K : Backend) (q : PartialPosition) (p : Piece) : BB :=
  K.and (q.pieceBB p.kind) (q.playerBB p.color)

/-- The pushes for one destination in `generate_for_fu`, `generate_for_ky`, `generate_for_ke`
(/repo/src/movegen.rs:95-114,121-140,148-167); `deadRanks` is 1, 1, 2. -/
def pushForward (c : Color) (deadRanks : Nat) (av : Av) (frm to : Square) : Option Av :=
  if promotable to c then do
    let av ← av.push (.normal frm to true)
    if relativeRanks to c > deadRanks then av.push (.normal frm to false) else pure av
  else av.push (.normal frm to false)

/-- The pushes for one destination in `generate_for_gi`, `generate_for_ka`, `generate_for_hi`
(/repo/src/movegen.rs:176-187,196-207,216-227). -/
def pushOptional (c : Color) (fromIsOpponentField : Bool) (av : Av) (frm to : Square) :
    Option Av := do
  let av ← av.push (.normal frm to false)
  if fromIsOpponentField || promotable to c then av.push (.normal frm to true) else pure av

/-- `generate_for_fu` (/repo/src/movegen.rs:87-116).  `to.index().wrapping_add(delta)` with
`delta = 1` or `!0` is `to.index() + 1` or `to.index() - 1` in `u8`. -/
def generateForFu (K : Backend) (q : PartialPosition) (av : Av) (target : BB) : Option Av :=
  let c := q.side
  let (toBB, delta) :=
    match c with
    | .black => (K.shr (q.pieceBitboard K ⟨.pawn, .black⟩), 1)
    | .white => (K.shl (q.pieceBitboard K ⟨.pawn, .white⟩), 255)
  (K.iter (K.and toBB target)).foldlM (fun av to =>
    let frm := Square.fromU8Unchecked K.junkSquare ((to.val + 1 + delta) % 256)
    pushForward c 1 av frm to) av

/-- `generate_for_ky` (/repo/src/movegen.rs:117-143). -/
def generateForKy (K : Backend) (q : PartialPosition) (av : Av) (target : BB) : Option Av :=
  let c := q.side
  (K.iter (K.and (q.playerBB c) (q.pieceBB .lance))).foldlM (fun av frm =>
    (K.iter (K.and (kyAttack K frm c (q.occupiedBB K)) target)).foldlM (fun av to =>
      pushForward c 1 av frm to) av) av

/-- `generate_for_ke` (/repo/src/movegen.rs:144-170). -/
def generateForKe (K : Backend) (q : PartialPosition) (av : Av) (target : BB) : Option Av :=
  let c := q.side
  (K.iter (K.and (q.playerBB c) (q.pieceBB .knight))).foldlM (fun av frm =>
    (K.iter (K.and (keAttack K frm c) target)).foldlM (fun av to =>
      pushForward c 2 av frm to) av) av

/-- `generate_for_gi` (/repo/src/movegen.rs:171-190). -/
def generateForGi (K : Backend) (q : PartialPosition) (av : Av) (target : BB) : Option Av :=
  let c := q.side
  (K.iter (K.and (q.playerBB c) (q.pieceBB .silver))).foldlM (fun av frm =>
    (K.iter (K.and (giAttack K frm c) target)).foldlM (fun av to =>
      pushOptional c (promotable frm c) av frm to) av) av

/-- `generate_for_ka` (/repo/src/movegen.rs:191-210). -/
def generateForKa (K : Backend) (q : PartialPosition) (av : Av) (target : BB) : Option Av :=
  let c := q.side
  (K.iter (K.and (q.playerBB c) (q.pieceBB .bishop))).foldlM (fun av frm =>
    (K.iter (K.and (kaAttack K frm (q.occupiedBB K)) target)).foldlM (fun av to =>
      pushOptional c (promotable frm c) av frm to) av) av

/-- `generate_for_hi` (/repo/src/movegen.rs:211-230). -/
def generateForHi (K : Backend) (q : PartialPosition) (av : Av) (target : BB) : Option Av :=
  let c := q.side
  (K.iter (K.and (q.playerBB c) (q.pieceBB .rook))).foldlM (fun av frm =>
    (K.iter (K.and (hiAttack K frm (q.occupiedBB K)) target)).foldlM (fun av to =>
      pushOptional c (promotable frm c) av frm to) av) av

/-- `generate_for_ki` (/repo/src/movegen.rs:232-249). -/
def generateForKi (K : Backend) (q : PartialPosition) (av : Av) (target : BB) : Option Av :=
  let c := q.side
  (K.iter (K.and (K.or (K.or (K.or (K.or (q.pieceBB .gold) (q.pieceBB .proPawn))
      (q.pieceBB .proLance)) (q.pieceBB .proKnight)) (q.pieceBB .proSilver))
      (q.playerBB c))).foldlM (fun av frm =>
    (K.iter (K.and (kiAttack K frm c) target)).foldlM (fun av to =>
      av.push (.normal frm to false)) av) av

/-- `generate_for_ou` (/repo/src/movegen.rs:250-261). -/
def generateForOu (K : Backend) (q : PartialPosition) (av : Av) (target : BB) : Option Av :=
  let c := q.side
  (K.iter (K.and (q.playerBB c) (q.pieceBB .king))).foldlM (fun av frm =>
    (K.iter (K.and (ouAttack K frm c) target)).foldlM (fun av to =>
      av.push (.normal frm to false)) av) av

/-- `generate_for_um` (/repo/src/movegen.rs:262-276). -/
def generateForUm (K : Backend) (q : PartialPosition) (av : Av) (target : BB) : Option Av :=
  let c := q.side
  (K.iter (K.and (q.playerBB c) (q.pieceBB .proBishop))).foldlM (fun av frm =>
    (K.iter (K.and (K.or (kaAttack K frm (q.occupiedBB K)) (ouAttack K frm c)) target)).foldlM
      (fun av to => av.push (.normal frm to false)) av) av

/-- `generate_for_ry` (/repo/src/movegen.rs:277-291). -/
def generateForRy (K : Backend) (q : PartialPosition) (av : Av) (target : BB) : Option Av :=
  let c := q.side
  (K.iter (K.and (q.playerBB c) (q.pieceBB .proRook))).foldlM (fun av frm =>
    (K.iter (K.and (K.or (hiAttack K frm (q.occupiedBB K)) (ouAttack K frm c)) target)).foldlM
      (fun av to => av.push (.normal frm to false)) av) av

/-- `attackers_to` (/repo/src/movegen.rs:381-391). -/
def attackersTo (K : Backend) (q : PartialPosition) (c : Color) (to : Square) (occ : BB) : BB :=
  let opp := c.flip
  K.and
    (K.or (K.or (K.or (K.or (K.or (K.or
      (K.and (fuAttack K to opp) (q.pieceBB .pawn))
      (K.and (kyAttack K to opp occ) (q.pieceBB .lance)))
      (K.and (keAttack K to opp) (q.pieceBB .knight)))
      (K.and (giAttack K to opp)
        (K.or (K.or (q.pieceBB .silver) (q.pieceBB .proRook)) (q.pieceBB .king))))
      (K.and (kaAttack K to occ) (K.or (q.pieceBB .bishop) (q.pieceBB .proBishop))))
      (K.and (hiAttack K to occ) (K.or (q.pieceBB .rook) (q.pieceBB .proRook))))
      (K.and (kiAttack K to opp)
        (K.or (K.or (K.or (K.or (K.or (K.or (q.pieceBB .gold) (q.pieceBB .proPawn))
          (q.pieceBB .proLance)) (q.pieceBB .proKnight)) (q.pieceBB .proSilver))
          (q.pieceBB .proBishop)) (q.pieceBB .king))))
    (q.playerBB c)

/-- `attackers_to_except_klp` (/repo/src/movegen.rs:394-403). -/
def attackersToExceptKlp (K : Backend) (q : PartialPosition) (c : Color) (to : Square) : BB :=
  let opp := c.flip
  let occ := q.occupiedBB K
  K.and
    (K.or (K.or (K.or (K.or
      (K.and (keAttack K to opp) (q.pieceBB .knight))
      (K.and (giAttack K to opp) (K.or (q.pieceBB .silver) (q.pieceBB .proRook))))
      (K.and (kaAttack K to occ) (K.or (q.pieceBB .bishop) (q.pieceBB .proBishop))))
      (K.and (hiAttack K to occ) (K.or (q.pieceBB .rook) (q.pieceBB .proRook))))
      (K.and (kiAttack K to opp)
        (K.or (K.or (K.or (K.or (K.or (q.pieceBB .gold) (q.pieceBB .proPawn))
          (q.pieceBB .proLance)) (q.pieceBB .proKnight)) (q.pieceBB .proSilver))
          (q.pieceBB .proBishop))))
    (q.playerBB c)

/-- `is_pawn_drop_mate` (/repo/src/movegen.rs:349-379). -/
def isPawnDropMate (K : Backend) (q : PartialPosition) (st : State) (sq : Square) : Bool :=
  let c := q.side
  if K.isEmpty (q.attackersTo K c sq (q.occupiedBB K)) then false
  else
    let captureCandidates := q.attackersToExceptKlp K c.flip sq
    if !K.isEmpty (K.and captureCandidates
        (K.or (K.not (st.attackInfo.pinned c.flip)) (filesTable K sq.file))) then false
    else
      match q.kingPosition K c.flip with
      | some king =>
        let single := K.single sq
        let escape := K.and (K.and (ouAttack K king c.flip) (K.not (q.playerBB c.flip)))
          (K.not single)
        let occupied := K.or (q.occupiedBB K) single
        !((K.iter escape).any fun to => K.isEmpty (q.attackersTo K c to occupied))
      | none => true

/-- The filter on the destination of a drop (/repo/src/movegen.rs:311-317). -/
def dropAllowed (pk : PieceKind) (c : Color) (to : Square) : Bool :=
  match pk with
  | .pawn | .lance => decide (relativeRanks to c > 1)
  | .knight => decide (relativeRanks to c > 2)
  | _ => true

/-- The restriction of the drop targets of a pawn (/repo/src/movegen.rs:297-308). -/
def pawnDropTarget (E : Env) (K : Backend) (q : PartialPosition) (st : State) (target : BB) :
    Option BB := do
  let c := q.side
  let vacant ← K.vacantFiles E.overflowChecks (K.and (q.playerBB c) (q.pieceBB .pawn))
  let target := K.and target vacant
  match q.kingPosition K c.flip with
  | some sq =>
    match (K.iter (fuAttack K sq c.flip)).head? with
    | some to =>
      if K.contains target to && q.isPawnDropMate K st to then
        pure (K.and target (K.not (K.single to)))
      else pure target
    | none => pure target
  | none => pure target

/-- `generate_drop` (/repo/src/movegen.rs:292-322). -/
def generateDrop (E : Env) (K : Backend) (q : PartialPosition) (st : State) (av : Av)
    (target : BB) : Option Av :=
  let c := q.side
  let hand := q.hands c
  (Hand.allHandPieces.filter fun pk => decide ((hand.count pk).getD 0 > 0)).foldlM
    (fun av pk => do
      let target ← if pk = .pawn then q.pawnDropTarget E K st target else pure target
      (K.iter target).foldlM (fun av to =>
        if dropAllowed pk c to then av.push (.drop to ⟨pk, c⟩) else pure av) av) av

/-- `generate_all` (/repo/src/movegen.rs:29-42). -/
def generateAll (E : Env) (K : Backend) (q : PartialPosition) (st : State) (av : Av) :
    Option Av := do
  let target := K.not (q.playerBB q.side)
  let av ← q.generateForFu K av target
  let av ← q.generateForKy K av target
  let av ← q.generateForKe K av target
  let av ← q.generateForGi K av target
  let av ← q.generateForKa K av target
  let av ← q.generateForHi K av target
  let av ← q.generateForKi K av target
  let av ← q.generateForOu K av target
  let av ← q.generateForUm K av target
  let av ← q.generateForRy K av target
  q.generateDrop E K st av (K.and (K.not (q.occupiedBB K)) (K.not K.empty))

/-- The loop over the checkers in `generate_evasions` (/repo/src/movegen.rs:47-58): the union of
their attacks and their number. -/
def checkersAttacks (K : Backend) (q : PartialPosition) (st : State) (king : Square) :
    Option (BB × Nat) :=
  let c := q.side
  (K.iter st.attackInfo.checkers).foldlM (fun (acc : BB × Nat) ch => do
    let piece ← q.pieceAt ch
    let pk := piece.kind
    if pk = .proRook ∧ ch.file ≠ king.file ∧ ch.rank ≠ king.rank then
      pure (K.or acc.1 (hiAttack K ch (q.occupiedBB K)), acc.2 + 1)
    else
      pure (K.or acc.1 (tablePseudoAttack K pk ch c.flip), acc.2 + 1)) (K.empty, 0)

/-- `generate_evasions` (/repo/src/movegen.rs:44-86). -/
def generateEvasions (E : Env) (K : Backend) (q : PartialPosition) (st : State) (av : Av) :
    Option Av := do
  let c := q.side
  let king ← q.kingPosition K c
  let (attacks, count) ← q.checkersAttacks K st king
  let av ← (K.iter (K.and (K.and (ouAttack K king c) (K.not (q.playerBB c)))
      (K.not attacks))).foldlM (fun av to => av.push (.normal king to false)) av
  if count > 1 then pure av
  else
    let ch ← (K.iter st.attackInfo.checkers).head?
    let targetDrop := betweenTable K ch king
    let targetMove := K.or targetDrop st.attackInfo.checkers
    let av ← q.generateForFu K av targetMove
    let av ← q.generateForKy K av targetMove
    let av ← q.generateForKe K av targetMove
    let av ← q.generateForGi K av targetMove
    let av ← q.generateForKa K av targetMove
    let av ← q.generateForHi K av targetMove
    let av ← q.generateForKi K av targetMove
    let av ← q.generateForUm K av targetMove
    let av ← q.generateForRy K av targetMove
    if !K.isEmpty targetDrop then q.generateDrop E K st av targetDrop else pure av

/-- `is_legal` (/repo/src/movegen.rs:324-348). -/
def isLegal (K : Backend) (q : PartialPosition) (st : State) (m : Move) : Bool :=
  match m.frm with
  | some frm =>
    let c := q.side
    if q.pieceAt frm = some ⟨.king, c⟩ ∧
        !K.isEmpty (q.attackersTo K c.flip m.to (q.occupiedBB K)) then false
    else if K.contains (st.attackInfo.pinned c) frm then
      match q.kingPosition K c with
      | some sq =>
        if !(K.contains (betweenTable K sq frm) m.to || K.contains (betweenTable K sq m.to) frm)
        then false else true
      | none => true
    else true
  | none => true

end PartialPosition

/-- `ArrayVec::swap_remove(i)`: removes element `i`, replacing it by the last element. -/
def Av.swapRemove (av : Av) (i : Nat) : Av :=
  match av.getLast? with
  | some l => (av.set i l).dropLast
  | none => av

/-- The filtering loop of `legal_moves` (/repo/src/movegen.rs:18-25), with fuel.  Every iteration
decreases `len - i`, so `len` units of fuel suffice (`filterLoop_perm`). -/
def filterLoop (ok : Move → Bool) : Nat → Nat → Av → Av
  | 0, _, av => av
  | n + 1, i, av =>
    match av[i]? with
    | none => av
    | some m => if ok m then filterLoop ok n (i + 1) av else filterLoop ok n i (av.swapRemove i)

namespace Position

/-- `legal_moves` (/repo/src/movegen.rs:10-27). -/
def legalMoves (E : Env) (K : Backend) (p : Position) : Option (List Move) := do
  let st ← p.state
  let av ←
    if !K.isEmpty st.attackInfo.checkers then p.inner.generateEvasions E K st []
    else p.inner.generateAll E K st []
  pure (filterLoop (p.inner.isLegal K st) av.length 0 av)

end Position

end Yasai

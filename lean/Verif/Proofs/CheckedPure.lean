import Verif.Proofs.CheckedOps

/-!
# The checked transcription takes nothing unchecked from the backend
-/

namespace Yasai

/-- The backend without the operations that have a contract. -/
def Backend.strip (K : Backend) : Backend :=
  { K with
    iter := fun _ => []
    slidingPositiveConsecutive := fun _ _ => 0#128
    slidingNegativeConsecutive := fun _ _ => 0#128
    slidingPositives := fun _ _ _ => 0#128
    slidingNegatives := fun _ _ _ => 0#128
    vacantFiles := fun _ _ => none
    junkSquare := fun _ => 0 }

variable (K : Backend) (C : Checked)

theorem slidingAttackLoop_strip (occ : BB) (d : Delta) (n : Nat) (bb : BB) (to : Option Square) :
    slidingAttackLoop K.strip occ d n bb to = slidingAttackLoop K occ d n bb to := by
  induction n generalizing bb to with
  | zero => rfl
  | succ n ih =>
    cases to with
    | none => rfl
    | some to => simp only [slidingAttackLoop, ih]; rfl

theorem slidingAttack_strip : slidingAttack K.strip = slidingAttack K := by
  funext sq occ d
  simp only [slidingAttack, slidingAttackLoop_strip]; rfl

theorem kyPseudoAttack_strip : kyPseudoAttack K.strip = kyPseudoAttack K := by
  funext sq c
  simp only [kyPseudoAttack, slidingAttack_strip]; rfl

theorem slidingPseudoAttack_strip : slidingPseudoAttack K.strip = slidingPseudoAttack K := by
  funext D sq
  simp only [slidingPseudoAttack, slidingAttack_strip]; rfl

theorem pieceAttack_strip : pieceAttack K.strip = pieceAttack K := rfl

theorem tablePseudoAttack_strip : tablePseudoAttack K.strip = tablePseudoAttack K := by
  funext pk sq c
  cases pk <;> simp only [tablePseudoAttack, kyPseudoAttack_strip, slidingPseudoAttack_strip] <;> rfl

theorem betweenTable_strip : betweenTable K.strip = betweenTable K := by
  funext a b
  simp only [betweenTable, slidingAttack_strip]; rfl

theorem kyAttackC_strip : kyAttackC K.strip C = kyAttackC K C := by
  funext sq c occ
  simp only [kyAttackC, kyPseudoAttack_strip]

theorem slidingTableAttackC_strip : slidingTableAttackC K.strip C = slidingTableAttackC K C := by
  funext D sq occ
  simp only [slidingTableAttackC, slidingAttack_strip]; rfl

theorem kaAttackC_strip : kaAttackC K.strip C = kaAttackC K C := by
  simp only [kaAttackC, slidingTableAttackC_strip]
theorem hiAttackC_strip : hiAttackC K.strip C = hiAttackC K C := by
  simp only [hiAttackC, slidingTableAttackC_strip]

theorem kingPositionC_strip (q : PartialPosition) :
    q.kingPositionC K.strip C = q.kingPositionC K C := rfl

theorem snipers_strip (q : PartialPosition) :
    AttackInfo.snipers K.strip q = AttackInfo.snipers K q := by
  funext c sq
  simp only [AttackInfo.snipers, tablePseudoAttack_strip]; rfl

theorem pinnedOfC_strip (q : PartialPosition) :
    AttackInfo.pinnedOfC K.strip C q = AttackInfo.pinnedOfC K C q := by
  funext c
  simp only [AttackInfo.pinnedOfC, kingPositionC_strip, snipers_strip, betweenTable_strip]; rfl

theorem checkablesOfC_strip (q : PartialPosition) :
    AttackInfo.checkablesOfC K.strip C q = AttackInfo.checkablesOfC K C q := by
  simp only [AttackInfo.checkablesOfC, kingPositionC_strip, kaAttackC_strip, hiAttackC_strip,
    kyAttackC_strip]; rfl

theorem attackInfo_newC_strip : AttackInfo.newC K.strip C = AttackInfo.newC K C := by
  funext ch q
  simp only [AttackInfo.newC, pinnedOfC_strip, checkablesOfC_strip]

theorem calculateCheckersC_strip :
    AttackInfo.calculateCheckersC K.strip C = AttackInfo.calculateCheckersC K C := by
  funext q
  simp only [AttackInfo.calculateCheckersC, kingPositionC_strip, kaAttackC_strip, hiAttackC_strip,
    kyAttackC_strip]; rfl

theorem newC_strip : Position.newC K.strip C = Position.newC K C := by
  funext E pp
  simp only [Position.newC, calculateCheckersC_strip, attackInfo_newC_strip]; rfl

theorem isCheckMoveC_strip : Position.isCheckMoveC K.strip C = Position.isCheckMoveC K C := by
  funext p m
  cases m <;> simp only [Position.isCheckMoveC, kingPositionC_strip, betweenTable_strip] <;> rfl

theorem pushStateC_strip : Position.pushStateC K.strip C = Position.pushStateC K C := by
  funext E l q k a b c
  simp only [Position.pushStateC, attackInfo_newC_strip]

theorem doMoveC_strip : Position.doMoveC K.strip C = Position.doMoveC K C := by
  funext E p m
  cases m <;> simp only [Position.doMoveC, isCheckMoveC_strip, calculateCheckersC_strip,
    pushStateC_strip] <;> rfl

section
open PartialPosition

theorem generateForFuC_strip : generateForFuC K.strip C = generateForFuC K C := rfl
theorem fold2C_strip : fold2C K.strip C = fold2C K C := rfl

theorem generateForKyC_strip : generateForKyC K.strip C = generateForKyC K C := by
  funext q av t
  simp only [generateForKyC, fold2C_strip, kyAttackC_strip]; rfl
theorem generateForKeC_strip : generateForKeC K.strip C = generateForKeC K C := rfl
theorem generateForGiC_strip : generateForGiC K.strip C = generateForGiC K C := rfl
theorem generateForKaC_strip : generateForKaC K.strip C = generateForKaC K C := by
  funext q av t
  simp only [generateForKaC, fold2C_strip, kaAttackC_strip]; rfl
theorem generateForHiC_strip : generateForHiC K.strip C = generateForHiC K C := by
  funext q av t
  simp only [generateForHiC, fold2C_strip, hiAttackC_strip]; rfl
theorem generateForKiC_strip : generateForKiC K.strip C = generateForKiC K C := rfl
theorem generateForOuC_strip : generateForOuC K.strip C = generateForOuC K C := rfl
theorem generateForUmC_strip : generateForUmC K.strip C = generateForUmC K C := by
  funext q av t
  simp only [generateForUmC, fold2C_strip, kaAttackC_strip]; rfl
theorem generateForRyC_strip : generateForRyC K.strip C = generateForRyC K C := by
  funext q av t
  simp only [generateForRyC, fold2C_strip, hiAttackC_strip]; rfl

theorem attackersToC_strip : attackersToC K.strip C = attackersToC K C := by
  funext q c to occ
  simp only [attackersToC, kyAttackC_strip, kaAttackC_strip, hiAttackC_strip]; rfl

theorem attackersToExceptKlpC_strip : attackersToExceptKlpC K.strip C = attackersToExceptKlpC K C := by
  funext q c to
  simp only [attackersToExceptKlpC, kaAttackC_strip, hiAttackC_strip]; rfl

theorem isPawnDropMateC_strip : isPawnDropMateC K.strip C = isPawnDropMateC K C := by
  funext q st sq
  simp only [isPawnDropMateC, attackersToC_strip, attackersToExceptKlpC_strip,
    kingPositionC_strip]; rfl

theorem pawnDropTargetC_strip : pawnDropTargetC K.strip C = pawnDropTargetC K C := by
  funext E q st t
  simp only [pawnDropTargetC, isPawnDropMateC_strip, kingPositionC_strip]; rfl

theorem generateDropC_strip : generateDropC K.strip C = generateDropC K C := by
  funext E q st av t
  simp only [generateDropC, pawnDropTargetC_strip]

theorem generateAllC_strip : generateAllC K.strip C = generateAllC K C := by
  funext E q st av
  simp only [generateAllC, generateForFuC_strip, generateForKyC_strip, generateForKeC_strip,
    generateForGiC_strip, generateForKaC_strip, generateForHiC_strip, generateForKiC_strip,
    generateForOuC_strip, generateForUmC_strip, generateForRyC_strip, generateDropC_strip]; rfl

theorem checkersAttacksC_strip : checkersAttacksC K.strip C = checkersAttacksC K C := by
  funext q st king
  simp only [checkersAttacksC, hiAttackC_strip, tablePseudoAttack_strip]; rfl

theorem generateEvasionsC_strip : generateEvasionsC K.strip C = generateEvasionsC K C := by
  funext E q st av
  simp only [generateEvasionsC, generateForFuC_strip, generateForKyC_strip, generateForKeC_strip,
    generateForGiC_strip, generateForKaC_strip, generateForHiC_strip, generateForKiC_strip,
    generateForUmC_strip, generateForRyC_strip, generateDropC_strip,
    checkersAttacksC_strip, betweenTable_strip, kingPositionC_strip]; rfl

theorem exposedC_strip : exposedC K.strip C = exposedC K C := by
  funext q a b
  simp only [exposedC, attackersToC_strip]; rfl

theorem isLegalC_strip : isLegalC K.strip C = isLegalC K C := by
  funext q st m
  simp only [isLegalC, exposedC_strip, kingPositionC_strip, betweenTable_strip]; rfl

end

theorem legalMovesC_strip : Position.legalMovesC K.strip C = Position.legalMovesC K C := by
  funext E p
  simp only [Position.legalMovesC, isLegalC_strip, generateEvasionsC_strip, generateAllC_strip]; rfl

end Yasai

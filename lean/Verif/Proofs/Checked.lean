import Verif.Model.Checked
import Verif.Proofs.AgreeAny
import Verif.Proofs.Effect

/-!
# The checked transcription follows the model

`Sim P r o`: the checked run `r` ends as the model says (`o`), or it is broken and `P` fails.  One
pass over the functions gives both: without any hypothesis a run that is not broken ends as the model
says, and where `P` holds it is not broken.
-/

namespace Yasai

open Spec

/-- See the top of the file. -/
def Sim {α : Type} (P : Prop) (r : Watched α) (o : Option α) : Prop :=
  r = Watched.lift o ∨ (r = .broken ∧ ¬ P)

section
variable {α β : Type} {P : Prop}

theorem Sim.mono {Q : Prop} {r : Watched α} {o : Option α} (h : Sim Q r o) (hP : P → Q) : Sim P r o :=
  h.imp_right fun h => ⟨h.1, fun p => h.2 (hP p)⟩

theorem sim_pure (a : α) : Sim P (pure a) (some a) := .inl rfl

theorem sim_lift (o : Option α) : Sim P (Watched.lift o) o := .inl rfl

theorem sim_bind {r : Watched α} {o : Option α} {f : α → Watched β} {g : α → Option β} (h : Sim P r o)
    (hf : ∀ a, o = some a → Sim P (f a) (g a)) : Sim P (r >>= f) (o >>= g) := by
  rcases h with rfl | ⟨rfl, hP⟩
  · cases o with
    | none => exact .inl rfl
    | some a => exact hf a rfl
  · exact .inr ⟨rfl, hP⟩

theorem sim_let {r : Watched α} {a : α} {f : α → Watched β} {o : Option β} (h : Sim P r (some a))
    (hf : Sim P (f a) o) : Sim P (r >>= f) o := by
  rcases h with rfl | ⟨rfl, hP⟩
  · exact hf
  · exact .inr ⟨rfl, hP⟩

theorem sim_foldlM {l : List α} {f : β → α → Watched β} {g : β → α → Option β}
    (h : ∀ x ∈ l, ∀ b, Sim P (f b x) (g b x)) (b : β) : Sim P (l.foldlM f b) (l.foldlM g b) := by
  induction l generalizing b with
  | nil => exact .inl rfl
  | cons x l ih =>
    rw [List.foldlM_cons, List.foldlM_cons]
    exact sim_bind (h x List.mem_cons_self b)
      fun a _ => ih (fun y hy => h y (List.mem_cons_of_mem _ hy)) a

theorem Sim.not_broken {r : Watched α} {o : Option α} (h : Sim P r o) (hP : P) : r ≠ .broken := by
  rcases h with rfl | ⟨_, hn⟩
  · cases o <;> exact fun h => by cases h
  · exact absurd hP hn

end

/-- The checked operations `C` follow those of `K`; they are within the contracts on squares, for
`vacant_files` under `V`. -/
structure Tracks (K : Backend) (C : Checked) (V : BB → Prop) : Prop where
  iter : ∀ b, Sim (Ok b) (C.iter b) (some (K.iter b))
  slidingPositiveConsecutive : ∀ o m, Sim (Ok m) (C.slidingPositiveConsecutive o m)
    (some (K.slidingPositiveConsecutive o m))
  slidingNegativeConsecutive : ∀ o m, Sim (Ok m) (C.slidingNegativeConsecutive o m)
    (some (K.slidingNegativeConsecutive o m))
  slidingPositives : ∀ o m n, Sim (Ok m ∧ Ok n) (C.slidingPositives o m n)
    (some (K.slidingPositives o m n))
  slidingNegatives : ∀ o m n, Sim (Ok m ∧ Ok n) (C.slidingNegatives o m n)
    (some (K.slidingNegatives o m n))
  vacantFiles : ∀ oc b, Sim (V b) (C.vacantFiles oc b) (K.vacantFiles oc b)

/-- The pawns that `generate_for_fu` moves to a square of `target` come from a square. -/
def FuFrom (K : Backend) (q : PartialPosition) : Prop :=
  ∀ target, Ok target → ∀ to, mem (K.and (fuTo K q) target) to = true →
    match q.side with
    | .black => to.val ≠ 80
    | .white => to.val ≠ 0

section
variable {K : Backend} {C : Checked} {V : BB → Prop} (hK : Lawful K) (hC : Tracks K C V)
include hK hC
variable {P : Prop} {q : PartialPosition}

theorem kyAttack_sim (sq : Square) (c : Color) (occ : BB) :
    Sim P (kyAttackC K C sq c occ) (some (kyAttack K sq c occ)) := by
  have hd : (lanceDelta c).dir ∈ directions := by cases c <;> decide
  have hok : Ok (kyPseudoAttack K sq c) := ok_slidingAttack hK _ _ _ hd
  cases c with
  | black => exact (hC.slidingNegativeConsecutive _ _).mono fun _ => hok
  | white => exact (hC.slidingPositiveConsecutive _ _).mono fun _ => hok

theorem kaAttack_sim (sq : Square) (occ : BB) :
    Sim P (kaAttackC K C sq occ) (some (kaAttack K sq occ)) := by
  have hok : ∀ d, d ∈ [kaDirs.neg0, kaDirs.neg1, kaDirs.pos0, kaDirs.pos1] →
      Ok (slidingAttack K sq K.empty d) := fun d hd =>
    ok_slidingAttack hK _ _ _ (by
      revert d; decide)
  refine sim_let ((hC.slidingNegatives _ _ _).mono fun _ => ⟨hok _ ?_, hok _ ?_⟩)
    (sim_let ((hC.slidingPositives _ _ _).mono fun _ => ⟨hok _ ?_, hok _ ?_⟩) (sim_pure _)) <;> simp

theorem hiAttack_sim (sq : Square) (occ : BB) :
    Sim P (hiAttackC K C sq occ) (some (hiAttack K sq occ)) := by
  have hok : ∀ d, d ∈ [hiDirs.neg0, hiDirs.neg1, hiDirs.pos0, hiDirs.pos1] →
      Ok (slidingAttack K sq K.empty d) := fun d hd =>
    ok_slidingAttack hK _ _ _ (by
      revert d; decide)
  refine sim_let ((hC.slidingNegatives _ _ _).mono fun _ => ⟨hok _ ?_, hok _ ?_⟩)
    (sim_let ((hC.slidingPositives _ _ _).mono fun _ => ⟨hok _ ?_, hok _ ?_⟩) (sim_pure _)) <;> simp

theorem kingPosition_sim (hq : P → OkBoards q) (c : Color) :
    Sim P (q.kingPositionC K C c) (some (q.kingPosition K c)) :=
  sim_let ((hC.iter _).mono fun h => by rw [hK.and]; exact ok_and_left _ ((hq h).okPlayer _))
    (sim_pure _)

/-! ## The attack info -/

theorem pinnedOf_sim (hq : P → OkBoards q) (c : Color) :
    Sim P (AttackInfo.pinnedOfC K C q c) (some (AttackInfo.pinnedOf K q c)) := by
  refine sim_let (kingPosition_sim hK hC hq c) ?_
  unfold AttackInfo.pinnedOf
  cases q.kingPosition K c with
  | none => exact sim_pure _
  | some sq => exact sim_let ((hC.iter _).mono fun h => ok_snipers hK (hq h) c sq) (sim_pure _)

theorem checkablesOf_sim (hq : P → OkBoards q) :
    Sim P (AttackInfo.checkablesOfC K C q) (some (AttackInfo.checkablesOf K q)) := by
  refine sim_let (kingPosition_sim hK hC hq q.side.flip) ?_
  unfold AttackInfo.checkablesOf
  dsimp only
  cases q.kingPosition K q.side.flip with
  | none => exact sim_pure _
  | some sq =>
    exact sim_let (kaAttack_sim hK hC _ _) (sim_let (hiAttack_sim hK hC _ _)
      (sim_let (kyAttack_sim hK hC _ _ _) (sim_pure _)))

theorem attackInfo_sim (hq : P → OkBoards q) (checkers : BB) :
    Sim P (AttackInfo.newC K C checkers q) (some (AttackInfo.new K checkers q)) := by
  refine sim_let (pinnedOf_sim hK hC hq _) (sim_let (pinnedOf_sim hK hC hq _)
    (sim_let (checkablesOf_sim hK hC hq) (.inl ?_)))
  unfold AttackInfo.new
  refine congrArg Watched.ok ?_
  congr 1
  funext c
  cases c <;> rfl

theorem calculateCheckers_sim (hq : P → OkBoards q) :
    Sim P (AttackInfo.calculateCheckersC K C q) (some (AttackInfo.calculateCheckers K q)) := by
  refine sim_let (kingPosition_sim hK hC hq q.side) ?_
  unfold AttackInfo.calculateCheckers
  dsimp only
  cases q.kingPosition K q.side with
  | none => exact sim_pure _
  | some sq =>
    exact sim_let (kyAttack_sim hK hC _ _ _) (sim_let (kaAttack_sim hK hC _ _)
      (sim_let (hiAttack_sim hK hC _ _) (sim_pure _)))

/-! ## `Position` -/

theorem new_sim (E : Env) (pp : CorePartialPosition) :
    Sim P (Position.newC K C E pp) (Position.new E K pp) := by
  have hq : OkBoards (PartialPosition.ofCore K pp) := (ofCore_spec hK pp).1.okBoards
  exact sim_bind (sim_lift _) fun _ _ => sim_let (calculateCheckers_sim hK hC fun _ => hq)
    (sim_let (attackInfo_sim hK hC (fun _ => hq) _) (sim_pure _))

theorem isCheckMove_sim {p : Position} (hp : P → OkBoards p.inner) (m : Move) :
    Sim P (p.isCheckMoveC K C m) (p.isCheckMove K m) := by
  cases m with
  | normal frm to promote =>
    refine sim_bind (sim_lift _) fun piece _ => sim_bind (sim_lift _) fun st _ => ?_
    dsimp only
    generalize (if promote = true then _ else _ : PieceKind) = pk
    split
    · exact sim_pure _
    · split
      · exact sim_let (kingPosition_sim hK hC hp _) (sim_bind (sim_lift _) fun _ _ => sim_pure _)
      · exact sim_pure _
  | drop to piece => exact sim_bind (sim_lift _) fun _ _ => sim_pure _

theorem pushState_sim (E : Env) (hq : P → OkBoards q) (l : List State) (keys : Key × Key)
    (a b : Option Piece) (checkers : BB) :
    Sim P (Position.pushStateC K C E l q keys a b checkers)
      (Position.pushState E K l q keys a b checkers) := by
  refine sim_bind (sim_lift _) fun ply _ => ?_
  exact sim_let (attackInfo_sim hK hC (fun h => ⟨(hq h).okPlayer, (hq h).okPiece⟩) _) (sim_pure _)

theorem doMove_sim (E : Env) {p : Position} (hp : P → OkBoards p.inner) (m : Move) :
    Sim P (p.doMoveC K C E m) (p.doMove E K m) := by
  refine sim_bind (isCheckMove_sim hK hC hp m) fun isCheck _ => sim_bind (sim_lift _) fun st _ => ?_
  cases m with
  | normal frm to promote =>
    refine sim_bind (sim_lift _) fun piece _ => sim_bind (sim_lift _) fun kq hkq =>
      sim_bind (sim_lift _) fun target _ => ?_
    have hq : P → OkBoards (Position.moveInner K p.sideToMove kq.2 frm to piece target) := fun h =>
      okBoards_moveInner hK (okBoards_doCapture hK (hp h) hkq) _ _ _ _ _
    cases isCheck with
    | false => exact sim_let (sim_pure _) (pushState_sim hK hC E hq _ _ _ _ _)
    | true => exact sim_let (calculateCheckers_sim hK hC hq) (pushState_sim hK hC E hq _ _ _ _ _)
  | drop to piece =>
    refine sim_bind (sim_lift _) fun q hq => sim_bind (sim_lift _) fun n _ =>
      sim_bind (sim_lift _) fun z _ => ?_
    exact pushState_sim hK hC E (fun h => okBoards_dropInner hK (hp h) hq) _ _ _ _ _

/-! ## Move generation -/

theorem generateForFu_sim (hf : P → FuFrom K q) {target : BB} (ht : P → Ok target) (av : Av) :
    Sim P (q.generateForFuC K C av target) (q.generateForFu K av target) := by
  have hs : ∀ n, Sim (1 ≤ n ∧ n ≤ 81) (fromU8UncheckedC n)
      (some (Square.fromU8Unchecked K.junkSquare n)) := by
    intro n
    unfold fromU8UncheckedC Square.fromU8Unchecked
    split
    · exact .inl rfl
    · next h => exact .inr ⟨rfl, h⟩
  have hok : ∀ b, P → Ok (K.and b target) := fun b h => by
    rw [hK.and]; exact ok_and_right _ (ht h)
  unfold PartialPosition.generateForFuC PartialPosition.generateForFu
  refine sim_let ((hC.iter _).mono (hok _)) (sim_foldlM (fun to hto av => ?_) av)
  refine sim_let ((hs _).mono fun h => ?_) (sim_lift _)
  have hm := (mem_iter hK (hok _ h) to).1 hto
  have := hf h target (ht h) to
  have hlt := to.isLt
  unfold fuTo at this
  cases hq : q.side <;> rw [hq] at hm this <;> dsimp only at hm this ⊢ <;> have := this hm <;> omega

theorem fold2_sim {frms target : BB} {att : Square → Watched BB} {att' : Square → BB}
    (hf : P → Ok frms) (ht : P → Ok target) (ha : ∀ s, Sim P (att s) (some (att' s)))
    (push : Av → Square → Square → Option Av) (av : Av) :
    Sim P (PartialPosition.fold2C K C frms att target push av)
      ((K.iter frms).foldlM (fun av frm =>
        (K.iter (K.and (att' frm) target)).foldlM (fun av to => push av frm to) av) av) :=
  sim_let ((hC.iter _).mono hf) (sim_foldlM (fun frm _ av => sim_let (ha frm)
    (sim_let ((hC.iter _).mono fun h => by rw [hK.and]; exact ok_and_right _ (ht h))
      (sim_foldlM (fun _ _ _ => sim_lift _) av))) av)

omit hC in
theorem ok_side (hq : P → OkBoards q) (k : PieceKind) :
    P → Ok (K.and (q.playerBB q.side) (q.pieceBB k)) := fun h => by
  rw [hK.and]; exact ok_and_left _ ((hq h).okPlayer _)

theorem attackersTo_sim (c : Color) (to : Square) (occ : BB) :
    Sim P (q.attackersToC K C c to occ) (some (q.attackersTo K c to occ)) :=
  sim_let (kyAttack_sim hK hC _ _ _) (sim_let (kaAttack_sim hK hC _ _)
    (sim_let (hiAttack_sim hK hC _ _) (sim_pure _)))

theorem attackersToExceptKlp_sim (c : Color) (to : Square) :
    Sim P (q.attackersToExceptKlpC K C c to) (some (q.attackersToExceptKlp K c to)) :=
  sim_let (kaAttack_sim hK hC _ _) (sim_let (hiAttack_sim hK hC _ _) (sim_pure _))

omit hK hC in
theorem anyC_sim {f : Square → Watched Bool} {g : Square → Bool} (h : ∀ s, Sim P (f s) (some (g s)))
    (l : List Square) : Sim P (PartialPosition.anyC f l) (some (l.any g)) := by
  induction l with
  | nil => exact sim_pure _
  | cons s l ih =>
    refine sim_let (h s) ?_
    rw [List.any_cons]
    cases g s with
    | true => exact sim_pure _
    | false => exact ih

theorem isPawnDropMate_sim (hq : P → OkBoards q) (st : State) (s : Square) :
    Sim P (q.isPawnDropMateC K C st s) (some (q.isPawnDropMate K st s)) := by
  unfold PartialPosition.isPawnDropMateC PartialPosition.isPawnDropMate
  refine sim_let (attackersTo_sim hK hC _ _ _) ?_
  dsimp only
  split
  · exact sim_pure _
  · refine sim_let (attackersToExceptKlp_sim hK hC _ _) ?_
    split
    · exact sim_pure _
    · refine sim_let (kingPosition_sim hK hC hq _) ?_
      cases q.kingPosition K q.side.flip with
      | none => exact sim_pure _
      | some king =>
        refine sim_let ((hC.iter _).mono fun _ => ?_) (sim_let (anyC_sim (fun to => ?_) _)
          (sim_pure _))
        · rw [hK.and, hK.not (K.single s)]; exact ok_and_right _ (ok_not _)
        · exact sim_let (attackersTo_sim hK hC _ _ _) (sim_pure _)

theorem pawnDropTarget_sim (E : Env) (hq : P → OkBoards q)
    (hv : P → V (K.and (q.playerBB q.side) (q.pieceBB .pawn))) (st : State) (target : BB) :
    Sim P (q.pawnDropTargetC K C E st target) (q.pawnDropTarget E K st target) := by
  refine sim_bind ((hC.vacantFiles _ _).mono hv) fun vacant _ => ?_
  refine sim_let (kingPosition_sim hK hC hq _) ?_
  cases q.kingPosition K q.side.flip with
  | none => exact sim_pure _
  | some sq =>
    refine sim_let ((hC.iter _).mono fun _ => ok_pieceAttack hK _ _ _) ?_
    dsimp only
    cases (K.iter (fuAttack K sq q.side.flip)).head? with
    | none => exact sim_pure _
    | some to =>
      dsimp only
      cases K.contains (K.and target vacant) to with
      | false => exact sim_pure _
      | true =>
        rw [if_pos rfl, Bool.true_and]
        refine sim_let (isPawnDropMate_sim hK hC hq _ _) ?_
        cases q.isPawnDropMate K st to <;> exact sim_pure _

theorem generateDrop_sim (E : Env) (hq : P → OkBoards q)
    (hv : P → 0 < ((q.hands q.side).count .pawn).getD 0 →
      V (K.and (q.playerBB q.side) (q.pieceBB .pawn))) (st : State) {target : BB}
    (ht : P → Ok target) (av : Av) :
    Sim P (q.generateDropC K C E st av target) (q.generateDrop E K st av target) := by
  refine sim_foldlM (fun pk hpk av => ?_) av
  split
  · rename_i hp
    rw [hp, List.mem_filter, decide_eq_true_eq] at hpk
    refine sim_bind (pawnDropTarget_sim hK hC E hq (fun h => hv h hpk.2) st target) fun t e => ?_
    exact sim_let ((hC.iter _).mono fun h => ok_pawnDropTarget hK (ht h) e)
      (sim_foldlM (fun _ _ _ => sim_lift _) _)
  · exact sim_bind (sim_pure _) fun t e => by
      cases e
      exact sim_let ((hC.iter _).mono ht) (sim_foldlM (fun _ _ _ => sim_lift _) _)

/-- The ten generators of board moves. -/
theorem generateForKy_sim (hq : P → OkBoards q) {target : BB} (ht : P → Ok target) (av : Av) :
    Sim P (q.generateForKyC K C av target) (q.generateForKy K av target) :=
  fold2_sim hK hC (ok_side hK hq _) ht (fun _ => kyAttack_sim hK hC _ _ _) _ av

theorem generateForKe_sim (hq : P → OkBoards q) {target : BB} (ht : P → Ok target) (av : Av) :
    Sim P (q.generateForKeC K C av target) (q.generateForKe K av target) :=
  fold2_sim hK hC (ok_side hK hq _) ht (fun _ => sim_pure _) _ av

theorem generateForGi_sim (hq : P → OkBoards q) {target : BB} (ht : P → Ok target) (av : Av) :
    Sim P (q.generateForGiC K C av target) (q.generateForGi K av target) :=
  fold2_sim hK hC (ok_side hK hq _) ht (fun _ => sim_pure _)
    (fun av frm to => PartialPosition.pushOptional q.side (promotable frm q.side) av frm to) av

theorem generateForKa_sim (hq : P → OkBoards q) {target : BB} (ht : P → Ok target) (av : Av) :
    Sim P (q.generateForKaC K C av target) (q.generateForKa K av target) :=
  fold2_sim hK hC (ok_side hK hq _) ht (fun _ => kaAttack_sim hK hC _ _)
    (fun av frm to => PartialPosition.pushOptional q.side (promotable frm q.side) av frm to) av

theorem generateForHi_sim (hq : P → OkBoards q) {target : BB} (ht : P → Ok target) (av : Av) :
    Sim P (q.generateForHiC K C av target) (q.generateForHi K av target) :=
  fold2_sim hK hC (ok_side hK hq _) ht (fun _ => hiAttack_sim hK hC _ _)
    (fun av frm to => PartialPosition.pushOptional q.side (promotable frm q.side) av frm to) av

theorem generateForKi_sim (hq : P → OkBoards q) {target : BB} (ht : P → Ok target) (av : Av) :
    Sim P (q.generateForKiC K C av target) (q.generateForKi K av target) :=
  fold2_sim hK hC (fun h => by rw [hK.and]; exact ok_and_right _ ((hq h).okPlayer _)) ht
    (fun _ => sim_pure _) (fun av frm to => Av.push av (.normal frm to false)) av

theorem generateForOu_sim (hq : P → OkBoards q) {target : BB} (ht : P → Ok target) (av : Av) :
    Sim P (q.generateForOuC K C av target) (q.generateForOu K av target) :=
  fold2_sim hK hC (ok_side hK hq _) ht (fun _ => sim_pure _)
    (fun av frm to => Av.push av (.normal frm to false)) av

theorem generateForUm_sim (hq : P → OkBoards q) {target : BB} (ht : P → Ok target) (av : Av) :
    Sim P (q.generateForUmC K C av target) (q.generateForUm K av target) :=
  fold2_sim hK hC (ok_side hK hq _) ht
    (fun s => sim_let (kaAttack_sim hK hC s (q.occupiedBB K))
      (sim_pure (K.or (kaAttack K s (q.occupiedBB K)) (ouAttack K s q.side))))
    (fun av frm to => Av.push av (.normal frm to false)) av

theorem generateForRy_sim (hq : P → OkBoards q) {target : BB} (ht : P → Ok target) (av : Av) :
    Sim P (q.generateForRyC K C av target) (q.generateForRy K av target) :=
  fold2_sim hK hC (ok_side hK hq _) ht
    (fun s => sim_let (hiAttack_sim hK hC s (q.occupiedBB K))
      (sim_pure (K.or (hiAttack K s (q.occupiedBB K)) (ouAttack K s q.side))))
    (fun av frm to => Av.push av (.normal frm to false)) av

theorem generateAll_sim (E : Env) (hq : P → OkBoards q) (hf : P → FuFrom K q)
    (hv : P → 0 < ((q.hands q.side).count .pawn).getD 0 →
      V (K.and (q.playerBB q.side) (q.pieceBB .pawn))) (st : State) (av : Av) :
    Sim P (q.generateAllC K C E st av) (q.generateAll E K st av) := by
  have ht : P → Ok (K.not (q.playerBB q.side)) := fun _ => by rw [hK.not]; exact ok_not _
  refine sim_bind (generateForFu_sim hK hC hf ht av) fun av _ =>
    sim_bind (generateForKy_sim hK hC hq ht av) fun av _ =>
    sim_bind (generateForKe_sim hK hC hq ht av) fun av _ =>
    sim_bind (generateForGi_sim hK hC hq ht av) fun av _ =>
    sim_bind (generateForKa_sim hK hC hq ht av) fun av _ =>
    sim_bind (generateForHi_sim hK hC hq ht av) fun av _ =>
    sim_bind (generateForKi_sim hK hC hq ht av) fun av _ =>
    sim_bind (generateForOu_sim hK hC hq ht av) fun av _ =>
    sim_bind (generateForUm_sim hK hC hq ht av) fun av _ =>
    sim_bind (generateForRy_sim hK hC hq ht av) fun av _ =>
    generateDrop_sim hK hC E hq hv st (fun _ => ?_) av
  rw [hK.and, hK.not K.empty]
  exact ok_and_right _ (ok_not _)

theorem checkersAttacks_sim {st : State} (hst : P → Ok st.attackInfo.checkers) (king : Square) :
    Sim P (q.checkersAttacksC K C st king) (q.checkersAttacks K st king) := by
  refine sim_let ((hC.iter _).mono hst) (sim_foldlM (fun ch _ acc => ?_) _)
  refine sim_bind (sim_lift _) fun piece _ => ?_
  dsimp only
  split
  · exact sim_let (hiAttack_sim hK hC _ _) (sim_pure _)
  · exact sim_pure _

/-- Where `generate_evasions` gets to the drops. -/
def Blocks (K : Backend) (q : PartialPosition) (st : State) : Prop :=
  ∃ king ac ch, q.kingPosition K q.side = some king ∧ q.checkersAttacks K st king = some ac ∧
    ¬ ac.2 > 1 ∧ (K.iter st.attackInfo.checkers).head? = some ch ∧
    K.isEmpty (betweenTable K ch king) = false

theorem generateEvasions_sim (E : Env) (hq : P → OkBoards q) (hf : P → FuFrom K q)
    {st : State}
    (hv : P → 0 < ((q.hands q.side).count .pawn).getD 0 → Blocks K q st →
      V (K.and (q.playerBB q.side) (q.pieceBB .pawn)))
    (hst : P → Ok st.attackInfo.checkers) (av : Av) :
    Sim P (q.generateEvasionsC K C E st av) (q.generateEvasions E K st av) := by
  unfold PartialPosition.generateEvasionsC PartialPosition.generateEvasions
  refine sim_let (kingPosition_sim hK hC hq _) (sim_bind (sim_lift _) fun king hk =>
    sim_bind (checkersAttacks_sim hK hC hst king) fun ac hac => ?_)
  obtain ⟨attacks, count⟩ := ac
  dsimp only
  refine sim_let ((hC.iter _).mono fun _ => by
    rw [hK.and, hK.not attacks]; exact ok_and_right _ (ok_not _))
    (sim_bind (sim_foldlM (fun _ _ _ => sim_lift _) av) fun av _ => ?_)
  split
  · exact sim_pure _
  · rename_i hcnt
    refine sim_let ((hC.iter _).mono hst) (sim_bind (sim_lift _) fun ch hch => ?_)
    have hd : Ok (betweenTable K ch king) := (betweenTable_spec hK _ _).1
    have ht : P → Ok (K.or (betweenTable K ch king) st.attackInfo.checkers) := fun h => by
      rw [hK.or]; exact ok_or hd (hst h)
    refine sim_bind (generateForFu_sim hK hC hf ht av) fun av _ =>
      sim_bind (generateForKy_sim hK hC hq ht av) fun av _ =>
      sim_bind (generateForKe_sim hK hC hq ht av) fun av _ =>
      sim_bind (generateForGi_sim hK hC hq ht av) fun av _ =>
      sim_bind (generateForKa_sim hK hC hq ht av) fun av _ =>
      sim_bind (generateForHi_sim hK hC hq ht av) fun av _ =>
      sim_bind (generateForKi_sim hK hC hq ht av) fun av _ =>
      sim_bind (generateForUm_sim hK hC hq ht av) fun av _ =>
      sim_bind (generateForRy_sim hK hC hq ht av) fun av _ => ?_
    split
    · rename_i he
      exact generateDrop_sim hK hC E hq (fun h h0 => hv h h0
        ⟨king, _, ch, hk, hac, hcnt, hch, by simpa using he⟩) st (fun _ => hd) av
    · exact sim_pure _

theorem isLegal_sim (hq : P → OkBoards q) (st : State) (m : Move) :
    Sim P (q.isLegalC K C st m) (some (q.isLegal K st m)) := by
  unfold PartialPosition.isLegalC PartialPosition.isLegal
  cases m.frm with
  | none => exact sim_pure _
  | some frm =>
    dsimp only
    have rest : Sim P
        (if K.contains (st.attackInfo.pinned q.side) frm then do
          match ← q.kingPositionC K C q.side with
          | some sq =>
            if !(K.contains (betweenTable K sq frm) m.to || K.contains (betweenTable K sq m.to) frm)
            then pure false else pure true
          | none => pure true
        else pure true)
        (some (if K.contains (st.attackInfo.pinned q.side) frm then
          match q.kingPosition K q.side with
          | some sq =>
            if !(K.contains (betweenTable K sq frm) m.to || K.contains (betweenTable K sq m.to) frm)
            then false else true
          | none => true
        else true)) := by
      split
      · refine sim_let (kingPosition_sim hK hC hq _) ?_
        cases q.kingPosition K q.side with
        | none => exact sim_pure _
        | some sq => dsimp only; split <;> exact sim_pure _
      · exact sim_pure _
    by_cases hk : q.pieceAt frm = some ⟨.king, q.side⟩
    · refine sim_let (a := !K.isEmpty (q.attackersTo K q.side.flip m.to (q.occupiedBB K))) ?_ ?_
      · unfold PartialPosition.exposedC
        rw [if_pos hk]
        exact sim_let (attackersTo_sim hK hC _ _ _) (sim_pure _)
      · cases K.isEmpty (q.attackersTo K q.side.flip m.to (q.occupiedBB K)) with
        | true =>
          rw [if_neg (by simp : ¬ (!true) = true), if_neg (fun h => Bool.noConfusion h.2 :
            ¬ (q.pieceAt frm = some ⟨.king, q.side⟩ ∧ (!true) = true))]
          exact rest
        | false =>
          rw [if_pos (by simp : (!false) = true), if_pos (⟨hk, rfl⟩ :
            q.pieceAt frm = some ⟨.king, q.side⟩ ∧ (!false) = true)]
          exact sim_pure _
    · refine sim_let (a := false) ?_ ?_
      · unfold PartialPosition.exposedC
        rw [if_neg hk]
        exact sim_pure _
      · rw [if_neg (by simp : ¬ false = true), if_neg (fun h => hk h.1 :
          ¬ (q.pieceAt frm = some ⟨.king, q.side⟩ ∧
            (!K.isEmpty (q.attackersTo K q.side.flip m.to (q.occupiedBB K))) = true))]
        exact rest

omit hK hC in
theorem filterLoop_sim {f : Move → Watched Bool} {g : Move → Bool} (h : ∀ m, Sim P (f m) (some (g m)))
    (n i : Nat) (av : Av) : Sim P (filterLoopC f n i av) (some (filterLoop g n i av)) := by
  induction n generalizing i av with
  | zero => exact sim_pure _
  | succ n ih =>
    unfold filterLoopC filterLoop
    cases av[i]? with
    | none => exact sim_pure _
    | some m =>
      refine sim_let (h m) ?_
      dsimp only
      cases g m with
      | true => exact ih _ _
      | false => exact ih _ _

theorem legalMoves_sim (E : Env) {p : Position} (hq : P → OkBoards p.inner)
    (hf : P → FuFrom K p.inner)
    (hv : P → 0 < ((p.inner.hands p.inner.side).count .pawn).getD 0 → ∀ st, p.state = some st →
      (K.isEmpty st.attackInfo.checkers = false → Blocks K p.inner st) →
      V (K.and (p.inner.playerBB p.inner.side) (p.inner.pieceBB .pawn)))
    (hst : P → ∀ st, p.state = some st → Ok st.attackInfo.checkers) :
    Sim P (p.legalMovesC K C E) (p.legalMoves E K) := by
  refine sim_bind (sim_lift _) fun st hs => ?_
  dsimp only
  split
  · exact sim_bind (generateEvasions_sim hK hC E hq hf (fun h h0 hb => hv h h0 st hs fun _ => hb)
      (fun h => hst h st hs) _) fun av _ =>
      filterLoop_sim (fun m => isLegal_sim hK hC hq st m) _ _ _
  · rename_i he
    exact sim_bind (generateAll_sim hK hC E hq hf (fun h h0 => hv h h0 st hs fun e => by
      rw [e] at he; exact absurd rfl he) st _) fun av _ =>
      filterLoop_sim (fun m => isLegal_sim hK hC hq st m) _ _ _

end

end Yasai

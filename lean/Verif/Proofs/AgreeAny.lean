import Verif.Proofs.Agree

/-!
# Agreement of backends on arbitrary positions

`legal_moves` in two lawful backends on any position with consistent bitboards.  Only two operations
can differ there: the shift of the pawns and `vacant_files`.  Both are hypotheses here.
-/

namespace Yasai

open Spec

/-- `Position` values on which the agreement lemmas work: consistent bitboards, and checkers that
are squares. -/
def Consistent (p : Position) : Prop :=
  Repr p.inner ∧ ∀ st, p.state = some st → Ok st.attackInfo.checkers

/-- The two backends shift the pawns of the side to move in the same way, and no shifted pawn has
its origin outside the board. -/
def FuAgree (K K' : Backend) (q : PartialPosition) : Prop :=
  ∀ target, Ok target → K.and (fuTo K q) target = K'.and (fuTo K' q) target ∧
    ∀ to, mem (K'.and (fuTo K' q) target) to = true →
      match q.side with
      | .black => to.val ≠ 80
      | .white => to.val ≠ 0

/-- `vacant_files` of the pawns of the side to move is the same. -/
def VacantAgree (E : Env) (K K' : Backend) (q : PartialPosition) : Prop :=
  K.vacantFiles E.overflowChecks (q.playerBB q.side &&& q.pieceBB .pawn) =
    K'.vacantFiles E.overflowChecks (q.playerBB q.side &&& q.pieceBB .pawn)

/-! ## Bitboards stay within the 81 squares -/

section
variable {K : Backend} (hK : Lawful K)
include hK

theorem okBoards_xorPiece {q : PartialPosition} (h : OkBoards q) (s : Square) (p : Piece) :
    OkBoards (q.xorPiece K s p) := by
  refine ⟨fun c => ?_, fun k => ?_⟩ <;> unfold PartialPosition.xorPiece <;> dsimp only <;> split
  · rw [hK.xor, hK.single]; exact ok_xor (h.okPlayer _) (ok_single s)
  · exact h.okPlayer _
  · rw [hK.xor, hK.single]; exact ok_xor (h.okPiece _) (ok_single s)
  · exact h.okPiece _

theorem okBoards_doCapture {E : Env} {c : Color} {to : Square} {cap : Option Piece}
    {keys : Key × Key} {q : PartialPosition} {kq : (Key × Key) × PartialPosition} (h : OkBoards q)
    (e : Position.doCapture E K c to cap keys q = some kq) : OkBoards kq.2 := by
  cases cap with
  | none => cases e; exact h
  | some p =>
    simp only [Position.doCapture, Option.bind_eq_bind, Option.bind_eq_some_iff] at e
    obtain ⟨n, _, z, _, hand, _, e⟩ := e
    cases e
    have := okBoards_xorPiece hK h to p
    exact ⟨this.okPlayer, this.okPiece⟩

theorem okBoards_moveInner {q : PartialPosition} (h : OkBoards q) (c : Color) (frm to : Square)
    (piece target : Piece) : OkBoards (Position.moveInner K c q frm to piece target) := by
  have := okBoards_xorPiece hK (okBoards_xorPiece hK h frm piece) to target
  exact ⟨this.okPlayer, this.okPiece⟩

theorem okBoards_dropInner {c : Color} {q q' : PartialPosition} (h : OkBoards q) {to : Square}
    {piece : Piece} (e : Position.dropInner K c q to piece = some q') : OkBoards q' := by
  simp only [Position.dropInner, Option.bind_eq_bind, Option.bind_eq_some_iff] at e
  obtain ⟨hand, _, e⟩ := e
  cases e
  have := okBoards_xorPiece hK h to piece
  exact ⟨this.okPlayer, this.okPiece⟩

theorem okBoards_undoNormal {c : Color} {st : State} {q q' : PartialPosition} (h : OkBoards q)
    {frm to : Square} (e : Position.undoNormal K c st q frm to = some q') : OkBoards q' := by
  simp only [Position.undoNormal, Option.bind_eq_bind, Option.bind_eq_some_iff] at e
  obtain ⟨lm, _, q1, h1, t, _, e⟩ := e
  cases e
  have hq1 : OkBoards q1 := by
    cases hc : st.captured with
    | none => rw [hc] at h1; cases h1; exact h
    | some p =>
      rw [hc] at h1
      simp only [Position.undoCapture, Option.bind_eq_bind, Option.bind_eq_some_iff] at h1
      obtain ⟨hand, _, h1⟩ := h1
      cases h1
      have := okBoards_xorPiece hK h to p
      exact ⟨this.okPlayer, this.okPiece⟩
  have := okBoards_xorPiece hK (okBoards_xorPiece hK hq1 frm lm) to t
  exact ⟨this.okPlayer, this.okPiece⟩

theorem okBoards_undoDrop {c : Color} {q q' : PartialPosition} (h : OkBoards q) {to : Square}
    {piece : Piece} (e : Position.undoDrop K c q to piece = some q') : OkBoards q' := by
  simp only [Position.undoDrop, Option.bind_eq_bind, Option.bind_eq_some_iff] at e
  obtain ⟨hand, _, e⟩ := e
  cases e
  have := okBoards_xorPiece hK h to piece
  exact ⟨this.okPlayer, this.okPiece⟩

end

theorem foldlM_congr_mem {α β : Type} {l : List α} {f g : β → α → Option β}
    (h : ∀ a ∈ l, ∀ b, f b a = g b a) (b : β) : l.foldlM f b = l.foldlM g b := by
  induction l generalizing b with
  | nil => rfl
  | cons a l ih =>
    rw [List.foldlM_cons, List.foldlM_cons, h a List.mem_cons_self]
    exact Option.bind_congr fun c _ => ih (fun a ha => h a (List.mem_cons_of_mem _ ha)) c

section
variable {K K' : Backend} (hK : Lawful K) (hK' : Lawful K')
include hK hK'
variable {q : PartialPosition}

theorem generateForFu_any (hf : FuAgree K K' q) {target : BB} (ht : Ok target) (av : Av) :
    q.generateForFu K av target = q.generateForFu K' av target := by
  obtain ⟨e, hm⟩ := hf target ht
  have hok : Ok (K'.and (fuTo K' q) target) := by rw [hK'.and]; exact ok_and_right _ ht
  rw [generateForFu_eq, generateForFu_eq]
  congr 1
  unfold fuMoves
  rw [e, iter_agree hK hK' hok]
  have hfl : ∀ (l : List Square) {f g : Square → List Move}, (∀ t ∈ l, f t = g t) →
      l.flatMap f = l.flatMap g := by
    intro l f g hfg
    induction l with
    | nil => rfl
    | cons a l ih =>
      rw [List.flatMap_cons, List.flatMap_cons, hfg a List.mem_cons_self,
        ih fun t ht => hfg t (List.mem_cons_of_mem _ ht)]
  apply hfl
  intro to hto
  have hto := hm to ((mem_iter hK' hok to).1 hto)
  congr 1
  unfold fuFrom Square.fromU8Unchecked
  have := to.isLt
  cases hq : q.side <;> rw [hq] at hto <;> dsimp only at hto ⊢
  · rw [dif_pos (by omega), dif_pos (by omega)]
  · rw [dif_pos (by omega), dif_pos (by omega)]

/-- The shape shared by the other generators. -/
theorem fold2_any {frms target : BB} {att att' : Square → BB} (hf : Ok frms) (ht : Ok target)
    (ha : ∀ s, att s = att' s) (push : Av → Square → Square → Option Av) (av : Av) :
    (K.iter frms).foldlM (fun av frm =>
      (K.iter (att frm &&& target)).foldlM (fun av to => push av frm to) av) av =
    (K'.iter frms).foldlM (fun av frm =>
      (K'.iter (att' frm &&& target)).foldlM (fun av to => push av frm to) av) av := by
  rw [iter_agree hK hK' hf]
  refine foldlM_congr_mem (fun s _ b => ?_) av
  rw [ha, iter_agree hK hK' (ok_and_right _ ht)]

theorem generateForKy_any (h : OkBoards q) {target : BB} (ht : Ok target) (av : Av) :
    q.generateForKy K av target = q.generateForKy K' av target := by
  unfold PartialPosition.generateForKy
  simp only [hK.and, hK'.and]
  exact fold2_any hK hK' (ok_and_left _ (h.okPlayer _)) ht
    (fun s => by rw [kyAttack_agree hK hK', occupiedBB_agree hK hK']) _ _

theorem generateForKe_any (h : OkBoards q) {target : BB} (ht : Ok target) (av : Av) :
    q.generateForKe K av target = q.generateForKe K' av target := by
  unfold PartialPosition.generateForKe
  simp only [hK.and, hK'.and]
  exact fold2_any hK hK' (ok_and_left _ (h.okPlayer _)) ht
    (fun s => pieceAttack_agree hK hK' _ _ _) _ _

theorem generateForGi_any (h : OkBoards q) {target : BB} (ht : Ok target) (av : Av) :
    q.generateForGi K av target = q.generateForGi K' av target := by
  unfold PartialPosition.generateForGi
  simp only [hK.and, hK'.and]
  exact fold2_any hK hK' (ok_and_left _ (h.okPlayer _)) ht
    (fun s => pieceAttack_agree hK hK' _ _ _)
    (fun av frm to => PartialPosition.pushOptional q.side (promotable frm q.side) av frm to) _

theorem generateForKa_any (h : OkBoards q) {target : BB} (ht : Ok target) (av : Av) :
    q.generateForKa K av target = q.generateForKa K' av target := by
  unfold PartialPosition.generateForKa
  simp only [hK.and, hK'.and]
  exact fold2_any hK hK' (ok_and_left _ (h.okPlayer _)) ht
    (fun s => by rw [kaAttack_agree hK hK', occupiedBB_agree hK hK'])
    (fun av frm to => PartialPosition.pushOptional q.side (promotable frm q.side) av frm to) _

theorem generateForHi_any (h : OkBoards q) {target : BB} (ht : Ok target) (av : Av) :
    q.generateForHi K av target = q.generateForHi K' av target := by
  unfold PartialPosition.generateForHi
  simp only [hK.and, hK'.and]
  exact fold2_any hK hK' (ok_and_left _ (h.okPlayer _)) ht
    (fun s => by rw [hiAttack_agree hK hK', occupiedBB_agree hK hK'])
    (fun av frm to => PartialPosition.pushOptional q.side (promotable frm q.side) av frm to) _

theorem generateForKi_any (h : OkBoards q) {target : BB} (ht : Ok target) (av : Av) :
    q.generateForKi K av target = q.generateForKi K' av target := by
  unfold PartialPosition.generateForKi
  simp only [hK.and, hK'.and, hK.or, hK'.or]
  exact fold2_any hK hK' (ok_and_right _ (h.okPlayer _)) ht
    (fun s => pieceAttack_agree hK hK' _ _ _)
    (fun av frm to => Av.push av (.normal frm to false)) _

theorem generateForOu_any (h : OkBoards q) {target : BB} (ht : Ok target) (av : Av) :
    q.generateForOu K av target = q.generateForOu K' av target := by
  unfold PartialPosition.generateForOu
  simp only [hK.and, hK'.and]
  exact fold2_any hK hK' (ok_and_left _ (h.okPlayer _)) ht
    (fun s => pieceAttack_agree hK hK' _ _ _)
    (fun av frm to => Av.push av (.normal frm to false)) _

theorem ouAttack_agree (s : Square) (c : Color) : ouAttack K s c = ouAttack K' s c :=
  pieceAttack_agree hK hK' _ _ _

theorem generateForUm_any (h : OkBoards q) {target : BB} (ht : Ok target) (av : Av) :
    q.generateForUm K av target = q.generateForUm K' av target := by
  unfold PartialPosition.generateForUm
  simp only [hK.and, hK'.and, hK.or, hK'.or]
  exact fold2_any hK hK' (ok_and_left _ (h.okPlayer _)) ht
    (fun s => by rw [kaAttack_agree hK hK', occupiedBB_agree hK hK', ouAttack_agree hK hK'])
    (fun av frm to => Av.push av (.normal frm to false)) _

theorem generateForRy_any (h : OkBoards q) {target : BB} (ht : Ok target) (av : Av) :
    q.generateForRy K av target = q.generateForRy K' av target := by
  unfold PartialPosition.generateForRy
  simp only [hK.and, hK'.and, hK.or, hK'.or]
  exact fold2_any hK hK' (ok_and_left _ (h.okPlayer _)) ht
    (fun s => by rw [hiAttack_agree hK hK', occupiedBB_agree hK hK', ouAttack_agree hK hK'])
    (fun av frm to => Av.push av (.normal frm to false)) _

theorem isPawnDropMate_any (h : OkBoards q) (st : State) (s : Square) :
    q.isPawnDropMate K st s = q.isPawnDropMate K' st s := by
  unfold PartialPosition.isPawnDropMate
  simp only [hK.isEmpty, hK'.isEmpty, hK.and, hK'.and, hK.or, hK'.or, hK.not, hK'.not, hK.single,
    hK'.single, attackersTo_agree hK hK', attackersToExceptKlp_agree hK hK',
    occupiedBB_agree hK hK', filesTable_agree hK hK', kingPosition_agree hK hK' h,
    ouAttack_agree hK hK']
  cases q.kingPosition K' q.side.flip with
  | none => rfl
  | some king =>
    dsimp only
    rw [iter_agree hK hK' (ok_and_right _ (ok_not _))]

theorem pawnDropTarget_any {E : Env} (h : OkBoards q) (hv : VacantAgree E K K' q) (st : State)
    (target : BB) : q.pawnDropTarget E K st target = q.pawnDropTarget E K' st target := by
  unfold PartialPosition.pawnDropTarget
  simp only [hK.and, hK'.and]
  rw [hv]
  refine Option.bind_congr fun vacant _ => ?_
  rw [kingPosition_agree hK hK' h]
  cases q.kingPosition K' q.side.flip with
  | none => rfl
  | some s =>
    dsimp only
    have e : fuAttack K s q.side.flip = fuAttack K' s q.side.flip := pieceAttack_agree hK hK' _ _ _
    have hok : Ok (fuAttack K' s q.side.flip) := ok_pieceAttack hK' _ _ _
    rw [e, iter_agree hK hK' hok]
    cases (K'.iter (fuAttack K' s q.side.flip)).head? with
    | none => rfl
    | some to =>
      dsimp only
      rw [hK.contains, hK'.contains, isPawnDropMate_any hK hK' h, hK.not, hK'.not, hK.single,
        hK'.single]

omit hK in
theorem ok_pawnDropTarget {E : Env} {st : State} {target t : BB} (ht : Ok target)
    (e : q.pawnDropTarget E K' st target = some t) : Ok t := by
  unfold PartialPosition.pawnDropTarget at e
  simp only [hK'.and] at e
  obtain ⟨v, _, e⟩ := Option.bind_eq_some_iff.1 e
  split at e
  · split at e
    · split at e
      · cases e; exact ok_and_left _ (ok_and_left _ ht)
      · cases e; exact ok_and_left _ ht
    · cases e; exact ok_and_left _ ht
  · cases e; exact ok_and_left _ ht

theorem generateDrop_any {E : Env} (h : OkBoards q) (hv : VacantAgree E K K' q) (st : State)
    {target : BB} (ht : Ok target) (av : Av) :
    q.generateDrop E K st av target = q.generateDrop E K' st av target := by
  unfold PartialPosition.generateDrop
  refine foldlM_congr_mem (fun pk _ b => ?_) av
  split
  · rw [pawnDropTarget_any hK hK' h hv]
    refine Option.bind_congr fun t e => ?_
    dsimp only
    rw [iter_agree hK hK' (ok_pawnDropTarget hK' ht e)]
  · simp only [Option.pure_def, Option.bind_eq_bind, Option.bind_some]
    rw [iter_agree hK hK' ht]

theorem generateAll_any {E : Env} (h : OkBoards q) (hf : FuAgree K K' q) (hv : VacantAgree E K K' q)
    (st : State) (av : Av) : q.generateAll E K st av = q.generateAll E K' st av := by
  unfold PartialPosition.generateAll
  simp only [hK.and, hK'.and, hK.not, hK'.not, occupiedBB_agree hK hK', hK.empty, hK'.empty]
  have ht := ok_not (q.playerBB q.side)
  simp only [generateForFu_any hK hK' hf ht, generateForKy_any hK hK' h ht,
    generateForKe_any hK hK' h ht, generateForGi_any hK hK' h ht, generateForKa_any hK hK' h ht,
    generateForHi_any hK hK' h ht, generateForKi_any hK hK' h ht, generateForOu_any hK hK' h ht,
    generateForUm_any hK hK' h ht, generateForRy_any hK hK' h ht,
    generateDrop_any hK hK' h hv st (ok_and_left _ (ok_not _))]

theorem generateEvasions_any {E : Env} (h : OkBoards q) (hf : FuAgree K K' q)
    (hv : VacantAgree E K K' q) {st : State} (hc : Ok st.attackInfo.checkers) (av : Av) :
    q.generateEvasions E K st av = q.generateEvasions E K' st av := by
  unfold PartialPosition.generateEvasions
  dsimp only
  rw [kingPosition_agree hK hK' h]
  refine Option.bind_congr fun king _ => ?_
  have hca : q.checkersAttacks K st king = q.checkersAttacks K' st king := by
    unfold PartialPosition.checkersAttacks
    simp only [iter_agree hK hK' hc, hK.empty, hK'.empty, hK.or, hK'.or,
      occupiedBB_agree hK hK', hiAttack_agree hK hK', tablePseudo_agree hK hK']
  rw [hca]
  refine Option.bind_congr fun r _ => ?_
  obtain ⟨attacks, n⟩ := r
  dsimp only
  simp only [hK.and, hK'.and, hK.not, hK'.not, ouAttack_agree hK hK',
    iter_agree hK hK' (ok_and_right _ (ok_not attacks)), iter_agree hK hK' hc,
    betweenTable_agree hK hK', hK.or, hK'.or, hK.isEmpty, hK'.isEmpty]
  refine Option.bind_congr fun av _ => ?_
  split
  · rfl
  · refine Option.bind_congr fun ch _ => ?_
    have hb : Ok (betweenTable K' ch king) := (betweenTable_spec hK' ch king).1
    have ht := ok_or hb hc
    simp only [generateForFu_any hK hK' hf ht, generateForKy_any hK hK' h ht,
      generateForKe_any hK hK' h ht, generateForGi_any hK hK' h ht, generateForKa_any hK hK' h ht,
      generateForHi_any hK hK' h ht, generateForKi_any hK hK' h ht,
      generateForUm_any hK hK' h ht, generateForRy_any hK hK' h ht,
      generateDrop_any hK hK' h hv st hb]

theorem legalMoves_any {E : Env} {p : Position} (hp : OkBoards p.inner)
    (hc : ∀ st, p.state = some st → Ok st.attackInfo.checkers) (hf : FuAgree K K' p.inner)
    (hv : VacantAgree E K K' p.inner) : p.legalMoves E K = p.legalMoves E K' := by
  unfold Position.legalMoves
  refine Option.bind_congr fun st hst => ?_
  rw [hK.isEmpty, hK'.isEmpty, isLegal_agree hK hK' hp, generateAll_any hK hK' hp hf hv,
    generateEvasions_any hK hK' hp hf hv (hc st hst)]

theorem isCheckMove_any {p : Position} (h : OkBoards p.inner) (m : Move) :
    p.isCheckMove K m = p.isCheckMove K' m := by
  cases m <;>
  simp only [Position.isCheckMove, Position.checkable, kingPosition_agree hK hK' h, hK.contains,
    hK'.contains, betweenTable_agree hK hK']

theorem inCheck_any (p : Position) : p.inCheck K = p.inCheck K' := by
  simp only [Position.inCheck, hK.isEmpty, hK'.isEmpty]

theorem doMove_any (E : Env) {p : Position} (h : OkBoards p.inner) (m : Move) :
    p.doMove E K m = p.doMove E K' m := by
  unfold Position.doMove
  simp only [isCheckMove_any hK hK' h]
  cases m with
  | normal frm to promote =>
    refine Option.bind_congr fun isCheck _ => Option.bind_congr fun st hst =>
      Option.bind_congr fun piece hpiece => ?_
    rw [doCapture_agree hK hK']
    refine Option.bind_congr fun kq hkq => Option.bind_congr fun target _ => ?_
    have hr := okBoards_moveInner hK' (okBoards_doCapture hK' h hkq) p.sideToMove frm to piece target
    rw [moveInner_agree hK hK', pushState_agree hK hK' _ _ _ hr, calculateCheckers_agree hK hK' hr,
      hK.empty, hK'.empty]
  | drop to piece =>
    refine Option.bind_congr fun isCheck _ => Option.bind_congr fun st hst => ?_
    dsimp only
    rw [dropInner_agree hK hK']
    refine Option.bind_congr fun q hq => Option.bind_congr fun n _ =>
      Option.bind_congr fun z _ => ?_
    rw [pushState_agree hK hK' _ _ _ (okBoards_dropInner hK' h hq), hK.empty, hK'.empty, hK.single,
      hK'.single]

/-- Both conditions hold between lawful backends when no own pawn is on its last rank and none on
rank 9 shares its file with another. -/
theorem fuAgree_of_pawns (h : Repr q)
    (hd : ∀ s, q.board s = some ⟨.pawn, q.side⟩ → ¬ Dead .pawn q.side s) : FuAgree K K' q := by
  have hpm : ∀ c s, mem (q.pieceBB .pawn &&& q.playerBB c) s = true ↔
      q.board s = some ⟨.pawn, c⟩ := by
    intro c s
    rw [mem_and, Bool.and_eq_true, h.piece, h.player]
    constructor
    · rintro ⟨⟨c1, h1⟩, k1, h2⟩
      rw [h1] at h2; cases h2; exact h1
    · intro h; exact ⟨⟨_, h⟩, _, h⟩
  have hok : ∀ c, Ok (q.pieceBB .pawn &&& q.playerBB c) := fun c => ok_and_left _ (h.okPiece _)
  intro target ht
  unfold fuTo PartialPosition.pieceBitboard
  cases hq : q.side <;> simp only [hK.and, hK'.and]
  · have hr : ∀ t, mem (q.pieceBB .pawn &&& q.playerBB .black) t = true → t.rank ≠ 1 := by
      intro t ht h1
      refine hd t (by rw [hq]; exact (hpm _ _).1 ht) ?_
      rw [hq]
      simp [Dead, h1]
    obtain ⟨a1, a2⟩ := hK.shr _ (hok _) hr
    obtain ⟨b1, b2⟩ := hK'.shr _ (hok _) hr
    refine ⟨?_, fun to hto => ?_⟩
    · congr 1
      exact ext_of_ok a1 b1 fun s => Bool.eq_iff_iff.2 ((a2 s).trans (b2 s).symm)
    · rw [mem_and, Bool.and_eq_true, b2] at hto
      obtain ⟨⟨t, _, e⟩, _⟩ := hto
      have := t.isLt
      omega
  · have hr : ∀ t, mem (q.pieceBB .pawn &&& q.playerBB .white) t = true → t.rank ≠ 9 := by
      intro t ht h1
      refine hd t (by rw [hq]; exact (hpm _ _).1 ht) ?_
      rw [hq]
      simp [Dead, h1]
    obtain ⟨a1, a2⟩ := hK.shl _ (hok _) hr
    obtain ⟨b1, b2⟩ := hK'.shl _ (hok _) hr
    refine ⟨?_, fun to hto => ?_⟩
    · congr 1
      exact ext_of_ok a1 b1 fun s => Bool.eq_iff_iff.2 ((a2 s).trans (b2 s).symm)
    · rw [mem_and, Bool.and_eq_true, b2] at hto
      obtain ⟨⟨t, _, e⟩, _⟩ := hto
      omega

theorem vacantAgree_of_pawns (E : Env) (h : Repr q)
    (hd : ∀ s t, q.board s = some ⟨.pawn, q.side⟩ → q.board t = some ⟨.pawn, q.side⟩ →
      s.file = t.file → s.rank = 9 → s = t) : VacantAgree E K K' q := by
  have hpm : ∀ s, mem (q.playerBB q.side &&& q.pieceBB .pawn) s = true →
      q.board s = some ⟨.pawn, q.side⟩ := by
    intro s
    rw [mem_and, Bool.and_eq_true, h.piece, h.player]
    rintro ⟨⟨k1, h2⟩, c1, h1⟩
    rw [h1] at h2; cases h2; exact h1
  have hok : Ok (q.playerBB q.side &&& q.pieceBB .pawn) := ok_and_left _ (h.okPlayer _)
  obtain ⟨r, e, p, r2⟩ := hK.vacantFiles E.overflowChecks _ hok
    (fun s t hs ht => hd s t (hpm s hs) (hpm t ht))
  obtain ⟨r', e', p', r2'⟩ := hK'.vacantFiles E.overflowChecks _ hok
    (fun s t hs ht => hd s t (hpm s hs) (hpm t ht))
  unfold VacantAgree
  rw [e, e']
  congr 1
  exact ext_of_ok p p' fun s => Bool.eq_iff_iff.2 ((r2 s).trans (r2' s).symm)

end

/-! ## `Consistent` along play -/

theorem consistent_new {E : Env} {K : Backend} (hK : Lawful K) {pp : CorePartialPosition}
    {p : Position} (h : Position.new E K pp = some p) : Consistent p := by
  obtain ⟨hr, st, hst, hai⟩ := inv_new hK h
  refine ⟨hr, fun st' hst' => ?_⟩
  have e1 : p.state = some st := hst
  rw [e1] at hst'
  cases hst'
  rw [hai]
  exact ok_calculateCheckers hK hr

theorem consistent_doMove {E : Env} {K : Backend} (hK : Lawful K) {p p' : Position} {m : Move}
    (h : Repr p.inner) (hg : GoodShape p.inner.board m) (hm : p.doMove E K m = some p') :
    Consistent p' := by
  refine ⟨repr_doMove hK h hg hm, ?_⟩
  have push : ∀ {l q keys a b c}, Ok c → Position.pushState E K l q keys a b c = some p' →
      ∀ st, p'.state = some st → Ok st.attackInfo.checkers := by
    intro l q keys a b c hc he st hst
    unfold Position.pushState at he
    obtain ⟨ply, _, he⟩ := Option.bind_eq_some_iff.1 he
    cases he
    cases hst
    exact hc
  unfold Position.doMove at hm
  obtain ⟨isCheck, _, hm⟩ := Option.bind_eq_some_iff.1 hm
  obtain ⟨st, _, hm⟩ := Option.bind_eq_some_iff.1 hm
  cases m with
  | normal frm to promote =>
    obtain ⟨piece, hpiece, hm⟩ := Option.bind_eq_some_iff.1 hm
    obtain ⟨kq, hkq, hm⟩ := Option.bind_eq_some_iff.1 hm
    obtain ⟨target, _, hm⟩ := Option.bind_eq_some_iff.1 hm
    refine push ?_ hm
    have hr : Repr (Position.moveInner K p.sideToMove kq.2 frm to piece target) :=
      repr_moveInner hK h (by exact hkq) hpiece hg
    split
    · exact ok_calculateCheckers hK hr
    · rw [hK.empty]; exact ok_zero
  | drop to piece =>
    obtain ⟨q, hq, hm⟩ := Option.bind_eq_some_iff.1 hm
    obtain ⟨n, _, hm⟩ := Option.bind_eq_some_iff.1 hm
    obtain ⟨z, _, hm⟩ := Option.bind_eq_some_iff.1 hm
    refine push ?_ hm
    split
    · rw [hK.single]; exact ok_single _
    · rw [hK.empty]; exact ok_zero

/-! ## Shifts of the SIMD backends -/

theorem mem_srl64_last {b : BB} (h : Ok b) : mem (srl64 b 1) (80 : Fin 81) = false := by
  rw [mem, getLsbD_srl64]
  have e : bitPos (80 : Fin 81) = 81 := by decide
  rw [e]
  have := ok_false h 82 (Or.inr (Nat.le_refl _))
  rw [if_neg (by omega)]
  exact Bool.and_eq_false_imp.2 fun _ => this

theorem mem_sll64_first (b : BB) : mem (sll64 b 1) (0 : Fin 81) = false := by
  rw [mem, getLsbD_sll64]
  have e : bitPos (0 : Fin 81) = 0 := by decide
  simp [e]

end Yasai

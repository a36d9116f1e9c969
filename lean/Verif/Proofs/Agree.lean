import Verif.Proofs.Evasions

/-!
# What is computed depends only on the position, not on the backend or the history
-/

namespace Yasai

open Spec

section
variable {K K' : Backend} (hK : Lawful K) (hK' : Lawful K')
include hK hK'

/-! ## Tables -/

theorem pieceAttack_agree (ds : Color → List Delta) (s : Square) (c : Color) :
    pieceAttack K ds s c = pieceAttack K' ds s c := by
  unfold pieceAttack
  simp only [hK.or, hK'.or, hK.single, hK'.single, hK.empty, hK'.empty]

theorem kyAttack_agree (s : Square) (c : Color) (occ : BB) :
    kyAttack K s c occ = kyAttack K' s c occ := by
  obtain ⟨a1, a2⟩ := kyAttack_spec hK s c occ
  obtain ⟨b1, b2⟩ := kyAttack_spec hK' s c occ
  exact ext_of_ok a1 b1 fun t => Bool.eq_iff_iff.2 ((a2 t).trans (b2 t).symm)

theorem kaAttack_agree (s : Square) (occ : BB) : kaAttack K s occ = kaAttack K' s occ := by
  obtain ⟨a1, a2⟩ := kaAttack_spec hK s occ .black
  obtain ⟨b1, b2⟩ := kaAttack_spec hK' s occ .black
  exact ext_of_ok a1 b1 fun t => Bool.eq_iff_iff.2 ((a2 t).trans (b2 t).symm)

theorem hiAttack_agree (s : Square) (occ : BB) : hiAttack K s occ = hiAttack K' s occ := by
  obtain ⟨a1, a2⟩ := hiAttack_spec hK s occ .black
  obtain ⟨b1, b2⟩ := hiAttack_spec hK' s occ .black
  exact ext_of_ok a1 b1 fun t => Bool.eq_iff_iff.2 ((a2 t).trans (b2 t).symm)

theorem tableAttack_agree (k : PieceKind) (s : Square) (c : Color) (occ : BB) :
    tableAttack K k s c occ = tableAttack K' k s c occ := by
  obtain ⟨a1, a2⟩ := tableAttack_spec hK k s c occ
  obtain ⟨b1, b2⟩ := tableAttack_spec hK' k s c occ
  exact ext_of_ok a1 b1 fun t => Bool.eq_iff_iff.2 ((a2 t).trans (b2 t).symm)

theorem slidingAttack_agree (s : Square) (occ : BB) (d : Delta) :
    slidingAttack K s occ d = slidingAttack K' s occ d := by
  have loop : ∀ n bb o, slidingAttackLoop K occ d n bb o = slidingAttackLoop K' occ d n bb o := by
    intro n
    induction n with
    | zero => intro bb o; rfl
    | succ n ih =>
      intro bb o
      cases o with
      | none => rfl
      | some t =>
        simp only [slidingAttackLoop, hK.or, hK'.or, hK.single, hK'.single, hK.contains,
          hK'.contains, ih]
  unfold slidingAttack
  rw [loop, hK.empty, hK'.empty]

theorem slidingPseudo_agree (D : SlideDirs) (s : Square) :
    slidingPseudoAttack K D s = slidingPseudoAttack K' D s := by
  unfold slidingPseudoAttack
  simp only [hK.or, hK'.or, hK.empty, hK'.empty, slidingAttack_agree hK hK']

theorem tablePseudo_agree (k : PieceKind) (s : Square) (c : Color) :
    tablePseudoAttack K k s c = tablePseudoAttack K' k s c := by
  cases k <;> simp only [tablePseudoAttack, kyPseudoAttack, slidingPseudo_agree hK hK',
    slidingAttack_agree hK hK', tableAttack_agree hK hK', hK.empty, hK'.empty]

theorem betweenTable_agree (s t : Square) : betweenTable K s t = betweenTable K' s t := by
  unfold betweenTable
  simp only [slidingAttack_agree hK hK', hK.empty, hK'.empty, hK.and, hK'.and, hK.not, hK'.not,
    hK.single, hK'.single]

theorem filesTable_agree (f : Nat) : filesTable K f = filesTable K' f := by
  unfold filesTable
  simp only [hK.or, hK'.or, hK.empty, hK'.empty, hK.single, hK'.single]

/-! ## Attack information -/

variable {q : PartialPosition}

theorem occupiedBB_agree : q.occupiedBB K = q.occupiedBB K' := by
  unfold PartialPosition.occupiedBB
  rw [hK.or, hK'.or]

theorem iter_agree {b : BB} (h : Ok b) : K.iter b = K'.iter b := by
  rw [hK.iter b h, hK'.iter b h]

theorem kingPosition_agree (h : OkBoards q) (c : Color) :
    q.kingPosition K c = q.kingPosition K' c := by
  unfold PartialPosition.kingPosition
  rw [hK.and, hK'.and, iter_agree hK hK' (ok_and_left _ (h.okPlayer _))]

theorem attackersTo_agree (c : Color) (to : Square) (occ : BB) :
    q.attackersTo K c to occ = q.attackersTo K' c to occ := by
  simp only [PartialPosition.attackersTo, hK.and, hK'.and, hK.or, hK'.or, fuAttack, keAttack,
    giAttack, kiAttack, pieceAttack_agree hK hK', kyAttack_agree hK hK', kaAttack_agree hK hK',
    hiAttack_agree hK hK']

theorem attackersToExceptKlp_agree (c : Color) (to : Square) :
    q.attackersToExceptKlp K c to = q.attackersToExceptKlp K' c to := by
  simp only [PartialPosition.attackersToExceptKlp, hK.and, hK'.and, hK.or, hK'.or, keAttack,
    giAttack, kiAttack, pieceAttack_agree hK hK', kaAttack_agree hK hK',
    hiAttack_agree hK hK', occupiedBB_agree hK hK']

theorem snipers_agree (c : Color) (s : Square) :
    AttackInfo.snipers K q c s = AttackInfo.snipers K' q c s := by
  simp only [AttackInfo.snipers, hK.and, hK'.and, hK.or, hK'.or, tablePseudo_agree hK hK']

theorem pinnedOf_agree (h : OkBoards q) : AttackInfo.pinnedOf K q = AttackInfo.pinnedOf K' q := by
  funext c
  unfold AttackInfo.pinnedOf
  rw [kingPosition_agree hK hK' h]
  cases q.kingPosition K' c with
  | none => simp only [hK.empty, hK'.empty]
  | some sq =>
    dsimp only
    rw [iter_agree hK hK' (ok_snipers hK h c sq), snipers_agree hK hK', hK.empty, hK'.empty]
    congr 1
    funext acc s
    have hok : Ok (K'.and (betweenTable K' sq s) (q.occupiedBB K')) := by
      rw [hK'.and]; exact ok_and_left _ (betweenTable_spec hK' _ _).1
    have e : K.and (betweenTable K sq s) (q.occupiedBB K) =
        K'.and (betweenTable K' sq s) (q.occupiedBB K') := by
      rw [hK.and, hK'.and, betweenTable_agree hK hK', occupiedBB_agree hK hK']
    simp only [e]
    rw [hK.count _ hok, hK'.count _ hok, hK.or, hK'.or]

theorem checkablesOf_agree (h : OkBoards q) :
    AttackInfo.checkablesOf K q = AttackInfo.checkablesOf K' q := by
  unfold AttackInfo.checkablesOf
  dsimp only
  rw [kingPosition_agree hK hK' h, occupiedBB_agree hK hK']
  cases q.kingPosition K' q.side.flip with
  | none => simp only [hK.empty, hK'.empty]
  | some sq =>
    funext k
    cases k <;> simp only [fuAttack, keAttack, giAttack, kiAttack, pieceAttack_agree hK hK',
      kyAttack_agree hK hK', kaAttack_agree hK hK', hiAttack_agree hK hK', hK.or, hK'.or, hK.empty,
      hK'.empty]

theorem calculateCheckers_agree (h : OkBoards q) :
    AttackInfo.calculateCheckers K q = AttackInfo.calculateCheckers K' q := by
  unfold AttackInfo.calculateCheckers
  dsimp only
  rw [kingPosition_agree hK hK' h, occupiedBB_agree hK hK']
  cases q.kingPosition K' q.side with
  | none => simp only [hK.empty, hK'.empty]
  | some sq =>
    simp only [hK.and, hK'.and, hK.or, hK'.or, fuAttack, keAttack,
      giAttack, kiAttack, pieceAttack_agree hK hK', kyAttack_agree hK hK', kaAttack_agree hK hK',
      hiAttack_agree hK hK']

theorem attackInfo_agree (h : OkBoards q) (checkers : BB) :
    AttackInfo.new K checkers q = AttackInfo.new K' checkers q := by
  unfold AttackInfo.new
  rw [checkablesOf_agree hK hK' h, pinnedOf_agree hK hK' h]

/-! ## Move generation -/

theorem isLegal_agree (h : OkBoards q) (st : State) : q.isLegal K st = q.isLegal K' st := by
  funext m
  unfold PartialPosition.isLegal
  simp only [hK.isEmpty, hK'.isEmpty, hK.contains, hK'.contains, attackersTo_agree hK hK',
    occupiedBB_agree hK hK', kingPosition_agree hK hK' h, betweenTable_agree hK hK']

theorem groupMoves_agree {k : PieceKind} {frms target : BB} (hf : Ok frms) :
    groupMoves K q k frms target = groupMoves K' q k frms target := by
  unfold groupMoves pieceMoves
  rw [iter_agree hK hK' hf]
  congr 1
  funext frm
  rw [hK.and, hK'.and, tableAttack_agree hK hK', occupiedBB_agree hK hK',
    iter_agree hK hK' (ok_and_left _ (tableAttack_spec hK' _ _ _ _).1)]

theorem fuMoves_agree (h : Repr q) (hd : ∀ c s, q.board s = some ⟨.pawn, c⟩ → ¬ Dead .pawn c s)
    (target : BB) : fuMoves K q target = fuMoves K' q target := by
  obtain ⟨a1, a2⟩ := fuTo_spec hK h hd
  obtain ⟨b1, b2⟩ := fuTo_spec hK' h hd
  have e : fuTo K q = fuTo K' q :=
    ext_of_ok a1 b1 fun t => Bool.eq_iff_iff.2 (((a2 t).trans (exists_congr fun frm =>
      and_congr_right fun _ => and_congr_right fun hs =>
        ⟨fun _ => fuFrom_step hs, fun _ => fuFrom_step hs⟩)).trans (b2 t).symm)
  unfold fuMoves
  rw [hK.and, hK'.and, e, iter_agree hK hK' (ok_and_left _ b1)]
  have hfl : ∀ (l : List Square) {f g : Square → List Move}, (∀ t ∈ l, f t = g t) →
      l.flatMap f = l.flatMap g := by
    intro l f g hfg
    induction l with
    | nil => rfl
    | cons a l ih =>
      rw [List.flatMap_cons, List.flatMap_cons, hfg a List.mem_cons_self,
        ih fun t ht => hfg t (List.mem_cons_of_mem _ ht)]
  apply hfl
  intro to hto
  rw [mem_iter hK' (ok_and_left _ b1), mem_and, Bool.and_eq_true, b2] at hto
  obtain ⟨⟨frm, _, hs, h2⟩, _⟩ := hto
  rw [h2, fuFrom_step (K := K) hs]

theorem parts_agree (h : Repr q) (hd : ∀ c s, q.board s = some ⟨.pawn, c⟩ → ¬ Dead .pawn c s)
    (target : BB) : parts K q target = parts K' q target := by
  funext r
  have hg : ∀ k, groupMoves K q k (K.and (q.playerBB q.side) (q.pieceBB k)) target =
      groupMoves K' q k (K'.and (q.playerBB q.side) (q.pieceBB k)) target := by
    intro k
    rw [hK.and, hK'.and]
    exact groupMoves_agree hK hK' (ok_and_left _ (h.okPlayer _))
  cases r
  case pawn => exact fuMoves_agree hK hK' h hd target
  case gold =>
    simp only [parts, kiMoves, hK.and, hK'.and, hK.or, hK'.or]
    exact groupMoves_agree hK hK' (ok_and_right _ (h.okPlayer _))
  case proPawn | proLance | proKnight | proSilver => rfl
  all_goals exact hg _

theorem dropKind_agree {c : Color} {target : BB} (h : Ok target) (pk : PieceKind) :
    dropKind K c target pk = dropKind K' c target pk := by
  unfold dropKind
  rw [iter_agree hK hK' h]

theorem emptySquares_agree : emptySquares K q = emptySquares K' q := by
  unfold emptySquares
  simp only [hK.and, hK'.and, hK.not, hK'.not, occupiedBB_agree hK hK', hK.empty, hK'.empty]

end

/-! ## Positions with the same board, hands and side -/

/-- Same board, hands and side to move. -/
def SamePos (q q' : PartialPosition) : Prop := q.spec = q'.spec

section
variable {K : Backend} {q q' : PartialPosition}

theorem SamePos.bitboards (hs : SamePos q q') (h : Repr q) (h' : Repr q') :
    q.side = q'.side ∧ q.board = q'.board ∧ q.playerBB = q'.playerBB ∧ q.pieceBB = q'.pieceBB := by
  have h1 : q.board = q'.board := congrArg Pos.board hs
  have h2 : q.side = q'.side := congrArg Pos.side hs
  refine ⟨h2, h1, ?_, ?_⟩
  · funext c
    refine ext_of_ok (h.okPlayer c) (h'.okPlayer c) fun s => Bool.eq_iff_iff.2 ?_
    rw [h.player, h'.player, h1]
  · funext k
    refine ext_of_ok (h.okPiece k) (h'.okPiece k) fun s => Bool.eq_iff_iff.2 ?_
    rw [h.piece, h'.piece, h1]

theorem SamePos.handKinds (hs : SamePos q q') : handKinds q = handKinds q' := by
  have h2 : q.side = q'.side := congrArg Pos.side hs
  have h3 := congrArg Pos.hand hs
  unfold Yasai.handKinds
  congr 1
  funext pk
  have := congrFun (congrFun h3 q.side) pk
  simp only [PartialPosition.spec] at this
  rw [this, h2]

/-- Functions that do not look at the hands and the ply counter. -/
theorem SamePos.congr {α : Sort _} (hs : SamePos q q') (h : Repr q) (h' : Repr q')
    (f : PartialPosition → α)
    (hf : ∀ q ply hands, f { q with ply := ply, hands := hands } = f q) : f q = f q' := by
  obtain ⟨h1, h2, h3, h4⟩ := hs.bitboards h h'
  rw [← hf q q'.ply q'.hands]
  congr 1
  cases q; cases q'
  simp only at h1 h2 h3 h4
  simp only [PartialPosition.mk.injEq]
  exact ⟨h1, trivial, trivial, h2, h3, h4⟩

end

section
variable {K K' : Backend} (hK : Lawful K) (hK' : Lawful K')
include hK hK'

/-- The attack information is determined by board and side. -/
theorem attackInfo_same {q q' : PartialPosition} (h : Repr q) (h' : Repr q') (hs : SamePos q q') :
    AttackInfo.new K (AttackInfo.calculateCheckers K q) q =
      AttackInfo.new K' (AttackInfo.calculateCheckers K' q') q' := by
  rw [calculateCheckers_agree hK hK' h, attackInfo_agree hK hK' h]
  exact hs.congr h h' (fun q => AttackInfo.new K' (AttackInfo.calculateCheckers K' q) q)
    fun _ _ _ => rfl

theorem dropMoves_same {E E' : Env} {q q' : PartialPosition} {st st' : State} (h : Repr q)
    (h' : Repr q') (hs : SamePos q q') (hv : Valid q.spec)
    (hai : st.attackInfo = AttackInfo.new K (AttackInfo.calculateCheckers K q) q)
    (hai' : st'.attackInfo = AttackInfo.new K' (AttackInfo.calculateCheckers K' q') q')
    {target : BB} (hok : Ok target) (hemp : ∀ to, mem target to = true → q.board to = none) :
    dropMoves E K q st target = dropMoves E' K' q' st' target := by
  have hb : q.board = q'.board := congrArg Pos.board hs
  have hside : q.side = q'.side := congrArg Pos.side hs
  have hv' : Valid q'.spec := by rw [← hs]; exact hv
  obtain ⟨pt, hpt, hptok, hptm⟩ := pawnDropTarget_spec hK h hv E hai hok hemp
  obtain ⟨pt', hpt', hptok', hptm'⟩ := pawnDropTarget_spec hK' h' hv' E' hai' hok
    (by rw [← hb]; exact hemp)
  have e : pt = pt' := by
    refine ext_of_ok hptok hptok' fun t => Bool.eq_iff_iff.2 ?_
    rw [hptm, hptm', hb, hside, hs]
  subst e
  unfold dropMoves
  rw [hpt, hpt', hs.handKinds, hside]
  congr 1
  funext pk
  simp only [Option.getD_some]
  split
  · exact dropKind_agree hK hK' hptok _
  · exact dropKind_agree hK hK' hok _

/-- The generated list is determined by board, hands and side. -/
theorem pseudoList_same {E E' : Env} {q q' : PartialPosition} {st st' : State} (h : Repr q)
    (h' : Repr q') (hs : SamePos q q') (hv : Valid q.spec)
    (hai : st.attackInfo = AttackInfo.new K (AttackInfo.calculateCheckers K q) q)
    (hai' : st'.attackInfo = AttackInfo.new K' (AttackInfo.calculateCheckers K' q') q') :
    pseudoList E K q st = pseudoList E' K' q' st' := by
  have hv' : Valid q'.spec := by rw [← hs]; exact hv
  have hst : st.attackInfo = st'.attackInfo := by
    rw [hai, hai']; exact attackInfo_same hK hK' h h' hs
  obtain ⟨h1, h2, h3, h4⟩ := hs.bitboards h h'
  have hkp : ∀ c, q.kingPosition K c = q'.kingPosition K' c := by
    intro c
    rw [kingPosition_agree hK hK' h]
    exact hs.congr h h' (fun q => q.kingPosition K' c) fun _ _ _ => rfl
  have hocc : q.occupiedBB K = q'.occupiedBB K' := by
    rw [occupiedBB_agree hK hK']
    exact hs.congr h h' (fun q => q.occupiedBB K') fun _ _ _ => rfl
  have hparts : ∀ target, parts K q target = parts K' q' target := by
    intro target
    rw [parts_agree hK hK' h hv.noDeadPawn]
    exact hs.congr h h' (fun q => parts K' q target) fun q ply hands => by
      funext k; cases k <;> rfl
  have hckok : Ok st'.attackInfo.checkers := by rw [hai']; exact ok_calculateCheckers hK' h'
  unfold pseudoList
  rw [hkp, hK.isEmpty, hK'.isEmpty, hst, h1]
  split
  · unfold allList
    obtain ⟨hok, hes⟩ := emptySquares_spec hK h
    rw [dropMoves_same hK hK' h h' hs hv hai hai' hok (fun to => (hes to).1), hparts, hK.not, hK'.not,
      h1, h3, emptySquares_agree hK hK']
    congr 1
    congr 1
    exact hs.congr h h' (fun q => emptySquares K' q) fun _ _ _ => rfl
  · cases hking : q'.kingPosition K' q'.side with
    | none => rfl
    | some king =>
      dsimp only
      have hca : q.checkersAttacks K st king = q'.checkersAttacks K' st' king := by
        unfold PartialPosition.checkersAttacks
        simp only [hst, iter_agree hK hK' hckok, hK.empty, hK'.empty, hK.or, hK'.or, hocc,
          hiAttack_agree hK hK', tablePseudo_agree hK hK', h1, PartialPosition.pieceAt, h2]
      rw [hca]
      cases hc : q'.checkersAttacks K' st' king with
      | none => rfl
      | some r =>
        obtain ⟨attacks, n⟩ := r
        dsimp only
        have hking' : q'.board king = some ⟨.king, q'.side⟩ :=
          (h'.kingPosition hK' _ (hv'.oneKing _) king).1 hking
        unfold evList
        rw [hst, iter_agree hK hK' hckok]
        congr 1
        · unfold kingEvasions
          have hok : Ok (ouAttack K' king q'.side) := ok_pieceAttack hK' _ _ _
          have e : ouAttack K king q'.side = ouAttack K' king q'.side :=
            pieceAttack_agree hK hK' _ _ _
          simp only [hK.and, hK'.and, hK.not, hK'.not, h1, h3, e]
          rw [iter_agree hK hK' (ok_and_left _ (ok_and_left _ hok))]
        · have hm := mem_iter_checkers hK' h' hv' hai' hking'
          split
          · next ch hch =>
            obtain ⟨k, hk, hr⟩ : AttacksFrom q'.board q'.side.flip ch king :=
              (hm ch).1 (by rw [hch]; simp)
            have hemp : ∀ to, mem (betweenTable K ch king) to = true → q.board to = none := by
              intro to hto
              rw [h2]
              exact Classical.not_not.1 (reaches_path hr ((mem_betweenTable hK _ _ _).1 hto))
            unfold otherEvasions
            rw [hst, hK.or, hK'.or, hparts, hK.isEmpty, hK'.isEmpty,
              dropMoves_same hK hK' h h' hs hv hai hai' (betweenTable_spec hK ch king).1 hemp,
              betweenTable_agree hK hK']
          · rfl

/-- `legal_moves()` is determined by board, hands and side. -/
theorem legalMoves_same {E E' : Env} {p p' : Position} (hi : Inv K p) (hi' : Inv K' p')
    (hs : SamePos p.inner p'.inner) (hv : Valid p.inner.spec) :
    p.legalMoves E K = p'.legalMoves E' K' := by
  have hv' : Valid p'.inner.spec := by rw [← hs]; exact hv
  obtain ⟨st, hst, he, _⟩ := legalMoves_spec E hK hi hv
  obtain ⟨st', hst', he', _⟩ := legalMoves_spec E' hK' hi' hv'
  obtain ⟨h, st1, hst1, hai⟩ := hi
  obtain ⟨h', st1', hst1', hai'⟩ := hi'
  have hx : st1 = st := by
    have : p.states.head? = some st := hst
    have h2 : p.states.head? = some st1 := hst1
    rw [this] at h2; cases h2; rfl
  have hx' : st1' = st' := by
    have : p'.states.head? = some st' := hst'
    have h2 : p'.states.head? = some st1' := hst1'
    rw [this] at h2; cases h2; rfl
  subst hx hx'
  rw [he, he', pseudoList_same hK hK' h h' hs hv hai hai']
  have hst : st1.attackInfo = st1'.attackInfo := by
    rw [hai, hai']; exact attackInfo_same hK hK' h h' hs
  have hl : p.inner.isLegal K st1 = p'.inner.isLegal K' st1' := by
    rw [isLegal_agree hK hK' h]
    have : p.inner.isLegal K' st1 = p.inner.isLegal K' st1' := by
      funext m
      unfold PartialPosition.isLegal
      rw [hst]
    rw [this]
    exact hs.congr h h' (fun q => q.isLegal K' st1') fun q ply hands => by
      funext m; rfl
  rw [hl]

theorem isCheckMove_same {p p' : Position} (hi : Inv K p) (hi' : Inv K' p')
    (hs : SamePos p.inner p'.inner) (m : Move) :
    p.isCheckMove K m = p'.isCheckMove K' m := by
  obtain ⟨h, st, hst, hai⟩ := hi
  obtain ⟨h', st', hst', hai'⟩ := hi'
  have hst1 : st.attackInfo = st'.attackInfo := by
    rw [hai, hai']; exact attackInfo_same hK hK' h h' hs
  obtain ⟨h1, h2, h3, h4⟩ := hs.bitboards h h'
  have hkp : ∀ c, p.inner.kingPosition K c = p'.inner.kingPosition K' c := by
    intro c
    rw [kingPosition_agree hK hK' h]
    exact hs.congr h h' (fun q => q.kingPosition K' c) fun _ _ _ => rfl
  have e1 : p.state = some st := hst
  have e2 : p'.state = some st' := hst'
  cases m <;>
  simp only [Position.isCheckMove, Position.checkable, e1, e2, hst1, hkp, hK.contains, hK'.contains,
    betweenTable_agree hK hK', PartialPosition.pieceAt, h2, h1, Option.bind_eq_bind,
    Option.bind_some]

theorem inCheck_same {p p' : Position} (hi : Inv K p) (hi' : Inv K' p')
    (hs : SamePos p.inner p'.inner) : p.inCheck K = p'.inCheck K' := by
  obtain ⟨h, st, hst, hai⟩ := hi
  obtain ⟨h', st', hst', hai'⟩ := hi'
  have hst1 : st.attackInfo = st'.attackInfo := by
    rw [hai, hai']; exact attackInfo_same hK hK' h h' hs
  have e1 : p.state = some st := hst
  have e2 : p'.state = some st' := hst'
  simp only [Position.inCheck, e1, e2, hst1, hK.isEmpty, hK'.isEmpty, Option.bind_eq_bind,
    Option.bind_some]

/-! ## `new`, `do_move` and `undo_move` in two backends -/

theorem xorPiece_agree (q : PartialPosition) (s : Square) (p : Piece) :
    q.xorPiece K s p = q.xorPiece K' s p := by
  unfold PartialPosition.xorPiece
  simp only [hK.xor, hK'.xor, hK.single, hK'.single]

theorem ofCore_agree (pp : CorePartialPosition) :
    PartialPosition.ofCore K pp = PartialPosition.ofCore K' pp := by
  unfold PartialPosition.ofCore
  have : PartialPosition.fromStep K pp = PartialPosition.fromStep K' pp := by
    funext q s
    unfold PartialPosition.fromStep
    simp only [hK.or, hK'.or, hK.single, hK'.single]
  rw [this, hK.empty, hK'.empty]

theorem new_agree (E : Env) (pp : CorePartialPosition) :
    Position.new E K pp = Position.new E K' pp := by
  have hr : Repr (PartialPosition.ofCore K' pp) := (ofCore_spec hK' pp).1
  unfold Position.new
  simp only [ofCore_agree hK hK', calculateCheckers_agree hK hK' hr.okBoards,
    attackInfo_agree hK hK' hr.okBoards]

theorem undoMove_agree (E : Env) (p : Position) (m : Move) :
    p.undoMove E K m = p.undoMove E K' m := by
  cases m <;>
  simp only [Position.undoMove, Position.undoNormal, Position.undoDrop, Position.undoCapture,
    xorPiece_agree hK hK']

theorem pushState_agree (E : Env) (l : List State) (q : PartialPosition) (h : OkBoards q) (keys : Key × Key)
    (a b : Option Piece) (c : BB) :
    Position.pushState E K l q keys a b c = Position.pushState E K' l q keys a b c := by
  have hr : ∀ ply, OkBoards { q with ply := ply } := fun ply => ⟨h.okPlayer, h.okPiece⟩
  simp only [Position.pushState, attackInfo_agree hK hK' (hr _)]

theorem inv_agree {p : Position} (hi : Inv K p) : Inv K' p := by
  obtain ⟨h, st, hst, hai⟩ := hi
  exact ⟨h, st, hst, hai.trans (attackInfo_same hK hK' h h rfl)⟩

theorem doCapture_agree (E : Env) (c : Color) (to : Square) (cap : Option Piece) (keys : Key × Key)
    (q : PartialPosition) :
    Position.doCapture E K c to cap keys q = Position.doCapture E K' c to cap keys q := by
  cases cap <;> simp only [Position.doCapture, xorPiece_agree hK hK']

theorem moveInner_agree (c : Color) (q : PartialPosition) (frm to : Square) (p t : Piece) :
    Position.moveInner K c q frm to p t = Position.moveInner K' c q frm to p t := by
  simp only [Position.moveInner, xorPiece_agree hK hK']

theorem dropInner_agree (c : Color) (q : PartialPosition) (to : Square) (p : Piece) :
    Position.dropInner K c q to p = Position.dropInner K' c q to p := by
  simp only [Position.dropInner, xorPiece_agree hK hK']

end

end Yasai

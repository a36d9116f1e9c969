import Verif.Proofs.Drops

/-!
# `generate_all`, `generate_evasions`, `is_legal` and `legal_moves`
-/

namespace Yasai

open Spec

theorem appendAll_bind' {av : Av} {l1 l2 : List Move} {f : Av → Option Av}
    (h : ∀ av, f av = appendAll av l2) : (appendAll av l1).bind f = appendAll av (l1 ++ l2) := by
  rw [← appendAll_bind]
  congr 1
  funext av
  exact h av

/-! ## Board moves of all kinds -/

/-- The list of the generator that handles kind `k` (gold-like kinds are handled with gold). -/
def parts (K : Backend) (q : PartialPosition) (target : BB) : PieceKind → List Move
  | .pawn => fuMoves K q target
  | .lance => kyMoves K q target
  | .knight => keMoves K q target
  | .silver => giMoves K q target
  | .bishop => kaMoves K q target
  | .rook => hiMoves K q target
  | .gold => kiMoves K q target
  | .king => ouMoves K q target
  | .proBishop => umMoves K q target
  | .proRook => ryMoves K q target
  | _ => []

/-- The order of the generators in `generate_all`. -/
def orderAll : List PieceKind :=
  [.pawn, .lance, .knight, .silver, .bishop, .rook, .gold, .king, .proBishop, .proRook]

/-- The order of the generators in `generate_evasions`. -/
def orderEv : List PieceKind :=
  [.pawn, .lance, .knight, .silver, .bishop, .rook, .gold, .proBishop, .proRook]

/-- The generator responsible for a kind. -/
def rep : PieceKind → PieceKind
  | .proPawn | .proLance | .proKnight | .proSilver => .gold
  | k => k

theorem mem_parts_of {K : Backend} (hK : Lawful K) {q : PartialPosition} (h : Repr q)
    (target : BB) (r : PieceKind) (hr : r ∈ orderAll) (m : Move)
    (hd : r = .pawn → (m ∈ fuMoves K q target ↔ Gen q target .pawn m)) :
    m ∈ parts K q target r ↔ ∃ k, rep k = r ∧ Gen q target k m := by
  have single : ∀ r, r ∈ orderAll → r ≠ .gold → (Gen q target r m ↔ ∃ k, rep k = r ∧ Gen q target k m) := by
    intro r hr hg
    constructor
    · intro h
      refine ⟨r, ?_, h⟩
      revert hr; cases r <;> simp [rep, orderAll]
    · rintro ⟨k, hk, h⟩
      have : k = r := by
        revert hk; cases k <;> simp [rep] <;> rintro rfl <;> first | rfl | exact absurd rfl hg
      rw [← this]; exact h
  simp only [orderAll, List.mem_cons, List.not_mem_nil, or_false] at hr
  rcases hr with rfl | rfl | rfl | rfl | rfl | rfl | rfl | rfl | rfl | rfl
  · exact (hd rfl).trans (single _ (by decide) (by decide))
  · exact (mem_group_gen hK h _ target m).trans (single _ (by decide) (by decide))
  · exact (mem_group_gen hK h _ target m).trans (single _ (by decide) (by decide))
  · exact (mem_group_gen hK h _ target m).trans (single _ (by decide) (by decide))
  · exact (mem_group_gen hK h _ target m).trans (single _ (by decide) (by decide))
  · exact (mem_group_gen hK h _ target m).trans (single _ (by decide) (by decide))
  · refine (mem_kiMoves hK h target m).trans (exists_congr fun k => and_congr_left' ?_)
    cases k <;> simp [goldKinds, rep]
  · exact (mem_group_gen hK h _ target m).trans (single _ (by decide) (by decide))
  · exact (mem_group_gen hK h _ target m).trans (single _ (by decide) (by decide))
  · exact (mem_group_gen hK h _ target m).trans (single _ (by decide) (by decide))
where
  and_congr_left' {a b c : Prop} (h : a ↔ b) : (a ∧ c) ↔ (b ∧ c) := by rw [h]

theorem mem_parts {K : Backend} (hK : Lawful K) {q : PartialPosition} (h : Repr q)
    (hd : ∀ c s, q.board s = some ⟨.pawn, c⟩ → ¬ Dead .pawn c s) (target : BB) (r : PieceKind)
    (hr : r ∈ orderAll) (m : Move) :
    m ∈ parts K q target r ↔ ∃ k, rep k = r ∧ Gen q target k m :=
  mem_parts_of hK h target r hr m fun _ => mem_fuMoves hK h hd target m

theorem parts_nodup {K : Backend} (hK : Lawful K) {q : PartialPosition} (h : Repr q)
    (hd : ∀ c s, q.board s = some ⟨.pawn, c⟩ → ¬ Dead .pawn c s) (target : BB) (r : PieceKind) :
    (parts K q target r).Nodup := by
  have hg : ∀ k, (groupMoves K q k (K.and (q.playerBB q.side) (q.pieceBB k)) target).Nodup := by
    intro k
    apply groupMoves_nodup hK h
    rw [hK.and]; exact ok_and_left _ (h.okPlayer _)
  cases r
  case pawn => exact fuMoves_nodup hK h hd target
  case gold =>
    apply groupMoves_nodup hK h
    rw [hK.and]; exact ok_and_right _ (h.okPlayer _)
  case proPawn | proLance | proKnight | proSilver => exact .nil
  all_goals exact hg _

theorem gen_kind {q : PartialPosition} {target : BB} {k k' : PieceKind} {m : Move}
    (h : Gen q target k m) {target' : BB} (h' : Gen q target' k' m) : k = k' := by
  obtain ⟨frm, to, pr, rfl, h1, _⟩ := h
  obtain ⟨frm', to', pr', e, h2, _⟩ := h'
  cases e
  rw [h1] at h2
  cases h2; rfl

theorem mem_boardList {K : Backend} (hK : Lawful K) {q : PartialPosition} (h : Repr q)
    (hd : ∀ c s, q.board s = some ⟨.pawn, c⟩ → ¬ Dead .pawn c s) (target : BB)
    {order : List PieceKind} (ho : ∀ k ∈ order, k ∈ orderAll) (m : Move) :
    m ∈ order.flatMap (parts K q target) ↔ ∃ k, rep k ∈ order ∧ Gen q target k m := by
  rw [List.mem_flatMap]
  constructor
  · rintro ⟨r, hr, hm⟩
    rw [mem_parts hK h hd target r (ho r hr)] at hm
    obtain ⟨k, rfl, hm⟩ := hm
    exact ⟨k, hr, hm⟩
  · rintro ⟨k, hk, hm⟩
    exact ⟨rep k, hk, (mem_parts hK h hd target _ (ho _ hk) m).2 ⟨k, rfl, hm⟩⟩

theorem boardList_nodup {K : Backend} (hK : Lawful K) {q : PartialPosition} (h : Repr q)
    (hd : ∀ c s, q.board s = some ⟨.pawn, c⟩ → ¬ Dead .pawn c s) (target : BB)
    {order : List PieceKind} (ho : ∀ k ∈ order, k ∈ orderAll) (hn : order.Nodup) :
    (order.flatMap (parts K q target)).Nodup := by
  apply nodup_flatMap hn (fun r _ => parts_nodup hK h hd target r)
  intro x hx y hy m h1 h2
  rw [mem_parts hK h hd target _ (ho _ hx)] at h1
  rw [mem_parts hK h hd target _ (ho _ hy)] at h2
  obtain ⟨k1, rfl, h1⟩ := h1
  obtain ⟨k2, rfl, h2⟩ := h2
  rw [gen_kind h1 h2]

/-! ## `generate_all` -/

/-- Drop targets when not in check. -/
def emptySquares (K : Backend) (q : PartialPosition) : BB :=
  K.and (K.not (q.occupiedBB K)) (K.not K.empty)

/-- The list generated by `generate_all`. -/
def allList (E : Env) (K : Backend) (q : PartialPosition) (st : State) : List Move :=
  orderAll.flatMap (parts K q (K.not (q.playerBB q.side))) ++ dropMoves E K q st (emptySquares K q)

theorem generateAll_eq {E : Env} {K : Backend} {q : PartialPosition} {st : State}
    (h : .pawn ∈ handKinds q → ∃ pt, q.pawnDropTarget E K st (emptySquares K q) = some pt) (av : Av) :
    q.generateAll E K st av = appendAll av (allList E K q st) := by
  have hd := generateDrop_eq h
  unfold emptySquares at hd
  unfold PartialPosition.generateAll
  simp only [Option.bind_eq_bind, generateForFu_eq, generateForKy_eq, generateForKe_eq,
    generateForGi_eq, generateForKa_eq, generateForHi_eq, generateForKi_eq, generateForOu_eq,
    generateForUm_eq, generateForRy_eq, hd, appendAll_bind]
  simp only [allList, emptySquares, orderAll, List.flatMap_cons, List.flatMap_nil, parts,
    List.append_assoc, List.nil_append]

theorem not_own_iff {K : Backend} (hK : Lawful K) {q : PartialPosition} (h : Repr q) (to : Square) :
    mem (K.not (q.playerBB q.side)) to = true ↔ ∀ p, q.board to = some p → p.color ≠ q.side := by
  rw [hK.not, mem_not, Bool.not_eq_true', ← Bool.not_eq_true, h.player]
  constructor
  · intro h p hp e
    exact h ⟨p.kind, by rw [hp, ← e]⟩
  · rintro h ⟨k, hk⟩
    exact h _ hk rfl

theorem rep_mem (k : PieceKind) : rep k ∈ orderAll := by cases k <;> decide

theorem gen_pseudoLegal {K : Backend} (hK : Lawful K) {q : PartialPosition} (h : Repr q)
    {frm to : Square} {pr : Bool} :
    (∃ k, Gen q (K.not (q.playerBB q.side)) k (.normal frm to pr)) ↔
      PseudoLegal q.spec (.normal frm to pr) := by
  constructor
  · rintro ⟨k, frm', to', pr', e, h1, h2, h3, h4, h5⟩
    cases e
    exact ⟨k, h1, h2, (not_own_iff hK h to).1 h3, h4, h5⟩
  · rintro ⟨k, h1, h2, h3, h4, h5⟩
    exact ⟨k, frm, to, pr, rfl, h1, h2, (not_own_iff hK h to).2 h3, h4, h5⟩

theorem emptySquares_spec {K : Backend} (hK : Lawful K) {q : PartialPosition} (h : Repr q) :
    Ok (emptySquares K q) ∧ ∀ to, mem (emptySquares K q) to = true ↔ q.board to = none := by
  unfold emptySquares
  rw [hK.and, hK.not, hK.not, hK.empty]
  refine ⟨ok_and_left _ (ok_not _), fun to => ?_⟩
  rw [mem_and, mem_not, mem_not, mem_zero, Bool.not_false, Bool.and_true, Bool.not_eq_true',
    ← Bool.not_eq_true, h.occ hK]
  exact Classical.not_not

/-! ## `is_legal` -/

theorem isLegal_normal {K : Backend} (hK : Lawful K) {q : PartialPosition} (h : Repr q)
    (hv : Tame q.spec) {st : State}
    (hai : st.attackInfo = AttackInfo.new K (AttackInfo.calculateCheckers K q) q)
    {frm to : Square} {pr : Bool} {k : PieceKind} (hfrm : q.board frm = some ⟨k, q.side⟩) :
    q.isLegal K st (.normal frm to pr) = true ↔
      (k = .king → ∀ s, ¬ AttacksFrom q.board q.side.flip s to) ∧
      (∀ king, q.board king = some ⟨.king, q.side⟩ → Pinned q.board q.side king frm →
        Between king to frm ∨ Between king frm to) := by
  have hatt : K.isEmpty (q.attackersTo K q.side.flip to (q.occupiedBB K)) = true ↔
      ∀ s, ¬ AttacksFrom q.board q.side.flip s to := by
    rw [hK.isEmpty, beq_iff_eq, eq_zero_iff (ok_attackersTo hK h _ _ _)]
    apply forall_congr'; intro s
    rw [← Bool.not_eq_true, mem_attackersTo hK h, h.occ_fun hK]
    rfl
  have hpc : (q.pieceAt frm = some ⟨.king, q.side⟩) ↔ k = .king := by
    unfold PartialPosition.pieceAt
    rw [hfrm]
    constructor
    · intro h; cases h; rfl
    · rintro rfl; rfl
  have e : q.isLegal K st (.normal frm to pr) =
      (if q.pieceAt frm = some ⟨.king, q.side⟩ ∧
        (!K.isEmpty (q.attackersTo K q.side.flip to (q.occupiedBB K))) = true then false
      else if K.contains (st.attackInfo.pinned q.side) frm then
        match q.kingPosition K q.side with
        | some sq =>
          if !(K.contains (betweenTable K sq frm) to || K.contains (betweenTable K sq to) frm)
          then false else true
        | none => true
      else true) := rfl
  rw [e]
  by_cases hc1 : k = .king ∧ ¬ ∀ s, ¬ AttacksFrom q.board q.side.flip s to
  · rw [if_pos (by
      refine ⟨hpc.2 hc1.1, ?_⟩
      rw [Bool.not_eq_true', ← Bool.not_eq_true, hatt]; exact hc1.2)]
    constructor
    · intro h; cases h
    · rintro ⟨h1, _⟩; exact absurd (h1 hc1.1) hc1.2
  · rw [if_neg (by
      rintro ⟨h1, h2⟩
      apply hc1
      refine ⟨hpc.1 h1, ?_⟩
      rw [Bool.not_eq_true', ← Bool.not_eq_true, hatt] at h2; exact h2)]
    have h1 : k = .king → ∀ s, ¬ AttacksFrom q.board q.side.flip s to := by
      intro hk
      exact Classical.byContradiction fun hn => hc1 ⟨hk, hn⟩
    have hpp : st.attackInfo.pinned q.side = AttackInfo.pinnedOf K q q.side := by rw [hai]; rfl
    rw [hK.contains, hpp]
    by_cases hp : mem (AttackInfo.pinnedOf K q q.side) frm = true
    · rw [if_pos hp]
      obtain ⟨king, hking, hpin⟩ := (mem_pinned hK h hv _ _).1 hp
      rw [(h.kingPosition hK _ (hv.oneKing _) king).2 hking]
      dsimp only
      rw [hK.contains, hK.contains]
      have e : (mem (betweenTable K king frm) to || mem (betweenTable K king to) frm) = true ↔
          Between king to frm ∨ Between king frm to := by
        rw [Bool.or_eq_true, mem_betweenTable hK, mem_betweenTable hK]
      by_cases hb : Between king to frm ∨ Between king frm to
      · rw [if_neg (by rw [Bool.not_eq_true', ← Bool.not_eq_true, e]; exact not_not_intro hb)]
        refine ⟨fun _ => ⟨h1, fun king' hking' _ => ?_⟩, fun _ => rfl⟩
        have := hv.oneKing _ _ _ hking' hking
        subst this
        exact hb
      · rw [if_pos (by rw [Bool.not_eq_true', ← Bool.not_eq_true, e]; exact hb)]
        refine ⟨fun h => (by cases h), fun h => absurd (h.2 king hking hpin) hb⟩
    · rw [if_neg hp]
      refine ⟨fun _ => ⟨h1, fun king hking hpin => ?_⟩, fun _ => rfl⟩
      exact absurd ((mem_pinned hK h hv _ _).2 ⟨king, hking, hpin⟩) hp

theorem isLegal_drop (K : Backend) (q : PartialPosition) (st : State) (to : Square) (pc : Piece) :
    q.isLegal K st (.drop to pc) = true := rfl

/-- A king is not pinned. -/
theorem not_pinned_self {b : Square → Option Piece} {c : Color} {king : Square} :
    ¬ Pinned b c king king := by
  rintro ⟨s, _, hb, _⟩
  exact between_ne_left hb rfl

theorem reaches_king {occ : Square → Prop} {c : Color} {s t : Square} :
    Reaches occ .king c s t ↔ Step .king c s t := by
  rw [reaches_iff]
  constructor
  · rintro (h | h)
    · exact h
    · exact absurd h.1 (not_slide rfl _ _ _)
  · exact .inl

/-- Legality of a board move, spelled out (shared by both generators). -/
theorem listed_normal {P : Pos} (hv : Tame P) {frm to : Square} {pr : Bool} {k : PieceKind}
    (hfrm : P.board frm = some ⟨k, P.side⟩) (hps : PseudoLegal P (.normal frm to pr)) :
    Generated P (.normal frm to pr) ↔
      if k = .king then
        (∀ s, ¬ AttacksFrom P.board P.side.flip s to) ∧
        (∀ s, AttacksFrom P.board P.side.flip s frm → ¬ XRay P.board P.side frm to s)
      else ∀ king, P.board king = some ⟨.king, P.side⟩ →
        (∀ s, AttacksFrom P.board P.side.flip s king → to = s ∨ Between s to king) ∧
        (Pinned P.board P.side king frm → Between king to frm ∨ Between king frm to) := by
  have hps' := hps
  obtain ⟨k', hfrm', hr, hown, hp1, hp2⟩ := hps'
  have : k' = k := by rw [hfrm] at hfrm'; cases hfrm'; rfl
  subst this
  unfold Generated Safe
  rw [apply_normal_board hfrm]
  have e : ((PseudoLegal P (.normal frm to pr) ∧
      ¬ InCheck (movedBoard P.board frm to ⟨movedKind k' pr, P.side⟩) P.side) ∧
      (IsPawnDrop (.normal frm to pr) → ¬ Refused P (.normal frm to pr))) ↔
      ¬ InCheck (movedBoard P.board frm to ⟨movedKind k' pr, P.side⟩) P.side :=
    ⟨fun h => h.1.2, fun h => ⟨⟨hps, h⟩, fun h => h.elim⟩⟩
  rw [e]
  by_cases hk : k' = .king
  · subst hk
    rw [if_pos rfl, movedKind_king.2 rfl]
    exact king_safe hfrm (fun s h => hv.oneKing _ _ _ h hfrm) (reaches_king.1 hr)
  · rw [if_neg hk]
    have hmk : movedKind k' pr ≠ .king := fun e => hk (movedKind_king.1 e)
    by_cases hex : ∃ king, P.board king = some ⟨.king, P.side⟩
    · obtain ⟨king, hking⟩ := hex
      rw [nonking_safe hfrm hk hmk hking (fun s h => hv.oneKing _ _ _ h hking) (reaches_ne hr)
        (fun u hu => reaches_path hr hu) hown]
      constructor
      · intro h king' hking'
        have := hv.oneKing _ _ _ hking' hking
        subst this
        exact h
      · intro h; exact h king hking
    · constructor
      · intro _ king hking; exact absurd ⟨king, hking⟩ hex
      · intro _
        apply not_inCheck_of_no_king
        intro s hs
        by_cases h1 : s = to
        · subst h1
          rw [movedBoard_to] at hs
          cases hs' : movedKind k' pr <;> rw [hs'] at hs hmk <;> first | exact hmk rfl | cases hs
        · by_cases h2 : s = frm
          · subst h2; rw [movedBoard_frm _ _ h1] at hs; cases hs
          · rw [movedBoard_other _ _ h1 h2] at hs
            exact hex ⟨s, hs⟩

theorem listed_drop {P : Pos} (hv : Tame P) {to : Square} {pc : Piece}
    (hps : PseudoLegal P (.drop to pc)) :
    Generated P (.drop to pc) ↔
      (∀ king, P.board king = some ⟨.king, P.side⟩ →
        ∀ s, AttacksFrom P.board P.side.flip s king → Between s to king) ∧
      (IsPawnDrop (.drop to pc) → ¬ Refused P (.drop to pc)) := by
  unfold Generated Safe
  apply and_congr_left
  intro _
  have hps' := hps
  obtain ⟨hc, hh, _, hemp, _⟩ := hps'
  obtain ⟨k, c⟩ := pc
  have hc : c = P.side := hc
  subst hc
  have hk : k ≠ .king := by rintro rfl; cases hh
  have e : (apply P (.drop to ⟨k, P.side⟩)).board = put P.board to (some ⟨k, P.side⟩) := rfl
  rw [e]
  constructor
  · rintro ⟨_, h⟩ king hking
    exact (drop_safe hk hking (fun s h => hv.oneKing _ _ _ h hking) hemp).1 h
  · intro h
    refine ⟨hps, ?_⟩
    by_cases hex : ∃ king, P.board king = some ⟨.king, P.side⟩
    · obtain ⟨king, hking⟩ := hex
      exact (drop_safe hk hking (fun s h => hv.oneKing _ _ _ h hking) hemp).2 (h king hking)
    · apply not_inCheck_of_no_king
      intro s hs
      by_cases h1 : s = to
      · subst h1
        rw [put_same] at hs
        cases hs
        exact hk rfl
      · rw [put_other _ _ h1] at hs
        exact hex ⟨s, hs⟩

/-! ## Not in check -/

theorem mem_allList {E : Env} {K : Backend} (hK : Lawful K) {q : PartialPosition} (h : Repr q)
    (hv : Tame q.spec) {st : State}
    (hai : st.attackInfo = AttackInfo.new K (AttackInfo.calculateCheckers K q) q) (m : Move) :
    m ∈ allList E K q st ↔ PseudoLegal q.spec m ∧ (IsPawnDrop m → ¬ Refused q.spec m) := by
  obtain ⟨hok, hes⟩ := emptySquares_spec hK h
  unfold allList
  rw [List.mem_append, mem_boardList hK h hv.noDeadPawn _ (fun _ h => h),
    mem_dropMoves hK h hv E hai hok (fun to => (hes to).1)]
  cases m with
  | normal frm to pr =>
    constructor
    · rintro (⟨k, _, hg⟩ | ⟨_, _, e, _⟩)
      · exact ⟨(gen_pseudoLegal hK h).1 ⟨k, hg⟩, fun h => h.elim⟩
      · cases e
    · rintro ⟨hp, _⟩
      obtain ⟨k, hg⟩ := (gen_pseudoLegal hK h).2 hp
      exact .inl ⟨k, rep_mem k, hg⟩
  | drop to pc =>
    constructor
    · rintro (⟨k, _, _, _, _, e, _⟩ | ⟨_, _, e, h1, h2, h3⟩)
      · cases e
      · exact ⟨h2, h3⟩
    · rintro ⟨hp, hm⟩
      exact .inr ⟨to, pc, rfl, (hes to).2 hp.2.2.2.1, hp, hm⟩

theorem allList_nodup {E : Env} {K : Backend} (hK : Lawful K) {q : PartialPosition} (h : Repr q)
    (hv : Tame q.spec) {st : State}
    (hai : st.attackInfo = AttackInfo.new K (AttackInfo.calculateCheckers K q) q) :
    (allList E K q st).Nodup := by
  obtain ⟨hok, hes⟩ := emptySquares_spec hK h
  unfold allList
  rw [List.nodup_append]
  refine ⟨boardList_nodup hK h hv.noDeadPawn _ (fun _ h => h) (by decide),
    dropMoves_nodup hK h hv E hai hok (fun to => (hes to).1), ?_⟩
  intro a ha b hb e
  subst e
  rw [mem_boardList hK h hv.noDeadPawn _ (fun _ h => h)] at ha
  rw [mem_dropMoves hK h hv E hai hok (fun to => (hes to).1)] at hb
  obtain ⟨_, _, _, _, _, rfl, _⟩ := ha
  obtain ⟨_, _, e, _⟩ := hb
  cases e

theorem allList_legal {E : Env} {K : Backend} (hK : Lawful K) {q : PartialPosition} (h : Repr q)
    (hv : Tame q.spec) {st : State}
    (hai : st.attackInfo = AttackInfo.new K (AttackInfo.calculateCheckers K q) q)
    (hnc : ¬ InCheck q.board q.side) (m : Move) :
    (m ∈ allList E K q st ∧ q.isLegal K st m = true) ↔ Generated q.spec m := by
  rw [mem_allList hK h hv hai]
  have hna : ∀ king, q.board king = some ⟨.king, q.side⟩ →
      ∀ s, ¬ AttacksFrom q.board q.side.flip s king :=
    fun king hking s hs => hnc ⟨king, hking, s, hs⟩
  cases m with
  | normal frm to pr =>
    constructor
    · rintro ⟨⟨hp, _⟩, hl⟩
      have hp' := hp
      obtain ⟨k, hfrm, _⟩ := hp'
      rw [isLegal_normal hK h hv hai hfrm] at hl
      rw [listed_normal hv hfrm hp]
      split
      · next hk =>
        subst hk
        exact ⟨hl.1 rfl, fun s hs => absurd hs (hna _ hfrm s)⟩
      · intro king hking
        exact ⟨fun s hs => absurd hs (hna _ hking s), hl.2 king hking⟩
    · intro hl
      have hp := hl.1.1
      refine ⟨⟨hp, hl.2⟩, ?_⟩
      have hp' := hp
      obtain ⟨k, hfrm, _⟩ := hp'
      rw [isLegal_normal hK h hv hai hfrm]
      rw [listed_normal hv hfrm hp] at hl
      split at hl
      · next hk =>
        subst hk
        refine ⟨fun _ => hl.1, fun king hking hpin => ?_⟩
        have := hv.oneKing _ _ _ hking hfrm
        subst this
        exact absurd hpin not_pinned_self
      · next hk =>
        exact ⟨fun e => absurd e hk, fun king hking => (hl king hking).2⟩
  | drop to pc =>
    constructor
    · rintro ⟨⟨hp, hm⟩, _⟩
      rw [listed_drop hv hp]
      exact ⟨fun king hking s hs => absurd hs (hna _ hking s), hm⟩
    · intro hl
      exact ⟨⟨hl.1.1, hl.2⟩, rfl⟩

end Yasai

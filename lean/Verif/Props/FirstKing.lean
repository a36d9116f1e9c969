import Verif.Props.Borrow
import Verif.Props.Recorded

/-!
# C87: what `legal_moves` lists, without conditions on kings and pawns

`Position::new` accepts any number of kings, and pawns anywhere.  Of several kings of one side the
one on the first square counts.
-/

namespace Yasai.Props

open Yasai Spec

/-- In the position after a pawn drop on `to`: the pawn attacks the first king, which has no square to
go to that is not attacked, and no piece but a king can take the pawn without opening a line on the
first king. -/
def NoAnswer (Q : Pos) (to : Square) : Prop :=
  ∃ king, FirstKing Q.board Q.side king ∧ AttacksFrom Q.board Q.side.flip to king ∧
    (∀ t pr, PseudoLegal Q (.normal king t pr) → ∃ s, AttacksFrom Q.board Q.side.flip s t) ∧
    (∀ frm pr, Q.board frm ≠ some ⟨.king, Q.side⟩ → PseudoLegal Q (.normal frm to pr) →
      ¬ NoNewAttackOn Q king (.normal frm to pr))

/-- The squares of the mover's pawns. -/
def pawnsOf (P : Pos) (t : Square) : Bool := decide (P.board t = some ⟨.pawn, P.side⟩)

/-- A drop that the generator allows, by the squares and files alone. -/
def DropListed (P : Pos) (to : Square) (k : PieceKind) (c : Color) : Prop :=
  c = P.side ∧ k.isHandPiece = true ∧ 0 < P.hand c k ∧ P.board to = none ∧ ¬ Dead k c to ∧
    (k = .pawn → TakenForVacant (InHalf (pawnsOf P) to.file) to.file ∧
      ¬ NoAnswer (apply P (.drop to ⟨k, c⟩)) to)

/-! ## Pawn drops -/

theorem noAnswer_iff {P : Pos} {to : Square} {c : Color} (hcc : c = P.side) (hto : P.board to = none) :
    (∃ king, FirstKing P.board c.flip king ∧ Step .pawn c to king ∧ DropMateCond P.board c king to) ↔
      NoAnswer (apply P (.drop to ⟨.pawn, c⟩)) to := by
  have hb : ∀ s, (apply P (.drop to ⟨.pawn, c⟩)).board s = some ⟨.king, c.flip⟩ ↔
      P.board s = some ⟨.king, c.flip⟩ := by
    intro s
    show put P.board to (some (⟨.pawn, c⟩ : Piece)) s = _ ↔ _
    by_cases e : s = to
    · subst e
      rw [put_same, hto]
      constructor <;> intro h <;> cases h
    · rw [put_other _ _ e]
  have hs : (apply P (.drop to ⟨.pawn, c⟩)).side = c.flip := by
    show P.side.flip = c.flip; rw [hcc]
  unfold NoAnswer
  rw [hs, flip_flip]
  refine exists_congr fun king => ?_
  unfold FirstKing
  simp only [ne_eq, hb]
  constructor
  · rintro ⟨h1, h2⟩
    exact ⟨h1, (dropMateCond_iff hcc hto h1.1).1 h2⟩
  · rintro ⟨h1, h2⟩
    refine ⟨h1, (dropMateCond_iff hcc hto h1.1).2 ?_⟩
    exact h2

section
variable {E : Env} {i : Fin 4} {J : Junk} {p : Position} {st : State}

/-- The set of the drop targets of a pawn. -/
theorem pawnTarget_first (hr : Repr p.inner)
    (hkp : ∀ c s, p.inner.kingPosition (buildAt i J) c = some s ↔ FirstKing p.inner.board c s)
    (hpin : st.attackInfo.pinned = AttackInfo.pinnedOf (buildAt i J) p.inner)
    (hin : i = 0 → ¬ RunsOut (OwnPawn p) 7 ∧ ¬ RunsOut (OwnPawn p) 9) {target : BB} (hok : Ok target) :
    ∃ pt, p.inner.pawnDropTarget E (buildAt i J) st target = some pt ∧ Ok pt ∧
      ∀ to, mem pt to = true ↔ mem target to = true ∧
        TakenForVacant (InHalf (OwnPawn p) to.file) to.file ∧
        ¬ ∃ king, FirstKing p.inner.board p.inner.side.flip king ∧
          Step .pawn p.inner.side to king ∧ DropMateCond p.inner.board p.inner.side king to := by
  have L := lawful_of_mem (buildAt_mem i J)
  have hok' : Ok (p.inner.playerBB p.inner.side &&& p.inner.pieceBB .pawn) :=
    ok_and_left _ (hr.okPlayer _)
  rw [← mem_ownPawns hr] at hin ⊢
  obtain ⟨r, hvf, _, hvac⟩ := vacant_all i J hok' E.overflowChecks hin
  have e := pawnDropTarget_any_king L hr E (st := st.fresh (buildAt i J) p.inner) rfl hok hvf hvac
  simp only [hkp] at e
  obtain ⟨pt, h1, h2⟩ := e
  refine ⟨pt, ?_, h2⟩
  rw [← h1]
  unfold PartialPosition.pawnDropTarget PartialPosition.isPawnDropMate
  rw [hpin]
  rfl

/-- The drops onto a set of empty squares. -/
theorem mem_drops_first (hr : Repr p.inner)
    (hkp : ∀ c s, p.inner.kingPosition (buildAt i J) c = some s ↔ FirstKing p.inner.board c s)
    (hpin : st.attackInfo.pinned = AttackInfo.pinnedOf (buildAt i J) p.inner)
    (hin : i = 0 → 0 < p.inner.spec.hand p.inner.side .pawn →
      ¬ RunsOut (OwnPawn p) 7 ∧ ¬ RunsOut (OwnPawn p) 9) {target : BB} (hok : Ok target)
    (hemp : ∀ to, mem target to = true → p.inner.board to = none) (m : Move) :
    m ∈ dropMoves E (buildAt i J) p.inner st target ↔
      ∃ to k c, m = .drop to ⟨k, c⟩ ∧ mem target to = true ∧ DropListed (view p) to k c := by
  have L := lawful_of_mem (buildAt_mem i J)
  have hpt := fun h0 => pawnTarget_first (E := E) hr hkp hpin (fun e => hin e h0) hok
  unfold dropMoves DropListed
  rw [List.mem_flatMap, view_eq]
  constructor
  · rintro ⟨pk, hpk, hm⟩
    rw [mem_handKinds] at hpk
    by_cases hp : pk = .pawn
    · subst hp
      obtain ⟨pt, hpt, hptok, hptm⟩ := hpt hpk.2
      rw [if_pos rfl, hpt, Option.getD_some, mem_dropKind L hptok] at hm
      obtain ⟨to, rfl, h1, h2⟩ := hm
      rw [hptm] at h1
      refine ⟨to, _, _, rfl, h1.1, rfl, hpk.1, hpk.2, hemp _ h1.1, h2, fun _ => ⟨h1.2.1, fun hu => h1.2.2 ?_⟩⟩
      exact (noAnswer_iff (P := p.inner.spec) rfl (hemp _ h1.1)).2 hu
    · rw [if_neg hp, mem_dropKind L hok] at hm
      obtain ⟨to, rfl, h1, h2⟩ := hm
      exact ⟨to, _, _, rfl, h1, rfl, hpk.1, hpk.2, hemp _ h1, h2, fun e => absurd e hp⟩
  · rintro ⟨to, k, c, rfl, h1, h2, h3, h4, h5, h6, h7⟩
    have h2 : c = p.inner.side := h2
    subst h2
    refine ⟨k, mem_handKinds.2 ⟨h3, h4⟩, ?_⟩
    by_cases hp : k = .pawn
    · subst hp
      obtain ⟨pt, hpt, hptok, hptm⟩ := hpt h4
      rw [if_pos rfl, hpt, Option.getD_some, mem_dropKind L hptok]
      obtain ⟨h8, h9⟩ := h7 rfl
      exact ⟨to, rfl, (hptm to).2 ⟨h1, h8, fun hu => h9
        ((noAnswer_iff (P := p.inner.spec) rfl h5).1 hu)⟩, h6⟩
    · rw [if_neg hp, mem_dropKind L hok]
      exact ⟨to, rfl, h1, h6⟩

theorem drops_nodup_first (hr : Repr p.inner)
    (hkp : ∀ c s, p.inner.kingPosition (buildAt i J) c = some s ↔ FirstKing p.inner.board c s)
    (hpin : st.attackInfo.pinned = AttackInfo.pinnedOf (buildAt i J) p.inner)
    (hin : i = 0 → 0 < p.inner.spec.hand p.inner.side .pawn →
      ¬ RunsOut (OwnPawn p) 7 ∧ ¬ RunsOut (OwnPawn p) 9) {target : BB} (hok : Ok target) :
    (dropMoves E (buildAt i J) p.inner st target).Nodup := by
  have L := lawful_of_mem (buildAt_mem i J)
  unfold dropMoves
  have hok' : ∀ pk ∈ handKinds p.inner, Ok (if pk = .pawn then
      (p.inner.pawnDropTarget E (buildAt i J) st target).getD (buildAt i J).empty else target) := by
    intro pk hpk
    split
    · next hp =>
      subst hp
      obtain ⟨pt, hpt, hptok, _⟩ := pawnTarget_first (E := E) hr hkp hpin
        (fun e => hin e (mem_handKinds.1 hpk).2) hok
      rw [hpt]
      exact hptok
    · exact hok
  apply nodup_flatMap (handKinds_nodup p.inner)
  · intro pk hpk; exact dropKind_nodup L (hok' pk hpk) pk
  · intro x hx' y hy' m hx hy
    rw [mem_dropKind L (hok' _ hx')] at hx
    rw [mem_dropKind L (hok' _ hy')] at hy
    obtain ⟨_, h1, _⟩ := hx
    obtain ⟨_, h2, _⟩ := hy
    rw [h1] at h2; cases h2; rfl

/-! ## Board moves -/

theorem mem_fuMoves_any (hr : Repr p.inner) {target : BB} (ht : Ok target) (m : Move) :
    m ∈ fuMoves (buildAt i J) p.inner target ↔ Gen p.inner target .pawn m ∨
      i ≠ 0 ∧ WrapMove p.inner.spec (fun t => mem target t = true) m := by
  have hg : Gen p.inner target .pawn m ↔
      MoveOf p.inner.spec (fun t => mem target t = true) [.pawn] m := by
    rw [← moveOf_iff]; simp
  rw [hg]
  by_cases hi : i = 0
  · subst hi
    rw [mem_fuMoves_portable J hr]
    simp
  · rw [mem_fuMoves_simd i hi J hr ht]
    simp [hi]

theorem mem_parts_any (hr : Repr p.inner) {target : BB} (ht : Ok target) {r : PieceKind}
    (hro : r ∈ orderAll) (m : Move) :
    m ∈ parts (buildAt i J) p.inner target r ↔ (∃ k, rep k = r ∧ Gen p.inner target k m) ∨
      r = .pawn ∧ i ≠ 0 ∧ WrapMove p.inner.spec (fun t => mem target t = true) m := by
  have L := lawful_of_mem (buildAt_mem i J)
  by_cases hp : r = .pawn
  · subst hp
    refine (mem_fuMoves_any hr ht m).trans (or_congr ?_ (by simp))
    constructor
    · exact fun h => ⟨.pawn, rfl, h⟩
    · rintro ⟨k, hk, h⟩
      cases k <;> first | exact h | cases hk
  · rw [mem_parts_of L hr target r hro m fun e => absurd e hp]
    simp [hp]

theorem wrapMove_from {P : Pos} {T : Square → Prop} {m : Move} (h : WrapMove P T m) :
    ∃ frm to, m = .normal frm to false ∧ P.board frm = some ⟨.pawn, P.side⟩ ∧ Wraps P.side frm to ∧
      T to := by
  cases m with
  | normal frm to pr =>
    obtain ⟨h1, h2, h3, rfl⟩ := h
    exact ⟨frm, to, rfl, h1, h2, h3⟩
  | drop _ _ => exact h.elim

theorem parts_from (hr : Repr p.inner) {target : BB} (ht : Ok target) {r : PieceKind}
    (hro : r ∈ orderAll) {m : Move} (hm : m ∈ parts (buildAt i J) p.inner target r) :
    ∃ k frm to pr, rep k = r ∧ m = .normal frm to pr ∧ p.inner.board frm = some ⟨k, p.inner.side⟩ := by
  rcases (mem_parts_any hr ht hro m).1 hm with ⟨k, hk, frm, to, pr, e, h, _⟩ | ⟨rfl, _, h⟩
  · exact ⟨k, frm, to, pr, hk, e, h⟩
  · obtain ⟨frm, to, e, h, _⟩ := wrapMove_from h
    exact ⟨.pawn, frm, to, false, rfl, e, h⟩

theorem mem_board_any (hr : Repr p.inner) {target : BB} (ht : Ok target) {order : List PieceKind}
    (ho : ∀ k ∈ order, k ∈ orderAll) (hp : .pawn ∈ order) (m : Move) :
    m ∈ order.flatMap (parts (buildAt i J) p.inner target) ↔
      (∃ k, rep k ∈ order ∧ Gen p.inner target k m) ∨
        i ≠ 0 ∧ WrapMove p.inner.spec (fun t => mem target t = true) m := by
  rw [List.mem_flatMap]
  constructor
  · rintro ⟨r, hro, hm⟩
    rcases (mem_parts_any hr ht (ho r hro) m).1 hm with ⟨k, rfl, h⟩ | ⟨_, h⟩
    · exact .inl ⟨k, hro, h⟩
    · exact .inr h
  · rintro (⟨k, hk, h⟩ | h)
    · exact ⟨rep k, hk, (mem_parts_any hr ht (ho _ hk) m).2 (.inl ⟨k, rfl, h⟩)⟩
    · exact ⟨.pawn, hp, (mem_parts_any hr ht (ho _ hp) m).2 (.inr ⟨rfl, h⟩)⟩

theorem board_nodup_any (hr : Repr p.inner) {target : BB} (ht : Ok target) {order : List PieceKind}
    (ho : ∀ k ∈ order, k ∈ orderAll) (hn : order.Nodup) :
    (order.flatMap (parts (buildAt i J) p.inner target)).Nodup := by
  have L := lawful_of_mem (buildAt_mem i J)
  have hg : ∀ k, (groupMoves (buildAt i J) p.inner k
      ((buildAt i J).and (p.inner.playerBB p.inner.side) (p.inner.pieceBB k)) target).Nodup := by
    intro k
    apply groupMoves_nodup L hr
    rw [L.and]; exact ok_and_left _ (hr.okPlayer _)
  refine nodup_flatMap hn (fun r _ => ?_) ?_
  · cases r
    case pawn => exact fuMoves_nodup_of L (by rw [L.and]; exact ok_and_right _ ht)
    case gold =>
      apply groupMoves_nodup L hr
      rw [L.and]; exact ok_and_right _ (hr.okPlayer _)
    case proPawn | proLance | proKnight | proSilver => exact .nil
    all_goals exact hg _
  · intro x hx y hy m h1 h2
    obtain ⟨k1, _, _, _, rfl, rfl, e1⟩ := parts_from hr ht (ho x hx) h1
    obtain ⟨k2, _, _, _, rfl, e, e2⟩ := parts_from hr ht (ho y hy) h2
    cases e
    rw [e1] at e2
    cases e2
    rfl

/-! ## `is_legal` -/

theorem isLegal_first (hr : Repr p.inner)
    (hkp : ∀ c s, p.inner.kingPosition (buildAt i J) c = some s ↔ FirstKing p.inner.board c s)
    (hpin : st.attackInfo.pinned = AttackInfo.pinnedOf (buildAt i J) p.inner)
    {frm to : Square} {pr : Bool} :
    p.inner.isLegal (buildAt i J) st (.normal frm to pr) = true ↔
      (p.inner.board frm = some ⟨.king, p.inner.side⟩ →
        ∀ s, ¬ AttacksFrom p.inner.board p.inner.side.flip s to) ∧
      (∀ king, FirstKing p.inner.board p.inner.side king →
        Pinned p.inner.board p.inner.side king frm → Between king to frm ∨ Between king frm to) := by
  have L := lawful_of_mem (buildAt_mem i J)
  generalize buildAt i J = K at *
  generalize p.inner = q at *
  have hatt : K.isEmpty (q.attackersTo K q.side.flip to (q.occupiedBB K)) = true ↔
      ∀ s, ¬ AttacksFrom q.board q.side.flip s to := by
    rw [L.isEmpty, beq_iff_eq, eq_zero_iff (ok_attackersTo L hr _ _ _)]
    apply forall_congr'; intro s
    rw [← Bool.not_eq_true, mem_attackersTo L hr, hr.occ_fun L]
    rfl
  have e : q.isLegal K st (.normal frm to pr) =
      (if q.pieceAt frm = some ⟨.king, q.side⟩ ∧
        (!K.isEmpty (q.attackersTo K q.side.flip to (q.occupiedBB K))) = true then false
      else if K.contains (st.attackInfo.pinned q.side) frm then
        match q.kingPosition K q.side with
        | some sq =>
          if !(K.contains (betweenTable K sq frm) to || K.contains (betweenTable K sq to) frm)
          then false else true
        | none => true
      else true) := rfl
  rw [e, hpin, L.contains]
  by_cases hc1 : q.board frm = some ⟨.king, q.side⟩ ∧ ¬ ∀ s, ¬ AttacksFrom q.board q.side.flip s to
  · rw [if_pos ⟨hc1.1, by rw [Bool.not_eq_true', ← Bool.not_eq_true, hatt]; exact hc1.2⟩]
    exact ⟨fun h => (by cases h), fun h => absurd (h.1 hc1.1) hc1.2⟩
  · rw [if_neg (by
      rintro ⟨h1, h2⟩
      rw [Bool.not_eq_true', ← Bool.not_eq_true, hatt] at h2
      exact hc1 ⟨h1, h2⟩)]
    have h1 : q.board frm = some ⟨.king, q.side⟩ → ∀ s, ¬ AttacksFrom q.board q.side.flip s to :=
      fun hk => Classical.byContradiction fun hn => hc1 ⟨hk, hn⟩
    rw [and_iff_right h1]
    cases hk : q.kingPosition K q.side with
    | none =>
      rw [pinnedOf_none hk, L.empty, mem_zero]
      refine ⟨fun _ king hking => ?_, fun _ => rfl⟩
      rw [← hkp, hk] at hking
      cases hking
    | some king =>
      have hp := (pinnedOf_spec L hr hk).2 frm
      have hall : (∀ king, FirstKing q.board q.side king → Pinned q.board q.side king frm →
          Between king to frm ∨ Between king frm to) ↔ (Pinned q.board q.side king frm →
          Between king to frm ∨ Between king frm to) := by
        constructor
        · exact fun h => h king ((hkp _ _).1 hk)
        · intro h king' hk'
          rw [← hkp, hk] at hk'
          cases hk'
          exact h
      rw [hall]
      dsimp only
      rw [L.contains, L.contains]
      have e : (mem (betweenTable K king frm) to || mem (betweenTable K king to) frm) = true ↔
          Between king to frm ∨ Between king frm to := by
        rw [Bool.or_eq_true, mem_betweenTable L, mem_betweenTable L]
      by_cases hm : mem (AttackInfo.pinnedOf K q q.side) frm = true
      · rw [if_pos hm]
        by_cases hb : Between king to frm ∨ Between king frm to
        · rw [if_neg (by rw [Bool.not_eq_true', ← Bool.not_eq_true, e]; exact not_not_intro hb)]
          exact ⟨fun _ _ => hb, fun _ => rfl⟩
        · rw [if_pos (by rw [Bool.not_eq_true', ← Bool.not_eq_true, e]; exact hb)]
          exact ⟨fun h => (by cases h), fun h => absurd (h (hp.1 hm)) hb⟩
      · rw [if_neg hm]
        exact ⟨fun _ hpn => absurd (hp.2 hpn) hm, fun _ => rfl⟩

end

/-- The pin test of `is_legal` in terms of attacks. -/
theorem kept_first {P : Pos} {T : Square → Prop} {frm to : Square} {pr : Bool}
    (h : PseudoLegal P (.normal frm to pr) ∨ WrapMove P T (.normal frm to pr)) :
    (∀ king, FirstKing P.board P.side king → Pinned P.board P.side king frm →
      Between king to frm ∨ Between king frm to) ↔
    ∀ king, FirstKing P.board P.side king → king ≠ frm →
      NoNewAttackOn P king (.normal frm to pr) := by
  have key : ∀ king, NoNewAttackOn P king (.normal frm to pr) ↔
      (Pinned P.board P.side king frm → Between king to frm ∨ Between king frm to) := by
    intro king
    rcases h with ⟨k, h1, h2, _⟩ | ⟨h1, h2, _, rfl⟩
    · exact noNewAttackOn_normal h1 h2
    · exact noNewAttackOn_of_clear h1 (wraps_ne h2) fun u hu => absurd hu (wraps_not_between h2 u).1
  refine forall_congr' fun king => forall_congr' fun _ => ?_
  rw [key]
  constructor
  · exact fun h _ => h
  · intro h hp
    refine h ?_ hp
    rintro rfl
    exact not_pinned_self hp

/-- The list of `legal_moves` in terms of the moves collected before the test of `is_legal`. -/
def legalList (K : Backend) (q : PartialPosition) (st : State) (G : List Move) : Option (List Move) :=
  (appendAll [] G).map fun av => filterLoop (q.isLegal K st) av.length 0 av

theorem legalList_perm {K : Backend} {q : PartialPosition} {st : State} {G l : List Move}
    (h : legalList K q st G = some l) : l.Perm (G.filter (q.isLegal K st)) := by
  obtain ⟨av, hav, rfl⟩ := Option.map_eq_some_iff.1 h
  obtain ⟨_, rfl⟩ := appendAll_eq_some hav
  rw [List.nil_append]
  exact filterLoop_perm _ _

theorem legal_noCheck {E : Env} {K : Backend} {p : Position} {st : State}
    (hst : p.state = some st) (hc : K.isEmpty st.attackInfo.checkers = true)
    (hpt : .pawn ∈ handKinds p.inner →
      ∃ pt, p.inner.pawnDropTarget E K st (emptySquares K p.inner) = some pt) :
    p.legalMoves E K = legalList K p.inner st (allList E K p.inner st) := by
  unfold Position.legalMoves legalList
  simp only [hst, Option.bind_eq_bind, Option.bind_some, Option.pure_def, hc, Bool.not_true,
    Bool.false_eq_true, if_false, generateAll_eq hpt]
  cases appendAll [] (allList E K p.inner st) <;> rfl

theorem legal_check {E : Env} {K : Backend} {p : Position} {st : State}
    (hst : p.state = some st) (hc : K.isEmpty st.attackInfo.checkers = false)
    {king : Square} {att : BB} (hk : p.inner.kingPosition K p.inner.side = some king)
    (hatt : p.inner.checkersAttacks K st king = some (att, (K.iter st.attackInfo.checkers).length))
    (hne : K.iter st.attackInfo.checkers ≠ [])
    (hd : ∀ ch, K.iter st.attackInfo.checkers = [ch] → K.isEmpty (betweenTable K ch king) = false →
      .pawn ∈ handKinds p.inner → ∃ pt, p.inner.pawnDropTarget E K st (betweenTable K ch king) = some pt) :
    p.legalMoves E K = legalList K p.inner st (evList E K p.inner st king att) := by
  unfold Position.legalMoves legalList
  simp only [hst, Option.bind_eq_bind, Option.bind_some, Option.pure_def, hc, Bool.not_false,
    if_true, generateEvasions_eq hk hatt hne hd]
  cases appendAll [] (evList E K p.inner st king att) <;> rfl

/-- What is collected when no check is recorded. -/
theorem collected_noCheck {E : Env} {i : Fin 4} {J : Junk} {pp : CorePartialPosition}
    {ms : List Move} {p : Position} (h : Visited E (buildAt i J) pp ms p)
    (hin : i = 0 → 0 < (view p).hand p.sideToMove .pawn →
      ¬ RunsOut (OwnPawn p) 7 ∧ ¬ RunsOut (OwnPawn p) 9)
    (hc : p.inCheck (buildAt i J) = some false) :
    ∃ st G, p.state = some st ∧ p.legalMoves E (buildAt i J) = legalList (buildAt i J) p.inner st G ∧
      st.attackInfo.pinned = AttackInfo.pinnedOf (buildAt i J) p.inner ∧ G.Nodup ∧
      ∀ m, m ∈ G ↔ (∃ frm to pr, m = .normal frm to pr ∧ (PseudoLegal (view p) m ∨ i ≠ 0 ∧
          WrapMove (view p) (fun t => ∀ k, p.pieceAt t ≠ some ⟨k, p.sideToMove⟩) m)) ∨
        ∃ to k c, m = .drop to ⟨k, c⟩ ∧ DropListed (view p) to k c := by
  have L := lawful_of_mem (buildAt_mem i J)
  have hr : Repr p.inner := (h.consistent (buildAt_mem i J)).1
  have hkp := h.kingPosition (buildAt_mem i J)
  obtain ⟨st, hst, hpin⟩ := h.pinned (buildAt_mem i J)
  simp only [Position.inCheck, hst, Option.bind_eq_bind, Option.bind_some, Option.pure_def,
    Option.some.injEq, Bool.not_eq_false'] at hc
  obtain ⟨heok, hem⟩ := emptySquares_spec L hr
  have hpt := fun h0 => pawnTarget_first (E := E) hr hkp hpin (fun e => hin e h0) heok
  have htok : Ok ((buildAt i J).not (p.inner.playerBB p.inner.side)) := by
    rw [L.not]; exact ok_not _
  have hown : ∀ t, mem ((buildAt i J).not (p.inner.playerBB p.inner.side)) t = true ↔
      ∀ k, p.pieceAt t ≠ some ⟨k, p.sideToMove⟩ := by
    intro t
    rw [not_own_iff L hr]
    constructor
    · exact fun h k e => h _ e rfl
    · rintro h ⟨k, c⟩ e hcc
      dsimp only at hcc
      subst hcc
      exact h k e
  refine ⟨st, allList E (buildAt i J) p.inner st, hst, legal_noCheck hst hc
    (fun h0 => (hpt (mem_handKinds.1 h0).2).imp fun _ h => h.1), hpin, ?_,
    fun m => ?_⟩
  · unfold allList
    refine List.nodup_append.2 ?_
    refine ⟨board_nodup_any hr htok (fun _ h => h) (by decide),
      drops_nodup_first hr hkp hpin hin heok, ?_⟩
    rintro a ha _ hb rfl
    obtain ⟨r, hr', ha⟩ := List.mem_flatMap.1 ha
    obtain ⟨_, frm, to, pr, _, rfl, _⟩ := parts_from hr htok hr' ha
    exact dropMoves_shape hb
  · unfold allList
    rw [List.mem_append, mem_board_any hr htok (fun _ h => h) (by decide),
      mem_drops_first hr hkp hpin hin heok fun to h => (hem to).1 h]
    simp only [hown, view_eq]
    refine or_congr ?_ ?_
    · constructor
      · rintro (⟨k, _, hg⟩ | ⟨hi, hw⟩)
        · obtain ⟨frm, to, pr, rfl, hg'⟩ := hg
          exact ⟨frm, to, pr, rfl, .inl ((gen_pseudoLegal L hr).1 ⟨k, frm, to, pr, rfl, hg'⟩)⟩
        · obtain ⟨frm, to, rfl, _⟩ := wrapMove_from hw
          exact ⟨frm, to, false, rfl, .inr ⟨hi, hw⟩⟩
      · rintro ⟨frm, to, pr, rfl, hp | hw⟩
        · obtain ⟨k, hg⟩ := (gen_pseudoLegal L hr).2 hp
          exact .inl ⟨k, rep_mem k, hg⟩
        · exact .inr hw
    · refine exists_congr fun to => exists_congr fun k => exists_congr fun c =>
        and_congr_right fun _ => ?_
      rw [hem]
      exact ⟨fun h => h.2, fun h => ⟨h.2.2.2.1, h⟩⟩

/-- C87, when no check is recorded.  Every accepted position, every history of moves with `Shape`, every
build, any number of kings, any pawns.  `legal_moves` lists, without repetition:
* the moves possible by the rules; on SIMD builds also those of pawns around the edge; of the kings'
  moves those to squares not attacked on the board as it is; of all moves but those of the first king
  those that open no new attack on the first king: other kings may be left attacked;
* the drops possible by the rules, but for pawns the file has to be taken for vacant (see `C86_files`),
  and the first king of the opponent has to have an answer. -/
theorem C87_no_check (E : Env) (i : Fin 4) (J : Junk) (pp : CorePartialPosition) (ms : List Move)
    (p : Position) (h : Visited E (buildAt i J) pp ms p)
    (hin : i = 0 → 0 < (view p).hand p.sideToMove .pawn →
      ¬ RunsOut (OwnPawn p) 7 ∧ ¬ RunsOut (OwnPawn p) 9)
    (hc : p.inCheck (buildAt i J) = some false) (l : List Move)
    (hl : p.legalMoves E (buildAt i J) = some l) :
    l.Nodup ∧
    (∀ frm to pr, .normal frm to pr ∈ l ↔
      (PseudoLegal (view p) (.normal frm to pr) ∨ i ≠ 0 ∧
        WrapMove (view p) (fun t => ∀ k, p.pieceAt t ≠ some ⟨k, p.sideToMove⟩) (.normal frm to pr)) ∧
      (p.pieceAt frm = some ⟨.king, p.sideToMove⟩ →
        ∀ s, ¬ AttacksFrom p.pieceAt p.sideToMove.flip s to) ∧
      ∀ king, FirstKing p.pieceAt p.sideToMove king → king ≠ frm →
        NoNewAttackOn (view p) king (.normal frm to pr)) ∧
    (∀ to k c, .drop to ⟨k, c⟩ ∈ l ↔ DropListed (view p) to k c) := by
  have hr : Repr p.inner := (h.consistent (buildAt_mem i J)).1
  have hkp := h.kingPosition (buildAt_mem i J)
  obtain ⟨st, G, hst, heq, hpin, hnd, hall⟩ := collected_noCheck h hin hc
  have hperm := legalList_perm (heq.symm.trans hl)
  have hmem : ∀ m, m ∈ l ↔ m ∈ G ∧ p.inner.isLegal (buildAt i J) st m = true :=
    fun m => by rw [hperm.mem_iff, List.mem_filter]
  refine ⟨hperm.nodup_iff.2 (List.Pairwise.filter _ hnd), fun frm to pr => ?_, fun to k c => ?_⟩
  · have hG : .normal frm to pr ∈ G ↔ PseudoLegal (view p) (.normal frm to pr) ∨ i ≠ 0 ∧
        WrapMove (view p) (fun t => ∀ k, p.pieceAt t ≠ some ⟨k, p.sideToMove⟩)
          (.normal frm to pr) := by
      rw [hall]
      constructor
      · rintro (⟨_, _, _, e, h⟩ | ⟨_, _, _, e, _⟩)
        · exact h
        · cases e
      · exact fun h => .inl ⟨frm, to, pr, rfl, h⟩
    rw [hmem, hG, isLegal_first hr hkp hpin, view_eq]
    refine and_congr_right fun hm => and_congr_right fun _ => ?_
    exact kept_first (P := p.inner.spec) (hm.imp_right fun h => h.2)
  · rw [hmem, hall, isLegal_drop, and_iff_left rfl]
    constructor
    · rintro (⟨_, _, _, e, _⟩ | ⟨_, _, _, e, hd⟩)
      · cases e
      · cases e; exact hd
    · exact fun hd => .inr ⟨to, k, c, rfl, hd⟩

/-- What is known when a check is recorded. -/
theorem check_facts {E : Env} {i : Fin 4} {J : Junk} {pp : CorePartialPosition}
    {ms : List Move} {p : Position} (h : Wandered E (buildAt i J) pp ms p)
    (hc : p.inCheck (buildAt i J) = some true) :
    ∃ st king att, p.state = some st ∧ (buildAt i J).isEmpty st.attackInfo.checkers = false ∧
    Ok st.attackInfo.checkers ∧
    st.attackInfo.pinned = AttackInfo.pinnedOf (buildAt i J) p.inner ∧
    p.inner.kingPosition (buildAt i J) p.inner.side = some king ∧
    FirstKing p.inner.board p.inner.side king ∧
    p.inner.checkersAttacks (buildAt i J) st king =
      some (att, ((buildAt i J).iter st.attackInfo.checkers).length) ∧
    (buildAt i J).iter st.attackInfo.checkers ≠ [] ∧
    (∀ s, mem st.attackInfo.checkers s = true ↔ RecordedFirst (view p) ms s) ∧
    (∀ s, RecordedFirst (view p) ms s → AttacksFrom p.inner.board p.inner.side.flip s king) ∧
    (∀ ch, (buildAt i J).iter st.attackInfo.checkers = [ch] ↔
      ∀ s, RecordedFirst (view p) ms s ↔ s = ch) ∧
    ∀ t, mem att t = true ↔ mem (buildAt i J).empty t = true ∨
      ∃ s ∈ (buildAt i J).iter st.attackInfo.checkers, ∃ k,
        p.inner.board s = some ⟨k, p.inner.side.flip⟩ ∧
          EvAttack p.inner.board k p.inner.side.flip s king t := by
  have L := lawful_of_mem (buildAt_mem i J)
  have hr : Repr p.inner := (h.visited.consistent (buildAt_mem i J)).1
  have hkp := h.visited.kingPosition (buildAt_mem i J)
  obtain ⟨st, hst, _, hpin, hcs⟩ := h.caches (buildAt_mem i J)
  have hrec := h.recordedFirst (buildAt_mem i J) hc hst
  simp only [Position.inCheck, hst, Option.bind_eq_bind, Option.bind_some, Option.pure_def,
    Option.some.injEq, Bool.not_eq_true'] at hc
  have hmi : ∀ s, s ∈ (buildAt i J).iter st.attackInfo.checkers ↔ RecordedFirst (view p) ms s :=
    fun s => (mem_iter L hcs.1 s).trans (hrec s)
  have hne : (buildAt i J).iter st.attackInfo.checkers ≠ [] := by
    intro e
    have : st.attackInfo.checkers = 0#128 := ext_of_ok hcs.1 ok_zero fun u => by
      rw [mem_zero, ← Bool.not_eq_true, ← mem_iter L hcs.1, e]; simp
    rw [this, L.isEmpty] at hc
    simp at hc
  obtain ⟨s0, hs0⟩ := List.exists_mem_of_ne_nil _ hne
  obtain ⟨king, hk, _⟩ := hcs.2 s0 ((mem_iter L hcs.1 s0).1 hs0)
  have hfk := (hkp _ _).1 hk
  have hking := hfk.1
  have hatk : ∀ s, RecordedFirst (view p) ms s →
      AttacksFrom p.inner.board p.inner.side.flip s king := by
    intro s hs
    obtain ⟨king', hk', ha⟩ := hcs.2 s ((hrec s).2 hs)
    rw [hk] at hk'; cases hk'
    exact ha
  obtain ⟨att, hatt, hattm⟩ := foldlM_checkers L hr king ((buildAt i J).iter st.attackInfo.checkers) (by
    intro s hs
    obtain ⟨k, hk, _⟩ := hatk s ((hmi s).1 hs)
    exact ⟨k, hk⟩) ((buildAt i J).empty, 0)
  have hatt : p.inner.checkersAttacks (buildAt i J) st king =
      some (att, ((buildAt i J).iter st.attackInfo.checkers).length) := by
    simpa [PartialPosition.checkersAttacks] using hatt
  have hone : ∀ ch, (buildAt i J).iter st.attackInfo.checkers = [ch] ↔
      ∀ s, RecordedFirst (view p) ms s ↔ s = ch := by
    intro ch
    constructor
    · intro e s
      rw [← hmi, e]; simp
    · intro e
      have hn := nodup_iter L hcs.1
      cases hch : (buildAt i J).iter st.attackInfo.checkers with
      | nil => exact absurd hch hne
      | cons s1 l =>
        rw [hch] at hn
        have e1 := (e s1).1 ((hmi s1).1 (by rw [hch]; simp))
        cases l with
        | nil => rw [e1]
        | cons s2 l =>
          have e2 := (e s2).1 ((hmi s2).1 (by rw [hch]; simp))
          rw [e1, e2] at hn
          simp at hn
  exact ⟨st, king, att, hst, hc, hcs.1, hpin, hk, hfk, hatt, hne, hrec, hatk, hone, hattm⟩

/-- What is collected when a check is recorded, and what is left of it. -/
theorem collected_check {E : Env} {i : Fin 4} {J : Junk} {pp : CorePartialPosition}
    {ms : List Move} {p : Position} (h : Wandered E (buildAt i J) pp ms p)
    (hin : i = 0 → 0 < (view p).hand p.sideToMove .pawn → ∀ king ch u,
      FirstKing p.pieceAt p.sideToMove king → (∀ s, RecordedFirst (view p) ms s ↔ s = ch) →
      Between ch u king → ¬ RunsOut (OwnPawn p) 7 ∧ ¬ RunsOut (OwnPawn p) 9)
    (hc : p.inCheck (buildAt i J) = some true) :
    ∃ st G king, p.state = some st ∧
    p.legalMoves E (buildAt i J) = legalList (buildAt i J) p.inner st G ∧ G.Nodup ∧
    (∀ m ∈ G, (∃ to, m = .normal king to false ∧ Step .king p.inner.side king to) ∨
      ∃ ch, ((∃ frm to pr, m = .normal frm to pr ∧ (to = ch ∨ Between ch to king) ∧
          ((∃ k, p.inner.board frm = some ⟨k, p.inner.side⟩ ∧
            Reaches (Occ p.inner.board) k p.inner.side frm to) ∨
              Wraps p.inner.side frm to ∧ pr = false)) ∨
        ∃ to k, m = .drop to ⟨k, p.inner.side⟩ ∧ Between ch to king) ∧
        ∀ s, RecordedFirst (view p) ms s ↔ s = ch) ∧
    FirstKing p.pieceAt p.sideToMove king ∧
    (∃ s, RecordedFirst (view p) ms s) ∧
    (∀ s, RecordedFirst (view p) ms s → AttacksFrom p.pieceAt p.sideToMove.flip s king) ∧
    (∀ to pr, .normal king to pr ∈ G.filter (p.inner.isLegal (buildAt i J) st) ↔ PseudoLegal (view p) (.normal king to pr) ∧
      (∀ s, ¬ AttacksFrom p.pieceAt p.sideToMove.flip s to) ∧
      ∀ s, RecordedFirst (view p) ms s →
        ¬ AttacksFrom (put p.pieceAt king none) p.sideToMove.flip s to) ∧
    (∀ frm to pr, frm ≠ king →
      (.normal frm to pr ∈ G.filter (p.inner.isLegal (buildAt i J) st) ↔
        (PseudoLegal (view p) (.normal frm to pr) ∨ i ≠ 0 ∧ WrapMove (view p)
          (fun t => ∀ k, p.pieceAt t ≠ some ⟨k, p.sideToMove⟩) (.normal frm to pr)) ∧
        p.pieceAt frm ≠ some ⟨.king, p.sideToMove⟩ ∧
        NoNewAttackOn (view p) king (.normal frm to pr) ∧
        ∃ ch, (∀ s, RecordedFirst (view p) ms s ↔ s = ch) ∧ (to = ch ∨ Between ch to king))) ∧
    (∀ to k c, .drop to ⟨k, c⟩ ∈ G.filter (p.inner.isLegal (buildAt i J) st) ↔ DropListed (view p) to k c ∧
      ∃ ch, (∀ s, RecordedFirst (view p) ms s ↔ s = ch) ∧ Between ch to king) := by
  have L := lawful_of_mem (buildAt_mem i J)
  have hr : Repr p.inner := (h.visited.consistent (buildAt_mem i J)).1
  have hkp := h.visited.kingPosition (buildAt_mem i J)
  obtain ⟨st, king, att, hst, hc, hok, hpin, hk, hfk, hatt, hne, hrec, hatk, hone, hattm⟩ :=
    check_facts h hc
  have hking := hfk.1
  have hmi : ∀ s, s ∈ (buildAt i J).iter st.attackInfo.checkers ↔ RecordedFirst (view p) ms s :=
    fun s => (mem_iter L hok s).trans (hrec s)
  obtain ⟨s0, hs0⟩ := List.exists_mem_of_ne_nil _ hne
  have hbt := fun ch => mem_betweenTable L ch king
  have hbok := fun ch => (betweenTable_spec L ch king).1
  have hin' : ∀ ch, (∀ s, RecordedFirst (view p) ms s ↔ s = ch) →
      (buildAt i J).isEmpty (betweenTable (buildAt i J) ch king) = false →
      i = 0 → 0 < p.inner.spec.hand p.inner.side .pawn →
      ¬ RunsOut (OwnPawn p) 7 ∧ ¬ RunsOut (OwnPawn p) 9 := by
    intro ch hch he hi h0
    rw [L.isEmpty, ← Bool.not_eq_true, beq_iff_eq, eq_zero_iff (hbok ch)] at he
    obtain ⟨u, hu⟩ := Classical.not_forall.1 he
    exact hin hi h0 king ch u hfk hch ((hbt ch u).1 (by simpa using hu))
  have heq := legal_check hst hc hk hatt hne (fun ch hch he h0 =>
    (pawnTarget_first (E := E) hr hkp hpin (fun hi => hin' ch ((hone ch).1 hch) he hi
      (mem_handKinds.1 h0).2) (hbok ch)).imp fun _ h => h.1)
  have hemp : ∀ ch, (∀ s, RecordedFirst (view p) ms s ↔ s = ch) → ∀ t, Between ch t king →
      p.inner.board t = none := by
    intro ch hch t ht
    obtain ⟨kc, _, hrc⟩ := hatk ch ((hch ch).2 rfl)
    exact Classical.not_not.1 (reaches_path hrc ht)
  have htok : ∀ ch, Ok ((buildAt i J).or (betweenTable (buildAt i J) ch king) st.attackInfo.checkers) := by
    intro ch; rw [L.or]; exact ok_or (hbok ch) hok
  have htm : ∀ ch, (∀ s, RecordedFirst (view p) ms s ↔ s = ch) → ∀ t,
      (mem ((buildAt i J).or (betweenTable (buildAt i J) ch king) st.attackInfo.checkers) t = true ↔
        t = ch ∨ Between ch t king) := by
    intro ch hch t
    rw [L.or, mem_or, Bool.or_eq_true, hbt, hrec, hch, or_comm]
  have hnown : ∀ ch, (∀ s, RecordedFirst (view p) ms s ↔ s = ch) → ∀ t, (t = ch ∨ Between ch t king) →
      ∀ pc, p.inner.board t = some pc → pc.color ≠ p.inner.side := by
    rintro ch hch t (rfl | ht) pc hpc
    · obtain ⟨kc, hkc, _⟩ := hatk t ((hch t).2 rfl)
      rw [hpc] at hkc
      cases hkc
      exact flip_ne _
    · rw [hemp ch hch t ht] at hpc
      cases hpc
  have hdr : ∀ ch, (∀ s, RecordedFirst (view p) ms s ↔ s = ch) → ∀ m,
      (m ∈ (if (buildAt i J).isEmpty (betweenTable (buildAt i J) ch king) then []
        else dropMoves E (buildAt i J) p.inner st (betweenTable (buildAt i J) ch king)) ↔
        ∃ to k c, m = .drop to ⟨k, c⟩ ∧ Between ch to king ∧ DropListed (view p) to k c) := by
    intro ch hch m
    split
    · rename_i he
      constructor
      · intro h; cases h
      · rintro ⟨to, _, _, _, hb, _⟩
        rw [L.isEmpty, beq_iff_eq] at he
        rw [← hbt, he, mem_zero] at hb
        cases hb
    · rename_i he
      have hd := mem_drops_first (E := E) hr hkp hpin (hin' ch hch (by simpa using he)) (hbok ch)
        (fun to h => hemp ch hch to ((hbt ch to).1 h)) m
      simp only [hbt] at hd
      exact hd
  have hoth : ∀ ch, (∀ s, RecordedFirst (view p) ms s ↔ s = ch) → ∀ m,
      (m ∈ otherEvasions E (buildAt i J) p.inner st ch king ↔
        ((∃ k, k ≠ .king ∧ Gen p.inner ((buildAt i J).or (betweenTable (buildAt i J) ch king)
            st.attackInfo.checkers) k m) ∨
          i ≠ 0 ∧ WrapMove p.inner.spec (fun t => t = ch ∨ Between ch t king) m) ∨
        ∃ to k c, m = .drop to ⟨k, c⟩ ∧ Between ch to king ∧ DropListed (view p) to k c) := by
    intro ch hch m
    unfold otherEvasions
    rw [List.mem_append, hdr ch hch, mem_board_any hr (htok ch) (by decide) (by decide)]
    simp only [htm ch hch, rep_orderEv]
  have hlist : ∀ m, m ∈ evList E (buildAt i J) p.inner st king att ↔
      m ∈ kingEvasions (buildAt i J) p.inner king att ∨
      ∃ ch, (∀ s, RecordedFirst (view p) ms s ↔ s = ch) ∧
        m ∈ otherEvasions E (buildAt i J) p.inner st ch king := by
    intro m
    unfold evList
    rw [List.mem_append]
    refine or_congr Iff.rfl ?_
    simp only [← hone]
    cases hch : (buildAt i J).iter st.attackInfo.checkers with
    | nil => exact absurd hch hne
    | cons s1 l =>
      cases l with
      | nil =>
        constructor
        · exact fun h => ⟨s1, rfl, h⟩
        · rintro ⟨ch, e, h⟩; cases e; exact h
      | cons s2 l =>
        constructor
        · intro h; cases h
        · rintro ⟨ch, e, _⟩; cases e
  have hmem : ∀ m, m ∈ (evList E (buildAt i J) p.inner st king att).filter
        (p.inner.isLegal (buildAt i J) st) ↔ m ∈ evList E (buildAt i J) p.inner st king att ∧
      p.inner.isLegal (buildAt i J) st m = true := fun m => List.mem_filter
  -- the moves of other pieces do not start from a king
  have hfrom : ∀ ch, (∀ s, RecordedFirst (view p) ms s ↔ s = ch) → ∀ frm to pr,
      .normal frm to pr ∈ otherEvasions E (buildAt i J) p.inner st ch king →
      p.inner.board frm ≠ some ⟨.king, p.inner.side⟩ := by
    intro ch hch frm to pr hm
    rcases (hoth ch hch _).1 hm with (⟨k, hkk, _, _, _, e, h1, _⟩ | ⟨_, h1, _⟩) | ⟨_, _, _, e, _⟩
    · cases e
      rw [h1]
      simpa using hkk
    · have h1 : p.inner.board frm = some ⟨.pawn, p.inner.side⟩ := h1
      rw [h1]
      simp
    · cases e
  have hvw : view p = p.inner.spec := view_eq ..
  refine ⟨st, evList E (buildAt i J) p.inner st king att, king, hst, heq, ?_, ?_, hfk,
    ⟨s0, (hmi s0).1 hs0⟩, hatk, ?_, ?_, ?_⟩
  · unfold evList
    refine List.nodup_append.2 ?_
    refine ⟨kingEvasions_nodup L _, ?_, ?_⟩
    · split
      · rename_i ch hch
        have hch' := (hone ch).1 hch
        unfold otherEvasions
        rw [List.nodup_append]
        refine ⟨board_nodup_any hr (htok ch) (by decide) (by decide), ?_, ?_⟩
        · split
          · exact .nil
          · rename_i he
            exact drops_nodup_first hr hkp hpin (hin' ch hch' (by simpa using he)) (hbok ch)
        · rintro a ha _ hb rfl
          obtain ⟨r, hr', ha⟩ := List.mem_flatMap.1 ha
          obtain ⟨_, frm, to, pr, _, rfl, _⟩ := parts_from hr (htok ch)
            ((by decide : ∀ k ∈ orderEv, k ∈ orderAll) r hr') ha
          obtain ⟨_, _, _, e, _⟩ := (hdr ch hch' _).1 hb
          cases e
      · exact .nil
    · rintro a ha b hb rfl
      obtain ⟨to, rfl, _⟩ := (mem_kingEvasions L hr _ _).1 ha
      split at hb
      · rename_i ch hch
        exact hfrom ch ((hone ch).1 hch) _ _ _ hb hking
      · cases hb
  · intro m hm
    rcases (hlist m).1 hm with hm | ⟨ch, hch, hm⟩
    · obtain ⟨to, rfl, h1, _⟩ := (mem_kingEvasions L hr _ _).1 hm
      exact .inl ⟨to, rfl, h1⟩
    · refine .inr ⟨ch, ?_, hch⟩
      rcases (hoth ch hch m).1 hm with (⟨k, _, frm, to, pr, rfl, h1, h2, h3, _⟩ | ⟨_, hw⟩) |
        ⟨to, k, c, rfl, hb, hd⟩
      · exact .inl ⟨frm, to, pr, rfl, (htm ch hch _).1 h3, .inl ⟨k, h1, h2⟩⟩
      · obtain ⟨frm, to, rfl, _, hw, hto⟩ := wrapMove_from hw
        exact .inl ⟨frm, to, false, rfl, hto, .inr ⟨hw, rfl⟩⟩
      · have hcc : c = p.inner.side := hd.1
        subst hcc
        exact .inr ⟨to, k, rfl, hb⟩
  · intro to pr
    rw [hmem, isLegal_first hr hkp hpin]
    have hx : ∀ s, RecordedFirst (view p) ms s → Step .king p.inner.side king to →
        (AttacksFrom (put p.pieceAt king none) p.sideToMove.flip s to ↔ _) :=
      fun s hs hst => lifted_attack (hatk s hs) hst
    have hke : .normal king to pr ∈ evList E (buildAt i J) p.inner st king att ↔
        .normal king to pr ∈ kingEvasions (buildAt i J) p.inner king att := by
      rw [hlist]
      refine or_iff_left ?_
      rintro ⟨ch, hch, hm⟩
      exact hfrom ch hch _ _ _ hm hking
    rw [hke, mem_kingEvasions L hr, hvw]
    constructor
    · rintro ⟨⟨to', e, hstp, hown, hn⟩, hna, _⟩
      cases e
      refine ⟨⟨.king, hking, reaches_king.2 hstp, hown, ?_, ?_⟩, hna hking, fun s hs ha => ?_⟩
      · intro h; cases h
      · intro _ h; revert h; cases p.inner.spec.side <;> exact fun h => h
      · rw [← hvw] at hs
        rcases (hx s hs hstp).1 ha with ha | ⟨k, hk, h1, h2⟩
        · exact hna hking s ha
        · apply hn
          rw [hattm]
          exact .inr ⟨s, (hmi s).2 hs, k, hk, evAttack_xray h1 h2⟩
    · rintro ⟨⟨k, hfrm, hre, hown, hp1, hp2⟩, hna, hxr⟩
      have hfrm' : p.inner.board king = some ⟨k, p.inner.side⟩ := hfrm
      rw [hking] at hfrm'
      cases hfrm'
      have hpr : pr = false := by
        cases pr with
        | false => rfl
        | true => exact absurd rfl (hp1 rfl).1
      subst hpr
      have hstp := reaches_king.1 hre
      refine ⟨⟨to, rfl, hstp, hown, fun hm => ?_⟩, fun _ => hna, fun king' hking' hp => ?_⟩
      · rw [hattm, L.empty, mem_zero] at hm
        rcases hm with hm | ⟨s, hs, k, hks, hev⟩
        · cases hm
        · have hs' := (hmi s).1 hs
          obtain ⟨k', hk', hrk⟩ := hatk s hs'
          rw [hks] at hk'; cases hk'
          rcases evAttack_sound hrk hstp hev with h1 | h1
          · exact hna s ⟨k, hks, h1⟩
          · exact hxr s (by rw [← hvw]; exact hs') ((hx s hs' hstp).2 (.inr ⟨k, hks, h1⟩))
      · rw [← hkp, hk] at hking'
        cases hking'
        exact (not_pinned_self hp).elim
  · intro frm to pr hfne
    have hke : .normal frm to pr ∈ evList E (buildAt i J) p.inner st king att ↔
        ∃ ch, (∀ s, RecordedFirst (view p) ms s ↔ s = ch) ∧
          .normal frm to pr ∈ otherEvasions E (buildAt i J) p.inner st ch king := by
      rw [hlist]
      refine or_iff_right ?_
      rw [mem_kingEvasions L hr]
      rintro ⟨_, e, _⟩
      cases e
      exact hfne rfl
    have hgen : ∀ ch, (∀ s, RecordedFirst (view p) ms s ↔ s = ch) →
        (.normal frm to pr ∈ otherEvasions E (buildAt i J) p.inner st ch king ↔
          ((PseudoLegal p.inner.spec (.normal frm to pr) ∨ i ≠ 0 ∧ WrapMove p.inner.spec
            (fun t => ∀ k, p.pieceAt t ≠ some ⟨k, p.sideToMove⟩) (.normal frm to pr)) ∧
          p.inner.board frm ≠ some ⟨.king, p.inner.side⟩) ∧ (to = ch ∨ Between ch to king)) := by
      intro ch hch
      constructor
      · intro hm
        refine ⟨⟨?_, hfrom ch hch _ _ _ hm⟩, ?_⟩ <;>
          rcases (hoth ch hch _).1 hm with (⟨k, hkk, _, _, _, e, h1, h2, h3, h4, h5⟩ |
            ⟨hi, h1, h2, h3, h4⟩) | ⟨_, _, _, e, _⟩
        · cases e
          exact .inl ⟨k, h1, h2, hnown ch hch _ ((htm ch hch _).1 h3), h4, h5⟩
        · exact .inr ⟨hi, h1, h2, fun k e => hnown ch hch _ h3 _ e rfl, h4⟩
        · cases e
        · cases e
          exact (htm ch hch _).1 h3
        · exact h3
        · cases e
      · rintro ⟨⟨hm, hnk⟩, hto⟩
        refine (hoth ch hch _).2 (.inl ?_)
        rcases hm with ⟨k, h1, h2, h3, h4, h5⟩ | ⟨hi, h1, h2, h3, h4⟩
        · refine .inl ⟨k, ?_, frm, to, pr, rfl, h1, h2, (htm ch hch _).2 hto, h4, h5⟩
          rintro rfl
          exact hnk h1
        · exact .inr ⟨hi, h1, h2, hto, h4⟩
    rw [hmem, hke, isLegal_first hr hkp hpin]
    have hkept : ∀ {T : Square → Prop}, (PseudoLegal p.inner.spec (.normal frm to pr) ∨
        WrapMove p.inner.spec T (.normal frm to pr)) → ((∀ king, FirstKing p.inner.board p.inner.side king →
          Pinned p.inner.board p.inner.side king frm → Between king to frm ∨ Between king frm to) ↔
          NoNewAttackOn p.inner.spec king (.normal frm to pr)) := by
      intro T hm
      refine (kept_first (P := p.inner.spec) hm).trans ⟨fun h => h king hfk (Ne.symm hfne), ?_⟩
      intro h king' hk' _
      have hk' : FirstKing p.inner.board p.inner.side king' := hk'
      rw [← hkp, hk] at hk'
      cases hk'
      exact h
    constructor
    · rintro ⟨⟨ch, hch, hm⟩, _, hp⟩
      obtain ⟨⟨h1, h2⟩, h3⟩ := (hgen ch hch).1 hm
      rw [hvw]
      exact ⟨h1, h2, (hkept (h1.imp_right fun h => h.2)).1 hp, ch, by rw [← hvw]; exact hch, h3⟩
    · rw [hvw]
      rintro ⟨h1, h2, h3, ch, hch, h4⟩
      rw [← hvw] at hch
      exact ⟨⟨ch, hch, (hgen ch hch).2 ⟨⟨h1, h2⟩, h4⟩⟩, fun e => absurd e h2,
        (hkept (h1.imp_right fun h => h.2)).2 h3⟩
  · intro to k c
    rw [hmem, isLegal_drop, and_iff_left rfl, hlist, mem_kingEvasions L hr]
    constructor
    · rintro (⟨_, e, _⟩ | ⟨ch, hch, hm⟩)
      · cases e
      · rcases (hoth ch hch _).1 hm with (⟨_, _, _, _, _, e, _⟩ | ⟨_, hw⟩) | ⟨_, _, _, e, hb, hd⟩
        · cases e
        · exact hw.elim
        · cases e
          exact ⟨hd, ch, hch, hb⟩
    · rintro ⟨hd, ch, hch, hb⟩
      exact .inr ⟨ch, hch, (hoth ch hch _).2 (.inr ⟨to, k, c, rfl, hb, hd⟩)⟩

/-- C87, when a check is recorded.  Every accepted position, every history of unhindered moves, every
build, any number of kings, any pawns.  There is a king of the side to move, each recorded piece
attacks the first one, and `legal_moves` lists, without repetition:
* the moves of the first king to squares not attacked on the board as it is, nor by a recorded piece
  once the king has left its square; no moves of the other kings;
* the board moves of other pieces, if one piece only is recorded, that take it or step between it and
  the first king, and open no new attack on the first king; on SIMD builds also those of pawns around
  the edge;
* the drops as in `C87_no_check`, if one piece only is recorded, between it and the first king. -/
theorem C87_check (E : Env) (i : Fin 4) (J : Junk) (pp : CorePartialPosition) (ms : List Move)
    (p : Position) (h : Wandered E (buildAt i J) pp ms p)
    (hin : i = 0 → 0 < (view p).hand p.sideToMove .pawn → ∀ king ch u,
      FirstKing p.pieceAt p.sideToMove king → (∀ s, RecordedFirst (view p) ms s ↔ s = ch) →
      Between ch u king → ¬ RunsOut (OwnPawn p) 7 ∧ ¬ RunsOut (OwnPawn p) 9)
    (hc : p.inCheck (buildAt i J) = some true) (l : List Move)
    (hl : p.legalMoves E (buildAt i J) = some l) :
    ∃ king, FirstKing p.pieceAt p.sideToMove king ∧
    (∃ s, RecordedFirst (view p) ms s) ∧
    (∀ s, RecordedFirst (view p) ms s → AttacksFrom p.pieceAt p.sideToMove.flip s king) ∧
    l.Nodup ∧
    (∀ to pr, .normal king to pr ∈ l ↔ PseudoLegal (view p) (.normal king to pr) ∧
      (∀ s, ¬ AttacksFrom p.pieceAt p.sideToMove.flip s to) ∧
      ∀ s, RecordedFirst (view p) ms s →
        ¬ AttacksFrom (put p.pieceAt king none) p.sideToMove.flip s to) ∧
    (∀ frm to pr, frm ≠ king →
      (.normal frm to pr ∈ l ↔
        (PseudoLegal (view p) (.normal frm to pr) ∨ i ≠ 0 ∧ WrapMove (view p)
          (fun t => ∀ k, p.pieceAt t ≠ some ⟨k, p.sideToMove⟩) (.normal frm to pr)) ∧
        p.pieceAt frm ≠ some ⟨.king, p.sideToMove⟩ ∧
        NoNewAttackOn (view p) king (.normal frm to pr) ∧
        ∃ ch, (∀ s, RecordedFirst (view p) ms s ↔ s = ch) ∧ (to = ch ∨ Between ch to king))) ∧
    (∀ to k c, .drop to ⟨k, c⟩ ∈ l ↔ DropListed (view p) to k c ∧
      ∃ ch, (∀ s, RecordedFirst (view p) ms s ↔ s = ch) ∧ Between ch to king) := by
  obtain ⟨st, G, king, _, heq, hnd, _, hfk, h1, h2, h3, h4, h5⟩ := collected_check h hin hc
  have hperm := legalList_perm (heq.symm.trans hl)
  refine ⟨king, hfk, h1, h2, hperm.nodup_iff.2 (List.Pairwise.filter _ hnd), ?_, ?_, ?_⟩
  · exact fun to pr => hperm.mem_iff.trans (h3 to pr)
  · exact fun frm to pr hne => hperm.mem_iff.trans (h4 frm to pr hne)
  · exact fun to k c => hperm.mem_iff.trans (h5 to k c)

/-- C87, `in_check` after `Position::new`: it is the first king of the side to move that has to be
attacked, and not by a king. -/
theorem C87_in_check (E : Env) (i : Fin 4) (J : Junk) (pp : CorePartialPosition) (p : Position)
    (h : Position.new E (buildAt i J) pp = some p) :
    ∃ b, p.inCheck (buildAt i J) = some b ∧ (b = true ↔ ∃ s, RecordedFirst (view p) [] s) := by
  have L := lawful_of_mem (buildAt_mem i J)
  have hv : Visited E (buildAt i J) pp [] p := ⟨p, h, .start⟩
  have hkp := hv.kingPosition (buildAt_mem i J)
  obtain ⟨hr, st, hst, hai⟩ := inv_new L h
  refine ⟨!(buildAt i J).isEmpty st.attackInfo.checkers, by
    simp only [Position.inCheck, hst, Option.bind_eq_bind, Option.bind_some, Option.pure_def], ?_⟩
  rw [hai, Bool.not_eq_true', ← Bool.not_eq_true, L.isEmpty, beq_iff_eq]
  change ¬ AttackInfo.calculateCheckers (buildAt i J) p.inner = 0#128 ↔ _
  rw [eq_zero_iff (ok_calculateCheckers L hr)]
  have hm : ∀ s, mem (AttackInfo.calculateCheckers (buildAt i J) p.inner) s = true ↔
      RecordedFirst (view p) [] s := by
    intro s
    rw [view_eq]
    cases hk : p.inner.kingPosition (buildAt i J) p.inner.side with
    | none =>
      rw [calculateCheckers_none hk, L.empty, mem_zero]
      refine ⟨fun h => (by cases h), ?_⟩
      rintro ⟨king, _, h1, _⟩
      have h1 : FirstKing p.inner.board p.inner.side king := h1
      rw [← hkp, hk] at h1
      cases h1
    | some king =>
      rw [mem_calculateCheckers L hr hk]
      constructor
      · rintro ⟨k, h1, h2, h3⟩
        exact ⟨king, k, (hkp _ _).1 hk, h1, h2, h3⟩
      · rintro ⟨king', k, h0, h1, h2, h3⟩
        have h0 : FirstKing p.inner.board p.inner.side king' := h0
        rw [← hkp, hk] at h0
        cases h0
        exact ⟨k, h1, h2, h3⟩
  constructor
  · intro hn
    apply Classical.byContradiction
    intro hne
    refine hn fun s => ?_
    rw [← Bool.not_eq_true, hm]
    exact fun hs => hne ⟨s, hs⟩
  · rintro ⟨s, hs⟩ hz
    rw [← hm, hz] at hs
    cases hs

/-! ## Concrete cases -/

section
open Examples

/-- Two black kings: the silver is pinned to the first one, the gold to the second. -/
def twoKings : CorePartialPosition where
  side := .black
  ply := 1#16
  hands := fun _ => handOf [(.pawn, 1)]
  board := boardOf [(2,9,.king,.black),(8,9,.king,.black),(8,5,.gold,.black),(8,1,.rook,.white),
    (2,5,.silver,.black),(2,1,.lance,.white),(5,1,.king,.white)]

/-- The same without the silver, so that the lance gives check to the first king. -/
def firstChecked : CorePartialPosition :=
  { twoKings with board := boardOf [(2,9,.king,.black),(8,9,.king,.black),(8,5,.gold,.black),
      (8,1,.rook,.white),(2,1,.lance,.white),(5,1,.king,.white)] }

/-- The same without the gold, so that the rook gives check to the second king. -/
def secondChecked : CorePartialPosition :=
  { twoKings with board := boardOf [(2,9,.king,.black),(8,9,.king,.black),(8,1,.rook,.white),
      (2,5,.silver,.black),(2,1,.lance,.white),(5,1,.king,.white)] }

/-- What `in_check` answers, and which of the moves are listed. -/
def listedOf (i : Fin 4) (pp : CorePartialPosition) (ms : List Move) :
    Option (Option Bool × List Bool) :=
  (Position.new env0 (buildAt i otherJunk) pp).bind fun p =>
    (p.legalMoves env0 (buildAt i otherJunk)).map fun l =>
      (p.inCheck (buildAt i otherJunk), ms.map fun m => l.any (· == m))

/-- The silver may not leave its line, the gold may.  The check to the second king is not seen, and the
silver may move along its line instead of answering it.  The check to the first king is seen; a drop
answers it, and the second king may not move meanwhile. -/
theorem C87_example (i : Fin 4) :
    listedOf i twoKings [.normal (sq 2 5) (sq 1 4) false, .normal (sq 2 5) (sq 2 4) false,
      .normal (sq 8 5) (sq 7 5) false] = some (some false, [false, true, true]) ∧
    listedOf i secondChecked [.normal (sq 2 5) (sq 1 4) false, .normal (sq 2 5) (sq 2 4) false,
      .normal (sq 8 9) (sq 7 9) false, .normal (sq 8 9) (sq 8 8) false] =
        some (some false, [false, true, true, false]) ∧
    listedOf i firstChecked [.drop (sq 2 5) ⟨.pawn, .black⟩, .normal (sq 8 9) (sq 7 9) false,
      .normal (sq 2 9) (sq 1 9) false] = some (some true, [true, false, true]) := by
  revert i
  decide +kernel

/-- The hypotheses of `C87_no_check` and `C87_check` hold in these positions, which are not `Tame`. -/
example : ¬ Tame (rootView twoKings) ∧ ∀ i : Fin 4,
    (∃ p, Visited env0 (buildAt i otherJunk) twoKings [] p ∧ (∀ f, ¬ RunsOut (OwnPawn p) f) ∧
      p.inCheck (buildAt i otherJunk) = some false) ∧
    (∃ p, Roamed env0 (buildAt i otherJunk) firstChecked [] p ∧ (∀ f, ¬ RunsOut (OwnPawn p) f) ∧
      p.inCheck (buildAt i otherJunk) = some true) := by
  refine ⟨fun h => absurd (h.oneKing .black (sq 2 9) (sq 8 9) (by decide) (by decide)) (by decide),
    fun i => ?_⟩
  have h : ∀ i : Fin 4, (Position.new env0 (buildAt i otherJunk) twoKings).any (fun p =>
      p.inCheck (buildAt i otherJunk) == some false && Square.all.all (fun s => !OwnPawn p s)) = true ∧
      (Position.new env0 (buildAt i otherJunk) firstChecked).any (fun p =>
      p.inCheck (buildAt i otherJunk) == some true && Square.all.all (fun s => !OwnPawn p s)) = true := by
    decide +kernel
  have hno : ∀ {p : Position}, (∀ s ∈ Square.all, (!OwnPawn p s) = true) →
      ∀ f, ¬ RunsOut (OwnPawn p) f := by
    rintro p hp f ⟨_, _, ⟨s, _, hs, _⟩, _⟩
    have := hp s (by simp [Square.all])
    rw [hs] at this
    cases this
  have h := h i
  simp only [Option.any_eq_true, Bool.and_eq_true, List.all_eq_true, beq_iff_eq] at h
  obtain ⟨⟨p, hp, hc, ha⟩, p', hp', hc', ha'⟩ := h
  exact ⟨⟨p, ⟨p, hp, .start⟩, hno ha, hc⟩, p', ⟨p', hp', .start⟩, hno ha', hc'⟩

end

end Yasai.Props

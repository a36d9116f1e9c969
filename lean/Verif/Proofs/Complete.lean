import Verif.Proofs.Pseudo

/-!
# No legal move is missing

When kings may have been left in check the recorded checkers need not be all of them.  The generated
list then still contains every legal move, because a legal move answers all checks, recorded or not.
-/

namespace Yasai

open Spec

/-- The state with the attack information that `Position::new` would compute. -/
def State.fresh (K : Backend) (q : PartialPosition) (st : State) : State :=
  { st with attackInfo := AttackInfo.new K (AttackInfo.calculateCheckers K q) q }

section
variable {E : Env} {K : Backend} {q : PartialPosition} {st : State}

theorem isLegal_fresh (hpin : st.attackInfo.pinned = AttackInfo.pinnedOf K q) (m : Move) :
    q.isLegal K st m = q.isLegal K (st.fresh K q) m := by
  unfold PartialPosition.isLegal
  rw [hpin]
  rfl

theorem dropMoves_fresh (hpin : st.attackInfo.pinned = AttackInfo.pinnedOf K q) (target : BB) :
    dropMoves E K q st target = dropMoves E K q (st.fresh K q) target := by
  unfold dropMoves PartialPosition.pawnDropTarget PartialPosition.isPawnDropMate
  rw [hpin]
  rfl

theorem allList_fresh (hpin : st.attackInfo.pinned = AttackInfo.pinnedOf K q) :
    allList E K q st = allList E K q (st.fresh K q) := by
  unfold allList
  rw [dropMoves_fresh hpin]

/-- The filter keeps the legal moves. -/
theorem isLegal_of_generated (hK : Lawful K) (h : Repr q) (hv : Tame q.spec)
    (hpin : st.attackInfo.pinned = AttackInfo.pinnedOf K q) {m : Move} (hg : Generated q.spec m) :
    q.isLegal K st m = true := by
  rw [isLegal_fresh hpin]
  cases m with
  | drop to pc => rfl
  | normal frm to pr =>
    obtain ⟨k, hfrm, _⟩ := hg.1.1
    have hl := (listed_normal hv hfrm hg.1.1).1 hg
    rw [isLegal_normal hK h hv rfl hfrm]
    by_cases hk : k = .king
    · subst hk
      rw [if_pos rfl] at hl
      refine ⟨fun _ => hl.1, fun king hking hp => ?_⟩
      have := hv.oneKing _ _ _ hking hfrm
      subst this
      exact absurd hp not_pinned_self
    · rw [if_neg hk] at hl
      exact ⟨fun e => absurd e hk, fun king hking => (hl king hking).2⟩

/-- Moves of other pieces that answer the only recorded check are generated. -/
theorem otherEvasions_complete (hK : Lawful K) (h : Repr q) (hv : Tame q.spec)
    (hpin : st.attackInfo.pinned = AttackInfo.pinnedOf K q)
    (hcs : CheckersSound K q st.attackInfo.checkers) {king ch : Square}
    (hk : q.kingPosition K q.side = some king) (hch : K.iter st.attackInfo.checkers = [ch])
    {m : Move} (hp : PseudoLegal q.spec m) (hr : IsPawnDrop m → ¬ Refused q.spec m)
    (hm : match m with
      | .normal frm to _ => q.board frm ≠ some ⟨.king, q.side⟩ ∧ (to = ch ∨ Between ch to king)
      | .drop to _ => Between ch to king) :
    m ∈ otherEvasions E K q st ch king := by
  have hcm : ∀ s, mem st.attackInfo.checkers s = true ↔ s = ch := by
    intro s
    rw [← mem_iter hK hcs.1, hch]; simp
  obtain ⟨king', hk', kc, hkc, hrc⟩ := hcs.2 ch ((hcm ch).2 rfl)
  rw [hk] at hk'
  cases hk'
  have hbt := mem_betweenTable hK ch king
  unfold otherEvasions
  rw [List.mem_append]
  cases m with
  | normal frm to pr =>
    left
    rw [mem_boardList hK h hv.noDeadPawn _ (by decide)]
    obtain ⟨k, h1, h2, h3, h4, h5⟩ := hp
    refine ⟨k, rep_orderEv.2 ?_, frm, to, pr, rfl, h1, h2, ?_, h4, h5⟩
    · rintro rfl; exact hm.1 h1
    · rw [hK.or, mem_or, Bool.or_eq_true, hbt, hcm]; exact hm.2.symm
  | drop to pc =>
    right
    rw [if_neg (by
      rw [hK.isEmpty, beq_iff_eq]
      intro e
      have := (hbt to).2 hm
      rw [e, mem_zero] at this
      cases this), dropMoves_fresh hpin,
      mem_dropMoves hK h hv E rfl (betweenTable_spec hK _ _).1
        (fun to hto => Classical.not_not.1 (reaches_path hrc ((hbt to).1 hto)))]
    exact ⟨to, pc, rfl, (hbt to).2 hm, hp, hr⟩

/-- Every legal move is in the list that `legal_moves` filters, and passes the filter. -/
theorem legalMoves_complete (E : Env) (hK : Lawful K) (h : Repr q) (hv : Tame q.spec)
    (hpin : st.attackInfo.pinned = AttackInfo.pinnedOf K q)
    (hcs : CheckersSound K q st.attackInfo.checkers) {m : Move} (hg : Generated q.spec m) :
    m ∈ pseudoList E K q st ∧ q.isLegal K st m = true := by
  refine ⟨?_, isLegal_of_generated hK h hv hpin hg⟩
  have hp := hg.1.1
  unfold pseudoList
  by_cases he : K.isEmpty st.attackInfo.checkers = true
  · rw [if_pos he, allList_fresh hpin, mem_allList hK h hv rfl]
    exact ⟨hp, hg.2⟩
  · rw [if_neg he]
    have hmi : ∀ s, s ∈ K.iter st.attackInfo.checkers ↔ mem st.attackInfo.checkers s = true :=
      fun s => mem_iter hK hcs.1 s
    have hne : K.iter st.attackInfo.checkers ≠ [] := by
      intro e
      apply he
      rw [hK.isEmpty, beq_iff_eq]
      refine ext_of_ok hcs.1 ok_zero fun s => ?_
      rw [mem_zero, ← Bool.not_eq_true, ← hmi, e]
      simp
    obtain ⟨s0, hs0⟩ := List.exists_mem_of_ne_nil _ hne
    obtain ⟨king, hk, _⟩ := hcs.2 s0 ((hmi s0).1 hs0)
    have hking := kingPosition_sound hK h hk
    have huniq : ∀ s, q.board s = some ⟨.king, q.side⟩ → s = king :=
      fun s hs => hv.oneKing _ _ _ hs hking
    have hatk : ∀ s ∈ K.iter st.attackInfo.checkers, AttacksFrom q.board q.side.flip s king := by
      intro s hs
      obtain ⟨king', hk', ha⟩ := hcs.2 s ((hmi s).1 hs)
      rw [hk] at hk'; cases hk'
      exact ha
    obtain ⟨att, hatt, hattm⟩ := foldlM_checkers hK h king (K.iter st.attackInfo.checkers) (by
      intro s hs
      obtain ⟨k, hk, _⟩ := hatk s hs
      exact ⟨k, hk⟩) (K.empty, 0)
    have hatt : q.checkersAttacks K st king =
        some (att, (K.iter st.attackInfo.checkers).length) := by
      simpa [PartialPosition.checkersAttacks] using hatt
    rw [hk]
    dsimp only
    rw [hatt]
    dsimp only
    unfold evList
    rw [List.mem_append]
    -- other pieces
    have other : ∀ {to}, (∀ s, AttacksFrom q.board q.side.flip s king → to = s ∨ Between s to king) →
        (∀ ch, to = ch ∨ Between ch to king → AttacksFrom q.board q.side.flip ch king →
          K.iter st.attackInfo.checkers = [ch] → m ∈ otherEvasions E K q st ch king) →
        m ∈ (match K.iter st.attackInfo.checkers with
          | [ch] => otherEvasions E K q st ch king
          | _ => []) := by
      intro to hall hin
      cases hch : K.iter st.attackInfo.checkers with
      | nil => exact absurd hch hne
      | cons s1 l =>
        have h1 := hatk s1 (by rw [hch]; simp)
        cases l with
        | nil => exact hin s1 (hall s1 h1) h1 hch
        | cons s2 l =>
          have h2 := hatk s2 (by rw [hch]; simp)
          have hnd := nodup_iter hK hcs.1
          rw [hch] at hnd
          exact (two_checkers (by rintro rfl; simp at hnd) h1 h2 (hall s1 h1) (hall s2 h2)).elim
    cases m with
    | drop to pc =>
      right
      have hl := (listed_drop hv hp).1 hg
      refine other (to := to) (fun s hs => .inr (hl.1 king hking s hs)) fun ch _ ha hch => ?_
      exact otherEvasions_complete hK h hv hpin hcs hk hch hp hg.2 (hl.1 king hking ch ha)
    | normal frm to pr =>
      have hp' := hp
      obtain ⟨k, hfrm, hr, hown, hp1, hp2⟩ := hp'
      have hl := (listed_normal hv hfrm hp).1 hg
      by_cases hkk : k = .king
      · left
        subst hkk
        rw [if_pos rfl] at hl
        have := huniq frm hfrm
        subst this
        have hpr : pr = false := by
          cases pr with
          | false => rfl
          | true => exact absurd rfl (hp1 rfl).1
        subst hpr
        have hst := reaches_king.1 hr
        rw [mem_kingEvasions hK h]
        refine ⟨to, rfl, hst, hown, fun hmem => ?_⟩
        rw [hattm, hK.empty, mem_zero] at hmem
        rcases hmem with hmem | ⟨s, hs, k, hks, hev⟩
        · cases hmem
        · obtain ⟨k', hk', hrk⟩ := hatk s hs
          rw [hks] at hk'; cases hk'
          rcases evAttack_sound hrk hst hev with h1 | h1
          · exact hl.1 s ⟨k, hks, h1⟩
          · exact hl.2 s ⟨k, hks, hrk⟩ ⟨k, hks, h1⟩
      · right
        rw [if_neg hkk] at hl
        refine other (to := to) (hl king hking).1 fun ch hto _ hch => ?_
        refine otherEvasions_complete hK h hv hpin hcs hk hch hp hg.2 ⟨?_, hto⟩
        intro e
        have hfrm' : q.board frm = some ⟨k, q.side⟩ := hfrm
        rw [hfrm'] at e
        apply hkk
        cases e; rfl

/-- With no king of the side to move attacked, the list is exactly that of the rule book. -/
theorem legalMoves_exact_calm (E : Env) (hK : Lawful K) (h : Repr q) (hv : Tame q.spec)
    (hpin : st.attackInfo.pinned = AttackInfo.pinnedOf K q)
    (hcs : CheckersSound K q st.attackInfo.checkers) (hnc : ¬ InCheck q.board q.side) (m : Move) :
    (m ∈ pseudoList E K q st ∧ q.isLegal K st m = true) ↔ Generated q.spec m := by
  have he : K.isEmpty st.attackInfo.checkers = true := by
    rw [hK.isEmpty, beq_iff_eq]
    refine ext_of_ok hcs.1 ok_zero fun s => ?_
    rw [mem_zero, ← Bool.not_eq_true]
    intro hs
    obtain ⟨king, hk, ha⟩ := hcs.2 s hs
    exact hnc ⟨king, kingPosition_sound hK h hk, s, ha⟩
  unfold pseudoList
  rw [if_pos he, allList_fresh hpin, isLegal_fresh hpin]
  exact allList_legal hK h hv rfl hnc m

end

/-- Pseudo-legal moves do not add kings. -/
theorem oneKing_apply {P : Pos}
    (hv : ∀ c s t, P.board s = some ⟨.king, c⟩ → P.board t = some ⟨.king, c⟩ → s = t) {m : Move}
    (hp : PseudoLegal P m) (c : Color) (s t : Square)
    (hs : (apply P m).board s = some ⟨.king, c⟩) (ht : (apply P m).board t = some ⟨.king, c⟩) :
    s = t := by
  cases m with
  | normal frm to pr =>
    obtain ⟨k, hfrm, _⟩ := hp
    rw [apply_normal_board hfrm] at hs ht
    have key : ∀ s, movedBoard P.board frm to ⟨movedKind k pr, P.side⟩ s = some ⟨.king, c⟩ →
        (s = to ∧ P.board frm = some ⟨.king, c⟩) ∨ (s ≠ frm ∧ P.board s = some ⟨.king, c⟩) := by
      intro s h
      by_cases e1 : s = to
      · subst e1
        rw [movedBoard_to] at h
        simp only [Option.some.injEq, Piece.mk.injEq] at h
        exact .inl ⟨rfl, by rw [hfrm, movedKind_king.1 h.1, h.2]⟩
      · by_cases e2 : s = frm
        · subst e2; rw [movedBoard_frm _ _ e1] at h; cases h
        · rw [movedBoard_other _ _ e1 e2] at h; exact .inr ⟨e2, h⟩
    rcases key s hs with ⟨a1, a2⟩ | ⟨a1, a2⟩ <;> rcases key t ht with ⟨b1, b2⟩ | ⟨b1, b2⟩
    · rw [a1, b1]
    · exact absurd (hv _ _ _ b2 a2) b1
    · exact absurd (hv _ _ _ a2 b2) a1
    · exact hv _ _ _ a2 b2
  | drop to pc =>
    have hh := hp.2.1
    have key : ∀ s, (apply P (.drop to pc)).board s = some ⟨.king, c⟩ →
        P.board s = some ⟨.king, c⟩ := by
      intro s h
      by_cases e1 : s = to
      · subst e1
        simp only [apply, put_same, Option.some.injEq] at h
        subst h; cases hh
      · simpa only [apply, put_other _ _ e1] using h
    exact hv _ _ _ (key s hs) (key t ht)

end Yasai

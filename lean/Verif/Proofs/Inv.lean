import Verif.Proofs.Effect
import Verif.Proofs.Check
import Verif.Proofs.Keys

/-!
# The cached attack information is always exact
-/

namespace Yasai

open Spec

/-! ## What the computed attack information means in a valid position -/

theorem mem_checkers {K : Backend} (hK : Lawful K) {q : PartialPosition} (h : Repr q)
    (hv : Loose q.spec) (s : Square) :
    mem (AttackInfo.calculateCheckers K q) s = true ↔
      ∃ king, q.board king = some ⟨.king, q.side⟩ ∧ AttacksFrom q.board q.side.flip s king := by
  cases hk : q.kingPosition K q.side with
  | none =>
    rw [calculateCheckers_none hk, hK.empty]
    rw [h.kingPosition_none hK _ (hv.oneKing _)] at hk
    constructor
    · intro h; simp at h
    · rintro ⟨king, hking, _⟩; exact absurd hking (hk king)
  | some king =>
    have hking := (h.kingPosition hK _ (hv.oneKing _) king).1 hk
    rw [mem_calculateCheckers hK h hk]
    constructor
    · rintro ⟨k, h1, _, h2⟩
      exact ⟨king, hking, k, h1, h2⟩
    · rintro ⟨king', hking', k, h1, h2⟩
      have := hv.oneKing _ _ _ hking' hking
      subst this
      refine ⟨k, h1, ?_, h2⟩
      rintro rfl
      rw [reaches_iff] at h2
      rcases h2 with h2 | h2
      · exact hv.kingsApart _ _ _ h1 (by rw [flip_flip]; exact hking') (reaches_iff.2 (.inl h2))
      · exact absurd h2.1 (not_slide rfl _ _ _)

theorem checkers_empty_iff {K : Backend} (hK : Lawful K) {q : PartialPosition} (h : Repr q)
    (hv : Loose q.spec) :
    K.isEmpty (AttackInfo.calculateCheckers K q) = true ↔ ¬ InCheck q.board q.side := by
  rw [hK.isEmpty, beq_iff_eq, eq_zero_iff (ok_calculateCheckers hK h)]
  unfold InCheck Attacked
  constructor
  · rintro hz ⟨king, hking, s, hs⟩
    have := (mem_checkers hK h hv s).2 ⟨king, hking, hs⟩
    rw [hz] at this; cases this
  · intro hn s
    rw [← Bool.not_eq_true, mem_checkers hK h hv]
    rintro ⟨king, hking, hs⟩
    exact hn ⟨king, hking, s, hs⟩

theorem mem_checkables {K : Backend} (hK : Lawful K) {q : PartialPosition} (h : Repr q)
    (hv : Loose q.spec) (k : PieceKind) (t : Square) :
    mem (AttackInfo.checkablesOf K q k) t = true ↔
      ∃ king, q.board king = some ⟨.king, q.side.flip⟩ ∧ k ≠ .king ∧
        Reaches (Occ q.board) k q.side t king := by
  cases hk : q.kingPosition K q.side.flip with
  | none =>
    rw [checkablesOf_none hk, hK.empty]
    rw [h.kingPosition_none hK _ (hv.oneKing _)] at hk
    constructor
    · intro h; simp at h
    · rintro ⟨king, hking, _⟩; exact absurd hking (hk king)
  | some king =>
    have hking := (h.kingPosition hK _ (hv.oneKing _) king).1 hk
    rw [(checkablesOf_spec hK h hk k).2]
    constructor
    · intro h; exact ⟨king, hking, h⟩
    · rintro ⟨king', hking', h1⟩
      have := hv.oneKing _ _ _ hking' hking
      subst this
      exact h1

theorem mem_pinned {K : Backend} (hK : Lawful K) {q : PartialPosition} (h : Repr q)
    (hv : Tame q.spec) (c : Color) (x : Square) :
    mem (AttackInfo.pinnedOf K q c) x = true ↔
      ∃ king, q.board king = some ⟨.king, c⟩ ∧ Pinned q.board c king x := by
  cases hk : q.kingPosition K c with
  | none =>
    rw [pinnedOf_none hk, hK.empty]
    rw [h.kingPosition_none hK _ (hv.oneKing _)] at hk
    constructor
    · intro h; simp at h
    · rintro ⟨king, hking, _⟩; exact absurd hking (hk king)
  | some king =>
    have hking := (h.kingPosition hK _ (hv.oneKing _) king).1 hk
    rw [(pinnedOf_spec hK h hk).2]
    constructor
    · intro h; exact ⟨king, hking, h⟩
    · rintro ⟨king', hking', h1⟩
      have := hv.oneKing _ _ _ hking' hking
      subst this
      exact h1

theorem ok_pinnedOf {K : Backend} (hK : Lawful K) {q : PartialPosition} (h : Repr q) (c : Color) :
    Ok (AttackInfo.pinnedOf K q c) := by
  cases hk : q.kingPosition K c with
  | none => rw [pinnedOf_none hk, hK.empty]; exact ok_zero
  | some king => exact (pinnedOf_spec hK h hk).1

/-! ## The invariant -/

/-- The bitboards agree with the board, and the last state holds the attack information that
`Position::new` would compute. -/
structure Inv (K : Backend) (p : Position) : Prop where
  repr : Repr p.inner
  state : ∃ st, p.state = some st ∧
    st.attackInfo = AttackInfo.new K (AttackInfo.calculateCheckers K p.inner) p.inner

theorem inv_new {E : Env} {K : Backend} (hK : Lawful K) {pp : CorePartialPosition} {p : Position}
    (h : Position.new E K pp = some p) : Inv K p := by
  have h0 := h
  simp only [Position.new, Option.bind_eq_bind, Option.bind_eq_some_iff, Option.pure_def] at h
  obtain ⟨k1, _, h⟩ := h
  cases h
  exact ⟨(ofCore_spec hK pp).1, _, rfl, rfl⟩

/-- `is_check_move` is exact for safe moves. -/
theorem isCheckMove_spec {K : Backend} (hK : Lawful K) {p : Position} (hi : Inv K p)
    (hv : Valid p.inner.spec) {m : Move} (hs : Safe p.inner.spec m) :
    ∃ b, p.isCheckMove K m = some b ∧
      (b = true ↔ InCheck (apply p.inner.spec m).board p.inner.side.flip) := by
  obtain ⟨hr, st, hst, hai⟩ := hi
  have hnot : ∀ king, p.inner.board king = some ⟨.king, p.inner.side.flip⟩ →
      ∀ s, ¬ AttacksFrom p.inner.board p.inner.side s king := by
    intro king hking s hs
    exact hv.notInCheck ⟨king, hking, s, by
      show AttacksFrom p.inner.board p.inner.side.flip.flip s king
      rw [flip_flip]; exact hs⟩
  cases m with
  | normal frm to pr =>
    have hcap := fun q hq => no_king_capture hv hs.1 (q := q) hq
    obtain ⟨⟨k, hfrm, hreach, hown, _⟩, hsafe⟩ := hs
    have hfrm' : p.inner.board frm = some ⟨k, p.inner.side⟩ := hfrm
    have hsp : movedKind k pr = (if pr then k.promote.getD k else k) := rfl
    rw [apply_normal_board hfrm] at hsafe ⊢
    simp only [Position.isCheckMove, PartialPosition.pieceAt, hfrm', hst, Option.bind_eq_bind,
      Option.bind_some, Position.checkable, hai, AttackInfo.new, hK.contains, ← hsp]
    by_cases hck : mem (AttackInfo.checkablesOf K p.inner (movedKind k pr)) to = true
    · rw [if_pos hck]
      refine ⟨true, rfl, ?_⟩
      simp only [true_iff]
      rw [mem_checkables hK hr hv] at hck
      obtain ⟨king, hking, hkk, hre⟩ := hck
      refine (check_normal hfrm hking (fun s h => hv.oneKing _ _ _ h hking) (hnot king hking)
        hreach ?_).2 (.inl ⟨hkk, hre⟩)
      intro e; exact absurd (movedKind_king.2 e) hkk
    · rw [if_neg hck]
      rw [mem_checkables hK hr hv] at hck
      have key : ∀ king, p.inner.board king = some ⟨.king, p.inner.side.flip⟩ →
          (InCheck (movedBoard p.inner.spec.board frm to ⟨movedKind k pr, p.inner.spec.side⟩)
            p.inner.side.flip ↔ (Pinned p.inner.board p.inner.side.flip king frm ∧
              ¬ (Between king to frm ∨ Between king frm to))) := by
        intro king hking
        have hkto : king ≠ to := by rintro rfl; exact hcap _ hking rfl
        have hkfrm : king ≠ frm := by
          rintro rfl; rw [hfrm'] at hking; exact some_piece_flip hking
        refine (check_normal hfrm hking (fun s h => hv.oneKing _ _ _ h hking) (hnot king hking)
          hreach ?_).trans ?_
        · rintro rfl hst
          -- adjacent kings: the mover's king would be attacked
          apply hsafe
          refine ⟨to, ?_, king, .king, ?_, ?_⟩
          · rw [movedBoard_to]
            cases pr <;> rfl
          · rw [movedBoard_other _ _ hkto hkfrm]; exact hking
          · rw [reaches_iff]; exact .inl (step_symm hst)
        · constructor
          · rintro (h | h)
            · exact absurd ⟨king, hking, h⟩ hck
            · exact h
          · exact .inr
      cases hkp : p.inner.kingPosition K p.inner.side.flip with
      | none =>
        have hnone := (hr.kingPosition_none hK _ (hv.oneKing _)).1 hkp
        rw [pinnedOf_none hkp, hK.empty, mem_zero]
        refine ⟨false, rfl, ?_⟩
        simp only [Bool.false_eq_true, false_iff]
        apply not_inCheck_of_no_king
        intro s hs
        by_cases h1 : s = to
        · subst h1; rw [movedBoard_to] at hs; exact some_piece_flip hs
        · by_cases h2 : s = frm
          · subst h2; rw [movedBoard_frm _ _ h1] at hs; cases hs
          · rw [movedBoard_other _ _ h1 h2] at hs; exact hnone s hs
      | some king =>
        have hking := (hr.kingPosition hK _ (hv.oneKing _) king).1 hkp
        rw [key king hking, ← (pinnedOf_spec hK hr hkp).2]
        cases hpin : mem (AttackInfo.pinnedOf K p.inner p.inner.side.flip) frm with
        | false => exact ⟨false, rfl, by simp⟩
        | true =>
          refine ⟨_, rfl, ?_⟩
          simp only [true_and, Bool.not_eq_true', ← Bool.not_eq_true, Bool.or_eq_true,
            mem_betweenTable hK]
  | drop to pc =>
    obtain ⟨⟨hc, hh, _, hemp, _⟩, hsafe⟩ := hs
    obtain ⟨k, c⟩ := pc
    have hc : c = p.inner.side := hc
    subst hc
    simp only [Position.isCheckMove, hst, Option.bind_eq_bind, Option.bind_some,
      Position.checkable, hai, AttackInfo.new, hK.contains]
    refine ⟨_, rfl, ?_⟩
    rw [mem_checkables hK hr hv]
    constructor
    · rintro ⟨king, hking, _, h⟩
      exact (check_drop hking (fun s h => hv.oneKing _ _ _ h hking) (hnot king hking) hemp).2 h
    · intro h
      have h' := h
      obtain ⟨king, hking, _⟩ := h'
      have hking' : p.inner.board king = some ⟨.king, p.inner.side.flip⟩ := by
        by_cases e : king = to
        · subst e
          simp only [apply, put_same] at hking
          exact (some_piece_flip hking).elim
        · simp only [apply, put_other _ _ e] at hking
          exact hking
      refine ⟨king, hking', ?_, ?_⟩
      · rintro rfl; cases hh
      · exact (check_drop hking' (fun s h => hv.oneKing _ _ _ h hking') (hnot king hking') hemp).1 h

theorem checkers_eq_empty {K : Backend} (hK : Lawful K) {q : PartialPosition} (h : Repr q)
    (hv : Loose q.spec) (hn : ¬ InCheck q.board q.side) :
    AttackInfo.calculateCheckers K q = K.empty := by
  have := (checkers_empty_iff hK h hv).2 hn
  rw [hK.isEmpty, beq_iff_eq] at this
  rw [this, hK.empty]

/-- Safe moves preserve the invariant. -/
theorem inv_doMove {E : Env} {K : Backend} (hK : Lawful K) {p p' : Position} (hi : Inv K p)
    (hv : Valid p.inner.spec) {m : Move} (hs : Safe p.inner.spec m)
    (hm : p.doMove E K m = some p') : Inv K p' := by
  obtain ⟨b, hb, hbc⟩ := isCheckMove_spec hK hi hv hs
  have hshape : GoodShape p.inner.board m := by
    cases m with
    | normal frm to pr => obtain ⟨⟨k, _, h, _⟩, _⟩ := hs; exact reaches_ne h
    | drop to pc => exact hs.1.2.2.2.1
  have hr' := repr_doMove hK hi.repr hshape hm
  have hsp := spec_doMove hm
  have hv' : Valid p'.inner.spec := by rw [hsp]; exact valid_apply hv hs
  have hside : p'.inner.side = p.inner.side.flip := by
    have := congrArg Pos.side hsp
    cases m with
    | normal frm to pr =>
      obtain ⟨⟨k, hfrm, _⟩, _⟩ := hs
      rw [apply_normal_side hfrm] at this; exact this
    | drop to pc => exact this
  have hboard : p'.inner.board = (apply p.inner.spec m).board := congrArg Pos.board hsp
  refine ⟨hr', ?_⟩
  cases m with
  | normal frm to pr =>
    obtain ⟨isCheck, st, piece, kq, target, ply, h1, hst, hpiece, hcap, htarget, hply, hin, hs'⟩ :=
      doMove_normal hm
    rw [h1] at hb; cases hb
    refine ⟨_, by rw [Position.state, hs', List.head?_cons], ?_⟩
    dsimp only
    congr 1
    cases hbb : b with
    | true =>
      rw [if_pos rfl]
      have : AttackInfo.calculateCheckers K p'.inner = AttackInfo.calculateCheckers K
          (Position.moveInner K p.inner.side kq.2 frm to piece target) := by
        rw [hin]; rfl
      rw [this]
    | false =>
      rw [if_neg (by simp)]
      rw [checkers_eq_empty hK hr' hv']
      rw [hside, hboard, ← hbc, hbb]; simp
  | drop to pc =>
    obtain ⟨isCheck, st, q, n, z, ply, h1, hst, hq, hn, hz, hply, hin, hs'⟩ := doMove_drop hm
    rw [h1] at hb; cases hb
    refine ⟨_, by rw [Position.state, hs', List.head?_cons], ?_⟩
    dsimp only
    congr 1
    cases hbb : b with
    | true =>
      rw [if_pos rfl, hK.single]
      rw [hbb] at hbc
      have hck := hbc.1 rfl
      apply ext_of_ok (ok_single to) (ok_calculateCheckers hK hr')
      intro s
      rw [mem_single, Bool.eq_iff_iff, decide_eq_true_eq, mem_checkers hK hr' hv', hside, hboard,
        flip_flip]
      obtain ⟨⟨hc, hh, _, hemp, _⟩, hsafe⟩ := hs
      obtain ⟨k, c⟩ := pc
      have hc : c = p.inner.side := hc
      subst hc
      have hold : ∀ king, (apply p.inner.spec (.drop to ⟨k, p.inner.side⟩)).board king =
          some ⟨.king, p.inner.side.flip⟩ →
          p.inner.board king = some ⟨.king, p.inner.side.flip⟩ := by
        intro king hking
        by_cases e : king = to
        · subst e
          simp only [apply, put_same] at hking
          exact (some_piece_flip hking).elim
        · simp only [apply, put_other _ _ e] at hking
          exact hking
      have hnot : ∀ king, p.inner.board king = some ⟨.king, p.inner.side.flip⟩ →
          ∀ s, ¬ AttacksFrom p.inner.board p.inner.side s king := by
        intro king hking s hs
        exact hv.notInCheck ⟨king, hking, s, by
          show AttacksFrom p.inner.board p.inner.side.flip.flip s king
          rw [flip_flip]; exact hs⟩
      constructor
      · rintro rfl
        obtain ⟨king, hking, s, hs⟩ := hck
        rw [flip_flip] at hs
        have := (attacks_after_drop (hnot king (hold king hking)) hemp s).1 hs
        obtain ⟨rfl, _⟩ := this
        exact ⟨king, hking, hs⟩
      · rintro ⟨king, hking, hs⟩
        exact ((attacks_after_drop (hnot king (hold king hking)) hemp s).1 hs).1
    | false =>
      rw [if_neg (by simp)]
      rw [checkers_eq_empty hK hr' hv']
      rw [hside, hboard, ← hbc, hbb]; simp

theorem inCheck_spec {K : Backend} (hK : Lawful K) {p : Position} (hi : Inv K p)
    (hv : Loose p.inner.spec) :
    ∃ b, p.inCheck K = some b ∧ (b = true ↔ InCheck p.inner.board p.inner.side) := by
  obtain ⟨hr, st, hst, hai⟩ := hi
  simp only [Position.inCheck, hst, Option.bind_eq_bind, Option.bind_some, hai, AttackInfo.new]
  refine ⟨_, rfl, ?_⟩
  have := checkers_empty_iff hK hr hv
  rw [Bool.not_eq_true', ← Bool.not_eq_true, this]
  exact Classical.not_not

end Yasai

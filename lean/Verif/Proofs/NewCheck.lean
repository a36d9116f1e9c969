import Verif.Proofs.Pseudo

/-!
# The checks that `do_move` records

`do_move` decides with `is_check_move` whether to look for checkers at all.  Here the moves need only
be pseudo-legal: kings may have been left in check and a side may have several kings.
-/

namespace Yasai

open Spec

/-- `king_position` depends on the squares of the kings only. -/
theorem kingPosition_congr {K : Backend} (hK : Lawful K) {q q' : PartialPosition} (h : Repr q)
    (h' : Repr q') {c : Color}
    (hb : ∀ s, q.board s = some ⟨.king, c⟩ ↔ q'.board s = some ⟨.king, c⟩) :
    q.kingPosition K c = q'.kingPosition K c := by
  have hm : ∀ {q : PartialPosition}, Repr q → ∀ s,
      mem (q.playerBB c &&& q.pieceBB .king) s = true ↔ q.board s = some ⟨.king, c⟩ := by
    intro q h s
    rw [mem_and, Bool.and_eq_true, h.player, h.piece]
    constructor
    · rintro ⟨⟨k, e1⟩, ⟨c', e2⟩⟩
      rw [e1] at e2; cases e2; exact e1
    · intro e; exact ⟨⟨_, e⟩, ⟨_, e⟩⟩
  unfold PartialPosition.kingPosition
  rw [hK.and, hK.and]
  congr 2
  refine ext_of_ok (ok_and_left _ (h.okPlayer c)) (ok_and_left _ (h'.okPlayer c)) fun s => ?_
  rw [Bool.eq_iff_iff, hm h, hm h', hb]

/-- What `is_check_move` of a board move says about the king that `king_position` finds. -/
theorem isCheckMove_normal {K : Backend} (hK : Lawful K) {p : Position} (hr : Repr p.inner)
    (hc : CacheSound K p) {frm to : Square} {pr : Bool} {k : PieceKind}
    (hfrm : p.inner.board frm = some ⟨k, p.inner.side⟩)
    (hne : frm ≠ to) (hpath : ∀ u, Between frm u to → p.inner.board u = none) :
    ∃ b, p.isCheckMove K (.normal frm to pr) = some b ∧
      (b = true ↔ ∃ king, p.inner.kingPosition K p.inner.side.flip = some king ∧
        ((movedKind k pr ≠ .king ∧
            Reaches (Occ p.inner.board) (movedKind k pr) p.inner.side to king) ∨
          ∃ s, s ≠ to ∧ s ≠ frm ∧ ∃ k, p.inner.board s = some ⟨k, p.inner.side⟩ ∧
            Slide k p.inner.side s king ∧
            (∀ u, Between s u king → u ≠ to ∧ (u = frm ∨ ¬ Occ p.inner.board u)) ∧
            ¬ ∀ u, Between s u king → ¬ Occ p.inner.board u)) := by
  obtain ⟨st, hst, hcb, hpn, _⟩ := hc
  have hsp : movedKind k pr = (if pr then k.promote.getD k else k) := rfl
  simp only [Position.isCheckMove, PartialPosition.pieceAt, hfrm, hst, Option.bind_eq_bind,
    Option.bind_some, Position.checkable, hcb, hpn, hK.contains, ← hsp]
  cases hkp : p.inner.kingPosition K p.inner.side.flip with
  | none =>
    rw [checkablesOf_none hkp, pinnedOf_none hkp, hK.empty]
    simp only [mem_zero, Bool.false_eq_true, if_false]
    exact ⟨false, rfl, by simp⟩
  | some king =>
    have pin := pin_lemma (c := p.inner.side.flip) (king := king) (to := to) (b := p.inner.board)
      (by unfold Occ; rw [hfrm]; simp) hne (fun u hu ho => ho (hpath u hu))
    simp only [flip_flip] at pin
    have hck := (checkablesOf_spec hK hr hkp (movedKind k pr)).2 to
    simp only [Option.some.injEq, exists_eq_left']
    rw [pin, ← hck, ← (pinnedOf_spec hK hr hkp).2]
    by_cases h1 : mem (AttackInfo.checkablesOf K p.inner (movedKind k pr)) to = true
    · rw [if_pos h1]
      exact ⟨true, rfl, by simp [h1]⟩
    · rw [if_neg h1]
      simp only [h1, Bool.false_eq_true, false_or]
      cases hpin : mem (AttackInfo.pinnedOf K p.inner p.inner.side.flip) frm with
      | false => exact ⟨false, rfl, by simp⟩
      | true =>
        refine ⟨_, rfl, ?_⟩
        simp only [true_and, Bool.not_eq_true', ← Bool.not_eq_true, Bool.or_eq_true,
          mem_betweenTable hK]

/-- `in_check` after an unhindered move is `is_check_move` before it. -/
theorem inCheck_doMove {E : Env} {K : Backend} (hK : Lawful K) {p p' : Position} {m : Move}
    (hr : Repr p.inner) (hc : CacheSound K p) (hp : Unhindered p.inner.spec m)
    (hm : p.doMove E K m = some p') : p'.inCheck K = p.isCheckMove K m := by
  have hg : GoodShape p.inner.board m := unhindered_good hp
  have hr' := repr_doMove hK hr hg hm
  have hsp := spec_doMove hm
  cases m with
  | drop to pc =>
    obtain ⟨isCheck, st, q, n, z, ply, h1, hst, hq, hn, hz, hply, hi, hs⟩ := doMove_drop hm
    rw [h1]
    unfold Position.inCheck Position.state
    rw [hs]
    show some (!K.isEmpty (if isCheck = true then K.single to else K.empty)) = some isCheck
    cases isCheck with
    | false => rw [if_neg (by simp), hK.isEmpty, hK.empty]; rfl
    | true =>
      have : (CoreBB.single to == 0#128) = false := by
        rw [beq_eq_false_iff_ne]
        intro e
        have := mem_single to to
        rw [e, mem_zero] at this
        simp at this
      rw [if_pos rfl, hK.isEmpty, hK.single, this]; rfl
  | normal frm to pr =>
    obtain ⟨isCheck, st, piece, kq, target, ply, h1, hst, hpiece, hcap, htarget, hply, hi, hs⟩ :=
      doMove_normal hm
    obtain ⟨⟨k, hfrm⟩, hne, _, hpath⟩ := hp
    have hfrm' : p.inner.board frm = some ⟨k, p.inner.side⟩ := hfrm
    have hs' : p'.inner.side = p.inner.side.flip := by
      have := congrArg Pos.side hsp
      rwa [apply_normal_side hfrm] at this
    have hb' : p'.inner.board = movedBoard p.inner.board frm to ⟨movedKind k pr, p.inner.side⟩ := by
      have := congrArg Pos.board hsp
      rwa [apply_normal_board hfrm] at this
    rw [h1]
    unfold Position.inCheck Position.state
    rw [hs]
    show some (!K.isEmpty (if isCheck = true then _ else K.empty)) = some isCheck
    cases isCheck with
    | false => rw [if_neg (by simp), hK.isEmpty, hK.empty]; rfl
    | true =>
      rw [if_pos rfl]
      have hcalc : AttackInfo.calculateCheckers K
          (Position.moveInner K p.inner.side kq.2 frm to piece target) =
          AttackInfo.calculateCheckers K p'.inner := by rw [hi]; rfl
      rw [hcalc]
      obtain ⟨b, hb, hbc⟩ := isCheckMove_normal hK hr hc (pr := pr) hfrm' hne hpath
      rw [h1] at hb
      cases hb
      obtain ⟨king, hkp, hatt⟩ := hbc.1 rfl
      -- the king is not captured
      have hnk : ∀ c, p.inner.board to ≠ some ⟨.king, c⟩ := by
        intro c e
        rw [e] at hcap
        obtain ⟨z, hand, _, hadd, _⟩ := doCapture_some hcap
        have : (PieceKind.king.unpromote.getD .king).isHandPiece = false := rfl
        unfold Hand.added at hadd
        rw [if_neg (by rw [this]; simp)] at hadd
        cases hadd
      have hkp' : p'.inner.kingPosition K p'.inner.side = some king := by
        rw [hs', ← hkp]
        refine kingPosition_congr hK hr' hr fun s => ?_
        rw [hb']
        by_cases e1 : s = to
        · subst e1
          rw [movedBoard_to]
          exact ⟨fun h => (some_piece_flip h).elim, fun h => absurd h (hnk _)⟩
        · by_cases e2 : s = frm
          · subst e2
            rw [movedBoard_frm _ _ e1, hfrm']
            exact ⟨fun h => by simp at h, fun h => (some_piece_flip h).elim⟩
          · rw [movedBoard_other _ _ e1 e2]
      have hex : ∃ s, mem (AttackInfo.calculateCheckers K p'.inner) s = true := by
        simp only [mem_calculateCheckers hK hr' hkp', hb', hs', flip_flip]
        rcases hatt with ⟨hkk, hre⟩ | ⟨s, e1, e2, k1, hk1, hsl, hcl, _⟩
        · refine ⟨to, movedKind k pr, movedBoard_to .., hkk, reaches_moved.2 ?_⟩
          rcases reaches_iff.1 hre with h | ⟨h, h2⟩
          · exact .inl h
          · refine .inr ⟨h, fun u hu => ⟨?_, .inr (h2 u hu)⟩⟩
            rintro rfl
            exact between_ne_left hu rfl
        · refine ⟨s, k1, by rw [movedBoard_other _ _ e1 e2]; exact hk1, ?_,
            reaches_moved.2 (.inr ⟨hsl, hcl⟩)⟩
          rintro rfl
          obtain ⟨d, hd, _⟩ := hsl
          cases hd
      obtain ⟨s, hs⟩ := hex
      have : (AttackInfo.calculateCheckers K p'.inner == 0#128) = false := by
        rw [beq_eq_false_iff_ne]
        intro e
        rw [e, mem_zero] at hs
        cases hs
      rw [hK.isEmpty, this]; rfl

end Yasai

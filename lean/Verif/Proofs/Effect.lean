import Verif.Proofs.Repr

/-!
# The effect of `Position::new` and `do_move` on the board, hands and bitboards
-/

namespace Yasai

open Spec

/-! ## `From<shogi_core::PartialPosition>` -/

theorem repr_put {q : PartialPosition} (h : Repr q) {s : Square} {p : Piece}
    {q' : PartialPosition} (hempty : q.board s = none)
    (hb : ∀ t, q'.board t = if t = s then some p else q.board t)
    (hpo : ∀ c, Ok (q'.playerBB c)) (hko : ∀ k, Ok (q'.pieceBB k))
    (hp : ∀ c t, mem (q'.playerBB c) t = (mem (q.playerBB c) t || (decide (t = s) && decide (c = p.color))))
    (hk : ∀ k t, mem (q'.pieceBB k) t = (mem (q.pieceBB k) t || (decide (t = s) && decide (k = p.kind)))) :
    Repr q' := by
  refine ⟨hpo, hko, fun c t => ?_, fun k t => ?_⟩
  · rw [hp, hb]
    by_cases e : t = s
    · subst e
      simp only [h.player_none hempty, if_true, Bool.false_or, decide_true, Bool.true_and,
        decide_eq_true_eq, Option.some.injEq]
      constructor
      · rintro rfl; exact ⟨p.kind, rfl⟩
      · rintro ⟨k, rfl⟩; rfl
    · simp only [e, decide_false, Bool.false_and, Bool.or_false, if_false]
      exact h.player c t
  · rw [hk, hb]
    by_cases e : t = s
    · subst e
      simp only [h.piece_none hempty, if_true, Bool.false_or, decide_true, Bool.true_and,
        decide_eq_true_eq, Option.some.injEq]
      constructor
      · rintro rfl; exact ⟨p.color, rfl⟩
      · rintro ⟨k, rfl⟩; rfl
    · simp only [e, decide_false, Bool.false_and, Bool.or_false, if_false]
      exact h.piece k t

theorem fromStep_spec {K : Backend} (hK : Lawful K) (pp : CorePartialPosition)
    {q : PartialPosition} (h : Repr q) (s : Square) (hs : q.board s = none) :
    Repr (q.fromStep K pp s) ∧
    (∀ t, (q.fromStep K pp s).board t = if t = s then pp.board s else q.board t) ∧
    (q.fromStep K pp s).hands = q.hands ∧ (q.fromStep K pp s).side = q.side ∧
    (q.fromStep K pp s).ply = q.ply := by
  unfold PartialPosition.fromStep
  dsimp only
  cases e : pp.board s with
  | none =>
    dsimp only
    have hb : ∀ t, (q.setPieceAt s none).board t = q.board t := by
      intro t
      simp only [PartialPosition.setPieceAt]
      by_cases e : t = s
      · rw [if_pos e, e, hs]
      · rw [if_neg e]
    refine ⟨⟨h.okPlayer, h.okPiece, fun c t => ?_, fun k t => ?_⟩, fun t => ?_, rfl, rfl, rfl⟩
    · rw [hb]; exact h.player c t
    · rw [hb]; exact h.piece k t
    · rfl
  | some p =>
    dsimp only
    refine ⟨?_, fun t => rfl, rfl, rfl, rfl⟩
    apply repr_put h (s := s) (p := p) hs (fun t => rfl)
    · intro c; dsimp only [PartialPosition.setPieceAt]; split
      · rw [hK.or, hK.single]; exact ok_or (h.okPlayer c) (ok_single s)
      · exact h.okPlayer c
    · intro k; dsimp only [PartialPosition.setPieceAt]; split
      · rw [hK.or, hK.single]; exact ok_or (h.okPiece k) (ok_single s)
      · exact h.okPiece k
    · intro c t; dsimp only [PartialPosition.setPieceAt]
      by_cases hc : c = p.color
      · rw [if_pos hc, hK.or, hK.single, mem_or, mem_single]; simp [hc]
      · rw [if_neg hc]; simp [hc]
    · intro k t; dsimp only [PartialPosition.setPieceAt]
      by_cases hc : k = p.kind
      · rw [if_pos hc, hK.or, hK.single, mem_or, mem_single]; simp [hc]
      · rw [if_neg hc]; simp [hc]

theorem foldl_fromStep {K : Backend} (hK : Lawful K) (pp : CorePartialPosition) (l : List Square)
    (hl : l.Nodup) {q : PartialPosition} (h : Repr q) (hs : ∀ s ∈ l, q.board s = none) :
    Repr (l.foldl (PartialPosition.fromStep K pp) q) ∧
    (∀ t, (l.foldl (PartialPosition.fromStep K pp) q).board t =
      if t ∈ l then pp.board t else q.board t) ∧
    (l.foldl (PartialPosition.fromStep K pp) q).hands = q.hands ∧
    (l.foldl (PartialPosition.fromStep K pp) q).side = q.side ∧
    (l.foldl (PartialPosition.fromStep K pp) q).ply = q.ply := by
  induction l generalizing q with
  | nil => simp [h]
  | cons s l ih =>
    rw [List.nodup_cons] at hl
    obtain ⟨h1, h2, h3, h4, h5⟩ := fromStep_spec hK pp h s (hs s List.mem_cons_self)
    have hne : ∀ t ∈ l, t ≠ s := fun t ht e => hl.1 (e ▸ ht)
    obtain ⟨i1, i2, i3, i4, i5⟩ := ih hl.2 h1 (by
      intro t ht
      rw [h2, if_neg (hne t ht)]
      exact hs t (List.mem_cons_of_mem _ ht))
    simp only [List.foldl_cons]
    refine ⟨i1, fun t => ?_, i3.trans h3, i4.trans h4, i5.trans h5⟩
    rw [i2, h2]
    by_cases e1 : t ∈ l
    · simp [e1]
    · by_cases e2 : t = s
      · subst e2; simp
      · simp [e1, e2]

theorem ofCore_spec {K : Backend} (hK : Lawful K) (pp : CorePartialPosition) :
    Repr (PartialPosition.ofCore K pp) ∧ (PartialPosition.ofCore K pp).board = pp.board ∧
    (PartialPosition.ofCore K pp).hands = pp.hands ∧ (PartialPosition.ofCore K pp).side = pp.side ∧
    (PartialPosition.ofCore K pp).ply = pp.ply := by
  unfold PartialPosition.ofCore
  obtain ⟨h1, h2, h3, h4, h5⟩ := foldl_fromStep hK pp Square.all
    (by unfold Square.all; exact List.nodup_finRange 81)
    (q := { side := pp.side, ply := pp.ply, hands := pp.hands, board := fun _ => none,
            playerBB := fun _ => K.empty, pieceBB := fun _ => K.empty })
    ⟨fun _ => by rw [hK.empty]; exact ok_zero, fun _ => by rw [hK.empty]; exact ok_zero,
     fun c s => by simp [hK.empty], fun k s => by simp [hK.empty]⟩ (fun _ _ => rfl)
  refine ⟨h1, ?_, h3, h4, h5⟩
  funext t
  rw [h2, if_pos (mem_all t)]

/-! ## `do_move` -/

theorem repr_of_xor {q q' : PartialPosition} (h : Repr q) {s : Square} {p : Piece}
    (hs : q.board s = some p ∧ (∀ t, q'.board t = if t = s then none else q.board t) ∨
          q.board s = none ∧ (∀ t, q'.board t = if t = s then some p else q.board t))
    (hp : ∀ c, q'.playerBB c = q.playerBB c ^^^ condSingle (c = p.color) s)
    (hk : ∀ k, q'.pieceBB k = q.pieceBB k ^^^ condSingle (k = p.kind) s) : Repr q' := by
  have okc : ∀ (b : Prop) [Decidable b], Ok (condSingle b s) := by
    intro b _; unfold condSingle; split
    · exact ok_single s
    · exact ok_zero
  have memc : ∀ (b : Prop) [Decidable b] t, mem (condSingle b s) t = (decide b && decide (t = s)) := by
    intro b _ t; unfold condSingle; split <;> simp [*]
  refine ⟨fun c => ?_, fun k => ?_, fun c t => ?_, fun k t => ?_⟩
  · rw [hp]; exact ok_xor (h.okPlayer c) (okc _)
  · rw [hk]; exact ok_xor (h.okPiece k) (okc _)
  · rw [hp, mem_xor, memc]
    rcases hs with ⟨hs, hb⟩ | ⟨hs, hb⟩ <;> rw [hb]
    · by_cases e : t = s
      · subst e
        rw [h.player_some hs]
        by_cases hc : c = p.color
        · simp [hc]
        · simp [hc, Ne.symm hc]
      · simp only [e, decide_false, Bool.and_false, Bool.xor_false, if_false]
        exact h.player c t
    · by_cases e : t = s
      · subst e
        rw [h.player_none hs]
        simp only [decide_true, Bool.and_true, Bool.false_xor, decide_eq_true_eq, if_true,
          Option.some.injEq]
        constructor
        · rintro rfl; exact ⟨p.kind, rfl⟩
        · rintro ⟨k, rfl⟩; rfl
      · simp only [e, decide_false, Bool.and_false, Bool.xor_false, if_false]
        exact h.player c t
  · rw [hk, mem_xor, memc]
    rcases hs with ⟨hs, hb⟩ | ⟨hs, hb⟩ <;> rw [hb]
    · by_cases e : t = s
      · subst e
        rw [h.piece_some hs]
        by_cases hc : k = p.kind
        · simp [hc]
        · simp [hc, Ne.symm hc]
      · simp only [e, decide_false, Bool.and_false, Bool.xor_false, if_false]
        exact h.piece k t
    · by_cases e : t = s
      · subst e
        rw [h.piece_none hs]
        simp only [decide_true, Bool.and_true, Bool.false_xor, decide_eq_true_eq, if_true,
          Option.some.injEq]
        constructor
        · rintro rfl; exact ⟨p.color, rfl⟩
        · rintro ⟨k, rfl⟩; rfl
      · simp only [e, decide_false, Bool.and_false, Bool.xor_false, if_false]
        exact h.piece k t

theorem Repr.congr {q q' : PartialPosition} (h : Repr q) (hb : q'.board = q.board)
    (hp : q'.playerBB = q.playerBB) (hk : q'.pieceBB = q.pieceBB) : Repr q' := by
  obtain ⟨h1, h2, h3, h4⟩ := h
  exact ⟨by rw [hp]; exact h1, by rw [hk]; exact h2, by rw [hp, hb]; exact h3,
    by rw [hk, hb]; exact h4⟩

/-- Removes the piece on `s` from board and bitboards. -/
theorem repr_remove {K : Backend} (hK : Lawful K) {q : PartialPosition} (h : Repr q) {s : Square}
    {p : Piece} (hs : q.board s = some p) : Repr ((q.xorPiece K s p).setPieceAt s none) :=
  repr_of_xor h (.inl ⟨hs, fun _ => rfl⟩) (fun c => xorPiece_player hK q s p c)
    (fun k => xorPiece_piece hK q s p k)

/-- Adds a piece on the empty square `s` to board and bitboards. -/
theorem repr_add {K : Backend} (hK : Lawful K) {q : PartialPosition} (h : Repr q) {s : Square}
    {p : Piece} (hs : q.board s = none) : Repr ((q.xorPiece K s p).setPieceAt s (some p)) :=
  repr_of_xor h (.inr ⟨hs, fun _ => rfl⟩) (fun c => xorPiece_player hK q s p c)
    (fun k => xorPiece_piece hK q s p k)

theorem doCapture_none {E : Env} {K : Backend} {c : Color} {to : Square}
    {keys : Key × Key} {q : PartialPosition} {kq : (Key × Key) × PartialPosition}
    (h : Position.doCapture E K c to none keys q = some kq) : kq = (keys, q) := by
  cases h; rfl

/-- A board move keeps the bitboards in step with the board. -/
theorem repr_moveInner {E : Env} {K : Backend} (hK : Lawful K) {q : PartialPosition} (h : Repr q)
    {c : Color} {frm to : Square} {piece target : Piece} {keys : Key × Key}
    {kq : (Key × Key) × PartialPosition}
    (hcap : Position.doCapture E K c to (q.board to) keys q = some kq)
    (hfrm : q.board frm = some piece) (hne : frm ≠ to) :
    Repr (Position.moveInner K c kq.2 frm to piece target) := by
  -- the bitboards after removing the captured piece
  have h1 : ∃ q1, Repr q1 ∧ (∀ t, q1.board t = if t = to then none else q.board t) ∧
      (∀ c, q1.playerBB c = kq.2.playerBB c) ∧ (∀ k, q1.pieceBB k = kq.2.pieceBB k) ∧
      kq.2.board = q.board := by
    cases e : q.board to with
    | none =>
      rw [e] at hcap
      have := doCapture_none hcap
      subst this
      refine ⟨q, h, fun t => ?_, fun _ => rfl, fun _ => rfl, rfl⟩
      by_cases e' : t = to
      · rw [if_pos e', e', e]
      · rw [if_neg e']
    | some cp =>
      rw [e] at hcap
      obtain ⟨z, hand, _, _, _, hkq⟩ := doCapture_some hcap
      refine ⟨_, repr_remove hK h e, fun t => rfl, fun c => ?_, fun k => ?_, ?_⟩ <;> rw [hkq] <;> rfl
  obtain ⟨q1, hr1, hb1, hp1, hk1, hb⟩ := h1
  have h2 := repr_remove hK hr1 (s := frm) (p := piece) (by rw [hb1, if_neg hne, hfrm])
  have h3 := repr_add hK h2 (s := to) (p := target) (by
    simp only [PartialPosition.setPieceAt, xorPiece_board]
    rw [if_neg (Ne.symm hne), hb1, if_pos rfl])
  refine h3.congr ?_ ?_ ?_
  · funext t
    simp only [Position.moveInner, PartialPosition.setPieceAt, xorPiece_board, hb, hb1]
    by_cases e1 : t = to
    · simp [e1]
    · by_cases e2 : t = frm
      · simp [e2]
      · simp [e1, e2]
  · funext c'
    simp only [Position.moveInner, PartialPosition.setPieceAt, xorPiece_player hK, hp1]
  · funext k'
    simp only [Position.moveInner, PartialPosition.setPieceAt, xorPiece_piece hK, hk1]

/-- A drop on an empty square keeps the bitboards in step with the board. -/
theorem repr_dropInner {K : Backend} (hK : Lawful K) {q q' : PartialPosition} (h : Repr q)
    {c : Color} {to : Square} {piece : Piece}
    (hq : Position.dropInner K c q to piece = some q') (hto : q.board to = none) : Repr q' := by
  simp only [Position.dropInner, Option.bind_eq_bind, Option.bind_eq_some_iff,
      Option.pure_def] at hq
  obtain ⟨hand, hrem, hq⟩ := hq
  cases hq
  exact (repr_add hK h hto (p := piece)).congr rfl rfl rfl

/-- The shape of move for which `do_move` keeps the bitboards consistent: a board move changes the
square, a drop goes to an empty square. -/
def GoodShape (b : Square → Option Piece) : Move → Prop
  | .normal frm to _ => frm ≠ to
  | .drop to _ => b to = none

theorem repr_doMove {E : Env} {K : Backend} (hK : Lawful K) {p p' : Position} {m : Move}
    (h : Repr p.inner) (hs : GoodShape p.inner.board m) (hm : p.doMove E K m = some p') :
    Repr p'.inner := by
  cases m with
  | normal frm to promote =>
    obtain ⟨isCheck, st, piece, kq, target, ply, h1, hst, hpiece, hcap, htarget, hply, hi, _⟩ :=
      doMove_normal hm
    rw [hi]
    exact (repr_moveInner hK h hcap hpiece hs).congr rfl rfl rfl
  | drop to pc =>
    obtain ⟨isCheck, st, q, n, z, ply, h1, hst, hq, hn, hz, hply, hi, _⟩ := doMove_drop hm
    rw [hi]
    exact (repr_dropInner hK h hq hs).congr rfl rfl rfl

theorem Hand.count_added {h h' : Hand} {k : PieceKind} (e : h.added k = some h') (k' : PieceKind) :
    (h'.count k').getD 0 = if k' = k then (h.count k').getD 0 + 1 else (h.count k').getD 0 := by
  unfold Hand.added at e
  split at e
  · rename_i hk
    split at e
    · cases e
      unfold Hand.count Hand.set
      by_cases e' : k' = k
      · subst e'; simp [hk]
      · simp [e']
    · cases e
  · cases e

theorem Hand.count_removed {h h' : Hand} {k : PieceKind} (e : h.removed k = some h')
    (k' : PieceKind) :
    (h'.count k').getD 0 = if k' = k then (h.count k').getD 0 - 1 else (h.count k').getD 0 := by
  unfold Hand.removed at e
  split at e
  · rename_i hk
    split at e
    · cases e
      unfold Hand.count Hand.set
      by_cases e' : k' = k
      · subst e'; simp [hk]
      · simp [e']
    · cases e
  · cases e

theorem Hand.cnt_pos_of_removed {h h' : Hand} {k : PieceKind} (e : h.removed k = some h') :
    k.isHandPiece = true ∧ 0 < h.cnt k := by
  unfold Hand.removed at e
  split at e
  · split at e
    · exact ⟨by assumption, by assumption⟩
    · cases e
  · cases e

theorem targetPiece_eq {piece target : Piece} {promote : Bool}
    (h : Position.targetPiece piece promote = some target) :
    target = ⟨movedKind piece.kind promote, piece.color⟩ := by
  unfold Position.targetPiece Piece.promote at h
  rw [movedKind, promoted_eq]
  cases promote with
  | false => cases h; rfl
  | true =>
    cases hk : piece.kind.promote with
    | none => simp [hk] at h
    | some k => simp [hk] at h; simp [h]

/-- What `do_move` computes is the move of the rules. -/
theorem spec_doMove {E : Env} {K : Backend} {p p' : Position} {m : Move}
    (hm : p.doMove E K m = some p') : p'.inner.spec = apply p.inner.spec m := by
  cases m with
  | normal frm to promote =>
    obtain ⟨isCheck, st, piece, kq, target, ply, h1, hst, hpiece, hcap, htarget, hply, hi, _⟩ :=
      doMove_normal hm
    have htk := targetPiece_eq htarget
    have hb : (kq.2).board = p.inner.board ∧ (∀ c k, ((kq.2.hands c).count k).getD 0 =
        match p.inner.board to with
          | some q => if c = p.inner.side ∧ k = base q.kind then
              ((p.inner.hands c).count k).getD 0 + 1 else ((p.inner.hands c).count k).getD 0
          | none => ((p.inner.hands c).count k).getD 0) := by
      cases e : p.inner.board to with
      | none =>
        rw [e] at hcap
        have := doCapture_none hcap
        subst this
        exact ⟨rfl, fun c k => rfl⟩
      | some cp =>
        rw [e] at hcap
        obtain ⟨z, hand, _, hadd, _, hkq⟩ := doCapture_some hcap
        rw [hkq]
        refine ⟨rfl, fun c k => ?_⟩
        simp only [PartialPosition.setHand, xorPiece_hands]
        by_cases ec : c = p.inner.side
        · subst ec
          rw [if_pos rfl, Hand.count_added hadd]
          simp [base, demoted_eq]
        · simp [ec]
    unfold PartialPosition.spec
    simp only [apply, hpiece, hi]
    congr 1
    · funext t
      simp only [Position.moveInner, PartialPosition.setPieceAt, xorPiece_board, hb.1, put, htk]
    · funext c k
      exact hb.2 c k
  | drop to pc =>
    obtain ⟨isCheck, st, q, n, z, ply, h1, hst, hq, hn, hz, hply, hi, _⟩ := doMove_drop hm
    simp only [Position.dropInner, Option.bind_eq_bind, Option.bind_eq_some_iff,
      Option.pure_def] at hq
    obtain ⟨hand, hrem, hq⟩ := hq
    cases hq
    unfold PartialPosition.spec
    simp only [apply, hi]
    congr 1
    funext c k
    simp only [PartialPosition.setHand]
    by_cases ec : c = p.inner.side
    · subst ec
      rw [if_pos rfl, Hand.count_removed hrem]
      simp [PartialPosition.setPieceAt]
    · simp [ec, PartialPosition.setPieceAt]

end Yasai

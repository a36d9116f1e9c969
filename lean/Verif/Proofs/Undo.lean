import Verif.Proofs.SimdLawful
import Verif.Model.Position
import Verif.Model.Backends

/-!
# `undo_move` inverts `do_move`
-/

namespace Yasai

theorem lawful_of_mem {K : Backend} (h : K ∈ backends) : Lawful K := by
  obtain ⟨J, h⟩ := h
  simp only [builds, List.mem_cons, List.not_mem_nil, or_false] at h
  rcases h with rfl | rfl | rfl | rfl
  · exact core_lawful J
  · exact X86.lawful J
  · exact Aarch64.lawful J
  · exact Wasm32.lawful J

attribute [ext] PartialPosition Hand Position

theorem Color.flip_flip (c : Color) : c.flip.flip = c := by cases c <;> rfl

theorem Hand.set_set_self (h : Hand) (k : PieceKind) (n : Nat) :
    (h.set k n).set k (h.cnt k) = h := by
  ext k'
  simp only [Hand.set]
  split
  · rename_i h; rw [h]
  · rfl

theorem Hand.removed_added {h h' : Hand} {k : PieceKind} (e : h.added k = some h') :
    h'.removed k = some h := by
  unfold Hand.added at e
  split at e
  · rename_i hk
    split at e
    · cases e
      unfold Hand.removed
      rw [if_pos hk, if_pos (by simp [Hand.set])]
      simp only [Hand.set, if_true, Nat.add_sub_cancel]
      congr 1
      exact Hand.set_set_self h k _
    · cases e
  · cases e

theorem Hand.added_removed {h h' : Hand} {k : PieceKind} (e : h.removed k = some h')
    (hc : h'.cnt k < 255) : h'.added k = some h := by
  unfold Hand.removed at e
  split at e
  · rename_i hk
    split at e
    · rename_i hpos
      cases e
      unfold Hand.added
      rw [if_pos hk, if_pos hc]
      simp only [Hand.set, if_true]
      congr 1
      rw [show h.cnt k - 1 + 1 = h.cnt k by omega]
      exact Hand.set_set_self h k _
    · cases e
  · cases e

theorem plySub_plyAdd {E : Env} {n n' : BitVec 16} (h : Position.plyAdd E n = some n') :
    Position.plySub E n' = some n := by
  unfold Position.plyAdd at h
  split at h
  · cases h
  · rename_i hc
    cases h
    unfold Position.plySub
    rw [if_neg]
    · congr 1; exact BitVec.add_sub_cancel _ _
    · intro hz
      apply hc
      rw [Bool.and_eq_true, beq_iff_eq] at hz ⊢
      refine ⟨hz.1, ?_⟩
      have := congrArg (· - 1#16) hz.2
      rw [show (65535#16 : BitVec 16) = 0#16 - 1#16 from rfl, ← this]
      exact (BitVec.add_sub_cancel _ _).symm

theorem xor_cancel (a b : BB) : a ^^^ b ^^^ b = a := by
  rw [BitVec.xor_assoc, BitVec.xor_self, BitVec.xor_zero]

theorem xor_right_comm (a b c : BB) : a ^^^ b ^^^ c = a ^^^ c ^^^ b := by
  rw [BitVec.xor_assoc, BitVec.xor_comm b c, ← BitVec.xor_assoc]

theorem zobHand_lt {E : Env} {c : Color} {k : PieceKind} {n : Nat} {z : Key}
    (h : E.zobHand c k n = some z) : n < 18 := by
  unfold Env.zobHand maxHandNum at h
  split at h
  · assumption
  · cases h

theorem Position.eq_of_inner {q : PartialPosition} {p : Position} (h : q = p.inner) :
    (⟨q, p.states⟩ : Position) = p := by rw [h]

/-- A single square if the condition holds. -/
def condSingle (b : Prop) [Decidable b] (s : Square) : BB := if b then CoreBB.single s else 0#128

theorem xorPiece_player {K : Backend} (hK : Lawful K) (q : PartialPosition) (s : Square) (p : Piece)
    (c : Color) :
    (q.xorPiece K s p).playerBB c = q.playerBB c ^^^ condSingle (c = p.color) s := by
  unfold PartialPosition.xorPiece condSingle
  dsimp only
  split
  · rw [hK.xor, hK.single]
  · rw [BitVec.xor_zero]

theorem xorPiece_piece {K : Backend} (hK : Lawful K) (q : PartialPosition) (s : Square) (p : Piece)
    (k : PieceKind) :
    (q.xorPiece K s p).pieceBB k = q.pieceBB k ^^^ condSingle (k = p.kind) s := by
  unfold PartialPosition.xorPiece condSingle
  dsimp only
  split
  · rw [hK.xor, hK.single]
  · rw [BitVec.xor_zero]

@[simp] theorem xorPiece_board (K : Backend) (q : PartialPosition) (s : Square) (p : Piece) :
    (q.xorPiece K s p).board = q.board := rfl
@[simp] theorem xorPiece_hands (K : Backend) (q : PartialPosition) (s : Square) (p : Piece) :
    (q.xorPiece K s p).hands = q.hands := rfl
@[simp] theorem xorPiece_side (K : Backend) (q : PartialPosition) (s : Square) (p : Piece) :
    (q.xorPiece K s p).side = q.side := rfl
@[simp] theorem xorPiece_ply (K : Backend) (q : PartialPosition) (s : Square) (p : Piece) :
    (q.xorPiece K s p).ply = q.ply := rfl

theorem xor_undo3 (a x y z : BB) : a ^^^ x ^^^ y ^^^ z ^^^ x ^^^ y ^^^ z = a := by
  apply BitVec.eq_of_getLsbD_eq
  intro i _
  simp only [BitVec.getLsbD_xor]
  cases a.getLsbD i <;> cases x.getLsbD i <;> cases y.getLsbD i <;> cases z.getLsbD i <;> rfl

theorem xor_undo2 (a y z : BB) : a ^^^ y ^^^ z ^^^ y ^^^ z = a := by
  have := xor_undo3 a 0#128 y z
  simpa using this

/-- Facts about a non-panicking `do_move` of a board move. -/
theorem doMove_normal {E : Env} {K : Backend} {p p' : Position} {frm to : Square}
    {promote : Bool} (h : p.doMove E K (.normal frm to promote) = some p') :
    ∃ isCheck st piece kq target ply,
      p.isCheckMove K (.normal frm to promote) = some isCheck ∧ p.states.head? = some st ∧
      p.inner.board frm = some piece ∧
      Position.doCapture E K p.inner.side to (p.inner.board to) st.keys p.inner = some kq ∧
      Position.targetPiece piece promote = some target ∧
      Position.plyAdd E kq.2.ply = some ply ∧
      p'.inner = { Position.moveInner K p.inner.side kq.2 frm to piece target with ply := ply } ∧
      p'.states = { keys := (kq.1.1 ^^^ E.zobBoard frm piece ^^^ E.zobBoard to target ^^^ Key.COLOR,
                      kq.1.2),
                    captured := p.inner.board to, lastMoved := some piece,
                    attackInfo := AttackInfo.new K
                      (if isCheck then AttackInfo.calculateCheckers K
                        (Position.moveInner K p.inner.side kq.2 frm to piece target) else K.empty)
                      p'.inner } :: p.states := by
  simp only [Position.doMove, Option.bind_eq_bind, Option.bind_eq_some_iff, Move.to,
    Position.sideToMove, PartialPosition.pieceAt, Position.pushState] at h
  obtain ⟨isCheck, h1, st, hst, piece, hpiece, kq, hcap, target, htarget, ply, hply, h⟩ := h
  cases h
  exact ⟨isCheck, st, piece, kq, target, ply, h1, hst, hpiece, hcap, htarget, hply, rfl, rfl⟩

/-- Facts about a non-panicking `do_move` of a drop. -/
theorem doMove_drop {E : Env} {K : Backend} {p p' : Position} {to : Square} {piece : Piece}
    (h : p.doMove E K (.drop to piece) = some p') :
    ∃ isCheck st q n z ply,
      p.isCheckMove K (.drop to piece) = some isCheck ∧ p.states.head? = some st ∧
      Position.dropInner K p.inner.side p.inner to piece = some q ∧
      (q.hands p.inner.side).count piece.kind = some n ∧
      E.zobHand p.inner.side piece.kind n = some z ∧
      Position.plyAdd E q.ply = some ply ∧
      p'.inner = { q with ply := ply } ∧
      p'.states = { keys := (st.keys.1 ^^^ E.zobBoard to piece ^^^ Key.COLOR, st.keys.2 ^^^ z),
                    captured := p.inner.board to, lastMoved := some piece,
                    attackInfo := AttackInfo.new K (if isCheck then K.single to else K.empty)
                      p'.inner } :: p.states := by
  simp only [Position.doMove, Option.bind_eq_bind, Option.bind_eq_some_iff, Move.to,
    Position.sideToMove, PartialPosition.pieceAt, Position.pushState] at h
  obtain ⟨isCheck, h1, st, hst, q, hq, n, hn, z, hz, ply, hply, h⟩ := h
  cases h
  exact ⟨isCheck, st, q, n, z, ply, h1, hst, hq, hn, hz, hply, rfl, rfl⟩

theorem targetPiece_color {piece target : Piece} {promote : Bool}
    (h : Position.targetPiece piece promote = some target) : target.color = piece.color := by
  unfold Position.targetPiece Piece.promote at h
  split at h
  · split at h <;> cases h; rfl
  · cases h; rfl

/-- Facts about the capture block. -/
theorem doCapture_some {E : Env} {K : Backend} {c : Color} {to : Square} {cp : Piece}
    {keys : Key × Key} {q : PartialPosition} {kq : (Key × Key) × PartialPosition}
    (h : Position.doCapture E K c to (some cp) keys q = some kq) :
    ∃ z hand, E.zobHand c (cp.kind.unpromote.getD cp.kind)
        ((q.hands c).cnt (cp.kind.unpromote.getD cp.kind)) = some z ∧
      (q.hands c).added (cp.kind.unpromote.getD cp.kind) = some hand ∧
      kq.1 = (keys.1 ^^^ E.zobBoard to cp, keys.2 ^^^ z) ∧
      kq.2 = (q.xorPiece K to cp).setHand c hand := by
  simp only [Position.doCapture, Option.bind_eq_bind, Option.bind_eq_some_iff,
    Option.pure_def] at h
  obtain ⟨n, hn, z, hz, hand, hh, h⟩ := h
  cases h
  unfold Hand.count at hn
  split at hn <;> cases hn
  exact ⟨z, hand, hz, hh, rfl, rfl⟩

theorem setHand_same (q : PartialPosition) (c : Color) : q.setHand c (q.hands c) = q := by
  apply PartialPosition.ext <;> try rfl
  funext c'
  simp only [PartialPosition.setHand]
  split
  · rename_i h; rw [h]
  · rfl

/-- `undo_move` after a non-panicking `do_move` gives back the same position. -/
theorem undoMove_doMove {E : Env} {K : Backend} (hK : Lawful K) {p p' : Position} {m : Move}
    (hdrop : ∀ to pc, m = .drop to pc → p.inner.board to = none)
    (h : p.doMove E K m = some p') : p'.undoMove E K m = some p := by
  cases m with
  | normal frm to promote =>
    obtain ⟨isCheck, st, piece, kq, target, ply, h1, hst, hpiece, hcap, htarget, hply, hi, hs⟩ :=
      doMove_normal h
    have hply' := plySub_plyAdd hply
    have hcol := targetPiece_color htarget
    have hside : p'.sideToMove.flip = p.inner.side := by
      rw [Position.sideToMove, hi]; exact Color.flip_flip _
    unfold Position.undoMove
    simp only [hside, Position.state, hs, List.head?_cons, Option.bind_eq_bind, Option.bind_some,
      Position.undoNormal, Position.popState, List.tail_cons]
    cases hto : p.inner.board to with
    | none =>
      rw [hto] at hcap
      cases hcap
      simp only [Position.undoCapture, Option.pure_def, Option.bind_some,
        PartialPosition.pieceAt, xorPiece_board]
      have hb : p'.inner.board to = some target := by
        rw [hi]; simp [Position.moveInner, PartialPosition.setPieceAt]
      rw [hb]
      simp only [Option.bind_some]
      have hp : Position.plySub E p'.inner.ply = some p.inner.ply := by rw [hi]; exact hply'
      have e : ((((p'.inner.xorPiece K frm piece).xorPiece K to target).setPieceAt frm
          (some piece)).setPieceAt to none).ply = p'.inner.ply := rfl
      rw [e, hp, Option.bind_some]
      congr 1
      apply Position.eq_of_inner
      apply PartialPosition.ext
      · rfl
      · rfl
      · rw [hi]; rfl
      · rw [hi]; funext s
        simp only [PartialPosition.setPieceAt, xorPiece_board, Position.moveInner]
        by_cases e1 : s = to
        · simp [e1, hto]
        · by_cases e2 : s = frm
          · rw [if_neg e1, if_pos e2, e2, hpiece]
          · simp [e1, e2]
      · funext c
        simp only [PartialPosition.setPieceAt, xorPiece_player hK, hi, Position.moveInner, hcol]
        exact xor_undo2 _ _ _
      · funext k
        simp only [PartialPosition.setPieceAt, xorPiece_piece hK, hi, Position.moveInner]
        exact xor_undo2 _ _ _
    | some cp =>
      rw [hto] at hcap
      obtain ⟨z, hand, _, hadd, _, hkq⟩ := doCapture_some hcap
      simp only [Position.undoCapture]
      have hh : (p'.inner.xorPiece K to cp).hands p.inner.side = hand := by
        rw [hi]; simp [Position.moveInner, PartialPosition.setPieceAt, hkq, PartialPosition.setHand]
      rw [hh, Hand.removed_added hadd]
      simp only [Option.bind_eq_bind, Option.bind_some, Option.pure_def, PartialPosition.pieceAt,
        xorPiece_board]
      have hb : ((p'.inner.xorPiece K to cp).setHand p.inner.side (p.inner.hands p.inner.side)).board
          to = some target := by
        rw [hi]; simp [Position.moveInner, PartialPosition.setPieceAt, PartialPosition.setHand]
      rw [hb]
      simp only [Option.bind_some]
      have hp : Position.plySub E p'.inner.ply = some p.inner.ply := by
        rw [hi]; rw [hkq] at hply'; exact hply'
      have e : ((((((p'.inner.xorPiece K to cp).setHand p.inner.side
          (p.inner.hands p.inner.side)).xorPiece K frm piece).xorPiece K to target).setPieceAt frm
          (some piece)).setPieceAt to (some cp)).ply = p'.inner.ply := rfl
      rw [e, hp, Option.bind_some]
      congr 1
      apply Position.eq_of_inner
      apply PartialPosition.ext
      · rfl
      · rfl
      · rw [hi]; funext c
        simp only [PartialPosition.setPieceAt, xorPiece_hands, PartialPosition.setHand,
          Position.moveInner, hkq]
        split
        · rename_i h; rw [h]
        · rfl
      · rw [hi]; funext s
        simp only [PartialPosition.setPieceAt, xorPiece_board, Position.moveInner, hkq,
          PartialPosition.setHand]
        by_cases e1 : s = to
        · simp [e1, hto]
        · by_cases e2 : s = frm
          · rw [if_neg e1, if_pos e2, e2, hpiece]
          · simp [e1, e2]
      · funext c
        simp only [PartialPosition.setPieceAt, xorPiece_player hK, hi, Position.moveInner, hcol,
          PartialPosition.setHand, hkq]
        exact xor_undo3 _ _ _ _
      · funext k
        simp only [PartialPosition.setPieceAt, xorPiece_piece hK, hi, Position.moveInner,
          PartialPosition.setHand, hkq]
        exact xor_undo3 _ _ _ _
  | drop to pc =>
    have hempty := hdrop to pc rfl
    obtain ⟨isCheck, st, q, n, z, ply, h1, hst, hq, hn, hz, hply, hi, hs⟩ := doMove_drop h
    simp only [Position.dropInner, Option.bind_eq_bind, Option.bind_eq_some_iff,
      Option.pure_def] at hq
    obtain ⟨hand, hrem, hq⟩ := hq
    cases hq
    have hply' := plySub_plyAdd hply
    have hside : p'.sideToMove.flip = p.inner.side := by
      rw [Position.sideToMove, hi]; exact Color.flip_flip _
    have hcnt : hand.cnt pc.kind < 255 := by
      have hlt := zobHand_lt hz
      unfold Hand.count at hn
      simp only [PartialPosition.setHand, if_true] at hn
      split at hn <;> cases hn
      omega
    have hadd := Hand.added_removed hrem hcnt
    unfold Position.undoMove
    simp only [hside, Position.undoDrop, Option.bind_eq_bind, Position.popState, hs,
      List.tail_cons]
    have hh : ((p'.inner.xorPiece K to pc).setPieceAt to none).hands p.inner.side = hand := by
      rw [hi]; simp [PartialPosition.setPieceAt, PartialPosition.setHand]
    rw [hh, hadd]
    simp only [Option.bind_some, Option.pure_def]
    have hp : Position.plySub E p'.inner.ply = some p.inner.ply := by rw [hi]; exact hply'
    have e : (((p'.inner.xorPiece K to pc).setPieceAt to none).setHand p.inner.side
      (((p.inner.xorPiece K to pc).setPieceAt to (some pc)).hands p.inner.side)).ply =
        p'.inner.ply := rfl
    rw [e, hp, Option.bind_some]
    congr 1
    apply Position.eq_of_inner
    apply PartialPosition.ext
    · rfl
    · rfl
    · rw [hi]; funext c
      simp only [PartialPosition.setPieceAt, xorPiece_hands, PartialPosition.setHand]
      split
      · rename_i h; rw [h]
      · rfl
    · rw [hi]; funext s
      simp only [PartialPosition.setPieceAt, xorPiece_board, PartialPosition.setHand]
      by_cases h1 : s = to
      · simp [h1, hempty]
      · simp [h1]
    · funext c
      simp only [PartialPosition.setPieceAt, xorPiece_player hK, hi, PartialPosition.setHand]
      exact xor_cancel _ _
    · funext k
      simp only [PartialPosition.setPieceAt, xorPiece_piece hK, hi, PartialPosition.setHand]
      exact xor_cancel _ _

end Yasai

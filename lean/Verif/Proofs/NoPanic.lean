import Verif.Proofs.Bound593

/-!
# `do_move` of a safe move does not panic
-/

namespace Yasai

open Spec

theorem boardCount_pos {b : Square → Option Piece} {s : Square} {p : Piece} (h : b s = some p) :
    0 < boardCount b (base p.kind) := by
  unfold boardCount
  rw [List.countP_pos_iff]
  refine ⟨s, mem_all s, ?_⟩
  rw [h]
  simp [isBase]

theorem standardCount_le (k : PieceKind) : standardCount k ≤ 18 := by cases k <;> decide

/-- The hand of a position with at most a standard set of pieces. -/
theorem hand_le {P : Pos} (hm : Material P) (c : Color) (k : PieceKind) :
    P.hand c k + boardCount P.board k ≤ 18 := by
  have h1 := hm.1 k
  have h2 := standardCount_le k
  rw [total_eq] at h1
  cases c <;> omega

theorem zobHand_some (E : Env) (c : Color) {k : PieceKind} (hk : k.isHandPiece = true) {n : Nat}
    (hn : n < 18) : ∃ z, E.zobHand c k n = some z := by
  unfold Env.zobHand maxHandNum
  rw [if_pos hn, if_pos hk]
  exact ⟨_, rfl⟩

theorem base_isHand {k : PieceKind} (h : k ≠ .king) : (base k).isHandPiece = true := by
  revert h; cases k <;> decide

theorem count_eq {h : Hand} {k : PieceKind} (hk : k.isHandPiece = true) :
    h.count k = some (h.cnt k) := by
  unfold Hand.count; rw [if_pos hk]

/-- The ply counter can be incremented. -/
def PlyRoom (E : Env) (p : Position) : Prop := E.overflowChecks = true → p.inner.ply ≠ 65535#16

theorem plyAdd_some {E : Env} {p : Position} (h : PlyRoom E p) :
    ∃ n, Position.plyAdd E p.inner.ply = some n := by
  unfold Position.plyAdd
  rw [if_neg]
  · exact ⟨_, rfl⟩
  · rw [Bool.and_eq_true, beq_iff_eq]
    rintro ⟨a, b⟩
    exact h a b

theorem doMove_total (E : Env) {K : Backend} (hK : Lawful K) {p : Position} (hi : Inv K p)
    (hv : Valid p.inner.spec) (hmat : Material p.inner.spec) {m : Move} (hs : Safe p.inner.spec m)
    (hply : PlyRoom E p) : ∃ p', p.doMove E K m = some p' := by
  obtain ⟨b, hb, _⟩ := isCheckMove_spec hK hi hv hs
  obtain ⟨_, st, hst, _⟩ := hi
  obtain ⟨hps, _⟩ := hs
  obtain ⟨ply, hply⟩ := plyAdd_some hply
  have hstate : p.state = some st := hst
  cases m with
  | normal frm to pr =>
    have hnk := fun q hq => no_king_capture hv hps (q := q) hq
    obtain ⟨k, hfrm, hr, hown, h1, h2⟩ := hps
    have hfrm' : p.inner.pieceAt frm = some ⟨k, p.inner.side⟩ := hfrm
    have hcap : ∃ kq, Position.doCapture E K p.inner.side to (p.inner.pieceAt to) st.keys p.inner =
        some kq ∧ kq.2.ply = p.inner.ply := by
      cases hto : p.inner.pieceAt to with
      | none => exact ⟨_, rfl, rfl⟩
      | some cp =>
        have hh := base_isHand (hnk cp hto)
        have hle := hand_le hmat p.inner.side (base cp.kind)
        have hpos := boardCount_pos (b := p.inner.spec.board) (s := to) hto
        have hc : (p.inner.hands p.inner.side).cnt (base cp.kind) < 18 := by
          have : p.inner.spec.hand p.inner.side (base cp.kind) =
              (p.inner.hands p.inner.side).cnt (base cp.kind) := by
            simp only [PartialPosition.spec, count_eq hh, Option.getD_some]
          omega
        obtain ⟨z, hz⟩ := zobHand_some E p.inner.side hh hc
        simp only [Position.doCapture, Option.bind_eq_bind]
        have hcnt : (p.inner.hands p.inner.side).count (cp.kind.unpromote.getD cp.kind) =
            some ((p.inner.hands p.inner.side).cnt (base cp.kind)) := count_eq hh
        have hz' : E.zobHand p.inner.side (cp.kind.unpromote.getD cp.kind)
            ((p.inner.hands p.inner.side).cnt (base cp.kind)) = some z := hz
        rw [hcnt, Option.bind_some, hz', Option.bind_some]
        have hadd : ((p.inner.xorPiece K to cp).hands p.inner.side).added
            (cp.kind.unpromote.getD cp.kind) = some ((p.inner.hands p.inner.side).set (base cp.kind)
              ((p.inner.hands p.inner.side).cnt (base cp.kind) + 1)) := by
          show (p.inner.hands p.inner.side).added (base cp.kind) = _
          unfold Hand.added
          rw [if_pos hh, if_pos (by omega)]
        rw [hadd]
        exact ⟨_, rfl, rfl⟩
    obtain ⟨kq, hkq, hkply⟩ := hcap
    have htarget : ∃ t, Position.targetPiece ⟨k, p.inner.side⟩ pr = some t := by
      cases pr with
      | false => exact ⟨_, rfl⟩
      | true =>
        obtain ⟨k', hk'⟩ := Option.ne_none_iff_exists'.1 (h1 rfl).1
        rw [promoted_eq] at hk'
        refine ⟨⟨k', p.inner.side⟩, ?_⟩
        simp only [Position.targetPiece, if_true, Piece.promote, hk']
    obtain ⟨t, ht⟩ := htarget
    unfold Position.doMove
    simp only [hb, hstate, hfrm', Move.to, Position.sideToMove, Option.bind_eq_bind,
      Option.bind_some, hkq, ht, Position.pushState]
    have : Position.plyAdd E (Position.moveInner K p.inner.side kq.2 frm to ⟨k, p.inner.side⟩ t).ply =
        some ply := by
      rw [← hply, ← hkply]; rfl
    rw [this]
    exact ⟨_, rfl⟩
  | drop to pc =>
    obtain ⟨hc, hh, hpos, hemp, hd, _⟩ := hps
    rw [handKind_eq] at hh
    have hcnt : p.inner.spec.hand p.inner.side pc.kind =
        (p.inner.hands p.inner.side).cnt pc.kind := by
      simp only [PartialPosition.spec, count_eq hh, Option.getD_some]
    have hpos' : 0 < (p.inner.hands p.inner.side).cnt pc.kind := by
      rw [← hcnt]; exact hpos
    have hle := hand_le hmat p.inner.side pc.kind
    have hrem : (p.inner.hands p.inner.side).removed pc.kind =
        some ((p.inner.hands p.inner.side).set pc.kind
          ((p.inner.hands p.inner.side).cnt pc.kind - 1)) := by
      unfold Hand.removed
      rw [if_pos hh, if_pos hpos']
    obtain ⟨z, hz⟩ := zobHand_some E p.inner.side hh
      (n := (p.inner.hands p.inner.side).cnt pc.kind - 1) (by omega)
    unfold Position.doMove
    have hrem' : (((p.inner.xorPiece K to pc).setPieceAt to (some pc)).hands p.inner.side).removed
        pc.kind = _ := hrem
    simp only [hb, hstate, Position.sideToMove, Option.bind_eq_bind, Option.bind_some,
      Position.dropInner, hrem', Option.pure_def]
    have hc2 : ((((p.inner.xorPiece K to pc).setPieceAt to (some pc)).setHand p.inner.side
        ((p.inner.hands p.inner.side).set pc.kind
          ((p.inner.hands p.inner.side).cnt pc.kind - 1))).hands p.inner.side).count pc.kind =
        some ((p.inner.hands p.inner.side).cnt pc.kind - 1) := by
      rw [count_eq hh]
      simp [PartialPosition.setHand, Hand.set]
    simp only [hc2, hz, Option.bind_some, Position.pushState, Option.bind_eq_bind]
    have : Position.plyAdd E (((p.inner.xorPiece K to pc).setPieceAt to (some pc)).setHand
        p.inner.side ((p.inner.hands p.inner.side).set pc.kind
          ((p.inner.hands p.inner.side).cnt pc.kind - 1))).ply = some ply := by
      rw [← hply]; rfl
    simp only [this]
    exact ⟨_, rfl⟩

end Yasai

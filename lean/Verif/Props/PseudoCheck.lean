import Verif.Props.Check

/-!
# C54: `is_check_move` on pseudo-legal moves

C09 is about legal moves.  The generators call `is_check_move` only through `do_move`, but the
function is public and a caller may ask it about a move that leaves its own king in check.  It is
still exact, except that it never counts the mover's own king as a checking piece: a king stepping
next to the enemy king is answered with `false`.
-/

namespace Yasai.Props

open Yasai Spec

/-- The king of `c` is attacked by a piece other than a king. -/
def CheckedByPiece (b : Square → Option Piece) (c : Color) : Prop :=
  ∃ king s k, b king = some ⟨.king, c⟩ ∧ b s = some ⟨k, c.flip⟩ ∧ k ≠ .king ∧
    Reaches (Occ b) k c.flip s king

/-- A board move checks with a piece iff the moved piece, not a king, reaches the enemy king, or the
move uncovers a line. -/
theorem checkedByPiece_normal {b : Square → Option Piece} {c : Color} {king frm to : Square}
    {k0 : PieceKind} {pr : Bool} (hfrm : b frm = some ⟨k0, c⟩)
    (hking : b king = some ⟨.king, c.flip⟩)
    (huniq : ∀ s, b s = some ⟨.king, c.flip⟩ → s = king)
    (hnot : ∀ s, ¬ AttacksFrom b c s king)
    (hreach : Reaches (Occ b) k0 c frm to) :
    CheckedByPiece (movedBoard b frm to ⟨movedKind k0 pr, c⟩) c.flip ↔
      (movedKind k0 pr ≠ .king ∧ Reaches (Occ b) (movedKind k0 pr) c to king) ∨
      (Pinned b c.flip king frm ∧ ¬ (Between king to frm ∨ Between king frm to)) := by
  have hne : frm ≠ to := reaches_ne hreach
  have hkfrm : king ≠ frm := by
    rintro rfl; rw [hking] at hfrm; exact some_piece_flip hfrm.symm
  have hkto : king ≠ to := by
    rintro rfl; exact hnot frm ⟨k0, hfrm, hreach⟩
  have hk' : movedBoard b frm to ⟨movedKind k0 pr, c⟩ king = some ⟨.king, c.flip⟩ := by
    rw [movedBoard_other b _ hkto hkfrm]; exact hking
  have hu' : ∀ x, movedBoard b frm to ⟨movedKind k0 pr, c⟩ x = some ⟨.king, c.flip⟩ →
      x = king := by
    intro x hx
    by_cases h1 : x = to
    · subst h1; rw [movedBoard_to] at hx; exact (some_piece_flip hx).elim
    · by_cases h2 : x = frm
      · subst h2; rw [movedBoard_frm b _ h1] at hx; cases hx
      · rw [movedBoard_other b _ h1 h2] at hx; exact huniq x hx
  by_cases hadj : k0 = .king ∧ Step .king c to king
  · -- a king next to the enemy king
    obtain ⟨rfl, hadj⟩ := hadj
    have hmk : movedKind .king pr = .king := movedKind_king.2 rfl
    have hpath : ∀ u, Between frm u to → ¬ Occ b u := fun u hu => reaches_path hreach hu
    have pin := pin_lemma (c := c.flip) (king := king) (to := to) (b := b)
      (by unfold Occ; rw [hfrm]; simp) hne hpath
    simp only [flip_flip] at pin
    rw [hmk] at hk' hu' ⊢
    simp only [ne_eq, not_true_eq_false, false_and, false_or]
    rw [← pin]
    constructor
    · rintro ⟨x, s, k, h1, h2, h3, h4⟩
      have := hu' x h1
      subst this
      rw [flip_flip] at h2 h4
      have h := (attacksFrom_moved_own hne).1 (⟨k, h2, h4⟩ :
        AttacksFrom (movedBoard b frm to ⟨.king, c⟩) c s x)
      rcases h with ⟨rfl, h⟩ | ⟨e1, e2, k1, hk1, h⟩
      · rw [movedBoard_to] at h2
        cases h2
        exact absurd rfl h3
      · rcases h with h | ⟨h, h'⟩
        · exact absurd ⟨k1, hk1, reaches_iff.2 (.inl h)⟩ (hnot s)
        · exact ⟨s, e1, e2, k1, hk1, h, h', fun hclear =>
            hnot s ⟨k1, hk1, reaches_iff.2 (.inr ⟨h, hclear⟩)⟩⟩
    · rintro ⟨s, e1, e2, k1, hk1, h, h', _⟩
      have : AttacksFrom (movedBoard b frm to ⟨.king, c⟩) c s king :=
        (attacksFrom_moved_own hne).2 (.inr ⟨e1, e2, k1, hk1, .inr ⟨h, h'⟩⟩)
      obtain ⟨k2, h2, h3⟩ := this
      have : k1 = k2 := by
        rw [movedBoard_other b _ e1 e2, hk1] at h2
        cases h2; rfl
      subst this
      refine ⟨king, s, k1, hk', by rw [flip_flip]; exact h2, ?_, by rw [flip_flip]; exact h3⟩
      rintro rfl
      obtain ⟨d, hd, _⟩ := h
      cases hd
  · have hadj' : k0 = .king → ¬ Step .king c to king := fun e h => hadj ⟨e, h⟩
    rw [← check_normal hfrm hking huniq hnot hreach hadj']
    constructor
    · rintro ⟨x, s, k, h1, h2, _, h4⟩
      exact ⟨x, h1, s, k, h2, h4⟩
    · rintro ⟨x, h1, s, k, h2, h4⟩
      refine ⟨x, s, k, h1, h2, ?_, h4⟩
      rintro rfl
      have := hu' x h1
      subst this
      rw [flip_flip] at h2 h4
      have h := (attacksFrom_moved_own hne).1 (⟨.king, h2, h4⟩ :
        AttacksFrom (movedBoard b frm to ⟨movedKind k0 pr, c⟩) c s x)
      rcases h with ⟨rfl, h⟩ | ⟨e1, e2, k1, hk1, h⟩
      · rw [movedBoard_to] at h2
        have hk : movedKind k0 pr = .king := by
          have := Option.some.inj h2
          exact congrArg Piece.kind this
        rw [hk] at h
        rcases h with h | ⟨⟨d, hd, _⟩, _⟩
        · exact hadj' (movedKind_king.1 hk) h
        · cases hd
      · rw [movedBoard_other b _ e1 e2, hk1] at h2
        cases h2
        rcases h with h | ⟨⟨d, hd, _⟩, _⟩
        · exact hnot s ⟨.king, hk1, reaches_iff.2 (.inl h)⟩
        · cases hd

/-- C54.  On every position reached by a game, `is_check_move(m)` of a *pseudo-legal* move, safe or
not, is exactly: after the move the opponent's king is attacked by a piece other than the mover's
king. -/
theorem C54_is_check_move_pseudo (E : Env) (K : Backend) (hK : K ∈ backends)
    (pp : CorePartialPosition) (hv : Valid (rootView pp)) (ms : List Move) (p : Position)
    (h : Reached E K pp ms p) (m : Move) (hm : PseudoLegal (view p) m) :
    ∃ b, p.isCheckMove K m = some b ∧
      (b = true ↔ CheckedByPiece (apply (view p) m).board p.sideToMove.flip) := by
  have L := lawful_of_mem hK
  obtain ⟨⟨hr, st, hst, hai⟩, hv⟩ := reached_inv hK hv h
  have hnot : ∀ king, p.inner.board king = some ⟨.king, p.inner.side.flip⟩ →
      ∀ s, ¬ AttacksFrom p.inner.board p.inner.side s king := by
    intro king hking s hs
    exact hv.notInCheck ⟨king, hking, s, by
      show AttacksFrom p.inner.board p.inner.side.flip.flip s king
      rw [flip_flip]; exact hs⟩
  cases m with
  | normal frm to pr =>
    obtain ⟨k, hfrm, hreach, hown, _⟩ := hm
    have hfrm' : p.inner.board frm = some ⟨k, p.inner.side⟩ := hfrm
    have hsp : movedKind k pr = (if pr then k.promote.getD k else k) := rfl
    rw [apply_normal_board hfrm]
    simp only [Position.isCheckMove, PartialPosition.pieceAt, hfrm', hst, Option.bind_eq_bind,
      Option.bind_some, Position.checkable, hai, AttackInfo.new, L.contains, ← hsp]
    show ∃ b, _ ∧ (b = true ↔ CheckedByPiece
      (movedBoard p.inner.board frm to ⟨movedKind k pr, p.inner.side⟩) p.inner.side.flip)
    have key := fun king (hking : p.inner.board king = some ⟨.king, p.inner.side.flip⟩) =>
      checkedByPiece_normal (pr := pr) hfrm' hking (fun s h => hv.oneKing _ _ _ h hking)
        (hnot king hking) hreach
    by_cases hck : mem (AttackInfo.checkablesOf K p.inner (movedKind k pr)) to = true
    · rw [if_pos hck]
      refine ⟨true, rfl, ?_⟩
      simp only [true_iff]
      rw [mem_checkables L hr hv.loose] at hck
      obtain ⟨king, hking, hkk, hre⟩ := hck
      exact (key king hking).2 (.inl ⟨hkk, hre⟩)
    · rw [if_neg hck]
      rw [mem_checkables L hr hv.loose] at hck
      cases hkp : p.inner.kingPosition K p.inner.side.flip with
      | none =>
        have hnone := (hr.kingPosition_none L _ (hv.oneKing _)).1 hkp
        rw [pinnedOf_none hkp, L.empty, mem_zero]
        refine ⟨false, rfl, ?_⟩
        simp only [Bool.false_eq_true, false_iff]
        rintro ⟨s, _, _, hs, _⟩
        by_cases h1 : s = to
        · subst h1; rw [movedBoard_to] at hs; exact some_piece_flip hs
        · by_cases h2 : s = frm
          · subst h2; rw [movedBoard_frm _ _ h1] at hs; cases hs
          · rw [movedBoard_other _ _ h1 h2] at hs; exact hnone s hs
      | some king =>
        have hking := (hr.kingPosition L _ (hv.oneKing _) king).1 hkp
        rw [key king hking, ← (pinnedOf_spec L hr hkp).2]
        have hno : ¬ (movedKind k pr ≠ .king ∧
            Reaches (Occ p.inner.board) (movedKind k pr) p.inner.side to king) :=
          fun h => hck ⟨king, hking, h⟩
        rw [or_iff_right hno]
        cases hpin : mem (AttackInfo.pinnedOf K p.inner p.inner.side.flip) frm with
        | false => exact ⟨false, rfl, by simp⟩
        | true =>
          refine ⟨_, rfl, ?_⟩
          simp only [true_and, Bool.not_eq_true', ← Bool.not_eq_true, Bool.or_eq_true,
            mem_betweenTable L]
  | drop to pc =>
    obtain ⟨hc, hh, _, hemp, _⟩ := hm
    obtain ⟨k, c⟩ := pc
    have hc : c = p.inner.side := hc
    subst hc
    have hemp : p.inner.board to = none := hemp
    simp only [Position.isCheckMove, hst, Option.bind_eq_bind, Option.bind_some,
      Position.checkable, hai, AttackInfo.new, L.contains]
    refine ⟨_, rfl, ?_⟩
    rw [mem_checkables L hr hv.loose]
    show _ ↔ CheckedByPiece (put p.inner.board to (some ⟨k, p.inner.side⟩)) p.inner.side.flip
    constructor
    · rintro ⟨king, hking, hkk, h⟩
      have hkto : king ≠ to := by rintro rfl; rw [hking] at hemp; cases hemp
      refine ⟨king, to, k, by rw [put_other _ _ hkto]; exact hking, by
        rw [put_same, flip_flip], hkk, ?_⟩
      have hin := (check_drop (k := k) hking (fun s h => hv.oneKing _ _ _ h hking)
        (hnot king hking) hemp).2 h
      rw [flip_flip]
      obtain ⟨x, hx, s, k', hs, hre⟩ := hin
      rw [flip_flip] at hs hre
      have hxk : x = king := by
        by_cases e : x = to
        · subst e; rw [put_same] at hx; exact (some_piece_flip hx).elim
        · rw [put_other _ _ e] at hx; exact hv.oneKing _ _ _ hx hking
      subst hxk
      have := (attacks_after_drop (k := k) (hnot x hking) hemp s).1 ⟨k', hs, hre⟩
      obtain ⟨rfl, _⟩ := this
      rw [put_same] at hs
      cases hs
      exact hre
    · rintro ⟨king, s, k', hking, hs, hk', hre⟩
      have hin : InCheck (put p.inner.board to (some ⟨k, p.inner.side⟩)) p.inner.side.flip :=
        ⟨king, hking, s, k', hs, hre⟩
      have hking' : p.inner.board king = some ⟨.king, p.inner.side.flip⟩ := by
        by_cases e : king = to
        · subst e
          rw [put_same] at hking
          exact (some_piece_flip hking).elim
        · rw [put_other _ _ e] at hking
          exact hking
      refine ⟨king, hking', ?_, ?_⟩
      · rintro rfl; cases hh
      · exact (check_drop hking' (fun s h => hv.oneKing _ _ _ h hking') (hnot king hking') hemp).1
          hin

/-! ## Concrete cases -/

open Yasai.Examples

/-- The black gold on 7c is pinned, and the kings are two squares apart. -/
def faceToFace : CorePartialPosition where
  side := .black
  ply := 5#16
  hands := fun _ => handOf []
  board := boardOf ([
    (5,3,.king,.black),(7,3,.gold,.black),(9,3,.rook,.white),(5,1,.king,.white)])

theorem faceToFace_valid : Valid (rootView faceToFace) := by decide +kernel

/-- The hypotheses are met by moves that leave the mover's king in check: the pinned gold checks
from 6b and the answer is `true`; the king steps next to the enemy king and the answer is `false`,
although the rules count that as an attack. -/
example : ∃ p, Reached env0 CoreBB.backend faceToFace [] p ∧
    PseudoLegal (view p) (.normal (sq 7 3) (sq 6 2) false) ∧
    ¬ Safe (view p) (.normal (sq 7 3) (sq 6 2) false) ∧
    p.isCheckMove CoreBB.backend (.normal (sq 7 3) (sq 6 2) false) = some true ∧
    PseudoLegal (view p) (.normal (sq 5 3) (sq 5 2) false) ∧
    InCheck (apply (view p) (.normal (sq 5 3) (sq 5 2) false)).board .white ∧
    p.isCheckMove CoreBB.backend (.normal (sq 5 3) (sq 5 2) false) = some false := by
  have h : (Position.new env0 CoreBB.backend faceToFace).any (fun p =>
      decide (PseudoLegal (view p) (.normal (sq 7 3) (sq 6 2) false)) &&
      decide (¬ Safe (view p) (.normal (sq 7 3) (sq 6 2) false)) &&
      p.isCheckMove CoreBB.backend (.normal (sq 7 3) (sq 6 2) false) == some true &&
      decide (PseudoLegal (view p) (.normal (sq 5 3) (sq 5 2) false)) &&
      decide (InCheck (apply (view p) (.normal (sq 5 3) (sq 5 2) false)).board .white) &&
      p.isCheckMove CoreBB.backend (.normal (sq 5 3) (sq 5 2) false) == some false) = true := by
    decide +kernel
  simp only [Option.any_eq_true, Bool.and_eq_true, decide_eq_true_eq, beq_iff_eq] at h
  obtain ⟨p, hp, ⟨⟨⟨⟨h1, h2⟩, h3⟩, h4⟩, h5⟩, h6⟩ := h
  exact ⟨p, ⟨p, hp, .start⟩, h1, h2, h3, h4, h5, h6⟩

end Yasai.Props

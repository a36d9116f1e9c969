import Verif.Props.Complete
import Verif.Proofs.NewCheck

/-!
# C66: which checks are recorded, however the position arose
-/

namespace Yasai.Props

open Yasai Spec

/-- After `m` the opponent's king is attacked by a piece, not a king, from a square from which it was
not attacked before.  A piece that steps straight back from the king it attacks is not counted. -/
def NewCheck (P : Pos) (m : Move) : Prop :=
  ∃ king s k, (apply P m).board king = some ⟨.king, P.side.flip⟩ ∧
    (apply P m).board s = some ⟨k, P.side⟩ ∧ k ≠ .king ∧
    Reaches (Occ (apply P m).board) k P.side s king ∧ ¬ AttacksFrom P.board P.side s king ∧
    ∀ frm pr, m = .normal frm s pr → ¬ Between s frm king

/-- The check of which `is_check_move` and `in_check` speak, for the king that `king_position` finds. -/
theorem inCheck_after {E : Env} {K : Backend} (hK : K ∈ backends) {pp : CorePartialPosition}
    {ms : List Move} {p : Position} (h : Wandered E K pp ms p) {m : Move}
    (hm : Unhindered (view p) m) {p' : Position} (hp : p.doMove E K m = some p') :
    ∃ b, p'.inCheck K = some b ∧
      (b = true ↔ ∃ king, p.inner.kingPosition K p.inner.side.flip = some king ∧
        ∃ s k, (apply (view p) m).board s = some ⟨k, p.inner.side⟩ ∧ k ≠ .king ∧
          Reaches (Occ (apply (view p) m).board) k p.inner.side s king ∧
          ¬ AttacksFrom p.inner.board p.inner.side s king ∧
          ∀ frm pr, m = .normal frm s pr → ¬ Between s frm king) := by
  have L := lawful_of_mem hK
  have hr := (h.visited.consistent hK).1
  have hc := h.caches hK
  rw [inCheck_doMove L hr hc hm hp]
  cases m with
  | normal frm to pr =>
    obtain ⟨⟨k, hfrm⟩, hne, hown, hpath⟩ := hm
    have hfrm' : p.inner.board frm = some ⟨k, p.inner.side⟩ := hfrm
    have hown' : ∀ k, p.inner.board to ≠ some ⟨k, p.inner.side⟩ := hown
    obtain ⟨b, hb, hbc⟩ := isCheckMove_normal L hr hc (pr := pr) hfrm' hne hpath
    refine ⟨b, hb, ?_⟩
    rw [hbc]
    refine exists_congr fun king => and_congr_right fun hkp => ?_
    have hking := kingPosition_sound L hr hkp
    rw [apply_normal_board hfrm]
    show _ ↔ ∃ s k',
      movedBoard p.inner.board frm to ⟨movedKind k pr, p.inner.side⟩ s = some ⟨k', p.inner.side⟩ ∧
      k' ≠ .king ∧
      Reaches (Occ (movedBoard p.inner.board frm to ⟨movedKind k pr, p.inner.side⟩)) k'
        p.inner.side s king ∧
      ¬ AttacksFrom p.inner.board p.inner.side s king ∧
      ∀ frm' pr', Move.normal frm to pr = .normal frm' s pr' → ¬ Between s frm' king
    constructor
    · intro hatt
      rcases hatt with ⟨hkk, hre⟩ | ⟨s, f1, f2, k1, hk1, hsl, hcl, hblk⟩
      · refine ⟨to, movedKind k pr, movedBoard_to .., hkk, reaches_moved.2 ?_, ?_, ?_⟩
        · rcases reaches_iff.1 hre with h | ⟨h, h2⟩
          · exact .inl h
          · refine .inr ⟨h, fun u hu => ⟨?_, .inr (h2 u hu)⟩⟩
            rintro rfl
            exact between_ne_left hu rfl
        · rintro ⟨k', hk', _⟩; exact hown' _ hk'
        · intro frm' pr' e hbt
          cases e
          exact reaches_path hre hbt (by unfold Occ; rw [hfrm']; simp)
      · refine ⟨s, k1, by rw [movedBoard_other _ _ f1 f2]; exact hk1, ?_,
          reaches_moved.2 (.inr ⟨hsl, hcl⟩), ?_, ?_⟩
        · rintro rfl
          obtain ⟨d, hd, _⟩ := hsl
          cases hd
        · rintro ⟨k', hk', hre⟩
          exact hblk fun u hu => reaches_path hre hu
        · intro frm' pr' e; cases e; exact absurd rfl f1
    · rintro ⟨s, k', hs, hkk, hre, hnew, hback⟩
      rw [reaches_moved] at hre
      by_cases f1 : s = to
      · subst f1
        rw [movedBoard_to] at hs
        cases hs
        refine .inl ⟨hkk, reaches_iff.2 ?_⟩
        rcases hre with h | ⟨h, h2⟩
        · exact .inl h
        · refine .inr ⟨h, fun u hu => ?_⟩
          rcases (h2 u hu).2 with rfl | h3
          · exact absurd hu (hback _ _ rfl)
          · exact h3
      · have f2 : s ≠ frm := by
          rintro rfl; rw [movedBoard_frm _ _ f1] at hs; cases hs
        rw [movedBoard_other _ _ f1 f2] at hs
        rcases hre with h | ⟨h, h2⟩
        · exact absurd ⟨k', hs, reaches_iff.2 (.inl h)⟩ hnew
        · exact .inr ⟨s, f1, f2, k', hs, h, h2, fun hcl =>
            hnew ⟨k', hs, reaches_iff.2 (.inr ⟨h, hcl⟩)⟩⟩
  | drop to pc =>
    obtain ⟨hside, hh, hemp⟩ := hm
    obtain ⟨k, c⟩ := pc
    have hside : c = p.inner.side := hside
    subst hside
    have hemp : p.inner.board to = none := hemp
    obtain ⟨st, hst, hcb, _⟩ := hc
    simp only [Position.isCheckMove, hst, Option.bind_eq_bind, Option.bind_some, Option.pure_def,
      Position.checkable, L.contains, hcb]
    refine ⟨_, rfl, ?_⟩
    show _ ↔ ∃ king, p.inner.kingPosition K p.inner.side.flip = some king ∧ ∃ s k',
      put p.inner.board to (some ⟨k, p.inner.side⟩) s = some ⟨k', p.inner.side⟩ ∧ k' ≠ .king ∧
      Reaches (Occ (put p.inner.board to (some ⟨k, p.inner.side⟩))) k' p.inner.side s king ∧
      ¬ AttacksFrom p.inner.board p.inner.side s king ∧
      ∀ frm' pr', Move.drop to ⟨k, p.inner.side⟩ = .normal frm' s pr' → ¬ Between s frm' king
    constructor
    · intro hck
      cases hkp : p.inner.kingPosition K p.inner.side.flip with
      | none => rw [checkablesOf_none hkp, L.empty, mem_zero] at hck; cases hck
      | some king =>
        obtain ⟨hkk, hre⟩ := ((checkablesOf_spec L hr hkp k).2 to).1 hck
        refine ⟨king, rfl, to, k, put_same .., hkk, ?_, ?_, ?_⟩
        · rw [reaches_put]
          rcases reaches_iff.1 hre with h | ⟨h, h2⟩
          · exact .inl h
          · refine .inr ⟨h, fun u hu => ⟨?_, h2 u hu⟩⟩
            rintro rfl
            exact between_ne_left hu rfl
        · rintro ⟨k', hk', _⟩; rw [hemp] at hk'; cases hk'
        · intro _ _ e; cases e
    · rintro ⟨king, hkp, s, k', hs, hkk, hre, hnew, _⟩
      have hre' : Reaches (Occ p.inner.board) k' p.inner.side s king := by
        rw [reaches_put] at hre
        rw [reaches_iff]
        rcases hre with h | ⟨h, h2⟩
        · exact .inl h
        · exact .inr ⟨h, fun u hu => (h2 u hu).2⟩
      by_cases f1 : s = to
      · subst f1
        rw [put_same] at hs
        cases hs
        exact ((checkablesOf_spec L hr hkp k).2 s).2 ⟨hkk, hre'⟩
      · rw [put_other _ _ f1] at hs
        exact absurd ⟨k', hs, hre'⟩ hnew

/-- A move that does not panic leaves the opponent's kings where they are. -/
theorem kings_kept {E : Env} {K : Backend} {p p' : Position} {m : Move} (hm : Unhindered (view p) m)
    (hp : p.doMove E K m = some p') (s : Square) :
    (apply (view p) m).board s = some ⟨.king, p.inner.side.flip⟩ ↔
      p.inner.board s = some ⟨.king, p.inner.side.flip⟩ := by
  cases m with
  | normal frm to pr =>
    obtain ⟨⟨k, hfrm⟩, hne, _, _⟩ := hm
    have hfrm' : p.inner.board frm = some ⟨k, p.inner.side⟩ := hfrm
    have hnk : p.inner.board to ≠ some ⟨.king, p.inner.side.flip⟩ := by
      intro e
      obtain ⟨isCheck, st, piece, kq, target, ply, _, hst, hpiece, hcap, _⟩ := doMove_normal hp
      rw [e] at hcap
      obtain ⟨z, hand, _, hadd, _⟩ := doCapture_some hcap
      have : (PieceKind.king.unpromote.getD .king).isHandPiece = false := rfl
      unfold Hand.added at hadd
      rw [if_neg (by rw [this]; simp)] at hadd
      cases hadd
    rw [apply_normal_board hfrm]
    show movedBoard p.inner.board frm to ⟨movedKind k pr, p.inner.side⟩ s = _ ↔ _
    by_cases e1 : s = to
    · subst e1
      rw [movedBoard_to]
      exact ⟨fun h => (some_piece_flip h).elim, fun h => absurd h hnk⟩
    · by_cases e2 : s = frm
      · subst e2
        rw [movedBoard_frm _ _ e1, hfrm']
        exact ⟨fun h => by simp at h, fun h => (some_piece_flip h).elim⟩
      · rw [movedBoard_other _ _ e1 e2]
  | drop to pc =>
    obtain ⟨hside, hh, hemp⟩ := hm
    obtain ⟨k, c⟩ := pc
    have hside : c = p.inner.side := hside
    subst hside
    have hemp : p.inner.board to = none := hemp
    show put p.inner.board to (some ⟨k, p.inner.side⟩) s = _ ↔ _
    by_cases e : s = to
    · subst e
      rw [put_same, hemp]
      exact ⟨fun h => (some_piece_flip h).elim, fun h => by cases h⟩
    · rw [put_other _ _ e]

/-- C66.  Whatever pseudo-legal moves were made, with any number of kings: what `is_check_move` says
of a pseudo-legal move is what `in_check` answers after it. -/
theorem C66_in_check_is_is_check_move (E : Env) (K : Backend) (hK : K ∈ backends)
    (pp : CorePartialPosition) (ms : List Move) (p : Position) (h : Roamed E K pp ms p) (m : Move)
    (hm : PseudoLegal (view p) m) (p' : Position) (hp : p.doMove E K m = some p') :
    p'.inCheck K = p.isCheckMove K m :=
  inCheck_doMove (lawful_of_mem hK) (h.visited.consistent hK).1 (h.caches hK)
    (unhindered_of_pseudoLegal hm) hp

/-- C66.  With at most one king a side, it says whether the move gives a new check. -/
theorem C66_in_check_reports_new_checks (E : Env) (K : Backend) (hK : K ∈ backends)
    (pp : CorePartialPosition)
    (hv : ∀ c s t, (rootView pp).board s = some ⟨.king, c⟩ →
      (rootView pp).board t = some ⟨.king, c⟩ → s = t)
    (ms : List Move) (p : Position) (h : Roamed E K pp ms p) (m : Move)
    (hm : PseudoLegal (view p) m) (p' : Position) (hp : p.doMove E K m = some p') :
    ∃ b, p'.inCheck K = some b ∧ (b = true ↔ NewCheck (view p) m) := by
  have L := lawful_of_mem hK
  have hr := (h.visited.consistent hK).1
  have h1 : ∀ c s t, p.inner.board s = some ⟨.king, c⟩ → p.inner.board t = some ⟨.king, c⟩ → s = t :=
    h.oneKing hK hv
  have hu := unhindered_of_pseudoLegal hm
  obtain ⟨b, hb, hbc⟩ := inCheck_after hK h.wandered hu hp
  refine ⟨b, hb, hbc.trans ?_⟩
  constructor
  · rintro ⟨king, hkp, s, k, hrest⟩
    exact ⟨king, s, k, (kings_kept hu hp king).2 (kingPosition_sound L hr hkp), hrest⟩
  · rintro ⟨king, s, k, hking, hrest⟩
    exact ⟨king, (hr.kingPosition L _ (h1 _) king).2 ((kings_kept hu hp king).1 hking), s, k, hrest⟩

section
open Examples

/-- White, to move, already attacks Black's king with the rook; the gold hides the bishop. -/
def attacking : CorePartialPosition where
  side := .white
  ply := 1#16
  hands := fun _ => handOf [(.gold, 1)]
  board := boardOf [(5,9,.king,.black),(5,2,.rook,.white),(9,5,.bishop,.white),(7,7,.gold,.white),
    (1,1,.king,.white)]

/-- What is reported after five moves of White: a check uncovered, a check by a drop, the rook coming
nearer, the rook stepping back, the king moving.  Black's king is attacked after each of them. -/
theorem C66_attacking_reports :
    [Move.normal (sq 7 7) (sq 7 6) false, .drop (sq 5 8) ⟨.gold, .white⟩,
      .normal (sq 5 2) (sq 5 3) false, .normal (sq 5 2) (sq 5 1) false,
      .normal (sq 1 1) (sq 1 2) false].map
      (fun m => (Position.new env0 CoreBB.backend attacking).bind fun p =>
        (p.doMove env0 CoreBB.backend m).bind fun p' => (p'.inCheck CoreBB.backend).map fun b =>
          (decide (PseudoLegal (view p) m), decide (InCheck p'.pieceAt p'.sideToMove), b)) =
    [some (true, true, true), some (true, true, true), some (true, true, true),
      some (true, true, false), some (true, true, false)] := by
  decide +kernel

/-- The hypotheses of C66 hold of the uncovered check, which is therefore a new check. -/
example : ∃ p p', Roamed env0 CoreBB.backend attacking [] p ∧
    PseudoLegal (view p) (.normal (sq 7 7) (sq 7 6) false) ∧
    p.doMove env0 CoreBB.backend (.normal (sq 7 7) (sq 7 6) false) = some p' ∧
    NewCheck (view p) (.normal (sq 7 7) (sq 7 6) false) := by
  have h : (Position.new env0 CoreBB.backend attacking).any (fun p =>
      decide (PseudoLegal (view p) (.normal (sq 7 7) (sq 7 6) false)) &&
      (p.doMove env0 CoreBB.backend (.normal (sq 7 7) (sq 7 6) false)).any fun p' =>
        p'.inCheck CoreBB.backend == some true) = true := by
    decide +kernel
  simp only [Option.any_eq_true, Bool.and_eq_true, beq_iff_eq, decide_eq_true_eq] at h
  obtain ⟨p, hp, h1, p', hp', h2⟩ := h
  have hv : Tame (rootView attacking) := by decide +kernel
  have hR : Roamed env0 CoreBB.backend attacking [] p := ⟨p, hp, .start⟩
  refine ⟨p, p', hR, h1, hp', ?_⟩
  obtain ⟨b, hb, hbc⟩ :=
    C66_in_check_reports_new_checks env0 _ core_mem attacking hv.oneKing [] p hR _ h1 p' hp'
  rw [h2] at hb
  cases hb
  exact hbc.1 rfl

end

end Yasai.Props

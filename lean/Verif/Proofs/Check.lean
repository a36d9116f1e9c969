import Verif.Proofs.Safety

/-!
# Checks given by a move, and validity of the position after a safe move
-/

namespace Yasai

open Spec

theorem movedKind_cases (k : PieceKind) (pr : Bool) :
    movedKind k pr = k ∨ k.promote = some (movedKind k pr) := by
  cases k <;> cases pr <;> simp [movedKind, promoted, PieceKind.promote]

theorem slides_movedKind {k : PieceKind} {pr : Bool} {d : Int × Int}
    (h : d ∈ slides (movedKind k pr)) : d ∈ slides k := by
  revert h
  cases k <;> cases pr <;> simp [movedKind, promoted, slides]

theorem slide_movedKind {k : PieceKind} {pr : Bool} {c : Color} {s t : Square}
    (h : Slide (movedKind k pr) c s t) : Slide k c s t := by
  obtain ⟨d, hd, h⟩ := h
  exact ⟨d, slides_movedKind hd, h⟩

theorem movedKind_king {k : PieceKind} {pr : Bool} : movedKind k pr = .king ↔ k = .king := by
  cases k <;> cases pr <;> simp [movedKind, promoted]

/-- Attackers of the mover's colour after a board move. -/
theorem attacksFrom_moved_own {b : Square → Option Piece} {c : Color} {frm to t s : Square}
    {k' : PieceKind} (hne : frm ≠ to) :
    AttacksFrom (movedBoard b frm to ⟨k', c⟩) c s t ↔
      (s = to ∧ (Step k' c to t ∨
        (Slide k' c to t ∧ ∀ u, Between to u t → u = frm ∨ ¬ Occ b u))) ∨
      (s ≠ to ∧ s ≠ frm ∧ ∃ k, b s = some ⟨k, c⟩ ∧ (Step k c s t ∨
        (Slide k c s t ∧ ∀ u, Between s u t → u ≠ to ∧ (u = frm ∨ ¬ Occ b u)))) := by
  unfold AttacksFrom
  simp only [reaches_moved]
  by_cases h1 : s = to
  · subst h1
    simp only [movedBoard_to, ne_eq, not_true_eq_false, false_and, or_false, true_and]
    constructor
    · rintro ⟨k, e, h⟩
      cases e
      rcases h with h | ⟨h, h'⟩
      · exact .inl h
      · exact .inr ⟨h, fun u hu => (h' u hu).2⟩
    · rintro (h | ⟨h, h'⟩)
      · exact ⟨k', rfl, .inl h⟩
      · exact ⟨k', rfl, .inr ⟨h, fun u hu => ⟨(between_ne_left hu).symm, h' u hu⟩⟩⟩
  · by_cases h2 : s = frm
    · subst h2
      simp [movedBoard_frm b _ h1, h1]
    · simp [movedBoard_other b _ h1 h2, h1, h2]

/-- A board move gives check iff the moved piece reaches the enemy king over the old board, or it
uncovers a line. -/
theorem check_normal {b : Square → Option Piece} {c : Color} {king frm to : Square}
    {k0 : PieceKind} {pr : Bool} (hfrm : b frm = some ⟨k0, c⟩)
    (hking : b king = some ⟨.king, c.flip⟩)
    (huniq : ∀ s, b s = some ⟨.king, c.flip⟩ → s = king)
    (hnot : ∀ s, ¬ AttacksFrom b c s king)
    (hreach : Reaches (Occ b) k0 c frm to)
    (hadj : k0 = .king → ¬ Step .king c to king) :
    InCheck (movedBoard b frm to ⟨movedKind k0 pr, c⟩) c.flip ↔
      (movedKind k0 pr ≠ .king ∧ Reaches (Occ b) (movedKind k0 pr) c to king) ∨
      (Pinned b c.flip king frm ∧ ¬ (Between king to frm ∨ Between king frm to)) := by
  have hne : frm ≠ to := reaches_ne hreach
  have hocc : Occ b frm := by unfold Occ; rw [hfrm]; simp
  have hpath : ∀ u, Between frm u to → ¬ Occ b u := fun u hu => reaches_path hreach hu
  have hkfrm : king ≠ frm := by
    rintro rfl; rw [hking] at hfrm; exact some_piece_flip hfrm.symm
  have hkto : king ≠ to := by
    rintro rfl; exact hnot frm ⟨k0, hfrm, hreach⟩
  have hin : InCheck (movedBoard b frm to ⟨movedKind k0 pr, c⟩) c.flip ↔
      ∃ s, AttacksFrom (movedBoard b frm to ⟨movedKind k0 pr, c⟩) c s king := by
    have := inCheck_iff (b := movedBoard b frm to ⟨movedKind k0 pr, c⟩) (c := c.flip) (king := king)
      (by rw [movedBoard_other b _ hkto hkfrm]; exact hking)
      (by
        intro x hx
        by_cases h1 : x = to
        · subst h1; rw [movedBoard_to] at hx; exact (some_piece_flip hx).elim
        · by_cases h2 : x = frm
          · subst h2; rw [movedBoard_frm b _ h1] at hx; cases hx
          · rw [movedBoard_other b _ h1 h2] at hx; exact huniq x hx)
    rw [flip_flip] at this
    exact this
  rw [hin]
  simp only [attacksFrom_moved_own hne]
  have pin := pin_lemma (c := c.flip) (king := king) hocc hne hpath
  simp only [flip_flip] at pin
  constructor
  · rintro ⟨s, ⟨rfl, h⟩ | ⟨h1, h2, k, hk, h⟩⟩
    · left
      refine ⟨fun hk => ?_, ?_⟩
      · rw [hk] at h
        rcases h with h | h
        · exact hadj (movedKind_king.1 hk) h
        · exact not_slide' h.1
      · rw [reaches_iff]
        rcases h with h | ⟨h, h'⟩
        · exact .inl h
        · refine .inr ⟨h, fun u hu ho => ?_⟩
          rcases h' u hu with rfl | h2
          · -- the piece would have attacked the king before the move
            refine hnot u ⟨k0, hfrm, reaches_iff.2 (.inr
              ⟨slide_movedKind (slide_between_right h hu), fun v hv hvo => ?_⟩)⟩
            have hv' := between_outer hu hv
            rcases h' v hv' with rfl | h3
            · exact between_ne_left hv rfl
            · exact h3 hvo
          · exact h2 ho
    · right
      rcases h with h | ⟨h, h'⟩
      · exact absurd ⟨k, hk, reaches_iff.2 (.inl h)⟩ (hnot s)
      · refine pin.1 ⟨s, h1, h2, k, hk, h, h', fun hclear => ?_⟩
        exact hnot s ⟨k, hk, reaches_iff.2 (.inr ⟨h, hclear⟩)⟩
  · rintro (⟨_, h⟩ | h)
    · refine ⟨to, .inl ⟨rfl, ?_⟩⟩
      rw [reaches_iff] at h
      rcases h with h | ⟨h, h'⟩
      · exact .inl h
      · exact .inr ⟨h, fun u hu => .inr (h' u hu)⟩
    · obtain ⟨s, h1, h2, k, hk, hs, h3, _⟩ := pin.2 h
      exact ⟨s, .inr ⟨h1, h2, k, hk, .inr ⟨hs, h3⟩⟩⟩
where
  not_slide' {c : Color} {s t : Square} (h : Slide .king c s t) : False := by
    obtain ⟨d, hd, _⟩ := h
    cases hd

/-- The attackers of the enemy king after a drop are the dropped piece, if it reaches the king. -/
theorem attacks_after_drop {b : Square → Option Piece} {c : Color} {king to : Square}
    {k : PieceKind} (hnot : ∀ s, ¬ AttacksFrom b c s king) (hto : b to = none) (s : Square) :
    AttacksFrom (put b to (some ⟨k, c⟩)) c s king ↔ s = to ∧ Reaches (Occ b) k c to king := by
  unfold AttacksFrom
  simp only [reaches_put]
  by_cases h1 : s = to
  · subst h1
    rw [put_same]
    rw [reaches_iff]
    constructor
    · rintro ⟨k', e, h⟩
      cases e
      refine ⟨rfl, ?_⟩
      rcases h with h | ⟨h, h'⟩
      · exact .inl h
      · exact .inr ⟨h, fun u hu => (h' u hu).2⟩
    · rintro ⟨_, h | ⟨h, h'⟩⟩
      · exact ⟨k, rfl, .inl h⟩
      · exact ⟨k, rfl, .inr ⟨h, fun u hu => ⟨(between_ne_left hu).symm, h' u hu⟩⟩⟩
  · rw [put_other b _ h1]
    simp only [h1, false_and, iff_false]
    rintro ⟨k', hk, h⟩
    refine hnot s ⟨k', hk, reaches_iff.2 ?_⟩
    rcases h with h | ⟨h, h'⟩
    · exact .inl h
    · exact .inr ⟨h, fun u hu => (h' u hu).2⟩

/-- A drop gives check iff the dropped piece reaches the enemy king. -/
theorem check_drop {b : Square → Option Piece} {c : Color} {king to : Square}
    {k : PieceKind} (hking : b king = some ⟨.king, c.flip⟩)
    (huniq : ∀ s, b s = some ⟨.king, c.flip⟩ → s = king)
    (hnot : ∀ s, ¬ AttacksFrom b c s king) (hto : b to = none) :
    InCheck (put b to (some ⟨k, c⟩)) c.flip ↔ Reaches (Occ b) k c to king := by
  have hkto : king ≠ to := by rintro rfl; rw [hking] at hto; cases hto
  have := inCheck_iff (b := put b to (some ⟨k, c⟩)) (c := c.flip) (king := king)
    (by rw [put_other b _ hkto]; exact hking)
    (by
      intro x hx
      by_cases h1 : x = to
      · subst h1; rw [put_same] at hx; exact (some_piece_flip hx).elim
      · rw [put_other b _ h1] at hx; exact huniq x hx)
  rw [flip_flip] at this
  rw [this]
  simp only [attacks_after_drop hnot hto]
  exact ⟨fun ⟨_, _, h⟩ => h, fun h => ⟨to, rfl, h⟩⟩

/-- A valid position is loose. -/
theorem _root_.Yasai.Spec.Valid.loose {P : Pos} (hv : Valid P) : Loose P := by
  refine ⟨hv.oneKing, fun c s t hs ht hr => ?_, hv.homePawn, hv.noDeadPawn⟩
  have hst : Step .king c s t := by
    rw [reaches_iff] at hr
    rcases hr with h | h
    · exact h
    · obtain ⟨d, hd, _⟩ := h.1
      cases hd
  by_cases hc : c = P.side
  · subst hc
    refine kings_apart (c := P.side) hv.notInCheck hs ht ?_
    exact step_symm hst
  · have hc' : c = P.side.flip := by
      revert hc; cases c <;> cases P.side <;> simp [Color.flip]
    subst hc'
    rw [flip_flip] at ht
    exact kings_apart (c := P.side) hv.notInCheck ht hs hst

instance {P : Pos} : Coe (Valid P) (Loose P) := ⟨Valid.loose⟩

theorem _root_.Yasai.Spec.Loose.tame {P : Pos} (hv : Loose P) : Tame P :=
  ⟨hv.oneKing, hv.homePawn, hv.noDeadPawn⟩

instance {P : Pos} : Coe (Loose P) (Tame P) := ⟨Loose.tame⟩

/-- A pseudo-legal move in a valid position never captures a king. -/
theorem no_king_capture {P : Pos} (hv : Valid P) {frm to : Square} {pr : Bool}
    (h : PseudoLegal P (.normal frm to pr)) {q : Piece} (hq : P.board to = some q) :
    q.kind ≠ .king := by
  intro hk
  obtain ⟨k, hfrm, hr, hown, _⟩ := h
  have hc : q.color = P.side.flip := by
    have := hown q hq
    revert this; cases q.color <;> cases P.side <;> simp [Color.flip]
  apply hv.notInCheck
  refine ⟨to, ?_, frm, k, ?_, ?_⟩
  · rw [hq, ← hk, ← hc]
  · rw [flip_flip]; exact hfrm
  · rw [flip_flip]; exact hr

theorem apply_normal_board {P : Pos} {frm to : Square} {pr : Bool} {k : PieceKind} {c : Color}
    (h : P.board frm = some ⟨k, c⟩) :
    (apply P (.normal frm to pr)).board = movedBoard P.board frm to ⟨movedKind k pr, c⟩ := by
  unfold apply movedBoard
  simp only [h]

theorem apply_normal_side {P : Pos} {frm to : Square} {pr : Bool} {k : PieceKind} {c : Color}
    (h : P.board frm = some ⟨k, c⟩) :
    (apply P (.normal frm to pr)).side = P.side.flip := by
  unfold apply
  simp only [h]

theorem movedKind_pawn {k : PieceKind} {pr : Bool} : movedKind k pr = .pawn ↔
    k = .pawn ∧ pr = false := by
  cases k <;> cases pr <;> simp [movedKind, promoted]

/-- A safe move in a valid position leads to a valid position. -/
theorem valid_apply {P : Pos} (hv : Valid P) {m : Move} (hs : Safe P m) : Valid (apply P m) := by
  obtain ⟨hp, hsafe⟩ := hs
  cases m with
  | normal frm to pr =>
    have hcap := fun q hq => no_king_capture hv hp (q := q) hq
    obtain ⟨k, hfrm, hr, hown, hpr, hdead⟩ := hp
    have hne := reaches_ne hr
    rw [apply_normal_board hfrm] at hsafe
    refine ⟨?_, ?_, ?_, ?_⟩
    · rw [apply_normal_board hfrm]
      intro c s t h1 h2
      have key : ∀ s, movedBoard P.board frm to ⟨movedKind k pr, P.side⟩ s = some ⟨.king, c⟩ →
          (s = to ∧ k = .king ∧ c = P.side) ∨ (s ≠ frm ∧ P.board s = some ⟨.king, c⟩) := by
        intro s h
        by_cases e1 : s = to
        · subst e1
          rw [movedBoard_to] at h
          simp only [Option.some.injEq, Piece.mk.injEq] at h
          exact .inl ⟨rfl, movedKind_king.1 h.1, h.2.symm⟩
        · by_cases e2 : s = frm
          · subst e2; rw [movedBoard_frm _ _ e1] at h; cases h
          · rw [movedBoard_other _ _ e1 e2] at h; exact .inr ⟨e2, h⟩
      rcases key s h1 with ⟨a1, a2, a3⟩ | ⟨a1, a2⟩ <;> rcases key t h2 with ⟨b1, b2, b3⟩ | ⟨b1, b2⟩
      · rw [a1, b1]
      · subst a2 a3; exact absurd (hv.oneKing _ _ _ b2 hfrm) b1
      · subst b2 b3; exact absurd (hv.oneKing _ _ _ a2 hfrm) a1
      · exact hv.oneKing c s t a2 b2
    · rw [apply_normal_board hfrm, apply_normal_side hfrm, flip_flip]
      exact hsafe
    · rw [apply_normal_board hfrm]
      intro c s t h1 h2 hf hhome
      have key : ∀ s, movedBoard P.board frm to ⟨movedKind k pr, P.side⟩ s = some ⟨.pawn, c⟩ →
          (s = to ∧ k = .pawn ∧ c = P.side ∧ to.file = frm.file ∧ ¬ HomeRank P.side to) ∨
          (s ≠ frm ∧ P.board s = some ⟨.pawn, c⟩) := by
        intro s h
        by_cases e1 : s = to
        · subst e1
          rw [movedBoard_to] at h
          simp only [Option.some.injEq, Piece.mk.injEq] at h
          have := (movedKind_pawn.1 h.1).1
          subst this
          refine .inl ⟨rfl, rfl, h.2.symm, ?_⟩
          rcases hr with ⟨d, hd, h⟩ | ⟨d, hd, _⟩
          · have : d = (0, 1) := by simpa [steps] using hd
            subst this
            obtain ⟨e1, e2⟩ := h
            simp only [Int.add_zero] at e1
            refine ⟨by omega, ?_⟩
            have b1 := frm.rank_le
            have b2 := frm.rank_pos
            unfold HomeRank
            cases hs : P.side <;> simp only [hs, fwd] at e2 ⊢ <;> omega
          · cases hd
        · by_cases e2 : s = frm
          · subst e2; rw [movedBoard_frm _ _ e1] at h; cases h
          · rw [movedBoard_other _ _ e1 e2] at h; exact .inr ⟨e2, h⟩
      rcases key s h1 with ⟨a1, a2, a3, a4, a5⟩ | ⟨a1, a2⟩
      · subst a1 a3; exact absurd hhome a5
      rcases key t h2 with ⟨b1, b2, b3, b4, _⟩ | ⟨b1, b2⟩
      · subst b2 b3
        exact absurd (hv.homePawn _ _ _ a2 hfrm (by rw [hf, b1, b4]) hhome) a1
      · exact hv.homePawn c s t a2 b2 hf hhome
    · rw [apply_normal_board hfrm]
      intro c s h
      by_cases e1 : s = to
      · subst e1
        rw [movedBoard_to] at h
        simp only [Option.some.injEq, Piece.mk.injEq] at h
        obtain ⟨h1, h2⟩ := movedKind_pawn.1 h.1
        have := hdead h2
        rw [h1] at this
        rw [← h.2]; exact this
      · by_cases e2 : s = frm
        · subst e2; rw [movedBoard_frm _ _ e1] at h; cases h
        · rw [movedBoard_other _ _ e1 e2] at h; exact hv.noDeadPawn c s h
  | drop to p =>
    obtain ⟨hc, hh, _, hemp, hdead, htwo⟩ := hp
    have hkey : ∀ s (r : Piece), (apply P (.drop to p)).board s = some r →
        (s = to ∧ r = p) ∨ (s ≠ to ∧ P.board s = some r) := by
      intro s r h
      by_cases e1 : s = to
      · subst e1
        simp only [apply, put_same, Option.some.injEq] at h
        exact .inl ⟨rfl, h.symm⟩
      · simp only [apply, put_other _ _ e1] at h
        exact .inr ⟨e1, h⟩
    refine ⟨?_, ?_, ?_, ?_⟩
    · intro c s t h1 h2
      have hnk : ∀ c, (⟨.king, c⟩ : Piece) ≠ p := by
        rintro c rfl; cases hh
      rcases hkey s _ h1 with ⟨_, a⟩ | ⟨_, a⟩
      · exact absurd a (hnk c)
      · rcases hkey t _ h2 with ⟨_, a'⟩ | ⟨_, a'⟩
        · exact absurd a' (hnk c)
        · exact hv.oneKing c s t a a'
    · show ¬ InCheck _ P.side.flip.flip
      rw [flip_flip]; exact hsafe
    · intro c s t h1 h2 hf hhome
      rcases hkey s _ h1 with ⟨a1, a2⟩ | ⟨a1, a2⟩ <;> rcases hkey t _ h2 with ⟨b1, b2⟩ | ⟨b1, b2⟩
      · rw [a1, b1]
      · subst a2
        have hc : c = P.side := hc
        subst hc
        exact absurd b2 (htwo rfl t (by rw [← hf, a1]))
      · subst b2
        have hc : c = P.side := hc
        subst hc
        exact absurd a2 (htwo rfl s (by rw [hf, b1]))
      · exact hv.homePawn c s t a2 b2 hf hhome
    · intro c s h
      rcases hkey s _ h with ⟨a1, a2⟩ | ⟨a1, a2⟩
      · subst a1 a2
        have hc : c = P.side := hc
        subst hc
        exact hdead
      · exact hv.noDeadPawn c s a2

end Yasai

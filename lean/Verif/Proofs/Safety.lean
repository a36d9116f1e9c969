import Verif.Proofs.Geometry

/-!
# King safety after a move, on the level of the rules
-/

namespace Yasai

open Spec

/-! The tables of kinds of the rules are those of `shogi_core`. -/

theorem promoted_eq (k : PieceKind) : promoted k = k.promote := by cases k <;> rfl
theorem demoted_eq (k : PieceKind) : demoted k = k.unpromote := by cases k <;> rfl
theorem handKind_eq (k : PieceKind) : handKind k = k.isHandPiece := by cases k <;> rfl

/-- `s` holds a slider of the colour opposite to `c` aimed at the square `king` (blockers
ignored). -/
def Sniper (b : Square → Option Piece) (c : Color) (king s : Square) : Prop :=
  ∃ k, b s = some ⟨k, c.flip⟩ ∧ Slide k c.flip s king

/-- `x` is the only piece between the king square and some sniper. -/
def Pinned (b : Square → Option Piece) (c : Color) (king x : Square) : Prop :=
  ∃ s, Sniper b c king s ∧ Between king x s ∧ Occ b x ∧
    ∀ u, Between king u s → Occ b u → u = x

/-- The board after moving the contents of `frm` away and putting `pc` on `to`. -/
def movedBoard (b : Square → Option Piece) (frm to : Square) (pc : Piece) :
    Square → Option Piece := put (put b frm none) to (some pc)

theorem movedBoard_to (b : Square → Option Piece) (frm to : Square) (pc : Piece) :
    movedBoard b frm to pc to = some pc := by simp [movedBoard, put]

theorem movedBoard_frm (b : Square → Option Piece) {frm to : Square} (pc : Piece)
    (h : frm ≠ to) : movedBoard b frm to pc frm = none := by simp [movedBoard, put, h]

theorem movedBoard_other (b : Square → Option Piece) {frm to s : Square} (pc : Piece)
    (h1 : s ≠ to) (h2 : s ≠ frm) : movedBoard b frm to pc s = b s := by
  simp [movedBoard, put, h1, h2]

theorem occ_movedBoard {b : Square → Option Piece} {frm to u : Square} {pc : Piece} :
    Occ (movedBoard b frm to pc) u ↔ u = to ∨ (u ≠ frm ∧ Occ b u) := by
  unfold Occ
  by_cases h1 : u = to
  · subst h1; simp [movedBoard_to]
  · by_cases h2 : u = frm
    · subst h2; simp [movedBoard_frm b pc h1, h1]
    · simp [movedBoard_other b pc h1 h2, h1, h2]

theorem put_same (b : Square → Option Piece) (s : Square) (v : Option Piece) : put b s v s = v := by
  simp [put]

theorem put_other (b : Square → Option Piece) {s u : Square} (v : Option Piece) (h : u ≠ s) :
    put b s v u = b u := by
  simp [put, h]

theorem occ_put {b : Square → Option Piece} {to u : Square} {pc : Piece} :
    Occ (put b to (some pc)) u ↔ u = to ∨ Occ b u := by
  unfold Occ
  by_cases h1 : u = to
  · subst h1; simp [put_same]
  · simp [put_other b _ h1, h1]

theorem flip_ne (c : Color) : c.flip ≠ c := by cases c <;> decide

theorem some_piece_flip {k k' : PieceKind} {c : Color}
    (h : some (⟨k, c⟩ : Piece) = some ⟨k', c.flip⟩) : False := by
  have := congrArg (fun o => o.map Piece.color) h
  simp only [Option.map_some, Option.some.injEq] at this
  exact flip_ne c this.symm

/-- Reaching a square over a moved board. -/
theorem reaches_moved {b : Square → Option Piece} {frm to : Square} {pc : Piece}
    {k : PieceKind} {e : Color} {s t : Square} :
    Reaches (Occ (movedBoard b frm to pc)) k e s t ↔
      Step k e s t ∨ (Slide k e s t ∧ ∀ u, Between s u t → u ≠ to ∧ (u = frm ∨ ¬ Occ b u)) := by
  rw [reaches_iff]
  simp only [occ_movedBoard]
  apply or_congr Iff.rfl
  apply and_congr Iff.rfl
  apply forall_congr'; intro u
  apply imp_congr Iff.rfl
  by_cases h1 : u = to <;> by_cases h2 : u = frm <;> simp [h1, h2]

theorem reaches_put {b : Square → Option Piece} {to : Square} {pc : Piece}
    {k : PieceKind} {e : Color} {s t : Square} :
    Reaches (Occ (put b to (some pc))) k e s t ↔
      Step k e s t ∨ (Slide k e s t ∧ ∀ u, Between s u t → u ≠ to ∧ ¬ Occ b u) := by
  rw [reaches_iff]
  simp only [occ_put]
  apply or_congr Iff.rfl
  apply and_congr Iff.rfl
  apply forall_congr'; intro u
  apply imp_congr Iff.rfl
  by_cases h1 : u = to <;> simp [h1]

/-- The path of a reaching piece is clear. -/
theorem reaches_path {occ : Square → Prop} {k : PieceKind} {c : Color} {s t u : Square}
    (h : Reaches occ k c s t) (hu : Between s u t) : ¬ occ u := by
  rw [reaches_iff] at h
  rcases h with h | h
  · exact absurd hu (step_not_between h)
  · exact h.2 u hu

/-- The pin lemma: a line through `frm` opens when the piece on `frm` moves to `to` iff `frm` is the
single blocker of some sniper and `to` is off the line. -/
theorem pin_lemma {b : Square → Option Piece} {c : Color} {king frm to : Square}
    (hocc : Occ b frm) (hne : frm ≠ to)
    (hpath : ∀ u, Between frm u to → ¬ Occ b u) :
    (∃ s, s ≠ to ∧ s ≠ frm ∧ ∃ k, b s = some ⟨k, c.flip⟩ ∧ Slide k c.flip s king ∧
        (∀ u, Between s u king → u ≠ to ∧ (u = frm ∨ ¬ Occ b u)) ∧
        ¬ ∀ u, Between s u king → ¬ Occ b u) ↔
      Pinned b c king frm ∧ ¬ (Between king to frm ∨ Between king frm to) := by
  constructor
  · rintro ⟨s, hs1, hs2, k, hk, hsl, h1, h2⟩
    have hfrm : Between s frm king := by
      apply Classical.byContradiction
      intro hn
      apply h2
      intro u hu
      rcases (h1 u hu).2 with rfl | h
      · exact absurd hu hn
      · exact h
    refine ⟨⟨s, ⟨k, hk, hsl⟩, between_symm hfrm, hocc, fun u hu ho => ?_⟩, ?_⟩
    · rcases (h1 u (between_symm hu)).2 with h | h
      · exact h
      · exact absurd ho h
    · rintro (h | h)
      · exact (h1 to (between_symm (between_trans h (between_symm hfrm)))).1 rfl
      · rcases between_beyond h (between_symm hfrm) with rfl | h' | h'
        · exact hs1 rfl
        · exact (h1 to (between_symm h')).1 rfl
        · have := between_trans_right (between_symm hfrm) h'
          apply hpath s this
          unfold Occ; rw [hk]; simp
  · rintro ⟨⟨s, ⟨k, hk, hsl⟩, hb, _, hu⟩, hline⟩
    refine ⟨s, ?_, ?_, k, hk, hsl, ?_, ?_⟩
    · rintro rfl; exact hline (.inr hb)
    · rintro rfl; exact between_ne_right hb rfl
    · intro u hu'
      refine ⟨?_, ?_⟩
      · rintro rfl
        rcases between_linear (between_symm hu') hb with h | h | h
        · exact hne h.symm
        · exact hline (.inl h)
        · exact hline (.inr h)
      · by_cases ho : Occ b u
        · exact .inl (hu u (between_symm hu') ho)
        · exact .inr ho
    · intro h
      exact h frm (between_symm hb) hocc

/-- Attackers of the colour opposite to `c` after a piece of colour `c` moved. -/
theorem attacksFrom_moved {b : Square → Option Piece} {c : Color} {frm to t s : Square}
    {k0 k' : PieceKind} (hfrm : b frm = some ⟨k0, c⟩) (hne : frm ≠ to) :
    AttacksFrom (movedBoard b frm to ⟨k', c⟩) c.flip s t ↔
      s ≠ to ∧ ∃ k, b s = some ⟨k, c.flip⟩ ∧ (Step k c.flip s t ∨
        (Slide k c.flip s t ∧ ∀ u, Between s u t → u ≠ to ∧ (u = frm ∨ ¬ Occ b u))) := by
  unfold AttacksFrom
  simp only [reaches_moved]
  by_cases h1 : s = to
  · subst h1
    simp only [movedBoard_to, ne_eq, not_true_eq_false, false_and, iff_false, not_exists]
    rintro k ⟨e, _⟩
    exact some_piece_flip e
  · by_cases h2 : s = frm
    · subst h2
      simp only [movedBoard_frm b _ h1, hfrm]
      constructor
      · rintro ⟨k, e, _⟩; cases e
      · rintro ⟨_, k, e, _⟩
        exact (some_piece_flip e).elim
    · simp only [movedBoard_other b _ h1 h2, ne_eq, h1, not_false_eq_true, true_and]

/-- Safety of a non-king move. -/
theorem nonking_safe {b : Square → Option Piece} {c : Color} {king frm to : Square}
    {k0 k' : PieceKind} (hfrm : b frm = some ⟨k0, c⟩) (hk0 : k0 ≠ .king) (hk' : k' ≠ .king)
    (hking : b king = some ⟨.king, c⟩)
    (huniq : ∀ s, b s = some ⟨.king, c⟩ → s = king)
    (hne : frm ≠ to) (hpath : ∀ u, Between frm u to → ¬ Occ b u)
    (hown : ∀ q, b to = some q → q.color ≠ c) :
    ¬ InCheck (movedBoard b frm to ⟨k', c⟩) c ↔
      (∀ s, AttacksFrom b c.flip s king → to = s ∨ Between s to king) ∧
      (Pinned b c king frm → Between king to frm ∨ Between king frm to) := by
  have hkfrm : king ≠ frm := by
    rintro rfl; rw [hking] at hfrm; cases hfrm; exact hk0 rfl
  have hkto : king ≠ to := by
    rintro rfl; exact hown _ hking rfl
  have hocc : Occ b frm := by unfold Occ; rw [hfrm]; simp
  have hin : InCheck (movedBoard b frm to ⟨k', c⟩) c ↔
      ∃ s, AttacksFrom (movedBoard b frm to ⟨k', c⟩) c.flip s king := by
    unfold InCheck Attacked
    constructor
    · rintro ⟨x, hx, h⟩
      have : x = king := by
        by_cases h1 : x = to
        · subst h1; rw [movedBoard_to] at hx; cases hx; exact absurd rfl hk'
        · by_cases h2 : x = frm
          · subst h2; rw [movedBoard_frm b _ h1] at hx; cases hx
          · rw [movedBoard_other b _ h1 h2] at hx; exact huniq x hx
      rw [← this]; exact h
    · intro h
      exact ⟨king, by rw [movedBoard_other b _ hkto hkfrm]; exact hking, h⟩
  rw [hin]
  simp only [attacksFrom_moved hfrm hne]
  have pin := pin_lemma (c := c) (king := king) hocc hne hpath
  constructor
  · intro h
    refine ⟨fun s hs => ?_, fun hp => ?_⟩
    · apply Classical.byContradiction
      intro hn
      apply h
      obtain ⟨k, hk, hr⟩ := hs
      refine ⟨s, fun e => hn (.inl e.symm), k, hk, ?_⟩
      rw [reaches_iff] at hr
      rcases hr with hr | ⟨hr1, hr2⟩
      · exact .inl hr
      · exact .inr ⟨hr1, fun u hu => ⟨by rintro rfl; exact hn (.inr hu), .inr (hr2 u hu)⟩⟩
    · apply Classical.byContradiction
      intro hn
      obtain ⟨s, hs1, _, k, hk, hsl, h1, _⟩ := pin.2 ⟨hp, hn⟩
      exact h ⟨s, hs1, k, hk, .inr ⟨hsl, h1⟩⟩
  · rintro ⟨h1, h2⟩ ⟨s, hs, k, hk, hr⟩
    have hsf : s ≠ frm := by
      rintro rfl; rw [hfrm] at hk; exact some_piece_flip hk
    rcases hr with hr | ⟨hsl, hr⟩
    · rcases h1 s ⟨k, hk, reaches_iff.2 (.inl hr)⟩ with h | h
      · exact hs h.symm
      · exact step_not_between hr h
    · by_cases hclear : ∀ u, Between s u king → ¬ Occ b u
      · rcases h1 s ⟨k, hk, reaches_iff.2 (.inr ⟨hsl, hclear⟩)⟩ with h | h
        · exact hs h.symm
        · exact (hr to h).1 rfl
      · have := pin.1 ⟨s, hs, hsf, k, hk, hsl, hr, hclear⟩
        exact this.2 (h2 this.1)

/-- Safety of a drop. -/
theorem drop_safe {b : Square → Option Piece} {c : Color} {king to : Square}
    {k' : PieceKind} (hk' : k' ≠ .king)
    (hking : b king = some ⟨.king, c⟩)
    (huniq : ∀ s, b s = some ⟨.king, c⟩ → s = king)
    (hempty : b to = none) :
    ¬ InCheck (put b to (some ⟨k', c⟩)) c ↔
      (∀ s, AttacksFrom b c.flip s king → Between s to king) := by
  have hkto : king ≠ to := by rintro rfl; rw [hking] at hempty; cases hempty
  have hin : InCheck (put b to (some ⟨k', c⟩)) c ↔
      ∃ s, s ≠ to ∧ ∃ k, b s = some ⟨k, c.flip⟩ ∧ (Step k c.flip s king ∨
        (Slide k c.flip s king ∧ ∀ u, Between s u king → u ≠ to ∧ ¬ Occ b u)) := by
    unfold InCheck Attacked AttacksFrom
    simp only [reaches_put]
    constructor
    · rintro ⟨x, hx, s, k, hs, h⟩
      have hxk : x = king := by
        by_cases h1 : x = to
        · subst h1; rw [put_same] at hx; cases hx; exact absurd rfl hk'
        · rw [put_other b _ h1] at hx; exact huniq x hx
      subst hxk
      by_cases h1 : s = to
      · subst h1; rw [put_same] at hs; exact (some_piece_flip hs).elim
      · rw [put_other b _ h1] at hs
        exact ⟨s, h1, k, hs, h⟩
    · rintro ⟨s, hs, k, hk, h⟩
      exact ⟨king, by rw [put_other b _ hkto]; exact hking, s, k, by rw [put_other b _ hs]; exact hk, h⟩
  rw [hin]
  constructor
  · rintro h s ⟨k, hk, hr⟩
    apply Classical.byContradiction
    intro hn
    apply h
    refine ⟨s, ?_, k, hk, ?_⟩
    · rintro rfl; rw [hempty] at hk; cases hk
    · rw [reaches_iff] at hr
      rcases hr with hr | ⟨hr1, hr2⟩
      · exact .inl hr
      · exact .inr ⟨hr1, fun u hu => ⟨by rintro rfl; exact hn hu, hr2 u hu⟩⟩
  · rintro h1 ⟨s, hs, k, hk, hr⟩
    rcases hr with hr | ⟨hsl, hr⟩
    · exact step_not_between hr (h1 s ⟨k, hk, reaches_iff.2 (.inl hr)⟩)
    · have := h1 s ⟨k, hk, reaches_iff.2 (.inr ⟨hsl, fun u hu => (hr u hu).2⟩)⟩
      exact (hr to this).1 rfl

/-- A line from `s` through the king to `to`. -/
def XRay (b : Square → Option Piece) (c : Color) (king to s : Square) : Prop :=
  ∃ k, b s = some ⟨k, c.flip⟩ ∧ Slide k c.flip s to ∧ Between s king to

/-- Safety of a king move. -/
theorem king_safe {b : Square → Option Piece} {c : Color} {king to : Square}
    (hking : b king = some ⟨.king, c⟩)
    (huniq : ∀ s, b s = some ⟨.king, c⟩ → s = king)
    (hstep : Step .king c king to) :
    ¬ InCheck (movedBoard b king to ⟨.king, c⟩) c ↔
      (∀ s, ¬ AttacksFrom b c.flip s to) ∧
      (∀ s, AttacksFrom b c.flip s king → ¬ XRay b c king to s) := by
  have hne : king ≠ to := step_ne hstep
  have hin : InCheck (movedBoard b king to ⟨.king, c⟩) c ↔
      ∃ s, AttacksFrom (movedBoard b king to ⟨.king, c⟩) c.flip s to := by
    unfold InCheck Attacked
    constructor
    · rintro ⟨x, hx, h⟩
      have : x = to := by
        apply Classical.byContradiction
        intro h1
        by_cases h2 : x = king
        · subst h2; rw [movedBoard_frm b _ h1] at hx; cases hx
        · rw [movedBoard_other b _ h1 h2] at hx; exact h2 (huniq x hx)
      subst this; exact h
    · intro h
      exact ⟨to, movedBoard_to _ _ _ _, h⟩
  rw [hin]
  simp only [attacksFrom_moved hking hne]
  constructor
  · intro h
    refine ⟨fun s hs => h ?_, fun s hs hx => h ?_⟩
    · obtain ⟨k, hk, hr⟩ := hs
      refine ⟨s, reaches_ne hr, k, hk, ?_⟩
      rw [reaches_iff] at hr
      rcases hr with hr | ⟨hr1, hr2⟩
      · exact .inl hr
      · exact .inr ⟨hr1, fun u hu => ⟨(between_ne_right hu).symm, .inr (hr2 u hu)⟩⟩
    · obtain ⟨k, hk, hsl, hb⟩ := hx
      obtain ⟨k2, hk2, hr⟩ := hs
      rw [hk] at hk2; cases hk2
      refine ⟨s, slide_ne hsl, k, hk, .inr ⟨hsl, fun u hu => ⟨(between_ne_right hu).symm, ?_⟩⟩⟩
      rcases between_linear hu hb with h' | h' | h'
      · exact .inl h'
      · exact .inr (reaches_path hr h')
      · have := between_trans_right h' hu
        exact absurd this (step_not_between hstep)
  · rintro ⟨h1, h2⟩ ⟨s, hs, k, hk, hr⟩
    rcases hr with hr | ⟨hsl, hr⟩
    · exact h1 s ⟨k, hk, reaches_iff.2 (.inl hr)⟩
    · by_cases hb : Between s king to
      · refine h2 s ⟨k, hk, reaches_iff.2 (.inr ⟨slide_between_left hsl hb, fun u hu => ?_⟩)⟩
          ⟨k, hk, hsl, hb⟩
        rcases (hr u (between_trans hu hb)).2 with rfl | h
        · exact absurd rfl (between_ne_right hu)
        · exact h
      · refine h1 s ⟨k, hk, reaches_iff.2 (.inr ⟨hsl, fun u hu => ?_⟩)⟩
        rcases (hr u hu).2 with rfl | h
        · exact absurd hu hb
        · exact h

/-- Without a king there is no check. -/
theorem not_inCheck_of_no_king {b : Square → Option Piece} {c : Color}
    (h : ∀ s, b s ≠ some ⟨.king, c⟩) : ¬ InCheck b c := by
  rintro ⟨k, hk, _⟩
  exact h k hk

theorem inCheck_iff {b : Square → Option Piece} {c : Color} {king : Square}
    (hking : b king = some ⟨.king, c⟩)
    (huniq : ∀ s, b s = some ⟨.king, c⟩ → s = king) :
    InCheck b c ↔ ∃ s, AttacksFrom b c.flip s king := by
  unfold InCheck Attacked
  constructor
  · rintro ⟨x, hx, h⟩
    rw [← huniq x hx]; exact h
  · intro h
    exact ⟨king, hking, h⟩

/-- Adjacent kings attack each other. -/
theorem kings_apart {b : Square → Option Piece} {c : Color} {king s : Square}
    (hvalid : ¬ InCheck b c.flip) (hking : b king = some ⟨.king, c⟩)
    (hs : b s = some ⟨.king, c.flip⟩) : ¬ Step .king c.flip s king := by
  intro h
  apply hvalid
  refine ⟨s, hs, king, .king, ?_, reaches_iff.2 (.inl ?_)⟩
  · rw [flip_flip]; exact hking
  · rw [flip_flip]; have := step_symm h; rw [flip_flip] at this; exact this

end Yasai

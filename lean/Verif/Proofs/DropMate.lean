import Verif.Proofs.GenList

/-!
# Pawn-drop mate
-/

namespace Yasai

open Spec

theorem step_pawn {c : Color} {s t : Square} : Step .pawn c s t ↔ Disp s t 0 (fwd c) := by
  unfold Step
  simp [steps]

theorem reaches_pawn {occ : Square → Prop} {c : Color} {s t : Square} :
    Reaches occ .pawn c s t ↔ Step .pawn c s t := by
  rw [reaches_iff]
  constructor
  · rintro (h | h)
    · exact h
    · exact absurd h.1 (not_slide rfl _ _ _)
  · exact .inl

/-- Occupying the target itself does not matter. -/
theorem reaches_put_self {b : Square → Option Piece} {to : Square} {pc : Piece}
    {k : PieceKind} {c : Color} {s : Square} :
    Reaches (Occ (put b to (some pc))) k c s to ↔ Reaches (Occ b) k c s to := by
  rw [reaches_put, reaches_iff]
  apply or_congr Iff.rfl
  apply and_congr Iff.rfl
  apply forall_congr'; intro u
  apply forall_congr'; intro hu
  constructor
  · exact fun h => h.2
  · exact fun h => ⟨(between_ne_right hu).symm, h⟩

/-- The squares between the king and its file neighbours. -/
theorem between_file {king to frm : Square} {c : Color} (h : Disp to king 0 (fwd c))
    (hb : Between king to frm) : frm.file = to.file := by
  obtain ⟨d, hd, m, n, hm, hmn, h1, h2⟩ := hb
  obtain ⟨a1, a2⟩ := h
  obtain ⟨b1, b2⟩ := h1
  obtain ⟨c1, c2⟩ := h2
  have hz : (m : Int) * d.1 = 0 := by omega
  have : d.1 = 0 := by
    rcases Int.mul_eq_zero.1 hz with h | h
    · omega
    · exact h
  rw [this] at b1 c1
  omega

/-- A piece on the file of the king and of the pawn in front of it. -/
theorem file_sides {king to frm : Square} {c : Color} (h : Disp to king 0 (fwd c))
    (hf : frm.file = to.file) (h1 : frm ≠ to) (h2 : frm ≠ king) :
    Between king to frm ∨ Between frm king to := by
  obtain ⟨a1, a2⟩ := h
  have n1 : frm.rank ≠ to.rank := fun e => h1 (Square.ext_coords hf e)
  have n2 : frm.rank ≠ king.rank := fun e => h2 (Square.ext_coords (by omega) e)
  have hb := frm.bounds
  have hk := king.bounds
  have ht := to.bounds
  -- the direction from king to `to`
  cases c with
  | black =>
    simp only [fwd] at a2
    by_cases hlt : (frm.rank : Int) > king.rank
    · left
      refine ⟨(0, 1), by decide, 1, (frm.rank - king.rank : Int).toNat, by omega, by omega, ?_, ?_⟩
      · constructor
        · simp only; omega
        · simp only; omega
      · constructor
        · simp only; omega
        · simp only; omega
    · right
      refine ⟨(0, 1), by decide, (king.rank - frm.rank : Int).toNat, (to.rank - frm.rank : Int).toNat,
        by omega, by omega, ?_, ?_⟩
      · constructor
        · simp only; omega
        · simp only; omega
      · constructor
        · simp only; omega
        · simp only; omega
  | white =>
    simp only [fwd] at a2
    by_cases hlt : (frm.rank : Int) < king.rank
    · left
      refine ⟨(0, -1), by decide, 1, (king.rank - frm.rank : Int).toNat, by omega, by omega, ?_, ?_⟩
      · constructor
        · simp only; omega
        · simp only; omega
      · constructor
        · simp only; omega
        · simp only; omega
    · right
      refine ⟨(0, -1), by decide, (frm.rank - king.rank : Int).toNat, (frm.rank - to.rank : Int).toNat,
        by omega, by omega, ?_, ?_⟩
      · constructor
        · simp only; omega
        · simp only; omega
      · constructor
        · simp only; omega
        · simp only; omega

/-- Some promotion choice is always allowed. -/
theorem exists_promo {occ : Square → Prop} {k : PieceKind} {c : Color} {frm to : Square}
    (h : Reaches occ k c frm to) : ∃ pr, PromoOk k c frm to pr := by
  have := mem_destMoves h
  by_cases hd : Dead k c to
  · refine ⟨true, fun _ => ⟨?_, .inr ?_⟩, fun h => by cases h⟩
    · revert hd; cases k <;> cases c <;> simp [Dead, PieceKind.promote]
    · cases k <;> cases c <;> simp only [Dead, InZone] at hd ⊢ <;> omega
  · exact ⟨false, fun h => (by cases h), fun _ => hd⟩

/-- The three conditions tested by `is_pawn_drop_mate`. -/
structure DropMateCond (b : Square → Option Piece) (c : Color) (king to : Square) : Prop where
  protected_ : ∃ s, AttacksFrom b c s to
  captures : ∀ frm k, b frm = some ⟨k, c.flip⟩ → k ≠ .king → k ≠ .lance → k ≠ .pawn →
    Reaches (Occ b) k c.flip frm to → Pinned b c.flip king frm ∧ frm.file ≠ to.file
  escapes : ∀ t, Step .king c.flip king t → (∀ k, b t ≠ some ⟨k, c.flip⟩) → t ≠ to →
    ∃ s k, b s = some ⟨k, c⟩ ∧ Reaches (Occ (put b to (some ⟨.pawn, c⟩))) k c s t

section
variable {P : Pos} {king to : Square}

theorem pinned_put {b : Square → Option Piece} {c : Color} {king to frm : Square}
    (hto : b to = none) (hfrm : Occ b frm)
    (h : Pinned (put b to (some ⟨.pawn, c⟩)) c.flip king frm) : Pinned b c.flip king frm := by
  obtain ⟨s, ⟨k, hk, hsl⟩, hb, _, hu⟩ := h
  refine ⟨s, ⟨k, ?_, hsl⟩, hb, hfrm, fun u hbu ho => hu u hbu (occ_put.2 (.inr ho))⟩
  by_cases e : s = to
  · subst e
    rw [put_same, flip_flip] at hk
    cases hk
    exact absurd hsl (not_slide rfl _ _ _)
  · rw [put_other _ _ e] at hk; exact hk

/-- Pinned before but not after the drop: the piece is on the file of the dropped pawn. -/
theorem pinned_file {b : Square → Option Piece} {c : Color} {king to frm : Square}
    (hto : b to = none) (hst : Disp to king 0 (fwd c)) (hne : frm ≠ to)
    (h : Pinned b c.flip king frm) (hn : ¬ Pinned (put b to (some ⟨.pawn, c⟩)) c.flip king frm) :
    frm.file = to.file := by
  obtain ⟨s, ⟨k, hk, hsl⟩, hb, ho, hu⟩ := h
  have hs : s ≠ to := by rintro rfl; rw [hk] at hto; cases hto
  by_cases hbt : Between king to s
  · have h1 := between_file hst hbt
    rcases between_linear hb hbt with h | h | h
    · exact absurd h hne
    · -- frm between king and to: impossible, they are adjacent
      exact absurd (between_comm.1 h) (step_not_between (step_pawn.2 hst))
    · exact between_file hst h
  · exfalso
    apply hn
    refine ⟨s, ⟨k, ?_, hsl⟩, hb, occ_put.2 (.inr ho), fun u hbu hou => ?_⟩
    · rw [put_other _ _ hs]; exact hk
    · rcases occ_put.1 hou with rfl | hou
      · exact absurd hbu hbt
      · exact hu u hbu hou

/-- The conditions suffice for mate, whether or not the king is attacked by other pieces as well. -/
theorem mated_of_cond (huniq : ∀ s, P.board s = some ⟨.king, P.side.flip⟩ → s = king)
    (hking : P.board king = some ⟨.king, P.side.flip⟩)
    (hto : P.board to = none) (hst : Step .pawn P.side to king)
    (hcond : DropMateCond P.board P.side king to) :
    Mated (apply P (.drop to ⟨.pawn, P.side⟩)) := by
  have hst' := step_pawn.1 hst
  have hadj : ∀ u, ¬ Between to u king := fun u => step_not_between hst
  have hadj' : ∀ u, ¬ Between king u to := fun u h => hadj u (between_symm h)
  generalize hcc : P.side = c at *
  have hne : king ≠ to := by rintro rfl; rw [hking] at hto; cases hto
  let b' := put P.board to (some (⟨.pawn, c⟩ : Piece))
  have hb' : (apply P (.drop to ⟨.pawn, c⟩)).board = b' := rfl
  have hs' : (apply P (.drop to ⟨.pawn, c⟩)).side = c.flip := by
    show P.side.flip = c.flip; rw [hcc]
  have hking' : b' king = some ⟨.king, c.flip⟩ := by
    show put _ _ _ _ = _; rw [put_other _ _ hne]; exact hking
  have huniq' : ∀ s, b' s = some ⟨.king, c.flip⟩ → s = king := by
    intro s h
    by_cases e : s = to
    · subst e; rw [show b' s = some ⟨.pawn, c⟩ from put_same _ _ _] at h
      exact (some_piece_flip h).elim
    · rw [show b' s = P.board s from put_other _ _ e] at h; exact huniq s h
  have hatt : AttacksFrom b' c to king := ⟨.pawn, put_same _ _ _, reaches_pawn.2 hst⟩
  have hcheck : InCheck b' c.flip := by
    refine ⟨king, hking', to, ?_⟩
    rw [flip_flip]; exact hatt
  have hcolor : ∀ {s k}, P.board s = some ⟨k, c.flip⟩ → s ≠ to := by
    rintro s k h rfl; rw [h] at hto; cases hto
  have hold : ∀ {s k}, P.board s = some ⟨k, c.flip⟩ → b' s = some ⟨k, c.flip⟩ := by
    intro s k h
    show put _ _ _ _ = _; rw [put_other _ _ (hcolor h)]; exact h
  have hnew : ∀ {s k}, b' s = some ⟨k, c.flip⟩ → P.board s = some ⟨k, c.flip⟩ := by
    intro s k h
    by_cases e : s = to
    · subst e; rw [show b' s = some ⟨.pawn, c⟩ from put_same _ _ _] at h
      exact (some_piece_flip h).elim
    · rw [show b' s = P.board s from put_other _ _ e] at h; exact h
  -- attacks by the dropper's side on squares around the king
  have hattk : ∀ t, t ≠ king → ∀ s, (∃ k, P.board s = some ⟨k, c⟩ ∧ Reaches (Occ b') k c s t) →
      AttacksFrom b' c s t := by
    rintro t ht s ⟨k, hk, hr⟩
    refine ⟨k, ?_, hr⟩
    have e : s ≠ to := by rintro rfl; rw [hk] at hto; cases hto
    show put _ _ _ _ = _; rw [put_other _ _ e]; exact hk
  have hattto : ∀ s, AttacksFrom P.board c s to → AttacksFrom b' c s to := by
    rintro s ⟨k, hk, hr⟩
    exact hattk to hne.symm s ⟨k, hk, reaches_put_self.2 hr⟩
  -- safety of king moves
  have hkingsafe : ∀ t, Step .king c.flip king t →
      ¬ InCheck (movedBoard b' king t ⟨.king, c.flip⟩) c.flip → ∀ s, ¬ AttacksFrom b' c s t := by
    intro t ht h
    rw [king_safe hking' huniq' ht, flip_flip] at h
    exact h.1
  -- safety of other moves
  have hsafe : ∀ frm t k k', P.board frm = some ⟨k, c.flip⟩ → k ≠ .king → k' ≠ .king →
      Reaches (Occ b') k c.flip frm t → (∀ q, b' t = some q → q.color ≠ c.flip) →
      ¬ InCheck (movedBoard b' frm t ⟨k', c.flip⟩) c.flip →
        t = to ∧ (Pinned b' c.flip king frm → Between king to frm) := by
    intro frm t k k' hfrm hk hk' hr hown h
    rw [nonking_safe (hold hfrm) hk hk' hking' huniq' (reaches_ne hr)
      (fun u hu => reaches_path hr hu) hown, flip_flip] at h
    obtain ⟨h1, h2⟩ := h
    have : t = to := by
      rcases h1 to hatt with h | h
      · exact h
      · exact absurd h (hadj _)
    subst this
    refine ⟨rfl, fun hp => ?_⟩
    rcases h2 hp with h | h
    · exact h
    · exact absurd h (hadj' _)
  unfold Mated
  rw [hb', hs']
  obtain ⟨h1, h2, h3⟩ := hcond
  refine ⟨hcheck, ?_⟩
  intro m hm
  obtain ⟨hps, hsf⟩ := hm
  cases m with
  | drop t pc =>
    obtain ⟨hc, hh, _, hemp, _⟩ := hps
    rw [hb'] at hemp
    rw [hs'] at hc hsf
    obtain ⟨k, c'⟩ := pc
    have hc : c' = c.flip := hc
    subst hc
    have : ¬ InCheck (put b' t (some ⟨k, c.flip⟩)) c.flip := hsf
    rw [drop_safe (by rintro rfl; cases hh) hking' huniq' hemp, flip_flip] at this
    exact hadj _ (this to hatt)
  | normal frm t pr =>
    obtain ⟨k, hfrm, hr, hown, hp1, hp2⟩ := hps
    rw [apply_normal_board hfrm] at hsf
    rw [hb', hs'] at hfrm hr hown
    rw [hb', hs'] at hsf
    have hfrm0 := hnew hfrm
    by_cases hk : k = .king
    · subst hk
      have hfk := huniq' frm hfrm
      subst hfk
      have hmk : movedKind .king pr = .king := movedKind_king.2 rfl
      rw [hmk] at hsf
      have hstep : Step .king c.flip frm t := by
        rw [reaches_iff] at hr
        rcases hr with h | h
        · exact h
        · exact absurd h.1 (not_slide rfl _ _ _)
      replace hsf := hkingsafe t hstep hsf
      by_cases e : t = to
      · subst e
        obtain ⟨s, hs⟩ := h1
        exact hsf s (hattto s hs)
      · have hown' : ∀ k, P.board t ≠ some ⟨k, c.flip⟩ := by
          intro k hk
          exact hown _ (hold hk) rfl
        obtain ⟨s, k, hs⟩ := h3 t hstep hown' e
        exact hsf s (hattk t (step_ne hstep).symm s ⟨k, hs⟩)
    · replace hsf := hsafe frm t k _ hfrm0 hk (fun e => hk (movedKind_king.1 e)) hr hown hsf
      obtain ⟨rfl, hpin⟩ := hsf
      have hr0 : Reaches (Occ P.board) k c.flip frm t := reaches_put_self.1 hr
      have hkingocc : Occ P.board king := by show P.board king ≠ none; rw [hking]; simp
      have hback : Disp frm t 0 (fwd c.flip) → False := by
        intro h
        -- the square behind `t` is the king's
        have h1 : Disp t frm 0 (fwd c) := by
          obtain ⟨a, b⟩ := h
          rw [flip_fwd] at b
          constructor <;> omega
        have := disp_unique h1 hst'
        subst this
        rw [hking] at hfrm0
        cases hfrm0
        exact hk rfl
      by_cases hkp : k = .pawn
      · subst hkp
        exact hback (step_pawn.1 (reaches_pawn.1 hr0))
      · by_cases hkl : k = .lance
        · subst hkl
          rcases hr0 with ⟨d, hd, _⟩ | ⟨d, hd, n, hn, hdisp, hclear⟩
          · cases hd
          · have : d = (0, 1) := by simpa [slides] using hd
            subst this
            by_cases h1 : n = 1
            · subst h1
              apply hback
              simpa using hdisp
            · -- the king is on the path
              have : Disp frm king ((n - 1 : Nat) * 0) ((n - 1 : Nat) * (fwd c.flip * 1)) := by
                obtain ⟨a1, a2⟩ := hdisp
                obtain ⟨b1, b2⟩ := hst'
                rw [flip_fwd] at a2 ⊢
                have hn' : ((n - 1 : Nat) : Int) = n - 1 := by omega
                rw [hn']
                constructor
                · simp only [Int.mul_zero] at a1 ⊢; omega
                · rcases fwd_cases c with h | h <;> rw [h] at a2 b2 ⊢ <;> omega
              exact hclear (n - 1) (by omega) (by omega) king this hkingocc
        · obtain ⟨hp, hf⟩ := h2 frm k hfrm0 hk hkl hkp hr0
          by_cases hp' : Pinned b' c.flip king frm
          · exact hf (between_file hst' (hpin hp'))
          · exact hf (pinned_file hto hst' (reaches_ne hr0) hp hp')

theorem mated_drop (hv : Valid P) (hking : P.board king = some ⟨.king, P.side.flip⟩)
    (hto : P.board to = none) (hst : Step .pawn P.side to king) :
    Mated (apply P (.drop to ⟨.pawn, P.side⟩)) ↔ DropMateCond P.board P.side king to := by
  have hst' := step_pawn.1 hst
  have hadj : ∀ u, ¬ Between to u king := fun u => step_not_between hst
  have hadj' : ∀ u, ¬ Between king u to := fun u h => hadj u (between_symm h)
  generalize hcc : P.side = c at *
  have hne : king ≠ to := by rintro rfl; rw [hking] at hto; cases hto
  have hnot : ∀ s, ¬ AttacksFrom P.board c s king := by
    intro s hs
    apply hv.notInCheck
    rw [hcc]
    exact ⟨king, hking, s, by rw [flip_flip]; exact hs⟩
  have huniq : ∀ s, P.board s = some ⟨.king, c.flip⟩ → s = king :=
    fun s h => hv.oneKing _ _ _ h hking
  let b' := put P.board to (some (⟨.pawn, c⟩ : Piece))
  have hb' : (apply P (.drop to ⟨.pawn, c⟩)).board = b' := rfl
  have hs' : (apply P (.drop to ⟨.pawn, c⟩)).side = c.flip := by
    show P.side.flip = c.flip; rw [hcc]
  have hking' : b' king = some ⟨.king, c.flip⟩ := by
    show put _ _ _ _ = _; rw [put_other _ _ hne]; exact hking
  have huniq' : ∀ s, b' s = some ⟨.king, c.flip⟩ → s = king := by
    intro s h
    by_cases e : s = to
    · subst e; rw [show b' s = some ⟨.pawn, c⟩ from put_same _ _ _] at h
      exact (some_piece_flip h).elim
    · rw [show b' s = P.board s from put_other _ _ e] at h; exact huniq s h
  have hatt : ∀ s, AttacksFrom b' c s king ↔ s = to := by
    intro s
    rw [attacks_after_drop hnot hto s]
    exact ⟨fun h => h.1, fun h => ⟨h, reaches_pawn.2 hst⟩⟩
  have hcheck : InCheck b' c.flip := by
    refine ⟨king, hking', to, ?_⟩
    rw [flip_flip]; exact (hatt to).2 rfl
  have hcolor : ∀ {s k}, P.board s = some ⟨k, c.flip⟩ → s ≠ to := by
    rintro s k h rfl; rw [h] at hto; cases hto
  have hold : ∀ {s k}, P.board s = some ⟨k, c.flip⟩ → b' s = some ⟨k, c.flip⟩ := by
    intro s k h
    show put _ _ _ _ = _; rw [put_other _ _ (hcolor h)]; exact h
  have hnew : ∀ {s k}, b' s = some ⟨k, c.flip⟩ → P.board s = some ⟨k, c.flip⟩ := by
    intro s k h
    by_cases e : s = to
    · subst e; rw [show b' s = some ⟨.pawn, c⟩ from put_same _ _ _] at h
      exact (some_piece_flip h).elim
    · rw [show b' s = P.board s from put_other _ _ e] at h; exact h
  -- attacks by the dropper's side on squares around the king
  have hattk : ∀ t, t ≠ king → ∀ s, AttacksFrom b' c s t ↔
      ∃ k, P.board s = some ⟨k, c⟩ ∧ Reaches (Occ b') k c s t := by
    intro t ht s
    constructor
    · rintro ⟨k, hk, hr⟩
      by_cases e : s = to
      · subst e
        rw [show b' s = some ⟨.pawn, c⟩ from put_same _ _ _] at hk
        cases hk
        exact absurd (disp_unique (step_pawn.1 (reaches_pawn.1 hr)) hst') ht
      · rw [show b' s = P.board s from put_other _ _ e] at hk
        exact ⟨k, hk, hr⟩
    · rintro ⟨k, hk, hr⟩
      refine ⟨k, ?_, hr⟩
      have e : s ≠ to := by rintro rfl; rw [hk] at hto; cases hto
      show put _ _ _ _ = _; rw [put_other _ _ e]; exact hk
  have hattto : ∀ s, AttacksFrom b' c s to ↔ AttacksFrom P.board c s to := by
    intro s
    rw [hattk to hne.symm]
    unfold AttacksFrom
    apply exists_congr; intro k
    apply and_congr_right; intro _
    exact reaches_put_self
  -- safety of king moves
  have hkingsafe : ∀ t, Step .king c.flip king t →
      (¬ InCheck (movedBoard b' king t ⟨.king, c.flip⟩) c.flip ↔ ∀ s, ¬ AttacksFrom b' c s t) := by
    intro t ht
    rw [king_safe hking' huniq' ht]
    rw [flip_flip]
    constructor
    · exact fun h => h.1
    · refine fun h => ⟨h, fun s hs => ?_⟩
      rw [hatt] at hs
      subst hs
      rintro ⟨k, hk, hsl, _⟩
      rw [show b' s = some ⟨.pawn, c⟩ from put_same _ _ _, flip_flip] at hk
      cases hk
      exact absurd hsl (not_slide rfl _ _ _)
  -- safety of other moves
  have hsafe : ∀ frm t k k', P.board frm = some ⟨k, c.flip⟩ → k ≠ .king → k' ≠ .king →
      Reaches (Occ b') k c.flip frm t → (∀ q, b' t = some q → q.color ≠ c.flip) →
      (¬ InCheck (movedBoard b' frm t ⟨k', c.flip⟩) c.flip ↔
        t = to ∧ (Pinned b' c.flip king frm → Between king to frm)) := by
    intro frm t k k' hfrm hk hk' hr hown
    rw [nonking_safe (hold hfrm) hk hk' hking' huniq' (reaches_ne hr)
      (fun u hu => reaches_path hr hu) hown, flip_flip]
    constructor
    · rintro ⟨h1, h2⟩
      have : t = to := by
        rcases h1 to ((hatt to).2 rfl) with h | h
        · exact h
        · exact absurd h (hadj _)
      subst this
      refine ⟨rfl, fun hp => ?_⟩
      rcases h2 hp with h | h
      · exact h
      · exact absurd h (hadj' _)
    · rintro ⟨rfl, h2⟩
      exact ⟨fun s hs => .inl ((hatt s).1 hs).symm, fun hp => .inl (h2 hp)⟩
  unfold Mated
  rw [hb', hs']
  constructor
  · rintro ⟨_, hno⟩
    refine ⟨?_, ?_, ?_⟩
    · -- otherwise the king takes the pawn
      apply Classical.byContradiction
      intro hn
      apply hno (.normal king to false)
      have hstep : Step .king c.flip king to := by
        have := step_symm hst
        rw [step_king_iff]
        right
        obtain ⟨d, hd, h⟩ := this
        exact ⟨d, by simp [steps] at hd; subst hd; simp [steps, goldSteps], h⟩
      refine ⟨⟨.king, by rw [hb', hs']; exact hking', ?_, ?_, ?_, ?_⟩, ?_⟩
      · rw [hb', hs', reaches_iff]; exact .inl hstep
      · intro q hq
        rw [hb', show b' to = some ⟨.pawn, c⟩ from put_same _ _ _] at hq
        cases hq
        rw [hs']; exact (flip_ne c).symm
      · intro h; cases h
      · intro _ h; cases hcc' : (apply P (.drop to ⟨.pawn, c⟩)).side <;> rw [hcc'] at h <;> exact h
      · rw [hs', apply_normal_board (by rw [hb']; exact hking'), hb']
        exact (hkingsafe to hstep).2 fun s hs => hn ⟨s, (hattto s).1 hs⟩
    · intro frm k hfrm hk1 hk2 hk3 hr
      apply Classical.byContradiction
      intro hn
      have hr' : Reaches (Occ b') k c.flip frm to := reaches_put_self.2 hr
      obtain ⟨pr, hpr⟩ := exists_promo hr'
      apply hno (.normal frm to pr)
      have hown : ∀ q, b' to = some q → q.color ≠ c.flip := by
        intro q hq
        rw [show b' to = some ⟨.pawn, c⟩ from put_same _ _ _] at hq
        cases hq
        exact (flip_ne c).symm
      refine ⟨⟨k, by rw [hb', hs']; exact hold hfrm, by rw [hb', hs']; exact hr',
        by rw [hb', hs']; exact hown, by rw [hs']; exact hpr.1, by rw [hs']; exact hpr.2⟩, ?_⟩
      rw [hs', apply_normal_board (by rw [hb']; exact hold hfrm), hb']
      refine (hsafe frm to k _ hfrm hk1 (fun e => hk1 (movedKind_king.1 e)) hr' hown).2
        ⟨rfl, fun hp => ?_⟩
      have hp0 : Pinned P.board c.flip king frm := pinned_put hto (by
        show P.board frm ≠ none; rw [hfrm]; simp) hp
      have hfile : frm.file = to.file := by
        apply Classical.byContradiction
        intro h; exact hn ⟨hp0, h⟩
      rcases file_sides hst' hfile (hcolor hfrm) (by
        rintro rfl
        rw [hking] at hfrm
        exact hk1 (by cases hfrm; rfl)) with h | h
      · exact h
      · exfalso
        have := reaches_path hr h
        exact this (by show P.board king ≠ none; rw [hking]; simp)
    · intro t ht hown hne'
      apply Classical.byContradiction
      intro hn
      apply hno (.normal king t false)
      refine ⟨⟨.king, by rw [hb', hs']; exact hking', ?_, ?_, ?_, ?_⟩, ?_⟩
      · rw [hb', hs', reaches_iff]; exact .inl ht
      · intro q hq
        rw [hb', show b' t = P.board t from put_other _ _ hne'] at hq
        rw [hs']
        intro e
        apply hown q.kind
        rw [hq, ← e]
      · intro h; cases h
      · intro _ h; cases hcc' : (apply P (.drop to ⟨.pawn, c⟩)).side <;> rw [hcc'] at h <;> exact h
      · rw [hs', apply_normal_board (by rw [hb']; exact hking'), hb']
        refine (hkingsafe t ht).2 fun s hs => hn ?_
        rw [hattk t (step_ne ht).symm] at hs
        obtain ⟨k, h⟩ := hs
        exact ⟨s, k, h⟩
  · intro h
    have := mated_of_cond (P := P) (king := king) (to := to) (by rw [hcc]; exact huniq)
      (by rw [hcc]; exact hking) hto (by rw [hcc]; exact hst) (by rw [hcc]; exact h)
    rw [hcc] at this
    unfold Mated at this
    rw [hb', hs'] at this
    exact this

end

/-- `is_pawn_drop_mate` tests `DropMateCond`. -/
theorem isPawnDropMate_of {K : Backend} (hK : Lawful K) {q : PartialPosition} (h : Repr q)
    {st : State} (hai : st.attackInfo = AttackInfo.new K (AttackInfo.calculateCheckers K q) q)
    {king to : Square} (hkp : q.kingPosition K q.side.flip = some king) :
    q.isPawnDropMate K st to = true ↔ DropMateCond q.board q.side king to := by
  have hE1 : K.isEmpty (q.attackersTo K q.side to (q.occupiedBB K)) = true ↔
      ¬ ∃ s, AttacksFrom q.board q.side s to := by
    rw [hK.isEmpty, beq_iff_eq, eq_zero_iff (ok_attackersTo hK h _ _ _)]
    constructor
    · rintro hz ⟨s, hs⟩
      have := (mem_attackersTo hK h q.side to (q.occupiedBB K) s).2 (by
        rw [h.occ_fun hK]; exact hs)
      rw [hz] at this; cases this
    · intro hn s
      rw [← Bool.not_eq_true, mem_attackersTo hK h, h.occ_fun hK]
      exact fun hs => hn ⟨s, hs⟩
  have hcapOk : Ok (K.and (q.attackersToExceptKlp K q.side.flip to)
        (K.or (K.not (st.attackInfo.pinned q.side.flip)) (filesTable K to.file))) := by
    rw [hK.and]
    refine ok_and_left _ ?_
    unfold PartialPosition.attackersToExceptKlp
    dsimp only
    rw [hK.and]
    exact ok_and_right _ (h.okPlayer _)
  have hpin : ∀ s, mem (st.attackInfo.pinned q.side.flip) s = true ↔
      Pinned q.board q.side.flip king s := by
    intro s
    rw [hai]
    exact (pinnedOf_spec hK h hkp).2 s
  have hE2 : K.isEmpty (K.and (q.attackersToExceptKlp K q.side.flip to)
        (K.or (K.not (st.attackInfo.pinned q.side.flip)) (filesTable K to.file))) = true ↔
      ∀ frm k, q.board frm = some ⟨k, q.side.flip⟩ → k ≠ .king → k ≠ .lance → k ≠ .pawn →
        Reaches (Occ q.board) k q.side.flip frm to →
          Pinned q.board q.side.flip king frm ∧ frm.file ≠ to.file := by
    rw [hK.isEmpty, beq_iff_eq, eq_zero_iff hcapOk]
    have hmem : ∀ s, mem (K.and (q.attackersToExceptKlp K q.side.flip to)
        (K.or (K.not (st.attackInfo.pinned q.side.flip)) (filesTable K to.file))) s = true ↔
        (∃ k, q.board s = some ⟨k, q.side.flip⟩ ∧ k ≠ .king ∧ k ≠ .lance ∧ k ≠ .pawn ∧
          Reaches (Occ q.board) k q.side.flip s to) ∧
        (¬ Pinned q.board q.side.flip king s ∨ s.file = to.file) := by
      intro s
      rw [hK.and, mem_and, Bool.and_eq_true, mem_attackersToExceptKlp hK h, hK.or, mem_or,
        Bool.or_eq_true, hK.not, mem_not, Bool.not_eq_true', ← Bool.not_eq_true, hpin,
        (filesTable_spec hK _).2]
    constructor
    · intro hz frm k h1 h2 h3 h4 h5
      have := hz frm
      rw [← Bool.not_eq_true, hmem] at this
      constructor
      · apply Classical.byContradiction
        intro hn; exact this ⟨⟨k, h1, h2, h3, h4, h5⟩, .inl hn⟩
      · intro hn; exact this ⟨⟨k, h1, h2, h3, h4, h5⟩, .inr hn⟩
    · intro hn s
      rw [← Bool.not_eq_true, hmem]
      rintro ⟨⟨k, h1, h2, h3, h4, h5⟩, h6⟩
      obtain ⟨a, b⟩ := hn s k h1 h2 h3 h4 h5
      rcases h6 with h6 | h6
      · exact h6 a
      · exact b h6
  have hE3 : ((K.iter (K.and (K.and (ouAttack K king q.side.flip) (K.not (q.playerBB q.side.flip)))
        (K.not (K.single to)))).any fun t =>
          K.isEmpty (q.attackersTo K q.side t (K.or (q.occupiedBB K) (K.single to)))) = false ↔
      ∀ t, Step .king q.side.flip king t → (∀ k, q.board t ≠ some ⟨k, q.side.flip⟩) → t ≠ to →
        ∃ s k, q.board s = some ⟨k, q.side⟩ ∧
          Reaches (Occ (put q.board to (some ⟨.pawn, q.side⟩))) k q.side s t := by
    have hok : Ok (K.and (K.and (ouAttack K king q.side.flip) (K.not (q.playerBB q.side.flip)))
        (K.not (K.single to))) := by
      rw [hK.and, hK.and]
      exact ok_and_left _ (ok_and_left _ (ok_pieceAttack hK _ _ _))
    have hocc : (fun u => mem (K.or (q.occupiedBB K) (K.single to)) u = true) =
        Occ (put q.board to (some ⟨.pawn, q.side⟩)) := by
      funext u
      apply propext
      rw [hK.or, mem_or, Bool.or_eq_true, h.occ hK, hK.single, mem_single, decide_eq_true_eq,
        occ_put]
      constructor
      · rintro (h | h)
        · exact .inr h
        · exact .inl h
      · rintro (h | h)
        · exact .inr h
        · exact .inl h
    rw [← Bool.not_eq_true, List.any_eq_true]
    have hown : ∀ t, mem (q.playerBB q.side.flip) t = false ↔
        ∀ k, q.board t ≠ some ⟨k, q.side.flip⟩ := by
      intro t
      rw [← Bool.not_eq_true, h.player]
      exact ⟨fun h k hk => h ⟨k, hk⟩, fun h ⟨k, hk⟩ => h k hk⟩
    have hit : ∀ t, t ∈ K.iter (K.and (K.and (ouAttack K king q.side.flip)
        (K.not (q.playerBB q.side.flip))) (K.not (K.single to))) ↔
        (Step .king q.side.flip king t ∧ ∀ k, q.board t ≠ some ⟨k, q.side.flip⟩) ∧ t ≠ to := by
      intro t
      rw [mem_iter hK hok, hK.and, mem_and, Bool.and_eq_true, hK.and, mem_and, Bool.and_eq_true,
        mem_ouAttack hK, hK.not, mem_not, hK.not, mem_not, Bool.not_eq_true', Bool.not_eq_true',
        hown, hK.single, mem_single, decide_eq_false_iff_not]
    simp only [hit]
    have hemp : ∀ t, K.isEmpty (q.attackersTo K q.side t (K.or (q.occupiedBB K) (K.single to))) =
        true ↔ ¬ ∃ s k, q.board s = some ⟨k, q.side⟩ ∧
          Reaches (Occ (put q.board to (some ⟨.pawn, q.side⟩))) k q.side s t := by
      intro t
      rw [hK.isEmpty, beq_iff_eq, eq_zero_iff (ok_attackersTo hK h _ _ _), ← hocc]
      constructor
      · rintro hz ⟨s, hs⟩
        have := (mem_attackersTo hK h _ _ _ s).2 hs
        rw [hz] at this; cases this
      · intro hn s
        rw [← Bool.not_eq_true, mem_attackersTo hK h]
        exact fun hs => hn ⟨s, hs⟩
    constructor
    · intro hn t h1 h2 h3
      apply Classical.byContradiction
      intro h4
      exact hn ⟨t, ⟨⟨h1, h2⟩, h3⟩, (hemp t).2 h4⟩
    · rintro hn ⟨t, ⟨⟨h1, h2⟩, h3⟩, h4⟩
      exact (hemp t).1 h4 (hn t h1 h2 h3)
  unfold PartialPosition.isPawnDropMate
  dsimp only
  rw [hkp]
  dsimp only
  by_cases c1 : ∃ s, AttacksFrom q.board q.side s to
  · rw [if_neg (by rw [hE1]; exact not_not_intro c1)]
    by_cases c2 : K.isEmpty (K.and (q.attackersToExceptKlp K q.side.flip to)
        (K.or (K.not (st.attackInfo.pinned q.side.flip)) (filesTable K to.file))) = true
    · rw [if_neg (by rw [c2]; decide), Bool.not_eq_true', hE3]
      exact ⟨fun h => ⟨c1, hE2.1 c2, h⟩, fun h => h.3⟩
    · rw [if_pos (by rw [Bool.not_eq_true', ← Bool.not_eq_true]; exact c2)]
      constructor
      · intro h; cases h
      · intro h; exact absurd (hE2.2 h.2) c2
  · rw [if_pos (hE1.2 c1)]
    constructor
    · intro h; cases h
    · intro h; exact absurd h.1 c1

theorem isPawnDropMate_spec {K : Backend} (hK : Lawful K) {q : PartialPosition} (h : Repr q)
    (hv : ∀ s t, q.board s = some ⟨.king, q.side.flip⟩ → q.board t = some ⟨.king, q.side.flip⟩ → s = t)
    {st : State} (hai : st.attackInfo = AttackInfo.new K (AttackInfo.calculateCheckers K q) q)
    {king to : Square} (hking : q.board king = some ⟨.king, q.side.flip⟩) :
    q.isPawnDropMate K st to = true ↔ DropMateCond q.board q.side king to :=
  isPawnDropMate_of hK h hai ((h.kingPosition hK _ hv king).2 hking)

/-- The pawn drops that the generator leaves out: in front of the opponent's king, under the
conditions it tests. -/
def Refused (P : Pos) : Move → Prop
  | .normal _ _ _ => False
  | .drop to _ => ∃ king, P.board king = some ⟨.king, P.side.flip⟩ ∧ Step .pawn P.side to king ∧
      DropMateCond P.board P.side king to

/-- The moves that the generator lists. -/
def Generated (P : Pos) (m : Move) : Prop :=
  Safe P m ∧ (IsPawnDrop m → ¬ Refused P m)

/-- What is left out is mate. -/
theorem mated_of_refused {P : Pos} (hv : Tame P) {to : Square} {pc : Piece}
    (hps : PseudoLegal P (.drop to pc)) (hp : IsPawnDrop (.drop to pc))
    (h : Refused P (.drop to pc)) : Mated (apply P (.drop to pc)) := by
  obtain ⟨king, hking, hst, hc⟩ := h
  obtain ⟨k, c⟩ := pc
  have hk : k = .pawn := hp
  have hcc : c = P.side := hps.1
  subst hk hcc
  exact mated_of_cond (fun s h => hv.oneKing _ _ _ h hking) hking hps.2.2.2.1 hst hc

/-- If the opponent's king is not attacked already, mate is left out. -/
theorem refused_iff {P : Pos} (hv : Valid P) {to : Square} {pc : Piece}
    (hps : PseudoLegal P (.drop to pc)) (hp : IsPawnDrop (.drop to pc)) :
    Refused P (.drop to pc) ↔ Mated (apply P (.drop to pc)) := by
  refine ⟨mated_of_refused hv hps hp, fun hm => ?_⟩
  obtain ⟨k, c⟩ := pc
  have hk : k = .pawn := hp
  have hcc : c = P.side := hps.1
  subst hk hcc
  have hto : P.board to = none := hps.2.2.2.1
  have hc : InCheck (put P.board to (some ⟨.pawn, P.side⟩)) P.side.flip := hm.1
  have hc' := hc
  obtain ⟨king, hking, _⟩ := hc'
  have hking' : P.board king = some ⟨.king, P.side.flip⟩ := by
    by_cases e : king = to
    · subst e
      rw [put_same] at hking
      exact (some_piece_flip hking).elim
    · rw [put_other _ _ e] at hking
      exact hking
  have hst : Step .pawn P.side to king := by
    refine reaches_pawn.1 ((check_drop hking' (fun s h => hv.oneKing _ _ _ h hking') ?_ hto).1 hc)
    intro s hs
    exact hv.notInCheck ⟨king, hking', s, by rw [flip_flip]; exact hs⟩
  exact ⟨king, hking', hst, (mated_drop hv hking' hto hst).1 hm⟩

theorem listed_iff {P : Pos} (hv : Valid P) {m : Move} : Generated P m ↔ Legal P m := by
  unfold Generated Legal
  apply and_congr_right
  intro hs
  cases m with
  | normal _ _ _ => exact ⟨fun _ h => h.elim, fun _ h => h.elim⟩
  | drop to pc =>
    constructor
    · intro h hp hm; exact h hp ((refused_iff hv hs.1 hp).2 hm)
    · intro h hp hm; exact h hp ((refused_iff hv hs.1 hp).1 hm)

end Yasai

import Verif.Spec.Rules
import Verif.Proofs.Safety

/-!
# Symmetries of the rules
-/

namespace Yasai

open Spec

/-- A symmetry of the board: a map of squares and one of colours that turn each direction
(sideways, forward) into (-sideways, forward). -/
structure Sym where
  sq : Square → Square
  col : Color → Color
  sq_sq : ∀ s, sq (sq s) = s
  col_col : ∀ c, col (col c) = c
  col_flip : ∀ c, col c.flip = (col c).flip
  disp : ∀ s t c (df dr : Int), Disp s t df (fwd c * dr) → Disp (sq s) (sq t) (-df) (fwd (col c) * dr)
  file : ∀ s t, s.file = t.file → (sq s).file = (sq t).file
  zone : ∀ c s, InZone c s → InZone (col c) (sq s)
  dead : ∀ k c s, Dead k c s → Dead k (col c) (sq s)

namespace Sym

variable (σ : Sym)

/-- The image of a piece. -/
def piece (p : Piece) : Piece := ⟨p.kind, σ.col p.color⟩

/-- The image of a board. -/
def board (b : Square → Option Piece) : Square → Option Piece := fun s => (b (σ.sq s)).map σ.piece

/-- The image of a position. -/
def pos (P : Pos) : Pos := ⟨σ.board P.board, fun c k => P.hand (σ.col c) k, σ.col P.side⟩

/-- The image of a move. -/
def move : Move → Move
  | .normal frm to pr => .normal (σ.sq frm) (σ.sq to) pr
  | .drop to pc => .drop (σ.sq to) (σ.piece pc)

theorem sq_inj {s t : Square} (h : σ.sq s = σ.sq t) : s = t := by
  rw [← σ.sq_sq s, h, σ.sq_sq]

theorem col_inj {s t : Color} (h : σ.col s = σ.col t) : s = t := by
  rw [← σ.col_col s, h, σ.col_col]

theorem piece_piece (p : Piece) : σ.piece (σ.piece p) = p := by
  cases p; simp [piece, σ.col_col]

theorem move_move (m : Move) : σ.move (σ.move m) = m := by
  cases m <;> simp [move, σ.sq_sq, σ.piece_piece]

theorem board_board (b : Square → Option Piece) : σ.board (σ.board b) = b := by
  funext s
  simp only [board, σ.sq_sq, Option.map_map]
  cases b s <;> simp [σ.piece_piece]

theorem pos_pos (P : Pos) : σ.pos (σ.pos P) = P := by
  cases P
  simp only [pos, σ.board_board, σ.col_col]

theorem board_eq_some {b : Square → Option Piece} {s : Square} {k : PieceKind} {c : Color} :
    σ.board b (σ.sq s) = some ⟨k, σ.col c⟩ ↔ b s = some ⟨k, c⟩ := by
  simp only [board, σ.sq_sq]
  cases h : b s with
  | none => simp
  | some p =>
    obtain ⟨k', c'⟩ := p
    simp only [Option.map_some, piece, Option.some.injEq, Piece.mk.injEq]
    constructor
    · rintro ⟨h1, h2⟩; exact ⟨h1, σ.col_inj h2⟩
    · rintro ⟨h1, h2⟩; exact ⟨h1, by rw [h2]⟩

theorem board_eq_none {b : Square → Option Piece} {s : Square} :
    σ.board b (σ.sq s) = none ↔ b s = none := by
  simp [board, σ.sq_sq]

theorem occ {b : Square → Option Piece} {s : Square} : Occ (σ.board b) (σ.sq s) ↔ Occ b s :=
  not_congr σ.board_eq_none

theorem disp_iff {s t : Square} {c : Color} {df dr : Int} :
    Disp (σ.sq s) (σ.sq t) (-df) (fwd (σ.col c) * dr) ↔ Disp s t df (fwd c * dr) := by
  constructor
  · intro h
    have := σ.disp _ _ _ _ _ h
    rw [σ.sq_sq, σ.sq_sq, σ.col_col, Int.neg_neg] at this
    exact this
  · exact σ.disp _ _ _ _ _

theorem forall_sq {p : Square → Prop} : (∀ s, p (σ.sq s)) ↔ ∀ s, p s := by
  constructor
  · intro h s; have := h (σ.sq s); rwa [σ.sq_sq] at this
  · intro h s; exact h _

theorem exists_sq {p : Square → Prop} : (∃ s, p (σ.sq s)) ↔ ∃ s, p s := by
  constructor
  · rintro ⟨s, h⟩; exact ⟨_, h⟩
  · rintro ⟨s, h⟩; exact ⟨σ.sq s, by rwa [σ.sq_sq]⟩

theorem forall_move {p : Move → Prop} : (∀ s, p (σ.move s)) ↔ ∀ s, p s := by
  constructor
  · intro h s; have := h (σ.move s); rwa [σ.move_move] at this
  · intro h s; exact h _

theorem steps_neg (k : PieceKind) : ∀ d ∈ steps k, (-d.1, d.2) ∈ steps k := by
  cases k <;> decide

theorem slides_neg (k : PieceKind) : ∀ d ∈ slides k, (-d.1, d.2) ∈ slides k := by
  cases k <;> decide

theorem reaches_imp {o o' : Square → Prop} (ho : ∀ s, o' (σ.sq s) → o s) {k : PieceKind} {c : Color}
    {s t : Square} (h : Reaches o k c s t) : Reaches o' k (σ.col c) (σ.sq s) (σ.sq t) := by
  rcases h with ⟨d, hd, h⟩ | ⟨d, hd, n, hn, h, hcl⟩
  · exact .inl ⟨_, steps_neg k d hd, σ.disp_iff.2 h⟩
  · refine .inr ⟨_, slides_neg k d hd, n, hn, ?_, ?_⟩
    · have e1 : (n : Int) * -d.1 = -(n * d.1) := by rw [Int.mul_neg]
      have e2 : ∀ c, (n : Int) * (fwd c * d.2) = fwd c * (n * d.2) := by
        intro c; rw [Int.mul_left_comm]
      simp only [e1, e2] at h ⊢
      exact σ.disp_iff.2 h
    · intro m hm1 hm2
      rw [← σ.forall_sq]
      intro u hu ho'
      refine hcl m hm1 hm2 u ?_ (ho u ho')
      have e1 : (m : Int) * -d.1 = -(m * d.1) := by rw [Int.mul_neg]
      have e2 : ∀ c, (m : Int) * (fwd c * d.2) = fwd c * (m * d.2) := by
        intro c; rw [Int.mul_left_comm]
      simp only [e1, e2] at hu ⊢
      exact σ.disp_iff.1 hu

theorem reaches {b : Square → Option Piece} {k : PieceKind} {c : Color} {s t : Square} :
    Reaches (Occ (σ.board b)) k (σ.col c) (σ.sq s) (σ.sq t) ↔ Reaches (Occ b) k c s t := by
  constructor
  · intro h
    have := σ.reaches_imp (o' := Occ b) (fun s hs => by
      have := (σ.occ (b := b) (s := σ.sq s)).2 hs
      rwa [σ.sq_sq] at this) h
    rwa [σ.sq_sq, σ.sq_sq, σ.col_col] at this
  · exact σ.reaches_imp fun s hs => σ.occ.1 hs

theorem attacksFrom {b : Square → Option Piece} {c : Color} {s t : Square} :
    AttacksFrom (σ.board b) (σ.col c) (σ.sq s) (σ.sq t) ↔ AttacksFrom b c s t := by
  unfold AttacksFrom
  simp only [σ.board_eq_some, σ.reaches]

theorem inCheck {b : Square → Option Piece} {c : Color} :
    InCheck (σ.board b) (σ.col c) ↔ InCheck b c := by
  unfold InCheck Attacked
  rw [← σ.exists_sq]
  apply exists_congr
  intro k
  rw [← σ.exists_sq, σ.board_eq_some, ← σ.col_flip]
  simp only [σ.attacksFrom]

theorem zone_iff {c : Color} {s : Square} : InZone (σ.col c) (σ.sq s) ↔ InZone c s := by
  constructor
  · intro h
    have := σ.zone _ _ h
    rwa [σ.sq_sq, σ.col_col] at this
  · exact σ.zone _ _

theorem dead_iff {k : PieceKind} {c : Color} {s : Square} :
    Dead k (σ.col c) (σ.sq s) ↔ Dead k c s := by
  constructor
  · intro h
    have := σ.dead _ _ _ h
    rwa [σ.sq_sq, σ.col_col] at this
  · exact σ.dead _ _ _

theorem file_iff {s t : Square} : (σ.sq s).file = (σ.sq t).file ↔ s.file = t.file := by
  constructor
  · intro h
    have := σ.file _ _ h
    rwa [σ.sq_sq, σ.sq_sq] at this
  · exact σ.file _ _

theorem put (b : Square → Option Piece) (s : Square) (v : Option Piece) :
    σ.board (put b s v) = Spec.put (σ.board b) (σ.sq s) (v.map σ.piece) := by
  funext u
  simp only [board, Spec.put]
  by_cases h : u = σ.sq s
  · subst h
    rw [if_pos (σ.sq_sq s), if_pos rfl]
  · rw [if_neg (fun e => h (by rw [← e, σ.sq_sq])), if_neg h]

theorem apply (P : Pos) (m : Move) : apply (σ.pos P) (σ.move m) = σ.pos (apply P m) := by
  have hc : ∀ c, c = σ.col P.side ↔ σ.col c = P.side := by
    intro c
    constructor
    · rintro rfl; exact σ.col_col _
    · intro h; rw [← h, σ.col_col]
  cases m with
  | drop to pc =>
    simp only [Spec.apply, move, pos, σ.put, Option.map_some, σ.col_flip, piece, hc]
  | normal frm to pr =>
    have hto : ∀ s, σ.board P.board (σ.sq s) = (P.board s).map σ.piece := by
      intro s; simp [board, σ.sq_sq]
    simp only [Spec.apply, move, pos, hto]
    cases hf : P.board frm with
    | none => rfl
    | some p =>
      simp only [Option.map_some, σ.put, σ.col_flip, piece, Pos.mk.injEq, Option.map_none,
        true_and, and_true]
      funext c k
      cases P.board to with
      | none => rfl
      | some q => simp only [Option.map_some, hc, piece]

theorem pseudoLegal {P : Pos} {m : Move} : PseudoLegal (σ.pos P) (σ.move m) ↔ PseudoLegal P m := by
  cases m with
  | drop to pc =>
    simp only [PseudoLegal, move, pos, piece, σ.col_col, σ.board_eq_none, σ.dead_iff]
    have h1 : σ.col pc.color = σ.col P.side ↔ pc.color = P.side :=
      ⟨fun h => σ.col_inj h, fun h => by rw [h]⟩
    rw [h1]
    have h2 : (∀ s, s.file = (σ.sq to).file → σ.board P.board s ≠ some ⟨.pawn, σ.col P.side⟩) ↔
        ∀ s, s.file = to.file → P.board s ≠ some ⟨.pawn, P.side⟩ := by
      rw [← σ.forall_sq]
      simp only [σ.file_iff, ne_eq, σ.board_eq_some]
    simp only [h2]
  | normal frm to pr =>
    simp only [PseudoLegal, move, pos, σ.board_eq_some, σ.reaches, σ.zone_iff, σ.dead_iff]
    have h : (∀ q, σ.board P.board (σ.sq to) = some q → q.color ≠ σ.col P.side) ↔
        ∀ q, P.board to = some q → q.color ≠ P.side := by
      simp only [board, σ.sq_sq]
      cases P.board to with
      | none => simp
      | some p =>
        simp only [Option.map_some, Option.some.injEq, forall_eq', piece]
        exact ⟨fun h e => h (by rw [e]), fun h e => h (σ.col_inj e)⟩
    simp only [h]

theorem safe {P : Pos} {m : Move} : Safe (σ.pos P) (σ.move m) ↔ Safe P m := by
  unfold Safe
  rw [σ.pseudoLegal, σ.apply]
  exact and_congr Iff.rfl (not_congr σ.inCheck)

theorem mated {P : Pos} : Mated (σ.pos P) ↔ Mated P := by
  unfold Mated
  rw [← σ.forall_move]
  simp only [σ.safe]
  exact and_congr σ.inCheck Iff.rfl

/-- Legality is invariant under the symmetry. -/
theorem legal {P : Pos} {m : Move} : Legal (σ.pos P) (σ.move m) ↔ Legal P m := by
  unfold Legal
  rw [σ.safe, σ.apply, σ.mated]
  have : IsPawnDrop (σ.move m) ↔ IsPawnDrop m := by cases m <;> exact Iff.rfl
  rw [this]

omit σ in
/-- The first rank is the last rank of the other side. -/
theorem homeRank_iff {c : Color} {s : Square} : HomeRank c s ↔ Dead .pawn c.flip s := by
  cases c <;> exact Iff.rfl

/-- Validity is invariant under the symmetry. -/
theorem valid_imp {P : Pos} (h : Valid P) : Valid (σ.pos P) := by
  have hc : ∀ {p : Color → Prop}, (∀ c, p (σ.col c)) → ∀ c, p c := by
    intro p h c; have := h (σ.col c); rwa [σ.col_col] at this
  refine ⟨?_, ?_, ?_, ?_⟩
  · refine hc fun c => ?_
    rw [← σ.forall_sq]; intro s
    rw [← σ.forall_sq]; intro t hs ht
    rw [h.oneKing c s t (σ.board_eq_some.1 hs) (σ.board_eq_some.1 ht)]
  · intro hk
    apply h.notInCheck
    rw [← σ.inCheck, σ.col_flip]
    exact hk
  · refine hc fun c => ?_
    rw [← σ.forall_sq]; intro s
    rw [← σ.forall_sq]; intro t hs ht hf hh
    rw [homeRank_iff, ← σ.col_flip, σ.dead_iff, ← homeRank_iff] at hh
    rw [h.homePawn c s t (σ.board_eq_some.1 hs) (σ.board_eq_some.1 ht) (σ.file_iff.1 hf) hh]
  · refine hc fun c => ?_
    rw [← σ.forall_sq]; intro s hs
    rw [σ.dead_iff]
    exact h.noDeadPawn c s (σ.board_eq_some.1 hs)

end Sym

/-! ## The two symmetries -/

/-- The square with file and rank replaced by ten minus them. -/
def rot180 (s : Square) : Square := ⟨80 - s.val, by omega⟩

/-- The square with the file replaced by ten minus it. -/
def mirrorLR (s : Square) : Square := ⟨9 * (8 - s.val / 9) + s.val % 9, by omega⟩

theorem rot180_coords (s : Square) :
    (rot180 s).file + s.file = 10 ∧ (rot180 s).rank + s.rank = 10 := by
  revert s; decide +kernel

theorem mirrorLR_coords (s : Square) :
    (mirrorLR s).file + s.file = 10 ∧ (mirrorLR s).rank = s.rank := by
  revert s; decide +kernel

/-- Rotation by 180 degrees with exchange of colours. -/
def rotation : Sym where
  sq := rot180
  col := Color.flip
  sq_sq := by decide +kernel
  col_col c := by cases c <;> rfl
  col_flip c := by cases c <;> rfl
  disp s t c df dr h := by
    obtain ⟨h1, h2⟩ := h
    have a := rot180_coords s
    have b := rot180_coords t
    have e : fwd c.flip = - fwd c := by cases c <;> rfl
    refine ⟨by omega, ?_⟩
    rw [e, Int.neg_mul]
    omega
  file s t h := by
    have a := rot180_coords s
    have b := rot180_coords t
    omega
  zone c s h := by
    have a := rot180_coords s
    cases c <;> simp only [InZone, Color.flip] at h ⊢ <;> omega
  dead k c s h := by
    have a := rot180_coords s
    cases k <;> cases c <;> simp only [Dead, Color.flip] at h ⊢ <;> omega

/-- Left-right reflection. -/
def reflection : Sym where
  sq := mirrorLR
  col := id
  sq_sq := by decide +kernel
  col_col c := by cases c <;> rfl
  col_flip c := by cases c <;> rfl
  disp s t c df dr h := by
    obtain ⟨h1, h2⟩ := h
    have a := mirrorLR_coords s
    have b := mirrorLR_coords t
    refine ⟨by omega, ?_⟩
    simp only [id]
    omega
  file s t h := by
    have a := mirrorLR_coords s
    have b := mirrorLR_coords t
    omega
  zone c s h := by
    have a := mirrorLR_coords s
    cases c <;> simp only [InZone, id] at h ⊢ <;> omega
  dead k c s h := by
    have a := mirrorLR_coords s
    cases k <;> cases c <;> simp only [Dead, id] at h ⊢ <;> omega

end Yasai

import Verif.Proofs.Geometry

/-!
# The rules are decidable

Decision procedures for the predicates of `Spec/Rules.lean`, used to check the hypotheses of
theorems on concrete positions.
-/

namespace Yasai

open Spec

/-- Decision procedure for `Reaches`. -/
def reachesB (occ : Square → Bool) (k : PieceKind) (c : Color) (s t : Square) : Bool :=
  (steps k).any (fun d => decide (s.shift d.1 (fwd c * d.2) = some t)) ||
  (slides k).any fun d => (List.range 9).any fun n =>
    decide (1 ≤ n) && decide (s.shift (n * d.1) (n * (fwd c * d.2)) = some t) &&
      (List.range n).all fun m => decide (m = 0) ||
        match s.shift (m * d.1) (m * (fwd c * d.2)) with
        | none => true
        | some u => !occ u

theorem reachesB_iff {occ : Square → Bool} {k : PieceKind} {c : Color} {s t : Square} :
    reachesB occ k c s t = true ↔ Reaches (fun u => occ u = true) k c s t := by
  unfold reachesB Reaches
  rw [Bool.or_eq_true, List.any_eq_true, List.any_eq_true]
  apply or_congr
  · simp only [decide_eq_true_eq, shift_eq_some]
  · apply exists_congr
    intro d
    apply and_congr_right
    intro hd
    rw [List.any_eq_true]
    simp only [Bool.and_eq_true, decide_eq_true_eq, shift_eq_some, List.all_eq_true,
      List.mem_range, Bool.or_eq_true]
    constructor
    · rintro ⟨n, _, ⟨h1, h2⟩, h3⟩
      refine ⟨n, h1, h2, fun m hm hmn u hu => ?_⟩
      rcases h3 m hmn with h | h
      · omega
      · rw [shift_eq_some.2 hu] at h
        simpa using h
    · rintro ⟨n, h1, h2, h3⟩
      refine ⟨n, ?_, ⟨h1, h2⟩, fun m hmn => ?_⟩
      · have := ray_le (slide_dir (c := c) hd) (s := s) (t := t) h2
        omega
      · by_cases hm : m = 0
        · exact .inl hm
        · right
          cases e : s.shift (m * d.1) (m * (fwd c * d.2)) with
          | none => rfl
          | some u =>
            have := h3 m (by omega) hmn u (shift_eq_some.1 e)
            simpa using this

instance (occ : Square → Bool) (k : PieceKind) (c : Color) (s t : Square) :
    Decidable (Reaches (fun u => occ u = true) k c s t) :=
  decidable_of_iff _ reachesB_iff

theorem occ_eq (b : Square → Option Piece) : Occ b = fun u => (b u).isSome = true := by
  funext u
  unfold Occ
  cases b u <;> simp

instance (b : Square → Option Piece) (k : PieceKind) (c : Color) (s t : Square) :
    Decidable (Reaches (Occ b) k c s t) :=
  decidable_of_iff (reachesB (fun u => (b u).isSome) k c s t = true) (by
    rw [reachesB_iff, occ_eq])

instance (b : Square → Option Piece) (s : Square) : Decidable (Occ b s) := by
  unfold Occ; infer_instance

theorem attacksFrom_iff {b : Square → Option Piece} {c : Color} {s t : Square} :
    AttacksFrom b c s t ↔ (match b s with
      | some p => p.color = c ∧ Reaches (Occ b) p.kind c s t
      | none => False) := by
  unfold AttacksFrom
  cases e : b s with
  | none => simp
  | some p =>
    constructor
    · rintro ⟨k, h, hr⟩
      cases h
      exact ⟨rfl, hr⟩
    · rintro ⟨rfl, hr⟩
      exact ⟨p.kind, rfl, hr⟩

instance (b : Square → Option Piece) (c : Color) (s t : Square) : Decidable (AttacksFrom b c s t) :=
  match e : b s with
  | some p => decidable_of_iff (p.color = c ∧ Reaches (Occ b) p.kind c s t) (by
      rw [attacksFrom_iff, e])
  | none => .isFalse (by rw [attacksFrom_iff, e]; exact id)

instance (b : Square → Option Piece) (c : Color) (t : Square) : Decidable (Attacked b c t) := by
  unfold Attacked; infer_instance

instance (b : Square → Option Piece) (c : Color) : Decidable (InCheck b c) := by
  unfold InCheck; infer_instance

instance (c : Color) (s : Square) : Decidable (InZone c s) := by
  unfold InZone; cases c <;> infer_instance

instance (k : PieceKind) (c : Color) (s : Square) : Decidable (Dead k c s) := by
  unfold Dead; cases k <;> cases c <;> infer_instance

theorem pseudo_normal_iff {P : Pos} {frm to : Square} {pr : Bool} :
    PseudoLegal P (.normal frm to pr) ↔ (match P.board frm with
      | some p => p.color = P.side ∧ Reaches (Occ P.board) p.kind P.side frm to ∧
        (match P.board to with
          | some q => q.color ≠ P.side
          | none => True) ∧
        (pr = true → p.kind.promote ≠ none ∧ (InZone P.side frm ∨ InZone P.side to)) ∧
        (pr = false → ¬ Dead p.kind P.side to)
      | none => False) := by
  have hto : (∀ q, P.board to = some q → q.color ≠ P.side) ↔ (match P.board to with
      | some q => q.color ≠ P.side
      | none => True) := by
    cases P.board to <;> simp
  rw [← hto]
  unfold PseudoLegal
  cases e : P.board frm with
  | none =>
    constructor
    · rintro ⟨k, h, _⟩
      rw [e] at h; cases h
    · exact False.elim
  | some p =>
    constructor
    · rintro ⟨k, h, hr⟩
      rw [e] at h
      have h := Option.some.inj h
      subst h
      exact ⟨rfl, hr⟩
    · rintro ⟨h, hr⟩
      refine ⟨p.kind, ?_, hr⟩
      rw [← h]; exact e

instance decPseudo (P : Pos) : (m : Move) → Decidable (PseudoLegal P m)
  | .normal frm to pr =>
    match e : P.board frm with
    | none => .isFalse (by rw [pseudo_normal_iff, e]; exact id)
    | some p =>
      match e' : P.board to with
      | none => decidable_of_iff (p.color = P.side ∧ Reaches (Occ P.board) p.kind P.side frm to ∧
          (pr = true → p.kind.promote ≠ none ∧ (InZone P.side frm ∨ InZone P.side to)) ∧
          (pr = false → ¬ Dead p.kind P.side to)) (by
            rw [pseudo_normal_iff, e, e']; simp)
      | some q => decidable_of_iff (p.color = P.side ∧ Reaches (Occ P.board) p.kind P.side frm to ∧
          q.color ≠ P.side ∧
          (pr = true → p.kind.promote ≠ none ∧ (InZone P.side frm ∨ InZone P.side to)) ∧
          (pr = false → ¬ Dead p.kind P.side to)) (by
            rw [pseudo_normal_iff, e, e'])
  | .drop to p => by unfold PseudoLegal; infer_instance

instance (P : Pos) (m : Move) : Decidable (Safe P m) := by
  unfold Safe; infer_instance

/-- All colours, kinds and moves. -/
def Move.all : List Move :=
  (Square.all.flatMap fun s => Square.all.flatMap fun t =>
    [.normal s t false, .normal s t true]) ++
  (Square.all.flatMap fun t => PieceKind.all.flatMap fun k =>
    [.drop t ⟨k, .black⟩, .drop t ⟨k, .white⟩])

theorem Move.mem_all (m : Move) : m ∈ Move.all := by
  unfold Move.all
  have hs : ∀ s : Square, s ∈ Square.all := fun s => by simp [Square.all]
  rw [List.mem_append]
  cases m with
  | normal s t pr =>
    left
    rw [List.mem_flatMap]
    refine ⟨s, hs s, ?_⟩
    rw [List.mem_flatMap]
    refine ⟨t, hs t, ?_⟩
    cases pr <;> simp
  | drop t p =>
    right
    rw [List.mem_flatMap]
    refine ⟨t, hs t, ?_⟩
    rw [List.mem_flatMap]
    obtain ⟨k, c⟩ := p
    refine ⟨k, by cases k <;> decide, ?_⟩
    cases c <;> simp

instance (P : Pos) : Decidable (Mated P) :=
  decidable_of_iff (InCheck P.board P.side ∧ ∀ m ∈ Move.all, ¬ Safe P m) (by
    unfold Mated
    exact and_congr_right fun _ => ⟨fun h m => h m (Move.mem_all m), fun h m _ => h m⟩)

instance : (m : Move) → Decidable (IsPawnDrop m)
  | .normal _ _ _ => .isFalse id
  | .drop _ p => inferInstanceAs (Decidable (p.kind = .pawn))

instance (P : Pos) (m : Move) : Decidable (Legal P m) := by
  unfold Legal; infer_instance

instance decAllColor (p : Color → Prop) [DecidablePred p] : Decidable (∀ c, p c) :=
  decidable_of_iff (p .black ∧ p .white) ⟨fun h c => by cases c <;> simp [h],
    fun h => ⟨h _, h _⟩⟩

instance decAllKind (p : PieceKind → Prop) [DecidablePred p] : Decidable (∀ c, p c) :=
  decidable_of_iff (∀ k ∈ PieceKind.all, p k)
    ⟨fun h k => h k (by cases k <;> decide), fun h k _ => h k⟩

instance (c : Color) (s : Square) : Decidable (HomeRank c s) := by
  unfold HomeRank; infer_instance

instance (P : Pos) : Decidable (Valid P) :=
  decidable_of_iff
    ((∀ c s, P.board s = some ⟨.king, c⟩ → ∀ t, P.board t = some ⟨.king, c⟩ → s = t) ∧
      ¬ InCheck P.board P.side.flip ∧
      (∀ c s, P.board s = some ⟨.pawn, c⟩ → ∀ t, P.board t = some ⟨.pawn, c⟩ →
        s.file = t.file → HomeRank c s → s = t) ∧
      ∀ c s, P.board s = some ⟨.pawn, c⟩ → ¬ Dead .pawn c s)
    ⟨fun h => ⟨fun c s t h1 h2 => h.1 c s h1 t h2, h.2.1, fun c s t h1 h2 => h.2.2.1 c s h1 t h2,
      h.2.2.2⟩,
     fun h => ⟨fun c s h1 t h2 => h.1 c s t h1 h2, h.2, fun c s h1 t h2 => h.3 c s t h1 h2, h.4⟩⟩

instance (P : Pos) : Decidable (Material P) := by
  unfold Material; infer_instance

instance (P : Pos) (c : Color) : Decidable (HasKing P c) := by
  unfold HasKing; infer_instance

instance (P : Pos) : Decidable (Loose P) :=
  decidable_of_iff
    ((∀ c s, P.board s = some ⟨.king, c⟩ → ∀ t, P.board t = some ⟨.king, c⟩ → s = t) ∧
      (∀ c s, P.board s = some ⟨.king, c⟩ → ∀ t, P.board t = some ⟨.king, c.flip⟩ →
        ¬ Reaches (Occ P.board) .king c s t) ∧
      (∀ c s, P.board s = some ⟨.pawn, c⟩ → ∀ t, P.board t = some ⟨.pawn, c⟩ →
        s.file = t.file → HomeRank c s → s = t) ∧
      ∀ c s, P.board s = some ⟨.pawn, c⟩ → ¬ Dead .pawn c s)
    ⟨fun h => ⟨fun c s t h1 h2 => h.1 c s h1 t h2, fun c s t h1 h2 => h.2.1 c s h1 t h2,
      fun c s t h1 h2 => h.2.2.1 c s h1 t h2, h.2.2.2⟩,
    fun h => ⟨fun c s h1 t h2 => h.1 c s t h1 h2, fun c s h1 t h2 => h.2 c s t h1 h2,
      fun c s h1 t h2 => h.3 c s t h1 h2, h.4⟩⟩

instance (P : Pos) : Decidable (Tame P) :=
  decidable_of_iff
    ((∀ c s, P.board s = some ⟨.king, c⟩ → ∀ t, P.board t = some ⟨.king, c⟩ → s = t) ∧
      (∀ c s, P.board s = some ⟨.pawn, c⟩ → ∀ t, P.board t = some ⟨.pawn, c⟩ →
        s.file = t.file → HomeRank c s → s = t) ∧
      ∀ c s, P.board s = some ⟨.pawn, c⟩ → ¬ Dead .pawn c s)
    ⟨fun h => ⟨fun c s t h1 h2 => h.1 c s h1 t h2, fun c s t h1 h2 => h.2.1 c s h1 t h2, h.2.2⟩,
    fun h => ⟨fun c s h1 t h2 => h.1 c s t h1 h2, fun c s h1 t h2 => h.2 c s t h1 h2, h.3⟩⟩

end Yasai

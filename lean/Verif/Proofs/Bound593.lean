import Verif.Proofs.Capacity

/-!
# At most 593 moves are generated

The pseudo-legal moves are counted by square: board moves by the square of the piece, drops by the
target square.  Each occupied square takes away the drops on it; the gain of a piece is the number
of its moves minus these drops.
-/

namespace Yasai

open Spec

/-! ## Lists -/

theorem length_le_of_nodup_subset {α : Type} [DecidableEq α] {l l' : List α} (hn : l.Nodup)
    (hs : ∀ a ∈ l, a ∈ l') : l.length ≤ l'.length := by
  induction l generalizing l' with
  | nil => exact Nat.zero_le _
  | cons a l ih =>
    rw [List.nodup_cons] at hn
    have ha : a ∈ l' := hs a List.mem_cons_self
    have := ih hn.2 (l' := l'.erase a) fun b hb => by
      have hne : b ≠ a := by rintro rfl; exact hn.1 hb
      exact (List.mem_erase_of_ne hne).2 (hs b (List.mem_cons_of_mem _ hb))
    rw [List.length_erase_of_mem ha] at this
    have hpos : 0 < l'.length := List.length_pos_of_mem ha
    simp only [List.length_cons]
    omega

theorem sum_map_le {α : Type} (l : List α) {f g : α → Nat} (h : ∀ a ∈ l, f a ≤ g a) :
    (l.map f).sum ≤ (l.map g).sum := by
  induction l with
  | nil => exact Nat.le_refl _
  | cons a l ih =>
    simp only [List.map_cons, List.sum_cons]
    exact Nat.add_le_add (h a List.mem_cons_self) (ih fun b hb => h b (List.mem_cons_of_mem _ hb))

theorem sum_map_add {α : Type} (l : List α) (f g : α → Nat) :
    (l.map fun a => f a + g a).sum = (l.map f).sum + (l.map g).sum := by
  induction l with
  | nil => rfl
  | cons a l ih => simp only [List.map_cons, List.sum_cons, ih]; omega

theorem le_sum_map {α : Type} {l : List α} {a : α} (h : a ∈ l) (f : α → Nat) :
    f a ≤ (l.map f).sum := by
  induction l with
  | nil => cases h
  | cons b l ih =>
    simp only [List.map_cons, List.sum_cons]
    rcases List.mem_cons.1 h with rfl | h
    · omega
    · have := ih h; omega

theorem sum_count {α : Type} (l : List α) (p : α → Bool) (g : Nat) :
    (l.map fun a => (p a).toNat * g).sum = l.countP p * g := by
  induction l with
  | nil => simp
  | cons a l ih =>
    simp only [List.map_cons, List.sum_cons, ih, List.countP_cons]
    cases p a <;> simp [Nat.add_mul, Nat.add_comm]

theorem sum_zero {α : Type} (l : List α) : (l.map fun _ => (0 : Nat)).sum = 0 := by
  induction l with
  | nil => rfl
  | cons a l ih => simp only [List.map_cons, List.sum_cons, ih]

theorem sum_swap {α β : Type} (l : List α) (bs : List β) (p : β → α → Bool) (g : β → Nat) :
    (l.map fun a => (bs.map fun b => (p b a).toNat * g b).sum).sum =
      (bs.map fun b => l.countP (p b) * g b).sum := by
  induction bs with
  | nil => simp only [List.map_nil, List.sum_nil, sum_zero]
  | cons b bs ih =>
    simp only [List.map_cons, List.sum_cons, sum_map_add, ih, sum_count]

theorem length_flatMap_sum {α β : Type} (l : List α) (f : α → List β) :
    (l.flatMap f).length = (l.map fun a => (f a).length).sum := by
  induction l with
  | nil => rfl
  | cons a l ih => simp only [List.flatMap_cons, List.length_append, List.map_cons, List.sum_cons, ih]

/-! ## The numeric bound -/

def dropOrder : List PieceKind := [.pawn, .lance, .knight, .silver, .gold, .bishop, .rook]

/-- Number of kinds in hand that may be dropped on `s`. -/
def dropsOn (H : PieceKind → Bool) (c : Color) (s : Square) : Nat :=
  dropOrder.countP fun k => H k && !decide (Dead k c s)

/-- The same by rank. -/
def dropsRank (H : PieceKind → Bool) (r : Nat) : Nat :=
  ((H .gold).toNat + (H .silver).toNat + (H .bishop).toNat + (H .rook).toNat) +
  (if 2 ≤ r then (H .pawn).toNat + (H .lance).toNat else 0) +
  (if 3 ≤ r then (H .knight).toNat else 0)

theorem relRank_bounds (c : Color) (s : Square) : 1 ≤ relRank c s ∧ relRank c s ≤ 9 := by
  have h1 : 1 ≤ s.rank ∧ s.rank ≤ 9 := ⟨s.rank_pos, s.rank_le⟩
  unfold relRank
  cases c <;> simp only <;> omega

theorem ite_toNat (b : Bool) : (if b = true then 1 else 0) = b.toNat := by cases b <;> rfl

theorem dropsOn_eq (H : PieceKind → Bool) (c : Color) (s : Square) :
    dropsOn H c s = dropsRank H (relRank c s) := by
  have h1 : 1 ≤ s.rank ∧ s.rank ≤ 9 := ⟨s.rank_pos, s.rank_le⟩
  have hp : decide (Dead .pawn c s) = !decide (2 ≤ relRank c s) := by
    rw [← decide_not]
    apply decide_eq_decide.2
    cases c <;> simp only [Dead, relRank] <;> omega
  have hl : decide (Dead .lance c s) = !decide (2 ≤ relRank c s) := by
    rw [← decide_not]
    apply decide_eq_decide.2
    cases c <;> simp only [Dead, relRank] <;> omega
  have hn : decide (Dead .knight c s) = !decide (3 ≤ relRank c s) := by
    rw [← decide_not]
    apply decide_eq_decide.2
    cases c <;> simp only [Dead, relRank] <;> omega
  have ho : ∀ k, k = .silver ∨ k = .gold ∨ k = .bishop ∨ k = .rook →
      decide (Dead k c s) = false := by
    rintro k (rfl | rfl | rfl | rfl) <;> exact decide_eq_false id
  unfold dropsOn dropsRank dropOrder
  simp only [List.countP_cons, List.countP_nil, hp, hl, hn, ho .silver (.inl rfl),
    ho .gold (.inr (.inl rfl)), ho .bishop (.inr (.inr (.inl rfl))),
    ho .rook (.inr (.inr (.inr rfl))), Bool.not_not, Bool.not_false, Bool.and_true]
  generalize relRank c s = r
  by_cases h2 : 2 ≤ r <;> by_cases h3 : 3 ≤ r <;>
  · simp only [h2, h3, decide_true, decide_false, Bool.and_true, Bool.and_false, if_true, if_false,
      ite_toNat, Bool.toNat_false]
    omega

def ranks : List Nat := [1, 2, 3, 4, 5, 6, 7, 8, 9]

/-- The largest gain of a piece of basic kind `b`. -/
def gain (M : PieceKind → Nat → Nat) (H : PieceKind → Bool) (b : PieceKind) : Nat :=
  ranks.foldl (fun a r => max a (max (M b r - dropsRank H r)
    (M (b.promote.getD b) r - dropsRank H r))) 0

def bases : List PieceKind := [.pawn, .lance, .knight, .silver, .gold, .bishop, .rook, .king]

/-- How many pieces of a basic kind the side to move can have on the board. -/
def onBoard (H : PieceKind → Bool) : PieceKind → Nat
  | .king => 1
  | b => standardCount b - (H b).toNat

/-- The bound. -/
def bound (M : PieceKind → Nat → Nat) (H : PieceKind → Bool) : Nat :=
  9 * (ranks.map (dropsRank H)).sum + (bases.map fun b => onBoard H b * gain M H b).sum

def mkH (p l n s g b r : Bool) : PieceKind → Bool
  | .pawn => p
  | .lance => l
  | .knight => n
  | .silver => s
  | .gold => g
  | .bishop => b
  | .rook => r
  | _ => false

/-- All seven kinds are in hand. -/
def fullHand (H : PieceKind → Bool) : Bool :=
  H .pawn && H .lance && H .knight && H .silver && H .gold && H .bishop && H .rook

theorem bound_mkH (M : PieceKind → Nat → Nat) (H : PieceKind → Bool) :
    bound M H = bound M (mkH (H .pawn) (H .lance) (H .knight) (H .silver) (H .gold) (H .bishop)
      (H .rook)) := by
  generalize hH : mkH (H .pawn) (H .lance) (H .knight) (H .silver) (H .gold) (H .bishop)
      (H .rook) = H'
  have e : dropsRank H = dropsRank H' := by subst hH; rfl
  have eg : gain M H = gain M H' := by unfold gain; rw [e]
  have eo : ∀ b ∈ bases, onBoard H b * gain M H b = onBoard H' b * gain M H' b := by
    intro b hb
    rw [eg]
    congr 1
    subst hH
    revert hb
    cases b <;> first | (intro _; rfl) | (intro hb; exact absurd hb (by decide))
  unfold bound
  rw [e, List.map_congr_left eo]

theorem bound_numeric : ∀ p l n s g b r : Bool,
    bound maxFree (mkH p l n s g b r) ≤ (if fullHand (mkH p l n s g b r) then 599 else 593) ∧
    bound maxFree' (mkH p l n s g b r) ≤ 597 := by decide +kernel

/-! ## Counting by square -/

/-- The kinds in hand of the side to move. -/
def inHand (P : Pos) (k : PieceKind) : Bool := decide (0 < P.hand P.side k)

/-- The moves counted for square `s`: free moves of the own piece on it, or drops on it. -/
def sqMoves (no : Option Square) (P : Pos) (s : Square) : List Move :=
  match P.board s with
  | none => (dropOrder.filter fun k => inHand P k && !decide (Dead k P.side s)).map
      fun k => .drop s ⟨k, P.side⟩
  | some p => if p.color = P.side then freeMoves no p.kind P.side s else []

theorem mem_choices {k : PieceKind} {c : Color} {frm to : Square} {pr : Bool}
    (h1 : pr = true → k.promote ≠ none ∧ (InZone c frm ∨ InZone c to))
    (h2 : pr = false → ¬ Dead k c to) : pr ∈ choices k c frm to := by
  unfold choices
  rw [List.mem_append]
  cases pr with
  | true =>
    left
    obtain ⟨a, b⟩ := h1 rfl
    rw [if_pos (by
      rw [Bool.and_eq_true, Bool.or_eq_true, decide_eq_true_eq, decide_eq_true_eq]
      exact ⟨Option.isSome_iff_ne_none.2 a, b⟩)]
    exact List.mem_cons_self
  | false =>
    right
    rw [if_neg (by rw [decide_eq_true_eq]; exact h2 rfl)]
    exact List.mem_cons_self

/-- Every pseudo-legal move is counted; none goes to a king that is not attacked. -/
theorem mem_sqMoves {P : Pos} {no : Option Square}
    (hno : ∀ t, no = some t → P.board t = some ⟨.king, P.side.flip⟩ ∧
      ¬ InCheck P.board P.side.flip) {m : Move}
    (hm : PseudoLegal P m) : m ∈ Square.all.flatMap (sqMoves no P) := by
  rw [List.mem_flatMap]
  cases m with
  | normal frm to pr =>
    obtain ⟨k, hfrm, hr, hown, h1, h2⟩ := hm
    refine ⟨frm, mem_all frm, ?_⟩
    unfold sqMoves
    rw [hfrm]
    simp only [if_true]
    unfold freeMoves
    rw [List.mem_flatMap]
    refine ⟨to, List.mem_filter.2 ⟨mem_reachList hr, ?_⟩, ?_⟩
    · rw [decide_eq_true_eq]
      intro e
      apply (hno to e.symm).2
      refine ⟨to, (hno to e.symm).1, frm, k, ?_, ?_⟩ <;> rw [Color.flip_flip]
      · exact hfrm
      · exact hr
    · rw [List.mem_map]
      exact ⟨pr, mem_choices h1 h2, rfl⟩
  | drop to pc =>
    obtain ⟨hc, hh, hpos, hemp, hd, _⟩ := hm
    refine ⟨to, mem_all to, ?_⟩
    unfold sqMoves
    rw [hemp]
    obtain ⟨k, c⟩ := pc
    simp only at hc hh hpos hd
    subst hc
    rw [List.mem_map]
    refine ⟨k, List.mem_filter.2 ⟨?_, ?_⟩, rfl⟩
    · revert hh; cases k <;> decide
    · simp only [inHand, Bool.and_eq_true, Bool.not_eq_true', decide_eq_true_eq,
        decide_eq_false_iff_not]
      exact ⟨hpos, hd⟩

/-- An own piece of basic kind `b` stands on `s`. -/
def ownBase (P : Pos) (b : PieceKind) (s : Square) : Bool :=
  match P.board s with
  | some p => decide (p.color = P.side) && decide (base p.kind = b)
  | none => false

theorem foldl_max_ge {α : Type} (l : List α) (f : α → Nat) (a : Nat) :
    a ≤ l.foldl (fun a r => max a (f r)) a ∧ ∀ r ∈ l, f r ≤ l.foldl (fun a r => max a (f r)) a := by
  induction l generalizing a with
  | nil => exact ⟨Nat.le_refl _, fun r h => by cases h⟩
  | cons x l ih =>
    obtain ⟨h1, h2⟩ := ih (max a (f x))
    refine ⟨Nat.le_trans (Nat.le_max_left _ _) h1, fun r hr => ?_⟩
    rcases List.mem_cons.1 hr with rfl | hr
    · exact Nat.le_trans (Nat.le_max_right _ _) h1
    · exact h2 r hr

theorem le_gain (M : PieceKind → Nat → Nat) (H : PieceKind → Bool) (k : PieceKind) {r : Nat}
    (hr : 1 ≤ r ∧ r ≤ 9) : M k r ≤ dropsRank H r + gain M H (base k) := by
  have hmem : r ∈ ranks := by
    have : r = 1 ∨ r = 2 ∨ r = 3 ∨ r = 4 ∨ r = 5 ∨ r = 6 ∨ r = 7 ∨ r = 8 ∨ r = 9 := by omega
    simpa [ranks] using this
  have h := (foldl_max_ge ranks (fun r => max (M (base k) r - dropsRank H r)
    (M ((base k).promote.getD (base k)) r - dropsRank H r)) 0).2 r hmem
  have hk : k = base k ∨ k = (base k).promote.getD (base k) := by cases k <;> decide
  have h' : max (M (base k) r - dropsRank H r)
    (M ((base k).promote.getD (base k)) r - dropsRank H r) ≤ gain M H (base k) := h
  rcases hk with e | e
  · rw [← e] at h' ⊢
    have := Nat.le_trans (Nat.le_max_left _ _) h'
    omega
  · rw [← e] at h'
    have := Nat.le_trans (Nat.le_max_right _ _) h'
    omega

theorem base_mem (k : PieceKind) : base k ∈ bases := by cases k <;> decide

/-- Pointwise estimate. -/
theorem sqMoves_le {P : Pos} {no bl : Option Square} {M : PieceKind → Nat → Nat}
    (hno : ∀ t, bl = some t → P.board t = some ⟨.king, P.side.flip⟩)
    (hM : ∀ k s, P.board s = some ⟨k, P.side⟩ →
      (freeMoves no k P.side s).length ≤ M k (relRank P.side s)) (s : Square) :
    (sqMoves no P s).length +
        (if bl = some s then dropsRank (inHand P) (relRank P.side s) else 0) ≤
      dropsRank (inHand P) (relRank P.side s) +
        (bases.map fun b => (ownBase P b s).toNat * gain M (inHand P) b).sum := by
  cases hs : P.board s with
  | none =>
    have hne : bl ≠ some s := by
      intro e; rw [hno s e] at hs; cases hs
    rw [if_neg hne]
    have : (sqMoves no P s).length = dropsOn (inHand P) P.side s := by
      unfold sqMoves
      rw [hs]
      simp only [List.length_map, dropsOn, List.countP_eq_length_filter]
    rw [this, dropsOn_eq]
    omega
  | some p =>
    by_cases hc : p.color = P.side
    · have hne : bl ≠ some s := by
        intro e; rw [hno s e] at hs; cases hs; exact flip_ne _ hc
      rw [if_neg hne]
      have h1 : (sqMoves no P s).length ≤ M p.kind (relRank P.side s) := by
        unfold sqMoves
        rw [hs]
        simp only [hc, if_true]
        exact hM p.kind s (by rw [hs, ← hc])
      have h2 := le_gain M (inHand P) p.kind (relRank_bounds P.side s)
      have h3 := le_sum_map (base_mem p.kind)
        (fun b => (ownBase P b s).toNat * gain M (inHand P) b)
      have h4 : ownBase P (base p.kind) s = true := by
        unfold ownBase
        rw [hs]
        simp [hc]
      simp only [h4, Bool.toNat_true, Nat.one_mul] at h3
      omega
    · have h1 : (sqMoves no P s).length = 0 := by
        unfold sqMoves
        rw [hs]
        simp only [hc, if_false, List.length_nil]
      rw [h1]
      split <;> omega

/-- Number of own pieces of a basic kind on the board. -/
theorem count_own {P : Pos} (hv : Tame P) (hm : Material P) {b : PieceKind} (hb : b ∈ bases) :
    Square.all.countP (ownBase P b) ≤ onBoard (inHand P) b := by
  by_cases hk : b = .king
  · subst hk
    show _ ≤ 1
    rw [List.countP_eq_length_filter]
    cases hl : Square.all.filter (ownBase P .king) with
    | nil => exact Nat.zero_le _
    | cons x l =>
      cases l with
      | nil => exact Nat.le_refl _
      | cons y l =>
        exfalso
        have hnd : (x :: y :: l).Nodup := by rw [← hl]; exact nodup_all.filter _
        have hmem : ∀ z, z ∈ x :: y :: l → P.board z = some ⟨.king, P.side⟩ := by
          intro z hz
          rw [← hl, List.mem_filter] at hz
          have := hz.2
          unfold ownBase at this
          cases hbz : P.board z with
          | none => rw [hbz] at this; cases this
          | some p =>
            rw [hbz] at this
            simp only [Bool.and_eq_true, decide_eq_true_eq] at this
            obtain ⟨k, c⟩ := p
            simp only at this
            obtain ⟨rfl, h2⟩ := this
            have : k = .king := by revert h2; cases k <;> decide
            rw [this]
        have e := hv.oneKing _ _ _ (hmem x (by simp)) (hmem y (by simp))
        subst e
        simp at hnd
  · have h1 : Square.all.countP (ownBase P b) ≤ boardCount P.board b := by
      apply List.countP_mono_left
      intro s _ h
      unfold ownBase at h
      cases hs : P.board s with
      | none => rw [hs] at h; cases h
      | some p =>
        rw [hs] at h
        simp only [Bool.and_eq_true] at h
        exact h.2
    have h2 := hm.1 b
    rw [total_eq] at h2
    have h3 : (inHand P b).toNat ≤ P.hand P.side b := by
      unfold inHand
      by_cases h : 0 < P.hand P.side b <;> simp [h] <;> omega
    have h4 : P.hand P.side b ≤ P.hand .black b + P.hand .white b := by
      cases P.side <;> omega
    have h5 : onBoard (inHand P) b = standardCount b - (inHand P b).toNat := by
      revert hk; cases b <;> first | (intro _; rfl) | (intro h; exact absurd rfl h)
    rw [h5]
    omega

theorem sum_ranks (f : Nat → Nat) (c : Color) :
    (Square.all.map fun s => f (relRank c s)).sum = 9 * (ranks.map f).sum := by
  have e : (Square.all.map fun s => f (relRank c s)) = (Square.all.map (relRank c)).map f := by
    rw [List.map_map]; rfl
  rw [e]
  cases c with
  | black =>
    have : Square.all.map (relRank .black) = ranks ++ ranks ++ ranks ++ ranks ++ ranks ++ ranks ++
      ranks ++ ranks ++ ranks := by decide +kernel
    rw [this]
    simp only [List.map_append, List.sum_append_nat]
    omega
  | white =>
    have : Square.all.map (relRank .white) = ranks.reverse ++ ranks.reverse ++ ranks.reverse ++
      ranks.reverse ++ ranks.reverse ++ ranks.reverse ++
      ranks.reverse ++ ranks.reverse ++ ranks.reverse := by decide +kernel
    rw [this]
    simp only [List.map_append, List.map_reverse, List.sum_append_nat, List.sum_reverse]
    omega

theorem sqMoves_total {P : Pos} (hv : Tame P) (hmat : Material P) {no bl : Option Square}
    {M : PieceKind → Nat → Nat}
    (hno : ∀ t, bl = some t → P.board t = some ⟨.king, P.side.flip⟩)
    (hM : ∀ k s, P.board s = some ⟨k, P.side⟩ →
      (freeMoves no k P.side s).length ≤ M k (relRank P.side s)) {d : Nat}
    (hd : d ≤ (Square.all.map fun s =>
      if bl = some s then dropsRank (inHand P) (relRank P.side s) else 0).sum) :
    (Square.all.flatMap (sqMoves no P)).length + d ≤ bound M (inHand P) := by
  have h := sum_map_le Square.all (f := fun s => (sqMoves no P s).length +
        (if bl = some s then dropsRank (inHand P) (relRank P.side s) else 0))
      (g := fun s => dropsRank (inHand P) (relRank P.side s) +
        (bases.map fun b => (ownBase P b s).toNat * gain M (inHand P) b).sum)
      (fun s _ => sqMoves_le hno hM s)
  rw [sum_map_add Square.all (fun s => (sqMoves no P s).length),
    sum_map_add Square.all (fun s => dropsRank (inHand P) (relRank P.side s)),
    sum_swap, sum_ranks, ← length_flatMap_sum] at h
  have h1 : (bases.map fun b => Square.all.countP (ownBase P b) * gain M (inHand P) b).sum ≤
      (bases.map fun b => onBoard (inHand P) b * gain M (inHand P) b).sum :=
    sum_map_le bases fun b hb => Nat.mul_le_mul_right _ (count_own hv hmat hb)
  exact Nat.le_trans (Nat.add_le_add_left hd _) (Nat.le_trans h (Nat.add_le_add_left h1 _))

theorem kingCost {P : Pos} (t : Square) : dropsRank (inHand P) (relRank P.side t) ≤
    (Square.all.map fun s =>
      if some t = some s then dropsRank (inHand P) (relRank P.side s) else 0).sum := by
  have h := le_sum_map (mem_all t)
    (fun s => if some t = some s then dropsRank (inHand P) (relRank P.side s) else 0)
  rw [if_pos rfl] at h
  exact h

theorem free_le (no : Option Square) (k : PieceKind) (c : Color) (s : Square) :
    (freeMoves no k c s).length ≤ maxFree k (relRank c s) :=
  Nat.le_trans (length_flatMap_le _ _ _)
    (free_none c (by cases c <;> decide) k (by cases k <;> decide) s (mem_all s))

theorem free_le' {t : Square} {k : PieceKind} {c : Color} {s : Square} (hne : s ≠ t)
    (ht : relRank c t = 1) :
    (freeMoves (some t) k c s).length ≤ maxFree' k (relRank c s) := by
  unfold maxFree'
  split
  · next h =>
    rw [h.1]
    exact free_rook c (by cases c <;> decide) s (mem_all s) t (mem_all t) h.2 ht hne
  · exact free_le _ _ _ _

/-- The hand holds every kind: numbers of drops. -/
theorem dropsRank_full {P : Pos} (hf : fullHand (inHand P) = true) (t : Square) :
    (relRank P.side t = 1 → dropsRank (inHand P) (relRank P.side t) = 4) ∧
    (relRank P.side t ≠ 1 → 6 ≤ dropsRank (inHand P) (relRank P.side t)) := by
  simp only [fullHand, Bool.and_eq_true] at hf
  obtain ⟨⟨⟨⟨⟨⟨a1, a2⟩, a3⟩, a4⟩, a5⟩, a6⟩, a7⟩ := hf
  constructor
  · intro hr
    simp [dropsRank, hr, a4, a5, a6, a7]
  · intro hr
    have := (relRank_bounds P.side t).1
    have h2 : 2 ≤ relRank P.side t := by omega
    simp only [dropsRank, h2, a1, a2, a4, a5, a6, a7, if_true, Bool.toNat_true]
    omega

theorem bound_inHand (P : Pos) :
    bound maxFree (inHand P) ≤ (if fullHand (inHand P) then 599 else 593) ∧
    bound maxFree' (inHand P) ≤ 597 := by
  have hnum := bound_numeric (inHand P .pawn) (inHand P .lance) (inHand P .knight)
    (inHand P .silver) (inHand P .gold) (inHand P .bishop) (inHand P .rook)
  rw [← bound_mkH, ← bound_mkH] at hnum
  exact hnum

/-- All pseudo-legal moves, when the square `t` is taken by the opponent's king. -/
theorem length_le_king {P : Pos} (hv : Tame P) (hmat : Material P) {t : Square}
    (ht : P.board t = some ⟨.king, P.side.flip⟩) {l : List Move} (hn : l.Nodup)
    (hl : ∀ m ∈ l, PseudoLegal P m) :
    l.length + dropsRank (inHand P) (relRank P.side t) ≤ bound maxFree (inHand P) := by
  have h0 := length_le_of_nodup_subset hn fun m hm =>
    mem_sqMoves (no := none) (fun t' e => by cases e) (hl m hm)
  have h1 := sqMoves_total hv hmat (M := maxFree) (no := none) (bl := some t)
    (fun t' e => by cases e; exact ht) (fun k s hs => free_le _ _ _ _) (kingCost t)
  omega

/-- A duplicate-free list of pseudo-legal moves of a position with at most a standard set of pieces
has at most 593 elements, if a kind is missing in hand, or the opponent's king is on the board and
not attacked or not on the last rank. -/
theorem length_le_593_tame {P : Pos} (hv : Tame P) (hmat : Material P)
    (hk : (∃ t, P.board t = some ⟨.king, P.side.flip⟩ ∧
      (¬ InCheck P.board P.side.flip ∨ relRank P.side t ≠ 1)) ∨ fullHand (inHand P) = false)
    {l : List Move} (hn : l.Nodup)
    (hl : ∀ m ∈ l, PseudoLegal P m) : l.length ≤ 593 := by
  have hnum := bound_inHand P
  by_cases hf : fullHand (inHand P) = true
  · rcases hk with ⟨t, ht, hc⟩ | h
    · by_cases hr : relRank P.side t = 1
      · have hc : ¬ InCheck P.board P.side.flip := hc.resolve_right fun h => h hr
        have h0 := length_le_of_nodup_subset hn fun m hm =>
          mem_sqMoves (no := some t) (fun t' e => by cases e; exact ⟨ht, hc⟩) (hl m hm)
        have h1 := sqMoves_total hv hmat (M := maxFree') (no := some t) (bl := some t)
          (fun t' e => by cases e; exact ht) (fun k s hs => free_le' (by
          rintro rfl
          rw [ht] at hs
          exact flip_ne _ (congrArg Piece.color (Option.some.inj hs))) hr) (kingCost t)
        have h2 := (dropsRank_full hf t).1 hr
        rw [h2] at h1
        omega
      · have h1 := length_le_king hv hmat ht hn hl
        have h2 := (dropsRank_full hf t).2 hr
        rw [if_pos hf] at hnum
        omega
    · rw [h] at hf; cases hf
  · have h0 := length_le_of_nodup_subset hn fun m hm =>
      mem_sqMoves (no := none) (fun t' e => by cases e) (hl m hm)
    have h1 := sqMoves_total hv hmat (M := maxFree) (no := none) (bl := none)
      (fun t' e => by cases e) (fun k s hs => free_le _ _ _ _) (Nat.zero_le _)
    rw [if_neg hf] at hnum
    omega

theorem length_le_593 {P : Pos} (hv : Valid P) (hmat : Material P)
    (hk : HasKing P P.side.flip ∨ fullHand (inHand P) = false) {l : List Move} (hn : l.Nodup)
    (hl : ∀ m ∈ l, PseudoLegal P m) : l.length ≤ 593 :=
  length_le_593_tame hv hmat (hk.imp_left fun ⟨t, ht⟩ => ⟨t, ht, .inl hv.notInCheck⟩) hn hl

/-- At most 595, if the opponent's king is on the board. -/
theorem length_le_595 {P : Pos} (hv : Tame P) (hmat : Material P) (hk : HasKing P P.side.flip)
    {l : List Move} (hn : l.Nodup) (hl : ∀ m ∈ l, PseudoLegal P m) : l.length ≤ 595 := by
  obtain ⟨t, ht⟩ := hk
  have h1 := length_le_king hv hmat ht hn hl
  have hnum := (bound_inHand P).1
  by_cases hf : fullHand (inHand P) = true
  · have h2 := dropsRank_full hf t
    rw [if_pos hf] at hnum
    by_cases hr : relRank P.side t = 1
    · have := h2.1 hr
      omega
    · have := h2.2 hr
      omega
  · rw [if_neg hf] at hnum
    omega

/-- Without any assumption on the opponent's king the number is at most 599. -/
theorem length_le_599 {P : Pos} (hv : Tame P) (hmat : Material P) {l : List Move} (hn : l.Nodup)
    (hl : ∀ m ∈ l, PseudoLegal P m) : l.length ≤ 599 := by
  have h0 := length_le_of_nodup_subset hn fun m hm =>
    mem_sqMoves (no := none) (fun t' e => by cases e) (hl m hm)
  have h1 := sqMoves_total hv hmat (M := maxFree) (no := none) (bl := none)
    (fun t' e => by cases e) (fun k s hs => free_le _ _ _ _) (Nat.zero_le _)
  have hnum := (bound_inHand P).1
  split at hnum <;> omega

/-! ## `legal_moves` returns -/

/-- Everything generated is pseudo-legal. -/
theorem pseudoList_pseudo (E : Env) {K : Backend} (hK : Lawful K) {q : PartialPosition} {st : State}
    (h : Repr q) (hv : Valid q.spec)
    (hai : st.attackInfo = AttackInfo.new K (AttackInfo.calculateCheckers K q) q) {m : Move}
    (hm : m ∈ pseudoList E K q st) : PseudoLegal q.spec m := by
  unfold pseudoList at hm
  split at hm
  · exact ((mem_allList hK h hv hai m).1 hm).1
  · cases hkp : q.kingPosition K q.side with
    | none => rw [hkp] at hm; cases hm
    | some king =>
      rw [hkp] at hm
      dsimp only at hm
      have hking := (h.kingPosition hK _ (hv.oneKing _) king).1 hkp
      split at hm
      · cases hm
      · unfold evList at hm
        rcases List.mem_append.1 hm with hm | hm
        · obtain ⟨to, rfl, hs, hown, _⟩ := (mem_kingEvasions hK h _ m).1 hm
          exact ⟨.king, hking, reaches_king.2 hs, hown, (fun e => by cases e), fun _ => id⟩
        · split at hm
          · next hch => exact ((mem_otherEvasions hK h hv hai hking hch m).1 hm).1
          · cases hm

/-- With at most a standard set of pieces and the opponent's king on the board (or a kind missing in
hand), `legal_moves()` returns. -/
theorem legalMoves_total (E : Env) {K : Backend} (hK : Lawful K) {p : Position} (hi : Inv K p)
    (hv : Valid p.inner.spec) (hmat : Material p.inner.spec)
    (hk : HasKing p.inner.spec p.inner.side.flip ∨ fullHand (inHand p.inner.spec) = false) :
    ∃ l, p.legalMoves E K = some l := by
  obtain ⟨st, hst, he, hn, _⟩ := legalMoves_spec E hK hi hv
  obtain ⟨h, st', hst', hai⟩ := hi
  have e : st' = st := by
    rw [hst] at hst'; cases hst'; rfl
  subst e
  have hlen : (pseudoList E K p.inner st').length ≤ maxLegalMoves :=
    length_le_593 hv hmat hk hn fun m hm => pseudoList_pseudo E hK h hv hai hm
  rw [he, appendAll_nil_some hlen]
  exact ⟨_, rfl⟩

end Yasai

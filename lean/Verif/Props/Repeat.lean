import Verif.Props.SameAny
import Verif.Proofs.Count

/-!
# C98: when a position comes back
-/

namespace Yasai.Props

open Yasai Spec

/-! ## Counting along a line of moves, latest first -/

/-- The move takes a piece. -/
def takes (P : Pos) : Move → Bool
  | .normal _ to _ => (P.board to).isSome
  | .drop _ _ => false

/-- The move is a drop. -/
def isDrop : Move → Bool
  | .normal _ _ _ => false
  | .drop _ _ => true

/-- The number of captures in a line. -/
def captureCount (P : Pos) : List Move → Nat
  | [] => 0
  | m :: xs => captureCount P xs + (takes (after P xs) m).toNat

/-- The number of drops in a line. -/
def dropCount : List Move → Nat
  | [] => 0
  | m :: xs => dropCount xs + (isDrop m).toNat

/-- A move that can be taken back by later moves of the same piece: a silver, gold, bishop, rook, king
or promoted piece moves and does not promote. -/
def Reversible (P : Pos) (m : Move) : Prop :=
  ∃ frm to k, m = .normal frm to false ∧ P.board frm = some ⟨k, P.side⟩ ∧
    k ≠ .pawn ∧ k ≠ .lance ∧ k ≠ .knight

/-- Every move of the line follows the rules of movement. -/
def Chain (P : Pos) : List Move → Prop
  | [] => True
  | m :: xs => Chain P xs ∧ PseudoLegal (after P xs) m

theorem Session.chain {E : Env} {K : Backend} (hK : K ∈ backends) {p q : Position} {xs : List Move}
    (h : Session E K (fun p m => PseudoLegal (view p) m) p xs q) :
    view q = after (view p) xs ∧ Chain (view p) xs := by
  have hp := h.play hK fun _ _ => shape_of_pseudoLegal
  clear h
  induction hp with
  | start => exact ⟨rfl, trivial⟩
  | move _ ha hm ih =>
    refine ⟨?_, ih.2, ih.1 ▸ ha⟩
    rw [(C03_do_move_is_rules E K _ _ _ hm).1, ih.1, after]

/-! ## Sums over the board -/

/-- A sum over the squares. -/
def load (f : Square → Option Piece → Nat) (b : Square → Option Piece) : Nat :=
  (Square.all.map fun s => f s (b s)).sum

theorem sum_update {α : Type} {l : List α} (hl : l.Nodup) {x : α} (hx : x ∈ l) {f g : α → Nat}
    (h : ∀ a, a ≠ x → g a = f a) : (l.map g).sum + f x = (l.map f).sum + g x := by
  induction l with
  | nil => cases hx
  | cons y l ih =>
    rw [List.nodup_cons] at hl
    simp only [List.map_cons, List.sum_cons]
    by_cases e : y = x
    · subst e
      have : l.map g = l.map f :=
        List.map_congr_left fun a ha => h a (fun e => hl.1 (e ▸ ha))
      rw [this]
      omega
    · have hx' : x ∈ l := by
        rcases List.mem_cons.1 hx with h' | h'
        · exact absurd h'.symm e
        · exact h'
      have := ih hl.2 hx'
      rw [h y e]
      omega

theorem load_put (f : Square → Option Piece → Nat) (b : Square → Option Piece) (s : Square)
    (v : Option Piece) : load f (put b s v) + f s (b s) = load f b + f s v := by
  have := sum_update nodup_all (mem_all s) (f := fun t => f t (b t))
    (g := fun t => f t (put b s v t)) fun a ha => by rw [put_other _ _ ha]
  simp only [put_same] at this
  exact this

/-- A board move. -/
theorem load_normal (f : Square → Option Piece → Nat) (h0 : ∀ s, f s none = 0) {P : Pos}
    {frm to : Square} {pr : Bool} {pc : Piece} (hf : P.board frm = some pc) (hne : frm ≠ to) :
    load f (apply P (.normal frm to pr)).board + f frm (some pc) + f to (P.board to) =
      load f P.board + f to (some ⟨movedKind pc.kind pr, pc.color⟩) := by
  have e1 := load_put f P.board frm none
  have e2 := load_put f (put P.board frm none) to (some ⟨movedKind pc.kind pr, pc.color⟩)
  rw [put_other _ _ (Ne.symm hne)] at e2
  rw [hf, h0] at e1
  simp only [apply, hf]
  omega

/-- A drop. -/
theorem load_drop (f : Square → Option Piece → Nat) (h0 : ∀ s, f s none = 0) {P : Pos}
    {to : Square} {pc : Piece} (hf : P.board to = none) :
    load f (apply P (.drop to pc)).board = load f P.board + f to (some pc) := by
  have e1 := load_put f P.board to (some pc)
  rw [hf, h0, Nat.add_zero] at e1
  simp only [apply]
  exact e1

/-! ## Drops and captures -/

def present (_ : Square) (o : Option Piece) : Nat := o.isSome.toNat

theorem balance {P : Pos} : ∀ {xs : List Move}, Chain P xs →
    load present (after P xs).board + captureCount P xs = load present P.board + dropCount xs := by
  intro xs
  induction xs with
  | nil => intro _; rfl
  | cons m xs ih =>
    rintro ⟨hc, hm⟩
    have ih := ih hc
    cases m with
    | normal frm to pr =>
      obtain ⟨k, hf, hr, _⟩ := hm
      have := load_normal present (fun _ => rfl) (pr := pr) hf (reaches_ne hr)
      simp only [captureCount, dropCount, after, takes, isDrop, present, Option.isSome_some, Bool.toNat_true,
        Bool.toNat_false] at this ⊢
      omega
    | drop to pc =>
      obtain ⟨_, _, _, hf, _⟩ := hm
      have := load_drop present (fun _ => rfl) (pc := pc) hf
      simp only [captureCount, dropCount, after, takes, isDrop, present, Option.isSome_some, Bool.toNat_true,
        Bool.toNat_false] at this ⊢
      omega

/-! ## A weight that grows with every move that cannot be taken back -/

/-- The number of ranks a piece is away from the own edge. -/
def advance (c : Color) (s : Square) : Nat :=
  match c with
  | .black => 9 - s.rank
  | .white => s.rank - 1

def weight (s : Square) : Option Piece → Nat
  | none => 0
  | some ⟨k, c⟩ => 1 + match k with
    | .pawn | .lance | .knight => advance c s
    | .silver | .gold | .bishop | .rook | .king => 0
    | _ => 9

theorem advance_le (c : Color) (s : Square) : advance c s ≤ 8 := by
  have : 1 ≤ s.rank ∧ s.rank ≤ 9 := by unfold Square.rank; omega
  unfold advance
  cases c <;> simp only <;> omega

theorem weight_le (s : Square) (o : Option Piece) : weight s o ≤ 10 * present s o := by
  cases o with
  | none => exact Nat.le_refl 0
  | some pc =>
    obtain ⟨k, c⟩ := pc
    have := advance_le c s
    cases k <;> simp only [weight, present, Option.isSome_some, Bool.toNat_true] <;> omega

theorem weight_promoted {k : PieceKind} (h : promoted k ≠ none) (s t : Square) (c : Color) :
    weight s (some ⟨k, c⟩) < weight t (some ⟨movedKind k true, c⟩) := by
  have := advance_le c s
  cases k <;> simp only [promoted, ne_eq, not_true_eq_false, reduceCtorEq] at h <;>
    simp only [weight, movedKind, promoted, Option.getD_some, if_true] <;> omega

theorem weight_moved {occ : Square → Prop} {k : PieceKind} {c : Color} {s t : Square}
    (h : Reaches occ k c s t) :
    weight s (some ⟨k, c⟩) ≤ weight t (some ⟨k, c⟩) ∧
      (k = .pawn ∨ k = .lance ∨ k = .knight →
        weight s (some ⟨k, c⟩) < weight t (some ⟨k, c⟩)) := by
  have key : k = .pawn ∨ k = .lance ∨ k = .knight → advance c s < advance c t := by
    have r1 : 1 ≤ s.rank ∧ s.rank ≤ 9 := by unfold Square.rank; omega
    have r2 : 1 ≤ t.rank ∧ t.rank ≤ 9 := by unfold Square.rank; omega
    have step : ∀ {n : Int}, 0 < n → (t.rank : Int) = s.rank + fwd c * n → advance c s < advance c t := by
      intro n hn e
      cases c <;> simp only [fwd, advance] at e ⊢ <;> omega
    rintro (rfl | rfl | rfl)
    · rcases h with ⟨d, hd, _, h⟩ | ⟨d, hd, _⟩
      · rw [List.mem_singleton.1 hd] at h
        exact step (by decide) h
      · cases hd
    · rcases h with ⟨d, hd, _⟩ | ⟨d, hd, n, hn, ⟨_, h⟩, _⟩
      · cases hd
      · rw [List.mem_singleton.1 hd] at h
        refine step (n := n) (by omega) ?_
        rw [h, Int.mul_one, Int.mul_comm]
    · rcases h with ⟨d, hd, _, h⟩ | ⟨d, hd, _⟩
      · have : d.2 = 2 := by
          simp only [steps, List.mem_cons, List.not_mem_nil, or_false] at hd
          rcases hd with rfl | rfl <;> rfl
        rw [this] at h
        exact step (by decide) h
      · cases hd
  cases k <;> simp only [weight] <;> simp at key ⊢ <;> omega

theorem heavier {P : Pos} {m : Move} (hm : PseudoLegal P m) (ht : takes P m = false) :
    load weight P.board ≤ load weight (apply P m).board ∧
      (¬ Reversible P m → load weight P.board < load weight (apply P m).board) := by
  cases m with
  | normal frm to pr =>
    obtain ⟨k, hf, hr, _, hp, _⟩ := hm
    have hto : P.board to = none := by simpa [takes] using ht
    have e := load_normal weight (fun _ => rfl) (pr := pr) hf (reaches_ne hr)
    rw [hto] at e
    have z : weight to none = 0 := rfl
    cases pr with
    | true =>
      have := weight_promoted (hp rfl).1 frm to P.side
      dsimp only at e
      exact ⟨by omega, fun _ => by omega⟩
    | false =>
      obtain ⟨h1, h2⟩ := weight_moved hr
      have e' : movedKind k false = k := rfl
      simp only [e'] at e
      refine ⟨by omega, fun hn => ?_⟩
      have := h2 (Classical.byContradiction fun hk => hn ⟨frm, to, k, rfl, hf, fun e => hk (.inl e),
        fun e => hk (.inr (.inl e)), fun e => hk (.inr (.inr e))⟩)
      omega
  | drop to pc =>
    obtain ⟨_, _, _, hf, _⟩ := hm
    have := load_drop weight (fun _ => rfl) (pc := pc) hf
    have : 1 ≤ weight to (some pc) := Nat.le_add_right _ _
    exact ⟨by omega, fun _ => by omega⟩

theorem heavier_line {P : Pos} : ∀ {xs : List Move}, Chain P xs → captureCount P xs = 0 →
    load weight P.board ≤ load weight (after P xs).board ∧
      (load weight P.board = load weight (after P xs).board →
        ∀ ys m zs, xs = ys ++ m :: zs → Reversible (after P zs) m) := by
  intro xs
  induction xs with
  | nil =>
    intro _ _
    refine ⟨Nat.le_refl _, fun _ ys m zs e => ?_⟩
    cases ys <;> cases e
  | cons x xs ih =>
    rintro ⟨hc, hm⟩ h0
    simp only [captureCount, Nat.add_eq_zero_iff, Bool.toNat_eq_zero] at h0
    obtain ⟨i1, i2⟩ := ih hc h0.1
    obtain ⟨j1, j2⟩ := heavier hm h0.2
    simp only [after] at *
    refine ⟨Nat.le_trans i1 j1, fun e ys m zs hx => ?_⟩
    cases ys with
    | nil =>
      cases hx
      refine Classical.byContradiction fun hn => ?_
      have := j2 hn
      omega
    | cons y ys =>
      cases hx
      exact i2 (by omega) ys m zs rfl

/-- The number of moves of a line that are not reversible. -/
noncomputable def firmCount (P : Pos) : List Move → Nat
  | [] => 0
  | m :: xs => firmCount P xs + (open Classical in if Reversible (after P xs) m then 0 else 1)

theorem firm_line {P : Pos} : ∀ {xs : List Move}, Chain P xs → captureCount P xs = 0 →
    firmCount P xs + load weight P.board ≤ load weight (after P xs).board := by
  intro xs
  induction xs with
  | nil => intro _ _; simp only [firmCount, after, Nat.zero_add]; exact Nat.le_refl _
  | cons x xs ih =>
    rintro ⟨hc, hm⟩ h0
    simp only [captureCount, Nat.add_eq_zero_iff, Bool.toNat_eq_zero] at h0
    have := ih hc h0.1
    obtain ⟨j1, j2⟩ := heavier hm h0.2
    simp only [after, firmCount] at *
    by_cases hr : Reversible (after P xs) x
    · rw [if_pos hr]; omega
    · rw [if_neg hr]; have := j2 hr; omega

theorem load_le (b : Square → Option Piece) : load weight b ≤ 10 * load present b := by
  unfold load
  generalize Square.all = l
  induction l with
  | nil => exact Nat.le_refl 0
  | cons a l ih =>
    have := weight_le a (b a)
    simp only [List.map_cons, List.sum_cons]
    omega

theorem load_present (b : Square → Option Piece) :
    load present b = Square.all.countP fun s => (b s).isSome := by
  unfold load
  generalize Square.all = l
  induction l with
  | nil => rfl
  | cons a l ih =>
    rw [List.map_cons, List.sum_cons, List.countP_cons, ih]
    cases b a <;> simp [present, Nat.add_comm]

/-! ## Parity, and two moves -/

theorem apply_side {P : Pos} {m : Move} (h : PseudoLegal P m) : (apply P m).side = P.side.flip := by
  cases m with
  | normal frm to pr =>
    obtain ⟨k, hf, _⟩ := h
    simp only [apply, hf]
  | drop to pc => rfl

theorem side_line {P : Pos} : ∀ {xs : List Move}, Chain P xs →
    (after P xs).side = if xs.length % 2 = 0 then P.side else P.side.flip := by
  intro xs
  induction xs with
  | nil => intro _; rfl
  | cons m xs ih =>
    rintro ⟨hc, hm⟩
    rw [after, apply_side hm, ih hc, List.length_cons]
    by_cases e : xs.length % 2 = 0
    · rw [if_pos e, if_neg (by omega)]
    · rw [if_neg e, if_pos (by omega)]
      cases P.side <;> rfl

/-- A move and an answer never restore the board. -/
theorem answered {P : Pos} {m m' : Move} (h : PseudoLegal P m) (h' : PseudoLegal (apply P m) m') :
    (apply (apply P m) m').board ≠ P.board := by
  have hside := apply_side h
  have hflip : ∀ c : Color, c.flip ≠ c := by intro c; cases c <;> decide
  intro e
  cases m with
  | normal frm to pr =>
    obtain ⟨k, hf, hr, _⟩ := h
    have hne := reaches_ne hr
    have hb : (apply P (.normal frm to pr)).board frm = none := by
      simp only [apply, hf]
      rw [put_other _ _ hne, put_same]
    have e := congrFun e frm
    rw [hf] at e
    cases m' with
    | normal frm' to' pr' =>
      obtain ⟨k', hf', _⟩ := h'
      rw [apply_normal_board hf', movedBoard] at e
      by_cases ht : frm = to'
      · subst ht
        rw [put_same] at e
        exact hflip _ (hside.symm.trans (congrArg Piece.color (Option.some.inj e)))
      · rw [put_other _ _ ht] at e
        by_cases hff : frm = frm'
        · subst hff; rw [put_same] at e; cases e
        · rw [put_other _ _ hff, hb] at e; cases e
    | drop to' pc' =>
      have e : put (apply P (.normal frm to pr)).board to' (some pc') frm = _ := e
      by_cases ht : frm = to'
      · subst ht
        rw [put_same] at e
        exact hflip _ ((hside.symm.trans h'.1.symm).trans
          (congrArg Piece.color (Option.some.inj e)))
      · rw [put_other _ _ ht, hb] at e; cases e
  | drop to pc =>
    obtain ⟨hcol, _, _, hf, _⟩ := h
    have hb : (apply P (.drop to pc)).board to = some pc := by
      simp only [apply]
      rw [put_same]
    have e := congrFun e to
    rw [hf] at e
    cases m' with
    | normal frm' to' pr' =>
      obtain ⟨k', hf', _⟩ := h'
      rw [apply_normal_board hf', movedBoard] at e
      by_cases ht : to = to'
      · subst ht; rw [put_same] at e; cases e
      · rw [put_other _ _ ht] at e
        by_cases hff : to = frm'
        · subst hff
          rw [hb] at hf'
          have := congrArg Piece.color (Option.some.inj hf')
          exact hflip _ ((hside.symm.trans this.symm).trans hcol)
        · rw [put_other _ _ hff, hb] at e; cases e
    | drop to' pc' =>
      have e : put (apply P (.drop to pc)).board to' (some pc') to = _ := e
      by_cases ht : to = to'
      · subst ht; rw [put_same] at e; cases e
      · rw [put_other _ _ ht, hb] at e; cases e

/-- C98.  When a position shows the same board, hands and side to move again, after any moves that
follow the rules of movement, made and taken back in any order: the number of moves in between is
even and at least four, and there were as many drops as captures. -/
theorem C98_recurrence (E : Env) (K : Backend) (hK : K ∈ backends) (p q : Position) (xs : List Move)
    (h : Session E K (fun p m => PseudoLegal (view p) m) p xs q) (hne : xs ≠ [])
    (hsame : view q = view p) :
    xs.length % 2 = 0 ∧ 4 ≤ xs.length ∧ captureCount (view p) xs = dropCount xs := by
  obtain ⟨hv, hc⟩ := h.chain hK
  have hs : after (view p) xs = view p := hv ▸ hsame
  have heven : xs.length % 2 = 0 := by
    refine Classical.byContradiction fun ho => ?_
    have := side_line hc
    rw [if_neg ho, hs] at this
    revert this
    cases (view p).side <;> decide
  refine ⟨heven, ?_, ?_⟩
  · match xs, hne, heven, hc, hs with
    | [_], _, he, _, _ => exact absurd he (by simp)
    | [m', m], _, _, hc, hs =>
      exact absurd (congrArg Pos.board hs) (answered hc.1.2 hc.2)
    | [_, _, _], _, he, _, _ => exact absurd he (by simp)
    | _ :: _ :: _ :: _ :: _, _, _, _, _ => simp only [List.length_cons]; omega
  · have := balance hc
    rw [hs] at this
    omega

/-- C98.  If nothing was captured in between, every move was one of a silver, gold, bishop, rook, king
or promoted piece without promotion: after a drop, a promotion, or a move of a pawn, lance or knight
no earlier position comes back before the next capture. -/
theorem C98_reversible (E : Env) (K : Backend) (hK : K ∈ backends) (p q : Position) (xs : List Move)
    (h : Session E K (fun p m => PseudoLegal (view p) m) p xs q) (hsame : view q = view p)
    (hcap : captureCount (view p) xs = 0) (ys zs : List Move) (m : Move) (hx : xs = ys ++ m :: zs) :
    Reversible (after (view p) zs) m := by
  obtain ⟨hv, hc⟩ := h.chain hK
  have hs : after (view p) xs = view p := hv ▸ hsame
  exact (heavier_line hc hcap).2 (by rw [hs]) ys m zs hx

/-- C98.  If nothing was captured in between, then whether or not a position came back, at most ten moves
for each piece on the board now are not of that kind: drops, promotions, and moves of pawns, lances and
knights use themselves up until the next capture. -/
theorem C98_progress (E : Env) (K : Backend) (hK : K ∈ backends) (p q : Position) (xs : List Move)
    (h : Session E K (fun p m => PseudoLegal (view p) m) p xs q)
    (hcap : captureCount (view p) xs = 0) :
    firmCount (view p) xs ≤ 10 * Square.all.countP fun s => (q.pieceAt s).isSome := by
  obtain ⟨hv, hc⟩ := h.chain hK
  have h1 := firm_line hc hcap
  have h2 := load_le (after (view p) xs).board
  rw [← hv, load_present] at h2
  rw [← hv] at h1
  exact Nat.le_trans (by omega) h2

/-! ## Concrete cases -/

section
open Yasai.Examples

theorem roamTo_session : ∀ (xs : List Move) {ms : List Move} {p0 p p' : Position},
    Session env0 CoreBB.backend (fun p m => PseudoLegal (view p) m) p0 ms p → roamTo xs p = some p' →
      Session env0 CoreBB.backend (fun p m => PseudoLegal (view p) m) p0 (xs.reverse ++ ms) p' := by
  intro xs
  induction xs with
  | nil =>
    intro ms p0 p p' h e
    cases e
    exact h
  | cons m xs ih =>
    intro ms p0 p p' h e
    unfold roamTo at e
    split at e
    · next hc =>
      rw [Option.bind_eq_some_iff] at e
      obtain ⟨p1, hd, e⟩ := e
      have := ih (ms := m :: ms) (.move h hc hd) e
      simpa using this
    · cases e

theorem view_of_looks {p p' : Position} (h : LooksLike p p') : view p = view p' := by
  unfold view
  rw [h.2.2.1]
  congr 1
  · exact funext h.1
  · funext c k; rw [h.hands]

/-- Both rooks step aside and back. -/
def toAndFro : List Move :=
  [.normal (sq 2 8) (sq 3 8) false, .normal (sq 8 2) (sq 7 2) false,
    .normal (sq 3 8) (sq 2 8) false, .normal (sq 7 2) (sq 8 2) false]

/-- A rook and a gold in hand against a rook. -/
def handful : CorePartialPosition where
  side := .black
  ply := 1#16
  hands := fun
    | .black => handOf [(.gold, 1)]
    | .white => handOf []
  board := boardOf [(9,9,.king,.black),(3,8,.rook,.black),(7,2,.rook,.white),(1,1,.king,.white)]

/-- Each side drops the gold where the rook of the other side takes it. -/
def roundTrip : List Move :=
  [.drop (sq 7 5) ⟨.gold, .black⟩, .normal (sq 7 2) (sq 7 5) false, .normal (sq 9 9) (sq 9 8) false,
    .drop (sq 3 5) ⟨.gold, .white⟩, .normal (sq 3 8) (sq 3 5) false, .normal (sq 7 5) (sq 7 2) false,
    .normal (sq 3 5) (sq 3 8) false, .normal (sq 1 1) (sq 1 2) false, .normal (sq 9 8) (sq 9 9) false,
    .normal (sq 1 2) (sq 1 1) false]

/-- The bound of four is met in the initial position; and with captures in between, a position does
come back after drops. -/
theorem C98_example :
    (∃ p q, Position.new env0 CoreBB.backend startpos = some p ∧
      Session env0 CoreBB.backend (fun p m => PseudoLegal (view p) m) p toAndFro.reverse q ∧
      view q = view p ∧ captureCount (view p) toAndFro.reverse = 0) ∧
    ∃ p q, Position.new env0 CoreBB.backend handful = some p ∧
      Session env0 CoreBB.backend (fun p m => PseudoLegal (view p) m) p roundTrip.reverse q ∧
      view q = view p ∧ captureCount (view p) roundTrip.reverse = 2 ∧
      dropCount roundTrip.reverse = 2 := by
  have h : ((Position.new env0 CoreBB.backend startpos).any fun p => (roamTo toAndFro p).any fun q =>
      decide (LooksLike { q with inner := { q.inner with ply := p.inner.ply } } p) &&
      decide (captureCount (view p) toAndFro.reverse = 0)) = true := by
    decide +kernel
  have h' : ((Position.new env0 CoreBB.backend handful).any fun p => (roamTo roundTrip p).any fun q =>
      decide (LooksLike { q with inner := { q.inner with ply := p.inner.ply } } p) &&
      decide (captureCount (view p) roundTrip.reverse = 2)) = true := by
    decide +kernel
  simp only [Option.any_eq_true, Bool.and_eq_true, decide_eq_true_eq] at h h'
  obtain ⟨p, hp, q, hq, h1, h2⟩ := h
  obtain ⟨p', hp', q', hq', h1', h2'⟩ := h'
  refine ⟨⟨p, q, hp, by simpa using roamTo_session _ .start hq, (view_of_looks h1 :), h2⟩,
    p', q', hp', by simpa using roamTo_session _ .start hq', (view_of_looks h1' :), h2', rfl⟩

/-- The hypotheses of `C98_progress` on a line with a move that is not reversible. -/
example : ∃ p q, Position.new env0 CoreBB.backend startpos = some p ∧
    Session env0 CoreBB.backend (fun p m => PseudoLegal (view p) m) p
      [.normal (sq 7 7) (sq 7 6) false] q ∧
    captureCount (view p) [.normal (sq 7 7) (sq 7 6) false] = 0 ∧
    ¬ Reversible (view p) (.normal (sq 7 7) (sq 7 6) false) := by
  have h : ((Position.new env0 CoreBB.backend startpos).any fun p =>
      (roamTo [.normal (sq 7 7) (sq 7 6) false] p).any fun _ =>
      decide (captureCount (view p) [.normal (sq 7 7) (sq 7 6) false] = 0) &&
      decide ((view p).board (sq 7 7) = some ⟨.pawn, .black⟩)) = true := by
    decide +kernel
  simp only [Option.any_eq_true, Bool.and_eq_true, decide_eq_true_eq] at h
  obtain ⟨p, hp, q, hq, h1, h2⟩ := h
  refine ⟨p, q, hp, by simpa using roamTo_session _ .start hq, h1, ?_⟩
  rintro ⟨frm, to, k, e, hb, hk, _⟩
  cases e
  rw [h2] at hb
  exact hk (congrArg Piece.kind (Option.some.inj hb)).symm

end

end Yasai.Props

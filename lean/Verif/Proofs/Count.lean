import Verif.Proofs.Keys

/-!
# Counting pieces
-/

namespace Yasai

open Spec

theorem countP_update {α : Type} {l : List α} (hl : l.Nodup) {x : α} (hx : x ∈ l)
    {f g : α → Bool} (h : ∀ a ∈ l, a ≠ x → g a = f a) :
    l.countP g + (f x).toNat = l.countP f + (g x).toNat := by
  induction l with
  | nil => cases hx
  | cons y l ih =>
    rw [List.nodup_cons] at hl
    rw [List.countP_cons, List.countP_cons]
    by_cases e : y = x
    · subst e
      have : l.countP g = l.countP f :=
        List.countP_congr fun a ha => by
          rw [h a (List.mem_cons_of_mem _ ha) (fun e => hl.1 (e ▸ ha))]
      rw [this]
      cases f y <;> cases g y <;> simp
    · have hx' : x ∈ l := by
        rcases List.mem_cons.1 hx with h' | h'
        · exact absurd h'.symm e
        · exact h'
      have := ih hl.2 hx' (fun a ha hne => h a (List.mem_cons_of_mem _ ha) hne)
      rw [h y List.mem_cons_self e]
      omega

/-- Whether the contents of a square count for basic kind `k`. -/
def isBase (k : PieceKind) : Option Piece → Bool
  | some p => decide (base p.kind = k)
  | none => false

/-- Number of pieces of basic kind `k` on the board. -/
def boardCount (b : Square → Option Piece) (k : PieceKind) : Nat :=
  Square.all.countP fun s => isBase k (b s)

theorem total_eq (P : Pos) (k : PieceKind) :
    total P k = boardCount P.board k + P.hand .black k + P.hand .white k := rfl

theorem boardCount_put (b b' : Square → Option Piece) (s : Square) (k : PieceKind)
    (h : ∀ t, t ≠ s → b' t = b t) :
    boardCount b' k + (isBase k (b s)).toNat = boardCount b k + (isBase k (b' s)).toNat :=
  countP_update nodup_all (mem_all s) (f := fun t => isBase k (b t)) (g := fun t => isBase k (b' t))
    (fun a _ ha => by rw [h a ha])

theorem base_movedKind (k : PieceKind) (pr : Bool) : base (movedKind k pr) = base k := by
  cases k <;> cases pr <;> rfl

/-- A non-panicking move of good shape conserves every kind. -/
theorem total_apply {P : Pos} {m : Move} (hs : GoodShape P.board m)
    (hmoved : ∀ frm to pr, m = .normal frm to pr → P.board frm ≠ none)
    (hdrop : ∀ to p, m = .drop to p → base p.kind = p.kind ∧ 0 < P.hand P.side p.kind)
    (k : PieceKind) : total (apply P m) k = total P k := by
  rw [total_eq, total_eq]
  cases m with
  | normal frm to pr =>
    cases hf : P.board frm with
    | none => exact absurd hf (hmoved frm to pr rfl)
    | some p =>
      have e1 := boardCount_put P.board (put P.board frm none) frm k (fun t ht => put_other _ _ ht)
      have e2 := boardCount_put (put P.board frm none)
        (put (put P.board frm none) to (some ⟨movedKind p.kind pr, p.color⟩)) to k
        (fun t ht => put_other _ _ ht)
      have hne : frm ≠ to := hs
      rw [put_same, hf] at e1
      rw [put_same, put_other _ _ (Ne.symm hne)] at e2
      simp only [isBase, base_movedKind] at e1 e2
      simp only [apply, hf]
      cases ht : P.board to with
      | none =>
        rw [ht] at e2
        simp only [Bool.toNat_false] at e1 e2
        dsimp only
        omega
      | some q =>
        rw [ht] at e2
        simp only [Bool.toNat_false] at e1 e2
        dsimp only
        have hh : (if Color.black = P.side ∧ k = base q.kind then P.hand .black k + 1 else P.hand .black k) +
            (if Color.white = P.side ∧ k = base q.kind then P.hand .white k + 1 else P.hand .white k) =
            P.hand .black k + P.hand .white k + (decide (base q.kind = k)).toNat := by
          by_cases hk : k = base q.kind
          · cases P.side <;> simp [hk] <;> omega
          · have : ¬ base q.kind = k := fun e => hk e.symm
            simp [hk, this]
        omega
  | drop to p =>
    obtain ⟨hb, hpos⟩ := hdrop to p rfl
    have e1 := boardCount_put P.board (put P.board to (some p)) to k (fun t ht => put_other _ _ ht)
    have hemp : P.board to = none := hs
    rw [put_same, hemp] at e1
    simp only [isBase, hb, Bool.toNat_false] at e1
    simp only [apply]
    have hh : (if Color.black = P.side ∧ k = p.kind then P.hand .black k - 1 else P.hand .black k) +
        (if Color.white = P.side ∧ k = p.kind then P.hand .white k - 1 else P.hand .white k) +
        (decide (p.kind = k)).toNat = P.hand .black k + P.hand .white k := by
      by_cases hk : k = p.kind
      · subst hk
        cases hside : P.side <;> rw [hside] at hpos <;> simp <;> omega
      · have : ¬ p.kind = k := fun e => hk e.symm
        simp [hk, this]
    omega

theorem base_of_isHand {k : PieceKind} (h : k.isHandPiece = true) : base k = k := by
  revert h; cases k <;> decide

theorem total_doMove {E : Env} {K : Backend} {p p' : Position} {m : Move}
    (hs : GoodShape p.inner.board m) (hm : p.doMove E K m = some p') (k : PieceKind) :
    total p'.inner.spec k = total p.inner.spec k := by
  rw [spec_doMove hm]
  apply total_apply hs
  · rintro frm to pr rfl
    obtain ⟨_, _, _, _, _, _, _, _, hp, _⟩ := doMove_normal hm
    intro e
    exact absurd (e.symm.trans hp) (by simp)
  · rintro to pc rfl
    obtain ⟨isCheck, st, q, n, z, ply, h1, hst, hq, hn, hz, hply, hi, _⟩ := doMove_drop hm
    simp only [Position.dropInner, Option.bind_eq_bind, Option.bind_eq_some_iff,
      Option.pure_def] at hq
    obtain ⟨hand, hrem, hq⟩ := hq
    obtain ⟨hk, hpos⟩ := Hand.cnt_pos_of_removed hrem
    refine ⟨base_of_isHand hk, ?_⟩
    have : p.inner.spec.hand p.inner.side pc.kind = (p.inner.hands p.inner.side).cnt pc.kind :=
      hand_of_isHand hk
    rw [show p.inner.spec.side = p.inner.side from rfl, this]
    exact hpos

end Yasai

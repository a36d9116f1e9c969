import Verif.Props.Anywhere

/-!
# C70: the bitboards and the array of squares describe the same board
-/

namespace Yasai.Props

open Yasai Spec

/-- The bitboards of colours and kinds of `p` show exactly the pieces of its board. -/
def Mirrors (K : Backend) (p : Position) : Prop :=
  (∀ c s, K.contains (p.inner.playerBB c) s = true ↔ ∃ k, p.pieceAt s = some ⟨k, c⟩) ∧
  (∀ k s, K.contains (p.inner.pieceBB k) s = true ↔ ∃ c, p.pieceAt s = some ⟨k, c⟩)

theorem mem_pieceBitboard {K : Backend} (L : Lawful K) {q : PartialPosition} (h : Repr q) (pc : Piece)
    (s : Square) : mem (q.pieceBitboard K pc) s = true ↔ q.board s = some pc := by
  unfold PartialPosition.pieceBitboard
  rw [L.and, mem_and, Bool.and_eq_true, h.player, h.piece]
  constructor
  · rintro ⟨⟨c', e2⟩, ⟨k, e1⟩⟩
    rw [e1] at e2; cases e2; exact e1
  · intro e; exact ⟨⟨_, e⟩, ⟨_, e⟩⟩

/-- Counting squares with a property. -/
theorem count_mem {K : Backend} (L : Lawful K) {b : BB} (hb : Ok b) {f : Square → Bool}
    (h : ∀ s, mem b s = true ↔ f s = true) : K.count b = (Square.all.filter f).length := by
  rw [L.count b hb, List.countP_eq_length_filter]
  congr 1
  apply List.filter_congr
  intro s _
  have := h s
  cases h1 : mem b s <;> cases h2 : f s <;> simp_all

/-- C70.  On every position that `Position::new` accepts and after every history of moves that
change the square or drop on an empty square, legal or not: `player_bitboard(c)`,
`piece_kind_bitboard(k)`, `piece_bitboard(p)` and `occupied_bitboard()` hold exactly the squares
where `piece_at` shows a piece of that colour, that kind, that piece, any piece; their `count()` is
the number of those squares (no stray bits); and `king_position(c)` is the first square, in the
order of indices, with a king of `c`. -/
theorem C70_bitboards_mirror_board (E : Env) (K : Backend) (hK : K ∈ backends)
    (pp : CorePartialPosition) (ms : List Move) (p : Position) (h : Visited E K pp ms p) :
    Mirrors K p ∧
    (∀ pc s, K.contains (p.inner.pieceBitboard K pc) s = true ↔ p.pieceAt s = some pc) ∧
    (∀ s, K.contains (p.inner.occupiedBB K) s = true ↔ p.pieceAt s ≠ none) ∧
    (∀ c, K.count (p.inner.playerBB c) =
      (Square.all.filter fun s => ((p.pieceAt s).map Piece.color == some c)).length) ∧
    (∀ k, K.count (p.inner.pieceBB k) =
      (Square.all.filter fun s => ((p.pieceAt s).map Piece.kind == some k)).length) ∧
    (∀ c s, p.inner.kingPosition K c = some s ↔ p.pieceAt s = some ⟨.king, c⟩ ∧
      ∀ t, p.pieceAt t = some ⟨.king, c⟩ → s ≤ t) ∧
    (∀ c, p.inner.kingPosition K c = none ↔ ∀ s, p.pieceAt s ≠ some ⟨.king, c⟩) := by
  have L := lawful_of_mem hK
  have hr : Repr p.inner := (h.consistent hK).1
  refine ⟨⟨fun c s => ?_, fun k s => ?_⟩, fun pc s => ?_, fun s => ?_, fun c => ?_, fun k => ?_, ?_⟩
  · rw [L.contains]; exact hr.player c s
  · rw [L.contains]; exact hr.piece k s
  · rw [L.contains]; exact mem_pieceBitboard L hr pc s
  · rw [L.contains]; exact hr.occ L s
  · refine count_mem L (hr.okPlayer c) fun s => ?_
    rw [hr.player]
    show _ ↔ ((p.inner.board s).map Piece.color == some c) = true
    cases e : p.inner.board s with
    | none => simp
    | some q =>
      obtain ⟨k, c'⟩ := q
      simp
  · refine count_mem L (hr.okPiece k) fun s => ?_
    rw [hr.piece]
    show _ ↔ ((p.inner.board s).map Piece.kind == some k) = true
    cases e : p.inner.board s with
    | none => simp
    | some q =>
      obtain ⟨k, c'⟩ := q
      simp
  · have hm : ∀ c s, s ∈ K.iter (K.and (p.inner.playerBB c) (p.inner.pieceBB .king)) ↔
        p.pieceAt s = some ⟨.king, c⟩ := by
      intro c s
      rw [L.and, L.iter _ (ok_and_left _ (hr.okPlayer c)), List.mem_filter]
      have := mem_pieceBitboard L hr ⟨.king, c⟩ s
      unfold PartialPosition.pieceBitboard at this
      rw [L.and, BitVec.and_comm] at this
      exact ⟨fun h => this.1 h.2, fun h => ⟨mem_all s, this.2 h⟩⟩
    have hp : ∀ c, (K.iter (K.and (p.inner.playerBB c) (p.inner.pieceBB .king))).Pairwise
        (· < ·) := by
      intro c
      rw [L.and, L.iter _ (ok_and_left _ (hr.okPlayer c))]
      apply List.Pairwise.filter
      unfold Square.all
      exact List.pairwise_lt_finRange 81
    have hnone : ∀ c, p.inner.kingPosition K c = none ↔ ∀ s, p.pieceAt s ≠ some ⟨.king, c⟩ := by
      intro c
      unfold PartialPosition.kingPosition
      rw [List.head?_eq_none_iff, List.eq_nil_iff_forall_not_mem]
      exact ⟨fun h s e => h s ((hm c s).2 e), fun h s e => h s ((hm c s).1 e)⟩
    have hsome : ∀ c s, p.inner.kingPosition K c = some s → p.pieceAt s = some ⟨.king, c⟩ ∧
        ∀ t, p.pieceAt t = some ⟨.king, c⟩ → s ≤ t := by
      intro c s e
      unfold PartialPosition.kingPosition at e
      refine ⟨(hm c s).1 (List.mem_of_head? e), fun t ht => ?_⟩
      have ht' := (hm c t).2 ht
      have hpw := hp c
      cases hl : K.iter (K.and (p.inner.playerBB c) (p.inner.pieceBB .king)) with
      | nil => rw [hl] at e; cases e
      | cons x l =>
        rw [hl] at e ht' hpw
        cases e
        rcases List.mem_cons.1 ht' with rfl | hin
        · exact Fin.le_refl _
        · exact Fin.le_of_lt ((List.pairwise_cons.1 hpw).1 t hin)
    refine ⟨fun c s => ⟨hsome c s, fun ⟨h1, h2⟩ => ?_⟩, hnone⟩
    cases e : p.inner.kingPosition K c with
    | none => exact absurd h1 ((hnone c).1 e s)
    | some t =>
      obtain ⟨h3, h4⟩ := hsome c t e
      rw [Fin.le_antisymm (h4 s h1) (h2 t h3)]

/-- C70.  The restriction on the moves is needed, and exactly it: if `do_move(m)` does not panic,
the bitboards show the board afterwards iff `m` changes the square or drops on an empty square. -/
theorem C70_kept_iff (E : Env) (K : Backend) (hK : K ∈ backends) (pp : CorePartialPosition)
    (ms : List Move) (p p' : Position) (h : Visited E K pp ms p) (m : Move)
    (hm : p.doMove E K m = some p') : Mirrors K p' ↔ Shape p m := by
  have L := lawful_of_mem hK
  have hr : Repr p.inner := (h.consistent hK).1
  constructor
  · rintro ⟨h1, -⟩
    have h1 : ∀ c s, mem (p'.inner.playerBB c) s = true ↔ ∃ k, p'.inner.board s = some ⟨k, c⟩ :=
      fun c s => by rw [← L.contains]; exact h1 c s
    cases m with
    | normal frm to promote =>
      rintro rfl
      obtain ⟨isCheck, st, piece, kq, target, ply, _, hst, hpiece, hcap, htarget, hply, hi, _⟩ :=
        doMove_normal hm
      have hcol := targetPiece_color htarget
      have hpl : kq.2.playerBB = (p.inner.xorPiece K frm piece).playerBB := by
        rw [hpiece] at hcap
        simp only [Position.doCapture, Option.bind_eq_bind, Option.bind_eq_some_iff,
          Option.pure_def] at hcap
        obtain ⟨_, _, _, _, _, _, hcap⟩ := hcap
        cases hcap; rfl
      have hto : p'.inner.board frm = some target := by
        rw [hi]; simp [Position.moveInner, PartialPosition.setPieceAt]
      have := (h1 target.color frm).2 ⟨target.kind, hto⟩
      rw [hi] at this
      simp only [Position.moveInner, PartialPosition.setPieceAt, xorPiece_player L, hpl, hcol,
        condSingle] at this
      have hb : mem (p.inner.playerBB piece.color) frm = true := (hr.player _ _).2 ⟨_, hpiece⟩
      simp [mem_xor, hb] at this
    | drop to piece =>
      obtain ⟨isCheck, st, q, n, z, ply, _, hst, hq, hn, hz, hply, hi, _⟩ := doMove_drop hm
      simp only [Position.dropInner, Option.bind_eq_bind, Option.bind_eq_some_iff,
        Option.pure_def] at hq
      obtain ⟨hand, _, hq⟩ := hq
      cases hq
      have hto : p'.inner.board to = some piece := by
        rw [hi]; simp [PartialPosition.setPieceAt, PartialPosition.setHand]
      show p.inner.board to = none
      cases e : p.inner.board to with
      | none => rfl
      | some o =>
        exfalso
        have hb : mem (p.inner.playerBB o.color) to = true := (hr.player _ _).2 ⟨_, e⟩
        have hnew : mem (p'.inner.playerBB o.color) to =
            (true ^^ mem (condSingle (o.color = piece.color) to) to) := by
          rw [hi]
          simp only [PartialPosition.setPieceAt, PartialPosition.setHand, xorPiece_player L, mem_xor, hb]
        by_cases hc : o.color = piece.color
        · have := (h1 o.color to).2 ⟨piece.kind, by rw [hto, hc]⟩
          rw [hnew] at this
          simp [condSingle, hc] at this
        · have hx : mem (p'.inner.playerBB o.color) to = true := by
            rw [hnew]; simp [condSingle, hc, mem]
          obtain ⟨k, hk⟩ := (h1 o.color to).1 hx
          rw [hto] at hk
          cases hk
          exact hc rfl
  · intro hs
    obtain ⟨p0, h0, hss⟩ := h
    exact (C70_bitboards_mirror_board E K hK pp _ p' ⟨p0, h0, hss.move hs hm⟩).1

/-! ## Concrete cases -/

section
open Yasai.Examples

/-- C70 covers illegal moves: in `skirmish` Black moves White's promoted silver onto White's pawn. -/
example : ∃ p, Visited env0 CoreBB.backend skirmish [.normal (sq 2 3) (sq 4 3) false] p ∧
    Mirrors CoreBB.backend p := by
  have h : ((Position.new env0 CoreBB.backend skirmish).any fun p =>
      (p.doMove env0 CoreBB.backend (.normal (sq 2 3) (sq 4 3) false)).isSome) = true := by
    decide +kernel
  simp only [Option.any_eq_true, Option.isSome_iff_exists] at h
  obtain ⟨p, hp, p', hp'⟩ := h
  have hv : Visited env0 CoreBB.backend skirmish [.normal (sq 2 3) (sq 4 3) false] p' :=
    ⟨p, hp, .move .start (by show sq 2 3 ≠ sq 4 3; decide) hp'⟩
  exact ⟨p', hv, (C70_bitboards_mirror_board _ _ core_mem _ _ _ hv).1⟩

/-- A pawn dropped on the own rook: `do_move` returns and the bitboards are wrong afterwards. -/
theorem C70_drop_on_piece : ∃ p p', Position.new env0 CoreBB.backend skirmish = some p ∧
    p.doMove env0 CoreBB.backend (.drop (sq 2 8) ⟨.pawn, .black⟩) = some p' ∧
    ¬ Mirrors CoreBB.backend p' := by
  have h : ((Position.new env0 CoreBB.backend skirmish).any fun p =>
      (p.pieceAt (sq 2 8)).isSome &&
      (p.doMove env0 CoreBB.backend (.drop (sq 2 8) ⟨.pawn, .black⟩)).isSome) = true := by
    decide +kernel
  simp only [Option.any_eq_true, Bool.and_eq_true] at h
  obtain ⟨p, hp, ho, h⟩ := h
  obtain ⟨p', hp'⟩ := Option.isSome_iff_exists.1 h
  refine ⟨p, p', hp, hp', fun hc => ?_⟩
  have := (C70_kept_iff _ _ core_mem _ _ p p' ⟨p, hp, .start⟩ _ hp').1 hc
  rw [show p.pieceAt (sq 2 8) = none from this] at ho
  cases ho

end

end Yasai.Props

import Verif.Props.Parts
import Verif.Props.Ignored

/-!
# C84: pawns on their last rank

A pawn of the side to move may stand on its last rank: `Position::new` accepts such positions and
`do_move` reaches them.  The pawn generator shifts the whole set of pawns, so what happens to these
pawns depends on the build.
-/

namespace Yasai.Props

open Yasai Spec

/-- The squares next to each other in the numbering of the squares, but on two files: from the last
rank of `c`, forward, to the first rank of the neighbouring file.  The pair that lies in two
different 64-bit halves of a SIMD register is left out. -/
def Wraps : Color → Square → Square → Prop
  | .black, frm, to => frm.rank = 1 ∧ to.rank = 9 ∧ to.file + 1 = frm.file ∧ frm.file ≠ 8
  | .white, frm, to => frm.rank = 9 ∧ to.rank = 1 ∧ to.file = frm.file + 1 ∧ frm.file ≠ 7

/-- A pawn of the side to move goes round the edge of the board, without promotion. -/
def WrapMove (P : Pos) (T : Square → Prop) : Move → Prop
  | .normal frm to pr => P.board frm = some ⟨.pawn, P.side⟩ ∧ Wraps P.side frm to ∧ T to ∧ pr = false
  | .drop _ _ => False

theorem step_pawn_iff {c : Color} {frm to : Square} :
    Step .pawn c frm to ↔ Disp frm to 0 (fwd c) := by
  unfold Step
  simp [steps]

theorem reaches_pawn_iff {occ : Square → Prop} {c : Color} {frm to : Square} :
    Reaches occ .pawn c frm to ↔ Step .pawn c frm to := by
  rw [reaches_iff]
  constructor
  · rintro (h | h)
    · exact h
    · exact absurd h.1 (not_slide rfl _ _ _)
  · exact .inl

/-- Being next to each other in the numbering. -/
theorem next_iff (c : Color) (frm to : Square) :
    (match c with | .black => frm.val = to.val + 1 | .white => to.val = frm.val + 1) ↔
      Step .pawn c frm to ∨ (match c with
        | .black => frm.rank = 1 ∧ to.rank = 9 ∧ to.file + 1 = frm.file
        | .white => frm.rank = 9 ∧ to.rank = 1 ∧ to.file = frm.file + 1) := by
  rw [step_pawn_iff]
  have a := val_coords frm
  have b := val_coords to
  have a' := frm.bounds
  have b' := to.bounds
  unfold Disp
  cases c <;> simp only [fwd] <;> omega

theorem fuFrom_eq {K : Backend} {c : Color} {frm to : Square}
    (h : match c with | .black => frm.val = to.val + 1 | .white => to.val = frm.val + 1) :
    fuFrom K c to = frm := by
  have hl1 := frm.isLt
  have hl2 := to.isLt
  unfold fuFrom Square.fromU8Unchecked
  cases c <;> dsimp only at h ⊢
  · rw [dif_pos (by omega)]
    apply Fin.ext
    show (to.val + 1 + 1) % 256 - 1 = frm.val
    omega
  · rw [dif_pos (by omega)]
    apply Fin.ext
    show (to.val + 1 + 255) % 256 - 1 = frm.val
    omega

theorem mem_pawns {K : Backend} (hK : Lawful K) {q : PartialPosition} (h : Repr q) (c : Color)
    (s : Square) : mem (q.pieceBitboard K ⟨.pawn, c⟩) s = true ↔ q.board s = some ⟨.pawn, c⟩ := by
  unfold PartialPosition.pieceBitboard
  rw [hK.and, mem_and, Bool.and_eq_true, h.piece, h.player]
  constructor
  · rintro ⟨⟨c1, h1⟩, k1, h2⟩
    rw [h1] at h2; cases h2; exact h1
  · intro h; exact ⟨⟨_, h⟩, _, h⟩

theorem ok_pawns {K : Backend} (hK : Lawful K) {q : PartialPosition} (h : Repr q) (c : Color) :
    Ok (q.pieceBitboard K ⟨.pawn, c⟩) := by
  unfold PartialPosition.pieceBitboard; rw [hK.and]; exact ok_and_right _ (h.okPlayer _)

/-! ## The shifts on all squares -/

theorem mem_srl64_any {b : BB} (h : Ok b) (s : Square) :
    mem (srl64 b 1) s = true ↔ ∃ t : Square, mem b t = true ∧ t.val = s.val + 1 ∧ t.val ≠ 63 := by
  rw [mem, getLsbD_srl64]
  have hs := bitPos_lt s
  have hs' := bitPos_ne s
  have e : bitPos s = if s.val < 63 then s.val else s.val + 1 := rfl
  constructor
  · intro hi
    have key : b.getLsbD (bitPos s + 1) = true := by
      split at hi <;> simp only [Bool.and_eq_true, decide_eq_true_eq] at hi
      · rw [Nat.add_comm]; exact hi.2
      · rw [show bitPos s + 1 = 64 + (1 + (bitPos s - 64)) by omega]; exact hi.2
    have hok := h _ key
    refine ⟨sqOf _ hok, by rw [mem, bitPos_sqOf]; exact key, ?_⟩
    rw [sqOf_val]
    split at e <;> split <;> omega
  · rintro ⟨t, ht, hst, hne⟩
    have hb : bitPos t = bitPos s + 1 := by
      unfold bitPos; split <;> split <;> omega
    have hlt := bitPos_lt t
    have hne' : bitPos t ≠ 64 := by unfold bitPos; split <;> omega
    unfold mem at ht
    rw [hb] at ht hne'
    split <;> simp only [Bool.and_eq_true, decide_eq_true_eq]
    · rw [Nat.add_comm]; exact ⟨by omega, ht⟩
    · rw [show 64 + (1 + (bitPos s - 64)) = bitPos s + 1 by omega]; exact ⟨by omega, ht⟩

theorem mem_sll64_any {b : BB} (h : Ok b) (s : Square) :
    mem (sll64 b 1) s = true ↔ ∃ t : Square, mem b t = true ∧ s.val = t.val + 1 ∧ t.val ≠ 62 := by
  rw [mem, getLsbD_sll64]
  simp only [Bool.and_eq_true, decide_eq_true_eq]
  have hs := bitPos_lt s
  have e : bitPos s = if s.val < 63 then s.val else s.val + 1 := rfl
  constructor
  · rintro ⟨⟨h1, h2, h3⟩, h4⟩
    have hok := h _ h4
    refine ⟨sqOf _ hok, by rw [mem, bitPos_sqOf]; exact h4, ?_⟩
    rw [sqOf_val]
    split at e <;> split <;> omega
  · rintro ⟨t, ht, hst, hne⟩
    have hb : bitPos s = bitPos t + 1 ∧ bitPos s ≠ 64 := by
      unfold bitPos; split <;> split <;> omega
    refine ⟨by omega, ?_⟩
    rw [hb.1]; exact ht

theorem portable_fuTo (J : Junk) {q : PartialPosition} (h : Repr q) (to : Square) :
    mem (fuTo (buildAt 0 J) q) to = true ↔
      ∃ frm, q.board frm = some ⟨.pawn, q.side⟩ ∧ Step .pawn q.side frm to := by
  have L := lawful_of_mem (buildAt_mem 0 J)
  have hm := fun c s => mem_pawns L h c s
  have hv : ∀ t : Square, (t.val : Int) = 9 * (t.file - 1) + (t.rank - 1) ∧
      1 ≤ t.rank ∧ t.rank ≤ 9 ∧ 1 ≤ t.file ∧ t.file ≤ 9 := by
    intro t
    have := val_coords t
    have := t.bounds
    omega
  have b := hv to
  have hstep : ∀ c frm, Step .pawn c frm to → (match c with
      | .black => frm.val = to.val + 1 ∧ to.rank + 1 ≤ 9
      | .white => to.val = frm.val + 1 ∧ 1 < to.rank) := by
    intro c frm hst
    have a := hv frm
    obtain ⟨h1, h2⟩ := step_pawn_iff.1 hst
    cases c <;> simp only [fwd] at h2 ⊢ <;> omega
  have hstep' : ∀ c frm, (match c with
      | .black => frm.val = to.val + 1 ∧ to.rank + 1 ≤ 9
      | .white => to.val = frm.val + 1 ∧ 1 < to.rank) → Step .pawn c frm to := by
    intro c frm hst
    have a := hv frm
    rw [step_pawn_iff]
    unfold Disp
    cases c <;> simp only [fwd] at hst ⊢ <;> omega
  unfold fuTo
  cases hq : q.side <;> dsimp only
  · change mem (CoreBB.shiftUp _ 1) to = true ↔ _
    rw [CoreBB.shiftUp, mem_ofPred]
    constructor
    · intro ht
      split at ht
      · rw [Bool.and_eq_true, decide_eq_true_eq] at ht
        exact ⟨_, (hm _ _).1 ht.2, hstep' .black _ ⟨rfl, ht.1⟩⟩
      · cases ht
    · rintro ⟨frm, h1, h2⟩
      obtain ⟨h3, h4⟩ := hstep .black frm h2
      have := frm.isLt
      rw [dif_pos (by omega), Bool.and_eq_true, decide_eq_true_eq]
      refine ⟨h4, ?_⟩
      have e : (⟨to.val + 1, by omega⟩ : Square) = frm := Fin.ext h3.symm
      rw [e]
      exact (hm _ _).2 h1
  · change mem (CoreBB.shiftDown _ 1) to = true ↔ _
    rw [CoreBB.shiftDown, mem_ofPred]
    constructor
    · intro ht
      split at ht
      · rename_i h1
        rw [Bool.and_eq_true, decide_eq_true_eq] at ht
        exact ⟨_, (hm _ _).1 ht.2, hstep' .white _ ⟨by show to.val = to.val - 1 + 1; omega, ht.1⟩⟩
      · cases ht
    · rintro ⟨frm, h1, h2⟩
      obtain ⟨h3, h4⟩ := hstep .white frm h2
      have := to.isLt
      rw [dif_pos (by omega), Bool.and_eq_true, decide_eq_true_eq]
      refine ⟨h4, ?_⟩
      have e : (⟨to.val - 1, by omega⟩ : Square) = frm := Fin.ext (by show to.val - 1 = frm.val; omega)
      rw [e]
      exact (hm _ _).2 h1

theorem simd_fuTo (i : Fin 4) (hi : i ≠ 0) (J : Junk) {q : PartialPosition} (h : Repr q)
    (to : Square) : mem (fuTo (buildAt i J) q) to = true ↔
      ∃ frm, q.board frm = some ⟨.pawn, q.side⟩ ∧ (Step .pawn q.side frm to ∨ Wraps q.side frm to) := by
  have L := lawful_of_mem (buildAt_mem i J)
  have shr : (buildAt i J).shr = fun b => srl64 b 1 := by
    match i, hi with
    | 1, _ | 2, _ | 3, _ => rfl
  have shl : (buildAt i J).shl = fun b => sll64 b 1 := by
    match i, hi with
    | 1, _ | 2, _ | 3, _ => rfl
  unfold fuTo
  rw [shr, shl]
  have b := val_coords to
  have b' := to.bounds
  cases hq : q.side <;> dsimp only
  · rw [mem_srl64_any (ok_pawns L h _)]
    refine exists_congr fun frm => ?_
    rw [mem_pawns L h]
    refine and_congr_right fun _ => ?_
    have a := val_coords frm
    have a' := frm.bounds
    rw [step_pawn_iff]
    unfold Disp Wraps
    simp only [fwd]
    omega
  · rw [mem_sll64_any (ok_pawns L h _)]
    refine exists_congr fun frm => ?_
    rw [mem_pawns L h]
    refine and_congr_right fun _ => ?_
    have a := val_coords frm
    have a' := frm.bounds
    rw [step_pawn_iff]
    unfold Disp Wraps
    simp only [fwd]
    omega

theorem ok_portable_fuTo (J : Junk) (q : PartialPosition) : Ok (fuTo (buildAt 0 J) q) := by
  unfold fuTo
  cases q.side
  · exact ok_ofPred _
  · exact ok_ofPred _

/-! ## The moves of the pawns -/

theorem wraps_ne {c : Color} {frm to : Square} (h : Wraps c frm to) : frm ≠ to := by
  rintro rfl
  cases c <;> have := h.1 <;> have := h.2.1 <;> omega

theorem fuFrom_wraps {K : Backend} {c : Color} {frm to : Square} (h : Wraps c frm to) :
    fuFrom K c to = frm := by
  apply fuFrom_eq
  rw [next_iff]
  cases c <;> exact .inr ⟨h.1, h.2.1, h.2.2.1⟩

theorem destMoves_wraps {c : Color} {frm to : Square} (h : Wraps c frm to) :
    destMoves .pawn c frm to = [.normal frm to false] := by
  have hr : to.relativeRank c = 9 := by
    have := to.bounds
    cases c <;> have := h.2.1 <;> simp only [Square.relativeRank] <;> omega
  simp [destMoves, forwardMoves, promotable, relativeRanks, hr]

/-- The list of the pawn generator, from the set of destinations. -/
theorem mem_fuMoves_of {K : Backend} (hK : Lawful K) {q : PartialPosition} {target : BB}
    (hok : Ok (K.and (fuTo K q) target)) {W : Square → Square → Prop}
    (hW : ∀ frm to, W frm to → Wraps q.side frm to)
    (hmem : ∀ to, mem (fuTo K q) to = true ↔
      ∃ frm, q.board frm = some ⟨.pawn, q.side⟩ ∧ (Step .pawn q.side frm to ∨ W frm to)) (m : Move) :
    m ∈ fuMoves K q target ↔ MoveOf q.spec (fun t => mem target t = true) [.pawn] m ∨
      ∃ frm to, m = .normal frm to false ∧ q.board frm = some ⟨.pawn, q.side⟩ ∧ W frm to ∧
        mem target to = true := by
  rw [← moveOf_iff]
  unfold fuMoves
  rw [List.mem_flatMap]
  have hit : ∀ to, to ∈ K.iter (K.and (fuTo K q) target) ↔
      (∃ frm, q.board frm = some ⟨.pawn, q.side⟩ ∧ (Step .pawn q.side frm to ∨ W frm to)) ∧
        mem target to = true := by
    intro to
    rw [mem_iter hK hok, hK.and, mem_and, Bool.and_eq_true, hmem]
  constructor
  · rintro ⟨to, hto, hm⟩
    rw [hit] at hto
    obtain ⟨⟨frm, h1, h2⟩, h4⟩ := hto
    rcases h2 with h2 | h2
    · have hre := (reaches_pawn_iff (occ := Occ q.board)).2 h2
      rw [fuFrom_step h2, mem_destMoves hre] at hm
      obtain ⟨pr, h5, h6⟩ := hm
      exact .inl ⟨.pawn, by simp, frm, to, pr, h5, h1, hre, h4, h6⟩
    · rw [fuFrom_wraps (hW _ _ h2), destMoves_wraps (hW _ _ h2), List.mem_singleton] at hm
      exact .inr ⟨frm, to, hm, h1, h2, h4⟩
  · rintro (⟨k, hk, frm, to, pr, h1, h2, h3, h4, h5⟩ | ⟨frm, to, h1, h2, h3, h4⟩)
    · cases List.mem_singleton.1 hk
      have h3' := reaches_pawn_iff.1 h3
      refine ⟨to, (hit to).2 ⟨⟨frm, h2, .inl h3'⟩, h4⟩, ?_⟩
      rw [fuFrom_step h3', mem_destMoves h3]
      exact ⟨pr, h1, h5⟩
    · refine ⟨to, (hit to).2 ⟨⟨frm, h2, .inr h3⟩, h4⟩, ?_⟩
      rw [fuFrom_wraps (hW _ _ h3), destMoves_wraps (hW _ _ h3), h1]
      exact List.mem_singleton.2 rfl

theorem fuMoves_nodup_of {K : Backend} (hK : Lawful K) {q : PartialPosition} {target : BB}
    (hok : Ok (K.and (fuTo K q) target)) : (fuMoves K q target).Nodup := by
  apply nodup_flatMap (nodup_iter hK hok) (fun to _ => destMoves_nodup _ _ _ _)
  intro x _ y _ m hx hy
  obtain ⟨p1, h1⟩ := destMoves_shape hx
  obtain ⟨p2, h2⟩ := destMoves_shape hy
  rw [h1] at h2
  exact (Move.normal.inj h2).2.1

theorem mem_fuMoves_portable (J : Junk) {q : PartialPosition} (h : Repr q) (target : BB) (m : Move) :
    m ∈ fuMoves (buildAt 0 J) q target ↔ MoveOf q.spec (fun t => mem target t = true) [.pawn] m := by
  have L := lawful_of_mem (buildAt_mem 0 J)
  rw [mem_fuMoves_of L (by rw [L.and]; exact ok_and_left _ (ok_portable_fuTo J q))
    (W := fun _ _ => False) (fun _ _ h => h.elim) (fun to => by rw [portable_fuTo J h]; simp) m]
  simp

theorem mem_fuMoves_simd (i : Fin 4) (hi : i ≠ 0) (J : Junk) {q : PartialPosition} (h : Repr q)
    {target : BB} (ht : Ok target) (m : Move) :
    m ∈ fuMoves (buildAt i J) q target ↔ MoveOf q.spec (fun t => mem target t = true) [.pawn] m ∨
      WrapMove q.spec (fun t => mem target t = true) m := by
  have L := lawful_of_mem (buildAt_mem i J)
  rw [mem_fuMoves_of L (by rw [L.and]; exact ok_and_right _ ht) (fun _ _ h => h)
    (fun to => simd_fuTo i hi J h to) m]
  refine or_congr_right ?_
  cases m with
  | normal frm to pr =>
    constructor
    · rintro ⟨_, _, e, h1, h2, h3⟩
      cases e
      exact ⟨h1, h2, h3, rfl⟩
    · rintro ⟨h1, h2, h3, rfl⟩
      exact ⟨_, _, rfl, h1, h2, h3⟩
  | drop to pc =>
    constructor
    · rintro ⟨_, _, e, _⟩; cases e
    · exact False.elim

/-- C84, the pawn generator of the portable build.  It needs no hypothesis on the pawns: those on
their last rank have no move. -/
theorem C84_portable_generator (E : Env) (J : Junk) (pp : CorePartialPosition) (ms : List Move)
    (p : Position) (h : Visited E (buildAt 0 J) pp ms p) (target : BB) :
    Appends (fun av => p.inner.generateForFu (buildAt 0 J) av target)
      (MoveOf (view p) (fun t => (buildAt 0 J).contains target t = true) [.pawn]) := by
  have L := lawful_of_mem (buildAt_mem 0 J)
  have hr : Repr p.inner := (h.consistent (buildAt_mem 0 J)).1
  simp only [L.contains]
  refine appends_of (fun av => generateForFu_eq _ _ av target)
    (fuMoves_nodup_of L (by rw [L.and]; exact ok_and_left _ (ok_portable_fuTo J _))) fun m => ?_
  rw [mem_fuMoves_portable J hr, view_eq]

/-- C84, the pawn generator of the SIMD builds, on a target set built with the bitboard operations.
A pawn on its last rank goes to the first rank of the neighbouring file, except across the two
64-bit halves of the register. -/
theorem C84_simd_generator (E : Env) (i : Fin 4) (hi : i ≠ 0) (J : Junk) (pp : CorePartialPosition)
    (ms : List Move) (p : Position) (h : Visited E (buildAt i J) pp ms p) (target : BB)
    (ht : Built (buildAt i J) target) :
    let T := fun t => (buildAt i J).contains target t = true
    Appends (fun av => p.inner.generateForFu (buildAt i J) av target)
      (fun m => MoveOf (view p) T [.pawn] m ∨ WrapMove (view p) T m) := by
  have L := lawful_of_mem (buildAt_mem i J)
  have hr : Repr p.inner := (h.consistent (buildAt_mem i J)).1
  have hok := ht.ok L
  simp only [L.contains]
  refine appends_of (fun av => generateForFu_eq _ _ av target)
    (fuMoves_nodup_of L (by rw [L.and]; exact ok_and_right _ hok)) fun m => ?_
  rw [mem_fuMoves_simd i hi J hr hok, view_eq]

/-! ## `legal_moves` -/

/-- The two squares are on no common line. -/
theorem wraps_unaligned {c : Color} {frm to : Square} (h : Wraps c frm to) {d : Int × Int}
    (hd : d ∈ directions) (n : Int) : ¬ Disp frm to (n * d.1) (n * d.2) := by
  rintro ⟨h1, h2⟩
  have a := frm.bounds
  have b := to.bounds
  have hw : ((to.file : Int) - frm.file = 1 ∧ (to.rank : Int) - frm.rank = -8) ∨
      ((to.file : Int) - frm.file = -1 ∧ (to.rank : Int) - frm.rank = 8) := by
    cases c
    · obtain ⟨h3, h4, h5, _⟩ := h
      omega
    · obtain ⟨h3, h4, h5, _⟩ := h
      omega
  rw [mem_directions] at hd
  rcases hd with rfl | rfl | rfl | rfl | rfl | rfl | rfl | rfl <;> dsimp only at h1 h2 <;> omega

theorem wraps_not_between {c : Color} {frm to : Square} (h : Wraps c frm to) (x : Square) :
    ¬ Between frm x to ∧ ¬ Between x to frm ∧ ¬ Between x frm to := by
  refine ⟨?_, ?_, ?_⟩
  · rintro ⟨d, hd, m, n, _, _, _, h2⟩
    exact wraps_unaligned h hd n h2
  · rintro ⟨d, hd, m, n, _, _, ⟨h1, h1'⟩, h2, h2'⟩
    refine wraps_unaligned h hd ((m : Int) - n) ⟨?_, ?_⟩
    · rw [Int.sub_mul]; omega
    · rw [Int.sub_mul]; omega
  · rintro ⟨d, hd, m, n, _, _, ⟨h1, h1'⟩, h2, h2'⟩
    refine wraps_unaligned h hd ((n : Int) - m) ⟨?_, ?_⟩
    · rw [Int.sub_mul]; omega
    · rw [Int.sub_mul]; omega

theorem noNewAttackOn_wraps {P : Pos} {king frm to : Square}
    (hfrm : P.board frm = some ⟨.pawn, P.side⟩) (hw : Wraps P.side frm to) :
    NoNewAttackOn P king (.normal frm to false) ↔ ¬ Pinned P.board P.side king frm := by
  rw [noNewAttackOn_of_clear hfrm (wraps_ne hw) fun u hu => absurd hu (wraps_not_between hw u).1]
  have hnb : ¬ (Between king to frm ∨ Between king frm to) := fun h =>
    h.elim (wraps_not_between hw king).2.1 (wraps_not_between hw king).2.2
  exact ⟨fun h hp => hnb (h hp), fun h hp => absurd hp h⟩

theorem noNewAttack_wraps {P : Pos} {frm to : Square}
    (hfrm : P.board frm = some ⟨.pawn, P.side⟩) (hw : Wraps P.side frm to) :
    NoNewAttack P (.normal frm to false) ↔
      ∀ king, P.board king = some ⟨.king, P.side⟩ → ¬ Pinned P.board P.side king frm := by
  simp only [noNewAttack_iff, noNewAttackOn_wraps hfrm hw]

theorem isLegal_wraps {K : Backend} (hK : Lawful K) {q : PartialPosition} (h : Repr q)
    (h1k : ∀ s t, q.board s = some ⟨.king, q.side⟩ → q.board t = some ⟨.king, q.side⟩ → s = t)
    {st : State} (hpin : st.attackInfo.pinned = AttackInfo.pinnedOf K q) {frm to : Square}
    (hfrm : q.board frm = some ⟨.pawn, q.side⟩) (hw : Wraps q.side frm to) :
    q.isLegal K st (.normal frm to false) = true ↔
      ∀ king, q.board king = some ⟨.king, q.side⟩ → ¬ Pinned q.board q.side king frm := by
  have e : q.isLegal K st (.normal frm to false) =
      (if q.pieceAt frm = some ⟨.king, q.side⟩ ∧
        (!K.isEmpty (q.attackersTo K q.side.flip to (q.occupiedBB K))) = true then false
      else if K.contains (st.attackInfo.pinned q.side) frm then
        match q.kingPosition K q.side with
        | some sq =>
          if !(K.contains (betweenTable K sq frm) to || K.contains (betweenTable K sq to) frm)
          then false else true
        | none => true
      else true) := rfl
  rw [e, if_neg (by
    rintro ⟨h1, _⟩
    change q.board frm = _ at h1
    rw [hfrm] at h1; cases h1), hpin, hK.contains]
  cases hk : q.kingPosition K q.side with
  | none =>
    rw [pinnedOf_none hk, hK.empty, mem_zero]
    rw [h.kingPosition_none hK _ h1k] at hk
    simp [hk]
  | some king =>
    have hking := (h.kingPosition hK _ h1k king).1 hk
    have hp := (pinnedOf_spec hK h hk).2 frm
    have hb : (mem (betweenTable K king frm) to || mem (betweenTable K king to) frm) = false := by
      rw [← Bool.not_eq_true, Bool.or_eq_true, mem_betweenTable hK, mem_betweenTable hK]
      exact fun h => h.elim (wraps_not_between hw king).2.1 (wraps_not_between hw king).2.2
    dsimp only
    rw [hK.contains, hK.contains, hb]
    by_cases hm : mem (AttackInfo.pinnedOf K q q.side) frm = true
    · rw [if_pos hm]
      simp only [Bool.not_false, if_true]
      refine ⟨fun h => (by cases h), fun h => absurd (hp.1 hm) (h king hking)⟩
    · rw [if_neg hm]
      refine ⟨fun _ king' hking' hpn => hm (hp.2 ?_), fun _ => rfl⟩
      cases h1k _ _ hking' hking
      exact hpn

theorem Visited.pinned {E : Env} {K : Backend} (hK : K ∈ backends) {pp : CorePartialPosition}
    {ms : List Move} {p : Position} (h : Visited E K pp ms p) :
    ∃ st, p.state = some st ∧ st.attackInfo.pinned = AttackInfo.pinnedOf K p.inner := by
  obtain ⟨p0, h0, hs⟩ := h
  have hp := hs.play hK (fun _ _ h => h)
  cases hp with
  | start =>
    obtain ⟨_, st, hst, hai⟩ := inv_new (lawful_of_mem hK) h0
    exact ⟨st, hst, by rw [hai]; rfl⟩
  | @move ms' q _ m _ _ hm =>
    cases m with
    | normal frm to promote =>
      obtain ⟨isCheck, st, piece, kq, target, ply, _, _, _, _, _, _, hi, hs⟩ := doMove_normal hm
      exact ⟨_, by unfold Position.state; rw [hs]; rfl, rfl⟩
    | drop to pc =>
      obtain ⟨isCheck, st, q', n, z, ply, _, _, _, _, _, _, hi, hs⟩ := doMove_drop hm
      exact ⟨_, by unfold Position.state; rw [hs]; rfl, rfl⟩

theorem parts_any {K K' : Backend} (hK : Lawful K) (hK' : Lawful K') {q : PartialPosition}
    (h : Repr q) (target : BB) {r : PieceKind} (hr : r ≠ .pawn) :
    parts K q target r = parts K' q target r := by
  have hg : ∀ k, groupMoves K q k (K.and (q.playerBB q.side) (q.pieceBB k)) target =
      groupMoves K' q k (K'.and (q.playerBB q.side) (q.pieceBB k)) target := by
    intro k
    rw [hK.and, hK'.and]
    exact groupMoves_agree hK hK' (ok_and_left _ (h.okPlayer _))
  cases r
  case pawn => exact absurd rfl hr
  case gold =>
    simp only [parts, kiMoves, hK.and, hK'.and, hK.or, hK'.or]
    exact groupMoves_agree hK hK' (ok_and_right _ (h.okPlayer _))
  case proPawn | proLance | proKnight | proSilver => rfl
  all_goals exact hg _

theorem mem_order_simd (i : Fin 4) (hi : i ≠ 0) (J J' : Junk) {q : PartialPosition} (h : Repr q)
    {target : BB} (ht : Ok target) {rest : List PieceKind} (hrest : .pawn ∉ rest) (m : Move) :
    m ∈ (PieceKind.pawn :: rest).flatMap (parts (buildAt i J') q target) ↔
      m ∈ (PieceKind.pawn :: rest).flatMap (parts (buildAt 0 J) q target) ∨
        WrapMove q.spec (fun t => mem target t = true) m := by
  have L := lawful_of_mem (buildAt_mem 0 J)
  have L' := lawful_of_mem (buildAt_mem i J')
  have e : rest.flatMap (parts (buildAt i J') q target) =
      rest.flatMap (parts (buildAt 0 J) q target) := by
    induction rest with
    | nil => rfl
    | cons r rest ih =>
      rw [List.flatMap_cons, List.flatMap_cons, ih fun h => hrest (List.mem_cons_of_mem _ h),
        parts_any L' L h target fun e => hrest (by rw [e]; exact List.mem_cons_self)]
  rw [List.flatMap_cons, List.flatMap_cons, e, List.mem_append, List.mem_append]
  change m ∈ fuMoves _ _ _ ∨ _ ↔ (m ∈ fuMoves _ _ _ ∨ _) ∨ _
  rw [mem_fuMoves_simd i hi J' h ht, mem_fuMoves_portable J h, or_assoc, or_assoc]
  exact or_congr_right or_comm

theorem dropMoves_any {E : Env} {K K' : Backend} (hK : Lawful K) (hK' : Lawful K')
    {q : PartialPosition} (h : OkBoards q) (hv : VacantAgree E K K' q) (st : State) {target : BB}
    (ht : Ok target) : dropMoves E K q st target = dropMoves E K' q st target := by
  unfold dropMoves
  congr 1
  funext pk
  rw [pawnDropTarget_any hK hK' h hv, hK.empty, hK'.empty]
  refine dropKind_agree hK hK' ?_ pk
  split
  · cases e : q.pawnDropTarget E K' st target with
    | none => exact ok_zero
    | some t => exact ok_pawnDropTarget hK' ht e
  · exact ht

theorem parts_other {K : Backend} (hK : Lawful K) {q : PartialPosition} (h : Repr q) {target : BB}
    {r : PieceKind} (hr : r ≠ .pawn) {m : Move} (hm : m ∈ parts K q target r) :
    ∃ k, k ≠ .pawn ∧ Gen q target k m := by
  cases r
  case pawn => exact absurd rfl hr
  case gold =>
    obtain ⟨k, hk, hg⟩ := (mem_kiMoves hK h target m).1 hm
    refine ⟨k, ?_, hg⟩
    rintro rfl
    simp [goldKinds] at hk
  case proPawn | proLance | proKnight | proSilver => cases hm
  all_goals exact ⟨_, by decide, (mem_group_gen hK h _ target m).1 hm⟩

theorem dropMoves_shape {E : Env} {K : Backend} {q : PartialPosition} {st : State} {target : BB}
    {frm to : Square} {pr : Bool} : .normal frm to pr ∉ dropMoves E K q st target := by
  intro h
  obtain ⟨pk, _, h⟩ := List.mem_flatMap.1 h
  obtain ⟨t, _, h⟩ := List.mem_flatMap.1 h
  split at h
  · cases List.mem_singleton.1 h
  · cases h

theorem simd_pawnDropTarget (E : Env) (i : Fin 4) (hi : i ≠ 0) (J : Junk) (q : PartialPosition)
    (st : State) (target : BB) : ∃ pt, q.pawnDropTarget E (buildAt i J) st target = some pt := by
  have vac : (buildAt i J).vacantFiles = fun _ b => some (simdVacantFiles b) := by
    match i, hi with
    | 1, _ | 2, _ | 3, _ => rfl
  unfold PartialPosition.pawnDropTarget
  rw [vac]
  simp only [Option.bind_eq_bind, Option.bind_some, Option.pure_def]
  split
  · split
    · split <;> exact ⟨_, rfl⟩
    · exact ⟨_, rfl⟩
  · exact ⟨_, rfl⟩

theorem legalMoves_noCheck {E : Env} {K : Backend} {p : Position} {st : State}
    (hst : p.state = some st) (hc : K.isEmpty st.attackInfo.checkers = true)
    (hpt : ∃ pt, p.inner.pawnDropTarget E K st (emptySquares K p.inner) = some pt) {l : List Move}
    (hl : p.legalMoves E K = some l) (m : Move) :
    m ∈ l ↔ m ∈ allList E K p.inner st ∧ p.inner.isLegal K st m = true := by
  unfold Position.legalMoves at hl
  simp only [hst, Option.bind_eq_bind, Option.bind_some, Option.pure_def, hc, Bool.not_true,
    Bool.false_eq_true, if_false, generateAll_eq fun _ => hpt] at hl
  obtain ⟨av, hav, e⟩ := Option.bind_eq_some_iff.1 hl
  cases e
  have := appendAll_eq_some hav
  rw [List.nil_append] at this
  subst this
  rw [(filterLoop_perm _ _).mem_iff, List.mem_filter]

/-- C84, `legal_moves`, for any pawns on which `vacant_files` is the same. -/
theorem listed_of_agree (E : Env) (i : Fin 4) (hi : i ≠ 0) (J J' : Junk) (pp : CorePartialPosition)
    (ms : List Move) (p : Position) (h : Visited E (buildAt 0 J) pp ms p)
    (hva : VacantAgree E (buildAt 0 J) (buildAt i J') p.inner)
    (h1k : ∀ s t, p.pieceAt s = some ⟨.king, p.sideToMove⟩ →
      p.pieceAt t = some ⟨.king, p.sideToMove⟩ → s = t)
    (hc : p.inCheck (buildAt 0 J) = some false) (l0 l1 : List Move)
    (hl0 : p.legalMoves E (buildAt 0 J) = some l0)
    (hl1 : p.legalMoves E (buildAt i J') = some l1) (m : Move) :
    (m ∈ l1 ↔ m ∈ l0 ∨
      WrapMove (view p) (fun t => ∀ k, p.pieceAt t ≠ some ⟨k, p.sideToMove⟩) m ∧
        NoNewAttack (view p) m) ∧
    (∀ T, WrapMove (view p) T m → ¬ PseudoLegal (view p) m ∧ m ∉ l0) := by
  have L := lawful_of_mem (buildAt_mem 0 J)
  have L' := lawful_of_mem (buildAt_mem i J')
  have hr : Repr p.inner := (h.consistent (buildAt_mem 0 J)).1
  obtain ⟨st, hst, hpin⟩ := h.pinned (buildAt_mem 0 J)
  simp only [Position.inCheck, hst, Option.bind_eq_bind, Option.bind_some, Option.pure_def,
    Option.some.injEq, Bool.not_eq_false'] at hc
  have hc' : (buildAt i J').isEmpty st.attackInfo.checkers = true := by
    rw [L'.isEmpty, ← L.isEmpty]; exact hc
  have hes := emptySquares_agree L L' (q := p.inner)
  have hpt' := simd_pawnDropTarget E i hi J' p.inner st (emptySquares (buildAt i J') p.inner)
  have hpt : ∃ pt, p.inner.pawnDropTarget E (buildAt 0 J) st (emptySquares (buildAt 0 J) p.inner) =
      some pt := by
    rw [pawnDropTarget_any L L' hr hva, hes]; exact hpt'
  have hm0 := legalMoves_noCheck hst hc hpt hl0
  have hm1 := legalMoves_noCheck hst hc' hpt' hl1
  have hleg : ∀ m, p.inner.isLegal (buildAt i J') st m = p.inner.isLegal (buildAt 0 J) st m :=
    fun m => congrFun (isLegal_agree L' L hr st) m
  have hnot : (buildAt i J').not (p.inner.playerBB p.inner.side) =
      (buildAt 0 J).not (p.inner.playerBB p.inner.side) := by rw [L.not, L'.not]
  have hok : Ok ((buildAt 0 J).not (p.inner.playerBB p.inner.side)) := by
    rw [L.not]; exact ok_not _
  have hown : ∀ t, mem ((buildAt 0 J).not (p.inner.playerBB p.inner.side)) t = true ↔
      ∀ k, p.pieceAt t ≠ some ⟨k, p.sideToMove⟩ := by
    intro t
    rw [not_own_iff L hr]
    constructor
    · intro h k e
      exact h _ e rfl
    · rintro h ⟨k, c⟩ e hcc
      dsimp only at hcc
      subst hcc
      exact h k e
  have hparts : ∀ m, m ∈ allList E (buildAt i J') p.inner st ↔ m ∈ allList E (buildAt 0 J) p.inner st ∨
      WrapMove (view p) (fun t => ∀ k, p.pieceAt t ≠ some ⟨k, p.sideToMove⟩) m := by
    intro m
    unfold allList
    rw [hnot, ← hes, dropMoves_any L L' hr hva st (emptySquares_spec L hr).1]
    rw [List.mem_append, List.mem_append]
    unfold orderAll
    rw [mem_order_simd i hi J J' hr hok (by decide), view_eq]
    simp only [hown]
    rw [or_assoc, or_assoc]
    exact or_congr_right or_comm
  refine ⟨?_, fun T hT => ?_⟩
  · rw [hm1, hm0, hparts, hleg, or_and_right]
    refine or_congr_right (and_congr_right fun hwm => ?_)
    cases m with
    | normal frm to pr =>
      obtain ⟨h1, h2, h3, rfl⟩ := hwm
      rw [isLegal_wraps L hr h1k hpin h1 h2, view_eq]
      exact (noNewAttack_wraps (P := p.inner.spec) h1 h2).symm
    | drop to pc => exact hwm.elim
  · cases m with
    | normal frm to pr =>
      obtain ⟨h1, h2, h3, rfl⟩ := hT
      have hns : ¬ Step .pawn p.sideToMove frm to := by
        rw [step_pawn_iff]
        rintro ⟨h4, h5⟩
        have := wraps_unaligned h2 (d := (0, fwd p.sideToMove)) (by
          rw [mem_directions]; cases p.sideToMove <;> simp [fwd]) 1
        exact this ⟨by simpa using h4, by simpa using h5⟩
      refine ⟨?_, fun hm => ?_⟩
      · rintro ⟨k, hk, hre, _⟩
        rw [h1] at hk
        cases hk
        exact hns (reaches_pawn_iff.1 hre)
      · obtain ⟨hm, _⟩ := (hm0 _).1 hm
        rcases List.mem_append.1 hm with hm | hm
        · obtain ⟨r, _, hm⟩ := List.mem_flatMap.1 hm
          by_cases hrp : r = .pawn
          · subst hrp
            obtain ⟨k, hk, h4, h5, _⟩ := (mem_fuMoves_portable J hr _ _).1 hm
            cases List.mem_singleton.1 hk
            exact hns (reaches_pawn_iff.1 h5)
          · obtain ⟨k, hk, _, _, _, e, h4, _⟩ := parts_other L hr hrp hm
            cases e
            have h4 : p.inner.board frm = some ⟨k, p.inner.side⟩ := h4
            have h1 : p.inner.board frm = some ⟨.pawn, p.inner.side⟩ := h1
            rw [h1] at h4
            cases h4
            exact hk rfl
        · exact dropMoves_shape hm
    | drop to pc => exact hT.elim

/-- C84, `legal_moves`.  Let at most one king of the side to move be on the board, and let `in_check`
answer false.  Then the SIMD builds list what the portable build lists, and also every pawn of the
side to move on its last rank going round the edge to a square without a piece of its own side,
unless this opens a line on the king.  None of these additional moves is possible by the rules.
Any history of moves with `Shape`; `BottomPawnAlone` as in C51. -/
theorem C84_legal_moves (E : Env) (i : Fin 4) (hi : i ≠ 0) (J J' : Junk) (pp : CorePartialPosition)
    (ms : List Move) (p : Position) (h : Visited E (buildAt 0 J) pp ms p) (hb : BottomPawnAlone p)
    (h1k : ∀ s t, p.pieceAt s = some ⟨.king, p.sideToMove⟩ →
      p.pieceAt t = some ⟨.king, p.sideToMove⟩ → s = t)
    (hc : p.inCheck (buildAt 0 J) = some false) (l0 l1 : List Move)
    (hl0 : p.legalMoves E (buildAt 0 J) = some l0)
    (hl1 : p.legalMoves E (buildAt i J') = some l1) (m : Move) :
    (m ∈ l1 ↔ m ∈ l0 ∨
      WrapMove (view p) (fun t => ∀ k, p.pieceAt t ≠ some ⟨k, p.sideToMove⟩) m ∧
        NoNewAttack (view p) m) ∧
    (∀ T, WrapMove (view p) T m → ¬ PseudoLegal (view p) m ∧ m ∉ l0) :=
  listed_of_agree E i hi J J' pp ms p h (vacantAgree_of_pawns (lawful_of_mem (buildAt_mem 0 J))
    (lawful_of_mem (buildAt_mem i J')) E (h.consistent (buildAt_mem 0 J)).1 hb) h1k hc l0 l1 hl0 hl1 m

theorem checkersAttacks_count {K : Backend} {q : PartialPosition} {st : State} {king : Square}
    {r : BB × Nat} (h : q.checkersAttacks K st king = some r) :
    r = (r.1, (K.iter st.attackInfo.checkers).length) := by
  have key : ∀ (l : List Square) (acc r : BB × Nat), l.foldlM (fun (acc : BB × Nat) ch => do
      let piece ← q.pieceAt ch
      let pk := piece.kind
      if pk = .proRook ∧ ch.file ≠ king.file ∧ ch.rank ≠ king.rank then
        pure (K.or acc.1 (hiAttack K ch (q.occupiedBB K)), acc.2 + 1)
      else
        pure (K.or acc.1 (tablePseudoAttack K pk ch q.side.flip), acc.2 + 1)) acc = some r →
      r.2 = acc.2 + l.length := by
    intro l
    induction l with
    | nil =>
      intro acc r e
      cases e
      rfl
    | cons ch l ih =>
      intro acc r e
      rw [List.foldlM_cons] at e
      obtain ⟨acc', e1, e2⟩ := Option.bind_eq_some_iff.1 e
      have := ih acc' r e2
      obtain ⟨piece, _, e1⟩ := Option.bind_eq_some_iff.1 e1
      dsimp only at e1
      split at e1 <;> cases e1 <;> rw [this, List.length_cons] <;> dsimp only <;> omega
  have := key _ _ _ h
  rw [Nat.zero_add] at this
  exact Prod.ext rfl this

theorem legalMoves_check {E : Env} {K : Backend} (hK : Lawful K) {p : Position} {st : State}
    (hst : p.state = some st) (hok : Ok st.attackInfo.checkers)
    (hc : K.isEmpty st.attackInfo.checkers = false)
    (hpt : ∀ target, ∃ pt, p.inner.pawnDropTarget E K st target = some pt) {l : List Move}
    (hl : p.legalMoves E K = some l) :
    ∃ king att, p.inner.kingPosition K p.inner.side = some king ∧
      p.inner.checkersAttacks K st king = some att ∧
      ∀ m, m ∈ l ↔ m ∈ evList E K p.inner st king att.1 ∧ p.inner.isLegal K st m = true := by
  unfold Position.legalMoves at hl
  simp only [hst, Option.bind_eq_bind, Option.bind_some, Option.pure_def, hc, Bool.not_false,
    if_true] at hl
  obtain ⟨av, hav, e⟩ := Option.bind_eq_some_iff.1 hl
  cases e
  obtain ⟨king, hk, h1⟩ := Option.bind_eq_some_iff.1 hav
  obtain ⟨att, hatt, _⟩ := Option.bind_eq_some_iff.1 h1
  refine ⟨king, att, hk, hatt, fun m => ?_⟩
  have hne : K.iter st.attackInfo.checkers ≠ [] := by
    intro e
    have : st.attackInfo.checkers = 0#128 := ext_of_ok hok ok_zero fun s => by
      rw [mem_zero, ← Bool.not_eq_true, ← mem_iter hK hok, e]
      simp
    rw [hK.isEmpty, this] at hc
    simp at hc
  rw [generateEvasions_eq hk (by rw [hatt, checkersAttacks_count hatt]) hne fun ch _ _ _ => hpt _] at hav
  have := appendAll_eq_some hav
  rw [List.nil_append] at this
  subst this
  rw [(filterLoop_perm _ _).mem_iff, List.mem_filter]

/-- The same when a check is recorded. -/
theorem recorded_of_agree (E : Env) (i : Fin 4) (hi : i ≠ 0) (J J' : Junk)
    (pp : CorePartialPosition) (ms : List Move) (p : Position)
    (h : Visited E (buildAt 0 J) pp ms p)
    (hva : VacantAgree E (buildAt 0 J) (buildAt i J') p.inner)
    (h1k : ∀ s t, p.pieceAt s = some ⟨.king, p.sideToMove⟩ →
      p.pieceAt t = some ⟨.king, p.sideToMove⟩ → s = t)
    (hc : p.inCheck (buildAt 0 J) = some true) (st : State) (hst : p.state = some st)
    (l0 l1 : List Move) (hl0 : p.legalMoves E (buildAt 0 J) = some l0)
    (hl1 : p.legalMoves E (buildAt i J') = some l1) (m : Move) :
    m ∈ l1 ↔ m ∈ l0 ∨ ∃ king ch, p.pieceAt king = some ⟨.king, p.sideToMove⟩ ∧
      (∀ s, (buildAt 0 J).contains st.attackInfo.checkers s = true ↔ s = ch) ∧
      WrapMove (view p) (fun t => t = ch ∨ Between ch t king) m ∧ NoNewAttack (view p) m := by
  have L := lawful_of_mem (buildAt_mem 0 J)
  have L' := lawful_of_mem (buildAt_mem i J')
  have hcons := h.consistent (buildAt_mem 0 J)
  have hr : Repr p.inner := hcons.1
  have hcok := hcons.2 st hst
  obtain ⟨st', hst', hpin⟩ := h.pinned (buildAt_mem 0 J)
  rw [hst] at hst'
  cases hst'
  simp only [Position.inCheck, hst, Option.bind_eq_bind, Option.bind_some, Option.pure_def,
    Option.some.injEq, Bool.not_eq_true'] at hc
  have hc' : (buildAt i J').isEmpty st.attackInfo.checkers = false := by
    rw [L'.isEmpty, ← L.isEmpty]; exact hc
  have hpt' := simd_pawnDropTarget E i hi J' p.inner st
  have hpt : ∀ t, ∃ pt, p.inner.pawnDropTarget E (buildAt 0 J) st t = some pt := by
    intro t
    rw [pawnDropTarget_any L L' hr hva]; exact hpt' t
  obtain ⟨king, att, hk, hatt, hm0⟩ := legalMoves_check L hst hcok hc hpt hl0
  obtain ⟨king', att', hk', hatt', hm1⟩ := legalMoves_check L' hst hcok hc' hpt' hl1
  rw [← kingPosition_agree L L' hr, hk] at hk'
  cases hk'
  have hking := (hr.kingPosition L _ h1k king).1 hk
  have hca : p.inner.checkersAttacks (buildAt 0 J) st king =
      p.inner.checkersAttacks (buildAt i J') st king := by
    unfold PartialPosition.checkersAttacks
    simp only [iter_agree L L' hcok, L.empty, L'.empty, L.or, L'.or,
      occupiedBB_agree L L', hiAttack_agree L L', tablePseudo_agree L L']
  rw [hca, hatt'] at hatt
  cases hatt
  have hleg : ∀ m, p.inner.isLegal (buildAt i J') st m = p.inner.isLegal (buildAt 0 J) st m :=
    fun m => congrFun (isLegal_agree L' L hr st) m
  have hke : kingEvasions (buildAt i J') p.inner king att.1 =
      kingEvasions (buildAt 0 J) p.inner king att.1 := by
    unfold kingEvasions
    simp only [L.and, L'.and, L.not, L'.not, ouAttack_agree L L',
      iter_agree L L' (ok_and_right _ (ok_not att.1))]
  have hiter : (buildAt i J').iter st.attackInfo.checkers =
      (buildAt 0 J).iter st.attackInfo.checkers := iter_agree L' L hcok
  have hmi : ∀ s, s ∈ (buildAt 0 J).iter st.attackInfo.checkers ↔
      mem st.attackInfo.checkers s = true := fun s => mem_iter L hcok s
  have hnd := nodup_iter L hcok
  have hparts : m ∈ evList E (buildAt i J') p.inner st king att.1 ↔
      m ∈ evList E (buildAt 0 J) p.inner st king att.1 ∨
        ∃ ch, (∀ s, mem st.attackInfo.checkers s = true ↔ s = ch) ∧
          WrapMove (view p) (fun t => t = ch ∨ Between ch t king) m := by
    unfold evList
    rw [hiter, hke]
    cases hch : (buildAt 0 J).iter st.attackInfo.checkers with
    | nil =>
      refine ⟨.inl, ?_⟩
      rintro (h | ⟨ch, h, _⟩)
      · exact h
      · have := (hmi ch).2 ((h ch).2 rfl)
        rw [hch] at this
        cases this
    | cons ch l =>
      cases l with
      | cons ch2 l =>
        refine ⟨.inl, ?_⟩
        rintro (h | ⟨ch3, h, _⟩)
        · exact h
        · have h1 := (h ch).1 ((hmi ch).1 (by rw [hch]; simp))
          have h2 := (h ch2).1 ((hmi ch2).1 (by rw [hch]; simp))
          rw [hch, h1, h2] at hnd
          simp at hnd
      | nil =>
        have hone : ∀ s, mem st.attackInfo.checkers s = true ↔ s = ch := by
          intro s
          rw [← hmi, hch, List.mem_singleton]
        have hex : (∃ ch, (∀ s, mem st.attackInfo.checkers s = true ↔ s = ch) ∧
            WrapMove (view p) (fun t => t = ch ∨ Between ch t king) m) ↔
            WrapMove (view p) (fun t => t = ch ∨ Between ch t king) m := by
          constructor
          · rintro ⟨ch', h, hw⟩
            have : ch = ch' := (h ch).1 ((hone ch).2 rfl)
            subst this
            exact hw
          · exact fun hw => ⟨ch, hone, hw⟩
        have hbt := betweenTable_spec L ch king
        have htgt : ∀ t, mem (betweenTable (buildAt 0 J) ch king ||| st.attackInfo.checkers) t = true ↔
            t = ch ∨ Between ch t king := by
          intro t
          rw [mem_or, Bool.or_eq_true, hone, mem_betweenTable L, or_comm]
        dsimp only
        unfold otherEvasions
        rw [hex]
        simp only [List.mem_append]
        rw [← betweenTable_agree L L', L'.or, L.or, L'.isEmpty, L.isEmpty,
          dropMoves_any L L' hr hva st hbt.1]
        unfold orderEv
        rw [mem_order_simd i hi J J' hr (ok_or hbt.1 hcok) (by decide), view_eq]
        simp only [htgt]
        constructor
        · rintro (h | (h | h) | h)
          · exact .inl (.inl h)
          · exact .inl (.inr (.inl h))
          · exact .inr h
          · exact .inl (.inr (.inr h))
        · rintro ((h | h | h) | h)
          · exact .inl h
          · exact .inr (.inl (.inl h))
          · exact .inr (.inr h)
          · exact .inr (.inl (.inr h))
  have hwl : ∀ T, WrapMove (view p) T m → (p.inner.isLegal (buildAt 0 J) st m = true ↔
      NoNewAttack (view p) m) := by
    intro T hwm
    cases m with
    | normal frm to pr =>
      obtain ⟨h1, h2, h3, rfl⟩ := hwm
      rw [isLegal_wraps L hr h1k hpin h1 h2, view_eq]
      exact (noNewAttack_wraps (P := p.inner.spec) h1 h2).symm
    | drop to pc => exact hwm.elim
  rw [hm1, hm0, hparts, hleg, or_and_right]
  refine or_congr_right ?_
  simp only [L.contains]
  constructor
  · rintro ⟨⟨ch, h1, h2⟩, h3⟩
    exact ⟨king, ch, hking, h1, h2, (hwl _ h2).1 h3⟩
  · rintro ⟨king', ch, h0, h1, h2, h3⟩
    cases h1k _ _ h0 hking
    exact ⟨⟨ch, h1, h2⟩, (hwl _ h2).2 h3⟩

/-- C84, `legal_moves` when a check is recorded.  The pawns on their last rank that the SIMD builds
move round the edge are those that take the only recorded piece or come between it and the king. -/
theorem C84_check_recorded (E : Env) (i : Fin 4) (hi : i ≠ 0) (J J' : Junk)
    (pp : CorePartialPosition) (ms : List Move) (p : Position)
    (h : Visited E (buildAt 0 J) pp ms p) (hb : BottomPawnAlone p)
    (h1k : ∀ s t, p.pieceAt s = some ⟨.king, p.sideToMove⟩ →
      p.pieceAt t = some ⟨.king, p.sideToMove⟩ → s = t)
    (hc : p.inCheck (buildAt 0 J) = some true) (st : State) (hst : p.state = some st)
    (l0 l1 : List Move) (hl0 : p.legalMoves E (buildAt 0 J) = some l0)
    (hl1 : p.legalMoves E (buildAt i J') = some l1) (m : Move) :
    m ∈ l1 ↔ m ∈ l0 ∨ ∃ king ch, p.pieceAt king = some ⟨.king, p.sideToMove⟩ ∧
      (∀ s, (buildAt 0 J).contains st.attackInfo.checkers s = true ↔ s = ch) ∧
      WrapMove (view p) (fun t => t = ch ∨ Between ch t king) m ∧ NoNewAttack (view p) m :=
  recorded_of_agree E i hi J J' pp ms p h (vacantAgree_of_pawns (lawful_of_mem (buildAt_mem 0 J))
    (lawful_of_mem (buildAt_mem i J')) E (h.consistent (buildAt_mem 0 J)).1 hb) h1k hc st hst l0 l1 hl0
    hl1 m

/-! ## Concrete cases -/

section
open Yasai.Examples

/-- Black pawns on 2a, 4a and 8a.  The one on 4a is pinned by the rook on 6a, the one on 8a is at the
border between the two halves of the register. -/
def lastRankPawns : CorePartialPosition where
  side := .black
  ply := 1#16
  hands := fun _ => handOf []
  board := boardOf [(3,1,.king,.black),(2,1,.pawn,.black),(4,1,.pawn,.black),(8,1,.pawn,.black),
    (6,1,.rook,.white),(5,5,.king,.white)]

/-- The rook on 1i gives check.  The pawns are on 2a, 4a and 9a. -/
def lastRankCheck : CorePartialPosition where
  side := .black
  ply := 1#16
  hands := fun _ => handOf []
  board := boardOf [(5,9,.king,.black),(2,1,.pawn,.black),(4,1,.pawn,.black),(9,1,.pawn,.black),
    (1,9,.rook,.white),(5,5,.king,.white)]

/-- White pawns on 1i, 7i and 9i. -/
def lastRankWhite : CorePartialPosition where
  side := .white
  ply := 1#16
  hands := fun _ => handOf []
  board := boardOf [(5,9,.king,.black),(1,9,.pawn,.white),(7,9,.pawn,.white),(9,9,.pawn,.white),
    (4,2,.king,.white)]

/-- The pawn moves of a list. -/
def pawnMoves (p : Position) (l : List Move) : List Move :=
  l.filter fun m => match m with
    | .normal frm _ _ => p.pieceAt frm == some ⟨.pawn, p.sideToMove⟩
    | .drop _ _ => false

/-- The hypotheses of `C84_legal_moves` and `C84_check_recorded` hold on the three positions, and the
pawn moves that the two builds list are these. -/
theorem C84_example (pp : CorePartialPosition) (check : Bool) (moves : List Move)
    (hpp : (pp, check, moves) ∈ [
      (lastRankPawns, false, [Move.normal (sq 2 1) (sq 1 9) false]),
      (lastRankCheck, true, [.normal (sq 2 1) (sq 1 9) false, .normal (sq 4 1) (sq 3 9) false]),
      (lastRankWhite, false, [.normal (sq 1 9) (sq 2 1) false])]) :
    ∃ p st l0 l1, Visited env0 (buildAt 0 Junk.zero) pp [] p ∧ BottomPawnAlone p ∧
      (∀ s t, p.pieceAt s = some ⟨.king, p.sideToMove⟩ →
        p.pieceAt t = some ⟨.king, p.sideToMove⟩ → s = t) ∧
      p.inCheck (buildAt 0 Junk.zero) = some check ∧ p.state = some st ∧
      p.legalMoves env0 (buildAt 0 Junk.zero) = some l0 ∧
      p.legalMoves env0 (buildAt 1 Junk.zero) = some l1 ∧
      pawnMoves p l0 = [] ∧ pawnMoves p l1 = moves := by
  have h : (Position.new env0 (buildAt 0 Junk.zero) pp).any (fun p =>
      Square.all.all (fun s => Square.all.all fun t =>
        (p.pieceAt s != some ⟨.king, p.sideToMove⟩ || p.pieceAt t != some ⟨.king, p.sideToMove⟩ ||
          s == t) &&
        (p.pieceAt s != some ⟨.pawn, p.sideToMove⟩ || p.pieceAt t != some ⟨.pawn, p.sideToMove⟩ ||
          s.file != t.file || s == t)) &&
      p.inCheck (buildAt 0 Junk.zero) == some check &&
      (p.legalMoves env0 (buildAt 0 Junk.zero)).any fun l0 =>
      (p.legalMoves env0 (buildAt 1 Junk.zero)).any fun l1 =>
        decide (pawnMoves p l0 = [] ∧ pawnMoves p l1 = moves)) = true := by
    simp only [List.mem_cons, List.not_mem_nil, or_false, Prod.mk.injEq] at hpp
    rcases hpp with ⟨rfl, rfl, rfl⟩ | ⟨rfl, rfl, rfl⟩ | ⟨rfl, rfl, rfl⟩ <;> decide +kernel
  simp only [Option.any_eq_true, Bool.and_eq_true, List.all_eq_true, beq_iff_eq, Bool.or_eq_true,
    bne_iff_ne, decide_eq_true_eq] at h
  obtain ⟨p, hp, ⟨h1, h2⟩, l0, hl0, l1, hl1, h3, h4⟩ := h
  have hall : ∀ s : Square, s ∈ Square.all := fun s => by simp [Square.all]
  have hv : Visited env0 (buildAt 0 Junk.zero) pp [] p := ⟨p, hp, .start⟩
  obtain ⟨st, hst, _⟩ := hv.pinned (buildAt_mem 0 Junk.zero)
  refine ⟨p, st, l0, l1, hv, ?_, ?_, h2, hst, hl0, hl1, h3, h4⟩
  · intro s t hs ht hf _
    rcases (h1 s (hall s) t (hall t)).2 with ((h | h) | h) | h
    · exact absurd hs h
    · exact absurd ht h
    · exact absurd hf h
    · exact h
  · intro s t hs ht
    rcases (h1 s (hall s) t (hall t)).1 with (h | h) | h
    · exact absurd hs h
    · exact absurd ht h
    · exact h

end

end Yasai.Props

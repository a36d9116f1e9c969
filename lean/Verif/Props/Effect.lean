import Verif.Props.Session
import Verif.Props.Keys
import Verif.Proofs.Count
import Verif.Proofs.Decide

/-!
# C03, C04, C34, C35: the effect of `do_move` and `Position::new`
-/

namespace Yasai.Props

open Yasai Spec

/-- C03.  `do_move` does exactly what the rules say: the position shown by the accessors afterwards
is the rule-book result `Spec.apply` of the position before, and the ply counter is one higher
(modulo 2^16, see C34). -/
theorem C03_do_move_is_rules (E : Env) (K : Backend) (p p' : Position) (m : Move)
    (h : p.doMove E K m = some p') :
    view p' = apply (view p) m ∧ p'.ply = p.ply + 1#16 := by
  refine ⟨spec_doMove h, ?_⟩
  have hadd : ∀ n n', Position.plyAdd E n = some n' → n' = n + 1#16 := by
    intro n n' h
    unfold Position.plyAdd at h
    split at h <;> cases h; rfl
  cases m with
  | normal frm to promote =>
    obtain ⟨isCheck, st, piece, kq, target, ply, h1, hst, hpiece, hcap, htarget, hply, hin, hs'⟩ :=
      doMove_normal h
    have e : kq.2.ply = p.inner.ply := by
      cases e : p.inner.board to with
      | none => rw [e] at hcap; rw [doCapture_none hcap]
      | some cp =>
        rw [e] at hcap
        obtain ⟨_, _, _, _, _, hkq⟩ := doCapture_some hcap
        rw [hkq]; rfl
    unfold Position.ply
    rw [hin, ← e]
    exact hadd _ _ hply
  | drop to pc =>
    obtain ⟨isCheck, st, q, n, z, ply, h1, hst, hq, hn, hz, hply, hi, _⟩ := doMove_drop h
    simp only [Position.dropInner, Option.bind_eq_bind, Option.bind_eq_some_iff,
      Option.pure_def] at hq
    obtain ⟨hand, hrem, hq⟩ := hq
    cases hq
    unfold Position.ply
    rw [hi]
    exact hadd _ _ hply

/-- C03 spelled out for a legal board move. -/
theorem C03_board_move (E : Env) (K : Backend) (p p' : Position) (frm to : Square)
    (promote : Bool) (hl : Legal (view p) (.normal frm to promote))
    (h : p.doMove E K (.normal frm to promote) = some p') :
    ∃ k, p.pieceAt frm = some ⟨k, p.sideToMove⟩ ∧
      p'.pieceAt frm = none ∧
      p'.pieceAt to = some ⟨movedKind k promote, p.sideToMove⟩ ∧
      (∀ s, s ≠ frm → s ≠ to → p'.pieceAt s = p.pieceAt s) ∧
      (∀ c k', ((p'.hand c).count k').getD 0 = ((p.hand c).count k').getD 0 +
        (if c = p.sideToMove ∧ (p.pieceAt to).map (fun q => base q.kind) = some k'
          then 1 else 0)) ∧
      p'.sideToMove = p.sideToMove.flip := by
  obtain ⟨k, hk, hr, _⟩ := hl.1.1
  have hne := reaches_ne hr
  have hv := (C03_do_move_is_rules E K p p' _ h).1
  have hb := congrArg Pos.board hv
  have hh := congrArg Pos.hand hv
  have hside := congrArg Pos.side hv
  have hk' : p.pieceAt frm = some ⟨k, p.sideToMove⟩ := hk
  simp only [apply, hk] at hb hh hside
  refine ⟨k, hk', ?_, ?_, ?_, ?_, hside⟩
  · have := congrFun hb frm
    rw [put_other _ _ hne, put_same] at this
    exact this
  · have := congrFun hb to
    rw [put_same] at this
    exact this
  · intro s h1 h2
    have := congrFun hb s
    rw [put_other _ _ h2, put_other _ _ h1] at this
    exact this
  · intro c k'
    have := congrFun (congrFun hh c) k'
    have e : (view p').hand c k' = ((p'.hand c).count k').getD 0 := rfl
    rw [← e, this]
    cases hto : p.pieceAt to with
    | none =>
      have : (view p).board to = none := hto
      simp only [this, Option.map_none, reduceCtorEq, and_false, if_false]
      rfl
    | some q =>
      have : (view p).board to = some q := hto
      simp only [this, Option.map_some, Option.some.injEq]
      have e2 : (view p).hand c k' = ((p.hand c).count k').getD 0 := rfl
      have e3 : (view p).side = p.sideToMove := rfl
      rw [e2, e3]
      by_cases hc : c = p.sideToMove ∧ k' = base q.kind
      · rw [if_pos hc, if_pos ⟨hc.1, hc.2.symm⟩]
      · rw [if_neg hc, if_neg (fun h => hc ⟨h.1, h.2.symm⟩)]
        rfl

/-- C03 spelled out for a legal drop. -/
theorem C03_drop (E : Env) (K : Backend) (p p' : Position) (to : Square) (pc : Piece)
    (hl : Legal (view p) (.drop to pc)) (h : p.doMove E K (.drop to pc) = some p') :
    pc.color = p.sideToMove ∧ p.pieceAt to = none ∧ p'.pieceAt to = some pc ∧
      (∀ s, s ≠ to → p'.pieceAt s = p.pieceAt s) ∧
      (∀ c k', ((p'.hand c).count k').getD 0 + (if c = p.sideToMove ∧ k' = pc.kind then 1 else 0) =
        ((p.hand c).count k').getD 0) ∧
      p'.sideToMove = p.sideToMove.flip := by
  obtain ⟨hc, hk, hpos, hemp, _⟩ := hl.1.1
  have hv := (C03_do_move_is_rules E K p p' _ h).1
  have hb := congrArg Pos.board hv
  have hh := congrArg Pos.hand hv
  have hside := congrArg Pos.side hv
  simp only [apply] at hb hh hside
  refine ⟨hc, hemp, ?_, ?_, ?_, hside⟩
  · have := congrFun hb to
    rw [put_same] at this
    exact this
  · intro s hs
    have := congrFun hb s
    rw [put_other _ _ hs] at this
    exact this
  · intro c k'
    have := congrFun (congrFun hh c) k'
    have e : (view p').hand c k' = ((p'.hand c).count k').getD 0 := rfl
    have e2 : (view p).hand c k' = ((p.hand c).count k').getD 0 := rfl
    have e3 : (view p).side = p.sideToMove := rfl
    rw [← e, this, ← e2, e3]
    rw [e3] at hpos
    by_cases hc' : c = p.sideToMove ∧ k' = pc.kind
    · rw [if_pos hc', if_pos hc']
      rw [hc'.1, hc'.2]
      omega
    · rw [if_neg hc', if_neg hc']
      rfl

/-- C04.  Pieces are conserved by every `do_move` of proper shape (in particular by every legal
move) that returns. -/
theorem C04_move_conserves (E : Env) (K : Backend) (p p' : Position) (m : Move)
    (hs : Shape p m) (h : p.doMove E K m = some p') (k : PieceKind) :
    total (view p') k = total (view p) k :=
  total_doMove (shape_good hs) h k

/-- C04 for whole histories with `undo_move`. -/
theorem C04_session_conserves (E : Env) (K : Backend) (hK : K ∈ backends) (p0 p : Position)
    (ms : List Move) (h : Session E K (fun p m => Legal (view p) m) p0 ms p) (k : PieceKind) :
    total (view p) k = total (view p0) k := by
  have := h.play hK (fun _ _ h => shape_of_legal h)
  clear h
  induction this with
  | start => rfl
  | move _ ha hm ih => rw [C04_move_conserves E K _ _ _ (shape_of_legal ha) hm, ih]

/-- C34.  After any history the ply is the initial ply plus the number of moves in force, modulo
2^16; with overflow checks it never wraps; at 65535 `do_move` panics with overflow checks and wraps
to 0 without. -/
theorem C34_ply (E : Env) (K : Backend) (hK : K ∈ backends) (p0 p : Position) (ms : List Move)
    (h : Session E K Shape p0 ms p) :
    p.ply = p0.ply + BitVec.ofNat 16 ms.length ∧
    (p0.ply.toNat + ms.length < 65536 → p.ply.toNat = p0.ply.toNat + ms.length) ∧
    (E.overflowChecks = true → p.ply.toNat = p0.ply.toNat + ms.length) ∧
    (p.ply = 65535#16 → ∀ m, (E.overflowChecks = true → p.doMove E K m = none) ∧
      ∀ p', p.doMove E K m = some p' → p'.ply = 0#16) := by
  have hno : ∀ (q : Position) m, q.ply = 65535#16 → E.overflowChecks = true →
      q.doMove E K m = none := by
    intro q m hq hE
    cases hd : q.doMove E K m with
    | none => rfl
    | some q' =>
      exfalso
      have hadd : ∀ n n', Position.plyAdd E n = some n' → n ≠ 65535#16 := by
        intro n n' h hn
        unfold Position.plyAdd at h
        rw [hE, hn] at h
        simp at h
      cases m with
      | normal frm to promote =>
        obtain ⟨isCheck, st, piece, kq, target, ply, h1, hst, hpiece, hcap, htarget, hply, hin, hs'⟩ :=
          doMove_normal hd
        have e : kq.2.ply = q.inner.ply := by
          cases e : q.inner.board to with
          | none => rw [e] at hcap; rw [doCapture_none hcap]
          | some cp =>
            rw [e] at hcap
            obtain ⟨_, _, _, _, _, hkq⟩ := doCapture_some hcap
            rw [hkq]; rfl
        exact hadd _ _ hply (e.trans hq)
      | drop to pc =>
        obtain ⟨isCheck, st, q1, n, z, ply, h1, hst, hq1, hn, hz, hply, hi, _⟩ := doMove_drop hd
        simp only [Position.dropInner, Option.bind_eq_bind, Option.bind_eq_some_iff,
          Option.pure_def] at hq1
        obtain ⟨hand, hrem, hq1⟩ := hq1
        cases hq1
        exact hadd _ _ hply hq
  have hp := h.play hK (fun _ _ h => h)
  have base : p.ply = p0.ply + BitVec.ofNat 16 ms.length ∧
      (E.overflowChecks = true → p.ply.toNat = p0.ply.toNat + ms.length) := by
    clear h
    induction hp with
    | start => simp
    | move _ ha hm ih =>
      rename_i l q q' m _
      have e := (C03_do_move_is_rules E K _ _ _ hm).2
      refine ⟨?_, fun hE => ?_⟩
      · rw [e, ih.1, BitVec.add_assoc, List.length_cons, BitVec.ofNat_add]
      · have h1 := ih.2 hE
        have h2 : q.ply ≠ 65535#16 := by
          intro hq
          rw [hno q m hq hE] at hm
          cases hm
        have h3 : q.ply.toNat ≠ 65535 := fun h => h2 (BitVec.eq_of_toNat_eq (by rw [h]; rfl))
        rw [e, BitVec.toNat_add, List.length_cons]
        have := q.ply.isLt
        simp only [BitVec.toNat_ofNat]
        omega
  refine ⟨base.1, fun hlt => ?_, base.2, fun hq m => ⟨hno p m hq, fun p' hm => ?_⟩⟩
  · rw [base.1, BitVec.toNat_add, BitVec.toNat_ofNat]
    omega
  · rw [(C03_do_move_is_rules E K _ _ _ hm).2, hq]
    rfl

/-- C35.  `Position::new` panics iff some hand holds more than 18 pieces of one kind. -/
theorem C35_new_panics_iff (E : Env) (K : Backend) (hK : K ∈ backends)
    (pp : CorePartialPosition) :
    Position.new E K pp = none ↔ ∃ c k n, (pp.hands c).count k = some n ∧ 18 < n := by
  rw [new_eq E (lawful_of_mem hK)]
  have hiff : (∀ p ∈ handPairs, (pp.hands p.1).cnt p.2 ≤ 18) ↔
      ¬ ∃ c k n, (pp.hands c).count k = some n ∧ 18 < n := by
    constructor
    · rintro h ⟨c, k, n, hn, hlt⟩
      unfold Hand.count at hn
      split at hn <;> cases hn
      rename_i hk
      have : (pp.hands c).cnt k ≤ 18 := h (c, k) (mem_handPairs.2 hk)
      omega
    · rintro h ⟨c, k⟩ hp
      rw [mem_handPairs] at hp
      apply Classical.byContradiction
      intro hlt
      exact h ⟨c, k, (pp.hands c).cnt k, by simp [Hand.count, hp], Nat.lt_of_not_le hlt⟩
  by_cases h : ∀ p ∈ handPairs, (pp.hands p.1).cnt p.2 ≤ 18
  · rw [if_pos h]
    have := hiff.1 h
    simp [this]
  · rw [if_neg h]
    simp only [true_iff]
    apply Classical.byContradiction
    intro h'
    exact h (hiff.2 h')

/-- C35.  When it returns, `Position::new` reproduces board, hands, side and ply. -/
theorem C35_new_reproduces (E : Env) (K : Backend) (hK : K ∈ backends)
    (pp : CorePartialPosition) (p : Position) (h : Position.new E K pp = some p) :
    (∀ s, p.pieceAt s = pp.board s) ∧ (∀ c, p.hand c = pp.hands c) ∧ p.sideToMove = pp.side ∧
      p.ply = pp.ply := by
  have L := lawful_of_mem hK
  obtain ⟨_, h2, h3, h4, h5⟩ := ofCore_spec L pp
  refine ⟨fun s => ?_, fun c => ?_, ?_, ?_⟩
  · rw [Position.pieceAt, PartialPosition.pieceAt, new_inner L h, h2]
  · rw [Position.hand, new_inner L h, h3]
  · rw [Position.sideToMove, new_inner L h, h4]
  · rw [Position.ply, new_inner L h, h5]

open Yasai.Examples

/-- Hypotheses of C03 and C04 hold: in `skirmish` the rook captures a promoted silver with
promotion. -/
example : ∃ p p', Position.new env0 CoreBB.backend skirmish = some p ∧
    Legal (view p) (.normal (sq 2 8) (sq 2 3) true) ∧
    p.doMove env0 CoreBB.backend (.normal (sq 2 8) (sq 2 3) true) = some p' := by
  have h : ((Position.new env0 CoreBB.backend skirmish).any fun p =>
      decide (Legal (view p) (.normal (sq 2 8) (sq 2 3) true)) &&
      (p.doMove env0 CoreBB.backend (.normal (sq 2 8) (sq 2 3) true)).isSome) = true := by
    decide +kernel
  simp only [Option.any_eq_true, Bool.and_eq_true, decide_eq_true_eq, Option.isSome_iff_exists] at h
  obtain ⟨p, hp, hl, p', hp'⟩ := h
  exact ⟨p, p', hp, hl, hp'⟩

/-- ... and a pawn drop is legal. -/
example : ∃ p p', Position.new env0 CoreBB.backend skirmish = some p ∧
    Legal (view p) (.drop (sq 5 7) ⟨.pawn, .black⟩) ∧
    p.doMove env0 CoreBB.backend (.drop (sq 5 7) ⟨.pawn, .black⟩) = some p' := by
  have h : ((Position.new env0 CoreBB.backend skirmish).any fun p =>
      decide (Legal (view p) (.drop (sq 5 7) ⟨.pawn, .black⟩)) &&
      (p.doMove env0 CoreBB.backend (.drop (sq 5 7) ⟨.pawn, .black⟩)).isSome) = true := by
    decide +kernel
  simp only [Option.any_eq_true, Bool.and_eq_true, decide_eq_true_eq, Option.isSome_iff_exists] at h
  obtain ⟨p, hp, hl, p', hp'⟩ := h
  exact ⟨p, p', hp, hl, hp'⟩

/-- The wrap of C34 happens: at ply 65535 a build without overflow checks goes on with ply 0. -/
example : ∃ p p', Position.new { env0 with overflowChecks := false } CoreBB.backend
      { skirmish with ply := 65535#16 } = some p ∧
    p.doMove { env0 with overflowChecks := false } CoreBB.backend
      (.normal (sq 2 8) (sq 2 3) true) = some p' ∧ p'.ply = 0#16 := by
  have h : ((Position.new { env0 with overflowChecks := false } CoreBB.backend
      { skirmish with ply := 65535#16 }).any fun p =>
      (p.doMove { env0 with overflowChecks := false } CoreBB.backend
        (.normal (sq 2 8) (sq 2 3) true)).any fun p' => decide (p'.ply = 0#16)) = true := by
    decide +kernel
  simp only [Option.any_eq_true, decide_eq_true_eq] at h
  obtain ⟨p, hp, p', hp', h0⟩ := h
  exact ⟨p, p', hp, hp', h0⟩

/-- C35: a hand with 19 pawns makes `Position::new` panic. -/
example : Position.new env0 CoreBB.backend
    { startpos with hands := fun _ => handOf [(.pawn, 19)] } = none :=
  (C35_new_panics_iff _ _ core_mem _).2 ⟨.black, .pawn, 19, rfl, by decide⟩

end Yasai.Props

import Verif.Props.Anywhere
import Verif.Proofs.NoPanic

/-!
# C52, C53: exactly when `do_move` and `undo_move` panic

On every position that `Position::new` accepts, after every history, and for every move, legal or
not.
-/

namespace Yasai.Props

open Yasai Spec

/-- What the calls of `do_move` rely on: there is a current state, its pins are those of the position,
and no hand holds more than 18 pieces of a kind. -/
structure Callable (K : Backend) (p : Position) : Prop where
  state : ∃ st, p.state = some st ∧ st.attackInfo.pinned = AttackInfo.pinnedOf K p.inner
  hands : ∀ c k, k.isHandPiece = true → (p.inner.hands c).cnt k ≤ 18

theorem callable_new {E : Env} {K : Backend} (hK : K ∈ backends) {pp : CorePartialPosition}
    {p : Position} (h : Position.new E K pp = some p) : Callable K p := by
  refine ⟨?_, fun c k hk => ?_⟩
  · simp only [Position.new, Option.bind_eq_bind, Option.bind_eq_some_iff, Option.pure_def] at h
    obtain ⟨z, _, h⟩ := h
    cases h
    exact ⟨_, rfl, rfl⟩
  · have h1 := (C35_new_reproduces E K hK pp p h).2.1 c
    apply Classical.byContradiction
    intro hlt
    have : Position.new E K pp = none := (C35_new_panics_iff E K hK pp).2
      ⟨c, k, (p.inner.hands c).cnt k, by
        rw [← h1]; exact count_eq hk, Nat.lt_of_not_le hlt⟩
    rw [this] at h; cases h

theorem zobHand_lt {E : Env} {c : Color} {k : PieceKind} {n : Nat} {z : Key}
    (h : E.zobHand c k n = some z) : n < 18 := by
  unfold Env.zobHand maxHandNum at h
  split at h
  · assumption
  · cases h

theorem added_eq {h h' : Hand} {k : PieceKind} (e : h.added k = some h') :
    k.isHandPiece = true ∧ h' = h.set k (h.cnt k + 1) := by
  unfold Hand.added at e
  split at e
  · split at e <;> cases e
    exact ⟨by assumption, rfl⟩
  · cases e

theorem removed_eq {h h' : Hand} {k : PieceKind} (e : h.removed k = some h') :
    k.isHandPiece = true ∧ 0 < h.cnt k ∧ h' = h.set k (h.cnt k - 1) := by
  unfold Hand.removed at e
  split at e
  · split at e <;> cases e
    exact ⟨by assumption, by assumption, rfl⟩
  · cases e

theorem callable_doMove {E : Env} {K : Backend} {p p' : Position} {m : Move}
    (hc : Callable K p) (h : p.doMove E K m = some p') : Callable K p' := by
  cases m with
  | normal frm to promote =>
    obtain ⟨isCheck, st, piece, kq, target, ply, h1, hst, hpiece, hcap, htarget, hply, hin, hs'⟩ :=
      doMove_normal h
    refine ⟨⟨_, by rw [Position.state, hs']; rfl, rfl⟩, fun c k hk => ?_⟩
    have e : p'.inner.hands = kq.2.hands := by rw [hin]; rfl
    rw [e]
    cases hto : p.inner.board to with
    | none => rw [hto] at hcap; rw [doCapture_none hcap]; exact hc.hands c k hk
    | some cp =>
      rw [hto] at hcap
      obtain ⟨z, hand, hz, ha, _, hkq⟩ := doCapture_some hcap
      have hlt := zobHand_lt hz
      obtain ⟨_, rfl⟩ := added_eq ha
      rw [hkq]
      simp only [PartialPosition.setHand, PartialPosition.xorPiece]
      split
      · simp only [Hand.set]
        split
        · omega
        · exact hc.hands _ k hk
      · exact hc.hands c k hk
  | drop to pc =>
    obtain ⟨isCheck, st, q, n, z, ply, h1, hst, hq, hn, hz, hply, hin, hs'⟩ := doMove_drop h
    refine ⟨⟨_, by rw [Position.state, hs']; rfl, rfl⟩, fun c k hk => ?_⟩
    simp only [Position.dropInner, Option.bind_eq_bind, Option.bind_eq_some_iff,
      Option.pure_def] at hq
    obtain ⟨hand, hrem, hq⟩ := hq
    cases hq
    obtain ⟨_, _, rfl⟩ := removed_eq hrem
    rw [hin]
    simp only [PartialPosition.setHand, PartialPosition.setPieceAt, PartialPosition.xorPiece]
    split
    · simp only [Hand.set]
      split
      · have := hc.hands p.inner.side pc.kind (by assumption)
        omega
      · exact hc.hands _ k hk
    · exact hc.hands c k hk

theorem Visited.callable {E : Env} {K : Backend} (hK : K ∈ backends) {pp : CorePartialPosition}
    {ms : List Move} {p : Position} (h : Visited E K pp ms p) : Callable K p := by
  obtain ⟨p0, h0, hs⟩ := h
  have hp := hs.play hK (fun _ _ h => h)
  clear hs
  induction hp with
  | start => exact callable_new hK h0
  | move _ ha hm ih => exact callable_doMove ih hm

/-- `is_check_move` panics only when the origin is empty. -/
theorem isCheckMove_total {K : Backend} (hK : K ∈ backends) {p : Position} (hc : Callable K p)
    {m : Move} (h : ∀ frm, m.frm = some frm → p.inner.board frm ≠ none) :
    ∃ b, p.isCheckMove K m = some b := by
  obtain ⟨st, hst, hpin⟩ := hc.state
  cases m with
  | drop to pc =>
    simp only [Position.isCheckMove, hst, Option.bind_eq_bind, Option.bind_some, Option.pure_def]
    exact ⟨_, rfl⟩
  | normal frm to promote =>
    obtain ⟨piece, hpiece⟩ := Option.ne_none_iff_exists'.1 (h frm rfl)
    have hpiece' : p.inner.pieceAt frm = some piece := hpiece
    simp only [Position.isCheckMove, hst, hpiece', Option.bind_eq_bind, Option.bind_some,
      Option.pure_def]
    generalize (if promote = true then piece.kind.promote.getD piece.kind else piece.kind) = pk
    split
    · exact ⟨_, rfl⟩
    split
    · rename_i hcon
      rw [hpin] at hcon
      cases hk : p.inner.kingPosition K p.inner.side.flip with
      | some sq => exact ⟨_, rfl⟩
      | none =>
        have L := lawful_of_mem hK
        have : AttackInfo.pinnedOf K p.inner p.inner.side.flip = K.empty := by
          unfold AttackInfo.pinnedOf; rw [hk]
        rw [this, L.contains, L.empty, mem_zero] at hcon
        cases hcon
    · exact ⟨_, rfl⟩

/-- The reasons why `do_move` panics on a board move or a drop. -/
def MovePanics (E : Env) (p : Position) : Move → Prop
  | .normal frm to promote =>
    -- nothing to move
    p.pieceAt frm = none ∨
    -- a king is captured
    (∃ c, p.pieceAt to = some ⟨.king, c⟩) ∨
    -- a nineteenth piece of one kind would come into the hand
    (∃ q, p.pieceAt to = some q ∧ (p.hand p.sideToMove).count (base q.kind) = some 18) ∨
    -- the piece cannot promote
    (promote = true ∧ ∃ q, p.pieceAt frm = some q ∧ promoted q.kind = none) ∨
    -- the move counter is full
    (E.overflowChecks = true ∧ p.ply = 65535#16)
  | .drop _ pc =>
    -- no such piece in hand
    ((p.hand p.sideToMove).count pc.kind).getD 0 = 0 ∨
    (E.overflowChecks = true ∧ p.ply = 65535#16)

theorem plyAdd_none {E : Env} {n : BitVec 16} :
    Position.plyAdd E n = none ↔ E.overflowChecks = true ∧ n = 65535#16 := by
  unfold Position.plyAdd
  split
  · rename_i h; simpa using h
  · rename_i h; simpa using h

theorem unpromote_king {k : PieceKind} (h : (base k).isHandPiece = false) : k = .king := by
  revert h; cases k <;> decide

/-- C52.  On every position that `Position::new` accepts and after every history, `do_move(m)`
panics exactly in the cases of `MovePanics`, for every move `m`. -/
theorem C52_do_move_panics_iff (E : Env) (K : Backend) (hK : K ∈ backends)
    (pp : CorePartialPosition) (ms : List Move) (p : Position) (h : Visited E K pp ms p)
    (m : Move) : p.doMove E K m = none ↔ MovePanics E p m := by
  have hc := h.callable hK
  obtain ⟨st, hst, _⟩ := hc.state
  constructor
  · intro hn
    apply Classical.byContradiction
    intro hno
    cases m with
    | normal frm to promote =>
      simp only [MovePanics, not_or] at hno
      obtain ⟨n1, n2, n3, n4, n5⟩ := hno
      obtain ⟨b, hb⟩ := isCheckMove_total hK hc (m := .normal frm to promote)
        (by rintro _ ⟨⟩; exact n1)
      obtain ⟨piece, hpiece⟩ := Option.ne_none_iff_exists'.1 n1
      have hpiece' : p.inner.pieceAt frm = some piece := hpiece
      have hcap : ∃ kq, Position.doCapture E K p.inner.side to (p.inner.pieceAt to) st.keys
          p.inner = some kq ∧ kq.2.ply = p.inner.ply := by
        cases hto : p.inner.pieceAt to with
        | none => exact ⟨_, rfl, rfl⟩
        | some cp =>
          have hh : (base cp.kind).isHandPiece = true := by
            cases e : (base cp.kind).isHandPiece with
            | true => rfl
            | false =>
              obtain ⟨k, c⟩ := cp
              have := unpromote_king e
              dsimp only at this
              subst this
              exact absurd ⟨c, hto⟩ n2
          have hlt : (p.inner.hands p.inner.side).cnt (base cp.kind) < 18 := by
            have h1 := hc.hands p.inner.side _ hh
            have h2 : (p.inner.hands p.inner.side).cnt (base cp.kind) ≠ 18 := by
              intro e
              exact n3 ⟨cp, hto, by rw [← e]; exact count_eq hh⟩
            omega
          obtain ⟨z, hz⟩ := zobHand_some E p.inner.side hh hlt
          have hcnt : (p.inner.hands p.inner.side).count (cp.kind.unpromote.getD cp.kind) =
              some ((p.inner.hands p.inner.side).cnt (base cp.kind)) := count_eq hh
          have hz' : E.zobHand p.inner.side (cp.kind.unpromote.getD cp.kind)
              ((p.inner.hands p.inner.side).cnt (base cp.kind)) = some z := hz
          have hadd : ((p.inner.xorPiece K to cp).hands p.inner.side).added
              (cp.kind.unpromote.getD cp.kind) = some ((p.inner.hands p.inner.side).set
                (base cp.kind) ((p.inner.hands p.inner.side).cnt (base cp.kind) + 1)) := by
            show (p.inner.hands p.inner.side).added (base cp.kind) = _
            unfold Hand.added
            rw [if_pos hh, if_pos (by omega)]
          simp only [Position.doCapture, Option.bind_eq_bind]
          rw [hcnt, Option.bind_some, hz', Option.bind_some, hadd]
          exact ⟨_, rfl, rfl⟩
      obtain ⟨kq, hkq, hkply⟩ := hcap
      have htarget : ∃ t, Position.targetPiece piece promote = some t := by
        cases promote with
        | false => exact ⟨_, rfl⟩
        | true =>
          have : piece.kind.promote ≠ none := fun e => n4 ⟨rfl, piece, hpiece, e⟩
          obtain ⟨k', hk'⟩ := Option.ne_none_iff_exists'.1 this
          refine ⟨⟨k', piece.color⟩, ?_⟩
          simp only [Position.targetPiece, if_true, Piece.promote, hk']
      obtain ⟨t, ht⟩ := htarget
      obtain ⟨ply, hply⟩ := Option.ne_none_iff_exists'.1 (fun e => n5 (plyAdd_none.1 e))
      unfold Position.doMove at hn
      simp only [hb, hst, hpiece', Move.to, Position.sideToMove, Option.bind_eq_bind,
        Option.bind_some, hkq, ht, Position.pushState] at hn
      have : Position.plyAdd E (Position.moveInner K p.inner.side kq.2 frm to piece t).ply =
          some ply := by
        rw [← hply]; show Position.plyAdd E kq.2.ply = _; rw [hkply]; rfl
      rw [this] at hn
      cases hn
    | drop to pc =>
      simp only [MovePanics, not_or] at hno
      obtain ⟨n1, n2⟩ := hno
      obtain ⟨b, hb⟩ := isCheckMove_total hK hc (m := .drop to pc) (by rintro _ ⟨⟩)
      have hh : pc.kind.isHandPiece = true := by
        cases e : pc.kind.isHandPiece with
        | true => rfl
        | false => exact absurd (by simp [Hand.count, e]) n1
      have hpos : 0 < (p.inner.hands p.inner.side).cnt pc.kind := by
        have h1 : ((p.hand p.sideToMove).count pc.kind).getD 0 =
            (p.inner.hands p.inner.side).cnt pc.kind := by
          show ((p.inner.hands p.inner.side).count pc.kind).getD 0 = _
          rw [count_eq hh]; rfl
        omega
      have hle := hc.hands p.inner.side _ hh
      have hrem : (((p.inner.xorPiece K to pc).setPieceAt to (some pc)).hands
          p.inner.side).removed pc.kind = some ((p.inner.hands p.inner.side).set pc.kind
          ((p.inner.hands p.inner.side).cnt pc.kind - 1)) := by
        show (p.inner.hands p.inner.side).removed pc.kind = _
        unfold Hand.removed
        rw [if_pos hh, if_pos hpos]
      obtain ⟨z, hz⟩ := zobHand_some E p.inner.side hh
        (n := (p.inner.hands p.inner.side).cnt pc.kind - 1) (by omega)
      obtain ⟨ply, hply⟩ := Option.ne_none_iff_exists'.1 (fun e => n2 (plyAdd_none.1 e))
      unfold Position.doMove at hn
      simp only [hb, hst, Position.sideToMove, Option.bind_eq_bind, Option.bind_some,
        Position.dropInner, hrem, Option.pure_def] at hn
      have hc2 : ((((p.inner.xorPiece K to pc).setPieceAt to (some pc)).setHand p.inner.side
          ((p.inner.hands p.inner.side).set pc.kind
            ((p.inner.hands p.inner.side).cnt pc.kind - 1))).hands p.inner.side).count pc.kind =
          some ((p.inner.hands p.inner.side).cnt pc.kind - 1) := by
        rw [count_eq hh]
        simp [PartialPosition.setHand, Hand.set]
      simp only [hc2, hz, Option.bind_some, Position.pushState, Option.bind_eq_bind] at hn
      have : Position.plyAdd E (((p.inner.xorPiece K to pc).setPieceAt to (some pc)).setHand
          p.inner.side ((p.inner.hands p.inner.side).set pc.kind
            ((p.inner.hands p.inner.side).cnt pc.kind - 1))).ply = some ply := by
        rw [← hply]; rfl
      simp only [this] at hn
      cases hn
  · intro hm
    cases hd : p.doMove E K m with
    | none => rfl
    | some p' =>
      exfalso
      cases m with
      | normal frm to promote =>
        obtain ⟨isCheck, st, piece, kq, target, ply, h1, hst, hpiece, hcap, htarget, hply, hin,
          hs'⟩ := doMove_normal hd
        have hcp : ∀ cp, p.inner.board to = some cp → (base cp.kind).isHandPiece = true ∧
            (p.inner.hands p.inner.side).cnt (base cp.kind) < 18 := by
          intro cp hto
          rw [hto] at hcap
          obtain ⟨z, hand, hz, ha, _, _⟩ := doCapture_some hcap
          exact ⟨(added_eq ha).1, zobHand_lt hz⟩
        rcases hm with hm | ⟨c, hm⟩ | ⟨q, hq, hm⟩ | ⟨rfl, q, hq, hm⟩ | ⟨hm, hp⟩
        · have hm' : p.inner.board frm = none := hm
          rw [hm'] at hpiece; cases hpiece
        · have := (hcp _ hm).1
          cases this
        · have h2 := hcp q hq
          have : (p.inner.hands p.inner.side).count (base q.kind) = some 18 := hm
          rw [count_eq h2.1, Option.some.injEq] at this
          omega
        · have hq' : p.inner.board frm = some q := hq
          rw [hq'] at hpiece
          cases hpiece
          simp only [Position.targetPiece, if_true, Piece.promote, ← promoted_eq, hm] at htarget
          cases htarget
        · have e : kq.2.ply = p.inner.ply := by
            cases e : p.inner.board to with
            | none => rw [e] at hcap; rw [doCapture_none hcap]
            | some cp =>
              rw [e] at hcap
              obtain ⟨_, _, _, _, _, hkq⟩ := doCapture_some hcap
              rw [hkq]; rfl
          have hp' : p.inner.ply = 65535#16 := hp
          rw [e, plyAdd_none.2 ⟨hm, hp'⟩] at hply
          cases hply
      | drop to pc =>
        obtain ⟨isCheck, st, q, n, z, ply, h1, hst, hq, hn, hz, hply, hin, hs'⟩ := doMove_drop hd
        simp only [Position.dropInner, Option.bind_eq_bind, Option.bind_eq_some_iff,
          Option.pure_def] at hq
        obtain ⟨hand, hrem, hq⟩ := hq
        cases hq
        obtain ⟨hh, hpos, rfl⟩ := removed_eq hrem
        rcases hm with hm | ⟨hm, hp⟩
        · have h2 : ((p.inner.hands p.inner.side).count pc.kind).getD 0 = 0 := hm
          rw [count_eq hh] at h2
          have hpos' : 0 < (p.inner.hands p.inner.side).cnt pc.kind := hpos
          have h3 : (p.inner.hands p.inner.side).cnt pc.kind = 0 := h2
          omega
        · have hply' : Position.plyAdd E p.inner.ply = some ply := hply
          have hp' : p.inner.ply = 65535#16 := hp
          rw [plyAdd_none.2 ⟨hm, hp'⟩] at hply'
          cases hply'

/-! ## `undo_move` -/

/-- The moves in force and the top of the history. -/
theorem Visited.last {E : Env} {K : Backend} (hK : K ∈ backends) {pp : CorePartialPosition}
    {ms : List Move} {p : Position} (h : Visited E K pp ms p) :
    (ms = [] ∧ ∃ st, p.states = [st] ∧ st.lastMoved = none) ∨
    (ms ≠ [] ∧ ∃ st moved, p.state = some st ∧ st.lastMoved = some moved ∧
      ∀ cp, st.captured = some cp → (base cp.kind).isHandPiece = true ∧
        0 < (p.inner.hands p.inner.side.flip).cnt (base cp.kind)) := by
  obtain ⟨p0, h0, hs⟩ := h
  have hp := hs.play hK (fun _ _ h => h)
  clear hs
  cases hp with
  | start =>
    simp only [Position.new, Option.bind_eq_bind, Option.bind_eq_some_iff, Option.pure_def] at h0
    obtain ⟨z, _, h⟩ := h0
    cases h
    exact .inl ⟨rfl, _, rfl, rfl⟩
  | move _ ha hm =>
    rename_i l q m _
    refine .inr ⟨by simp, ?_⟩
    cases m with
    | normal frm to promote =>
      obtain ⟨isCheck, st, piece, kq, target, ply, h1, hst, hpiece, hcap, htarget, hply, hin, hs'⟩ :=
        doMove_normal hm
      refine ⟨_, piece, by rw [Position.state, hs']; rfl, rfl, fun cp hcp => ?_⟩
      dsimp only at hcp
      rw [hcp] at hcap
      obtain ⟨z, hand, hz, hadd, _, hkq⟩ := doCapture_some hcap
      obtain ⟨hh, rfl⟩ := added_eq hadd
      refine ⟨hh, ?_⟩
      have e1 : p.inner.hands = kq.2.hands := by rw [hin]; rfl
      have e2 : p.inner.side.flip = q.inner.side := by
        rw [hin]; show q.inner.side.flip.flip = _
        cases q.inner.side <;> rfl
      rw [e1, e2, hkq]
      simp [PartialPosition.setHand, PartialPosition.xorPiece, Hand.set, base, demoted_eq]
    | drop to pc =>
      obtain ⟨isCheck, st, q1, n, z, ply, h1, hst, hq, hn, hz, hply, hin, hs'⟩ := doMove_drop hm
      refine ⟨_, pc, by rw [Position.state, hs']; rfl, rfl, fun cp hcp => ?_⟩
      dsimp only at hcp
      have : q.inner.board to = none := ha
      rw [this] at hcp
      cases hcp

theorem plySub_none {E : Env} {n : BitVec 16} :
    Position.plySub E n = none ↔ E.overflowChecks = true ∧ n = 0#16 := by
  unfold Position.plySub
  split
  · rename_i h; simpa using h
  · rename_i h; simpa using h

/-- With overflow checks the ply is zero only at the start. -/
theorem Visited.ply_zero {E : Env} {K : Backend} (hK : K ∈ backends) {pp : CorePartialPosition}
    {ms : List Move} {p : Position} (h : Visited E K pp ms p) (hE : E.overflowChecks = true)
    (hp : p.ply = 0#16) : ms = [] := by
  obtain ⟨p0, h0, hs⟩ := h
  have := (C34_ply E K hK p0 p ms hs).2.2.1 hE
  rw [hp] at this
  have h0 : (0#16).toNat = 0 := rfl
  rw [h0] at this
  exact List.eq_nil_of_length_eq_zero (by omega)

/-- C53.  On every position that `Position::new` accepts and after every history, `undo_move` of a
board move (any, not only the last one) panics exactly when no move is in force or the destination
is empty; of a drop exactly when the piece cannot be in hand, or at the start with the move counter
at 0 and overflow checks. -/
theorem C53_undo_move_panics_iff (E : Env) (K : Backend) (hK : K ∈ backends)
    (pp : CorePartialPosition) (ms : List Move) (p : Position) (h : Visited E K pp ms p) :
    (∀ frm to promote, p.undoMove E K (.normal frm to promote) = none ↔
      ms = [] ∨ p.pieceAt to = none) ∧
    (∀ to pc, p.undoMove E K (.drop to pc) = none ↔
      handKind pc.kind = false ∨ (ms = [] ∧ E.overflowChecks = true ∧ p.ply = 0#16)) := by
  have hc := h.callable hK
  constructor
  · intro frm to promote
    rcases h.last hK with ⟨rfl, st, hst, hl⟩ | ⟨hms, st, moved, hst, hl, hcap⟩
    · simp [Position.undoMove, Position.state, hst, Position.undoNormal, hl]
    · simp only [hms, false_or]
      simp only [Position.undoMove, hst, Option.bind_eq_bind, Option.bind_some,
        Position.undoNormal, hl]
      have hu : ∃ q, Position.undoCapture K p.sideToMove.flip to st.captured p.inner = some q ∧
          q.board = p.inner.board ∧ q.ply = p.inner.ply := by
        cases e : st.captured with
        | none => exact ⟨_, rfl, rfl, rfl⟩
        | some cp =>
          obtain ⟨hh, hpos⟩ := hcap cp e
          have hrem : ((p.inner.xorPiece K to cp).hands p.sideToMove.flip).removed
              (cp.kind.unpromote.getD cp.kind) = some ((p.inner.hands p.inner.side.flip).set
                (base cp.kind) ((p.inner.hands p.inner.side.flip).cnt (base cp.kind) - 1)) := by
            show (p.inner.hands p.inner.side.flip).removed (base cp.kind) = _
            unfold Hand.removed
            rw [if_pos hh, if_pos hpos]
          simp only [Position.undoCapture, Option.bind_eq_bind]
          rw [hrem]
          exact ⟨_, rfl, rfl, rfl⟩
      obtain ⟨q, hq, hb, hqp⟩ := hu
      rw [hq, Option.bind_some]
      have hat : (q.xorPiece K frm moved).pieceAt to = p.pieceAt to := by
        show q.board to = p.inner.board to
        rw [hb]
      rw [hat]
      cases hto : p.pieceAt to with
      | none => simp
      | some tp =>
        simp only [Option.bind_some, Option.pure_def, Position.popState, Option.bind_eq_bind,
          reduceCtorEq, iff_false]
        intro hn
        have hply : Position.plySub E p.inner.ply ≠ none := by
          intro e
          obtain ⟨e1, e2⟩ := plySub_none.1 e
          exact hms (h.ply_zero hK e1 e2)
        obtain ⟨n, hn'⟩ := Option.ne_none_iff_exists'.1 hply
        have : Position.plySub E (((((q.xorPiece K frm moved).xorPiece K to tp).setPieceAt frm
            (some moved)).setPieceAt to st.captured)).ply = some n := by
          rw [← hn', ← hqp]; rfl
        rw [this] at hn
        cases hn
  · intro to pc
    simp only [Position.undoMove, Position.undoDrop, Position.popState, Option.bind_eq_bind,
      Option.pure_def]
    have hadd : ((((p.inner.xorPiece K to pc).setPieceAt to none).hands
        p.sideToMove.flip).added pc.kind) = (p.inner.hands p.inner.side.flip).added pc.kind := rfl
    rw [hadd, handKind_eq]
    cases hh : pc.kind.isHandPiece with
    | false => simp [Hand.added, hh]
    | true =>
      have hle := hc.hands p.inner.side.flip _ hh
      have : (p.inner.hands p.inner.side.flip).added pc.kind =
          some ((p.inner.hands p.inner.side.flip).set pc.kind
            ((p.inner.hands p.inner.side.flip).cnt pc.kind + 1)) := by
        unfold Hand.added
        rw [if_pos hh, if_pos (by omega)]
      rw [this]
      simp only [Option.bind_some, reduceCtorEq, false_or]
      have e : ∀ hd : Hand, (((p.inner.xorPiece K to pc).setPieceAt to none).setHand
          p.sideToMove.flip hd).ply = p.inner.ply := fun _ => rfl
      rw [e]
      constructor
      · intro hn
        cases hs : Position.plySub E p.inner.ply with
        | none =>
          obtain ⟨e1, e2⟩ := plySub_none.1 hs
          exact ⟨h.ply_zero hK e1 e2, e1, e2⟩
        | some n => rw [hs] at hn; cases hn
      · rintro ⟨_, e1, e2⟩
        have e2' : p.inner.ply = 0#16 := e2
        rw [plySub_none.2 ⟨e1, e2'⟩]
        rfl

/-- C53.  After undoing a drop at the start (where nothing is in force) the history is empty and
every call that reads it panics. -/
theorem C53_underflow (E : Env) (K : Backend) (hK : K ∈ backends) (pp : CorePartialPosition)
    (p p' : Position) (h : Visited E K pp [] p) (m : Move) (hu : p.undoMove E K m = some p') :
    p'.legalMoves E K = none ∧ p'.inCheck K = none ∧ p'.key = none ∧
      ∀ m, p'.doMove E K m = none := by
  have hs : p'.states = [] := by
    rcases h.last hK with ⟨_, st, hst, hl⟩ | ⟨hms, _⟩
    · cases m with
      | normal frm to promote =>
        simp [Position.undoMove, Position.state, hst, Position.undoNormal, hl] at hu
      | drop to pc =>
        simp only [Position.undoMove, Position.popState, Option.bind_eq_bind,
          Option.bind_eq_some_iff, Option.pure_def, hst] at hu
        obtain ⟨_, _, _, _, hu⟩ := hu
        cases hu
        rfl
    · exact absurd rfl hms
  have hstate : p'.state = none := by rw [Position.state, hs]; rfl
  refine ⟨?_, ?_, ?_, fun m => ?_⟩
  · simp [Position.legalMoves, hstate]
  · simp [Position.inCheck, hstate]
  · simp [Position.key, hstate]
  · simp [Position.doMove, hstate]

/-! ## Concrete cases -/

section
open Yasai.Examples

/-- Each reason of `MovePanics` but the counter occurs in `skirmish`, one of its moves is fine. -/
example : ∃ p, Position.new env0 CoreBB.backend skirmish = some p ∧
    p.doMove env0 CoreBB.backend (.normal (sq 1 5) (sq 1 4) false) = none ∧
    p.doMove env0 CoreBB.backend (.normal (sq 2 8) (sq 5 1) false) = none ∧
    p.doMove env0 CoreBB.backend (.normal (sq 5 8) (sq 5 7) true) = none ∧
    p.doMove env0 CoreBB.backend (.drop (sq 5 5) ⟨.gold, .black⟩) = none ∧
    ¬ MovePanics env0 p (.normal (sq 2 8) (sq 2 3) true) := by
  have h : ((Position.new env0 CoreBB.backend skirmish).any fun p =>
      (p.doMove env0 CoreBB.backend (.normal (sq 1 5) (sq 1 4) false)).isNone &&
      (p.doMove env0 CoreBB.backend (.normal (sq 2 8) (sq 5 1) false)).isNone &&
      (p.doMove env0 CoreBB.backend (.normal (sq 5 8) (sq 5 7) true)).isNone &&
      (p.doMove env0 CoreBB.backend (.drop (sq 5 5) ⟨.gold, .black⟩)).isNone &&
      (p.doMove env0 CoreBB.backend (.normal (sq 2 8) (sq 2 3) true)).isSome) = true := by
    decide +kernel
  simp only [Option.any_eq_true, Bool.and_eq_true, Option.isNone_iff_eq_none] at h
  obtain ⟨p, hp, ⟨⟨⟨h1, h2⟩, h3⟩, h4⟩, h5⟩ := h
  refine ⟨p, hp, h1, h2, h3, h4, fun hm => ?_⟩
  rw [(C52_do_move_panics_iff env0 _ core_mem skirmish [] p ⟨p, hp, .start⟩ _).2 hm] at h5
  cases h5

/-- Undoing a drop that was never made empties the history. -/
example : ∃ p p', Visited env0 CoreBB.backend skirmish [] p ∧
    p.undoMove env0 CoreBB.backend (.drop (sq 5 5) ⟨.gold, .black⟩) = some p' := by
  have h : ((Position.new env0 CoreBB.backend skirmish).any fun p =>
      (p.undoMove env0 CoreBB.backend (.drop (sq 5 5) ⟨.gold, .black⟩)).isSome) = true := by
    decide +kernel
  simp only [Option.any_eq_true] at h
  obtain ⟨p, hp, h⟩ := h
  obtain ⟨p', hp'⟩ := Option.isSome_iff_exists.1 h
  exact ⟨p, p', ⟨p, hp, .start⟩, hp'⟩

end

end Yasai.Props

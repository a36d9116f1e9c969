import Verif.Props.Session
import Verif.Proofs.Keys

/-!
# C17–C20: Zobrist keys
-/

namespace Yasai.Props

open Yasai Spec

theorem keyInv_new {E : Env} {K : Backend} (hK : Lawful K) {pp : CorePartialPosition}
    {p : Position} (h : Position.new E K pp = some p) : KeyInv E false p := by
  rw [new_eq E hK] at h
  split at h
  · cases h
    unfold KeyInv
    rw [keys_of_head rfl]
    obtain ⟨_, h2, h3, _⟩ := ofCore_spec hK pp
    simp only [PartialPosition.spec, h2, h3, Bool.false_eq_true, if_false, BitVec.xor_zero]
  · cases h

theorem keyInv_play {E : Env} {K : Backend} {p0 p : Position} {ms : List Move}
    {b : Bool} (h0 : KeyInv E b p0) (h : Play E K Shape p0 ms p) :
    KeyInv E (b ^^ (ms.length % 2 == 1)) p := by
  induction h with
  | start => simpa using h0
  | move _ ha hm ih =>
    have := keyInv_doMove (shape_good ha) ih hm
    rename_i l _ _ m _
    have e : (!(l.length % 2 == 1)) = ((List.length (m :: l)) % 2 == 1) := by
      simp only [List.length_cons]
      rcases Nat.mod_two_eq_zero_or_one l.length with h | h
      · rw [h, show (l.length + 1) % 2 = 1 by omega]; rfl
      · rw [h, show (l.length + 1) % 2 = 0 by omega]; rfl
    rw [← e, Bool.xor_not]
    exact this

/-- C17.  After any history the keys are the hash of the current board (plus 1 iff an odd number of
moves is in force) and the hash of the current hands, for every Zobrist table. -/
theorem C17_incremental_hash (E : Env) (K : Backend) (hK : K ∈ backends)
    (pp : CorePartialPosition) (p0 p : Position) (ms : List Move)
    (h0 : Position.new E K pp = some p0) (h : Session E K Shape p0 ms p) :
    p.keys = some
      (boardHash E.zobBoard p.pieceAt ^^^ (if ms.length % 2 = 1 then 1#64 else 0#64),
       handHash (fun c k n => (E.zobHand c k n).getD 0#64)
         (fun c k => ((p.hand c).count k).getD 0)) := by
  have := keyInv_play (keyInv_new (lawful_of_mem hK) h0) (h.play hK (fun _ _ h => h))
  unfold KeyInv at this
  rw [this]
  congr 2
  by_cases e : ms.length % 2 = 1 <;> simp [e]
  · rfl
  · rfl

theorem side_play {E : Env} {K : Backend} {A : Position → Move → Prop} {p0 p : Position}
    {ms : List Move} (h : Play E K A p0 ms p) :
    (p.sideToMove = p0.sideToMove ↔ ms.length % 2 = 0) := by
  induction h with
  | start => simp
  | move _ _ hm ih =>
    rename_i l q q' m _ _
    have e : q'.sideToMove = q.sideToMove.flip := by
      have := congrArg Pos.side (spec_doMove hm)
      have e2 : (apply q.inner.spec m).side = q.sideToMove.flip := by
        cases m with
        | normal frm to pr =>
          simp only [apply]
          split
          · rename_i hn
            obtain ⟨_, _, _, _, _, _, _, _, hp, _⟩ := doMove_normal hm
            exact absurd (hn.symm.trans hp) (by simp)
          · rfl
        | drop to pc => rfl
      rw [← e2]; exact this
    have h1 : (List.length (m :: l)) % 2 = 0 ↔ ¬ (l.length % 2 = 0) := by
      simp only [List.length_cons]; omega
    rw [h1, ← ih, e]
    cases q.sideToMove <;> cases p0.sideToMove <;> decide

theorem new_side {E : Env} {K : Backend} (hK : Lawful K) {pp : CorePartialPosition}
    {p : Position} (h : Position.new E K pp = some p) : p.sideToMove = pp.side := by
  rw [Position.sideToMove, new_inner hK h]
  exact (ofCore_spec hK pp).2.2.2.1

/-- C18.  Two histories from roots with the same side to move that arrive at the same board, hands
and side have the same `keys()` and `key()`. -/
theorem C18_transpositions (E : Env) (K : Backend) (hK : K ∈ backends)
    (pp1 pp2 : CorePartialPosition) (p1 p2 q1 q2 : Position) (ms1 ms2 : List Move)
    (h1 : Position.new E K pp1 = some p1) (h2 : Position.new E K pp2 = some p2)
    (s1 : Session E K Shape p1 ms1 q1) (s2 : Session E K Shape p2 ms2 q2)
    (hroot : pp1.side = pp2.side)
    (hboard : ∀ s, q1.pieceAt s = q2.pieceAt s)
    (hhand : ∀ c k, (q1.hand c).count k = (q2.hand c).count k)
    (hside : q1.sideToMove = q2.sideToMove) :
    q1.keys = q2.keys ∧ q1.key = q2.key := by
  have L := lawful_of_mem hK
  have e : q1.keys = q2.keys := by
    rw [C17_incremental_hash E K hK pp1 p1 q1 ms1 h1 s1,
      C17_incremental_hash E K hK pp2 p2 q2 ms2 h2 s2]
    have hb : q1.pieceAt = q2.pieceAt := funext hboard
    have hpar : ms1.length % 2 = ms2.length % 2 := by
      have a := side_play (s1.play hK (fun _ _ h => h))
      have b := side_play (s2.play hK (fun _ _ h => h))
      rw [new_side L h1] at a
      rw [new_side L h2, ← hroot, ← hside, a] at b
      omega
    simp only [hb, hhand, hpar]
  refine ⟨e, ?_⟩
  have : ∀ p : Position, p.key = p.keys.map fun k => k.1 ^^^ k.2 := by
    intro p
    unfold Position.key Position.keys
    cases p.state <;> rfl
  rw [this, this, e]

theorem lsb_zobBoard (E : Env) (s : Square) (p : Piece) : (E.zobBoard s p).getLsbD 0 = false := by
  simp [Env.zobBoard, Key.COLOR]

theorem lsb_handTbl (E : Env) (c : Color) (k : PieceKind) (n : Nat) :
    (E.handTbl c k n).getLsbD 0 = false := by
  unfold Env.handTbl Env.zobHand
  split
  · split
    · simp [Key.COLOR]
    · split <;> simp [Key.ZERO]
  · simp

theorem lsb_xorAll {l : List (BitVec 64)} (h : ∀ x ∈ l, x.getLsbD 0 = false) :
    (xorAll l).getLsbD 0 = false := by
  induction l with
  | nil => rfl
  | cons x l ih =>
    rw [xorAll_cons, BitVec.getLsbD_xor, h x List.mem_cons_self,
      ih fun y hy => h y (List.mem_cons_of_mem _ hy)]
    rfl

theorem lsb_boardHash (E : Env) (b : Square → Option Piece) :
    (boardHash E.zobBoard b).getLsbD 0 = false := by
  apply lsb_xorAll
  intro x hx
  obtain ⟨s, _, rfl⟩ := List.mem_map.1 hx
  split
  · exact lsb_zobBoard E s _
  · simp

theorem lsb_handHash (E : Env) (h : Color → PieceKind → Nat) :
    (handHash E.handTbl h).getLsbD 0 = false := by
  apply lsb_xorAll
  intro x hx
  simp only [List.mem_flatMap, List.mem_map] at hx
  obtain ⟨c, _, k, _, n, _, rfl⟩ := hx
  exact lsb_handTbl E c k n

/-- C20.  For every Zobrist table and history: the hand key is even; the board key is odd iff an odd
number of moves is in force (so each `do_move` changes its parity and that of `key()`). -/
theorem C20_key_parity (E : Env) (K : Backend) (hK : K ∈ backends)
    (pp : CorePartialPosition) (p0 p : Position) (ms : List Move)
    (h0 : Position.new E K pp = some p0) (h : Session E K Shape p0 ms p) :
    ∃ a b, p.keys = some (a, b) ∧ p.key = some (a ^^^ b) ∧
      b.toNat % 2 = 0 ∧ a.toNat % 2 = ms.length % 2 ∧ (a ^^^ b).toNat % 2 = ms.length % 2 ∧
      ∀ m p', Shape p m → p.doMove E K m = some p' →
        ∃ a' b', p'.keys = some (a', b') ∧ p'.key = some (a' ^^^ b') ∧
          a'.toNat % 2 ≠ a.toNat % 2 ∧ (a' ^^^ b').toNat % 2 ≠ (a ^^^ b).toNat % 2 := by
  have par : ∀ x : BitVec 64, x.toNat % 2 = if x.getLsbD 0 then 1 else 0 := by
    intro x
    have : x.getLsbD 0 = decide (x.toNat % 2 = 1) := by
      rw [BitVec.getLsbD, Nat.testBit_zero]
    rw [this]
    rcases Nat.mod_two_eq_zero_or_one x.toNat with h | h <;> simp [h]
  have key : ∀ q : Position, ∀ ms, Session E K Shape p0 ms q →
      ∃ a b, q.keys = some (a, b) ∧ q.key = some (a ^^^ b) ∧
      b.toNat % 2 = 0 ∧ a.toNat % 2 = ms.length % 2 ∧ (a ^^^ b).toNat % 2 = ms.length % 2 := by
    intro q ms hq
    have hk := C17_incremental_hash E K hK pp p0 q ms h0 hq
    refine ⟨_, _, hk, ?_, ?_, ?_, ?_⟩
    · unfold Position.key
      unfold Position.keys at hk
      cases hst : q.state with
      | none => rw [hst] at hk; cases hk
      | some st =>
        rw [hst] at hk
        simp only [Option.bind_eq_bind, Option.bind_some, Option.pure_def, Option.some.injEq,
          Prod.mk.injEq] at hk ⊢
        rw [hk.1, hk.2]
    · rw [par]
      have := lsb_handHash E (fun c k => ((q.hand c).count k).getD 0)
      unfold Env.handTbl at this
      rw [this]; rfl
    · rw [par, BitVec.getLsbD_xor, lsb_boardHash]
      rcases Nat.mod_two_eq_zero_or_one ms.length with h | h <;> simp [h]
    · rw [par, BitVec.getLsbD_xor, BitVec.getLsbD_xor, lsb_boardHash]
      have := lsb_handHash E (fun c k => ((q.hand c).count k).getD 0)
      unfold Env.handTbl at this
      rw [this]
      rcases Nat.mod_two_eq_zero_or_one ms.length with h | h <;> simp [h]
  obtain ⟨a, b, h1, h2, h3, h4, h5⟩ := key p ms h
  refine ⟨a, b, h1, h2, h3, h4, h5, fun m p' hs hm => ?_⟩
  obtain ⟨a', b', h1', h2', h3', h4', h5'⟩ := key p' (m :: ms) (h.move hs hm)
  refine ⟨a', b', h1', h2', ?_, ?_⟩
  · rw [h4', h4, List.length_cons]; omega
  · rw [h5', h5, List.length_cons]; omega

/-! ## C19

The full statement — keys depend only on board, hands and side to move, and distinguish the side to
move — is false of the code, because `Position::new` never mixes the side to move into the key. -/

/-- The full statement of C19. -/
def C19_statement (E : Env) (K : Backend)
    (new : CorePartialPosition → Option Position := Position.new E K) : Prop :=
  ∀ (pp1 pp2 : CorePartialPosition) (p1 p2 q1 q2 : Position) (ms1 ms2 : List Move),
    new pp1 = some p1 → new pp2 = some p2 →
    Session E K Shape p1 ms1 q1 → Session E K Shape p2 ms2 q2 →
    (∀ s, q1.pieceAt s = q2.pieceAt s) → (∀ c k, (q1.hand c).count k = (q2.hand c).count k) →
    (q1.keys = q2.keys ↔ q1.sideToMove = q2.sideToMove)

/-- `Position::new` gives the same keys whichever side is to move. -/
theorem C19_new_ignores_side (E : Env) (K : Backend) (hK : K ∈ backends)
    (pp : CorePartialPosition) (c : Color) (p q : Position)
    (h1 : Position.new E K pp = some p) (h2 : Position.new E K { pp with side := c } = some q) :
    p.keys = q.keys := by
  have a := keyInv_new (lawful_of_mem hK) h1
  have b := keyInv_new (lawful_of_mem hK) h2
  unfold KeyInv at a b
  rw [a, b]
  obtain ⟨_, x2, x3, _⟩ := ofCore_spec (lawful_of_mem hK) pp
  obtain ⟨_, y2, y3, _⟩ := ofCore_spec (lawful_of_mem hK) { pp with side := c }
  simp only [PartialPosition.spec, new_inner (lawful_of_mem hK) h1,
    new_inner (lawful_of_mem hK) h2, x2, x3, y2, y3]

/-- After an odd number of moves the keys always differ from those of `Position::new` on the same
board and hands, even when the side to move is the same. -/
theorem C19_odd_history_differs (E : Env) (K : Backend) (hK : K ∈ backends)
    (pp pp' : CorePartialPosition) (p0 p q : Position) (ms : List Move)
    (h0 : Position.new E K pp = some p0) (h : Session E K Shape p0 ms p)
    (hodd : ms.length % 2 = 1) (hq : Position.new E K pp' = some q)
    (hboard : ∀ s, p.pieceAt s = q.pieceAt s) : p.keys ≠ q.keys := by
  rw [C17_incremental_hash E K hK pp p0 p ms h0 h,
    C17_incremental_hash E K hK pp' q q [] hq .start]
  have hb : p.pieceAt = q.pieceAt := funext hboard
  rw [hb]
  intro e
  have := congrArg (fun o => o.map fun k => k.1.getLsbD 0) e
  simp [hodd] at this

/-- C19, the part that holds: among histories from roots with the same side to move, equal boards and
hands give equal keys exactly when the side to move is the same.  (Missing: roots with different
sides to move, for which the statement is false, see `C19_is_false`.) -/
theorem C19_key_encodes_side_partial (E : Env) (K : Backend) (hK : K ∈ backends)
    (pp1 pp2 : CorePartialPosition) (p1 p2 q1 q2 : Position) (ms1 ms2 : List Move)
    (h1 : Position.new E K pp1 = some p1) (h2 : Position.new E K pp2 = some p2)
    (s1 : Session E K Shape p1 ms1 q1) (s2 : Session E K Shape p2 ms2 q2)
    (hroot : pp1.side = pp2.side)
    (hboard : ∀ s, q1.pieceAt s = q2.pieceAt s)
    (hhand : ∀ c k, (q1.hand c).count k = (q2.hand c).count k) :
    (q1.keys = q2.keys ↔ q1.sideToMove = q2.sideToMove) := by
  have L := lawful_of_mem hK
  constructor
  · intro e
    have a := side_play (s1.play hK (fun _ _ h => h))
    have b := side_play (s2.play hK (fun _ _ h => h))
    rw [new_side L h1] at a
    rw [new_side L h2, ← hroot] at b
    rw [C17_incremental_hash E K hK pp1 p1 q1 ms1 h1 s1,
      C17_incremental_hash E K hK pp2 p2 q2 ms2 h2 s2] at e
    have := congrArg (fun o => o.map fun k => k.1.getLsbD 0) e
    simp only [Option.map_some, BitVec.getLsbD_xor, lsb_boardHash, Bool.false_xor,
      Option.some.injEq] at this
    have hpar : ms1.length % 2 = 0 ↔ ms2.length % 2 = 0 := by
      rcases Nat.mod_two_eq_zero_or_one ms1.length with h | h <;>
        rcases Nat.mod_two_eq_zero_or_one ms2.length with h' | h' <;> simp [h, h'] at this ⊢
    rw [← a, ← b] at hpar
    revert hpar
    cases q1.sideToMove <;> cases q2.sideToMove <;> cases pp1.side <;> decide
  · intro e
    exact (C18_transpositions E K hK pp1 pp2 p1 p2 q1 q2 ms1 ms2 h1 h2 s1 s2 hroot hboard hhand
      e).1

open Yasai.Examples

theorem new_startpos (E : Env) (K : Backend) (hK : K ∈ backends) (c : Color) :
    ∃ p, Position.new E K { startpos with side := c } = some p := by
  rw [new_eq E (lawful_of_mem hK), if_pos]
  · exact ⟨_, rfl⟩
  · intro p hp; exact Nat.zero_le _

/-- C19 is false for every Zobrist table: the initial position with Black to move and with White to
move have equal keys. -/
theorem C19_is_false (E : Env) (K : Backend) (hK : K ∈ backends) : ¬ C19_statement E K := by
  intro h
  obtain ⟨p, hp⟩ := new_startpos E K hK .black
  obtain ⟨q, hq⟩ := new_startpos E K hK .white
  have L := lawful_of_mem hK
  have hpq : ∀ s, p.pieceAt s = q.pieceAt s := by
    intro s
    simp only [Position.pieceAt, PartialPosition.pieceAt, new_inner L hp, new_inner L hq, (ofCore_spec L _).2.1]
  have hh : ∀ c k, (p.hand c).count k = (q.hand c).count k := by
    intro c k
    simp only [Position.hand, new_inner L hp, new_inner L hq, (ofCore_spec L _).2.2.1]
  have hk : p.keys = q.keys := C19_new_ignores_side E K hK { startpos with side := .black } .white p q hp hq
  have := (h _ _ p q p q [] [] hp hq .start .start hpq hh).1 hk
  rw [new_side L hp, new_side L hq] at this
  cases this

/-- C19, exactly what holds of the code: with equal boards and hands, the keys are equal if and only
if the sides to move are related as the sides to move of the two roots (both the same or both
different).  (Missing: the side to move alone, which is false, `C19_is_false`.) -/
theorem C19_exact_partial (E : Env) (K : Backend) (hK : K ∈ backends)
    (pp1 pp2 : CorePartialPosition) (p1 p2 q1 q2 : Position) (ms1 ms2 : List Move)
    (h1 : Position.new E K pp1 = some p1) (h2 : Position.new E K pp2 = some p2)
    (s1 : Session E K Shape p1 ms1 q1) (s2 : Session E K Shape p2 ms2 q2)
    (hboard : ∀ s, q1.pieceAt s = q2.pieceAt s)
    (hhand : ∀ c k, (q1.hand c).count k = (q2.hand c).count k) :
    (q1.keys = q2.keys ↔ (q1.sideToMove = q2.sideToMove ↔ pp1.side = pp2.side)) := by
  have L := lawful_of_mem hK
  have a := side_play (s1.play hK (fun _ _ h => h))
  have b := side_play (s2.play hK (fun _ _ h => h))
  rw [new_side L h1] at a
  rw [new_side L h2] at b
  rw [C17_incremental_hash E K hK pp1 p1 q1 ms1 h1 s1,
    C17_incremental_hash E K hK pp2 p2 q2 ms2 h2 s2, show q1.pieceAt = q2.pieceAt from funext hboard]
  simp only [hhand, Option.some.injEq, Prod.mk.injEq, and_true, BitVec.xor_right_inj]
  have par : ∀ x y : Nat, ((if x % 2 = 1 then 1#64 else 0#64) = (if y % 2 = 1 then 1#64 else 0#64)) ↔
      (x % 2 = 0 ↔ y % 2 = 0) := by
    intro x y
    rcases Nat.mod_two_eq_zero_or_one x with h | h <;>
      rcases Nat.mod_two_eq_zero_or_one y with h' | h' <;> simp [h, h']
  rw [par, ← a, ← b]
  cases q1.sideToMove <;> cases q2.sideToMove <;> cases pp1.side <;> cases pp2.side <;> decide

/-- `Position::new` with the missing step added: `if side == White { keys.0 ^= Key::COLOR }`. -/
def newFixed (E : Env) (K : Backend) (pp : CorePartialPosition) : Option Position := do
  let p ← Position.new E K pp
  pure { p with
    states := p.states.map fun st =>
      { st with keys := (if pp.side = .white then st.keys.1 ^^^ Key.COLOR else st.keys.1,
                         st.keys.2) } }

/-- C19 holds in full once `Position::new` mixes in the colour key for White; nothing else need be
changed. -/
theorem C19_fix_suffices (E : Env) (K : Backend) (hK : K ∈ backends) :
    C19_statement E K (newFixed E K) := by
  have L := lawful_of_mem hK
  have fixed : ∀ pp p, newFixed E K pp = some p →
      KeyInv E (pp.side == .white) p ∧ p.sideToMove = pp.side := by
    intro pp p h
    simp only [newFixed, Option.bind_eq_bind, Option.bind_eq_some_iff] at h
    obtain ⟨p', h', e⟩ := h
    cases e
    have hs := new_side L h'
    have hk := keyInv_new L h'
    refine ⟨?_, hs⟩
    unfold KeyInv Position.keys Position.state at hk ⊢
    cases hst : p'.states with
    | nil => simp [hst] at hk
    | cons st l =>
      simp only [hst, List.head?_cons, List.map_cons, Option.bind_eq_bind, Option.bind_some,
        Option.pure_def, Option.some.injEq, Prod.mk.injEq] at hk ⊢
      rw [hk.1, hk.2]
      cases pp.side <;> simp [Key.COLOR]
  have inv : ∀ pp p q ms, newFixed E K pp = some p → Session E K Shape p ms q →
      KeyInv E (q.sideToMove == .white) q := by
    intro pp p q ms h s
    obtain ⟨hk, hs⟩ := fixed pp p h
    have hp := s.play hK (fun _ _ h => h)
    have := keyInv_play hk hp
    have hside := side_play hp
    rw [hs] at hside
    have e : (q.sideToMove == .white) = ((pp.side == .white) ^^ (ms.length % 2 == 1)) := by
      revert hside
      rcases Nat.mod_two_eq_zero_or_one ms.length with h | h <;> rw [h] <;>
        cases q.sideToMove <;> cases pp.side <;> decide
    rw [e]
    exact this
  intro pp1 pp2 p1 p2 q1 q2 ms1 ms2 h1 h2 s1 s2 hboard hhand
  have a := inv _ _ _ _ h1 s1
  have b := inv _ _ _ _ h2 s2
  unfold KeyInv at a b
  have hb : q1.inner.board = q2.inner.board := funext hboard
  have hh : q1.inner.spec.hand = q2.inner.spec.hand := by
    funext c k
    exact congrArg (·.getD 0) (hhand c k)
  rw [a, b, hb, hh]
  simp only [Option.some.injEq, Prod.mk.injEq, and_true, BitVec.xor_right_inj]
  cases q1.sideToMove <;> cases q2.sideToMove <;> decide

/-- Hypotheses of C17–C20 hold: a game of three moves with a capture, a promotion and one undone
move. -/
example : ∃ p0 p, Position.new env0 CoreBB.backend startpos = some p0 ∧
    Session env0 CoreBB.backend Shape p0
      [.normal (sq 3 3) (sq 3 4) false, .normal (sq 7 7) (sq 7 6) false] p := by
  have h : ((Position.new env0 CoreBB.backend startpos).any fun p =>
      (p.doMove env0 CoreBB.backend (.normal (sq 7 7) (sq 7 6) false)).any fun p =>
      (p.doMove env0 CoreBB.backend (.normal (sq 3 3) (sq 3 4) false)).any fun p =>
      (p.doMove env0 CoreBB.backend (.normal (sq 8 8) (sq 2 2) true)).isSome) = true := by
    decide +kernel
  simp only [Option.any_eq_true] at h
  obtain ⟨p, hp, p1, hp1, p2, hp2, h⟩ := h
  obtain ⟨p3, hp3⟩ := Option.isSome_iff_exists.1 h
  refine ⟨p, p2, hp, ?_⟩
  have s2 : Session env0 CoreBB.backend Shape p
      [.normal (sq 3 3) (sq 3 4) false, .normal (sq 7 7) (sq 7 6) false] p2 :=
    (Session.start.move (by decide : sq 7 7 ≠ sq 7 6) hp1).move (by decide : sq 3 3 ≠ sq 3 4) hp2
  have s3 := s2.move (show Shape p2 (.normal (sq 8 8) (sq 2 2) true) from
    (by decide : sq 8 8 ≠ sq 2 2)) hp3
  exact s3.undo (C01_undo_inverts_do _ _ core_mem _ _ _
    (fun _ _ e => (by cases e)) hp3)

end Yasai.Props

import Verif.Props.Same
import Verif.Props.Recorded

/-!
# C96: positions that look the same behave the same, where the rules are not kept
-/

namespace Yasai.Props

open Yasai Spec

/-- Where the last move dropped a piece, if it was a drop.  The history is latest first. -/
def droppedOn : List Move → Option Square
  | .drop to _ :: _ => some to
  | _ => none

/-- The attack information after any history: computed from the board and the recorded checkers;
and the recorded checkers, when there are any, are those found on the board, or the piece dropped. -/
theorem Visited.attackInfo {E : Env} {K : Backend} (hK : K ∈ backends) {pp : CorePartialPosition}
    {ms : List Move} {p : Position} (h : Visited E K pp ms p) :
    ∃ st ck, p.state = some st ∧ st.attackInfo = AttackInfo.new K ck p.inner ∧
      (p.inCheck K = some true → ck = match droppedOn ms with
        | some to => K.single to
        | none => AttackInfo.calculateCheckers K p.inner) ∧
      (p.inCheck K = some false → ck = 0#128) ∧ ∃ b, p.inCheck K = some b := by
  have L := lawful_of_mem hK
  have none_left : ∀ {st : State} {ck : BB} {q : PartialPosition}, p.state = some st →
      st.attackInfo = AttackInfo.new K ck q → p.inCheck K = some (!(ck == 0#128)) := by
    intro st ck q hst hai
    unfold Position.inCheck
    rw [hst]
    show some (!K.isEmpty st.attackInfo.checkers) = _
    rw [L.isEmpty, hai]
    rfl
  have empty0 : K.empty = 0#128 := L.empty
  obtain ⟨p0, h0, hs⟩ := h
  have hp := hs.play hK (fun _ _ h => h)
  cases hp with
  | start =>
    obtain ⟨_, st, hst, hai⟩ := inv_new L h0
    have hc := none_left hst hai
    refine ⟨st, _, hst, hai, fun _ => rfl, fun e => ?_, _, hc⟩
    rw [hc] at e
    simpa using e
  | @move ms' q _ m _ _ hm =>
    cases m with
    | normal frm to promote =>
      obtain ⟨isCheck, st, piece, kq, target, ply, _, _, _, _, _, _, hi, hs⟩ := doMove_normal hm
      have hst : p.state = p.states.head? := rfl
      rw [hs] at hst
      have hc := none_left hst rfl
      refine ⟨_, _, hst, rfl, fun e => ?_, fun e => ?_, _, hc⟩
      · rw [hc] at e
        cases isCheck with
        | false => rw [if_neg (by decide), empty0] at e; simp at e
        | true =>
          rw [hi]
          rfl
      · rw [hc] at e
        simpa using e
    | drop to pc =>
      obtain ⟨isCheck, st, q', n, z, ply, _, _, _, _, _, _, hi, hs⟩ := doMove_drop hm
      have hst : p.state = p.states.head? := rfl
      rw [hs] at hst
      have hc := none_left hst rfl
      refine ⟨_, _, hst, rfl, fun e => ?_, fun e => ?_, _, hc⟩
      · rw [hc] at e
        cases isCheck with
        | false => rw [if_neg (by decide), empty0] at e; simp at e
        | true => rfl
      · rw [hc] at e
        simpa using e

/-- C96.  C76 for every history in which the arguments of `do_move` are sensible, from every
accepted position: the moves may leave the king in check, the position may break any rule.  Two
positions that show the same board, hands, side and ply, answer `in_check` the same, and, if that
answer is yes, either both came by a drop on the same square or neither came by a drop, cannot be
told apart by any client that undoes only its own moves. -/
theorem C96_indistinguishable (E : Env) (K : Backend) (hK : K ∈ backends)
    (pp pp' : CorePartialPosition) (hroot : pp.side = pp'.side) (ms ms' : List Move)
    (p p' : Position) (h : Visited E K pp ms p) (h' : Visited E K pp' ms' p')
    (hboard : ∀ s, p.pieceAt s = p'.pieceAt s) (hhand : ∀ c, p.hand c = p'.hand c)
    (hside : p.sideToMove = p'.sideToMove) (hply : p.ply = p'.ply)
    (hcheck : p.inCheck K = p'.inCheck K)
    (hdrop : p.inCheck K = some true → droppedOn ms = droppedOn ms')
    {α : Type} (prog : Client α) (hown : prog.Own 0) :
    (prog.run E K p).map (·.1) = (prog.run E K p').map (·.1) := by
  have hr := (h.consistent hK).1
  have hr' := (h'.consistent hK).1
  obtain ⟨st, ck, hst, hai, ht, hf, b, hb⟩ := h.attackInfo hK
  obtain ⟨st', ck', hst', hai', ht', hf', _⟩ := h'.attackInfo hK
  have hs : SamePos p.inner p'.inner := by
    show view p = view p'
    unfold view
    congr 1
    · funext s; exact hboard s
    · funext c k; rw [hhand]
  have hinner : p.inner = p'.inner := by
    obtain ⟨h1, h2, h3, h4⟩ := hs.bitboards hr hr'
    have h5 : p.inner.hands = p'.inner.hands := funext hhand
    have h6 : p.inner.ply = p'.inner.ply := hply
    cases e : p.inner; cases e' : p'.inner
    rw [e, e'] at h1 h2 h3 h4 h5 h6
    simp only at h1 h2 h3 h4 h5 h6
    subst h1 h2 h3 h4 h5 h6
    rfl
  have hck : ck = ck' := by
    cases b with
    | false => rw [hf hb, hf' (hcheck ▸ hb)]
    | true => rw [ht hb, ht' (hcheck ▸ hb), hdrop hb, hinner]
  have hkeys : st.keys = st'.keys := by
    obtain ⟨p0, h0, hs1⟩ := h
    obtain ⟨p0', h0', hs1'⟩ := h'
    have := (C18_transpositions E K hK pp pp' p0 p0' p p' ms ms' h0 h0' hs1 hs1' hroot hboard
      (fun c k => by rw [hhand]) hside).1
    unfold Position.keys at this
    rw [hst, hst'] at this
    simpa [Prod.ext_iff] using this
  refine alike_run E K prog (n := 0) ⟨hinner, [], st, st', p.states.tail, p'.states.tail, rfl, ?_, ?_,
    hkeys, ?_⟩ hown
  · unfold Position.state at hst
    cases e : p.states with
    | nil => rw [e] at hst; cases hst
    | cons x xs => rw [e] at hst; cases hst; rfl
  · unfold Position.state at hst'
    cases e : p'.states with
    | nil => rw [e] at hst'; cases hst'
    | cons x xs => rw [e] at hst'; cases hst'; rfl
  · rw [hai, hai', hinner, hck]

/-! ## Concrete cases -/

section
open Yasai.Examples

/-- Plays pseudo-legal moves. -/
def roamTo : List Move → Position → Option Position
  | [], p => some p
  | m :: ms, p =>
    if PseudoLegal (view p) m then (p.doMove env0 CoreBB.backend m).bind (roamTo ms) else none

theorem roamTo_roamed {pp : CorePartialPosition} :
    ∀ (xs : List Move) {ms : List Move} {p p' : Position}, Roamed env0 CoreBB.backend pp ms p →
      roamTo xs p = some p' → Roamed env0 CoreBB.backend pp (xs.reverse ++ ms) p' := by
  intro xs
  induction xs with
  | nil =>
    intro ms p p' h e
    cases e
    exact h
  | cons m xs ih =>
    intro ms p p' h e
    unfold roamTo at e
    split at e
    · next hc =>
      rw [Option.bind_eq_some_iff] at e
      obtain ⟨p1, hd, e⟩ := e
      obtain ⟨p0, h0, hs⟩ := h
      have := ih (ms := m :: ms) ⟨p0, h0, .move hs hc hd⟩ e
      simpa using this
    · cases e

/-- The accessors answer the same. -/
def LooksLike (p p' : Position) : Prop :=
  (∀ s, p.pieceAt s = p'.pieceAt s) ∧ (∀ c k, (p.hand c).cnt k = (p'.hand c).cnt k) ∧
    p.sideToMove = p'.sideToMove ∧ p.ply = p'.ply

instance (p p' : Position) : Decidable (LooksLike p p') := by unfold LooksLike; infer_instance

theorem LooksLike.hands {p p' : Position} (h : LooksLike p p') (c : Color) : p.hand c = p'.hand c := by
  have := h.2.1 c
  cases e : p.hand c; cases e' : p'.hand c
  rw [e, e'] at this
  exact congrArg Hand.mk (funext this)

/-- Black to move, attacked by the rook. -/
def unheeded : CorePartialPosition where
  side := .black
  ply := 1#16
  hands := fun _ => handOf []
  board := boardOf [(5,9,.king,.black),(9,9,.gold,.black),(5,2,.rook,.white),(1,1,.king,.white)]

/-- The same, a gold and a king further. -/
def unheededLater : CorePartialPosition where
  side := .black
  ply := 3#16
  hands := fun _ => handOf []
  board := boardOf [(5,9,.king,.black),(9,8,.gold,.black),(5,2,.rook,.white),(1,2,.king,.white)]

/-- Counts the listed moves. -/
def counter : Client Nat :=
  .call .legalMoves fun
    | .moves l => .done l.length
    | _ => .done 0

/-- The client asks nothing else. -/
theorem counter_own : counter.Own 0 := by
  intro a
  cases a <;> trivial

/-- Two orders of the moves of a gold, both leaving the king attacked: the client cannot tell the
positions apart. -/
theorem C96_example : ∃ p p' k,
    Visited env0 CoreBB.backend unheeded [.normal (sq 9 8) (sq 8 8) false,
      .normal (sq 1 1) (sq 1 2) false, .normal (sq 9 9) (sq 9 8) false] p ∧
    Visited env0 CoreBB.backend unheeded [.normal (sq 8 9) (sq 8 8) false,
      .normal (sq 1 1) (sq 1 2) false, .normal (sq 9 9) (sq 8 9) false] p' ∧
    AttacksFrom p.pieceAt .white (sq 5 2) (sq 5 9) ∧
    (counter.run env0 CoreBB.backend p).map (·.1) = some k ∧
    (counter.run env0 CoreBB.backend p').map (·.1) = some k := by
  have h : ((Position.new env0 CoreBB.backend unheeded).any fun p0 =>
      (roamTo [.normal (sq 9 9) (sq 9 8) false, .normal (sq 1 1) (sq 1 2) false,
        .normal (sq 9 8) (sq 8 8) false] p0).any fun p =>
      (roamTo [.normal (sq 9 9) (sq 8 9) false, .normal (sq 1 1) (sq 1 2) false,
        .normal (sq 8 9) (sq 8 8) false] p0).any fun p' =>
      decide (LooksLike p p') && p.inCheck CoreBB.backend == some false &&
      p'.inCheck CoreBB.backend == some false &&
      decide (AttacksFrom p.pieceAt .white (sq 5 2) (sq 5 9)) &&
      (counter.run env0 CoreBB.backend p).isSome) = true := by
    decide +kernel
  simp only [Option.any_eq_true, Bool.and_eq_true, decide_eq_true_eq, beq_iff_eq] at h
  obtain ⟨p0, h0, p, hp, p', hp', ⟨⟨⟨h1, h2⟩, h3⟩, h4⟩, h5⟩ := h
  have hr0 : Roamed env0 CoreBB.backend unheeded [] p0 := ⟨p0, h0, .start⟩
  have hr := (roamTo_roamed _ hr0 hp).visited
  have hr' := (roamTo_roamed _ hr0 hp').visited
  obtain ⟨⟨k, q⟩, hk⟩ := Option.isSome_iff_exists.1 h5
  have hk : (counter.run env0 CoreBB.backend p).map (·.1) = some k := by rw [hk]; rfl
  refine ⟨p, p', k, hr, hr', h4, hk, ?_⟩
  rw [← hk]
  exact (C96_indistinguishable env0 _ core_mem unheeded unheeded rfl _ _ p p' hr hr' h1.1 h1.hands
    h1.2.2.1 h1.2.2.2 (by rw [h2, h3]) (by rw [h2]; intro e; cases e) counter counter_own).symm

/-- The answers of `in_check` must agree: after two moves that leave the check standing it is no
longer recorded, and the position lists other moves than the same position taken over anew. -/
theorem C96_in_check_needed : ∃ p p',
    Visited env0 CoreBB.backend unheeded
      [.normal (sq 1 1) (sq 1 2) false, .normal (sq 9 9) (sq 9 8) false] p ∧
    Visited env0 CoreBB.backend unheededLater [] p' ∧ LooksLike p p' ∧
    p.inCheck CoreBB.backend = some false ∧ p'.inCheck CoreBB.backend = some true ∧
    (counter.run env0 CoreBB.backend p).map (·.1) ≠ (counter.run env0 CoreBB.backend p').map (·.1) := by
  have h : ((Position.new env0 CoreBB.backend unheeded).any fun p0 =>
      (roamTo [.normal (sq 9 9) (sq 9 8) false, .normal (sq 1 1) (sq 1 2) false] p0).any fun p =>
      (Position.new env0 CoreBB.backend unheededLater).any fun p' =>
      decide (LooksLike p p') && p.inCheck CoreBB.backend == some false &&
      p'.inCheck CoreBB.backend == some true &&
      (counter.run env0 CoreBB.backend p).map (·.1) !=
        (counter.run env0 CoreBB.backend p').map (·.1)) = true := by
    decide +kernel
  simp only [Option.any_eq_true, Bool.and_eq_true, decide_eq_true_eq, beq_iff_eq, bne_iff_ne] at h
  obtain ⟨p0, h0, p, hp, p', hp', ⟨⟨h1, h2⟩, h3⟩, h4⟩ := h
  exact ⟨p, p', (roamTo_roamed _ (⟨p0, h0, .start⟩ : Roamed env0 CoreBB.backend unheeded [] p0)
    hp).visited, ⟨p', hp', .start⟩, h1, h2, h3, h4⟩

/-- `halfSeen` with the gold already on the board, and the other gold in hand. -/
def fullySeen : CorePartialPosition where
  side := .white
  ply := 1#16
  hands := fun
    | .black => handOf [(.gold, 1)]
    | .white => handOf []
  board := boardOf [(5,8,.king,.black),(5,2,.rook,.white),(3,7,.gold,.black),(4,6,.gold,.white),
    (1,1,.king,.white)]

/-- How the last move came about must agree: a gold dropped beside the attacked king is recorded
alone, a gold moved there is recorded together with the rook. -/
theorem C96_drop_needed : ∃ p p',
    Visited env0 CoreBB.backend halfSeen [.drop (sq 4 7) ⟨.gold, .white⟩] p ∧
    Visited env0 CoreBB.backend fullySeen [.normal (sq 4 6) (sq 4 7) false] p' ∧ LooksLike p p' ∧
    p.inCheck CoreBB.backend = some true ∧ p'.inCheck CoreBB.backend = some true ∧
    (counter.run env0 CoreBB.backend p).map (·.1) ≠ (counter.run env0 CoreBB.backend p').map (·.1) := by
  have h : ((Position.new env0 CoreBB.backend halfSeen).any fun p0 =>
      (roamTo [.drop (sq 4 7) ⟨.gold, .white⟩] p0).any fun p =>
      (Position.new env0 CoreBB.backend fullySeen).any fun p0' =>
      (roamTo [.normal (sq 4 6) (sq 4 7) false] p0').any fun p' =>
      decide (LooksLike p p') && p.inCheck CoreBB.backend == some true &&
      p'.inCheck CoreBB.backend == some true &&
      (counter.run env0 CoreBB.backend p).map (·.1) !=
        (counter.run env0 CoreBB.backend p').map (·.1)) = true := by
    decide +kernel
  simp only [Option.any_eq_true, Bool.and_eq_true, decide_eq_true_eq, beq_iff_eq, bne_iff_ne] at h
  obtain ⟨p0, h0, p, hp, p0', h0', p', hp', ⟨⟨h1, h2⟩, h3⟩, h4⟩ := h
  exact ⟨p, p', (roamTo_roamed _ (⟨p0, h0, .start⟩ : Roamed env0 CoreBB.backend halfSeen [] p0)
    hp).visited, (roamTo_roamed _ (⟨p0', h0', .start⟩ : Roamed env0 CoreBB.backend fullySeen [] p0')
    hp').visited, h1, h2, h3, h4⟩

end

end Yasai.Props

import Verif.Props.Refine
import Verif.Props.Agree

/-!
# C76: positions that look the same behave the same, for every client program
-/

namespace Yasai.Props

open Yasai Spec

/-- A client program: asks one call after the other, choosing each call by the answers so far, and
finally returns a value. -/
inductive Client (α : Type) where
  | done (a : α)
  | call (c : Cmd) (next : Answer → Client α)

/-- Runs a client on a position.  `none` is a panic. -/
def Client.run {α : Type} (E : Env) (K : Backend) : Client α → Position → Option (α × Position)
  | .done a, p => some (a, p)
  | .call c next, p => match exec E K p c with
    | none => none
    | some (a, p') => (next a).run E K p'

/-- The client undoes only moves it made itself, `n` of which are in force at the start. -/
def Client.Own {α : Type} (n : Nat) : Client α → Prop
  | .done _ => True
  | .call (.doMove _) next => ∀ a, (next a).Own (n + 1)
  | .call (.undoMove _) next => ∃ k, n = k + 1 ∧ ∀ a, (next a).Own k
  | .call _ next => ∀ a, (next a).Own n

/-- The two positions differ at most in the history below the last `n` moves, and in what was
captured and moved just before these. -/
def Twin (n : Nat) (p p' : Position) : Prop :=
  p.inner = p'.inner ∧ ∃ ext st st' rest rest', ext.length = n ∧
    p.states = ext ++ st :: rest ∧ p'.states = ext ++ st' :: rest' ∧
    st.keys = st'.keys ∧ st.attackInfo = st'.attackInfo

/-- Both panic, or both return related results. -/
def Alike {α β : Type} (R : α → β → Prop) : Option α → Option β → Prop
  | none, none => True
  | some a, some b => R a b
  | _, _ => False

theorem twin_state {n : Nat} {p p' : Position} (h : Twin n p p') : ∃ st st', p.state = some st ∧
    p'.state = some st' ∧ st.keys = st'.keys ∧ st.attackInfo = st'.attackInfo := by
  obtain ⟨_, ext, st, st', rest, rest', _, h1, h2, h3, h4⟩ := h
  unfold Position.state
  rw [h1, h2]
  cases ext with
  | nil => exact ⟨st, st', rfl, rfl, h3, h4⟩
  | cons x xs => exact ⟨x, x, rfl, rfl, rfl, rfl⟩

/-- Pushing a state. -/
theorem alike_push (E : Env) (K : Backend) {n : Nat} {p p' : Position} (h : Twin n p p')
    (q : PartialPosition) (keys : Key × Key) (cap last : Option Piece) (ck : BB) :
    Alike (Twin (n + 1)) (Position.pushState E K p.states q keys cap last ck)
      (Position.pushState E K p'.states q keys cap last ck) := by
  unfold Position.pushState
  cases Position.plyAdd E q.ply with
  | none => trivial
  | some ply =>
    obtain ⟨_, ext, st, st', rest, rest', h0, h1, h2, h3, h4⟩ := h
    let new : State :=
      ⟨(keys.1 ^^^ Key.COLOR, keys.2), cap, last, AttackInfo.new K ck { q with ply := ply }⟩
    refine ⟨rfl, new :: ext, st, st', rest, rest', by rw [List.length_cons, h0], ?_, ?_, h3, h4⟩
    · show new :: p.states = _
      rw [h1]; rfl
    · show new :: p'.states = _
      rw [h2]; rfl

theorem alike_isCheckMove (K : Backend) {n : Nat} {p p' : Position} (h : Twin n p p') (m : Move) :
    p.isCheckMove K m = p'.isCheckMove K m := by
  obtain ⟨st, st', h1, h2, h3, h4⟩ := twin_state h
  unfold Position.isCheckMove Position.checkable
  rw [h1, h2, h.1]
  simp only [Option.bind_eq_bind, Option.bind_some, h4]

theorem alike_doMove (E : Env) (K : Backend) {n : Nat} {p p' : Position} (h : Twin n p p')
    (m : Move) : Alike (Twin (n + 1)) (p.doMove E K m) (p'.doMove E K m) := by
  obtain ⟨st, st', h1, h2, h3, h4⟩ := twin_state h
  unfold Position.doMove Position.sideToMove
  rw [alike_isCheckMove K h m, h1, h2, h.1]
  simp only [Option.bind_eq_bind, Option.bind_some, h3]
  cases p'.isCheckMove K m with
  | none => trivial
  | some b =>
    cases m with
    | normal frm to pr =>
      simp only [Option.bind_some]
      cases p'.inner.pieceAt frm with
      | none => trivial
      | some pc =>
        simp only [Option.bind_some]
        cases Position.doCapture E K p'.inner.side to (p'.inner.pieceAt (Move.to (.normal frm to pr)))
            st'.keys p'.inner with
        | none => trivial
        | some x =>
          simp only [Option.bind_some]
          cases Position.targetPiece pc pr with
          | none => trivial
          | some t => exact alike_push E K h _ _ _ _ _
    | drop to pc =>
      simp only [Option.bind_some]
      cases Position.dropInner K p'.inner.side p'.inner to pc with
      | none => trivial
      | some q =>
        simp only [Option.bind_some]
        cases (q.hands p'.inner.side).count pc.kind with
        | none => trivial
        | some k =>
          simp only [Option.bind_some]
          cases E.zobHand p'.inner.side pc.kind k with
          | none => trivial
          | some z => exact alike_push E K h _ _ _ _ _

theorem alike_pop (E : Env) {n : Nat} {p p' : Position} (h : Twin (n + 1) p p') (c : Color)
    (q : PartialPosition) :
    Alike (Twin n) (Position.popState E c p.states q) (Position.popState E c p'.states q) := by
  unfold Position.popState
  cases Position.plySub E q.ply with
  | none => trivial
  | some ply =>
    obtain ⟨_, ext, st, st', rest, rest', h0, h1, h2, h3, h4⟩ := h
    cases ext with
    | nil => cases h0
    | cons x xs =>
      refine ⟨rfl, xs, st, st', rest, rest', by simpa using h0, ?_, ?_, h3, h4⟩
      · show p.states.tail = _
        rw [h1]; rfl
      · show p'.states.tail = _
        rw [h2]; rfl

theorem alike_undoMove (E : Env) (K : Backend) {n : Nat} {p p' : Position} (h : Twin (n + 1) p p')
    (m : Move) : Alike (Twin n) (p.undoMove E K m) (p'.undoMove E K m) := by
  have hst : p.state = p'.state := by
    obtain ⟨_, ext, st, st', rest, rest', h0, h1, h2, _, _⟩ := h
    unfold Position.state
    rw [h1, h2]
    cases ext with
    | nil => cases h0
    | cons x xs => rfl
  unfold Position.undoMove Position.sideToMove
  rw [hst, h.1]
  cases m with
  | normal frm to pr =>
    simp only [Option.bind_eq_bind]
    cases p'.state with
    | none => trivial
    | some st =>
      simp only [Option.bind_some]
      cases Position.undoNormal K p'.inner.side.flip st p'.inner frm to with
      | none => trivial
      | some q => exact alike_pop E h _ q
  | drop to pc =>
    simp only [Option.bind_eq_bind]
    cases Position.undoDrop K p'.inner.side.flip p'.inner to pc with
    | none => trivial
    | some q => exact alike_pop E h _ q

/-- `legal_moves` uses only the attack information of the last state. -/
theorem alike_legalMoves (E : Env) (K : Backend) {n : Nat} {p p' : Position} (h : Twin n p p') :
    p.legalMoves E K = p'.legalMoves E K := by
  obtain ⟨⟨k, c, l, ai⟩, ⟨k', c', l', ai'⟩, h1, h2, h3, h4⟩ := twin_state h
  have h4 : ai = ai' := h4
  subst h4
  have e1 : ∀ m, p'.inner.isLegal K ⟨k, c, l, ai⟩ m = p'.inner.isLegal K ⟨k', c', l', ai⟩ m :=
    fun _ => rfl
  have e2 : ∀ t, p'.inner.pawnDropTarget E K ⟨k, c, l, ai⟩ t =
      p'.inner.pawnDropTarget E K ⟨k', c', l', ai⟩ t := fun _ => rfl
  have e3 : ∀ av t, p'.inner.generateDrop E K ⟨k, c, l, ai⟩ av t =
      p'.inner.generateDrop E K ⟨k', c', l', ai⟩ av t := by
    intro av t
    unfold PartialPosition.generateDrop
    simp only [e2]
  have e4 : ∀ king, p'.inner.checkersAttacks K ⟨k, c, l, ai⟩ king =
      p'.inner.checkersAttacks K ⟨k', c', l', ai⟩ king := fun _ => rfl
  unfold Position.legalMoves
  rw [h1, h2, h.1]
  unfold PartialPosition.generateEvasions PartialPosition.generateAll
  simp only [Option.bind_eq_bind, Option.bind_some, e3, e4]
  have e5 : p'.inner.isLegal K ⟨k, c, l, ai⟩ = p'.inner.isLegal K ⟨k', c', l', ai⟩ :=
    funext e1
  rw [e5]

/-- One call. -/
theorem alike_exec (E : Env) (K : Backend) {n : Nat} {p p' : Position} (h : Twin n p p') (c : Cmd)
    {n' : Nat}
    (hn : match c with
      | .doMove _ => n' = n + 1
      | .undoMove _ => n = n' + 1
      | _ => n' = n) :
    Alike (fun x y => x.1 = y.1 ∧ Twin n' x.2 y.2) (exec E K p c) (exec E K p' c) := by
  have hq : ∀ {α : Type} (o : Option α) (f : α → Answer), n' = n →
      Alike (fun x y => x.1 = y.1 ∧ Twin n' x.2 y.2) (o.map fun b => (f b, p))
        (o.map fun b => (f b, p')) := by
    intro α o f e
    subst e
    cases o with
    | none => trivial
    | some b => exact ⟨rfl, h⟩
  have hm : ∀ {o o' : Option Position}, Alike (Twin n') o o' →
      Alike (fun x y => x.1 = y.1 ∧ Twin n' x.2 y.2) (o.map fun q => (Answer.unit, q))
        (o'.map fun q => (Answer.unit, q)) := by
    intro o o' ho
    cases o <;> cases o'
    · trivial
    · exact ho
    · exact ho
    · exact ⟨rfl, ho⟩
  obtain ⟨st, st', h1, h2, h3, h4⟩ := twin_state h
  cases c with
  | doMove m =>
    have hn : n' = n + 1 := hn
    subst hn
    exact hm (alike_doMove E K h m)
  | undoMove m =>
    have hn : n = n' + 1 := hn
    subst hn
    exact hm (alike_undoMove E K h m)
  | pieceAt s =>
    have hn : n' = n := hn
    subst hn
    exact ⟨by show Answer.piece (p.inner.pieceAt s) = .piece (p'.inner.pieceAt s); rw [h.1], h⟩
  | hand c k =>
    have hn : n' = n := hn
    subst hn
    refine ⟨?_, h⟩
    show Answer.count (((p.inner.hands c).count k).getD 0) =
      .count (((p'.inner.hands c).count k).getD 0)
    rw [h.1]
  | sideToMove =>
    have hn : n' = n := hn
    subst hn
    exact ⟨by show Answer.color p.inner.side = .color p'.inner.side; rw [h.1], h⟩
  | ply =>
    have hn : n' = n := hn
    subst hn
    exact ⟨by show Answer.ply p.inner.ply = .ply p'.inner.ply; rw [h.1], h⟩
  | inCheck =>
    have e : p.inCheck K = p'.inCheck K := by
      unfold Position.inCheck
      rw [h1, h2]
      simp only [Option.bind_eq_bind, Option.bind_some, h4]
    unfold exec
    rw [e]
    exact hq _ _ hn
  | isCheckMove m =>
    dsimp only [exec]
    rw [alike_isCheckMove K h m]
    exact hq _ _ hn
  | legalMoves =>
    unfold exec
    rw [alike_legalMoves E K h]
    exact hq _ _ hn
  | keys =>
    have e : p.keys = p'.keys := by
      unfold Position.keys
      rw [h1, h2]
      simp only [Option.bind_eq_bind, Option.bind_some, h3]
    unfold exec
    rw [e]
    exact hq _ _ hn
  | key =>
    have e : p.key = p'.key := by
      unfold Position.key
      rw [h1, h2]
      simp only [Option.bind_eq_bind, Option.bind_some, h3]
    unfold exec
    rw [e]
    exact hq _ _ hn

theorem alike_run {α : Type} (E : Env) (K : Backend) (prog : Client α) :
    ∀ {n : Nat} {p p' : Position}, Twin n p p' → prog.Own n →
      (prog.run E K p).map (·.1) = (prog.run E K p').map (·.1) := by
  induction prog with
  | done a => intro n p p' _ _; rfl
  | call c next ih =>
    intro n p p' h ho
    have key : ∀ n', (match c with
        | .doMove _ => n' = n + 1
        | .undoMove _ => n = n' + 1
        | _ => n' = n) → (∀ a, (next a).Own n') →
        ((Client.call c next).run E K p).map (·.1) =
          ((Client.call c next).run E K p').map (·.1) := by
      intro n' hn hown
      have := alike_exec E K h c hn
      unfold Client.run
      cases e : exec E K p c with
      | none =>
        cases e' : exec E K p' c with
        | none => rfl
        | some y => rw [e, e'] at this; exact this.elim
      | some x =>
        cases e' : exec E K p' c with
        | none => rw [e, e'] at this; exact this.elim
        | some y =>
          rw [e, e'] at this
          obtain ⟨h1, h2⟩ := this
          obtain ⟨a, q⟩ := x
          obtain ⟨a', q'⟩ := y
          have h1 : a = a' := h1
          subst h1
          exact ih a h2 (hown a)
    cases c with
    | doMove m => exact key (n + 1) rfl ho
    | undoMove m =>
      obtain ⟨k, hk, ho⟩ := ho
      exact key k hk ho
    | pieceAt s => exact key n rfl ho
    | hand c k => exact key n rfl ho
    | sideToMove => exact key n rfl ho
    | ply => exact key n rfl ho
    | inCheck => exact key n rfl ho
    | isCheckMove m => exact key n rfl ho
    | legalMoves => exact key n rfl ho
    | keys => exact key n rfl ho
    | key => exact key n rfl ho

/-- C76.  Two positions, reached by legal play from any two roots the rules allow, that show the
same board, hands, side to move and ply number and whose roots have the same side to move, cannot
be told apart by any client that undoes only its own moves: whatever it asks and plays, legal or
not, adaptively, it gets the same result, or panics in both. -/
theorem C76_indistinguishable (E : Env) (K : Backend) (hK : K ∈ backends)
    (pp pp' : CorePartialPosition) (hv : Valid (rootView pp)) (hv' : Valid (rootView pp'))
    (hroot : pp.side = pp'.side) (ms ms' : List Move) (p p' : Position) (h : Reached E K pp ms p)
    (h' : Reached E K pp' ms' p') (hboard : ∀ s, p.pieceAt s = p'.pieceAt s)
    (hhand : ∀ c, p.hand c = p'.hand c) (hside : p.sideToMove = p'.sideToMove)
    (hply : p.ply = p'.ply) {α : Type} (prog : Client α) (hown : prog.Own 0) :
    (prog.run E K p).map (·.1) = (prog.run E K p').map (·.1) := by
  have L := lawful_of_mem hK
  obtain ⟨⟨hr, st, hst, hai⟩, _⟩ := reached_inv hK hv h
  obtain ⟨⟨hr', st', hst', hai'⟩, _⟩ := reached_inv hK hv' h'
  have hs : SamePos p.inner p'.inner := by
    show view p = view p'
    unfold view
    congr 1
    · funext s; exact hboard s
    · funext c k; rw [hhand]
  have hinner : p.inner = p'.inner := by
    obtain ⟨h1, h2, h3, h4⟩ := hs.bitboards hr hr'
    have h5 : p.inner.hands = p'.inner.hands := funext hhand
    have h6 : p.inner.ply = p'.inner.ply := hply
    cases e : p.inner; cases e' : p'.inner
    rw [e, e'] at h1 h2 h3 h4 h5 h6
    simp only at h1 h2 h3 h4 h5 h6
    subst h1 h2 h3 h4 h5 h6
    rfl
  have hkeys : st.keys = st'.keys := by
    obtain ⟨p0, h0, hs1⟩ := h
    obtain ⟨p0', h0', hs1'⟩ := h'
    have := (C18_transpositions E K hK pp pp' p0 p0' p p' ms ms' h0 h0'
      (hs1.mono fun _ _ => shape_of_legal) (hs1'.mono fun _ _ => shape_of_legal) hroot hboard
      (fun c k => by rw [hhand]) hside).1
    unfold Position.keys at this
    rw [hst, hst'] at this
    simpa [Prod.ext_iff] using this
  refine alike_run E K prog (n := 0) ⟨hinner, [], st, st', p.states.tail, p'.states.tail, rfl, ?_, ?_,
    hkeys, ?_⟩ hown
  · unfold Position.state at hst
    cases e : p.states with
    | nil => rw [e] at hst; cases hst
    | cons x xs => rw [e] at hst; cases hst; rfl
  · unfold Position.state at hst'
    cases e : p'.states with
    | nil => rw [e] at hst'; cases hst'
    | cons x xs => rw [e] at hst'; cases hst'; rfl
  · rw [hai, hai', hinner]

/-! ## Concrete cases -/

section
open Yasai.Examples

/-- Plays moves that `legal_moves` lists. -/
def tryPlay : List Move → Position → Option Position
  | [], p => some p
  | m :: ms, p => (p.legalMoves env0 CoreBB.backend).bind fun l =>
      if l.contains m then (p.doMove env0 CoreBB.backend m).bind (tryPlay ms) else none

theorem tryPlay_reached {pp : CorePartialPosition} (hv : Valid (rootView pp)) :
    ∀ (xs : List Move) {ms : List Move} {p p' : Position}, Reached env0 CoreBB.backend pp ms p →
      tryPlay xs p = some p' → Reached env0 CoreBB.backend pp (xs.reverse ++ ms) p' := by
  intro xs
  induction xs with
  | nil =>
    intro ms p p' h e
    cases e
    exact h
  | cons m xs ih =>
    intro ms p p' h e
    simp only [tryPlay, Option.bind_eq_some_iff] at e
    obtain ⟨l, hl, e⟩ := e
    split at e
    · next hc =>
      rw [Option.bind_eq_some_iff] at e
      obtain ⟨p1, hd, e⟩ := e
      have := ih (h.move (((legalMoves_exact core_mem hv h hl).2 m).1 (by simpa using hc)) hd) e
      simpa using this
    · cases e

/-- A client that plays the first listed move, then drops a pawn wherever it likes (legal or not),
takes both back and asks for the key. -/
def prober : Client (BitVec 64) :=
  .call .legalMoves fun
    | .moves (m :: _) => .call (.doMove m) fun _ =>
        .call (.doMove (.drop (sq 5 5) ⟨.pawn, .black⟩)) fun _ =>
        .call (.undoMove (.drop (sq 5 5) ⟨.pawn, .black⟩)) fun _ =>
        .call (.undoMove m) fun _ => .call .key fun
          | .key k => .done k
          | _ => .done 0#64
    | _ => .done 0#64

/-- C76: the same moves in another order lead to positions that `prober` cannot tell apart. -/
example : ∃ p p' k,
    Reached env0 CoreBB.backend skirmish [.normal (sq 9 9) (sq 9 8) false,
      .normal (sq 1 1) (sq 1 2) false, .normal (sq 7 7) (sq 7 6) false] p ∧
    Reached env0 CoreBB.backend skirmish [.normal (sq 7 7) (sq 7 6) false,
      .normal (sq 1 1) (sq 1 2) false, .normal (sq 9 9) (sq 9 8) false] p' ∧
    p.lastMoved ≠ p'.lastMoved ∧
    (prober.run env0 CoreBB.backend p).map (·.1) = some k ∧
    (prober.run env0 CoreBB.backend p').map (·.1) = some k := by
  have h : ((Position.new env0 CoreBB.backend skirmish).any fun p0 =>
      (tryPlay [.normal (sq 7 7) (sq 7 6) false, .normal (sq 1 1) (sq 1 2) false,
        .normal (sq 9 9) (sq 9 8) false] p0).any fun p =>
      (tryPlay [.normal (sq 9 9) (sq 9 8) false, .normal (sq 1 1) (sq 1 2) false,
        .normal (sq 7 7) (sq 7 6) false] p0).any fun p' =>
      decide (∀ s, p.pieceAt s = p'.pieceAt s) && decide (p.sideToMove = p'.sideToMove) &&
      decide (p.ply = p'.ply) && decide (∀ c k, (p.hand c).cnt k = (p'.hand c).cnt k) &&
      p.lastMoved != p'.lastMoved &&
      (prober.run env0 CoreBB.backend p).isSome) = true := by
    decide +kernel
  simp only [Option.any_eq_true, Bool.and_eq_true, decide_eq_true_eq, bne_iff_ne] at h
  obtain ⟨p0, h0, p, hp, p', hp', ⟨⟨⟨⟨h1, h2⟩, h3⟩, h6⟩, h4⟩, h5⟩ := h
  have hr0 : Reached env0 CoreBB.backend skirmish [] p0 := ⟨p0, h0, .start⟩
  have hr := tryPlay_reached skirmish_valid _ hr0 hp
  have hr' := tryPlay_reached skirmish_valid _ hr0 hp'
  obtain ⟨⟨k, q⟩, hk⟩ := Option.isSome_iff_exists.1 h5
  have hk : (prober.run env0 CoreBB.backend p).map (·.1) = some k := by rw [hk]; rfl
  refine ⟨p, p', k, hr, hr', h4, hk, ?_⟩
  rw [← hk]
  refine (C76_indistinguishable env0 _ core_mem skirmish skirmish skirmish_valid skirmish_valid rfl _ _
    p p' hr hr' h1 ?_ h2 h3 prober ?_).symm
  · intro c
    have := h6 c
    cases e : p.hand c; cases e' : p'.hand c
    rw [e, e'] at this
    exact congrArg Hand.mk (funext this)
  · intro a
    cases a with
    | moves l =>
      cases l with
      | nil => trivial
      | cons m l =>
        intro _ _
        refine ⟨1, rfl, fun _ => ⟨0, rfl, fun _ a => ?_⟩⟩
        cases a <;> trivial
    | _ => trivial

end

end Yasai.Props

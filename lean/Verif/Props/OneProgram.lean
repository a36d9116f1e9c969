import Verif.Props.Same
import Verif.Props.Wild
import Verif.Props.Contracts

/-!
# C97: no program can tell the builds apart
-/

namespace Yasai.Props

open Yasai Spec

/-- A program that calls the API with any arguments and goes on after panics it caught: a call that
panicked answers `none`. -/
inductive Caller (α : Type) where
  | done (a : α)
  | call (c : Cmd) (next : Option Answer → Caller α)

/-- What a call that may panic leaves. -/
def ofOutcome : Outcome → Option Answer × Position
  | .done p => (some .unit, p)
  | .panicked p => (none, p)

/-- One call under `catch_unwind`.  A query that panics leaves the position alone. -/
def execCaught (E : Env) (K : Backend) (p : Position) : Cmd → Option Answer × Position
  | .doMove m => ofOutcome (p.doMoveCaught E K m)
  | .undoMove m => ofOutcome (p.undoMoveCaught E K m)
  | c => ((exec E K p c).map (·.1), p)

/-- Runs a program; it always comes to its end. -/
def Caller.run {α : Type} (E : Env) (K : Backend) : Caller α → Position → α × Position
  | .done a, p => (a, p)
  | .call c next, p => (next (execCaught E K p c).1).run E K (execCaught E K p c).2

/-- The program never asks for the list of moves. -/
def Caller.NoLists {α : Type} : Caller α → Prop
  | .done _ => True
  | .call c next => c ≠ .legalMoves ∧ ∀ a, (next a).NoLists

theorem Anyhow.caught {E : Env} {K : Backend} {pp : CorePartialPosition} {p : Position}
    (h : Anyhow E K pp p) (c : Cmd) : Anyhow E K pp (execCaught E K p c).2 := by
  cases c with
  | doMove m =>
    show Anyhow E K pp (ofOutcome (p.doMoveCaught E K m)).2
    cases e : p.doMoveCaught E K m with
    | done p' => exact .doMove m h ((C61_statements E K p p' m).1.1 e)
    | panicked p' => exact .doMovePanicked m h e
  | undoMove m =>
    show Anyhow E K pp (ofOutcome (p.undoMoveCaught E K m)).2
    cases e : p.undoMoveCaught E K m with
    | done p' => exact .undoMove m h ((C61_statements E K p p' m).2.1 e)
    | panicked p' => exact .undoMovePanicked m h e
  | _ => exact h

/-- One call on two builds. -/
theorem execCaught_builds (E : Env) (i j : Fin 4) (J J' : Junk) {pp : CorePartialPosition}
    {p : Position} (h : Anyhow E (buildAt i J) pp p) (c : Cmd)
    (hl : c = .legalMoves → p.legalMoves E (buildAt i J) = p.legalMoves E (buildAt j J')) :
    execCaught E (buildAt i J) p c = execCaught E (buildAt j J') p c := by
  obtain ⟨h1, h2, h3, h4⟩ := (C60_any_calls E i j J J' pp p).2 h
  cases c with
  | doMove m => simp only [execCaught, h3]
  | undoMove m => simp only [execCaught, h4]
  | inCheck => simp only [execCaught, exec, h1]
  | isCheckMove m => simp only [execCaught, exec, h2]
  | legalMoves => simp only [execCaught, exec, hl rfl]
  | _ => rfl

theorem run_builds {α : Type} (E : Env) (i j : Fin 4) (J J' : Junk) {pp : CorePartialPosition}
    (prog : Caller α) : ∀ {p : Position}, Anyhow E (buildAt i J) pp p →
      (i ≠ 0 ∧ j ≠ 0 ∨ prog.NoLists) →
      prog.run E (buildAt i J) p = prog.run E (buildAt j J') p := by
  induction prog with
  | done a => intros; rfl
  | call c next ih =>
    intro p h hs
    have he : execCaught E (buildAt i J) p c = execCaught E (buildAt j J') p c :=
      execCaught_builds E i j J J' h c fun e => hs.elim
        (fun hs => C60_simd_legal_moves E i j hs.1 hs.2 J J' pp p h)
        (fun hs => (hs.1 e).elim)
    unfold Caller.run
    rw [← he]
    exact ih _ (h.caught c) (hs.imp id fun hs => hs.2 _)

theorem start_builds {α : Type} (E : Env) (i j : Fin 4) (J J' : Junk) (pp : CorePartialPosition)
    (prog : Caller α) (hs : i ≠ 0 ∧ j ≠ 0 ∨ prog.NoLists) :
    (Position.new E (buildAt i J) pp).map (prog.run E (buildAt i J)) =
      (Position.new E (buildAt j J') pp).map (prog.run E (buildAt j J')) := by
  rw [← (C51_builds_agree E _ _ (buildAt_mem i J) (buildAt_mem j J') pp).1]
  cases e : Position.new E (buildAt i J) pp with
  | none => rfl
  | some p => exact congrArg some (run_builds E i j J J' prog (.new e) hs)

/-- C97.  No program whatsoever can tell the x86_64, the aarch64 and the wasm32 build apart: it may
take any position to start, call anything with any arguments, choose each call by the answers so far,
and go on after panics.  The end result and the whole of the position at the end are the same. -/
theorem C97_simd {α : Type} (E : Env) (i j : Fin 4) (hi : i ≠ 0) (hj : j ≠ 0) (J J' : Junk)
    (pp : CorePartialPosition) (prog : Caller α) :
    (Position.new E (buildAt i J) pp).map (prog.run E (buildAt i J)) =
      (Position.new E (buildAt j J') pp).map (prog.run E (buildAt j J')) :=
  start_builds E i j J J' pp prog (.inl ⟨hi, hj⟩)

/-- C97.  A program that never calls `legal_moves` cannot tell any two of the four builds apart. -/
theorem C97_no_lists {α : Type} (E : Env) (i j : Fin 4) (J J' : Junk) (pp : CorePartialPosition)
    (prog : Caller α) (hprog : prog.NoLists) :
    (Position.new E (buildAt i J) pp).map (prog.run E (buildAt i J)) =
      (Position.new E (buildAt j J') pp).map (prog.run E (buildAt j J')) :=
  start_builds E i j J J' pp prog (.inr hprog)

/-- The client keeps the rules when the moves `ms` from the root `R` are in force (latest first): it
plays legal moves and takes back the last move.  Which moves are legal it may learn from
`legal_moves`. -/
def Client.Keeps {α : Type} (R : Pos) : List Move → Client α → Prop
  | _, .done _ => True
  | ms, .call (.doMove m) next => Legal (after R ms) m ∧ ∀ a, (next a).Keeps R (m :: ms)
  | ms, .call (.undoMove m) next => ms.head? = some m ∧ ∀ a, (next a).Keeps R ms.tail
  | ms, .call .legalMoves next =>
    ∀ l, (∀ m, m ∈ l ↔ Legal (after R ms) m) → (next (.moves l)).Keeps R ms
  | ms, .call _ next => ∀ a, (next a).Keeps R ms

theorem keeps_run {α : Type} (E : Env) (i j : Fin 4) (J J' : Junk) {pp : CorePartialPosition}
    (hv : Valid (rootView pp)) (prog : Client α) : ∀ {ms : List Move} {p : Position},
      Reached E (buildAt i J) pp ms p → prog.Keeps (rootView pp) ms →
      prog.run E (buildAt i J) p = prog.run E (buildAt j J') p := by
  have hK := buildAt_mem i J
  have hK' := buildAt_mem j J'
  induction prog with
  | done a => intros; rfl
  | call c next ih =>
    intro ms p h hk
    obtain ⟨h1, h2, h3, h4, h5, _, _⟩ := ((C24_backends_agree E _ _ hK hK' pp hv).2 ms p).2 h
    have hview := view_after hK h
    have he : exec E (buildAt i J) p c = exec E (buildAt j J') p c := by
      cases c with
      | doMove m => simp only [exec, h4]
      | undoMove m => simp only [exec, h5]
      | inCheck => simp only [exec, h1]
      | isCheckMove m => simp only [exec, h2]
      | legalMoves => simp only [exec, h3]
      | _ => rfl
    unfold Client.run
    rw [← he]
    cases e : exec E (buildAt i J) p c with
    | none => rfl
    | some x =>
      obtain ⟨a, p'⟩ := x
      have query : ∀ {β : Type} {o : Option β} {f : β → Answer},
          (o.map fun b => (f b, p)) = some (a, p') → p' = p ∧ ∃ b, o = some b ∧ a = f b := by
        intro β o f ho
        cases o with
        | none => cases ho
        | some b => cases ho; exact ⟨rfl, b, rfl, rfl⟩
      show (next a).run E (buildAt i J) p' = (next a).run E (buildAt j J') p'
      cases c with
      | doMove m =>
        simp only [exec, Option.map_eq_some_iff] at e
        obtain ⟨q, hq, e⟩ := e
        cases e
        exact ih _ (h.move (by rw [hview]; exact hk.1) hq) (hk.2 _)
      | undoMove m =>
        simp only [exec, Option.map_eq_some_iff] at e
        obtain ⟨q, hq, e⟩ := e
        cases e
        obtain ⟨hm, hk⟩ := hk
        cases ms with
        | nil => cases hm
        | cons m' ms =>
          cases hm
          obtain ⟨p0, h0, hs⟩ := h
          exact ih _ ⟨p0, h0, .undo hs hq⟩ (hk _)
      | legalMoves =>
        obtain ⟨rfl, l, hl, rfl⟩ := query e
        exact ih _ h (hk l (by rw [← hview]; exact (legalMoves_exact hK hv h hl).2))
      | pieceAt s => cases e; exact ih _ h (hk _)
      | hand c k => cases e; exact ih _ h (hk _)
      | sideToMove => cases e; exact ih _ h (hk _)
      | ply => cases e; exact ih _ h (hk _)
      | inCheck => obtain ⟨rfl, _⟩ := query e; exact ih _ h (hk _)
      | isCheckMove m => obtain ⟨rfl, _⟩ := query e; exact ih _ h (hk _)
      | keys => obtain ⟨rfl, _⟩ := query e; exact ih _ h (hk _)
      | key => obtain ⟨rfl, _⟩ := query e; exact ih _ h (hk _)

/-- C97.  A program that keeps the rules cannot tell any two of the four builds apart. -/
theorem C97_rules {α : Type} (E : Env) (i j : Fin 4) (J J' : Junk) (pp : CorePartialPosition)
    (hv : Valid (rootView pp)) (prog : Client α) (hprog : prog.Keeps (rootView pp) []) :
    (Position.new E (buildAt i J) pp).bind (prog.run E (buildAt i J)) =
      (Position.new E (buildAt j J') pp).bind (prog.run E (buildAt j J')) := by
  rw [← (C24_backends_agree E _ _ (buildAt_mem i J) (buildAt_mem j J') pp hv).1]
  cases e : Position.new E (buildAt i J) pp with
  | none => rw [Option.bind_none, Option.bind_none]
  | some p =>
    rw [Option.bind_some, Option.bind_some]
    exact keeps_run E i j J J' hv prog ⟨p, e, .start⟩ hprog

/-! ## Concrete cases -/

section
open Yasai.Examples

/-- Drops a gold that is not there, catches the panic, takes back a move that was not made, asks for
the moves and plays the first of them the wrong way round. -/
def vandal : Caller (Nat × Bool) :=
  .call (.doMove (.drop (sq 5 5) ⟨.gold, .black⟩)) fun a =>
  .call (.undoMove (.normal (sq 7 7) (sq 7 6) false)) fun _ =>
  .call .legalMoves fun
    | some (.moves (.normal frm to pr :: l)) =>
      .call (.doMove (.normal to frm pr)) fun b => .done (l.length, a.isNone && b.isNone)
    | _ => .done (0, a.isNone)

/-- One build run, the other two follow. -/
theorem C97_example : ∃ n, 1 < n ∧ ∀ i : Fin 4, i ≠ 0 → ∀ J,
    ((Position.new env0 (buildAt i J) startpos).map (vandal.run env0 (buildAt i J))).map (·.1) =
      some (n, true) := by
  have h : (((Position.new env0 (buildAt 1 Junk.zero) startpos).map
      (vandal.run env0 (buildAt 1 Junk.zero))).any fun r => decide (1 < r.1.1) && r.1.2) = true := by
    decide +kernel
  simp only [Option.any_eq_true, Bool.and_eq_true, decide_eq_true_eq] at h
  obtain ⟨⟨⟨n, b⟩, p⟩, h1, h2, h3⟩ := h
  have h3 : b = true := h3
  subst h3
  refine ⟨n, h2, fun i hi J => ?_⟩
  rw [C97_simd env0 i 1 hi (by decide) J Junk.zero, h1]
  rfl

/-- Asks for the number of moves. -/
def census : Caller Nat :=
  .call .legalMoves fun
    | some (.moves l) => .done l.length
    | _ => .done 0

/-- The portable build does count otherwise where a pawn stands on its last rank: `legal_moves` must
be left out of C97 there. -/
theorem C97_portable_differs :
    ((Position.new env0 (buildAt 0 Junk.zero) deadPawn).map
      (census.run env0 (buildAt 0 Junk.zero))).map (·.1) ≠
    ((Position.new env0 (buildAt 1 Junk.zero) deadPawn).map
      (census.run env0 (buildAt 1 Junk.zero))).map (·.1) := by
  decide +kernel

/-- Plays the first listed move, asks for the key, takes the move back and asks again. -/
def careful : Client (BitVec 64 × BitVec 64) :=
  .call .legalMoves fun
    | .moves (m :: _) => .call (.doMove m) fun _ => .call .key fun
      | .key k => .call (.undoMove m) fun _ => .call .key fun
        | .key k' => .done (k, k')
        | _ => .done (k, k)
      | _ => .done (0#64, 0#64)
    | _ => .done (0#64, 0#64)

theorem careful_keeps (R : Pos) : careful.Keeps R [] := by
  intro l hl
  cases l with
  | nil => trivial
  | cons m l =>
    refine ⟨(hl m).1 List.mem_cons_self, fun _ a => ?_⟩
    cases a with
    | key k => exact ⟨rfl, fun _ a => by cases a <;> trivial⟩
    | _ => trivial

/-- The same answers on all four builds. -/
example : ∃ k k', k ≠ k' ∧ ∀ (i : Fin 4) J,
    ((Position.new env0 (buildAt i J) skirmish).bind (careful.run env0 (buildAt i J))).map (·.1) =
      some (k, k') := by
  have h : (((Position.new env0 (buildAt 0 Junk.zero) skirmish).bind
      (careful.run env0 (buildAt 0 Junk.zero))).any fun r => r.1.1 != r.1.2) = true := by
    decide +kernel
  simp only [Option.any_eq_true, bne_iff_ne] at h
  obtain ⟨⟨⟨k, k'⟩, p⟩, h1, h2⟩ := h
  refine ⟨k, k', h2, fun i J => ?_⟩
  rw [C97_rules env0 i 0 J Junk.zero skirmish skirmish_valid careful (careful_keeps _), h1]
  rfl

end

end Yasai.Props

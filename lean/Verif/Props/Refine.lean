import Verif.Props.Capacity
import Verif.Props.Keys

/-!
# C39: the API is a refinement of the rules

The abstract machine knows only the root position and the list of moves in force.
-/

namespace Yasai.Props

open Yasai Spec

/-- The position after a list of moves (last move first), by the rules. -/
def after (P : Pos) : List Move → Pos
  | [] => P
  | m :: ms => apply (after P ms) m

/-- The public calls on a `Position`. -/
inductive Cmd where
  | doMove (m : Move)
  | undoMove (m : Move)
  | pieceAt (s : Square)
  | hand (c : Color) (k : PieceKind)
  | sideToMove
  | ply
  | inCheck
  | isCheckMove (m : Move)
  | legalMoves
  | keys
  | key

/-- What a call returns. -/
inductive Answer where
  | unit
  | piece (o : Option Piece)
  | count (n : Nat)
  | color (c : Color)
  | ply (n : BitVec 16)
  | bool (b : Bool)
  | moves (l : List Move)
  | keys (k : BitVec 64 × BitVec 64)
  | key (k : BitVec 64)

/-- The implementation: one call.  `none` is a panic. -/
def exec (E : Env) (K : Backend) (p : Position) : Cmd → Option (Answer × Position)
  | .doMove m => (p.doMove E K m).map fun p' => (.unit, p')
  | .undoMove m => (p.undoMove E K m).map fun p' => (.unit, p')
  | .pieceAt s => some (.piece (p.pieceAt s), p)
  | .hand c k => some (.count (((p.hand c).count k).getD 0), p)
  | .sideToMove => some (.color p.sideToMove, p)
  | .ply => some (.ply p.ply, p)
  | .inCheck => (p.inCheck K).map fun b => (.bool b, p)
  | .isCheckMove m => (p.isCheckMove K m).map fun b => (.bool b, p)
  | .legalMoves => (p.legalMoves E K).map fun l => (.moves l, p)
  | .keys => p.keys.map fun k => (.keys k, p)
  | .key => p.key.map fun k => (.key k, p)

/-- The implementation: a list of calls, with the list of their answers. -/
def execAll (E : Env) (K : Backend) : Position → List Cmd → Option (List Answer × Position)
  | p, [] => some ([], p)
  | p, c :: cs => do
    let (a, p') ← exec E K p c
    let (as, p'') ← execAll E K p' cs
    pure (a :: as, p'')

/-- The calls the contract allows in the position `P` when the moves `ms` are in force. -/
def Allowed (P : Pos) (ms : List Move) : Cmd → Prop
  | .doMove m => Legal P m
  | .undoMove m => ms.head? = some m
  | .isCheckMove m => Legal P m
  | _ => True

/-- The moves in force after a call. -/
def nextMoves (ms : List Move) : Cmd → List Move
  | .doMove m => m :: ms
  | .undoMove _ => ms.tail
  | _ => ms

/-- The answers required by the rules, in the position `P` reached from a root with ply number `n0`
by the moves `ms`, for the Zobrist tables of `E`. -/
def Required (E : Env) (n0 : BitVec 16) (P : Pos) (ms : List Move) : Cmd → Answer → Prop
  | .doMove _, a => a = .unit
  | .undoMove _, a => a = .unit
  | .pieceAt s, a => a = .piece (P.board s)
  | .hand c k, a => a = .count (P.hand c k)
  | .sideToMove, a => a = .color P.side
  | .ply, a => a = .ply (n0 + BitVec.ofNat 16 ms.length)
  | .inCheck, a => ∃ b, a = .bool b ∧ (b = true ↔ InCheck P.board P.side)
  | .isCheckMove m, a => ∃ b, a = .bool b ∧ (b = true ↔ InCheck (apply P m).board P.side.flip)
  | .legalMoves, a => ∃ l, a = .moves l ∧ l.Nodup ∧ ∀ m, m ∈ l ↔ Legal P m
  | .keys, a => a = .keys
      (boardHash E.zobBoard P.board ^^^ (if ms.length % 2 = 1 then 1#64 else 0#64),
        handHash (fun c k n => (E.zobHand c k n).getD 0#64) P.hand)
  | .key, a => a = .key
      (boardHash E.zobBoard P.board ^^^ (if ms.length % 2 = 1 then 1#64 else 0#64) ^^^
        handHash (fun c k n => (E.zobHand c k n).getD 0#64) P.hand)

/-- A list of calls is within the contract. -/
def AllowedAll (root : Pos) : List Move → List Cmd → Prop
  | _, [] => True
  | ms, c :: cs => Allowed (after root ms) ms c ∧ AllowedAll root (nextMoves ms c) cs

/-- A list of answers is as required by the rules. -/
def RequiredAll (E : Env) (n0 : BitVec 16) (root : Pos) : List Move → List Cmd → List Answer → Prop
  | _, [], as => as = []
  | ms, c :: cs, as => ∃ a as', as = a :: as' ∧ Required E n0 (after root ms) ms c a ∧
      RequiredAll E n0 root (nextMoves ms c) cs as'

/-- The position of the implementation is the one of the abstract machine. -/
theorem view_after {E : Env} {K : Backend} (hK : K ∈ backends) {pp : CorePartialPosition}
    {ms : List Move} {p : Position} (h : Reached E K pp ms p) : view p = after (rootView pp) ms := by
  obtain ⟨p0, h0, hs⟩ := h
  have hp := hs.play hK (fun _ _ h => shape_of_legal h)
  clear hs
  induction hp with
  | start => exact view_new hK h0
  | move _ _ hm ih => rw [(C03_do_move_is_rules E K _ _ _ hm).1, ih, after]

theorem refine_step (E : Env) (K : Backend) (hK : K ∈ backends) (pp : CorePartialPosition)
    (hst : Standard (rootView pp)) (ms : List Move) (p : Position) (h : Reached E K pp ms p)
    (hply : E.overflowChecks = true → p.ply ≠ 65535#16) (c : Cmd)
    (hc : Allowed (after (rootView pp) ms) ms c) :
    ∃ a p', exec E K p c = some (a, p') ∧ Reached E K pp (nextMoves ms c) p' ∧
      Required E pp.ply (after (rootView pp) ms) ms c a := by
  have hview := view_after hK h
  rw [← hview] at hc ⊢
  have hsess := h
  obtain ⟨p0, h0, hs⟩ := hsess
  have hshape := hs.mono fun _ _ h => shape_of_legal h
  have hkeys := C17_incremental_hash E K hK pp p0 p ms h0 hshape
  obtain ⟨_, _, _, _, _, hdo, hun⟩ := C21_calls_return E K hK pp hst ms p h
  cases c with
  | doMove m =>
    obtain ⟨p', hp'⟩ := hdo m ((listed_iff hK hst h m).2 hc) hply
    exact ⟨.unit, p', by simp only [exec, hp', Option.map_some], h.move hc hp', rfl⟩
  | undoMove m =>
    cases ms with
    | nil => cases hc
    | cons m' ms =>
      cases hc
      obtain ⟨p', hp'⟩ := hun m ms rfl
      exact ⟨.unit, p', by simp only [exec, hp', Option.map_some], ⟨p0, h0, hs.undo hp'⟩, rfl⟩
  | pieceAt s => exact ⟨_, p, rfl, h, rfl⟩
  | hand c k => exact ⟨_, p, rfl, h, rfl⟩
  | sideToMove => exact ⟨_, p, rfl, h, rfl⟩
  | ply =>
    refine ⟨_, p, rfl, h, ?_⟩
    rw [(C34_ply E K hK p0 p ms hshape).1, (C35_new_reproduces E K hK pp p0 h0).2.2.2]
    rfl
  | inCheck =>
    obtain ⟨b, hb, hbc⟩ := C08_in_check_exact E K hK pp hst.valid ms p h
    exact ⟨.bool b, p, by simp only [exec, hb, Option.map_some], h, b, rfl, hbc⟩
  | isCheckMove m =>
    obtain ⟨b, hb, hbc, _⟩ := C09_is_check_move_exact E K hK pp hst.valid ms p h m hc
    exact ⟨.bool b, p, by simp only [exec, hb, Option.map_some], h, b, rfl, hbc⟩
  | legalMoves =>
    obtain ⟨l, hl, _, hn, hmem⟩ := C22_legal_moves_total E K hK pp hst ms p h
    exact ⟨.moves l, p, by simp only [exec, hl, Option.map_some], h, l, rfl, hn, hmem⟩
  | keys => exact ⟨_, p, by simp only [exec, hkeys, Option.map_some]; rfl, h, rfl⟩
  | key =>
    have hkey : p.key = p.keys.map fun k => k.1 ^^^ k.2 := by
      unfold Position.key Position.keys
      cases p.state <;> rfl
    exact ⟨_, p, by simp only [exec, hkey, hkeys, Option.map_some]; rfl, h, rfl⟩

/-- C39.  Every list of calls within the contract, from a standard root, runs without panic, and
every answer is the one the rules require in the position given by the root and the moves in force.
(With overflow checks the ply counter must not be able to overflow.) -/
theorem C39_api_refines_rules (E : Env) (K : Backend) (hK : K ∈ backends)
    (pp : CorePartialPosition) (hst : Standard (rootView pp)) (cmds : List Cmd)
    (hc : AllowedAll (rootView pp) [] cmds)
    (hply : E.overflowChecks = true → pp.ply.toNat + cmds.length ≤ 65535) :
    ∃ p0 as p, Position.new E K pp = some p0 ∧ execAll E K p0 cmds = some (as, p) ∧
      RequiredAll E pp.ply (rootView pp) [] cmds as := by
  obtain ⟨p0, h0, _⟩ := C21_no_panic E K hK pp hst [] (fun hE => by
    have := hply hE
    have h2 := pp.ply.isLt
    simp only [List.length_nil]; omega)
  suffices go : ∀ (cmds : List Cmd) (ms : List Move) (p : Position), Reached E K pp ms p →
      AllowedAll (rootView pp) ms cmds →
      (E.overflowChecks = true → pp.ply.toNat + ms.length + cmds.length ≤ 65535) →
      ∃ as p', execAll E K p cmds = some (as, p') ∧
        RequiredAll E pp.ply (rootView pp) ms cmds as by
    obtain ⟨as, p, h1, h2⟩ := go cmds [] p0 ⟨p0, h0, .start⟩ hc (by simpa using hply)
    exact ⟨p0, as, p, h0, h1, h2⟩
  intro cmds
  induction cmds with
  | nil => intro ms p _ _ _; exact ⟨[], p, rfl, rfl⟩
  | cons c cs ih =>
    intro ms p h hc hply
    obtain ⟨a, p', h1, h2, h3⟩ := refine_step E K hK pp hst ms p h (by
      intro hE e
      have h1 := reached_ply hK h hE
      have h2 := hply hE
      rw [e] at h1
      simp only [List.length_cons] at h2
      have : (65535#16).toNat = 65535 := rfl
      omega) c hc.1
    obtain ⟨as, p'', h4, h5⟩ := ih (nextMoves ms c) p' h2 hc.2 (by
      intro hE
      have := hply hE
      have hl : (nextMoves ms c).length ≤ ms.length + 1 := by
        cases c <;> simp only [nextMoves, List.length_cons, List.length_tail] <;> omega
      simp only [List.length_cons] at this
      omega)
    refine ⟨a :: as, p'', ?_, a, as, rfl, h3, h5⟩
    simp only [execAll, h1, Option.bind_eq_bind, Option.bind_some, h4, Option.pure_def]

section
open Yasai.Examples

/-- A list of calls within the contract: an opening move, a reply, taking it back, and questions. -/
example : AllowedAll (rootView startpos) [] [.legalMoves, .doMove (.normal (sq 7 7) (sq 7 6) false),
    .inCheck, .doMove (.normal (sq 3 3) (sq 3 4) false), .isCheckMove
      (.normal (sq 8 8) (sq 2 2) true), .undoMove (.normal (sq 3 3) (sq 3 4) false), .keys] := by
  refine ⟨trivial, ?_, trivial, ?_, ?_, rfl, trivial, trivial⟩
  · show Legal (rootView startpos) _
    decide +kernel
  · show Legal (apply (rootView startpos) _) _
    decide +kernel
  · show Legal (apply (apply (rootView startpos) _) _) _
    decide +kernel

end

end Yasai.Props

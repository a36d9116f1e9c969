import Verif.Props.Perft
import Verif.Proofs.AgreeAny

/-!
# C16, C24: independence of the history and of the bitboard backend
-/

namespace Yasai.Props

open Yasai Spec

/-- Two positions reached by any two histories that show the same board, hands and side behave
alike. -/
theorem C16_two_histories (E E' : Env) (K : Backend) (hK : K ∈ backends)
    (pp pp' : CorePartialPosition) (hv : Valid (rootView pp)) (hv' : Valid (rootView pp'))
    (ms ms' : List Move) (p p' : Position) (h : Reached E K pp ms p) (h' : Reached E' K pp' ms' p')
    (hview : view p' = view p) :
    p'.inCheck K = p.inCheck K ∧ (∀ m, p'.isCheckMove K m = p.isCheckMove K m) ∧
    p'.legalMoves E' K = p.legalMoves E K := by
  have hl := lawful_of_mem hK
  obtain ⟨hi, hp⟩ := reached_inv hK hv h
  obtain ⟨hi', hp'⟩ := reached_inv hK hv' h'
  exact ⟨inCheck_same hl hl hi' hi hview, isCheckMove_same hl hl hi' hi hview,
    legalMoves_same hl hl hi' hi hview hp'⟩

/-- C16.  A position reached by any history answers every query like `Position::new` on the same
board, hands and side: the caches carry no trace of the history.  The ply counter and the key tables
may differ. -/
theorem C16_history_independent (E E' : Env) (K : Backend) (hK : K ∈ backends)
    (pp pp' : CorePartialPosition) (hv : Valid (rootView pp)) (ms : List Move) (p p0 : Position)
    (h : Reached E K pp ms p) (hboard : ∀ s, pp'.board s = p.pieceAt s)
    (hhand : ∀ c, pp'.hands c = p.hand c) (hside : pp'.side = p.sideToMove)
    (h0 : Position.new E' K pp' = some p0) :
    (∀ s, p0.pieceAt s = p.pieceAt s) ∧ (∀ c, p0.hand c = p.hand c) ∧
    p0.sideToMove = p.sideToMove ∧ p0.inCheck K = p.inCheck K ∧
    (∀ m, p0.isCheckMove K m = p.isCheckMove K m) ∧ p0.legalMoves E' K = p.legalMoves E K := by
  obtain ⟨h1, h2, h3, _⟩ := C35_new_reproduces E' K hK pp' p0 h0
  have hview : rootView pp' = view p := by
    unfold view rootView
    congr 1
    · funext s; exact hboard s
    · funext c k; rw [hhand]
  refine ⟨fun s => (h1 s).trans (hboard s), fun c => (h2 c).trans (hhand c), h3.trans hside, ?_⟩
  exact C16_two_histories E E' K hK pp pp' hv (by rw [hview]; exact (reached_inv hK hv h).2) ms []
    p p0 h ⟨p0, h0, .start⟩ ((view_new hK h0).trans hview)

section
variable {E : Env} {K K' : Backend} {pp : CorePartialPosition} {ms : List Move} {p : Position}

theorem reached_agree (hK : K ∈ backends) (hK' : K' ∈ backends) (hv : Valid (rootView pp))
    (h : Reached E K pp ms p) : Reached E K' pp ms p := by
  obtain ⟨p0, h0, hs⟩ := h
  have hp := hs.play hK (fun _ _ h => shape_of_legal h)
  have h0' : Position.new E K' pp = some p0 := by
    rw [← new_agree (lawful_of_mem hK) (lawful_of_mem hK')]; exact h0
  refine ⟨p0, h0', Play.session ?_⟩
  clear hs
  induction hp with
  | start => exact .start
  | move hpl ha hm ih =>
    have hi := (reached_inv hK hv ⟨p0, h0, hpl.session⟩).1
    refine .move ih ha ?_
    rw [← doMove_any (lawful_of_mem hK) (lawful_of_mem hK') E hi.1]
    exact hm

theorem doMove_reached_agree (hK : K ∈ backends) (hK' : K' ∈ backends) (hv : Valid (rootView pp))
    (h : Reached E K pp ms p) (m : Move) : p.doMove E K m = p.doMove E K' m :=
  doMove_any (lawful_of_mem hK) (lawful_of_mem hK') E (reached_inv hK hv h).1.1 m

theorem legalMoves_reached_agree (hK : K ∈ backends) (hK' : K' ∈ backends)
    (hv : Valid (rootView pp)) (h : Reached E K pp ms p) (E' : Env) :
    p.legalMoves E' K = p.legalMoves E' K' := by
  obtain ⟨hi, hp⟩ := reached_inv hK hv h
  exact legalMoves_same (lawful_of_mem hK) (lawful_of_mem hK') hi
    (inv_agree (lawful_of_mem hK) (lawful_of_mem hK') hi) rfl hp

theorem perftStep_agree (hK : K ∈ backends) (hK' : K' ∈ backends) (hv : Valid (rootView pp))
    (h : Reached E K pp ms p) {m : Move} (hl : Legal (view p) m)
    {rec rec' : Position → Option (Nat × Position)}
    (hrec : ∀ p', Reached E K pp (m :: ms) p' →
      rec p' = rec' p' ∧ ∀ n q, rec p' = some (n, q) → q = p') :
    perftStep E K p m rec = perftStep E K' p m rec' ∧
    ∀ n q, perftStep E K p m rec = some (n, q) → q = p := by
  unfold perftStep
  rw [doMove_reached_agree hK hK' hv h]
  cases hd : p.doMove E K' m with
  | none => exact ⟨rfl, fun n q e => by cases e⟩
  | some p' =>
    have hd' : p.doMove E K m = some p' := by
      rw [doMove_reached_agree hK hK' hv h]; exact hd
    obtain ⟨h1, h2⟩ := hrec p' (h.move hl hd')
    have hu := C01_undo_inverts_do E K hK _ _ _ (shape_drops (shape_of_legal hl)) hd'
    simp only [Option.bind_eq_bind, Option.bind_some,
      undoMove_agree (lawful_of_mem hK) (lawful_of_mem hK'), ← h1]
    refine ⟨trivial, fun n q e => ?_⟩
    simp only [Option.bind_eq_some_iff, Option.pure_def] at e
    obtain ⟨⟨n1, q1⟩, hr, q2, hu2, e⟩ := e
    cases e
    cases h2 _ _ hr
    rw [← undoMove_agree (lawful_of_mem hK) (lawful_of_mem hK')] at hu2
    simp only at hu2
    rw [hu] at hu2
    cases hu2
    rfl

theorem perftFold_agree (hK : K ∈ backends) (hK' : K' ∈ backends) (hv : Valid (rootView pp))
    (h : Reached E K pp ms p) {rec rec' : Position → Option (Nat × Position)}
    (hrec : ∀ m p', Reached E K pp (m :: ms) p' →
      rec p' = rec' p' ∧ ∀ n q, rec p' = some (n, q) → q = p')
    (l : List Move) (hl : ∀ m ∈ l, Legal (view p) m) (a : Nat) :
    l.foldlM (fun (acc : Nat × Position) m => do
      let (n, q) ← perftStep E K acc.2 m rec
      pure (acc.1 + n, q)) (a, p) =
    l.foldlM (fun (acc : Nat × Position) m => do
      let (n, q) ← perftStep E K' acc.2 m rec'
      pure (acc.1 + n, q)) (a, p) := by
  induction l generalizing a with
  | nil => rfl
  | cons m l ih =>
    obtain ⟨h1, h2⟩ := perftStep_agree hK hK' hv h (hl m List.mem_cons_self) (hrec m)
    rw [List.foldlM_cons, List.foldlM_cons]
    simp only [← h1]
    cases hs : perftStep E K p m rec with
    | none => rfl
    | some r =>
      obtain ⟨n, q⟩ := r
      cases h2 _ _ hs
      exact ih (fun m hm => hl m (List.mem_cons_of_mem _ hm)) _

theorem perftTest_agree (hK : K ∈ backends) (hK' : K' ∈ backends) (hv : Valid (rootView pp))
    (d : Nat) (h : Reached E K pp ms p) : perftTest E K d p = perftTest E K' d p := by
  induction d generalizing ms p with
  | zero => rfl
  | succ d ih =>
    unfold perftTest
    rw [← legalMoves_reached_agree hK hK' hv h]
    cases hl : p.legalMoves E K with
    | none => rfl
    | some l =>
      exact perftFold_agree hK hK' hv h (fun m p' hr => ⟨ih hr, fun n q hq =>
        (C31_perft_test E K hK pp hv d _ p' hr n q hq).1⟩) l
        (fun m hm => ((legalMoves_exact hK hv h hl).2 m).1 hm) 0

theorem perft_agree (hK : K ∈ backends) (hK' : K' ∈ backends) (hv : Valid (rootView pp))
    (d : Nat) (h : Reached E K pp ms p) : perft E K d p = perft E K' d p := by
  induction d using Nat.strongRecOn generalizing ms p with
  | _ d ih =>
    unfold perft
    rw [← legalMoves_reached_agree hK hK' hv h]
    cases hl : p.legalMoves E K with
    | none => rfl
    | some l =>
      have hm : ∀ m ∈ l, Legal (view p) m := fun m hm => ((legalMoves_exact hK hv h hl).2 m).1 hm
      match d, ih with
      | 0, _ => rfl
      | 1, _ => rfl
      | 2, _ =>
        refine perftFold_agree hK hK' hv h (fun m p' hr => ⟨?_, fun n q hq => ?_⟩) l hm 0
        · rw [legalMoves_reached_agree hK hK' hv hr]
        · simp only [Option.bind_eq_bind, Option.bind_eq_some_iff, Option.pure_def] at hq
          obtain ⟨_, _, e⟩ := hq
          cases e
          rfl
      | d + 3, ih =>
        exact perftFold_agree hK hK' hv h (fun m p' hr => ⟨ih (d + 2) (by omega) hr, fun n q hq =>
          (C31_perft E K hK pp hv (d + 2) _ p' hr n q hq).1⟩) l hm 0

end

/-- C24.  All bitboard backends behave alike: `Position::new` gives the same value, the same
histories are possible and lead to the same positions, and in every position reached every call
gives the same result (also the same panics), the order of `legal_moves()` included. -/
theorem C24_backends_agree (E : Env) (K K' : Backend) (hK : K ∈ backends) (hK' : K' ∈ backends)
    (pp : CorePartialPosition) (hv : Valid (rootView pp)) :
    Position.new E K pp = Position.new E K' pp ∧
    ∀ ms p, (Reached E K pp ms p ↔ Reached E K' pp ms p) ∧
      (Reached E K pp ms p →
        p.inCheck K = p.inCheck K' ∧ (∀ m, p.isCheckMove K m = p.isCheckMove K' m) ∧
        p.legalMoves E K = p.legalMoves E K' ∧
        (∀ m, p.doMove E K m = p.doMove E K' m) ∧
        (∀ m, p.undoMove E K m = p.undoMove E K' m) ∧
        (∀ d, perft E K d p = perft E K' d p) ∧
        (∀ d, perftTest E K d p = perftTest E K' d p)) := by
  have hl := lawful_of_mem hK
  have hl' := lawful_of_mem hK'
  refine ⟨new_agree hl hl' E pp, fun ms p =>
    ⟨⟨reached_agree hK hK' hv, reached_agree hK' hK hv⟩, fun h => ?_⟩⟩
  obtain ⟨hi, hp⟩ := reached_inv hK hv h
  have hi' := inv_agree hl hl' hi
  exact ⟨inCheck_same hl hl' hi hi' rfl, isCheckMove_same hl hl' hi hi' rfl,
    legalMoves_reached_agree hK hK' hv h E, doMove_reached_agree hK hK' hv h,
    undoMove_agree hl hl' E p, fun d => perft_agree hK hK' hv d h,
    fun d => perftTest_agree hK hK' hv d h⟩

/-! ## Concrete cases -/

section
open Yasai.Examples

/-- The partial position shown by a position. -/
def snapshot (p : Position) : CorePartialPosition where
  side := p.sideToMove
  ply := 1#16
  hands := p.hand
  board := p.pieceAt

theorem skirmish_valid' : Valid (rootView skirmish) := by decide +kernel

/-- C16 is not vacuous: `skirmish` after a capture. -/
example : ∃ p p0, Reached env0 CoreBB.backend skirmish [.normal (sq 2 8) (sq 2 3) true] p ∧
    Position.new env0 CoreBB.backend (snapshot p) = some p0 ∧ p0.inner.ply ≠ p.inner.ply := by
  have h : (Position.new env0 CoreBB.backend skirmish).any (fun p =>
      (p.legalMoves env0 CoreBB.backend).any (fun l =>
        l.contains (.normal (sq 2 8) (sq 2 3) true) &&
      (p.doMove env0 CoreBB.backend (.normal (sq 2 8) (sq 2 3) true)).any (fun p' =>
        (Position.new env0 CoreBB.backend (snapshot p')).any (fun p0 =>
          p0.inner.ply != p'.inner.ply)))) = true := by decide +kernel
  simp only [Option.any_eq_true, Bool.and_eq_true, bne_iff_ne, ne_eq,
    List.contains_iff_mem] at h
  obtain ⟨p, hp, l, hl, hm, p', hd, p0, h0, hne⟩ := h
  have hr : Reached env0 CoreBB.backend skirmish [] p := ⟨p, hp, .start⟩
  exact ⟨p', p0, hr.move (((legalMoves_exact core_mem skirmish_valid' hr hl).2 _).1 hm)
    hd, h0, hne⟩

end

end Yasai.Props

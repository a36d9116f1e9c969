import Verif.Props.Refine
import Verif.Proofs.Agree
import Verif.Spec.Start

/-!
# C43, C44, C46: the default position, the last move, and the per-move counts of perft
-/

namespace Yasai.Props

open Yasai Spec

/-! ## The per-move counts -/

section
variable {E : Env} {K : Backend} {pp : CorePartialPosition} {ms : List Move} {p : Position}

theorem divideFold (step : Position → Move → Option (Nat × Position)) (c : Move → Nat)
    (l : List Move) (hl : ∀ m ∈ l, step p m = some (c m, p)) (ls : List (Move × Nat)) (a : Nat) :
    l.foldlM (fun (acc : List (Move × Nat) × Nat × Position) m => do
      let (count, q) ← step acc.2.2 m
      pure (acc.1 ++ [(m, count)], acc.2.1 + count, q)) (ls, a, p) =
      some (ls ++ l.map (fun m => (m, c m)), a + (l.map c).sum, p) := by
  induction l generalizing ls a with
  | nil => simp
  | cons m l ih =>
    rw [List.foldlM_cons, hl m List.mem_cons_self]
    simp only [Option.bind_eq_bind, Option.bind_some, Option.pure_def]
    refine (ih (fun m hm => hl m (List.mem_cons_of_mem _ hm)) _ _).trans ?_
    simp only [List.map_cons, List.sum_cons, List.append_assoc, List.singleton_append, Nat.add_assoc]

theorem plainFold (step : Position → Move → Option (Nat × Position)) (c : Move → Nat)
    (l : List Move) (hl : ∀ m ∈ l, step p m = some (c m, p)) (a : Nat) :
    l.foldlM (fun (acc : Nat × Position) m => do
      let (count, q) ← step acc.2 m
      pure (acc.1 + count, q)) (a, p) = some (a + (l.map c).sum, p) := by
  induction l generalizing a with
  | nil => simp
  | cons m l ih =>
    rw [List.foldlM_cons, hl m List.mem_cons_self]
    simp only [Option.bind_eq_bind, Option.bind_some, Option.pure_def]
    refine (ih (fun m hm => hl m (List.mem_cons_of_mem _ hm)) _).trans ?_
    simp only [List.map_cons, List.sum_cons, Nat.add_assoc]

/-- One step of the loop returns and counts the games after its move. -/
theorem perftStep_total (hK : K ∈ backends) (hst : Standard (rootView pp))
    (h : Reached E K pp ms p) (hply : E.overflowChecks = true → p.ply.toNat + 1 ≤ 65535)
    {rec : Position → Option (Nat × Position)} (d : Nat)
    (hrec : ∀ m p', Reached E K pp (m :: ms) p' → ∃ n, rec p' = some (n, p') ∧
      GameCount (view p') d n)
    {l : List Move} (hl : p.legalMoves E K = some l) (m : Move) (hm : m ∈ l) :
    ∃ n, perftStep E K p m rec = some (n, p) ∧ GameCount (apply (view p) m) d n := by
  have hleg := ((legalMoves_exact hK hst.valid h hl).2 m).1 hm
  obtain ⟨_, _, _, _, _, hdo, _⟩ := C21_calls_return E K hK pp hst ms p h
  obtain ⟨p', hp'⟩ := hdo m ⟨l, hl, hm⟩ (by
    intro hE e
    have := hply hE
    rw [e] at this
    have e2 : (65535#16).toNat = 65535 := rfl
    omega)
  obtain ⟨n, hn, hc⟩ := hrec m p' (h.move hleg hp')
  have hu := C01_undo_inverts_do E K hK _ _ _ (shape_drops (shape_of_legal hleg)) hp'
  refine ⟨n, ?_, ?_⟩
  · simp only [perftStep, hp', Option.bind_eq_bind, Option.bind_some, hn, hu, Option.pure_def]
  · rw [← (C03_do_move_is_rules E K p _ m hp').1]; exact hc

end

/-- C46.  With `is_root` the example prints one line for every legal move, in the order of
`legal_moves`; the number on a line is the number of games that start with that move; the numbers
add up to the returned total, which is the result of `perft` without `is_root`; the position is
left as it was. -/
theorem C46_perft_divide (E : Env) (K : Backend) (hK : K ∈ backends) (pp : CorePartialPosition)
    (hst : Standard (rootView pp)) (d : Nat) (ms : List Move) (p : Position)
    (h : Reached E K pp ms p) (hply : E.overflowChecks = true → p.ply.toNat + d ≤ 65535) :
    ∃ lines n, perftRoot E K d p = some (lines, n, p) ∧
      p.legalMoves E K = some (lines.map Prod.fst) ∧
      (∀ x ∈ lines, GameCount (apply (view p) x.1) (max d 1 - 1) x.2) ∧
      n = (lines.map Prod.snd).sum ∧ perft E K d p = some (n, p) := by
  obtain ⟨l, hl, _⟩ := C22_legal_moves_total E K hK pp hst ms p h
  -- the general shape of the loop
  have go : ∀ (step : Position → Move → Option (Nat × Position)) (d : Nat),
      (∀ m ∈ l, ∃ n, step p m = some (n, p) ∧ GameCount (apply (view p) m) d n) →
      ∃ lines n, l.foldlM (fun (acc : List (Move × Nat) × Nat × Position) m => do
          let (count, q) ← step acc.2.2 m
          pure (acc.1 ++ [(m, count)], acc.2.1 + count, q)) ([], 0, p) = some (lines, n, p) ∧
        lines.map Prod.fst = l ∧ (∀ x ∈ lines, GameCount (apply (view p) x.1) d x.2) ∧
        n = (lines.map Prod.snd).sum ∧
        l.foldlM (fun (acc : Nat × Position) m => do
          let (count, q) ← step acc.2 m
          pure (acc.1 + count, q)) (0, p) = some (n, p) := by
    intro step d hstep
    let c : Move → Nat := fun m => ((step p m).map Prod.fst).getD 0
    have hc : ∀ m ∈ l, step p m = some (c m, p) := by
      intro m hm
      obtain ⟨n, hn, _⟩ := hstep m hm
      simp only [c, hn, Option.map_some, Option.getD_some]
    refine ⟨_, _, divideFold step c l hc [] 0, ?_, ?_, ?_, plainFold step c l hc 0⟩
    · simp [Function.comp_def]
    · intro x hx
      rw [List.nil_append, List.mem_map] at hx
      obtain ⟨m, hm, rfl⟩ := hx
      obtain ⟨n, hn, hg⟩ := hstep m hm
      rw [hc m hm] at hn
      cases hn
      exact hg
    · simp [Function.comp_def]
  match d, hply with
  | 0, _ =>
    obtain ⟨lines, n, h1, h2, h3, h4, h5⟩ := go (fun q _ => pure (1, q)) 0
      (fun m _ => ⟨1, rfl, gameCount_zero _⟩)
    refine ⟨lines, n, ?_, by rw [h2]; exact hl, h3, h4, ?_⟩
    · simp only [perftRoot, hl]; exact h1
    · simp only [perft, hl]
      rw [plainFold (fun q _ => pure (1, q)) (fun _ => 1) l (fun _ _ => rfl)] at h5
      cases h5
      simp [List.map_const']
  | 1, _ =>
    obtain ⟨lines, n, h1, h2, h3, h4, h5⟩ := go (fun q _ => pure (1, q)) 0
      (fun m _ => ⟨1, rfl, gameCount_zero _⟩)
    refine ⟨lines, n, ?_, by rw [h2]; exact hl, h3, h4, ?_⟩
    · simp only [perftRoot, hl]; exact h1
    · simp only [perft, hl]
      rw [plainFold (fun q _ => pure (1, q)) (fun _ => 1) l (fun _ _ => rfl)] at h5
      cases h5
      simp [List.map_const']
  | 2, hply =>
    obtain ⟨lines, n, h1, h2, h3, h4, h5⟩ := go (fun q m => perftStep E K q m (fun p' => do
          let l ← p'.legalMoves E K
          pure (l.length, p'))) 1 (perftStep_total hK hst h
            (fun hE => by have := hply hE; omega) 1 (fun m p' hr => by
              obtain ⟨l', hl', _⟩ := C22_legal_moves_total E K hK pp hst _ p' hr
              exact ⟨l'.length, by simp only [hl']; rfl, gameCount_one hK hst.valid hr hl'⟩) hl)
    refine ⟨lines, n, ?_, by rw [h2]; exact hl, h3, h4, ?_⟩
    · simp only [perftRoot, hl]; exact h1
    · simp only [perft, hl]; exact h5
  | d + 3, hply =>
    obtain ⟨lines, n, h1, h2, h3, h4, h5⟩ := go (fun q m => perftStep E K q m
        (perft E K (d + 2))) (d + 2) (perftStep_total hK hst h
          (fun hE => by have := hply hE; omega) (d + 2) (fun m p' hr => by
            obtain ⟨n, hn, hg⟩ := C31_perft_total E K hK pp hst (d + 2) _ p' hr (fun hE => by
              have h1 := reached_ply hK hr hE
              have h2 := reached_ply hK h hE
              have h3 := hply hE
              simp only [List.length_cons] at h1
              omega)
            rw [Nat.max_eq_left (by omega)] at hg
            exact ⟨n, hn, hg⟩) hl)
    refine ⟨lines, n, ?_, by rw [h2]; exact hl, ?_, h4, ?_⟩
    · simp only [perftRoot, hl]; exact h1
    · rw [Nat.max_eq_left (by omega)]; exact h3
    · simp only [perft, hl]; exact h5

/-! ## The last move -/

/-- The piece that a move takes from the board or from the hand, by the rules. -/
def movedPiece (P : Pos) : Move → Option Piece
  | .normal frm _ _ => P.board frm
  | .drop _ pc => some pc

theorem doMove_last {E : Env} {K : Backend} {p p' : Position} {m : Move}
    (h : p.doMove E K m = some p') :
    p'.captured = some ((view p).board m.to) ∧ p'.lastMoved = some (movedPiece (view p) m) := by
  cases m with
  | normal frm to promote =>
    obtain ⟨_, _, piece, _, _, _, _, _, hpiece, _, _, _, _, hs⟩ := doMove_normal h
    simp only [Position.captured, Position.lastMoved, Position.state, hs, List.head?_cons,
      Option.map_some]
    refine ⟨rfl, ?_⟩
    rw [← hpiece]; rfl
  | drop to pc =>
    obtain ⟨_, _, _, _, _, _, _, _, _, _, _, _, _, hs⟩ := doMove_drop h
    simp only [Position.captured, Position.lastMoved, Position.state, hs, List.head?_cons,
      Option.map_some]
    exact ⟨rfl, rfl⟩

/-- C44.  After any session of moves made and taken back, `captured()` and `last_moved()` describe
the last move in force: the piece that stood on its target, and the piece as it was before it moved
(before any promotion).  With no move in force both are `None`. -/
theorem C44_last_move (E : Env) (K : Backend) (hK : K ∈ backends) (pp : CorePartialPosition)
    (ms : List Move) (p : Position) (h : Reached E K pp ms p) :
    (ms = [] → p.captured = some none ∧ p.lastMoved = some none) ∧
    ∀ m ms', ms = m :: ms' →
      p.captured = some ((after (rootView pp) ms').board m.to) ∧
      p.lastMoved = some (movedPiece (after (rootView pp) ms') m) := by
  obtain ⟨p0, h0, hs⟩ := h
  have hp := hs.play hK (fun _ _ h => shape_of_legal h)
  cases hp with
  | start =>
    refine ⟨fun _ => ?_, fun m ms' e => by cases e⟩
    rw [new_eq E (lawful_of_mem hK)] at h0
    split at h0
    · cases h0; exact ⟨rfl, rfl⟩
    · cases h0
  | move hpl ha hm =>
    refine ⟨fun e => (by cases e), fun m ms' e => ?_⟩
    cases e
    rw [← view_after hK ⟨p0, h0, hpl.session⟩]
    exact doMove_last hm

/-- C49.  The history holds one state per move in force and the initial one: undone moves leave
nothing behind, and `state()` never finds it empty. -/
theorem C49_history_length (E : Env) (K : Backend) (hK : K ∈ backends) (pp : CorePartialPosition)
    (ms : List Move) (p : Position) (h : Reached E K pp ms p) :
    p.states.length = ms.length + 1 ∧ p.state.isSome = true := by
  have hlen : p.states.length = ms.length + 1 := by
    obtain ⟨p0, h0, hs⟩ := h
    have hp := hs.play hK (fun _ _ h => shape_of_legal h)
    clear hs
    induction hp with
    | start =>
      obtain ⟨st, hst, _⟩ := new_states (lawful_of_mem hK) h0
      rw [hst]; rfl
    | @move ms p p' m _ _ hm ih =>
      rw [List.length_cons, ← ih]
      cases m with
      | normal frm to promote =>
        obtain ⟨_, _, _, _, _, _, _, _, _, _, _, _, _, hs⟩ := doMove_normal hm
        rw [hs]; rfl
      | drop to pc =>
        obtain ⟨_, _, _, _, _, _, _, _, _, _, _, _, _, hs⟩ := doMove_drop hm
        rw [hs]; rfl
  refine ⟨hlen, ?_⟩
  unfold Position.state
  cases e : p.states with
  | nil => rw [e] at hlen; cases hlen
  | cons => rfl

/-! ## The default position -/

section
open Yasai.Examples

theorem rootView_startpos : rootView CorePartialPosition.startpos = initial := by
  have h1 : ∀ s, (rootView CorePartialPosition.startpos).board s = initial.board s := by
    decide +kernel
  have h2 : ∀ c k, (rootView CorePartialPosition.startpos).hand c k = initial.hand c k := by
    decide +kernel
  have e : ∀ P Q : Pos, (∀ s, P.board s = Q.board s) → (∀ c k, P.hand c k = Q.hand c k) →
      P.side = Q.side → P = Q := by
    rintro ⟨b, h, c⟩ ⟨b', h', c'⟩ e1 e2 e3
    simp only at e1 e2 e3
    rw [funext e1, funext fun c => funext (e2 c), e3]
  exact e _ _ h1 h2 rfl

/-- C43.  `Position::default()` returns, for every Zobrist table and backend: the position of the
diagram with Black to move at ply 1, not in check, 30 legal moves. -/
theorem C43_default (E : Env) (K : Backend) (hK : K ∈ backends) :
    ∃ p, Position.default E K = some p ∧ view p = initial ∧ p.ply = 1#16 ∧
      p.inCheck K = some false ∧ ∃ l, p.legalMoves E K = some l ∧ l.length = 30 := by
  obtain ⟨p, hp⟩ := new_startpos E K hK .black
  have hr : Reached E K startpos [] p := ⟨p, hp, .start⟩
  obtain ⟨_, _, _, h4⟩ := C35_new_reproduces E K hK _ p hp
  refine ⟨p, hp, (view_new hK hp).trans rootView_startpos, h4, ?_⟩
  have h : (Position.new env0 CoreBB.backend startpos).any (fun p =>
      p.inCheck CoreBB.backend == some false &&
      (p.legalMoves env0 CoreBB.backend).any (fun l => l.length == 30)) = true := by decide +kernel
  simp only [Option.any_eq_true, Bool.and_eq_true, beq_iff_eq] at h
  obtain ⟨p0, hp0, hc0, l, hl, hn⟩ := h
  have hr0 : Reached env0 CoreBB.backend startpos [] p0 := ⟨p0, hp0, .start⟩
  have hview : view p = view p0 := (view_new hK hp).trans (view_new core_mem hp0).symm
  obtain ⟨hi, hv⟩ := reached_inv hK startpos_standard.valid hr
  obtain ⟨hi0, _⟩ := reached_inv core_mem startpos_standard.valid hr0
  refine ⟨?_, l, ?_, hn⟩
  · rw [inCheck_same (lawful_of_mem hK) (lawful_of_mem core_mem) hi hi0 hview]; exact hc0
  · rw [← hl]
    exact legalMoves_same (lawful_of_mem hK) (lawful_of_mem core_mem) hi hi0 hview hv

/-- C43.  Every list of calls within the contract on `Position::default()` runs without panic and
gets the answers the rules require. -/
theorem C43_default_session (E : Env) (K : Backend) (hK : K ∈ backends) (cmds : List Cmd)
    (hc : AllowedAll initial [] cmds) (hply : E.overflowChecks = true → cmds.length ≤ 65534) :
    ∃ p0 as p, Position.default E K = some p0 ∧ execAll E K p0 cmds = some (as, p) ∧
      RequiredAll E 1#16 initial [] cmds as := by
  rw [← rootView_startpos] at hc ⊢
  exact C39_api_refines_rules E K hK _ startpos_standard cmds hc (fun hE => by
    have := hply hE
    show 1 + cmds.length ≤ 65535
    omega)

/-- C46 and C44 on a concrete game: the initial position after one move, to depth 3. -/
example : ∃ p, Reached env0 CoreBB.backend startpos [.normal (sq 7 7) (sq 7 6) false] p ∧
    (∃ lines n, perftRoot env0 CoreBB.backend 3 p = some (lines, n, p)) ∧
    p.captured = some none ∧ p.lastMoved = some (some ⟨.pawn, .black⟩) := by
  obtain ⟨p, hp⟩ := new_startpos env0 _ core_mem .black
  have hr : Reached env0 CoreBB.backend startpos [] p := ⟨p, hp, .start⟩
  have hleg : Legal (view p) (.normal (sq 7 7) (sq 7 6) false) := by
    rw [view_new core_mem hp]; decide +kernel
  have hply : p.ply = 1#16 := (C35_new_reproduces env0 _ core_mem _ p hp).2.2.2
  obtain ⟨_, _, _, _, _, hdo, _⟩ := C21_calls_return _ _ core_mem _ startpos_standard _ p hr
  obtain ⟨q, hq⟩ := hdo _ ((listed_iff core_mem startpos_standard hr _).2 hleg)
    (fun _ => by rw [hply]; decide)
  have hr' := hr.move hleg hq
  obtain ⟨h1, h2⟩ := (C44_last_move _ _ core_mem _ _ _ hr').2 _ _ rfl
  refine ⟨q, hr', ?_, h1, h2⟩
  obtain ⟨lines, n, h, _⟩ := C46_perft_divide _ _ core_mem _ startpos_standard 3 _ q hr' (fun _ => by
    rw [(C03_do_move_is_rules _ _ _ _ _ hq).2, hply]; decide)
  exact ⟨lines, n, h⟩

end

end Yasai.Props

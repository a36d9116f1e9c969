import Verif.Props.Perft
import Verif.Proofs.NoPanic

/-!
# C21, C22, C23: no panics, and the capacity of the move buffer
-/

namespace Yasai.Props

open Yasai Spec

/-- A valid position with at most a standard set of pieces, both kings among them. -/
structure Standard (P : Pos) : Prop where
  valid : Valid P
  material : Material P
  kings : ∀ c, HasKing P c

section
variable {E : Env} {K : Backend} {pp : CorePartialPosition} {ms : List Move} {p : Position}

theorem view_hand_zero (p : Position) (c : Color) (k : PieceKind) (hk : k.isHandPiece = false) :
    (view p).hand c k = 0 := by
  simp only [view, Hand.count, hk, Bool.false_eq_true, if_false, Option.getD_none]

theorem reached_material (hK : K ∈ backends) (hm : Material (rootView pp))
    (h : Reached E K pp ms p) : Material (view p) := by
  obtain ⟨p0, h0, hs⟩ := h
  refine ⟨fun k => ?_, view_hand_zero p⟩
  rw [C04_session_conserves E K hK p0 p ms hs k, view_new hK h0]
  exact hm.1 k

theorem reached_standard (hK : K ∈ backends) (hst : Standard (rootView pp))
    (h : Reached E K pp ms p) : Standard (view p) :=
  ⟨(reached_inv hK hst.valid h).2, reached_material hK hst.material h,
    fun c => (C37_kings_stay E K hK pp hst.valid ms p h c).2 (hst.kings c)⟩

end

/-! ## C22 -/

/-- C22.  With at most a standard set of pieces and the opponent's king on the board, the buffer
with 593 slots never overflows: `legal_moves()` returns. -/
theorem C22_capacity (E : Env) (K : Backend) (hK : K ∈ backends) (pp : CorePartialPosition)
    (hv : Valid (rootView pp)) (ms : List Move) (p : Position) (h : Reached E K pp ms p)
    (hm : Material (view p)) (hk : HasKing (view p) p.sideToMove.flip) :
    ∃ l, p.legalMoves E K = some l ∧ l.length ≤ 593 := by
  obtain ⟨hi, hv'⟩ := reached_inv hK hv h
  obtain ⟨l, hl⟩ := legalMoves_total E (lawful_of_mem hK) hi hv' hm (.inl hk)
  obtain ⟨hnd, hmem⟩ := legalMoves_exact hK hv h hl
  exact ⟨l, hl, length_le_593 hv' hm (.inl hk) hnd fun m hm => ((hmem m).1 hm).1.1⟩

/-- C22, C05, C06, C07 together, for games: from a standard root, after every history,
`legal_moves()` returns, and what it returns is a duplicate-free list of exactly the legal moves. -/
theorem C22_legal_moves_total (E : Env) (K : Backend) (hK : K ∈ backends) (pp : CorePartialPosition)
    (hst : Standard (rootView pp)) (ms : List Move) (p : Position) (h : Reached E K pp ms p) :
    ∃ l, p.legalMoves E K = some l ∧ l.length ≤ 593 ∧ l.Nodup ∧ ∀ m, m ∈ l ↔ Legal (view p) m := by
  have hs := reached_standard hK hst h
  obtain ⟨l, hl, hlen⟩ := C22_capacity E K hK pp hst.valid ms p h hs.material (hs.kings _)
  exact ⟨l, hl, hlen, legalMoves_exact hK hst.valid h hl⟩

/-- In a game the listed moves are the legal moves, without any proviso. -/
theorem listed_iff {E : Env} {K : Backend} (hK : K ∈ backends) {pp : CorePartialPosition}
    (hst : Standard (rootView pp)) {ms : List Move} {p : Position} (h : Reached E K pp ms p)
    (m : Move) : Listed E K p m ↔ Legal (view p) m := by
  obtain ⟨l, hl, _, _, hmem⟩ := C22_legal_moves_total E K hK pp hst ms p h
  constructor
  · rintro ⟨l', hl', hm⟩
    rw [hl] at hl'
    cases hl'
    exact (hmem m).1 hm
  · exact fun hm => ⟨l, hl, (hmem m).2 hm⟩

/-! ## C23 -/

/-- C23 is false of the code as it stands; what holds is: without the opponent's king
`legal_moves()` returns unless the side to move has all seven kinds in hand. -/
theorem C23_no_opponent_king_partial (E : Env) (K : Backend) (hK : K ∈ backends)
    (pp : CorePartialPosition) (hv : Valid (rootView pp)) (ms : List Move) (p : Position)
    (h : Reached E K pp ms p) (hm : Material (view p)) (k : PieceKind)
    (hk : handKind k = true) (h0 : (view p).hand p.sideToMove k = 0) :
    ∃ l, p.legalMoves E K = some l ∧ l.length ≤ 593 := by
  obtain ⟨hi, hv'⟩ := reached_inv hK hv h
  have hf : fullHand (inHand (view p)) = false := by
    have : inHand (view p) k = false := by
      unfold inHand
      have e : (view p).hand (view p).side k = 0 := h0
      rw [e]; rfl
    revert hk this
    unfold fullHand
    cases k <;> intro hk h <;> first | exact absurd hk (by decide) | (rw [h]; simp)
  obtain ⟨l, hl⟩ := legalMoves_total E (lawful_of_mem hK) hi hv' hm (.inr hf)
  obtain ⟨hnd, hmem⟩ := legalMoves_exact hK hv h hl
  exact ⟨l, hl, length_le_593 hv' hm (.inr hf) hnd fun m hm => ((hmem m).1 hm).1.1⟩

/-- A buffer with 599 slots would be enough in every case: no position with at most a standard set
of pieces has more legal (or pseudo-legal) moves. -/
theorem C23_599_would_do (P : Pos) (hv : Valid P) (hm : Material P) (l : List Move) (hn : l.Nodup)
    (hl : ∀ m ∈ l, PseudoLegal P m) : l.length ≤ 599 :=
  length_le_599 hv hm hn hl

/-! ## C21 -/

/-- Every call is possible in a position reached in a game. -/
theorem C21_calls_return (E : Env) (K : Backend) (hK : K ∈ backends) (pp : CorePartialPosition)
    (hst : Standard (rootView pp)) (ms : List Move) (p : Position) (h : Reached E K pp ms p) :
    (∃ l, p.legalMoves E K = some l) ∧ (∃ b, p.inCheck K = some b) ∧
    (∃ k, p.key = some k) ∧ (∃ k, p.keys = some k) ∧
    (∀ m, Listed E K p m → ∃ b, p.isCheckMove K m = some b) ∧
    (∀ m, Listed E K p m → (E.overflowChecks = true → p.ply ≠ 65535#16) →
      ∃ p', p.doMove E K m = some p') ∧
    (∀ m ms', ms = m :: ms' → ∃ p', p.undoMove E K m = some p') := by
  obtain ⟨hi, hv⟩ := reached_inv hK hst.valid h
  have hmat := reached_material hK hst.material h
  have hi' := hi
  obtain ⟨_, st, hstate, _⟩ := hi'
  refine ⟨?_, ?_, ?_, ?_, ?_, ?_, ?_⟩
  · obtain ⟨l, hl, _⟩ := C22_legal_moves_total E K hK pp hst ms p h
    exact ⟨l, hl⟩
  · obtain ⟨b, hb, _⟩ := C08_in_check_exact E K hK pp hst.valid ms p h
    exact ⟨b, hb⟩
  · exact ⟨_, by simp only [Position.key, show p.state = some st from hstate]; rfl⟩
  · exact ⟨_, by simp only [Position.keys, show p.state = some st from hstate]; rfl⟩
  · intro m hm
    obtain ⟨b, hb, _⟩ := C09_is_check_move_exact E K hK pp hst.valid ms p h m
      ((listed_iff hK hst h m).1 hm)
    exact ⟨b, hb⟩
  · intro m hm hply
    exact doMove_total E (lawful_of_mem hK) hi hv hmat ((listed_iff hK hst h m).1 hm).1 hply
  · rintro m ms' rfl
    obtain ⟨p0, h0, hs⟩ := h
    have hp := hs.play hK (fun _ _ h => shape_of_legal h)
    cases hp with
    | move _ ha hd =>
      exact ⟨_, C01_undo_inverts_do E K hK _ _ _ (shape_drops (shape_of_legal ha)) hd⟩

/-- A call on a `Position`.  Moves are chosen by their index in `legal_moves()`; an index out of
range and an undo without a move to undo do nothing. -/
inductive Call where
  | legalMoves
  | inCheck
  | key
  | keys
  | isCheckMove (i : Nat)
  | doMove (i : Nat)
  | undo

/-- Makes one call; keeps the stack of moves done.  `none` is a panic. -/
def Call.run (E : Env) (K : Backend) (s : List Move × Position) : Call → Option (List Move × Position)
  | .legalMoves => do
    let _ ← s.2.legalMoves E K
    pure s
  | .inCheck => do
    let _ ← s.2.inCheck K
    pure s
  | .key => do
    let _ ← s.2.key
    pure s
  | .keys => do
    let _ ← s.2.keys
    pure s
  | .isCheckMove i => do
    let l ← s.2.legalMoves E K
    match l[i]? with
    | some m => do
      let _ ← s.2.isCheckMove K m
      pure s
    | none => pure s
  | .doMove i => do
    let l ← s.2.legalMoves E K
    match l[i]? with
    | some m => do
      let p' ← s.2.doMove E K m
      pure (m :: s.1, p')
    | none => pure s
  | .undo =>
    match s.1 with
    | m :: ms => do
      let p' ← s.2.undoMove E K m
      pure (ms, p')
    | [] => pure s

/-- The ply counter of a reached position. -/
theorem reached_ply {E : Env} {K : Backend} (hK : K ∈ backends) {pp : CorePartialPosition}
    {ms : List Move} {p : Position} (h : Reached E K pp ms p) (hE : E.overflowChecks = true) :
    p.ply.toNat = pp.ply.toNat + ms.length := by
  obtain ⟨p0, h0, hs⟩ := h
  rw [(C34_ply E K hK p0 p ms (hs.mono fun _ _ h => shape_of_legal h)).2.2.1 hE,
    (C35_new_reproduces E K hK pp p0 h0).2.2.2]

/-- One call in a game, with room in the ply counter. -/
theorem C21_one_call (E : Env) (K : Backend) (hK : K ∈ backends) (pp : CorePartialPosition)
    (hst : Standard (rootView pp)) (ms : List Move) (p : Position) (h : Reached E K pp ms p)
    (hply : E.overflowChecks = true → p.ply ≠ 65535#16) (c : Call) :
    ∃ ms' p', c.run E K (ms, p) = some (ms', p') ∧ Reached E K pp ms' p' ∧
      ms'.length ≤ ms.length + 1 := by
  obtain ⟨⟨l, hl⟩, ⟨b, hb⟩, ⟨k, hk⟩, ⟨ks, hks⟩, hic, hdo, hun⟩ :=
    C21_calls_return E K hK pp hst ms p h
  have same : ∃ ms' p', some (ms, p) = some (ms', p') ∧ Reached E K pp ms' p' ∧
      ms'.length ≤ ms.length + 1 := ⟨ms, p, rfl, h, Nat.le_succ _⟩
  have hlist : ∀ i m, l[i]? = some m → Listed E K p m :=
    fun i m hm => ⟨l, hl, List.mem_of_getElem? hm⟩
  cases c with
  | legalMoves => simp only [Call.run, hl]; exact same
  | inCheck => simp only [Call.run, hb]; exact same
  | key => simp only [Call.run, hk]; exact same
  | keys => simp only [Call.run, hks]; exact same
  | isCheckMove i =>
    simp only [Call.run, hl, Option.bind_eq_bind, Option.bind_some]
    cases hi : l[i]? with
    | none => exact same
    | some m =>
      obtain ⟨b, hb⟩ := hic m (hlist i m hi)
      simp only [hb]
      exact same
  | doMove i =>
    simp only [Call.run, hl, Option.bind_eq_bind, Option.bind_some]
    cases hi : l[i]? with
    | none => exact same
    | some m =>
      obtain ⟨p', hp'⟩ := hdo m (hlist i m hi) hply
      simp only [hp']
      exact ⟨m :: ms, p', rfl, h.move ((listed_iff hK hst h m).1 (hlist i m hi)) hp',
        Nat.le_refl _⟩
  | undo =>
    cases ms with
    | nil => exact same
    | cons m ms =>
      obtain ⟨p', hp'⟩ := hun m ms rfl
      simp only [Call.run, hp']
      refine ⟨ms, p', rfl, ?_, by simp only [List.length_cons]; omega⟩
      obtain ⟨p0, h0, hs⟩ := h
      exact ⟨p0, h0, hs.undo hp'⟩

/-- C21.  Legal play never panics: from a valid root with at most a standard set of pieces and both
kings, `Position::new` returns and every sequence of calls runs to its end, as long as the ply
counter cannot overflow (without overflow checks: always). -/
theorem C21_no_panic (E : Env) (K : Backend) (hK : K ∈ backends) (pp : CorePartialPosition)
    (hst : Standard (rootView pp)) (calls : List Call)
    (hply : E.overflowChecks = true → pp.ply.toNat + calls.length ≤ 65535) :
    ∃ p0, Position.new E K pp = some p0 ∧
      ∃ ms p, calls.foldlM (Call.run E K) ([], p0) = some (ms, p) ∧ Reached E K pp ms p := by
  have hnew : ∃ p0, Position.new E K pp = some p0 := by
    cases h0 : Position.new E K pp with
    | some p0 => exact ⟨p0, rfl⟩
    | none =>
      exfalso
      obtain ⟨c, k, n, hn, hlt⟩ := (C35_new_panics_iff E K hK pp).1 h0
      have := hand_le hst.material c k
      have e : (rootView pp).hand c k = n := by simp only [rootView, hn, Option.getD_some]
      omega
  obtain ⟨p0, h0⟩ := hnew
  refine ⟨p0, h0, ?_⟩
  have go : ∀ (calls : List Call) (ms : List Move) (p : Position), Reached E K pp ms p →
      (E.overflowChecks = true → pp.ply.toNat + ms.length + calls.length ≤ 65535) →
      ∃ ms' p', calls.foldlM (Call.run E K) (ms, p) = some (ms', p') ∧ Reached E K pp ms' p' := by
    intro calls
    induction calls with
    | nil => intro ms p h _; exact ⟨ms, p, rfl, h⟩
    | cons c calls ih =>
      intro ms p h hply
      obtain ⟨ms', p', h1, h2, h3⟩ := C21_one_call E K hK pp hst ms p h (by
        intro hE e
        have h1 := reached_ply hK h hE
        have h2 := hply hE
        rw [e] at h1
        simp only [List.length_cons] at h2
        have : (65535#16).toNat = 65535 := rfl
        omega) c
      rw [List.foldlM_cons, h1]
      refine ih ms' p' h2 fun hE => ?_
      have := hply hE
      simp only [List.length_cons] at this
      omega
  exact go calls [] p0 ⟨p0, h0, .start⟩ (by simpa using hply)

/-! ## perft returns -/

/-- The loop of one node returns when every step returns. -/
theorem perftFold_total {E : Env} {K : Backend} {p : Position}
    {rec : Position → Option (Nat × Position)} (l : List Move)
    (hl : ∀ m ∈ l, ∃ n, perftStep E K p m rec = some (n, p)) (a : Nat) :
    ∃ n, l.foldlM (fun (acc : Nat × Position) m => do
      let (n, q) ← perftStep E K acc.2 m rec
      pure (acc.1 + n, q)) (a, p) = some (n, p) := by
  induction l generalizing a with
  | nil => exact ⟨a, rfl⟩
  | cons m l ih =>
    obtain ⟨n, hn⟩ := hl m List.mem_cons_self
    rw [List.foldlM_cons]
    simp only [hn]
    exact ih (fun m hm => hl m (List.mem_cons_of_mem _ hm)) (a + n)

section
variable {E : Env} {K : Backend} {pp : CorePartialPosition} {ms : List Move} {p : Position}

theorem perftNode_total (hK : K ∈ backends) (hst : Standard (rootView pp))
    (h : Reached E K pp ms p) (hply : E.overflowChecks = true → p.ply.toNat + 1 ≤ 65535)
    {rec : Position → Option (Nat × Position)}
    (hrec : ∀ m p', Reached E K pp (m :: ms) p' → ∃ n, rec p' = some (n, p'))
    {l : List Move} (hl : p.legalMoves E K = some l) (a : Nat) :
    ∃ n, l.foldlM (fun (acc : Nat × Position) m => do
      let (n, q) ← perftStep E K acc.2 m rec
      pure (acc.1 + n, q)) (a, p) = some (n, p) := by
  apply perftFold_total
  intro m hm
  have hleg := ((legalMoves_exact hK hst.valid h hl).2 m).1 hm
  obtain ⟨_, _, _, _, _, hdo, _⟩ := C21_calls_return E K hK pp hst ms p h
  obtain ⟨p', hp'⟩ := hdo m ⟨l, hl, hm⟩ (by
    intro hE e
    have := hply hE
    rw [e] at this
    have e2 : (65535#16).toNat = 65535 := rfl
    omega)
  obtain ⟨n, hn⟩ := hrec m p' (h.move hleg hp')
  have hu := C01_undo_inverts_do E K hK _ _ _ (shape_drops (shape_of_legal hleg)) hp'
  refine ⟨n, ?_⟩
  simp only [perftStep, hp', Option.bind_eq_bind, Option.bind_some, hn, hu, Option.pure_def]

end

/-- C31.  `perft` returns, leaves the position as it was, and counts the games; if the ply counter
has room for `depth` moves. -/
theorem C31_perft_total (E : Env) (K : Backend) (hK : K ∈ backends) (pp : CorePartialPosition)
    (hst : Standard (rootView pp)) (d : Nat) (ms : List Move) (p : Position)
    (h : Reached E K pp ms p) (hply : E.overflowChecks = true → p.ply.toNat + d ≤ 65535) :
    ∃ n, perft E K d p = some (n, p) ∧ GameCount (view p) (max d 1) n := by
  have total : ∀ d ms p, Reached E K pp ms p →
      (E.overflowChecks = true → p.ply.toNat + d ≤ 65535) → ∃ n, perft E K d p = some (n, p) := by
    intro d
    induction d using Nat.strongRecOn with
    | _ d ih =>
      intro ms p h hply
      obtain ⟨l, hl, _⟩ := C22_legal_moves_total E K hK pp hst ms p h
      match d, ih, hply with
      | 0, _, _ => exact ⟨_, by simp only [perft, hl]; rfl⟩
      | 1, _, _ => exact ⟨_, by simp only [perft, hl]; rfl⟩
      | 2, _, hply =>
        unfold perft
        rw [hl]
        refine perftNode_total hK hst h (fun hE => by have := hply hE; omega) (fun m p' hr => ?_)
          hl 0
        obtain ⟨l', hl', _⟩ := C22_legal_moves_total E K hK pp hst _ p' hr
        exact ⟨_, by simp only [hl']; rfl⟩
      | d + 3, ih, hply =>
        unfold perft
        rw [hl]
        refine perftNode_total hK hst h (fun hE => by have := hply hE; omega) (fun m p' hr => ?_)
          hl 0
        refine ih (d + 2) (by omega) _ p' hr fun hE => ?_
        have h1 := reached_ply hK hr hE
        have h2 := reached_ply hK h hE
        have h3 := hply hE
        simp only [List.length_cons] at h1
        omega
  obtain ⟨n, hn⟩ := total d ms p h hply
  exact ⟨n, hn, (C31_perft E K hK pp hst.valid d ms p h n p hn).2⟩

/-- C31, the variant of the unit tests. -/
theorem C31_perft_test_total (E : Env) (K : Backend) (hK : K ∈ backends) (pp : CorePartialPosition)
    (hst : Standard (rootView pp)) (d : Nat) (ms : List Move) (p : Position)
    (h : Reached E K pp ms p) (hply : E.overflowChecks = true → p.ply.toNat + d ≤ 65535) :
    ∃ n, perftTest E K d p = some (n, p) ∧ GameCount (view p) d n := by
  have total : ∃ n, perftTest E K d p = some (n, p) := by
    induction d generalizing ms p with
    | zero => exact ⟨1, rfl⟩
    | succ d ih =>
      obtain ⟨l, hl, _⟩ := C22_legal_moves_total E K hK pp hst ms p h
      unfold perftTest
      rw [hl]
      refine perftNode_total hK hst h (fun hE => by have := hply hE; omega) (fun m p' hr => ?_)
        hl 0
      refine ih _ p' hr fun hE => ?_
      have h1 := reached_ply hK hr hE
      have h2 := reached_ply hK h hE
      have h3 := hply hE
      simp only [List.length_cons] at h1
      omega
  obtain ⟨n, hn⟩ := total
  exact ⟨n, hn, (C31_perft_test E K hK pp hst.valid d ms p h n p hn).2⟩

/-! ## Concrete cases -/

section
open Yasai.Examples

theorem startpos_standard : Standard (rootView startpos) where
  valid := by decide +kernel
  material := by
    refine ⟨fun k => ?_, fun c k hk => ?_⟩
    · cases k <;> decide +kernel
    · simp only [rootView, Hand.count, ← handKind_eq, hk, Bool.false_eq_true, if_false, Option.getD_none]
  kings := by
    intro c
    cases c
    · exact ⟨sq 5 9, by decide +kernel⟩
    · exact ⟨sq 5 1, by decide +kernel⟩

theorem maxMoves_standard : Standard (rootView maxMoves) where
  valid := by decide +kernel
  material := by
    refine ⟨fun k => ?_, fun c k hk => ?_⟩
    · cases k <;> decide +kernel
    · simp only [rootView, Hand.count, ← handKind_eq, hk, Bool.false_eq_true, if_false, Option.getD_none]
  kings := by
    intro c
    cases c
    · exact ⟨sq 7 2, by decide +kernel⟩
    · exact ⟨sq 1 2, by decide +kernel⟩

/-- C22.  593 is attained. -/
theorem C22_attained : ∃ p l, Reached env0 CoreBB.backend maxMoves [] p ∧
    p.legalMoves env0 CoreBB.backend = some l ∧ l.length = 593 := by
  obtain ⟨p, l, h1, h2, h3⟩ := of_probe (pp := maxMoves) (f := fun _ l => l.length == 593)
    (by decide +kernel)
  exact ⟨p, l, h1, h2, by simpa using h3⟩

/-- `maxMoves` without White's king. -/
def kingless : CorePartialPosition where
  side := .black
  ply := 1#16
  hands := maxMoves.hands
  board := boardOf ([
    (9,1,.rook,.black),(7,2,.king,.black),(5,2,.silver,.black),(3,2,.silver,.black),
    (2,2,.silver,.black),(5,3,.bishop,.black),
    (8,9,.lance,.black),(6,9,.lance,.black),(4,9,.lance,.black)])

theorem kingless_valid : Valid (rootView kingless) := by decide +kernel

theorem kingless_material : Material (rootView kingless) := by
  refine ⟨fun k => ?_, fun c k hk => ?_⟩
  · cases k <;> decide +kernel
  · simp only [rootView, Hand.count, ← handKind_eq, hk, Bool.false_eq_true, if_false, Option.getD_none]

/-- C23 does not hold: a position with at most a standard set of pieces on which `legal_moves()`
panics, because more than 593 moves are pushed. -/
theorem C23_false : ∃ pp p, Valid (rootView pp) ∧ Material (rootView pp) ∧
    HasKing (rootView pp) pp.side ∧ Position.new env0 CoreBB.backend pp = some p ∧
    p.legalMoves env0 CoreBB.backend = none := by
  have h : (Position.new env0 CoreBB.backend kingless).any (fun p =>
      (p.legalMoves env0 CoreBB.backend).isNone) = true := by decide +kernel
  simp only [Option.any_eq_true, Option.isNone_iff_eq_none] at h
  obtain ⟨p, hp, hn⟩ := h
  exact ⟨kingless, p, kingless_valid, kingless_material, ⟨sq 7 2, by decide +kernel⟩, hp, hn⟩

/-- The hypotheses of the partial C23 can be met, by a position without a white king. -/
example : ∃ p, Reached env0 CoreBB.backend
      { kingless with hands := fun _ => handOf [(.pawn, 2)] } [] p ∧
    Material (view p) ∧ ¬ HasKing (view p) .white ∧ (view p).hand p.sideToMove .gold = 0 := by
  obtain ⟨p, h1, h2⟩ := reached_new_isSome' (K := CoreBB.backend)
    (pp := { kingless with hands := fun _ => handOf [(.pawn, 2)] })
    core_mem (by decide +kernel)
  refine ⟨p, h1, ?_, ?_, ?_⟩
  · rw [h2]
    refine ⟨fun k => ?_, fun c k hk => ?_⟩
    · cases k <;> decide +kernel
    · simp only [rootView, Hand.count, ← handKind_eq, hk, Bool.false_eq_true, if_false, Option.getD_none]
  · rw [h2]; unfold HasKing; decide +kernel
  · have : (view p).hand (view p).side .gold = 0 := by rw [h2]; decide +kernel
    exact this
where
  reached_new_isSome' {K : Backend} {pp : CorePartialPosition} (hK : K ∈ backends)
      (h : (Position.new env0 K pp).isSome = true) :
      ∃ p, Reached env0 K pp [] p ∧ view p = rootView pp := by
    obtain ⟨p, hp⟩ := Option.isSome_iff_exists.1 h
    exact ⟨p, ⟨p, hp, .start⟩, view_new hK hp⟩

end

end Yasai.Props

import Verif.Props.Hazard
import Verif.Props.Perft

/-!
# C90: perft from every position that `Position::new` accepts

C31 says what `perft` counts from positions as the rules allow, for calls that return.  Here the root is
any accepted position, with any number of kings and any pawns; what is counted is given by the lists of
C88, and whether the call panics by the tree of these lists.
-/

namespace Yasai.Props

open Yasai Spec

/-- A sequence of moves, the first one first, each of them listed when its turn comes. -/
def Line (i : Fin 4) (R : Pos) : List Move → List Move → Prop
  | _, [] => True
  | ms, m :: s => ListedFirst i R ms m ∧ Line i R (m :: ms) s

/-- `n` is the number of lines of length `d`. -/
def LineCount (i : Fin 4) (R : Pos) (ms : List Move) (d n : Nat) : Prop :=
  ∃ L : List (List Move), L.Nodup ∧ (∀ s, s ∈ L ↔ s.length = d ∧ Line i R ms s) ∧ L.length = n

/-- Why `do_move` panics on a listed move: it captures a king, or a nineteenth piece of one kind, or the
move counter is full. -/
def MoveStops (overflowChecks : Bool) (ply0 : Nat) (R : Pos) (ms : List Move) (m : Move) : Prop :=
  (∃ frm to pr pc, m = .normal frm to pr ∧ (current R ms).board to = some pc ∧
    (pc.kind = .king ∨ (current R ms).hand (current R ms).side (base pc.kind) = 18)) ∨
  overflowChecks = true ∧ ply0 + ms.length = 65535

/-- Why `legal_moves` panics (C88). -/
def Full (i : Fin 4) (R : Pos) (ms : List Move) : Prop :=
  ¬ ReportedFirst R ms ∧ TooMany (Collected i (current R ms))

/-- A call that panics in the tree of the lines, when `legal_moves` is called after less than `a` moves
and `do_move` after less than `b`. -/
def Trouble (overflowChecks : Bool) (ply0 : Nat) (i : Fin 4) (R : Pos) (ms : List Move) (a b : Nat) :
    Prop :=
  ∃ s, Line i R ms s ∧ (s.length < a ∧ Full i R (s.reverse ++ ms) ∨
    s.length < b ∧ ∃ m, ListedFirst i R (s.reverse ++ ms) m ∧
      MoveStops overflowChecks ply0 R (s.reverse ++ ms) m)

/-- The search for vacant files (portable build) does not run over after less than `a` moves. -/
def Tidy (i : Fin 4) (R : Pos) (ms : List Move) (a : Nat) : Prop :=
  ∀ s, Line i R ms s → s.length < a → ¬ Overruns i R (s.reverse ++ ms)

theorem LineCount.unique {i : Fin 4} {R : Pos} {ms : List Move} {d n n' : Nat}
    (h : LineCount i R ms d n) (h' : LineCount i R ms d n') : n = n' := by
  obtain ⟨L, h1, h2, rfl⟩ := h
  obtain ⟨L', h1', h2', rfl⟩ := h'
  exact ((List.perm_ext_iff_of_nodup h1 h1').2 fun g => by rw [h2, h2']).length_eq

theorem lineCount_zero (i : Fin 4) (R : Pos) (ms : List Move) : LineCount i R ms 0 1 := by
  refine ⟨[[]], by simp, fun g => ?_, rfl⟩
  simp only [List.mem_cons, List.not_mem_nil, or_false, List.length_eq_zero_iff]
  constructor
  · rintro rfl; exact ⟨rfl, trivial⟩
  · exact And.left

theorem trouble_succ {oc : Bool} {ply0 : Nat} {i : Fin 4} {R : Pos} {ms : List Move} {a b : Nat} :
    Trouble oc ply0 i R ms (a + 1) b ↔ Full i R ms ∨ ∃ m, ListedFirst i R ms m ∧
      (0 < b ∧ MoveStops oc ply0 R ms m ∨ Trouble oc ply0 i R (m :: ms) a (b - 1)) := by
  constructor
  · rintro ⟨s, hs, h⟩
    cases s with
    | nil =>
      rcases h with ⟨_, h⟩ | ⟨hb, m, h1, h2⟩
      · exact .inl h
      · exact .inr ⟨m, h1, .inl ⟨hb, h2⟩⟩
    | cons m s =>
      refine .inr ⟨m, hs.1, .inr ⟨s, hs.2, ?_⟩⟩
      simp only [List.reverse_cons, List.append_assoc, List.singleton_append, List.length_cons] at h
      refine h.imp (fun h => ⟨by omega, h.2⟩) fun h => ⟨by omega, h.2⟩
  · rintro (h | ⟨m, hm, ⟨hb, h⟩ | ⟨s, hs, h⟩⟩)
    · exact ⟨[], trivial, .inl ⟨by simp, h⟩⟩
    · exact ⟨[], trivial, .inr ⟨hb, m, hm, h⟩⟩
    · refine ⟨m :: s, ⟨hm, hs⟩, ?_⟩
      simp only [List.reverse_cons, List.append_assoc, List.singleton_append, List.length_cons]
      exact h.imp (fun h => ⟨by omega, h.2⟩) fun h => ⟨by omega, h.2⟩

theorem trouble_zero {oc : Bool} {ply0 : Nat} {i : Fin 4} {R : Pos} {ms : List Move} :
    ¬ Trouble oc ply0 i R ms 0 0 := by
  rintro ⟨s, _, ⟨h, _⟩ | ⟨h, _⟩⟩ <;> omega

theorem Tidy.here {i : Fin 4} {R : Pos} {ms : List Move} {a : Nat} (h : Tidy i R ms (a + 1)) :
    ¬ Overruns i R ms := h [] trivial (by simp)

theorem Tidy.next {i : Fin 4} {R : Pos} {ms : List Move} {a : Nat} (h : Tidy i R ms (a + 1)) {m : Move}
    (hm : ListedFirst i R ms m) : Tidy i R (m :: ms) a := by
  intro s hs hl
  have := h (m :: s) ⟨hm, hs⟩ (by rw [List.length_cons]; omega)
  simpa using this

/-- What a call from a node gives: the position as it was and the number of lines, or a panic in the
cases of `T`. -/
def Counts (i : Fin 4) (R : Pos) (ms : List Move) (p : Position) (d : Nat) (T : Prop)
    (r : Option (Nat × Position)) : Prop :=
  (∀ n q, r = some (n, q) → q = p ∧ LineCount i R ms d n) ∧ (r = none ↔ T)

section
variable {E : Env} {i : Fin 4} {J : Junk} {pp : CorePartialPosition} {ms : List Move} {p : Position}

theorem refused_iff (h : Wandered E (buildAt i J) pp ms p) {m : Move}
    (hm : Collected i (current (rootView pp) ms) m) :
    p.doMove E (buildAt i J) m = none ↔
      MoveStops E.overflowChecks pp.ply.toNat (rootView pp) ms m := by
  have hK := buildAt_mem i J
  have hcur := h.visited.current hK
  rw [C52_do_move_panics_iff E _ hK pp ms p h.visited m]
  have hply : (E.overflowChecks = true ∧ p.ply = 65535#16) ↔
      (E.overflowChecks = true ∧ pp.ply.toNat + ms.length = 65535) := by
    refine and_congr_right fun hE => ?_
    obtain ⟨p0, h0, hs⟩ := h.visited
    rw [← (C35_new_reproduces E _ hK pp p0 h0).2.2.2, ← (C34_ply E _ hK p0 p ms hs).2.2.1 hE,
      ← BitVec.toNat_inj]
    rfl
  unfold MoveStops
  rw [← hcur] at hm ⊢
  have hcount : ∀ k, (p.hand p.sideToMove).count k = some 18 ↔
      (view p).hand (view p).side k = 18 := by
    intro k
    show _ ↔ ((p.hand p.sideToMove).count k).getD 0 = 18
    cases (p.hand p.sideToMove).count k with
    | none => simp
    | some n => simp
  cases m with
  | normal frm to pr =>
    have hfrm : ∃ k, p.pieceAt frm = some ⟨k, p.sideToMove⟩ ∧ (pr = true → promoted k ≠ none) := by
      rcases hm with ⟨k, h1, _, _, hp, _⟩ | ⟨_, h1, _, _, hp⟩
      · exact ⟨k, h1, fun e => (hp e).1⟩
      · exact ⟨_, h1, fun e => by rw [e] at hp; cases hp⟩
    obtain ⟨k, hk, hpr⟩ := hfrm
    unfold MovePanics
    constructor
    · rintro (h | ⟨c, h⟩ | ⟨q, h, h'⟩ | ⟨h, q, h', h''⟩ | h)
      · rw [hk] at h; cases h
      · exact .inl ⟨frm, to, pr, _, rfl, h, .inl rfl⟩
      · exact .inl ⟨frm, to, pr, _, rfl, h, .inr ((hcount _).1 h')⟩
      · rw [hk] at h'
        cases h'
        exact absurd h'' (hpr h)
      · exact .inr (hply.1 h)
    · rintro (⟨_, _, _, q, e, h, h'⟩ | h)
      · cases e
        rcases h' with h' | h'
        · obtain ⟨k, c⟩ := q
          cases h'
          exact .inr (.inl ⟨c, h⟩)
        · exact .inr (.inr (.inl ⟨q, h, (hcount _).2 h'⟩))
      · exact .inr (.inr (.inr (.inr (hply.2 h))))
  | drop to pc =>
    unfold MovePanics
    constructor
    · rintro (h | h)
      · obtain ⟨hc, _, h0, _⟩ := hm
        rw [hc] at h0
        exact absurd (h : (view p).hand (view p).side pc.kind = 0) (Nat.ne_of_gt h0)
      · exact .inr (hply.1 h)
    · rintro (⟨_, _, _, _, e, _⟩ | h)
      · cases e
      · exact .inr (hply.2 h)

/-- One move of the loop. -/
theorem perftStep_any (h : Wandered E (buildAt i J) pp ms p)
    {rec : Position → Option (Nat × Position)} {d : Nat} {T : List Move → Prop} {m : Move}
    (hm : Collected i (current (rootView pp) ms) m)
    (hrec : ∀ p', Wandered E (buildAt i J) pp (m :: ms) p' →
      Counts i (rootView pp) (m :: ms) p' d (T (m :: ms)) (rec p')) :
    Counts i (rootView pp) (m :: ms) p d
      (MoveStops E.overflowChecks pp.ply.toNat (rootView pp) ms m ∨ T (m :: ms))
      (perftStep E (buildAt i J) p m rec) := by
  have hK := buildAt_mem i J
  have hcur := h.visited.current hK
  have hu : Unhindered (view p) m := by
    rw [hcur]; exact collected_unhindered hm
  have href := refused_iff h hm
  unfold perftStep
  cases hd : p.doMove E (buildAt i J) m with
  | none =>
    exact ⟨fun n q e => (by cases e), ⟨fun _ => .inl (href.1 hd), fun _ => rfl⟩⟩
  | some p' =>
    have hw : Wandered E (buildAt i J) pp (m :: ms) p' := by
      obtain ⟨p0, h0, hs⟩ := h
      exact ⟨p0, h0, .move hs hu hd⟩
    obtain ⟨h1, h2⟩ := hrec p' hw
    have hno : ¬ MoveStops E.overflowChecks pp.ply.toNat (rootView pp) ms m := fun e => by
      rw [href.2 e] at hd; cases hd
    have hun := C01_undo_inverts_do E _ hK _ _ _ (shape_drops (shape_of_unhindered hu)) hd
    simp only [Option.bind_eq_bind, Option.bind_some, Option.pure_def]
    cases hr : rec p' with
    | none => exact ⟨fun n q e => (by cases e), ⟨fun _ => .inr (h2.1 hr), fun _ => rfl⟩⟩
    | some x =>
      obtain ⟨n, q⟩ := x
      obtain ⟨rfl, hc⟩ := h1 n q hr
      simp only [Option.bind_some, hun]
      refine ⟨fun n' q' e => ?_, ⟨fun e => (by cases e), ?_⟩⟩
      · cases e
        exact ⟨rfl, hc⟩
      · rintro (e | e)
        · exact absurd e hno
        · rw [h2.2 e] at hr; cases hr

/-- The loop over the moves of one node. -/
theorem perftLoop_any {rec : Position → Option (Nat × Position)} {d : Nat} {S : Move → Prop}
    (l : List Move) (hnd : l.Nodup)
    (hstep : ∀ m ∈ l, Counts i (rootView pp) (m :: ms) p d (S m) (perftStep E (buildAt i J) p m rec))
    (a : Nat) :
    (∀ n q, l.foldlM (fun (acc : Nat × Position) m => do
        let (n, q) ← perftStep E (buildAt i J) acc.2 m rec
        pure (acc.1 + n, q)) (a, p) = some (n, q) →
      q = p ∧ ∃ L : List (List Move), L.Nodup ∧
        (∀ g, g ∈ L ↔ ∃ m ∈ l, ∃ g', g = m :: g' ∧ g'.length = d ∧ Line i (rootView pp) (m :: ms) g') ∧
        n = a + L.length) ∧
    (l.foldlM (fun (acc : Nat × Position) m => do
        let (n, q) ← perftStep E (buildAt i J) acc.2 m rec
        pure (acc.1 + n, q)) (a, p) = none ↔ ∃ m ∈ l, S m) := by
  induction l generalizing a with
  | nil =>
    refine ⟨fun n q e => ?_, by simp⟩
    cases e
    exact ⟨rfl, [], .nil, by simp, rfl⟩
  | cons m l ih =>
    rw [List.nodup_cons] at hnd
    obtain ⟨h1, h2⟩ := hstep m List.mem_cons_self
    simp only [List.foldlM_cons, Option.bind_eq_bind, Option.pure_def]
    cases hs : perftStep E (buildAt i J) p m rec with
    | none =>
      exact ⟨fun n q e => (by cases e), ⟨fun _ => ⟨m, List.mem_cons_self, h2.1 hs⟩, fun _ => rfl⟩⟩
    | some x =>
      obtain ⟨n1, q1⟩ := x
      obtain ⟨rfl, L1, hL1, hL1m, rfl⟩ := h1 n1 q1 hs
      simp only [Option.bind_some]
      obtain ⟨i1, i2⟩ := ih hnd.2 (fun m hm => hstep m (List.mem_cons_of_mem _ hm)) (a + L1.length)
      simp only [Option.bind_eq_bind, Option.pure_def] at i1 i2
      refine ⟨fun n q e => ?_, i2.trans ?_⟩
      · obtain ⟨hq, L2, hL2, hL2m, hn⟩ := i1 n q e
        refine ⟨hq, L1.map (m :: ·) ++ L2, ?_, ?_, ?_⟩
        · rw [List.nodup_append]
          refine ⟨hL1.map _ fun a b hab e => hab (by cases e; rfl), hL2, ?_⟩
          rintro g hg1 g' hg2 rfl
          rw [List.mem_map] at hg1
          obtain ⟨g1, _, rfl⟩ := hg1
          rw [hL2m] at hg2
          obtain ⟨m', hm', _, e, _⟩ := hg2
          cases e
          exact hnd.1 hm'
        · intro g
          rw [List.mem_append, List.mem_map, hL2m]
          constructor
          · rintro (⟨g', hg', rfl⟩ | ⟨m', hm', h⟩)
            · exact ⟨m, List.mem_cons_self, g', rfl, (hL1m g').1 hg'⟩
            · exact ⟨m', List.mem_cons_of_mem _ hm', h⟩
          · rintro ⟨m', hm', g', rfl, h⟩
            rcases List.mem_cons.1 hm' with rfl | hm'
            · exact .inl ⟨g', (hL1m g').2 h, rfl⟩
            · exact .inr ⟨m', hm', g', rfl, h⟩
        · rw [hn, List.length_append, List.length_map]
          omega
      · constructor
        · rintro ⟨m', hm', h⟩
          exact ⟨m', List.mem_cons_of_mem _ hm', h⟩
        · rintro ⟨m', hm', h⟩
          rcases List.mem_cons.1 hm' with rfl | hm'
          · rw [h2.2 h] at hs; cases hs
          · exact ⟨m', hm', h⟩

theorem machine_at (h : Wandered E (buildAt i J) pp ms p) (ho : ¬ Overruns i (rootView pp) ms) :
    (∀ l, p.legalMoves E (buildAt i J) = some l → l.Nodup ∧
      ∀ m, m ∈ l ↔ ListedFirst i (rootView pp) ms m) ∧
    (p.legalMoves E (buildAt i J) = none ↔ Full i (rootView pp) ms) := by
  have hm := C88_machine E i J pp ms p h fun hi ha =>
    ⟨fun e => ho ⟨hi, ha, .inl e⟩, fun e => ho ⟨hi, ha, .inr e⟩⟩
  exact ⟨fun l hl => ⟨(hm.2.2.1 l hl).1, (hm.2.2.1 l hl).2.1⟩, hm.2.2.2⟩

/-- One level of the recursion. -/
theorem perftNode_any (h : Wandered E (buildAt i J) pp ms p) (ho : ¬ Overruns i (rootView pp) ms)
    {rec : Position → Option (Nat × Position)} {d : Nat} {T : List Move → Prop}
    (hrec : ∀ m, ListedFirst i (rootView pp) ms m → ∀ p', Wandered E (buildAt i J) pp (m :: ms) p' →
      Counts i (rootView pp) (m :: ms) p' d (T (m :: ms)) (rec p')) :
    Counts i (rootView pp) ms p (d + 1) (Full i (rootView pp) ms ∨
        ∃ m, ListedFirst i (rootView pp) ms m ∧
          (MoveStops E.overflowChecks pp.ply.toNat (rootView pp) ms m ∨ T (m :: ms)))
      ((p.legalMoves E (buildAt i J)).bind fun l => l.foldlM (fun (acc : Nat × Position) m => do
        let (n, q) ← perftStep E (buildAt i J) acc.2 m rec
        pure (acc.1 + n, q)) (0, p)) := by
  obtain ⟨h1, h2⟩ := machine_at h ho
  cases hl : p.legalMoves E (buildAt i J) with
  | none => exact ⟨fun n q e => (by cases e), ⟨fun _ => .inl (h2.1 hl), fun _ => rfl⟩⟩
  | some l =>
    obtain ⟨hnd, hmem⟩ := h1 l hl
    have hfull : ¬ Full i (rootView pp) ms := fun e => by rw [h2.2 e] at hl; cases hl
    obtain ⟨i1, i2⟩ := perftLoop_any (E := E) (J := J) (p := p) (ms := ms) (pp := pp) (i := i) l hnd
      (fun m hm => perftStep_any h ((hmem m).1 hm).1 (hrec m ((hmem m).1 hm))) 0
    rw [Option.bind_some]
    refine ⟨fun n q e => ?_, i2.trans ?_⟩
    · obtain ⟨hq, L, hL, hLm, hn⟩ := i1 n q e
      refine ⟨hq, L, hL, fun g => ?_, by omega⟩
      rw [hLm]
      constructor
      · rintro ⟨m, hm, g', rfl, h1, h2⟩
        exact ⟨by rw [List.length_cons, h1], (hmem m).1 hm, h2⟩
      · rintro ⟨h1, h2⟩
        cases g with
        | nil => cases h1
        | cons m g' =>
          refine ⟨m, (hmem m).2 h2.1, g', rfl, ?_, h2.2⟩
          rw [List.length_cons] at h1
          omega
    · simp only [hmem, hfull, false_or]

theorem perftLeaf_any (h : Wandered E (buildAt i J) pp ms p) (ho : ¬ Overruns i (rootView pp) ms) :
    Counts i (rootView pp) ms p 1 (Full i (rootView pp) ms)
      ((p.legalMoves E (buildAt i J)).bind fun l => some (l.length, p)) := by
  obtain ⟨h1, h2⟩ := machine_at h ho
  cases hl : p.legalMoves E (buildAt i J) with
  | none => exact ⟨fun n q e => (by cases e), ⟨fun _ => h2.1 hl, fun _ => rfl⟩⟩
  | some l =>
    obtain ⟨hnd, hmem⟩ := h1 l hl
    rw [Option.bind_some]
    refine ⟨fun n q e => ?_, ⟨fun e => (by cases e), fun e => (by rw [h2.2 e] at hl; cases hl)⟩⟩
    cases e
    refine ⟨rfl, l.map (fun m => [m]), hnd.map _ fun a b hab e => hab (by cases e; rfl), fun g => ?_,
      List.length_map _⟩
    rw [List.mem_map]
    constructor
    · rintro ⟨m, hm, rfl⟩
      exact ⟨rfl, (hmem m).1 hm, trivial⟩
    · rintro ⟨h1, h2⟩
      cases g with
      | nil => cases h1
      | cons m g =>
        rw [List.length_cons] at h1
        have : g = [] := List.length_eq_zero_iff.1 (by omega)
        subst this
        exact ⟨m, (hmem m).2 h2.1, rfl⟩

theorem Counts.congr {i : Fin 4} {R : Pos} {ms : List Move} {p : Position} {d : Nat} {T T' : Prop}
    {r : Option (Nat × Position)} (h : Counts i R ms p d T r) (e : T ↔ T') : Counts i R ms p d T' r :=
  ⟨h.1, h.2.trans e⟩

/-- **C90**, the counter of the unit test (`/repo/src/position.rs:563-574`): if the call returns, the
position is as before and the number is that of the lines of length `d`; it panics exactly when
`legal_moves` or `do_move` panics somewhere in the tree. -/
theorem C90_perft_test (E : Env) (i : Fin 4) (J : Junk) (pp : CorePartialPosition) (d : Nat)
    (ms : List Move) (p : Position) (h : Wandered E (buildAt i J) pp ms p)
    (ht : Tidy i (rootView pp) ms d) :
    (∀ n q, perftTest E (buildAt i J) d p = some (n, q) → q = p ∧ LineCount i (rootView pp) ms d n) ∧
    (perftTest E (buildAt i J) d p = none ↔
      Trouble E.overflowChecks pp.ply.toNat i (rootView pp) ms d d) := by
  induction d generalizing ms p with
  | zero =>
    refine ⟨fun n q e => ?_, ⟨fun e => (by cases e), fun e => absurd e trouble_zero⟩⟩
    cases e
    exact ⟨rfl, lineCount_zero _ _ _⟩
  | succ d ih =>
    rw [trouble_succ]
    have := perftNode_any (rec := perftTest E (buildAt i J) d) (d := d)
      (T := fun ms => Trouble E.overflowChecks pp.ply.toNat i (rootView pp) ms d d) h ht.here
      fun m hm p' hw => ih _ p' hw (ht.next hm)
    refine this.congr ?_
    simp

/-- **C90**, the counter of `/repo/examples/perft.rs` and `/repo/benches/bench_perft.rs`, whose last
moves are counted by the length of the list and not made. -/
theorem C90_perft (E : Env) (i : Fin 4) (J : Junk) (pp : CorePartialPosition) (d : Nat)
    (ms : List Move) (p : Position) (h : Wandered E (buildAt i J) pp ms p)
    (ht : Tidy i (rootView pp) ms (max d 1)) :
    (∀ n q, perft E (buildAt i J) d p = some (n, q) →
      q = p ∧ LineCount i (rootView pp) ms (max d 1) n) ∧
    (perft E (buildAt i J) d p = none ↔
      Trouble E.overflowChecks pp.ply.toNat i (rootView pp) ms (max d 1) (d - 1)) := by
  have zero : ∀ ms, ¬ Trouble E.overflowChecks pp.ply.toNat i (rootView pp) ms 0 0 := fun _ => trouble_zero
  have leaf : ∀ ms p, Wandered E (buildAt i J) pp ms p → Tidy i (rootView pp) ms 1 →
      Counts i (rootView pp) ms p 1 (Trouble E.overflowChecks pp.ply.toNat i (rootView pp) ms 1 0)
        ((p.legalMoves E (buildAt i J)).bind fun l => some (l.length, p)) := by
    intro ms p h ht
    refine (perftLeaf_any h ht.here).congr ?_
    rw [trouble_succ]
    simp [zero]
  induction d using Nat.strongRecOn generalizing ms p with
  | _ d ih =>
    match d with
    | 0 => unfold perft; exact leaf ms p h ht
    | 1 => unfold perft; exact leaf ms p h ht
    | 2 =>
      unfold perft
      have := perftNode_any (d := 1)
        (rec := fun p' => (p'.legalMoves E (buildAt i J)).bind fun l => some (l.length, p'))
        (T := fun ms => Trouble E.overflowChecks pp.ply.toNat i (rootView pp) ms 1 0) h ht.here
        fun m hm p' hw => leaf _ p' hw (ht.next hm)
      refine this.congr ?_
      show _ ↔ Trouble E.overflowChecks pp.ply.toNat i (rootView pp) ms (1 + 1) 1
      rw [trouble_succ]
      simp
    | d + 3 =>
      have e1 : max (d + 3) 1 = d + 2 + 1 := by omega
      have e2 : max (d + 2) 1 = d + 2 := by omega
      rw [e1] at ht ⊢
      unfold perft
      have := perftNode_any (rec := perft E (buildAt i J) (d + 2)) (d := d + 2)
        (T := fun ms => Trouble E.overflowChecks pp.ply.toNat i (rootView pp) ms (d + 2) (d + 1)) h ht.here
        fun m hm p' hw => by
          have := ih (d + 2) (by omega) (m :: ms) p' hw (by rw [e2]; exact ht.next hm)
          rw [e2] at this
          exact this
      refine this.congr ?_
      rw [trouble_succ]
      simp

/-- The loop at the root, which keeps the printed lines. -/
theorem divideLoop_any {step : Position → Move → Option (Nat × Position)} {d : Nat} {S : Move → Prop}
    {i : Fin 4} {R : Pos} {ms : List Move} {p : Position} (l : List Move)
    (hstep : ∀ m ∈ l, Counts i R (m :: ms) p d (S m) (step p m)) (ls : List (Move × Nat)) (a : Nat) :
    (∀ ls' n q, l.foldlM (fun (acc : List (Move × Nat) × Nat × Position) m => do
        let (count, q) ← step acc.2.2 m
        pure (acc.1 ++ [(m, count)], acc.2.1 + count, q)) (ls, a, p) = some (ls', n, q) →
      q = p ∧ ∃ new, ls' = ls ++ new ∧ new.map Prod.fst = l ∧
        (∀ x ∈ new, LineCount i R (x.1 :: ms) d x.2) ∧ n = a + (new.map Prod.snd).sum) ∧
    (l.foldlM (fun (acc : List (Move × Nat) × Nat × Position) m => do
        let (count, q) ← step acc.2.2 m
        pure (acc.1 ++ [(m, count)], acc.2.1 + count, q)) (ls, a, p) = none ↔ ∃ m ∈ l, S m) := by
  induction l generalizing ls a with
  | nil =>
    refine ⟨fun ls' n q e => ?_, by simp⟩
    cases e
    exact ⟨rfl, [], by simp, rfl, by simp, rfl⟩
  | cons m l ih =>
    obtain ⟨h1, h2⟩ := hstep m List.mem_cons_self
    simp only [List.foldlM_cons, Option.bind_eq_bind, Option.pure_def]
    cases hs : step p m with
    | none =>
      exact ⟨fun ls' n q e => (by cases e),
        ⟨fun _ => ⟨m, List.mem_cons_self, h2.1 hs⟩, fun _ => rfl⟩⟩
    | some x =>
      obtain ⟨n1, q1⟩ := x
      obtain ⟨rfl, hc⟩ := h1 n1 q1 hs
      simp only [Option.bind_some]
      obtain ⟨i1, i2⟩ := ih (fun m hm => hstep m (List.mem_cons_of_mem _ hm)) (ls ++ [(m, n1)]) (a + n1)
      simp only [Option.bind_eq_bind, Option.pure_def] at i1 i2
      refine ⟨fun ls' n q e => ?_, i2.trans ?_⟩
      · obtain ⟨hq, new, hn, hf, hcn, ha⟩ := i1 ls' n q e
        refine ⟨hq, (m, n1) :: new, by rw [hn]; simp, by simp [hf], ?_, by rw [ha]; simp; omega⟩
        intro x hx
        rcases List.mem_cons.1 hx with rfl | hx
        · exact hc
        · exact hcn x hx
      · constructor
        · rintro ⟨m', hm', h⟩
          exact ⟨m', List.mem_cons_of_mem _ hm', h⟩
        · rintro ⟨m', hm', h⟩
          rcases List.mem_cons.1 hm' with rfl | hm'
          · rw [h2.2 h] at hs; cases hs
          · exact ⟨m', hm', h⟩

/-- The numbers behind the moves of a node add up to the number of lines. -/
theorem lineCount_sum {i : Fin 4} {R : Pos} {ms : List Move} {d : Nat} (lines : List (Move × Nat))
    (hn : (lines.map Prod.fst).Nodup) (hm : ∀ m, m ∈ lines.map Prod.fst ↔ ListedFirst i R ms m)
    (hc : ∀ x ∈ lines, LineCount i R (x.1 :: ms) d x.2) :
    LineCount i R ms (d + 1) (lines.map Prod.snd).sum := by
  have key : ∃ L : List (List Move), L.Nodup ∧ (∀ g, g ∈ L ↔ ∃ m ∈ lines.map Prod.fst, ∃ g', g = m :: g' ∧
      g'.length = d ∧ Line i R (m :: ms) g') ∧ L.length = (lines.map Prod.snd).sum := by
    clear hm
    induction lines with
    | nil => exact ⟨[], .nil, by simp, rfl⟩
    | cons x lines ih =>
      rw [List.map_cons, List.nodup_cons] at hn
      obtain ⟨L1, hL1, hL1m, hl1⟩ := hc x List.mem_cons_self
      obtain ⟨L2, hL2, hL2m, hl2⟩ := ih hn.2 fun y hy => hc y (List.mem_cons_of_mem _ hy)
      refine ⟨L1.map (x.1 :: ·) ++ L2, ?_, ?_, ?_⟩
      · rw [List.nodup_append]
        refine ⟨hL1.map _ fun a b hab e => hab (by cases e; rfl), hL2, ?_⟩
        rintro g hg1 g' hg2 rfl
        rw [List.mem_map] at hg1
        obtain ⟨g1, _, rfl⟩ := hg1
        rw [hL2m] at hg2
        obtain ⟨m', hm', _, e, _⟩ := hg2
        cases e
        exact hn.1 hm'
      · intro g
        rw [List.mem_append, List.mem_map, hL2m, List.map_cons]
        constructor
        · rintro (⟨g', hg', rfl⟩ | ⟨m', hm', h⟩)
          · exact ⟨x.1, List.mem_cons_self, g', rfl, (hL1m g').1 hg'⟩
          · exact ⟨m', List.mem_cons_of_mem _ hm', h⟩
        · rintro ⟨m', hm', g', rfl, h⟩
          rcases List.mem_cons.1 hm' with rfl | hm'
          · exact .inl ⟨g', (hL1m g').2 h, rfl⟩
          · exact .inr ⟨m', hm', g', rfl, h⟩
      · rw [List.length_append, List.length_map, hl1, hl2, List.map_cons, List.sum_cons]
  obtain ⟨L, h1, h2, h3⟩ := key
  refine ⟨L, h1, fun g => ?_, h3⟩
  rw [h2]
  constructor
  · rintro ⟨m, hmm, g', rfl, h1, h2⟩
    exact ⟨by rw [List.length_cons, h1], (hm m).1 hmm, h2⟩
  · rintro ⟨h1, h2⟩
    cases g with
    | nil => cases h1
    | cons m g' =>
      refine ⟨m, (hm m).2 h2.1, g', rfl, ?_, h2.2⟩
      rw [List.length_cons] at h1
      omega

/-- **C90**, the lines printed by `/repo/examples/perft.rs`: one line for each listed move, in the order
of the list, with the number of lines that begin with it; the total is their sum, the number of all lines.  The call panics exactly
when `perft` does. -/
theorem C90_divide (E : Env) (i : Fin 4) (J : Junk) (pp : CorePartialPosition) (d : Nat)
    (ms : List Move) (p : Position) (h : Wandered E (buildAt i J) pp ms p)
    (ht : Tidy i (rootView pp) ms (max d 1)) :
    (∀ lines n q, perftRoot E (buildAt i J) d p = some (lines, n, q) → q = p ∧
      p.legalMoves E (buildAt i J) = some (lines.map Prod.fst) ∧
      (∀ x ∈ lines, LineCount i (rootView pp) (x.1 :: ms) (max d 1 - 1) x.2) ∧
      n = (lines.map Prod.snd).sum ∧ LineCount i (rootView pp) ms (max d 1) n) ∧
    (perftRoot E (buildAt i J) d p = none ↔
      Trouble E.overflowChecks pp.ply.toNat i (rootView pp) ms (max d 1) (d - 1)) := by
  have e0 : max d 1 = (max d 1 - 1) + 1 := by omega
  have ht' := ht
  rw [e0] at ht'
  obtain ⟨h1, h2⟩ := machine_at h ht'.here
  have htr := trouble_succ (oc := E.overflowChecks) (ply0 := pp.ply.toNat) (i := i) (R := rootView pp)
    (ms := ms) (a := max d 1 - 1) (b := d - 1)
  rw [← e0] at htr
  rw [htr]
  -- the general shape
  suffices go : ∃ (step : Position → Move → Option (Nat × Position)),
      perftRoot E (buildAt i J) d p = (p.legalMoves E (buildAt i J)).bind (fun l =>
        l.foldlM (fun (acc : List (Move × Nat) × Nat × Position) m => do
          let (count, q) ← step acc.2.2 m
          pure (acc.1 ++ [(m, count)], acc.2.1 + count, q)) ([], 0, p)) ∧
      (∀ m, ListedFirst i (rootView pp) ms m → Counts i (rootView pp) (m :: ms) p (max d 1 - 1)
        (0 < d - 1 ∧ MoveStops E.overflowChecks pp.ply.toNat (rootView pp) ms m ∨
          Trouble E.overflowChecks pp.ply.toNat i (rootView pp) (m :: ms) (max d 1 - 1) (d - 1 - 1))
        (step p m)) by
    obtain ⟨step, he, hstep⟩ := go
    rw [he]
    cases hl : p.legalMoves E (buildAt i J) with
    | none => exact ⟨fun _ _ _ e => (by cases e), ⟨fun _ => .inl (h2.1 hl), fun _ => rfl⟩⟩
    | some l =>
      have hfull : ¬ Full i (rootView pp) ms := fun e => by rw [h2.2 e] at hl; cases hl
      have hmem := (h1 l hl).2
      obtain ⟨i1, i2⟩ := divideLoop_any (i := i) (R := rootView pp) (ms := ms) (p := p) (step := step) l
        (fun m hm => hstep m ((hmem m).1 hm)) [] 0
      rw [Option.bind_some]
      refine ⟨fun lines n q e => ?_, i2.trans ?_⟩
      · obtain ⟨hq, new, hn, hf, hc, ha⟩ := i1 lines n q e
        rw [List.nil_append] at hn
        subst hn
        have hsum := lineCount_sum lines (by rw [hf]; exact (h1 l hl).1) (by rw [hf]; exact hmem) hc
        rw [← e0] at hsum
        refine ⟨hq, by rw [hf], hc, by omega, ?_⟩
        rw [ha, Nat.zero_add]
        exact hsum
      · simp only [hmem, hfull, false_or]
  match d with
  | 0 | 1 =>
    refine ⟨fun p _ => some (1, p), by unfold perftRoot; rfl, fun m _ => ?_⟩
    refine ⟨fun n q e => ?_, ⟨fun e => (by cases e), ?_⟩⟩
    · cases e
      exact ⟨rfl, lineCount_zero _ _ _⟩
    · rintro (⟨e, _⟩ | e)
      · omega
      · exact absurd e trouble_zero
  | 2 =>
    refine ⟨fun p m => perftStep E (buildAt i J) p m fun p' => do
      let l ← p'.legalMoves E (buildAt i J)
      pure (l.length, p'), by unfold perftRoot; rfl, fun m hm => ?_⟩
    refine (perftStep_any (T := fun ms => Trouble E.overflowChecks pp.ply.toNat i (rootView pp) ms 1 0)
      h hm.1 fun p' hw => ?_).congr ?_
    · have := C90_perft E i J pp 1 (m :: ms) p' hw (ht'.next hm)
      unfold perft at this
      exact this
    · simp
  | d + 3 =>
    refine ⟨fun p m => perftStep E (buildAt i J) p m (perft E (buildAt i J) (d + 2)),
      by unfold perftRoot; rfl, fun m hm => ?_⟩
    have e2 : max (d + 3) 1 - 1 = max (d + 2) 1 := by omega
    refine (perftStep_any (T := fun ms => Trouble E.overflowChecks pp.ply.toNat i (rootView pp) ms
      (max (d + 3) 1 - 1) (d + 1)) h hm.1 fun p' hw => ?_).congr ?_
    · have := C90_perft E i J pp (d + 2) (m :: ms) p' hw (e2 ▸ ht'.next hm)
      rw [e2]
      exact this
    · simp

end

/-! ## When the search for vacant files cannot run over -/

/-- The SIMD builds never run over. -/
theorem C90_tidy_simd {i : Fin 4} (hi : i ≠ 0) (R : Pos) (ms : List Move) (a : Nat) : Tidy i R ms a :=
  fun _ _ _ h => hi h.1

/-- No pawn, promoted or not, on the board or in a hand. -/
def Pawnless (P : Pos) : Prop :=
  (∀ s pc, P.board s = some pc → base pc.kind ≠ .pawn) ∧ ∀ c, P.hand c .pawn = 0

theorem base_movedKind (k : PieceKind) (pr : Bool) : base (movedKind k pr) = base k := by
  cases k <;> cases pr <;> rfl

theorem Pawnless.apply {i : Fin 4} {P : Pos} (h : Pawnless P) {m : Move} (hm : Collected i P m) :
    Pawnless (apply P m) := by
  cases m with
  | normal frm to pr =>
    unfold Spec.apply
    cases hf : P.board frm with
    | none => simpa only [hf] using h
    | some p =>
      simp only [hf]
      refine ⟨fun s pc => ?_, fun c => ?_⟩
      · simp only [put]
        split
        · rintro e
          cases e
          rw [base_movedKind]
          exact h.1 _ _ hf
        · split
          · exact fun e => (by cases e)
          · exact h.1 s pc
      · show (match P.board to with | some q => _ | none => _) = 0
        cases ht : P.board to with
        | none => exact h.2 c
        | some q =>
          show (if _ then _ else _) = 0
          rw [if_neg fun e => h.1 _ _ ht e.2.symm]
          exact h.2 c
  | drop to pc =>
    obtain ⟨_, hk, h0, _⟩ := hm
    refine ⟨fun s pc' => ?_, fun c => ?_⟩
    · simp only [Spec.apply, put]
      split
      · rintro e
        cases e
        intro e
        rw [base_of_isHand hk] at e
        rw [e, h.2] at h0
        exact absurd h0 (Nat.lt_irrefl 0)
      · exact h.1 s pc'
    · simp only [Spec.apply]
      split
      · rw [h.2]
      · exact h.2 c

/-- Without pawns nothing is searched. -/
theorem C90_tidy_pawnless (i : Fin 4) {R : Pos} (ms : List Move) (h : Pawnless (current R ms)) (a : Nat) :
    Tidy i R ms a := by
  have key : ∀ s ms, Pawnless (current R ms) → Line i R ms s → Pawnless (current R (s.reverse ++ ms)) := by
    intro s
    induction s with
    | nil => exact fun ms h _ => h
    | cons m s ih =>
      intro ms h hl
      have := ih (m :: ms) (h.apply hl.1.1) hl.2
      simpa using this
  intro s hs _ ho
  have := (key s ms h hs).2 (current R (s.reverse ++ ms)).side
  have h0 := ho.2.1.1
  omega

/-! ## A concrete case -/

section
open Yasai.Examples

/-- A gold without a king against two kings, one of which it may attack. -/
def goldAndKings (rank : Nat) : CorePartialPosition where
  side := .black
  ply := 1#16
  hands := fun _ => handOf []
  board := boardOf [(9,9,.gold,.black),(1,1,.king,.white),(9,rank,.king,.white)]

def perftAt (i : Fin 4) (rank d : Nat) : Option (Option Nat × Option Nat) :=
  (Position.new env0 (buildAt i otherJunk) (goldAndKings rank)).map fun p =>
    ((perft env0 (buildAt i otherJunk) d p).map Prod.fst,
      (perftTest env0 (buildAt i otherJunk) d p).map Prod.fst)

/-- Out of reach, the kings only run and the counters agree.  On the next square a king can be taken at
once: at depth 1 the counter that makes the last move panics and the other returns, at depth 2 both
panic. -/
theorem C90_example :
    perftAt 0 6 2 = some (some 20, some 20) ∧ (∀ i, perftAt i 8 1 = some (some 3, none)) ∧
    perftAt 2 8 2 = some (none, none) := by
  refine ⟨?_, ?_, ?_⟩ <;> decide +kernel

theorem pawnless_goldAndKings {rank : Nat} (h : rank = 6 ∨ rank = 8) :
    Pawnless (rootView (goldAndKings rank)) := by
  have : ∀ r ∈ [6, 8], (∀ s pc, (rootView (goldAndKings r)).board s = some pc → base pc.kind ≠ .pawn) ∧
      ∀ c, (rootView (goldAndKings r)).hand c .pawn = 0 := by
    decide +kernel
  exact this rank (by rcases h with rfl | rfl <;> decide)

/-- The theorems at these positions: the number of lines, and whether there is trouble in the tree. -/
example (i : Fin 4) :
    LineCount 0 (rootView (goldAndKings 6)) [] 2 20 ∧
    ¬ Trouble true 1 0 (rootView (goldAndKings 6)) [] 2 2 ∧
    LineCount i (rootView (goldAndKings 8)) [] 1 3 ∧
    ¬ Trouble true 1 i (rootView (goldAndKings 8)) [] 1 0 ∧
    Trouble true 1 i (rootView (goldAndKings 8)) [] 1 1 := by
  obtain ⟨h1, h2, _⟩ := C90_example
  specialize h2 i
  unfold perftAt at h1 h2
  obtain ⟨p, hp, h⟩ := Option.map_eq_some_iff.1 h1
  obtain ⟨p', hp', h'⟩ := Option.map_eq_some_iff.1 h2
  simp only [Prod.mk.injEq, Option.map_eq_some_iff, Option.map_eq_none_iff] at h h'
  obtain ⟨_, ⟨⟨n, q⟩, hr, rfl⟩⟩ := h
  obtain ⟨⟨⟨n', q'⟩, hr', rfl⟩, ht⟩ := h'
  have t2 : ∀ a, Tidy 0 (rootView (goldAndKings 6)) [] a :=
    C90_tidy_pawnless 0 (R := rootView (goldAndKings 6)) [] (pawnless_goldAndKings (.inl rfl))
  have t3 : ∀ a, Tidy i (rootView (goldAndKings 8)) [] a :=
    C90_tidy_pawnless i (R := rootView (goldAndKings 8)) [] (pawnless_goldAndKings (.inr rfl))
  have w := C90_perft_test env0 0 otherJunk _ 2 [] p ⟨p, hp, .start⟩ (t2 _)
  have w' := C90_perft env0 i otherJunk _ 1 [] p' ⟨p', hp', .start⟩ (t3 _)
  have w'' := C90_perft_test env0 i otherJunk _ 1 [] p' ⟨p', hp', .start⟩ (t3 _)
  refine ⟨(w.1 _ _ hr).2, fun e => ?_, (w'.1 _ _ hr').2, fun e => ?_, w''.2.1 ht⟩
  · rw [w.2.2 e] at hr
    cases hr
  · rw [w'.2.2 e] at hr'
    cases hr'

end

end Yasai.Props

import Verif.Props.Capacity

/-!
# C101: tree searches built on the API
-/

namespace Yasai.Props

open Yasai Spec

/-! ## Searches -/

/-- A search of fixed depth, written like the `perft` of the repository: for every listed move it makes
the move, searches one move less deep, takes the move back and keeps the result; `fold` joins the
results. -/
def search {α : Type} (E : Env) (K : Backend) (leaf : Position → Option α) (fold : List α → α) :
    Nat → Position → Option (α × Position)
  | 0, p => (leaf p).map fun a => (a, p)
  | d + 1, p => do
    let ms ← p.legalMoves E K
    let (as, q) ← ms.foldlM (fun (acc : List α × Position) m => do
      let q ← acc.2.doMove E K m
      let (a, q) ← search E K leaf fold d q
      let q ← q.undoMove E K m
      pure (acc.1 ++ [a], q)) ([], p)
    pure (fold as, q)

/-- The value that the rules give to a position: `leaf` says which value a position has at depth 0;
above, `fold` joins the values after all legal moves, each taken once, in some order. -/
def Value {α : Type} (leaf : Pos → α → Prop) (fold : List α → α) : Nat → Pos → α → Prop
  | 0, P, a => leaf P a
  | d + 1, P, a => ∃ rs : List (Move × α), (rs.map Prod.fst).Nodup ∧
      (∀ m, m ∈ rs.map Prod.fst ↔ Legal P m) ∧
      (∀ x ∈ rs, Value leaf fold d (apply P x.1) x.2) ∧ a = fold (rs.map Prod.snd)

/-- If the order does not matter to `fold`, there is one value. -/
theorem Value.unique {α : Type} {leaf : Pos → α → Prop} {fold : List α → α}
    (hleaf : ∀ P a b, leaf P a → leaf P b → a = b)
    (hfold : ∀ l l' : List α, l.Perm l' → fold l = fold l') :
    ∀ {d : Nat} {P : Pos} {a b : α}, Value leaf fold d P a → Value leaf fold d P b → a = b := by
  intro d
  induction d with
  | zero => exact fun {P a b} h h' => hleaf P a b h h'
  | succ d ih =>
    rintro P a b ⟨rs, h1, h2, h3, rfl⟩ ⟨rs', h1', h2', h3', rfl⟩
    refine hfold _ _ (List.Perm.map _ ?_)
    have n1 : rs.Nodup := List.Pairwise.of_map Prod.fst (fun a b hab e => hab (e ▸ rfl)) h1
    have n2 : rs'.Nodup := List.Pairwise.of_map Prod.fst (fun a b hab e => hab (e ▸ rfl)) h1'
    have sub : ∀ {r r' : List (Move × α)}, (∀ m, m ∈ r.map Prod.fst ↔ Legal P m) →
        (∀ m, m ∈ r'.map Prod.fst ↔ Legal P m) →
        (∀ x ∈ r, Value leaf fold d (apply P x.1) x.2) →
        (∀ x ∈ r', Value leaf fold d (apply P x.1) x.2) → ∀ x ∈ r, x ∈ r' := by
      intro r r' e e' v v' x hx
      obtain ⟨y, hy, e1⟩ := List.mem_map.1 ((e' x.1).2 ((e x.1).1 (List.mem_map_of_mem hx)))
      have : y.2 = x.2 := ih (e1 ▸ v' y hy) (v x hx)
      have : y = x := Prod.ext e1 this
      exact this ▸ hy
    exact (List.perm_ext_iff_of_nodup n1 n2).2 fun x =>
      ⟨sub h2 h2' h3 h3' x, sub h2' h2 h3' h3 x⟩

theorem search_fold {α : Type} {E : Env} {K : Backend} {p : Position}
    {rec : Position → Option (α × Position)} {R : Move → α → Prop} :
    ∀ {l : List Move}, (∀ m ∈ l, ∃ p' a, p.doMove E K m = some p' ∧ rec p' = some (a, p') ∧
        p'.undoMove E K m = some p ∧ R m a) → ∀ acc : List α,
      ∃ rs : List (Move × α), rs.map Prod.fst = l ∧ (∀ x ∈ rs, R x.1 x.2) ∧
        l.foldlM (fun (acc : List α × Position) m => do
          let q ← acc.2.doMove E K m
          let (a, q) ← rec q
          let q ← q.undoMove E K m
          pure (acc.1 ++ [a], q)) (acc, p) = some (acc ++ rs.map Prod.snd, p) := by
  intro l
  induction l with
  | nil =>
    intro _ acc
    exact ⟨[], rfl, fun x hx => (by cases hx), by simp⟩
  | cons m l ih =>
    intro h acc
    obtain ⟨p', a, h1, h2, h3, h4⟩ := h m List.mem_cons_self
    obtain ⟨rs, e, hr, hf⟩ := ih (fun m hm => h m (List.mem_cons_of_mem _ hm)) (acc ++ [a])
    refine ⟨(m, a) :: rs, by rw [List.map_cons, e], ?_, ?_⟩
    · intro x hx
      rcases List.mem_cons.1 hx with rfl | hx
      · exact h4
      · exact hr x hx
    · rw [List.foldlM_cons]
      simp only [h1, h2, h3, Option.bind_eq_bind, Option.bind_some, Option.pure_def]
      simp only [Option.bind_eq_bind, Option.pure_def] at hf
      rw [hf]
      simp

/-- C101.  Every such search, to every depth, from every position of a game: if its leaves are right, it
does not panic, leaves the position exactly as it was, and returns the value that the rules give. -/
theorem C101_search {α : Type} (E : Env) (K : Backend) (hK : K ∈ backends) (pp : CorePartialPosition)
    (hst : Standard (rootView pp)) (leaf : Position → Option α) (leafS : Pos → α → Prop)
    (fold : List α → α)
    (hleaf : ∀ ms p, Reached E K pp ms p → ∃ a, leaf p = some a ∧ leafS (view p) a)
    (d : Nat) (ms : List Move) (p : Position) (h : Reached E K pp ms p)
    (hply : E.overflowChecks = true → p.ply.toNat + d ≤ 65535) :
    ∃ a, search E K leaf fold d p = some (a, p) ∧ Value leafS fold d (view p) a := by
  induction d generalizing ms p with
  | zero =>
    obtain ⟨a, ha, hs⟩ := hleaf ms p h
    exact ⟨a, by simp only [search, ha, Option.map_some], hs⟩
  | succ d ih =>
    obtain ⟨l, hl, _⟩ := C22_legal_moves_total E K hK pp hst ms p h
    obtain ⟨hn, hm⟩ := legalMoves_exact hK hst.valid h hl
    obtain ⟨rs, e, hr, hf⟩ := search_fold (E := E) (K := K) (p := p) (rec := search E K leaf fold d)
      (R := fun m a => Value leafS fold d (apply (view p) m) a) (l := l) (fun m hmem => by
        have hleg := (hm m).1 hmem
        obtain ⟨_, _, _, _, _, hdo, _⟩ := C21_calls_return E K hK pp hst ms p h
        obtain ⟨p', hp'⟩ := hdo m ⟨l, hl, hmem⟩ (by
          intro hE e
          have := hply hE
          rw [e] at this
          have e2 : (65535#16).toNat = 65535 := rfl
          omega)
        have hr := h.move hleg hp'
        obtain ⟨a, ha, hv⟩ := ih (m :: ms) p' hr (fun hE => by
          have h1 := reached_ply hK hr hE
          have h2 := reached_ply hK h hE
          have h3 := hply hE
          simp only [List.length_cons] at h1
          omega)
        rw [(C03_do_move_is_rules E K _ _ _ hp').1] at hv
        exact ⟨p', a, hp', ha,
          C01_undo_inverts_do E K hK _ _ _ (shape_drops (shape_of_legal hleg)) hp', hv⟩) []
    refine ⟨fold (rs.map Prod.snd), ?_, rs, e ▸ hn, e ▸ hm, hr, rfl⟩
    unfold search
    simp only [hl, Option.bind_eq_bind, Option.bind_some, Option.pure_def]
    simp only [Option.bind_eq_bind, Option.pure_def] at hf
    rw [hf]
    simp

/-! ## A solver -/

mutual
/-- The side to move can bring the opponent, within `d` moves of both sides, into a position without
legal moves. -/
def Wins : Nat → Pos → Prop
  | 0, _ => False
  | d + 1, P => ∃ m, Legal P m ∧ Loses d (apply P m)
/-- Whatever the side to move does, the opponent wins in what remains of `d` moves; a side without
legal moves has lost. -/
def Loses : Nat → Pos → Prop
  | 0, P => ∀ m, ¬ Legal P m
  | d + 1, P => ∀ m, Legal P m → Wins d (apply P m)
end

/-- What a search of some depth finds out for the side to move. -/
inductive Outcome where
  | won | lost | unclear
deriving DecidableEq

/-- At the leaves: lost if there is no legal move. -/
def solverLeaf (E : Env) (K : Backend) (p : Position) : Option Outcome :=
  (p.legalMoves E K).map fun l => if l.isEmpty then .lost else .unclear

/-- Won if some move makes the opponent lose, lost if every move lets the opponent win. -/
def solverFold (l : List Outcome) : Outcome :=
  if l.any (· == .lost) then .won else if l.all (· == .won) then .lost else .unclear

/-- A solver of mate problems. -/
def solve (E : Env) (K : Backend) (d : Nat) (p : Position) : Option (Outcome × Position) :=
  search E K (solverLeaf E K) solverFold d p

theorem not_wins_and_loses {d : Nat} {P : Pos} : Wins d P → Loses d P → False := by
  induction d generalizing P with
  | zero => exact fun h => absurd h (by simp [Wins])
  | succ d ih =>
    intro h1 h2
    simp only [Wins, Loses] at h1 h2
    obtain ⟨m, hm, hl⟩ := h1
    exact ih (h2 m hm) hl

theorem solver_value {d : Nat} {P : Pos} {o : Outcome}
    (h : Value (fun P o => (o = .lost ∧ ∀ m, ¬ Legal P m) ∨ (o = .unclear ∧ ∃ m, Legal P m))
      solverFold d P o) : (o = .won ↔ Wins d P) ∧ (o = .lost ↔ Loses d P) := by
  induction d generalizing P o with
  | zero =>
    simp only [Wins, Loses]
    rcases h with ⟨rfl, h⟩ | ⟨rfl, m, h⟩
    · exact ⟨⟨fun e => (by cases e), fun e => e.elim⟩, ⟨fun _ => h, fun _ => rfl⟩⟩
    · exact ⟨⟨fun e => (by cases e), fun e => e.elim⟩, ⟨fun e => (by cases e), fun h' => absurd h (h' m)⟩⟩
  | succ d ih =>
    obtain ⟨rs, _, h2, h3, rfl⟩ := h
    simp only [Wins, Loses]
    have hany : (rs.map Prod.snd).any (· == .lost) = true ↔ ∃ m, Legal P m ∧ Loses d (apply P m) := by
      simp only [List.any_eq_true, beq_iff_eq, List.mem_map]
      constructor
      · rintro ⟨_, ⟨x, hx, rfl⟩, e⟩
        exact ⟨x.1, (h2 _).1 (List.mem_map_of_mem hx), (ih (h3 x hx)).2.1 e⟩
      · rintro ⟨m, hm, hl⟩
        obtain ⟨x, hx, rfl⟩ := List.mem_map.1 ((h2 m).2 hm)
        exact ⟨x.2, ⟨x, hx, rfl⟩, (ih (h3 x hx)).2.2 hl⟩
    have hall : (rs.map Prod.snd).all (· == .won) = true ↔ ∀ m, Legal P m → Wins d (apply P m) := by
      simp only [List.all_eq_true, beq_iff_eq, List.mem_map]
      constructor
      · intro h m hm
        obtain ⟨x, hx, rfl⟩ := List.mem_map.1 ((h2 m).2 hm)
        exact (ih (h3 x hx)).1.1 (h x.2 ⟨x, hx, rfl⟩)
      · rintro h _ ⟨x, hx, rfl⟩
        exact (ih (h3 x hx)).1.2 (h x.1 ((h2 _).1 (List.mem_map_of_mem hx)))
    unfold solverFold
    by_cases h1 : (rs.map Prod.snd).any (· == .lost) = true
    · rw [if_pos h1]
      have hw := hany.1 h1
      refine ⟨⟨fun _ => hw, fun _ => rfl⟩, ⟨fun e => (by cases e), fun hl => ?_⟩⟩
      obtain ⟨m, hm, hl'⟩ := hw
      exact (not_wins_and_loses (hl m hm) hl').elim
    · rw [if_neg h1]
      by_cases h4 : (rs.map Prod.snd).all (· == .won) = true
      · rw [if_pos h4]
        exact ⟨⟨fun e => (by cases e), fun h => absurd (hany.2 h) h1⟩, ⟨fun _ => hall.1 h4, fun _ => rfl⟩⟩
      · rw [if_neg h4]
        exact ⟨⟨fun e => (by cases e), fun h => absurd (hany.2 h) h1⟩,
          ⟨fun e => (by cases e), fun h => absurd (hall.2 h) h4⟩⟩

/-- C101, a solver of mate problems: it answers "won" exactly if the side to move has a forced win within
`d` moves by the rules, "lost" exactly if the opponent has. -/
theorem C101_solver (E : Env) (K : Backend) (hK : K ∈ backends) (pp : CorePartialPosition)
    (hst : Standard (rootView pp)) (d : Nat) (ms : List Move) (p : Position) (h : Reached E K pp ms p)
    (hply : E.overflowChecks = true → p.ply.toNat + d ≤ 65535) :
    ∃ o, solve E K d p = some (o, p) ∧ (o = .won ↔ Wins d (view p)) ∧ (o = .lost ↔ Loses d (view p)) := by
  obtain ⟨o, h1, h2⟩ := C101_search E K hK pp hst (solverLeaf E K)
    (fun P o => (o = .lost ∧ ∀ m, ¬ Legal P m) ∨ (o = .unclear ∧ ∃ m, Legal P m)) solverFold
    (fun ms p h => by
      obtain ⟨l, hl, _⟩ := C22_legal_moves_total E K hK pp hst ms p h
      have hm := (legalMoves_exact hK hst.valid h hl).2
      unfold solverLeaf
      rw [hl]
      cases l with
      | nil => exact ⟨.lost, rfl, .inl ⟨rfl, fun m hl => by cases (hm m).2 hl⟩⟩
      | cons m l => exact ⟨.unclear, rfl, .inr ⟨rfl, m, (hm m).1 List.mem_cons_self⟩⟩) d ms p h hply
  exact ⟨o, h1, solver_value h2⟩

/-! ## Concrete cases -/

section
open Yasai.Examples

/-- The gold mates on 1b or not at all. -/
def mateInOne : CorePartialPosition where
  side := .black
  ply := 1#16
  hands := fun
    | .black => handOf []
    | .white => handOf [(.rook, 2)]
  board := boardOf [(9,9,.king,.black),(2,3,.gold,.black),(2,4,.knight,.black),(1,1,.king,.white)]

theorem mateInOne_standard : Standard (rootView mateInOne) where
  valid := by decide +kernel
  material := by
    refine ⟨fun k => ?_, fun c k hk => ?_⟩
    · cases k <;> decide +kernel
    · simp only [rootView, Hand.count, ← handKind_eq, hk, Bool.false_eq_true, if_false, Option.getD_none]
  kings := by
    intro c
    cases c
    · exact ⟨sq 9 9, by decide +kernel⟩
    · exact ⟨sq 1 1, by decide +kernel⟩

/-- The solver finds the mate, and by the theorem there is one by the rules. -/
theorem C101_example : ∃ p, Reached env0 CoreBB.backend mateInOne [] p ∧
    (solve env0 CoreBB.backend 1 p).map Prod.fst = some .won ∧ Wins 1 (rootView mateInOne) ∧
    ¬ Loses 1 (rootView mateInOne) := by
  have h : ((Position.new env0 CoreBB.backend mateInOne).any fun p =>
      (solve env0 CoreBB.backend 1 p).any fun r => r.1 == .won) = true := by decide +kernel
  simp only [Option.any_eq_true, beq_iff_eq] at h
  obtain ⟨p, hp, r, hr, e⟩ := h
  have hre : Reached env0 CoreBB.backend mateInOne [] p := ⟨p, hp, .start⟩
  have hply : p.ply = 1#16 := (C35_new_reproduces env0 _ core_mem _ p hp).2.2.2
  obtain ⟨o, h1, h2, h3⟩ := C101_solver env0 _ core_mem mateInOne mateInOne_standard 1 [] p hre
    (fun _ => by rw [hply]; decide)
  rw [hr] at h1
  cases h1
  rw [view_new core_mem hp] at h2 h3
  refine ⟨p, hre, by rw [hr]; exact congrArg some e, h2.1 e, fun hl => ?_⟩
  have := h3.2 hl
  rw [show o = .won from e] at this
  cases this

end

end Yasai.Props

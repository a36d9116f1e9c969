import Verif.Props.Legal
import Verif.Model.Perft

/-!
# C31: perft
-/

namespace Yasai.Props

open Yasai Spec

/-- The moves can be played one after the other, each being legal when it is played. -/
def Game (P : Pos) : List Move → Prop
  | [] => True
  | m :: g => Legal P m ∧ Game (apply P m) g

/-- `n` is the number of games of length `d` from `P`. -/
def GameCount (P : Pos) (d n : Nat) : Prop :=
  ∃ L : List (List Move), L.Nodup ∧ (∀ g, g ∈ L ↔ g.length = d ∧ Game P g) ∧ L.length = n

/-- The number of games is determined by the position and the length. -/
theorem GameCount.unique {P : Pos} {d n n' : Nat} (h : GameCount P d n) (h' : GameCount P d n') :
    n = n' := by
  obtain ⟨L, h1, h2, rfl⟩ := h
  obtain ⟨L', h1', h2', rfl⟩ := h'
  exact ((List.perm_ext_iff_of_nodup h1 h1').2 fun g => by rw [h2, h2']).length_eq

theorem gameCount_zero (P : Pos) : GameCount P 0 1 := by
  refine ⟨[[]], by simp, fun g => ?_, rfl⟩
  simp only [List.mem_cons, List.not_mem_nil, or_false, List.length_eq_zero_iff]
  constructor
  · rintro rfl; exact ⟨rfl, trivial⟩
  · exact And.left

section
variable {E : Env} {K : Backend} {pp : CorePartialPosition} {ms : List Move} {p : Position}

theorem Reached.move (h : Reached E K pp ms p) {m : Move} {p' : Position} (hl : Legal (view p) m)
    (hd : p.doMove E K m = some p') : Reached E K pp (m :: ms) p' := by
  obtain ⟨p0, h0, hs⟩ := h
  exact ⟨p0, h0, hs.move hl hd⟩

/-- The loop over the moves of one node. -/
theorem perft_loop (hK : K ∈ backends) (h : Reached E K pp ms p)
    (d : Nat) (rec : Position → Option (Nat × Position))
    (hrec : ∀ m p', Reached E K pp (m :: ms) p' → ∀ n q, rec p' = some (n, q) →
      q = p' ∧ GameCount (view p') d n)
    (l : List Move) (hnd : l.Nodup) (hl : ∀ m ∈ l, Legal (view p) m) (a : Nat) (n : Nat)
    (q : Position)
    (hf : l.foldlM (fun (acc : Nat × Position) m => do
      let (n, q) ← perftStep E K acc.2 m rec
      pure (acc.1 + n, q)) (a, p) = some (n, q)) :
    q = p ∧ ∃ L : List (List Move), L.Nodup ∧
      (∀ g, g ∈ L ↔ ∃ m ∈ l, ∃ g', g = m :: g' ∧ g'.length = d ∧ Game (apply (view p) m) g') ∧
      n = a + L.length := by
  induction l generalizing a with
  | nil => cases hf; exact ⟨rfl, [], .nil, by simp, rfl⟩
  | cons m l ih =>
    rw [List.foldlM_cons] at hf
    simp only [Option.bind_eq_bind, Option.pure_def, Option.bind_eq_some_iff] at hf
    obtain ⟨⟨a', q'⟩, ⟨⟨n1, q1⟩, hstep, e⟩, hf⟩ := hf
    cases e
    have hleg := hl m List.mem_cons_self
    simp only [perftStep, Option.bind_eq_bind, Option.pure_def, Option.bind_eq_some_iff] at hstep
    obtain ⟨p', hd, ⟨n', p''⟩, hr, q2, hu, e⟩ := hstep
    cases e
    obtain ⟨rfl, L1, hL1, hL1m, rfl⟩ := hrec m p' (h.move hleg hd) _ _ hr
    have hu' := C01_undo_inverts_do E K hK _ _ _ (shape_drops (shape_of_legal hleg)) hd
    rw [hu'] at hu
    cases hu
    have hview := (C03_do_move_is_rules E K p _ m hd).1
    rw [hview] at hL1m
    rw [List.nodup_cons] at hnd
    obtain ⟨hq, L2, hL2, hL2m, hn⟩ :=
      ih hnd.2 (fun m hm => hl m (List.mem_cons_of_mem _ hm)) _ hf
    refine ⟨hq, L1.map (m :: ·) ++ L2, ?_, ?_, ?_⟩
    · rw [List.nodup_append]
      refine ⟨hL1.map _ fun a b hab e => hab (by cases e; rfl), hL2, ?_⟩
      rintro g hg1 g' hg2 rfl
      rw [List.mem_map] at hg1
      obtain ⟨g1, _, rfl⟩ := hg1
      rw [hL2m] at hg2
      obtain ⟨m', hm', _, e, _⟩ := hg2
      cases e
      exact hnd.1 hm'
    · intro g
      rw [List.mem_append, List.mem_map, hL2m]
      constructor
      · rintro (⟨g', hg', rfl⟩ | ⟨m', hm', h⟩)
        · exact ⟨m, List.mem_cons_self, g', rfl, (hL1m g').1 hg'⟩
        · exact ⟨m', List.mem_cons_of_mem _ hm', h⟩
      · rintro ⟨m', hm', g', rfl, h⟩
        rcases List.mem_cons.1 hm' with rfl | hm'
        · exact .inl ⟨g', (hL1m g').2 h, rfl⟩
        · exact .inr ⟨m', hm', g', rfl, h⟩
    · rw [hn, List.length_append, List.length_map]
      omega

/-- One level of the recursion, given the result for the positions after one move. -/
theorem perft_node (hK : K ∈ backends) (hv : Valid (rootView pp)) (h : Reached E K pp ms p)
    (d : Nat) (rec : Position → Option (Nat × Position))
    (hrec : ∀ m p', Reached E K pp (m :: ms) p' → ∀ n q, rec p' = some (n, q) →
      q = p' ∧ GameCount (view p') d n)
    {l : List Move} (hl : p.legalMoves E K = some l) {n : Nat} {q : Position}
    (hf : l.foldlM (fun (acc : Nat × Position) m => do
      let (n, q) ← perftStep E K acc.2 m rec
      pure (acc.1 + n, q)) (0, p) = some (n, q)) :
    q = p ∧ GameCount (view p) (d + 1) n := by
  obtain ⟨hnd, hmem⟩ := legalMoves_exact hK hv h hl
  obtain ⟨hq, L, hL, hLm, hn⟩ := perft_loop hK h d rec hrec l hnd (fun m hm => (hmem m).1 hm) 0 n q hf
  refine ⟨hq, L, hL, fun g => ?_, by omega⟩
  rw [hLm]
  constructor
  · rintro ⟨m, hm, g', rfl, h1, h2⟩
    exact ⟨by rw [List.length_cons, h1], (hmem m).1 hm, h2⟩
  · rintro ⟨h1, h2⟩
    cases g with
    | nil => cases h1
    | cons m g' =>
      refine ⟨m, (hmem m).2 h2.1, g', rfl, ?_, h2.2⟩
      rw [List.length_cons] at h1
      omega

theorem gameCount_one (hK : K ∈ backends) (hv : Valid (rootView pp)) (h : Reached E K pp ms p)
    {l : List Move} (hl : p.legalMoves E K = some l) : GameCount (view p) 1 l.length := by
  obtain ⟨hnd, hmem⟩ := legalMoves_exact hK hv h hl
  refine ⟨l.map (fun m => [m]), hnd.map _ fun a b hab e => hab (by cases e; rfl), fun g => ?_,
    List.length_map _⟩
  rw [List.mem_map]
  constructor
  · rintro ⟨m, hm, rfl⟩
    exact ⟨rfl, (hmem m).1 hm, trivial⟩
  · rintro ⟨h1, h2⟩
    cases g with
    | nil => cases h1
    | cons m g =>
      rw [List.length_cons] at h1
      have : g = [] := List.length_eq_zero_iff.1 (by omega)
      subst this
      exact ⟨m, (hmem m).2 h2.1, rfl⟩

end

/-- C31, unit-test variant: `perft(depth)` counts the games of length `depth` and leaves the
position unchanged. -/
theorem C31_perft_test (E : Env) (K : Backend) (hK : K ∈ backends) (pp : CorePartialPosition)
    (hv : Valid (rootView pp)) (d : Nat) (ms : List Move) (p : Position) (h : Reached E K pp ms p)
    (n : Nat) (q : Position) (hp : perftTest E K d p = some (n, q)) :
    q = p ∧ GameCount (view p) d n := by
  induction d generalizing ms p n q with
  | zero =>
    cases hp
    exact ⟨rfl, gameCount_zero _⟩
  | succ d ih =>
    simp only [perftTest, Option.bind_eq_bind, Option.bind_eq_some_iff] at hp
    obtain ⟨l, hl, hf⟩ := hp
    exact perft_node hK hv h d _ (fun m p' hr n q hq => ih _ p' hr n q hq) hl hf

/-- C31, example and benchmark variant: for `depth ≥ 1`, `perft(depth)` counts the games of length
`depth` and leaves the position unchanged (`perft(0)` counts like `perft(1)`). -/
theorem C31_perft (E : Env) (K : Backend) (hK : K ∈ backends) (pp : CorePartialPosition)
    (hv : Valid (rootView pp)) (d : Nat) (ms : List Move) (p : Position) (h : Reached E K pp ms p)
    (n : Nat) (q : Position) (hp : perft E K d p = some (n, q)) :
    q = p ∧ GameCount (view p) (max d 1) n := by
  have leaf : ∀ d, d ≤ 1 → ∀ p n q, perft E K d p = some (n, q) →
      ∃ l, p.legalMoves E K = some l ∧ n = l.length ∧ q = p := by
    intro d hd p n q hp
    have hd : d = 0 ∨ d = 1 := by omega
    rcases hd with rfl | rfl <;>
    · simp only [perft, Option.bind_eq_bind, Option.bind_eq_some_iff, Option.pure_def] at hp
      obtain ⟨l, hl, e⟩ := hp
      cases e
      exact ⟨l, hl, rfl, rfl⟩
  induction d using Nat.strongRecOn generalizing ms p n q with
  | _ d ih =>
    by_cases hd : d ≤ 1
    · obtain ⟨l, hl, rfl, rfl⟩ := leaf d hd p n q hp
      rw [Nat.max_eq_right hd]
      exact ⟨rfl, gameCount_one hK hv h hl⟩
    · rw [Nat.max_eq_left (by omega)]
      match d, hd, hp, ih with
      | 2, _, hp, ih =>
        simp only [perft, Option.bind_eq_bind, Option.bind_eq_some_iff] at hp
        obtain ⟨l, hl, hf⟩ := hp
        refine perft_node hK hv h 1 (fun p' => do
          let l ← p'.legalMoves E K
          pure (l.length, p')) (fun m p' hr n q hq => ?_) hl hf
        simp only [Option.bind_eq_bind, Option.bind_eq_some_iff, Option.pure_def] at hq
        obtain ⟨l', hl', e⟩ := hq
        cases e
        exact ⟨rfl, gameCount_one hK hv hr hl'⟩
      | d + 3, _, hp, ih =>
        simp only [perft, Option.bind_eq_bind, Option.bind_eq_some_iff] at hp
        obtain ⟨l, hl, hf⟩ := hp
        refine perft_node hK hv h (d + 2) (perft E K (d + 2)) (fun m p' hr n q hq => ?_) hl hf
        have := ih (d + 2) (by omega) _ p' hr n q hq
        rw [Nat.max_eq_left (by omega)] at this
        exact this

/-- C31.  The two variants agree for `depth ≥ 1`. -/
theorem C31_variants_agree (E : Env) (K : Backend) (hK : K ∈ backends) (pp : CorePartialPosition)
    (hv : Valid (rootView pp)) (d : Nat) (hd : 1 ≤ d) (ms : List Move) (p : Position)
    (h : Reached E K pp ms p) (r r' : Nat × Position) (hp : perft E K d p = some r)
    (hp' : perftTest E K d p = some r') : r = r' := by
  obtain ⟨h1, h2⟩ := C31_perft E K hK pp hv d ms p h r.1 r.2 hp
  obtain ⟨h1', h2'⟩ := C31_perft_test E K hK pp hv d ms p h r'.1 r'.2 hp'
  rw [Nat.max_eq_left hd] at h2
  exact Prod.ext (h2.unique h2') (h1.trans h1'.symm)

/-! ## A concrete case -/

section
open Yasai.Examples

/-- Two kings and a lance that may promote. -/
def endgame : CorePartialPosition where
  side := .black
  ply := 1#16
  hands := fun _ => handOf []
  board := boardOf ([(9,9,.king,.black),(5,3,.lance,.black),(1,1,.king,.white)])

theorem endgame_valid : Valid (rootView endgame) := by decide +kernel

/-- Both variants return on this position, with depth 2. -/
example : ∃ p n, Reached env0 CoreBB.backend endgame [] p ∧
    perft env0 CoreBB.backend 2 p = some (n, p) ∧
    perftTest env0 CoreBB.backend 2 p = some (n, p) ∧ n = 18 := by
  have h : (Position.new env0 CoreBB.backend endgame).any (fun p =>
      (perft env0 CoreBB.backend 2 p).any (fun r => r.1 == 18) &&
      (perftTest env0 CoreBB.backend 2 p).any (fun r => r.1 == 18)) = true := by decide +kernel
  simp only [Option.any_eq_true, Bool.and_eq_true, beq_iff_eq] at h
  obtain ⟨p, hp, ⟨⟨n, q⟩, h1, h2⟩, ⟨⟨n', q'⟩, h1', h2'⟩⟩ := h
  have hr : Reached env0 CoreBB.backend endgame [] p := ⟨p, hp, .start⟩
  have e := (C31_perft _ _ core_mem _ endgame_valid _ _ _ hr _ _ h1).1
  have e' := (C31_perft_test _ _ core_mem _ endgame_valid _ _ _ hr _ _ h1').1
  simp only at h2 h2'
  subst h2 h2' e e'
  exact ⟨_, _, hr, h1, h1', rfl⟩

end

end Yasai.Props

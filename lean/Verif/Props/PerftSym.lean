import Verif.Props.Perft
import Verif.Props.Symmetry

/-!
# C48: perft numbers are invariant under the symmetries of the board
-/

namespace Yasai.Props

open Yasai Spec

theorem game_sym (σ : Sym) (P : Pos) (g : List Move) :
    Game (σ.pos P) (g.map σ.move) ↔ Game P g := by
  induction g generalizing P with
  | nil => exact Iff.rfl
  | cons m g ih =>
    show Legal _ _ ∧ Game _ _ ↔ Legal _ _ ∧ Game _ _
    rw [σ.legal, σ.apply, ih]

theorem map_move_move (σ : Sym) (g : List Move) : (g.map σ.move).map σ.move = g := by
  rw [List.map_map]
  exact (List.map_congr_left fun m _ => σ.move_move m).trans (List.map_id g)

theorem gameCount_sym (σ : Sym) {P : Pos} {d n : Nat} (h : GameCount P d n) :
    GameCount (σ.pos P) d n := by
  obtain ⟨L, h1, h2, h3⟩ := h
  refine ⟨L.map (List.map σ.move), ?_, fun g => ?_, by rw [List.length_map, h3]⟩
  · exact h1.map _ fun a b hab e => hab (by rw [← map_move_move σ a, e, map_move_move])
  · rw [List.mem_map]
    constructor
    · rintro ⟨g', hg', rfl⟩
      rw [List.length_map, game_sym]
      exact (h2 g').1 hg'
    · rintro ⟨hl, hg⟩
      refine ⟨g.map σ.move, (h2 _).2 ⟨by rw [List.length_map, hl], ?_⟩, map_move_move σ g⟩
      rw [← game_sym σ, map_move_move]
      exact hg

/-- C48.  If `p'` shows the position of `p` rotated with colours exchanged, or mirrored, then `perft`
gives the same numbers on both, at every depth, whatever the histories, Zobrist tables and backends. -/
theorem C48_perft_symmetry (E E' : Env) (K K' : Backend) (hK : K ∈ backends) (hK' : K' ∈ backends)
    (pp pp' : CorePartialPosition) (hv : Valid (rootView pp)) (hv' : Valid (rootView pp'))
    (ms ms' : List Move) (p p' : Position) (h : Reached E K pp ms p) (h' : Reached E' K' pp' ms' p')
    (hsym : Rotated (view p) (view p') ∨ Reflected (view p) (view p'))
    (d n n' : Nat) (q q' : Position) (hp : perft E K d p = some (n, q))
    (hp' : perft E' K' d p' = some (n', q')) : n' = n := by
  have c := (C31_perft E K hK pp hv d ms p h n q hp).2
  have c' := (C31_perft E' K' hK' pp' hv' d ms' p' h' n' q' hp').2
  rcases hsym with hsym | hsym
  · rw [rotated_eq hsym] at c'
    exact c'.unique (gameCount_sym rotation c)
  · rw [reflected_eq hsym] at c'
    exact c'.unique (gameCount_sym reflection c)

section
open Yasai.Examples

/-- `endgame` rotated, with colours exchanged. -/
def endgameRot : CorePartialPosition where
  side := .white
  ply := 1#16
  hands := fun _ => handOf []
  board := boardOf ([(1,1,.king,.white),(5,7,.lance,.white),(9,9,.king,.black)])

/-- C48 on two positions that are not the same: both counts are defined. -/
example : ∃ p p' n q n' q', Reached env0 CoreBB.backend endgame [] p ∧
    Reached env0 CoreBB.backend endgameRot [] p' ∧ Rotated (view p) (view p') ∧
    perft env0 CoreBB.backend 2 p = some (n, q) ∧
    perft env0 CoreBB.backend 2 p' = some (n', q') := by
  have h : (Position.new env0 CoreBB.backend endgame).any (fun p =>
      (perft env0 CoreBB.backend 2 p).isSome) = true := by decide +kernel
  have h' : (Position.new env0 CoreBB.backend endgameRot).any (fun p =>
      (perft env0 CoreBB.backend 2 p).isSome) = true := by decide +kernel
  simp only [Option.any_eq_true, Option.isSome_iff_exists, Prod.exists] at h h'
  obtain ⟨p, hp, n, q, h1⟩ := h
  obtain ⟨p', hp', n', q', h1'⟩ := h'
  refine ⟨p, p', n, q, n', q', ⟨p, hp, .start⟩, ⟨p', hp', .start⟩, ?_, h1, h1'⟩
  rw [view_new core_mem hp, view_new core_mem hp']
  refine ⟨by decide +kernel, fun c k => ?_, rfl⟩
  cases c <;> cases k <;> rfl

end

end Yasai.Props

import Verif.Props.Legal
import Verif.Proofs.Symmetry

/-!
# C32, C33: symmetries
-/

namespace Yasai.Props

open Yasai Spec

/-- The piece of the other colour. -/
def swapColor (p : Piece) : Piece := ⟨p.kind, p.color.flip⟩

/-- `P'` is `P` with the board rotated by 180 degrees and the colours of all pieces, hands and the
side to move exchanged. -/
structure Rotated (P P' : Pos) : Prop where
  board : ∀ s s' : Square, s.file + s'.file = 10 → s.rank + s'.rank = 10 →
    P'.board s' = (P.board s).map swapColor
  hand : ∀ c k, P'.hand c k = P.hand c.flip k
  side : P'.side = P.side.flip

/-- `P'` is `P` with the board reflected left to right. -/
structure Reflected (P P' : Pos) : Prop where
  board : ∀ s s' : Square, s.file + s'.file = 10 → s'.rank = s.rank → P'.board s' = P.board s
  hand : ∀ c k, P'.hand c k = P.hand c k
  side : P'.side = P.side

/-- `m'` is `m` rotated by 180 degrees, with the colour of a dropped piece exchanged. -/
def RotatedMove : Move → Move → Prop
  | .normal frm to pr, .normal frm' to' pr' =>
    frm.file + frm'.file = 10 ∧ frm.rank + frm'.rank = 10 ∧
    to.file + to'.file = 10 ∧ to.rank + to'.rank = 10 ∧ pr' = pr
  | .drop to pc, .drop to' pc' =>
    to.file + to'.file = 10 ∧ to.rank + to'.rank = 10 ∧ pc' = swapColor pc
  | _, _ => False

/-- `m'` is `m` reflected left to right. -/
def ReflectedMove : Move → Move → Prop
  | .normal frm to pr, .normal frm' to' pr' =>
    frm.file + frm'.file = 10 ∧ frm'.rank = frm.rank ∧
    to.file + to'.file = 10 ∧ to'.rank = to.rank ∧ pr' = pr
  | .drop to pc, .drop to' pc' => to.file + to'.file = 10 ∧ to'.rank = to.rank ∧ pc' = pc
  | _, _ => False

theorem sq_of_coords {s t : Square} (h1 : s.file = t.file) (h2 : s.rank = t.rank) : s = t := by
  apply Fin.ext
  have a := val_coords s
  have b := val_coords t
  rw [h1, h2] at a
  omega

theorem rotated_eq {P P' : Pos} (h : Rotated P P') : P' = rotation.pos P := by
  obtain ⟨b, hd, sd⟩ := P
  obtain ⟨b', hd', sd'⟩ := P'
  obtain ⟨h1, h2, h3⟩ := h
  simp only [Sym.pos, Pos.mk.injEq]
  refine ⟨?_, ?_, h3⟩
  · funext s
    have a := rot180_coords s
    exact h1 (rot180 s) s (by omega) (by omega)
  · funext c k; exact h2 c k

theorem reflected_eq {P P' : Pos} (h : Reflected P P') : P' = reflection.pos P := by
  obtain ⟨b, hd, sd⟩ := P
  obtain ⟨b', hd', sd'⟩ := P'
  obtain ⟨h1, h2, h3⟩ := h
  simp only [Sym.pos, Pos.mk.injEq]
  refine ⟨?_, ?_, h3⟩
  · funext s
    have a := mirrorLR_coords s
    have := h1 (mirrorLR s) s (by omega) (by omega)
    simp only at this
    rw [this]
    show b (mirrorLR s) = (b (mirrorLR s)).map _
    cases b (mirrorLR s) <;> rfl
  · funext c k; exact h2 c k

theorem rotatedMove_eq {m m' : Move} (h : RotatedMove m m') : m' = rotation.move m := by
  cases m with
  | normal frm to pr =>
    cases m' with
    | normal frm' to' pr' =>
      obtain ⟨h1, h2, h3, h4, rfl⟩ := h
      have a := rot180_coords frm
      have b := rot180_coords to
      have e1 : frm' = rot180 frm := sq_of_coords (by omega) (by omega)
      have e2 : to' = rot180 to := sq_of_coords (by omega) (by omega)
      rw [e1, e2]; rfl
    | drop _ _ => exact h.elim
  | drop to pc =>
    cases m' with
    | normal _ _ _ => exact h.elim
    | drop to' pc' =>
      obtain ⟨h1, h2, rfl⟩ := h
      have b := rot180_coords to
      have e2 : to' = rot180 to := sq_of_coords (by omega) (by omega)
      rw [e2]; rfl

theorem reflectedMove_eq {m m' : Move} (h : ReflectedMove m m') : m' = reflection.move m := by
  cases m with
  | normal frm to pr =>
    cases m' with
    | normal frm' to' pr' =>
      obtain ⟨h1, h2, h3, h4, rfl⟩ := h
      have a := mirrorLR_coords frm
      have b := mirrorLR_coords to
      have e1 : frm' = mirrorLR frm := sq_of_coords (by omega) (by omega)
      have e2 : to' = mirrorLR to := sq_of_coords (by omega) (by omega)
      rw [e1, e2]; rfl
    | drop _ _ => exact h.elim
  | drop to pc =>
    cases m' with
    | normal _ _ _ => exact h.elim
    | drop to' pc' =>
      obtain ⟨h1, h2, rfl⟩ := h
      have b := mirrorLR_coords to
      have e2 : to' = mirrorLR to := sq_of_coords (by omega) (by omega)
      rw [e2]; rfl

/-- What a symmetry of the rules means for the API. -/
theorem symmetric (σ : Sym) {E E' : Env} {K K' : Backend} (hK : K ∈ backends) (hK' : K' ∈ backends)
    {pp pp' : CorePartialPosition} (hv : Valid (rootView pp)) (hv' : Valid (rootView pp'))
    {ms ms' : List Move} {p p' : Position} (h : Reached E K pp ms p) (h' : Reached E' K' pp' ms' p')
    (hsym : view p' = σ.pos (view p)) :
    p'.inCheck K' = p.inCheck K ∧
    ∀ l l', p.legalMoves E K = some l → p'.legalMoves E' K' = some l' →
      ∀ m, σ.move m ∈ l' ↔ m ∈ l := by
  constructor
  · obtain ⟨b, hb, hbc⟩ := C08_in_check_exact E K hK pp hv ms p h
    obtain ⟨b', hb', hbc'⟩ := C08_in_check_exact E' K' hK' pp' hv' ms' p' h'
    have e : InCheck p'.pieceAt p'.sideToMove ↔ InCheck p.pieceAt p.sideToMove := by
      have : InCheck (view p').board (view p').side ↔ InCheck (view p).board (view p).side := by
        rw [hsym]; exact σ.inCheck
      exact this
    rw [hb, hb']
    have : (b' = true) ↔ (b = true) := hbc'.trans (e.trans hbc.symm)
    cases b <;> cases b' <;> simp_all
  · intro l l' hl hl' m
    rw [(legalMoves_exact hK hv h hl).2, (legalMoves_exact hK' hv' h' hl').2, hsym, σ.legal]

/-- C32.  Colour symmetry: if `p'` shows the rotated position of `p` with colours exchanged, both
report the same check, and the legal moves of `p'` are the rotated legal moves of `p`. -/
theorem C32_colour_symmetry (E E' : Env) (K K' : Backend) (hK : K ∈ backends) (hK' : K' ∈ backends)
    (pp pp' : CorePartialPosition) (hv : Valid (rootView pp)) (hv' : Valid (rootView pp'))
    (ms ms' : List Move) (p p' : Position) (h : Reached E K pp ms p) (h' : Reached E' K' pp' ms' p')
    (hrot : Rotated (view p) (view p')) :
    p'.inCheck K' = p.inCheck K ∧
    ∀ l l', p.legalMoves E K = some l → p'.legalMoves E' K' = some l' →
      (∀ m m', RotatedMove m m' → (m' ∈ l' ↔ m ∈ l)) ∧ l'.length = l.length := by
  obtain ⟨h1, h2⟩ := symmetric rotation hK hK' hv hv' h h' (rotated_eq hrot)
  refine ⟨h1, fun l l' hl hl' => ⟨fun m m' hm => ?_, ?_⟩⟩
  · rw [rotatedMove_eq hm]; exact h2 l l' hl hl' m
  · have hp : l'.Perm (l.map rotation.move) := by
      refine (List.perm_ext_iff_of_nodup (legalMoves_exact hK' hv' h' hl').1 ?_).2 fun m' => ?_
      · exact ((legalMoves_exact hK hv h hl).1).map _ fun a b hab e => hab
          (by rw [← rotation.move_move a, e, rotation.move_move])
      · rw [List.mem_map]
        constructor
        · intro hm
          refine ⟨rotation.move m', ?_, rotation.move_move m'⟩
          rw [← h2 l l' hl hl', rotation.move_move]; exact hm
        · rintro ⟨m, hm, rfl⟩
          exact (h2 l l' hl hl' m).2 hm
    rw [hp.length_eq, List.length_map]

/-- C33.  Left-right symmetry: if `p'` shows the mirrored position of `p`, both report the same
check, and the legal moves of `p'` are the mirrored legal moves of `p`. -/
theorem C33_mirror_symmetry (E E' : Env) (K K' : Backend) (hK : K ∈ backends) (hK' : K' ∈ backends)
    (pp pp' : CorePartialPosition) (hv : Valid (rootView pp)) (hv' : Valid (rootView pp'))
    (ms ms' : List Move) (p p' : Position) (h : Reached E K pp ms p) (h' : Reached E' K' pp' ms' p')
    (hrefl : Reflected (view p) (view p')) :
    p'.inCheck K' = p.inCheck K ∧
    ∀ l l', p.legalMoves E K = some l → p'.legalMoves E' K' = some l' →
      (∀ m m', ReflectedMove m m' → (m' ∈ l' ↔ m ∈ l)) ∧ l'.length = l.length := by
  obtain ⟨h1, h2⟩ := symmetric reflection hK hK' hv hv' h h' (reflected_eq hrefl)
  refine ⟨h1, fun l l' hl hl' => ⟨fun m m' hm => ?_, ?_⟩⟩
  · rw [reflectedMove_eq hm]; exact h2 l l' hl hl' m
  · have hp : l'.Perm (l.map reflection.move) := by
      refine (List.perm_ext_iff_of_nodup (legalMoves_exact hK' hv' h' hl').1 ?_).2 fun m' => ?_
      · exact ((legalMoves_exact hK hv h hl).1).map _ fun a b hab e => hab
          (by rw [← reflection.move_move a, e, reflection.move_move])
      · rw [List.mem_map]
        constructor
        · intro hm
          refine ⟨reflection.move m', ?_, reflection.move_move m'⟩
          rw [← h2 l l' hl hl', reflection.move_move]; exact hm
        · rintro ⟨m, hm, rfl⟩
          exact (h2 l l' hl hl' m).2 hm
    rw [hp.length_eq, List.length_map]

/-! ## Concrete cases -/

section
open Yasai.Examples

/-- `skirmish` rotated, with colours exchanged. -/
def skirmishRot : CorePartialPosition where
  side := .white
  ply := 41#16
  hands := fun c => match c with
    | .white => handOf [(.pawn,2),(.knight,1)]
    | .black => handOf [(.bishop,1)]
  board := boardOf ([
    (5,1,.king,.white),(5,2,.gold,.white),(8,2,.rook,.white),(3,3,.pawn,.white),(1,1,.lance,.white),
    (5,9,.king,.black),(5,7,.rook,.black),(8,7,.proSilver,.black),(6,7,.pawn,.black),
    (9,9,.lance,.black)])

/-- `skirmish` mirrored. -/
def skirmishMirror : CorePartialPosition where
  side := .black
  ply := 1#16
  hands := skirmish.hands
  board := boardOf ([
    (5,9,.king,.black),(5,8,.gold,.black),(8,8,.rook,.black),(3,7,.pawn,.black),(1,9,.lance,.black),
    (5,1,.king,.white),(5,3,.rook,.white),(8,3,.proSilver,.white),(6,3,.pawn,.white),
    (9,1,.lance,.white)])

theorem skirmishRot_valid : Valid (rootView skirmishRot) := by decide +kernel

theorem skirmishMirror_valid : Valid (rootView skirmishMirror) := by decide +kernel

theorem reached_new_isSome {K : Backend} {pp : CorePartialPosition} (hK : K ∈ backends)
    (h : (Position.new env0 K pp).isSome = true) :
    ∃ p, Reached env0 K pp [] p ∧ view p = rootView pp := by
  obtain ⟨p, hp⟩ := Option.isSome_iff_exists.1 h
  exact ⟨p, ⟨p, hp, .start⟩, view_new hK hp⟩

/-- C32 is not vacuous. -/
example : ∃ p p', Reached env0 CoreBB.backend skirmish [] p ∧
    Reached env0 CoreBB.backend skirmishRot [] p' ∧ Rotated (view p) (view p') := by
  obtain ⟨p, h1, h2⟩ := reached_new_isSome (K := CoreBB.backend) (pp := skirmish)
    core_mem (by decide +kernel)
  obtain ⟨p', h1', h2'⟩ := reached_new_isSome (K := CoreBB.backend) (pp := skirmishRot)
    core_mem (by decide +kernel)
  refine ⟨p, p', h1, h1', ?_⟩
  rw [h2, h2']
  refine ⟨by decide +kernel, fun c k => ?_, rfl⟩
  cases c <;> cases k <;> rfl

/-- C33 is not vacuous. -/
example : ∃ p p', Reached env0 CoreBB.backend skirmish [] p ∧
    Reached env0 CoreBB.backend skirmishMirror [] p' ∧ Reflected (view p) (view p') := by
  obtain ⟨p, h1, h2⟩ := reached_new_isSome (K := CoreBB.backend) (pp := skirmish)
    core_mem (by decide +kernel)
  obtain ⟨p', h1', h2'⟩ := reached_new_isSome (K := CoreBB.backend) (pp := skirmishMirror)
    core_mem (by decide +kernel)
  refine ⟨p, p', h1, h1', ?_⟩
  rw [h2, h2']
  exact ⟨by decide +kernel, fun c k => rfl, rfl⟩

end

end Yasai.Props

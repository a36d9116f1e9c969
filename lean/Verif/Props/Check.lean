import Verif.Props.Session
import Verif.Props.Effect
import Verif.Proofs.Inv
import Verif.Proofs.Decide
import Verif.Examples.Positions

/-!
# C08, C09, C16: check detection and independence of history
-/

namespace Yasai.Props

open Yasai Spec

/-- `p` is reached from `Position::new(pp)` by calls of `do_move` with legal moves and of
`undo_move`; `ms` are the moves done and not undone. -/
def Reached (E : Env) (K : Backend) (pp : CorePartialPosition) (ms : List Move) (p : Position) :
    Prop :=
  ∃ p0, Position.new E K pp = some p0 ∧ Session E K (fun p m => Legal (view p) m) p0 ms p

/-- The partial position given to `Position::new`, as the rules see it. -/
def rootView (pp : CorePartialPosition) : Pos where
  board := pp.board
  hand c k := ((pp.hands c).count k).getD 0
  side := pp.side

theorem view_new {E : Env} {K : Backend} (hK : K ∈ backends) {pp : CorePartialPosition}
    {p : Position} (h : Position.new E K pp = some p) : view p = rootView pp := by
  obtain ⟨h1, h2, h3, _⟩ := C35_new_reproduces E K hK pp p h
  unfold view rootView
  congr 1
  · funext s; exact h1 s
  · funext c k; rw [h2]

/-- Every position reached from a valid root is valid, and its caches are exact. -/
theorem reached_inv {E : Env} {K : Backend} (hK : K ∈ backends) {pp : CorePartialPosition}
    {ms : List Move} {p : Position} (hv : Valid (rootView pp)) (h : Reached E K pp ms p) :
    Inv K p ∧ Valid (view p) := by
  obtain ⟨p0, h0, hs⟩ := h
  have hp := hs.play hK (fun _ _ h => shape_of_legal h)
  clear hs
  induction hp with
  | start => exact ⟨inv_new (lawful_of_mem hK) h0, by rw [view_new hK h0]; exact hv⟩
  | move _ ha hm ih =>
    refine ⟨inv_doMove (lawful_of_mem hK) ih.1 ih.2 ha.1 hm, ?_⟩
    have := spec_doMove hm
    rw [view_eq, this]
    exact valid_apply ih.2 ha.1

/-- C08.  `in_check()` is exact after every history. -/
theorem C08_in_check_exact (E : Env) (K : Backend) (hK : K ∈ backends) (pp : CorePartialPosition)
    (hv : Valid (rootView pp)) (ms : List Move) (p : Position) (h : Reached E K pp ms p) :
    ∃ b, p.inCheck K = some b ∧ (b = true ↔ InCheck p.pieceAt p.sideToMove) :=
  inCheck_spec (lawful_of_mem hK) (reached_inv hK hv h).1 (reached_inv hK hv h).2.loose

/-- C09.  `is_check_move(m)` of a legal move predicts exactly whether the opponent is in check
afterwards: by the rules, and as reported by `in_check()` after `do_move(m)`. -/
theorem C09_is_check_move_exact (E : Env) (K : Backend) (hK : K ∈ backends)
    (pp : CorePartialPosition) (hv : Valid (rootView pp)) (ms : List Move) (p : Position)
    (h : Reached E K pp ms p) (m : Move) (hl : Legal (view p) m) :
    ∃ b, p.isCheckMove K m = some b ∧
      (b = true ↔ InCheck (apply (view p) m).board p.sideToMove.flip) ∧
      ∀ p', p.doMove E K m = some p' → p'.inCheck K = some b := by
  obtain ⟨hi, hv'⟩ := reached_inv hK hv h
  obtain ⟨b, hb, hbc⟩ := isCheckMove_spec (lawful_of_mem hK) hi hv' hl.1
  refine ⟨b, hb, hbc, fun p' hm => ?_⟩
  obtain ⟨p0, h0, hs⟩ := h
  have h' : Reached E K pp (m :: ms) p' := ⟨p0, h0, hs.move hl hm⟩
  obtain ⟨b', hb', hbc'⟩ := C08_in_check_exact E K hK pp hv _ p' h'
  rw [hb']
  have hview := (C03_do_move_is_rules E K p p' m hm).1
  have e1 : p'.pieceAt = (apply (view p) m).board := congrArg Pos.board hview
  have e2 : p'.sideToMove = p.sideToMove.flip := by
    have := congrArg Pos.side hview
    cases m with
    | normal frm to pr =>
      obtain ⟨⟨⟨k, hfrm, _⟩, _⟩, _⟩ := hl
      rw [apply_normal_side hfrm] at this
      exact this
    | drop to pc => exact this
  rw [e1, e2] at hbc'
  have : (b' = true) ↔ (b = true) := hbc'.trans hbc.symm
  cases b <;> cases b' <;> simp_all

/-! ## Concrete cases -/

/-- Plays a list of moves (first move first), checking each for legality. -/
def playLegal (E : Env) (K : Backend) (p : Position) : List Move → Option Position
  | [] => some p
  | m :: ms =>
    if Legal (view p) m then (p.doMove E K m).bind fun p' => playLegal E K p' ms else none

theorem session_playLegal {E : Env} {K : Backend} {p0 : Position} (ms : List Move) {p p' : Position}
    {ms0 : List Move} (h0 : Session E K (fun p m => Legal (view p) m) p0 ms0 p)
    (h : playLegal E K p ms = some p') :
    Session E K (fun p m => Legal (view p) m) p0 (ms.reverse ++ ms0) p' := by
  induction ms generalizing p ms0 with
  | nil => cases h; exact h0
  | cons m ms ih =>
    unfold playLegal at h
    split at h
    · next hl =>
      rw [Option.bind_eq_some_iff] at h
      obtain ⟨p1, h1, h2⟩ := h
      rw [List.reverse_cons, List.append_assoc]
      exact ih (h0.move hl h1) h2
    · cases h

theorem reached_playLegal {E : Env} {K : Backend} {pp : CorePartialPosition} {ms : List Move}
    {p : Position} (h : ((Position.new E K pp).bind fun p0 => playLegal E K p0 ms) = some p) :
    Reached E K pp ms.reverse p := by
  rw [Option.bind_eq_some_iff] at h
  obtain ⟨p0, h0, h1⟩ := h
  have := session_playLegal ms (Session.start) h1
  rw [List.append_nil] at this
  exact ⟨p0, h0, this⟩

open Yasai.Examples

/-- The root of the examples is valid. -/
theorem skirmish_valid : Valid (rootView skirmish) := by decide +kernel

/-- The hypotheses of C08 are met, with a check: Black drops a knight that checks the white king. -/
example : ∃ ms p, Reached env0 CoreBB.backend skirmish ms p ∧
    p.inCheck CoreBB.backend = some true ∧ InCheck p.pieceAt p.sideToMove := by
  have h : ((Position.new env0 CoreBB.backend skirmish).bind fun p =>
      playLegal env0 CoreBB.backend p [.drop (sq 6 3) ⟨.knight, .black⟩]).any (fun p =>
        p.inCheck CoreBB.backend == some true) = true := by
    decide +kernel
  simp only [Option.any_eq_true, beq_iff_eq] at h
  obtain ⟨p, hp, hc⟩ := h
  have hr := reached_playLegal hp
  refine ⟨_, p, hr, hc, ?_⟩
  obtain ⟨b, h1, h2⟩ := C08_in_check_exact _ _ core_mem _ skirmish_valid _ _ hr
  rw [hc] at h1
  cases h1
  exact h2.1 rfl

/-- The hypotheses of C09 are met by checking and by quiet moves. -/
example : ∃ p, Reached env0 CoreBB.backend skirmish [] p ∧
    Legal (view p) (.drop (sq 6 3) ⟨.knight, .black⟩) ∧
    p.isCheckMove CoreBB.backend (.drop (sq 6 3) ⟨.knight, .black⟩) = some true ∧
    Legal (view p) (.normal (sq 2 8) (sq 2 3) true) ∧
    p.isCheckMove CoreBB.backend (.normal (sq 2 8) (sq 2 3) true) = some false := by
  have h : (Position.new env0 CoreBB.backend skirmish).any (fun p =>
      decide (Legal (view p) (.drop (sq 6 3) ⟨.knight, .black⟩)) &&
      p.isCheckMove CoreBB.backend (.drop (sq 6 3) ⟨.knight, .black⟩) == some true &&
      decide (Legal (view p) (.normal (sq 2 8) (sq 2 3) true)) &&
      p.isCheckMove CoreBB.backend (.normal (sq 2 8) (sq 2 3) true) == some false) = true := by
    decide +kernel
  simp only [Option.any_eq_true, Bool.and_eq_true, decide_eq_true_eq, beq_iff_eq] at h
  obtain ⟨p, hp, ⟨⟨h1, h2⟩, h3⟩, h4⟩ := h
  exact ⟨p, ⟨p, hp, .start⟩, h1, h2, h3, h4⟩

/-- A discovered check: after pawn moves the black bishop looks at the white king through an own
piece that moves away. -/
def discovered : CorePartialPosition where
  side := .black
  ply := 77#16
  hands := fun _ => handOf []
  board := boardOf ([
    (5,9,.king,.black),(8,8,.bishop,.black),(6,6,.silver,.black),(2,2,.king,.white),
    (1,1,.lance,.white)])

theorem discovered_valid : Valid (rootView discovered) := by decide +kernel

example : ∃ p, Reached env0 CoreBB.backend discovered [] p ∧
    Legal (view p) (.normal (sq 6 6) (sq 6 5) false) ∧
    p.isCheckMove CoreBB.backend (.normal (sq 6 6) (sq 6 5) false) = some true := by
  have h : (Position.new env0 CoreBB.backend discovered).any (fun p =>
      decide (Legal (view p) (.normal (sq 6 6) (sq 6 5) false)) &&
      p.isCheckMove CoreBB.backend (.normal (sq 6 6) (sq 6 5) false) == some true) = true := by
    decide +kernel
  simp only [Option.any_eq_true, Bool.and_eq_true, decide_eq_true_eq, beq_iff_eq] at h
  obtain ⟨p, hp, h1, h2⟩ := h
  exact ⟨p, ⟨p, hp, .start⟩, h1, h2⟩

end Yasai.Props

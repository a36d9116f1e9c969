import Verif.Props.Symmetry
import Verif.Props.Panic
import Verif.Props.MovePanic

/-!
# C69: whole games under the symmetries of the board
-/

namespace Yasai.Props

open Yasai Spec

/-- The games `ms` and `ms'` consist of moves related one by one. -/
def MoveByMove (R : Move → Move → Prop) : List Move → List Move → Prop
  | [], [] => True
  | m :: ms, m' :: ms' => R m m' ∧ MoveByMove R ms ms'
  | _, _ => False

theorem moveByMove_eq {R : Move → Move → Prop} {f : Move → Move} (hf : ∀ m m', R m m' → m' = f m) :
    ∀ {ms ms' : List Move}, MoveByMove R ms ms' → ms' = ms.map f
  | [], [], _ => rfl
  | [], _ :: _, h => h.elim
  | _ :: _, [], h => h.elim
  | m :: ms, m' :: ms', h => by rw [List.map_cons, hf m m' h.1, moveByMove_eq hf h.2]

theorem rotated_pos (P : Pos) : Rotated P (rotation.pos P) := by
  refine ⟨fun s s' h1 h2 => ?_, fun _ _ => rfl, rfl⟩
  have a := rot180_coords s'
  have e : s = rot180 s' := sq_of_coords (by omega) (by omega)
  rw [e]; rfl

theorem reflected_pos (P : Pos) : Reflected P (reflection.pos P) := by
  refine ⟨fun s s' h1 h2 => ?_, fun _ _ => rfl, rfl⟩
  have a := mirrorLR_coords s'
  have e : s = mirrorLR s' := sq_of_coords (by omega) (by omega)
  rw [e]
  show (P.board (mirrorLR s')).map _ = P.board (mirrorLR s')
  cases P.board (mirrorLR s') <;> rfl

/-- The position after a history: the root with the moves in force applied. -/
theorem session_view {E : Env} {K : Backend} {A : Position → Move → Prop} {p0 p : Position}
    {ms : List Move} (h : Play E K A p0 ms p) :
    view p = ms.foldr (fun m P => apply P m) (view p0) := by
  induction h with
  | start => rfl
  | move _ _ hm ih => rw [List.foldr_cons, ← ih]; exact spec_doMove hm

theorem foldr_sym (σ : Sym) (P : Pos) (ms : List Move) :
    (ms.map σ.move).foldr (fun m P => apply P m) (σ.pos P) =
      σ.pos (ms.foldr (fun m P => apply P m) P) := by
  induction ms with
  | nil => rfl
  | cons m ms ih => rw [List.map_cons, List.foldr_cons, ih, σ.apply, List.foldr_cons]

/-- `legal_moves` panics on both or on neither. -/
theorem legalMoves_none_sym (σ : Sym) {E E' : Env} {K K' : Backend} (hK : K ∈ backends)
    (hK' : K' ∈ backends) {pp pp' : CorePartialPosition} (hv : Valid (rootView pp))
    (hv' : Valid (rootView pp')) {ms ms' : List Move} {p p' : Position} (h : Reached E K pp ms p)
    (h' : Reached E' K' pp' ms' p') (hsym : view p' = σ.pos (view p)) :
    p.legalMoves E K = none → p'.legalMoves E' K' = none := by
  rw [C40_panics_iff E K hK pp hv ms p h, C40_panics_iff E' K' hK' pp' hv' ms' p' h', hsym]
  rintro ⟨h1, l, h2, h3, h4⟩
  refine ⟨fun hc => h1 (σ.inCheck.1 hc), l.map σ.move, ?_, by rw [List.length_map, h3], ?_⟩
  · exact h2.map _ fun a b hab e => hab (by rw [← σ.move_move a, e, σ.move_move])
  · intro m' hm'
    obtain ⟨m, hm, rfl⟩ := List.mem_map.1 hm'
    obtain ⟨h5, h6⟩ := h4 m hm
    refine ⟨σ.pseudoLegal.2 h5, fun hp hmate => h6 ?_ ?_⟩
    · cases m with
      | normal => exact hp.elim
      | drop to pc => exact hp
    · rw [σ.apply] at hmate
      exact σ.mated.1 hmate

/-- `is_check_move` answers alike on corresponding legal moves. -/
theorem isCheckMove_sym (σ : Sym) {E E' : Env} {K K' : Backend} (hK : K ∈ backends)
    (hK' : K' ∈ backends) {pp pp' : CorePartialPosition} (hv : Valid (rootView pp))
    (hv' : Valid (rootView pp')) {ms ms' : List Move} {p p' : Position} (h : Reached E K pp ms p)
    (h' : Reached E' K' pp' ms' p') (hsym : view p' = σ.pos (view p)) {m : Move}
    (hl : Legal (view p) m) : p'.isCheckMove K' (σ.move m) = p.isCheckMove K m := by
  have hl' : Legal (view p') (σ.move m) := by rw [hsym]; exact σ.legal.2 hl
  obtain ⟨b, hb, hbc, _⟩ := C09_is_check_move_exact E K hK pp hv ms p h m hl
  obtain ⟨b', hb', hbc', _⟩ := C09_is_check_move_exact E' K' hK' pp' hv' ms' p' h' _ hl'
  have hs : p'.sideToMove = σ.col p.sideToMove := congrArg Pos.side hsym
  rw [hsym, σ.apply, hs, ← σ.col_flip] at hbc'
  have e : b' = true ↔ b = true := hbc'.trans ((σ.inCheck).trans hbc.symm)
  rw [hb, hb']
  cases b <;> cases b' <;> simp_all

theorem count_eighteen {h : Hand} {k : PieceKind} : h.count k = some 18 ↔ (h.count k).getD 0 = 18 := by
  cases h.count k <;> simp

/-- `do_move` panics on both or on neither, at equal values of the move counter. -/
theorem movePanics_sym (σ : Sym) {E E' : Env} {p p' : Position} (hE : E'.overflowChecks = E.overflowChecks)
    (hply : p'.ply = p.ply) (hsym : view p' = σ.pos (view p)) {m : Move} :
    MovePanics E' p' (σ.move m) ↔ MovePanics E p m := by
  have hb : ∀ s, p'.pieceAt (σ.sq s) = (p.pieceAt s).map σ.piece := fun s => by
    have := congrFun (congrArg Pos.board hsym) (σ.sq s)
    refine this.trans ?_
    show ((view p).board (σ.sq (σ.sq s))).map _ = _
    rw [σ.sq_sq]; rfl
  have hh : ∀ k, ((p'.hand p'.sideToMove).count k).getD 0 =
      ((p.hand p.sideToMove).count k).getD 0 := fun k => by
    have hs : p'.sideToMove = σ.col p.sideToMove := congrArg Pos.side hsym
    have := congrFun (congrFun (congrArg Pos.hand hsym) p'.sideToMove) k
    refine this.trans ?_
    show ((p.hand (σ.col p'.sideToMove)).count k).getD 0 = _
    rw [hs, σ.col_col]
  cases m with
  | normal frm to pr =>
    simp only [MovePanics, Sym.move, hb, hE, hply, count_eighteen, hh]
    refine or_congr (by cases p.pieceAt frm <;> simp) (or_congr ?_ (or_congr ?_ (or_congr ?_ Iff.rfl)))
    · cases p.pieceAt to with
      | none => simp
      | some q =>
        obtain ⟨k, c⟩ := q
        simp only [Option.map_some, Sym.piece, Option.some.injEq, Piece.mk.injEq]
        constructor
        · rintro ⟨_, h1, _⟩; exact ⟨c, h1, rfl⟩
        · rintro ⟨_, h1, _⟩; exact ⟨_, h1, rfl⟩
    · cases p.pieceAt to with
      | none => simp
      | some q => simp [Sym.piece]
    · cases p.pieceAt frm with
      | none => simp
      | some q => simp [Sym.piece]
  | drop to pc =>
    simp only [MovePanics, Sym.move, hE, hply, hh, Sym.piece]

/-- The image of a game can be played too. -/
theorem play_sym (σ : Sym) {E E' : Env} {K K' : Backend} (hK : K ∈ backends) (hK' : K' ∈ backends)
    {pp pp' : CorePartialPosition} (hsym : rootView pp' = σ.pos (rootView pp))
    (hply : pp'.ply = pp.ply) (hE : E'.overflowChecks = E.overflowChecks)
    {ms : List Move} {p p0 p0' : Position} (h0 : Position.new E K pp = some p0)
    (h0' : Position.new E' K' pp' = some p0')
    (h : Play E K (fun p m => Legal (view p) m) p0 ms p) :
    ∃ p', Play E' K' (fun p m => Legal (view p) m) p0' (ms.map σ.move) p' ∧ p'.ply = p.ply := by
  induction h with
  | start =>
    exact ⟨p0', .start, by rw [(C35_new_reproduces E K hK pp p0 h0).2.2.2,
      (C35_new_reproduces E' K' hK' pp' p0' h0').2.2.2, hply]⟩
  | @move ms q q' m hq hl hm ih =>
    obtain ⟨p', hp', hpl⟩ := ih
    have hview : view p' = σ.pos (view q) := by
      rw [session_view hp', session_view hq, view_new hK h0, view_new hK' h0', hsym, foldr_sym]
    have hr : Reached E' K' pp' _ p' := ⟨p0', h0', hp'.session⟩
    have hr0 : Reached E K pp _ q := ⟨p0, h0, hq.session⟩
    have hno : p'.doMove E' K' (σ.move m) ≠ none := by
      rw [Ne, C52_do_move_panics_iff E' K' hK' pp' _ p' hr.visited, movePanics_sym σ hE hpl hview,
        ← C52_do_move_panics_iff E K hK pp _ q hr0.visited, hm]
      exact Option.some_ne_none _
    obtain ⟨p'', hp''⟩ := Option.ne_none_iff_exists'.1 hno
    exact ⟨p'', hp'.move (by rw [hview]; exact σ.legal.2 hl) hp'', by
      rw [(C03_do_move_is_rules E' K' p' p'' _ hp'').2, (C03_do_move_is_rules E K q q' _ hm).2, hpl]⟩

/-- `Position::new` accepts the image of a position that it accepts. -/
theorem new_sym (σ : Sym) {E E' : Env} {K K' : Backend} (hK : K ∈ backends) (hK' : K' ∈ backends)
    {pp pp' : CorePartialPosition} (hsym : rootView pp' = σ.pos (rootView pp))
    (h : Position.new E K pp ≠ none) : Position.new E' K' pp' ≠ none := by
  rw [Ne, C35_new_panics_iff E K hK] at h
  rw [Ne, C35_new_panics_iff E' K' hK']
  rintro ⟨c, k, n, hn, hlt⟩
  have := congrFun (congrFun (congrArg Pos.hand hsym) c) k
  have e : ((pp.hands (σ.col c)).count k).getD 0 = n := by
    refine Eq.trans this.symm ?_
    show ((pp'.hands c).count k).getD 0 = n
    rw [hn]; rfl
  refine h ⟨σ.col c, k, n, ?_, hlt⟩
  cases hc : (pp.hands (σ.col c)).count k with
  | none => rw [hc] at e; simp at e; omega
  | some j => rw [hc] at e; simp at e; rw [e]

/-- Everything about two corresponding games. -/
theorem gamePair_sym (σ : Sym) {E E' : Env} {K K' : Backend} (hK : K ∈ backends) (hK' : K' ∈ backends)
    {pp pp' : CorePartialPosition} (hv : Valid (rootView pp))
    (hsym : rootView pp' = σ.pos (rootView pp)) {ms : List Move} {p p' : Position}
    (h : Reached E K pp ms p) (h' : Reached E' K' pp' (ms.map σ.move) p') :
    view p' = σ.pos (view p) ∧
    p'.inCheck K' = p.inCheck K ∧
    (p'.legalMoves E' K' = none ↔ p.legalMoves E K = none) ∧
    (∀ l l', p.legalMoves E K = some l → p'.legalMoves E' K' = some l' →
      ∀ m, σ.move m ∈ l' ↔ m ∈ l) ∧
    ∀ m, Legal (view p) m → p'.isCheckMove K' (σ.move m) = p.isCheckMove K m := by
  have hv' : Valid (rootView pp') := by rw [hsym]; exact σ.valid_imp hv
  have hview : view p' = σ.pos (view p) := by
    obtain ⟨p0, h0, hs⟩ := h
    obtain ⟨p0', h0', hs'⟩ := h'
    have hL : ∀ (p : Position) m, Legal (view p) m → Shape p m := fun p m hl => shape_of_legal hl
    rw [session_view (hs'.play hK' hL), session_view (hs.play hK hL), view_new hK h0,
      view_new hK' h0', hsym, foldr_sym]
  obtain ⟨h1, h2⟩ := symmetric σ hK hK' hv hv' h h' hview
  refine ⟨hview, h1, ⟨?_, ?_⟩, h2, fun m hl => isCheckMove_sym σ hK hK' hv hv' h h' hview hl⟩
  · exact legalMoves_none_sym σ hK' hK hv' hv h' h (by rw [hview, σ.pos_pos])
  · exact legalMoves_none_sym σ hK hK' hv hv' h h' hview

/-- C69.  Let the root `pp'` be the root `pp` rotated by 180 degrees with colours exchanged.  After
the same game, each move rotated, on both: the positions shown are rotated; `in_check` agrees;
`legal_moves` panics on both or on neither; and `is_check_move` agrees on corresponding legal
moves.  Builds may differ, moves may have been taken back on the way. -/
theorem C69_rotated_game (E E' : Env) (K K' : Backend) (hK : K ∈ backends) (hK' : K' ∈ backends)
    (pp pp' : CorePartialPosition) (hv : Valid (rootView pp))
    (hroot : Rotated (rootView pp) (rootView pp')) (ms ms' : List Move)
    (hms : MoveByMove RotatedMove ms ms') (p p' : Position) (h : Reached E K pp ms p)
    (h' : Reached E' K' pp' ms' p') :
    Rotated (view p) (view p') ∧
    p'.inCheck K' = p.inCheck K ∧
    (p'.legalMoves E' K' = none ↔ p.legalMoves E K = none) ∧
    (∀ l l', p.legalMoves E K = some l → p'.legalMoves E' K' = some l' →
      ∀ m m', RotatedMove m m' → (m' ∈ l' ↔ m ∈ l)) ∧
    ∀ m m', RotatedMove m m' → Legal (view p) m → p'.isCheckMove K' m' = p.isCheckMove K m := by
  have e := moveByMove_eq (fun _ _ h => rotatedMove_eq h) hms
  subst e
  obtain ⟨h1, h2, h3, h4, h5⟩ := gamePair_sym rotation hK hK' hv (rotated_eq hroot) h h'
  refine ⟨h1 ▸ rotated_pos _, h2, h3, fun l l' hl hl' m m' hm => ?_, fun m m' hm => ?_⟩
  · rw [rotatedMove_eq hm]; exact h4 l l' hl hl' m
  · rw [rotatedMove_eq hm]; exact h5 m

/-- C69.  The same for the reflection left to right. -/
theorem C69_reflected_game (E E' : Env) (K K' : Backend) (hK : K ∈ backends) (hK' : K' ∈ backends)
    (pp pp' : CorePartialPosition) (hv : Valid (rootView pp))
    (hroot : Reflected (rootView pp) (rootView pp')) (ms ms' : List Move)
    (hms : MoveByMove ReflectedMove ms ms') (p p' : Position) (h : Reached E K pp ms p)
    (h' : Reached E' K' pp' ms' p') :
    Reflected (view p) (view p') ∧
    p'.inCheck K' = p.inCheck K ∧
    (p'.legalMoves E' K' = none ↔ p.legalMoves E K = none) ∧
    (∀ l l', p.legalMoves E K = some l → p'.legalMoves E' K' = some l' →
      ∀ m m', ReflectedMove m m' → (m' ∈ l' ↔ m ∈ l)) ∧
    ∀ m m', ReflectedMove m m' → Legal (view p) m → p'.isCheckMove K' m' = p.isCheckMove K m := by
  have e := moveByMove_eq (fun _ _ h => reflectedMove_eq h) hms
  subst e
  obtain ⟨h1, h2, h3, h4, h5⟩ := gamePair_sym reflection hK hK' hv (reflected_eq hroot) h h'
  refine ⟨h1 ▸ reflected_pos _, h2, h3, fun l l' hl hl' m m' hm => ?_, fun m m' hm => ?_⟩
  · rw [reflectedMove_eq hm]; exact h4 l l' hl hl' m
  · rw [reflectedMove_eq hm]; exact h5 m

/-- C69.  Panics are symmetric too: if a game can be played, so can the rotated game from the
rotated root (same move number, same overflow setting).  No condition on the material. -/
theorem C69_rotated_game_playable (E E' : Env) (K K' : Backend) (hK : K ∈ backends)
    (hK' : K' ∈ backends) (pp pp' : CorePartialPosition)
    (hroot : Rotated (rootView pp) (rootView pp')) (hply : pp'.ply = pp.ply)
    (hE : E'.overflowChecks = E.overflowChecks) (ms ms' : List Move)
    (hms : MoveByMove RotatedMove ms ms') (p : Position) (h : Reached E K pp ms p) :
    ∃ p', Reached E' K' pp' ms' p' ∧ p'.ply = p.ply := by
  have e := moveByMove_eq (fun _ _ h => rotatedMove_eq h) hms
  subst e
  obtain ⟨p0, h0, hs⟩ := h
  obtain ⟨p0', h0'⟩ := Option.ne_none_iff_exists'.1 (new_sym (E := E) (E' := E') rotation hK hK'
    (rotated_eq hroot) (by rw [h0]; exact Option.some_ne_none _))
  obtain ⟨p', hp', hpl⟩ := play_sym rotation hK hK' (rotated_eq hroot) hply hE h0 h0'
    (hs.play hK fun p m hl => shape_of_legal hl)
  exact ⟨p', ⟨p0', h0', hp'.session⟩, hpl⟩

/-- C69.  The same for the reflection left to right. -/
theorem C69_reflected_game_playable (E E' : Env) (K K' : Backend) (hK : K ∈ backends)
    (hK' : K' ∈ backends) (pp pp' : CorePartialPosition)
    (hroot : Reflected (rootView pp) (rootView pp')) (hply : pp'.ply = pp.ply)
    (hE : E'.overflowChecks = E.overflowChecks) (ms ms' : List Move)
    (hms : MoveByMove ReflectedMove ms ms') (p : Position) (h : Reached E K pp ms p) :
    ∃ p', Reached E' K' pp' ms' p' ∧ p'.ply = p.ply := by
  have e := moveByMove_eq (fun _ _ h => reflectedMove_eq h) hms
  subst e
  obtain ⟨p0, h0, hs⟩ := h
  obtain ⟨p0', h0'⟩ := Option.ne_none_iff_exists'.1 (new_sym (E := E) (E' := E') reflection hK hK'
    (reflected_eq hroot) (by rw [h0]; exact Option.some_ne_none _))
  obtain ⟨p', hp', hpl⟩ := play_sym reflection hK hK' (reflected_eq hroot) hply hE h0 h0'
    (hs.play hK fun p m hl => shape_of_legal hl)
  exact ⟨p', ⟨p0', h0', hp'.session⟩, hpl⟩

/-- C69.  `do_move` itself: on positions that show rotated boards at the same move number, reached
by any histories whatever, it panics on a move exactly if it panics on the rotated move; and if it
does not, the positions shown stay rotated. -/
theorem C69_do_move_rotated (E E' : Env) (K K' : Backend) (hK : K ∈ backends) (hK' : K' ∈ backends)
    (pp pp' : CorePartialPosition) (ms ms' : List Move) (p p' : Position)
    (h : Visited E K pp ms p) (h' : Visited E' K' pp' ms' p') (hrot : Rotated (view p) (view p'))
    (hply : p'.ply = p.ply) (hE : E'.overflowChecks = E.overflowChecks) (m m' : Move)
    (hm : RotatedMove m m') :
    (p'.doMove E' K' m' = none ↔ p.doMove E K m = none) ∧
    ∀ q q', p.doMove E K m = some q → p'.doMove E' K' m' = some q' →
      Rotated (view q) (view q') ∧ q'.ply = q.ply := by
  rw [rotatedMove_eq hm]
  refine ⟨?_, fun q q' hq hq' => ?_⟩
  · rw [C52_do_move_panics_iff E' K' hK' pp' ms' p' h', C52_do_move_panics_iff E K hK pp ms p h]
    exact movePanics_sym rotation hE hply (rotated_eq hrot)
  · obtain ⟨h1, h2⟩ := C03_do_move_is_rules E K p q _ hq
    obtain ⟨h1', h2'⟩ := C03_do_move_is_rules E' K' p' q' _ hq'
    refine ⟨?_, by rw [h2, h2', hply]⟩
    rw [h1', h1, rotated_eq hrot, rotation.apply]
    exact rotated_pos _

/-- C69.  The same for the reflection left to right. -/
theorem C69_do_move_reflected (E E' : Env) (K K' : Backend) (hK : K ∈ backends)
    (hK' : K' ∈ backends) (pp pp' : CorePartialPosition) (ms ms' : List Move) (p p' : Position)
    (h : Visited E K pp ms p) (h' : Visited E' K' pp' ms' p') (hrefl : Reflected (view p) (view p'))
    (hply : p'.ply = p.ply) (hE : E'.overflowChecks = E.overflowChecks) (m m' : Move)
    (hm : ReflectedMove m m') :
    (p'.doMove E' K' m' = none ↔ p.doMove E K m = none) ∧
    ∀ q q', p.doMove E K m = some q → p'.doMove E' K' m' = some q' →
      Reflected (view q) (view q') ∧ q'.ply = q.ply := by
  rw [reflectedMove_eq hm]
  refine ⟨?_, fun q q' hq hq' => ?_⟩
  · rw [C52_do_move_panics_iff E' K' hK' pp' ms' p' h', C52_do_move_panics_iff E K hK pp ms p h]
    exact movePanics_sym reflection hE hply (reflected_eq hrefl)
  · obtain ⟨h1, h2⟩ := C03_do_move_is_rules E K p q _ hq
    obtain ⟨h1', h2'⟩ := C03_do_move_is_rules E' K' p' q' _ hq'
    refine ⟨?_, by rw [h2, h2', hply]⟩
    rw [h1', h1, reflected_eq hrefl, reflection.apply]
    exact reflected_pos _

/-! ## Concrete cases -/

section
open Yasai.Examples

/-- `skirmish` after the rook has captured a promoted silver. -/
theorem skirmish_game : ∃ p, Reached env0 CoreBB.backend skirmish [.normal (sq 2 8) (sq 2 3) true] p := by
  have h : (Position.new env0 CoreBB.backend skirmish).any (fun p =>
      (p.legalMoves env0 CoreBB.backend).any (fun l =>
        l.contains (.normal (sq 2 8) (sq 2 3) true) &&
      (p.doMove env0 CoreBB.backend (.normal (sq 2 8) (sq 2 3) true)).isSome)) = true := by
    decide +kernel
  simp only [Option.any_eq_true, Bool.and_eq_true, List.contains_iff_mem,
    Option.isSome_iff_exists] at h
  obtain ⟨p, hp, l, hl, hm, p', hd⟩ := h
  have hr : Reached env0 CoreBB.backend skirmish [] p := ⟨p, hp, .start⟩
  exact ⟨p', hr.move (((legalMoves_exact core_mem skirmish_valid hr hl).2 _).1 hm) hd⟩

/-- C69 is not vacuous: the rotated game. -/
example : ∃ p p', Reached env0 CoreBB.backend skirmish [.normal (sq 2 8) (sq 2 3) true] p ∧
    Reached env0 CoreBB.backend skirmishRot [.normal (sq 8 2) (sq 8 7) true] p' ∧
    Rotated (view p) (view p') ∧ p'.inCheck CoreBB.backend = p.inCheck CoreBB.backend := by
  obtain ⟨p, hp⟩ := skirmish_game
  have hroot : Rotated (rootView skirmish) (rootView skirmishRot) := by
    refine ⟨by decide +kernel, fun c k => ?_, rfl⟩
    cases c <;> cases k <;> rfl
  have hms : MoveByMove RotatedMove [.normal (sq 2 8) (sq 2 3) true]
      [.normal (sq 8 2) (sq 8 7) true] := ⟨⟨rfl, rfl, rfl, rfl, rfl⟩, trivial⟩
  obtain ⟨p', hp', _⟩ := C69_rotated_game_playable env0 env0 _ CoreBB.backend core_mem core_mem _ _
    hroot rfl rfl _ _ hms p hp
  obtain ⟨h1, h2, _⟩ := C69_rotated_game _ _ _ _ core_mem core_mem _ _ skirmish_valid hroot _ _ hms
    p p' hp hp'
  exact ⟨p, p', hp, hp', h1, h2⟩

/-- The reflected game. -/
example : ∃ p p', Reached env0 CoreBB.backend skirmish [.normal (sq 2 8) (sq 2 3) true] p ∧
    Reached env0 CoreBB.backend { skirmishMirror with ply := 41#16 }
      [.normal (sq 8 8) (sq 8 3) true] p' ∧
    Reflected (view p) (view p') ∧ p'.inCheck CoreBB.backend = p.inCheck CoreBB.backend := by
  obtain ⟨p, hp⟩ := skirmish_game
  have hroot : Reflected (rootView skirmish) (rootView { skirmishMirror with ply := 41#16 }) :=
    ⟨by decide +kernel, fun c k => rfl, rfl⟩
  have hms : MoveByMove ReflectedMove [.normal (sq 2 8) (sq 2 3) true]
      [.normal (sq 8 8) (sq 8 3) true] := ⟨⟨rfl, rfl, rfl, rfl, rfl⟩, trivial⟩
  obtain ⟨p', hp', _⟩ := C69_reflected_game_playable env0 env0 _ CoreBB.backend core_mem core_mem _ _
    hroot rfl rfl _ _ hms p hp
  obtain ⟨h1, h2, _⟩ := C69_reflected_game _ _ _ _ core_mem core_mem _ _ skirmish_valid hroot _ _ hms
    p p' hp hp'
  exact ⟨p, p', hp, hp', h1, h2⟩

end

end Yasai.Props

import Verif.Props.Machine
import Verif.Props.Mirror

/-!
# C92: the symmetries of the board under pseudo-legal play

C32, C33 and C69 speak of legal play from positions as the rules allow.  Here the moves made are
pseudo-legal only: kings may be left in check, `in_check` then reports new checks only and `legal_moves`
lists more than the legal moves (C82, C83).  All of this is still symmetric, as long as each side has at
most one king; with two kings it is not.
-/

namespace Yasai.Sym

open Yasai Yasai.Spec Yasai.Props

variable (σ : Sym)

theorem between_imp {s u t : Square} (h : Between s u t) : Between (σ.sq s) (σ.sq u) (σ.sq t) := by
  obtain ⟨d, hd, m, n, h1, h2, h3, h4⟩ := h
  have conv : ∀ (x : Square) (j : Nat), Disp s x (j * d.1) (j * d.2) →
      Disp (σ.sq s) (σ.sq x) (j * -d.1) (j * (fwd (σ.col .black) * -d.2)) := by
    intro x j h
    have e : (j * d.2 : Int) = fwd .black * (-(j * d.2)) := by
      show _ = -1 * _
      omega
    rw [e] at h
    have := σ.disp _ _ _ _ _ h
    rw [show (j * -d.1 : Int) = -(j * d.1) from Int.mul_neg _ _,
      show (j * (fwd (σ.col .black) * -d.2) : Int) = fwd (σ.col .black) * -(j * d.2) by
        rw [Int.mul_left_comm, Int.mul_neg]]
    exact this
  refine ⟨(-d.1, fwd (σ.col .black) * -d.2), ?_, m, n, h1, h2, conv u m h3, conv t n h4⟩
  have : ∀ c, ∀ d ∈ directions, (-d.1, fwd c * -d.2) ∈ directions := by decide
  exact this _ d hd

theorem between {s u t : Square} : Between (σ.sq s) (σ.sq u) (σ.sq t) ↔ Between s u t := by
  refine ⟨fun h => ?_, σ.between_imp⟩
  have := σ.between_imp h
  rwa [σ.sq_sq, σ.sq_sq, σ.sq_sq] at this

theorem sq_eq {s t : Square} : σ.sq s = σ.sq t ↔ s = t := ⟨σ.sq_inj, fun h => h ▸ rfl⟩

theorem current (R : Pos) (ms : List Move) :
    Props.current (σ.pos R) (ms.map σ.move) = σ.pos (Props.current R ms) := foldr_sym σ R ms

theorem flipSide (P : Pos) : (σ.pos P).side.flip = σ.col P.side.flip := (σ.col_flip _).symm

theorem recorded {P : Pos} {ms : List Move} {s : Square} :
    Recorded (σ.pos P) (ms.map σ.move) (σ.sq s) ↔ Recorded P ms s := by
  have main : (∃ king k, (σ.pos P).board king = some ⟨.king, (σ.pos P).side⟩ ∧
      (σ.pos P).board (σ.sq s) = some ⟨k, (σ.pos P).side.flip⟩ ∧ k ≠ .king ∧
      Reaches (Occ (σ.pos P).board) k (σ.pos P).side.flip (σ.sq s) king) ↔
      ∃ king k, P.board king = some ⟨.king, P.side⟩ ∧ P.board s = some ⟨k, P.side.flip⟩ ∧
      k ≠ .king ∧ Reaches (Occ P.board) k P.side.flip s king := by
    rw [← σ.exists_sq]
    simp only [σ.flipSide]
    simp only [pos, σ.board_eq_some, σ.reaches]
  cases ms with
  | nil => exact main
  | cons m ms =>
    cases m with
    | normal => exact main
    | drop to pc => exact σ.sq_eq

theorem newCheck {P : Pos} {m : Move} : NewCheck (σ.pos P) (σ.move m) ↔ NewCheck P m := by
  unfold NewCheck
  rw [σ.apply, ← σ.exists_sq]
  refine exists_congr fun king => ?_
  rw [← σ.exists_sq]
  refine exists_congr fun s => exists_congr fun k => ?_
  simp only [σ.flipSide]
  simp only [pos, σ.board_eq_some, σ.reaches, σ.attacksFrom]
  refine and_congr_right fun _ => and_congr_right fun _ => and_congr_right fun _ =>
    and_congr_right fun _ => and_congr_right fun _ => ?_
  cases m with
  | normal frm to pr =>
    simp only [move, Move.normal.injEq]
    constructor
    · rintro h f q ⟨rfl, rfl, rfl⟩
      exact fun hb => h _ _ ⟨rfl, rfl, rfl⟩ (σ.between.2 hb)
    · rintro h f q ⟨rfl, e, rfl⟩
      cases σ.sq_inj e
      exact fun hb => h _ _ ⟨rfl, rfl, rfl⟩ (σ.between.1 hb)
  | drop to pc => simp [move]

theorem reported {R : Pos} {ms : List Move} : Reported (σ.pos R) (ms.map σ.move) ↔ Reported R ms := by
  cases ms with
  | nil =>
    show (∃ s, Recorded (σ.pos R) (List.map σ.move []) s) ↔ _
    rw [← σ.exists_sq]
    exact exists_congr fun s => σ.recorded
  | cons m ms =>
    show NewCheck (Props.current (σ.pos R) (ms.map σ.move)) (σ.move m) ↔ _
    rw [σ.current]
    exact σ.newCheck

theorem noNewAttack {P : Pos} {m : Move} : NoNewAttack (σ.pos P) (σ.move m) ↔ NoNewAttack P m := by
  unfold NoNewAttack
  rw [σ.apply, ← σ.forall_sq]
  refine forall_congr' fun king => ?_
  rw [← σ.forall_sq]
  refine forall_congr' fun s => ?_
  simp only [σ.flipSide]
  simp only [pos, σ.board_eq_some, σ.attacksFrom]

theorem isPawnDrop {m : Move} : IsPawnDrop (σ.move m) ↔ IsPawnDrop m := by
  cases m <;> exact Iff.rfl

theorem pseudoNormal {P : Pos} {frm to : Square} {pr : Bool} :
    PseudoLegal (σ.pos P) (.normal (σ.sq frm) (σ.sq to) pr) ↔ PseudoLegal P (.normal frm to pr) :=
  σ.pseudoLegal (m := .normal frm to pr)

theorem unanswered {P : Pos} {m : Move} : Unanswered (σ.pos P) (σ.move m) ↔ Unanswered P m := by
  cases m with
  | normal => exact Iff.rfl
  | drop to pc =>
    have ha : Spec.apply (σ.pos P) (.drop (σ.sq to) (σ.piece pc)) = σ.pos (Spec.apply P (.drop to pc)) :=
      σ.apply P (.drop to pc)
    show Unanswered (σ.pos P) (.drop (σ.sq to) (σ.piece pc)) ↔ _
    simp only [Unanswered, ha]
    rw [← σ.exists_sq]
    refine exists_congr fun king => ?_
    simp only [σ.flipSide]
    refine and_congr σ.board_eq_some (and_congr σ.attacksFrom (and_congr ?_ ?_))
    · rw [← σ.forall_sq]
      refine forall_congr' fun t => forall_congr' fun pr => ?_
      rw [σ.pseudoNormal, ← σ.exists_sq]
      exact imp_congr Iff.rfl (exists_congr fun s => σ.attacksFrom)
    · rw [← σ.forall_sq]
      refine forall_congr' fun frm => forall_congr' fun pr => ?_
      rw [σ.pseudoNormal, Ne, σ.sq_eq]
      exact imp_congr Iff.rfl (imp_congr Iff.rfl (not_congr (σ.noNewAttack (m := .normal frm to pr))))

theorem answersRecorded {P : Pos} {ms : List Move} {king : Square} {m : Move} :
    AnswersRecorded (σ.pos P) (ms.map σ.move) (σ.sq king) (σ.move m) ↔ AnswersRecorded P ms king m := by
  have one : ∀ ch, (∀ s, Recorded (σ.pos P) (ms.map σ.move) s ↔ s = σ.sq ch) ↔
      ∀ s, Recorded P ms s ↔ s = ch := fun ch => by
    rw [← σ.forall_sq]
    exact forall_congr' fun s => by rw [σ.recorded, σ.sq_eq]
  cases m with
  | normal frm to pr =>
    show (∃ ch, _ ∧ (σ.sq to = ch ∨ Between ch (σ.sq to) (σ.sq king))) ↔ _
    rw [← σ.exists_sq]
    exact exists_congr fun ch => and_congr (one ch) (or_congr σ.sq_eq σ.between)
  | drop to pc =>
    show (∃ ch, _ ∧ Between ch (σ.sq to) (σ.sq king)) ↔ _
    rw [← σ.exists_sq]
    exact exists_congr fun ch => and_congr (one ch) σ.between

theorem listedBy_imp {R : Pos} {ms : List Move} {m : Move} (h : ListedBy R ms m) :
    ListedBy (σ.pos R) (ms.map σ.move) (σ.move m) := by
  unfold ListedBy at h ⊢
  rw [σ.current, σ.pseudoLegal, σ.isPawnDrop, σ.unanswered, σ.reported]
  refine ⟨h.1, h.2.1, h.2.2.imp ?_ ?_⟩
  · rintro ⟨frm, to, pr, rfl, hk, ha, hr⟩
    refine ⟨σ.sq frm, σ.sq to, pr, rfl, σ.board_eq_some.2 hk, ?_, fun hrep => ?_⟩
    · rw [← σ.forall_sq]
      intro s
      rw [σ.flipSide]
      exact fun e => ha s (σ.attacksFrom.1 e)
    · rw [← σ.forall_sq]
      intro s hs e
      refine hr hrep s (σ.recorded.1 hs) ?_
      rw [σ.flipSide] at e
      have hp := σ.put (Props.current R ms).board frm none
      rw [Option.map_none] at hp
      change AttacksFrom (Spec.put (σ.board (Props.current R ms).board) (σ.sq frm) none) _ _ _ at e
      rw [← hp] at e
      exact σ.attacksFrom.1 e
  · rintro ⟨h1, h2⟩
    refine ⟨?_, fun hrep => ?_⟩
    · intro frm' to' pr' e
      cases m with
      | drop => cases e
      | normal frm to pr =>
        cases e
        have := h1 frm to _ rfl
        exact ⟨fun e => this.1 (σ.board_eq_some.1 e), σ.noNewAttack.2 this.2⟩
    · obtain ⟨king, hk, ha⟩ := h2 hrep
      exact ⟨σ.sq king, σ.board_eq_some.2 hk, σ.answersRecorded.2 ha⟩

theorem map_move_move' (ms : List Move) : (ms.map σ.move).map σ.move = ms := by
  rw [List.map_map]
  conv => rhs; rw [← List.map_id ms]
  exact List.map_congr_left fun m _ => σ.move_move m

theorem listedBy {R : Pos} {ms : List Move} {m : Move} :
    ListedBy (σ.pos R) (ms.map σ.move) (σ.move m) ↔ ListedBy R ms m := by
  refine ⟨fun h => ?_, σ.listedBy_imp⟩
  have := σ.listedBy_imp h
  rwa [σ.pos_pos, σ.map_move_move', σ.move_move] at this

theorem tame {P : Pos} (h : Tame P) : Tame (σ.pos P) := by
  refine ⟨fun c s t hs ht => ?_, fun c s t hs ht hf hh => ?_, fun c s hs hd => ?_⟩
  all_goals
    rw [← σ.sq_sq s, ← σ.col_col c] at hs
    replace hs := σ.board_eq_some.1 hs
  · rw [← σ.sq_sq t, ← σ.col_col c] at ht
    exact σ.sq_inj (h.oneKing _ _ _ hs (σ.board_eq_some.1 ht))
  · rw [← σ.sq_sq t, ← σ.col_col c] at ht
    refine σ.sq_inj (h.homePawn _ _ _ hs (σ.board_eq_some.1 ht) (σ.file _ _ hf) ?_)
    rw [homeRank_iff] at hh ⊢
    rw [← σ.col_flip]
    exact σ.dead _ _ _ hh
  · exact h.noDeadPawn _ _ hs (σ.dead _ _ _ hd)

end Yasai.Sym

namespace Yasai.Props

open Yasai Spec

/-- Everything about two corresponding histories of pseudo-legal moves. -/
theorem roamedPair_sym (σ : Sym) {E E' : Env} {K K' : Backend} (hK : K ∈ backends) (hK' : K' ∈ backends)
    {pp pp' : CorePartialPosition} (hv : Tame (rootView pp)) (hsym : rootView pp' = σ.pos (rootView pp))
    {ms : List Move} {p p' : Position} (h : Roamed E K pp ms p)
    (h' : Roamed E' K' pp' (ms.map σ.move) p') :
    view p' = σ.pos (view p) ∧
    p'.inCheck K' = p.inCheck K ∧
    (p'.legalMoves E' K' = none ↔ p.legalMoves E K = none) ∧
    (∀ l l', p.legalMoves E K = some l → p'.legalMoves E' K' = some l' →
      ∀ m, σ.move m ∈ l' ↔ m ∈ l) ∧
    ∀ m, PseudoLegal (view p) m → p.doMove E K m ≠ none → p'.doMove E' K' (σ.move m) ≠ none →
      p'.isCheckMove K' (σ.move m) = p.isCheckMove K m := by
  have hv' : Tame (rootView pp') := by rw [hsym]; exact σ.tame hv
  obtain ⟨a1, ⟨b, a2, a3⟩, a4, a5, a6⟩ := C83_machine E K hK pp hv ms p h
  obtain ⟨b1, ⟨b', b2, b3⟩, b4, b5, b6⟩ := C83_machine E' K' hK' pp' hv' _ p' h'
  rw [hsym] at b1 b3 b4 b5 b6
  rw [σ.current] at b1 b5 b6
  rw [σ.reported] at b3 b5
  refine ⟨by rw [b1, a1], ?_, ?_, fun l l' hl hl' m => ?_, fun m hm hd hd' => ?_⟩
  · rw [a2, b2]
    congr 1
    rw [Bool.eq_iff_iff]
    exact b3.trans a3.symm
  · rw [a5, b5]
    refine and_congr_right fun _ => ?_
    have hinj : ∀ l : List Move, l.Nodup → (l.map σ.move).Nodup := fun l hl =>
      hl.map _ fun a b hab e => hab (by rw [← σ.move_move a, e, σ.move_move])
    constructor
    · rintro ⟨l, h1, h2, h3⟩
      refine ⟨l.map σ.move, hinj l h1, by rw [List.length_map, h2], fun m hm => ?_⟩
      obtain ⟨m', hm', rfl⟩ := List.mem_map.1 hm
      have := h3 m' hm'
      rw [← σ.move_move m', σ.pseudoLegal, σ.isPawnDrop, σ.unanswered] at this
      exact this
    · rintro ⟨l, h1, h2, h3⟩
      refine ⟨l.map σ.move, hinj l h1, by rw [List.length_map, h2], fun m hm => ?_⟩
      obtain ⟨m', hm', rfl⟩ := List.mem_map.1 hm
      rw [σ.pseudoLegal, σ.isPawnDrop, σ.unanswered]
      exact h3 m' hm'
  · rw [(b4 l' hl').2, (a4 l hl).2, σ.listedBy]
  · rw [a1] at hm
    obtain ⟨q, hq⟩ := Option.ne_none_iff_exists'.1 hd
    obtain ⟨q', hq'⟩ := Option.ne_none_iff_exists'.1 hd'
    obtain ⟨c, e1, e2⟩ := a6 m q hm hq
    obtain ⟨c', e1', e2'⟩ := b6 _ q' (σ.pseudoLegal.2 hm) hq'
    rw [e1, e1']
    congr 1
    rw [Bool.eq_iff_iff]
    exact e2'.trans (σ.newCheck.trans e2.symm)

/-- C92.  Let the root `pp'` be the root `pp` rotated by 180 degrees with colours exchanged, with at most
one king on a side and sane pawns.  After the same pseudo-legal moves, each of them rotated, on both: the
positions shown are rotated; `in_check` agrees; `legal_moves` panics on both or on neither and lists
rotated moves; `is_check_move` agrees on corresponding pseudo-legal moves that can be made. -/
theorem C92_rotated (E E' : Env) (K K' : Backend) (hK : K ∈ backends) (hK' : K' ∈ backends)
    (pp pp' : CorePartialPosition) (hv : Tame (rootView pp))
    (hroot : Rotated (rootView pp) (rootView pp')) (ms ms' : List Move)
    (hms : MoveByMove RotatedMove ms ms') (p p' : Position) (h : Roamed E K pp ms p)
    (h' : Roamed E' K' pp' ms' p') :
    Rotated (view p) (view p') ∧
    p'.inCheck K' = p.inCheck K ∧
    (p'.legalMoves E' K' = none ↔ p.legalMoves E K = none) ∧
    (∀ l l', p.legalMoves E K = some l → p'.legalMoves E' K' = some l' →
      ∀ m m', RotatedMove m m' → (m' ∈ l' ↔ m ∈ l)) ∧
    ∀ m m', RotatedMove m m' → PseudoLegal (view p) m → p.doMove E K m ≠ none →
      p'.doMove E' K' m' ≠ none → p'.isCheckMove K' m' = p.isCheckMove K m := by
  have e := moveByMove_eq (fun _ _ h => rotatedMove_eq h) hms
  subst e
  obtain ⟨h1, h2, h3, h4, h5⟩ := roamedPair_sym rotation hK hK' hv (rotated_eq hroot) h h'
  refine ⟨h1 ▸ rotated_pos _, h2, h3, fun l l' hl hl' m m' hm => ?_, fun m m' hm => ?_⟩
  · rw [rotatedMove_eq hm]; exact h4 l l' hl hl' m
  · rw [rotatedMove_eq hm]; exact h5 m

/-- C92.  The same for the reflection left to right. -/
theorem C92_reflected (E E' : Env) (K K' : Backend) (hK : K ∈ backends) (hK' : K' ∈ backends)
    (pp pp' : CorePartialPosition) (hv : Tame (rootView pp))
    (hroot : Reflected (rootView pp) (rootView pp')) (ms ms' : List Move)
    (hms : MoveByMove ReflectedMove ms ms') (p p' : Position) (h : Roamed E K pp ms p)
    (h' : Roamed E' K' pp' ms' p') :
    Reflected (view p) (view p') ∧
    p'.inCheck K' = p.inCheck K ∧
    (p'.legalMoves E' K' = none ↔ p.legalMoves E K = none) ∧
    (∀ l l', p.legalMoves E K = some l → p'.legalMoves E' K' = some l' →
      ∀ m m', ReflectedMove m m' → (m' ∈ l' ↔ m ∈ l)) ∧
    ∀ m m', ReflectedMove m m' → PseudoLegal (view p) m → p.doMove E K m ≠ none →
      p'.doMove E' K' m' ≠ none → p'.isCheckMove K' m' = p.isCheckMove K m := by
  have e := moveByMove_eq (fun _ _ h => reflectedMove_eq h) hms
  subst e
  obtain ⟨h1, h2, h3, h4, h5⟩ := roamedPair_sym reflection hK hK' hv (reflected_eq hroot) h h'
  refine ⟨h1 ▸ reflected_pos _, h2, h3, fun l l' hl hl' m m' hm => ?_, fun m m' hm => ?_⟩
  · rw [reflectedMove_eq hm]; exact h4 l l' hl hl' m
  · rw [reflectedMove_eq hm]; exact h5 m

/-! ## Concrete cases -/

section
open Yasai.Examples

/-- `halfSeen` reflected. -/
def halfSeenMirror : CorePartialPosition where
  side := .white
  ply := 1#16
  hands := halfSeen.hands
  board := boardOf [(5,8,.king,.black),(5,2,.rook,.white),(7,7,.gold,.black),(9,1,.king,.white)]

theorem roamed_drop {K : Backend} {pp : CorePartialPosition} {m : Move} (hK : K ∈ backends)
    (hm : PseudoLegal (rootView pp) m)
    (h : ((Position.new env0 K pp).bind fun p => p.doMove env0 K m).isSome = true) :
    ∃ p, Roamed env0 K pp [m] p := by
  obtain ⟨p', hp'⟩ := Option.isSome_iff_exists.1 h
  obtain ⟨p, hp, hd⟩ := Option.bind_eq_some_iff.1 hp'
  exact ⟨p', p, hp, .move .start (by rw [view_new hK hp]; exact hm) hd⟩

/-- The check of the rook that is not recorded (C82) goes unrecorded in the reflected position too. -/
theorem C92_example : Tame (rootView halfSeen) ∧
    Reflected (rootView halfSeen) (rootView halfSeenMirror) ∧
    (∃ p, Roamed env0 CoreBB.backend halfSeen [.drop (sq 4 7) ⟨.gold, .white⟩] p) ∧
    ∃ p, Roamed env0 CoreBB.backend halfSeenMirror [.drop (sq 6 7) ⟨.gold, .white⟩] p := by
  refine ⟨C83_example.1, ⟨by decide +kernel, fun c k => rfl, rfl⟩, ?_, ?_⟩
  · exact roamed_drop core_mem (by
      refine ⟨rfl, rfl, by decide, by decide, by simp [Dead], fun e => (by cases e)⟩) (by decide +kernel)
  · exact roamed_drop core_mem (by
      refine ⟨rfl, rfl, by decide, by decide, by simp [Dead], fun e => (by cases e)⟩) (by decide +kernel)

/-- Two black kings, the one on the given file attacked by the rook. -/
def kingsRook (file : Nat) : CorePartialPosition where
  side := .black
  ply := 1#16
  hands := fun _ => handOf []
  board := boardOf [(2,9,.king,.black),(8,9,.king,.black),(file,1,.rook,.white),(5,1,.king,.white)]

/-- With two kings on a side the symmetry is lost: of two reflected positions one reports a check, the
other does not. -/
theorem C92_two_kings : Reflected (rootView (kingsRook 8)) (rootView (kingsRook 2)) ∧ ∀ i : Fin 4,
    ((Position.new env0 (buildAt i otherJunk) (kingsRook 8)).bind fun p => p.inCheck (buildAt i otherJunk)) =
      some false ∧
    ((Position.new env0 (buildAt i otherJunk) (kingsRook 2)).bind fun p => p.inCheck (buildAt i otherJunk)) =
      some true := by
  refine ⟨⟨by decide +kernel, fun c k => rfl, rfl⟩, ?_⟩
  decide +kernel

end

end Yasai.Props

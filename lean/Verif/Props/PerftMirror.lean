import Verif.Props.MirrorWild
import Verif.Props.SanePawns

/-!
# C93: perft is symmetric also where the rules are not kept

C48 is about `perft` from positions as the rules allow, for calls that return.  Here the kings may stand
in check on either side, and the panics are compared too.
-/

namespace Yasai.Sym

open Yasai Yasai.Spec Yasai.Props

variable (σ : Sym)

/-- At most one king a side. -/
abbrev OneKing (P : Pos) : Prop :=
  ∀ c s t, P.board s = some ⟨.king, c⟩ → P.board t = some ⟨.king, c⟩ → s = t

theorem oneKing {P : Pos} (h : OneKing P) : OneKing (σ.pos P) := by
  intro c s t hs ht
  rw [← σ.sq_sq s, ← σ.col_col c] at hs
  rw [← σ.sq_sq t, ← σ.col_col c] at ht
  exact σ.sq_inj (h _ _ _ (σ.board_eq_some.1 hs) (σ.board_eq_some.1 ht))

theorem firstKing {P : Pos} (h : OneKing P) {c : Color} {s : Square} :
    FirstKing (σ.pos P).board (σ.col c) (σ.sq s) ↔ FirstKing P.board c s := by
  rw [firstKing_iff (h c), firstKing_iff (σ.oneKing h (σ.col c))]
  exact σ.board_eq_some

theorem recordedFirst {P : Pos} (h : OneKing P) {ms : List Move} {s : Square} :
    RecordedFirst (σ.pos P) (ms.map σ.move) (σ.sq s) ↔ RecordedFirst P ms s := by
  rw [recordedFirst_iff (h _), recordedFirst_iff (σ.oneKing h _), σ.recorded]

theorem newCheckFirst {P : Pos} {m : Move} (h : OneKing (Spec.apply P m)) :
    NewCheckFirst (σ.pos P) (σ.move m) ↔ NewCheckFirst P m := by
  have e : ∀ {P : Pos} {m : Move}, OneKing (Spec.apply P m) → (NewCheckFirst P m ↔ NewCheck P m) := by
    intro P m h
    unfold NewCheckFirst NewCheck
    simp only [firstKing_iff (h _)]
  rw [e h, e (by rw [σ.apply]; exact σ.oneKing h), σ.newCheck]

theorem reportedFirst {R : Pos} {ms : List Move} (h : OneKing (Props.current R ms)) :
    ReportedFirst (σ.pos R) (ms.map σ.move) ↔ ReportedFirst R ms := by
  cases ms with
  | nil =>
    show (∃ s, RecordedFirst (σ.pos R) (List.map σ.move []) s) ↔ _
    rw [← σ.exists_sq]
    exact exists_congr fun s => σ.recordedFirst h
  | cons m ms =>
    show NewCheckFirst (Props.current (σ.pos R) (ms.map σ.move)) (σ.move m) ↔ _
    rw [σ.current]
    exact σ.newCheckFirst h

theorem noNewAttackOn {P : Pos} {king : Square} {m : Move} :
    NoNewAttackOn (σ.pos P) (σ.sq king) (σ.move m) ↔ NoNewAttackOn P king m := by
  unfold NoNewAttackOn
  rw [σ.apply, ← σ.forall_sq]
  refine forall_congr' fun s => ?_
  simp only [σ.flipSide]
  simp only [pos, σ.attacksFrom]

theorem noAnswer {P : Pos} (h : OneKing P) {to : Square} :
    NoAnswer (σ.pos P) (σ.sq to) ↔ NoAnswer P to := by
  unfold NoAnswer
  rw [← σ.exists_sq]
  refine exists_congr fun king => ?_
  simp only [σ.flipSide]
  refine and_congr (σ.firstKing h) (and_congr σ.attacksFrom (and_congr ?_ ?_))
  · rw [← σ.forall_sq]
    refine forall_congr' fun t => forall_congr' fun pr => ?_
    rw [σ.pseudoNormal, ← σ.exists_sq]
    exact imp_congr Iff.rfl (exists_congr fun s => σ.attacksFrom)
  · rw [← σ.forall_sq]
    refine forall_congr' fun frm => forall_congr' fun pr => ?_
    rw [σ.pseudoNormal]
    exact imp_congr (not_congr σ.board_eq_some) (imp_congr Iff.rfl
      (not_congr (σ.noNewAttackOn (m := .normal frm to pr))))

theorem keptSafe {P : Pos} (h : OneKing P) {m : Move} :
    KeptSafe (σ.pos P) (σ.move m) ↔ KeptSafe P m := by
  cases m with
  | drop => exact Iff.rfl
  | normal frm to pr =>
    show (_ → ∀ s, ¬ AttacksFrom _ _ s (σ.sq to)) ∧ (∀ king, _ → king ≠ σ.sq frm →
      NoNewAttackOn _ king (σ.move (.normal frm to pr))) ↔ _
    refine and_congr (imp_congr σ.board_eq_some ?_) ?_
    · rw [← σ.forall_sq]
      exact forall_congr' fun s => by rw [σ.flipSide]; exact not_congr σ.attacksFrom
    · rw [← σ.forall_sq]
      exact forall_congr' fun king => imp_congr (σ.firstKing h)
        (imp_congr (by rw [Ne, σ.sq_eq]) σ.noNewAttackOn)

theorem answersFirst {P : Pos} (h : OneKing P) {ms : List Move} {king : Square} {m : Move} :
    AnswersFirst (σ.pos P) (ms.map σ.move) (σ.sq king) (σ.move m) ↔ AnswersFirst P ms king m := by
  have one : ∀ ch, (∀ s, RecordedFirst (σ.pos P) (ms.map σ.move) s ↔ s = σ.sq ch) ↔
      ∀ s, RecordedFirst P ms s ↔ s = ch := fun ch => by
    rw [← σ.forall_sq]
    exact forall_congr' fun s => by rw [σ.recordedFirst h, σ.sq_eq]
  cases m with
  | drop to pc =>
    show (∃ ch, _ ∧ Between ch (σ.sq to) (σ.sq king)) ↔ _
    rw [← σ.exists_sq]
    exact exists_congr fun ch => and_congr (one ch) σ.between
  | normal frm to pr =>
    refine or_congr (and_congr σ.sq_eq (and_congr ?_ ?_)) (and_congr (not_congr σ.board_eq_some)
      (and_congr (σ.noNewAttackOn (m := .normal frm to pr)) ?_))
    · rw [← σ.forall_sq]
      exact forall_congr' fun s => by rw [σ.flipSide]; exact not_congr σ.attacksFrom
    · rw [← σ.forall_sq]
      refine forall_congr' fun s => imp_congr (σ.recordedFirst h) (not_congr ?_)
      rw [σ.flipSide]
      have hp := σ.put P.board king none
      rw [Option.map_none] at hp
      show AttacksFrom (Spec.put (σ.board P.board) (σ.sq king) none) _ _ _ ↔ _
      rw [← hp]
      exact σ.attacksFrom
    · rw [← σ.exists_sq]
      exact exists_congr fun ch => and_congr (one ch) (or_congr σ.sq_eq σ.between)

theorem oneKing_drop {P : Pos} (h : OneKing P) {to : Square} {k : PieceKind} {c : Color} (hk : k ≠ .king) :
    OneKing (Spec.apply P (.drop to ⟨k, c⟩)) := by
  have e : ∀ c' s, (Spec.apply P (.drop to ⟨k, c⟩)).board s = some ⟨.king, c'⟩ →
      P.board s = some ⟨.king, c'⟩ := by
    intro c' s hs
    simp only [Spec.apply, Spec.put] at hs
    split at hs
    · cases hs; exact absurd rfl hk
    · exact hs
  exact fun c' s t hs ht => h c' s t (e _ _ hs) (e _ _ ht)

theorem pawnsOk {P : Pos} (h : Tame P) : PawnsOk P := ⟨h.homePawn, h.noDeadPawn⟩

theorem collected (i j : Fin 4) {P : Pos} (h : Tame P) {m : Move} :
    Collected i (σ.pos P) (σ.move m) ↔ Collected j P m := by
  rw [C91_collected i (pawnsOk (σ.tame h)), C91_collected j (pawnsOk h), σ.pseudoLegal]
  refine and_congr_right fun _ => ?_
  cases m with
  | normal => exact ⟨fun _ _ _ e => (by cases e), fun _ _ _ e => (by cases e)⟩
  | drop to pc =>
    have key : ∀ c, pc = ⟨.pawn, c⟩ → (NoAnswer (Spec.apply (σ.pos P) (σ.move (.drop to pc))) (σ.sq to) ↔
        NoAnswer (Spec.apply P (.drop to pc)) to) := by
      rintro c rfl
      rw [σ.apply]
      exact σ.noAnswer (oneKing_drop h.oneKing (by decide))
    constructor
    · rintro H to' c e
      cases e
      exact fun hn => H (σ.sq to) (σ.col c) rfl ((key c rfl).2 hn)
    · rintro H to' c e
      obtain ⟨k, c'⟩ := pc
      simp only [move, piece, Move.drop.injEq, Piece.mk.injEq] at e
      obtain ⟨rfl, rfl, rfl⟩ := e
      exact fun hn => H to c' rfl ((key c' rfl).1 hn)

theorem listedFirst (i j : Fin 4) {R : Pos} {ms : List Move} (h : Tame (Props.current R ms)) {m : Move} :
    ListedFirst i (σ.pos R) (ms.map σ.move) (σ.move m) ↔ ListedFirst j R ms m := by
  unfold ListedFirst
  rw [σ.current, σ.collected i j h, σ.reportedFirst h.oneKing, σ.keptSafe h.oneKing, ← σ.exists_sq]
  exact and_congr_right fun _ => and_congr_right fun _ => imp_congr Iff.rfl
    (exists_congr fun king => and_congr (σ.firstKing h.oneKing) (σ.answersFirst h.oneKing))

end Yasai.Sym

namespace Yasai.Props

open Yasai Spec

theorem tame_listed {i : Fin 4} {R : Pos} {ms : List Move} (hv : Tame (current R ms)) {m : Move}
    (hm : ListedFirst i R ms m) : Tame (current R (m :: ms)) := by
  have hp := pawnsOk_listed (Sym.pawnsOk hv) hm
  exact ⟨oneKing_apply hv.oneKing ((C91_collected i (Sym.pawnsOk hv) m).1 hm.1).1, hp.1, hp.2⟩

theorem tame_line (i : Fin 4) {R : Pos} (s : List Move) : ∀ ms, Tame (current R ms) → Line i R ms s →
    Tame (current R (s.reverse ++ ms)) := by
  induction s with
  | nil => exact fun ms h _ => h
  | cons m s ih =>
    intro ms h hl
    have := ih (m :: ms) (tame_listed h hl.1) hl.2
    simpa using this

theorem line_sym (σ : Sym) (i j : Fin 4) {R : Pos} (s : List Move) : ∀ ms, Tame (current R ms) →
    (Line i (σ.pos R) (ms.map σ.move) (s.map σ.move) ↔ Line j R ms s) := by
  induction s with
  | nil => exact fun _ _ => Iff.rfl
  | cons m s ih =>
    intro ms hv
    show ListedFirst i _ _ _ ∧ Line i (σ.pos R) ((m :: ms).map σ.move) _ ↔ _
    rw [σ.listedFirst i j hv]
    exact and_congr_right fun hm => ih _ (tame_listed hv hm)

theorem lineCount_sym (σ : Sym) (i j : Fin 4) {R : Pos} {ms : List Move} {d n : Nat}
    (hv : Tame (current R ms)) (h : LineCount j R ms d n) :
    LineCount i (σ.pos R) (ms.map σ.move) d n := by
  obtain ⟨L, h1, h2, h3⟩ := h
  refine ⟨L.map (List.map σ.move), ?_, fun g => ?_, by rw [List.length_map, h3]⟩
  · exact h1.map _ fun a b hab e => hab (by rw [← σ.map_move_move' a, e, σ.map_move_move'])
  · rw [List.mem_map]
    constructor
    · rintro ⟨g', hg', rfl⟩
      rw [List.length_map, line_sym σ i j g' ms hv]
      exact (h2 g').1 hg'
    · rintro ⟨hl, hg⟩
      refine ⟨g.map σ.move, (h2 _).2 ⟨by rw [List.length_map, hl], ?_⟩, σ.map_move_move' g⟩
      rw [← line_sym σ i j _ ms hv, σ.map_move_move']
      exact hg

theorem tooMany_sym (σ : Sym) {S S' : Move → Prop} (h : ∀ m, S m → S' (σ.move m)) (hs : TooMany S) :
    TooMany S' := by
  obtain ⟨l, h1, h2, h3⟩ := hs
  refine ⟨l.map σ.move, h1.map _ fun a b hab e => hab (by rw [← σ.move_move a, e, σ.move_move]),
    by rw [List.length_map, h2], fun m hm => ?_⟩
  obtain ⟨m', hm', rfl⟩ := List.mem_map.1 hm
  exact h _ (h3 m' hm')

theorem full_sym (σ : Sym) (i j : Fin 4) {R : Pos} {ms : List Move} (hv : Tame (current R ms))
    (h : Full j R ms) : Full i (σ.pos R) (ms.map σ.move) := by
  unfold Full
  rw [σ.reportedFirst hv.oneKing, σ.current]
  exact ⟨h.1, tooMany_sym σ (fun m hm => (σ.collected i j hv).2 hm) h.2⟩

theorem moveStops_sym (σ : Sym) {oc : Bool} {ply0 : Nat} {R : Pos} {ms : List Move} {m : Move}
    (h : MoveStops oc ply0 R ms m) : MoveStops oc ply0 (σ.pos R) (ms.map σ.move) (σ.move m) := by
  unfold MoveStops
  rw [List.length_map]
  refine h.imp ?_ id
  rintro ⟨frm, to, pr, ⟨k, c⟩, rfl, hb, hk⟩
  refine ⟨σ.sq frm, σ.sq to, pr, ⟨k, σ.col c⟩, rfl, ?_, ?_⟩
  · rw [σ.current]; exact σ.board_eq_some.2 hb
  · rw [σ.current]
    refine hk.imp id fun hk => ?_
    show (current R ms).hand (σ.col (σ.col (current R ms).side)) _ = 18
    rw [σ.col_col]
    exact hk

theorem trouble_sym (σ : Sym) (i j : Fin 4) {oc : Bool} {ply0 : Nat} {R : Pos} {ms : List Move}
    {a b : Nat} (hv : Tame (current R ms)) (h : Trouble oc ply0 j R ms a b) :
    Trouble oc ply0 i (σ.pos R) (ms.map σ.move) a b := by
  obtain ⟨s, hs, h⟩ := h
  have hv' := tame_line j s ms hv hs
  have e : (s.map σ.move).reverse ++ ms.map σ.move = (s.reverse ++ ms).map σ.move := by
    rw [List.map_append, List.map_reverse]
  refine ⟨s.map σ.move, (line_sym σ i j s ms hv).2 hs, ?_⟩
  rw [List.length_map, e]
  refine h.imp (And.imp_right (full_sym σ i j hv')) (And.imp_right ?_)
  rintro ⟨m, h1, h2⟩
  exact ⟨σ.move m, (σ.listedFirst i j hv').2 h1, moveStops_sym σ h2⟩

/-- Two runs that count corresponding lines and panic in the same cases give the same. -/
theorem counts_sym (σ : Sym) {i j : Fin 4} {R : Pos} {ms : List Move} {p p' : Position} {d : Nat}
    {T T' : Prop} {r r' : Option (Nat × Position)} (hv : Tame (current R ms))
    (h : Counts j R ms p d T r) (h' : Counts i (σ.pos R) (ms.map σ.move) p' d T' r') (hT : T ↔ T') :
    r'.map Prod.fst = r.map Prod.fst := by
  cases hr : r with
  | none => rw [h'.2.2 (hT.1 (h.2.1 hr))]
  | some x =>
    cases hr' : r' with
    | none => rw [h.2.2 (hT.2 (h'.2.1 hr'))] at hr; cases hr
    | some y =>
      have e := (h.1 x.1 x.2 hr).2
      have e' := (h'.1 y.1 y.2 hr').2
      exact congrArg some (e'.unique (lineCount_sym σ i j hv e))

theorem perft_sym (σ : Sym) (E E' : Env) (i j : Fin 4) (J J' : Junk) (pp pp' : CorePartialPosition)
    (hE : E'.overflowChecks = E.overflowChecks) (hroot : rootView pp' = σ.pos (rootView pp))
    (hply : pp'.ply = pp.ply) (ms : List Move) (p p' : Position)
    (h : Wandered E (buildAt j J) pp ms p) (h' : Wandered E' (buildAt i J') pp' (ms.map σ.move) p')
    (hv : Tame (view p)) (d : Nat) :
    (perft E' (buildAt i J') d p').map Prod.fst = (perft E (buildAt j J) d p).map Prod.fst ∧
    (perftTest E' (buildAt i J') d p').map Prod.fst = (perftTest E (buildAt j J) d p).map Prod.fst ∧
    (perftRoot E' (buildAt i J') d p' = none ↔ perftRoot E (buildAt j J) d p = none) ∧
    ∀ r r', perftRoot E (buildAt j J) d p = some r → perftRoot E' (buildAt i J') d p' = some r' →
      (∀ m n, (σ.move m, n) ∈ r'.1 ↔ (m, n) ∈ r.1) ∧ r'.2.1 = r.2.1 := by
  rw [h.visited.current (buildAt_mem j J)] at hv
  have hv' : Tame (current (σ.pos (rootView pp)) (ms.map σ.move)) := by
    rw [σ.current]; exact σ.tame hv
  have back : ∀ {T : Pos → List Move → Prop}, T (σ.pos (σ.pos (rootView pp)))
      ((ms.map σ.move).map σ.move) → T (rootView pp) ms := fun h => by
    rwa [σ.pos_pos, σ.map_move_move'] at h
  have t := fun a => C91_tidy j (Sym.pawnsOk hv) a
  have t' : ∀ a, Tidy i (rootView pp') (ms.map σ.move) a := fun a => by
    rw [hroot]; exact C91_tidy i (Sym.pawnsOk hv') a
  have sym : ∀ a b, Trouble E.overflowChecks pp.ply.toNat j (rootView pp) ms a b ↔
      Trouble E'.overflowChecks pp'.ply.toNat i (rootView pp') (ms.map σ.move) a b := fun a b => by
    rw [hE, hroot, hply]
    exact ⟨trouble_sym σ i j hv, fun h => back (T := fun R ms =>
      Trouble E.overflowChecks pp.ply.toNat j R ms a b) (trouble_sym σ j i hv' h)⟩
  have a1 := C90_perft E j J pp d ms p h (t _)
  have b1 := C90_perft E' i J' pp' d _ p' h' (t' _)
  have a2 := C90_perft_test E j J pp d ms p h (t _)
  have b2 := C90_perft_test E' i J' pp' d _ p' h' (t' _)
  rw [← sym, hroot] at b1 b2
  have a3 := C90_divide E j J pp d ms p h (t _)
  have b3 := C90_divide E' i J' pp' d _ p' h' (t' _)
  have m1 := (machine_at h (t 1).here).1
  have m2 := (machine_at h' (t' 1).here).1
  rw [← sym, hroot] at b3
  rw [hroot] at m2
  refine ⟨counts_sym σ hv a1 b1 Iff.rfl, counts_sym σ hv a2 b2 Iff.rfl, b3.2.trans a3.2.symm, ?_⟩
  rintro ⟨ls, n, q⟩ ⟨ls', n', q'⟩ hr hr'
  obtain ⟨_, hl, hc, _, hn⟩ := a3.1 ls n q hr
  obtain ⟨_, hl', hc', _, hn'⟩ := b3.1 ls' n' q' hr'
  have hm := (m1 _ hl).2
  have hm' := (m2 _ hl').2
  refine ⟨fun m k => ?_, hn'.unique (lineCount_sym σ i j hv hn)⟩
  have step : ∀ m k, (m, k) ∈ ls → ∀ k', (σ.move m, k') ∈ ls' → k' = k := fun m k h1 k' h2 => by
    have hm1 := (hm m).1 (List.mem_map.2 ⟨_, h1, rfl⟩)
    exact (hc' _ h2).unique (lineCount_sym σ i j (tame_listed hv hm1) (hc _ h1))
  constructor
  · intro hx
    have := (hm' (σ.move m)).1 (List.mem_map.2 ⟨_, hx, rfl⟩)
    obtain ⟨⟨m1, k1⟩, hy, e⟩ := List.mem_map.1 ((hm m).2 ((σ.listedFirst i j hv).1 this))
    cases e
    rw [step _ _ hy _ hx]
    exact hy
  · intro hx
    have := (hm m).1 (List.mem_map.2 ⟨_, hx, rfl⟩)
    obtain ⟨⟨m1, k1⟩, hy, e⟩ := List.mem_map.1 ((hm' _).2 ((σ.listedFirst i j hv).2 this))
    change m1 = σ.move m at e
    subst e
    rw [← step _ _ hx _ hy]
    exact hy

/-- **C93**.  Let two histories correspond move by move under the rotation by 180 degrees with colours
exchanged, with at most one king a side and sane pawns where `perft` is called.  Then `perft`, in all its
forms, gives the same count on both or panics on both, and the printed lines are the rotated moves with
the same counts.  The builds, the hash tables and the histories may be any. -/
theorem C93_rotated (E E' : Env) (i j : Fin 4) (J J' : Junk) (pp pp' : CorePartialPosition)
    (hE : E'.overflowChecks = E.overflowChecks) (hroot : Rotated (rootView pp) (rootView pp'))
    (hply : pp'.ply = pp.ply) (ms ms' : List Move) (hms : MoveByMove RotatedMove ms ms')
    (p p' : Position) (h : Wandered E (buildAt j J) pp ms p)
    (h' : Wandered E' (buildAt i J') pp' ms' p') (hv : Tame (view p)) (d : Nat) :
    (perft E' (buildAt i J') d p').map Prod.fst = (perft E (buildAt j J) d p).map Prod.fst ∧
    (perftTest E' (buildAt i J') d p').map Prod.fst = (perftTest E (buildAt j J) d p).map Prod.fst ∧
    (perftRoot E' (buildAt i J') d p' = none ↔ perftRoot E (buildAt j J) d p = none) ∧
    ∀ r r', perftRoot E (buildAt j J) d p = some r → perftRoot E' (buildAt i J') d p' = some r' →
      (∀ m m' n, RotatedMove m m' → ((m', n) ∈ r'.1 ↔ (m, n) ∈ r.1)) ∧ r'.2.1 = r.2.1 := by
  have e := moveByMove_eq (fun _ _ h => rotatedMove_eq h) hms
  subst e
  obtain ⟨h1, h2, h3, h4⟩ := perft_sym rotation E E' i j J J' pp pp' hE (rotated_eq hroot) hply ms p p'
    h h' hv d
  refine ⟨h1, h2, h3, fun r r' hr hr' => ⟨fun m m' n hm => ?_, (h4 r r' hr hr').2⟩⟩
  rw [rotatedMove_eq hm]
  exact (h4 r r' hr hr').1 m n

/-- **C93**.  The same for the reflection left to right. -/
theorem C93_reflected (E E' : Env) (i j : Fin 4) (J J' : Junk) (pp pp' : CorePartialPosition)
    (hE : E'.overflowChecks = E.overflowChecks) (hroot : Reflected (rootView pp) (rootView pp'))
    (hply : pp'.ply = pp.ply) (ms ms' : List Move) (hms : MoveByMove ReflectedMove ms ms')
    (p p' : Position) (h : Wandered E (buildAt j J) pp ms p)
    (h' : Wandered E' (buildAt i J') pp' ms' p') (hv : Tame (view p)) (d : Nat) :
    (perft E' (buildAt i J') d p').map Prod.fst = (perft E (buildAt j J) d p).map Prod.fst ∧
    (perftTest E' (buildAt i J') d p').map Prod.fst = (perftTest E (buildAt j J) d p).map Prod.fst ∧
    (perftRoot E' (buildAt i J') d p' = none ↔ perftRoot E (buildAt j J) d p = none) ∧
    ∀ r r', perftRoot E (buildAt j J) d p = some r → perftRoot E' (buildAt i J') d p' = some r' →
      (∀ m m' n, ReflectedMove m m' → ((m', n) ∈ r'.1 ↔ (m, n) ∈ r.1)) ∧ r'.2.1 = r.2.1 := by
  have e := moveByMove_eq (fun _ _ h => reflectedMove_eq h) hms
  subst e
  obtain ⟨h1, h2, h3, h4⟩ := perft_sym reflection E E' i j J J' pp pp' hE (reflected_eq hroot) hply ms
    p p' h h' hv d
  refine ⟨h1, h2, h3, fun r r' hr hr' => ⟨fun m m' n hm => ?_, (h4 r r' hr hr').2⟩⟩
  rw [reflectedMove_eq hm]
  exact (h4 r r' hr hr').1 m n

/-! ## Concrete cases -/

section
open Yasai.Examples

/-- A root with both kings attacked, reflected: not a position of a game, so C48 says nothing. -/
def crossFire (mirror : Bool) : CorePartialPosition where
  side := .black
  ply := 1#16
  hands := fun _ => handOf []
  board := boardOf (if mirror then
      [(8,9,.king,.black),(8,1,.rook,.white),(6,1,.king,.white),(6,9,.lance,.black)]
    else [(2,9,.king,.black),(2,1,.rook,.white),(4,1,.king,.white),(4,9,.lance,.black)])

/-- The hypotheses of `C93_reflected` hold, the root is not valid, and the counts are there; they are
those of two different builds. -/
theorem C93_example : Reflected (rootView (crossFire false)) (rootView (crossFire true)) ∧
    Tame (rootView (crossFire false)) ∧ ¬ Valid (rootView (crossFire false)) ∧
    countAt 0 (crossFire false) 2 = some (some 68) ∧ countAt 1 (crossFire true) 2 = some (some 68) := by
  refine ⟨⟨by decide +kernel, fun c k => rfl, rfl⟩, ⟨?_, ?_, ?_⟩,
    fun h => h.notInCheck (by decide +kernel), by decide +kernel, by decide +kernel⟩ <;>
  decide +kernel

/-- With two kings on a side the counts of reflected positions may differ. -/
theorem C93_two_kings : Reflected (rootView (kingsRook 8)) (rootView (kingsRook 2)) ∧
    countAt 0 (kingsRook 8) 1 = some (some 9) ∧ countAt 0 (kingsRook 2) 1 = some (some 4) :=
  ⟨C92_two_kings.1, by decide +kernel, by decide +kernel⟩

end

end Yasai.Props

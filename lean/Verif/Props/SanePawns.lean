import Verif.Props.PerftAny
import Verif.Proofs.Pseudo

/-!
# C91: sane pawns are enough for the builds to agree

What separates the builds from each other (C79, C80, C86, C88, C89) are pawns that the rules forbid: a
pawn on the last rank, and two pawns on a file with one of them on the first rank.  A position without
such pawns, whatever its kings, never leads to one by listed moves; so no call overruns, all builds list
the same moves and `perft` gives the same number.
-/

namespace Yasai.Props

open Yasai Spec

theorem pawnsOk_not_runsOut {P : Pos} (hv : PawnsOk P) (top : Nat) : ¬ RunsOut (pawnsOf P) top := by
  rintro ⟨f, _, ⟨s, t, hs, ht, e1, e2, h9, h9'⟩, _⟩
  simp only [pawnsOf, decide_eq_true_eq] at hs ht
  cases hc : P.side with
  | black =>
    have := hv.homePawn _ s t hs ht (e1.trans e2.symm) (by rw [hc]; exact h9)
    exact h9' (this ▸ h9)
  | white =>
    refine hv.noDeadPawn _ s hs ?_
    rw [hc]
    exact h9

theorem pawnsOk_taken {P : Pos} (hv : PawnsOk P) (f : Nat) :
    TakenForVacant (InHalf (pawnsOf P) f) f ↔
      ∀ s, s.file = f → P.board s ≠ some ⟨.pawn, P.side⟩ := by
  have hno : ∀ top, ¬ RunsOut (InHalf (pawnsOf P) f) top := by
    rintro top ⟨g, _, ⟨s, t, hs, ht, e1, e2, h9, h9'⟩, _⟩
    simp only [InHalf, Bool.and_eq_true] at hs ht
    refine pawnsOk_not_runsOut hv g ⟨g, Nat.le_refl _, ⟨s, t, hs.1, ht.1, e1, e2, h9, h9'⟩, ?_⟩
    intro u h1 h2
    omega
  unfold TakenForVacant
  simp only [hno, not_false_eq_true, and_true, or_false]
  constructor
  · intro h s hs hp
    refine h s ?_ hs
    simp only [InHalf, pawnsOf, hp, hs, decide_true, Bool.and_true]
  · intro h t ht e
    simp only [InHalf, pawnsOf, Bool.and_eq_true, decide_eq_true_eq] at ht
    exact h t e ht.1

/-- **C91**: with sane pawns every build collects the moves possible by the rules, except pawn drops that
give an attack on the first king to which the generator finds no answer. -/
theorem C91_collected (i : Fin 4) {P : Pos} (hv : PawnsOk P) (m : Move) :
    Collected i P m ↔ PseudoLegal P m ∧
      ∀ to c, m = .drop to ⟨.pawn, c⟩ → ¬ NoAnswer (apply P m) to := by
  cases m with
  | normal frm to pr =>
    constructor
    · rintro (h | ⟨_, hb, hw, _⟩)
      · exact ⟨h, fun _ _ e => (by cases e)⟩
      · refine absurd ?_ (hv.noDeadPawn _ _ hb)
        revert hw
        cases P.side
        · exact fun h => h.1
        · exact fun h => h.1
    · exact fun h => .inl h.1
  | drop to pc =>
    obtain ⟨k, c⟩ := pc
    unfold Collected DropListed PseudoLegal
    simp only [handKind_eq, pawnsOk_taken hv]
    constructor
    · rintro ⟨rfl, h1, h2, h3, h4, h5⟩
      refine ⟨⟨rfl, h1, h2, h3, h4, fun e => (h5 e).1⟩, fun to' c' e => ?_⟩
      cases e
      exact (h5 rfl).2
    · rintro ⟨⟨rfl, h1, h2, h3, h4, h5⟩, h6⟩
      refine ⟨rfl, h1, h2, h3, h4, fun e => ⟨h5 e, ?_⟩⟩
      cases e
      exact h6 to P.side rfl

theorem pawnsOk_listed {i : Fin 4} {R : Pos} {ms : List Move} (hv : PawnsOk (current R ms)) {m : Move}
    (hm : ListedFirst i R ms m) : PawnsOk (current R (m :: ms)) :=
  pawnsOk_apply hv ((C91_collected i hv m).1 hm.1).1

/-- **C91**: the pawns stay sane along every line. -/
theorem C91_line (i : Fin 4) {R : Pos} (s : List Move) : ∀ ms, PawnsOk (current R ms) → Line i R ms s →
    PawnsOk (current R (s.reverse ++ ms)) := by
  induction s with
  | nil => exact fun ms h _ => h
  | cons m s ih =>
    intro ms h hl
    have := ih (m :: ms) (pawnsOk_listed h hl.1) hl.2
    simpa using this

/-- **C91**: the search for vacant files never runs over. -/
theorem C91_tidy (i : Fin 4) {R : Pos} {ms : List Move} (hv : PawnsOk (current R ms)) (a : Nat) :
    Tidy i R ms a := fun s hs _ ho =>
  ho.2.2.elim (pawnsOk_not_runsOut (C91_line i s ms hv hs) _)
    (pawnsOk_not_runsOut (C91_line i s ms hv hs) _)

/-- **C91**: no call of `legal_moves` leaves a contract. -/
theorem C91_in_contract (E : Env) (i : Fin 4) (J : Junk) (pp : CorePartialPosition) (ms : List Move)
    (p : Position) (h : Wandered E (buildAt i J) pp ms p) (hv : PawnsOk (view p)) :
    p.legalMovesC (buildAt i J) (checkedAt i) E ≠ .broken := by
  rw [h.visited.current (buildAt_mem i J)] at hv
  intro e
  exact (C91_tidy i hv 1).here ((C89_ends E i J pp ms p h).2.2.1 e).1

theorem listed_builds (i j : Fin 4) {R : Pos} {ms : List Move} (hv : PawnsOk (current R ms)) (m : Move) :
    ListedFirst i R ms m ↔ ListedFirst j R ms m := by
  unfold ListedFirst
  rw [C91_collected i hv, C91_collected j hv]

/-- **C91**: the same lines on every build. -/
theorem C91_lines_builds (i j : Fin 4) {R : Pos} (s : List Move) : ∀ ms, PawnsOk (current R ms) →
    (Line i R ms s ↔ Line j R ms s) := by
  induction s with
  | nil => exact fun _ _ => Iff.rfl
  | cons m s ih =>
    intro ms hv
    unfold Line
    rw [← listed_builds i j hv]
    exact and_congr_right fun hm => ih _ (pawnsOk_listed hv hm)

theorem full_builds (i j : Fin 4) {R : Pos} {ms : List Move} (hv : PawnsOk (current R ms)) :
    Full i R ms ↔ Full j R ms := by
  unfold Full TooMany
  simp only [C91_collected i hv, C91_collected j hv]

theorem trouble_builds (i j : Fin 4) {oc : Bool} {ply0 : Nat} {R : Pos} {ms : List Move} {a b : Nat}
    (hv : PawnsOk (current R ms)) (h : Trouble oc ply0 i R ms a b) : Trouble oc ply0 j R ms a b := by
  obtain ⟨s, hs, h⟩ := h
  have hv' := C91_line i s ms hv hs
  refine ⟨s, (C91_lines_builds i j s ms hv).1 hs, h.imp (And.imp_right (full_builds i j hv').1)
    (And.imp_right ?_)⟩
  rintro ⟨m, h1, h2⟩
  exact ⟨m, (listed_builds i j hv' m).1 h1, h2⟩

theorem lineCount_builds (i j : Fin 4) {R : Pos} {ms : List Move} {d n : Nat}
    (hv : PawnsOk (current R ms)) (h : LineCount i R ms d n) : LineCount j R ms d n := by
  obtain ⟨L, h1, h2, h3⟩ := h
  exact ⟨L, h1, fun s => by rw [h2, C91_lines_builds i j s ms hv], h3⟩

/-- Two runs that count the same lines and panic in the same cases give the same. -/
theorem counts_same {i j : Fin 4} {R : Pos} {ms : List Move} {p p' : Position} {d : Nat} {T T' : Prop}
    {r r' : Option (Nat × Position)} (hv : PawnsOk (current R ms)) (h : Counts i R ms p d T r)
    (h' : Counts j R ms p' d T' r') (hT : T ↔ T') : r.map Prod.fst = r'.map Prod.fst := by
  cases hr : r with
  | none => rw [h'.2.2 (hT.1 (h.2.1 hr))]
  | some x =>
    cases hr' : r' with
    | none => rw [h.2.2 (hT.2 (h'.2.1 hr'))] at hr; cases hr
    | some y =>
      have e := (h.1 x.1 x.2 hr).2
      have e' := (h'.1 y.1 y.2 hr').2
      exact congrArg some ((lineCount_builds i j hv e).unique e')

/-- **C91**: `perft`, in all its forms, does not depend on the build.  The hash tables may differ; the
roots differ at most in what the plain position does not show, the move counter aside. -/
theorem C91_perft_builds (E E' : Env) (i j : Fin 4) (J J' : Junk) (pp pp' : CorePartialPosition)
    (hE : E'.overflowChecks = E.overflowChecks) (hroot : rootView pp' = rootView pp)
    (hply : pp'.ply = pp.ply) (ms : List Move) (p p' : Position)
    (h : Wandered E (buildAt i J) pp ms p) (h' : Wandered E' (buildAt j J') pp' ms p')
    (hv : PawnsOk (view p)) (d : Nat) :
    (perft E (buildAt i J) d p).map Prod.fst = (perft E' (buildAt j J') d p').map Prod.fst ∧
    (perftTest E (buildAt i J) d p).map Prod.fst = (perftTest E' (buildAt j J') d p').map Prod.fst ∧
    (perftRoot E (buildAt i J) d p = none ↔ perftRoot E' (buildAt j J') d p' = none) ∧
    ∀ r r', perftRoot E (buildAt i J) d p = some r → perftRoot E' (buildAt j J') d p' = some r' →
      (∀ x, x ∈ r.1 ↔ x ∈ r'.1) ∧ r.2.1 = r'.2.1 := by
  rw [h.visited.current (buildAt_mem i J)] at hv
  have t := fun a => C91_tidy i hv a
  have t' : ∀ a, Tidy j (rootView pp') ms a := fun a => by rw [hroot]; exact C91_tidy j hv a
  have sym : ∀ a b, Trouble E.overflowChecks pp.ply.toNat i (rootView pp) ms a b ↔
      Trouble E'.overflowChecks pp'.ply.toNat j (rootView pp') ms a b := fun a b => by
    rw [hE, hroot, hply]
    exact ⟨trouble_builds i j hv, trouble_builds j i hv⟩
  have a1 := C90_perft E i J pp d ms p h (t _)
  have b1 := C90_perft E' j J' pp' d ms p' h' (t' _)
  have a2 := C90_perft_test E i J pp d ms p h (t _)
  have b2 := C90_perft_test E' j J' pp' d ms p' h' (t' _)
  rw [← sym] at b1 b2
  rw [hroot] at b1 b2
  have a3 := C90_divide E i J pp d ms p h (t _)
  have b3 := C90_divide E' j J' pp' d ms p' h' (t' _)
  have m1 := (machine_at h (t 1).here).1
  have m2 := (machine_at h' (t' 1).here).1
  rw [← sym] at b3
  rw [hroot] at b3 m2
  refine ⟨counts_same hv a1 b1 Iff.rfl, counts_same hv a2 b2 Iff.rfl, a3.2.trans b3.2.symm, ?_⟩
  rintro ⟨ls, n, q⟩ ⟨ls', n', q'⟩ hr hr'
  obtain ⟨_, hl, hc, _, hn⟩ := a3.1 ls n q hr
  obtain ⟨_, hl', hc', _, hn'⟩ := b3.1 ls' n' q' hr'
  refine ⟨fun x => ?_, (lineCount_builds i j hv hn).unique hn'⟩
  have half : ∀ {i j : Fin 4} {ls ls' : List (Move × Nat)},
      (∀ m, m ∈ ls.map Prod.fst ↔ ListedFirst i (rootView pp) ms m) →
      (∀ m, m ∈ ls'.map Prod.fst ↔ ListedFirst j (rootView pp) ms m) →
      (∀ x ∈ ls, LineCount i (rootView pp) (x.1 :: ms) (max d 1 - 1) x.2) →
      (∀ x ∈ ls', LineCount j (rootView pp) (x.1 :: ms) (max d 1 - 1) x.2) → x ∈ ls → x ∈ ls' := by
    intro i j ls ls' h1 h2 c1 c2 hx
    have hm := (h1 x.1).1 (List.mem_map.2 ⟨x, hx, rfl⟩)
    obtain ⟨y, hy, e⟩ := List.mem_map.1 ((h2 x.1).2 ((listed_builds i j hv _).1 hm))
    have hc2 := c2 y hy
    rw [e] at hc2
    have := (lineCount_builds i j (pawnsOk_listed hv hm) (c1 x hx)).unique hc2
    rw [show x = y from Prod.ext e.symm this]
    exact hy
  exact ⟨half (m1 _ hl).2 (m2 _ hl').2 hc hc', half (m2 _ hl').2 (m1 _ hl).2 hc' hc⟩

/-! ## A concrete case -/

section
open Yasai.Examples

/-- Two kings on one side, pawns on the board and in the hand. -/
def kingsAndPawns : CorePartialPosition where
  side := .black
  ply := 1#16
  hands := fun _ => handOf [(.pawn, 1)]
  board := boardOf [(9,9,.king,.black),(9,8,.pawn,.black),(8,9,.pawn,.black),(1,1,.king,.white),
    (3,1,.king,.white),(7,2,.pawn,.white)]

theorem kingsAndPawns_ok : PawnsOk (rootView kingsAndPawns) ∧ ¬ Tame (rootView kingsAndPawns) := by
  refine ⟨⟨?_, ?_⟩, fun h => absurd (h.oneKing .white (sq 1 1) (sq 3 1) (by decide) (by decide)) (by decide)⟩ <;>
    decide +kernel

def countAt (i : Fin 4) (pp : CorePartialPosition) (d : Nat) : Option (Option Nat) :=
  (Position.new env0 (buildAt i otherJunk) pp).map fun p =>
    (perft env0 (buildAt i otherJunk) d p).map Prod.fst

/-- With a pawn on the last rank the builds do count differently. -/
theorem C91_example : countAt 0 kingsAndPawns 1 = some (some 58) ∧
    countAt 0 roundTheEdge 1 = some (some 3) ∧ countAt 1 roundTheEdge 1 = some (some 4) := by
  decide +kernel

/-- What is computed on one build holds on all. -/
example (i : Fin 4) (J : Junk) (p : Position) (hp : Position.new env0 (buildAt i J) kingsAndPawns = some p) :
    (perft env0 (buildAt i J) 1 p).map Prod.fst = some 58 ∧
    p.legalMovesC (buildAt i J) (checkedAt i) env0 ≠ .broken := by
  have h := C91_example.1
  unfold countAt at h
  obtain ⟨q, hq, h⟩ := Option.map_eq_some_iff.1 h
  have w : Wandered env0 (buildAt i J) kingsAndPawns [] p := ⟨p, hp, .start⟩
  have w' : Wandered env0 (buildAt 0 otherJunk) kingsAndPawns [] q := ⟨q, hq, .start⟩
  have hv : PawnsOk (view p) := by
    rw [w.visited.current (buildAt_mem i J)]
    exact kingsAndPawns_ok.1
  refine ⟨?_, C91_in_contract _ i J _ _ p w hv⟩
  rw [(C91_perft_builds env0 env0 i 0 J otherJunk _ _ rfl rfl rfl [] p q w w' hv 1).1]
  exact h

end

end Yasai.Props

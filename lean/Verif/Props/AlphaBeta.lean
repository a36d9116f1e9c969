import Verif.Props.Search

/-!
# C104: searches that stop early
-/

namespace Yasai.Props

open Yasai Spec

/-! ## The program -/

/-- The loop of an alpha-beta search over the moves that are left; `best` is the best value so far.  Once it
reaches `beta` the moves that are left are not looked at. -/
def alphaBetaLoop (E : Env) (K : Backend) (rec : Position → Int → Int → Option (Int × Position))
    (alpha beta : Int) : List Move → Int → Position → Option (Int × Position)
  | [], best, p => some (best, p)
  | m :: ms, best, p =>
    if beta ≤ best then some (best, p)
    else do
      let q ← p.doMove E K m
      let (a, q) ← rec q (-beta) (-(max alpha best))
      let q ← q.undoMove E K m
      alphaBetaLoop E K rec alpha beta ms (max best (-a)) q

/-- Alpha-beta search of fixed depth; `lost` is the value of a position without legal moves, and no position
that is searched counts as worse. -/
def alphaBeta (E : Env) (K : Backend) (leaf : Position → Option Int) (lost : Int) :
    Nat → Position → Int → Int → Option (Int × Position)
  | 0, p, _, _ => (leaf p).map fun a => (a, p)
  | d + 1, p, alpha, beta => do
    let ms ← p.legalMoves E K
    alphaBetaLoop E K (alphaBeta E K leaf lost d) alpha beta ms lost p

/-! ## Specification -/

/-- The best of the values after the moves, each seen from the other side. -/
def bestOf (lost : Int) (l : List Int) : Int := l.foldl (fun b x => max b (-x)) lost

/-- What the result `r` says about the value `v`: inside the window it is the value, outside it is a bound. -/
def Tells (alpha beta v r : Int) : Prop :=
  (r ≤ alpha → v ≤ r) ∧ (alpha < r → r < beta → v = r) ∧ (beta ≤ r → r ≤ v)

/-! ## Proof -/

theorem foldl_best_le (l : List Int) : ∀ b : Int, b ≤ l.foldl (fun b x => max b (-x)) b := by
  induction l with
  | nil => intro b; exact Int.le_refl _
  | cons x l ih => intro b; exact Int.le_trans (by omega) (ih (max b (-x)))

theorem alphaBeta_values {R : Move → Int → Prop} :
    ∀ {l : List Move}, (∀ m ∈ l, ∃ v, R m v) →
      ∃ rs : List (Move × Int), rs.map Prod.fst = l ∧ ∀ x ∈ rs, R x.1 x.2 := by
  intro l
  induction l with
  | nil => exact fun _ => ⟨[], rfl, fun x hx => (by cases hx)⟩
  | cons m l ih =>
    intro h
    obtain ⟨v, hv⟩ := h m List.mem_cons_self
    obtain ⟨rs, e, hr⟩ := ih fun m hm => h m (List.mem_cons_of_mem _ hm)
    refine ⟨(m, v) :: rs, by rw [List.map_cons, e], fun x hx => ?_⟩
    rcases List.mem_cons.1 hx with rfl | hx
    · exact hv
    · exact hr x hx

theorem alphaBetaLoop_tells {E : Env} {K : Backend} {p : Position}
    {rec : Position → Int → Int → Option (Int × Position)} {alpha beta : Int} (hab : alpha < beta) :
    ∀ {rs : List (Move × Int)}, (∀ x ∈ rs, ∃ p', p.doMove E K x.1 = some p' ∧
        p'.undoMove E K x.1 = some p ∧
        ∀ a b, a < b → ∃ r, rec p' a b = some (r, p') ∧ Tells a b x.2 r) →
      ∀ best V : Int, Tells alpha beta V best →
      ∃ r : Int, alphaBetaLoop E K rec alpha beta (rs.map Prod.fst) best p = some (r, p) ∧
        Tells alpha beta ((rs.map Prod.snd).foldl (fun b x => max b (-x)) V) r := by
  intro rs
  induction rs with
  | nil => exact fun _ best V h => ⟨best, rfl, h⟩
  | cons x rs ih =>
    intro h best V hb
    rw [List.map_cons]
    unfold alphaBetaLoop
    by_cases hcut : beta ≤ best
    · rw [if_pos hcut]
      refine ⟨best, rfl, fun h => by omega, fun _ h => by omega, fun _ => ?_⟩
      exact Int.le_trans (hb.2.2 hcut) (foldl_best_le ((x :: rs).map Prod.snd) V)
    · rw [if_neg hcut]
      obtain ⟨p', hd, hu, hrec⟩ := h x List.mem_cons_self
      obtain ⟨a, ha, t1, t2, t3⟩ := hrec (-beta) (-(max alpha best)) (by omega)
      obtain ⟨b1, b2, b3⟩ := hb
      obtain ⟨r, hl, ht⟩ := ih (fun x hx => h x (List.mem_cons_of_mem _ hx))
        (max best (-a)) (max V (-x.2)) (by unfold Tells; omega)
      refine ⟨r, ?_, ht⟩
      simp only [hd, ha, hu, Option.bind_eq_bind, Option.bind_some]
      exact hl

/-! ## C104 -/

/-- C104.  Alpha-beta search of every depth, from every position of a game: if its leaves are right, then
with every window it does not panic, leaves the position exactly as it was, also when it stops early, and its
result tells about the value that the rules give what alpha-beta promises. -/
theorem C104_alpha_beta (E : Env) (K : Backend) (hK : K ∈ backends) (pp : CorePartialPosition)
    (hst : Standard (rootView pp)) (leaf : Position → Option Int) (leafS : Pos → Int → Prop)
    (lost : Int) (hleaf : ∀ ms p, Reached E K pp ms p → ∃ a, leaf p = some a ∧ leafS (view p) a)
    (d : Nat) (ms : List Move) (p : Position) (h : Reached E K pp ms p)
    (hply : E.overflowChecks = true → p.ply.toNat + d ≤ 65535) :
    ∃ v, Value leafS (bestOf lost) d (view p) v ∧ ∀ alpha beta, alpha < beta →
      ∃ r, alphaBeta E K leaf lost d p alpha beta = some (r, p) ∧ Tells alpha beta v r := by
  induction d generalizing ms p with
  | zero =>
    obtain ⟨a, ha, hs⟩ := hleaf ms p h
    exact ⟨a, hs, fun alpha beta _ => ⟨a, by simp only [alphaBeta, ha, Option.map_some],
      fun _ => Int.le_refl _, fun _ _ => rfl, fun _ => Int.le_refl _⟩⟩
  | succ d ih =>
    obtain ⟨l, hl, _⟩ := C22_legal_moves_total E K hK pp hst ms p h
    obtain ⟨hn, hm⟩ := legalMoves_exact hK hst.valid h hl
    obtain ⟨rs, e, hr⟩ := alphaBeta_values (l := l)
      (R := fun m v => Value leafS (bestOf lost) d (apply (view p) m) v ∧
        ∃ p', p.doMove E K m = some p' ∧ p'.undoMove E K m = some p ∧ ∀ a b, a < b →
          ∃ r, alphaBeta E K leaf lost d p' a b = some (r, p') ∧ Tells a b v r) (fun m hmem => by
        have hleg := (hm m).1 hmem
        obtain ⟨_, _, _, _, _, hdo, _⟩ := C21_calls_return E K hK pp hst ms p h
        obtain ⟨p', hp'⟩ := hdo m ⟨l, hl, hmem⟩ (by
          intro hE e
          have := hply hE
          rw [e] at this
          have e2 : (65535#16).toNat = 65535 := rfl
          omega)
        have hr := h.move hleg hp'
        obtain ⟨v, hv, ht⟩ := ih (m :: ms) p' hr (fun hE => by
          have h1 := reached_ply hK hr hE
          have h2 := reached_ply hK h hE
          have h3 := hply hE
          simp only [List.length_cons] at h1
          omega)
        rw [(C03_do_move_is_rules E K _ _ _ hp').1] at hv
        exact ⟨v, hv, p', hp',
          C01_undo_inverts_do E K hK _ _ _ (shape_drops (shape_of_legal hleg)) hp', ht⟩)
    refine ⟨bestOf lost (rs.map Prod.snd),
      ⟨rs, e ▸ hn, e ▸ hm, fun x hx => (hr x hx).1, rfl⟩, fun alpha beta hab => ?_⟩
    obtain ⟨r, hf, ht⟩ := alphaBetaLoop_tells (E := E) (K := K) (p := p)
      (rec := alphaBeta E K leaf lost d) hab (rs := rs) (fun x hx => (hr x hx).2) lost lost
      ⟨fun _ => Int.le_refl _, fun _ _ => rfl, fun _ => Int.le_refl _⟩
    refine ⟨r, ?_, ht⟩
    unfold alphaBeta
    simp only [hl, Option.bind_eq_bind, Option.bind_some]
    rw [← e]
    exact hf

theorem foldl_best_perm {l l' : List Int} (h : l.Perm l') (lost : Int) : bestOf lost l = bestOf lost l' := by
  unfold bestOf
  induction h generalizing lost with
  | nil => rfl
  | cons x _ ih => exact ih _
  | swap x y l =>
    simp only [List.foldl_cons]
    congr 1
    omega
  | trans _ _ ih1 ih2 => exact (ih1 _).trans (ih2 _)

/-- C104.  When the value is inside the window, alpha-beta search and the search that looks at every move
give the same. -/
theorem C104_same_as_full (E : Env) (K : Backend) (hK : K ∈ backends) (pp : CorePartialPosition)
    (hst : Standard (rootView pp)) (leaf : Position → Option Int) (leafS : Pos → Int → Prop)
    (hone : ∀ P a b, leafS P a → leafS P b → a = b)
    (lost : Int) (hleaf : ∀ ms p, Reached E K pp ms p → ∃ a, leaf p = some a ∧ leafS (view p) a)
    (d : Nat) (ms : List Move) (p : Position) (h : Reached E K pp ms p)
    (hply : E.overflowChecks = true → p.ply.toNat + d ≤ 65535) :
    ∃ v, search E K leaf (bestOf lost) d p = some (v, p) ∧ ∀ alpha beta, alpha < v → v < beta →
      alphaBeta E K leaf lost d p alpha beta = some (v, p) := by
  obtain ⟨v, hv, ht⟩ := C104_alpha_beta E K hK pp hst leaf leafS lost hleaf d ms p h hply
  obtain ⟨w, hw, hwv⟩ := C101_search E K hK pp hst leaf leafS (bestOf lost) hleaf d ms p h hply
  have e : v = w := Value.unique hone (fun _ _ h => foldl_best_perm h lost) hv hwv
  refine ⟨v, e ▸ hw, fun alpha beta h1 h2 => ?_⟩
  obtain ⟨r, hr, t1, t2, t3⟩ := ht alpha beta (by omega)
  rw [hr, show r = v by omega]

/-! ## A concrete case -/

open Yasai.Examples

/-- On a position with a mate in one, two plies deep and with a window below the value of a win: the search
stops early, and by the theorem the value by the rules is at least the result. -/
theorem C104_example : ∃ p, Reached env0 CoreBB.backend mateInOne [] p ∧
    (alphaBeta env0 CoreBB.backend (fun _ => some 0) (-100) 2 p (-50) 50).map Prod.fst = some 100 ∧
    (alphaBeta env0 CoreBB.backend (fun _ => some 0) (-100) 2 p 200 300).map Prod.fst = some 100 ∧
    Value (fun _ a => a = 0) (bestOf (-100)) 2 (rootView mateInOne) 100 := by
  have h : ((Position.new env0 CoreBB.backend mateInOne).any fun p =>
      (alphaBeta env0 CoreBB.backend (fun _ => some 0) (-100) 2 p (-50) 50).any (fun r => r.1 == 100) &&
      (alphaBeta env0 CoreBB.backend (fun _ => some 0) (-100) 2 p 200 300).any fun r => r.1 == 100) = true := by
    decide +kernel
  simp only [Option.any_eq_true, beq_iff_eq, Bool.and_eq_true] at h
  obtain ⟨p, hp, ⟨r, hr, e⟩, ⟨r', hr', e'⟩⟩ := h
  have hre : Reached env0 CoreBB.backend mateInOne [] p := ⟨p, hp, .start⟩
  have hply : p.ply = 1#16 := (C35_new_reproduces env0 _ core_mem _ p hp).2.2.2
  obtain ⟨v, hv, ht⟩ := C104_alpha_beta env0 _ core_mem mateInOne mateInOne_standard (fun _ => some 0)
    (fun _ a => a = 0) (-100) (fun _ _ _ => ⟨0, rfl, rfl⟩) 2 [] p hre (fun _ => by rw [hply]; decide)
  obtain ⟨a, ha, _, _, a3⟩ := ht (-50) 50 (by decide)
  obtain ⟨b, hb, b1, _, _⟩ := ht 200 300 (by decide)
  rw [hr] at ha
  cases ha
  rw [hr'] at hb
  cases hb
  rw [view_new core_mem hp] at hv
  dsimp only at e e'
  refine ⟨p, hre, by rw [hr]; exact congrArg some e, by rw [hr']; exact congrArg some e', ?_⟩
  have : v = 100 := by omega
  exact this ▸ hv

end Yasai.Props

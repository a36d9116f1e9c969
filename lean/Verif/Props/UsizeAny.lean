import Verif.Props.PerftAny
import Verif.Props.Usize

/-!
# C94: the counters of perft with machine integers, from every position

C47 is about standard material and legal play.  Here the exact counts of C90 are related to the counts in
machine integers, with no condition at all: whatever the position, the two differ only by the overflow.
-/

namespace Yasai.Props

open Yasai Spec

/-! ## Every list fits the buffer -/

/-- A step of the generator that keeps the buffer within its capacity. -/
def Bounded (f : Av → Option Av) : Prop := ∀ av av', av.length ≤ 593 → f av = some av' → av'.length ≤ 593

theorem bounded_push (m : Move) : Bounded fun av => av.push m := by
  intro av av' _ h
  simp only [Av.push] at h
  split at h
  · rename_i hl
    cases h
    rw [List.length_append]
    exact hl
  · cases h

theorem bounded_pure : Bounded pure := fun av av' h e => by cases e; exact h

theorem bounded_bind {f g : Av → Option Av} (hf : Bounded f) (hg : Bounded g) : Bounded fun av => f av >>= g := by
  intro av av' h e
  obtain ⟨b, h1, h2⟩ := Option.bind_eq_some_iff.1 e
  exact hg _ _ (hf _ _ h h1) h2

theorem bounded_const {α : Type} (o : Option α) {g : α → Av → Option Av} (hg : ∀ a, Bounded (g a)) :
    Bounded fun av => o >>= fun a => g a av := by
  intro av av' h e
  obtain ⟨b, h1, h2⟩ := Option.bind_eq_some_iff.1 e
  exact hg b _ _ h h2

theorem bounded_foldlM {α : Type} {g : α → Av → Option Av} (hg : ∀ a, Bounded (g a)) (l : List α) :
    Bounded fun av => l.foldlM (fun av a => g a av) av := by
  induction l with
  | nil => exact bounded_pure
  | cons a l ih =>
    intro av av' h e
    simp only [List.foldlM_cons] at e
    obtain ⟨b, h1, h2⟩ := Option.bind_eq_some_iff.1 e
    exact ih _ _ (hg a _ _ h h1) h2

theorem bounded_ite {c : Prop} [Decidable c] {f g : Av → Option Av} (hf : Bounded f) (hg : Bounded g) :
    Bounded fun av => if c then f av else g av := by
  intro av av' h e
  split at e
  · exact hf _ _ h e
  · exact hg _ _ h e

theorem bounded_forward (c : Color) (n : Nat) (frm to : Square) :
    Bounded fun av => PartialPosition.pushForward c n av frm to := by
  unfold PartialPosition.pushForward
  exact bounded_ite (bounded_bind (bounded_push _) (bounded_ite (bounded_push _) bounded_pure)) (bounded_push _)

theorem bounded_optional (c : Color) (b : Bool) (frm to : Square) :
    Bounded fun av => PartialPosition.pushOptional c b av frm to := by
  unfold PartialPosition.pushOptional
  exact bounded_bind (bounded_push _) (bounded_ite (bounded_push _) bounded_pure)

section
variable {E : Env} {K : Backend} {q : PartialPosition} {st : State} {t : BB}

theorem bounded_fu : Bounded fun av => q.generateForFu K av t :=
  bounded_foldlM (fun to => bounded_forward _ _ _ to) _
theorem bounded_ky : Bounded fun av => q.generateForKy K av t :=
  bounded_foldlM (fun _ => bounded_foldlM (fun _ => bounded_forward _ _ _ _) _) _
theorem bounded_ke : Bounded fun av => q.generateForKe K av t :=
  bounded_foldlM (fun _ => bounded_foldlM (fun _ => bounded_forward _ _ _ _) _) _
theorem bounded_gi : Bounded fun av => q.generateForGi K av t :=
  bounded_foldlM (fun _ => bounded_foldlM (fun _ => bounded_optional _ _ _ _) _) _
theorem bounded_ka : Bounded fun av => q.generateForKa K av t :=
  bounded_foldlM (fun _ => bounded_foldlM (fun _ => bounded_optional _ _ _ _) _) _
theorem bounded_hi : Bounded fun av => q.generateForHi K av t :=
  bounded_foldlM (fun _ => bounded_foldlM (fun _ => bounded_optional _ _ _ _) _) _
theorem bounded_ki : Bounded fun av => q.generateForKi K av t :=
  bounded_foldlM (fun _ => bounded_foldlM (fun _ => bounded_push _) _) _
theorem bounded_ou : Bounded fun av => q.generateForOu K av t :=
  bounded_foldlM (fun _ => bounded_foldlM (fun _ => bounded_push _) _) _
theorem bounded_um : Bounded fun av => q.generateForUm K av t :=
  bounded_foldlM (fun _ => bounded_foldlM (fun _ => bounded_push _) _) _
theorem bounded_ry : Bounded fun av => q.generateForRy K av t :=
  bounded_foldlM (fun _ => bounded_foldlM (fun _ => bounded_push _) _) _

theorem bounded_drop : Bounded fun av => q.generateDrop E K st av t := by
  have one : ∀ pk target, Bounded fun av => (K.iter target).foldlM (fun av to =>
      if PartialPosition.dropAllowed pk q.side to then av.push (.drop to ⟨pk, q.side⟩) else pure av) av :=
    fun pk target => bounded_foldlM (fun to => bounded_ite (bounded_push _) bounded_pure) _
  refine bounded_foldlM (fun pk => ?_) _
  exact bounded_ite (bounded_const _ (one pk)) (bounded_const _ (one pk))

theorem bounded_all : Bounded fun av => q.generateAll E K st av := by
  unfold PartialPosition.generateAll
  exact bounded_bind bounded_fu <| bounded_bind bounded_ky <| bounded_bind bounded_ke <|
    bounded_bind bounded_gi <| bounded_bind bounded_ka <| bounded_bind bounded_hi <|
    bounded_bind bounded_ki <| bounded_bind bounded_ou <| bounded_bind bounded_um <|
    bounded_bind bounded_ry bounded_drop

theorem bounded_evasions : Bounded fun av => q.generateEvasions E K st av := by
  unfold PartialPosition.generateEvasions
  refine bounded_const _ fun king => bounded_const _ fun x => bounded_bind
    (bounded_foldlM (fun _ => bounded_push _) _) (bounded_ite bounded_pure (bounded_const _ fun ch => ?_))
  exact bounded_bind bounded_fu <| bounded_bind bounded_ky <| bounded_bind bounded_ke <|
    bounded_bind bounded_gi <| bounded_bind bounded_ka <| bounded_bind bounded_hi <|
    bounded_bind bounded_ki <| bounded_bind bounded_um <|
    bounded_bind bounded_ry (bounded_ite bounded_drop bounded_pure)

end

theorem filterLoop_length (ok : Move → Bool) (n i : Nat) (av : Av) :
    (filterLoop ok n i av).length ≤ av.length := by
  induction n generalizing i av with
  | zero => exact Nat.le_refl _
  | succ n ih =>
    unfold filterLoop
    split
    · exact Nat.le_refl _
    · split
      · exact ih _ _
      · refine Nat.le_trans (ih _ _) ?_
        unfold Av.swapRemove
        split
        · rw [List.length_dropLast, List.length_set]; omega
        · exact Nat.le_refl _

/-- A list that `legal_moves` returns has at most 593 moves, whatever the position, reached or not. -/
theorem C94_list_fits (E : Env) (K : Backend) (p : Position) (l : List Move)
    (h : p.legalMoves E K = some l) : l.length ≤ 593 := by
  unfold Position.legalMoves at h
  obtain ⟨st, _, h⟩ := Option.bind_eq_some_iff.1 h
  dsimp only at h
  split at h
  · obtain ⟨av, h1, h⟩ := Option.bind_eq_some_iff.1 h
    cases h
    exact Nat.le_trans (filterLoop_length _ _ _ _) (bounded_evasions _ _ (by simp) h1)
  · obtain ⟨av, h1, h⟩ := Option.bind_eq_some_iff.1 h
    cases h
    exact Nat.le_trans (filterLoop_length _ _ _ _) (bounded_all _ _ (by simp) h1)

/-! ## The counters -/

/-- The outcome in `w`-bit arithmetic of a computation with an exact outcome. -/
def inMachine (w : Nat) (oc : Bool) (r : Option (Nat × Position)) : Option (Nat × Position) :=
  r.bind fun x => machine w oc x.1 x.2

theorem inMachine_some {w : Nat} {oc : Bool} {n : Nat} {p : Position} :
    inMachine w oc (some (n, p)) = machine w oc n p := rfl

/-- The loop of a node. -/
theorem loop_machine (w : Nat) (oc : Bool) (step stepU : Position → Move → Option (Nat × Position))
    (h : ∀ p m, stepU p m = inMachine w oc (step p m)) (l : List Move) (a : Nat) (p : Position) :
    (if oc then a < 2 ^ w else True) →
    l.foldlM (fun (acc : Nat × Position) m => do
      let (count, q) ← stepU acc.2 m
      let ret ← usizeAdd w oc acc.1 count
      pure (ret, q)) (if oc then a else a % 2 ^ w, p) =
    inMachine w oc (l.foldlM (fun (acc : Nat × Position) m => do
      let (n, q) ← step acc.2 m
      pure (acc.1 + n, q)) (a, p)) := by
  -- the exact sum only grows
  have grow : ∀ (l : List Move) (a : Nat) (p : Position) n q,
      l.foldlM (fun (acc : Nat × Position) m => do
        let (n, q) ← step acc.2 m
        pure (acc.1 + n, q)) (a, p) = some (n, q) → a ≤ n := by
    intro l
    induction l with
    | nil => intro a p n q e; cases e; exact Nat.le_refl _
    | cons m l ih =>
      intro a p n q e
      rw [List.foldlM_cons] at e
      obtain ⟨⟨b, p'⟩, h1, h2⟩ := Option.bind_eq_some_iff.1 e
      obtain ⟨⟨k, p''⟩, h3, h4⟩ := Option.bind_eq_some_iff.1 h1
      cases h4
      have := ih _ _ _ _ h2
      omega
  induction l generalizing a p with
  | nil =>
    intro ha
    show some _ = machine w oc a p
    cases oc with
    | true => exact (machine_small (by simpa using ha)).symm
    | false => rw [machine_wrap]; rfl
  | cons m l ih =>
    intro ha
    rw [List.foldlM_cons, List.foldlM_cons, h]
    cases hs : step p m with
    | none => rfl
    | some x =>
      obtain ⟨k, p'⟩ := x
      rw [inMachine_some]
      cases oc with
      | false =>
        have e : usizeAdd w false (a % 2 ^ w) (k % 2 ^ w) = some ((a + k) % 2 ^ w) := by
          rw [usizeAdd_wrap, ← Nat.add_mod]
        have := ih (a + k) p' (by simp)
        simp only [Bool.false_eq_true, if_false] at this ⊢
        simp only [machine_wrap, Option.bind_eq_bind, Option.bind_some, Option.pure_def, e]
        exact this
      | true =>
        simp only [if_true] at ha ⊢
        by_cases hk : k < 2 ^ w
        · rw [machine_small hk]
          by_cases hak : a + k < 2 ^ w
          · have e : usizeAdd w true a k = some (a + k) := if_pos hak
            have := ih (a + k) p' (by simpa using hak)
            simp only [if_true] at this
            simp only [Option.bind_eq_bind, Option.bind_some, Option.pure_def, e]
            exact this
          · have e : usizeAdd w true a k = none := by unfold usizeAdd; rw [if_neg hak]; rfl
            simp only [Option.bind_eq_bind, Option.bind_some, Option.bind_none, Option.pure_def, e]
            symm
            refine Option.bind_eq_none_iff.2 fun x hx => machine_checked ?_
            have := grow l _ _ _ _ hx
            omega
        · rw [machine_checked hk]
          simp only [Option.bind_eq_bind, Option.bind_some, Option.bind_none, Option.pure_def]
          symm
          refine Option.bind_eq_none_iff.2 fun x hx => machine_checked ?_
          have := grow l _ _ _ _ hx
          omega

theorem node_machine (w : Nat) (oc : Bool) (step stepU : Position → Move → Option (Nat × Position))
    (h : ∀ p m, stepU p m = inMachine w oc (step p m)) (l : List Move) (p : Position) :
    l.foldlM (fun (acc : Nat × Position) m => do
      let (count, q) ← stepU acc.2 m
      let ret ← usizeAdd w oc acc.1 count
      pure (ret, q)) (0, p) =
    inMachine w oc (l.foldlM (fun (acc : Nat × Position) m => do
      let (n, q) ← step acc.2 m
      pure (acc.1 + n, q)) (0, p)) := by
  have := loop_machine w oc step stepU h l 0 p (by split <;> simp [Nat.two_pow_pos])
  rw [Nat.zero_mod, ite_self] at this
  exact this

theorem step_machine (w : Nat) (E : Env) (K : Backend) {rec recU : Position → Option (Nat × Position)}
    (h : ∀ p, recU p = inMachine w E.overflowChecks (rec p)) (p : Position) (m : Move) :
    perftStep E K p m recU = inMachine w E.overflowChecks (perftStep E K p m rec) := by
  unfold perftStep
  cases hd : p.doMove E K m with
  | none => rfl
  | some p' =>
    simp only [Option.bind_eq_bind, Option.bind_some, h, Option.pure_def]
    cases hr : rec p' with
    | none => rfl
    | some x =>
      obtain ⟨n, p''⟩ := x
      rw [inMachine_some, Option.bind_some]
      unfold machine
      cases hu : p''.undoMove E K m with
      | none =>
        simp only [Option.bind_none]
        split
        · simp only [Option.bind_some, hu]; rfl
        · split
          · rfl
          · simp only [Option.bind_some, hu]; rfl
      | some q =>
        simp only [Option.bind_some, inMachine, machine]
        split
        · simp only [Option.bind_some, hu]
        · split
          · rfl
          · simp only [Option.bind_some, hu]

theorem ones (l : List Move) (a : Nat) (p : Position) :
    l.foldlM (fun (acc : Nat × Position) (_ : Move) => do
      let (n, q) ← (some (1, acc.2) : Option (Nat × Position))
      pure (acc.1 + n, q)) (a, p) = some (a + l.length, p) := by
  induction l generalizing a with
  | nil => rfl
  | cons m l ih =>
    rw [List.foldlM_cons]
    refine (ih (a + 1)).trans ?_
    rw [List.length_cons]
    congr 2
    omega

/-- **C94**: with counts in `w` bits, enough for the length of one list, the counter of
`/repo/examples/perft.rs` and `/repo/benches/bench_perft.rs` gives the exact count where it fits; where it
does not, it panics with overflow checks and gives the remainder modulo `2 ^ w` without; and it panics
where the exact counter panics.  This holds for every position, of whatever origin, on every build. -/
theorem C94_usize (w : Nat) (hw : 10 ≤ w) (E : Env) (K : Backend) (d : Nat) (p : Position) :
    perftUsize w E K d p = (perft E K d p).bind fun r =>
      if r.1 < 2 ^ w then some (r.1, r.2)
      else if E.overflowChecks then none
      else some (r.1 % 2 ^ w, r.2) := by
  show _ = inMachine w E.overflowChecks _
  have hp : 2 ^ 10 ≤ 2 ^ w := Nat.pow_le_pow_right (by omega) hw
  have small : ∀ (p : Position) l, p.legalMoves E K = some l →
      machine w E.overflowChecks l.length p = some (l.length, p) := fun p l hl => by
    refine machine_small ?_
    have := C94_list_fits E K p l hl
    omega
  have leaf : ∀ (p : Position), (do
      let l ← p.legalMoves E K
      pure (l.length, p) : Option (Nat × Position)) = inMachine w E.overflowChecks (do
      let l ← p.legalMoves E K
      pure (l.length, p)) := by
    intro p
    cases hl : p.legalMoves E K with
    | none => rfl
    | some l => exact (small p l hl).symm
  have one : ∀ (p : Position) (_ : Move), (some (1, p) : Option (Nat × Position)) =
      inMachine w E.overflowChecks (some (1, p)) := fun p _ =>
    (machine_small (by omega)).symm
  have small' : ∀ (p : Position) l, p.legalMoves E K = some l →
      l.foldlM (fun (acc : Nat × Position) (_ : Move) => do
        let (count, q) ← (pure (1, acc.2) : Option (Nat × Position))
        let ret ← usizeAdd w E.overflowChecks acc.1 count
        pure (ret, q)) (0, p) = some (l.length, p) := fun p l hl => by
    refine (node_machine w E.overflowChecks _ _ one l p).trans ?_
    rw [ones, inMachine_some, Nat.zero_add, small p l hl]
  induction d using Nat.strongRecOn generalizing p with
  | _ d ih =>
    match d with
    | 0 =>
      unfold perftUsize perft
      cases hl : p.legalMoves E K with
      | none => rfl
      | some l => exact (small' p l hl).trans (small p l hl).symm
    | 1 =>
      unfold perftUsize perft
      cases hl : p.legalMoves E K with
      | none => rfl
      | some l => exact (small' p l hl).trans (small p l hl).symm
    | 2 =>
      unfold perftUsize perft
      cases hl : p.legalMoves E K with
      | none => rfl
      | some l => exact node_machine w _ _ _ (fun p m => step_machine w E K leaf p m) l p
    | d + 3 =>
      unfold perftUsize perft
      cases hl : p.legalMoves E K with
      | none => rfl
      | some l =>
        exact node_machine w _ _ _ (fun p m => step_machine w E K (ih (d + 2) (by omega)) p m) l p

/-- **C94**, the counter of the unit test in `/repo/src/position.rs`, which has `u64`. -/
theorem C94_test (w : Nat) (hw : 1 ≤ w) (E : Env) (K : Backend) (d : Nat) (p : Position) :
    perftTestU w E K d p = (perftTest E K d p).bind fun r =>
      if r.1 < 2 ^ w then some (r.1, r.2)
      else if E.overflowChecks then none
      else some (r.1 % 2 ^ w, r.2) := by
  show _ = inMachine w E.overflowChecks _
  induction d generalizing p with
  | zero =>
    refine (machine_small ?_).symm
    have : 2 ^ 1 ≤ 2 ^ w := Nat.pow_le_pow_right (by omega) hw
    omega
  | succ d ih =>
    unfold perftTestU perftTest
    cases hl : p.legalMoves E K with
    | none => rfl
    | some l => exact node_machine w _ _ _ (fun p m => step_machine w E K ih p m) l p

/-- **C94**, with the lines of C90: from every accepted root, a call either has trouble in its tree and
panics, or is the number of lines taken in `w` bits, and then the position is as before. -/
theorem C94_lines (w : Nat) (hw : 10 ≤ w) (E : Env) (i : Fin 4) (J : Junk) (pp : CorePartialPosition)
    (d : Nat) (ms : List Move) (p : Position) (h : Wandered E (buildAt i J) pp ms p)
    (ht : Tidy i (rootView pp) ms (max d 1)) :
    (Trouble E.overflowChecks pp.ply.toNat i (rootView pp) ms (max d 1) (d - 1) →
      perftUsize w E (buildAt i J) d p = none) ∧
    (¬ Trouble E.overflowChecks pp.ply.toNat i (rootView pp) ms (max d 1) (d - 1) →
      ∃ n, LineCount i (rootView pp) ms (max d 1) n ∧
        perftUsize w E (buildAt i J) d p =
          if n < 2 ^ w then some (n, p)
          else if E.overflowChecks then none
          else some (n % 2 ^ w, p)) := by
  obtain ⟨h1, h2⟩ := C90_perft E i J pp d ms p h ht
  rw [C94_usize w hw]
  refine ⟨fun t => by rw [h2.2 t]; rfl, fun t => ?_⟩
  cases hp : perft E (buildAt i J) d p with
  | none => exact absurd (h2.1 hp) t
  | some r =>
    obtain ⟨n, q⟩ := r
    obtain ⟨rfl, hc⟩ := h1 n q hp
    exact ⟨n, hc, rfl⟩

/-! ## The overflow is real -/

section
open Yasai.Examples

/-- Four squares around the home square of each king. -/
def yard (c : Color) (a : Fin 4) : Square :=
  match c, a with
  | .black, 0 => sq 5 9 | .black, 1 => sq 4 9 | .black, 2 => sq 5 8 | .black, 3 => sq 4 8
  | .white, 0 => sq 5 1 | .white, 1 => sq 4 1 | .white, 2 => sq 5 2 | .white, 3 => sq 4 2

/-- Two bare kings, each in its yard. -/
def yards (k : Color → Fin 4) (c : Color) : Pos where
  board := fun s => if s = yard .black (k .black) then some ⟨.king, .black⟩
    else if s = yard .white (k .white) then some ⟨.king, .white⟩ else none
  hand := fun _ _ => 0
  side := c

/-- The same for the library. -/
def kingsHome : CorePartialPosition where
  side := .black
  ply := 1#16
  hands := fun _ => handOf []
  board := boardOf [(5,9,.king,.black),(5,1,.king,.white)]

def toward (k : Color → Fin 4) (c : Color) (a : Fin 4) : Move := .normal (yard c (k c)) (yard c a) false

def strollTo (k : Color → Fin 4) (c : Color) (a : Fin 4) : Color → Fin 4 := fun c' => if c' = c then a else k c'

def elsewhere (a : Fin 4) : List (Fin 4) := [0, 1, 2, 3].filter (· ≠ a)

/-- The games in which the kings stay in their yards. -/
def strolls : Nat → (Color → Fin 4) → Color → List (List Move)
  | 0, _, _ => [[]]
  | d + 1, k, c => (elsewhere (k c)).flatMap fun a => (strolls d (strollTo k c a) c.flip).map (toward k c a :: ·)

def both (x y : Fin 4) : Color → Fin 4
  | .black => x
  | .white => y

theorem both_eta (k : Color → Fin 4) : k = both (k .black) (k .white) := by
  funext c; cases c <;> rfl

theorem stroll_step (k : Color → Fin 4) (c : Color) (a : Fin 4) (ha : a ∈ elsewhere (k c)) :
    Legal (yards k c) (toward k c a) ∧ apply (yards k c) (toward k c a) = yards (strollTo k c a) c.flip := by
  have h : ∀ x y : Fin 4, ∀ c : Color, ∀ a ∈ elsewhere (both x y c),
      Legal (yards (both x y) c) (toward (both x y) c a) ∧
      ∀ s, (apply (yards (both x y) c) (toward (both x y) c a)).board s =
        (yards (strollTo (both x y) c a) c.flip).board s := by decide +kernel
  rw [both_eta k] at ha ⊢
  obtain ⟨h1, h2⟩ := h _ _ c a ha
  refine ⟨h1, ?_⟩
  have hv : ∀ x y : Fin 4, ∀ c : Color, ∀ a ∈ elsewhere (both x y c),
      (yards (both x y) c).board (yard c (both x y c)) = some ⟨.king, c⟩ ∧
      (yards (both x y) c).board (yard c a) = none := by decide +kernel
  have e : ∀ {P Q : Pos}, P.board = Q.board → P.hand = Q.hand → P.side = Q.side → P = Q := by
    rintro ⟨_, _, _⟩ ⟨_, _, _⟩ rfl rfl rfl; rfl
  obtain ⟨h3, h4⟩ := hv _ _ c a ha
  refine e (funext h2) ?_ ?_
  · funext c' k'
    simp only [toward, apply, h3, h4]
    rfl
  · simp only [toward, apply, h3]
    rfl

theorem mem_strolls {d : Nat} {k : Color → Fin 4} {c : Color} {g : List Move} (h : g ∈ strolls d k c) :
    g.length = d ∧ Game (yards k c) g := by
  induction d generalizing k c g with
  | zero => cases List.mem_singleton.1 h; exact ⟨rfl, trivial⟩
  | succ d ih =>
    obtain ⟨a, ha, h⟩ := List.mem_flatMap.1 h
    obtain ⟨g', hg, rfl⟩ := List.mem_map.1 h
    obtain ⟨h1, h2⟩ := ih hg
    obtain ⟨h3, h4⟩ := stroll_step k c a ha
    exact ⟨by rw [List.length_cons, h1], h3, by rw [h4]; exact h2⟩

theorem elsewhere_length (a : Fin 4) : (elsewhere a).length = 3 ∧ (elsewhere a).Nodup := by
  revert a; decide

theorem strolls_length (d : Nat) (k : Color → Fin 4) (c : Color) : (strolls d k c).length = 3 ^ d := by
  induction d generalizing k c with
  | zero => rfl
  | succ d ih =>
    unfold strolls
    rw [List.length_flatMap]
    simp only [List.length_map, ih]
    rw [List.map_const', (elsewhere_length (k c)).1, List.sum_replicate_nat, Nat.pow_succ, Nat.mul_comm]

theorem strolls_nodup (d : Nat) (k : Color → Fin 4) (c : Color) : (strolls d k c).Nodup := by
  induction d generalizing k c with
  | zero => exact List.pairwise_singleton _ _
  | succ d ih =>
    unfold strolls
    refine List.pairwise_flatMap.2 ⟨fun a _ => ?_, ?_⟩
    · exact List.Pairwise.map _ (fun _ _ h e => h (List.cons.inj e).2) (ih _ _)
    · refine (elsewhere_length (k c)).2.imp fun {a b} hab x hx y hy e => ?_
      obtain ⟨_, _, rfl⟩ := List.mem_map.1 hx
      obtain ⟨_, _, rfl⟩ := List.mem_map.1 hy
      have e := (List.cons.inj e).1
      simp only [toward, Move.normal.injEq] at e
      have inj : ∀ c : Color, ∀ a b : Fin 4, yard c a = yard c b → a = b := by decide
      exact hab (inj _ _ _ e.2.1)

theorem stroll_count {d n : Nat} {k : Color → Fin 4} {c : Color} (h : GameCount (yards k c) d n) :
    3 ^ d ≤ n := by
  obtain ⟨L, hL, hm, rfl⟩ := h
  have e : (L.filter (· ∈ strolls d k c)).length = (strolls d k c).length :=
    ((List.perm_ext_iff_of_nodup (List.Pairwise.filter _ hL) (strolls_nodup d k c)).2 fun g => by
      rw [List.mem_filter, hm, decide_eq_true_eq]
      exact ⟨And.right, fun h => ⟨mem_strolls h, h⟩⟩).length_eq
  rw [strolls_length] at e
  rw [← e]
  exact List.length_filter_le _ _

theorem kingsHome_view : rootView kingsHome = yards (both 0 0) .black := by
  have h : ∀ s, (rootView kingsHome).board s = (yards (both 0 0) .black).board s := by decide +kernel
  have h' : ∀ c k, (rootView kingsHome).hand c k = 0 := by decide +kernel
  have e : ∀ {P Q : Pos}, P.board = Q.board → P.hand = Q.hand → P.side = Q.side → P = Q := by
    rintro ⟨_, _, _⟩ ⟨_, _, _⟩ rfl rfl rfl; rfl
  exact e (funext h) (funext fun c => funext fun k => h' c k) rfl

theorem kingsHome_standard : Standard (rootView kingsHome) where
  valid := by decide +kernel
  material := by
    refine ⟨fun k => ?_, fun c k hk => ?_⟩
    · cases k <;> decide +kernel
    · simp only [rootView, Hand.count, ← handKind_eq, hk, Bool.false_eq_true, if_false, Option.getD_none]
  kings := by
    intro c
    cases c
    · exact ⟨sq 5 9, by decide +kernel⟩
    · exact ⟨sq 5 1, by decide +kernel⟩

/-- From two bare kings on their home squares the count does not fit 64 bits, at the latest at depth 41:
with overflow checks `perft` panics there, on every build, though the exact counter returns. -/
theorem C94_overflow (E : Env) (hE : E.overflowChecks = true) (K : Backend) (hK : K ∈ backends) :
    ∃ p n, Position.new E K kingsHome = some p ∧ perft E K 41 p = some (n, p) ∧ 2 ^ 64 ≤ n ∧
      perftUsize 64 E K 41 p = none := by
  obtain ⟨p, hp⟩ : ∃ p, Position.new E K kingsHome = some p := by
    rw [new_eq E (lawful_of_mem hK), if_pos]
    · exact ⟨_, rfl⟩
    · intro p hp; exact Nat.zero_le _
  have hr : Reached E K kingsHome [] p := ⟨p, hp, .start⟩
  have hply : p.ply = 1#16 := (C35_new_reproduces E K hK _ p hp).2.2.2
  obtain ⟨_, n, _, _, _, _, hn⟩ := C46_perft_divide E K hK kingsHome kingsHome_standard 41 [] p hr
    (fun _ => by rw [hply]; decide)
  have hc := (C31_perft E K hK kingsHome kingsHome_standard.valid 41 [] p hr n p hn).2
  rw [view_new hK hp, kingsHome_view] at hc
  have h3 : 2 ^ 64 ≤ n := Nat.le_trans (by decide) (stroll_count hc)
  refine ⟨p, n, hp, hn, h3, ?_⟩
  rw [C94_usize 64 (by omega), hn]
  show (if n < 2 ^ 64 then _ else _) = _
  rw [if_neg (by omega), hE]
  rfl

/-- The hypotheses of `C94_lines` hold at a root that is not standard; at depth 1 the count in 64 bits is
there, at depth 2 it is not, and the reason is not the width. -/
example : ∃ p, Wandered env0 (buildAt 2 otherJunk) (goldAndKings 8) [] p ∧
    (∀ d, Tidy 2 (rootView (goldAndKings 8)) [] d) ∧
    (perftUsize 64 env0 (buildAt 2 otherJunk) 1 p).map Prod.fst = some 3 ∧
    perftUsize 64 env0 (buildAt 2 otherJunk) 2 p = none ∧
    Trouble true 1 2 (rootView (goldAndKings 8)) [] 2 1 := by
  obtain ⟨_, h1, h2⟩ := C90_example
  specialize h1 2
  unfold perftAt at h1 h2
  obtain ⟨p, hp, h⟩ := Option.map_eq_some_iff.1 h1
  rw [hp] at h2
  simp only [Option.map_some, Option.some.injEq, Prod.mk.injEq, Option.map_eq_none_iff,
    Option.map_eq_some_iff] at h h2
  obtain ⟨⟨⟨n, q⟩, hr, rfl⟩, _⟩ := h
  have ht : ∀ d, Tidy 2 (rootView (goldAndKings 8)) [] d :=
    C90_tidy_pawnless 2 (R := rootView (goldAndKings 8)) [] (pawnless_goldAndKings (.inr rfl))
  have hw : Wandered env0 (buildAt 2 otherJunk) (goldAndKings 8) [] p := ⟨p, hp, .start⟩
  refine ⟨p, hw, ht, ?_, ?_, ?_⟩
  · rw [C94_usize 64 (by omega), hr]; rfl
  · rw [C94_usize 64 (by omega), h2.1]; rfl
  · exact (C90_perft env0 2 otherJunk _ 2 [] p hw (ht _)).2.1 h2.1

end

end Yasai.Props

import Verif.Props.Divide

/-!
# C47: perft with machine integers
-/

namespace Yasai.Props

open Yasai Spec

/-- The outcome of a computation with exact result `n` in `w`-bit arithmetic: with overflow checks a
panic when `n` does not fit, without them `n` modulo `2 ^ w`. -/
def machine (w : Nat) (overflowChecks : Bool) (n : Nat) (p : Position) : Option (Nat × Position) :=
  if n < 2 ^ w then some (n, p)
  else if overflowChecks then none
  else some (n % 2 ^ w, p)

section
variable {E : Env} {K : Backend} {pp : CorePartialPosition} {ms : List Move} {p : Position}

theorem machine_small {w : Nat} {oc : Bool} {n : Nat} {p : Position} (h : n < 2 ^ w) :
    machine w oc n p = some (n, p) := if_pos h

theorem machine_wrap {w : Nat} {n : Nat} {p : Position} :
    machine w false n p = some (n % 2 ^ w, p) := by
  unfold machine
  split
  · rename_i h; rw [Nat.mod_eq_of_lt h]
  · rfl

theorem machine_checked {w : Nat} {n : Nat} {p : Position} (h : ¬ n < 2 ^ w) :
    machine w true n p = none := by
  unfold machine
  rw [if_neg h]; rfl

theorem usizeAdd_wrap (w a b : Nat) : usizeAdd w false a b = some ((a + b) % 2 ^ w) := by
  unfold usizeAdd
  split
  · rename_i h; rw [Nat.mod_eq_of_lt h]
  · rfl

/-- The loop of one node without overflow checks. -/
theorem wrapFold (w : Nat) (step : Position → Move → Option (Nat × Position))
    (lines : List (Move × Nat))
    (hl : ∀ x ∈ lines, step p x.1 = machine w false x.2 p) (a : Nat) :
    (lines.map Prod.fst).foldlM (fun (acc : Nat × Position) m => do
      let (count, q) ← step acc.2 m
      let ret ← usizeAdd w false acc.1 count
      pure (ret, q)) (a % 2 ^ w, p) = some ((a + (lines.map Prod.snd).sum) % 2 ^ w, p) := by
  induction lines generalizing a with
  | nil => rfl
  | cons x lines ih =>
    rw [List.map_cons, List.foldlM_cons, hl x List.mem_cons_self, machine_wrap]
    have e : usizeAdd w false (a % 2 ^ w) (x.2 % 2 ^ w) = some ((a + x.2) % 2 ^ w) := by
      rw [usizeAdd_wrap, ← Nat.add_mod]
    simp only [Option.bind_eq_bind, Option.bind_some, Option.pure_def, e]
    refine (ih (fun x hx => hl x (List.mem_cons_of_mem _ hx)) (a + x.2)).trans ?_
    rw [List.map_cons, List.sum_cons, Nat.add_assoc]

/-- The loop of one node with overflow checks. -/
theorem checkFold (w : Nat) (step : Position → Move → Option (Nat × Position))
    (lines : List (Move × Nat))
    (hl : ∀ x ∈ lines, step p x.1 = machine w true x.2 p) (a : Nat) (ha : a < 2 ^ w) :
    (lines.map Prod.fst).foldlM (fun (acc : Nat × Position) m => do
      let (count, q) ← step acc.2 m
      let ret ← usizeAdd w true acc.1 count
      pure (ret, q)) (a, p) = machine w true (a + (lines.map Prod.snd).sum) p := by
  induction lines generalizing a with
  | nil => exact (machine_small ha).symm
  | cons x lines ih =>
    rw [List.map_cons, List.foldlM_cons, hl x List.mem_cons_self, List.map_cons, List.sum_cons,
      ← Nat.add_assoc]
    by_cases hx : x.2 < 2 ^ w
    · rw [machine_small hx]
      by_cases hs : a + x.2 < 2 ^ w
      · have e : usizeAdd w true a x.2 = some (a + x.2) := if_pos hs
        simp only [Option.bind_eq_bind, Option.bind_some, Option.pure_def, e]
        exact ih (fun x hx => hl x (List.mem_cons_of_mem _ hx)) _ hs
      · have e : usizeAdd w true a x.2 = none := by unfold usizeAdd; rw [if_neg hs]; rfl
        simp only [Option.bind_eq_bind, Option.bind_some, Option.bind_none, Option.pure_def, e]
        rw [machine_checked]
        omega
    · rw [machine_checked hx, machine_checked (by omega)]
      rfl

theorem nodeFold (w : Nat) (step : Position → Move → Option (Nat × Position))
    (lines : List (Move × Nat))
    (hl : ∀ x ∈ lines, step p x.1 = machine w E.overflowChecks x.2 p) :
    (lines.map Prod.fst).foldlM (fun (acc : Nat × Position) m => do
      let (count, q) ← step acc.2 m
      let ret ← usizeAdd w E.overflowChecks acc.1 count
      pure (ret, q)) (0, p) = machine w E.overflowChecks (lines.map Prod.snd).sum p := by
  cases hE : E.overflowChecks with
  | true =>
    rw [hE] at hl
    have := checkFold w step lines hl 0 (Nat.two_pow_pos w)
    rwa [Nat.zero_add] at this
  | false =>
    rw [hE] at hl
    have := wrapFold w step lines hl 0
    rw [Nat.zero_mod, Nat.zero_add] at this
    rw [machine_wrap]
    exact this

/-- One step of the loop, given the outcome of the recursive call. -/
theorem perftStep_machine (hK : K ∈ backends) (hst : Standard (rootView pp))
    (h : Reached E K pp ms p) (hply : E.overflowChecks = true → p.ply.toNat + 1 ≤ 65535)
    {rec : Position → Option (Nat × Position)} (w d : Nat)
    (hrec : ∀ m p', Reached E K pp (m :: ms) p' → ∃ n, rec p' = machine w E.overflowChecks n p' ∧
      GameCount (view p') d n)
    {l : List Move} (hl : p.legalMoves E K = some l) (m : Move) (hm : m ∈ l) (n : Nat)
    (hn : GameCount (apply (view p) m) d n) :
    perftStep E K p m rec = machine w E.overflowChecks n p := by
  have hleg := ((legalMoves_exact hK hst.valid h hl).2 m).1 hm
  obtain ⟨_, _, _, _, _, hdo, _⟩ := C21_calls_return E K hK pp hst ms p h
  obtain ⟨p', hp'⟩ := hdo m ⟨l, hl, hm⟩ (by
    intro hE e
    have := hply hE
    rw [e] at this
    have e2 : (65535#16).toNat = 65535 := rfl
    omega)
  obtain ⟨n', hn', hc⟩ := hrec m p' (h.move hleg hp')
  have hu := C01_undo_inverts_do E K hK _ _ _ (shape_drops (shape_of_legal hleg)) hp'
  rw [(C03_do_move_is_rules E K p _ m hp').1] at hc
  cases hc.unique hn
  simp only [perftStep, hp', Option.bind_eq_bind, Option.bind_some, hn', Option.pure_def]
  unfold machine
  split
  · simp only [Option.bind_some, hu]
  · split
    · rfl
    · simp only [Option.bind_some, hu]

end

/-- C47.  With counts in `w`-bit `usize` (`w ≥ 10`, so that the length of a move list fits), `perft`
gives the exact number of games modulo `2 ^ w` without overflow checks; with overflow checks it gives
the exact number if it fits and panics otherwise. -/
theorem C47_perft_usize (w : Nat) (hw : 10 ≤ w) (E : Env) (K : Backend) (hK : K ∈ backends)
    (pp : CorePartialPosition) (hst : Standard (rootView pp)) (d : Nat) (ms : List Move)
    (p : Position) (h : Reached E K pp ms p)
    (hply : E.overflowChecks = true → p.ply.toNat + d ≤ 65535) :
    ∃ n, GameCount (view p) (max d 1) n ∧
      perftUsize w E K d p =
        if n < 2 ^ w then some (n, p)
        else if E.overflowChecks then none
        else some (n % 2 ^ w, p) := by
  show ∃ n, _ ∧ _ = machine w E.overflowChecks n p
  have small : ∀ n, n ≤ 593 → n < 2 ^ w := fun n hn => by
    have : 2 ^ 10 ≤ 2 ^ w := Nat.pow_le_pow_right (by omega) hw
    omega
  induction d using Nat.strongRecOn generalizing ms p with
  | _ d ih =>
    obtain ⟨lines, n, _, hl, hcount, hsum, hperft⟩ := C46_perft_divide E K hK pp hst d ms p h hply
    refine ⟨n, (C31_perft E K hK pp hst.valid d ms p h n p hperft).2, ?_⟩
    subst hsum
    have hmem : ∀ x ∈ lines, x.1 ∈ lines.map Prod.fst := fun x hx => List.mem_map_of_mem hx
    match d, hply, hcount, ih with
    | 0, _, hcount, _ =>
      unfold perftUsize
      rw [hl]
      refine nodeFold w (fun q _ => pure (1, q)) lines fun x hx => ?_
      have e := (hcount x hx).unique (gameCount_zero _)
      rw [e]
      exact (machine_small (small 1 (by omega))).symm
    | 1, _, hcount, _ =>
      unfold perftUsize
      rw [hl]
      refine nodeFold w (fun q _ => pure (1, q)) lines fun x hx => ?_
      have e := (hcount x hx).unique (gameCount_zero _)
      rw [e]
      exact (machine_small (small 1 (by omega))).symm
    | 2, hply, hcount, _ =>
      unfold perftUsize
      rw [hl]
      refine nodeFold w (fun q m => perftStep E K q m (fun p' => do
            let l ← p'.legalMoves E K
            pure (l.length, p'))) lines fun x hx => ?_
      refine perftStep_machine hK hst h (fun hE => by have := hply hE; omega) w 1
        (fun m p' hr => ?_) hl x.1 (hmem x hx) x.2 (hcount x hx)
      obtain ⟨l', hl', hle, _⟩ := C22_legal_moves_total E K hK pp hst _ p' hr
      refine ⟨l'.length, ?_, gameCount_one hK hst.valid hr hl'⟩
      rw [machine_small (small _ hle)]
      simp only [hl']; rfl
    | d + 3, hply, hcount, ih =>
      unfold perftUsize
      rw [hl]
      refine nodeFold w (fun q m => perftStep E K q m (perftUsize w E K (d + 2))) lines
        fun x hx => ?_
      rw [Nat.max_eq_left (by omega)] at hcount
      refine perftStep_machine hK hst h (fun hE => by have := hply hE; omega) w (d + 2)
        (fun m p' hr => ?_) hl x.1 (hmem x hx) x.2 (hcount x hx)
      obtain ⟨n, h1, h2⟩ := ih (d + 2) (by omega) _ p' hr (fun hE => by
        have h1 := reached_ply hK hr hE
        have h2 := reached_ply hK h hE
        have h3 := hply hE
        simp only [List.length_cons] at h1
        omega)
      rw [Nat.max_eq_left (by omega)] at h1
      exact ⟨n, h2, h1⟩

theorem sum_le {b : Nat} (lines : List (Move × Nat)) (each : ∀ x ∈ lines, x.2 ≤ b) :
    (lines.map Prod.snd).sum ≤ lines.length * b := by
  induction lines with
  | nil => simp
  | cons x lines ih =>
    rw [List.map_cons, List.sum_cons, List.length_cons, Nat.succ_mul]
    have h1 := each x List.mem_cons_self
    have h2 := ih (fun y hy => each y (List.mem_cons_of_mem _ hy))
    omega

/-- At most `593 ^ d` games of length `d`. -/
theorem gameCount_le (E : Env) (K : Backend) (hK : K ∈ backends) (pp : CorePartialPosition)
    (hst : Standard (rootView pp)) (d : Nat) (ms : List Move) (p : Position)
    (h : Reached E K pp ms p) (hply : E.overflowChecks = true → p.ply.toNat + d ≤ 65535) (n : Nat)
    (hn : GameCount (view p) d n) : n ≤ 593 ^ d := by
  induction d generalizing ms p n with
  | zero => cases hn.unique (gameCount_zero _); exact Nat.le_refl _
  | succ d ih =>
    obtain ⟨lines, n', hroot, hl, hcount, hsum, hperft⟩ :=
      C46_perft_divide E K hK pp hst (d + 1) ms p h hply
    have e := (C31_perft E K hK pp hst.valid (d + 1) ms p h n' p hperft).2
    rw [Nat.max_eq_left (by omega)] at e hcount
    cases hn.unique e
    obtain ⟨l, hl', hle, _, hmem⟩ := C22_legal_moves_total E K hK pp hst ms p h
    rw [hl] at hl'
    cases hl'
    rw [List.length_map] at hle
    obtain ⟨_, _, _, _, _, hdo, _⟩ := C21_calls_return E K hK pp hst ms p h
    have each : ∀ x ∈ lines, x.2 ≤ 593 ^ d := by
      intro x hx
      have hm : x.1 ∈ lines.map Prod.fst := List.mem_map_of_mem hx
      obtain ⟨p', hp'⟩ := hdo x.1 ⟨_, hl, hm⟩ (by
        intro hE e
        have := hply hE
        rw [e] at this
        have e2 : (65535#16).toNat = 65535 := rfl
        omega)
      have hr := h.move ((hmem _).1 hm) hp'
      refine ih _ p' hr (fun hE => ?_) x.2 ?_
      · have h1 := reached_ply hK hr hE
        have h2 := reached_ply hK h hE
        have h3 := hply hE
        simp only [List.length_cons] at h1
        omega
      · rw [(C03_do_move_is_rules E K p _ _ hp').1]
        have := hcount x hx
        rwa [Nat.add_sub_cancel] at this
    have bound := sum_le lines each
    rw [hsum, Nat.pow_succ, Nat.mul_comm]
    exact Nat.le_trans bound (Nat.mul_le_mul_right _ hle)

/-- C47.  Up to depth 6 a 64-bit `usize` is always enough, and up to depth 3 a 32-bit one. -/
theorem C47_fits (w : Nat) (E : Env) (K : Backend) (hK : K ∈ backends) (pp : CorePartialPosition)
    (hst : Standard (rootView pp)) (d : Nat) (ms : List Move) (p : Position)
    (h : Reached E K pp ms p) (hply : E.overflowChecks = true → p.ply.toNat + d ≤ 65535)
    (hd : (w = 64 ∧ d ≤ 6) ∨ (w = 32 ∧ d ≤ 3)) :
    ∃ n, GameCount (view p) (max d 1) n ∧ perftUsize w E K d p = some (n, p) := by
  by_cases hd0 : d = 0
  · subst hd0
    obtain ⟨n, hn, hp⟩ := C47_perft_usize w (by omega) E K hK pp hst 0 ms p h hply
    refine ⟨n, hn, hp.trans (if_pos ?_)⟩
    obtain ⟨l, hl, hle, _⟩ := C22_legal_moves_total E K hK pp hst ms p h
    cases hn.unique (gameCount_one hK hst.valid h hl)
    rcases hd with ⟨rfl, _⟩ | ⟨rfl, _⟩ <;> omega
  · obtain ⟨n, hn, hp⟩ := C47_perft_usize w (by omega) E K hK pp hst d ms p h hply
    refine ⟨n, hn, hp.trans (if_pos ?_)⟩
    rw [Nat.max_eq_left (by omega)] at hn
    have h1 := gameCount_le E K hK pp hst d ms p h hply n hn
    rcases hd with ⟨rfl, hd⟩ | ⟨rfl, hd⟩
    · have h2 : 593 ^ d ≤ 593 ^ 6 := Nat.pow_le_pow_right (by omega) hd
      have h3 : 593 ^ 6 < 2 ^ 64 := by decide
      omega
    · have h2 : 593 ^ d ≤ 593 ^ 3 := Nat.pow_le_pow_right (by omega) hd
      have h3 : 593 ^ 3 < 2 ^ 32 := by decide
      omega

section
open Yasai.Examples

/-- C47 on the initial position with a 64-bit `usize` and overflow checks, to depth 6. -/
example : ∃ p n, Position.default env0 CoreBB.backend = some p ∧
    GameCount (view p) 6 n ∧ perftUsize 64 env0 CoreBB.backend 6 p = some (n, p) := by
  obtain ⟨p, hp⟩ := new_startpos env0 _ core_mem .black
  have hply : p.ply = 1#16 := (C35_new_reproduces env0 _ core_mem _ p hp).2.2.2
  obtain ⟨n, h1, h2⟩ := C47_fits 64 env0 CoreBB.backend core_mem startpos startpos_standard 6 [] p
    ⟨p, hp, .start⟩ (fun _ => by rw [hply]; decide) (.inl ⟨rfl, by omega⟩)
  exact ⟨p, n, hp, h1, h2⟩

end

end Yasai.Props

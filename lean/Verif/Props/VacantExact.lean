import Verif.Props.InContract

/-!
# C80: exactly when the portable `vacant_files` goes wrong
-/

namespace Yasai

/-! ## Nine digits -/

/-- The number with the `n` lowest digits `d` in base 512. -/
def num (d : Nat → Nat) : Nat → Nat
  | 0 => 0
  | n + 1 => num d n + 512 ^ n * d n

theorem num_lt (d : Nat → Nat) (n : Nat) (hd : ∀ i, d i < 512) : num d n < 512 ^ n := by
  induction n with
  | zero => simp [num]
  | succ n ih =>
    rw [num, Nat.pow_succ]
    have h : 512 ^ n * d n ≤ 512 ^ n * 511 := Nat.mul_le_mul_left _ (by have := hd n; omega)
    omega

/-- The number is larger than that with all digits 256 exactly if some digit is larger and all above
it are 256. -/
theorem num_gt (d : Nat → Nat) (n : Nat) (hd : ∀ i, d i < 512) :
    num (fun _ => 256) n < num d n ↔
      ∃ i, i < n ∧ 256 < d i ∧ ∀ j, i < j → j < n → d j = 256 := by
  induction n with
  | zero => simp [num]
  | succ n ih =>
    have l1 := num_lt d n hd
    have l2 := num_lt (fun _ => 256) n (fun _ => by omega)
    have hp : 0 < 512 ^ n := Nat.pow_pos (by omega)
    simp only [num]
    generalize num d n = a at ih l1 ⊢
    generalize num (fun _ => 256) n = b at ih l2 ⊢
    generalize 512 ^ n = p at l1 l2 hp ⊢
    rcases Nat.lt_trichotomy (d n) 256 with h | h | h
    · have : p * d n + p ≤ p * 256 := by
        rw [← Nat.mul_succ]; exact Nat.mul_le_mul_left _ h
      refine ⟨fun h' => by omega, fun ⟨i, hi, h1, h2⟩ => ?_⟩
      rcases Nat.lt_or_ge i n with hin | hin
      · have := h2 n hin (by omega); omega
      · have : i = n := by omega
        subst this; omega
    · rw [h]
      constructor
      · intro h'
        obtain ⟨i, hi, h1, h2⟩ := ih.1 (by omega)
        refine ⟨i, by omega, h1, fun j hij hj => ?_⟩
        rcases Nat.lt_or_ge j n with hjn | hjn
        · exact h2 j hij hjn
        · have : j = n := by omega
          rw [this]; exact h
      · rintro ⟨i, hi, h1, h2⟩
        have hin : i < n := by
          rcases Nat.lt_or_ge i n with hin | hin
          · exact hin
          · have : i = n := by omega
            subst this; omega
        have := ih.2 ⟨i, hin, h1, fun j hij hj => h2 j hij (by omega)⟩
        omega
    · have : p * 256 + p ≤ p * d n := by
        rw [← Nat.mul_succ]; exact Nat.mul_le_mul_left _ h
      exact ⟨fun _ => ⟨n, by omega, h, fun j h1 h2 => by omega⟩, fun _ => by omega⟩

/-- The digits of a set of squares. -/
def digit (b : BB) (i : Nat) : Nat := (field b i).toNat

theorem digit_lt (b : BB) (i : Nat) : digit b i < 512 := (field b i).isLt

theorem toNat_digits {b : BB} (hb : Ok b) : b.toNat =
    num (digit b) 7 + 2 ^ 64 * digit b 7 + 2 ^ 73 * digit b 8 := by
  conv => lhs; rw [← packF_field b hb]
  rw [toNat_packF]
  simp only [num, digit]
  omega

theorem num_nine (d : Nat → Nat) : num d 9 = num d 7 + 2 ^ 63 * d 7 + 2 ^ 72 * d 8 := by
  simp only [num]

theorem ok_iff_toNat (x : BB) : Ok x ↔ x.toNat % 2 ^ 64 < 2 ^ 63 ∧ x.toNat < 2 ^ 82 := by
  constructor
  · intro h
    have := toNat_digits h
    have h1 := num_lt (digit x) 7 (digit_lt x)
    have h2 := digit_lt x 7
    have h3 := digit_lt x 8
    omega
  · rintro ⟨h1, h2⟩ i hi
    have ht : x.toNat.testBit i = true := hi
    have hlt : i < 82 := by
      rcases Nat.lt_or_ge i 82 with h | h
      · exact h
      · have : x.toNat < 2 ^ i := Nat.lt_of_lt_of_le h2 (Nat.pow_le_pow_right (by omega) h)
        rw [Nat.testBit_lt_two_pow this] at ht
        cases ht
    have h63 : i ≠ 63 := by
      rintro rfl
      rw [Nat.testBit_eq_decide_div_mod_eq, decide_eq_true_eq] at ht
      omega
    omega

namespace Props

open Spec

/-- A file that holds its bottom square and another one, followed up to file `top` by files that hold
exactly their bottom square. -/
def RunsOut (m : Square → Bool) (top : Nat) : Prop :=
  ∃ f, f ≤ top ∧
    (∃ s t : Square, m s = true ∧ m t = true ∧ s.file = f ∧ t.file = f ∧ s.rank = 9 ∧ t.rank ≠ 9) ∧
    ∀ s : Square, f < s.file → s.file ≤ top → (m s = true ↔ s.rank = 9)

end Props

theorem mem_field {b : BB} (hb : Ok b) (i j : Nat) (hi : i < 9) (hj : j < 9) :
    mem b ⟨9 * i + j, by omega⟩ = (field b i).getLsbD j := by
  conv => lhs; rw [← packF_field b hb]
  rw [mem_packF]
  simp only
  rw [show (9 * i + j) / 9 = i by omega, show (9 * i + j) % 9 = j by omega]

theorem digit_gt {b : BB} (hb : Ok b) (i : Nat) (hi : i < 9) : 256 < digit b i ↔
    ∃ s t : Square, mem b s = true ∧ mem b t = true ∧ s.file = i + 1 ∧ t.file = i + 1 ∧ s.rank = 9 ∧
      t.rank ≠ 9 := by
  have key : ∀ x : BitVec 9, 256 < x.toNat ↔
      x.getLsbD 8 = true ∧ ∃ j : Fin 8, x.getLsbD j.val = true := by decide +kernel
  rw [digit, key]
  constructor
  · rintro ⟨h8, j, hj⟩
    refine ⟨⟨9 * i + 8, by omega⟩, ⟨9 * i + j.val, by omega⟩, ?_, ?_, ?_, ?_, ?_, ?_⟩
    · rw [mem_field hb i 8 hi (by omega)]; exact h8
    · rw [mem_field hb i j.val hi (by omega)]; exact hj
    all_goals simp only [Square.file, Square.rank]; omega
  · rintro ⟨s, t, hs, ht, h1, h2, h3, h4⟩
    unfold Square.file at h1 h2
    unfold Square.rank at h3 h4
    have es : s = ⟨9 * i + 8, by omega⟩ := Fin.ext (by simp only; omega)
    have et : t = ⟨9 * i + t.val % 9, by omega⟩ := Fin.ext (by simp only; omega)
    rw [es, mem_field hb i 8 hi (by omega)] at hs
    rw [et, mem_field hb i (t.val % 9) hi (by omega)] at ht
    exact ⟨hs, ⟨t.val % 9, by omega⟩, ht⟩

theorem digit_eq {b : BB} (hb : Ok b) (i : Nat) (hi : i < 9) : digit b i = 256 ↔
    ∀ s : Square, s.file = i + 1 → (mem b s = true ↔ s.rank = 9) := by
  have key : ∀ x : BitVec 9, x.toNat = 256 ↔
      ∀ j : Fin 9, (x.getLsbD j.val = true ↔ j.val = 8) := by decide +kernel
  rw [digit, key]
  constructor
  · intro h s hs
    unfold Square.file at hs
    have es : s = ⟨9 * i + s.val % 9, by omega⟩ := Fin.ext (by simp only; omega)
    have := h ⟨s.val % 9, by omega⟩
    rw [← mem_field hb i _ hi (by omega), ← es] at this
    rw [this]
    simp only [Square.rank]; omega
  · intro h j
    rw [← mem_field hb i j.val hi j.isLt, h _ (by simp only [Square.file]; omega)]
    simp only [Square.rank]; omega

theorem runsOut_iff {b : BB} (hb : Ok b) (top : Nat) (ht : top ≤ 9) :
    Props.RunsOut (mem b) top ↔
      ∃ i, i < top ∧ 256 < digit b i ∧ ∀ j, i < j → j < top → digit b j = 256 := by
  constructor
  · rintro ⟨f, hf, ⟨s, t, hs, ht, h1, h2, h3, h4⟩, hr⟩
    have bs := s.bounds
    refine ⟨f - 1, by omega, ?_, fun j h5 h6 => ?_⟩
    · exact (digit_gt hb (f - 1) (by omega)).2 ⟨s, t, hs, ht, by omega, by omega, h3, h4⟩
    · exact (digit_eq hb j (by omega)).2 fun u hu => hr u (by omega) (by omega)
  · rintro ⟨i, hi, hg, hr⟩
    refine ⟨i + 1, by omega, (digit_gt hb i (by omega)).1 hg, fun s h1 h2 => ?_⟩
    have bs := s.bounds
    exact (digit_eq hb (s.file - 1) (by omega)).1 (hr (s.file - 1) (by omega) (by omega)) s
      (by omega)

/-! ## The steps of `vacant_files` -/

theorem vacantMask_ok : Ok CoreBB.vacantMask := by rw [vacantMask_eq]; exact ok_packF _

theorem vacantMask_toNat : CoreBB.vacantMask.toNat =
    num (fun _ => 256) 7 + 2 ^ 64 * 256 + 2 ^ 73 * 256 := by decide +kernel

theorem fromU128C_ok {x : BB} (h : Ok x) : fromU128UncheckedC x = .ok x := by
  rcases fromU128_sim Junk.zero x with e | ⟨_, e⟩
  · rw [e, fromU128Unchecked_ok Junk.zero h]; rfl
  · exact absurd h e

theorem fromU128C_broken {x : BB} (h : ¬ Ok x) : fromU128UncheckedC x = .broken := by
  rw [(Props.C78_contracts 0 0 x (fun _ => x)).2.1]
  apply Classical.byContradiction
  intro hn
  apply h
  intro i hi
  have : ¬ (i = 63 ∨ 82 ≤ i) := fun hc => hn ⟨i, hc, hi⟩
  omega

theorem lift_some_bind {α β : Type} (a : α) (f : α → Watched β) :
    (Watched.lift (some a) >>= f) = f a := rfl

theorem lift_none_bind {α β : Type} (f : α → Watched β) :
    (Watched.lift none >>= f) = .panic := rfl

theorem watched_ok_bind {α β : Type} (a : α) (f : α → Watched β) : (Watched.ok a >>= f) = f a := rfl

theorem watched_broken_bind {α β : Type} (f : α → Watched β) :
    ((Watched.broken : Watched α) >>= f) = .broken := rfl

theorem checkedSub_eq (oc : Bool) (a b : BB) : CoreBB.checkedSub oc a b =
    if oc = true ∧ a.toNat < b.toNat then none else some (a - b) := by
  unfold CoreBB.checkedSub
  cases oc <;> simp

theorem second_sub (oc : Bool) {x : BB} (hx : Ok x) :
    CoreBB.checkedSub oc (packF fun _ => 256#9) (CoreBB.shiftUp x 8) =
      some (packF fun i => 256#9 - if (field x i).getLsbD 8 then 1#9 else 0#9) := by
  have hs : CoreBB.shiftUp x 8 = packF fun i => if (field x i).getLsbD 8 then 1#9 else 0#9 := by
    conv => lhs; rw [← packF_field x hx]
    exact core_shiftUp8 _
  have hle : ∀ i, (if (field x i).getLsbD 8 then 1#9 else 0#9 : BitVec 9).toNat ≤ (256#9).toNat :=
    fun i => by split <;> decide
  rw [hs, checkedSub_eq, if_neg fun h => Nat.not_lt.2 (packF_le (fun _ => 256#9) _ hle) h.2,
    packF_sub _ _ hle]

theorem last_xor (x : BB) :
    (packF fun _ => 256#9) ^^^ (packF fun i => 256#9 - if (field x i).getLsbD 8 then 1#9 else 0#9) =
      packF fun i => if (field x i).getLsbD 8 then 511#9 else 0#9 := by
  rw [packF_xor]
  congr 1
  funext i
  cases (field x i).getLsbD 8 <;> rfl

open Classical in
theorem vacantFilesC_eq (oc : Bool) (b : BB) : CoreBB.vacantFilesC oc b =
    if oc = true ∧ CoreBB.vacantMask.toNat < b.toNat then .panic
    else if Ok (CoreBB.vacantMask - b) then
      .ok (packF fun i => if (field (CoreBB.vacantMask - b) i).getLsbD 8 then 511#9 else 0#9)
    else .broken := by
  unfold CoreBB.vacantFilesC
  rw [vacantMask_eq, checkedSub_eq]
  by_cases h : oc = true ∧ (packF fun _ => 256#9).toNat < b.toNat
  · rw [if_pos h, if_pos h, lift_none_bind]
  · rw [if_neg h, if_neg h, lift_some_bind]
    by_cases hx : Ok ((packF fun _ => 256#9) - b)
    · rw [if_pos hx, fromU128C_ok hx, watched_ok_bind, second_sub oc hx, lift_some_bind,
        fromU128C_ok (ok_packF _), watched_ok_bind, last_xor]
      rfl
    · rw [if_neg hx, fromU128C_broken hx, watched_broken_bind]

/-- A digit above 256 leaves a difference with the top bit of that digit set, borrow or not. -/
theorem top_bit {b : BB} (hb : Ok b) (i : Nat) (hi : i < 9) (hg : 256 < digit b i) :
    (field (CoreBB.vacantMask - b) i).getLsbD 8 = true := by
  rw [field, BitVec.getLsbD_extractLsb', decide_eq_true (by omega : 8 < 9), Bool.true_and]
  show (CoreBB.vacantMask - b).toNat.testBit _ = true
  rw [Nat.testBit_eq_decide_div_mod_eq, decide_eq_true_eq, BitVec.toNat_sub, vacantMask_toNat,
    toNat_digits hb]
  have hd := digit_lt b
  generalize digit b = d at *
  have h0 := hd 0
  have h1 := hd 1
  have h2 := hd 2
  have h3 := hd 3
  have h4 := hd 4
  have h5 := hd 5
  have h6 := hd 6
  have h7 := hd 7
  have h8 := hd 8
  simp only [num]
  have : i = 0 ∨ i = 1 ∨ i = 2 ∨ i = 3 ∨ i = 4 ∨ i = 5 ∨ i = 6 ∨ i = 7 ∨ i = 8 := by omega
  rcases this with rfl | rfl | rfl | rfl | rfl | rfl | rfl | rfl | rfl <;>
    simp only [fieldOff, Nat.reduceLT, Nat.reduceMul, Nat.reduceAdd, if_true, if_false] <;> omega

theorem sub_ok_iff {b : BB} (hb : Ok b) : Ok (CoreBB.vacantMask - b) ↔
    ¬ (num (fun _ => 256) 7 < num (digit b) 7) ∧ ¬ (CoreBB.vacantMask.toNat < b.toNat) := by
  rw [ok_iff_toNat, BitVec.toNat_sub, vacantMask_toNat, toNat_digits hb]
  have l1 := num_lt (digit b) 7 (digit_lt b)
  have l2 := num_lt (fun _ => 256) 7 (fun _ => by omega)
  have h2 := digit_lt b 7
  have h3 := digit_lt b 8
  generalize num (digit b) 7 = a at *
  generalize num (fun _ => 256) 7 = c at *
  omega

theorem over_iff {b : BB} (hb : Ok b) :
    CoreBB.vacantMask.toNat < b.toNat ↔ num (fun _ => 256) 9 < num (digit b) 9 := by
  rw [vacantMask_toNat, toNat_digits hb, num_nine, num_nine]
  have l1 := num_lt (digit b) 7 (digit_lt b)
  have l2 := num_lt (fun _ => 256) 7 (fun _ => by omega)
  generalize num (digit b) 7 = a at *
  generalize num (fun _ => 256) 7 = c at *
  omega

namespace Props

theorem exactly_when (J : Junk) {b : BB} (hok : Ok b) :
    (CoreBB.vacantFilesC true b = .panic ↔ RunsOut ((buildAt 0 J).contains b) 9) ∧
    (CoreBB.vacantFilesC true b = .broken ↔
      RunsOut ((buildAt 0 J).contains b) 7 ∧ ¬ RunsOut ((buildAt 0 J).contains b) 9) ∧
    CoreBB.vacantFilesC false b ≠ .panic ∧
    (CoreBB.vacantFilesC false b = .broken ↔
      RunsOut ((buildAt 0 J).contains b) 7 ∨ RunsOut ((buildAt 0 J).contains b) 9) := by
  have L := lawful_of_mem (buildAt_mem 0 J)
  have hc : (buildAt 0 J).contains b = mem b := funext fun s => L.contains b s
  rw [hc, runsOut_iff hok 7 (by omega), runsOut_iff hok 9 (by omega), ← num_gt _ _ (digit_lt b),
    ← num_gt _ _ (digit_lt b), ← over_iff hok]
  have hs := sub_ok_iff hok
  simp only [vacantFilesC_eq]
  by_cases h9 : CoreBB.vacantMask.toNat < b.toNat <;>
    by_cases h7 : num (fun _ => 256) 7 < num (digit b) 7
  all_goals
    first
    | (have hx : Ok (CoreBB.vacantMask - b) := hs.2 ⟨h7, h9⟩; simp [h9, h7, hx])
    | (have hx : ¬ Ok (CoreBB.vacantMask - b) := fun h => by
         have := hs.1 h
         first | exact this.1 h7 | exact this.2 h9
       simp [h9, h7, hx])

/-- C80.  Exactly when `vacant_files` of the portable build overflows, and exactly when it hands
`from_u128_unchecked` a word outside its contract: the borrow of the subtraction runs out of file 9,
or out of file 7 (whose top bit is followed by an unused one). -/
theorem C80_exactly_when (J : Junk) {b : BB} (hb : Built (buildAt 0 J) b) :
    (CoreBB.vacantFilesC true b = .panic ↔ RunsOut ((buildAt 0 J).contains b) 9) ∧
    (CoreBB.vacantFilesC true b = .broken ↔
      RunsOut ((buildAt 0 J).contains b) 7 ∧ ¬ RunsOut ((buildAt 0 J).contains b) 9) ∧
    CoreBB.vacantFilesC false b ≠ .panic ∧
    (CoreBB.vacantFilesC false b = .broken ↔
      RunsOut ((buildAt 0 J).contains b) 7 ∨ RunsOut ((buildAt 0 J).contains b) 9) :=
  exactly_when J (hb.ok (lawful_of_mem (buildAt_mem 0 J)))

/-- C80.  When it returns, the result is right exactly if no bottom square shares its file; otherwise
every such file is taken for vacant. -/
theorem C80_result (J : Junk) {b : BB} (hb : Built (buildAt 0 J) b) (oc : Bool) (r : BB)
    (h : CoreBB.vacantFilesC oc b = .ok r) :
    ((∀ s, (buildAt 0 J).contains r s = true ↔
        ∀ t, (buildAt 0 J).contains b t = true → t.file ≠ s.file) ↔
      ∀ s t, (buildAt 0 J).contains b s = true → (buildAt 0 J).contains b t = true →
        s.file = t.file → s.rank = 9 → s = t) ∧
    ∀ s t u, (buildAt 0 J).contains b s = true → (buildAt 0 J).contains b t = true →
      s.file = t.file → s.rank = 9 → t.rank ≠ 9 → u.file = s.file →
      (buildAt 0 J).contains r u = true := by
  have L := lawful_of_mem (buildAt_mem 0 J)
  have hok := hb.ok L
  have wrong : ∀ s t u, (buildAt 0 J).contains b s = true → (buildAt 0 J).contains b t = true →
      s.file = t.file → s.rank = 9 → t.rank ≠ 9 → u.file = s.file →
      (buildAt 0 J).contains r u = true := by
    intro s t u hs ht hf h9 hne hu
    rw [L.contains] at hs ht ⊢
    have bs := s.bounds
    have hg := (digit_gt hok (s.file - 1) (by omega)).2 ⟨s, t, hs, ht, by omega, by omega, h9, hne⟩
    rw [vacantFilesC_eq] at h
    split at h
    · cases h
    · split at h
      · next hx =>
        cases h
        rw [mem_packF]
        have hi : u.val / 9 = s.file - 1 := by unfold Square.file at hu ⊢; omega
        have hbit : (field (CoreBB.vacantMask - b) (u.val / 9)).getLsbD 8 = true := by
          rw [hi]
          exact top_bit hok _ (by omega) hg
        rw [hbit]
        exact (by decide : ∀ j : Fin 9, (511#9).getLsbD j.val = true) ⟨u.val % 9, by omega⟩
      · cases h
  refine ⟨⟨fun hr s t hs ht hf h9 => ?_, fun hlone => ?_⟩, wrong⟩
  · apply Classical.byContradiction
    intro hne
    have h9' : t.rank ≠ 9 := by
      intro h9'
      apply hne
      unfold Square.file at hf
      unfold Square.rank at h9 h9'
      exact Fin.ext (by omega)
    exact (hr s).1 (wrong s t s hs ht hf h9 h9' rfl) s hs rfl
  · have hl : LoneBottom b := ⟨hok, fun s t hs ht => by
      rw [← L.contains] at hs ht; exact hlone s t hs ht⟩
    obtain ⟨r', hr', _, hm⟩ := core_vacantFiles J oc b hok hl.2
    have := (core_vacantFiles_sim J oc b).resolve_right fun h => h.2 hl
    rw [h, hr'] at this
    cases this
    intro s
    rw [L.contains, hm]
    exact forall_congr' fun t => by rw [L.contains]

theorem core_tracks_exact (J : Junk) :
    Tracks (buildAt 0 J) (checkedAt 0) fun b => ∀ oc, CoreBB.vacantFilesC oc b ≠ .broken :=
  { core_tracks J with
    vacantFiles := fun oc b => (core_vacantFiles_sim J oc b).elim .inl fun h =>
      .inr ⟨h.1, fun hn => hn oc h.1⟩ }

/-- C80, `legal_moves` of the portable build: within the contracts in every position that any calls
can produce, unless the pawns of the side to move make the borrow run out of file 7 or of file 9. -/
theorem C80_legal_moves (E : Env) (J : Junk) (pp : CorePartialPosition) (p : Position)
    (h : Anyhow E (buildAt 0 J) pp p)
    (h7 : ¬ RunsOut ((buildAt 0 J).contains (p.inner.pieceBitboard (buildAt 0 J)
      ⟨.pawn, p.sideToMove⟩)) 7)
    (h9 : ¬ RunsOut ((buildAt 0 J).contains (p.inner.pieceBitboard (buildAt 0 J)
      ⟨.pawn, p.sideToMove⟩)) 9) :
    p.legalMovesC (buildAt 0 J) (checkedAt 0) E = Watched.lift (p.legalMoves E (buildAt 0 J)) := by
  have L := lawful_of_mem (buildAt_mem 0 J)
  have hb := h.boards L
  have hok : Ok ((buildAt 0 J).and (p.inner.playerBB p.inner.side) (p.inner.pieceBB .pawn)) := by
    rw [L.and]; exact ok_and_left _ (hb.1.okPlayer _)
  have he : (buildAt 0 J).and (p.inner.playerBB p.inner.side) (p.inner.pieceBB .pawn) =
      p.inner.pieceBitboard (buildAt 0 J) ⟨.pawn, p.sideToMove⟩ := by
    simp only [PartialPosition.pieceBitboard, L.and]
    exact BitVec.and_comm _ _
  refine (legalMoves_sim (P := True) L (core_tracks_exact J) E (fun _ => hb.1)
    (fun _ => fuFrom_at 0 J hb.1) (fun _ _ _ _ _ oc => ?_) (fun _ => hb.state)).resolve_right
    fun h => h.2 trivial
  rw [he] at hok ⊢
  have hx := exactly_when J hok
  cases oc with
  | true => exact fun h => h7 (hx.2.1.1 h).1
  | false => exact fun h => (hx.2.2.2.1 h).elim h7 h9

/-! ## Concrete cases -/

/-- The set of the squares with the given (file, rank), counted from 0. -/
def pawnsOn (l : List (Fin 9 × Fin 9)) : BB :=
  l.foldl (fun b s => b ||| (CoreBB.build Junk.zero).single ⟨9 * s.1.val + s.2.val, by omega⟩) 0#128

/-- Two pawns on file 7 leave the contract, two on file 9 overflow, two on file 3 do neither: the
result is merely wrong, with file 3 in it and file 4 missing. -/
example : CoreBB.vacantFilesC true (pawnsOn [(6, 8), (6, 7)]) = .broken ∧
    CoreBB.vacantFilesC true (pawnsOn [(8, 8), (8, 7)]) = .panic ∧
    CoreBB.vacantFilesC false (pawnsOn [(8, 8), (8, 7)]) = .broken ∧
    CoreBB.vacantFilesC true (pawnsOn [(2, 8), (2, 7)]) =
      .ok (allBits ^^^ pawnsOn ((List.finRange 9).map fun r => (3, r))) := by
  decide +kernel

/-- The chain counts: two pawns on file 5, and one at the bottom of each of files 6 and 7. -/
example : CoreBB.vacantFilesC true (pawnsOn [(4, 8), (4, 0), (5, 8), (6, 8)]) = .broken ∧
    CoreBB.vacantFilesC true (pawnsOn [(4, 8), (4, 0), (5, 8)]) ≠ .broken := by
  decide +kernel

/-- `doubled` with the pawns on file 3. -/
def doubledOn3 : CorePartialPosition :=
  { doubled with board := Examples.boardOf [(5,9,.king,.black),(5,1,.king,.white),(3,9,.pawn,.black),
      (3,8,.pawn,.black)] }

/-- In `doubledOn3` the portable build keeps to the contracts and gives moves, a pawn drop on file 3
among them. -/
example : ((Position.new Examples.env0 (buildAt 0 otherJunk) doubledOn3).any fun p =>
    match p.legalMovesC (buildAt 0 otherJunk) (checkedAt 0) Examples.env0 with
    | .ok l => l.any (· == .drop ⟨22, by omega⟩ ⟨.pawn, .black⟩)
    | _ => false) = true := by
  decide +kernel

end Props

end Yasai

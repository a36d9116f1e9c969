/-!
# Proofs: lists of numbers packed in one natural number, and a check that they are all different

The kernel computes quickly with large natural numbers.  `n` numbers of `w` bits are packed in one
number; a sorting network exchanges lanes, and a last comparison shows that the lanes ascend.  Only
"a step exchanges lanes" and "ascending lanes differ" are proved: whether the network really sorts
is shown by the run.
-/

namespace Yasai.Proofs.Lanes

/-- Lane `i` of width `w`. -/
def lane (w v i : Nat) : Nat := (v >>> (w * i)) % 2 ^ w

theorem testBit_lane (w v i j : Nat) :
    (lane w v i).testBit j = (decide (j < w) && v.testBit (w * i + j)) := by
  rw [lane, Nat.testBit_mod_two_pow, Nat.testBit_shiftRight]

theorem lane_lt (w v i : Nat) : lane w v i < 2 ^ w := Nat.mod_lt _ (Nat.two_pow_pos w)

theorem lane_xor (w a b i : Nat) : lane w (a ^^^ b) i = lane w a i ^^^ lane w b i := by
  apply Nat.eq_of_testBit_eq
  intro j
  simp only [testBit_lane, Nat.testBit_xor]
  cases decide (j < w) <;> simp

theorem lane_and (w a b i : Nat) : lane w (a &&& b) i = lane w a i &&& lane w b i := by
  apply Nat.eq_of_testBit_eq
  intro j
  simp only [testBit_lane, Nat.testBit_and]
  cases decide (j < w) <;> simp

theorem lane_or (w a b i : Nat) : lane w (a ||| b) i = lane w a i ||| lane w b i := by
  apply Nat.eq_of_testBit_eq
  intro j
  simp only [testBit_lane, Nat.testBit_or]
  cases decide (j < w) <;> simp

theorem lane_shiftRight (w a k i : Nat) : lane w (a >>> (w * k)) i = lane w a (i + k) := by
  rw [lane, lane, ← Nat.shiftRight_add, ← Nat.mul_add, Nat.add_comm k i]

theorem lane_shiftLeft (w a k i : Nat) :
    lane w (a <<< (w * k)) i = if k ≤ i then lane w a (i - k) else 0 := by
  apply Nat.eq_of_testBit_eq
  intro j
  rw [testBit_lane, Nat.testBit_shiftLeft]
  by_cases hk : k ≤ i
  · rw [if_pos hk, testBit_lane]
    obtain ⟨d, rfl⟩ := Nat.exists_eq_add_of_le hk
    rw [Nat.add_sub_cancel_left, Nat.mul_add,
      decide_eq_true (show w * k + w * d + j ≥ w * k by omega), Bool.true_and,
      show w * k + w * d + j - w * k = w * d + j by omega]
  · rw [if_neg hk, Nat.zero_testBit]
    by_cases hj : j < w
    · have : w * (i + 1) ≤ w * k := Nat.mul_le_mul_left _ (by omega)
      rw [Nat.mul_add, Nat.mul_one] at this
      rw [decide_eq_false (show ¬ w * i + j ≥ w * k by omega)]
      simp
    · rw [decide_eq_false hj, Bool.false_and]

theorem lane_zero (w i : Nat) : lane w 0 i = 0 := by simp [lane]

theorem lane_of_lt {w v n : Nat} (hv : v < 2 ^ (w * n)) {i : Nat} (hi : n ≤ i) :
    lane w v i = 0 := by
  have : 2 ^ (w * n) ≤ 2 ^ (w * i) := Nat.pow_le_pow_right (by omega) (Nat.mul_le_mul_left _ hi)
  rw [lane, Nat.shiftRight_eq_div_pow, Nat.div_eq_of_lt (by omega), Nat.zero_mod]

theorem lane_mod {w v n i : Nat} (hi : i < n) : lane w (v % 2 ^ (w * n)) i = lane w v i := by
  apply Nat.eq_of_testBit_eq
  intro j
  rw [testBit_lane, testBit_lane, Nat.testBit_mod_two_pow]
  by_cases hj : j < w
  · have : w * (i + 1) ≤ w * n := Nat.mul_le_mul_left _ (by omega)
    rw [Nat.mul_add, Nat.mul_one] at this
    rw [decide_eq_true (show w * i + j < w * n by omega), Bool.true_and]
  · rw [decide_eq_false hj]; rfl

/-! ## Packing -/

/-- The sum of `f i * 2 ^ (w * i)` for `i < n`. -/
def pack (w : Nat) (f : Nat → Nat) : Nat → Nat
  | 0 => 0
  | n + 1 => pack w f n + f n * 2 ^ (w * n)

theorem pack_lt {w : Nat} {f : Nat → Nat} {n : Nat} (hf : ∀ i < n, f i < 2 ^ w) :
    pack w f n < 2 ^ (w * n) := by
  induction n with
  | zero => simp [pack]
  | succ n ih =>
    have h1 := ih fun i hi => hf i (by omega)
    have h2 : (f n + 1) * 2 ^ (w * n) ≤ 2 ^ w * 2 ^ (w * n) :=
      Nat.mul_le_mul_right _ (hf n (by omega))
    rw [pack, Nat.mul_add, Nat.mul_one, Nat.pow_add, Nat.mul_comm (2 ^ (w * n))]
    rw [Nat.add_mul, Nat.one_mul] at h2
    omega

theorem lane_pack {w : Nat} {f : Nat → Nat} {n : Nat} (hf : ∀ i < n, f i < 2 ^ w) {i : Nat}
    (hi : i < n) : lane w (pack w f n) i = f i := by
  induction n with
  | zero => omega
  | succ n ih =>
    have hlt := pack_lt (n := n) fun i hi => hf i (by omega)
    rw [pack]
    by_cases h : i = n
    · subst h
      rw [lane, Nat.shiftRight_eq_div_pow, Nat.add_mul_div_right _ _ (Nat.two_pow_pos _),
        Nat.div_eq_of_lt hlt, Nat.zero_add, Nat.mod_eq_of_lt (hf i (by omega))]
    · have hi' : i < n := by omega
      rw [← ih (fun i hi => hf i (by omega)) hi', ← lane_mod (n := n) hi', Nat.add_mul_mod_self_right,
        lane_mod hi']

theorem pack_add (w : Nat) (f g : Nat → Nat) (n : Nat) :
    pack w f n + pack w g n = pack w (fun i => f i + g i) n := by
  induction n with
  | zero => rfl
  | succ n ih => simp only [pack]; rw [← ih, Nat.add_mul]; omega

theorem pack_mul (w : Nat) (f : Nat → Nat) (m n : Nat) :
    pack w f n * m = pack w (fun i => f i * m) n := by
  induction n with
  | zero => simp [pack]
  | succ n ih => simp only [pack]; rw [← ih, Nat.add_mul, Nat.mul_right_comm]

theorem pack_congr {w : Nat} {f g : Nat → Nat} {n : Nat} (h : ∀ i < n, f i = g i) :
    pack w f n = pack w g n := by
  induction n with
  | zero => rfl
  | succ n ih => simp only [pack]; rw [ih fun i hi => h i (by omega), h n (by omega)]

theorem pack_lane {w v n : Nat} (hv : v < 2 ^ (w * n)) : pack w (lane w v) n = v := by
  have key : ∀ m, pack w (lane w v) m = v % 2 ^ (w * m) := by
    intro m
    induction m with
    | zero => simp [pack, Nat.mod_one]
    | succ m ih =>
      rw [pack, ih, lane, Nat.mul_add, Nat.mul_one, Nat.pow_add, Nat.mod_mul,
        Nat.shiftRight_eq_div_pow, Nat.mul_comm (2 ^ (w * m))]
  rw [key, Nat.mod_eq_of_lt hv]

/-- `n` lanes with the value 1. -/
def ones (w n : Nat) : Nat := (2 ^ (w * n) - 1) / (2 ^ w - 1)

theorem ones_eq {w : Nat} (hw : 0 < w) (n : Nat) : ones w n = pack w (fun _ => 1) n := by
  have h2 : 2 ≤ 2 ^ w := by
    calc 2 = 2 ^ 1 := rfl
      _ ≤ 2 ^ w := Nat.pow_le_pow_right (by omega) hw
  have key : (2 ^ w - 1) * pack w (fun _ => 1) n = 2 ^ (w * n) - 1 := by
    induction n with
    | zero => simp [pack]
    | succ n ih =>
      have hp : 0 < 2 ^ (w * n) := Nat.two_pow_pos _
      rw [pack, Nat.mul_add, ih, Nat.one_mul, Nat.mul_add w n 1, Nat.mul_one, Nat.pow_add,
        Nat.sub_mul, Nat.one_mul, Nat.mul_comm (2 ^ (w * n))]
      have : 2 ^ (w * n) ≤ 2 ^ w * 2 ^ (w * n) := Nat.le_mul_of_pos_left _ (by omega)
      omega
  rw [ones, ← key, Nat.mul_div_cancel_left _ (by omega)]

theorem lane_ones {w : Nat} (hw : 0 < w) {n i : Nat} (hi : i < n) : lane w (ones w n) i = 1 := by
  rw [ones_eq hw]
  exact lane_pack (fun _ _ => Nat.one_lt_two_pow (by omega)) hi

theorem ones_lt {w : Nat} (hw : 0 < w) (n : Nat) : ones w n < 2 ^ (w * n) := by
  rw [ones_eq hw]
  exact pack_lt fun _ _ => Nat.one_lt_two_pow (by omega)

/-! ## All lanes different -/

/-- The first `n` lanes are pairwise different. -/
def Distinct (w n v : Nat) : Prop :=
  ∀ i j, i < n → j < n → lane w v i = lane w v j → i = j

/-- The lanes ascend (checked by adding the differences). -/
def incr (w n v : Nat) : Bool :=
  let one := ones w (n - 1)
  let g := one <<< (w - 1)
  let x := v % 2 ^ (w * (n - 1))
  let u := v >>> w
  let e := u - x - one
  ((x &&& g) == 0) && ((e &&& g) == 0) && (e + x + one == u) && decide (u < 2 ^ (w * (n - 1)))

theorem lane_guard {w : Nat} (hw : 0 < w) {n x i : Nat} (hi : i < n)
    (h : x &&& (ones w n <<< (w - 1)) = 0) : lane w x i < 2 ^ (w - 1) := by
  have hb : (lane w x i).testBit (w - 1) = false := by
    have hx := congrArg (fun y => y.testBit (w * i + (w - 1))) h
    simp only [Nat.testBit_and, Nat.zero_testBit, Nat.testBit_shiftLeft] at hx
    have h1 : (ones w n).testBit (w * i) = true := by
      have := congrArg (fun y => Nat.testBit y 0) (lane_ones hw hi)
      rw [testBit_lane, decide_eq_true hw, Bool.true_and, Nat.add_zero] at this
      rw [this]; rfl
    rw [show w * i + (w - 1) - (w - 1) = w * i by omega, h1,
      decide_eq_true (show w * i + (w - 1) ≥ w - 1 by omega)] at hx
    rw [testBit_lane]
    simp at hx
    simp [hx]
  apply Nat.lt_pow_two_of_testBit
  intro j hj
  by_cases hj' : j = w - 1
  · rw [hj', hb]
  · rw [testBit_lane, decide_eq_false (by omega), Bool.false_and]

theorem incr_lt {w n v : Nat} (hw : 0 < w) (h : incr w n v = true) (i : Nat) (hi : i + 1 < n) :
    lane w v i < lane w v (i + 1) := by
  simp only [incr, Bool.and_eq_true, beq_iff_eq, decide_eq_true_eq] at h
  obtain ⟨⟨⟨hx, he⟩, hs⟩, hu⟩ := h
  generalize hX : v % 2 ^ (w * (n - 1)) = X at *
  generalize hE : v >>> w - X - ones w (n - 1) = e at *
  have hXlt : X < 2 ^ (w * (n - 1)) := by rw [← hX]; exact Nat.mod_lt _ (Nat.two_pow_pos _)
  have hElt : e < 2 ^ (w * (n - 1)) := by omega
  have hi' : i < n - 1 := by omega
  have hlX : lane w X i = lane w v i := by rw [← hX]; exact lane_mod hi'
  have hlU : lane w (v >>> w) i = lane w v (i + 1) := by
    have := lane_shiftRight w v 1 i
    rwa [Nat.mul_one] at this
  have hw2 : 2 ^ w = 2 ^ (w - 1) + 2 ^ (w - 1) := by
    obtain ⟨w', rfl⟩ : ∃ w', w = w' + 1 := ⟨w - 1, by omega⟩
    rw [Nat.add_sub_cancel, Nat.pow_succ]; omega
  have hsum : pack w (fun i => lane w e i + lane w X i + 1) (n - 1) = v >>> w := by
    rw [← hs, ones_eq hw, ← pack_add, ← pack_add, pack_lane hXlt, pack_lane hElt]
  have := lane_pack (w := w) (f := fun i => lane w e i + lane w X i + 1) (n := n - 1) (fun j hj => by
    have h1 := lane_guard hw hj hx
    have h2 := lane_guard hw hj he
    omega) hi'
  rw [hsum, hlU, hlX] at this
  omega

theorem distinct_of_incr {w n v : Nat} (hw : 0 < w) (h : incr w n v = true) : Distinct w n v := by
  have mono : ∀ d i, i + d + 1 < n → lane w v i < lane w v (i + d + 1) := by
    intro d
    induction d with
    | zero => intro i hi; exact incr_lt hw h i hi
    | succ d ih =>
      intro i hi
      have h1 := ih i (by omega)
      have h2 := incr_lt hw h (i + d + 1) hi
      rw [show i + (d + 1) + 1 = i + d + 1 + 1 by omega]
      omega
  intro i j hi hj hij
  rcases Nat.lt_trichotomy i j with hlt | heq | hgt
  · have := mono (j - i - 1) i (by omega)
    rw [show i + (j - i - 1) + 1 = j by omega] at this
    omega
  · exact heq
  · have := mono (i - j - 1) j (by omega)
    rw [show j + (i - j - 1) + 1 = i by omega] at this
    omega

/-! ## Exchanging lanes -/

/-- Exchanges lane `i` with lane `i + k` for every lane `i` marked in `c`; nothing if `c` is not
such a marking. -/
def exch (w n k v c : Nat) : Nat :=
  bif ((c &&& ones w n) == c) && ((c >>> (w * (n - k))) == 0) && ((c &&& (c <<< (w * k))) == 0)
  then
    let d := (v ^^^ (v >>> (w * k))) &&& (c * (2 ^ w - 1))
    v ^^^ d ^^^ (d <<< (w * k))
  else v

theorem lane_full {w : Nat} {b : Nat} (hb : b < 2 ^ w) : b &&& (2 ^ w - 1) = b := by
  rw [Nat.and_two_pow_sub_one_eq_mod, Nat.mod_eq_of_lt hb]

theorem lane_exch {w n k v c : Nat} (hw : 0 < w) (hk : 0 < k) :
    ∃ s : Nat → Nat, (∀ i < n, s i < n) ∧ (∀ i < n, s (s i) = i) ∧
      ∀ i < n, lane w (exch w n k v c) i = lane w v (s i) := by
  unfold exch
  cases hc : ((c &&& ones w n) == c) && ((c >>> (w * (n - k))) == 0) &&
      ((c &&& (c <<< (w * k))) == 0) with
  | false => exact ⟨id, fun _ h => h, fun _ _ => rfl, fun _ _ => rfl⟩
  | true =>
    simp only [Bool.and_eq_true, beq_iff_eq] at hc
    obtain ⟨⟨h1, h2⟩, h3⟩ := hc
    have hclt : c < 2 ^ (w * n) := by
      rw [← h1]
      exact Nat.lt_of_le_of_lt Nat.and_le_right (ones_lt hw n)
    have hbit : ∀ i, lane w c i = 0 ∨ lane w c i = 1 := by
      intro i
      by_cases hi : i < n
      · rw [← h1, lane_and, lane_ones hw hi, Nat.and_one_is_mod]
        omega
      · left; exact lane_of_lt hclt (by omega)
    have hhigh : ∀ i, lane w c i = 1 → i + k < n := by
      intro i hi
      apply Classical.byContradiction
      intro hn
      have hcz : c < 2 ^ (w * (n - k)) := by
        rw [Nat.shiftRight_eq_div_pow] at h2
        rcases Nat.lt_or_ge c (2 ^ (w * (n - k))) with h | h
        · exact h
        · have := Nat.div_pos h (Nat.two_pow_pos _)
          omega
      rw [lane_of_lt hcz (by omega)] at hi
      omega
    have hdis : ∀ i, lane w c i = 1 → lane w c (i + k) = 0 := by
      intro i hi
      have := congrArg (fun y => lane w y (i + k)) h3
      simp only [lane_and, lane_shiftLeft, lane_zero] at this
      rw [if_pos (by omega), Nat.add_sub_cancel, hi, Nat.and_one_is_mod] at this
      rcases hbit (i + k) with h | h
      · exact h
      · omega
    have hspread : ∀ i < n, lane w (c * (2 ^ w - 1)) i = lane w c i * (2 ^ w - 1) := by
      intro i hi
      have : c * (2 ^ w - 1) = pack w (fun i => lane w c i * (2 ^ w - 1)) n := by
        rw [← pack_mul, pack_lane hclt]
      rw [this]
      exact lane_pack (f := fun i => lane w c i * (2 ^ w - 1)) (fun j _ => by
        have hp := Nat.two_pow_pos w
        show lane w c j * (2 ^ w - 1) < 2 ^ w
        rcases hbit j with h | h <;> rw [h] <;> omega) hi
    have hd : ∀ i < n, lane w ((v ^^^ (v >>> (w * k))) &&& (c * (2 ^ w - 1))) i =
        if lane w c i = 1 then lane w v i ^^^ lane w v (i + k) else 0 := by
      intro i hi
      rw [lane_and, hspread i hi, lane_xor, lane_shiftRight]
      rcases hbit i with h | h
      · rw [h]; simp
      · rw [h, Nat.one_mul, lane_full (Nat.xor_lt_two_pow (lane_lt ..) (lane_lt ..)), if_pos rfl]
    refine ⟨fun i => if lane w c i = 1 then i + k else
      if k ≤ i ∧ lane w c (i - k) = 1 then i - k else i, ?_, ?_, ?_⟩
    · intro i hi
      dsimp only
      split
      · exact hhigh i ‹_›
      · split <;> omega
    · intro i hi
      dsimp only
      by_cases ha : lane w c i = 1
      · rw [if_pos ha, if_neg (by rw [hdis i ha]; omega), Nat.add_sub_cancel,
          if_pos ⟨by omega, ha⟩]
      · rw [if_neg ha]
        by_cases hb : k ≤ i ∧ lane w c (i - k) = 1
        · rw [if_pos hb, if_pos hb.2]; omega
        · rw [if_neg hb, if_neg ha, if_neg hb]
    · intro i hi
      dsimp only [cond_true]
      rw [lane_xor, lane_xor, lane_shiftLeft, hd i hi]
      by_cases ha : lane w c i = 1
      · rw [if_pos ha, if_pos ha]
        have : (if k ≤ i then lane w ((v ^^^ (v >>> (w * k))) &&& (c * (2 ^ w - 1))) (i - k) else 0)
            = 0 := by
          by_cases hki : k ≤ i
          · rw [if_pos hki, hd _ (by omega), if_neg]
            intro hh
            have := hdis _ hh
            rw [Nat.sub_add_cancel hki] at this
            omega
          · rw [if_neg hki]
        rw [this, Nat.xor_zero, ← Nat.xor_assoc, Nat.xor_self, Nat.zero_xor]
      · rw [if_neg ha, if_neg ha, Nat.xor_zero]
        by_cases hki : k ≤ i
        · rw [if_pos hki, hd _ (by omega)]
          by_cases hb : lane w c (i - k) = 1
          · rw [if_pos hb, if_pos ⟨hki, hb⟩, Nat.sub_add_cancel hki,
              Nat.xor_comm (lane w v (i - k)), ← Nat.xor_assoc, Nat.xor_self, Nat.zero_xor]
          · rw [if_neg hb, if_neg (fun h => hb h.2), Nat.xor_zero]
        · rw [if_neg hki, if_neg (fun h => hki h.1), Nat.xor_zero]

theorem distinct_of_exch {w n k v c : Nat} (hw : 0 < w) (hk : 0 < k)
    (h : Distinct w n (exch w n k v c)) : Distinct w n v := by
  obtain ⟨s, hs1, hs2, hs3⟩ := lane_exch (w := w) (n := n) (k := k) (v := v) (c := c) hw hk
  intro i j hi hj hij
  have := h (s i) (s j) (hs1 i hi) (hs1 j hj) (by
    rw [hs3 _ (hs1 i hi), hs3 _ (hs1 j hj), hs2 i hi, hs2 j hj, hij])
  rw [← hs2 i hi, ← hs2 j hj, this]

/-! ## The sorting network (Batcher's odd-even merge sort) -/

/-- Lane 0 of every group of `q` lanes, up to lane `n`. -/
def every (w n q : Nat) : Nat := ones (w * q) (n / q + 1)

/-- Marks the lower ends of the comparators `(i, i + k)` of the stage `(p, k)` for `n` lanes: those
`i` whose digit at `k` is 0 if `k = p`; otherwise those whose digit at `k` is 1 except the last `k`
of every group of `2 p`. -/
def comparators (w n p k : Nat) : Nat :=
  (bif Nat.beq k p then every w n (2 * k) * ones w k
   else (every w n (2 * k) * (ones w k <<< (w * k))) ^^^
     (every w n (2 * p) * (ones w k <<< (w * (2 * p - k))))) &&& ones w (n - k)

/-- The comparators `(i, i + k)` whose lanes are in the wrong order. -/
def unsorted (w n p k v : Nat) : Nat :=
  (((v ||| (ones w n <<< (w - 1))) - (v >>> (w * k))) >>> (w - 1)) &&& comparators w n p k

/-- One stage of the network. -/
def step (w n : Nat) : Nat × Nat → Nat → Nat
  | (p, k), v => bif Nat.beq k 0 then v else exch w n k v (unsorted w n p k v)

/-- The stages `(p, p), (p, p / 2), …, (p, 1)` for `p = 1, 2, 4, …, 2 ^ 17`. -/
def network : List (Nat × Nat) :=
  [(1, 1), (2, 2), (2, 1), (4, 4), (4, 2), (4, 1), (8, 8), (8, 4), (8, 2), (8, 1), (16, 16),
   (16, 8), (16, 4), (16, 2), (16, 1), (32, 32), (32, 16), (32, 8), (32, 4), (32, 2), (32, 1),
   (64, 64), (64, 32), (64, 16), (64, 8), (64, 4), (64, 2), (64, 1), (128, 128), (128, 64),
   (128, 32), (128, 16), (128, 8), (128, 4), (128, 2), (128, 1), (256, 256), (256, 128),
   (256, 64), (256, 32), (256, 16), (256, 8), (256, 4), (256, 2), (256, 1), (512, 512),
   (512, 256), (512, 128), (512, 64), (512, 32), (512, 16), (512, 8), (512, 4), (512, 2),
   (512, 1), (1024, 1024), (1024, 512), (1024, 256), (1024, 128), (1024, 64), (1024, 32),
   (1024, 16), (1024, 8), (1024, 4), (1024, 2), (1024, 1), (2048, 2048), (2048, 1024),
   (2048, 512), (2048, 256), (2048, 128), (2048, 64), (2048, 32), (2048, 16), (2048, 8),
   (2048, 4), (2048, 2), (2048, 1), (4096, 4096), (4096, 2048), (4096, 1024), (4096, 512),
   (4096, 256), (4096, 128), (4096, 64), (4096, 32), (4096, 16), (4096, 8), (4096, 4), (4096, 2),
   (4096, 1), (8192, 8192), (8192, 4096), (8192, 2048), (8192, 1024), (8192, 512), (8192, 256),
   (8192, 128), (8192, 64), (8192, 32), (8192, 16), (8192, 8), (8192, 4), (8192, 2), (8192, 1),
   (16384, 16384), (16384, 8192), (16384, 4096), (16384, 2048), (16384, 1024), (16384, 512),
   (16384, 256), (16384, 128), (16384, 64), (16384, 32), (16384, 16), (16384, 8), (16384, 4),
   (16384, 2), (16384, 1), (32768, 32768), (32768, 16384), (32768, 8192), (32768, 4096),
   (32768, 2048), (32768, 1024), (32768, 512), (32768, 256), (32768, 128), (32768, 64),
   (32768, 32), (32768, 16), (32768, 8), (32768, 4), (32768, 2), (32768, 1), (65536, 65536),
   (65536, 32768), (65536, 16384), (65536, 8192), (65536, 4096), (65536, 2048), (65536, 1024),
   (65536, 512), (65536, 256), (65536, 128), (65536, 64), (65536, 32), (65536, 16), (65536, 8),
   (65536, 4), (65536, 2), (65536, 1), (131072, 131072), (131072, 65536), (131072, 32768),
   (131072, 16384), (131072, 8192), (131072, 4096), (131072, 2048), (131072, 1024), (131072, 512),
   (131072, 256), (131072, 128), (131072, 64), (131072, 32), (131072, 16), (131072, 8),
   (131072, 4), (131072, 2), (131072, 1)]

/-- Whether the network puts the lanes in strictly ascending order. -/
def allDistinct (w n : Nat) (l : List (Nat × Nat)) (v : Nat) : Bool :=
  incr w n (l.foldl (fun v pk => step w n pk v) v)

theorem distinct_of_step {w n : Nat} (hw : 0 < w) {pk : Nat × Nat} {v : Nat}
    (h : Distinct w n (step w n pk v)) : Distinct w n v := by
  obtain ⟨p, k⟩ := pk
  unfold step at h
  dsimp only at h
  cases hb : Nat.beq k 0 with
  | true => rw [hb] at h; exact h
  | false =>
    rw [hb] at h
    exact distinct_of_exch hw (Nat.pos_of_ne_zero (Nat.ne_of_beq_eq_false hb)) h

theorem distinct_of_allDistinct {w n : Nat} (hw : 0 < w) {l : List (Nat × Nat)} {v : Nat}
    (h : allDistinct w n l v = true) : Distinct w n v := by
  have h' := distinct_of_incr hw h
  clear h
  induction l generalizing v with
  | nil => exact h'
  | cons pk l ih => exact distinct_of_step hw (ih h')

/-! ## Blocks of lanes -/

/-- The list of the first `b.1` lanes of `b.2`. -/
def den (w : Nat) (b : Nat × Nat) : List Nat := (List.range b.1).map (lane w b.2)

/-- Whether a block has no lanes beyond its length. -/
def Fits (w : Nat) (b : Nat × Nat) : Prop := b.2 < 2 ^ (w * b.1)

/-- The lanes of `a` followed by those of `b`. -/
def join (w : Nat) (a b : Nat × Nat) : Nat × Nat := (a.1 + b.1, a.2 ||| (b.2 <<< (w * a.1)))

theorem fits_join {w : Nat} {a b : Nat × Nat} (ha : Fits w a) (hb : Fits w b) :
    Fits w (join w a b) := by
  unfold Fits join at *
  refine Nat.or_lt_two_pow ?_ ?_
  · exact Nat.lt_of_lt_of_le ha (Nat.pow_le_pow_right (by omega) (Nat.mul_le_mul_left _ (by simp)))
  · rw [Nat.shiftLeft_eq, Nat.mul_add, Nat.pow_add, Nat.mul_comm (2 ^ (w * a.1))]
    exact Nat.mul_lt_mul_of_pos_right hb (Nat.two_pow_pos _)

theorem den_join {w : Nat} {a b : Nat × Nat} (ha : Fits w a) :
    den w (join w a b) = den w a ++ den w b := by
  apply List.ext_getElem?
  intro i
  simp only [den, join, List.getElem?_map, List.getElem?_append, List.length_map, List.length_range]
  by_cases h1 : i < a.1
  · rw [if_pos h1, List.getElem?_range h1, List.getElem?_range (by omega)]
    simp only [Option.map_some, lane_or, lane_shiftLeft]
    rw [if_neg (by omega), Nat.or_zero]
  · rw [if_neg h1]
    by_cases h2 : i - a.1 < b.1
    · rw [List.getElem?_range h2, List.getElem?_range (by omega)]
      simp only [Option.map_some, lane_or, lane_shiftLeft]
      rw [if_pos (by omega), lane_of_lt ha (by omega), Nat.zero_or]
    · rw [List.getElem?_eq_none (by simp; omega), List.getElem?_eq_none (by simp; omega)]
      rfl

/-- Joins neighbours. -/
def pairs (w : Nat) : List (Nat × Nat) → List (Nat × Nat)
  | a :: b :: l => join w a b :: pairs w l
  | l => l

/-- Joins all blocks, by doubling. -/
def cat (w : Nat) : Nat → List (Nat × Nat) → Nat × Nat
  | 0, l => l.foldr (join w) (0, 0)
  | _ + 1, [] => (0, 0)
  | _ + 1, [a] => a
  | f + 1, a :: b :: l => cat w f (join w a b :: pairs w l)

theorem pairs_spec {w : Nat} : ∀ {l : List (Nat × Nat)}, (∀ b ∈ l, Fits w b) →
    (∀ b ∈ pairs w l, Fits w b) ∧ (pairs w l).flatMap (den w) = l.flatMap (den w)
  | [], h => ⟨h, rfl⟩
  | [a], h => ⟨h, rfl⟩
  | a :: b :: l, h => by
    obtain ⟨h1, h2⟩ := pairs_spec (w := w) (l := l) fun x hx => h x (by simp [hx])
    have ha := h a (by simp)
    have hb := h b (by simp)
    refine ⟨?_, ?_⟩
    · intro x hx
      rw [pairs, List.mem_cons] at hx
      rcases hx with rfl | hx
      · exact fits_join ha hb
      · exact h1 x hx
    · rw [pairs]
      simp only [List.flatMap_cons, h2, den_join ha, List.append_assoc]

theorem cat_spec {w : Nat} (f : Nat) {l : List (Nat × Nat)} (h : ∀ b ∈ l, Fits w b) :
    Fits w (cat w f l) ∧ den w (cat w f l) = l.flatMap (den w) := by
  induction f generalizing l with
  | zero =>
    rw [cat]
    induction l with
    | nil => exact ⟨by simp [Fits], rfl⟩
    | cons a l ih =>
      obtain ⟨h1, h2⟩ := ih fun x hx => h x (by simp [hx])
      have ha := h a (by simp)
      rw [List.foldr_cons]
      exact ⟨fits_join ha h1, by rw [den_join ha, h2, List.flatMap_cons]⟩
  | succ f ih =>
    match l, h with
    | [], _ => exact ⟨by simp [Fits, cat], rfl⟩
    | [a], h => exact ⟨h a (by simp), by simp [cat]⟩
    | a :: b :: l, h =>
      obtain ⟨h1, h2⟩ := pairs_spec h
      rw [pairs] at h1 h2
      rw [cat, ← h2]
      exact ih h1

theorem nodup_den {w : Nat} {b : Nat × Nat} (h : Distinct w b.1 b.2) : (den w b).Nodup := by
  rw [List.nodup_iff_pairwise_ne, den, List.pairwise_map]
  refine List.Pairwise.imp_of_mem ?_ List.nodup_range
  intro i j hi hj hne he
  exact hne (h i j (List.mem_range.1 hi) (List.mem_range.1 hj) he)

/-- Whether all lanes of the blocks, `n` in number, are pairwise different. -/
def distinctBlocks (w f : Nat) (st l : List (Nat × Nat)) (n : Nat) : Bool :=
  ((cat w f l).1 == n) && allDistinct w n st (cat w f l).2

theorem nodup_of_cat {w : Nat} (hw : 0 < w) (f : Nat) (st : List (Nat × Nat))
    {l : List (Nat × Nat)} (hl : ∀ b ∈ l, Fits w b) (n : Nat)
    (h : distinctBlocks w f st l n = true) : (l.flatMap (den w)).Nodup := by
  rw [← (cat_spec f hl).2]
  simp only [distinctBlocks, Bool.and_eq_true, beq_iff_eq] at h
  refine nodup_den ?_
  rw [h.1]
  exact distinct_of_allDistinct hw h.2

theorem mem_den {w : Nat} {b : Nat × Nat} {i : Nat} (hi : i < b.1) : lane w b.2 i ∈ den w b :=
  List.mem_map.2 ⟨i, List.mem_range.2 hi, rfl⟩

/-- In a list without repetitions made of parts, an element determines its part. -/
theorem part_unique {α β : Type} {f : α → List β} {l : List α} (h : (l.flatMap f).Nodup) {a b : α}
    (ha : a ∈ l) (hb : b ∈ l) {x : β} (hxa : x ∈ f a) (hxb : x ∈ f b) : a = b := by
  induction l with
  | nil => cases ha
  | cons c l ih =>
    rw [List.flatMap_cons, List.nodup_append] at h
    rcases List.mem_cons.1 ha with rfl | ha'
    · rcases List.mem_cons.1 hb with rfl | hb'
      · rfl
      · exact absurd rfl (h.2.2 x hxa x (List.mem_flatMap.2 ⟨b, hb', hxb⟩))
    · rcases List.mem_cons.1 hb with rfl | hb'
      · exact absurd rfl (h.2.2 x hxb x (List.mem_flatMap.2 ⟨a, ha', hxa⟩))
      · exact ih h.2.1 ha' hb'

theorem part_nodup {α β : Type} {f : α → List β} {l : List α} (h : (l.flatMap f).Nodup) {a : α}
    (ha : a ∈ l) : (f a).Nodup := by
  induction l with
  | nil => cases ha
  | cons c l ih =>
    rw [List.flatMap_cons, List.nodup_append] at h
    rcases List.mem_cons.1 ha with rfl | ha'
    · exact h.1
    · exact ih h.2.1 ha'

/-- Lanes of a block without repetitions. -/
theorem lane_inj {w : Nat} {b : Nat × Nat} (h : (den w b).Nodup) {i j : Nat} (hi : i < b.1)
    (hj : j < b.1) (he : lane w b.2 i = lane w b.2 j) : i = j := by
  have h1 : (den w b)[i]? = some (lane w b.2 i) := by
    rw [den, List.getElem?_map, List.getElem?_range hi]; rfl
  have h2 : (den w b)[j]? = some (lane w b.2 j) := by
    rw [den, List.getElem?_map, List.getElem?_range hj]; rfl
  rw [← he] at h2
  exact (List.getElem?_inj (by simpa [den] using hi) h).1 (h1.trans h2.symm)

end Yasai.Proofs.Lanes

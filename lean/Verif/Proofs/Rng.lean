import Verif.Model.Rng
import Verif.Spec.Draws

/-!
# Proofs: the initialiser of the Zobrist table
-/

namespace Yasai.Proofs

open Yasai

section
variable {σ : Type} (next : σ → BitVec 64 × σ)

/-- The generator after `n` numbers. -/
def after (r : σ) : Nat → σ
  | 0 => r
  | n + 1 => after (next r).2 n

theorem draws_add (r : σ) (m n : Nat) :
    Spec.draws next r (m + n) = Spec.draws next (after next r m) n := by
  induction m generalizing r with
  | zero => simp [after]
  | succ m ih => rw [show m + 1 + n = (m + n) + 1 by omega]; simp [Spec.draws, after, ih]

theorem after_add (r : σ) (m n : Nat) :
    after next r (m + n) = after next (after next r m) n := by
  induction m generalizing r with
  | zero => simp [after]
  | succ m ih => rw [show m + 1 + n = (m + n) + 1 by omega]; simp [after, ih]

theorem foldl_fillSlot_snd {ι : Type} [DecidableEq ι] (l : List ι) (f : ι → BitVec 64) (r : σ) :
    (l.foldl (fillSlot next) (f, r)).2 = after next r l.length := by
  induction l generalizing f r with
  | nil => rfl
  | cons i l ih => simp only [List.foldl_cons, fillSlot, List.length_cons, after]; exact ih _ _

theorem foldl_fillSlot_notMem {ι : Type} [DecidableEq ι] (l : List ι) (f : ι → BitVec 64) (r : σ)
    (i : ι) (hi : i ∉ l) : (l.foldl (fillSlot next) (f, r)).1 i = f i := by
  induction l generalizing f r with
  | nil => rfl
  | cons j l ih =>
    simp only [List.mem_cons, not_or] at hi
    simp only [List.foldl_cons, fillSlot]
    rw [ih _ _ hi.2]
    simp [hi.1]

theorem foldl_fillSlot_get {ι : Type} [DecidableEq ι] (l : List ι) (f : ι → BitVec 64) (r : σ)
    (hl : l.Nodup) (n : Nat) (i : ι) (hi : l[n]? = some i) :
    (l.foldl (fillSlot next) (f, r)).1 i = Spec.draws next r n := by
  induction l generalizing f r n with
  | nil => simp at hi
  | cons j l ih =>
    rw [List.nodup_cons] at hl
    simp only [List.foldl_cons, fillSlot]
    cases n with
    | zero =>
      simp only [List.getElem?_cons_zero, Option.some.injEq] at hi
      subst hi
      rw [foldl_fillSlot_notMem next l _ _ _ hl.1]
      simp [Spec.draws]
    | succ n =>
      simp only [List.getElem?_cons_succ] at hi
      rw [ih _ _ hl.2 n hi]
      simp [Spec.draws]

end

/-- `Spec.boardDraw` of a triple. -/
def boardIx (x : Square × Color × PieceKind) : Nat := Spec.boardDraw x.1 x.2.1 x.2.2

/-- `Spec.handDraw` of a triple. -/
def handIx (x : Color × PieceKind × Nat) : Nat := Spec.handDraw x.1 x.2.1 x.2.2

theorem boardSlots_ix : boardSlots.map boardIx = List.range 2268 := by decide +kernel

theorem handSlots_ix : handSlots.map handIx = List.range' 2268 252 := by decide +kernel

theorem nodup_of_map {α β : Type} (f : α → β) {l : List α} (h : (l.map f).Nodup) : l.Nodup := by
  induction l with
  | nil => simp
  | cons a l ih =>
    simp only [List.map_cons, List.nodup_cons, List.mem_map, not_exists, not_and] at h
    rw [List.nodup_cons]
    exact ⟨fun ha => h.1 a ha rfl, ih h.2⟩

theorem boardSlots_nodup : boardSlots.Nodup :=
  nodup_of_map boardIx (by rw [boardSlots_ix]; exact List.nodup_range)

theorem handSlots_nodup : handSlots.Nodup :=
  nodup_of_map handIx (by rw [handSlots_ix]; exact List.nodup_range')

theorem boardSlots_length : boardSlots.length = 2268 := by
  simpa using congrArg List.length boardSlots_ix

theorem mem_boardSlots (s : Square) (c : Color) (k : PieceKind) : (s, c, k) ∈ boardSlots := by
  simp only [boardSlots, List.mem_flatMap, List.mem_map]
  exact ⟨s, List.mem_finRange s, c, by cases c <;> decide, k, by cases k <;> decide, rfl⟩

theorem mem_handSlots (c : Color) (k : PieceKind) (hk : k.isHandPiece = true) (n : Nat)
    (hn : n < 18) : (c, k, n) ∈ handSlots := by
  simp only [handSlots, List.mem_flatMap, List.mem_map]
  exact ⟨c, by cases c <;> decide, k, by cases k <;> first | decide | simp [PieceKind.isHandPiece] at hk,
    n, List.mem_range.2 hn, rfl⟩

theorem boardSlots_get (s : Square) (c : Color) (k : PieceKind) :
    boardSlots[Spec.boardDraw s c k]? = some (s, c, k) := by
  obtain ⟨i, hi⟩ := List.mem_iff_getElem?.1 (mem_boardSlots s c k)
  have h := congrArg (·[i]?) boardSlots_ix
  simp only [List.getElem?_map, hi, Option.map_some] at h
  have hlt : i < 2268 := by
    rw [← boardSlots_length]
    exact (List.getElem?_eq_some_iff.1 hi).1
  rw [List.getElem?_range hlt] at h
  simp only [boardIx, Option.some.injEq] at h
  rw [h]
  exact hi

theorem handSlots_get (c : Color) (k : PieceKind) (hk : k.isHandPiece = true) (n : Nat)
    (hn : n < 18) : ∃ i, Spec.handDraw c k n = 2268 + i ∧ handSlots[i]? = some (c, k, n) := by
  obtain ⟨i, hi⟩ := List.mem_iff_getElem?.1 (mem_handSlots c k hk n hn)
  have h := congrArg (·[i]?) handSlots_ix
  simp only [List.getElem?_map, hi, Option.map_some] at h
  have hlt : i < 252 := by
    have := congrArg List.length handSlots_ix
    simp only [List.length_map, List.length_range'] at this
    rw [← this]
    exact (List.getElem?_eq_some_iff.1 hi).1
  rw [List.getElem?_range' hlt] at h
  simp only [handIx, Option.some.injEq] at h
  exact ⟨i, by omega, hi⟩

section
variable {σ : Type} (next : σ → BitVec 64 × σ)

theorem ofRng_board (r : σ) (oc : Bool) (s : Square) (c : Color) (k : PieceKind) :
    (Env.ofRng next r oc).rngBoard s c k = Spec.draws next r (Spec.boardDraw s c k) := by
  simp only [Env.ofRng, fillBoard]
  exact foldl_fillSlot_get next boardSlots _ r boardSlots_nodup _ _ (boardSlots_get s c k)

theorem ofRng_hand (r : σ) (oc : Bool) (c : Color) (k : PieceKind) (hk : k.isHandPiece = true)
    (n : Nat) (hn : n < 18) :
    (Env.ofRng next r oc).rngHand c k n = Spec.draws next r (Spec.handDraw c k n) := by
  obtain ⟨i, h, hi⟩ := handSlots_get c k hk n hn
  rw [h, draws_add]
  simp only [Env.ofRng, fillHands, fillBoard, foldl_fillSlot_snd, boardSlots_length]
  exact foldl_fillSlot_get next handSlots _ _ handSlots_nodup _ _ hi

theorem ofRng_hand_unused (r : σ) (oc : Bool) (c : Color) (k : PieceKind) (n : Nat)
    (h : ¬ (k.isHandPiece = true ∧ n < 18)) : (Env.ofRng next r oc).rngHand c k n = 0#64 := by
  simp only [Env.ofRng, fillHands]
  refine foldl_fillSlot_notMem next handSlots _ _ _ fun hm => h ?_
  simp only [handSlots, List.mem_flatMap, List.mem_map, List.mem_range, Prod.mk.injEq] at hm
  obtain ⟨c', _, k', hk', i', hi', rfl, rfl, rfl⟩ := hm
  refine ⟨?_, hi'⟩
  revert hk'
  cases k' <;> decide

end

/-! ## The draws of `StdRng` -/

/-- The `n`-th number from the keystream: eight numbers per block. -/
def chachaDraw (key : V4 × V4) (n : Nat) : BitVec 64 :=
  let b := ChaCha.block12 key (BitVec.ofNat 64 (n / 8))
  StdRng.join (b.getD (2 * (n % 8)) 0#32) (b.getD (2 * (n % 8) + 1) 0#32)

theorem block12_length (key : V4 × V4) (ctr : BitVec 64) : (ChaCha.block12 key ctr).length = 16 := rfl

theorem fourBlocks_getD (key : V4 × V4) (q i : Nat) (hi : i < 64) :
    (StdRng.fourBlocks key (BitVec.ofNat 64 (4 * q))).getD i 0#32 =
      (ChaCha.block12 key (BitVec.ofNat 64 (4 * q + i / 16))).getD (i % 16) 0#32 := by
  have e : ∀ j : Nat, BitVec.ofNat 64 (4 * q) + BitVec.ofNat 64 j = BitVec.ofNat 64 (4 * q + j) :=
    fun j => (BitVec.ofNat_add ..).symm
  simp only [StdRng.fourBlocks, List.getD_eq_getElem?_getD]
  have h : i / 16 = 0 ∨ i / 16 = 1 ∨ i / 16 = 2 ∨ i / 16 = 3 := by omega
  rcases h with h | h | h | h <;> rw [h]
  · rw [List.getElem?_append_left (by simp [block12_length]; omega),
      List.getElem?_append_left (by simp [block12_length]; omega),
      List.getElem?_append_left (by simp [block12_length]; omega)]
    rw [show i % 16 = i by omega]; rfl
  · rw [List.getElem?_append_left (by simp [block12_length]; omega),
      List.getElem?_append_left (by simp [block12_length]; omega),
      List.getElem?_append_right (by simp [block12_length]; omega)]
    rw [e 1, block12_length, show i % 16 = i - 16 by omega]
  · rw [List.getElem?_append_left (by simp [block12_length]; omega),
      List.getElem?_append_right (by simp [block12_length]; omega)]
    rw [e 2, List.length_append, block12_length, block12_length, show i % 16 = i - 32 by omega]
  · rw [List.getElem?_append_right (by simp [block12_length]; omega)]
    rw [e 3, List.length_append, List.length_append, block12_length, block12_length,
      block12_length, show i % 16 = i - 48 by omega]

/-- The generator in the middle of a buffer: `q` buffers used up, `j + 1` numbers taken from the
next. -/
def stdAt (key : V4 × V4) (q j : Nat) : StdRng :=
  ⟨key, BitVec.ofNat 64 (4 * q) + 4#64, StdRng.fourBlocks key (BitVec.ofNat 64 (4 * q)), 2 * j + 2⟩

theorem chachaDraw_eq (key : V4 × V4) (q j : Nat) (hj : j < 32) :
    StdRng.join ((StdRng.fourBlocks key (BitVec.ofNat 64 (4 * q))).getD (2 * j) 0#32)
      ((StdRng.fourBlocks key (BitVec.ofNat 64 (4 * q))).getD (2 * j + 1) 0#32) =
      chachaDraw key (32 * q + j) := by
  rw [fourBlocks_getD key q _ (by omega), fourBlocks_getD key q _ (by omega)]
  simp only [chachaDraw]
  rw [show 4 * q + 2 * j / 16 = (32 * q + j) / 8 by omega,
    show 4 * q + (2 * j + 1) / 16 = (32 * q + j) / 8 by omega,
    show 2 * j % 16 = 2 * ((32 * q + j) % 8) by omega,
    show (2 * j + 1) % 16 = 2 * ((32 * q + j) % 8) + 1 by omega]

theorem next_stdAt (key : V4 × V4) (q j : Nat) (hj : j + 1 < 32) :
    StdRng.nextU64 (stdAt key q j) = (chachaDraw key (32 * q + (j + 1)), stdAt key q (j + 1)) := by
  rw [← chachaDraw_eq key q (j + 1) hj]
  rw [StdRng.nextU64, if_pos (show (stdAt key q j).index < 63 by simp [stdAt]; omega)]
  rfl

theorem next_full (key : V4 × V4) (q : Nat) (r : StdRng) (hk : r.key = key)
    (hc : r.ctr = BitVec.ofNat 64 (4 * q)) (hi : r.index = 64) :
    StdRng.nextU64 r = (chachaDraw key (32 * q), stdAt key q 0) := by
  have := chachaDraw_eq key q 0 (by omega)
  rw [show 32 * q + 0 = 32 * q from rfl] at this
  rw [← this, StdRng.nextU64, if_neg (by omega), if_pos (by omega)]
  subst hk
  simp only [StdRng.refill, StdRng.word, stdAt, hc]

theorem after_std (key : V4 × V4) (n : Nat) :
    Spec.draws StdRng.nextU64 (StdRng.fromSeed key) n = chachaDraw key n ∧
      after StdRng.nextU64 (StdRng.fromSeed key) (n + 1) = stdAt key (n / 32) (n % 32) := by
  have succ : ∀ (r : StdRng) m, Spec.draws StdRng.nextU64 r m = (StdRng.nextU64
      (after StdRng.nextU64 r m)).1 ∧ after StdRng.nextU64 r (m + 1) =
      (StdRng.nextU64 (after StdRng.nextU64 r m)).2 := fun r m => by
    refine ⟨?_, ?_⟩
    · rw [show m = m + 0 from rfl, draws_add]; rfl
    · rw [after_add]; rfl
  induction n with
  | zero =>
    have h := next_full key 0 (StdRng.fromSeed key) rfl rfl rfl
    rw [(succ _ 0).1, (succ _ 0).2]
    exact ⟨congrArg Prod.fst h, congrArg Prod.snd h⟩
  | succ n ih =>
    rw [(succ _ (n + 1)).1, (succ _ (n + 1)).2, ih.2]
    by_cases hj : n % 32 + 1 < 32
    · rw [next_stdAt key _ _ hj, show 32 * (n / 32) + (n % 32 + 1) = n + 1 by omega,
        show (n + 1) / 32 = n / 32 by omega, show (n + 1) % 32 = n % 32 + 1 by omega]
      exact ⟨rfl, rfl⟩
    · have h := next_full key (n / 32 + 1) (stdAt key (n / 32) (n % 32)) rfl
        (by simp only [stdAt]; rw [Nat.mul_add]; exact (BitVec.ofNat_add ..).symm)
        (by simp only [stdAt]; omega)
      rw [h, show 32 * (n / 32 + 1) = n + 1 by omega,
        show (n + 1) / 32 = n / 32 + 1 by omega, show (n + 1) % 32 = 0 by omega]
      exact ⟨rfl, rfl⟩

theorem draws_std (seed : BitVec 64) (n : Nat) :
    Spec.draws StdRng.nextU64 (StdRng.seedFromU64 seed) n = chachaDraw (StdRng.pcgKey seed) n :=
  (after_std _ n).1

end Yasai.Proofs

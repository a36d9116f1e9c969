import Verif.Proofs.TableLit
import Verif.Proofs.Keys
import Verif.Spec.Places

/-!
# Proofs: the differences of entries of the Zobrist table are pairwise different
-/

set_option exponentiation.threshold 6000

namespace Yasai.Proofs

open Yasai Spec Lanes

/-- Number `n` without its lowest bit. -/
def half (n : Nat) : Nat := drawLit n >>> 1

/-- Entry `j` of all squares. -/
def colPack (j : Nat) : Nat := pack 64 (fun s => half (28 * s + j)) 81

/-- Entry `j` of all squares; 0 for `j = 28`. -/
def colLit (j : Nat) : Nat := bif Nat.beq j 28 then 0 else colPack j

/-- Entry `n` of all hands and kinds. -/
def handPack (n : Nat) : Nat := pack 64 (fun i => half (2268 + 18 * i + n)) 14

/-- The XOR of the first `n` entries of all hands and kinds. -/
def handLit : Nat → Nat
  | 0 => 0
  | n + 1 => handLit n ^^^ handPack n

/-- The pairs `(a, b)` with `a < b < n`. -/
def below (n : Nat) : List (Nat × Nat) :=
  (List.range n).flatMap fun b => (List.range b).map fun a => (a, b)

theorem mem_below {n a b : Nat} : (a, b) ∈ below n ↔ a < b ∧ b < n := by
  simp only [below, List.mem_flatMap, List.mem_map, List.mem_range, Prod.mk.injEq]
  constructor
  · rintro ⟨b', h1, a', h2, rfl, rfl⟩; exact ⟨h2, h1⟩
  · rintro ⟨h1, h2⟩; exact ⟨b, h2, a, h1, rfl, rfl⟩

/-- A block of differences: all squares, two contents; all hands and kinds, two numbers; or the
single number 0. -/
inductive DKey where
  | board (ab : Nat × Nat)
  | hand (ab : Nat × Nat)
  | zero

/-- The lanes of a block. -/
def dblock : DKey → Nat × Nat
  | .board (a, b) => (81, colLit a ^^^ colLit b)
  | .hand (a, b) => (14, handLit a ^^^ handLit b)
  | .zero => (1, 0)

/-- All blocks of differences. -/
def dkeys : List DKey := .zero :: ((below 29).map .board ++ (below 19).map .hand)

set_option maxRecDepth 10000 in
theorem dkeys_check :
    distinctBlocks 64 12 (network.take 136) (dkeys.map dblock) 35281 = true := by decide +kernel

theorem half_lt (n : Nat) : half n < 2 ^ 64 := by
  have := lane_lt 64 (blockLit (n / 8)) (n % 8)
  rw [half, drawLit, Nat.shiftRight_eq_div_pow]
  omega

theorem colPack_lt (j : Nat) : colPack j < 2 ^ (64 * 81) := by
  rw [colPack]
  exact pack_lt (f := fun s => half (28 * s + j)) fun i _ => half_lt (28 * i + j)

theorem handPack_lt (n : Nat) : handPack n < 2 ^ (64 * 14) := by
  rw [handPack]
  exact pack_lt (f := fun i => half (2268 + 18 * i + n)) fun i _ => half_lt (2268 + 18 * i + n)

theorem colLit_lt (j : Nat) : colLit j < 2 ^ (64 * 81) := by
  rw [colLit]
  cases Nat.beq j 28 with
  | false => rw [cond_false]; exact colPack_lt j
  | true => rw [cond_true]; exact Nat.two_pow_pos (64 * 81)

theorem handLit_lt (n : Nat) : handLit n < 2 ^ (64 * 14) := by
  induction n with
  | zero => rw [handLit]; exact Nat.two_pow_pos (64 * 14)
  | succ n ih => rw [handLit]; exact Nat.xor_lt_two_pow ih (handPack_lt n)

theorem dblock_fits : ∀ b ∈ dkeys.map dblock, Fits 64 b := by
  intro b hb
  obtain ⟨x, _, rfl⟩ := List.mem_map.1 hb
  unfold Fits
  cases x with
  | board ab =>
    obtain ⟨a, b⟩ := ab
    simp only [dblock]
    exact Nat.xor_lt_two_pow (colLit_lt a) (colLit_lt b)
  | hand ab =>
    obtain ⟨a, b⟩ := ab
    simp only [dblock]
    exact Nat.xor_lt_two_pow (handLit_lt a) (handLit_lt b)
  | zero => simp only [dblock]; exact Nat.two_pow_pos _

theorem dkeys_nodup : (dkeys.flatMap fun x => den 64 (dblock x)).Nodup := by
  have := nodup_of_cat (by omega) 12 (network.take 136) dblock_fits 35281 dkeys_check
  rwa [List.flatMap_map] at this

theorem lane_colLit {j : Nat} (hj : j ≠ 28) (s : Square) :
    lane 64 (colLit j) s.val = half (28 * s.val + j) := by
  have : Nat.beq j 28 = false := by
    cases h : Nat.beq j 28
    · rfl
    · exact absurd (Nat.eq_of_beq_eq_true h) hj
  rw [colLit, this, cond_false, colPack]
  exact lane_pack (f := fun s => half (28 * s + j)) (fun i _ => half_lt (28 * i + j)) s.isLt

theorem lane_handLit_succ (n i : Nat) (hi : i < 14) :
    lane 64 (handLit (n + 1)) i = lane 64 (handLit n) i ^^^ half (2268 + 18 * i + n) := by
  rw [handLit, lane_xor, handPack]
  congr 1
  exact lane_pack (f := fun i => half (2268 + 18 * i + n))
    (fun i _ => half_lt (2268 + 18 * i + n)) hi

/-! ## The entries of the table -/

theorem half_mask (x : BitVec 64) : (x &&& ~~~Key.COLOR).toNat >>> 1 = x.toNat >>> 1 := by
  apply Nat.eq_of_testBit_eq
  intro i
  rw [Nat.testBit_shiftRight, Nat.testBit_shiftRight, ← BitVec.getLsbD, ← BitVec.getLsbD,
    BitVec.getLsbD_and, BitVec.getLsbD_not]
  by_cases h : 1 + i < 64
  · have : (Key.COLOR).getLsbD (1 + i) = false := by
      unfold Key.COLOR
      rw [BitVec.getLsbD_one]
      simp
    rw [this]
    simp [h]
  · rw [BitVec.getLsbD_of_ge x _ (by omega)]; rfl

theorem boardDraw_lt (s : Square) (c : Color) (k : PieceKind) : boardDraw s c k < 2268 := by
  have := s.isLt
  unfold boardDraw
  cases c <;> cases k <;> simp only [colorNo, kindNo] <;> omega

theorem handDraw_lt (c : Color) {k : PieceKind} (hk : k.isHandPiece = true) {n : Nat}
    (hn : n < 18) : 2268 ≤ handDraw c k n ∧ handDraw c k n < 2520 := by
  unfold handDraw
  cases c <;> cases k <;> simp only [colorNo, kindNo] <;>
    first | omega | (simp [PieceKind.isHandPiece] at hk)

theorem half_board (oc : Bool) (s : Square) (p : Piece) :
    ((stdEnv oc).zobBoard s p).toNat >>> 1 = half (boardDraw s p.color p.kind) := by
  have := boardDraw_lt s p.color p.kind
  rw [Env.zobBoard, half_mask, stdEnv, ofRng_board, draw_lit (by omega), half]

theorem half_hand (oc : Bool) (c : Color) {k : PieceKind} (hk : k.isHandPiece = true) {n : Nat}
    (hn : n < 18) :
    ((stdEnv oc).handTbl c k n).toNat >>> 1 = half (handDraw c k n) := by
  have := handDraw_lt c hk hn
  rw [Env.handTbl, Env.zobHand, if_pos (show n < maxHandNum from hn), if_pos hk, Option.getD_some, half_mask, stdEnv,
    ofRng_hand _ _ _ _ _ hk _ hn, draw_lit (by omega), half]

/-! ## Values of places -/

/-- Number of the contents of a square. -/
def codeOf : Option Piece → Nat
  | some p => 14 * colorNo p.color + kindNo p.kind
  | none => 28

theorem codeOf_inj {v v' : Option Piece} (h : codeOf v = codeOf v') : v = v' := by
  cases v with
  | none =>
    cases v' with
    | none => rfl
    | some p => obtain ⟨k, c⟩ := p; cases k <;> cases c <;> simp [codeOf, colorNo, kindNo] at h
  | some p =>
    obtain ⟨k, c⟩ := p
    cases v' with
    | none => cases k <;> cases c <;> simp [codeOf, colorNo, kindNo] at h
    | some p' =>
      obtain ⟨k', c'⟩ := p'
      revert h
      cases k <;> cases c <;> cases k' <;> cases c' <;>
        first | (intro _; rfl) | (intro h; simp [codeOf, colorNo, kindNo] at h)

theorem codeOf_lt (v : Option Piece) : codeOf v < 29 := by
  cases v with
  | none => simp [codeOf]
  | some p => obtain ⟨k, c⟩ := p; cases k <;> cases c <;> simp [codeOf, colorNo, kindNo]

theorem lane_code (oc : Bool) (s : Square) (v : Option Piece) :
    lane 64 (colLit (codeOf v)) s.val = (sqHash (stdEnv oc).zobBoard s v).toNat >>> 1 := by
  cases v with
  | none => simp [codeOf, colLit, sqHash, lane_zero]
  | some p =>
    have hne : codeOf (some p) ≠ 28 := by
      intro h
      have := codeOf_inj (v := some p) (v' := none) h
      cases this
    rw [lane_colLit hne, sqHash, half_board, boardDraw, codeOf]
    congr 1
    omega

theorem half_xor (a b : BitVec 64) : (a ^^^ b).toNat >>> 1 = (a.toNat >>> 1) ^^^ (b.toNat >>> 1) := by
  rw [BitVec.toNat_xor, Nat.shiftRight_xor_distrib]

theorem lane_count (oc : Bool) (c : Color) {k : PieceKind} (hk : k.isHandPiece = true) (n : Nat)
    (hn : n ≤ 18) :
    lane 64 (handLit n) (7 * colorNo c + kindNo k) =
      (cntHash (stdEnv oc).handTbl c k n).toNat >>> 1 := by
  induction n with
  | zero => simp [handLit, lane_zero, cntHash, xorAll]
  | succ n ih =>
    have hlt : 7 * colorNo c + kindNo k < 14 := by
      cases c <;> cases k <;> simp only [colorNo, kindNo] <;>
        first | omega | (simp [PieceKind.isHandPiece] at hk)
    rw [lane_handLit_succ _ _ hlt, ih (by omega), cntHash_succ, half_xor, half_hand oc c hk (by omega),
      handDraw, Nat.mul_comm 18]

/-- What a position holds at a place, as a table value without its lowest bit. -/
def pval (oc : Bool) (P : Pos) : Place → Nat
  | .square s => (sqHash (stdEnv oc).zobBoard s (P.board s)).toNat >>> 1
  | .hand c k => (cntHash (stdEnv oc).handTbl c k (P.hand c k)).toNat >>> 1

/-- The hands hold at most 18 pieces of a kind, and only kinds that can be in hand. -/
def HandsFit (P : Pos) : Prop := ∀ c k, P.hand c k ≤ 18 ∧ (P.hand c k ≠ 0 → k.isHandPiece = true)

/-- The block and lane of the difference of two positions at a place. -/
theorem delta_mem {P Q : Pos} (hP : HandsFit P) (hQ : HandsFit Q) (oc oc' : Bool) {x : Place}
    (hx : Differ P Q x) : ∃ key ∈ dkeys, ∃ i, i < (dblock key).1 ∧
      lane 64 (dblock key).2 i = pval oc P x ^^^ pval oc' Q x ∧
      (match x with
       | .square s => (∃ ab, key = .board ab) ∧ i = s.val
       | .hand c k => (∃ ab, key = .hand ab) ∧ i = 7 * colorNo c + kindNo k ∧
          k.isHandPiece = true) := by
  cases x with
  | square s =>
    have hne : codeOf (P.board s) ≠ codeOf (Q.board s) := fun h => hx (codeOf_inj h)
    have h1 := codeOf_lt (P.board s)
    have h2 := codeOf_lt (Q.board s)
    have l1 := lane_code oc s (P.board s)
    have l2 := lane_code oc' s (Q.board s)
    rcases Nat.lt_or_gt_of_ne hne with h | h
    · refine ⟨.board (codeOf (P.board s), codeOf (Q.board s)), ?_, s.val, s.isLt, ?_, ⟨_, rfl⟩, rfl⟩
      · simp only [dkeys, List.mem_cons, List.mem_append, List.mem_map]
        exact .inr (.inl ⟨_, mem_below.2 ⟨h, h2⟩, rfl⟩)
      · simp only [dblock, lane_xor, l1, l2, pval]
    · refine ⟨.board (codeOf (Q.board s), codeOf (P.board s)), ?_, s.val, s.isLt, ?_, ⟨_, rfl⟩, rfl⟩
      · simp only [dkeys, List.mem_cons, List.mem_append, List.mem_map]
        exact .inr (.inl ⟨_, mem_below.2 ⟨h, h1⟩, rfl⟩)
      · simp only [dblock, lane_xor, l1, l2, pval]
        rw [Nat.xor_comm]
  | hand c k =>
    have hne : P.hand c k ≠ Q.hand c k := hx
    have hk : k.isHandPiece = true := by
      rcases Nat.eq_zero_or_pos (P.hand c k) with h | h
      · exact (hQ c k).2 (by omega)
      · exact (hP c k).2 (by omega)
    have hlt : 7 * colorNo c + kindNo k < 14 := by
      cases c <;> cases k <;> simp only [colorNo, kindNo] <;>
        first | omega | (simp [PieceKind.isHandPiece] at hk)
    have h1 := (hP c k).1
    have h2 := (hQ c k).1
    have l1 := lane_count oc c hk _ h1
    have l2 := lane_count oc' c hk _ h2
    rcases Nat.lt_or_gt_of_ne hne with h | h
    · refine ⟨.hand (P.hand c k, Q.hand c k), ?_, _, hlt, ?_, ⟨_, rfl⟩, rfl, hk⟩
      · simp only [dkeys, List.mem_cons, List.mem_append, List.mem_map]
        exact .inr (.inr ⟨_, mem_below.2 ⟨h, by omega⟩, rfl⟩)
      · simp only [dblock, lane_xor, l1, l2, pval]
    · refine ⟨.hand (Q.hand c k, P.hand c k), ?_, _, hlt, ?_, ⟨_, rfl⟩, rfl, hk⟩
      · simp only [dkeys, List.mem_cons, List.mem_append, List.mem_map]
        exact .inr (.inr ⟨_, mem_below.2 ⟨h, by omega⟩, rfl⟩)
      · simp only [dblock, lane_xor, l1, l2, pval]
        rw [Nat.xor_comm]

theorem delta_ne_zero {P Q : Pos} (hP : HandsFit P) (hQ : HandsFit Q) (oc oc' : Bool) {x : Place}
    (hx : Differ P Q x) : pval oc P x ^^^ pval oc' Q x ≠ 0 := by
  obtain ⟨key, hkey, i, hi, hl, hm⟩ := delta_mem hP hQ oc oc' hx
  intro h0
  have h1 : (0 : Nat) ∈ den 64 (dblock key) := by
    rw [← h0, ← hl]; exact mem_den hi
  have h2 : (0 : Nat) ∈ den 64 (dblock .zero) := by decide
  have := part_unique dkeys_nodup hkey List.mem_cons_self h1 h2
  subst this
  cases x with
  | square s => obtain ⟨⟨_, h⟩, _⟩ := hm; cases h
  | hand c k => obtain ⟨⟨_, h⟩, _⟩ := hm; cases h

theorem delta_inj {P Q P' Q' : Pos} (hP : HandsFit P) (hQ : HandsFit Q) (hP' : HandsFit P')
    (hQ' : HandsFit Q') (oc oc' od od' : Bool) {x y : Place} (hx : Differ P Q x)
    (hy : Differ P' Q' y)
    (h : pval oc P x ^^^ pval oc' Q x = pval od P' y ^^^ pval od' Q' y) : x = y := by
  obtain ⟨key, hkey, i, hi, hl, hm⟩ := delta_mem hP hQ oc oc' hx
  obtain ⟨key', hkey', i', hi', hl', hm'⟩ := delta_mem hP' hQ' od od' hy
  have h1 := mem_den (w := 64) hi
  have h2 := mem_den (w := 64) hi'
  rw [hl, h, ← hl'] at h1
  have := part_unique dkeys_nodup hkey hkey' h1 h2
  subst this
  have hii := lane_inj (part_nodup dkeys_nodup hkey) hi hi' (by rw [hl, hl', h])
  subst hii
  cases x with
  | square s =>
    obtain ⟨⟨_, h⟩, e⟩ := hm
    subst h
    cases y with
    | square t =>
      obtain ⟨_, e'⟩ := hm'
      rw [Fin.ext (e.symm.trans e')]
    | hand c k => obtain ⟨⟨_, h⟩, _⟩ := hm'; cases h
  | hand c k =>
    obtain ⟨⟨_, h⟩, e, hk⟩ := hm
    subst h
    cases y with
    | square t => obtain ⟨⟨_, h⟩, _⟩ := hm'; cases h
    | hand c' k' =>
      obtain ⟨_, e', hk'⟩ := hm'
      rw [e] at e'
      revert e' hk hk'
      cases c <;> cases k <;> cases c' <;> cases k' <;> simp [colorNo, kindNo, PieceKind.isHandPiece]

end Yasai.Proofs

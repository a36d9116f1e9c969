import Verif.Model.Iter
import Verif.Props.InContract

/-!
# C79: the square iterator, call by call
-/

namespace Yasai

namespace SquareIterator

/-- The numbers that the iterator still has to hand to `from_u8_unchecked`. -/
def rest (it : SquareIterator) : List Nat :=
  (popAll 64 it.lane0).map (· + 1) ++ (popAll 64 it.lane1).map (· + 64)

end SquareIterator

theorem filter_bits_length (x : BitVec 64) :
    ((List.range 64).filter (fun i => x.getLsbD i)).length ≤ 64 := by
  have := List.length_filter_le (fun i => x.getLsbD i) (List.range 64)
  simpa using this

theorem popAll_cons {x : BitVec 64} (h : x ≠ 0#64) :
    popAll 64 x = trailingZeros x :: popAll 64 (x &&& (x - 1#64)) := by
  have e1 : popAll 64 x = trailingZeros x :: popAll 63 (x &&& (x - 1#64)) := by
    rw [popAll, if_neg h]
  have e2 : popAll 65 x = trailingZeros x :: popAll 64 (x &&& (x - 1#64)) := by
    rw [popAll, if_neg h]
  rw [← e2, popAll_eq 64 x (filter_bits_length x),
    popAll_eq 65 x (Nat.le_trans (filter_bits_length x) (by omega))]

theorem trailingZeros_lt {x : BitVec 64} (h : x ≠ 0#64) : trailingZeros x < 64 :=
  (mem_popAll (x := x) (by rw [popAll_cons h]; exact List.mem_cons_self)).1

theorem addU8_ok (oc : Bool) {n k : Nat} (h : n + k < 256) :
    SquareIterator.addU8 oc (BitVec.ofNat 8 n) (BitVec.ofNat 8 k) = .ok (BitVec.ofNat 8 (n + k)) := by
  unfold SquareIterator.addU8
  have e1 : (BitVec.ofNat 8 n).toNat = n := by simp; omega
  have e2 : (BitVec.ofNat 8 k).toNat = k := by simp; omega
  rw [if_neg (by rw [e1, e2]; omega), BitVec.ofNat_add]

theorem next_spec (oc : Bool) (it : SquareIterator) :
    (it.rest = [] ∧ it.next oc = .ok (none, it)) ∨
    ∃ n it', it.rest = n :: it'.rest ∧
      it.next oc = (fromU8UncheckedC n).bind fun s => .ok (some s, it') := by
  obtain ⟨a, b⟩ := it
  unfold SquareIterator.next SquareIterator.rest
  by_cases ha : a = 0#64
  · by_cases hb : b = 0#64
    · left
      subst ha; subst hb
      exact ⟨by decide +kernel, rfl⟩
    · right
      have hlt := trailingZeros_lt hb
      have e0 : popAll 64 (0#64) = [] := by decide +kernel
      refine ⟨trailingZeros b + 64, ⟨a, b &&& (b - 1#64)⟩, ?_, ?_⟩
      · subst ha
        simp only [e0, popAll_cons hb]; rfl
      · simp only [ne_eq, ha, not_true, if_false, hb, not_false_eq_true, if_true]
        show ((SquareIterator.addU8 oc (BitVec.ofNat 8 (trailingZeros b)) (BitVec.ofNat 8 64)).bind _) = _
        rw [addU8_ok oc (by omega)]
        have : (BitVec.ofNat 8 (trailingZeros b + 64)).toNat = trailingZeros b + 64 := by simp; omega
        show ((fromU8UncheckedC (BitVec.ofNat 8 (trailingZeros b + 64)).toNat).bind _) = _
        rw [this]; rfl
  · right
    have hlt := trailingZeros_lt ha
    refine ⟨trailingZeros a + 1, ⟨a &&& (a - 1#64), b⟩, ?_, ?_⟩
    · simp only [popAll_cons ha]; rfl
    · simp only [ne_eq, ha, not_false_eq_true, if_true]
      show ((SquareIterator.addU8 oc (BitVec.ofNat 8 (trailingZeros a)) (BitVec.ofNat 8 1)).bind _) = _
      rw [addU8_ok oc (by omega)]
      have : (BitVec.ofNat 8 (trailingZeros a + 1)).toNat = trailingZeros a + 1 := by simp; omega
      show ((fromU8UncheckedC (BitVec.ofNat 8 (trailingZeros a + 1)).toNat).bind _) = _
      rw [this]; rfl

theorem loop_rest (oc : Bool) (n : Nat) (it : SquareIterator) (h : it.rest.length < n) :
    it.loop oc n = it.rest.mapM fromU8UncheckedC := by
  induction n generalizing it with
  | zero => omega
  | succ n ih =>
    obtain ⟨h0, e⟩ | ⟨k, it', h0, e⟩ := next_spec oc it
    · rw [SquareIterator.loop, e, h0]; rfl
    · rw [SquareIterator.loop, e, h0, List.mapM_cons]
      rw [h0] at h
      cases fromU8UncheckedC k with
      | ok s =>
        show (it'.loop oc n >>= fun l => pure (s :: l)) = _
        rw [ih it' (by simp only [List.length_cons] at h; omega)]; rfl
      | panic => rfl
      | broken => rfl

theorem rest_ofBB (b : BB) : (SquareIterator.ofBB b).rest.mapM fromU8UncheckedC = simdIterC b := by
  unfold SquareIterator.rest SquareIterator.ofBB simdIterC
  have hm : ∀ (l : List Nat) (k : Nat),
      (l.map (· + k)).mapM fromU8UncheckedC = l.mapM fun n => fromU8UncheckedC (n + k) := by
    intro l k
    rw [List.mapM_map]; rfl
  rw [List.mapM_append, hm, hm]

theorem rest_length (it : SquareIterator) : it.rest.length ≤ 128 := by
  have h0 := filter_bits_length it.lane0
  have h1 := filter_bits_length it.lane1
  unfold SquareIterator.rest
  rw [popAll_eq _ _ h0, popAll_eq _ _ h1, List.length_append, List.length_map, List.length_map]
  omega

theorem calls_rest (oc : Bool) (n : Nat) (it : SquareIterator) (l : List Square)
    (h : it.rest.mapM fromU8UncheckedC = .ok l) :
    it.calls oc n = .ok ((List.range n).map fun k => l[k]?) := by
  induction n generalizing it l with
  | zero => rfl
  | succ n ih =>
    rw [List.range_succ_eq_map, List.map_cons, List.map_map]
    obtain ⟨h0, e⟩ | ⟨k, it', h0, e⟩ := next_spec oc it
    · rw [SquareIterator.calls, e]
      have hl : l = [] := by rw [h0] at h; cases h; rfl
      subst hl
      show (it.calls oc n >>= fun l => pure (none :: l)) = _
      rw [ih it [] h]; rfl
    · rw [SquareIterator.calls, e]
      rw [h0, List.mapM_cons] at h
      cases hk : fromU8UncheckedC k with
      | ok s =>
        rw [hk] at h
        cases hr : it'.rest.mapM fromU8UncheckedC with
        | ok l' =>
          rw [hr] at h
          cases h
          show (it'.calls oc n >>= fun l => pure (some s :: l)) = _
          rw [ih it' l' hr]; rfl
        | panic => rw [hr] at h; cases h
        | broken => rw [hr] at h; cases h
      | panic => rw [hk] at h; cases h
      | broken => rw [hk] at h; cases h

namespace Props

/-- C79.  A whole loop over a bitboard of a SIMD build is what the model takes it for, for every
128-bit word, squares or not, with and without overflow checks: it ends after at most 129 calls, the
additions do not overflow, and it leaves the contract exactly when the checked model says so. -/
theorem C79_whole_loop (oc : Bool) (b : BB) (n : Nat) (hn : 129 ≤ n) :
    (SquareIterator.ofBB b).loop oc n = simdIterC b := by
  rw [loop_rest oc n _ (Nat.lt_of_le_of_lt (rest_length _) (by omega)), rest_ofBB]

/-- C79.  A loop that is left early makes no call that the whole loop does not make: if the whole loop
stays within the contract and visits `l`, then any number of calls stay within it, and the `k`-th call
gives the `k`-th element of `l`, and `None` from its end on. -/
theorem C79_early_exit (oc : Bool) (b : BB) (l : List Square) (h : simdIterC b = .ok l) (n : Nat) :
    (SquareIterator.ofBB b).calls oc n = .ok ((List.range n).map fun k => l[k]?) :=
  calls_rest oc n _ l (by rw [rest_ofBB, h])

/-- C79.  On the bitboards of the SIMD builds, call after call of `next` gives the squares of the set
in ascending order, each once, and then `None` for ever. -/
theorem C79_next (oc : Bool) (i : Fin 4) (_ : i ≠ 0) (J : Junk) {b : BB} (hb : Built (buildAt i J) b)
    (n : Nat) : (SquareIterator.ofBB b).calls oc n =
      .ok ((List.range n).map fun k => (Square.all.filter ((buildAt i J).contains b))[k]?) := by
  have L := lawful_of_mem (buildAt_mem i J)
  have hok := hb.ok L
  refine C79_early_exit oc b _ ?_ n
  have h := (simdIter_sim J b).resolve_right fun h => h.2 hok
  rw [h, simdIter_eq J b hok]
  have : (buildAt i J).contains b = mem b := funext fun s => L.contains b s
  rw [this]; rfl

/-! ## Concrete cases -/

/-- Squares 1A and 8A (the first of the second lane): two squares, then `None`. -/
example : (SquareIterator.ofBB (1#128 ||| (1#128 <<< 64))).calls true 4 =
    .ok [some 0, some 63, none, none] := by decide +kernel

/-- A stray bit shows at the call that reaches it, not before. -/
example : (SquareIterator.ofBB (1#128 ||| (1#128 <<< 90))).calls true 1 = .ok [some 0] ∧
    (SquareIterator.ofBB (1#128 ||| (1#128 <<< 90))).calls true 2 = .broken := by decide +kernel

/-- The hypotheses of `C79_next` are met by a set that is not empty and not everything. -/
example (J : Junk) : Built (buildAt 1 J) ((buildAt 1 J).not ((buildAt 1 J).single 40)) :=
  .not (.single 40)

end Props

end Yasai

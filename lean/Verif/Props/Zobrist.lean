import Verif.Proofs.Separate
import Verif.Props.MovePanic
import Verif.Props.Keys

/-!
# C56, C57: the concrete Zobrist table
-/

namespace Yasai.Props

open Yasai Spec Proofs Lanes

/-! ## C56: the table -/

/-- C56, for every generator: each entry of the table is a number of its own from the generator, in the
order of the loops, with the lowest bit cleared. -/
theorem C56_entries_are_draws {σ : Type} (next : σ → BitVec 64 × σ) (r : σ) (oc : Bool) :
    (∀ s p, (Env.ofRng next r oc).zobBoard s p =
      draws next r (boardDraw s p.color p.kind) &&& ~~~1#64) ∧
    (∀ c k n, handKind k = true → n < 18 → (Env.ofRng next r oc).zobHand c k n =
      some (draws next r (handDraw c k n) &&& ~~~1#64)) := by
  refine ⟨fun s p => ?_, fun c k n hk hn => ?_⟩
  · rw [Env.zobBoard, ofRng_board]; rfl
  · rw [handKind_eq] at hk
    rw [Env.zobHand, if_pos (show n < maxHandNum from hn), if_pos hk, ofRng_hand _ _ _ _ _ hk _ hn]
    rfl

/-- C56: the first 2520 numbers are used, each exactly once. -/
theorem C56_each_draw_once :
    (∀ s c k, boardDraw s c k < 2520) ∧
    (∀ c k n, handKind k = true → n < 18 → handDraw c k n < 2520) ∧
    (∀ n, n < 2520 → (∃ s c k, boardDraw s c k = n) ∨
      ∃ c k i, handKind k = true ∧ i < 18 ∧ handDraw c k i = n) ∧
    (∀ s c k s' c' k', boardDraw s c k = boardDraw s' c' k' → s = s' ∧ c = c' ∧ k = k') ∧
    (∀ c k n c' k' n', handKind k = true → handKind k' = true → n < 18 → n' < 18 →
      handDraw c k n = handDraw c' k' n' → c = c' ∧ k = k' ∧ n = n') ∧
    (∀ s c k c' k' n, handKind k' = true → n < 18 → boardDraw s c k ≠ handDraw c' k' n) := by
  refine ⟨fun s c k => ?_, fun c k n hk hn => (handDraw_lt c hk hn).2, fun n hn => ?_,
    fun s c k s' c' k' h => ?_, fun c k n c' k' n' hk hk' hn hn' h => ?_,
    fun s c k c' k' n hk hn h => ?_⟩
  · have := boardDraw_lt s c k; omega
  · by_cases h : n < 2268
    · have : n ∈ boardSlots.map boardIx := by rw [boardSlots_ix]; exact List.mem_range.2 h
      obtain ⟨⟨s, c, k⟩, _, he⟩ := List.mem_map.1 this
      exact .inl ⟨s, c, k, he⟩
    · have : n ∈ handSlots.map handIx := by
        rw [handSlots_ix, List.mem_range'_1]; omega
      obtain ⟨⟨c, k, i⟩, hm, he⟩ := List.mem_map.1 this
      simp only [handSlots, List.mem_flatMap, List.mem_map, List.mem_range, Prod.mk.injEq] at hm
      obtain ⟨c', _, k', hk', i', hi', rfl, rfl, rfl⟩ := hm
      refine .inr ⟨c', k', i', ?_, hi', he⟩
      revert hk'
      cases k' <;> decide
  · have a := boardSlots_get s c k
    rw [h, boardSlots_get s' c' k'] at a
    cases a
    exact ⟨rfl, rfl, rfl⟩
  · obtain ⟨i, hi, a⟩ := handSlots_get c k hk n hn
    obtain ⟨i', hi', a'⟩ := handSlots_get c' k' hk' n' hn'
    have : i = i' := by omega
    rw [this, a'] at a
    cases a
    exact ⟨rfl, rfl, rfl⟩
  · have := boardDraw_lt s c k
    have := (handDraw_lt c' hk hn).1
    omega

theorem dkeys_inj {x y : DKey} (hx : x ∈ dkeys) (hy : y ∈ dkeys) {i j : Nat}
    (hi : i < (dblock x).1) (hj : j < (dblock y).1)
    (h : lane 64 (dblock x).2 i = lane 64 (dblock y).2 j) : x = y ∧ i = j := by
  have h1 := mem_den (w := 64) hi
  have h2 := mem_den (w := 64) hj
  rw [h] at h1
  have e := part_unique dkeys_nodup hx hy h1 h2
  subst e
  exact ⟨rfl, lane_inj (part_nodup dkeys_nodup hx) hi hj h⟩

theorem codeOf_some_lt (p : Piece) : codeOf (some p) < 28 := by
  obtain ⟨k, c⟩ := p; cases k <;> cases c <;> simp [codeOf, colorNo, kindNo]

theorem board_key (oc : Bool) (s : Square) (p : Piece) :
    DKey.board (codeOf (some p), 28) ∈ dkeys ∧
      lane 64 (dblock (.board (codeOf (some p), 28))).2 s.val =
        ((stdEnv oc).zobBoard s p).toNat >>> 1 := by
  constructor
  · simp only [dkeys, List.mem_cons, List.mem_append, List.mem_map]
    exact .inr (.inl ⟨_, mem_below.2 ⟨codeOf_some_lt p, by omega⟩, rfl⟩)
  · have h1 := lane_code oc s (some p)
    have h2 := lane_code oc s none
    simp only [dblock, lane_xor, h1]
    simp only [codeOf, sqHash, BitVec.toNat_ofNat, Nat.zero_mod, Nat.zero_shiftRight] at h2
    rw [h2, Nat.xor_zero, sqHash]

theorem hand_key (oc : Bool) (c : Color) (k : PieceKind) (hk : k.isHandPiece = true) (n : Nat)
    (hn : n < 18) : DKey.hand (n, n + 1) ∈ dkeys ∧ 7 * colorNo c + kindNo k < 14 ∧
      lane 64 (dblock (.hand (n, n + 1))).2 (7 * colorNo c + kindNo k) =
        ((stdEnv oc).handTbl c k n).toNat >>> 1 := by
  have hlt : 7 * colorNo c + kindNo k < 14 := by
    cases c <;> cases k <;> simp only [colorNo, kindNo] <;>
      first | omega | (simp [PieceKind.isHandPiece] at hk)
  refine ⟨?_, hlt, ?_⟩
  · simp only [dkeys, List.mem_cons, List.mem_append, List.mem_map]
    exact .inr (.inr ⟨_, mem_below.2 ⟨by omega, by omega⟩, rfl⟩)
  · simp only [dblock, lane_xor]
    rw [lane_handLit_succ _ _ hlt, ← Nat.xor_assoc, Nat.xor_self, Nat.zero_xor, half_hand oc c hk hn,
      handDraw, Nat.mul_comm 18]

theorem handNo_inj {c c' : Color} {k k' : PieceKind} (hk : k.isHandPiece = true)
    (hk' : k'.isHandPiece = true) (h : 7 * colorNo c + kindNo k = 7 * colorNo c' + kindNo k') :
    c = c' ∧ k = k' := by
  revert h hk hk'
  cases c <;> cases k <;> cases c' <;> cases k' <;> simp [colorNo, kindNo, PieceKind.isHandPiece]

/-- C56, for the generator of the code: every entry is even and not zero, and no two entries are equal. -/
theorem C56_std_entries_distinct (oc : Bool) :
    (∀ s p, ((stdEnv oc).zobBoard s p).toNat % 2 = 0 ∧ (stdEnv oc).zobBoard s p ≠ 0#64) ∧
    (∀ s p s' p', (stdEnv oc).zobBoard s p = (stdEnv oc).zobBoard s' p' → s = s' ∧ p = p') ∧
    (∀ c k n, handKind k = true → n < 18 → ∃ z, (stdEnv oc).zobHand c k n = some z ∧
      z.toNat % 2 = 0 ∧ z ≠ 0#64 ∧
      (∀ s p, z ≠ (stdEnv oc).zobBoard s p) ∧
      ∀ c' k' n', handKind k' = true → n' < 18 → (stdEnv oc).zobHand c' k' n' = some z →
        c = c' ∧ k = k' ∧ n = n') := by
  have z0 : DKey.zero ∈ dkeys := List.mem_cons_self
  have zl : lane 64 (dblock .zero).2 0 = (0#64).toNat >>> 1 := by decide
  have par : ∀ x : BitVec 64, x.getLsbD 0 = false → x.toNat % 2 = 0 := by
    intro x h
    rw [BitVec.getLsbD, Nat.testBit_zero] at h
    rcases Nat.mod_two_eq_zero_or_one x.toNat with h' | h'
    · exact h'
    · simp [h'] at h
  refine ⟨fun s p => ⟨par _ (lsb_zobBoard _ s p), fun h => ?_⟩, fun s p s' p' h => ?_,
    fun c k n hk hn => ?_⟩
  · obtain ⟨h1, h2⟩ := board_key oc s p
    rw [h, ← zl] at h2
    cases (dkeys_inj h1 z0 s.isLt (by decide) h2).1
  · obtain ⟨h1, h2⟩ := board_key oc s p
    obtain ⟨h1', h2'⟩ := board_key oc s' p'
    rw [h, ← h2'] at h2
    obtain ⟨e, e'⟩ := dkeys_inj h1 h1' s.isLt s'.isLt h2
    simp only [DKey.board.injEq, Prod.mk.injEq, and_true] at e
    exact ⟨Fin.ext e', Option.some.inj (codeOf_inj e)⟩
  · have hz : ∀ c' k' n', k'.isHandPiece = true → n' < 18 → (stdEnv oc).zobHand c' k' n' =
        some ((stdEnv oc).handTbl c' k' n') := by
      intro c' k' n' hk' hn'
      rw [Env.handTbl, Env.zobHand, if_pos (show n' < maxHandNum from hn'), if_pos hk']
      rfl
    obtain ⟨h1, hi, h2⟩ := hand_key oc c k hk n hn
    refine ⟨_, hz c k n hk hn, par _ (lsb_handTbl _ c k n), fun h => ?_, fun s p h => ?_,
      fun c' k' n' hk' hn' h => ?_⟩
    · rw [h, ← zl] at h2
      cases (dkeys_inj h1 z0 hi (by decide) h2).1
    · obtain ⟨h1', h2'⟩ := board_key oc s p
      rw [h, ← h2'] at h2
      cases (dkeys_inj h1 h1' hi s.isLt h2).1
    · rw [hz c' k' n' hk' hn'] at h
      obtain ⟨h1', hi', h2'⟩ := hand_key oc c' k' hk' n' hn'
      rw [← Option.some.inj h, ← h2'] at h2
      obtain ⟨e, e'⟩ := dkeys_inj h1 h1' hi hi' h2
      simp only [DKey.hand.injEq, Prod.mk.injEq] at e
      have hck := handNo_inj hk hk' e'
      exact ⟨hck.1, hck.2, e.1⟩

/-! ## C57: positions that differ at one or two places -/

/-- All places that matter. -/
def places : List Place := Square.all.map .square ++ handPairs.map fun p => .hand p.1 p.2

theorem places_nodup : places.Nodup := by decide +kernel

theorem mem_places {P Q : Pos} (hP : HandsFit P) (hQ : HandsFit Q) {x : Place}
    (h : Differ P Q x) : x ∈ places := by
  unfold places
  rw [List.mem_append, List.mem_map, List.mem_map]
  cases x with
  | square s => exact .inl ⟨s, mem_all s, rfl⟩
  | hand c k =>
    refine .inr ⟨(c, k), mem_handPairs.2 ?_, rfl⟩
    have hne : P.hand c k ≠ Q.hand c k := h
    rcases Nat.eq_zero_or_pos (P.hand c k) with h | h
    · exact (hQ c k).2 (by omega)
    · exact (hP c k).2 (by omega)

/-- What a position holds at a place, as a table value. -/
def bval (oc : Bool) (P : Pos) : Place → BitVec 64
  | .square s => sqHash (stdEnv oc).zobBoard s (P.board s)
  | .hand c k => cntHash (stdEnv oc).handTbl c k (P.hand c k)

theorem bval_half (oc : Bool) (P : Pos) (x : Place) : (bval oc P x).toNat >>> 1 = pval oc P x := by
  cases x <;> rfl

theorem bval_same {oc : Bool} {P Q : Pos} {x : Place} (h : ¬ Differ P Q x) :
    bval oc P x = bval oc Q x := by
  cases x with
  | square s => simp only [bval]; rw [Classical.not_not.1 h]
  | hand c k => simp only [bval]; rw [Classical.not_not.1 h]

/-- The hash of board and hands together. -/
def total (oc : Bool) (P : Pos) : BitVec 64 := xorAll (places.map (bval oc P))

theorem total_eq (oc : Bool) (P : Pos) :
    total oc P = boardHash (stdEnv oc).zobBoard P.board ^^^ handHash (stdEnv oc).handTbl P.hand := by
  unfold total places
  rw [List.map_append, xorAll_append, List.map_map, List.map_map, handHash_eq]
  rfl

theorem total_ne {P Q : Pos} (hP : HandsFit P) (hQ : HandsFit Q) (oc : Bool)
    (hd : DifferAtOneOrTwo P Q) : (total oc P).toNat >>> 1 ≠ (total oc Q).toNat >>> 1 := by
  obtain ⟨⟨x, hx⟩, a, b, hab⟩ := hd
  -- the places where the positions differ are `x` and perhaps `y`
  have hy : ∃ y, ∀ z, Differ P Q z → z = x ∨ z = y := by
    rcases hab x hx with rfl | rfl
    · exact ⟨b, hab⟩
    · exact ⟨a, fun z hz => (hab z hz).symm⟩
  obtain ⟨y, hy⟩ := hy
  let R : Place → BitVec 64 := fun z => if z = x then bval oc Q z else bval oc P z
  have e1 : xorAll (places.map R) = total oc P ^^^ bval oc P x ^^^ bval oc Q x := by
    have := xorAll_update (f := bval oc P) (g := R) places_nodup (mem_places hP hQ hx)
      (fun z _ hz => if_neg hz)
    rw [this]
    simp only [R, if_true]
    rfl
  intro heq
  by_cases hyd : Differ P Q y ∧ y ≠ x
  · have e2 : total oc Q = xorAll (places.map R) ^^^ bval oc P y ^^^ bval oc Q y := by
      have := xorAll_update (f := R) (g := bval oc Q) places_nodup (mem_places hP hQ hyd.1)
        (fun z _ hz => by
          by_cases hzx : z = x
          · simp only [R, if_pos hzx]
          · simp only [R, if_neg hzx]
            refine (bval_same fun h => ?_).symm
            rcases hy z h with h | h
            · exact hzx h
            · exact hz h)
      rw [total, this]
      simp only [R, if_neg hyd.2]
    rw [e2, e1] at heq
    simp only [half_xor, bval_half] at heq
    refine hyd.2 (delta_inj hP hQ hP hQ oc oc oc oc hyd.1 hx ?_)
    generalize (total oc P).toNat >>> 1 = t at heq
    generalize pval oc P x = u at heq
    generalize pval oc Q x = v at heq
    generalize pval oc P y = u' at heq
    generalize pval oc Q y = v' at heq
    have h0 : (u' ^^^ v') ^^^ (u ^^^ v) = 0 := by
      have h := congrArg (t ^^^ ·) heq
      simp only [Nat.xor_self] at h
      rw [h]
      apply Nat.eq_of_testBit_eq
      intro i
      simp only [Nat.testBit_xor]
      cases t.testBit i <;> cases u.testBit i <;> cases v.testBit i <;> cases u'.testBit i <;>
        cases v'.testBit i <;> rfl
    have h := congrArg (· ^^^ (u ^^^ v)) h0
    simpa [Nat.xor_assoc] using h
  · have e2 : total oc Q = xorAll (places.map R) := by
      refine (xorAll_congr fun z _ => ?_).symm
      by_cases hzx : z = x
      · simp only [R, if_pos hzx]
      · simp only [R, if_neg hzx]
        refine bval_same fun h => hyd ?_
        rcases hy z h with h' | h'
        · exact absurd h' hzx
        · exact ⟨h' ▸ h, h' ▸ hzx⟩
    rw [e2, e1] at heq
    simp only [half_xor, bval_half] at heq
    refine delta_ne_zero hP hQ oc oc hx ?_
    have h := congrArg ((total oc P).toNat >>> 1 ^^^ ·) heq
    simp only [Nat.xor_self] at h
    rw [Nat.xor_assoc, ← Nat.xor_assoc, Nat.xor_self, Nat.zero_xor] at h
    exact h.symm

theorem visited_fit {E : Env} {K : Backend} (hK : K ∈ backends) {pp : CorePartialPosition}
    {ms : List Move} {p : Position} (h : Visited E K pp ms p) : HandsFit (view p) := by
  have hc := h.callable hK
  intro c k
  by_cases hk : k.isHandPiece = true
  · have := hc.hands c k hk
    refine ⟨?_, fun _ => hk⟩
    simp only [view, Hand.count, hk, if_true, Option.getD_some]
    exact this
  · have : (view p).hand c k = 0 := by
      simp only [view, Hand.count, if_neg hk, Option.getD_none]
    rw [this]
    exact ⟨by omega, fun h => absurd rfl h⟩

theorem key_visited {oc : Bool} {K : Backend} (hK : K ∈ backends) {pp : CorePartialPosition}
    {ms : List Move} {p : Position} (h : Visited (stdEnv oc) K pp ms p) :
    ∃ a b, p.keys = some (a, b) ∧ p.key = some (a ^^^ b) ∧
      a.toNat >>> 1 = (boardHash (stdEnv false).zobBoard (view p).board).toNat >>> 1 ∧
      b = handHash (stdEnv false).handTbl (view p).hand := by
  obtain ⟨p0, h0, hs⟩ := h
  have hk := C17_incremental_hash _ K hK pp p0 p ms h0 hs
  refine ⟨_, _, hk, ?_, ?_, rfl⟩
  · obtain ⟨a, b, h1, h2, _⟩ := C20_key_parity _ K hK pp p0 p ms h0 hs
    rw [hk] at h1
    cases h1
    exact h2
  · have h1 : (if ms.length % 2 = 1 then 1#64 else 0#64 : BitVec 64).toNat >>> 1 = 0 := by
      split <;> rfl
    rw [half_xor, h1, Nat.xor_zero]
    rfl

/-- C57.  With the table of the code, two positions that differ at one place or at two places (a place
is a square or the number of pieces of one kind in one hand) never have the same `key()`, whatever
their histories and even when the bit for the side to move is ignored. -/
theorem C57_key_separates (oc oc' : Bool) (K K' : Backend) (hK : K ∈ backends)
    (hK' : K' ∈ backends) (pp pp' : CorePartialPosition) (ms ms' : List Move) (p p' : Position)
    (h : Visited (stdEnv oc) K pp ms p) (h' : Visited (stdEnv oc') K' pp' ms' p')
    (hd : DifferAtOneOrTwo (view p) (view p')) :
    ∃ k k', p.key = some k ∧ p'.key = some k' ∧ k.toNat / 2 ≠ k'.toNat / 2 := by
  obtain ⟨a, b, _, hkey, ha, hb⟩ := key_visited hK h
  obtain ⟨a', b', _, hkey', ha', hb'⟩ := key_visited hK' h'
  refine ⟨_, _, hkey, hkey', ?_⟩
  have := total_ne (visited_fit hK h) (visited_fit hK' h') false hd
  rw [total_eq, total_eq, half_xor, half_xor, ← ha, ← ha', ← hb, ← hb', ← half_xor, ← half_xor] at this
  exact this

/-- C57 for the pair `keys()`: boards that differ at one or two squares have different first keys, hands
that differ at one or two places have different second keys. -/
theorem C57_keys_separate (oc oc' : Bool) (K K' : Backend) (hK : K ∈ backends)
    (hK' : K' ∈ backends) (pp pp' : CorePartialPosition) (ms ms' : List Move) (p p' : Position)
    (h : Visited (stdEnv oc) K pp ms p) (h' : Visited (stdEnv oc') K' pp' ms' p') :
    ∃ k k', p.keys = some k ∧ p'.keys = some k' ∧
      (DifferAtOneOrTwo { view p with hand := (view p').hand } (view p') →
        k.1.toNat / 2 ≠ k'.1.toNat / 2) ∧
      (DifferAtOneOrTwo { view p with board := (view p').board } (view p') →
        k.2.toNat / 2 ≠ k'.2.toNat / 2) := by
  obtain ⟨a, b, hkeys, _, ha, hb⟩ := key_visited hK h
  obtain ⟨a', b', hkeys', _, ha', hb'⟩ := key_visited hK' h'
  have f := visited_fit hK h
  have f' := visited_fit hK' h'
  refine ⟨_, _, hkeys, hkeys', fun hd he => ?_, fun hd he => ?_⟩
  · refine total_ne (P := { view p with hand := (view p').hand }) f' f' false hd ?_
    rw [total_eq, total_eq, half_xor, half_xor]
    congr 1
    rw [← ha', ← (show a.toNat >>> 1 = a'.toNat >>> 1 from he)]
    exact ha.symm
  · refine total_ne (P := { view p with board := (view p').board }) f f' false hd ?_
    rw [total_eq, total_eq, half_xor, half_xor]
    congr 1
    rw [← hb', ← (show b.toNat >>> 1 = b'.toNat >>> 1 from he), hb]

open Yasai.Examples

/-- The initial position with the pawn 7g on 7f. -/
def advanced : CorePartialPosition :=
  { startpos with board := fun s =>
      if s = (60 : Square) then none else if s = (59 : Square) then some ⟨.pawn, .black⟩
      else startpos.board s }

/-- Hypotheses of C57 are met: the initial position and the same with one pawn advanced. -/
example (oc : Bool) (K : Backend) (hK : K ∈ backends) : ∃ p p',
    Visited (stdEnv oc) K startpos [] p ∧ Visited (stdEnv oc) K advanced [] p' ∧
      DifferAtOneOrTwo (view p) (view p') ∧
      DifferAtOneOrTwo { view p with hand := (view p').hand } (view p') := by
  have h1 : ∃ p, Position.new (stdEnv oc) K startpos = some p := new_startpos _ K hK .black
  have h2 : ∃ p, Position.new (stdEnv oc) K advanced = some p := by
    rw [new_eq _ (lawful_of_mem hK), if_pos]
    · exact ⟨_, rfl⟩
    · intro p hp; exact Nat.zero_le _
  obtain ⟨p, hp⟩ := h1
  obtain ⟨p', hp'⟩ := h2
  have hd : DifferAtOneOrTwo (rootView startpos) (rootView advanced) := by
    refine ⟨⟨.square 60, ?_⟩, .square 60, .square 59, fun x hx => ?_⟩
    · show startpos.board 60 ≠ none
      decide
    · cases x with
      | hand c k => exact absurd rfl hx
      | square s =>
        by_cases h60 : s = 60
        · exact .inl (by rw [h60])
        · by_cases h59 : s = 59
          · exact .inr (by rw [h59])
          · exact absurd (by simp [rootView, advanced, h60, h59]) hx
  refine ⟨p, p', ⟨p, hp, .start⟩, ⟨p', hp', .start⟩, ?_, ?_⟩
  · rw [view_new hK hp, view_new hK hp']; exact hd
  · rw [view_new hK hp, view_new hK hp']; exact hd

end Yasai.Props

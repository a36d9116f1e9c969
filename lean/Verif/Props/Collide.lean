import Verif.Props.Machine
import Verif.Props.Zobrist

/-!
# C85: how often two keys collide

`C57` shows that the table of the code separates positions that are close to each other.  Here the
table is not fixed: two positions that differ are compared while one entry of the table runs through
all its values.
-/

namespace Yasai.Props

open Yasai Spec Proofs

/-- An entry of the Zobrist table. -/
inductive Entry where
  | board (s : Square) (x : Piece)
  | hand (c : Color) (k : PieceKind) (n : Nat)

/-- The same numbers, except that `v` is drawn for the entry `e`. -/
def Entry.draw (E : Env) (v : BitVec 64) : Entry → Env
  | .board s x => { E with rngBoard := fun s' c k =>
      if s' = s ∧ c = x.color ∧ k = x.kind then v else E.rngBoard s' c k }
  | .hand c k n => { E with rngHand := fun c' k' n' =>
      if c' = c ∧ k' = k ∧ n' = n then v else E.rngHand c' k' n' }

/-- Two positions differ on the board or in a hand. -/
def Unlike (P Q : Pos) : Prop :=
  (∃ s, P.board s ≠ Q.board s) ∨ ∃ c k, P.hand c k ≠ Q.hand c k

theorem draw_overflow (E : Env) (v : BitVec 64) (e : Entry) :
    (e.draw E v).overflowChecks = E.overflowChecks := by
  cases e <;> rfl

/-! ## The same moves with another table -/

theorem Visited.current {E : Env} {K : Backend} (hK : K ∈ backends) {pp : CorePartialPosition}
    {ms : List Move} {p : Position} (h : Visited E K pp ms p) :
    view p = current (rootView pp) ms := by
  obtain ⟨p0, h0, hs⟩ := h
  rw [session_view (hs.play hK (fun _ _ h => h)), view_new hK h0]
  rfl

theorem movePanics_same {E E' : Env} {p p' : Position} (hE : E'.overflowChecks = E.overflowChecks)
    (hply : p'.ply = p.ply) (hv : view p' = view p) {m : Move} :
    MovePanics E' p' m ↔ MovePanics E p m := by
  have hb : ∀ s, p'.pieceAt s = p.pieceAt s := fun s => congrFun (congrArg Pos.board hv) s
  have hh : ∀ k, ((p'.hand p'.sideToMove).count k).getD 0 =
      ((p.hand p.sideToMove).count k).getD 0 := fun k => by
    have hs : p'.sideToMove = p.sideToMove := congrArg Pos.side hv
    rw [hs]
    exact congrFun (congrFun (congrArg Pos.hand hv) p.sideToMove) k
  cases m with
  | normal frm to pr => simp only [MovePanics, hb, hE, hply, count_eighteen, hh]
  | drop to pc => simp only [MovePanics, hE, hply, hh]

/-- C85.  Which moves can be made does not depend on the table (nor on the build, as long as overflow is
treated alike). -/
theorem C85_any_table (E E' : Env) (K K' : Backend) (hK : K ∈ backends) (hK' : K' ∈ backends)
    (hE : E'.overflowChecks = E.overflowChecks) (pp : CorePartialPosition) (ms : List Move)
    (p : Position) (h : Visited E K pp ms p) : ∃ p', Visited E' K' pp ms p' := by
  obtain ⟨p0, h0, hs⟩ := h
  have hn : Position.new E' K' pp ≠ none := by
    rw [Ne, C35_new_panics_iff E' K' hK', ← C35_new_panics_iff E K hK, h0]
    exact Option.some_ne_none _
  obtain ⟨p0', h0'⟩ := Option.ne_none_iff_exists'.1 hn
  have gen : ∀ {ms p}, Play E K Shape p0 ms p →
      ∃ p', Play E' K' Shape p0' ms p' ∧ p'.ply = p.ply := by
    intro ms p h
    induction h with
    | start =>
      exact ⟨p0', .start, by rw [(C35_new_reproduces E K hK pp p0 h0).2.2.2,
        (C35_new_reproduces E' K' hK' pp p0' h0').2.2.2]⟩
    | @move ms q q' m hq hl hm ih =>
      obtain ⟨p', hp', hpl⟩ := ih
      have hv' : Visited E' K' pp ms p' := ⟨p0', h0', hp'.session⟩
      have hv : Visited E K pp ms q := ⟨p0, h0, hq.session⟩
      have hview : view p' = view q := (hv'.current hK').trans (hv.current hK).symm
      have hno : p'.doMove E' K' m ≠ none := by
        rw [Ne, C52_do_move_panics_iff E' K' hK' pp ms p' hv', movePanics_same hE hpl hview,
          ← C52_do_move_panics_iff E K hK pp ms q hv, hm]
        exact Option.some_ne_none _
      obtain ⟨p'', hp''⟩ := Option.ne_none_iff_exists'.1 hno
      have hsh : Shape p' m := by
        cases m with
        | normal frm to pr => exact hl
        | drop to pc =>
          have := congrFun (congrArg Pos.board hview) to
          exact Eq.trans this hl
      exact ⟨p'', hp'.move hsh hp'', by
        rw [(C03_do_move_is_rules E' K' p' p'' _ hp'').2, (C03_do_move_is_rules E K q q' _ hm).2,
          hpl]⟩
  obtain ⟨p', hp', _⟩ := gen (hs.play hK (fun _ _ h => h))
  exact ⟨p', p0', h0', hp'.session⟩

/-! ## One entry of the table -/

/-- The hash of a position: board and hands. -/
def posHash (E : Env) (P : Pos) : BitVec 64 :=
  boardHash E.zobBoard P.board ^^^ handHash E.handTbl P.hand

/-- Whether an entry takes part in the hash of a position. -/
def Entry.Used (P : Pos) : Entry → Prop
  | .board s x => P.board s = some x
  | .hand c k n => n < P.hand c k

/-- What an entry adds to a hash. -/
def even64 (v : BitVec 64) : BitVec 64 := v &&& ~~~1#64

theorem boardHash_other {T T' : Square → Piece → BitVec 64} {b : Square → Option Piece} {s : Square}
    {x : Piece} (hT : ∀ s' x', (s', x') ≠ (s, x) → T' s' x' = T s' x') (h : b s ≠ some x) :
    boardHash T' b = boardHash T b := by
  unfold boardHash
  refine xorAll_congr fun a _ => ?_
  cases hb : b a with
  | none => rfl
  | some y =>
    refine hT _ _ fun e => h ?_
    cases e
    exact hb

theorem boardHash_one {T T' : Square → Piece → BitVec 64} {b : Square → Option Piece} {s : Square}
    {x : Piece} (hT : ∀ s' x', (s', x') ≠ (s, x) → T' s' x' = T s' x') (h : b s = some x) :
    boardHash T' b = boardHash T b ^^^ T s x ^^^ T' s x := by
  have e : ∀ T : Square → Piece → BitVec 64, sqHash T s (b s) = T s x := fun T => by rw [h]; rfl
  rw [← e T, ← e T']
  unfold boardHash
  refine xorAll_update (f := fun t => sqHash T t (b t)) (g := fun t => sqHash T' t (b t))
    nodup_all (mem_all s) fun a _ ha => ?_
  show sqHash T' a (b a) = sqHash T a (b a)
  cases b a with
  | none => rfl
  | some y => exact hT _ _ fun e => ha (Prod.mk.inj e).1

theorem cntHash_other {T T' : Color → PieceKind → Nat → BitVec 64} {c : Color} {k : PieceKind}
    {m : Nat} (hT : ∀ n, n < m → T' c k n = T c k n) : cntHash T' c k m = cntHash T c k m := by
  unfold cntHash
  exact xorAll_congr fun a ha => hT _ (List.mem_range.1 ha)

theorem cntHash_one {T T' : Color → PieceKind → Nat → BitVec 64} {c : Color} {k : PieceKind}
    {m n : Nat} (hn : n < m) (hT : ∀ n', n' ≠ n → T' c k n' = T c k n') :
    cntHash T' c k m = cntHash T c k m ^^^ T c k n ^^^ T' c k n := by
  unfold cntHash
  exact xorAll_update List.nodup_range (List.mem_range.2 hn) fun a _ ha => hT a ha

theorem handHash_other {T T' : Color → PieceKind → Nat → BitVec 64} {h : Color → PieceKind → Nat}
    {c : Color} {k : PieceKind} {n : Nat}
    (hT : ∀ c' k' n', (c', k', n') ≠ (c, k, n) → T' c' k' n' = T c' k' n') (hn : h c k ≤ n) :
    handHash T' h = handHash T h := by
  rw [handHash_eq, handHash_eq]
  refine xorAll_congr fun a _ => cntHash_other fun i hi => hT _ _ _ fun e => ?_
  obtain ⟨e1, e2, e3⟩ := by simpa using e
  subst e3
  rw [e1, e2] at hi
  omega

theorem handHash_one {T T' : Color → PieceKind → Nat → BitVec 64} {h : Color → PieceKind → Nat}
    {c : Color} {k : PieceKind} {n : Nat} (hk : k.isHandPiece = true)
    (hT : ∀ c' k' n', (c', k', n') ≠ (c, k, n) → T' c' k' n' = T c' k' n') (hn : n < h c k) :
    handHash T' h = handHash T h ^^^ T c k n ^^^ T' c k n := by
  have e1 := xorAll_update (x := (c, k)) (f := fun p => cntHash T p.1 p.2 (h p.1 p.2))
    (g := fun p => cntHash T' p.1 p.2 (h p.1 p.2)) handPairs_nodup (mem_handPairs.2 hk)
    (fun a _ ha => cntHash_other fun i _ => hT _ _ _ fun e => ha (by
      obtain ⟨e1, e2, _⟩ := by simpa using e
      exact Prod.ext e1 e2))
  rw [handHash_eq, handHash_eq, e1]
  show _ ^^^ cntHash T c k (h c k) ^^^ cntHash T' c k (h c k) = _
  rw [cntHash_one hn fun n' hn' => hT _ _ _ fun e => hn' (by simpa using e)]
  simp only [← BitVec.xor_assoc]
  rw [xor64_cancel]

theorem zobBoard_draw (E : Env) (v : BitVec 64) (s : Square) (x : Piece) :
    ((Entry.board s x).draw E v).zobBoard s x = even64 v ∧
    ∀ s' x', (s', x') ≠ (s, x) → ((Entry.board s x).draw E v).zobBoard s' x' = E.zobBoard s' x' := by
  refine ⟨?_, fun s' x' hne => ?_⟩
  · show (if s = s ∧ x.color = x.color ∧ x.kind = x.kind then v else _) &&& _ = _
    rw [if_pos ⟨rfl, rfl, rfl⟩]; rfl
  · show (if s' = s ∧ x'.color = x.color ∧ x'.kind = x.kind then v else _) &&& _ = _
    rw [if_neg]
    · rfl
    · rintro ⟨rfl, h1, h2⟩
      exact hne (by cases x; cases x'; simp_all)

theorem handTbl_draw (E : Env) (v : BitVec 64) (c : Color) (k : PieceKind) (n : Nat) :
    (k.isHandPiece = true → n < 18 → ((Entry.hand c k n).draw E v).handTbl c k n = even64 v) ∧
    ∀ c' k' n', (c', k', n') ≠ (c, k, n) →
      ((Entry.hand c k n).draw E v).handTbl c' k' n' = E.handTbl c' k' n' := by
  refine ⟨fun hk hn => ?_, fun c' k' n' hne => ?_⟩
  · unfold Env.handTbl Env.zobHand
    rw [if_pos (show n < maxHandNum from hn), if_pos hk]
    show (if c = c ∧ k = k ∧ n = n then v else _) &&& _ = _
    rw [if_pos ⟨rfl, rfl, rfl⟩]; rfl
  · unfold Env.handTbl Env.zobHand
    have : ((Entry.hand c k n).draw E v).rngHand c' k' n' = E.rngHand c' k' n' := by
      show (if c' = c ∧ k' = k ∧ n' = n then v else _) = _
      rw [if_neg]
      rintro ⟨rfl, rfl, rfl⟩
      exact hne rfl
    rw [this]

/-- The hash of a position in which the entry takes no part does not depend on it. -/
theorem posHash_unused (E : Env) (v : BitVec 64) (e : Entry) (P : Pos) (h : ¬ e.Used P) :
    posHash (e.draw E v) P = posHash E P := by
  cases e with
  | board s x =>
    show boardHash _ _ ^^^ handHash E.handTbl _ = _
    rw [posHash, boardHash_other (zobBoard_draw E v s x).2 h]
  | hand c k n =>
    show boardHash E.zobBoard _ ^^^ handHash _ _ = _
    rw [posHash, handHash_other (handTbl_draw E v c k n).2 (Nat.not_lt.1 h)]

/-- The hash of a position in which the entry takes part is a constant plus the entry. -/
theorem posHash_used (E : Env) (e : Entry) (P : Pos) (hf : HandsFit P) (h : e.Used P) :
    ∃ a, ∀ v, posHash (e.draw E v) P = a ^^^ even64 v := by
  cases e with
  | board s x =>
    refine ⟨boardHash E.zobBoard P.board ^^^ E.zobBoard s x ^^^ handHash E.handTbl P.hand, fun v => ?_⟩
    show boardHash _ _ ^^^ handHash E.handTbl _ = _
    rw [boardHash_one (zobBoard_draw E v s x).2 h, (zobBoard_draw E v s x).1]
    exact xor64_right_comm _ _ _
  | hand c k n =>
    have hn : n < P.hand c k := h
    have hk : k.isHandPiece = true := (hf c k).2 (by omega)
    have h18 : n < 18 := by have := (hf c k).1; omega
    refine ⟨boardHash E.zobBoard P.board ^^^ (handHash E.handTbl P.hand ^^^ E.handTbl c k n),
      fun v => ?_⟩
    show boardHash E.zobBoard _ ^^^ handHash _ _ = _
    rw [handHash_one hk (handTbl_draw E v c k n).2 hn, (handTbl_draw E v c k n).1 hk h18]
    exact (BitVec.xor_assoc _ _ _).symm

/-- Two different positions: an entry takes part in exactly one hash. -/
theorem unlike_entry {P Q : Pos} (h : Unlike P Q) :
    ∃ e : Entry, (e.Used P ∧ ¬ e.Used Q) ∨ (e.Used Q ∧ ¬ e.Used P) := by
  rcases h with ⟨s, h⟩ | ⟨c, k, h⟩
  · cases hp : P.board s with
    | some x => exact ⟨.board s x, .inl ⟨hp, fun e => h (hp.trans e.symm)⟩⟩
    | none =>
      cases hq : Q.board s with
      | none => exact absurd (hp.trans hq.symm) h
      | some y => exact ⟨.board s y, .inr ⟨hq, fun e => by rw [Entry.Used, hp] at e; cases e⟩⟩
  · rcases Nat.lt_or_gt_of_ne h with h | h
    · exact ⟨.hand c k (P.hand c k), .inr ⟨h, Nat.lt_irrefl _⟩⟩
    · exact ⟨.hand c k (Q.hand c k), .inl ⟨h, Nat.lt_irrefl _⟩⟩

/-- The bit for the moves in force. -/
def oddBit (n : Nat) : BitVec 64 := if n % 2 = 1 then 1#64 else 0#64

theorem key_posHash {E : Env} {K : Backend} (hK : K ∈ backends) {pp : CorePartialPosition}
    {ms : List Move} {p : Position} (h : Visited E K pp ms p) :
    p.key = some (posHash E (current (rootView pp) ms) ^^^ oddBit ms.length) := by
  rw [← h.current hK]
  obtain ⟨p0, h0, hs⟩ := h
  have hk := C17_incremental_hash _ K hK pp p0 p ms h0 hs
  obtain ⟨a, b, h1, h2, _⟩ := C20_key_parity _ K hK pp p0 p ms h0 hs
  rw [hk] at h1
  cases h1
  rw [h2]
  exact congrArg some (xor64_right_comm _ _ _)

theorem even64_eq_iff (v c : BitVec 64) :
    even64 v = c ↔ v.toNat / 2 = c.toNat / 2 ∧ c.toNat % 2 = 0 := by
  have e : (even64 v).toNat = v.toNat / 2 * 2 := by
    have : even64 v = (v >>> 1) <<< 1 := by
      apply BitVec.eq_of_getLsbD_eq
      intro i hi
      have hm : (~~~1#64 : BitVec 64).getLsbD i = decide (1 ≤ i) := by
        rw [BitVec.getLsbD_not, decide_eq_true hi, Bool.true_and, BitVec.getLsbD_one]
        cases i <;> simp
      rw [even64, BitVec.getLsbD_and, hm, BitVec.getLsbD_shiftLeft, BitVec.getLsbD_ushiftRight]
      by_cases h : 1 ≤ i
      · rw [show 1 + (i - 1) = i by omega]
        simp [h, hi, Nat.not_lt.2 h]
      · simp [h, Nat.not_le.1 h]
    rw [this, BitVec.toNat_shiftLeft, BitVec.toNat_ushiftRight, Nat.shiftLeft_eq,
      Nat.shiftRight_eq_div_pow]
    have := v.isLt
    omega
  rw [← BitVec.toNat_inj, e]
  omega

theorem xor_mod_two (a b : BitVec 64) : (a ^^^ b).toNat % 2 = (a.toNat + b.toNat) % 2 := by
  rw [BitVec.toNat_xor]
  have h : ((a.toNat ^^^ b.toNat).testBit 0) = ((a.toNat.testBit 0) ^^ (b.toNat.testBit 0)) :=
    Nat.testBit_xor ..
  rw [Nat.testBit_zero, Nat.testBit_zero, Nat.testBit_zero] at h
  have h1 := Nat.mod_two_eq_zero_or_one (a.toNat ^^^ b.toNat)
  rcases Nat.mod_two_eq_zero_or_one a.toNat with ha | ha <;>
    rcases Nat.mod_two_eq_zero_or_one b.toNat with hb | hb <;>
    rcases h1 with h1 | h1 <;> simp [ha, hb, h1] at h <;> omega

theorem oddBit_mod (n : Nat) : (oddBit n).toNat % 2 = n % 2 := by
  unfold oddBit
  rcases Nat.mod_two_eq_zero_or_one n with h | h <;> rw [h] <;> rfl

theorem posHash_mod (E : Env) (P : Pos) : (posHash E P).toNat % 2 = 0 := by
  have h : (posHash E P).getLsbD 0 = false := by
    rw [posHash, BitVec.getLsbD_xor, lsb_boardHash, lsb_handHash]; rfl
  rw [BitVec.getLsbD, Nat.testBit_zero] at h
  have := of_decide_eq_false h
  omega

/-- The difference of two hashes of which exactly one depends on the entry. -/
theorem posHash_difference (E : Env) (e : Entry) (P Q : Pos)
    (h : (HandsFit P ∧ e.Used P ∧ ¬ e.Used Q) ∨ (HandsFit Q ∧ e.Used Q ∧ ¬ e.Used P)) :
    ∃ a : BitVec 64, a.toNat % 2 = 0 ∧
      ∀ v, posHash (e.draw E v) P ^^^ posHash (e.draw E v) Q = even64 v ^^^ a := by
  have key : ∀ P Q, HandsFit P → e.Used P → ¬ e.Used Q → ∃ a : BitVec 64, a.toNat % 2 = 0 ∧
      ∀ v, posHash (e.draw E v) P ^^^ posHash (e.draw E v) Q = even64 v ^^^ a := by
    intro P Q hf h1 h2
    obtain ⟨a, ha⟩ := posHash_used E e P hf h1
    refine ⟨a ^^^ posHash E Q, ?_, fun v => ?_⟩
    · have e1 := posHash_mod (e.draw E 0#64) P
      rw [ha, xor_mod_two, show (even64 0#64).toNat = 0 from rfl] at e1
      have e2 := posHash_mod E Q
      rw [xor_mod_two]
      omega
    · rw [ha, posHash_unused E v e Q h2, BitVec.xor_comm a, BitVec.xor_assoc]
  rcases h with ⟨hf, h1, h2⟩ | ⟨hf, h1, h2⟩
  · exact key P Q hf h1 h2
  · obtain ⟨a, ha, h⟩ := key Q P hf h1 h2
    exact ⟨a, ha, fun v => by rw [BitVec.xor_comm]; exact h v⟩

/-- C85.  Take two positions, reached by any moves from any roots, that differ on the board or in a hand.
Then the table has an entry such that, however the other entries are drawn, and for every `d`: the keys of
the two positions differ by exactly `d` for one value of the upper 63 bits of that entry and for no
other, provided the lowest bit of `d` tells whether the numbers of moves in force have different
parities; otherwise they never differ by `d`. -/
theorem C85_key_difference (K K' : Backend) (hK : K ∈ backends) (hK' : K' ∈ backends)
    (pp pp' : CorePartialPosition) (ms ms' : List Move)
    (hd : Unlike (current (rootView pp) ms) (current (rootView pp') ms')) :
    ∃ e : Entry, ∀ (E : Env) (d : BitVec 64), ∃ w < 2 ^ 63, ∀ (v : BitVec 64) (p q : Position),
      Visited (e.draw E v) K pp ms p → Visited (e.draw E v) K' pp' ms' q →
      ∃ a b, p.key = some a ∧ q.key = some b ∧
        (a ^^^ b = d ↔ v.toNat / 2 = w ∧ (ms.length + ms'.length) % 2 = d.toNat % 2) := by
  obtain ⟨e, he⟩ := unlike_entry hd
  refine ⟨e, fun E d => ?_⟩
  by_cases hex : ∃ v p q, Visited (e.draw E v) K pp ms p ∧ Visited (e.draw E v) K' pp' ms' q
  · obtain ⟨v0, p0, q0, hp0, hq0⟩ := hex
    have hf := visited_fit hK hp0
    have hf' := visited_fit hK' hq0
    rw [hp0.current hK] at hf
    rw [hq0.current hK'] at hf'
    obtain ⟨c, hc, hall⟩ := posHash_difference E e _ _ (he.imp (⟨hf, ·⟩) (⟨hf', ·⟩))
    let o := oddBit ms.length ^^^ oddBit ms'.length
    have ho : o.toNat % 2 = (ms.length + ms'.length) % 2 := by
      rw [xor_mod_two, Nat.add_mod, oddBit_mod, oddBit_mod, ← Nat.add_mod]
    refine ⟨(d ^^^ o ^^^ c).toNat / 2, by have := (d ^^^ o ^^^ c).isLt; omega,
      fun v p q hp hq => ⟨_, _, key_posHash hK hp, key_posHash hK' hq, ?_⟩⟩
    have e1 : ∀ x y u w : BitVec 64, x ^^^ u ^^^ (y ^^^ w) = x ^^^ y ^^^ (u ^^^ w) := by
      intro x y u w
      simp only [← BitVec.xor_assoc]
      rw [xor64_right_comm x u y]
    rw [e1, hall]
    have e2 : (even64 v ^^^ c ^^^ o = d) ↔ even64 v = d ^^^ o ^^^ c := by
      constructor
      · intro h
        rw [← h, xor64_cancel, xor64_cancel]
      · intro h
        rw [h, xor64_cancel, xor64_cancel]
    show (even64 v ^^^ c ^^^ o = d) ↔ _
    rw [e2, even64_eq_iff, xor_mod_two]
    refine and_congr_right fun _ => ?_
    have := xor_mod_two d o
    omega
  · exact ⟨0, by decide, fun v p q hp hq => absurd ⟨v, p, q, hp, hq⟩ hex⟩

/-- C85.  So two positions that differ on the board or in a hand have the same key for one value of the
upper 63 bits of that entry and for no other, if the numbers of moves in force have the same parity;
and never otherwise. -/
theorem C85_collisions (K K' : Backend) (hK : K ∈ backends) (hK' : K' ∈ backends)
    (pp pp' : CorePartialPosition) (ms ms' : List Move)
    (hd : Unlike (current (rootView pp) ms) (current (rootView pp') ms')) :
    ∃ e : Entry, ∀ E : Env, ∃ w < 2 ^ 63, ∀ (v : BitVec 64) (p q : Position),
      Visited (e.draw E v) K pp ms p → Visited (e.draw E v) K' pp' ms' q →
      (p.key = q.key ↔ v.toNat / 2 = w ∧ ms.length % 2 = ms'.length % 2) := by
  obtain ⟨e, h⟩ := C85_key_difference K K' hK hK' pp pp' ms ms' hd
  refine ⟨e, fun E => ?_⟩
  obtain ⟨w, hw, h⟩ := h E 0#64
  refine ⟨w, hw, fun v p q hp hq => ?_⟩
  obtain ⟨a, b, ha, hb, h⟩ := h v p q hp hq
  have e1 : a = b ↔ a ^^^ b = 0#64 := by
    constructor
    · rintro rfl; exact BitVec.xor_self
    · intro h
      have := congrArg (· ^^^ b) h
      simpa only [xor64_cancel, BitVec.zero_xor] using this
  rw [ha, hb, Option.some.injEq, e1, h]
  refine and_congr_right fun _ => ?_
  show _ = 0 ↔ _
  omega

/-- C85.  Two positions with the same board and hands have the same key for every table, if the numbers of
moves in force have the same parity, and for no table otherwise. -/
theorem C85_alike (E : Env) (K K' : Backend) (hK : K ∈ backends) (hK' : K' ∈ backends)
    (pp pp' : CorePartialPosition) (ms ms' : List Move) (p q : Position)
    (hs : ¬ Unlike (current (rootView pp) ms) (current (rootView pp') ms'))
    (hp : Visited E K pp ms p) (hq : Visited E K' pp' ms' q) :
    p.key = q.key ↔ ms.length % 2 = ms'.length % 2 := by
  have e : posHash E (current (rootView pp) ms) = posHash E (current (rootView pp') ms') := by
    have h1 : (current (rootView pp) ms).board = (current (rootView pp') ms').board :=
      funext fun s => Classical.byContradiction fun h => hs (.inl ⟨s, h⟩)
    have h2 : (current (rootView pp) ms).hand = (current (rootView pp') ms').hand :=
      funext fun c => funext fun k => Classical.byContradiction fun h => hs (.inr ⟨c, k, h⟩)
    rw [posHash, posHash, h1, h2]
  rw [key_posHash hK hp, key_posHash hK' hq, Option.some.injEq, e]
  constructor
  · intro h
    have := congrArg (posHash E (current (rootView pp') ms') ^^^ ·) h
    simp only [xor64_self_left] at this
    rw [← oddBit_mod, this, oddBit_mod]
  · intro h
    rw [oddBit, oddBit, h]

section
open Examples

/-- The cases are met: 7g7f and 2g2f can be made in the initial position with every table, and the two
positions differ. -/
theorem C85_example (E : Env) (K : Backend) (hK : K ∈ backends) :
    (∃ p, Visited E K startpos [.normal (sq 7 7) (sq 7 6) false] p) ∧
    (∃ p, Visited E K startpos [.normal (sq 2 7) (sq 2 6) false] p) ∧
    Unlike (current (rootView startpos) [.normal (sq 7 7) (sq 7 6) false])
      (current (rootView startpos) [.normal (sq 2 7) (sq 2 6) false]) := by
  obtain ⟨p, hp⟩ : ∃ p, Position.new E K startpos = some p := new_startpos E K hK .black
  have hv : Visited E K startpos [] p := ⟨p, hp, .start⟩
  have hview := view_new hK hp
  have hply := (C35_new_reproduces E K hK startpos p hp).2.2.2
  have hb : ∀ s, p.pieceAt s = startpos.board s := fun s => congrFun (congrArg Pos.board hview) s
  have go : ∀ a b : Square, a ≠ b → startpos.board a ≠ none → startpos.board b = none →
      ∃ p, Visited E K startpos [.normal a b false] p := by
    intro a b hne h1 h2
    have hno : p.doMove E K (.normal a b false) ≠ none := by
      rw [Ne, C52_do_move_panics_iff E K hK startpos [] p hv]
      simp only [MovePanics, hb, h2, hply]
      rintro (h | ⟨_, h⟩ | ⟨_, h, _⟩ | ⟨h, _⟩ | ⟨_, h⟩)
      · exact h1 h
      · cases h
      · cases h
      · cases h
      · exact absurd h (by decide)
    obtain ⟨p', hp'⟩ := Option.ne_none_iff_exists'.1 hno
    exact ⟨p', p, hp, .move .start hne hp'⟩
  refine ⟨go _ _ (by decide) (by decide) (by decide), go _ _ (by decide) (by decide) (by decide),
    .inl ⟨sq 7 7, ?_⟩⟩
  decide

end

end Yasai.Props

import Verif.Proofs.Effect
import Verif.Spec.Hash

/-!
# Zobrist keys
-/

namespace Yasai

open Spec

theorem xorAll_nil : xorAll [] = 0#64 := rfl
theorem xorAll_cons (x : BitVec 64) (l : List (BitVec 64)) : xorAll (x :: l) = x ^^^ xorAll l := rfl

theorem xorAll_append (l l' : List (BitVec 64)) : xorAll (l ++ l') = xorAll l ^^^ xorAll l' := by
  induction l with
  | nil => simp [xorAll_nil]
  | cons x l ih => rw [List.cons_append, xorAll_cons, xorAll_cons, ih, BitVec.xor_assoc]

theorem xorAll_flatMap {α : Type} (l : List α) (f : α → List (BitVec 64)) :
    xorAll (l.flatMap f) = xorAll (l.map fun a => xorAll (f a)) := by
  induction l with
  | nil => rfl
  | cons x l ih => rw [List.flatMap_cons, xorAll_append, List.map_cons, xorAll_cons, ih]

theorem xor64_cancel (a b : BitVec 64) : a ^^^ b ^^^ b = a := by
  rw [BitVec.xor_assoc, BitVec.xor_self, BitVec.xor_zero]

theorem xor64_right_comm (a b c : BitVec 64) : a ^^^ b ^^^ c = a ^^^ c ^^^ b := by
  rw [BitVec.xor_assoc, BitVec.xor_comm b c, ← BitVec.xor_assoc]

theorem xor64_self_left (a b : BitVec 64) : a ^^^ (a ^^^ b) = b := by
  rw [← BitVec.xor_assoc, BitVec.xor_self, BitVec.zero_xor]

theorem xorAll_congr {α : Type} {l : List α} {f g : α → BitVec 64} (h : ∀ a ∈ l, f a = g a) :
    xorAll (l.map f) = xorAll (l.map g) := by
  rw [List.map_congr_left h]

/-- Changing the function at one element of a duplicate-free list. -/
theorem xorAll_update {α : Type} {l : List α} (hl : l.Nodup) {x : α} (hx : x ∈ l)
    {f g : α → BitVec 64} (h : ∀ a ∈ l, a ≠ x → g a = f a) :
    xorAll (l.map g) = xorAll (l.map f) ^^^ f x ^^^ g x := by
  induction l with
  | nil => cases hx
  | cons y l ih =>
    rw [List.nodup_cons] at hl
    rw [List.map_cons, List.map_cons, xorAll_cons, xorAll_cons]
    by_cases e : y = x
    · subst e
      have : xorAll (l.map g) = xorAll (l.map f) :=
        xorAll_congr fun a ha => h a (List.mem_cons_of_mem _ ha) (fun e => hl.1 (e ▸ ha))
      rw [this, BitVec.xor_comm (f y), xor64_cancel, BitVec.xor_comm]
    · have hx' : x ∈ l := by
        rcases List.mem_cons.1 hx with h' | h'
        · exact absurd h'.symm e
        · exact h'
      rw [ih hl.2 hx' (fun a ha hne => h a (List.mem_cons_of_mem _ ha) hne),
        h y List.mem_cons_self e]
      simp only [BitVec.xor_assoc]

theorem nodup_all : Square.all.Nodup := by unfold Square.all; exact List.nodup_finRange 81

/-- The table entry of the contents of a square. -/
def sqHash (tbl : Square → Piece → BitVec 64) (s : Square) (v : Option Piece) : BitVec 64 :=
  match v with | some p => tbl s p | none => 0#64

theorem boardHash_put (tbl : Square → Piece → BitVec 64) (b b' : Square → Option Piece)
    (s : Square) (h : ∀ t, t ≠ s → b' t = b t) :
    boardHash tbl b' = boardHash tbl b ^^^ sqHash tbl s (b s) ^^^ sqHash tbl s (b' s) := by
  unfold boardHash
  exact xorAll_update (f := fun t => sqHash tbl t (b t)) (g := fun t => sqHash tbl t (b' t))
    nodup_all (mem_all s) (fun a _ ha => by rw [h a ha])

/-- The hash of `n` pieces of one kind in one hand. -/
def cntHash (tbl : Color → PieceKind → Nat → BitVec 64) (c : Color) (k : PieceKind) (n : Nat) :
    BitVec 64 := xorAll ((List.range n).map (tbl c k))

theorem cntHash_succ (tbl : Color → PieceKind → Nat → BitVec 64) (c : Color) (k : PieceKind)
    (n : Nat) : cntHash tbl c k (n + 1) = cntHash tbl c k n ^^^ tbl c k n := by
  unfold cntHash
  rw [List.range_succ, List.map_append, xorAll_append]
  simp [xorAll]

/-- All pairs of a colour and a hand kind. -/
def handPairs : List (Color × PieceKind) :=
  Color.all.flatMap fun c => Hand.allHandPieces.map fun k => (c, k)

theorem handPairs_nodup : handPairs.Nodup := by decide
theorem mem_handPairs {c : Color} {k : PieceKind} : (c, k) ∈ handPairs ↔ k.isHandPiece = true := by
  cases c <;> cases k <;> decide

theorem handHash_eq (tbl : Color → PieceKind → Nat → BitVec 64) (h : Color → PieceKind → Nat) :
    handHash tbl h = xorAll (handPairs.map fun p => cntHash tbl p.1 p.2 (h p.1 p.2)) := by
  unfold handHash handPairs
  rw [List.map_flatMap]
  rw [xorAll_flatMap, xorAll_flatMap]
  congr 1
  apply List.map_congr_left
  intro c _
  rw [xorAll_flatMap, List.map_map]
  rfl

theorem handHash_update (tbl : Color → PieceKind → Nat → BitVec 64)
    (h h' : Color → PieceKind → Nat) (c : Color) (k : PieceKind) (hk : k.isHandPiece = true)
    (he : ∀ c' k', (c', k') ≠ (c, k) → h' c' k' = h c' k') :
    handHash tbl h' = handHash tbl h ^^^ cntHash tbl c k (h c k) ^^^ cntHash tbl c k (h' c k) := by
  rw [handHash_eq, handHash_eq]
  exact xorAll_update (x := (c, k)) (f := fun p => cntHash tbl p.1 p.2 (h p.1 p.2))
    (g := fun p => cntHash tbl p.1 p.2 (h' p.1 p.2)) handPairs_nodup (mem_handPairs.2 hk)
    (fun a _ ha => by rw [he a.1 a.2 ha])

/-- The hand table as a total function. -/
def Env.handTbl (E : Env) (c : Color) (k : PieceKind) (n : Nat) : BitVec 64 :=
  (E.zobHand c k n).getD 0#64

/-! ## `Position::new` -/

theorem newBoardKey_eq (E : Env) (q : PartialPosition) :
    Position.newBoardKey E q = boardHash E.zobBoard q.board := by
  have gen : ∀ (l : List Square) (k : Key), l.foldl (fun k sq =>
      match q.board sq with
      | some p => k ^^^ E.zobBoard sq p
      | none => k) k = k ^^^ xorAll (l.map fun s => sqHash E.zobBoard s (q.board s)) := by
    intro l
    induction l with
    | nil => intro k; simp [xorAll_nil]
    | cons s l ih =>
      intro k
      rw [List.foldl_cons, ih, List.map_cons, xorAll_cons]
      cases q.board s with
      | none => simp [sqHash]
      | some p => simp [sqHash, BitVec.xor_assoc]
  unfold Position.newBoardKey
  refine (gen _ _).trans ?_
  rw [Key.ZERO, BitVec.zero_xor]
  rfl

theorem newHandKeyLoop_eq (E : Env) (c : Color) (k : PieceKind) (hk : k.isHandPiece = true)
    (n : Nat) (key : Key) :
    Position.newHandKeyLoop E c k n key =
      if n ≤ 18 then some (key ^^^ cntHash E.handTbl c k n) else none := by
  unfold Position.newHandKeyLoop
  induction n generalizing key with
  | zero => simp [cntHash, xorAll]
  | succ n ih =>
    rw [List.range_succ, List.foldlM_append, ih]
    by_cases h : n ≤ 18
    · rw [if_pos h]
      simp only [Option.bind_eq_bind, Option.bind_some, List.foldlM_cons, List.foldlM_nil,
        Option.pure_def]
      unfold Env.zobHand maxHandNum
      by_cases h' : n < 18
      · rw [if_pos h', if_pos hk, if_pos (by omega), cntHash_succ]
        simp [Env.handTbl, Env.zobHand, maxHandNum, h', hk, BitVec.xor_assoc]
      · rw [if_neg h', if_neg (by omega)]
        rfl
    · rw [if_neg h, if_neg (by omega)]
      rfl

/-- Folding a partial function that XORs values. -/
theorem foldlM_xor {α : Type} (f : Key → α → Option Key) (ok : α → Prop) [DecidablePred ok]
    (g : α → Key) (l : List α)
    (hf : ∀ a ∈ l, ∀ k, f k a = if ok a then some (k ^^^ g a) else none) (k : Key) :
    l.foldlM f k = if ∀ a ∈ l, ok a then some (k ^^^ xorAll (l.map g)) else none := by
  induction l generalizing k with
  | nil => simp [xorAll]
  | cons x l ih =>
    rw [List.foldlM_cons, hf x List.mem_cons_self]
    by_cases h : ok x
    · rw [if_pos h]
      simp only [Option.bind_eq_bind, Option.bind_some]
      rw [ih (fun a ha => hf a (List.mem_cons_of_mem _ ha))]
      by_cases h' : ∀ a ∈ l, ok a
      · rw [if_pos h', if_pos (List.forall_mem_cons.2 ⟨h, h'⟩), List.map_cons, xorAll_cons,
          BitVec.xor_assoc]
      · rw [if_neg h', if_neg (fun e => h' (List.forall_mem_cons.1 e).2)]
    · rw [if_neg h, if_neg (fun e => h (List.forall_mem_cons.1 e).1)]
      rfl

theorem newHandKey_eq (E : Env) (q : PartialPosition) :
    Position.newHandKey E q =
      if ∀ p ∈ handPairs, (q.hands p.1).cnt p.2 ≤ 18 then
        some (handHash E.handTbl q.spec.hand) else none := by
  have inner : ∀ c key, Hand.allHandPieces.foldlM (fun k pk =>
      match (q.hands c).count pk with
      | some num => Position.newHandKeyLoop E c pk num k
      | none => pure k) key =
      if ∀ k ∈ Hand.allHandPieces, (q.hands c).cnt k ≤ 18 then
        some (key ^^^ xorAll (Hand.allHandPieces.map fun k => cntHash E.handTbl c k (q.spec.hand c k)))
      else none := by
    intro c key
    apply foldlM_xor
    intro k hk key
    have hk' : k.isHandPiece = true := by
      revert hk; cases k <;> decide
    simp only [Hand.count, hk', if_true]
    rw [newHandKeyLoop_eq E c k hk', PartialPosition.spec]
    simp [Hand.count, hk']
  unfold Position.newHandKey
  refine (foldlM_xor _ (fun c => ∀ k ∈ Hand.allHandPieces, (q.hands c).cnt k ≤ 18)
    (fun c => xorAll (Hand.allHandPieces.map fun k => cntHash E.handTbl c k (q.spec.hand c k)))
    Color.all (fun c _ key => inner c key) _).trans ?_
  have hiff : (∀ a ∈ Color.all, ∀ k ∈ Hand.allHandPieces, (q.hands a).cnt k ≤ 18) ↔
      ∀ p ∈ handPairs, (q.hands p.1).cnt p.2 ≤ 18 := by
    unfold handPairs
    simp only [List.mem_flatMap, List.mem_map]
    constructor
    · rintro h p ⟨c, hc, k, hk, rfl⟩; exact h c hc k hk
    · intro h c hc k hk; exact h (c, k) ⟨c, hc, k, hk, rfl⟩
  have hval : Key.ZERO ^^^ xorAll (Color.all.map fun c =>
      xorAll (Hand.allHandPieces.map fun k => cntHash E.handTbl c k (q.spec.hand c k))) =
      handHash E.handTbl q.spec.hand := by
    unfold Key.ZERO handHash
    rw [BitVec.zero_xor, xorAll_flatMap]
    simp only [xorAll_flatMap]
    rfl
  rw [hval]
  by_cases h : ∀ p ∈ handPairs, (q.hands p.1).cnt p.2 ≤ 18
  · rw [if_pos h, if_pos (hiff.2 h)]
  · rw [if_neg h, if_neg (fun e => h (hiff.1 e))]

/-- `Position::new`, unfolded. -/
theorem new_eq (E : Env) {K : Backend} (hK : Lawful K) (pp : CorePartialPosition) :
    Position.new E K pp =
      if ∀ p ∈ handPairs, (pp.hands p.1).cnt p.2 ≤ 18 then
        some { inner := PartialPosition.ofCore K pp
               states := [{ keys := (boardHash E.zobBoard pp.board,
                              handHash E.handTbl fun c k => ((pp.hands c).count k).getD 0)
                            captured := none, lastMoved := none,
                            attackInfo := AttackInfo.new K
                              (AttackInfo.calculateCheckers K (PartialPosition.ofCore K pp))
                              (PartialPosition.ofCore K pp) }] } else none := by
  obtain ⟨h1, h2, h3, h4, h5⟩ := ofCore_spec hK pp
  unfold Position.new
  dsimp only
  rw [newHandKey_eq, newBoardKey_eq, h2, h3]
  have : (PartialPosition.ofCore K pp).spec.hand = fun c k => ((pp.hands c).count k).getD 0 := by
    unfold PartialPosition.spec; rw [h3]
  rw [this]
  split <;> rfl

theorem new_inner {E : Env} {K : Backend} (hK : Lawful K) {pp : CorePartialPosition}
    {p : Position} (h : Position.new E K pp = some p) : p.inner = PartialPosition.ofCore K pp := by
  rw [new_eq E hK] at h
  split at h
  · cases h; rfl
  · cases h

theorem new_states {E : Env} {K : Backend} (hK : Lawful K) {pp : CorePartialPosition}
    {p : Position} (h : Position.new E K pp = some p) :
    ∃ st, p.states = [st] ∧ st.attackInfo =
      AttackInfo.new K (AttackInfo.calculateCheckers K p.inner) p.inner := by
  rw [new_eq E hK] at h
  split at h
  · cases h; exact ⟨_, rfl, rfl⟩
  · cases h

/-! ## `do_move` -/

/-- The keys of the current state match board and hands, up to the parity of the moves made. -/
def KeyInv (E : Env) (odd : Bool) (p : Position) : Prop :=
  p.keys = some (boardHash E.zobBoard p.inner.board ^^^ (if odd then 1#64 else 0#64),
    handHash E.handTbl p.inner.spec.hand)

theorem keys_of_head {p : Position} {st : State} (h : p.states.head? = some st) :
    p.keys = some st.keys := by
  unfold Position.keys Position.state
  rw [h]; rfl

theorem zobHand_tbl {E : Env} {c : Color} {k : PieceKind} {n : Nat} {z : Key}
    (h : E.zobHand c k n = some z) : E.handTbl c k n = z := by
  unfold Env.handTbl; rw [h]; rfl

theorem hand_of_isHand {q : PartialPosition} {c : Color} {k : PieceKind}
    (hk : k.isHandPiece = true) : q.spec.hand c k = (q.hands c).cnt k := by
  simp [PartialPosition.spec, Hand.count, hk]

theorem added_isHand {h h' : Hand} {k : PieceKind} (e : h.added k = some h') :
    k.isHandPiece = true := by
  unfold Hand.added at e
  split at e
  · assumption
  · cases e

theorem xor_shuffle (a o s f t c : BitVec 64) :
    a ^^^ o ^^^ s ^^^ f ^^^ t ^^^ c = a ^^^ s ^^^ f ^^^ t ^^^ o ^^^ c := by
  rw [xor64_right_comm a o s, xor64_right_comm _ o f, xor64_right_comm _ o t]

theorem keyInv_doMove {E : Env} {K : Backend} {p p' : Position} {m : Move} {odd : Bool}
    (hs : GoodShape p.inner.board m) (hi : KeyInv E odd p) (hm : p.doMove E K m = some p') :
    KeyInv E (!odd) p' := by
  have hspec := spec_doMove hm
  have hboard : p'.inner.board = (apply p.inner.spec m).board := by rw [← hspec]; rfl
  have hpar : ∀ a : BitVec 64, a ^^^ (if odd = true then 1#64 else 0#64) ^^^ Key.COLOR =
      a ^^^ (if (!odd) = true then 1#64 else 0#64) := by
    intro a; cases odd <;> simp [Key.COLOR, BitVec.xor_assoc]
  cases m with
  | normal frm to promote =>
    obtain ⟨isCheck, st, piece, kq, target, ply, h1, hst, hpiece, hcap, htarget, hply, hin, hs'⟩ :=
      doMove_normal hm
    have hk : st.keys = (boardHash E.zobBoard p.inner.board ^^^ (if odd then 1#64 else 0#64),
        handHash E.handTbl p.inner.spec.hand) := by
      have := hi; unfold KeyInv at this; rw [keys_of_head hst] at this
      exact Option.some.inj this
    unfold KeyInv
    rw [keys_of_head (by rw [hs']; rfl)]
    have htk := targetPiece_eq htarget
    -- board part
    have hb : boardHash E.zobBoard p'.inner.board = boardHash E.zobBoard p.inner.board ^^^
        sqHash E.zobBoard to (p.inner.board to) ^^^ E.zobBoard frm piece ^^^
        E.zobBoard to target := by
      have e1 := boardHash_put E.zobBoard p.inner.board (put p.inner.board frm none) frm
        (fun t ht => put_other _ _ ht)
      have e2 := boardHash_put E.zobBoard (put p.inner.board frm none) p'.inner.board to
        (fun t ht => by rw [hboard]; simp only [apply, PartialPosition.spec, hpiece]; exact put_other _ _ ht)
      rw [e2, e1, put_same, put_other _ _ (Ne.symm hs), hpiece]
      have : p'.inner.board to = some target := by
        rw [hboard, htk]; simp only [apply, PartialPosition.spec, hpiece]; exact put_same _ _ _
      rw [this]
      simp only [sqHash, BitVec.xor_zero]
      rw [xor64_right_comm _ (E.zobBoard frm piece)]
    have hh : kq.1 = (st.keys.1 ^^^ sqHash E.zobBoard to (p.inner.board to),
        handHash E.handTbl p'.inner.spec.hand) := by
      have hhand : p'.inner.spec.hand = (apply p.inner.spec (.normal frm to promote)).hand := by
        rw [hspec]
      cases e : p.inner.board to with
      | none =>
        rw [e] at hcap
        have := doCapture_none hcap
        subst this
        rw [hhand]
        simp only [apply, PartialPosition.spec, hpiece, e, sqHash, BitVec.xor_zero]
        rw [hk]; rfl
      | some cp =>
        rw [e] at hcap
        obtain ⟨z, hand, hz, hadd, hkk, hkq⟩ := doCapture_some hcap
        rw [hkk, hk]
        have hisH : (base cp.kind).isHandPiece = true := added_isHand hadd
        have := handHash_update E.handTbl p.inner.spec.hand p'.inner.spec.hand p.inner.side
          (base cp.kind) hisH (by
            intro c' k' hne
            rw [hhand]
            simp only [apply, PartialPosition.spec, hpiece, e]
            refine if_neg ?_
            rintro ⟨rfl, rfl⟩; exact hne rfl)
        rw [this]
        have e2 : p'.inner.spec.hand p.inner.side (base cp.kind) =
            p.inner.spec.hand p.inner.side (base cp.kind) + 1 := by
          rw [hhand]; simp [apply, PartialPosition.spec, hpiece, e]
        have hz' : E.handTbl p.inner.side (base cp.kind)
            ((p.inner.hands p.inner.side).cnt (base cp.kind)) = z := zobHand_tbl hz
        rw [e2, cntHash_succ, hand_of_isHand hisH, hz']
        simp only [sqHash]
        congr 1
        rw [← BitVec.xor_assoc, xor64_cancel]
    rw [hh, hb]
    dsimp only
    rw [hk]
    dsimp only
    congr 2
    rw [← hpar]
    exact xor_shuffle _ _ _ _ _ _
  | drop to pc =>
    obtain ⟨isCheck, st, q, n, z, ply, h1, hst, hq, hn, hz, hply, hin, hs'⟩ := doMove_drop hm
    have hk : st.keys = (boardHash E.zobBoard p.inner.board ^^^ (if odd then 1#64 else 0#64),
        handHash E.handTbl p.inner.spec.hand) := by
      have := hi; unfold KeyInv at this; rw [keys_of_head hst] at this
      exact Option.some.inj this
    unfold KeyInv
    rw [keys_of_head (by rw [hs']; rfl)]
    have hb := boardHash_put E.zobBoard p.inner.board p'.inner.board to
        (fun t ht => by rw [hboard]; simp only [apply, PartialPosition.spec]; exact put_other _ _ ht)
    have hto : p'.inner.board to = some pc := by
      rw [hboard]; simp only [apply]; exact put_same _ _ _
    have hemp : p.inner.board to = none := hs
    rw [hto, hemp] at hb
    simp only [sqHash, BitVec.xor_zero] at hb
    simp only [Position.dropInner, Option.bind_eq_bind, Option.bind_eq_some_iff,
      Option.pure_def] at hq
    obtain ⟨hand, hrem, hq⟩ := hq
    cases hq
    have hisH := (Hand.cnt_pos_of_removed hrem).1
    have hpos := (Hand.cnt_pos_of_removed hrem).2
    have hhand : p'.inner.spec.hand = (apply p.inner.spec (.drop to pc)).hand := by
      rw [hspec]
    have hu := handHash_update E.handTbl p.inner.spec.hand p'.inner.spec.hand p.inner.side
      pc.kind hisH (by
        intro c' k' hne
        rw [hhand]
        simp only [apply]
        refine if_neg ?_
        rintro ⟨rfl, rfl⟩; exact hne rfl)
    have hcnt : p'.inner.spec.hand p.inner.side pc.kind + 1 =
        p.inner.spec.hand p.inner.side pc.kind := by
      rw [hhand]
      have : (apply p.inner.spec (.drop to pc)).hand p.inner.side pc.kind =
          p.inner.spec.hand p.inner.side pc.kind - 1 := by
        simp [apply, PartialPosition.spec]
      rw [this, hand_of_isHand hisH]
      have hp' : 0 < (p.inner.hands p.inner.side).cnt pc.kind := hpos
      omega
    have hn' : n = p'.inner.spec.hand p.inner.side pc.kind := by
      rw [hin]
      simp only [PartialPosition.spec]
      rw [hn]; rfl
    rw [hu, ← hcnt, cntHash_succ, hb, hk]
    dsimp only
    rw [← hn', zobHand_tbl hz]
    congr 2
    · rw [← hpar, xor64_right_comm _ _ (E.zobBoard to pc)]
    · apply BitVec.eq_of_getLsbD_eq
      intro i _
      simp only [BitVec.getLsbD_xor]
      cases (handHash E.handTbl p.inner.spec.hand).getLsbD i <;>
        cases (cntHash E.handTbl p.inner.side pc.kind n).getLsbD i <;> cases z.getLsbD i <;> rfl

end Yasai

import Verif.Proofs.SibWhite
import Verif.Props.Zobrist
import Verif.Props.Divide

/-!
# C58: different moves give different board keys
-/

set_option exponentiation.threshold 4000

namespace Yasai.Props

open Yasai Spec Proofs Lanes

theorem small_lt (n : Nat) : small n < 2 ^ 40 := by
  have : small n < 2 ^ 39 := Nat.mod_lt _ (by decide)
  omega

theorem sPack_lt (j : Nat) : sPack j < 2 ^ (40 * 81) := by
  rw [sPack]
  exact pack_lt (f := fun s => small (28 * s + j)) fun i _ => small_lt (28 * i + j)

theorem sCol_lt (j : Nat) : sCol j < 2 ^ (40 * 81) := by
  rw [sCol]
  cases Nat.beq j 28 with
  | false => rw [cond_false]; exact sPack_lt j
  | true => rw [cond_true]; exact Nat.two_pow_pos (40 * 81)

theorem lane_sCol {j : Nat} (hj : j ≠ 28) (s : Square) :
    lane 40 (sCol j) s.val = small (28 * s.val + j) := by
  have : Nat.beq j 28 = false := by
    cases h : Nat.beq j 28
    · rfl
    · exact absurd (Nat.eq_of_beq_eq_true h) hj
  rw [sCol, this, cond_false, sPack]
  exact lane_pack (f := fun s => small (28 * s + j)) (fun i _ => small_lt (28 * i + j)) s.isLt

theorem shifted_fits (a b o : Nat) : Fits 40 (shifted a b o) :=
  Nat.mod_lt _ (Nat.two_pow_pos _)

theorem lane_shifted (a b o i : Nat) (hi : i < 81 - o) :
    lane 40 (shifted a b o).2 i = lane 40 a i ^^^ lane 40 b (i + o) := by
  rw [shifted, lane_mod hi, lane_xor, lane_shiftRight]

theorem sblock_fits (c : Color) : ∀ b ∈ (skeys c).map (sblock (base14 c)), Fits 40 b := by
  intro b hb
  obtain ⟨x, _, rfl⟩ := List.mem_map.1 hb
  cases x with
  | drop k => rw [sblock]; exact sCol_lt _
  | quiet k o => rw [sblock]; exact shifted_fits ..
  | move q k k' up o =>
    rw [sblock]
    cases up
    · rw [cond_false]; exact shifted_fits ..
    · rw [cond_true]; exact shifted_fits ..

theorem skeys_nodup (c : Color) :
    ((skeys c).flatMap fun x => den 40 (sblock (base14 c) x)).Nodup := by
  have h : sibCheck c 220218 = true := by
    cases c
    · exact sibCheck_black
    · exact sibCheck_white
  have := nodup_of_cat (by omega) 20 network (sblock_fits c) 220218 h
  rwa [List.flatMap_map] at this

theorem skeys_inj {c : Color} {x y : SKey} (hx : x ∈ skeys c) (hy : y ∈ skeys c) {i j : Nat}
    (hi : i < (sblock (base14 c) x).1) (hj : j < (sblock (base14 c) y).1)
    (h : lane 40 (sblock (base14 c) x).2 i = lane 40 (sblock (base14 c) y).2 j) :
    x = y ∧ i = j := by
  have h1 := mem_den (w := 40) hi
  have h2 := mem_den (w := 40) hj
  rw [h] at h1
  have e := part_unique (skeys_nodup c) hx hy h1 h2
  subst e
  exact ⟨rfl, lane_inj (part_nodup (skeys_nodup c) hx) hi hj h⟩

/-! ## Values -/

/-- 39 bits of a word, without the lowest bit. -/
def low (x : BitVec 64) : Nat := (x.toNat >>> 1) % 2 ^ 39

theorem low_xor (a b : BitVec 64) : low (a ^^^ b) = low a ^^^ low b := by
  rw [low, half_xor, Nat.xor_mod_two_pow]; rfl

theorem low_zero : low 0#64 = 0 := rfl

theorem lane_scode (oc : Bool) (s : Square) (v : Option Piece) :
    lane 40 (sCol (codeOf v)) s.val = low (sqHash (stdEnv oc).zobBoard s v) := by
  cases v with
  | none => simp [codeOf, sCol, sqHash, lane_zero, low]
  | some p =>
    have hne := Nat.ne_of_lt (codeOf_some_lt p)
    rw [lane_sCol hne, sqHash, low, half_board, boardDraw, codeOf, small]
    congr 2
    omega

theorem codeOf_eq (k : PieceKind) (c : Color) : codeOf (some ⟨k, c⟩) = base14 c + kindNo k := by
  cases c <;> rfl

/-! ## Geometry -/

/-- The change of the square number is one that a piece of kind `k` can make. -/
def good (c : Color) (k : PieceKind) (x : Int) : Bool :=
  (decide (0 < x) && decide (x.toNat ∈ offs c true (kindNo k))) ||
    (decide (x < 0) && decide ((-x).toNat ∈ offs c false (kindNo k)))

theorem steps_good (c : Color) (k : PieceKind) :
    ∀ d ∈ steps k, good c k (9 * d.1 + fwd c * d.2) = true := by
  cases c <;> cases k <;> decide

theorem slides_good (c : Color) (k : PieceKind) : ∀ d ∈ slides k, ∀ n ∈ [1, 2, 3, 4, 5, 6, 7, 8],
    good c k (9 * ((n : Nat) * d.1) + (n : Nat) * (fwd c * d.2)) = true := by
  cases c <;> cases k <;> decide

theorem slides_unit (c : Color) (k : PieceKind) : ∀ d ∈ slides k,
    (d.1 = 0 ∨ d.1 = 1 ∨ d.1 = -1) ∧ (fwd c * d.2 = 0 ∨ fwd c * d.2 = 1 ∨ fwd c * d.2 = -1) ∧
      (d.1 ≠ 0 ∨ fwd c * d.2 ≠ 0) := by
  cases c <;> cases k <;> decide

theorem disp_val {s t : Square} {a b : Int} (h : Disp s t a b) :
    (t.val : Int) = s.val + (9 * a + b) := by
  obtain ⟨h1, h2⟩ := h
  have hs := s.isLt
  have ht := t.isLt
  unfold Square.file at h1
  unfold Square.rank at h2
  omega

theorem reaches_good {occ : Square → Prop} {k : PieceKind} {c : Color} {s t : Square}
    (h : Reaches occ k c s t) : good c k ((t.val : Int) - s.val) = true := by
  rcases h with ⟨d, hd, h⟩ | ⟨d, hd, n, hn, h, _⟩
  · have := disp_val h
    rw [show (t.val : Int) - s.val = 9 * d.1 + fwd c * d.2 by omega]
    exact steps_good c k d hd
  · have hv := disp_val h
    have hn8 : n ≤ 8 := by
      obtain ⟨h1, h2⟩ := h
      have hs := s.isLt
      have ht := t.isLt
      unfold Square.file at h1
      unfold Square.rank at h2
      obtain ⟨ha, hb, hc⟩ := slides_unit c k d hd
      rcases ha with ha | ha | ha <;> rcases hb with hb | hb | hb <;> rw [ha] at h1 hc <;>
        rw [hb] at h2 hc <;> omega
    rw [show (t.val : Int) - s.val = 9 * (n * d.1) + n * (fwd c * d.2) by omega]
    refine slides_good c k d hd n ?_
    have : n = 1 ∨ n = 2 ∨ n = 3 ∨ n = 4 ∨ n = 5 ∨ n = 6 ∨ n = 7 ∨ n = 8 := by omega
    rcases this with rfl | rfl | rfl | rfl | rfl | rfl | rfl | rfl <;> decide

theorem offs_abs (c : Color) (up : Bool) (k : PieceKind) :
    ∀ o ∈ offs c up (kindNo k), o ∈ absOffs (kindNo k) := by
  cases c <;> cases up <;> cases k <;> decide

/-! ## The change made by a move -/

theorem mem_kindNos (k : PieceKind) : kindNo k ∈ kindNos := by cases k <;> decide

theorem kindNo_inj {k k' : PieceKind} (h : kindNo k = kindNo k') : k = k' := by
  cases k <;> cases k' <;> first | rfl | (simp [kindNo] at h)

theorem mem_contents {c : Color} {v : Option Piece} (h : ∀ q, v = some q → q.color ≠ c) :
    codeOf v ∈ contents c := by
  cases v with
  | none => cases c <;> decide
  | some p =>
    obtain ⟨k, d⟩ := p
    have := h _ rfl
    cases c <;> cases d <;> first | exact absurd rfl this | (cases k <;> decide)

theorem promote_no {k k' : PieceKind} (h : k.promote = some k') : proNo (kindNo k) = [kindNo k'] ∧
    k ≠ k' := by
  cases k <;> cases h <;> decide

/-- The change of the board hash by a pseudo-legal move. -/
def change (oc : Bool) (P : Pos) : Move → BitVec 64
  | .normal frm to promote =>
    match P.board frm with
    | none => 0#64
    | some p => sqHash (stdEnv oc).zobBoard frm (some p) ^^^
        (sqHash (stdEnv oc).zobBoard to (some ⟨movedKind p.kind promote, p.color⟩) ^^^
          sqHash (stdEnv oc).zobBoard to (P.board to))
  | .drop to p => sqHash (stdEnv oc).zobBoard to (some p)

theorem boardHash_change (oc : Bool) {P : Pos} {m : Move} (h : PseudoLegal P m) :
    boardHash (stdEnv oc).zobBoard (apply P m).board =
      boardHash (stdEnv oc).zobBoard P.board ^^^ change oc P m := by
  cases m with
  | drop to p =>
    obtain ⟨_, _, _, he, _⟩ := h
    rw [boardHash_put _ P.board (apply P (.drop to p)).board to (fun t ht => by
      simp [apply, put, ht]), he]
    simp [apply, put, change, sqHash]
  | normal frm to promote =>
    obtain ⟨k, hk, hr, _⟩ := h
    have hne : frm ≠ to := reaches_ne hr
    have hb : (apply P (.normal frm to promote)).board =
        put (put P.board frm none) to (some ⟨movedKind k promote, P.side⟩) := by
      simp [apply, hk]
    rw [hb, boardHash_put _ (put P.board frm none) _ to (fun t ht => by simp [put, ht]),
      boardHash_put _ P.board (put P.board frm none) frm (fun t ht => by simp [put, ht])]
    simp only [change, hk]
    rw [show put P.board frm none frm = none by simp [put],
      show put P.board frm none to = P.board to by simp [put, hne.symm],
      show put (put P.board frm none) to (some ⟨movedKind k promote, P.side⟩) to =
        some ⟨movedKind k promote, P.side⟩ by simp [put]]
    simp only [show sqHash (stdEnv oc).zobBoard frm none = 0#64 from rfl, BitVec.xor_zero]
    rw [BitVec.xor_assoc, BitVec.xor_assoc,
      BitVec.xor_comm (sqHash _ to (P.board to))]

/-- The block and lane of the change made by a move. -/
def loc (P : Pos) : Move → SKey × Nat
  | .drop to p => (.drop (kindNo p.kind), to.val)
  | .normal frm to promote =>
    match P.board frm with
    | none => (.drop 0, 0)
    | some p =>
      if P.board to = none ∧ promote = false then
        (.quiet (kindNo p.kind) (max frm.val to.val - min frm.val to.val), min frm.val to.val)
      else if frm.val < to.val then
        (.move (codeOf (P.board to)) (kindNo p.kind) (kindNo (movedKind p.kind promote)) true
          (to.val - frm.val), frm.val)
      else
        (.move (codeOf (P.board to)) (kindNo p.kind) (kindNo (movedKind p.kind promote)) false
          (frm.val - to.val), to.val)

theorem mem_moveKeys {c : Color} {P : Pos} {to : Square} {k : PieceKind} {promote : Bool}
    (hcap : ∀ q, P.board to = some q → q.color ≠ c)
    (hpro : promote = true → k.promote ≠ none) (hq : ¬ (P.board to = none ∧ promote = false))
    {up : Bool} {o : Nat} (ho : o ∈ offs c up (kindNo k)) :
    SKey.move (codeOf (P.board to)) (kindNo k) (kindNo (movedKind k promote)) up o ∈ skeys c := by
  unfold skeys
  refine List.mem_append_right _ (List.mem_append_right _ ?_)
  refine List.mem_flatMap.2 ⟨_, mem_contents hcap, List.mem_flatMap.2 ⟨_, mem_kindNos k, ?_⟩⟩
  unfold moveKeys
  refine List.mem_flatMap.2 ⟨kindNo (movedKind k promote), ?_, ?_⟩
  · cases promote with
    | false =>
      have hne : P.board to ≠ none := fun h => hq ⟨h, rfl⟩
      have : Nat.beq (codeOf (P.board to)) 28 = false := by
        cases hb : Nat.beq (codeOf (P.board to)) 28
        · rfl
        · exact absurd (codeOf_inj (v' := none) (Nat.eq_of_beq_eq_true hb)) hne
      rw [this, cond_false]
      exact List.mem_cons_self
    | true =>
      obtain ⟨k', hk'⟩ := Option.ne_none_iff_exists'.1 (hpro rfl)
      have : movedKind k true = k' := by rw [← promoted_eq] at hk'; simp [movedKind, hk']
      rw [this]
      have hm : kindNo k' ∈ proNo (kindNo k) := by rw [(promote_no hk').1]; exact List.mem_cons_self
      cases Nat.beq (codeOf (P.board to)) 28
      · rw [cond_false]; exact List.mem_cons_of_mem _ hm
      · rw [cond_true]; exact hm
  · cases up
    · exact List.mem_append_right _ (List.mem_map.2 ⟨o, ho, rfl⟩)
    · exact List.mem_append_left _ (List.mem_map.2 ⟨o, ho, rfl⟩)

theorem loc_spec (oc : Bool) {P : Pos} {m : Move} (h : PseudoLegal P m) :
    (loc P m).1 ∈ skeys P.side ∧ (loc P m).2 < (sblock (base14 P.side) (loc P m).1).1 ∧
      lane 40 (sblock (base14 P.side) (loc P m).1).2 (loc P m).2 = low (change oc P m) := by
  cases m with
  | drop to p =>
    obtain ⟨hc, hk, _⟩ := h
    obtain ⟨k, c⟩ := p
    simp only at hc hk
    subst hc
    refine ⟨?_, to.isLt, ?_⟩
    · unfold skeys
      refine List.mem_append_left _ (List.mem_map.2 ⟨kindNo k, ?_, rfl⟩)
      revert hk
      cases k <;> simp [handKind, kindNo]
    · simp only [loc, sblock, change]
      rw [← codeOf_eq, lane_scode oc]
  | normal frm to promote =>
    obtain ⟨k, hk, hr, hcap, hpro, _⟩ := h
    have hf := frm.isLt
    have ht := to.isLt
    have hg := reaches_good hr
    simp only [good, Bool.or_eq_true, Bool.and_eq_true, decide_eq_true_eq] at hg
    have hpro' : promote = true → k.promote ≠ none := fun h => (hpro h).1
    by_cases hq : P.board to = none ∧ promote = false
    · obtain ⟨hq1, hq2⟩ := hq
      subst hq2
      have e : loc P (.normal frm to false) = (.quiet (kindNo k)
          (max frm.val to.val - min frm.val to.val), min frm.val to.val) := by
        simp [loc, hk, hq1]
      rw [e]
      have ho : max frm.val to.val - min frm.val to.val ∈ absOffs (kindNo k) := by
        rcases hg with ⟨h1, h2⟩ | ⟨h1, h2⟩
        · rw [show max frm.val to.val - min frm.val to.val = ((to.val : Int) - frm.val).toNat by omega]
          exact offs_abs _ _ k _ h2
        · rw [show max frm.val to.val - min frm.val to.val = (-((to.val : Int) - frm.val)).toNat by
            omega]
          exact offs_abs _ _ k _ h2
      refine ⟨?_, ?_, ?_⟩
      · unfold skeys
        refine List.mem_append_right _ (List.mem_append_left _ ?_)
        exact List.mem_flatMap.2 ⟨_, mem_kindNos k, List.mem_map.2 ⟨_, ho, rfl⟩⟩
      · simp only [sblock, shifted]; omega
      · simp only [sblock]
        rw [lane_shifted _ _ _ _ (by omega), ← codeOf_eq]
        have hch : change oc P (.normal frm to false) =
            sqHash (stdEnv oc).zobBoard frm (some ⟨k, P.side⟩) ^^^
              sqHash (stdEnv oc).zobBoard to (some ⟨k, P.side⟩) := by
          simp only [change, hk, hq1, movedKind]
          rw [show sqHash (stdEnv oc).zobBoard to none = 0#64 from rfl, BitVec.xor_zero]
          rfl
        rw [hch, low_xor, ← lane_scode, ← lane_scode]
        by_cases hlt : frm.val < to.val
        · rw [show min frm.val to.val = frm.val by omega,
            show frm.val + (max frm.val to.val - frm.val) = to.val by omega]
        · rw [show min frm.val to.val = to.val by omega,
            show to.val + (max frm.val to.val - to.val) = frm.val by omega, Nat.xor_comm]
    · have hch : low (change oc P (.normal frm to promote)) =
          lane 40 (sCol (codeOf (some ⟨k, P.side⟩))) frm.val ^^^
            lane 40 (sCol (codeOf (some ⟨movedKind k promote, P.side⟩)) ^^^ sCol (codeOf (P.board to)))
              to.val := by
        simp only [change, hk, low_xor, lane_xor, lane_scode oc]
      by_cases hlt : frm.val < to.val
      · have e : loc P (.normal frm to promote) = (.move (codeOf (P.board to)) (kindNo k)
            (kindNo (movedKind k promote)) true (to.val - frm.val), frm.val) := by
          simp only [loc, hk, if_neg hq, if_pos hlt]
        rw [e]
        have ho : to.val - frm.val ∈ offs P.side true (kindNo k) := by
          rcases hg with ⟨h1, h2⟩ | ⟨h1, h2⟩
          · rw [show to.val - frm.val = ((to.val : Int) - frm.val).toNat by omega]
            exact h2
          · omega
        refine ⟨mem_moveKeys hcap hpro' hq ho, ?_, ?_⟩
        · simp only [sblock, cond_true, shifted]; omega
        · simp only [sblock, cond_true]
          rw [lane_shifted _ _ _ _ (by omega), ← codeOf_eq, ← codeOf_eq, hch,
            show frm.val + (to.val - frm.val) = to.val by omega]
      · have e : loc P (.normal frm to promote) = (.move (codeOf (P.board to)) (kindNo k)
            (kindNo (movedKind k promote)) false (frm.val - to.val), to.val) := by
          simp only [loc, hk, if_neg hq, if_neg hlt]
        rw [e]
        have ho : frm.val - to.val ∈ offs P.side false (kindNo k) := by
          rcases hg with ⟨h1, h2⟩ | ⟨h1, h2⟩
          · omega
          · rw [show frm.val - to.val = (-((to.val : Int) - frm.val)).toNat by omega]
            exact h2
        refine ⟨mem_moveKeys hcap hpro' hq ho, ?_, ?_⟩
        · simp only [sblock, cond_false, shifted]; omega
        · simp only [sblock, cond_false]
          rw [lane_shifted _ _ _ _ (by omega), ← codeOf_eq, ← codeOf_eq, hch,
            show to.val + (frm.val - to.val) = frm.val by omega, Nat.xor_comm]

theorem movedKind_inj {k : PieceKind} {a b : Bool} (ha : a = true → k.promote ≠ none)
    (hb : b = true → k.promote ≠ none) (h : kindNo (movedKind k a) = kindNo (movedKind k b)) :
    a = b := by
  have h' := kindNo_inj h
  revert h' ha hb
  cases a <;> cases b <;> cases k <;> simp [movedKind, promoted, PieceKind.promote]

theorem loc_inj {P : Pos} {m m' : Move} (h : PseudoLegal P m) (h' : PseudoLegal P m')
    (e : loc P m = loc P m') : m = m' := by
  cases m with
  | drop to p =>
    cases m' with
    | drop to' p' =>
      obtain ⟨hc, _⟩ := h
      obtain ⟨hc', _⟩ := h'
      obtain ⟨k, c⟩ := p
      obtain ⟨k', c'⟩ := p'
      simp only [loc, Prod.mk.injEq, SKey.drop.injEq] at e hc hc'
      rw [Fin.ext e.2, kindNo_inj e.1, hc, hc']
    | normal frm' to' promote' =>
      obtain ⟨k', hk', _⟩ := h'
      simp only [loc, hk'] at e
      split at e
      · simp at e
      · split at e <;> simp at e
  | normal frm to promote =>
    obtain ⟨k, hk, hr, hcap, hpro, _⟩ := h
    cases m' with
    | drop to' p' =>
      simp only [loc, hk] at e
      split at e
      · simp at e
      · split at e <;> simp at e
    | normal frm' to' promote' =>
      obtain ⟨k', hk', hr', hcap', hpro', _⟩ := h'
      simp only [loc, hk, hk'] at e
      have hne : frm.val ≠ to.val := fun h => reaches_ne hr (Fin.ext h)
      have hne' : frm'.val ≠ to'.val := fun h => reaches_ne hr' (Fin.ext h)
      have fin : frm.val = frm'.val → to.val = to'.val →
          kindNo (movedKind k promote) = kindNo (movedKind k' promote') →
          Move.normal frm to promote = .normal frm' to' promote' := by
        intro hf ht hm
        have hf' := Fin.ext hf
        have ht' := Fin.ext ht
        subst hf' ht'
        rw [hk] at hk'
        cases hk'
        rw [movedKind_inj (fun h => (hpro h).1) (fun h => (hpro' h).1) hm]
      by_cases hq : P.board to = none ∧ promote = false <;>
        by_cases hq' : P.board to' = none ∧ promote' = false
      · rw [if_pos hq, if_pos hq'] at e
        simp only [Prod.mk.injEq, SKey.quiet.injEq] at e
        obtain ⟨⟨ek, eo⟩, ei⟩ := e
        by_cases hlt : frm.val < to.val <;> by_cases hlt' : frm'.val < to'.val
        · refine fin (by omega) (by omega) ?_
          rw [hq.2, hq'.2]; exact ek
        · have : frm = to' := Fin.ext (by omega)
          rw [← this, hk] at hq'
          cases hq'.1
        · have : frm = to' := Fin.ext (by omega)
          rw [← this, hk] at hq'
          cases hq'.1
        · refine fin (by omega) (by omega) ?_
          rw [hq.2, hq'.2]; exact ek
      · rw [if_pos hq, if_neg hq'] at e
        split at e <;> simp at e
      · rw [if_neg hq, if_pos hq'] at e
        split at e <;> simp at e
      · rw [if_neg hq, if_neg hq'] at e
        by_cases hlt : frm.val < to.val <;> by_cases hlt' : frm'.val < to'.val
        · rw [if_pos hlt, if_pos hlt'] at e
          simp only [Prod.mk.injEq, SKey.move.injEq] at e
          exact fin (by omega) (by omega) e.1.2.2.1
        · rw [if_pos hlt, if_neg hlt'] at e
          simp at e
        · rw [if_neg hlt, if_pos hlt'] at e
          simp at e
        · rw [if_neg hlt, if_neg hlt'] at e
          simp only [Prod.mk.injEq, SKey.move.injEq] at e
          exact fin (by omega) (by omega) e.1.2.2.1

/-- The changes made by two different pseudo-legal moves differ. -/
theorem change_inj (oc : Bool) {P : Pos} {m m' : Move} (h : PseudoLegal P m)
    (h' : PseudoLegal P m') (e : low (change oc P m) = low (change oc P m')) : m = m' := by
  obtain ⟨h1, h2, h3⟩ := loc_spec oc h
  obtain ⟨h1', h2', h3'⟩ := loc_spec oc h'
  rw [← h3, ← h3'] at e
  obtain ⟨e1, e2⟩ := skeys_inj h1 h1' h2 h2' e
  exact loc_inj h h' (Prod.ext e1 e2)

/-- C58.  With the table of the code, two different pseudo-legal moves in the same position lead to
different first keys `keys().0`, whatever the history and even when the bit for the side to move is
ignored. -/
theorem C58_siblings_differ (oc : Bool) (K : Backend) (hK : K ∈ backends)
    (pp : CorePartialPosition) (ms : List Move) (p : Position)
    (h : Visited (stdEnv oc) K pp ms p) (m m' : Move) (hm : PseudoLegal (view p) m)
    (hm' : PseudoLegal (view p) m') (hne : m ≠ m') (q q' : Position)
    (hq : p.doMove (stdEnv oc) K m = some q) (hq' : p.doMove (stdEnv oc) K m' = some q') :
    ∃ k k', q.keys = some k ∧ q'.keys = some k' ∧ k.1.toNat / 2 ≠ k'.1.toNat / 2 := by
  have step : ∀ m q, PseudoLegal (view p) m → p.doMove (stdEnv oc) K m = some q →
      ∃ k, q.keys = some k ∧ k.1.toNat >>> 1 = (boardHash (stdEnv false).zobBoard
        (view p).board ^^^ change false (view p) m).toNat >>> 1 := by
    intro m q hm hq
    obtain ⟨p0, h0, hs⟩ := h
    obtain ⟨a, b, hkeys, _, ha, _⟩ := key_visited hK
      ⟨p0, h0, hs.move (shape_of_pseudoLegal hm) hq⟩
    refine ⟨(a, b), hkeys, ?_⟩
    rw [ha, ← boardHash_change false hm, view_eq, view_eq, spec_doMove hq]
  obtain ⟨k, hk, e⟩ := step m q hm hq
  obtain ⟨k', hk', e'⟩ := step m' q' hm' hq'
  refine ⟨k, k', hk, hk', fun he => hne (change_inj false hm hm' ?_)⟩
  have he' : k.1.toNat >>> 1 = k'.1.toNat >>> 1 := he
  rw [e, e', half_xor, half_xor] at he'
  have := congrArg ((boardHash (stdEnv false).zobBoard (view p).board).toNat >>> 1 ^^^ ·) he'
  simp only [← Nat.xor_assoc, Nat.xor_self, Nat.zero_xor] at this
  rw [low, low, this]

/-- C58 for `legal_moves()`: the positions after the listed moves have pairwise different first
keys. -/
theorem C58_legal_moves_keys (oc : Bool) (K : Backend) (hK : K ∈ backends)
    (pp : CorePartialPosition) (hv : Valid (rootView pp)) (ms : List Move) (p : Position)
    (h : Reached (stdEnv oc) K pp ms p) (l : List Move)
    (hl : p.legalMoves (stdEnv oc) K = some l) :
    l.Pairwise fun m m' => ∀ q q', p.doMove (stdEnv oc) K m = some q →
      p.doMove (stdEnv oc) K m' = some q' →
        ∃ k k', q.keys = some k ∧ q'.keys = some k' ∧ k.1.toNat / 2 ≠ k'.1.toNat / 2 := by
  obtain ⟨hnd, hmem⟩ := legalMoves_exact hK hv h hl
  refine hnd.imp_of_mem fun {m m'} hm hm' hne q q' hq hq' => ?_
  exact C58_siblings_differ oc K hK pp ms p h.visited m m' ((hmem m).1 hm).1.1
    ((hmem m').1 hm').1.1 hne q q' hq hq'

open Yasai.Examples

/-- Hypotheses of C58 are met: the initial position, the moves 7g7f and 2g2f. -/
example (oc : Bool) (K : Backend) (hK : K ∈ backends) : ∃ p q q',
    Visited (stdEnv oc) K startpos [] p ∧ PseudoLegal (view p) (.normal 60 59 false) ∧
      PseudoLegal (view p) (.normal 15 14 false) ∧
      p.doMove (stdEnv oc) K (.normal 60 59 false) = some q ∧
      p.doMove (stdEnv oc) K (.normal 15 14 false) = some q' := by
  obtain ⟨p, hp⟩ : ∃ p, Position.new (stdEnv oc) K startpos = some p :=
    new_startpos _ K hK .black
  have hr : Reached (stdEnv oc) K startpos [] p := ⟨p, hp, .start⟩
  have hv : view p = rootView startpos := view_new hK hp
  have l1 : Legal (view p) (.normal 60 59 false) := by
    rw [hv]; decide +kernel
  have l2 : Legal (view p) (.normal 15 14 false) := by
    rw [hv]; decide +kernel
  obtain ⟨_, _, _, _, _, hdo, _⟩ := C21_calls_return _ _ hK _ startpos_standard _ p hr
  have hply : p.ply ≠ 65535#16 := by
    rw [show p.ply = 1#16 from (C35_new_reproduces _ _ hK _ p hp).2.2.2]; decide
  obtain ⟨q, hq⟩ := hdo _ ((listed_iff hK startpos_standard hr _).2 l1) fun _ => hply
  obtain ⟨q', hq'⟩ := hdo _ ((listed_iff hK startpos_standard hr _).2 l2) fun _ => hply
  exact ⟨p, q, q', hr.visited, l1.1.1, l2.1.1, hq, hq'⟩

end Yasai.Props

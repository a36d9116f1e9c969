import Verif.Model.Movegen
import Verif.Proofs.Tables
import Verif.Proofs.Undo
import Verif.Proofs.Safety

/-!
# Bitboards represent the board; attack lookups follow the rules
-/

namespace Yasai

open Spec

/-- The bitboards of a position agree with its board. -/
structure Repr (q : PartialPosition) : Prop where
  okPlayer : ∀ c, Ok (q.playerBB c)
  okPiece : ∀ k, Ok (q.pieceBB k)
  player : ∀ c s, mem (q.playerBB c) s = true ↔ ∃ k, q.board s = some ⟨k, c⟩
  piece : ∀ k s, mem (q.pieceBB k) s = true ↔ ∃ c, q.board s = some ⟨k, c⟩

/-- The bitboards of a position hold squares only (they need not agree with its board). -/
structure OkBoards (q : PartialPosition) : Prop where
  okPlayer : ∀ c, Ok (q.playerBB c)
  okPiece : ∀ k, Ok (q.pieceBB k)

theorem Repr.okBoards {q : PartialPosition} (h : Repr q) : OkBoards q := ⟨h.okPlayer, h.okPiece⟩

instance {q : PartialPosition} : Coe (Repr q) (OkBoards q) := ⟨Repr.okBoards⟩

/-- The position as the rules see it. -/
def PartialPosition.spec (q : PartialPosition) : Pos where
  board := q.board
  hand c k := ((q.hands c).count k).getD 0
  side := q.side

namespace Repr

theorem player_some {q : PartialPosition} (h : Repr q) {s : Square} {p : Piece}
    (hs : q.board s = some p) (c : Color) : mem (q.playerBB c) s = decide (p.color = c) := by
  rw [Bool.eq_iff_iff, h.player, hs, decide_eq_true_eq]
  constructor
  · rintro ⟨k, e⟩; cases e; rfl
  · rintro rfl; exact ⟨p.kind, rfl⟩

theorem piece_some {q : PartialPosition} (h : Repr q) {s : Square} {p : Piece}
    (hs : q.board s = some p) (k : PieceKind) : mem (q.pieceBB k) s = decide (p.kind = k) := by
  rw [Bool.eq_iff_iff, h.piece, hs, decide_eq_true_eq]
  constructor
  · rintro ⟨k, e⟩; cases e; rfl
  · rintro rfl; exact ⟨p.color, rfl⟩

theorem player_none {q : PartialPosition} (h : Repr q) {s : Square}
    (hs : q.board s = none) (c : Color) : mem (q.playerBB c) s = false := by
  rw [← Bool.not_eq_true, h.player, hs]
  rintro ⟨k, e⟩; cases e

theorem piece_none {q : PartialPosition} (h : Repr q) {s : Square}
    (hs : q.board s = none) (k : PieceKind) : mem (q.pieceBB k) s = false := by
  rw [← Bool.not_eq_true, h.piece, hs]
  rintro ⟨k, e⟩; cases e

theorem occ {K : Backend} (hK : Lawful K) {q : PartialPosition} (h : Repr q) (s : Square) :
    mem (q.occupiedBB K) s = true ↔ Occ q.board s := by
  unfold PartialPosition.occupiedBB Occ
  rw [hK.or, mem_or, Bool.or_eq_true]
  cases e : q.board s with
  | none => simp [h.player_none e]
  | some p =>
    rw [h.player_some e, h.player_some e]
    cases p.color <;> simp

theorem ok_occ {K : Backend} (hK : Lawful K) {q : PartialPosition} (h : Repr q) :
    Ok (q.occupiedBB K) := by
  unfold PartialPosition.occupiedBB
  rw [hK.or]
  exact ok_or (h.okPlayer _) (h.okPlayer _)

theorem occ_fun {K : Backend} (hK : Lawful K) {q : PartialPosition} (h : Repr q) :
    (fun u => mem (q.occupiedBB K) u = true) = Occ q.board :=
  funext fun u => propext (h.occ hK u)

/-- `king_position` finds the king. -/
theorem kingPosition {K : Backend} (hK : Lawful K) {q : PartialPosition} (h : Repr q) (c : Color)
    (h1 : ∀ s t, q.board s = some ⟨.king, c⟩ → q.board t = some ⟨.king, c⟩ → s = t) (s : Square) :
    q.kingPosition K c = some s ↔ q.board s = some ⟨.king, c⟩ := by
  have hm : ∀ s, mem (q.playerBB c &&& q.pieceBB .king) s = true ↔ q.board s = some ⟨.king, c⟩ := by
    intro s
    rw [mem_and, Bool.and_eq_true, h.player, h.piece]
    constructor
    · rintro ⟨⟨k, e1⟩, ⟨c', e2⟩⟩
      rw [e1] at e2; cases e2; exact e1
    · intro e; exact ⟨⟨_, e⟩, ⟨_, e⟩⟩
  unfold PartialPosition.kingPosition
  rw [hK.and, hK.iter _ (ok_and_left _ (h.okPlayer c))]
  constructor
  · intro e
    have := List.mem_of_head? e
    rw [List.mem_filter] at this
    exact (hm s).1 this.2
  · intro e
    have hs : s ∈ Square.all.filter (mem (q.playerBB c &&& q.pieceBB .king)) := by
      rw [List.mem_filter]; exact ⟨mem_all s, (hm s).2 e⟩
    cases hl : Square.all.filter (mem (q.playerBB c &&& q.pieceBB .king)) with
    | nil => rw [hl] at hs; cases hs
    | cons x l =>
      have hx : x ∈ Square.all.filter (mem (q.playerBB c &&& q.pieceBB .king)) := by
        rw [hl]; exact List.mem_cons_self
      rw [List.mem_filter] at hx
      rw [List.head?_cons, h1 x s ((hm x).1 hx.2) e]

theorem kingPosition_none {K : Backend} (hK : Lawful K) {q : PartialPosition} (h : Repr q)
    (c : Color)
    (h1 : ∀ s t, q.board s = some ⟨.king, c⟩ → q.board t = some ⟨.king, c⟩ → s = t) :
    q.kingPosition K c = none ↔ ∀ s, q.board s ≠ some ⟨.king, c⟩ := by
  constructor
  · intro e s hs
    rw [← h.kingPosition hK c h1 s, e] at hs; cases hs
  · intro e
    cases hk : q.kingPosition K c with
    | none => rfl
    | some s => exact absurd ((h.kingPosition hK c h1 s).1 hk) (e s)

end Repr

/-! ## Reverse lookups -/

theorem step_king_iff {c : Color} {s t : Square} :
    Step .king c s t ↔ Step .silver c s t ∨ Step .gold c s t := by
  unfold Step
  constructor
  · rintro ⟨d, hd, h⟩
    have : d ∈ steps .silver ∨ d ∈ steps .gold := by
      exact (by decide : ∀ d ∈ steps .king, d ∈ steps .silver ∨ d ∈ steps .gold) d hd
    rcases this with h' | h'
    · exact .inl ⟨d, h', h⟩
    · exact .inr ⟨d, h', h⟩
  · rintro (⟨d, hd, h⟩ | ⟨d, hd, h⟩)
    · exact ⟨d, (by decide : ∀ d ∈ steps .silver, d ∈ steps .king) d hd, h⟩
    · exact ⟨d, (by decide : ∀ d ∈ steps .gold, d ∈ steps .king) d hd, h⟩

theorem step_of_slide {k : PieceKind} {c : Color} {d : Int × Int} (hd : d ∈ slides k)
    {s t : Square} (h : Disp s t d.1 (fwd c * d.2)) :
    Slide k c s t ∧ ∀ u, ¬ Between s u t := by
  have h' : Disp s t (((1 : Nat) : Int) * (d.1, fwd c * d.2).1)
      (((1 : Nat) : Int) * (d.1, fwd c * d.2).2) := by simpa using h
  refine ⟨⟨d, hd, 1, by omega, h'⟩, fun u hu => ?_⟩
  rw [between_of_ray (slide_dir hd) (by omega) h'] at hu
  obtain ⟨m, hm, hm', _⟩ := hu
  omega

theorem reaches_proRook {occ : BB} {c : Color} {s t : Square} :
    Reaches (fun u => mem occ u = true) .proRook c s t ↔
      Step .silver c s t ∨ (Slide .rook c s t ∧ Clear occ s t) := by
  rw [reaches_mem]
  constructor
  · rintro (⟨d, hd, h⟩ | h)
    · have : d ∈ steps .silver ∨ d ∈ slides .rook :=
        (by decide : ∀ d ∈ steps .proRook, d ∈ steps .silver ∨ d ∈ slides .rook) d hd
      rcases this with h' | h'
      · exact .inl ⟨d, h', h⟩
      · obtain ⟨h1, h2⟩ := step_of_slide (c := c) h' h
        exact .inr ⟨h1, fun u hu => absurd hu (h2 u)⟩
    · exact .inr h
  · rintro (⟨d, hd, h⟩ | h)
    · exact .inl ⟨d, (by decide : ∀ d ∈ steps .silver, d ∈ steps .proRook) d hd, h⟩
    · exact .inr h

theorem reaches_proBishop {occ : BB} {c : Color} {s t : Square} :
    Reaches (fun u => mem occ u = true) .proBishop c s t ↔
      Step .gold c s t ∨ (Slide .bishop c s t ∧ Clear occ s t) := by
  rw [reaches_mem]
  constructor
  · rintro (⟨d, hd, h⟩ | h)
    · have : d ∈ steps .gold ∨ d ∈ slides .bishop :=
        (by decide : ∀ d ∈ steps .proBishop, d ∈ steps .gold ∨ d ∈ slides .bishop) d hd
      rcases this with h' | h'
      · exact .inl ⟨d, h', h⟩
      · obtain ⟨h1, h2⟩ := step_of_slide (c := c) h' h
        exact .inr ⟨h1, fun u hu => absurd hu (h2 u)⟩
    · exact .inr h
  · rintro (⟨d, hd, h⟩ | h)
    · exact .inl ⟨d, (by decide : ∀ d ∈ steps .gold, d ∈ steps .proBishop) d hd, h⟩
    · exact .inr h

/-- The lookups of the tables from the target square, by kind. -/
theorem rev_attack {K : Backend} (hK : Lawful K) (c : Color) (to s : Square) (occ : BB)
    (k : PieceKind) :
    Reaches (fun u => mem occ u = true) k c s to ↔
      match k with
      | .pawn => mem (fuAttack K to c.flip) s = true
      | .lance => mem (kyAttack K to c.flip occ) s = true
      | .knight => mem (keAttack K to c.flip) s = true
      | .silver => mem (giAttack K to c.flip) s = true
      | .gold | .proPawn | .proLance | .proKnight | .proSilver => mem (kiAttack K to c.flip) s = true
      | .bishop => mem (kaAttack K to occ) s = true
      | .rook => mem (hiAttack K to occ) s = true
      | .king => mem (giAttack K to c.flip) s = true ∨ mem (kiAttack K to c.flip) s = true
      | .proBishop => mem (kaAttack K to occ) s = true ∨ mem (kiAttack K to c.flip) s = true
      | .proRook => mem (hiAttack K to occ) s = true ∨ mem (giAttack K to c.flip) s = true := by
  rw [reaches_comm]
  cases k <;> dsimp only
  case king =>
    rw [mem_giAttack hK, mem_kiAttack hK, ← step_king_iff, reaches_mem]
    constructor
    · rintro (h | h)
      · exact h
      · exact absurd h.1 (not_slide rfl _ _ _)
    · exact .inl
  case proBishop =>
    rw [reaches_proBishop, (kaAttack_spec hK to occ c.flip).2, mem_kiAttack hK, or_comm]
  case proRook =>
    rw [reaches_proRook, (hiAttack_spec hK to occ c.flip).2, mem_giAttack hK, or_comm]
  all_goals rw [← mem_tableAttack hK]; rfl

/-- `attackers_to`. -/
theorem mem_attackersTo {K : Backend} (hK : Lawful K) {q : PartialPosition} (h : Repr q)
    (c : Color) (to : Square) (occ : BB) (s : Square) :
    mem (q.attackersTo K c to occ) s = true ↔
      ∃ k, q.board s = some ⟨k, c⟩ ∧ Reaches (fun u => mem occ u = true) k c s to := by
  unfold PartialPosition.attackersTo
  dsimp only
  simp only [hK.and, hK.or, mem_and, mem_or]
  cases e : q.board s with
  | none => simp [h.player_none e]
  | some p =>
    obtain ⟨k, c'⟩ := p
    simp only [h.player_some e, h.piece_some e]
    by_cases hc : c' = c
    · subst hc
      have : (∃ k', some (⟨k, c'⟩ : Piece) = some ⟨k', c'⟩ ∧
          Reaches (fun u => mem occ u = true) k' c' s to) ↔
          Reaches (fun u => mem occ u = true) k c' s to := by
        constructor
        · rintro ⟨k', e', h'⟩; cases e'; exact h'
        · intro h'; exact ⟨k, rfl, h'⟩
      rw [this, rev_attack hK]
      cases k <;> simp <;> exact or_comm
    · simp [hc]

theorem ok_attackersTo {K : Backend} (hK : Lawful K) {q : PartialPosition} (h : Repr q)
    (c : Color) (to : Square) (occ : BB) : Ok (q.attackersTo K c to occ) := by
  unfold PartialPosition.attackersTo
  dsimp only
  rw [hK.and]
  exact ok_and_right _ (h.okPlayer c)

/-- `attackers_to_except_klp`. -/
theorem mem_attackersToExceptKlp {K : Backend} (hK : Lawful K) {q : PartialPosition} (h : Repr q)
    (c : Color) (to : Square) (s : Square) :
    mem (q.attackersToExceptKlp K c to) s = true ↔
      ∃ k, q.board s = some ⟨k, c⟩ ∧ k ≠ .king ∧ k ≠ .lance ∧ k ≠ .pawn ∧
        Reaches (Occ q.board) k c s to := by
  unfold PartialPosition.attackersToExceptKlp
  dsimp only
  simp only [hK.and, hK.or, mem_and, mem_or]
  cases e : q.board s with
  | none => simp [h.player_none e]
  | some p =>
    obtain ⟨k, c'⟩ := p
    simp only [h.player_some e, h.piece_some e]
    by_cases hc : c' = c
    · subst hc
      have : (∃ k', some (⟨k, c'⟩ : Piece) = some ⟨k', c'⟩ ∧ k' ≠ .king ∧ k' ≠ .lance ∧
          k' ≠ .pawn ∧ Reaches (Occ q.board) k' c' s to) ↔
          k ≠ .king ∧ k ≠ .lance ∧ k ≠ .pawn ∧ Reaches (Occ q.board) k c' s to := by
        constructor
        · rintro ⟨k', e', h'⟩; cases e'; exact h'
        · intro h'; exact ⟨k, rfl, h'⟩
      rw [this, ← h.occ_fun hK, rev_attack hK]
      cases k <;> simp <;> exact or_comm
    · simp [hc]

theorem ok_attackersToExceptKlp {K : Backend} (hK : Lawful K) {q : PartialPosition} (h : Repr q)
    (c : Color) (to : Square) : Ok (q.attackersToExceptKlp K c to) := by
  unfold PartialPosition.attackersToExceptKlp
  dsimp only
  rw [hK.and]
  exact ok_and_right _ (h.okPlayer c)

/-- `calculate_checkers` when the king of the side to move is on `king`. -/
theorem mem_calculateCheckers {K : Backend} (hK : Lawful K) {q : PartialPosition} (h : Repr q)
    {king : Square} (hk : q.kingPosition K q.side = some king) (s : Square) :
    mem (AttackInfo.calculateCheckers K q) s = true ↔
      ∃ k, q.board s = some ⟨k, q.side.flip⟩ ∧ k ≠ .king ∧
        Reaches (Occ q.board) k q.side.flip s king := by
  unfold AttackInfo.calculateCheckers
  dsimp only
  rw [hk]
  simp only [hK.and, hK.or, mem_and, mem_or]
  cases e : q.board s with
  | none => simp [h.player_none e]
  | some p =>
    obtain ⟨k, c'⟩ := p
    simp only [h.player_some e, h.piece_some e]
    by_cases hc : c' = q.side.flip
    · subst hc
      have : (∃ k', some (⟨k, q.side.flip⟩ : Piece) = some ⟨k', q.side.flip⟩ ∧ k' ≠ .king ∧
          Reaches (Occ q.board) k' q.side.flip s king) ↔
          k ≠ .king ∧ Reaches (Occ q.board) k q.side.flip s king := by
        constructor
        · rintro ⟨k', e', h'⟩; cases e'; exact h'
        · intro h'; exact ⟨k, rfl, h'⟩
      rw [this, ← h.occ_fun hK, rev_attack hK, flip_flip]
      cases k <;> simp <;> exact or_comm
    · simp [hc]

theorem calculateCheckers_none {K : Backend} {q : PartialPosition}
    (hk : q.kingPosition K q.side = none) : AttackInfo.calculateCheckers K q = K.empty := by
  unfold AttackInfo.calculateCheckers
  dsimp only
  rw [hk]

theorem ok_calculateCheckers {K : Backend} (hK : Lawful K) {q : PartialPosition} (h : OkBoards q) :
    Ok (AttackInfo.calculateCheckers K q) := by
  unfold AttackInfo.calculateCheckers
  dsimp only
  split
  · rw [hK.and]; exact ok_and_right _ (h.okPlayer _)
  · rw [hK.empty]; exact ok_zero

/-- The checkable squares when the enemy king is on `king`. -/
theorem checkablesOf_spec {K : Backend} (hK : Lawful K) {q : PartialPosition} (h : Repr q)
    {king : Square} (hk : q.kingPosition K q.side.flip = some king) (k : PieceKind) :
    Ok (AttackInfo.checkablesOf K q k) ∧
    ∀ t, mem (AttackInfo.checkablesOf K q k) t = true ↔
      k ≠ .king ∧ Reaches (Occ q.board) k q.side t king := by
  unfold AttackInfo.checkablesOf
  rw [hk]
  refine ⟨?_, fun t => ?_⟩
  · cases k <;> dsimp only
    case lance => exact (kyAttack_spec hK _ _ _).1
    case bishop => exact (kaAttack_spec hK _ _ q.side).1
    case rook => exact (hiAttack_spec hK _ _ q.side).1
    case king => rw [hK.empty]; exact ok_zero
    case proBishop =>
      rw [hK.or]; exact ok_or (kaAttack_spec hK _ _ q.side).1 (ok_pieceAttack hK _ _ _)
    case proRook =>
      rw [hK.or]; exact ok_or (hiAttack_spec hK _ _ q.side).1 (ok_pieceAttack hK _ _ _)
    all_goals exact ok_pieceAttack hK _ _ _
  · rw [← h.occ_fun hK, rev_attack hK]
    cases k <;> simp [hK.or, hK.empty]

theorem checkablesOf_none {K : Backend} {q : PartialPosition}
    (hk : q.kingPosition K q.side.flip = none) (k : PieceKind) :
    AttackInfo.checkablesOf K q k = K.empty := by
  unfold AttackInfo.checkablesOf
  rw [hk]

/-! ## Pins -/

theorem mem_snipers {K : Backend} (hK : Lawful K) {q : PartialPosition} (h : Repr q)
    (c : Color) (king s : Square) :
    mem (AttackInfo.snipers K q c king) s = true ↔ Sniper q.board c king s := by
  unfold AttackInfo.snipers Sniper
  simp only [hK.and, hK.or, mem_and, mem_or, tablePseudoAttack]
  cases e : q.board s with
  | none => simp [h.player_none e]
  | some p =>
    obtain ⟨k, c'⟩ := p
    simp only [h.player_some e, h.piece_some e, Bool.and_eq_true, Bool.or_eq_true,
      (kyPseudo_spec hK king c).2, (kaPseudo_spec hK king c).2, (hiPseudo_spec hK king c).2]
    by_cases hc : c' = c.flip
    · subst hc
      have : (∃ k', some (⟨k, c.flip⟩ : Piece) = some ⟨k', c.flip⟩ ∧
          Slide k' c.flip s king) ↔ Slide k c.flip s king := by
        constructor
        · rintro ⟨k', e', h'⟩; cases e'; exact h'
        · intro h'; exact ⟨k, rfl, h'⟩
      rw [this, ← slide_comm]
      cases k <;> simp [slide_proBishop, slide_proRook] <;> exact not_slide rfl _ _ _
    · simp [hc]

theorem ok_snipers {K : Backend} (hK : Lawful K) {q : PartialPosition} (h : OkBoards q)
    (c : Color) (king : Square) : Ok (AttackInfo.snipers K q c king) := by
  unfold AttackInfo.snipers
  rw [hK.and]
  exact ok_and_right _ (h.okPlayer _)

theorem countP_eq_one {p : Square → Bool} :
    Square.all.countP p = 1 ↔ ∃ x, p x = true ∧ ∀ y, p y = true → y = x := by
  have hnd : Square.all.Nodup := by unfold Square.all; exact List.nodup_finRange 81
  rw [List.countP_eq_length_filter]
  constructor
  · intro h
    rw [List.length_eq_one_iff] at h
    obtain ⟨x, hx⟩ := h
    have h1 : ∀ y, y ∈ Square.all.filter p ↔ y = x := by intro y; rw [hx]; simp
    simp only [List.mem_filter, mem_all, true_and] at h1
    exact ⟨x, (h1 x).2 rfl, fun y hy => (h1 y).1 hy⟩
  · rintro ⟨x, hx, hu⟩
    have h1 : Square.all.filter p = [x] := by
      have hn : (Square.all.filter p).Nodup := hnd.filter _
      have hm : ∀ y, y ∈ Square.all.filter p ↔ y = x := by
        intro y; simp only [List.mem_filter, mem_all, true_and]
        exact ⟨hu y, by rintro rfl; exact hx⟩
      match hl : Square.all.filter p with
      | [] => rw [hl] at hm; exact absurd ((hm x).2 rfl) List.not_mem_nil
      | [y] => rw [hl] at hm; rw [(hm y).1 List.mem_cons_self]
      | y :: z :: l =>
        rw [hl] at hm hn
        have hy := (hm y).1 List.mem_cons_self
        have hz := (hm z).1 (List.mem_cons_of_mem _ List.mem_cons_self)
        rw [List.nodup_cons] at hn
        exact absurd (by rw [hy, hz]; exact List.mem_cons_self) hn.1
    rw [h1]; rfl

theorem foldl_pinned {K : Backend} (hK : Lawful K) {q : PartialPosition} (h : Repr q)
    (king : Square) (l : List Square) (acc : BB) (hacc : Ok acc) :
    Ok (l.foldl (fun acc sniper =>
      let blockers := K.and (betweenTable K king sniper) (q.occupiedBB K)
      if K.count blockers = 1 then K.or acc blockers else acc) acc) ∧
    ∀ x, mem (l.foldl (fun acc sniper =>
      let blockers := K.and (betweenTable K king sniper) (q.occupiedBB K)
      if K.count blockers = 1 then K.or acc blockers else acc) acc) x = true ↔
      mem acc x = true ∨ ∃ s ∈ l, Between king x s ∧ Occ q.board x ∧
        ∀ u, Between king u s → Occ q.board u → u = x := by
  induction l generalizing acc with
  | nil => simp [hacc]
  | cons s l ih =>
    simp only [List.foldl_cons]
    have hok : Ok (K.and (betweenTable K king s) (q.occupiedBB K)) := by
      rw [hK.and]; exact ok_and_left _ (betweenTable_spec hK king s).1
    have hm : ∀ x, mem (K.and (betweenTable K king s) (q.occupiedBB K)) x = true ↔
        Between king x s ∧ Occ q.board x := by
      intro x; rw [hK.and, mem_and, Bool.and_eq_true, mem_betweenTable hK, h.occ hK]
    by_cases hc : K.count (K.and (betweenTable K king s) (q.occupiedBB K)) = 1
    · rw [if_pos hc]
      rw [hK.count _ hok, countP_eq_one] at hc
      simp only [hm] at hc
      obtain ⟨x, ⟨hx1, hx2⟩, hu⟩ := hc
      obtain ⟨h1, h2⟩ := ih (K.or acc (K.and (betweenTable K king s) (q.occupiedBB K)))
        (by rw [hK.or]; exact ok_or hacc hok)
      refine ⟨h1, fun y => ?_⟩
      rw [h2, hK.or, mem_or, Bool.or_eq_true, hm]
      constructor
      · rintro ((h' | ⟨h3, h4⟩) | ⟨s', hs', h'⟩)
        · exact .inl h'
        · refine .inr ⟨s, List.mem_cons_self, h3, h4, fun u hu1 hu2 => ?_⟩
          rw [hu u ⟨hu1, hu2⟩, hu y ⟨h3, h4⟩]
        · exact .inr ⟨s', List.mem_cons_of_mem _ hs', h'⟩
      · rintro (h' | ⟨s', hs', h'⟩)
        · exact .inl (.inl h')
        · rcases List.mem_cons.1 hs' with rfl | hs'
          · exact .inl (.inr ⟨h'.1, h'.2.1⟩)
          · exact .inr ⟨s', hs', h'⟩
    · rw [if_neg hc]
      rw [hK.count _ hok, countP_eq_one] at hc
      simp only [hm] at hc
      obtain ⟨h1, h2⟩ := ih acc hacc
      refine ⟨h1, fun y => ?_⟩
      rw [h2]
      constructor
      · rintro (h' | ⟨s', hs', h'⟩)
        · exact .inl h'
        · exact .inr ⟨s', List.mem_cons_of_mem _ hs', h'⟩
      · rintro (h' | ⟨s', hs', h'⟩)
        · exact .inl h'
        · rcases List.mem_cons.1 hs' with rfl | hs'
          · exact absurd ⟨y, ⟨h'.1, h'.2.1⟩, fun u hu => h'.2.2 u hu.1 hu.2⟩ hc
          · exact .inr ⟨s', hs', h'⟩

theorem pinnedOf_spec {K : Backend} (hK : Lawful K) {q : PartialPosition} (h : Repr q)
    {c : Color} {king : Square} (hk : q.kingPosition K c = some king) :
    Ok (AttackInfo.pinnedOf K q c) ∧
    ∀ x, mem (AttackInfo.pinnedOf K q c) x = true ↔ Pinned q.board c king x := by
  unfold AttackInfo.pinnedOf
  rw [hk]
  dsimp only
  obtain ⟨h1, h2⟩ := foldl_pinned hK h king (K.iter (AttackInfo.snipers K q c king)) K.empty
    (by rw [hK.empty]; exact ok_zero)
  refine ⟨h1, fun x => ?_⟩
  refine (h2 x).trans ?_
  rw [hK.empty, mem_zero, hK.iter _ (ok_snipers hK h c king)]
  simp only [Bool.false_eq_true, false_or, List.mem_filter, mem_all, true_and,
    mem_snipers hK h, Pinned]

theorem pinnedOf_none {K : Backend} {q : PartialPosition} {c : Color}
    (hk : q.kingPosition K c = none) : AttackInfo.pinnedOf K q c = K.empty := by
  unfold AttackInfo.pinnedOf
  rw [hk]

end Yasai

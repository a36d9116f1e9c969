import Verif.Proofs.Inv

/-!
# The move generators as lists

Each generator appends a list of moves to the buffer, or panics when the buffer overflows.
-/

namespace Yasai

open Spec

/-- Appending to the fixed-capacity buffer. -/
def appendAll (av : Av) (l : List Move) : Option Av :=
  if l = [] ∨ av.length + l.length ≤ maxLegalMoves then some (av ++ l) else none

theorem appendAll_nil (av : Av) : appendAll av [] = some av := by
  simp [appendAll]

theorem push_eq (av : Av) (m : Move) : av.push m = appendAll av [m] := by
  unfold Av.push appendAll
  simp only [List.length_cons, List.length_nil, Nat.zero_add, List.cons_ne_nil, false_or]
  rfl

theorem appendAll_bind (av : Av) (l1 l2 : List Move) :
    ((appendAll av l1).bind fun av => appendAll av l2) = appendAll av (l1 ++ l2) := by
  unfold appendAll
  cases l1 with
  | nil => simp
  | cons x l1 =>
    cases l2 with
    | nil => split <;> simp_all
    | cons y l2 =>
      simp only [reduceCtorEq, false_or, List.length_cons, List.cons_append, List.length_append]
      by_cases h : av.length + (l1.length + 1) ≤ maxLegalMoves
      · rw [if_pos h, Option.bind_some]
        simp only [List.length_append, List.length_cons, List.append_assoc, List.cons_append]
        by_cases h2 : av.length + (l1.length + 1) + (l2.length + 1) ≤ maxLegalMoves
        · rw [if_pos (by omega), if_pos (by omega)]
        · rw [if_neg (by omega), if_neg (by omega)]
      · rw [if_neg h, Option.bind_none, if_neg (by omega)]

theorem foldlM_appendAll {α : Type} {f : Av → α → Option Av} {g : α → List Move} (xs : List α)
    (h : ∀ x ∈ xs, ∀ av, f av x = appendAll av (g x)) (av : Av) :
    xs.foldlM f av = appendAll av (xs.flatMap g) := by
  induction xs generalizing av with
  | nil => simp [appendAll_nil]
  | cons x xs ih =>
    rw [List.foldlM_cons, List.flatMap_cons, ← appendAll_bind,
      h x List.mem_cons_self]
    simp only [Option.bind_eq_bind]
    congr 1
    funext av
    exact ih (fun y hy => h y (List.mem_cons_of_mem _ hy)) av

theorem appendAll_eq_some {av : Av} {l : List Move} {r : Av} (h : appendAll av l = some r) :
    r = av ++ l := by
  unfold appendAll at h
  split at h <;> cases h; rfl

theorem appendAll_nil_some {l : List Move} (h : l.length ≤ maxLegalMoves) :
    appendAll [] l = some l := by
  unfold appendAll
  rw [if_pos (.inr (by simpa using h))]
  rfl

/-! ## The moves of one piece to one square -/

/-- Moves pushed by `pushForward`. -/
def forwardMoves (c : Color) (dead : Nat) (frm to : Square) : List Move :=
  if promotable to c then
    .normal frm to true :: (if relativeRanks to c > dead then [.normal frm to false] else [])
  else [.normal frm to false]

/-- Moves pushed by `pushOptional`. -/
def optionalMoves (c : Color) (field : Bool) (frm to : Square) : List Move :=
  .normal frm to false :: (if field || promotable to c then [.normal frm to true] else [])

theorem pushForward_eq (c : Color) (dead : Nat) (av : Av) (frm to : Square) :
    PartialPosition.pushForward c dead av frm to = appendAll av (forwardMoves c dead frm to) := by
  unfold PartialPosition.pushForward forwardMoves
  simp only [push_eq, Option.bind_eq_bind, Option.pure_def]
  split
  · split
    · rw [appendAll_bind]; rfl
    · cases appendAll av [Move.normal frm to true] <;> rfl
  · rfl

theorem pushOptional_eq (c : Color) (field : Bool) (av : Av) (frm to : Square) :
    PartialPosition.pushOptional c field av frm to = appendAll av (optionalMoves c field frm to) := by
  unfold PartialPosition.pushOptional optionalMoves
  simp only [push_eq, Option.bind_eq_bind, Option.pure_def]
  split
  · rw [appendAll_bind]; rfl
  · cases appendAll av [Move.normal frm to false] <;> rfl

/-- The moves of a piece of kind `k` from `frm` to `to`. -/
def destMoves (k : PieceKind) (c : Color) (frm to : Square) : List Move :=
  match k with
  | .pawn | .lance => forwardMoves c 1 frm to
  | .knight => forwardMoves c 2 frm to
  | .silver | .bishop | .rook => optionalMoves c (promotable frm c) frm to
  | _ => [.normal frm to false]

/-- The promotion rules for one piece. -/
def PromoOk (k : PieceKind) (c : Color) (frm to : Square) (pr : Bool) : Prop :=
  (pr = true → k.promote ≠ none ∧ (InZone c frm ∨ InZone c to)) ∧
  (pr = false → ¬ Dead k c to)

theorem promotable_iff {s : Square} {c : Color} : promotable s c = true ↔ InZone c s := by
  unfold promotable relativeRanks InZone Square.relativeRank
  have := s.rank_pos
  have := s.rank_le
  cases c <;> simp only [decide_eq_true_eq] <;> omega

theorem zone_forward {occ : Square → Prop} {k : PieceKind} {c : Color} {frm to : Square}
    (hk : k = .pawn ∨ k = .lance ∨ k = .knight) (h : Reaches occ k c frm to)
    (hz : InZone c frm) : InZone c to := by
  have : ∃ n : Nat, (to.rank : Int) = frm.rank + fwd c * n := by
    rcases h with ⟨d, hd, h⟩ | ⟨d, hd, n, hn, h, _⟩
    · rcases hk with rfl | rfl | rfl
      · have : d = (0, 1) := by simpa [steps] using hd
        subst this; exact ⟨1, h.2⟩
      · cases hd
      · have : d = (-1, 2) ∨ d = (1, 2) := by simpa [steps] using hd
        rcases this with rfl | rfl <;> exact ⟨2, h.2⟩
    · rcases hk with rfl | rfl | rfl
      · cases hd
      · have : d = (0, 1) := by simpa [slides] using hd
        subst this
        refine ⟨n, ?_⟩
        have := h.2
        simp only [Int.mul_one] at this
        rw [this, Int.mul_comm]
      · cases hd
  obtain ⟨n, hn⟩ := this
  have := to.bounds
  unfold InZone at *
  cases c <;> simp only [fwd] at * <;> omega

theorem mem_forwardMoves {occ : Square → Prop} {k : PieceKind} {c : Color} {frm to : Square}
    (hk : k = .pawn ∨ k = .lance ∨ k = .knight) (h : Reaches occ k c frm to) (m : Move) :
    m ∈ forwardMoves c (if k = .knight then 2 else 1) frm to ↔
      ∃ pr, m = .normal frm to pr ∧ PromoOk k c frm to pr := by
  have hz := zone_forward hk h
  have hpr : k.promote ≠ none := by rcases hk with rfl | rfl | rfl <;> simp [PieceKind.promote]
  have hdead : Dead k c to ↔ ¬ relativeRanks to c > (if k = .knight then 2 else 1) := by
    have := to.rank_pos
    have := to.rank_le
    unfold relativeRanks Square.relativeRank Dead
    rcases hk with rfl | rfl | rfl <;> cases c <;> simp <;> omega
  have hdz : Dead k c to → InZone c to := by
    unfold Dead InZone
    rcases hk with rfl | rfl | rfl <;> cases c <;> simp only <;> omega
  have hsum : InZone c frm ∨ InZone c to ↔ InZone c to :=
    ⟨fun h => h.elim hz id, .inr⟩
  unfold forwardMoves PromoOk
  rw [hsum]
  by_cases hp : InZone c to
  · rw [if_pos (promotable_iff.2 hp)]
    by_cases hd : Dead k c to
    · rw [if_neg (hdead.1 hd)]
      simp only [List.mem_cons, List.not_mem_nil, or_false]
      constructor
      · rintro rfl; exact ⟨true, rfl, fun _ => ⟨hpr, hp⟩, fun h => by cases h⟩
      · rintro ⟨pr, rfl, h1, h2⟩
        cases pr
        · exact absurd hd (h2 rfl)
        · rfl
    · rw [if_pos (Classical.not_not.1 (fun h => hd (hdead.2 h)))]
      simp only [List.mem_cons, List.not_mem_nil, or_false]
      constructor
      · rintro (rfl | rfl)
        · exact ⟨true, rfl, fun _ => ⟨hpr, hp⟩, fun h => by cases h⟩
        · exact ⟨false, rfl, fun h => (by cases h), fun _ => hd⟩
      · rintro ⟨pr, rfl, h1, h2⟩
        cases pr
        · exact .inr rfl
        · exact .inl rfl
  · rw [if_neg (fun h => hp (promotable_iff.1 h))]
    simp only [List.mem_cons, List.not_mem_nil, or_false]
    constructor
    · rintro rfl; exact ⟨false, rfl, fun h => (by cases h), fun _ hd => hp (hdz hd)⟩
    · rintro ⟨pr, rfl, h1, h2⟩
      cases pr
      · rfl
      · exact absurd (h1 rfl).2 hp

theorem mem_optionalMoves {k : PieceKind} {c : Color} {frm to : Square}
    (hk : k = .silver ∨ k = .bishop ∨ k = .rook) (m : Move) :
    m ∈ optionalMoves c (promotable frm c) frm to ↔
      ∃ pr, m = .normal frm to pr ∧ PromoOk k c frm to pr := by
  have hpr : k.promote ≠ none := by rcases hk with rfl | rfl | rfl <;> simp [PieceKind.promote]
  have hdead : ¬ Dead k c to := by
    rcases hk with rfl | rfl | rfl <;> cases c <;> simp [Dead]
  have hf : (promotable frm c || promotable to c) = true ↔ (InZone c frm ∨ InZone c to) := by
    rw [Bool.or_eq_true, promotable_iff, promotable_iff]
  unfold optionalMoves PromoOk
  by_cases hp : InZone c frm ∨ InZone c to
  · rw [if_pos (hf.2 hp)]
    simp only [List.mem_cons, List.not_mem_nil, or_false]
    constructor
    · rintro (rfl | rfl)
      · exact ⟨false, rfl, fun h => (by cases h), fun _ => hdead⟩
      · exact ⟨true, rfl, fun _ => ⟨hpr, hp⟩, fun h => by cases h⟩
    · rintro ⟨pr, rfl, h1, h2⟩
      cases pr
      · exact .inl rfl
      · exact .inr rfl
  · rw [if_neg (fun h => hp (hf.1 h))]
    simp only [List.mem_cons, List.not_mem_nil, or_false]
    constructor
    · rintro rfl
      exact ⟨false, rfl, fun h => (by cases h), fun _ => hdead⟩
    · rintro ⟨pr, rfl, h1, h2⟩
      cases pr
      · rfl
      · exact absurd (h1 rfl).2 hp

theorem mem_destMoves {occ : Square → Prop} {k : PieceKind} {c : Color} {frm to : Square}
    (h : Reaches occ k c frm to) (m : Move) :
    m ∈ destMoves k c frm to ↔ ∃ pr, m = .normal frm to pr ∧ PromoOk k c frm to pr := by
  have other : k.promote = none → (m ∈ [Move.normal frm to false] ↔
      ∃ pr, m = .normal frm to pr ∧ PromoOk k c frm to pr) := by
    intro hk
    have hdead : ¬ Dead k c to := by
      revert hk; cases k <;> cases c <;> simp [Dead, PieceKind.promote]
    simp only [List.mem_cons, List.not_mem_nil, or_false]
    constructor
    · rintro rfl; exact ⟨false, rfl, fun h => (by cases h), fun _ => hdead⟩
    · rintro ⟨pr, rfl, h1, h2⟩
      cases pr
      · rfl
      · exact absurd hk (h1 rfl).1
  cases k <;> simp only [destMoves]
  case pawn => exact mem_forwardMoves (.inl rfl) h m
  case lance => exact mem_forwardMoves (.inr (.inl rfl)) h m
  case knight => exact mem_forwardMoves (.inr (.inr rfl)) h m
  case silver => exact mem_optionalMoves (.inl rfl) m
  case bishop => exact mem_optionalMoves (.inr (.inl rfl)) m
  case rook => exact mem_optionalMoves (.inr (.inr rfl)) m
  all_goals exact other rfl

/-- Every move of `destMoves` goes from `frm` to `to`. -/
theorem destMoves_shape {k : PieceKind} {c : Color} {frm to : Square} {m : Move}
    (h : m ∈ destMoves k c frm to) : ∃ pr, m = .normal frm to pr := by
  have hf : ∀ d, m ∈ forwardMoves c d frm to → ∃ pr, m = .normal frm to pr := by
    intro d h
    unfold forwardMoves at h
    split at h
    · split at h
      · simp only [List.mem_cons, List.not_mem_nil, or_false] at h
        rcases h with rfl | rfl <;> exact ⟨_, rfl⟩
      · simp only [List.mem_cons, List.not_mem_nil, or_false] at h
        exact ⟨_, h⟩
    · simp only [List.mem_cons, List.not_mem_nil, or_false] at h
      exact ⟨_, h⟩
  have ho : m ∈ optionalMoves c (promotable frm c) frm to → ∃ pr, m = .normal frm to pr := by
    intro h
    unfold optionalMoves at h
    split at h
    · simp only [List.mem_cons, List.not_mem_nil, or_false] at h
      rcases h with rfl | rfl <;> exact ⟨_, rfl⟩
    · simp only [List.mem_cons, List.not_mem_nil, or_false] at h
      exact ⟨_, h⟩
  have he : m ∈ [Move.normal frm to false] → ∃ pr, m = .normal frm to pr := by
    intro h
    simp only [List.mem_cons, List.not_mem_nil, or_false] at h
    exact ⟨_, h⟩
  cases k <;> simp only [destMoves] at h <;> first | exact hf _ h | exact ho h | exact he h

theorem destMoves_nodup (k : PieceKind) (c : Color) (frm to : Square) :
    (destMoves k c frm to).Nodup := by
  have hf : ∀ d, (forwardMoves c d frm to).Nodup := by
    intro d
    unfold forwardMoves
    split
    · split <;> simp
    · simp
  have ho : (optionalMoves c (promotable frm c) frm to).Nodup := by
    unfold optionalMoves
    split <;> simp
  cases k <;> simp only [destMoves] <;> first | exact hf _ | exact ho | simp

/-! ## The moves of one piece -/

/-- The moves of a piece of kind `k` on `frm` to squares of `target`. -/
def pieceMoves (K : Backend) (q : PartialPosition) (k : PieceKind) (target : BB) (frm : Square) :
    List Move :=
  (K.iter (K.and (tableAttack K k frm q.side (q.occupiedBB K)) target)).flatMap
    (destMoves k q.side frm)

theorem mem_iter {K : Backend} (hK : Lawful K) {b : BB} (hb : Ok b) (s : Square) :
    s ∈ K.iter b ↔ mem b s = true := by
  rw [hK.iter b hb, List.mem_filter]
  exact ⟨fun h => h.2, fun h => ⟨mem_all s, h⟩⟩

theorem nodup_iter {K : Backend} (hK : Lawful K) {b : BB} (hb : Ok b) : (K.iter b).Nodup := by
  rw [hK.iter b hb]
  exact nodup_all.filter _

theorem mem_pieceMoves {K : Backend} (hK : Lawful K) {q : PartialPosition} (h : Repr q)
    (k : PieceKind) (target : BB) (frm : Square) (m : Move) :
    m ∈ pieceMoves K q k target frm ↔ ∃ to pr, m = .normal frm to pr ∧
      Reaches (Occ q.board) k q.side frm to ∧ mem target to = true ∧ PromoOk k q.side frm to pr := by
  unfold pieceMoves
  rw [List.mem_flatMap]
  have hok : Ok (K.and (tableAttack K k frm q.side (q.occupiedBB K)) target) := by
    rw [hK.and]; exact ok_and_left _ (tableAttack_spec hK _ _ _ _).1
  have hm : ∀ to, to ∈ K.iter (K.and (tableAttack K k frm q.side (q.occupiedBB K)) target) ↔
      Reaches (Occ q.board) k q.side frm to ∧ mem target to = true := by
    intro to
    rw [mem_iter hK hok, hK.and, mem_and, Bool.and_eq_true, mem_tableAttack hK, h.occ_fun hK]
  constructor
  · rintro ⟨to, hto, hm'⟩
    rw [hm] at hto
    rw [mem_destMoves hto.1] at hm'
    obtain ⟨pr, h1, h2⟩ := hm'
    exact ⟨to, pr, h1, hto.1, hto.2, h2⟩
  · rintro ⟨to, pr, h1, h2, h3, h4⟩
    exact ⟨to, (hm to).2 ⟨h2, h3⟩, (mem_destMoves h2 m).2 ⟨pr, h1, h4⟩⟩

theorem pairwise_imp' {α : Type} {R S : α → α → Prop} {l : List α} (h : l.Pairwise R)
    (himp : ∀ a ∈ l, ∀ b ∈ l, R a b → S a b) : l.Pairwise S := by
  induction h with
  | nil => exact .nil
  | cons h1 h2 ih =>
    refine .cons (fun b hb => himp _ List.mem_cons_self b (List.mem_cons_of_mem _ hb) (h1 b hb)) ?_
    exact ih fun a ha b hb => himp a (List.mem_cons_of_mem _ ha) b (List.mem_cons_of_mem _ hb)

theorem nodup_flatMap {α β : Type} {l : List α} {g : α → List β} (hl : l.Nodup)
    (hg : ∀ x ∈ l, (g x).Nodup)
    (hd : ∀ x ∈ l, ∀ y ∈ l, ∀ b, b ∈ g x → b ∈ g y → x = y) : (l.flatMap g).Nodup := by
  induction l with
  | nil => simp
  | cons x l ih =>
    rw [List.nodup_cons] at hl
    rw [List.flatMap_cons, List.nodup_append]
    refine ⟨hg x List.mem_cons_self, ?_, ?_⟩
    · exact ih hl.2 (fun y hy => hg y (List.mem_cons_of_mem _ hy))
        (fun y hy z hz => hd y (List.mem_cons_of_mem _ hy) z (List.mem_cons_of_mem _ hz))
    · intro a ha b hb e
      subst e
      rw [List.mem_flatMap] at hb
      obtain ⟨y, hy, hb⟩ := hb
      have := hd x List.mem_cons_self y (List.mem_cons_of_mem _ hy) a ha hb
      subst this
      exact hl.1 hy

theorem pieceMoves_nodup {K : Backend} (hK : Lawful K) (q : PartialPosition)
    (k : PieceKind) (target : BB) (frm : Square) : (pieceMoves K q k target frm).Nodup := by
  have hok : Ok (K.and (tableAttack K k frm q.side (q.occupiedBB K)) target) := by
    rw [hK.and]; exact ok_and_left _ (tableAttack_spec hK _ _ _ _).1
  apply nodup_flatMap (nodup_iter hK hok) (fun to _ => destMoves_nodup _ _ _ _)
  intro x _ y _ m hx hy
  obtain ⟨p1, h1⟩ := destMoves_shape hx
  obtain ⟨p2, h2⟩ := destMoves_shape hy
  rw [h1] at h2
  cases h2; rfl

/-! ## Generators for groups of pieces -/

/-- The moves of the pieces in `frms`, moving like kind `k`. -/
def groupMoves (K : Backend) (q : PartialPosition) (k : PieceKind) (frms target : BB) : List Move :=
  (K.iter frms).flatMap (pieceMoves K q k target)

theorem foldlM_group {K : Backend} {q : PartialPosition} {k : PieceKind} {frms target : BB}
    {att : Square → BB} {f : Square → Av → Square → Option Av}
    (hatt : ∀ s, att s = tableAttack K k s q.side (q.occupiedBB K))
    (hf : ∀ s av to, f s av to = appendAll av (destMoves k q.side s to)) (av : Av) :
    (K.iter frms).foldlM (fun av frm =>
      (K.iter (K.and (att frm) target)).foldlM (f frm) av) av =
      appendAll av (groupMoves K q k frms target) := by
  apply foldlM_appendAll
  intro frm _ av
  rw [hatt]
  exact foldlM_appendAll _ (fun to _ av => hf frm av to) av

/-- The lists of the ten generators for pieces on the board. -/
def kyMoves (K : Backend) (q : PartialPosition) (target : BB) : List Move :=
  groupMoves K q .lance (K.and (q.playerBB q.side) (q.pieceBB .lance)) target
def keMoves (K : Backend) (q : PartialPosition) (target : BB) : List Move :=
  groupMoves K q .knight (K.and (q.playerBB q.side) (q.pieceBB .knight)) target
def giMoves (K : Backend) (q : PartialPosition) (target : BB) : List Move :=
  groupMoves K q .silver (K.and (q.playerBB q.side) (q.pieceBB .silver)) target
def kaMoves (K : Backend) (q : PartialPosition) (target : BB) : List Move :=
  groupMoves K q .bishop (K.and (q.playerBB q.side) (q.pieceBB .bishop)) target
def hiMoves (K : Backend) (q : PartialPosition) (target : BB) : List Move :=
  groupMoves K q .rook (K.and (q.playerBB q.side) (q.pieceBB .rook)) target
def kiMoves (K : Backend) (q : PartialPosition) (target : BB) : List Move :=
  groupMoves K q .gold (K.and (K.or (K.or (K.or (K.or (q.pieceBB .gold) (q.pieceBB .proPawn))
      (q.pieceBB .proLance)) (q.pieceBB .proKnight)) (q.pieceBB .proSilver))
      (q.playerBB q.side)) target
def ouMoves (K : Backend) (q : PartialPosition) (target : BB) : List Move :=
  groupMoves K q .king (K.and (q.playerBB q.side) (q.pieceBB .king)) target
def umMoves (K : Backend) (q : PartialPosition) (target : BB) : List Move :=
  groupMoves K q .proBishop (K.and (q.playerBB q.side) (q.pieceBB .proBishop)) target
def ryMoves (K : Backend) (q : PartialPosition) (target : BB) : List Move :=
  groupMoves K q .proRook (K.and (q.playerBB q.side) (q.pieceBB .proRook)) target

theorem generateForKy_eq (K : Backend) (q : PartialPosition) (av : Av) (target : BB) :
    q.generateForKy K av target = appendAll av (kyMoves K q target) :=
  foldlM_group (k := .lance) (fun _ => rfl) (fun _ _ _ => pushForward_eq _ _ _ _ _) av
theorem generateForKe_eq (K : Backend) (q : PartialPosition) (av : Av) (target : BB) :
    q.generateForKe K av target = appendAll av (keMoves K q target) :=
  foldlM_group (k := .knight) (fun _ => rfl) (fun _ _ _ => pushForward_eq _ _ _ _ _) av
theorem generateForGi_eq (K : Backend) (q : PartialPosition) (av : Av) (target : BB) :
    q.generateForGi K av target = appendAll av (giMoves K q target) :=
  foldlM_group (k := .silver) (fun _ => rfl) (fun _ _ _ => pushOptional_eq _ _ _ _ _) av
theorem generateForKa_eq (K : Backend) (q : PartialPosition) (av : Av) (target : BB) :
    q.generateForKa K av target = appendAll av (kaMoves K q target) :=
  foldlM_group (k := .bishop) (fun _ => rfl) (fun _ _ _ => pushOptional_eq _ _ _ _ _) av
theorem generateForHi_eq (K : Backend) (q : PartialPosition) (av : Av) (target : BB) :
    q.generateForHi K av target = appendAll av (hiMoves K q target) :=
  foldlM_group (k := .rook) (fun _ => rfl) (fun _ _ _ => pushOptional_eq _ _ _ _ _) av
theorem generateForKi_eq (K : Backend) (q : PartialPosition) (av : Av) (target : BB) :
    q.generateForKi K av target = appendAll av (kiMoves K q target) :=
  foldlM_group (k := .gold) (fun _ => rfl) (fun _ _ _ => push_eq _ _) av
theorem generateForOu_eq (K : Backend) (q : PartialPosition) (av : Av) (target : BB) :
    q.generateForOu K av target = appendAll av (ouMoves K q target) :=
  foldlM_group (k := .king) (fun _ => rfl) (fun _ _ _ => push_eq _ _) av
theorem generateForUm_eq (K : Backend) (q : PartialPosition) (av : Av) (target : BB) :
    q.generateForUm K av target = appendAll av (umMoves K q target) :=
  foldlM_group (k := .proBishop) (fun _ => rfl) (fun _ _ _ => push_eq _ _) av
theorem generateForRy_eq (K : Backend) (q : PartialPosition) (av : Av) (target : BB) :
    q.generateForRy K av target = appendAll av (ryMoves K q target) :=
  foldlM_group (k := .proRook) (fun _ => rfl) (fun _ _ _ => push_eq _ _) av

/-- The moves of a set of kinds, as a predicate. -/
def Gen (q : PartialPosition) (target : BB) (k : PieceKind) (m : Move) : Prop :=
  ∃ frm to pr, m = .normal frm to pr ∧ q.board frm = some ⟨k, q.side⟩ ∧
    Reaches (Occ q.board) k q.side frm to ∧ mem target to = true ∧ PromoOk k q.side frm to pr

theorem mem_groupMoves {K : Backend} (hK : Lawful K) {q : PartialPosition} (h : Repr q)
    {k : PieceKind} {frms target : BB} (hok : Ok frms) (m : Move) :
    m ∈ groupMoves K q k frms target ↔ ∃ frm to pr, m = .normal frm to pr ∧ mem frms frm = true ∧
      Reaches (Occ q.board) k q.side frm to ∧ mem target to = true ∧ PromoOk k q.side frm to pr := by
  unfold groupMoves
  rw [List.mem_flatMap]
  simp only [mem_iter hK hok, mem_pieceMoves hK h]
  constructor
  · rintro ⟨frm, h1, to, pr, h2, h3⟩; exact ⟨frm, to, pr, h2, h1, h3⟩
  · rintro ⟨frm, to, pr, h2, h1, h3⟩; exact ⟨frm, h1, to, pr, h2, h3⟩

theorem mem_own_kind {q : PartialPosition} (h : Repr q) (k : PieceKind) (s : Square) :
    mem (q.playerBB q.side &&& q.pieceBB k) s = true ↔ q.board s = some ⟨k, q.side⟩ := by
  rw [mem_and, Bool.and_eq_true, h.player, h.piece]
  constructor
  · rintro ⟨⟨k1, h1⟩, c1, h2⟩
    rw [h1] at h2; cases h2; exact h1
  · intro h; exact ⟨⟨k, h⟩, q.side, h⟩

theorem mem_group_gen {K : Backend} (hK : Lawful K) {q : PartialPosition} (h : Repr q)
    (k : PieceKind) (target : BB) (m : Move) :
    m ∈ groupMoves K q k (K.and (q.playerBB q.side) (q.pieceBB k)) target ↔ Gen q target k m := by
  rw [hK.and, mem_groupMoves hK h (ok_and_left _ (h.okPlayer _))]
  simp only [mem_own_kind h]
  rfl

theorem groupMoves_nodup {K : Backend} (hK : Lawful K) {q : PartialPosition} (h : Repr q)
    {k : PieceKind} {frms target : BB} (hok : Ok frms) :
    (groupMoves K q k frms target).Nodup := by
  apply nodup_flatMap (nodup_iter hK hok) (fun frm _ => pieceMoves_nodup hK _ _ _ _)
  intro x _ y _ m hx hy
  rw [mem_pieceMoves hK h] at hx hy
  obtain ⟨_, _, h1, _⟩ := hx
  obtain ⟨_, _, h2, _⟩ := hy
  rw [h1] at h2
  cases h2; rfl

/-- Kinds that move like a gold. -/
def goldKinds : List PieceKind := [.gold, .proPawn, .proLance, .proKnight, .proSilver]

theorem mem_kiMoves {K : Backend} (hK : Lawful K) {q : PartialPosition} (h : Repr q)
    (target : BB) (m : Move) :
    m ∈ kiMoves K q target ↔ ∃ k ∈ goldKinds, Gen q target k m := by
  unfold kiMoves
  have hmem : ∀ s, mem (K.and (K.or (K.or (K.or (K.or (q.pieceBB .gold) (q.pieceBB .proPawn))
      (q.pieceBB .proLance)) (q.pieceBB .proKnight)) (q.pieceBB .proSilver)) (q.playerBB q.side)) s
      = true ↔ ∃ k ∈ goldKinds, q.board s = some ⟨k, q.side⟩ := by
    intro s
    have e := fun k => mem_own_kind h k s
    simp only [mem_and, Bool.and_eq_true] at e
    simp only [hK.and, hK.or, mem_and, mem_or, Bool.and_eq_true, Bool.or_eq_true, goldKinds,
      List.mem_cons, List.not_mem_nil, or_false, exists_eq_or_imp, exists_eq_left]
    rw [← e, ← e, ← e, ← e, ← e]
    constructor
    · rintro ⟨(((h1 | h1) | h1) | h1) | h1, h2⟩ <;> simp [h1, h2]
    · rintro (h | h | h | h | h) <;> simp [h]
  rw [mem_groupMoves hK h (by rw [hK.and]; exact ok_and_right _ (h.okPlayer _))]
  simp only [hmem]
  have hg : ∀ k ∈ goldKinds, ∀ frm to pr,
      (Reaches (Occ q.board) .gold q.side frm to ↔ Reaches (Occ q.board) k q.side frm to) ∧
      (PromoOk .gold q.side frm to pr ↔ PromoOk k q.side frm to pr) := by
    intro k hk frm to pr
    simp only [goldKinds, List.mem_cons, List.not_mem_nil, or_false] at hk
    rcases hk with rfl | rfl | rfl | rfl | rfl <;> exact ⟨Iff.rfl, Iff.rfl⟩
  constructor
  · rintro ⟨frm, to, pr, h1, ⟨k, hk, h2⟩, h3, h4, h5⟩
    exact ⟨k, hk, frm, to, pr, h1, h2, (hg k hk _ _ pr).1.1 h3, h4, (hg k hk _ _ _).2.1 h5⟩
  · rintro ⟨k, hk, frm, to, pr, h1, h2, h3, h4, h5⟩
    exact ⟨frm, to, pr, h1, ⟨k, hk, h2⟩, (hg k hk _ _ pr).1.2 h3, h4, (hg k hk _ _ _).2.2 h5⟩

/-! ## Pawns -/

/-- The bitboard of pawn destinations. -/
def fuTo (K : Backend) (q : PartialPosition) : BB :=
  match q.side with
  | .black => K.shr (q.pieceBitboard K ⟨.pawn, .black⟩)
  | .white => K.shl (q.pieceBitboard K ⟨.pawn, .white⟩)

/-- The origin of a pawn move to `to`. -/
def fuFrom (K : Backend) (c : Color) (to : Square) : Square :=
  Square.fromU8Unchecked K.junkSquare ((to.val + 1 + (match c with | .black => 1 | .white => 255)) % 256)

/-- The list of `generate_for_fu`. -/
def fuMoves (K : Backend) (q : PartialPosition) (target : BB) : List Move :=
  (K.iter (K.and (fuTo K q) target)).flatMap fun to => destMoves .pawn q.side (fuFrom K q.side to) to

theorem generateForFu_eq (K : Backend) (q : PartialPosition) (av : Av) (target : BB) :
    q.generateForFu K av target = appendAll av (fuMoves K q target) := by
  have e : q.generateForFu K av target = (K.iter (K.and (fuTo K q) target)).foldlM
      (fun av to => PartialPosition.pushForward q.side 1 av (fuFrom K q.side to) to) av := by
    unfold PartialPosition.generateForFu fuTo fuFrom
    cases q.side <;> dsimp only
  rw [e]
  exact foldlM_appendAll _ (fun to _ av => pushForward_eq q.side 1 av (fuFrom K q.side to) to) av

theorem val_coords (s : Square) : (s.val : Int) = 9 * (s.file - 1) + (s.rank - 1) := by
  have := s.val_eq
  have := s.bounds
  omega

theorem fuTo_spec {K : Backend} (hK : Lawful K) {q : PartialPosition} (h : Repr q)
    (hd : ∀ c s, q.board s = some ⟨.pawn, c⟩ → ¬ Dead .pawn c s) :
    Ok (fuTo K q) ∧ ∀ to, mem (fuTo K q) to = true ↔
      ∃ frm, q.board frm = some ⟨.pawn, q.side⟩ ∧ Step .pawn q.side frm to ∧
        fuFrom K q.side to = frm := by
  have hpb : ∀ c, Ok (q.pieceBitboard K ⟨.pawn, c⟩) := by
    intro c; unfold PartialPosition.pieceBitboard; rw [hK.and]; exact ok_and_right _ (h.okPlayer _)
  have hpm : ∀ c s, mem (q.pieceBitboard K ⟨.pawn, c⟩) s = true ↔ q.board s = some ⟨.pawn, c⟩ := by
    intro c s
    unfold PartialPosition.pieceBitboard
    rw [hK.and, mem_and, Bool.and_eq_true, h.piece, h.player]
    constructor
    · rintro ⟨⟨c1, h1⟩, k1, h2⟩
      rw [h1] at h2; cases h2; exact h1
    · intro h; exact ⟨⟨_, h⟩, _, h⟩
  have hstep : ∀ c frm to, Step .pawn c frm to ↔ Disp frm to 0 (fwd c) := by
    intro c frm to
    unfold Step
    simp [steps]
  unfold fuTo fuFrom
  cases hs : q.side with
  | black =>
    dsimp only
    obtain ⟨h1, h2⟩ := hK.shr _ (hpb .black) (fun t ht hr => hd _ _ ((hpm _ _).1 ht) hr)
    refine ⟨h1, fun to => (h2 to).trans (exists_congr fun frm => ?_)⟩
    rw [hpm, hstep]
    apply and_congr_right
    intro hb
    have hnd : ¬ frm.rank = 1 := fun e => hd _ _ hb e
    have a := val_coords frm
    have b := val_coords to
    have a' := frm.bounds
    have b' := to.bounds
    constructor
    · intro e
      refine ⟨⟨?_, ?_⟩, ?_⟩
      · omega
      · simp only [fwd]; omega
      · unfold Square.fromU8Unchecked
        have hlt := frm.isLt
        rw [dif_pos (by omega)]
        apply Fin.ext
        show (to.val + 1 + 1) % 256 - 1 = frm.val
        omega
    · rintro ⟨⟨e1, e2⟩, _⟩
      simp only [fwd] at e2
      omega
  | white =>
    dsimp only
    obtain ⟨h1, h2⟩ := hK.shl _ (hpb .white) (fun t ht hr => hd _ _ ((hpm _ _).1 ht) hr)
    refine ⟨h1, fun to => (h2 to).trans (exists_congr fun frm => ?_)⟩
    rw [hpm, hstep]
    apply and_congr_right
    intro hb
    have hnd : ¬ frm.rank = 9 := fun e => hd _ _ hb e
    have a := val_coords frm
    have b := val_coords to
    have a' := frm.bounds
    have b' := to.bounds
    constructor
    · intro e
      refine ⟨⟨?_, ?_⟩, ?_⟩
      · omega
      · simp only [fwd]; omega
      · unfold Square.fromU8Unchecked
        have hlt := to.isLt
        rw [dif_pos (by omega)]
        apply Fin.ext
        show (to.val + 1 + 255) % 256 - 1 = frm.val
        omega
    · rintro ⟨⟨e1, e2⟩, _⟩
      simp only [fwd] at e2
      omega

theorem fuFrom_step {K : Backend} {c : Color} {frm to : Square} (hs : Step .pawn c frm to) :
    fuFrom K c to = frm := by
  have h1 : Disp frm to 0 (fwd c) := by
    unfold Step at hs
    simpa [steps] using hs
  unfold fuFrom Square.fromU8Unchecked
  have a := val_coords frm
  have b := val_coords to
  have a' := frm.bounds
  have b' := to.bounds
  have hl1 := frm.isLt
  have hl2 := to.isLt
  obtain ⟨h1, h2⟩ := h1
  cases c <;> simp only [fwd] at h2 ⊢
  · rw [dif_pos (by omega)]
    apply Fin.ext
    show (to.val + 1 + 1) % 256 - 1 = frm.val
    omega
  · rw [dif_pos (by omega)]
    apply Fin.ext
    show (to.val + 1 + 255) % 256 - 1 = frm.val
    omega

theorem mem_fuMoves {K : Backend} (hK : Lawful K) {q : PartialPosition} (h : Repr q)
    (hd : ∀ c s, q.board s = some ⟨.pawn, c⟩ → ¬ Dead .pawn c s) (target : BB) (m : Move) :
    m ∈ fuMoves K q target ↔ Gen q target .pawn m := by
  obtain ⟨hok, hmem⟩ := fuTo_spec hK h hd
  unfold fuMoves Gen
  rw [List.mem_flatMap]
  have hit : ∀ to, to ∈ K.iter (K.and (fuTo K q) target) ↔
      (∃ frm, q.board frm = some ⟨.pawn, q.side⟩ ∧ Step .pawn q.side frm to ∧
        fuFrom K q.side to = frm) ∧ mem target to = true := by
    intro to
    rw [mem_iter hK (by rw [hK.and]; exact ok_and_left _ hok), hK.and, mem_and, Bool.and_eq_true,
      hmem]
  have hre : ∀ frm to, Reaches (Occ q.board) .pawn q.side frm to ↔ Step .pawn q.side frm to := by
    intro frm to
    rw [reaches_iff]
    constructor
    · rintro (h | h)
      · exact h
      · exact absurd h.1 (not_slide rfl _ _ _)
    · exact .inl
  constructor
  · rintro ⟨to, hto, hm⟩
    rw [hit] at hto
    obtain ⟨⟨frm, h1, h2, h3⟩, h4⟩ := hto
    rw [h3, mem_destMoves ((hre frm to).2 h2)] at hm
    obtain ⟨pr, h5, h6⟩ := hm
    exact ⟨frm, to, pr, h5, h1, (hre frm to).2 h2, h4, h6⟩
  · rintro ⟨frm, to, pr, h1, h2, h3, h4, h5⟩
    have h3' := (hre frm to).1 h3
    have h6 := fuFrom_step (K := K) h3'
    refine ⟨to, (hit to).2 ⟨⟨frm, h2, h3', h6⟩, h4⟩, ?_⟩
    rw [h6, mem_destMoves h3]
    exact ⟨pr, h1, h5⟩

theorem fuMoves_nodup {K : Backend} (hK : Lawful K) {q : PartialPosition} (h : Repr q)
    (hd : ∀ c s, q.board s = some ⟨.pawn, c⟩ → ¬ Dead .pawn c s) (target : BB) :
    (fuMoves K q target).Nodup := by
  obtain ⟨hok, _⟩ := fuTo_spec hK h hd
  have hok' : Ok (K.and (fuTo K q) target) := by rw [hK.and]; exact ok_and_left _ hok
  apply nodup_flatMap (nodup_iter hK hok') (fun to _ => destMoves_nodup _ _ _ _)
  intro x _ y _ m hx hy
  obtain ⟨p1, h1⟩ := destMoves_shape hx
  obtain ⟨p2, h2⟩ := destMoves_shape hy
  rw [h1] at h2
  exact (Move.normal.inj h2).2.1

end Yasai

import Verif.Model.TableInit
import Verif.Props.Tables

/-!
# C59: the initialisers of the static tables
-/

namespace Yasai.Props

open Yasai Spec

/-! ## Loops that fill arrays -/

section
variable {ι κ α : Type}

/-- A loop over distinct `k`, each of which changes only the entries belonging to `k`. -/
theorem foldl_fiber (π : ι → κ) (f : (ι → α) → κ → ι → α) (g : ι → α → α)
    (h1 : ∀ t k i, π i ≠ k → f t k i = t i) (h2 : ∀ t i, f t (π i) i = g i (t i))
    (l : List κ) (hl : l.Nodup) (t : ι → α) (i : ι) :
    (π i ∈ l → l.foldl f t i = g i (t i)) ∧ (π i ∉ l → l.foldl f t i = t i) := by
  induction l generalizing t with
  | nil => exact ⟨fun h => absurd h List.not_mem_nil, fun _ => rfl⟩
  | cons k l ih =>
    obtain ⟨hk, hl'⟩ := List.nodup_cons.1 hl
    clear hl
    have ih := ih hl'
    rw [List.foldl_cons]
    constructor
    · intro hm
      rcases List.mem_cons.1 hm with e | hm
      · subst e
        rw [(ih _).2 hk, h2]
      · have hne : π i ≠ k := fun e => hk (e ▸ hm)
        rw [(ih _).1 hm, h1 _ _ _ hne]
    · intro hm
      rw [List.mem_cons, not_or] at hm
      rw [(ih _).2 hm.2, h1 _ _ _ hm.1]

end

theorem nodup_squares : Square.all.Nodup := List.nodup_finRange 81

theorem mem_squares (s : Square) : s ∈ Square.all := List.mem_finRange s

theorem nodup_colors : Color.all.Nodup := by decide

theorem mem_colors (c : Color) : c ∈ Color.all := by cases c <;> decide

/-- Two nested loops over squares and colours. -/
theorem square_color_loop {α : Type} (f : (Square × Color → α) → Square → Color → Square × Color → α)
    (g : Square × Color → α → α)
    (h1 : ∀ t s c i, i ≠ (s, c) → f t s c i = t i) (h2 : ∀ t s c, f t s c (s, c) = g (s, c) (t (s, c)))
    (t : Square × Color → α) (s : Square) (c : Color) :
    Square.all.foldl (fun t s => Color.all.foldl (fun t c => f t s c) t) t (s, c) =
      g (s, c) (t (s, c)) := by
  have inner : ∀ (t : Square × Color → α) (s : Square),
      (∀ i : Square × Color, i.1 ≠ s → Color.all.foldl (fun t c => f t s c) t i = t i) ∧
      ∀ c, Color.all.foldl (fun t c => f t s c) t (s, c) = g (s, c) (t (s, c)) := by
    intro t s
    simp only [Color.all, List.foldl_cons, List.foldl_nil]
    refine ⟨fun i hi => ?_, fun c => ?_⟩
    · rw [h1 _ _ _ _ (by rintro rfl; exact hi rfl), h1 _ _ _ _ (by rintro rfl; exact hi rfl)]
    · cases c with
      | black => rw [h1 _ _ _ _ (by simp), h2]
      | white => rw [h2, h1 _ _ _ _ (by simp)]
  exact (foldl_fiber (fun i : Square × Color => i.1) _ g (fun t k i h => (inner t k).1 i h)
    (fun t i => (inner t i.1).2 i.2) _ nodup_squares t (s, c)).1 (mem_squares s)

theorem upd_self {ι α : Type} [DecidableEq ι] (a : ι → α) (i : ι) (v : α) : upd a i v i = v :=
  if_pos rfl

theorem upd_ne {ι α : Type} [DecidableEq ι] (a : ι → α) {i j : ι} (v : α) (h : j ≠ i) :
    upd a i v j = a j := if_neg h

theorem pieceTable_eq (K : Backend) (deltas : Color → List Delta) (s : Square) (c : Color) :
    pieceTableNew K deltas (s, c) = pieceAttack K deltas s c := by
  have go : ∀ (l : List Delta) (t : Square × Color → BB) (s : Square) (c : Color),
      (∀ i, i ≠ (s, c) → l.foldl (fun table delta =>
        match s.shift delta.file delta.rank with
        | some to => upd table (s, c) (K.or (table (s, c)) (K.single to))
        | none => table) t i = t i) ∧
      l.foldl (fun table delta =>
        match s.shift delta.file delta.rank with
        | some to => upd table (s, c) (K.or (table (s, c)) (K.single to))
        | none => table) t (s, c) = l.foldl (fun acc d =>
          match s.shift d.file d.rank with
          | some to => K.or acc (K.single to)
          | none => acc) (t (s, c)) := by
    intro l
    induction l with
    | nil => exact fun t s c => ⟨fun _ _ => rfl, rfl⟩
    | cons d l ih =>
      intro t s c
      simp only [List.foldl_cons]
      cases s.shift d.file d.rank with
      | none => exact ih t s c
      | some to =>
        refine ⟨fun i hi => ?_, ?_⟩
        · exact ((ih _ s c).1 i hi).trans (upd_ne _ _ hi)
        · have := (ih (upd t (s, c) (K.or (t (s, c)) (K.single to))) s c).2
          rw [upd_self] at this
          exact this
  exact square_color_loop _ (fun i a => (deltas i.2).foldl (fun acc d =>
      match i.1.shift d.file d.rank with
      | some to => K.or acc (K.single to)
      | none => acc) a) (fun t s c i hi => (go (deltas c) t s c).1 i hi)
    (fun t s c => (go (deltas c) t s c).2) _ s c

theorem lanceTable_eq (K : Backend) (s : Square) (c : Color) :
    lanceTableNew K (s, c) = kyPseudoAttack K s c :=
  square_color_loop _ (fun i _ => kyPseudoAttack K i.1 i.2) (fun t s c i hi => upd_ne _ _ hi)
    (fun t s c => by rw [upd_self]; cases c <;> rfl) _ s c

theorem slidingTable_eq (K : Backend) (d0 d1 d2 d3 : Delta) (s : Square) :
    (SlidingTable.new K [[d0, d1], [d2, d3]]).masks (s, 0, 0) = slidingAttack K s K.empty d0 ∧
    (SlidingTable.new K [[d0, d1], [d2, d3]]).masks (s, 0, 1) = slidingAttack K s K.empty d1 ∧
    (SlidingTable.new K [[d0, d1], [d2, d3]]).masks (s, 1, 0) = slidingAttack K s K.empty d2 ∧
    (SlidingTable.new K [[d0, d1], [d2, d3]]).masks (s, 1, 1) = slidingAttack K s K.empty d3 ∧
    (SlidingTable.new K [[d0, d1], [d2, d3]]).mergedMasks s =
      slidingPseudoAttack K ⟨d0, d1, d2, d3⟩ s := by
  have go : ∀ (l : List Square), l.Nodup → ∀ T : SlidingTable,
      let F := l.foldl (fun (T : SlidingTable) sq =>
        let (masks, mergedMask) :=
          [[d0, d1], [d2, d3]].zipIdx.foldl
            (fun (acc : (Square × Nat × Nat → BB) × BB) (dsi : List Delta × Nat) =>
            dsi.1.zipIdx.foldl (fun (acc : (Square × Nat × Nat → BB) × BB) (dj : Delta × Nat) =>
              let masks := upd acc.1 (sq, dsi.2, dj.2) (slidingAttack K sq K.empty dj.1)
              (masks, K.or acc.2 (masks (sq, dsi.2, dj.2)))) acc) (T.masks, K.empty)
        (⟨masks, upd T.mergedMasks sq mergedMask⟩ : SlidingTable)) T
      (s ∉ l → (∀ i j, F.masks (s, i, j) = T.masks (s, i, j)) ∧ F.mergedMasks s = T.mergedMasks s) ∧
      (s ∈ l → F.masks (s, 0, 0) = slidingAttack K s K.empty d0 ∧
        F.masks (s, 0, 1) = slidingAttack K s K.empty d1 ∧
        F.masks (s, 1, 0) = slidingAttack K s K.empty d2 ∧
        F.masks (s, 1, 1) = slidingAttack K s K.empty d3 ∧
        F.mergedMasks s = slidingPseudoAttack K ⟨d0, d1, d2, d3⟩ s) := by
    intro l
    induction l with
    | nil => exact fun _ T => ⟨fun _ => ⟨fun _ _ => rfl, rfl⟩, fun h => absurd h List.not_mem_nil⟩
    | cons k l ih =>
      intro hl T
      obtain ⟨hk, hl⟩ := List.nodup_cons.1 hl
      have ih := ih hl
      simp only [List.foldl_cons, List.foldl_nil, List.zipIdx_cons, List.zipIdx_nil] at ih ⊢
      generalize hT' : (SlidingTable.mk _ (upd T.mergedMasks k _) : SlidingTable) = T'
      have hm : s ≠ k → (∀ i j, T'.masks (s, i, j) = T.masks (s, i, j)) ∧
          T'.mergedMasks s = T.mergedMasks s := by
        intro h
        subst hT'
        exact ⟨fun i j => by simp [upd, h], by simp [upd, h]⟩
      have hs : s = k → T'.masks (s, 0, 0) = slidingAttack K s K.empty d0 ∧
          T'.masks (s, 0, 1) = slidingAttack K s K.empty d1 ∧
          T'.masks (s, 1, 0) = slidingAttack K s K.empty d2 ∧
          T'.masks (s, 1, 1) = slidingAttack K s K.empty d3 ∧
          T'.mergedMasks s = slidingPseudoAttack K ⟨d0, d1, d2, d3⟩ s := by
        intro h
        subst hT' h
        simp [upd, slidingPseudoAttack]
      obtain ⟨a, b⟩ := ih T'
      refine ⟨fun hn => ?_, fun hin => ?_⟩
      · rw [List.mem_cons, not_or] at hn
        obtain ⟨a1, a2⟩ := a hn.2
        obtain ⟨m1, m2⟩ := hm hn.1
        exact ⟨fun i j => (a1 i j).trans (m1 i j), a2.trans m2⟩
      · rcases List.mem_cons.1 hin with e | e
        · obtain ⟨a1, a2⟩ := a (e ▸ hk)
          obtain ⟨e0, e1, e2, e3, e4⟩ := hs e
          exact ⟨(a1 _ _).trans e0, (a1 _ _).trans e1, (a1 _ _).trans e2, (a1 _ _).trans e3,
            a2.trans e4⟩
        · exact b e
  exact (go _ nodup_squares _).2 (mem_squares s)

theorem attackTable_eq (K : Backend) (k : PieceKind) (s : Square) (c : Color) (occ : BB) :
    (AttackTable.init K).attack K k s c occ = tableAttack K k s c occ := by
  obtain ⟨a0, a1, a2, a3, _⟩ := slidingTable_eq K Delta.NE Delta.SE Delta.SW Delta.NW s
  obtain ⟨b0, b1, b2, b3, _⟩ := slidingTable_eq K Delta.N Delta.E Delta.S Delta.W s
  have ka : (AttackTable.init K).ka.attack K s occ = kaAttack K s occ := by
    simp only [SlidingTable.attack, AttackTable.init, a0, a1, a2, a3]; rfl
  have hi : (AttackTable.init K).hi.attack K s occ = hiAttack K s occ := by
    simp only [SlidingTable.attack, AttackTable.init, b0, b1, b2, b3]; rfl
  have ky : lanceLookup K (AttackTable.init K).ky s c occ = kyAttack K s c occ := by
    simp only [lanceLookup, AttackTable.init, lanceTable_eq]; rfl
  have fu : (AttackTable.init K).fu (s, c) = fuAttack K s c := pieceTable_eq _ _ _ _
  have ke : (AttackTable.init K).ke (s, c) = keAttack K s c := pieceTable_eq _ _ _ _
  have gi : (AttackTable.init K).gi (s, c) = giAttack K s c := pieceTable_eq _ _ _ _
  have ki : (AttackTable.init K).ki (s, c) = kiAttack K s c := pieceTable_eq _ _ _ _
  have ou : (AttackTable.init K).ou (s, c) = ouAttack K s c := pieceTable_eq _ _ _ _
  cases k <;> simp only [AttackTable.attack, tableAttack, ka, hi, ky, fu, ke, gi, ki, ou]

theorem pseudoTable_eq (K : Backend) (k : PieceKind) (s : Square) (c : Color) :
    (AttackTable.init K).pseudoAttack K k s c = tablePseudoAttack K k s c := by
  obtain ⟨_, _, _, _, a⟩ := slidingTable_eq K Delta.NE Delta.SE Delta.SW Delta.NW s
  obtain ⟨_, _, _, _, b⟩ := slidingTable_eq K Delta.N Delta.E Delta.S Delta.W s
  have ka : (AttackTable.init K).ka.mergedMasks s = slidingPseudoAttack K kaDirs s := a
  have hi : (AttackTable.init K).hi.mergedMasks s = slidingPseudoAttack K hiDirs s := b
  have ky : (AttackTable.init K).ky (s, c) = kyPseudoAttack K s c := lanceTable_eq _ _ _
  cases k <;> simp only [AttackTable.pseudoAttack, tablePseudoAttack, ka, hi, ky, attackTable_eq]

/-- C59, `ATTACK_TABLE`: after the loops of the initialiser, `attack` and `pseudo_attack` read from
the arrays the movement rules of the pieces. -/
theorem C59_attack_table (K : Backend) (hK : K ∈ backends) (k : PieceKind) (c : Color)
    (s t : Square) (occ : BB) :
    (K.contains ((AttackTable.init K).attack K k s c occ) t = true ↔
      Reaches (fun u => K.contains occ u = true) k c s t) ∧
    (K.contains ((AttackTable.init K).pseudoAttack K k s c) t = true ↔
      Reaches (fun _ => False) (plainSlider k) c s t) := by
  rw [attackTable_eq, pseudoTable_eq]
  exact ⟨C25_attack_table K hK k c s t occ, C50_pseudo_attack K hK k c s t⟩

/-! ## The between table -/

theorem i8_sub (a b : Nat) (ha : a < 10) (hb : b < 10) :
    (i8 a - i8 b = 0#8 ↔ (a : Int) - b = 0) ∧
    i8cmp (i8 a - i8 b) = (if (a : Int) - b < 0 then .lt else if (a : Int) - b = 0 then .eq else .gt) ∧
    i8abs (i8 a - i8 b) = i8 ((a : Int) - b).natAbs ∧ ((a : Int) - b).natAbs < 10 := by
  have key : ∀ a b : Fin 10,
      (i8 a.val - i8 b.val = 0#8 ↔ (a.val : Int) - b.val = 0) ∧
      i8cmp (i8 a.val - i8 b.val) =
        (if (a.val : Int) - b.val < 0 then .lt else if (a.val : Int) - b.val = 0 then .eq else .gt) ∧
      i8abs (i8 a.val - i8 b.val) = i8 ((a.val : Int) - b.val).natAbs ∧
      ((a.val : Int) - b.val).natAbs < 10 := by decide +kernel
  exact key ⟨a, ha⟩ ⟨b, hb⟩

theorem i8_inj (a b : Nat) (ha : a < 10) (hb : b < 10) : i8 a = i8 b ↔ a = b := by
  have key : ∀ a b : Fin 10, i8 a.val = i8 b.val ↔ a.val = b.val := by decide +kernel
  exact key ⟨a, ha⟩ ⟨b, hb⟩

/-- A loop that never panics is a loop without panics. -/
theorem foldlM_some {α β : Type} (f : β → α → Option β) (g : β → α → β)
    (h : ∀ b a, f b a = some (g b a)) (l : List α) (b : β) :
    l.foldlM f b = some (l.foldl g b) := by
  induction l generalizing b with
  | nil => rfl
  | cons a l ih =>
    rw [List.foldlM_cons, h, List.foldl_cons]
    exact ih _

/-- The pairs of squares the loop skips. -/
def Skipped (a b : Square) : Prop :=
  ((b.file : Int) - a.file = 0 ∧ (b.rank : Int) - a.rank = 0) ∨
  ((b.file : Int) - a.file ≠ 0 ∧ (b.rank : Int) - a.rank ≠ 0 ∧
    ((b.file : Int) - a.file).natAbs ≠ ((b.rank : Int) - a.rank).natAbs)

instance (a b : Square) : Decidable (Skipped a b) := by unfold Skipped; infer_instance

theorem betweenTable_skipped (K : Backend) {a b : Square} (h : Skipped a b) :
    betweenTable K a b = K.empty := if_pos h

/-- The body never panics, and stores the entry of `betweenTable`. -/
theorem between_body (K : Backend) (bbs : Square × Square → BB) (a b : Square) :
    betweenBody K bbs a b =
      some (if Skipped a b then bbs else upd bbs (a, b) (betweenTable K a b)) := by
  have fa := a.file_le
  have fb := b.file_le
  have ra := a.rank_le
  have rb := b.rank_le
  obtain ⟨f1, f2, f3, f4⟩ := i8_sub b.file a.file (by omega) (by omega)
  obtain ⟨r1, r2, r3, r4⟩ := i8_sub b.rank a.rank (by omega) (by omega)
  have hs : ((i8 b.file - i8 a.file ||| i8 b.rank - i8 a.rank) = 0#8 ∨
      (i8 b.file - i8 a.file ≠ 0#8 ∧ i8 b.rank - i8 a.rank ≠ 0#8 ∧
        i8abs (i8 b.file - i8 a.file) ≠ i8abs (i8 b.rank - i8 a.rank))) ↔ Skipped a b := by
    simp only [BitVec.or_eq_zero_iff, f1, r1, f3, r3, ne_eq, i8_inj _ _ f4 r4]
    exact Iff.rfl
  unfold betweenBody
  simp only [hs]
  by_cases h : Skipped a b
  · simp only [h, if_true]; rfl
  · simp only [h, if_false, f2, r2]
    have e : betweenTable K a b =
        match betweenDelta ((b.file : Int) - a.file) ((b.rank : Int) - a.rank) with
        | some d => K.and (slidingAttack K a (K.single b) d) (K.not (K.single b))
        | none => K.empty := if_neg h
    rw [e]
    have hn : ¬ ((b.file : Int) - a.file = 0 ∧ (b.rank : Int) - a.rank = 0) := fun h' => h (.inl h')
    generalize (b.file : Int) - a.file = x at hn ⊢
    generalize (b.rank : Int) - a.rank = y at hn ⊢
    unfold betweenDelta
    rcases Int.lt_trichotomy x 0 with hx | hx | hx <;> rcases Int.lt_trichotomy y 0 with hy | hy | hy
    all_goals
      first
      | exact absurd (And.intro hx hy) hn
      | (simp (disch := omega) only [if_pos, if_neg]; rfl)

theorem between_init (K : Backend) :
    ∃ T, betweenInit K = some T ∧ ∀ a b, T (a, b) = betweenTable K a b := by
  let g (bbs : Square × Square → BB) (a b : Square) : Square × Square → BB :=
    if Skipped a b then bbs else upd bbs (a, b) (betweenTable K a b)
  have inner : ∀ bbs a, Square.all.foldlM (fun bbs b => betweenBody K bbs a b) bbs =
      some (Square.all.foldl (fun bbs b => g bbs a b) bbs) := fun bbs a =>
    foldlM_some _ (fun bbs b => g bbs a b) (fun bbs b => between_body K bbs a b) _ _
  refine ⟨Square.all.foldl (fun bbs a => Square.all.foldl (fun bbs b => g bbs a b) bbs)
    (fun _ => K.empty), foldlM_some _ _ inner _ _, fun a b => ?_⟩
  let v (i : Square × Square) (x : BB) : BB := if Skipped i.1 i.2 then x else betweenTable K i.1 i.2
  have g1 : ∀ t a b i, i ≠ (a, b) → g t a b i = t i := by
    intro t a b i hi
    show (if _ then _ else _ : Square × Square → BB) i = _
    split
    · rfl
    · exact upd_ne _ _ hi
  have g2 : ∀ t a b, g t a b (a, b) = v (a, b) (t (a, b)) := by
    intro t a b
    show (if _ then _ else _ : Square × Square → BB) (a, b) = if _ then _ else _
    split
    · rfl
    · exact upd_self _ _ _
  have row : ∀ (a : Square) (t : Square × Square → BB) (i : Square × Square),
      (i.1 ≠ a → Square.all.foldl (fun bbs b => g bbs a b) t i = t i) ∧
      (i.1 = a → Square.all.foldl (fun bbs b => g bbs a b) t i = v i (t i)) := by
    intro a t i
    have h := (foldl_fiber (fun i : Square × Square => i.2) (fun bbs b => g bbs a b)
      (fun i x => if i.1 = a then v i x else x)
      (fun t b i hb => g1 _ _ _ _ (fun e => hb (by rw [e])))
      (fun t i => by
        by_cases e : i.1 = a
        · subst e
          rw [if_pos rfl]
          exact g2 _ _ _
        · rw [if_neg e, g1 _ _ _ _ (fun e' => e (by rw [e']))])
      _ nodup_squares t i).1 (mem_squares _)
    exact ⟨fun e => by rw [h, if_neg e], fun e => by rw [h, if_pos e]⟩
  have := (foldl_fiber (fun i : Square × Square => i.1) _ v (fun t k i h => (row k t i).1 h)
    (fun t i => (row i.1 t i).2 rfl) _ nodup_squares (fun _ => K.empty) (a, b)).1 (mem_squares a)
  rw [this]
  show (if _ then _ else _) = _
  split
  · rename_i h
    exact (betweenTable_skipped K h).symm
  · rfl

/-- C59, `BETWEEN_TABLE`: the initialiser does not reach `unreachable!()`, and the array holds the
squares strictly between. -/
theorem C59_between_table (K : Backend) (hK : K ∈ backends) :
    ∃ T, betweenInit K = some T ∧
      ∀ a b u, K.contains (T (a, b)) u = true ↔ Between a u b := by
  obtain ⟨T, h, e⟩ := between_init K
  exact ⟨T, h, fun a b u => by rw [e]; exact C29_between K hK a b u⟩

/-! ## Ranks and files -/

theorem relativeRanks_init (s : Square) (c : Color) :
    relativeRanksInit (s, c) = relativeRanks s c :=
  square_color_loop _ (fun i _ => relativeRanks i.1 i.2) (fun _ _ _ _ hi => upd_ne _ _ hi)
    (fun _ _ _ => upd_self _ _ _) _ s c

theorem promotable_init (s : Square) (c : Color) :
    promotableInit relativeRanksInit (s, c) = promotable s c := by
  have h := square_color_loop (fun (table : Square × Color → Bool) sq c =>
      if relativeRanksInit (sq, c) ≤ 3 then upd table (sq, c) true else table)
    (fun i b => if relativeRanks i.1 i.2 ≤ 3 then true else b)
    (fun t s c i hi => by
      split
      · exact upd_ne _ _ hi
      · rfl)
    (fun t s c => by
      simp only [relativeRanks_init]
      split
      · exact upd_self _ _ _
      · rfl) (fun _ => false) s c
  refine Eq.trans h ?_
  unfold promotable
  by_cases e : relativeRanks s c ≤ 3 <;> simp [e]

/-- C59, `RELATIVE_RANKS` and `PROMOTABLE`: the arrays hold the rank counted from the far side and
the promotion zone, and the comparisons of the move generator with the former are the rule about
pieces without a move. -/
theorem C59_rank_tables (s : Square) (c : Color) :
    (promotableInit relativeRanksInit (s, c) = true ↔ InZone c s) ∧
    (¬ 1 < relativeRanksInit (s, c) ↔ Dead .pawn c s) ∧
    (¬ 1 < relativeRanksInit (s, c) ↔ Dead .lance c s) ∧
    (¬ 2 < relativeRanksInit (s, c) ↔ Dead .knight c s) ∧
    relativeRanksInit (s, .black) = s.rank ∧ relativeRanksInit (s, .white) = 10 - s.rank := by
  simp only [promotable_init, relativeRanks_init]
  exact C50_ranks s c

theorem files_init (K : Backend) : ∃ T, filesInit K = some T ∧ ∀ f, T f = filesTable K f := by
  have h : ∀ (bbs : Nat → BB) (sq : Square),
      (if sq.file < 10 then some (upd bbs sq.file (K.or (bbs sq.file) (K.single sq))) else none) =
        some (upd bbs sq.file (K.or (bbs sq.file) (K.single sq))) :=
    fun bbs sq => if_pos (by have := sq.file_le; omega)
  refine ⟨_, foldlM_some _ _ h Square.all (fun _ => K.empty), fun f => ?_⟩
  have go : ∀ (l : List Square) (t : Nat → BB),
      l.foldl (fun bbs sq => upd bbs sq.file (K.or (bbs sq.file) (K.single sq))) t f =
        l.foldl (fun acc sq => if sq.file = f then K.or acc (K.single sq) else acc) (t f) := by
    intro l
    induction l with
    | nil => exact fun _ => rfl
    | cons s l ih =>
      intro t
      rw [List.foldl_cons, List.foldl_cons, ih]
      by_cases e : s.file = f
      · subst e
        rw [upd_self, if_pos rfl]
      · rw [upd_ne _ _ (Ne.symm e), if_neg e]
  exact go _ _

/-- C59, `FILES`: no index is out of bounds of the ten entries; entry `f` holds the squares of file
`f`, entry 0 nothing. -/
theorem C59_file_table (K : Backend) (hK : K ∈ backends) :
    ∃ T, filesInit K = some T ∧ (∀ f s, K.contains (T f) s = true ↔ s.file = f) ∧
      K.isEmpty (T 0) = true := by
  have L := lawful_of_mem hK
  obtain ⟨T, h, e⟩ := files_init K
  refine ⟨T, h, fun f s => by rw [e]; exact C50_files K hK f s, ?_⟩
  rw [e, L.isEmpty, beq_iff_eq, eq_zero_iff (filesTable_spec L 0).1]
  intro s
  rw [← Bool.not_eq_true, (filesTable_spec L 0).2]
  have := s.file_pos
  omega

/-! ## The constants of the bitboard files -/

theorem constLoop_eq (n : Nat) (init : BB) (f : Nat → BB) (i : Nat) :
    constLoop n init f i = if i < n then f i else init := by
  have h := foldl_fiber (fun i : Nat => i) (fun (values : Nat → BB) i => upd values i (f i))
    (fun i _ => f i) (fun _ _ _ h => upd_ne _ _ h) (fun _ _ => upd_self _ _ _) (List.range n)
    List.nodup_range (fun _ => init) i
  rw [List.mem_range] at h
  split
  · exact h.1 (by assumption)
  · exact h.2 (by assumption)

theorem singleValues_eq (s : Square) : singleValues s.val = simdSingle s := by
  unfold singleValues
  rw [constLoop_eq, if_pos s.isLt]
  rfl

theorem maskedValues_eq {i : Nat} (hi : i < 83) : maskedValuesInit i = simdMaskedValues i := by
  unfold maskedValuesInit
  rw [constLoop_eq, if_pos hi]
  unfold simdMaskedValues
  dsimp only
  generalize (1#128 <<< i) - 1#128 = u
  apply BitVec.eq_of_getLsbD_eq
  intro j hj
  rw [getLsbD_mk64]
  split
  · simp only [BitVec.truncate_eq_setWidth, BitVec.getLsbD_setWidth, *, decide_true, Bool.true_and]
  · simp only [BitVec.truncate_eq_setWidth, BitVec.getLsbD_setWidth, BitVec.getLsbD_ushiftRight]
    rw [decide_eq_true (by omega), Bool.true_and]
    congr 1
    omega

theorem maskedBBs_eq (J : Junk) {i : Nat} (hi : i < 83) :
    maskedBBsInit J i = CoreBB.maskedBBs i := by
  unfold maskedBBsInit
  rw [constLoop_eq, if_pos hi]
  unfold fromU128Unchecked
  refine if_pos ?_
  rw [BitVec.and_comm 0x0003ffff7fffffffffffffff#128, BitVec.and_assoc]
  rw [show (0x0003ffff7fffffffffffffff#128 &&& ~~~allBits) = 0#128 by decide, BitVec.and_zero]

/-- C59, the constants of the bitboard files, bit by bit: square `i` is bit `i` below 63 and bit
`i + 1` above; entry `i` of the masks has the bits below `i`, for the portable backend without the
gap at 63 and the bits above 81.  They are the entries the operations read. -/
theorem C59_bitboard_constants (J : Junk) :
    (∀ i, i < 81 → ∀ j, (singleValues i).getLsbD j = decide (j = if i < 63 then i else i + 1)) ∧
    (∀ i, i < 83 → ∀ j, (maskedValuesInit i).getLsbD j = decide (j < i)) ∧
    (∀ i, i < 83 → ∀ j, (maskedBBsInit J i).getLsbD j = decide (j < i ∧ j ≠ 63 ∧ j < 82)) ∧
    (∀ s : Square, singleValues s.val = simdSingle s) ∧
    (∀ i, readTable J 83 maskedValuesInit i = readTable J 83 simdMaskedValues i) ∧
    (∀ i, readTable J 83 (maskedBBsInit J) i = readTable J 83 CoreBB.maskedBBs i) := by
  refine ⟨fun i hi j => ?_, fun i hi j => ?_, fun i hi j => ?_, singleValues_eq, fun i => ?_, fun i => ?_⟩
  · have e := singleValues_eq ⟨i, hi⟩
    rw [show singleValues i = _ from e, simdSingle_eq, CoreBB.single]
    have hb := bitPos_lt ⟨i, hi⟩
    rw [BitVec.getLsbD_shiftLeft, BitVec.getLsbD_one]
    rw [Bool.eq_iff_iff]
    have hb' : bitPos ⟨i, hi⟩ = if i < 63 then i else i + 1 := rfl
    simp only [Bool.and_eq_true, Bool.not_eq_true', decide_eq_true_eq, decide_eq_false_iff_not,
      ← hb']
    omega
  · rw [maskedValues_eq hi]
    exact getLsbD_lowMask i j (by omega)
  · rw [maskedBBs_eq J hi, getLsbD_maskedBBs i j (by omega)]
    congr 1
    exact propext ⟨fun ⟨a, b, c⟩ => ⟨c, b, a⟩, fun ⟨a, b, c⟩ => ⟨c, b, a⟩⟩
  · unfold readTable
    split
    · exact maskedValues_eq (by assumption)
    · rfl
  · unfold readTable
    split
    · exact maskedBBs_eq J (by assumption)
    · rfl

/-- C59, the link to the rest of the model: every entry read from the arrays filled by the loops is
the entry computed by the functions through which the other files of the model read the tables. -/
theorem C59_refines (K : Backend) :
    (∀ s c, (AttackTable.init K).fu (s, c) = fuAttack K s c ∧
      (AttackTable.init K).ke (s, c) = keAttack K s c ∧
      (AttackTable.init K).gi (s, c) = giAttack K s c ∧
      (AttackTable.init K).ki (s, c) = kiAttack K s c ∧
      (AttackTable.init K).ou (s, c) = ouAttack K s c) ∧
    (∀ s occ, (AttackTable.init K).ka.attack K s occ = kaAttack K s occ ∧
      (AttackTable.init K).hi.attack K s occ = hiAttack K s occ ∧
      ∀ c, lanceLookup K (AttackTable.init K).ky s c occ = kyAttack K s c occ) ∧
    (∀ k s c occ, (AttackTable.init K).attack K k s c occ = tableAttack K k s c occ) ∧
    (∀ k s c, (AttackTable.init K).pseudoAttack K k s c = tablePseudoAttack K k s c) ∧
    (∃ T, betweenInit K = some T ∧ ∀ a b, T (a, b) = betweenTable K a b) ∧
    (∀ s c, relativeRanksInit (s, c) = relativeRanks s c) ∧
    (∀ s c, promotableInit relativeRanksInit (s, c) = promotable s c) ∧
    (∃ T, filesInit K = some T ∧ ∀ f, T f = filesTable K f) := by
  refine ⟨fun s c => ⟨pieceTable_eq .., pieceTable_eq .., pieceTable_eq .., pieceTable_eq ..,
    pieceTable_eq ..⟩, fun s occ => ⟨?_, ?_, fun c => ?_⟩, attackTable_eq K, pseudoTable_eq K,
    between_init K, relativeRanks_init, promotable_init, files_init K⟩
  · exact attackTable_eq K .bishop s .black occ
  · exact attackTable_eq K .rook s .black occ
  · exact attackTable_eq K .lance s c occ

/-- Instances: 5c is in the zone of Black and not in that of White; from the arrays, a rook on 5e
with a piece on 5c attacks 5c and not 5b; 5d lies between 5c and 5e. -/
example : promotableInit relativeRanksInit (38, .black) = true ∧
    promotableInit relativeRanksInit (38, .white) = false ∧
    (let K := CoreBB.backend
     K.contains ((AttackTable.init K).attack K .rook 40 .black (K.single 38)) 38 = true ∧
     K.contains ((AttackTable.init K).attack K .rook 40 .black (K.single 38)) 37 = false ∧
     ∃ T, betweenInit K = some T ∧ T (38, 40) = K.single 39) := by
  refine ⟨by rw [promotable_init]; decide, by rw [promotable_init]; decide, ?_, ?_, ?_⟩
  · rw [attackTable_eq]; decide +kernel
  · rw [attackTable_eq]; decide +kernel
  · obtain ⟨T, h, e⟩ := between_init CoreBB.backend
    exact ⟨T, h, by rw [e]; decide +kernel⟩

end Yasai.Props

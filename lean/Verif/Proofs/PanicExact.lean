import Verif.Proofs.Bound593

/-!
# When exactly does `legal_moves` panic?

In check few moves are generated, whatever pieces are on the board: every evasion is a step of the
king, or goes to one of at most eight squares, each of which is reached by at most one piece from
each direction.
-/

namespace Yasai

open Spec

/-- Counting through a relation that is injective on a duplicate-free list. -/
theorem length_le_of_rel {α β : Type} [DecidableEq β] {R : α → β → Prop} {l : List α} {l' : List β}
    (hn : l.Nodup) (hex : ∀ a ∈ l, ∃ b ∈ l', R a b)
    (hinj : ∀ a ∈ l, ∀ a' ∈ l, ∀ b, R a b → R a' b → a = a') : l.length ≤ l'.length := by
  induction l generalizing l' with
  | nil => exact Nat.zero_le _
  | cons a l ih =>
    obtain ⟨b, hb, hab⟩ := hex a List.mem_cons_self
    have hn' := List.nodup_cons.1 hn
    have h1 : l.length ≤ (l'.erase b).length := by
      apply ih hn'.2
      · intro a' ha'
        obtain ⟨b', hb', hab'⟩ := hex a' (List.mem_cons_of_mem _ ha')
        refine ⟨b', ?_, hab'⟩
        rw [List.mem_erase_of_ne]
        · exact hb'
        · rintro rfl
          have := hinj a List.mem_cons_self a' (List.mem_cons_of_mem _ ha') b' hab hab'
          subst this
          exact hn'.1 ha'
      · exact fun x hx y hy => hinj x (List.mem_cons_of_mem _ hx) y (List.mem_cons_of_mem _ hy)
    rw [List.length_erase_of_mem hb] at h1
    have : 0 < l'.length := List.length_pos_of_mem hb
    simp only [List.length_cons]
    omega

/-- The ten directions from which a piece can arrive: eight lines and two knight jumps. -/
def arrivals (c : Color) : List (Int × Int) := directions ++ [(-1, fwd c * 2), (1, fwd c * 2)]

/-- A piece arrives along one of the ten directions, over empty squares. -/
theorem reaches_arrival {occ : Square → Prop} {k : PieceKind} {c : Color} {s t : Square}
    (h : Reaches occ k c s t) : ∃ d ∈ arrivals c, ∃ n : Nat, 1 ≤ n ∧
      Disp s t (n * d.1) (n * d.2) ∧
      ∀ m : Nat, 1 ≤ m → m < n → ∀ u, Disp s u (m * d.1) (m * d.2) → ¬ occ u := by
  rcases h with ⟨d, hd, h⟩ | ⟨d, hd, n, hn, h, hp⟩
  · refine ⟨(d.1, fwd c * d.2), ?_, 1, Nat.le_refl _, ?_, fun m h1 h2 => by omega⟩
    · clear h
      revert d
      cases k <;> cases c <;> decide
    · simpa using h
  · exact ⟨(d.1, fwd c * d.2), List.mem_append_left _ (slide_dir hd), n, hn, h, hp⟩

/-- Two occupied squares from which pieces arrive from the same direction are equal. -/
theorem arrival_unique {occ : Square → Prop} {s s' t : Square} {d : Int × Int} {n n' : Nat}
    (h1 : Disp s t (n * d.1) (n * d.2)) (h1' : Disp s' t (n' * d.1) (n' * d.2))
    (hp : ∀ m : Nat, 1 ≤ m → m < n → ∀ u, Disp s u (m * d.1) (m * d.2) → ¬ occ u)
    (hn' : 1 ≤ n') (ho : occ s') (hlt : n' < n) : False := by
  refine hp (n - n') (by omega) (by omega) s' ?_ ho
  obtain ⟨a, b⟩ := h1
  obtain ⟨a', b'⟩ := h1'
  have e : ((n - n' : Nat) : Int) = n - n' := by omega
  have e1 : ((n : Int) - n') * d.1 = n * d.1 - n' * d.1 := Int.sub_mul ..
  have e2 : ((n : Int) - n') * d.2 = n * d.2 - n' * d.2 := Int.sub_mul ..
  unfold Disp
  rw [e, e1, e2]
  constructor <;> omega

theorem arrival_eq {occ : Square → Prop} {s s' t : Square} {d : Int × Int} {n n' : Nat}
    (h1 : Disp s t (n * d.1) (n * d.2)) (h1' : Disp s' t (n' * d.1) (n' * d.2))
    (hp : ∀ m : Nat, 1 ≤ m → m < n → ∀ u, Disp s u (m * d.1) (m * d.2) → ¬ occ u)
    (hp' : ∀ m : Nat, 1 ≤ m → m < n' → ∀ u, Disp s' u (m * d.1) (m * d.2) → ¬ occ u)
    (hn : 1 ≤ n) (hn' : 1 ≤ n') (ho : occ s) (ho' : occ s') : s = s' := by
  rcases Nat.lt_trichotomy n n' with hlt | rfl | hlt
  · exact (arrival_unique h1' h1 hp' hn ho hlt).elim
  · obtain ⟨a, b⟩ := h1
    obtain ⟨a', b'⟩ := h1'
    apply Square.ext_coords <;> omega
  · exact (arrival_unique h1 h1' hp hn' ho' hlt).elim

/-- `to` is the `m`-th square from the checker towards the king. -/
def Nth (ch king : Square) (m : Nat) (to : Square) : Prop :=
  (m = 0 ∧ to = ch) ∨ ∃ d ∈ directions, ∃ n : Nat, 1 ≤ m ∧ m < n ∧
    Disp ch to (m * d.1) (m * d.2) ∧ Disp ch king (n * d.1) (n * d.2)

theorem nth_unique {ch king : Square} {m : Nat} {t t' : Square} (h : Nth ch king m t)
    (h' : Nth ch king m t') : t = t' := by
  rcases h with ⟨h0, rfl⟩ | ⟨d, hd, n, hm, hmn, h1, h2⟩
  · rcases h' with ⟨_, rfl⟩ | ⟨d, hd, n, hm, _⟩
    · rfl
    · omega
  · rcases h' with ⟨h0, _⟩ | ⟨d', hd', n', hm', hmn', h1', h2'⟩
    · omega
    · obtain ⟨rfl, rfl⟩ := ray_unique hd hd' (by omega) (by omega) h2 h2'
      exact disp_unique h1 h1'

theorem nth_of_between {ch king to : Square} (h : to = ch ∨ Between ch to king) :
    ∃ m ∈ List.range 8, Nth ch king m to := by
  rcases h with rfl | ⟨d, hd, m, n, hm, hmn, h1, h2⟩
  · exact ⟨0, by decide, .inl ⟨rfl, rfl⟩⟩
  · refine ⟨m, ?_, .inr ⟨d, hd, n, hm, hmn, h1, h2⟩⟩
    rw [List.mem_range]
    obtain ⟨a, b⟩ := h2
    have := ch.bounds
    have := king.bounds
    rw [mem_directions] at hd
    rcases hd with rfl | rfl | rfl | rfl | rfl | rfl | rfl | rfl <;>
      simp only [Int.mul_zero, Int.mul_one, Int.mul_neg] at a b <;> omega

/-- Codes of evasions. -/
abbrev Code := Nat × (Int × Int) × Option PieceKind × Bool

/-- All codes. -/
def codes (c : Color) : List Code :=
  kingSteps.map (fun d => (0, d, none, false)) ++
  ((List.range 8).flatMap fun m => (arrivals c).flatMap fun d => [true, false].map fun pr =>
    (m + 1, d, none, pr)) ++
  (List.range 8).flatMap fun m => PieceKind.all.map fun k => (m + 1, (0, 0), some k, false)

theorem codes_length (c : Color) : (codes c).length = 280 := by
  cases c <;> decide +kernel

/-- A move has a code. -/
def Coded (P : Pos) (ch king : Square) : Move → Code → Prop
  | .normal frm to pr, (i, d, k, pr') => k = none ∧ pr' = pr ∧
    ((i = 0 ∧ frm = king ∧ Disp king to d.1 (fwd P.side * d.2)) ∨
      ∃ m, i = m + 1 ∧ Nth ch king m to ∧ Occ P.board frm ∧ ∃ n : Nat, 1 ≤ n ∧
        Disp frm to (n * d.1) (n * d.2) ∧
        ∀ m : Nat, 1 ≤ m → m < n → ∀ u, Disp frm u (m * d.1) (m * d.2) → ¬ Occ P.board u)
  | .drop to pc, (i, _, k, _) => k = some pc.kind ∧ pc.color = P.side ∧
    ∃ m, i = m + 1 ∧ Nth ch king m to

theorem coded_inj {P : Pos} {ch king : Square} {m m' : Move} {x : Code} (h : Coded P ch king m x)
    (h' : Coded P ch king m' x) : m = m' := by
  obtain ⟨i, d, k, pr⟩ := x
  cases m with
  | normal frm to p =>
    obtain ⟨rfl, rfl, h⟩ := h
    cases m' with
    | normal frm' to' p' =>
      obtain ⟨_, rfl, h'⟩ := h'
      rcases h with ⟨rfl, rfl, h⟩ | ⟨m, rfl, hm, ho, n, hn, hd, hp⟩
      · rcases h' with ⟨_, rfl, h'⟩ | ⟨m', e, _⟩
        · rw [disp_unique h h']
        · omega
      · rcases h' with ⟨e, _⟩ | ⟨m', e, hm', ho', n', hn', hd', hp'⟩
        · omega
        · have : m = m' := by omega
          subst this
          have := nth_unique hm hm'
          subst this
          rw [arrival_eq hd hd' hp hp' hn hn' ho ho']
    | drop to' pc' => exact absurd h'.1 (by simp)
  | drop to pc =>
    obtain ⟨rfl, hc, m, rfl, hm⟩ := h
    cases m' with
    | normal frm' to' p' => exact absurd h'.1 (by simp)
    | drop to' pc' =>
      obtain ⟨e, hc', m', e', hm'⟩ := h'
      have : m = m' := by omega
      subst this
      have := nth_unique hm hm'
      subst this
      obtain ⟨k, c⟩ := pc
      obtain ⟨k', c'⟩ := pc'
      simp only [Option.some.injEq] at e
      simp only at hc hc'
      rw [e, hc, hc']

section
variable {E : Env} {K : Backend} {q : PartialPosition} {st : State} {king : Square}

/-- In check at most 280 moves are generated. -/
theorem evList_length (hK : Lawful K) (h : Repr q) (hv : Loose q.spec)
    (hai : st.attackInfo = AttackInfo.new K (AttackInfo.calculateCheckers K q) q)
    (hking : q.board king = some ⟨.king, q.side⟩) (attacks : BB) :
    (evList E K q st king attacks).length ≤ 280 := by
  have hn := evList_nodup (E := E) hK h hv hai hking attacks
  have hk : ∀ m ∈ kingEvasions K q king attacks, ∀ ch, ∃ x ∈ codes q.side,
      Coded q.spec ch king m x := by
    intro m hm ch
    obtain ⟨to, rfl, ⟨d, hd, h1⟩, _⟩ := (mem_kingEvasions hK h _ m).1 hm
    exact ⟨(0, d, none, false), List.mem_append_left _ (List.mem_append_left _
      (List.mem_map.2 ⟨d, hd, rfl⟩)), rfl, rfl, .inl ⟨rfl, rfl, h1⟩⟩
  have hall : ∃ ch, ∀ m ∈ evList E K q st king attacks, ∃ x ∈ codes q.side,
      Coded q.spec ch king m x := by
    unfold evList
    split
    · next ch hch =>
      refine ⟨ch, fun m hm => ?_⟩
      rcases List.mem_append.1 hm with hm | hm
      · exact hk m hm ch
      · obtain ⟨hp, _, hto⟩ := (mem_otherEvasions hK h hv hai hking hch m).1 hm
        cases m with
        | normal frm to pr =>
          obtain ⟨i, hi, hnth⟩ := nth_of_between hto.2
          obtain ⟨k, hb, hr, _⟩ := hp
          obtain ⟨d, hd, n, hn, h1, h2⟩ := reaches_arrival hr
          refine ⟨(i + 1, d, none, pr), ?_, rfl, rfl, .inr ⟨i, rfl, hnth, ?_, n, hn, h1, h2⟩⟩
          · refine List.mem_append_left _ (List.mem_append_right _ ?_)
            refine List.mem_flatMap.2 ⟨i, hi, List.mem_flatMap.2 ⟨d, hd, ?_⟩⟩
            exact List.mem_map.2 ⟨pr, by cases pr <;> decide, rfl⟩
          · show q.spec.board frm ≠ none
            rw [hb]; exact fun e => by cases e
        | drop to pc =>
          obtain ⟨i, hi, hnth⟩ := nth_of_between (.inr hto)
          refine ⟨(i + 1, (0, 0), some pc.kind, false), ?_, rfl, hp.1, i, rfl, hnth⟩
          refine List.mem_append_right _ (List.mem_flatMap.2 ⟨i, hi, ?_⟩)
          exact List.mem_map.2 ⟨pc.kind, by cases pc.kind <;> decide, rfl⟩
    · refine ⟨king, fun m hm => ?_⟩
      rw [List.append_nil] at hm
      exact hk m hm king
  obtain ⟨ch, hall⟩ := hall
  rw [← codes_length q.side]
  exact length_le_of_rel hn hall fun _ _ _ _ _ h h' => coded_inj h h'

end

theorem appendAll_nil_none {l : List Move} : appendAll [] l = none ↔ maxLegalMoves < l.length := by
  unfold appendAll
  cases l with
  | nil => simp
  | cons a l =>
    simp only [reduceCtorEq, false_or, List.length_nil, Nat.zero_add, List.nil_append]
    split
    · next h =>
      constructor
      · intro e; cases e
      · intro e; exact absurd h (Nat.not_le.2 e)
    · next h => exact ⟨fun _ => Nat.not_le.1 h, fun _ => rfl⟩

/-- The moves generated when not in check. -/
def Candidate (P : Pos) (m : Move) : Prop := PseudoLegal P m ∧ (IsPawnDrop m → ¬ Mated (apply P m))

/-- In check `legal_moves` returns. -/
theorem legalMoves_inCheck (E : Env) {K : Backend} (hK : Lawful K) {p : Position} (hi : Inv K p)
    (hv : Loose p.inner.spec) (hc : InCheck p.inner.board p.inner.side) :
    ∃ l, p.legalMoves E K = some l ∧ l.length ≤ 280 := by
  obtain ⟨st, hst, he, hn, _⟩ := legalMoves_loose E hK hi hv
  obtain ⟨h, st', hst', hai⟩ := hi
  have e : st' = st := by
    rw [hst] at hst'; cases hst'; rfl
  subst e
  have hck : st'.attackInfo.checkers = AttackInfo.calculateCheckers K p.inner := by rw [hai]; rfl
  have hne : ¬ K.isEmpty st'.attackInfo.checkers = true := by
    rw [hck, checkers_empty_iff hK h hv]; exact not_not_intro hc
  obtain ⟨king, hking, _⟩ := hc
  have hkp := (h.kingPosition hK _ (hv.oneKing _) king).2 hking
  obtain ⟨att, hatt, _⟩ := checkersAttacks_spec hK h hv hai hking
  have hps : pseudoList E K p.inner st' = evList E K p.inner st' king att := by
    unfold pseudoList
    rw [if_neg hne, hkp]
    dsimp only
    rw [hatt]
  have hl : (pseudoList E K p.inner st').length ≤ 280 := by
    rw [hps]; exact evList_length hK h hv hai hking att
  have hl' : (pseudoList E K p.inner st').length ≤ maxLegalMoves :=
    Nat.le_trans hl (by decide)
  rw [he, appendAll_nil_some hl']
  refine ⟨_, rfl, Nat.le_trans ?_ hl⟩
  rw [(filterLoop_perm _ _).length_eq]
  exact List.length_filter_le ..

/-- Exactly when `legal_moves` panics. -/
theorem legalMoves_none_loose (E : Env) {K : Backend} (hK : Lawful K) {p : Position} (hi : Inv K p)
    (hv : Loose p.inner.spec) :
    p.legalMoves E K = none ↔ ¬ InCheck p.inner.board p.inner.side ∧
      ∃ l : List Move, l.Nodup ∧ l.length = 594 ∧ ∀ m ∈ l,
        PseudoLegal p.inner.spec m ∧ (IsPawnDrop m → ¬ Refused p.inner.spec m) := by
  by_cases hc : InCheck p.inner.board p.inner.side
  · obtain ⟨l, hl, _⟩ := legalMoves_inCheck E hK hi hv hc
    rw [hl]
    constructor
    · intro e; cases e
    · intro e; exact absurd hc e.1
  · obtain ⟨st, hst, he, hn, _⟩ := legalMoves_loose E hK hi hv
    obtain ⟨h, st', hst', hai⟩ := hi
    have e : st' = st := by
      rw [hst] at hst'; cases hst'; rfl
    subst e
    have hck : st'.attackInfo.checkers = AttackInfo.calculateCheckers K p.inner := by rw [hai]; rfl
    have hem : K.isEmpty st'.attackInfo.checkers = true := by
      rw [hck, checkers_empty_iff hK h hv]; exact hc
    have hps : pseudoList E K p.inner st' = allList E K p.inner st' := by
      unfold pseudoList
      rw [if_pos hem]
    have hmem := mem_allList (E := E) hK h hv hai
    rw [he, Option.map_eq_none_iff, appendAll_nil_none, hps]
    rw [hps] at hn
    constructor
    · intro hlt
      refine ⟨hc, (allList E K p.inner st').take 594, hn.sublist (List.take_sublist ..), ?_, ?_⟩
      · rw [List.length_take]
        have : maxLegalMoves = 593 := rfl
        omega
      · exact fun m hm => (hmem m).1 (List.mem_of_mem_take hm)
    · rintro ⟨_, l, hln, hll, hlc⟩
      have := length_le_of_nodup_subset hln fun m hm => (hmem m).2 (hlc m hm)
      have : maxLegalMoves = 593 := rfl
      omega

theorem candidate_iff {P : Pos} (hv : Valid P) {m : Move} :
    (PseudoLegal P m ∧ (IsPawnDrop m → ¬ Refused P m)) ↔ Candidate P m := by
  unfold Candidate
  apply and_congr_right
  intro hp
  cases m with
  | normal _ _ _ => exact ⟨fun _ h => h.elim, fun _ h => h.elim⟩
  | drop to pc =>
    constructor
    · intro h hpd hm; exact h hpd ((refused_iff hv hp hpd).2 hm)
    · intro h hpd hm; exact h hpd ((refused_iff hv hp hpd).1 hm)

/-- Exactly when `legal_moves` panics in valid positions. -/
theorem legalMoves_none_iff (E : Env) {K : Backend} (hK : Lawful K) {p : Position} (hi : Inv K p)
    (hv : Valid p.inner.spec) :
    p.legalMoves E K = none ↔ ¬ InCheck p.inner.board p.inner.side ∧
      ∃ l : List Move, l.Nodup ∧ l.length = 594 ∧ ∀ m ∈ l, Candidate p.inner.spec m := by
  rw [legalMoves_none_loose E hK hi hv]
  simp only [candidate_iff hv]

end Yasai

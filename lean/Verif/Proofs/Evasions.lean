import Verif.Proofs.LegalGen

/-!
# `generate_evasions`
-/

namespace Yasai

open Spec

/-! ## Squares attacked by checkers -/

theorem tablePseudoAttack_spec {K : Backend} (hK : Lawful K) (k : PieceKind) (s : Square)
    (c : Color) :
    ∀ t, mem (tablePseudoAttack K k s c) t = true ↔
      if slides k = [] then Step k c s t else Slide k c s t := by
  intro t
  have hstep : slides k = [] → (mem (tableAttack K k s c K.empty) t = true ↔ Step k c s t) := by
    intro h
    rw [mem_tableAttack hK, reaches_iff]
    constructor
    · rintro (h1 | h1)
      · exact h1
      · exact absurd h1.1 (not_slide h _ _ _)
    · exact .inl
  cases k
  case lance => rw [if_neg (by decide)]; exact (kyPseudo_spec hK s c).2 t
  case bishop | proBishop => rw [if_neg (by decide)]; exact (kaPseudo_spec hK s c).2 t
  case rook | proRook => rw [if_neg (by decide)]; exact (hiPseudo_spec hK s c).2 t
  all_goals rw [if_pos (by decide)]; exact hstep (by decide)

/-- Two neighbouring squares on two lines of the same bishop or rook: the lines are equal or the
second square is adjacent to the slider. -/
theorem slide_near {D : List (Int × Int)} (hD : D = diagonals ∨ D = orthogonals)
    {d e : Int × Int} (hd : d ∈ D) (he : e ∈ D) {c : Color} {s king to : Square} {n m : Nat}
    (hn : 1 ≤ n) (hm : 1 ≤ m)
    (h1 : Disp s king (n * d.1) (n * (fwd c * d.2))) (h2 : Disp s to (m * e.1) (m * (fwd c * e.2)))
    (hadj1 : (to.file : Int) - king.file ≤ 1) (hadj2 : (king.file : Int) - to.file ≤ 1)
    (hadj3 : (to.rank : Int) - king.rank ≤ 1) (hadj4 : (king.rank : Int) - to.rank ≤ 1) :
    d = e ∨ m = 1 := by
  obtain ⟨a1, a2⟩ := h1
  obtain ⟨b1, b2⟩ := h2
  rcases hD with rfl | rfl
  · simp only [diagonals, List.mem_cons, List.not_mem_nil, or_false] at hd he
    rcases fwd_cases c with hc | hc <;> rw [hc] at a2 b2 <;>
    rcases hd with rfl | rfl | rfl | rfl <;> rcases he with rfl | rfl | rfl | rfl <;>
      first | exact .inl rfl | (right; simp only at *; omega)
  · simp only [orthogonals, List.mem_cons, List.not_mem_nil, or_false] at hd he
    rcases fwd_cases c with hc | hc <;> rw [hc] at a2 b2 <;>
    rcases hd with rfl | rfl | rfl | rfl <;> rcases he with rfl | rfl | rfl | rfl <;>
      first | exact .inl rfl | (right; simp only at *; omega)

theorem step_king_adj {c : Color} {s t : Square} (h : Step .king c s t) :
    ((t.file : Int) - s.file ≤ 1 ∧ (s.file : Int) - t.file ≤ 1) ∧
    ((t.rank : Int) - s.rank ≤ 1 ∧ (s.rank : Int) - t.rank ≤ 1) := by
  obtain ⟨d, hd, a1, a2⟩ := h
  simp only [steps, kingSteps, List.mem_cons, List.not_mem_nil, or_false] at hd
  rcases fwd_cases c with hc | hc <;> rw [hc] at a2 <;>
  rcases hd with rfl | rfl | rfl | rfl | rfl | rfl | rfl | rfl <;> simp only at a1 a2 <;> omega

/-- A slider on a line with the king and on a line with a neighbour of the king. -/
theorem slide_adjacent {k : PieceKind} {c e : Color} {s king to : Square}
    (h1 : Slide k c s king) (h2 : Slide k c s to) (h : Step .king e king to) :
    (∀ u, ¬ Between s u to) ∨ Between s to king ∨ Between s king to := by
  obtain ⟨d, hd, n, hn, h1⟩ := h1
  obtain ⟨d', hd', m, hm, h2⟩ := h2
  have hdir := slide_dir (c := c) hd
  have hdir' := slide_dir (c := c) hd'
  have key : d = d' ∨ m = 1 := by
    obtain ⟨⟨a1, a2⟩, a3, a4⟩ := step_king_adj h
    cases k <;> simp only [slides] at hd hd'
    case lance =>
      left
      simp only [List.mem_cons, List.not_mem_nil, or_false] at hd hd'
      rw [hd, hd']
    case bishop => exact slide_near (.inl rfl) hd hd' hn hm h1 h2 a1 a2 a3 a4
    case proBishop => exact slide_near (.inl rfl) hd hd' hn hm h1 h2 a1 a2 a3 a4
    case rook => exact slide_near (.inr rfl) hd hd' hn hm h1 h2 a1 a2 a3 a4
    case proRook => exact slide_near (.inr rfl) hd hd' hn hm h1 h2 a1 a2 a3 a4
    all_goals cases hd
  rcases key with rfl | rfl
  · rcases Nat.lt_trichotomy m n with hlt | rfl | hlt
    · exact .inr (.inl ((between_of_ray hdir hn h1).2 ⟨m, hm, hlt, h2⟩))
    · exact absurd (disp_unique h1 h2) (step_ne h)
    · exact .inr (.inr ((between_of_ray hdir hm h2).2 ⟨n, hn, hlt, h1⟩))
  · left
    intro u hu
    rw [between_of_ray hdir' (Nat.le_refl _) h2] at hu
    obtain ⟨j, h1, h2, _⟩ := hu
    omega

/-- The squares put into `attacks` for one checker. -/
def EvAttack (b : Square → Option Piece) (k : PieceKind) (c : Color) (s king to : Square) : Prop :=
  if k = .proRook ∧ s.file ≠ king.file ∧ s.rank ≠ king.rank then
    Slide .rook c s to ∧ ∀ u, Between s u to → ¬ Occ b u
  else if slides k = [] then Step k c s to else Slide k c s to

/-- A step of a promoted bishop is a slide, or its slides past the neighbours are single steps. -/
theorem step_proBishop {c : Color} {s king : Square} (h : Step .proBishop c s king) :
    Slide .proBishop c s king ∨ ∀ {e : Color} {to : Square}, Step .king e king to →
      Slide .proBishop c s to → ∀ u, ¬ Between s u to := by
  obtain ⟨d, hd, h⟩ := h
  by_cases hs : d ∈ slides .proBishop
  · exact .inl (step_of_slide hs h).1
  · right
    intro e to hst ⟨d', hd', n, hn, h'⟩ u hu
    have hdir := slide_dir (c := c) hd'
    rw [between_of_ray hdir hn h'] at hu
    obtain ⟨j, hj1, hj2, _⟩ := hu
    obtain ⟨⟨a1, a2⟩, a3, a4⟩ := step_king_adj hst
    obtain ⟨b1, b2⟩ := h
    obtain ⟨c1, c2⟩ := h'
    simp only [steps, kingSteps, slides, diagonals, List.mem_cons, List.not_mem_nil, or_false] at hd hd' hs
    rcases hd with rfl | rfl | rfl | rfl | rfl | rfl | rfl | rfl <;> simp at hs <;>
    rcases fwd_cases c with hc | hc <;> rw [hc] at b2 c2 <;>
    rcases hd' with rfl | rfl | rfl | rfl <;> simp only at b1 b2 c1 c2 <;> omega

/-- A step of a promoted rook is a slide or diagonal. -/
theorem step_proRook {c : Color} {s king : Square} (h : Step .proRook c s king) :
    Slide .proRook c s king ∨ (s.file ≠ king.file ∧ s.rank ≠ king.rank) := by
  obtain ⟨d, hd, h⟩ := h
  by_cases hs : d ∈ slides .proRook
  · exact .inl (step_of_slide hs h).1
  · right
    obtain ⟨b1, b2⟩ := h
    simp only [steps, kingSteps, slides, orthogonals, List.mem_cons, List.not_mem_nil, or_false] at hd hs
    rcases hd with rfl | rfl | rfl | rfl | rfl | rfl | rfl | rfl <;> simp at hs <;>
    rcases fwd_cases c with hc | hc <;> rw [hc] at b2 <;> simp only at b1 b2 <;> omega

/-- A square next to the king put into `attacks` is attacked, or would be after the king left. -/
theorem evAttack_sound {b : Square → Option Piece} {k : PieceKind} {c e : Color} {s king to : Square}
    (hck : Reaches (Occ b) k c s king) (hst : Step .king e king to) (h : EvAttack b k c s king to) :
    Reaches (Occ b) k c s to ∨ (Slide k c s to ∧ Between s king to) := by
  unfold EvAttack at h
  split at h
  · next hk =>
    left
    rw [hk.1, reaches_iff]
    exact .inr h
  · next hk =>
    split at h
    · left; rw [reaches_iff]; exact .inl h
    · next hsl =>
      rw [reaches_iff] at hck ⊢
      have viaSlide : Slide k c s king → (∀ u, Between s u king → ¬ Occ b u) →
          (Step k c s to ∨ (Slide k c s to ∧ ∀ u, Between s u to → ¬ Occ b u)) ∨
            (Slide k c s to ∧ Between s king to) := by
        intro h1 h2
        rcases slide_adjacent h1 h hst with h3 | h3 | h3
        · exact .inl (.inr ⟨h, fun u hu => absurd hu (h3 u)⟩)
        · exact .inl (.inr ⟨h, fun u hu => h2 u (between_trans hu h3)⟩)
        · exact .inr ⟨h, h3⟩
      rcases hck with h1 | h1
      · -- a stepping slider: promoted bishop or rook
        cases k
        case proBishop =>
          rcases step_proBishop h1 with h2 | h2
          · exact viaSlide h2 fun u hu => absurd hu (step_not_between h1)
          · exact .inl (.inr ⟨h, fun u hu => absurd hu (h2 hst h u)⟩)
        case proRook =>
          rcases step_proRook h1 with h2 | h2
          · exact viaSlide h2 fun u hu => absurd hu (step_not_between h1)
          · exact absurd ⟨rfl, h2⟩ hk
        case lance | bishop | rook => exact absurd h1 (not_step rfl _ _ _)
        all_goals exact absurd rfl hsl
      · exact viaSlide h1.1 h1.2

theorem slide_rook_line {c : Color} {s t : Square} (h : Slide .rook c s t) :
    s.file = t.file ∨ s.rank = t.rank := by
  obtain ⟨d, hd, n, hn, a1, a2⟩ := h
  simp only [slides, orthogonals, List.mem_cons, List.not_mem_nil, or_false] at hd
  rcases hd with rfl | rfl | rfl | rfl <;> simp only at a1 a2
  · left; omega
  · left; omega
  · right; simp at a2; omega
  · right; simp at a2; omega

/-- A square behind the king on the line of a checker is put into `attacks`. -/
theorem evAttack_xray {b : Square → Option Piece} {k : PieceKind} {c : Color} {s king to : Square}
    (h1 : Slide k c s to) (h2 : Between s king to) : EvAttack b k c s king to := by
  unfold EvAttack
  split
  · next hk =>
    obtain ⟨rfl, hf, hr⟩ := hk
    rcases slide_rook_line (slide_between_left (slide_proRook.1 h1) h2) with h | h
    · exact absurd h hf
    · exact absurd h hr
  · split
    · next hs => exact absurd h1 (not_slide hs _ _ _)
    · exact h1

/-- The fold over the checkers. -/
theorem foldlM_checkers {K : Backend} (hK : Lawful K) {q : PartialPosition} (h : Repr q)
    (king : Square) (l : List Square)
    (hl : ∀ s ∈ l, ∃ k, q.board s = some ⟨k, q.side.flip⟩) (acc : BB × Nat) :
    ∃ att, l.foldlM (fun (acc : BB × Nat) ch => do
      let piece ← q.pieceAt ch
      let pk := piece.kind
      if pk = .proRook ∧ ch.file ≠ king.file ∧ ch.rank ≠ king.rank then
        pure (K.or acc.1 (hiAttack K ch (q.occupiedBB K)), acc.2 + 1)
      else
        pure (K.or acc.1 (tablePseudoAttack K pk ch q.side.flip), acc.2 + 1)) acc =
          some (att, acc.2 + l.length) ∧
      ∀ t, mem att t = true ↔ mem acc.1 t = true ∨
        ∃ s ∈ l, ∃ k, q.board s = some ⟨k, q.side.flip⟩ ∧
          EvAttack q.board k q.side.flip s king t := by
  induction l generalizing acc with
  | nil => exact ⟨acc.1, rfl, fun t => by simp⟩
  | cons s l ih =>
    obtain ⟨k, hk⟩ := hl s List.mem_cons_self
    have hstep : ∃ acc' : BB × Nat, acc'.2 = acc.2 + 1 ∧
        (∀ t, mem acc'.1 t = true ↔ mem acc.1 t = true ∨ EvAttack q.board k q.side.flip s king t) ∧
        (do
          let piece ← q.pieceAt s
          let pk := piece.kind
          if pk = .proRook ∧ s.file ≠ king.file ∧ s.rank ≠ king.rank then
            pure (K.or acc.1 (hiAttack K s (q.occupiedBB K)), acc.2 + 1)
          else
            pure (K.or acc.1 (tablePseudoAttack K pk s q.side.flip), acc.2 + 1)) = some acc' := by
      have hp : q.pieceAt s = some ⟨k, q.side.flip⟩ := hk
      rw [hp]
      simp only [Option.bind_eq_bind, Option.bind_some, Option.pure_def]
      unfold EvAttack
      by_cases hc : k = .proRook ∧ s.file ≠ king.file ∧ s.rank ≠ king.rank
      · refine ⟨(K.or acc.1 (hiAttack K s (q.occupiedBB K)), acc.2 + 1), rfl, fun t => ?_,
          by rw [if_pos hc]⟩
        rw [if_pos hc, hK.or, mem_or, Bool.or_eq_true, (hiAttack_spec hK s _ q.side.flip).2]
        unfold Clear
        simp only [← Bool.not_eq_true, h.occ hK]
      · refine ⟨(K.or acc.1 (tablePseudoAttack K k s q.side.flip), acc.2 + 1), rfl, fun t => ?_,
          by rw [if_neg hc]⟩
        rw [if_neg hc, hK.or, mem_or, Bool.or_eq_true, tablePseudoAttack_spec hK]
    obtain ⟨acc', hn, hm, he⟩ := hstep
    obtain ⟨att, h1, h2⟩ := ih (fun s hs => hl s (List.mem_cons_of_mem _ hs)) acc'
    refine ⟨att, ?_, fun t => ?_⟩
    · rw [List.foldlM_cons, he]
      refine h1.trans ?_
      rw [hn, List.length_cons, Nat.add_right_comm, Nat.add_assoc]
    · rw [h2, hm, or_assoc]
      apply or_congr Iff.rfl
      constructor
      · rintro (h | ⟨s', hs', h⟩)
        · exact ⟨s, List.mem_cons_self, k, hk, h⟩
        · exact ⟨s', List.mem_cons_of_mem _ hs', h⟩
      · rintro ⟨s', hs', h⟩
        rcases List.mem_cons.1 hs' with rfl | hs'
        · obtain ⟨k', hk', h⟩ := h
          rw [hk] at hk'; cases hk'
          exact .inl h
        · exact .inr ⟨s', hs', h⟩

/-! ## The list of `generate_evasions` -/

/-- The king moves of `generate_evasions`. -/
def kingEvasions (K : Backend) (q : PartialPosition) (king : Square) (attacks : BB) : List Move :=
  (K.iter (K.and (K.and (ouAttack K king q.side) (K.not (q.playerBB q.side)))
    (K.not attacks))).flatMap fun to => [.normal king to false]

/-- The other moves of `generate_evasions` against a single checker. -/
def otherEvasions (E : Env) (K : Backend) (q : PartialPosition) (st : State) (ch king : Square) :
    List Move :=
  orderEv.flatMap (parts K q (K.or (betweenTable K ch king) st.attackInfo.checkers)) ++
    (if K.isEmpty (betweenTable K ch king) then [] else dropMoves E K q st (betweenTable K ch king))

/-- The list generated by `generate_evasions`. -/
def evList (E : Env) (K : Backend) (q : PartialPosition) (st : State) (king : Square)
    (attacks : BB) : List Move :=
  kingEvasions K q king attacks ++
    match K.iter st.attackInfo.checkers with
    | [ch] => otherEvasions E K q st ch king
    | _ => []

theorem generateEvasions_eq {E : Env} {K : Backend} {q : PartialPosition} {st : State}
    {king : Square} {attacks : BB}
    (hk : q.kingPosition K q.side = some king)
    (hatt : q.checkersAttacks K st king = some (attacks, (K.iter st.attackInfo.checkers).length))
    (hne : K.iter st.attackInfo.checkers ≠ [])
    (hd : ∀ ch, K.iter st.attackInfo.checkers = [ch] → K.isEmpty (betweenTable K ch king) = false →
      .pawn ∈ handKinds q → ∃ pt, q.pawnDropTarget E K st (betweenTable K ch king) = some pt)
    (av : Av) :
    q.generateEvasions E K st av = appendAll av (evList E K q st king attacks) := by
  unfold PartialPosition.generateEvasions
  simp only [hk, hatt, Option.bind_eq_bind, Option.bind_some, Option.pure_def]
  have hkm : ∀ av : Av, (K.iter (K.and (K.and (ouAttack K king q.side) (K.not (q.playerBB q.side)))
      (K.not attacks))).foldlM (fun av to => av.push (.normal king to false)) av =
      appendAll av (kingEvasions K q king attacks) :=
    fun av => foldlM_appendAll (f := fun av to => av.push (.normal king to false))
      (g := fun to => [.normal king to false]) _ (fun to _ av => push_eq av _) av
  rw [hkm]
  unfold evList
  cases hch : K.iter st.attackInfo.checkers with
  | nil => exact absurd hch hne
  | cons ch l =>
    cases l with
    | cons ch' l =>
      have hl : ((ch :: ch' :: l).length > 1) = True := by
        simp only [List.length_cons, eq_iff_iff, iff_true]; omega
      simp only [hl, if_true, List.append_nil]
      cases appendAll av (kingEvasions K q king attacks) <;> rfl
    | nil =>
      have hl : ([ch].length > 1) = False := by simp
      simp only [hl, if_false, List.head?_cons, Option.bind_some]
      have hlast : ∀ av : Av, (if (!K.isEmpty (betweenTable K ch king)) = true
            then q.generateDrop E K st av (betweenTable K ch king) else some av) =
          appendAll av (if K.isEmpty (betweenTable K ch king) = true then []
            else dropMoves E K q st (betweenTable K ch king)) := by
        intro av
        cases he : K.isEmpty (betweenTable K ch king) with
        | true => simp [appendAll_nil]
        | false => simp [generateDrop_eq (hd ch hch he)]
      simp only [generateForFu_eq, generateForKy_eq, generateForKe_eq,
        generateForGi_eq, generateForKa_eq, generateForHi_eq, generateForKi_eq,
        generateForUm_eq, generateForRy_eq, hlast, appendAll_bind]
      simp only [otherEvasions, orderEv, List.flatMap_cons, List.flatMap_nil, parts,
        List.append_assoc, List.nil_append]

/-! ## Correctness in check -/

/-- Two checkers cannot both be answered by a move of another piece. -/
theorem two_checkers {b : Square → Option Piece} {c : Color} {king to s1 s2 : Square}
    (hne : s1 ≠ s2) (h1 : AttacksFrom b c s1 king) (h2 : AttacksFrom b c s2 king)
    (a1 : to = s1 ∨ Between s1 to king) (a2 : to = s2 ∨ Between s2 to king) : False := by
  obtain ⟨k1, hb1, r1⟩ := h1
  obtain ⟨k2, hb2, r2⟩ := h2
  have o1 : Occ b s1 := by show b s1 ≠ none; rw [hb1]; simp
  have o2 : Occ b s2 := by show b s2 ≠ none; rw [hb2]; simp
  rcases a1 with rfl | a1
  · rcases a2 with rfl | a2
    · exact hne rfl
    · exact reaches_path r2 a2 o1
  · rcases a2 with rfl | a2
    · exact reaches_path r1 a1 o2
    · rcases between_beyond (between_symm a1) (between_symm a2) with h | h | h
      · exact hne h
      · exact reaches_path r2 (between_symm h) o1
      · exact reaches_path r1 (between_symm h) o2

theorem rep_orderEv {k : PieceKind} : rep k ∈ orderEv ↔ k ≠ .king := by
  cases k <;> simp [rep, orderEv]

section
variable {E : Env} {K : Backend} {q : PartialPosition} {st : State} {king : Square}

theorem mem_iter_checkers (hK : Lawful K) (h : Repr q) (hv : Loose q.spec)
    (hai : st.attackInfo = AttackInfo.new K (AttackInfo.calculateCheckers K q) q)
    (hking : q.board king = some ⟨.king, q.side⟩) (s : Square) :
    s ∈ K.iter st.attackInfo.checkers ↔ AttacksFrom q.board q.side.flip s king := by
  rw [hai]
  show s ∈ K.iter (AttackInfo.calculateCheckers K q) ↔ _
  rw [mem_iter hK (ok_calculateCheckers hK h), mem_checkers hK h hv]
  constructor
  · rintro ⟨king', hk', hs⟩
    rw [← hv.oneKing _ _ _ hk' hking]; exact hs
  · intro hs; exact ⟨king, hking, hs⟩

/-- The attacks computed for the king moves. -/
theorem checkersAttacks_spec (hK : Lawful K) (h : Repr q) (hv : Loose q.spec)
    (hai : st.attackInfo = AttackInfo.new K (AttackInfo.calculateCheckers K q) q)
    (hking : q.board king = some ⟨.king, q.side⟩) :
    ∃ att, q.checkersAttacks K st king = some (att, (K.iter st.attackInfo.checkers).length) ∧
      ∀ t, mem att t = true ↔ ∃ s k, q.board s = some ⟨k, q.side.flip⟩ ∧
        Reaches (Occ q.board) k q.side.flip s king ∧ EvAttack q.board k q.side.flip s king t := by
  have hm := mem_iter_checkers hK h hv hai hking
  obtain ⟨att, h1, h2⟩ := foldlM_checkers hK h king (K.iter st.attackInfo.checkers) (by
    intro s hs
    rw [hm] at hs
    obtain ⟨k, hk, _⟩ := hs
    exact ⟨k, hk⟩) (K.empty, 0)
  refine ⟨att, by simpa [PartialPosition.checkersAttacks] using h1, fun t => ?_⟩
  rw [h2]
  simp only [hK.empty, mem_zero, Bool.false_eq_true, false_or, hm]
  constructor
  · rintro ⟨s, ⟨k, hk, hr⟩, k', hk', he⟩
    rw [hk] at hk'; cases hk'
    exact ⟨s, k, hk, hr, he⟩
  · rintro ⟨s, k, hk, hr, he⟩
    exact ⟨s, ⟨k, hk, hr⟩, k, hk, he⟩

theorem mem_kingEvasions (hK : Lawful K) (h : Repr q) (attacks : BB) (m : Move) :
    m ∈ kingEvasions K q king attacks ↔ ∃ to, m = .normal king to false ∧
      Step .king q.side king to ∧ (∀ p, q.board to = some p → p.color ≠ q.side) ∧
      ¬ mem attacks to = true := by
  have hok : Ok (K.and (K.and (ouAttack K king q.side) (K.not (q.playerBB q.side)))
      (K.not attacks)) := by
    rw [hK.and, hK.and]
    exact ok_and_left _ (ok_and_left _ (ok_pieceAttack hK _ _ _))
  have hit : ∀ t, t ∈ K.iter (K.and (K.and (ouAttack K king q.side) (K.not (q.playerBB q.side)))
      (K.not attacks)) ↔ (Step .king q.side king t ∧
        ∀ p, q.board t = some p → p.color ≠ q.side) ∧ ¬ mem attacks t = true := by
    intro t
    rw [mem_iter hK hok, hK.and, mem_and, Bool.and_eq_true, hK.and, mem_and, Bool.and_eq_true,
      mem_ouAttack hK, not_own_iff hK h, hK.not, mem_not, Bool.not_eq_true', ← Bool.not_eq_true]
  unfold kingEvasions
  rw [List.mem_flatMap]
  simp only [hit, List.mem_cons, List.not_mem_nil, or_false]
  constructor
  · rintro ⟨t, ⟨⟨h1, h2⟩, h3⟩, rfl⟩; exact ⟨t, rfl, h1, h2, h3⟩
  · rintro ⟨t, rfl, h1, h2, h3⟩; exact ⟨t, ⟨⟨h1, h2⟩, h3⟩, rfl⟩

theorem kingEvasions_nodup (hK : Lawful K) (attacks : BB) :
    (kingEvasions K q king attacks).Nodup := by
  have hok : Ok (K.and (K.and (ouAttack K king q.side) (K.not (q.playerBB q.side)))
      (K.not attacks)) := by
    rw [hK.and, hK.and]
    exact ok_and_left _ (ok_and_left _ (ok_pieceAttack hK _ _ _))
  apply nodup_flatMap (nodup_iter hK hok) (fun _ _ => by simp)
  intro x _ y _ m hx hy
  simp only [List.mem_cons, List.not_mem_nil, or_false] at hx hy
  rw [hx] at hy; cases hy; rfl

/-- The targets of blocking and capturing moves are empty squares and enemy pieces. -/
theorem mem_target (hK : Lawful K) (h : Repr q) (hv : Loose q.spec)
    (hai : st.attackInfo = AttackInfo.new K (AttackInfo.calculateCheckers K q) q)
    (hking : q.board king = some ⟨.king, q.side⟩) {ch : Square}
    (hch : K.iter st.attackInfo.checkers = [ch]) (to : Square) :
    mem (K.or (betweenTable K ch king) st.attackInfo.checkers) to = true ↔
      to = ch ∨ Between ch to king := by
  have hm := mem_iter_checkers hK h hv hai hking
  have hck : mem st.attackInfo.checkers to = true ↔ to ∈ K.iter st.attackInfo.checkers := by
    rw [mem_iter hK]
    rw [hai]; exact ok_calculateCheckers hK h
  rw [hK.or, mem_or, Bool.or_eq_true, mem_betweenTable hK, hck, hch]
  simp only [List.mem_cons, List.not_mem_nil, or_false]
  exact or_comm

theorem mem_otherEvasions (hK : Lawful K) (h : Repr q) (hv : Loose q.spec)
    (hai : st.attackInfo = AttackInfo.new K (AttackInfo.calculateCheckers K q) q)
    (hking : q.board king = some ⟨.king, q.side⟩) {ch : Square}
    (hch : K.iter st.attackInfo.checkers = [ch]) (m : Move) :
    m ∈ otherEvasions E K q st ch king ↔
      PseudoLegal q.spec m ∧ (IsPawnDrop m → ¬ Refused q.spec m) ∧
      (match m with
        | .normal frm to _ => q.board frm ≠ some ⟨.king, q.side⟩ ∧ (to = ch ∨ Between ch to king)
        | .drop to _ => Between ch to king) := by
  have hm := mem_iter_checkers hK h hv hai hking
  have hatt : AttacksFrom q.board q.side.flip ch king := (hm ch).1 (by rw [hch]; simp)
  obtain ⟨kc, hkc, hrc⟩ := hatt
  have hpath : ∀ u, Between ch u king → q.board u = none := by
    intro u hu
    exact Classical.not_not.1 (reaches_path hrc hu)
  have htarget := mem_target hK h hv hai hking hch
  have htok : Ok (betweenTable K ch king) := (betweenTable_spec hK _ _).1
  have hbt := mem_betweenTable hK ch king
  have hnotown : ∀ to, (to = ch ∨ Between ch to king) →
      ∀ p, q.board to = some p → p.color ≠ q.side := by
    rintro to (rfl | hb) p hp
    · rw [hkc] at hp; cases hp; exact flip_ne _
    · rw [hpath to hb] at hp; cases hp
  have hdrop : m ∈ (if K.isEmpty (betweenTable K ch king) then []
      else dropMoves E K q st (betweenTable K ch king)) ↔ ∃ to pc, m = .drop to pc ∧
        Between ch to king ∧ PseudoLegal q.spec m ∧
        (IsPawnDrop m → ¬ Refused q.spec m) := by
    have hdm := mem_dropMoves hK h hv E hai htok (fun to hto => hpath to ((hbt to).1 hto)) m
    simp only [hbt] at hdm
    by_cases he : K.isEmpty (betweenTable K ch king) = true
    · rw [if_pos he]
      rw [hK.isEmpty, beq_iff_eq] at he
      constructor
      · intro h; cases h
      · rintro ⟨to, pc, _, hb, _⟩
        rw [← hbt, he, mem_zero] at hb
        cases hb
    · rw [if_neg he, hdm]
  unfold otherEvasions
  rw [List.mem_append, mem_boardList hK h hv.noDeadPawn _ (by decide), hdrop]
  cases m with
  | normal frm to pr =>
    constructor
    · rintro (⟨k, hk, hg⟩ | ⟨_, _, e, _⟩)
      · rw [rep_orderEv] at hk
        obtain ⟨frm', to', pr', e, h1, h2, h3, h4⟩ := hg
        cases e
        rw [htarget] at h3
        refine ⟨⟨k, h1, h2, hnotown to h3, h4.1, h4.2⟩, fun h => h.elim, ?_, h3⟩
        rw [h1]
        intro e
        apply hk
        cases e; rfl
      · cases e
    · rintro ⟨⟨k, h1, h2, h3, h4, h5⟩, _, h6, h7⟩
      left
      refine ⟨k, rep_orderEv.2 ?_, frm, to, pr, rfl, h1, h2, (htarget to).2 h7, h4, h5⟩
      rintro rfl
      exact h6 h1
  | drop to pc =>
    constructor
    · rintro (⟨k, _, _, _, _, e, _⟩ | ⟨to', pc', e, h1, h2, h3⟩)
      · cases e
      · cases e; exact ⟨h2, h3, h1⟩
    · rintro ⟨h1, h2, h3⟩
      exact .inr ⟨to, pc, rfl, h3, h1, h2⟩

theorem otherEvasions_nodup (hK : Lawful K) (h : Repr q) (hv : Loose q.spec)
    (hai : st.attackInfo = AttackInfo.new K (AttackInfo.calculateCheckers K q) q)
    (hking : q.board king = some ⟨.king, q.side⟩) {ch : Square}
    (hch : K.iter st.attackInfo.checkers = [ch]) : (otherEvasions E K q st ch king).Nodup := by
  have hm := mem_iter_checkers hK h hv hai hking
  have hatt : AttacksFrom q.board q.side.flip ch king := (hm ch).1 (by rw [hch]; simp)
  obtain ⟨kc, hkc, hrc⟩ := hatt
  have htok : Ok (betweenTable K ch king) := (betweenTable_spec hK _ _).1
  have hemp : ∀ to, mem (betweenTable K ch king) to = true → q.board to = none := by
    intro u hu
    rw [mem_betweenTable hK] at hu
    exact Classical.not_not.1 (reaches_path hrc hu)
  unfold otherEvasions
  rw [List.nodup_append]
  refine ⟨boardList_nodup hK h hv.noDeadPawn _ (by decide) (by decide), ?_, ?_⟩
  · split
    · exact .nil
    · exact dropMoves_nodup hK h hv E hai htok hemp
  · intro a ha b hb e
    subst e
    rw [mem_boardList hK h hv.noDeadPawn _ (by decide)] at ha
    obtain ⟨_, _, _, _, _, rfl, _⟩ := ha
    split at hb
    · cases hb
    · rw [mem_dropMoves hK h hv E hai htok hemp] at hb
      obtain ⟨_, _, e, _⟩ := hb
      cases e

theorem evList_nodup (hK : Lawful K) (h : Repr q) (hv : Loose q.spec)
    (hai : st.attackInfo = AttackInfo.new K (AttackInfo.calculateCheckers K q) q)
    (hking : q.board king = some ⟨.king, q.side⟩) (attacks : BB) :
    (evList E K q st king attacks).Nodup := by
  unfold evList
  rw [List.nodup_append]
  refine ⟨kingEvasions_nodup hK _, ?_, ?_⟩
  · split
    · next hch => exact otherEvasions_nodup hK h hv hai hking hch
    · exact .nil
  · intro a ha b hb e
    subst e
    split at hb
    · next hch =>
      rw [mem_kingEvasions hK h] at ha
      obtain ⟨to, rfl, _⟩ := ha
      rw [mem_otherEvasions hK h hv hai hking hch] at hb
      exact hb.2.2.1 hking
    · cases hb

/-- In check, the generated moves that pass the filter are exactly the legal moves. -/
theorem evList_legal (hK : Lawful K) (h : Repr q) (hv : Loose q.spec)
    (hai : st.attackInfo = AttackInfo.new K (AttackInfo.calculateCheckers K q) q)
    (hking : q.board king = some ⟨.king, q.side⟩) {attacks : BB}
    (hatt : ∀ t, mem attacks t = true ↔ ∃ s k, q.board s = some ⟨k, q.side.flip⟩ ∧
        Reaches (Occ q.board) k q.side.flip s king ∧ EvAttack q.board k q.side.flip s king t)
    (hcheck : InCheck q.board q.side) (m : Move) :
    (m ∈ evList E K q st king attacks ∧ q.isLegal K st m = true) ↔ Generated q.spec m := by
  have hm := mem_iter_checkers hK h hv hai hking
  have huniq : ∀ s, q.board s = some ⟨.king, q.side⟩ → s = king :=
    fun s hs => hv.oneKing _ _ _ hs hking
  have hex : ∃ s, AttacksFrom q.board q.side.flip s king := (inCheck_iff hking huniq).1 hcheck
  have hnodup : (K.iter st.attackInfo.checkers).Nodup :=
    nodup_iter hK (by rw [hai]; exact ok_calculateCheckers hK h)
  -- the answers to the checkers
  have hans : ∀ to, (∃ ch, K.iter st.attackInfo.checkers = [ch] ∧ (to = ch ∨ Between ch to king)) ↔
      ∀ s, AttacksFrom q.board q.side.flip s king → to = s ∨ Between s to king := by
    intro to
    constructor
    · rintro ⟨ch, hch, h1⟩ s hs
      rw [← hm, hch] at hs
      simp only [List.mem_cons, List.not_mem_nil, or_false] at hs
      subst hs; exact h1
    · intro hall
      cases hch : K.iter st.attackInfo.checkers with
      | nil =>
        obtain ⟨s, hs⟩ := hex
        rw [← hm, hch] at hs; cases hs
      | cons s1 l =>
        have h1 : AttacksFrom q.board q.side.flip s1 king := (hm s1).1 (by rw [hch]; simp)
        cases l with
        | nil => exact ⟨s1, rfl, hall s1 h1⟩
        | cons s2 l =>
          exfalso
          have h2 : AttacksFrom q.board q.side.flip s2 king := (hm s2).1 (by rw [hch]; simp)
          have hne : s1 ≠ s2 := by
            rw [hch] at hnodup
            rintro rfl
            simp at hnodup
          exact two_checkers hne h1 h2 (hall s1 h1) (hall s2 h2)
  have hmem : m ∈ evList E K q st king attacks ↔ m ∈ kingEvasions K q king attacks ∨
      ∃ ch, K.iter st.attackInfo.checkers = [ch] ∧ m ∈ otherEvasions E K q st ch king := by
    unfold evList
    rw [List.mem_append]
    apply or_congr Iff.rfl
    split
    · next ch hch =>
      constructor
      · intro h; exact ⟨ch, hch, h⟩
      · rintro ⟨ch', hch', h⟩; rw [hch] at hch'; cases hch'; exact h
    · next hno =>
      constructor
      · intro h; cases h
      · rintro ⟨ch, hch, _⟩; exact absurd hch (hno ch)
  rw [hmem]
  cases m with
  | drop to pc =>
    constructor
    · rintro ⟨h1 | ⟨ch, hch, h1⟩, _⟩
      · rw [mem_kingEvasions hK h] at h1
        obtain ⟨_, e, _⟩ := h1; cases e
      · rw [mem_otherEvasions hK h hv hai hking hch] at h1
        obtain ⟨hp, hmate, hb⟩ := h1
        rw [listed_drop hv hp]
        refine ⟨fun king' hking' s hs => ?_, hmate⟩
        have := huniq king' hking'
        subst this
        have hs' : s ∈ K.iter st.attackInfo.checkers := (hm s).2 hs
        rw [hch] at hs'
        simp only [List.mem_cons, List.not_mem_nil, or_false] at hs'
        subst hs'; exact hb
    · intro hl
      refine ⟨.inr ?_, rfl⟩
      have hp := hl.1.1
      have hl' := (listed_drop hv hp).1 hl
      have hb := hl'.1 king hking
      obtain ⟨ch, hch, _⟩ := (hans to).2 (fun s hs => .inr (hb s hs))
      refine ⟨ch, hch, ?_⟩
      rw [mem_otherEvasions hK h hv hai hking hch]
      exact ⟨hp, hl'.2, hb ch ((hm ch).1 (by rw [hch]; simp))⟩
  | normal frm to pr =>
    constructor
    · rintro ⟨h1 | ⟨ch, hch, h1⟩, hlg⟩
      · rw [mem_kingEvasions hK h] at h1
        obtain ⟨to', e, hst, hown, hna⟩ := h1
        cases e
        have hp : PseudoLegal q.spec (.normal king to false) := by
          refine ⟨.king, hking, reaches_king.2 hst, hown, (fun h => by cases h), fun _ hd => ?_⟩
          cases hside : q.spec.side <;> rw [hside] at hd <;> exact hd
        rw [isLegal_normal hK h hv hai hking] at hlg
        rw [listed_normal hv hking hp, if_pos rfl]
        refine ⟨hlg.1 rfl, ?_⟩
        rintro s ⟨k, hk, hr⟩ ⟨k', hk', hsl, hb⟩
        have : k' = k := by
          have hk2 : q.board s = some ⟨k, q.side.flip⟩ := hk
          have hk3 : q.board s = some ⟨k', q.side.flip⟩ := hk'
          rw [hk2] at hk3
          cases hk3; rfl
        subst this
        exact hna ((hatt to).2 ⟨s, k', hk, hr, evAttack_xray hsl hb⟩)
      · rw [mem_otherEvasions hK h hv hai hking hch] at h1
        obtain ⟨hp, _, hnk, hto⟩ := h1
        have hp' := hp
        obtain ⟨k, hfrm, _⟩ := hp'
        rw [isLegal_normal hK h hv hai hfrm] at hlg
        rw [listed_normal hv hfrm hp]
        have hk : k ≠ .king := by rintro rfl; exact hnk hfrm
        rw [if_neg hk]
        intro king' hking'
        have := huniq king' hking'
        subst this
        exact ⟨(hans to).1 ⟨ch, hch, hto⟩, hlg.2 king' hking⟩
    · intro hl
      have hp := hl.1.1
      have hp' := hp
      obtain ⟨k, hfrm, hr, hown, hp1, hp2⟩ := hp'
      have hl' := (listed_normal hv hfrm hp).1 hl
      rw [isLegal_normal hK h hv hai hfrm]
      by_cases hk : k = .king
      · subst hk
        rw [if_pos rfl] at hl'
        have := huniq frm hfrm
        subst this
        have hpr : pr = false := by
          cases pr with
          | false => rfl
          | true => exact absurd rfl (hp1 rfl).1
        subst hpr
        have hst := reaches_king.1 hr
        refine ⟨.inl ?_, fun _ => hl'.1, fun king' hking' hpin => ?_⟩
        · rw [mem_kingEvasions hK h]
          refine ⟨to, rfl, hst, hown, fun hmem => ?_⟩
          obtain ⟨s, k, hk, hrk, hev⟩ := (hatt to).1 hmem
          rcases evAttack_sound hrk hst hev with h1 | h1
          · exact hl'.1 s ⟨k, hk, h1⟩
          · exact hl'.2 s ⟨k, hk, hrk⟩ ⟨k, hk, h1⟩
        · have := huniq king' hking'
          subst this
          exact absurd hpin not_pinned_self
      · rw [if_neg hk] at hl'
        refine ⟨.inr ?_, fun e => absurd e hk, fun king' hking' => (hl' king' hking').2⟩
        obtain ⟨ch, hch, hto⟩ := (hans to).2 (hl' king hking).1
        refine ⟨ch, hch, ?_⟩
        rw [mem_otherEvasions hK h hv hai hking hch]
        refine ⟨hp, fun h => h.elim, ?_, hto⟩
        have hfrm' : q.board frm = some ⟨k, q.side⟩ := hfrm
        rw [hfrm']
        intro e
        apply hk
        cases e; rfl

end

/-! ## `legal_moves` -/

/-- The pseudo-legal list that `legal_moves` filters. -/
def pseudoList (E : Env) (K : Backend) (q : PartialPosition) (st : State) : List Move :=
  if K.isEmpty st.attackInfo.checkers then allList E K q st
  else match q.kingPosition K q.side with
    | none => []
    | some king => match q.checkersAttacks K st king with
      | none => []
      | some (attacks, _) => evList E K q st king attacks

/-- What `legal_moves` computes, and that the generated list is right. -/
theorem legalMoves_loose (E : Env) {K : Backend} (hK : Lawful K) {p : Position} (hi : Inv K p)
    (hv : Loose p.inner.spec) :
    ∃ st, p.state = some st ∧
      p.legalMoves E K = (appendAll [] (pseudoList E K p.inner st)).map
        (fun av => filterLoop (p.inner.isLegal K st) av.length 0 av) ∧
      (pseudoList E K p.inner st).Nodup ∧
      ∀ m, (m ∈ pseudoList E K p.inner st ∧ p.inner.isLegal K st m = true) ↔
        Generated p.inner.spec m := by
  obtain ⟨h, st, hst, hai⟩ := hi
  refine ⟨st, hst, ?_⟩
  have hck : st.attackInfo.checkers = AttackInfo.calculateCheckers K p.inner := by rw [hai]; rfl
  have hmap : ∀ o : Option Av, (o.bind fun av => (some (filterLoop (p.inner.isLegal K st)
      av.length 0 av) : Option (List Move))) =
      o.map fun av => filterLoop (p.inner.isLegal K st) av.length 0 av := by
    intro o; cases o <;> rfl
  unfold Position.legalMoves pseudoList
  simp only [hst, Option.bind_eq_bind, Option.bind_some, Option.pure_def, hmap]
  by_cases hc : InCheck p.inner.board p.inner.side
  · have he : ¬ K.isEmpty st.attackInfo.checkers = true := by
      rw [hck, checkers_empty_iff hK h hv]; exact not_not_intro hc
    rw [if_pos (by simpa using he), if_neg he]
    have hc' := hc
    obtain ⟨king, hking, s, hs⟩ := hc'
    have hkp := (h.kingPosition hK _ (hv.oneKing _) king).2 hking
    obtain ⟨att, hatt, hattm⟩ := checkersAttacks_spec hK h hv hai hking
    rw [hkp]
    dsimp only
    rw [hatt]
    dsimp only
    have hm := mem_iter_checkers hK h hv hai hking
    refine ⟨?_, evList_nodup hK h hv hai hking att, evList_legal hK h hv hai hking hattm hc⟩
    rw [generateEvasions_eq hkp hatt]
    · intro hnil
      have := (hm s).2 hs
      rw [hnil] at this; cases this
    · intro ch hch _ _
      obtain ⟨k, hk, hr⟩ : AttacksFrom p.inner.board p.inner.side.flip ch king :=
        (hm ch).1 (by rw [hch]; simp)
      obtain ⟨pt, hpt, _⟩ := pawnDropTarget_spec hK h hv E hai (betweenTable_spec hK ch king).1
        (fun to hto => Classical.not_not.1 (reaches_path hr ((mem_betweenTable hK _ _ _).1 hto)))
      exact ⟨pt, hpt⟩
  · have he : K.isEmpty st.attackInfo.checkers = true := by
      rw [hck, checkers_empty_iff hK h hv]; exact hc
    rw [if_neg (by simpa using he), if_pos he]
    obtain ⟨hok, hes⟩ := emptySquares_spec hK h
    obtain ⟨pt, hpt, _⟩ := pawnDropTarget_spec hK h hv E hai hok (fun to => (hes to).1)
    refine ⟨by rw [generateAll_eq fun _ => ⟨pt, hpt⟩], allList_nodup hK h hv hai,
      allList_legal hK h hv hai hc⟩

/-- What `legal_moves` computes in valid positions. -/
theorem legalMoves_spec (E : Env) {K : Backend} (hK : Lawful K) {p : Position} (hi : Inv K p)
    (hv : Valid p.inner.spec) :
    ∃ st, p.state = some st ∧
      p.legalMoves E K = (appendAll [] (pseudoList E K p.inner st)).map
        (fun av => filterLoop (p.inner.isLegal K st) av.length 0 av) ∧
      (pseudoList E K p.inner st).Nodup ∧
      ∀ m, (m ∈ pseudoList E K p.inner st ∧ p.inner.isLegal K st m = true) ↔
        Legal p.inner.spec m := by
  obtain ⟨st, h1, h2, h3, h4⟩ := legalMoves_loose E hK hi hv
  exact ⟨st, h1, h2, h3, fun m => (h4 m).trans (listed_iff hv)⟩

end Yasai

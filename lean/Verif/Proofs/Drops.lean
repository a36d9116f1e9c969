import Verif.Proofs.DropMate

/-!
# Drops and the filtering loop
-/

namespace Yasai

open Spec

/-- The drop targets of a pawn, whatever `vacant_files` gives and however many kings there are. -/
theorem pawnDropTarget_any_king {K : Backend} (hK : Lawful K) {q : PartialPosition} (h : Repr q)
    (E : Env) {st : State}
    (hai : st.attackInfo = AttackInfo.new K (AttackInfo.calculateCheckers K q) q)
    {target r : BB} (hok : Ok target) {V : Square → Prop}
    (hr : K.vacantFiles E.overflowChecks (q.playerBB q.side &&& q.pieceBB .pawn) = some r)
    (hvac : ∀ to, mem r to = true ↔ V to) :
    ∃ pt, q.pawnDropTarget E K st target = some pt ∧ Ok pt ∧ ∀ to, mem pt to = true ↔
      mem target to = true ∧ V to ∧ ¬ ∃ king, q.kingPosition K q.side.flip = some king ∧
        Step .pawn q.side to king ∧ DropMateCond q.board q.side king to := by
  have hmt : ∀ to, mem (target &&& r) to = true ↔ mem target to = true ∧ V to := by
    intro to; rw [mem_and, Bool.and_eq_true, hvac]
  unfold PartialPosition.pawnDropTarget
  simp only [hK.and, hr, Option.bind_eq_bind, Option.bind_some, Option.pure_def]
  cases hkp : q.kingPosition K q.side.flip with
  | none =>
    refine ⟨target &&& r, rfl, ok_and_left _ hok, fun to => ?_⟩
    rw [hmt]
    simp
  | some king =>
    have hfu : ∀ t, t ∈ K.iter (fuAttack K king q.side.flip) ↔ Step .pawn q.side t king := by
      intro t
      have hok : Ok (fuAttack K king q.side.flip) := ok_pieceAttack hK _ _ _
      rw [mem_iter hK hok, mem_fuAttack hK, step_comm (t := king)]
    have hex : ∀ to, (∃ king', some king = some king' ∧ Step .pawn q.side to king' ∧
        DropMateCond q.board q.side king' to) ↔ to ∈ K.iter (fuAttack K king q.side.flip) ∧
        DropMateCond q.board q.side king to := by
      intro to
      rw [hfu]
      constructor
      · rintro ⟨_, e, h⟩; cases e; exact h
      · exact fun h => ⟨king, rfl, h⟩
    simp only [hex]
    cases hhd : (K.iter (fuAttack K king q.side.flip)).head? with
    | none =>
      have hnil : K.iter (fuAttack K king q.side.flip) = [] := List.head?_eq_none_iff.1 hhd
      refine ⟨target &&& r, rfl, ok_and_left _ hok, fun to => ?_⟩
      rw [hmt, hnil]
      simp
    | some t0 =>
      have ht0 : t0 ∈ K.iter (fuAttack K king q.side.flip) := List.mem_of_mem_head? hhd
      have huniq : ∀ to, to ∈ K.iter (fuAttack K king q.side.flip) → to = t0 := by
        intro to hto
        rw [hfu] at hto ht0
        obtain ⟨a1, a2⟩ := step_pawn.1 hto
        obtain ⟨b1, b2⟩ := step_pawn.1 ht0
        apply Square.ext_coords <;> omega
      dsimp only
      by_cases hcond : (K.contains (target &&& r) t0 && q.isPawnDropMate K st t0) = true
      · rw [if_pos hcond]
        rw [Bool.and_eq_true, hK.contains, isPawnDropMate_of hK h hai hkp] at hcond
        obtain ⟨c1, c2⟩ := hcond
        refine ⟨_, rfl, ok_and_left _ (ok_and_left _ hok), fun to => ?_⟩
        rw [mem_and, Bool.and_eq_true, hmt, hK.not, mem_not, Bool.not_eq_true', hK.single, mem_single,
          decide_eq_false_iff_not, and_assoc]
        apply and_congr_right; intro h1
        apply and_congr_right; intro h2
        constructor
        · exact fun hne hm => hne (huniq to hm.1)
        · rintro hn rfl
          exact hn ⟨ht0, c2⟩
      · rw [if_neg hcond]
        rw [Bool.and_eq_true, hK.contains, isPawnDropMate_of hK h hai hkp] at hcond
        refine ⟨_, rfl, ok_and_left _ hok, fun to => ?_⟩
        rw [hmt, and_assoc.symm]
        constructor
        · intro h1
          refine ⟨h1, fun hm => ?_⟩
          cases huniq to hm.1
          exact hcond ⟨(hmt _).2 h1, hm.2⟩
        · exact fun h => h.1

/-- The drop targets of a pawn, whatever `vacant_files` gives. -/
theorem pawnDropTarget_of {K : Backend} (hK : Lawful K) {q : PartialPosition} (h : Repr q)
    (hv : ∀ s t, q.board s = some ⟨.king, q.side.flip⟩ → q.board t = some ⟨.king, q.side.flip⟩ → s = t)
    (E : Env) {st : State}
    (hai : st.attackInfo = AttackInfo.new K (AttackInfo.calculateCheckers K q) q)
    {target r : BB} (hok : Ok target) {V : Square → Prop}
    (hr : K.vacantFiles E.overflowChecks (q.playerBB q.side &&& q.pieceBB .pawn) = some r)
    (hvac : ∀ to, mem r to = true ↔ V to) :
    ∃ pt, q.pawnDropTarget E K st target = some pt ∧ Ok pt ∧ ∀ to, mem pt to = true ↔
      mem target to = true ∧ V to ∧ ¬ Refused q.spec (.drop to ⟨.pawn, q.side⟩) := by
  have e := pawnDropTarget_any_king hK h E hai hok hr hvac
  simp only [h.kingPosition hK _ hv] at e
  exact e

/-- The drop targets of a pawn. -/
theorem pawnDropTarget_spec {K : Backend} (hK : Lawful K) {q : PartialPosition} (h : Repr q)
    (hv : Tame q.spec) (E : Env) {st : State}
    (hai : st.attackInfo = AttackInfo.new K (AttackInfo.calculateCheckers K q) q)
    {target : BB} (hok : Ok target) (_ : ∀ to, mem target to = true → q.board to = none) :
    ∃ pt, q.pawnDropTarget E K st target = some pt ∧ Ok pt ∧ ∀ to, mem pt to = true ↔
      mem target to = true ∧ (∀ s, s.file = to.file → q.board s ≠ some ⟨.pawn, q.side⟩) ∧
      ¬ Refused q.spec (.drop to ⟨.pawn, q.side⟩) := by
  have hpawn := mem_own_kind h .pawn
  obtain ⟨r, hr, hrok, hrm⟩ := hK.vacantFiles E.overflowChecks (q.playerBB q.side &&& q.pieceBB .pawn)
    (ok_and_left _ (h.okPlayer _)) (by
      intro s t hs ht hf hr
      have hs := (hpawn s).1 hs
      refine hv.homePawn _ _ _ hs ((hpawn t).1 ht) hf ?_
      have hd := hv.noDeadPawn _ _ hs
      revert hd
      cases q.side <;> simp [Dead, HomeRank, hr])
  refine pawnDropTarget_of hK h (hv.oneKing _) E hai hok hr fun to => ?_
  rw [hrm]
  constructor
  · intro h s hs hb; exact h s ((hpawn s).2 hb) hs
  · intro h t ht hf; exact h t hf ((hpawn t).1 ht)

/-- The kinds of which the side to move holds a piece. -/
def handKinds (q : PartialPosition) : List PieceKind :=
  Hand.allHandPieces.filter fun pk => decide (((q.hands q.side).count pk).getD 0 > 0)

/-- The drops of one kind. -/
def dropKind (K : Backend) (c : Color) (target : BB) (pk : PieceKind) : List Move :=
  (K.iter target).flatMap fun to => if dropAllowed pk c to then [.drop to ⟨pk, c⟩] else []
where
  dropAllowed := PartialPosition.dropAllowed

/-- The list of `generate_drop`. -/
def dropMoves (E : Env) (K : Backend) (q : PartialPosition) (st : State) (target : BB) : List Move :=
  (handKinds q).flatMap fun pk => dropKind K q.side
    (if pk = .pawn then (q.pawnDropTarget E K st target).getD K.empty else target) pk

theorem generateDrop_eq {E : Env} {K : Backend} {q : PartialPosition} {st : State} {target : BB}
    (h : .pawn ∈ handKinds q → ∃ pt, q.pawnDropTarget E K st target = some pt) (av : Av) :
    q.generateDrop E K st av target = appendAll av (dropMoves E K q st target) := by
  unfold PartialPosition.generateDrop dropMoves
  refine foldlM_appendAll _ (fun pk hpk av => ?_) av
  have inner : ∀ (t : BB) (av : Av), (K.iter t).foldlM (fun av to =>
        if PartialPosition.dropAllowed pk q.side to then av.push (.drop to ⟨pk, q.side⟩)
        else pure av) av = appendAll av (dropKind K q.side t pk) := by
    intro t av
    refine foldlM_appendAll _ (fun to _ av => ?_) av
    unfold dropKind.dropAllowed
    split
    · exact push_eq _ _
    · rw [appendAll_nil]; rfl
  by_cases hp : pk = .pawn
  · obtain ⟨pt, hpt⟩ := h (hp ▸ hpk)
    rw [if_pos hp, if_pos hp, hpt]
    exact inner pt av
  · rw [if_neg hp, if_neg hp]
    exact inner target av

theorem dropAllowed_iff {pk : PieceKind} {c : Color} {to : Square} :
    PartialPosition.dropAllowed pk c to = true ↔ ¬ Dead pk c to := by
  have := to.rank_pos
  have := to.rank_le
  unfold PartialPosition.dropAllowed relativeRanks Square.relativeRank
  cases pk <;> cases c <;> simp [Dead] <;> omega

theorem mem_dropKind {K : Backend} (hK : Lawful K) {c : Color} {target : BB} (hok : Ok target)
    {pk : PieceKind} {m : Move} : m ∈ dropKind K c target pk ↔
      ∃ to, m = .drop to ⟨pk, c⟩ ∧ mem target to = true ∧ ¬ Dead pk c to := by
  unfold dropKind dropKind.dropAllowed
  rw [List.mem_flatMap]
  simp only [mem_iter hK hok]
  constructor
  · rintro ⟨to, h1, h2⟩
    split at h2
    · next h3 =>
      simp only [List.mem_cons, List.not_mem_nil, or_false] at h2
      exact ⟨to, h2, h1, dropAllowed_iff.1 h3⟩
    · cases h2
  · rintro ⟨to, h1, h2, h3⟩
    refine ⟨to, h2, ?_⟩
    rw [if_pos (dropAllowed_iff.2 h3), h1]
    simp

theorem dropKind_nodup {K : Backend} (hK : Lawful K) {c : Color} {target : BB} (hok : Ok target)
    (pk : PieceKind) : (dropKind K c target pk).Nodup := by
  apply nodup_flatMap (nodup_iter hK hok)
  · intro to _; split <;> simp
  · intro x _ y _ m hx hy
    split at hx
    · split at hy
      · simp only [List.mem_cons, List.not_mem_nil, or_false] at hx hy
        rw [hx] at hy; cases hy; rfl
      · cases hy
    · cases hx

theorem handKinds_nodup (q : PartialPosition) : (handKinds q).Nodup :=
  (by decide : Hand.allHandPieces.Nodup).filter _

theorem mem_handKinds {q : PartialPosition} {k : PieceKind} :
    k ∈ handKinds q ↔ k.isHandPiece = true ∧ 0 < q.spec.hand q.side k := by
  unfold handKinds
  rw [List.mem_filter, decide_eq_true_eq]
  apply and_congr
  · cases k <;> decide
  · exact Iff.rfl

theorem mem_dropMoves {K : Backend} (hK : Lawful K) {q : PartialPosition} (h : Repr q)
    (hv : Tame q.spec) (E : Env) {st : State}
    (hai : st.attackInfo = AttackInfo.new K (AttackInfo.calculateCheckers K q) q)
    {target : BB} (hok : Ok target) (hemp : ∀ to, mem target to = true → q.board to = none)
    (m : Move) :
    m ∈ dropMoves E K q st target ↔ ∃ to pc, m = .drop to pc ∧ mem target to = true ∧
      PseudoLegal q.spec m ∧ (IsPawnDrop m → ¬ Refused q.spec m) := by
  obtain ⟨pt, hpt, hptok, hptm⟩ := pawnDropTarget_spec hK h hv E hai hok hemp
  unfold dropMoves
  rw [List.mem_flatMap, hpt, Option.getD_some]
  constructor
  · rintro ⟨pk, hpk, hm⟩
    rw [mem_handKinds] at hpk
    by_cases hp : pk = .pawn
    · subst hp
      rw [if_pos rfl, mem_dropKind hK hptok] at hm
      obtain ⟨to, rfl, h1, h2⟩ := hm
      rw [hptm] at h1
      exact ⟨to, _, rfl, h1.1, ⟨rfl, hpk.1, hpk.2, hemp to h1.1, h2, fun _ => h1.2.1⟩,
        fun _ => h1.2.2⟩
    · rw [if_neg hp, mem_dropKind hK hok] at hm
      obtain ⟨to, rfl, h1, h2⟩ := hm
      exact ⟨to, _, rfl, h1, ⟨rfl, hpk.1, hpk.2, hemp to h1, h2, fun e => absurd e hp⟩,
        fun e => absurd e hp⟩
  · rintro ⟨to, ⟨pk, c⟩, rfl, h1, ⟨h2, h3, h4, h5, h6, h7⟩, h8⟩
    have h2 : c = q.side := h2
    subst h2
    refine ⟨pk, mem_handKinds.2 ⟨h3, h4⟩, ?_⟩
    by_cases hp : pk = .pawn
    · subst hp
      rw [if_pos rfl, mem_dropKind hK hptok]
      exact ⟨to, rfl, (hptm to).2 ⟨h1, h7 rfl, h8 rfl⟩, h6⟩
    · rw [if_neg hp, mem_dropKind hK hok]
      exact ⟨to, rfl, h1, h6⟩

theorem dropMoves_nodup {K : Backend} (hK : Lawful K) {q : PartialPosition} (h : Repr q)
    (hv : Tame q.spec) (E : Env) {st : State}
    (hai : st.attackInfo = AttackInfo.new K (AttackInfo.calculateCheckers K q) q)
    {target : BB} (hok : Ok target) (hemp : ∀ to, mem target to = true → q.board to = none) :
    (dropMoves E K q st target).Nodup := by
  obtain ⟨pt, hpt, hptok, hptm⟩ := pawnDropTarget_spec hK h hv E hai hok hemp
  unfold dropMoves
  rw [hpt, Option.getD_some]
  have hok' : ∀ pk : PieceKind, Ok (if pk = .pawn then pt else target) := by
    intro pk; split <;> assumption
  apply nodup_flatMap (handKinds_nodup q)
  · intro pk _; exact dropKind_nodup hK (hok' pk) pk
  · intro x _ y _ m hx hy
    rw [mem_dropKind hK (hok' _)] at hx hy
    obtain ⟨_, h1, _⟩ := hx
    obtain ⟨_, h2, _⟩ := hy
    rw [h1] at h2; cases h2; rfl

/-! ## The swap-remove loop -/

theorem swapRemove_perm (av : Av) (i : Nat) (h : i < av.length) :
    (av.swapRemove i).Perm (av.eraseIdx i) := by
  unfold Av.swapRemove
  cases hl : av.getLast? with
  | none =>
    rw [List.getLast?_eq_none_iff] at hl
    subst hl; exact absurd h (Nat.not_lt_zero _)
  | some l =>
    obtain ⟨ys, rfl⟩ := List.getLast?_eq_some_iff.1 hl
    dsimp only
    rw [List.length_append, List.length_cons, List.length_nil] at h
    by_cases hi : i < ys.length
    · rw [List.set_append_left _ _ hi, List.dropLast_concat, List.eraseIdx_append_of_lt_length hi]
      -- replacing an element = erasing it and adding the new one
      have : (ys.set i l).Perm (l :: ys.eraseIdx i) := by
        rw [List.set_eq_take_append_cons_drop, if_pos hi, List.eraseIdx_eq_take_drop_succ]
        exact List.perm_middle
      exact this.trans (List.perm_append_comm (l₁ := [l]) )
    · have : i = ys.length := by omega
      subst this
      rw [List.set_append_right _ _ (Nat.le_refl _), Nat.sub_self, List.set_cons_zero,
        List.dropLast_concat, List.eraseIdx_append_of_length_le (Nat.le_refl _), Nat.sub_self,
        List.eraseIdx_cons_zero, List.append_nil]

theorem swapRemove_take (av : Av) (i : Nat) (h : i < av.length) :
    (av.swapRemove i).take i = av.take i := by
  unfold Av.swapRemove
  cases hl : av.getLast? with
  | none => rfl
  | some l =>
    obtain ⟨ys, rfl⟩ := List.getLast?_eq_some_iff.1 hl
    dsimp only
    rw [List.length_append, List.length_cons, List.length_nil] at h
    apply List.ext_getElem?
    intro j
    simp only [List.getElem?_take]
    split
    · rw [List.getElem?_dropLast, List.getElem?_set]
      simp only [List.length_set, List.length_append, List.length_cons, List.length_nil]
      rw [if_pos (by omega), if_neg (by omega)]
    · rfl

theorem length_swapRemove (av : Av) (i : Nat) : (av.swapRemove i).length = av.length - 1 := by
  unfold Av.swapRemove
  cases hl : av.getLast? with
  | none =>
    rw [List.getLast?_eq_none_iff] at hl
    subst hl; rfl
  | some l => simp

/-- The loop keeps a permutation of the elements that pass the test. -/
theorem filterLoop_perm_aux (ok : Move → Bool) (n i : Nat) (av : Av) (hn : av.length ≤ i + n)
    (hpre : ∀ m ∈ av.take i, ok m = true) :
    (filterLoop ok n i av).Perm (av.filter ok) := by
  have hall : ∀ (l : Av), (∀ m ∈ l, ok m = true) → l.filter ok = l := by
    intro l hl; exact List.filter_eq_self.2 hl
  induction n generalizing i av with
  | zero =>
    unfold filterLoop
    rw [List.take_of_length_le (by omega)] at hpre
    rw [hall av hpre]
  | succ n ih =>
    unfold filterLoop
    cases hm : av[i]? with
    | none =>
      dsimp only
      rw [List.getElem?_eq_none_iff] at hm
      rw [List.take_of_length_le hm] at hpre
      rw [hall av hpre]
    | some m =>
      dsimp only
      have hlt : i < av.length := by
        rw [List.getElem?_eq_some_iff] at hm; exact hm.1
      by_cases hok : ok m = true
      · rw [if_pos hok]
        refine ih (i + 1) av (by omega) ?_
        intro x hx
        rw [List.take_add_one, List.mem_append, hm] at hx
        rcases hx with hx | hx
        · exact hpre x hx
        · simp at hx; rw [hx]; exact hok
      · rw [if_neg hok]
        refine (ih i _ (by rw [length_swapRemove]; omega) ?_).trans ?_
        · rw [swapRemove_take av i hlt]; exact hpre
        · refine ((swapRemove_perm av i hlt).filter ok).trans ?_
          have hsplit : av = av.take i ++ m :: av.drop (i + 1) := by
            rw [List.getElem?_eq_some_iff] at hm
            obtain ⟨_, hm⟩ := hm
            rw [← hm, ← List.drop_eq_getElem_cons, List.take_append_drop]
          rw [List.eraseIdx_eq_take_drop_succ]
          conv => rhs; rw [hsplit]
          rw [List.filter_append, List.filter_append, List.filter_cons_of_neg hok]

theorem filterLoop_perm (ok : Move → Bool) (av : Av) :
    (filterLoop ok av.length 0 av).Perm (av.filter ok) :=
  filterLoop_perm_aux ok _ 0 av (by omega) (by simp)

/-- More fuel changes nothing: the loop has ended. -/
theorem filterLoop_fuel (ok : Move → Bool) (n i : Nat) (av : Av) (k : Nat)
    (hn : av.length ≤ i + n) : filterLoop ok (n + k) i av = filterLoop ok n i av := by
  induction n generalizing i av with
  | zero =>
    cases k with
    | zero => rfl
    | succ k =>
      rw [Nat.zero_add]
      unfold filterLoop
      rw [List.getElem?_eq_none (by omega)]
  | succ n ih =>
    rw [Nat.add_right_comm]
    unfold filterLoop
    cases hm : av[i]? with
    | none => rfl
    | some m =>
      dsimp only
      have hlt : i < av.length := by
        rw [List.getElem?_eq_some_iff] at hm; exact hm.1
      rw [ih (i + 1) av (by omega), ih i (av.swapRemove i) (by rw [length_swapRemove]; omega)]

end Yasai

import Verif.Proofs.Evasions

/-!
# `legal_moves` without assumptions about the kings

What remains true of the generated list when a side may have any number of kings and may have been
left in check: the moves obey the rules of movement and dropping and are listed once.  Only the
hypotheses about pawns are needed, and that the recorded checkers are enemy pieces that attack the
king which `king_position` finds.
-/

namespace Yasai

open Spec

/-- The king that `king_position` finds is a king. -/
theorem kingPosition_sound {K : Backend} (hK : Lawful K) {q : PartialPosition} (h : Repr q)
    {c : Color} {s : Square} (hk : q.kingPosition K c = some s) :
    q.board s = some ⟨.king, c⟩ := by
  unfold PartialPosition.kingPosition at hk
  have hm := List.mem_of_mem_head? hk
  rw [hK.and, mem_iter hK (ok_and_left _ (h.okPlayer c)), mem_and, Bool.and_eq_true, h.player,
    h.piece] at hm
  obtain ⟨⟨k, e1⟩, ⟨c', e2⟩⟩ := hm
  rw [e1] at e2; cases e2; exact e1

/-- The recorded checkers are enemy pieces attacking the king that `king_position` finds. -/
def CheckersSound (K : Backend) (q : PartialPosition) (checkers : BB) : Prop :=
  Ok checkers ∧ ∀ s, mem checkers s = true → ∃ king, q.kingPosition K q.side = some king ∧
    AttacksFrom q.board q.side.flip s king

section
variable {E : Env} {K : Backend} {q : PartialPosition} {st : State}

/-- The drop targets of a pawn are among those allowed by the rule of the two pawns. -/
theorem pawnDropTarget_sound (hK : Lawful K) (h : Repr q) (hv : PawnsOk q.spec) (E : Env)
    (st : State) {target : BB} (hok : Ok target) :
    ∃ pt, q.pawnDropTarget E K st target = some pt ∧ Ok pt ∧ ∀ to, mem pt to = true →
      mem target to = true ∧ ∀ s, s.file = to.file → q.board s ≠ some ⟨.pawn, q.side⟩ := by
  have hpawn := mem_own_kind h .pawn
  obtain ⟨r, hr, hrok, hrm⟩ := hK.vacantFiles E.overflowChecks (q.playerBB q.side &&& q.pieceBB .pawn)
    (ok_and_left _ (h.okPlayer _)) (by
      intro s t hs ht hf hr
      have hs := (hpawn s).1 hs
      refine hv.homePawn _ _ _ hs ((hpawn t).1 ht) hf ?_
      have hd := hv.noDeadPawn _ _ hs
      revert hd
      cases q.side <;> simp [Dead, HomeRank, hr])
  have hmt : ∀ to, mem (target &&& r) to = true → mem target to = true ∧
      ∀ s, s.file = to.file → q.board s ≠ some ⟨.pawn, q.side⟩ := by
    intro to hm
    rw [mem_and, Bool.and_eq_true, hrm] at hm
    exact ⟨hm.1, fun s hs hb => hm.2 s ((hpawn s).2 hb) hs⟩
  unfold PartialPosition.pawnDropTarget
  simp only [hK.and, hr, Option.bind_eq_bind, Option.bind_some, Option.pure_def]
  split
  · split
    · split
      · refine ⟨_, rfl, ok_and_left _ (ok_and_left _ hok), fun to hm => hmt to ?_⟩
        rw [mem_and, Bool.and_eq_true] at hm
        exact hm.1
      · exact ⟨_, rfl, ok_and_left _ hok, hmt⟩
    · exact ⟨_, rfl, ok_and_left _ hok, hmt⟩
  · exact ⟨_, rfl, ok_and_left _ hok, hmt⟩

theorem dropMoves_sound (hK : Lawful K) (h : Repr q) (hv : PawnsOk q.spec)
    {target : BB} (hok : Ok target) (hemp : ∀ to, mem target to = true → q.board to = none) :
    (dropMoves E K q st target).Nodup ∧
    ∀ m ∈ dropMoves E K q st target, PseudoLegal q.spec m ∧ ∃ to pc,
      m = .drop to pc ∧ mem target to = true := by
  obtain ⟨pt, hpt, hptok, hptm⟩ := pawnDropTarget_sound hK h hv E st hok
  unfold dropMoves
  rw [hpt, Option.getD_some]
  have hok' : ∀ pk : PieceKind, Ok (if pk = .pawn then pt else target) := by
    intro pk; split <;> assumption
  refine ⟨?_, fun m hm => ?_⟩
  · apply nodup_flatMap (handKinds_nodup q)
    · intro pk _; exact dropKind_nodup hK (hok' pk) pk
    · intro x _ y _ m hx hy
      rw [mem_dropKind hK (hok' _)] at hx hy
      obtain ⟨_, h1, _⟩ := hx
      obtain ⟨_, h2, _⟩ := hy
      rw [h1] at h2; cases h2; rfl
  · rw [List.mem_flatMap] at hm
    obtain ⟨pk, hpk, hm⟩ := hm
    rw [mem_handKinds] at hpk
    by_cases hp : pk = .pawn
    · subst hp
      rw [if_pos rfl, mem_dropKind hK hptok] at hm
      obtain ⟨to, rfl, h1, h2⟩ := hm
      obtain ⟨h3, h4⟩ := hptm to h1
      exact ⟨⟨rfl, hpk.1, hpk.2, hemp to h3, h2, fun _ => h4⟩, to, _, rfl, h3⟩
    · rw [if_neg hp, mem_dropKind hK hok] at hm
      obtain ⟨to, rfl, h1, h2⟩ := hm
      exact ⟨⟨rfl, hpk.1, hpk.2, hemp to h1, h2, fun e => absurd e hp⟩, to, _, rfl, h1⟩

theorem allList_sound (hK : Lawful K) (h : Repr q) (hv : PawnsOk q.spec) :
    (allList E K q st).Nodup ∧ ∀ m ∈ allList E K q st, PseudoLegal q.spec m := by
  obtain ⟨hok, hes⟩ := emptySquares_spec hK h
  obtain ⟨hn, hd⟩ := dropMoves_sound (E := E) (st := st) hK h hv hok (fun to => (hes to).1)
  unfold allList
  rw [List.nodup_append]
  refine ⟨⟨boardList_nodup hK h hv.noDeadPawn _ (fun _ h => h) (by decide), hn, ?_⟩, fun m hm => ?_⟩
  · intro a ha b hb e
    subst e
    rw [mem_boardList hK h hv.noDeadPawn _ (fun _ h => h)] at ha
    obtain ⟨_, _, _, _, _, rfl, _⟩ := ha
    obtain ⟨_, _, _, e, _⟩ := hd _ hb
    cases e
  · rw [List.mem_append] at hm
    rcases hm with hm | hm
    · rw [mem_boardList hK h hv.noDeadPawn _ (fun _ h => h)] at hm
      obtain ⟨k, _, hg⟩ := hm
      have hg' := hg
      obtain ⟨frm, to, pr, rfl, _⟩ := hg'
      exact (gen_pseudoLegal hK h).1 ⟨k, hg⟩
    · exact (hd m hm).1

/-- A move to the checker or between it and the king. -/
def Answers (ch king : Square) : Move → Prop
  | .normal _ to _ => to = ch ∨ Between ch to king
  | .drop to _ => Between ch to king

theorem otherEvasions_sound (hK : Lawful K) (h : Repr q) (hv : PawnsOk q.spec)
    (hcs : CheckersSound K q st.attackInfo.checkers) {king ch : Square}
    (hk : q.kingPosition K q.side = some king) (hch : K.iter st.attackInfo.checkers = [ch]) :
    (otherEvasions E K q st ch king).Nodup ∧
    ∀ m ∈ otherEvasions E K q st ch king, PseudoLegal q.spec m ∧
      (∀ frm, m.frm = some frm → q.board frm ≠ some ⟨.king, q.side⟩) ∧ Answers ch king m := by
  have hcm : ∀ s, mem st.attackInfo.checkers s = true ↔ s = ch := by
    intro s
    rw [← mem_iter hK hcs.1, hch]; simp
  obtain ⟨king', hk', kc, hkc, hrc⟩ := hcs.2 ch ((hcm ch).2 rfl)
  rw [hk] at hk'
  cases hk'
  have hpath : ∀ u, Between ch u king → q.board u = none := by
    intro u hu
    exact Classical.not_not.1 (reaches_path hrc hu)
  have htok : Ok (betweenTable K ch king) := (betweenTable_spec hK _ _).1
  have hbt := mem_betweenTable hK ch king
  obtain ⟨hn, hd⟩ := dropMoves_sound (E := E) (st := st) hK h hv htok
    (fun to hto => hpath to ((hbt to).1 hto))
  have hnotown : ∀ to, mem (K.or (betweenTable K ch king) st.attackInfo.checkers) to = true →
      ∀ p, q.board to = some p → p.color ≠ q.side := by
    intro to ht p hp
    rw [hK.or, mem_or, Bool.or_eq_true, hbt, hcm] at ht
    rcases ht with hb | rfl
    · rw [hpath to hb] at hp; cases hp
    · rw [hkc] at hp; cases hp; exact flip_ne _
  unfold otherEvasions
  rw [List.nodup_append]
  refine ⟨⟨boardList_nodup hK h hv.noDeadPawn _ (by decide) (by decide), ?_, ?_⟩, fun m hm => ?_⟩
  · split
    · exact .nil
    · exact hn
  · intro a ha b hb e
    subst e
    rw [mem_boardList hK h hv.noDeadPawn _ (by decide)] at ha
    obtain ⟨_, _, _, _, _, rfl, _⟩ := ha
    split at hb
    · cases hb
    · obtain ⟨_, _, _, e, _⟩ := hd _ hb
      cases e
  · rw [List.mem_append] at hm
    rcases hm with hm | hm
    · rw [mem_boardList hK h hv.noDeadPawn _ (by decide)] at hm
      obtain ⟨k, hrep, frm, to, pr, rfl, h1, h2, h3, h4⟩ := hm
      rw [rep_orderEv] at hrep
      refine ⟨⟨k, h1, h2, hnotown to h3, h4.1, h4.2⟩, ?_, ?_⟩
      · rintro _ ⟨⟩ e
        rw [h1] at e
        apply hrep
        cases e; rfl
      · rw [hK.or, mem_or, Bool.or_eq_true, hbt, hcm] at h3
        exact h3.symm
    · split at hm
      · cases hm
      · obtain ⟨h1, to, pc, rfl, h2⟩ := hd m hm
        exact ⟨h1, (by rintro _ ⟨⟩), (hbt to).1 h2⟩

theorem evList_sound (hK : Lawful K) (h : Repr q) (hv : PawnsOk q.spec)
    (hcs : CheckersSound K q st.attackInfo.checkers) {king : Square}
    (hk : q.kingPosition K q.side = some king) (attacks : BB) :
    (evList E K q st king attacks).Nodup ∧
    ∀ m ∈ evList E K q st king attacks, PseudoLegal q.spec m := by
  have hking := kingPosition_sound hK h hk
  unfold evList
  rw [List.nodup_append]
  refine ⟨⟨kingEvasions_nodup hK _, ?_, ?_⟩, fun m hm => ?_⟩
  · split
    · next hch => exact (otherEvasions_sound hK h hv hcs hk hch).1
    · exact .nil
  · intro a ha b hb e
    subst e
    split at hb
    · next hch =>
      rw [mem_kingEvasions hK h] at ha
      obtain ⟨to, rfl, _⟩ := ha
      exact ((otherEvasions_sound hK h hv hcs hk hch).2 _ hb).2.1 king rfl hking
    · cases hb
  · rw [List.mem_append] at hm
    rcases hm with hm | hm
    · rw [mem_kingEvasions hK h] at hm
      obtain ⟨to, rfl, h1, h2, _⟩ := hm
      refine ⟨.king, hking, reaches_iff.2 (.inl h1), h2, ?_, ?_⟩
      · intro e; cases e
      · intro _ e; cases e
    · split at hm
      · next hch => exact ((otherEvasions_sound hK h hv hcs hk hch).2 m hm).1
      · cases hm

/-- What `legal_moves` computes, with any number of kings. -/
theorem legalMoves_sound (E : Env) (hK : Lawful K) {p : Position} (h : Repr p.inner)
    (hv : PawnsOk p.inner.spec) {st : State} (hst : p.state = some st)
    (hcs : CheckersSound K p.inner st.attackInfo.checkers) :
    p.legalMoves E K = (appendAll [] (pseudoList E K p.inner st)).map
        (fun av => filterLoop (p.inner.isLegal K st) av.length 0 av) ∧
      (pseudoList E K p.inner st).Nodup ∧
      ∀ m ∈ pseudoList E K p.inner st, PseudoLegal p.inner.spec m := by
  have hmap : ∀ o : Option Av, (o.bind fun av => (some (filterLoop (p.inner.isLegal K st)
      av.length 0 av) : Option (List Move))) =
      o.map fun av => filterLoop (p.inner.isLegal K st) av.length 0 av := by
    intro o; cases o <;> rfl
  unfold Position.legalMoves pseudoList
  simp only [hst, Option.bind_eq_bind, Option.bind_some, Option.pure_def, hmap]
  by_cases he : K.isEmpty st.attackInfo.checkers = true
  · rw [if_neg (by simpa using he), if_pos he]
    obtain ⟨hok, hes⟩ := emptySquares_spec hK h
    obtain ⟨pt, hpt, _⟩ := pawnDropTarget_sound hK h hv E st hok
    exact ⟨by rw [generateAll_eq fun _ => ⟨pt, hpt⟩], allList_sound hK h hv⟩
  · rw [if_pos (by simpa using he), if_neg he]
    have hmi : ∀ s, s ∈ K.iter st.attackInfo.checkers ↔ mem st.attackInfo.checkers s = true :=
      fun s => mem_iter hK hcs.1 s
    have hne : K.iter st.attackInfo.checkers ≠ [] := by
      intro e
      apply he
      rw [hK.isEmpty, beq_iff_eq]
      refine ext_of_ok hcs.1 ok_zero fun s => ?_
      rw [mem_zero, ← Bool.not_eq_true, ← hmi, e]
      simp
    obtain ⟨s0, hs0⟩ := List.exists_mem_of_ne_nil _ hne
    obtain ⟨king, hk, _⟩ := hcs.2 s0 ((hmi s0).1 hs0)
    obtain ⟨att, hatt, _⟩ := foldlM_checkers hK h king (K.iter st.attackInfo.checkers) (by
      intro s hs
      obtain ⟨_, _, k, hk, _⟩ := hcs.2 s ((hmi s).1 hs)
      exact ⟨k, hk⟩) (K.empty, 0)
    have hatt : p.inner.checkersAttacks K st king =
        some (att, (K.iter st.attackInfo.checkers).length) := by
      simpa [PartialPosition.checkersAttacks] using hatt
    rw [hk]
    dsimp only
    rw [hatt]
    dsimp only
    refine ⟨?_, evList_sound hK h hv hcs hk att⟩
    rw [generateEvasions_eq hk hatt hne]
    intro ch _ _ _
    obtain ⟨pt, hpt, _⟩ := pawnDropTarget_sound hK h hv E st (betweenTable_spec hK ch king).1
    exact ⟨pt, hpt⟩

end

/-! ## The invariant -/

/-- The checkers found by `calculate_checkers` are sound. -/
theorem calculateCheckers_sound {K : Backend} (hK : Lawful K) {q : PartialPosition} (h : Repr q) :
    CheckersSound K q (AttackInfo.calculateCheckers K q) := by
  refine ⟨ok_calculateCheckers hK h, fun s hs => ?_⟩
  cases hk : q.kingPosition K q.side with
  | none => rw [calculateCheckers_none hk, hK.empty, mem_zero] at hs; cases hs
  | some king =>
    obtain ⟨k, hk1, _, hk3⟩ := (mem_calculateCheckers hK h hk s).1 hs
    exact ⟨king, rfl, k, hk1, hk3⟩

theorem empty_sound {K : Backend} (hK : Lawful K) (q : PartialPosition) :
    CheckersSound K q K.empty := by
  rw [CheckersSound, hK.empty]
  refine ⟨ok_zero, fun s hs => ?_⟩
  rw [mem_zero] at hs; cases hs

/-- The caches after `new` and `do_move`: the checkable squares and the pins are those of the position,
and the checkers are sound. -/
def CacheSound (K : Backend) (p : Position) : Prop :=
  ∃ st, p.state = some st ∧ st.attackInfo.checkables = AttackInfo.checkablesOf K p.inner ∧
    st.attackInfo.pinned = AttackInfo.pinnedOf K p.inner ∧ CheckersSound K p.inner st.attackInfo.checkers

/-- A move of an own piece to a square without an own piece, over no other piece if the two squares are
in line; or a drop of an own piece onto an empty square. -/
def Unhindered (P : Pos) : Move → Prop
  | .normal frm to _ => (∃ k, P.board frm = some ⟨k, P.side⟩) ∧ frm ≠ to ∧
      (∀ k, P.board to ≠ some ⟨k, P.side⟩) ∧ ∀ u, Between frm u to → P.board u = none
  | .drop to pc => pc.color = P.side ∧ handKind pc.kind = true ∧ P.board to = none

theorem unhindered_of_pseudoLegal {P : Pos} {m : Move} (h : PseudoLegal P m) : Unhindered P m := by
  cases m with
  | normal frm to pr =>
    obtain ⟨k, h1, h2, h3, _⟩ := h
    exact ⟨⟨k, h1⟩, reaches_ne h2, fun _ e => h3 _ e rfl,
      fun u hu => Classical.not_not.1 (reaches_path h2 hu)⟩
  | drop to pc => exact ⟨h.1, h.2.1, h.2.2.2.1⟩

theorem unhindered_good {P : Pos} {m : Move} (h : Unhindered P m) : GoodShape P.board m := by
  cases m with
  | normal frm to pr => exact h.2.1
  | drop to pc => exact h.2.2

theorem cacheSound_new {E : Env} {K : Backend} (hK : Lawful K) {pp : CorePartialPosition}
    {p : Position} (h : Position.new E K pp = some p) : CacheSound K p := by
  obtain ⟨hr, st, hst, hai⟩ := inv_new hK h
  refine ⟨st, hst, by rw [hai]; rfl, by rw [hai]; rfl, ?_⟩
  rw [hai]
  exact calculateCheckers_sound hK hr

theorem cacheSound_doMove {E : Env} {K : Backend} (hK : Lawful K) {p p' : Position} {m : Move}
    (hr : Repr p.inner) (hc : CacheSound K p) (hp : Unhindered p.inner.spec m)
    (hm : p.doMove E K m = some p') : CacheSound K p' := by
  have hg : GoodShape p.inner.board m := unhindered_good hp
  have hr' := repr_doMove hK hr hg hm
  have hsp := spec_doMove hm
  cases m with
  | normal frm to promote =>
    obtain ⟨isCheck, st, piece, kq, target, ply, h1, hst, hpiece, hcap, htarget, hply, hi, hs⟩ :=
      doMove_normal hm
    refine ⟨_, by unfold Position.state; rw [hs]; rfl, rfl, rfl, ?_⟩
    show CheckersSound K p'.inner (if isCheck = true then _ else _)
    split
    · have := calculateCheckers_sound hK hr'
      rw [hi] at this ⊢
      exact this
    · exact empty_sound hK _
  | drop to pc =>
    obtain ⟨isCheck, st, q, n, z, ply, h1, hst, hq, hn, hz, hply, hi, hs⟩ := doMove_drop hm
    refine ⟨_, by unfold Position.state; rw [hs]; rfl, rfl, rfl, ?_⟩
    show CheckersSound K p'.inner (if isCheck = true then _ else _)
    split
    · next hch =>
      subst hch
      obtain ⟨st0, hst0, hcb, _⟩ := hc
      obtain ⟨k, c⟩ := pc
      obtain ⟨hside, hh, hemp⟩ := hp
      have hside : c = p.inner.side := hside
      subst hside
      have hs' : p'.inner.side = p.inner.side.flip := congrArg Pos.side hsp
      have hb' : p'.inner.board = put p.inner.board to (some ⟨k, p.inner.side⟩) :=
        congrArg Pos.board hsp
      have hkk : (PieceKind.king = k) = False := by
        apply eq_false; rintro rfl; cases hh
      have hkp : p'.inner.kingPosition K p'.inner.side = p.inner.kingPosition K p.inner.side.flip := by
        rw [hs', hi]
        unfold Position.dropInner at hq
        obtain ⟨hand, _, hq⟩ := Option.bind_eq_some_iff.1 hq
        cases hq
        simp only [PartialPosition.kingPosition, PartialPosition.setHand,
          PartialPosition.setPieceAt, PartialPosition.xorPiece, flip_ne, hkk, if_false]
      simp only [Position.isCheckMove, hst0, Option.bind_eq_bind, Option.bind_some, Option.pure_def,
        Position.checkable, hK.contains, hcb, Option.some.injEq] at h1
      rw [hK.single]
      refine ⟨ok_single _, fun s hs => ?_⟩
      rw [mem_single, decide_eq_true_eq] at hs
      subst hs
      rw [hkp, hs', flip_flip, hb']
      cases hk : p.inner.kingPosition K p.inner.side.flip with
      | none =>
        rw [checkablesOf_none hk, hK.empty, mem_zero] at h1; cases h1
      | some king =>
        obtain ⟨_, hre⟩ := ((checkablesOf_spec hK hr hk k).2 _).1 h1
        refine ⟨king, rfl, k, put_same .., ?_⟩
        rw [reaches_put]
        rcases reaches_iff.1 hre with h | ⟨h, h2⟩
        · exact .inl h
        · refine .inr ⟨h, fun u hu => ⟨?_, h2 u hu⟩⟩
          rintro rfl
          exact between_ne_left hu rfl
    · exact empty_sound hK _

/-- Pseudo-legal moves keep the hypotheses about pawns. -/
theorem pawnsOk_apply {P : Pos} (hv : PawnsOk P) {m : Move} (hp : PseudoLegal P m) :
    PawnsOk (apply P m) := by
  cases m with
  | normal frm to pr =>
    obtain ⟨k, hfrm, hr, hto, hprom, hdead⟩ := hp
    constructor
    · rw [apply_normal_board hfrm]
      intro c s t h1 h2 hf hhome
      have key : ∀ s, movedBoard P.board frm to ⟨movedKind k pr, P.side⟩ s = some ⟨.pawn, c⟩ →
          (s = to ∧ k = .pawn ∧ c = P.side ∧ to.file = frm.file ∧ ¬ HomeRank P.side to) ∨
          (s ≠ frm ∧ P.board s = some ⟨.pawn, c⟩) := by
        intro s h
        by_cases e1 : s = to
        · subst e1
          rw [movedBoard_to] at h
          simp only [Option.some.injEq, Piece.mk.injEq] at h
          have := (movedKind_pawn.1 h.1).1
          subst this
          refine .inl ⟨rfl, rfl, h.2.symm, ?_⟩
          rcases hr with ⟨d, hd, h⟩ | ⟨d, hd, _⟩
          · have : d = (0, 1) := by simpa [steps] using hd
            subst this
            obtain ⟨e1, e2⟩ := h
            simp only [Int.add_zero] at e1
            refine ⟨by omega, ?_⟩
            have b1 := frm.rank_le
            have b2 := frm.rank_pos
            unfold HomeRank
            cases hs : P.side <;> simp only [hs, fwd] at e2 ⊢ <;> omega
          · cases hd
        · by_cases e2 : s = frm
          · subst e2; rw [movedBoard_frm _ _ e1] at h; cases h
          · rw [movedBoard_other _ _ e1 e2] at h; exact .inr ⟨e2, h⟩
      rcases key s h1 with ⟨a1, a2, a3, a4, a5⟩ | ⟨a1, a2⟩
      · subst a1 a3; exact absurd hhome a5
      rcases key t h2 with ⟨b1, b2, b3, b4, _⟩ | ⟨b1, b2⟩
      · subst b2 b3
        exact absurd (hv.homePawn _ _ _ a2 hfrm (by rw [hf, b1, b4]) hhome) a1
      · exact hv.homePawn c s t a2 b2 hf hhome
    · rw [apply_normal_board hfrm]
      intro c s h
      by_cases e1 : s = to
      · subst e1
        rw [movedBoard_to] at h
        simp only [Option.some.injEq, Piece.mk.injEq] at h
        obtain ⟨h1, h2⟩ := movedKind_pawn.1 h.1
        have := hdead h2
        rw [h1] at this
        rw [← h.2]; exact this
      · by_cases e2 : s = frm
        · subst e2; rw [movedBoard_frm _ _ e1] at h; cases h
        · rw [movedBoard_other _ _ e1 e2] at h; exact hv.noDeadPawn c s h
  | drop to p =>
    obtain ⟨hc, hh, _, hemp, hdead, htwo⟩ := hp
    have hkey : ∀ s (r : Piece), (apply P (.drop to p)).board s = some r →
        (s = to ∧ r = p) ∨ (s ≠ to ∧ P.board s = some r) := by
      intro s r h
      by_cases e1 : s = to
      · subst e1
        simp only [apply, put_same, Option.some.injEq] at h
        exact .inl ⟨rfl, h.symm⟩
      · simp only [apply, put_other _ _ e1] at h
        exact .inr ⟨e1, h⟩
    constructor
    · intro c s t h1 h2 hf hhome
      rcases hkey s _ h1 with ⟨a1, a2⟩ | ⟨a1, a2⟩ <;> rcases hkey t _ h2 with ⟨b1, b2⟩ | ⟨b1, b2⟩
      · rw [a1, b1]
      · subst a2
        have hc : c = P.side := hc
        subst hc
        exact absurd b2 (htwo rfl t (by rw [← hf, a1]))
      · subst b2
        have hc : c = P.side := hc
        subst hc
        exact absurd a2 (htwo rfl s (by rw [hf, b1]))
      · exact hv.homePawn c s t a2 b2 hf hhome
    · intro c s h
      rcases hkey s _ h with ⟨a1, a2⟩ | ⟨a1, a2⟩
      · subst a1 a2
        have hc : c = P.side := hc
        subst hc
        exact hdead
      · exact hv.noDeadPawn c s a2

end Yasai

import Verif.Props.PawnAlone
import Verif.Props.Boards

/-!
# C82: exactly what `legal_moves` lists when a check is recorded
-/

namespace Yasai.Props

open Yasai Spec

/-- The squares recorded as giving check, when `in_check` answers true: after a drop the dropped piece
only, otherwise the enemy pieces other than a king that attack the king.  The first move of the list
is the last one made. -/
def Recorded (P : Pos) : List Move → Square → Prop
  | .drop to _ :: _, s => s = to
  | _, s => ∃ king k, P.board king = some ⟨.king, P.side⟩ ∧ P.board s = some ⟨k, P.side.flip⟩ ∧
      k ≠ .king ∧ Reaches (Occ P.board) k P.side.flip s king

/-- The move answers all the recorded checks, if it is not a move of the king. -/
def AnswersRecorded (P : Pos) (ms : List Move) (king : Square) : Move → Prop
  | .normal _ to _ => ∃ ch, (∀ s, Recorded P ms s ↔ s = ch) ∧ (to = ch ∨ Between ch to king)
  | .drop to _ => ∃ ch, (∀ s, Recorded P ms s ↔ s = ch) ∧ Between ch to king

/-- The king of `c` that counts, should there be several: the one on the first square, in the order of
the indices (file by file, and rank by rank within a file). -/
def FirstKing (b : Square → Option Piece) (c : Color) (s : Square) : Prop :=
  b s = some ⟨.king, c⟩ ∧ ∀ t, b t = some ⟨.king, c⟩ → s ≤ t

/-- As `Recorded`, where there may be several kings. -/
def RecordedFirst (P : Pos) : List Move → Square → Prop
  | .drop to _ :: _, s => s = to
  | _, s => ∃ king k, FirstKing P.board P.side king ∧ P.board s = some ⟨k, P.side.flip⟩ ∧
      k ≠ .king ∧ Reaches (Occ P.board) k P.side.flip s king

theorem firstKing_iff {b : Square → Option Piece} {c : Color}
    (h1 : ∀ s t, b s = some ⟨.king, c⟩ → b t = some ⟨.king, c⟩ → s = t) (s : Square) :
    FirstKing b c s ↔ b s = some ⟨.king, c⟩ :=
  ⟨fun h => h.1, fun h => ⟨h, fun t ht => by rw [h1 _ _ h ht]; exact Fin.le_refl _⟩⟩

theorem recordedFirst_iff {P : Pos}
    (h1 : ∀ s t, P.board s = some ⟨.king, P.side⟩ → P.board t = some ⟨.king, P.side⟩ → s = t)
    (ms : List Move) (s : Square) : RecordedFirst P ms s ↔ Recorded P ms s := by
  cases ms with
  | nil => simp only [RecordedFirst, Recorded, firstKing_iff h1]
  | cons m ms =>
    cases m with
    | normal _ _ _ => simp only [RecordedFirst, Recorded, firstKing_iff h1]
    | drop _ _ => exact Iff.rfl

theorem Visited.kingPosition {E : Env} {K : Backend} (hK : K ∈ backends) {pp : CorePartialPosition}
    {ms : List Move} {p : Position} (h : Visited E K pp ms p) (c : Color) (s : Square) :
    p.inner.kingPosition K c = some s ↔ FirstKing p.inner.board c s :=
  (C70_bitboards_mirror_board E K hK pp ms p h).2.2.2.2.2.1 c s

theorem Wandered.recordedFirst {E : Env} {K : Backend} (hK : K ∈ backends)
    {pp : CorePartialPosition} {ms : List Move} {p : Position} (h : Wandered E K pp ms p)
    (hc : p.inCheck K = some true) {st : State} (hst : p.state = some st)
    (s : Square) : mem st.attackInfo.checkers s = true ↔ RecordedFirst (view p) ms s := by
  have L := lawful_of_mem hK
  have hr := (h.visited.consistent hK).1
  have hkp := h.visited.kingPosition hK
  obtain ⟨st2, hst2, _, _, _, hcs⟩ := h.caches hK
  rw [hst] at hst2
  cases hst2
  have hcalc : st.attackInfo.checkers = AttackInfo.calculateCheckers K p.inner →
      (∀ to pc ms', ms ≠ .drop to pc :: ms') →
      (mem st.attackInfo.checkers s = true ↔ RecordedFirst (view p) ms s) := by
    intro he hms
    have hR : RecordedFirst (view p) ms s ↔ ∃ king k, FirstKing (view p).board (view p).side king ∧
        (view p).board s = some ⟨k, (view p).side.flip⟩ ∧ k ≠ .king ∧
        Reaches (Occ (view p).board) k (view p).side.flip s king := by
      cases ms with
      | nil => rfl
      | cons m ms' =>
        cases m with
        | normal _ _ _ => rfl
        | drop to pc => exact absurd rfl (hms to pc ms')
    rw [hR, view_eq]
    constructor
    · intro hm
      obtain ⟨king, hk, _⟩ := hcs s hm
      rw [he, mem_calculateCheckers L hr hk] at hm
      obtain ⟨k, h1, h2, h3⟩ := hm
      exact ⟨king, k, (hkp _ _).1 hk, h1, h2, h3⟩
    · rintro ⟨king, k, h0, h1, h2, h3⟩
      have hk' := (hkp _ _).2 h0
      rw [he, mem_calculateCheckers L hr hk']
      exact ⟨k, h1, h2, h3⟩
  clear hkp
  obtain ⟨p0, h0, hs⟩ := h
  have hp := hs.play hK (fun _ _ h => shape_of_unhindered h)
  clear hs
  simp only [Position.inCheck, hst, Option.bind_eq_bind, Option.bind_some, Option.pure_def,
    Option.some.injEq, Bool.not_eq_true'] at hc
  cases hp with
  | start =>
    refine hcalc ?_ (by intro _ _ _ e; cases e)
    obtain ⟨_, st2, hst2, he⟩ := inv_new L h0
    rw [hst] at hst2
    cases hst2
    rw [he]; rfl
  | @move ms' q _ m hq ha hm =>
    cases m with
    | normal frm to promote =>
      refine hcalc ?_ (by intro _ _ _ e; cases e)
      obtain ⟨isCheck, st1, piece, kq, target, ply, h1, _, hpiece, hcap, htarget, hply, hi, hs⟩ :=
        doMove_normal hm
      obtain ⟨st', hst', he⟩ : ∃ st', p.state = some st' ∧ st'.attackInfo = AttackInfo.new K
          (if isCheck = true then _ else _) p.inner :=
        ⟨_, by unfold Position.state; rw [hs]; rfl, rfl⟩
      rw [hst] at hst'
      cases hst'
      rw [he] at hc ⊢
      cases isCheck with
      | true => rw [hi]; rfl
      | false =>
        have : K.isEmpty K.empty = false := hc
        rw [L.isEmpty, L.empty] at this
        cases this
    | drop to pc =>
      obtain ⟨isCheck, st1, q', n, z, ply, h1, _, hq', hn, hz, hply, hi, hs⟩ := doMove_drop hm
      obtain ⟨st', hst', he⟩ : ∃ st', p.state = some st' ∧ st'.attackInfo = AttackInfo.new K
          (if isCheck = true then _ else _) p.inner :=
        ⟨_, by unfold Position.state; rw [hs]; rfl, rfl⟩
      rw [hst] at hst'
      cases hst'
      rw [he] at hc ⊢
      cases isCheck with
      | false =>
        have : K.isEmpty K.empty = false := hc
        rw [L.isEmpty, L.empty] at this
        cases this
      | true =>
        show mem (K.single to) s = true ↔ s = to
        rw [L.single, mem_single, decide_eq_true_eq]

theorem Roamed.recordedFirst {E : Env} {K : Backend} (hK : K ∈ backends)
    {pp : CorePartialPosition} {ms : List Move} {p : Position} (h : Roamed E K pp ms p)
    (hc : p.inCheck K = some true) {st : State} (hst : p.state = some st)
    (s : Square) : mem st.attackInfo.checkers s = true ↔ RecordedFirst (view p) ms s :=
  h.wandered.recordedFirst hK hc hst s

theorem Roamed.recorded {E : Env} {K : Backend} (hK : K ∈ backends)
    {pp : CorePartialPosition} {ms : List Move} {p : Position} (h : Roamed E K pp ms p)
    (hv : Tame (rootView pp)) (hc : p.inCheck K = some true) {st : State} (hst : p.state = some st)
    (s : Square) : mem st.attackInfo.checkers s = true ↔ Recorded (view p) ms s := by
  rw [h.recordedFirst hK hc hst, view_eq]
  exact recordedFirst_iff ((Tame.roamed hK hv h).oneKing _) ms s

/-- What a piece attacking the king attacks next to the king once the king is lifted. -/
theorem lifted_attack {b : Square → Option Piece} {c e : Color} {king ch to : Square}
    (ha : AttacksFrom b c ch king) (hst : Step .king e king to) :
    AttacksFrom (put b king none) c ch to ↔ AttacksFrom b c ch to ∨
      ∃ k, b ch = some ⟨k, c⟩ ∧ Slide k c ch to ∧ Between ch king to := by
  obtain ⟨k, hk, hr⟩ := ha
  have hne : ch ≠ king := reaches_ne hr
  have hocc : ∀ u, Occ (put b king none) u → Occ b u := by
    intro u hu
    by_cases e : u = king
    · subst e; unfold Occ at hu; rw [put_same] at hu; exact absurd rfl hu
    · unfold Occ at hu ⊢; rwa [put_other _ _ e] at hu
  have hocc' : ∀ u, u ≠ king → Occ b u → Occ (put b king none) u := by
    intro u hu ho
    unfold Occ at ho ⊢; rwa [put_other _ _ hu]
  constructor
  · rintro ⟨k', hk', hr'⟩
    rw [put_other _ _ hne] at hk'
    rw [reaches_iff] at hr'
    rcases hr' with h | ⟨h1, h2⟩
    · exact .inl ⟨k', hk', reaches_iff.2 (.inl h)⟩
    · by_cases hb : Between ch king to
      · exact .inr ⟨k', hk', h1, hb⟩
      · refine .inl ⟨k', hk', reaches_iff.2 (.inr ⟨h1, fun u hu ho => h2 u hu (hocc' u ?_ ho)⟩)⟩
        rintro rfl
        exact hb hu
  · rintro (⟨k', hk', hr'⟩ | ⟨k', hk', h1, h2⟩)
    · refine ⟨k', by rw [put_other _ _ hne]; exact hk', ?_⟩
      rw [reaches_iff] at hr' ⊢
      rcases hr' with h | ⟨h1, h2⟩
      · exact .inl h
      · exact .inr ⟨h1, fun u hu ho => h2 u hu (hocc u ho)⟩
    · refine ⟨k', by rw [put_other _ _ hne]; exact hk', reaches_iff.2 (.inr ⟨h1, fun u hu ho => ?_⟩)⟩
      rcases between_linear h2 hu with rfl | h | h
      · unfold Occ at ho; rw [put_same] at ho; exact ho rfl
      · exact step_not_between hst (between_trans_right h hu)
      · exact reaches_path hr h (hocc u ho)

/-- C82.  Let the moves made be pseudo-legal only, and let `in_check` answer true.  Then there is a king
of the side to move, each recorded piece attacks it, and `legal_moves` lists, without repetition:
* the king's moves to squares that are not attacked on the board as it is, nor by a recorded piece once
  the king has left its square;
* the board moves of other pieces, if one piece only is recorded, that take it or step between it and
  the king, and open no new attack on the king;
* the drops, if one piece only is recorded, between it and the king; of the pawn drops those that the
  opponent could answer, were the pawn the only attacker. -/
theorem C82_check_recorded (E : Env) (K : Backend) (hK : K ∈ backends)
    (pp : CorePartialPosition) (hv : Tame (rootView pp)) (ms : List Move) (p : Position)
    (h : Roamed E K pp ms p) (hc : p.inCheck K = some true) (l : List Move)
    (hl : p.legalMoves E K = some l) :
    ∃ king, p.pieceAt king = some ⟨.king, p.sideToMove⟩ ∧
    (∃ s, Recorded (view p) ms s) ∧
    (∀ s, Recorded (view p) ms s → AttacksFrom p.pieceAt p.sideToMove.flip s king) ∧
    l.Nodup ∧
    (∀ to pr, .normal king to pr ∈ l ↔ PseudoLegal (view p) (.normal king to pr) ∧
      (∀ s, ¬ AttacksFrom p.pieceAt p.sideToMove.flip s to) ∧
      ∀ s, Recorded (view p) ms s →
        ¬ AttacksFrom (put p.pieceAt king none) p.sideToMove.flip s to) ∧
    (∀ frm to pr, frm ≠ king →
      (.normal frm to pr ∈ l ↔ PseudoLegal (view p) (.normal frm to pr) ∧
        NoNewAttack (view p) (.normal frm to pr) ∧
        AnswersRecorded (view p) ms king (.normal frm to pr))) ∧
    (∀ to pc, .drop to pc ∈ l ↔ PseudoLegal (view p) (.drop to pc) ∧
      (pc.kind = .pawn → ¬ Unanswered (view p) (.drop to pc)) ∧
      AnswersRecorded (view p) ms king (.drop to pc)) := by
  have L := lawful_of_mem hK
  have hr := (h.visited.consistent hK).1
  have ht := Tame.roamed hK hv h
  obtain ⟨st, hst, _, hpin, hcs⟩ := h.caches hK
  have hrec := h.recorded hK hv hc hst
  obtain ⟨h1, hnd, hps⟩ := legalMoves_sound E L hr ⟨ht.homePawn, ht.noDeadPawn⟩ hst hcs
  rw [h1] at hl
  obtain ⟨av, hav, rfl⟩ := Option.map_eq_some_iff.1 hl
  have := appendAll_eq_some hav
  rw [List.nil_append] at this
  subst this
  simp only [Position.inCheck, hst, Option.bind_eq_bind, Option.bind_some, Option.pure_def,
    Option.some.injEq, Bool.not_eq_true'] at hc
  have hperm := filterLoop_perm (p.inner.isLegal K st) (pseudoList E K p.inner st)
  have hmi : ∀ s, s ∈ K.iter st.attackInfo.checkers ↔ Recorded (view p) ms s :=
    fun s => (mem_iter L hcs.1 s).trans (hrec s)
  have hne : K.iter st.attackInfo.checkers ≠ [] := by
    intro e
    have : st.attackInfo.checkers = 0#128 := ext_of_ok hcs.1 ok_zero fun u => by
      rw [mem_zero, ← Bool.not_eq_true, ← mem_iter L hcs.1, e]; simp
    rw [this, L.isEmpty] at hc
    simp at hc
  obtain ⟨s0, hs0⟩ := List.exists_mem_of_ne_nil _ hne
  obtain ⟨king, hk, _⟩ := hcs.2 s0 ((mem_iter L hcs.1 s0).1 hs0)
  have hking := kingPosition_sound L hr hk
  have hatk : ∀ s, Recorded (view p) ms s → AttacksFrom p.inner.board p.inner.side.flip s king := by
    intro s hs
    obtain ⟨king', hk', ha⟩ := hcs.2 s ((hrec s).2 hs)
    rw [hk] at hk'; cases hk'
    exact ha
  obtain ⟨att, hatt, hattm⟩ := foldlM_checkers L hr king (K.iter st.attackInfo.checkers) (by
    intro s hs
    obtain ⟨k, hk, _⟩ := hatk s ((hmi s).1 hs)
    exact ⟨k, hk⟩) (K.empty, 0)
  have hatt : p.inner.checkersAttacks K st king =
      some (att, (K.iter st.attackInfo.checkers).length) := by
    simpa [PartialPosition.checkersAttacks] using hatt
  -- one piece recorded
  have hone : ∀ ch, K.iter st.attackInfo.checkers = [ch] ↔ ∀ s, Recorded (view p) ms s ↔ s = ch := by
    intro ch
    constructor
    · intro e s
      rw [← hmi, e]; simp
    · intro e
      have hn := nodup_iter L hcs.1
      cases hch : K.iter st.attackInfo.checkers with
      | nil => exact absurd hch hne
      | cons s1 l =>
        rw [hch] at hn
        have e1 := (e s1).1 ((hmi s1).1 (by rw [hch]; simp))
        cases l with
        | nil => rw [e1]
        | cons s2 l =>
          have e2 := (e s2).1 ((hmi s2).1 (by rw [hch]; simp))
          rw [e1, e2] at hn
          simp at hn
  have hlist : ∀ m, m ∈ pseudoList E K p.inner st ↔ m ∈ kingEvasions K p.inner king att ∨
      ∃ ch, K.iter st.attackInfo.checkers = [ch] ∧ m ∈ otherEvasions E K p.inner st ch king := by
    intro m
    unfold pseudoList
    rw [if_neg (by rw [hc]; simp), hk]
    dsimp only
    rw [hatt]
    dsimp only
    unfold evList
    rw [List.mem_append]
    apply or_congr Iff.rfl
    cases hch : K.iter st.attackInfo.checkers with
    | nil => exact absurd hch hne
    | cons s1 l =>
      cases l with
      | nil =>
        constructor
        · exact fun h => ⟨s1, rfl, h⟩
        · rintro ⟨ch, e, h⟩; cases e; exact h
      | cons s2 l =>
        constructor
        · intro h; cases h
        · rintro ⟨ch, e, _⟩; cases e
  have hmem : ∀ m, m ∈ filterLoop (p.inner.isLegal K st) (pseudoList E K p.inner st).length 0
      (pseudoList E K p.inner st) ↔ m ∈ pseudoList E K p.inner st ∧
        p.inner.isLegal K (st.fresh K p.inner) m = true := by
    intro m
    rw [hperm.mem_iff, List.mem_filter, isLegal_fresh hpin]
  -- the moves that answer the only recorded check
  have hbt := fun ch => mem_betweenTable L ch king
  have hboard : ∀ ch frm to pr, K.iter st.attackInfo.checkers = [ch] →
      (.normal frm to pr ∈ otherEvasions E K p.inner st ch king →
        frm ≠ king ∧ (to = ch ∨ Between ch to king)) := by
    intro ch frm to pr hch hm
    unfold otherEvasions at hm
    rw [List.mem_append] at hm
    rcases hm with hm | hm
    · rw [mem_boardList L hr ht.noDeadPawn _ (by decide)] at hm
      obtain ⟨k, hk1, frm', to', pr', e, h1, h2, h3, h4⟩ := hm
      cases e
      rw [rep_orderEv] at hk1
      rw [L.or, mem_or, Bool.or_eq_true, hbt, hrec, (hone ch).1 hch] at h3
      refine ⟨?_, h3.symm⟩
      rintro rfl
      rw [hking] at h1
      cases h1
      exact hk1 rfl
    · split at hm
      · cases hm
      · rw [dropMoves_fresh hpin, mem_dropMoves L hr ht E rfl (betweenTable_spec L _ _).1 (by
          intro to' hto'
          obtain ⟨kc, _, hrc⟩ := hatk ch (((hone ch).1 hch ch).2 rfl)
          exact Classical.not_not.1 (reaches_path hrc ((hbt ch to').1 hto')))] at hm
        obtain ⟨_, _, e, _⟩ := hm
        cases e
  have hdrop : ∀ ch to pc, K.iter st.attackInfo.checkers = [ch] →
      (.drop to pc ∈ otherEvasions E K p.inner st ch king →
        Between ch to king ∧ (IsPawnDrop (.drop to pc) → ¬ Refused p.inner.spec (.drop to pc))) := by
    intro ch to pc hch hm
    unfold otherEvasions at hm
    rw [List.mem_append] at hm
    rcases hm with hm | hm
    · rw [mem_boardList L hr ht.noDeadPawn _ (by decide)] at hm
      obtain ⟨_, _, _, _, _, e, _⟩ := hm
      cases e
    · split at hm
      · cases hm
      · rw [dropMoves_fresh hpin, mem_dropMoves L hr ht E rfl (betweenTable_spec L _ _).1 (by
          intro to' hto'
          obtain ⟨kc, _, hrc⟩ := hatk ch (((hone ch).1 hch ch).2 rfl)
          exact Classical.not_not.1 (reaches_path hrc ((hbt ch to').1 hto')))] at hm
        obtain ⟨_, _, e, h1, _, h2⟩ := hm
        cases e
        exact ⟨(hbt ch _).1 h1, h2⟩
  have hvw : view p = p.inner.spec := view_eq ..
  refine ⟨king, hking, ⟨s0, (hmi s0).1 hs0⟩, hatk, hperm.nodup_iff.2 (hnd.filter _), ?_, ?_, ?_⟩
  · intro to pr
    rw [hmem, isLegal_normal L hr ht rfl hking]
    have hx : ∀ s, Recorded (view p) ms s → Step .king p.inner.side king to →
        (AttacksFrom (put p.pieceAt king none) p.sideToMove.flip s to ↔ _) :=
      fun s hs hst => lifted_attack (hatk s hs) hst
    constructor
    · rintro ⟨hm, hna, _⟩
      have hps' := hps _ hm
      refine ⟨by rw [hvw]; exact hps', hna rfl, fun s hs ha => ?_⟩
      rw [hlist, mem_kingEvasions L hr] at hm
      rcases hm with ⟨to', e, hstp, _, hn⟩ | ⟨ch, hch, hm⟩
      · cases e
        rcases (hx s hs hstp).1 ha with ha | ⟨k, hk, h1, h2⟩
        · exact hna rfl s ha
        · apply hn
          rw [hattm]
          exact .inr ⟨s, (hmi s).2 hs, k, hk, evAttack_xray h1 h2⟩
      · exact (hboard ch king to pr hch hm).1 rfl
    · rintro ⟨hps', hna, hxr⟩
      rw [hvw] at hps'
      obtain ⟨k, hfrm, hre, hown, hp1, hp2⟩ := hps'
      have hfrm' : p.inner.board king = some ⟨k, p.inner.side⟩ := hfrm
      rw [hking] at hfrm'
      cases hfrm'
      have hpr : pr = false := by
        cases pr with
        | false => rfl
        | true => exact absurd rfl (hp1 rfl).1
      subst hpr
      have hstp := reaches_king.1 hre
      refine ⟨?_, fun _ => hna, fun king' hking' hp => ?_⟩
      · rw [hlist, mem_kingEvasions L hr]
        refine .inl ⟨to, rfl, hstp, hown, fun hm => ?_⟩
        rw [hattm, L.empty, mem_zero] at hm
        rcases hm with hm | ⟨s, hs, k, hks, hev⟩
        · cases hm
        · have hs' := (hmi s).1 hs
          obtain ⟨k', hk', hrk⟩ := hatk s hs'
          rw [hks] at hk'; cases hk'
          rcases evAttack_sound hrk hstp hev with h1 | h1
          · exact hna s ⟨k, hks, h1⟩
          · exact hxr s hs' ((hx s hs' hstp).2 (.inr ⟨k, hks, h1⟩))
      · cases ht.oneKing _ _ _ hking' hking
        exact (not_pinned_self hp).elim
  · intro frm to pr hfk
    rw [hmem]
    constructor
    · rintro ⟨hm, hlg⟩
      have hps' := hps _ hm
      rw [hvw]
      refine ⟨hps', ?_, ?_⟩
      · obtain ⟨k, hkf, hreach, _⟩ := hps'
        rw [isLegal_normal L hr ht rfl hkf] at hlg
        exact (noNewAttack_normal hkf hreach).2 hlg.2
      · rw [hlist, mem_kingEvasions L hr] at hm
        rcases hm with ⟨to', e, _⟩ | ⟨ch, hch, hm⟩
        · cases e; exact absurd rfl hfk
        · rw [← hvw]
          exact ⟨ch, (hone ch).1 hch, (hboard ch frm to pr hch hm).2⟩
    · rintro ⟨hps', hnn, ch, hch, hto⟩
      rw [hvw] at hps' hnn
      have hps0 := hps'
      obtain ⟨k, hkf, hreach, _⟩ := hps'
      have hnk : p.inner.board frm ≠ some ⟨.king, p.inner.side⟩ :=
        fun e => hfk (ht.oneKing _ _ _ e hking)
      refine ⟨?_, ?_⟩
      · rw [hlist]
        exact .inr ⟨ch, (hone ch).2 hch, otherEvasions_complete L hr ht hpin hcs hk
          ((hone ch).2 hch) hps0 (fun e => e.elim) ⟨hnk, hto⟩⟩
      · rw [isLegal_normal L hr ht rfl hkf]
        refine ⟨?_, (noNewAttack_normal hkf hreach).1 hnn⟩
        rintro rfl
        exact absurd hkf hnk
  · intro to pc
    rw [hmem]
    constructor
    · rintro ⟨hm, -⟩
      have hps' := hps _ hm
      rw [hlist, mem_kingEvasions L hr] at hm
      rcases hm with ⟨_, e, _⟩ | ⟨ch, hch, hm⟩
      · cases e
      · obtain ⟨h1, h2⟩ := hdrop ch to pc hch hm
        refine ⟨by rw [hvw]; exact hps', fun hpc hu => ?_, ch, (hone ch).1 hch, h1⟩
        rw [hvw] at hu
        exact h2 hpc ((refused_iff_unanswered ht hps' hpc).2 hu)
    · rintro ⟨hps', hun, ch, hch, hb⟩
      rw [hvw] at hps' hun
      refine ⟨?_, rfl⟩
      rw [hlist]
      exact .inr ⟨ch, (hone ch).2 hch, otherEvasions_complete L hr ht hpin hcs hk
        ((hone ch).2 hch) hps' (fun hpc hu => hun hpc ((refused_iff_unanswered ht hps' hpc).1 hu)) hb⟩

section
open Examples

/-- White, to move, attacks Black's king with the rook and has a gold in hand. -/
def halfSeen : CorePartialPosition where
  side := .white
  ply := 1#16
  hands := fun _ => handOf [(.gold, 1)]
  board := boardOf [(5,8,.king,.black),(5,2,.rook,.white),(3,7,.gold,.black),(1,1,.king,.white)]

/-- After the drop of a gold beside the king only the gold is recorded.  In the list: the capture of the
gold, and the king going back along the line of the rook, with the king attacked after both.  Not in
the list: a drop against the rook. -/
theorem C82_example : Tame (rootView halfSeen) ∧ ∃ p l, Roamed env0 CoreBB.backend halfSeen
      [.drop (sq 4 7) ⟨.gold, .white⟩] p ∧ p.inCheck CoreBB.backend = some true ∧
    p.legalMoves env0 CoreBB.backend = some l ∧
    (∀ s, Recorded (view p) [.drop (sq 4 7) ⟨.gold, .white⟩] s ↔ s = sq 4 7) ∧
    AttacksFrom p.pieceAt .white (sq 5 2) (sq 5 8) ∧
    .normal (sq 3 7) (sq 4 7) false ∈ l ∧ ¬ Safe (view p) (.normal (sq 3 7) (sq 4 7) false) ∧
    .normal (sq 5 8) (sq 5 9) false ∈ l ∧ ¬ Safe (view p) (.normal (sq 5 8) (sq 5 9) false) ∧
    PseudoLegal (view p) (.drop (sq 5 5) ⟨.gold, .black⟩) ∧
    .drop (sq 5 5) ⟨.gold, .black⟩ ∉ l := by
  refine ⟨by decide +kernel, ?_⟩
  have h : (Position.new env0 CoreBB.backend halfSeen).any (fun p0 =>
      decide (PseudoLegal (view p0) (.drop (sq 4 7) ⟨.gold, .white⟩)) &&
      (p0.doMove env0 CoreBB.backend (.drop (sq 4 7) ⟨.gold, .white⟩)).any fun p =>
        p.inCheck CoreBB.backend == some true &&
        (p.legalMoves env0 CoreBB.backend).any fun l =>
          decide (AttacksFrom p.pieceAt .white (sq 5 2) (sq 5 8)) &&
          decide (Move.normal (sq 3 7) (sq 4 7) false ∈ l) &&
          decide (¬ Safe (view p) (.normal (sq 3 7) (sq 4 7) false)) &&
          decide (Move.normal (sq 5 8) (sq 5 9) false ∈ l) &&
          decide (¬ Safe (view p) (.normal (sq 5 8) (sq 5 9) false)) &&
          decide (PseudoLegal (view p) (.drop (sq 5 5) ⟨.gold, .black⟩)) &&
          decide (Move.drop (sq 5 5) ⟨.gold, .black⟩ ∉ l)) = true := by
    decide +kernel
  simp only [Option.any_eq_true, Bool.and_eq_true, beq_iff_eq, decide_eq_true_eq] at h
  obtain ⟨p0, hp0, h1, p, hp, hc, l, hl, ⟨⟨⟨⟨⟨h2, h3⟩, h4⟩, h5⟩, h6⟩, h7⟩, h8⟩ := h
  exact ⟨p, l, ⟨p0, hp0, .move .start h1 hp⟩, hc, hl, fun s => Iff.rfl, h2, h3, h4, h5, h6, h7, h8⟩

end

end Yasai.Props

import Verif.Props.NewCheck
import Verif.Props.Loose

/-!
# C67: what `legal_moves` lists after checks were ignored
-/

namespace Yasai.Props

open Yasai Spec

/-- The move gives the opponent no attack on the mover's king from a square from which there was
none. -/
def NoNewAttack (P : Pos) (m : Move) : Prop :=
  ∀ king s, P.board king = some ⟨.king, P.side⟩ →
    AttacksFrom (apply P m).board P.side.flip s king → AttacksFrom P.board P.side.flip s king

/-- The same for the one king on the square `king`. -/
def NoNewAttackOn (P : Pos) (king : Square) (m : Move) : Prop :=
  ∀ s, AttacksFrom (apply P m).board P.side.flip s king → AttacksFrom P.board P.side.flip s king

theorem noNewAttack_iff {P : Pos} {m : Move} :
    NoNewAttack P m ↔ ∀ king, P.board king = some ⟨.king, P.side⟩ → NoNewAttackOn P king m :=
  ⟨fun h king hk s => h king s hk, fun h king s hk => h king hk s⟩

theorem noNewAttackOn_of_clear {P : Pos} {king frm to : Square} {pr : Bool} {k : PieceKind}
    (hfrm : P.board frm = some ⟨k, P.side⟩) (hne : frm ≠ to)
    (hclear : ∀ u, Between frm u to → ¬ Occ P.board u) :
    NoNewAttackOn P king (.normal frm to pr) ↔
      (Pinned P.board P.side king frm → Between king to frm ∨ Between king frm to) := by
  have pin := pin_lemma (c := P.side) (king := king) (to := to) (b := P.board)
    (by unfold Occ; rw [hfrm]; simp) hne hclear
  unfold NoNewAttackOn
  rw [apply_normal_board hfrm]
  constructor
  · intro h hp
    apply Classical.byContradiction
    intro hn
    obtain ⟨s, h1, _, k', hk', hsl, hcl, hblk⟩ := pin.2 ⟨hp, hn⟩
    obtain ⟨k1, hk1, hre⟩ := h s ((attacksFrom_moved hfrm hne).2 ⟨h1, k', hk', .inr ⟨hsl, hcl⟩⟩)
    exact hblk fun u hu => reaches_path hre hu
  · intro h s ha
    obtain ⟨h1, k', hk', hre⟩ := (attacksFrom_moved hfrm hne).1 ha
    refine ⟨k', hk', reaches_iff.2 ?_⟩
    rcases hre with hst | ⟨hsl, hcl⟩
    · exact .inl hst
    · refine .inr ⟨hsl, ?_⟩
      apply Classical.byContradiction
      intro hblk
      have h2 : s ≠ frm := by
        rintro rfl; rw [hfrm] at hk'; exact some_piece_flip hk'
      obtain ⟨hp, hn⟩ := pin.1 ⟨s, h1, h2, k', hk', hsl, hcl, hblk⟩
      exact hn (h hp)

theorem noNewAttackOn_normal {P : Pos} {king frm to : Square} {pr : Bool} {k : PieceKind}
    (hfrm : P.board frm = some ⟨k, P.side⟩) (hreach : Reaches (Occ P.board) k P.side frm to) :
    NoNewAttackOn P king (.normal frm to pr) ↔
      (Pinned P.board P.side king frm → Between king to frm ∨ Between king frm to) :=
  noNewAttackOn_of_clear hfrm (reaches_ne hreach) fun _ hu => reaches_path hreach hu

/-- The test of `is_legal` on a piece other than the king. -/
theorem noNewAttack_normal {P : Pos} {frm to : Square} {pr : Bool} {k : PieceKind}
    (hfrm : P.board frm = some ⟨k, P.side⟩) (hreach : Reaches (Occ P.board) k P.side frm to) :
    NoNewAttack P (.normal frm to pr) ↔
      ∀ king, P.board king = some ⟨.king, P.side⟩ → Pinned P.board P.side king frm →
        Between king to frm ∨ Between king frm to := by
  simp only [noNewAttack_iff, noNewAttackOn_normal hfrm hreach]

/-- C67.  Let the moves made be pseudo-legal only, and let `in_check` answer false, rightly or not.
Then `legal_moves` lists, without repetition:
* the king's moves to squares not attacked on the board as it is, with the king still on its square;
* of the other board moves, those that open no new attack on the king;
* all drops but pawn drops;
* of the pawn drops, at least those that do not mate, and just those if the opponent's king is not
  attacked. -/
theorem C67_no_check_recorded (E : Env) (K : Backend) (hK : K ∈ backends)
    (pp : CorePartialPosition) (hv : Tame (rootView pp)) (ms : List Move) (p : Position)
    (h : Roamed E K pp ms p) (hc : p.inCheck K = some false) (l : List Move)
    (hl : p.legalMoves E K = some l) :
    l.Nodup ∧
    (∀ frm to pr, p.pieceAt frm = some ⟨.king, p.sideToMove⟩ →
      (.normal frm to pr ∈ l ↔ PseudoLegal (view p) (.normal frm to pr) ∧
        ∀ s, ¬ AttacksFrom p.pieceAt p.sideToMove.flip s to)) ∧
    (∀ frm to pr, p.pieceAt frm ≠ some ⟨.king, p.sideToMove⟩ →
      (.normal frm to pr ∈ l ↔ PseudoLegal (view p) (.normal frm to pr) ∧
        NoNewAttack (view p) (.normal frm to pr))) ∧
    (∀ to pc, pc.kind ≠ .pawn → (.drop to pc ∈ l ↔ PseudoLegal (view p) (.drop to pc))) ∧
    (∀ to pc, pc.kind = .pawn →
      (.drop to pc ∈ l → PseudoLegal (view p) (.drop to pc)) ∧
      (PseudoLegal (view p) (.drop to pc) → ¬ Mated (apply (view p) (.drop to pc)) →
        .drop to pc ∈ l) ∧
      (¬ InCheck p.pieceAt p.sideToMove.flip → Mated (apply (view p) (.drop to pc)) →
        .drop to pc ∉ l)) := by
  have L := lawful_of_mem hK
  have hr := (h.visited.consistent hK).1
  have ht := Tame.roamed hK hv h
  obtain ⟨st, hst, _, hpin, hcs⟩ := h.caches hK
  obtain ⟨h1, hnd, _⟩ := legalMoves_sound E L hr ⟨ht.homePawn, ht.noDeadPawn⟩ hst hcs
  rw [h1] at hl
  obtain ⟨av, hav, rfl⟩ := Option.map_eq_some_iff.1 hl
  have := appendAll_eq_some hav
  rw [List.nil_append] at this
  subst this
  simp only [Position.inCheck, hst, Option.bind_eq_bind, Option.bind_some, Option.pure_def,
    Option.some.injEq, Bool.not_eq_false'] at hc
  have hperm := filterLoop_perm (p.inner.isLegal K st) (pseudoList E K p.inner st)
  have hm : ∀ m, m ∈ filterLoop (p.inner.isLegal K st) (pseudoList E K p.inner st).length 0
      (pseudoList E K p.inner st) ↔
      (PseudoLegal (view p) m ∧ (IsPawnDrop m → ¬ Refused (view p) m)) ∧
        p.inner.isLegal K (st.fresh K p.inner) m = true := by
    intro m
    rw [hperm.mem_iff, List.mem_filter]
    unfold pseudoList
    rw [if_pos hc, allList_fresh hpin, mem_allList L hr ht rfl, isLegal_fresh hpin, view_eq]
  refine ⟨hperm.nodup_iff.2 (hnd.filter _), ?_, ?_, ?_, ?_⟩
  · intro frm to pr hfrm
    rw [hm, isLegal_normal L hr ht rfl (k := .king) hfrm]
    constructor
    · rintro ⟨⟨a, _⟩, b, _⟩; exact ⟨a, b rfl⟩
    · rintro ⟨a, b⟩
      refine ⟨⟨a, fun e => e.elim⟩, fun _ => b, fun king hking hp => ?_⟩
      cases ht.oneKing _ _ _ hking hfrm
      exact (not_pinned_self hp).elim
  · intro frm to pr hfrm
    rw [hm]
    constructor
    · rintro ⟨⟨a, _⟩, b⟩
      refine ⟨a, ?_⟩
      obtain ⟨k, hk, hreach, _⟩ := a
      rw [isLegal_normal L hr ht rfl hk] at b
      exact (noNewAttack_normal hk hreach).2 b.2
    · rintro ⟨a, b⟩
      refine ⟨⟨a, fun e => e.elim⟩, ?_⟩
      obtain ⟨k, hk, hreach, _⟩ := a
      rw [isLegal_normal L hr ht rfl hk]
      refine ⟨?_, (noNewAttack_normal hk hreach).1 b⟩
      rintro rfl
      exact absurd hk hfrm
  · intro to pc hpc
    rw [hm]
    exact ⟨fun a => a.1.1, fun a => ⟨⟨a, fun e => absurd e hpc⟩, rfl⟩⟩
  · intro to pc hpc
    have ht' : Tame (view p) := by rw [view_eq]; exact ht
    refine ⟨fun a => ((hm _).1 a).1.1, fun a b => ?_, fun a b c => ?_⟩
    · rw [hm]
      exact ⟨⟨a, fun hd href => b (mated_of_refused ht' a hd href)⟩, rfl⟩
    · obtain ⟨⟨d, e⟩, _⟩ := (hm _).1 c
      exact e hpc ((refused_iff ⟨ht'.oneKing, a, ht'.homePawn, ht'.noDeadPawn⟩ d hpc).2 b)

/-- When the last move was not a drop that gives check together with other pieces, a recorded check
is recorded with all the checking pieces. -/
theorem Roamed.inv_of_reported {E : Env} {K : Backend} (hK : K ∈ backends)
    {pp : CorePartialPosition} {ms : List Move} {p : Position} (h : Roamed E K pp ms p)
    (hc : p.inCheck K = some true)
    (hd : ∀ to pc ms', ms = .drop to pc :: ms' → ∀ king s,
      p.pieceAt king = some ⟨.king, p.sideToMove⟩ →
      AttacksFrom p.pieceAt p.sideToMove.flip s king → s = to) : Inv K p := by
  have L := lawful_of_mem hK
  have hr := (h.visited.consistent hK).1
  have hcs := h.caches hK
  obtain ⟨p0, h0, hs⟩ := h
  have hp := hs.play hK (fun _ _ h => shape_of_pseudoLegal h)
  clear hs
  cases hp with
  | start => exact inv_new L h0
  | @move ms' q _ m hq ha hm =>
    cases m with
    | normal frm to promote =>
      obtain ⟨isCheck, st, piece, kq, target, ply, h1, hst, hpiece, hcap, htarget, hply, hi, hs⟩ :=
        doMove_normal hm
      obtain ⟨st', hst', he⟩ : ∃ st', p.state = some st' ∧ st'.attackInfo = AttackInfo.new K
          (if isCheck = true then _ else _) p.inner :=
        ⟨_, by unfold Position.state; rw [hs]; rfl, rfl⟩
      refine ⟨hr, _, hst', ?_⟩
      rw [he]
      simp only [Position.inCheck, hst', he, Option.bind_eq_bind, Option.bind_some, Option.pure_def,
        Option.some.injEq, Bool.not_eq_true'] at hc
      cases isCheck with
      | true => rw [hi]; rfl
      | false =>
        have : K.isEmpty K.empty = false := hc
        rw [L.isEmpty, L.empty] at this
        cases this
    | drop to pc =>
      obtain ⟨isCheck, st, q', n, z, ply, h1, hst, hq', hn, hz, hply, hi, hs⟩ := doMove_drop hm
      obtain ⟨st', hst', he⟩ : ∃ st', p.state = some st' ∧ st'.attackInfo = AttackInfo.new K
          (if isCheck = true then _ else _) p.inner :=
        ⟨_, by unfold Position.state; rw [hs]; rfl, rfl⟩
      refine ⟨hr, _, hst', ?_⟩
      rw [he]
      obtain ⟨st2, hst2, _, _, hok, hcs⟩ := hcs
      rw [hst'] at hst2
      cases hst2
      simp only [Position.inCheck, hst', he, Option.bind_eq_bind, Option.bind_some, Option.pure_def,
        Option.some.injEq, Bool.not_eq_true'] at hc
      cases isCheck with
      | false =>
        have : K.isEmpty K.empty = false := hc
        rw [L.isEmpty, L.empty] at this
        cases this
      | true =>
        have key : K.single to = AttackInfo.calculateCheckers K p.inner := by
          rw [L.single]
          obtain ⟨king, hk, ka, hka, hre⟩ := hcs to (by
            rw [he]
            show mem (K.single to) to = true
            rw [L.single, mem_single, decide_eq_true_eq])
          refine ext_of_ok (ok_single _) (ok_calculateCheckers L hr) fun s => ?_
          rw [Bool.eq_iff_iff, mem_single, decide_eq_true_eq, mem_calculateCheckers L hr hk]
          constructor
          · rintro rfl
            refine ⟨ka, hka, ?_, hre⟩
            rintro rfl
            have hb' : p.inner.board = (apply q.inner.spec (.drop s pc)).board :=
              congrArg Pos.board (spec_doMove hm)
            rw [hb'] at hka
            have e : put q.inner.board s (some pc) s = _ := hka
            rw [put_same] at e
            have hh := ha.2.1
            cases e
            cases hh
          · rintro ⟨k, h2, _, h3⟩
            exact hd to pc ms' rfl king s (kingPosition_sound L hr hk) ⟨k, h2, h3⟩
        show AttackInfo.new K (K.single to) _ = _
        rw [key, hi]

/-- C67.  Let the moves made be pseudo-legal only, and let `in_check` answer true.  If the kings are
apart, and the last move was not a drop that gives check together with other pieces, then
`legal_moves` lists, without repetition, only moves after which the king is safe: all of them but
mating pawn drops. -/
theorem C67_check_recorded (E : Env) (K : Backend) (hK : K ∈ backends)
    (pp : CorePartialPosition) (hv : Tame (rootView pp)) (ms : List Move) (p : Position)
    (h : Roamed E K pp ms p) (hc : p.inCheck K = some true)
    (hap : ∀ c s t, p.pieceAt s = some ⟨.king, c⟩ → p.pieceAt t = some ⟨.king, c.flip⟩ →
      ¬ Reaches (Occ p.pieceAt) .king c s t)
    (hd : ∀ to pc ms', ms = .drop to pc :: ms' → ∀ king s,
      p.pieceAt king = some ⟨.king, p.sideToMove⟩ →
      AttacksFrom p.pieceAt p.sideToMove.flip s king → s = to)
    (l : List Move) (hl : p.legalMoves E K = some l) :
    l.Nodup ∧ (∀ m ∈ l, Safe (view p) m) ∧ (∀ m, ¬ IsPawnDrop m → (m ∈ l ↔ Safe (view p) m)) ∧
    (∀ m, Legal (view p) m → m ∈ l) := by
  have L := lawful_of_mem hK
  have ht := Tame.roamed hK hv h
  have hi := h.inv_of_reported hK hc hd
  obtain ⟨st, _, heq, hnd, hmem⟩ :=
    legalMoves_loose E L hi ⟨ht.oneKing, hap, ht.homePawn, ht.noDeadPawn⟩
  refine ⟨?_, ?_, ?_, fun m => C65_no_legal_move_missing E K hK pp hv ms p h l hl m⟩ <;>
  · rw [heq, Option.map_eq_some_iff] at hl
    obtain ⟨av, hav, rfl⟩ := hl
    obtain ⟨_, rfl⟩ := appendAll_eq_some hav
    rw [List.nil_append]
    have hperm := filterLoop_perm (p.inner.isLegal K st) (pseudoList E K p.inner st)
    have hm : ∀ m, m ∈ filterLoop (p.inner.isLegal K st) (pseudoList E K p.inner st).length 0
        (pseudoList E K p.inner st) ↔ Generated (view p) m := by
      intro m
      rw [hperm.mem_iff, List.mem_filter, hmem m, view_eq]
    first
    | exact hperm.nodup_iff.2 (hnd.filter _)
    | exact fun m h => ((hm m).1 h).1
    | exact fun m hp => by
        rw [hm]
        exact ⟨fun h => h.1, fun h => ⟨h, fun e => absurd e hp⟩⟩

section
open Examples

/-- Black's king is attacked down the file. -/
def shielded : CorePartialPosition where
  side := .black
  ply := 1#16
  hands := fun _ => handOf []
  board := boardOf [(5,8,.king,.black),(9,7,.pawn,.black),(4,8,.gold,.black),(5,1,.rook,.white),
    (1,8,.lance,.white),(2,8,.rook,.white),(1,1,.king,.white)]

/-- C67 after Black has ignored the check.  In the list: a pawn move that leaves the king attacked, and
the king going back along the line of the rook; not in the list: the pinned gold leaving its line. -/
theorem C67_shielded : ∃ p l, Roamed env0 CoreBB.backend shielded
      [.normal (sq 1 1) (sq 1 2) false, .normal (sq 9 7) (sq 9 6) false] p ∧
    p.inCheck CoreBB.backend = some false ∧ p.legalMoves env0 CoreBB.backend = some l ∧
    .normal (sq 9 6) (sq 9 5) false ∈ l ∧ ¬ Safe (view p) (.normal (sq 9 6) (sq 9 5) false) ∧
    .normal (sq 5 8) (sq 5 9) false ∈ l ∧ ¬ Safe (view p) (.normal (sq 5 8) (sq 5 9) false) ∧
    PseudoLegal (view p) (.normal (sq 4 8) (sq 4 7) false) ∧
    .normal (sq 4 8) (sq 4 7) false ∉ l := by
  have h : (Position.new env0 CoreBB.backend shielded).any (fun p0 =>
      decide (PseudoLegal (view p0) (.normal (sq 9 7) (sq 9 6) false)) &&
      (p0.doMove env0 CoreBB.backend (.normal (sq 9 7) (sq 9 6) false)).any fun p1 =>
        decide (PseudoLegal (view p1) (.normal (sq 1 1) (sq 1 2) false)) &&
        (p1.doMove env0 CoreBB.backend (.normal (sq 1 1) (sq 1 2) false)).any fun p =>
          p.inCheck CoreBB.backend == some false &&
          (p.legalMoves env0 CoreBB.backend).any fun l =>
            decide (Move.normal (sq 9 6) (sq 9 5) false ∈ l) &&
            decide (¬ Safe (view p) (.normal (sq 9 6) (sq 9 5) false)) &&
            decide (Move.normal (sq 5 8) (sq 5 9) false ∈ l) &&
            decide (¬ Safe (view p) (.normal (sq 5 8) (sq 5 9) false)) &&
            decide (PseudoLegal (view p) (.normal (sq 4 8) (sq 4 7) false)) &&
            decide (Move.normal (sq 4 8) (sq 4 7) false ∉ l)) = true := by
    decide +kernel
  simp only [Option.any_eq_true, Bool.and_eq_true, beq_iff_eq, decide_eq_true_eq] at h
  obtain ⟨p0, hp0, h1, p1, hp1, h2, p, hp, hc, l, hl, ⟨⟨⟨⟨h3, h4⟩, h5⟩, h6⟩, h7⟩, h8⟩ := h
  exact ⟨p, l, ⟨p0, hp0, .move (.move .start h1 hp1) h2 hp⟩, hc, hl, h3, h4, h5, h6, h7, h8⟩

/-- The hypothesis on the root holds there. -/
example : Tame (rootView shielded) := by decide +kernel

/-- The hypotheses of `C67_check_recorded` hold after the uncovered check of `attacking`, which Black's
king was under already. -/
example : Tame (rootView attacking) ∧ ∃ p l, Roamed env0 CoreBB.backend attacking
      [.normal (sq 7 7) (sq 7 6) false] p ∧ p.inCheck CoreBB.backend = some true ∧
    Loose (view p) ∧ p.legalMoves env0 CoreBB.backend = some l ∧ l ≠ [] ∧
    ∀ m ∈ l, Safe (view p) m := by
  have hv : Tame (rootView attacking) := by decide +kernel
  refine ⟨hv, ?_⟩
  have h : (Position.new env0 CoreBB.backend attacking).any (fun p0 =>
      decide (PseudoLegal (view p0) (.normal (sq 7 7) (sq 7 6) false)) &&
      (p0.doMove env0 CoreBB.backend (.normal (sq 7 7) (sq 7 6) false)).any fun p =>
        p.inCheck CoreBB.backend == some true && decide (Loose (view p)) &&
        (p.legalMoves env0 CoreBB.backend).any fun l => decide (l ≠ [])) = true := by
    decide +kernel
  simp only [Option.any_eq_true, Bool.and_eq_true, beq_iff_eq, decide_eq_true_eq] at h
  obtain ⟨p0, hp0, h1, p, hp, ⟨hc, hlo⟩, l, hl, hne⟩ := h
  have hr : Roamed env0 CoreBB.backend attacking [.normal (sq 7 7) (sq 7 6) false] p :=
    ⟨p0, hp0, .move .start h1 hp⟩
  exact ⟨p, l, hr, hc, hlo, hl, hne, (C67_check_recorded env0 _ core_mem _ hv _ _ hr hc
    hlo.kingsApart (fun _ _ _ e => by cases e) l hl).2.1⟩

/-- White, to move, attacks Black's king with the rook and has a gold in hand. -/
def twofold : CorePartialPosition where
  side := .white
  ply := 1#16
  hands := fun _ => handOf [(.gold, 1)]
  board := boardOf [(5,9,.king,.black),(5,2,.rook,.white),(3,8,.gold,.black),(1,1,.king,.white)]

/-- The kings stand next to each other. -/
def touching : CorePartialPosition where
  side := .white
  ply := 1#16
  hands := fun _ => handOf [(.rook, 1)]
  board := boardOf [(5,9,.king,.black),(2,8,.gold,.black),(5,8,.king,.white)]

/-- Both conditions of `C67_check_recorded` are needed.  After a drop only the dropped piece is recorded
as giving check, and a king is never recorded: taking the one, or blocking the rook beside the other,
is listed although the king stays attacked. -/
theorem C67_conditions_needed :
    (∃ p l, Roamed env0 CoreBB.backend twofold [.drop (sq 4 8) ⟨.gold, .white⟩] p ∧
      p.inCheck CoreBB.backend = some true ∧ p.legalMoves env0 CoreBB.backend = some l ∧
      .normal (sq 3 8) (sq 4 8) false ∈ l ∧ ¬ Safe (view p) (.normal (sq 3 8) (sq 4 8) false)) ∧
    ∃ p l, Roamed env0 CoreBB.backend touching [.drop (sq 1 9) ⟨.rook, .white⟩] p ∧
      p.inCheck CoreBB.backend = some true ∧ p.legalMoves env0 CoreBB.backend = some l ∧
      .normal (sq 2 8) (sq 2 9) false ∈ l ∧ ¬ Safe (view p) (.normal (sq 2 8) (sq 2 9) false) := by
  have key : ∀ (pp : CorePartialPosition) (m m' : Move),
      (Position.new env0 CoreBB.backend pp).any (fun p0 => decide (PseudoLegal (view p0) m) &&
        (p0.doMove env0 CoreBB.backend m).any fun p => p.inCheck CoreBB.backend == some true &&
          (p.legalMoves env0 CoreBB.backend).any fun l =>
            decide (m' ∈ l) && decide (¬ Safe (view p) m')) = true →
      ∃ p l, Roamed env0 CoreBB.backend pp [m] p ∧ p.inCheck CoreBB.backend = some true ∧
        p.legalMoves env0 CoreBB.backend = some l ∧ m' ∈ l ∧ ¬ Safe (view p) m' := by
    intro pp m m' h
    simp only [Option.any_eq_true, Bool.and_eq_true, beq_iff_eq, decide_eq_true_eq] at h
    obtain ⟨p0, hp0, h1, p, hp, hc, l, hl, h2, h3⟩ := h
    exact ⟨p, l, ⟨p0, hp0, .move .start h1 hp⟩, hc, hl, h2, h3⟩
  exact ⟨key _ _ _ (by decide +kernel), key _ _ _ (by decide +kernel)⟩

end

end Yasai.Props

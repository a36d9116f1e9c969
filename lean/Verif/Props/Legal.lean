import Verif.Props.Check
import Verif.Proofs.Evasions

/-!
# C05–C07, C10–C15, C30, C36, C37: legal move generation

All theorems speak about the position `p` reached from `Position::new(pp)`, for a valid `pp`, by any
history of legal moves and their undoings; the empty history gives `Position::new(pp)` itself.
That `legal_moves()` returns at all (no buffer overflow) is C22.
-/

namespace Yasai.Props

open Yasai Spec

section
variable {E : Env} {K : Backend} {pp : CorePartialPosition} {ms : List Move} {p : Position}

/-- The list returned by `legal_moves()` has no duplicates and consists of the legal moves. -/
theorem legalMoves_exact (hK : K ∈ backends) (hv : Valid (rootView pp))
    (h : Reached E K pp ms p) {l : List Move} (hl : p.legalMoves E K = some l) :
    l.Nodup ∧ ∀ m, m ∈ l ↔ Legal (view p) m := by
  obtain ⟨hi, hv'⟩ := reached_inv hK hv h
  obtain ⟨st, _, heq, hnd, hmem⟩ := legalMoves_spec E (lawful_of_mem hK) hi hv'
  rw [heq, Option.map_eq_some_iff] at hl
  obtain ⟨av, hav, rfl⟩ := hl
  obtain ⟨_, rfl⟩ := appendAll_eq_some hav
  rw [List.nil_append]
  have hperm := filterLoop_perm (p.inner.isLegal K st) (pseudoList E K p.inner st)
  refine ⟨hperm.nodup_iff.2 (hnd.filter _), fun m => ?_⟩
  rw [hperm.mem_iff, List.mem_filter]
  exact hmem m

end

/-- C05.  Every listed move is legal by the rules. -/
theorem C05_legal_moves_sound (E : Env) (K : Backend) (hK : K ∈ backends) (pp : CorePartialPosition)
    (hv : Valid (rootView pp)) (ms : List Move) (p : Position) (h : Reached E K pp ms p)
    (l : List Move) (hl : p.legalMoves E K = some l) (m : Move) (hm : m ∈ l) : Legal (view p) m :=
  ((legalMoves_exact hK hv h hl).2 m).1 hm

/-- C06.  Every legal move is listed. -/
theorem C06_legal_moves_complete (E : Env) (K : Backend) (hK : K ∈ backends)
    (pp : CorePartialPosition) (hv : Valid (rootView pp)) (ms : List Move) (p : Position)
    (h : Reached E K pp ms p) (l : List Move) (hl : p.legalMoves E K = some l) (m : Move)
    (hm : Legal (view p) m) : m ∈ l :=
  ((legalMoves_exact hK hv h hl).2 m).2 hm

/-- C07.  No move is listed twice. -/
theorem C07_legal_moves_nodup (E : Env) (K : Backend) (hK : K ∈ backends)
    (pp : CorePartialPosition) (hv : Valid (rootView pp)) (ms : List Move) (p : Position)
    (h : Reached E K pp ms p) (l : List Move) (hl : p.legalMoves E K = some l) : l.Nodup :=
  (legalMoves_exact hK hv h hl).1

/-! ## C10 -/

/-- The move is in the list returned by `legal_moves()`. -/
def Listed (E : Env) (K : Backend) (p : Position) (m : Move) : Prop :=
  ∃ l, p.legalMoves E K = some l ∧ m ∈ l

/-- C10.  After a listed move the king of the mover is not attacked and the position is valid. -/
theorem C10_king_safe (E : Env) (K : Backend) (hK : K ∈ backends) (pp : CorePartialPosition)
    (hv : Valid (rootView pp)) (ms : List Move) (p : Position) (h : Reached E K pp ms p)
    (m : Move) (hm : Listed E K p m) (p' : Position) (hd : p.doMove E K m = some p') :
    ¬ InCheck p'.pieceAt p.sideToMove ∧ Valid (view p') := by
  obtain ⟨l, hl, hm⟩ := hm
  have hleg := C05_legal_moves_sound E K hK pp hv ms p h l hl m hm
  have hview := (C03_do_move_is_rules E K p p' m hd).1
  have hb : p'.pieceAt = (apply (view p) m).board := congrArg Pos.board hview
  refine ⟨?_, ?_⟩
  · rw [hb]; exact hleg.1.2
  · rw [hview]; exact valid_apply (reached_inv hK hv h).2 hleg.1

/-- C10 for whole histories of listed moves and undos: they consist of legal moves, so every
property here continues to hold, and every position met is valid. -/
theorem C10_listed_session (E : Env) (K : Backend) (hK : K ∈ backends) (pp : CorePartialPosition)
    (hv : Valid (rootView pp)) (p0 p : Position) (h0 : Position.new E K pp = some p0)
    (ms : List Move) (h : Session E K (Listed E K) p0 ms p) :
    Reached E K pp ms p ∧ Valid (view p) := by
  have hr : Reached E K pp ms p := by
    induction h with
    | start => exact ⟨p0, h0, .start⟩
    | move _ ha hd ih =>
      obtain ⟨p0', h0', hs⟩ := ih
      obtain ⟨l, hl, hm⟩ := ha
      exact ⟨p0', h0', hs.move (C05_legal_moves_sound E K hK pp hv _ _ ⟨p0', h0', hs⟩ l hl _ hm) hd⟩
    | undo _ hu ih =>
      obtain ⟨p0', h0', hs⟩ := ih
      exact ⟨p0', h0', hs.undo hu⟩
  exact ⟨hr, (reached_inv hK hv hr).2⟩

/-! ## C11 -/

/-- The side to move is checkmated, in terms of legal moves. -/
def Checkmated (P : Pos) : Prop := InCheck P.board P.side ∧ ∀ m, ¬ Legal P m

/-- C11.  `in_check()` with an empty `legal_moves()` is checkmate. -/
theorem C11_mate_iff (E : Env) (K : Backend) (hK : K ∈ backends) (pp : CorePartialPosition)
    (hv : Valid (rootView pp)) (ms : List Move) (p : Position) (h : Reached E K pp ms p)
    (l : List Move) (hl : p.legalMoves E K = some l) :
    (p.inCheck K = some true ∧ l = []) ↔ Checkmated (view p) := by
  obtain ⟨b, hb, hbc⟩ := C08_in_check_exact E K hK pp hv ms p h
  have hmem := (legalMoves_exact hK hv h hl).2
  rw [hb, Option.some.injEq, hbc]
  refine and_congr Iff.rfl ?_
  simp only [← hmem, List.eq_nil_iff_forall_not_mem]

/-! ## C12 – C15 -/

/-- C12.  Which pawn drops are listed: those of the mover's own pawns in hand on empty squares that
are not on the last rank, on files without an unpromoted pawn of the mover, that leave the own king
unattacked and do not checkmate. -/
theorem C12_two_pawns (E : Env) (K : Backend) (hK : K ∈ backends) (pp : CorePartialPosition)
    (hv : Valid (rootView pp)) (ms : List Move) (p : Position) (h : Reached E K pp ms p)
    (l : List Move) (hl : p.legalMoves E K = some l) (to : Square) (c : Color) :
    .drop to ⟨.pawn, c⟩ ∈ l ↔
      c = p.sideToMove ∧ 0 < ((p.hand p.sideToMove).count .pawn).getD 0 ∧ p.pieceAt to = none ∧
      ¬ Dead .pawn p.sideToMove to ∧
      (∀ s, s.file = to.file → p.pieceAt s ≠ some ⟨.pawn, p.sideToMove⟩) ∧
      ¬ InCheck (put p.pieceAt to (some ⟨.pawn, p.sideToMove⟩)) p.sideToMove ∧
      ¬ Mated (apply (view p) (.drop to ⟨.pawn, p.sideToMove⟩)) := by
  rw [(legalMoves_exact hK hv h hl).2]
  constructor
  · rintro ⟨⟨⟨h1, _, h2, h3, h4, h5⟩, h6⟩, h7⟩
    have h1' : c = p.sideToMove := h1
    subst h1'
    exact ⟨rfl, h2, h3, h4, h5 rfl, h6, h7 rfl⟩
  · rintro ⟨rfl, h2, h3, h4, h5, h6, h7⟩
    exact ⟨⟨⟨rfl, rfl, h2, h3, h4, fun _ => h5⟩, h6⟩, fun _ => h7⟩

/-- The piece of kind `k` on `frm` belongs to the side to move and may go to `to`, promotion and
dead squares aside: it reaches `to`, does not capture an own piece and does not leave the own king
attacked. -/
def MayMove (P : Pos) (k : PieceKind) (frm to : Square) : Prop :=
  P.board frm = some ⟨k, P.side⟩ ∧ Reaches (Occ P.board) k P.side frm to ∧
    (∀ q, P.board to = some q → q.color ≠ P.side) ∧
    ¬ InCheck (put (put P.board frm none) to (some ⟨k, P.side⟩)) P.side

/-- Promotion does not matter for the safety of the own king. -/
theorem inCheck_promote {b : Square → Option Piece} {c : Color} {frm to : Square}
    {k k' : PieceKind} (hfrm : b frm = some ⟨k, c⟩) (hne : frm ≠ to) (hk : k ≠ .king)
    (hk' : k' ≠ .king) :
    InCheck (movedBoard b frm to ⟨k', c⟩) c ↔ InCheck (movedBoard b frm to ⟨k, c⟩) c := by
  unfold InCheck Attacked
  have hking : ∀ (k1 : PieceKind), k1 ≠ .king → ∀ s,
      movedBoard b frm to ⟨k1, c⟩ s = some ⟨.king, c⟩ ↔ s ≠ to ∧ s ≠ frm ∧
        b s = some ⟨.king, c⟩ := by
    intro k1 hk1 s
    by_cases h1 : s = to
    · subst h1
      rw [movedBoard_to]
      constructor
      · intro h; exact absurd (by cases h; rfl) hk1
      · intro h; exact absurd rfl h.1
    · by_cases h2 : s = frm
      · subst h2
        rw [movedBoard_frm _ _ hne]
        constructor
        · intro h; cases h
        · intro h; exact absurd rfl h.2.1
      · rw [movedBoard_other _ _ h1 h2]
        exact ⟨fun h => ⟨h1, h2, h⟩, fun h => h.2.2⟩
  simp only [hking k hk, hking k' hk', attacksFrom_moved hfrm hne]

/-- C13, board moves.  A move without promotion is listed iff the piece may go there and would not
be dead there. -/
theorem C13_dead_piece_move (E : Env) (K : Backend) (hK : K ∈ backends) (pp : CorePartialPosition)
    (hv : Valid (rootView pp)) (ms : List Move) (p : Position) (h : Reached E K pp ms p)
    (l : List Move) (hl : p.legalMoves E K = some l) (frm to : Square) :
    .normal frm to false ∈ l ↔
      ∃ k, MayMove (view p) k frm to ∧ ¬ Dead k p.sideToMove to := by
  rw [(legalMoves_exact hK hv h hl).2]
  constructor
  · rintro ⟨⟨⟨k, h1, h2, h3, _, h4⟩, h5⟩, _⟩
    rw [apply_normal_board h1] at h5
    exact ⟨k, ⟨h1, h2, h3, h5⟩, h4 rfl⟩
  · rintro ⟨k, ⟨h1, h2, h3, h5⟩, h4⟩
    refine ⟨⟨⟨k, h1, h2, h3, (fun h => by cases h), fun _ => h4⟩, ?_⟩, fun h => h.elim⟩
    rw [apply_normal_board h1]
    exact h5

/-- C13, drops.  The drop of a piece other than a pawn is listed iff the mover holds it, the square
is empty, the piece would not be dead there, and the own king is not left attacked. -/
theorem C13_dead_piece_drop (E : Env) (K : Backend) (hK : K ∈ backends) (pp : CorePartialPosition)
    (hv : Valid (rootView pp)) (ms : List Move) (p : Position) (h : Reached E K pp ms p)
    (l : List Move) (hl : p.legalMoves E K = some l) (to : Square) (k : PieceKind)
    (hk : k ≠ .pawn) :
    .drop to ⟨k, p.sideToMove⟩ ∈ l ↔
      handKind k = true ∧ 0 < ((p.hand p.sideToMove).count k).getD 0 ∧ p.pieceAt to = none ∧
      ¬ InCheck (put p.pieceAt to (some ⟨k, p.sideToMove⟩)) p.sideToMove ∧
      ¬ Dead k p.sideToMove to := by
  rw [(legalMoves_exact hK hv h hl).2]
  constructor
  · rintro ⟨⟨⟨_, h1, h2, h3, h4, _⟩, h6⟩, _⟩
    exact ⟨h1, h2, h3, h6, h4⟩
  · rintro ⟨h1, h2, h3, h6, h4⟩
    exact ⟨⟨⟨rfl, h1, h2, h3, h4, fun e => absurd e hk⟩, h6⟩, fun e => absurd e hk⟩

/-- C14.  A promoting move is listed iff the piece may go there, is promotable, and starts or ends
in the promotion zone. -/
theorem C14_promotion (E : Env) (K : Backend) (hK : K ∈ backends) (pp : CorePartialPosition)
    (hv : Valid (rootView pp)) (ms : List Move) (p : Position) (h : Reached E K pp ms p)
    (l : List Move) (hl : p.legalMoves E K = some l) (frm to : Square) :
    .normal frm to true ∈ l ↔
      ∃ k, MayMove (view p) k frm to ∧ promoted k ≠ none ∧
        (InZone p.sideToMove frm ∨ InZone p.sideToMove to) := by
  rw [(legalMoves_exact hK hv h hl).2]
  have key : ∀ k, (view p).board frm = some ⟨k, (view p).side⟩ → frm ≠ to → promoted k ≠ none →
      (InCheck (apply (view p) (.normal frm to true)).board (view p).side ↔
        InCheck (put (put (view p).board frm none) to (some ⟨k, (view p).side⟩)) (view p).side) := by
    intro k h1 hne hpr
    rw [apply_normal_board h1]
    have hk : k ≠ .king := by rintro rfl; exact hpr rfl
    exact inCheck_promote h1 hne hk (fun e => hk (movedKind_king.1 e))
  constructor
  · rintro ⟨⟨⟨k, h1, h2, h3, h4, _⟩, h5⟩, _⟩
    obtain ⟨h4, h6⟩ := h4 rfl
    rw [key k h1 (reaches_ne h2) h4] at h5
    exact ⟨k, ⟨h1, h2, h3, h5⟩, h4, h6⟩
  · rintro ⟨k, ⟨h1, h2, h3, h5⟩, h4, h6⟩
    rw [← key k h1 (reaches_ne h2) h4] at h5
    exact ⟨⟨⟨k, h1, h2, h3, fun _ => ⟨h4, h6⟩, (fun h => by cases h)⟩, h5⟩, fun h => h.elim⟩

/-- After a pawn drop that gives check no drop saves the king, so being checkmated means the same
whether or not pawn-drop mates count as replies. -/
theorem mated_iff_checkmated {P : Pos} (hv : Valid P) {to : Square}
    (hp : Safe P (.drop to ⟨.pawn, P.side⟩)) :
    Mated (apply P (.drop to ⟨.pawn, P.side⟩)) ↔
      Checkmated (apply P (.drop to ⟨.pawn, P.side⟩)) := by
  have hv' := valid_apply hv hp
  unfold Mated Checkmated
  refine and_congr_right fun hc => forall_congr' fun m => not_congr ?_
  constructor
  · intro hs
    refine ⟨hs, fun hpd => ?_⟩
    exfalso
    cases m with
    | normal _ _ _ => exact hpd
    | drop u pc =>
      -- the checker is the dropped pawn
      obtain ⟨king, hking, s, hs'⟩ := hc
      have hside : (apply P (.drop to ⟨.pawn, P.side⟩)).side = P.side.flip := rfl
      have hb : (apply P (.drop to ⟨.pawn, P.side⟩)).board = put P.board to (some ⟨.pawn, P.side⟩) :=
        rfl
      have hto : P.board to = none := hp.1.2.2.2.1
      obtain ⟨⟨_, _, _, hu, _⟩, hsafe⟩ := hs
      rw [hside] at hking hs' hsafe
      rw [hb] at hking hs' hu
      have hut : u ≠ to := by
        rintro rfl
        rw [put_same] at hu; cases hu
      have hkt : king ≠ to := by
        rintro rfl
        rw [put_same] at hking
        cases hking
      rw [put_other _ _ hkt] at hking
      have hpawn : Step .pawn P.side to king := by
        obtain ⟨k, hk, hr⟩ := hs'
        rw [flip_flip] at hk hr
        by_cases hst : s = to
        · subst hst
          rw [put_same] at hk
          cases hk
          rw [reaches_iff] at hr
          rcases hr with hr | hr
          · exact hr
          · exact absurd hr.1 (not_slide rfl _ _ _)
        · exfalso
          rw [put_other _ _ hst] at hk
          apply hv.notInCheck
          refine ⟨king, hking, s, k, by rw [flip_flip]; exact hk, ?_⟩
          rw [flip_flip]
          rw [reaches_put] at hr
          rw [reaches_iff]
          rcases hr with hr | ⟨hr, hcl⟩
          · exact .inl hr
          · exact .inr ⟨hr, fun u hu => (hcl u hu).2⟩
      apply hsafe
      have hku : king ≠ u := by
        rintro rfl
        rw [put_other _ _ hkt] at hu
        rw [hu] at hking; cases hking
      refine ⟨king, ?_, to, .pawn, ?_, reaches_iff.2 (.inl ?_)⟩
      · show put (put P.board to (some ⟨.pawn, P.side⟩)) u (some pc) king = _
        rw [put_other _ _ hku, put_other _ _ hkt, hking]
      · show put (put P.board to (some ⟨.pawn, P.side⟩)) u (some pc) to = _
        rw [put_other _ _ (Ne.symm hut), put_same, flip_flip]
      · rw [flip_flip]; exact hpawn
  · intro hl; exact hl.1

/-- C15.  An otherwise legal pawn drop is omitted iff it leaves the opponent checkmated: in check and
without a legal reply. -/
theorem C15_pawn_drop_mate (E : Env) (K : Backend) (hK : K ∈ backends) (pp : CorePartialPosition)
    (hv : Valid (rootView pp)) (ms : List Move) (p : Position) (h : Reached E K pp ms p)
    (l : List Move) (hl : p.legalMoves E K = some l) (to : Square)
    (hs : Safe (view p) (.drop to ⟨.pawn, p.sideToMove⟩)) :
    .drop to ⟨.pawn, p.sideToMove⟩ ∉ l ↔
      Checkmated (apply (view p) (.drop to ⟨.pawn, p.sideToMove⟩)) := by
  have hmc : Mated (apply (view p) (.drop to ⟨.pawn, p.sideToMove⟩)) ↔
      Checkmated (apply (view p) (.drop to ⟨.pawn, p.sideToMove⟩)) :=
    mated_iff_checkmated (reached_inv hK hv h).2 hs
  rw [(legalMoves_exact hK hv h hl).2, ← hmc]
  constructor
  · intro hn
    exact Classical.byContradiction fun hc => hn ⟨hs, fun _ => hc⟩
  · intro hm hl; exact hl.2 rfl hm

/-! ## C30 -/

/-- C30.  The `swap_remove` loop, run for any number `n` of iterations that is at least the length
of the list, has terminated and leaves a permutation of the moves that pass the filter. -/
theorem C30_filter_loop (ok : Move → Bool) (av : List Move) (n : Nat) (hn : av.length ≤ n) :
    filterLoop ok n 0 av = filterLoop ok av.length 0 av ∧
    (filterLoop ok n 0 av).Perm (av.filter ok) := by
  obtain ⟨k, rfl⟩ := Nat.exists_eq_add_of_le hn
  have := filterLoop_fuel ok av.length 0 av k (by omega)
  exact ⟨this, by rw [this]; exact filterLoop_perm ok av⟩

/-! ## C36, C37 -/

/-- C36.  When two pieces attack the king every listed move moves the king; when one piece attacks
it, every other listed move captures that piece or moves or drops between it and the king. -/
theorem C36_evasions (E : Env) (K : Backend) (hK : K ∈ backends) (pp : CorePartialPosition)
    (hv : Valid (rootView pp)) (ms : List Move) (p : Position) (h : Reached E K pp ms p)
    (l : List Move) (hl : p.legalMoves E K = some l) (king : Square)
    (hking : p.pieceAt king = some ⟨.king, p.sideToMove⟩) (m : Move) (hm : m ∈ l) :
    (∀ s1 s2, s1 ≠ s2 → AttacksFrom p.pieceAt p.sideToMove.flip s1 king →
      AttacksFrom p.pieceAt p.sideToMove.flip s2 king → m.frm = some king) ∧
    (∀ s, AttacksFrom p.pieceAt p.sideToMove.flip s king →
      m.frm = some king ∨ (m.frm ≠ none ∧ m.to = s) ∨ Between s m.to king) := by
  have hv' := (reached_inv hK hv h).2
  have hleg := C05_legal_moves_sound E K hK pp hv ms p h l hl m hm
  have key : m.frm = some king ∨ ∀ s, AttacksFrom p.pieceAt p.sideToMove.flip s king →
      (m.frm ≠ none ∧ m.to = s) ∨ Between s m.to king := by
    cases m with
    | drop to pc =>
      right
      intro s hs
      exact .inr (((listed_drop hv' hleg.1.1).1 ((listed_iff hv').2 hleg)).1 king hking s hs)
    | normal frm to pr =>
      have hp := hleg.1.1
      obtain ⟨k, hfrm, _⟩ := hp
      have hl' := (listed_normal hv' hfrm hleg.1.1).1 ((listed_iff hv').2 hleg)
      by_cases hk : k = .king
      · subst hk
        left
        show some frm = some king
        rw [hv'.oneKing _ _ _ hfrm hking]
      · rw [if_neg hk] at hl'
        right
        intro s hs
        rcases (hl' king hking).1 s hs with h | h
        · exact .inl ⟨by simp [Move.frm], h⟩
        · exact .inr h
  refine ⟨fun s1 s2 hne h1 h2 => ?_, fun s hs => ?_⟩
  · rcases key with h | h
    · exact h
    · exfalso
      exact two_checkers hne h1 h2 ((h s1 h1).imp And.right id) ((h s2 h2).imp And.right id)
  · rcases key with h | h
    · exact .inl h
    · exact .inr (h s hs)

/-- C37.  No listed move captures a king. -/
theorem C37_no_king_capture (E : Env) (K : Backend) (hK : K ∈ backends) (pp : CorePartialPosition)
    (hv : Valid (rootView pp)) (ms : List Move) (p : Position) (h : Reached E K pp ms p)
    (l : List Move) (hl : p.legalMoves E K = some l) (m : Move) (hm : m ∈ l) (c : Color) :
    p.pieceAt m.to ≠ some ⟨.king, c⟩ := by
  have hleg := C05_legal_moves_sound E K hK pp hv ms p h l hl m hm
  cases m with
  | drop to pc =>
    have : p.pieceAt to = none := hleg.1.1.2.2.2.1
    show p.pieceAt to ≠ _
    rw [this]; simp
  | normal frm to pr => exact fun hc => (no_king_capture (reached_inv hK hv h).2 hleg.1.1 hc) rfl

/-- A legal move keeps both kings. -/
theorem hasKing_apply {P : Pos} (hv : Valid P) {m : Move} (hp : PseudoLegal P m) (c : Color) :
    HasKing (apply P m) c ↔ HasKing P c := by
  unfold HasKing
  cases m with
  | drop to pc =>
    obtain ⟨_, hk, _, hto, _⟩ := hp
    have hpc : pc.kind ≠ .king := by intro e; rw [e] at hk; cases hk
    show (∃ s, put P.board to (some pc) s = _) ↔ _
    constructor
    · rintro ⟨s, hs⟩
      by_cases h : s = to
      · subst h
        rw [put_same] at hs
        cases hs; exact absurd rfl hpc
      · rw [put_other _ _ h] at hs; exact ⟨s, hs⟩
    · rintro ⟨s, hs⟩
      refine ⟨s, ?_⟩
      rw [put_other _ _ (by rintro rfl; rw [hto] at hs; cases hs)]
      exact hs
  | normal frm to pr =>
    have hp' := hp
    obtain ⟨k, hfrm, hr, _⟩ := hp'
    have hne := reaches_ne hr
    rw [apply_normal_board hfrm]
    constructor
    · rintro ⟨s, hs⟩
      by_cases h1 : s = to
      · subst h1
        rw [movedBoard_to] at hs
        have hk := (Option.some.inj hs)
        injection hk with hk hcol
        rw [movedKind_king] at hk
        subst hk; subst hcol
        exact ⟨frm, hfrm⟩
      · by_cases h2 : s = frm
        · subst h2; rw [movedBoard_frm _ _ hne] at hs; cases hs
        · rw [movedBoard_other _ _ h1 h2] at hs; exact ⟨s, hs⟩
    · rintro ⟨s, hs⟩
      by_cases h2 : s = frm
      · subst h2
        rw [hfrm] at hs
        have hk := (Option.some.inj hs)
        injection hk with hk hcol
        subst hk; subst hcol
        refine ⟨to, ?_⟩
        rw [movedBoard_to, movedKind_king.2 rfl]
      · have h1 : s ≠ to := by
          rintro rfl
          exact no_king_capture hv hp hs rfl
        exact ⟨s, by rw [movedBoard_other _ _ h1 h2]; exact hs⟩

/-- C37 for whole histories: each side keeps its king (or keeps having none). -/
theorem C37_kings_stay (E : Env) (K : Backend) (hK : K ∈ backends) (pp : CorePartialPosition)
    (hv : Valid (rootView pp)) (ms : List Move) (p : Position) (h : Reached E K pp ms p)
    (c : Color) : HasKing (view p) c ↔ HasKing (rootView pp) c := by
  obtain ⟨p0, h0, hs⟩ := h
  have hp := hs.play hK (fun _ _ h => shape_of_legal h)
  clear hs
  induction hp with
  | start => rw [view_new hK h0]
  | move hpl ha hd ih =>
    refine Iff.trans ?_ ih
    rw [(C03_do_move_is_rules E K _ _ _ hd).1]
    exact hasKing_apply (reached_inv hK hv ⟨p0, h0, hpl.session⟩).2 ha.1.1 c

/-- A move of the rules puts no second pawn of one side on a file. -/
theorem noTwoPawns_apply {P : Pos} (h : NoTwoPawns P) {m : Move} (hp : PseudoLegal P m) :
    NoTwoPawns (apply P m) := by
  cases m with
  | drop to pc =>
    obtain ⟨hc, _, _, _, _, htwo⟩ := hp
    have key : ∀ c s, put P.board to (some pc) s = some ⟨.pawn, c⟩ →
        (s = to ∧ pc.kind = .pawn ∧ c = P.side) ∨ P.board s = some ⟨.pawn, c⟩ := by
      intro c s hs
      by_cases e : s = to
      · subst e
        rw [put_same] at hs
        cases hs
        exact .inl ⟨rfl, rfl, hc⟩
      · rw [put_other _ _ e] at hs; exact .inr hs
    intro c s t hs ht hf
    rcases key c s hs with ⟨a1, a2, a3⟩ | a <;> rcases key c t ht with ⟨b1, b2, b3⟩ | b
    · rw [a1, b1]
    · subst a1 a3; exact absurd b (htwo a2 t hf.symm)
    · subst b1 b3; exact absurd a (htwo b2 s hf)
    · exact h c s t a b hf
  | normal frm to pr =>
    obtain ⟨k, hfrm, hr, _⟩ := hp
    have key : ∀ c s, movedBoard P.board frm to ⟨movedKind k pr, P.side⟩ s = some ⟨.pawn, c⟩ →
        ∃ s', s'.file = s.file ∧ P.board s' = some ⟨.pawn, c⟩ ∧ (s' = s ∧ s ≠ frm ∨ s' = frm ∧ s = to) := by
      intro c s hs
      by_cases e1 : s = to
      · subst e1
        rw [movedBoard_to] at hs
        simp only [Option.some.injEq, Piece.mk.injEq] at hs
        have hk := (movedKind_pawn.1 hs.1).1
        subst hk
        refine ⟨frm, ?_, hs.2 ▸ hfrm, .inr ⟨rfl, rfl⟩⟩
        rcases hr with ⟨d, hd, h⟩ | ⟨d, hd, _⟩
        · have : d = (0, 1) := by simpa [steps] using hd
          subst this
          have := h.1
          simp only [Int.add_zero] at this
          omega
        · cases hd
      · by_cases e2 : s = frm
        · subst e2; rw [movedBoard_frm _ _ e1] at hs; cases hs
        · rw [movedBoard_other _ _ e1 e2] at hs; exact ⟨s, rfl, hs, .inl ⟨rfl, e2⟩⟩
    rw [NoTwoPawns, apply_normal_board hfrm]
    intro c s t hs ht hf
    obtain ⟨s', a1, a2, a3⟩ := key c s hs
    obtain ⟨t', b1, b2, b3⟩ := key c t ht
    have e := h c s' t' a2 b2 (by rw [a1, b1, hf])
    rcases a3 with ⟨a3, a4⟩ | ⟨a3, a4⟩ <;> rcases b3 with ⟨b3, b4⟩ | ⟨b3, b4⟩
    · rw [← a3, ← b3, e]
    · exact absurd (by rw [← a3, e, b3]) a4
    · exact absurd (by rw [← b3, ← e, a3]) b4
    · rw [a4, b4]

/-- C12 for whole histories: from a position without doubled pawns no play of legal moves ever
produces one. -/
theorem C12_never_doubled (E : Env) (K : Backend) (hK : K ∈ backends) (pp : CorePartialPosition)
    (hn : NoTwoPawns (rootView pp)) (ms : List Move) (p : Position) (h : Reached E K pp ms p) :
    NoTwoPawns (view p) := by
  obtain ⟨p0, h0, hs⟩ := h
  have hp := hs.play hK (fun _ _ h => shape_of_legal h)
  clear hs
  induction hp with
  | start => rw [view_new hK h0]; exact hn
  | move hpl ha hd ih =>
    rw [(C03_do_move_is_rules E K _ _ _ hd).1]
    exact noTwoPawns_apply ih ha.1.1

/-- C13 for whole histories: from a position in which every piece can move, no play of legal moves
ever produces a piece that could never move again. -/
theorem C13_never_dead (E : Env) (K : Backend) (hK : K ∈ backends) (pp : CorePartialPosition)
    (hn : ∀ s k c, pp.board s = some ⟨k, c⟩ → ¬ Dead k c s) (ms : List Move) (p : Position)
    (h : Reached E K pp ms p) : ∀ s k c, p.pieceAt s = some ⟨k, c⟩ → ¬ Dead k c s := by
  obtain ⟨p0, h0, hs⟩ := h
  have hp := hs.play hK (fun _ _ h => shape_of_legal h)
  clear hs
  induction hp with
  | start =>
    intro s k c hs
    exact hn s k c ((C35_new_reproduces E K hK pp p0 h0).1 s ▸ hs)
  | @move ms p p' m hpl ha hd ih =>
    intro s k c hs
    have hb : p'.pieceAt = (apply (view p) m).board :=
      congrArg Pos.board (C03_do_move_is_rules E K _ _ _ hd).1
    rw [hb] at hs
    obtain ⟨⟨hp, _⟩, _⟩ := ha
    cases m with
    | drop to pc =>
      obtain ⟨hc, _, _, _, hdead, _⟩ := hp
      by_cases e : s = to
      · subst e
        simp only [apply, put_same, Option.some.injEq] at hs
        subst hs
        exact (show c = (view p).side from hc) ▸ hdead
      · simp only [apply, put_other _ _ e] at hs
        exact ih s k c hs
    | normal frm to pr =>
      obtain ⟨k', hfrm, _, _, hpr, hdead⟩ := hp
      rw [apply_normal_board hfrm] at hs
      by_cases e1 : s = to
      · subst e1
        rw [movedBoard_to] at hs
        simp only [Option.some.injEq, Piece.mk.injEq] at hs
        obtain ⟨rfl, rfl⟩ := hs
        cases pr with
        | false => exact hdead rfl
        | true =>
          have h1 := (hpr rfl).1
          revert h1
          cases k' <;> simp [movedKind, promoted, Dead]
      · by_cases e2 : s = frm
        · subst e2; rw [movedBoard_frm _ _ e1] at hs; cases hs
        · rw [movedBoard_other _ _ e1 e2] at hs; exact ih s k c hs

/-! ## Concrete cases -/

section
open Yasai.Examples

/-- Runs `legal_moves()` on `Position::new(pp)` and checks the outcome with `f`. -/
def probe (pp : CorePartialPosition) (f : Position → List Move → Bool) : Bool :=
  (Position.new env0 CoreBB.backend pp).any fun p =>
    (p.legalMoves env0 CoreBB.backend).any (f p)

theorem of_probe {pp : CorePartialPosition} {f : Position → List Move → Bool}
    (h : probe pp f = true) : ∃ p l, Reached env0 CoreBB.backend pp [] p ∧
      p.legalMoves env0 CoreBB.backend = some l ∧ f p l = true := by
  simp only [probe, Option.any_eq_true] at h
  obtain ⟨p, hp, l, hl, hf⟩ := h
  exact ⟨p, l, ⟨p, hp, .start⟩, hl, hf⟩

/-- C05–C07, C10, C37: a position with captures, promotions, drops and a pinned gold. -/
example : ∃ p l, Reached env0 CoreBB.backend skirmish [] p ∧
    p.legalMoves env0 CoreBB.backend = some l ∧ (l.length == 138 &&
      l.contains (.normal (sq 2 8) (sq 2 3) true) && l.contains (.drop (sq 6 3) ⟨.knight, .black⟩) &&
      l.contains (.normal (sq 5 8) (sq 5 7) false) && !l.contains (.normal (sq 5 8) (sq 4 8) false) &&
      (p.doMove env0 CoreBB.backend (.normal (sq 2 8) (sq 2 3) true)).isSome) = true :=
  of_probe (by decide +kernel)

/-- White is checkmated by a supported gold. -/
def mateRoot : CorePartialPosition where
  side := .white
  ply := 100#16
  hands := fun c => match c with
    | .black => handOf []
    | .white => handOf [(.rook,1)]
  board := boardOf ([
    (1,1,.king,.white),(1,2,.gold,.black),(1,4,.lance,.black),(5,9,.king,.black)])

theorem mateRoot_valid : Valid (rootView mateRoot) := by decide +kernel

/-- C11: a checkmate. -/
example : ∃ p l, Reached env0 CoreBB.backend mateRoot [] p ∧
    p.legalMoves env0 CoreBB.backend = some l ∧
    (p.inCheck CoreBB.backend == some true && l.isEmpty) = true :=
  of_probe (by decide +kernel)

/-- C12: pawn drops listed on an empty file and not on a file with a pawn. -/
example : ∃ p l, Reached env0 CoreBB.backend skirmish [] p ∧
    p.legalMoves env0 CoreBB.backend = some l ∧
    (l.contains (.drop (sq 3 5) ⟨.pawn, .black⟩) &&
      !l.contains (.drop (sq 7 5) ⟨.pawn, .black⟩) &&
      !l.contains (.drop (sq 3 1) ⟨.pawn, .black⟩)) = true :=
  of_probe (by decide +kernel)

/-- Black to move with a lance and a knight near the end of the board. -/
def edge : CorePartialPosition where
  side := .black
  ply := 9#16
  hands := fun _ => handOf [(.knight,1),(.lance,1)]
  board := boardOf ([
    (5,9,.king,.black),(9,3,.lance,.black),(7,4,.knight,.black),(7,5,.knight,.black),
    (3,3,.silver,.black),(2,3,.gold,.black),(5,1,.king,.white)])

theorem edge_valid : Valid (rootView edge) := by decide +kernel

/-- C13, C14: forced, optional and impossible promotions; restricted drops. -/
example : ∃ p l, Reached env0 CoreBB.backend edge [] p ∧
    p.legalMoves env0 CoreBB.backend = some l ∧
    (l.contains (.normal (sq 9 3) (sq 9 1) true) && !l.contains (.normal (sq 9 3) (sq 9 1) false) &&
      l.contains (.normal (sq 9 3) (sq 9 2) true) && l.contains (.normal (sq 9 3) (sq 9 2) false) &&
      l.contains (.normal (sq 7 4) (sq 8 2) true) && !l.contains (.normal (sq 7 4) (sq 8 2) false) &&
      l.contains (.normal (sq 7 5) (sq 8 3) false) &&
      l.contains (.normal (sq 3 3) (sq 4 4) true) && l.contains (.normal (sq 2 3) (sq 2 2) false) &&
      !l.contains (.normal (sq 2 3) (sq 2 2) true) &&
      l.contains (.drop (sq 1 3) ⟨.knight, .black⟩) && !l.contains (.drop (sq 1 2) ⟨.knight, .black⟩) &&
      l.contains (.drop (sq 1 2) ⟨.lance, .black⟩) && !l.contains (.drop (sq 1 1) ⟨.lance, .black⟩))
        = true :=
  of_probe (by decide +kernel)

/-- A pawn dropped on 1b would checkmate; one dropped elsewhere would not. -/
def dropMateRoot : CorePartialPosition where
  side := .black
  ply := 100#16
  hands := fun c => match c with
    | .black => handOf [(.pawn,1)]
    | .white => handOf [(.pawn,2)]
  board := boardOf ([
    (1,1,.king,.white),(2,1,.lance,.white),(1,3,.gold,.black),(5,9,.king,.black)])

theorem dropMateRoot_valid : Valid (rootView dropMateRoot) := by decide +kernel

/-- C15: the pawn drop is safe for the own king, but omitted. -/
example : ∃ p l, Reached env0 CoreBB.backend dropMateRoot [] p ∧
    p.legalMoves env0 CoreBB.backend = some l ∧
    Safe (view p) (.drop (sq 1 2) ⟨.pawn, p.sideToMove⟩) ∧
    Checkmated (apply (view p) (.drop (sq 1 2) ⟨.pawn, p.sideToMove⟩)) ∧
    .drop (sq 5 2) ⟨.pawn, p.sideToMove⟩ ∈ l := by
  have h : probe dropMateRoot (fun p l =>
      decide (Safe (view p) (.drop (sq 1 2) ⟨.pawn, p.sideToMove⟩)) &&
      !l.contains (.drop (sq 1 2) ⟨.pawn, p.sideToMove⟩) &&
      l.contains (.drop (sq 5 2) ⟨.pawn, p.sideToMove⟩)) = true := by decide +kernel
  obtain ⟨p, l, hr, hl, hf⟩ := of_probe h
  simp only [Bool.and_eq_true, decide_eq_true_eq, Bool.not_eq_true', List.contains_iff_mem,
    ← Bool.not_eq_true] at hf
  obtain ⟨⟨h1, h2⟩, h3⟩ := hf
  exact ⟨p, l, hr, hl, h1,
    (C15_pawn_drop_mate _ _ core_mem _ dropMateRoot_valid _ _ hr l hl _ h1).1 h2, h3⟩

/-- C30: the loop reorders. -/
example : filterLoop (fun m => m.frm == none) 3 0
    [.normal 0 1 false, .drop 5 ⟨.pawn, .black⟩, .drop 6 ⟨.gold, .black⟩] =
    [.drop 6 ⟨.gold, .black⟩, .drop 5 ⟨.pawn, .black⟩] := by decide +kernel

/-- Black is in double check from a rook and a knight. -/
def doubleCheck : CorePartialPosition where
  side := .black
  ply := 60#16
  hands := fun _ => handOf [(.gold,1)]
  board := boardOf ([
    (5,9,.king,.black),(6,8,.gold,.black),(5,1,.rook,.white),(4,7,.knight,.white),
    (9,1,.king,.white)])

theorem doubleCheck_valid : Valid (rootView doubleCheck) := by decide +kernel

/-- C36: two checkers, some moves remain. -/
example : ∃ p l, Reached env0 CoreBB.backend doubleCheck [] p ∧
    p.legalMoves env0 CoreBB.backend = some l ∧
    (decide (AttacksFrom p.pieceAt p.sideToMove.flip (sq 5 1) (sq 5 9)) &&
      decide (AttacksFrom p.pieceAt p.sideToMove.flip (sq 4 7) (sq 5 9)) &&
      l == [.normal (sq 5 9) (sq 4 8) false, .normal (sq 5 9) (sq 4 9) false,
        .normal (sq 5 9) (sq 6 9) false]) = true :=
  of_probe (by decide +kernel)

/-- Doubled pawns away from the first rank are within `Valid`: two Black pawns on file 7, another on
file 3, a pawn in hand that may go to neither file. -/
def nifu : CorePartialPosition where
  side := .black
  ply := 1#16
  hands := fun c => match c with
    | .black => handOf [(.pawn,1)]
    | .white => handOf []
  board := boardOf [(5,9,.king,.black),(5,1,.king,.white),(7,5,.pawn,.black),(7,8,.pawn,.black),
    (3,9,.pawn,.black)]

example : Valid (rootView nifu) ∧ ¬ NoTwoPawns (rootView nifu) ∧
    probe nifu (fun _ l => l.contains (.drop (sq 6 5) ⟨.pawn, .black⟩) &&
      !l.contains (.drop (sq 7 3) ⟨.pawn, .black⟩) && !l.contains (.drop (sq 3 3) ⟨.pawn, .black⟩))
      = true := by
  refine ⟨by decide +kernel, fun h => ?_, by decide +kernel⟩
  exact absurd (h .black (sq 7 5) (sq 7 8) (by decide +kernel) (by decide +kernel)
    (by decide +kernel)) (by decide +kernel)

/-- `C12_never_doubled` and `C13_never_dead` apply to the initial position. -/
example : NoTwoPawns (rootView startpos) ∧
    ∀ s k c, startpos.board s = some ⟨k, c⟩ → ¬ Dead k c s := by
  constructor
  · have : ∀ c s, (rootView startpos).board s = some ⟨.pawn, c⟩ → ∀ t,
        (rootView startpos).board t = some ⟨.pawn, c⟩ → s.file = t.file → s = t := by decide +kernel
    exact fun c s t h1 h2 h3 => this c s h1 t h2 h3
  · decide +kernel

end

end Yasai.Props

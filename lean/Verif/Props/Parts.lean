import Verif.Props.Boards
import Verif.Props.Legal
import Verif.Props.Caches
import Verif.Props.Bitboards

/-!
# C71 – C75: the parts of the generator, one by one

`legal_moves` is covered as a whole by C05 – C07.  Here each function that it is built from has its
own contract.
-/

namespace Yasai.Props

open Yasai Spec

/-! ## C71: attackers -/

/-- C71.  `attackers_to(c, to, occ)` holds exactly the pieces of `c` that reach `to` if the squares
of `occ` are occupied (whatever the set `occ`), and `attackers_to_except_klp(c, to)` those that
reach it over the real board and are no king, lance or pawn.  Accepted positions, any history of
moves with `Shape`, legal or not. -/
theorem C71_attackers (E : Env) (K : Backend) (hK : K ∈ backends) (pp : CorePartialPosition)
    (ms : List Move) (p : Position) (h : Visited E K pp ms p) (c : Color) (to s : Square) :
    (∀ occ, K.contains (p.inner.attackersTo K c to occ) s = true ↔
      ∃ k, p.pieceAt s = some ⟨k, c⟩ ∧ Reaches (fun u => K.contains occ u = true) k c s to) ∧
    (K.contains (p.inner.attackersTo K c to (p.inner.occupiedBB K)) s = true ↔
      AttacksFrom p.pieceAt c s to) ∧
    (K.contains (p.inner.attackersToExceptKlp K c to) s = true ↔
      ∃ k, p.pieceAt s = some ⟨k, c⟩ ∧ k ∉ [PieceKind.king, .lance, .pawn] ∧
        Reaches (Occ p.pieceAt) k c s to) := by
  have L := lawful_of_mem hK
  have hr : Repr p.inner := (h.consistent hK).1
  simp only [L.contains]
  refine ⟨fun occ => mem_attackersTo L hr c to occ s, ?_, ?_⟩
  · rw [mem_attackersTo L hr, hr.occ_fun L]
    exact Iff.rfl
  · rw [mem_attackersToExceptKlp L hr]
    refine exists_congr fun k => and_congr_right fun _ => ?_
    simp only [List.mem_cons, List.not_mem_nil, or_false, not_or, and_assoc]
    exact Iff.rfl

/-! ## C72: the generators -/

/-- `g` appends to the buffer, in some fixed order and without repetition, exactly the moves with
`M`; it panics exactly when they do not fit into the 593 slots. -/
def Appends (g : List Move → Option (List Move)) (M : Move → Prop) : Prop :=
  ∃ l : List Move, l.Nodup ∧ (∀ m, m ∈ l ↔ M m) ∧
    ∀ av, g av = if l = [] ∨ av.length + l.length ≤ 593 then some (av ++ l) else none

/-- A board move of a piece of the side to move whose kind is in `ks`, to a square of `T`, by the
rules of movement and promotion. -/
def MoveOf (P : Pos) (T : Square → Prop) (ks : List PieceKind) : Move → Prop
  | .normal frm to pr => ∃ k ∈ ks, P.board frm = some ⟨k, P.side⟩ ∧
      Reaches (Occ P.board) k P.side frm to ∧ T to ∧
      (pr = true → promoted k ≠ none ∧ (InZone P.side frm ∨ InZone P.side to)) ∧
      (pr = false → ¬ Dead k P.side to)
  | .drop _ _ => False

theorem moveOf_iff {q : PartialPosition} {target : BB} {ks : List PieceKind} {m : Move} :
    (∃ k, k ∈ ks ∧ Gen q target k m) ↔ MoveOf q.spec (fun t => mem target t = true) ks m := by
  constructor
  · rintro ⟨k, hk, frm, to, pr, rfl, h1, h2, h3, h4, h5⟩
    exact ⟨k, hk, h1, h2, h3, h4, h5⟩
  · cases m with
    | normal frm to pr =>
      rintro ⟨k, hk, h1, h2, h3, h4, h5⟩
      exact ⟨k, hk, frm, to, pr, rfl, h1, h2, h3, h4, h5⟩
    | drop to pc => exact False.elim

theorem appends_of {g : Av → Option Av} {l : List Move} {M : Move → Prop}
    (h1 : ∀ av, g av = appendAll av l) (h2 : l.Nodup) (h3 : ∀ m, m ∈ l ↔ M m) : Appends g M :=
  ⟨l, h2, h3, fun av => h1 av⟩

/-- C72, all kinds but pawns.  On accepted positions after any history of moves with `Shape`,
legal or not, and for every target set of squares. -/
theorem C72_piece_generators (E : Env) (K : Backend) (hK : K ∈ backends) (pp : CorePartialPosition)
    (ms : List Move) (p : Position) (h : Visited E K pp ms p) (target : BB) :
    let T := fun t => K.contains target t = true
    Appends (fun av => p.inner.generateForKy K av target) (MoveOf (view p) T [.lance]) ∧
    Appends (fun av => p.inner.generateForKe K av target) (MoveOf (view p) T [.knight]) ∧
    Appends (fun av => p.inner.generateForGi K av target) (MoveOf (view p) T [.silver]) ∧
    Appends (fun av => p.inner.generateForKa K av target) (MoveOf (view p) T [.bishop]) ∧
    Appends (fun av => p.inner.generateForHi K av target) (MoveOf (view p) T [.rook]) ∧
    Appends (fun av => p.inner.generateForKi K av target)
      (MoveOf (view p) T [.gold, .proPawn, .proLance, .proKnight, .proSilver]) ∧
    Appends (fun av => p.inner.generateForOu K av target) (MoveOf (view p) T [.king]) ∧
    Appends (fun av => p.inner.generateForUm K av target) (MoveOf (view p) T [.proBishop]) ∧
    Appends (fun av => p.inner.generateForRy K av target) (MoveOf (view p) T [.proRook]) := by
  have L := lawful_of_mem hK
  have hr : Repr p.inner := (h.consistent hK).1
  have hT : (fun t => K.contains target t = true) = fun t => mem target t = true :=
    funext fun t => by rw [L.contains]
  rw [hT]
  have single : ∀ k m, m ∈ groupMoves K p.inner k (K.and (p.inner.playerBB p.inner.side)
      (p.inner.pieceBB k)) target ↔ MoveOf (view p) (fun t => mem target t = true) [k] m := by
    intro k m
    rw [mem_group_gen L hr, view_eq, ← moveOf_iff]
    simp
  have nd : ∀ k, (groupMoves K p.inner k (K.and (p.inner.playerBB p.inner.side)
      (p.inner.pieceBB k)) target).Nodup := by
    intro k
    apply groupMoves_nodup L hr
    rw [L.and]; exact ok_and_left _ (hr.okPlayer _)
  refine ⟨appends_of (fun av => generateForKy_eq K _ av target) (nd _) (single _),
    appends_of (fun av => generateForKe_eq K _ av target) (nd _) (single _),
    appends_of (fun av => generateForGi_eq K _ av target) (nd _) (single _),
    appends_of (fun av => generateForKa_eq K _ av target) (nd _) (single _),
    appends_of (fun av => generateForHi_eq K _ av target) (nd _) (single _),
    appends_of (fun av => generateForKi_eq K _ av target) ?_ ?_,
    appends_of (fun av => generateForOu_eq K _ av target) (nd _) (single _),
    appends_of (fun av => generateForUm_eq K _ av target) (nd _) (single _),
    appends_of (fun av => generateForRy_eq K _ av target) (nd _) (single _)⟩
  · apply groupMoves_nodup L hr
    rw [L.and]; exact ok_and_right _ (hr.okPlayer _)
  · intro m
    rw [mem_kiMoves L hr, view_eq, ← moveOf_iff]
    rfl

/-- C72, pawns.  The generator shifts the whole set of pawns, so no pawn may stand on its last
rank. -/
theorem C72_pawn_generator (E : Env) (K : Backend) (hK : K ∈ backends) (pp : CorePartialPosition)
    (ms : List Move) (p : Position) (h : Visited E K pp ms p) (target : BB)
    (hd : ∀ c s, p.pieceAt s = some ⟨.pawn, c⟩ → ¬ Dead .pawn c s) :
    Appends (fun av => p.inner.generateForFu K av target)
      (MoveOf (view p) (fun t => K.contains target t = true) [.pawn]) := by
  have L := lawful_of_mem hK
  have hr : Repr p.inner := (h.consistent hK).1
  have hT : (fun t => K.contains target t = true) = fun t => mem target t = true :=
    funext fun t => by rw [L.contains]
  rw [hT]
  refine appends_of (fun av => generateForFu_eq K _ av target) (fuMoves_nodup L hr hd target) ?_
  intro m
  rw [mem_fuMoves L hr hd, view_eq, ← moveOf_iff]
  simp

/-- C72, drops.  On every reached position and for every set of empty squares built with the
bitboard operations: the drops by the rules, except pawn drops that mate. -/
theorem C72_drop_generator (E : Env) (K : Backend) (hK : K ∈ backends) (pp : CorePartialPosition)
    (hv : Valid (rootView pp)) (ms : List Move) (p : Position) (h : Reached E K pp ms p)
    (st : State) (hst : p.state = some st) (target : BB) (ht : Built K target)
    (hemp : ∀ t, K.contains target t = true → p.pieceAt t = none) :
    Appends (fun av => p.inner.generateDrop E K st av target) (fun m => ∃ to pc, m = .drop to pc ∧
      K.contains target to = true ∧ PseudoLegal (view p) m ∧
      (pc.kind = .pawn → ¬ Mated (apply (view p) m))) := by
  have L := lawful_of_mem hK
  obtain ⟨⟨hr, st', hst', hai⟩, hv'⟩ := reached_inv hK hv h
  rw [hst] at hst'
  cases hst'
  simp only [L.contains] at hemp ⊢
  have hok := ht.ok L
  obtain ⟨pt, hpt, _⟩ := pawnDropTarget_spec L hr hv'.loose.tame E hai hok hemp
  refine appends_of (fun av => generateDrop_eq (fun _ => ⟨pt, hpt⟩) av)
    (dropMoves_nodup L hr hv'.loose.tame E hai hok hemp) fun m => ?_
  rw [mem_dropMoves L hr hv'.loose.tame E hai hok hemp]
  refine exists_congr fun to => exists_congr fun pc => and_congr_right fun e => ?_
  subst e
  refine and_congr_right fun _ => and_congr_right fun hps => ?_
  constructor
  · intro h2 hp hm
    exact h2 hp ((refused_iff hv' hps hp).2 hm)
  · intro h2 hp hm
    exact h2 hp ((refused_iff hv' hps hp).1 hm)

/-! ## C73: the two generators and the filter -/

theorem not_refused_iff {P : Pos} (hv : Valid P) {m : Move} (hps : PseudoLegal P m) :
    (IsPawnDrop m → ¬ Refused P m) ↔ (IsPawnDrop m → ¬ Mated (apply P m)) := by
  cases m with
  | normal _ _ _ => exact ⟨fun _ h => h.elim, fun _ h => h.elim⟩
  | drop to pc =>
    exact ⟨fun h hp hm => h hp ((refused_iff hv hps hp).2 hm),
      fun h hp hm => h hp ((refused_iff hv hps hp).1 hm)⟩

/-- A drop does not open a line, so without check the king stays safe. -/
theorem drop_keeps_safe {P : Pos} (hv : Tame P) (hc : ¬ InCheck P.board P.side) {to : Square}
    {pc : Piece} (hps : PseudoLegal P (.drop to pc)) :
    ¬ InCheck (apply P (.drop to pc)).board P.side := by
  obtain ⟨k, c⟩ := pc
  obtain ⟨hcc, hh, _, hemp, _⟩ := hps
  have hcc : c = P.side := hcc
  subst hcc
  have hk : k ≠ .king := by rintro rfl; cases hh
  have e : (apply P (.drop to ⟨k, P.side⟩)).board = put P.board to (some ⟨k, P.side⟩) := rfl
  rw [e]
  intro hin
  have hin' := hin
  obtain ⟨king, hking, _⟩ := hin'
  have hking' : P.board king = some ⟨.king, P.side⟩ := by
    by_cases h1 : king = to
    · subst h1
      rw [put_same] at hking
      cases hking
      exact absurd rfl hk
    · rwa [put_other _ _ h1] at hking
  exact (drop_safe hk hking' (fun s h => hv.oneKing _ _ _ h hking') hemp).2
    (fun s hs => absurd ⟨king, hking', s, hs⟩ hc) hin

/-- C73, not in check.  On every reached position whose side to move is not in check, `generate_all`
appends exactly the moves by the rules of movement, without the pawn drops that mate (the safety of
the own king is left to the filter); and `is_legal` answers, for every move by the rules of
movement, whether the own king is safe after it. -/
theorem C73_generate_all (E : Env) (K : Backend) (hK : K ∈ backends) (pp : CorePartialPosition)
    (hv : Valid (rootView pp)) (ms : List Move) (p : Position) (h : Reached E K pp ms p)
    (st : State) (hst : p.state = some st) :
    Appends (fun av => p.inner.generateAll E K st av) (fun m =>
      PseudoLegal (view p) m ∧ (IsPawnDrop m → ¬ Mated (apply (view p) m))) ∧
    (¬ InCheck p.pieceAt p.sideToMove → ∀ m, PseudoLegal (view p) m →
      (p.inner.isLegal K st m = true ↔ ¬ InCheck (apply (view p) m).board p.sideToMove)) := by
  have L := lawful_of_mem hK
  obtain ⟨⟨hr, st', hst', hai⟩, hv'⟩ := reached_inv hK hv h
  rw [hst] at hst'
  cases hst'
  have ht : Tame p.inner.spec := hv'.loose.tame
  obtain ⟨hok, hes⟩ := emptySquares_spec L hr
  obtain ⟨pt, hpt, _⟩ := pawnDropTarget_spec L hr ht E hai hok (fun to => (hes to).1)
  constructor
  · refine appends_of (fun av => generateAll_eq (fun _ => ⟨pt, hpt⟩) av) (allList_nodup L hr ht hai) fun m => ?_
    rw [mem_allList L hr ht hai]
    exact and_congr_right fun hps => not_refused_iff hv' hps
  · intro hc m hps
    cases m with
    | drop to pc => exact ⟨fun _ => drop_keeps_safe ht hc hps, fun _ => rfl⟩
    | normal frm to pr =>
      have hlist := allList_legal (E := E) L hr ht hai hc (.normal frm to pr)
      rw [mem_allList L hr ht hai] at hlist
      constructor
      · intro hl
        exact (hlist.1 ⟨⟨hps, fun h => h.elim⟩, hl⟩).1.2
      · intro hl
        exact (hlist.2 ⟨⟨hps, hl⟩, fun h => h.elim⟩).2

/-- A board move that captures on `ch` or goes between `ch` and `king`; a drop between them. -/
def CapturesOrBlocks (ch king : Square) : Move → Prop
  | .normal _ to _ => to = ch ∨ Between ch to king
  | .drop to _ => Between ch to king

/-- C73, in check.  On every reached position whose side to move is in check, `generate_evasions`
appends without repetition a list `l` of moves by the rules of movement that holds every legal move
(and panics exactly if it does not fit).  Moves of other pieces are in `l` exactly if there is a
single checker, they capture it or go between it and the king, and they are not a mating pawn drop.
On the moves of `l`, `is_legal` answers whether the own king is safe. -/
theorem C73_generate_evasions (E : Env) (K : Backend) (hK : K ∈ backends)
    (pp : CorePartialPosition) (hv : Valid (rootView pp)) (ms : List Move) (p : Position)
    (h : Reached E K pp ms p) (st : State) (hst : p.state = some st)
    (hc : InCheck p.pieceAt p.sideToMove) :
    ∃ king, p.pieceAt king = some ⟨.king, p.sideToMove⟩ ∧
    ∃ l : List Move, Appends (fun av => p.inner.generateEvasions E K st av) (· ∈ l) ∧
      (∀ m ∈ l, PseudoLegal (view p) m ∧
        (p.inner.isLegal K st m = true ↔ ¬ InCheck (apply (view p) m).board p.sideToMove)) ∧
      (∀ m, Legal (view p) m → m ∈ l) ∧
      (∀ m, m.frm ≠ some king → (m ∈ l ↔
        PseudoLegal (view p) m ∧ (IsPawnDrop m → ¬ Mated (apply (view p) m)) ∧
        ∃ ch, (∀ s, AttacksFrom p.pieceAt p.sideToMove.flip s king ↔ s = ch) ∧
          CapturesOrBlocks ch king m)) := by
  have L := lawful_of_mem hK
  obtain ⟨⟨hr, st', hst', hai⟩, hv'⟩ := reached_inv hK hv h
  rw [hst] at hst'
  cases hst'
  have hlo : Loose p.inner.spec := hv'.loose
  have hc' := hc
  obtain ⟨king, hking, s0, hs0⟩ := hc'
  have hking : p.inner.board king = some ⟨.king, p.inner.side⟩ := hking
  have hs0 : AttacksFrom p.inner.board p.inner.side.flip s0 king := hs0
  have hkp := (hr.kingPosition L _ (hlo.oneKing _) king).2 hking
  obtain ⟨att, hatt, hattm⟩ := checkersAttacks_spec L hr hlo hai hking
  have hm := mem_iter_checkers L hr hlo hai hking
  have hleg := evList_legal (E := E) L hr hlo hai hking hattm hc
  have hother : ∀ ch, K.iter st.attackInfo.checkers = [ch] ↔
      ∀ s, AttacksFrom p.pieceAt p.sideToMove.flip s king ↔ s = ch := by
    intro ch
    constructor
    · intro e s
      have := hm s
      rw [e, List.mem_singleton] at this
      exact this.symm
    · intro hu
      have hn : (K.iter st.attackInfo.checkers).Nodup :=
        nodup_iter L (by rw [hai]; exact ok_calculateCheckers L hr.okBoards)
      have hmem : ∀ s, s ∈ K.iter st.attackInfo.checkers ↔ s = ch := fun s => (hm s).trans (hu s)
      cases e : K.iter st.attackInfo.checkers with
      | nil =>
        rw [e] at hmem
        have := (hmem ch).2 rfl
        cases this
      | cons x xs =>
        rw [e] at hmem hn
        have hx := (hmem x).1 List.mem_cons_self
        subst hx
        cases xs with
        | nil => rfl
        | cons y ys =>
          have hy := (hmem y).1 (by simp)
          subst hy
          simp at hn
  have hpseudo : ∀ m ∈ evList E K p.inner st king att, PseudoLegal p.inner.spec m ∧
      (IsPawnDrop m → ¬ Refused p.inner.spec m) := by
    intro m hmem
    unfold evList at hmem
    rw [List.mem_append] at hmem
    rcases hmem with hmem | hmem
    · rw [mem_kingEvasions L hr] at hmem
      obtain ⟨to, rfl, h1, h2, _⟩ := hmem
      refine ⟨⟨.king, hking, reaches_iff.2 (.inl h1), h2, ?_, ?_⟩, fun h => h.elim⟩
      · intro e; cases e
      · intro _ e; cases e
    · split at hmem
      · next hch =>
        rw [mem_otherEvasions L hr hlo hai hking hch] at hmem
        exact ⟨hmem.1, hmem.2.1⟩
      · cases hmem
  refine ⟨king, hking, evList E K p.inner st king att, ?_, fun m hmem => ⟨(hpseudo m hmem).1, ?_⟩,
    fun m hl => ((hleg m).2 ((listed_iff hv').2 hl)).1, fun m hfrm => ?_⟩
  · refine appends_of (fun av => generateEvasions_eq hkp hatt ?_ ?_ av)
      (evList_nodup L hr hlo hai hking att) (fun _ => Iff.rfl)
    · intro hnil
      have := (hm s0).2 hs0
      rw [hnil] at this; cases this
    · intro ch hch _ _
      obtain ⟨k, hk, hrc⟩ : AttacksFrom p.inner.board p.inner.side.flip ch king :=
        (hm ch).1 (by rw [hch]; simp)
      obtain ⟨pt, hpt, _⟩ := pawnDropTarget_spec L hr hlo.tame E hai (betweenTable_spec L ch king).1
        (fun to hto => Classical.not_not.1 (reaches_path hrc ((mem_betweenTable L _ _ _).1 hto)))
      exact ⟨pt, hpt⟩
  · constructor
    · intro hl
      exact ((hleg m).1 ⟨hmem, hl⟩).1.2
    · intro hs
      exact ((hleg m).2 ⟨⟨(hpseudo m hmem).1, hs⟩, (hpseudo m hmem).2⟩).2
  · constructor
    · intro hmem
      refine ⟨(hpseudo m hmem).1, (not_refused_iff hv' (hpseudo m hmem).1).1 (hpseudo m hmem).2, ?_⟩
      unfold evList at hmem
      rw [List.mem_append] at hmem
      rcases hmem with hmem | hmem
      · rw [mem_kingEvasions L hr] at hmem
        obtain ⟨to, rfl, _⟩ := hmem
        exact absurd rfl hfrm
      · split at hmem
        · next ch hch =>
          rw [mem_otherEvasions L hr hlo hai hking hch] at hmem
          refine ⟨ch, (hother ch).1 hch, ?_⟩
          cases m with
          | normal _ _ _ => exact hmem.2.2.2
          | drop _ _ => exact hmem.2.2
        · cases hmem
    · rintro ⟨hps, hpd, ch, hch, ha⟩
      have hch := (hother ch).2 hch
      unfold evList
      rw [List.mem_append, hch]
      refine .inr ((mem_otherEvasions L hr hlo hai hking hch m).2
        ⟨hps, (not_refused_iff hv' hps).2 hpd, ?_⟩)
      cases m with
      | normal frm to pr =>
        refine ⟨fun e => ?_, ha⟩
        have := hlo.oneKing _ _ _ e hking
        subst this
        exact hfrm rfl
      | drop _ _ => exact ha

/-! ## C74: pawn drop mate -/

/-- C74.  On every reached position, if the side to move drops a pawn on the empty square in front
of the opponent's king, `is_pawn_drop_mate` answers whether that is mate (whether or not the side
has a pawn in hand, has a pawn on the file or is in check itself). -/
theorem C74_pawn_drop_mate (E : Env) (K : Backend) (hK : K ∈ backends) (pp : CorePartialPosition)
    (hv : Valid (rootView pp)) (ms : List Move) (p : Position) (h : Reached E K pp ms p)
    (st : State) (hst : p.state = some st) (king to : Square)
    (hking : p.pieceAt king = some ⟨.king, p.sideToMove.flip⟩) (hto : p.pieceAt to = none)
    (hfront : Disp to king 0 (fwd p.sideToMove)) :
    p.inner.isPawnDropMate K st to = true ↔
      Mated (apply (view p) (.drop to ⟨.pawn, p.sideToMove⟩)) := by
  have L := lawful_of_mem hK
  obtain ⟨⟨hr, st', hst', hai⟩, hv'⟩ := reached_inv hK hv h
  rw [hst] at hst'
  cases hst'
  rw [isPawnDropMate_spec L hr (hv'.oneKing _) hai hking]
  exact (mated_drop hv' hking hto (step_pawn.2 hfront)).symm

/-! ## C75: shifts and slides -/

/-- C75.  For all sets built with the bitboard operations: `shl` moves each square down one rank and
`shr` up one rank if no square leaves the board; `sliding_positives` (`sliding_negatives`) keeps of
each of two masks the squares up to the first occupied one in ascending (descending) order; the
`…_consecutive` forms do so for one mask within a file.  On every backend. -/
theorem C75_shifts_and_slides (K : Backend) (hK : K ∈ backends) {occ a b : BB}
    (ha : Built K a) (hb : Built K b) :
    let upto := fun (m : BB) (s : Square) => K.contains m s = true ∧
      ∀ t, K.contains m t = true → K.contains occ t = true → s ≤ t
    let downto := fun (m : BB) (s : Square) => K.contains m s = true ∧
      ∀ t, K.contains m t = true → K.contains occ t = true → t ≤ s
    ((∀ t, K.contains a t = true → t.rank ≠ 9) → ∀ s, K.contains (K.shl a) s = true ↔
      ∃ t, K.contains a t = true ∧ s.file = t.file ∧ s.rank = t.rank + 1) ∧
    ((∀ t, K.contains a t = true → t.rank ≠ 1) → ∀ s, K.contains (K.shr a) s = true ↔
      ∃ t, K.contains a t = true ∧ s.file = t.file ∧ s.rank + 1 = t.rank) ∧
    (∀ s, K.contains (K.slidingPositives occ a b) s = true ↔ upto a s ∨ upto b s) ∧
    (∀ s, K.contains (K.slidingNegatives occ a b) s = true ↔ downto a s ∨ downto b s) ∧
    ((∀ s t, K.contains a s = true → K.contains a t = true → s.file = t.file) →
      (∀ s, K.contains (K.slidingPositiveConsecutive occ a) s = true ↔ upto a s) ∧
      (∀ s, K.contains (K.slidingNegativeConsecutive occ a) s = true ↔ downto a s)) := by
  have L := lawful_of_mem hK
  have oa := ha.ok L
  have ob := hb.ok L
  simp only [L.contains]
  have hfr : ∀ s t : Square, s.val = t.val + 1 → t.rank ≠ 9 →
      s.file = t.file ∧ s.rank = t.rank + 1 := by
    intro s t e hr
    unfold Square.file Square.rank at *
    omega
  have hrf : ∀ s t : Square, s.file = t.file → s.rank = t.rank + 1 → s.val = t.val + 1 := by
    intro s t e hr
    unfold Square.file Square.rank at *
    omega
  refine ⟨fun h s => ?_, fun h s => ?_, (L.slidingPositives occ a b oa ob).2,
    (L.slidingNegatives occ a b oa ob).2, fun h => ⟨(L.slidingPositiveConsecutive occ a oa h).2,
      (L.slidingNegativeConsecutive occ a oa h).2⟩⟩
  · rw [(L.shl a oa h).2]
    refine exists_congr fun t => and_congr_right fun ht => ?_
    exact ⟨fun e => hfr s t e (h t ht), fun e => hrf s t e.1 e.2⟩
  · rw [(L.shr a oa h).2]
    refine exists_congr fun t => and_congr_right fun ht => ?_
    constructor
    · intro e
      have : s.rank ≠ 9 := by
        have := h t ht
        unfold Square.rank at *
        omega
      have := hfr t s e this
      exact ⟨this.1.symm, this.2.symm⟩
    · rintro ⟨e1, e2⟩
      exact hrf t s e1.symm e2.symm

/-! ## Concrete cases -/

section
open Yasai.Examples

/-- C71: in `skirmish` Black's rook attacks 2c; with 2e taken as occupied it does not. -/
example : ∃ p, Visited env0 CoreBB.backend skirmish [] p ∧
    AttacksFrom p.pieceAt .black (sq 2 8) (sq 2 3) ∧
    CoreBB.backend.contains (p.inner.attackersTo CoreBB.backend .black (sq 2 3)
      (CoreBB.single (sq 2 5))) (sq 2 8) = false := by
  have h : ((Position.new env0 CoreBB.backend skirmish).any fun p =>
      CoreBB.backend.contains (p.inner.attackersTo CoreBB.backend .black (sq 2 3)
        (p.inner.occupiedBB CoreBB.backend)) (sq 2 8) &&
      !CoreBB.backend.contains (p.inner.attackersTo CoreBB.backend .black (sq 2 3)
        (CoreBB.single (sq 2 5))) (sq 2 8)) = true := by decide +kernel
  simp only [Option.any_eq_true, Bool.and_eq_true, Bool.not_eq_true'] at h
  obtain ⟨p, hp, h1, h2⟩ := h
  have hv : Visited env0 CoreBB.backend skirmish [] p := ⟨p, hp, .start⟩
  exact ⟨p, hv, (C71_attackers _ _ core_mem _ _ _ hv .black (sq 2 3) (sq 2 8)).2.1.1 h1, h2⟩

/-- C72: the rook's moves to 2c in `skirmish` are two, with and without promotion, and the drops on
7f are one (a knight; Black has a pawn on the file). -/
example : ∃ p st, Reached env0 CoreBB.backend skirmish [] p ∧ p.state = some st ∧
    p.inner.generateForHi CoreBB.backend [] (CoreBB.single (sq 2 3)) =
      some [.normal (sq 2 8) (sq 2 3) false, .normal (sq 2 8) (sq 2 3) true] ∧
    p.inner.generateDrop env0 CoreBB.backend st [] (CoreBB.single (sq 7 6)) =
      some [.drop (sq 7 6) ⟨.knight, .black⟩] ∧
    Built CoreBB.backend (CoreBB.single (sq 7 6)) ∧ p.pieceAt (sq 7 6) = none := by
  have h : ((Position.new env0 CoreBB.backend skirmish).any fun p => p.state.any fun st =>
      p.inner.generateForHi CoreBB.backend [] (CoreBB.single (sq 2 3)) ==
        some [.normal (sq 2 8) (sq 2 3) false, .normal (sq 2 8) (sq 2 3) true] &&
      p.inner.generateDrop env0 CoreBB.backend st [] (CoreBB.single (sq 7 6)) ==
        some [.drop (sq 7 6) ⟨.knight, .black⟩] &&
      p.pieceAt (sq 7 6) == none) = true := by decide +kernel
  simp only [Option.any_eq_true, Bool.and_eq_true, beq_iff_eq] at h
  obtain ⟨p, hp, st, hst, ⟨h1, h2⟩, h3⟩ := h
  exact ⟨p, st, ⟨p, hp, .start⟩, hst, h1, h2, .single _, h3⟩

/-- C73, not in check: in `skirmish` the filter refuses the pinned gold. -/
example : ∃ p, Reached env0 CoreBB.backend skirmish [] p ∧
    PseudoLegal (view p) (.normal (sq 5 8) (sq 4 8) false) ∧
    InCheck (apply (view p) (.normal (sq 5 8) (sq 4 8) false)).board p.sideToMove := by
  have h : ((Position.new env0 CoreBB.backend skirmish).any fun p => p.state.any fun st =>
      decide (PseudoLegal (view p) (.normal (sq 5 8) (sq 4 8) false)) &&
      decide (¬ InCheck p.pieceAt p.sideToMove) &&
      !p.inner.isLegal CoreBB.backend st (.normal (sq 5 8) (sq 4 8) false)) = true := by
    decide +kernel
  simp only [Option.any_eq_true, Bool.and_eq_true, decide_eq_true_eq, Bool.not_eq_true'] at h
  obtain ⟨p, hp, st, hst, ⟨h1, h2⟩, h3⟩ := h
  have hr : Reached env0 CoreBB.backend skirmish [] p := ⟨p, hp, .start⟩
  refine ⟨p, hr, h1, Classical.byContradiction fun hc => ?_⟩
  have := ((C73_generate_all _ _ core_mem _ skirmish_valid _ _ hr st hst).2 h2 _ h1).2 hc
  rw [h3] at this
  cases this

/-- White is checked by a lance from afar and can capture, block, drop and run. -/
def lanceCheck : CorePartialPosition where
  side := .white
  ply := 20#16
  hands := fun c => match c with
    | .black => handOf []
    | .white => handOf [(.pawn,1),(.gold,1)]
  board := boardOf ([
    (5,1,.king,.white),(4,4,.gold,.white),(5,6,.lance,.black),(9,6,.rook,.white),
    (5,9,.king,.black)])

theorem lanceCheck_valid : Valid (rootView lanceCheck) := by decide +kernel

/-- C73, in check: the evasions against a lance. -/
example : ∃ p st, Reached env0 CoreBB.backend lanceCheck [] p ∧ p.state = some st ∧
    InCheck p.pieceAt p.sideToMove ∧
    ∃ l, p.inner.generateEvasions env0 CoreBB.backend st [] = some l ∧ l.length = 15 ∧
      .normal (sq 9 6) (sq 5 6) false ∈ l ∧ .normal (sq 4 4) (sq 5 5) false ∈ l ∧
      .drop (sq 5 2) ⟨.pawn, .white⟩ ∈ l := by
  have h : ((Position.new env0 CoreBB.backend lanceCheck).any fun p => p.state.any fun st =>
      decide (InCheck p.pieceAt p.sideToMove) &&
      (p.inner.generateEvasions env0 CoreBB.backend st []).any fun l =>
        l.length == 15 && l.contains (.normal (sq 9 6) (sq 5 6) false) &&
        l.contains (.normal (sq 4 4) (sq 5 5) false) &&
        l.contains (.drop (sq 5 2) ⟨.pawn, .white⟩)) = true := by
    decide +kernel
  simp only [Option.any_eq_true, Bool.and_eq_true, decide_eq_true_eq, beq_iff_eq,
    List.contains_iff_mem] at h
  obtain ⟨p, hp, st, hst, h1, l, hl, ⟨⟨h2, h3⟩, h4⟩, h5⟩ := h
  exact ⟨p, st, ⟨p, hp, .start⟩, hst, h1, l, hl, h2, h3, h4, h5⟩

/-- C74: a pawn drop that mates. -/
example : ∃ p, Reached env0 CoreBB.backend dropMateRoot [] p ∧
    Mated (apply (view p) (.drop (sq 1 2) ⟨.pawn, p.sideToMove⟩)) := by
  have h : ((Position.new env0 CoreBB.backend dropMateRoot).any fun p => p.state.any fun st =>
      p.inner.isPawnDropMate CoreBB.backend st (sq 1 2) &&
      p.pieceAt (sq 1 1) == some ⟨.king, p.sideToMove.flip⟩ && p.pieceAt (sq 1 2) == none &&
      decide (Disp (sq 1 2) (sq 1 1) 0 (fwd p.sideToMove))) = true := by
    decide +kernel
  simp only [Option.any_eq_true, Bool.and_eq_true, decide_eq_true_eq, beq_iff_eq] at h
  obtain ⟨p, hp, st, hst, ⟨⟨h1, h2⟩, h3⟩, h4⟩ := h
  have hr : Reached env0 CoreBB.backend dropMateRoot [] p := ⟨p, hp, .start⟩
  exact ⟨p, hr, (C74_pawn_drop_mate _ _ core_mem _ dropMateRoot_valid _ _ hr st hst (sq 1 1) _ h2 h3
    h4).1 h1⟩

/-- C75: a set to shift and slide in. -/
example : Built CoreBB.backend (CoreBB.backend.or (CoreBB.single (sq 3 4)) (CoreBB.single (sq 3 7))) ∧
    (CoreBB.backend.iter (CoreBB.backend.shl
      (CoreBB.backend.or (CoreBB.single (sq 3 4)) (CoreBB.single (sq 3 7))))) = [sq 3 5, sq 3 8] ∧
    (CoreBB.backend.iter (CoreBB.backend.slidingPositiveConsecutive (CoreBB.single (sq 3 4))
      (CoreBB.backend.or (CoreBB.single (sq 3 4)) (CoreBB.single (sq 3 7))))) = [sq 3 4] :=
  ⟨.or (.single _) (.single _), by decide +kernel, by decide +kernel⟩

end

end Yasai.Props

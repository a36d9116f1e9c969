import Verif.Props.FirstKing
import Verif.Props.Machine
import Verif.Props.Collide

/-!
# C88: the API as a machine, from every position that `Position::new` accepts

C39 and C83 say what the calls answer from positions with at most one king a side and pawns as the
rules allow.  Here nothing is asked of the root, and of the moves only that no piece goes over another
or onto one of its own side.  Everything that `legal_moves` lists is of this kind.
-/

namespace Yasai.Props

open Yasai Spec

/-- `NewCheck` for the opponent's first king. -/
def NewCheckFirst (P : Pos) (m : Move) : Prop :=
  ∃ king s k, FirstKing (apply P m).board P.side.flip king ∧
    (apply P m).board s = some ⟨k, P.side⟩ ∧ k ≠ .king ∧
    Reaches (Occ (apply P m).board) k P.side s king ∧ ¬ AttacksFrom P.board P.side s king ∧
    ∀ frm pr, m = .normal frm s pr → ¬ Between s frm king

/-- What `in_check` answers. -/
def ReportedFirst (R : Pos) : List Move → Prop
  | [] => ∃ s, RecordedFirst R [] s
  | m :: ms => NewCheckFirst (current R ms) m

/-- What the `i`-th build collects before it looks at the kings: the moves possible by the rules, on SIMD
builds also those of pawns around the edge, and the drops of `DropListed`. -/
def Collected (i : Fin 4) (P : Pos) : Move → Prop
  | .normal frm to pr => PseudoLegal P (.normal frm to pr) ∨
      i ≠ 0 ∧ WrapMove P (fun t => ∀ k, P.board t ≠ some ⟨k, P.side⟩) (.normal frm to pr)
  | .drop to pc => DropListed P to pc.kind pc.color

/-- What is asked of a collected move when no check is reported. -/
def KeptSafe (P : Pos) : Move → Prop
  | .normal frm to pr =>
      (P.board frm = some ⟨.king, P.side⟩ → ∀ s, ¬ AttacksFrom P.board P.side.flip s to) ∧
      ∀ king, FirstKing P.board P.side king → king ≠ frm → NoNewAttackOn P king (.normal frm to pr)
  | .drop _ _ => True

/-- What is asked of a collected move when a check of the king on `king` is reported. -/
def AnswersFirst (P : Pos) (ms : List Move) (king : Square) : Move → Prop
  | .normal frm to pr =>
      (frm = king ∧ (∀ s, ¬ AttacksFrom P.board P.side.flip s to) ∧
        ∀ s, RecordedFirst P ms s → ¬ AttacksFrom (put P.board king none) P.side.flip s to) ∨
      (P.board frm ≠ some ⟨.king, P.side⟩ ∧ NoNewAttackOn P king (.normal frm to pr) ∧
        ∃ ch, (∀ s, RecordedFirst P ms s ↔ s = ch) ∧ (to = ch ∨ Between ch to king))
  | .drop to _ => ∃ ch, (∀ s, RecordedFirst P ms s ↔ s = ch) ∧ Between ch to king

/-- What `legal_moves` lists. -/
def ListedFirst (i : Fin 4) (R : Pos) (ms : List Move) (m : Move) : Prop :=
  Collected i (current R ms) m ∧
  (¬ ReportedFirst R ms → KeptSafe (current R ms) m) ∧
  (ReportedFirst R ms → ∃ king, FirstKing (current R ms).board (current R ms).side king ∧
    AnswersFirst (current R ms) ms king m)

/-- A call of `legal_moves` that looks for files without pawns: the mover has a pawn in hand and, if a
check is reported, it comes from one piece, with a square in between. -/
def AsksVacant (R : Pos) (ms : List Move) : Prop :=
  0 < (current R ms).hand (current R ms).side .pawn ∧
  (ReportedFirst R ms → ∃ king ch u, FirstKing (current R ms).board (current R ms).side king ∧
    (∀ s, RecordedFirst (current R ms) ms s ↔ s = ch) ∧ Between ch u king)

/-! ## The moves collected -/

theorem wraps_inj {c : Color} {frm frm' to : Square} (h : Wraps c frm to) (h' : Wraps c frm' to) :
    frm = frm' := by
  cases c <;> obtain ⟨h1, h2, h3, _⟩ := h <;> obtain ⟨h1', h2', h3', _⟩ := h' <;>
    apply Square.ext_coords <;> omega

theorem collected_unhindered {i : Fin 4} {P : Pos} {m : Move} (h : Collected i P m) :
    Unhindered P m := by
  cases m with
  | normal frm to pr =>
    rcases h with h | ⟨_, h1, h2, h3, _⟩
    · exact unhindered_of_pseudoLegal h
    · refine ⟨⟨_, h1⟩, ?_, h3, fun u hu => absurd hu (wraps_not_between h2 u).1⟩
      rintro rfl
      exact h3 _ h1
  | drop to pc => exact ⟨h.1, h.2.1, h.2.2.2.1⟩

/-- Codes of evasions, with one more for each square where a pawn may arrive around the edge. -/
theorem evasions_length {P : Pos} {king : Square} {R : Square → Prop} {G : List Move}
    (hn : G.Nodup)
    (h : ∀ m ∈ G, (∃ to, m = .normal king to false ∧ Step .king P.side king to) ∨
      ∃ ch, ((∃ frm to pr, m = .normal frm to pr ∧ (to = ch ∨ Between ch to king) ∧
          ((∃ k, P.board frm = some ⟨k, P.side⟩ ∧ Reaches (Occ P.board) k P.side frm to) ∨
              Wraps P.side frm to ∧ pr = false)) ∨
        ∃ to k, m = .drop to ⟨k, P.side⟩ ∧ Between ch to king) ∧
        ∀ s, R s ↔ s = ch) : G.length ≤ 288 := by
  have hch : ∃ ch, ∀ ch', (∀ s, R s ↔ s = ch') → ch' = ch := by
    by_cases hx : ∃ ch, ∀ s, R s ↔ s = ch
    · obtain ⟨ch, hx⟩ := hx
      exact ⟨ch, fun ch' h' => (hx ch').1 ((h' ch').2 rfl)⟩
    · exact ⟨king, fun ch' h' => absurd ⟨ch', h'⟩ hx⟩
  obtain ⟨ch, hch⟩ := hch
  let S : Move → Code ⊕ Nat → Prop := fun m x => match x with
    | .inl x => Coded P ch king m x
    | .inr j => ∃ frm to, m = .normal frm to false ∧ Wraps P.side frm to ∧ Nth ch king j to
  have hlen : ((codes P.side).map Sum.inl ++ (List.range 8).map Sum.inr :
      List (Code ⊕ Nat)).length = 288 := by
    rw [List.length_append, List.length_map, List.length_map, codes_length, List.length_range]
  rw [← hlen]
  refine length_le_of_rel (R := S) hn (fun m hm => ?_) (fun m _ m' _ x hx hx' => ?_)
  · have hl : (∃ x ∈ codes P.side, Coded P ch king m x) → ∃ x ∈ ((codes P.side).map Sum.inl ++
        (List.range 8).map Sum.inr : List (Code ⊕ Nat)), S m x := by
      rintro ⟨x, hx, hc⟩
      exact ⟨.inl x, List.mem_append_left _ (List.mem_map.2 ⟨x, hx, rfl⟩), hc⟩
    rcases h m hm with ⟨to, rfl, d, hd, h1⟩ | ⟨ch', h1, h2⟩
    · exact hl ⟨(0, d, none, false), List.mem_append_left _ (List.mem_append_left _
        (List.mem_map.2 ⟨d, hd, rfl⟩)), rfl, rfl, .inl ⟨rfl, rfl, h1⟩⟩
    · cases hch ch' h2
      rcases h1 with ⟨frm, to, pr, rfl, hto, ⟨k, hb, hr⟩ | ⟨hw, rfl⟩⟩ | ⟨to, k, rfl, hto⟩
      · obtain ⟨i, hi, hnth⟩ := nth_of_between hto
        obtain ⟨d, hd, n, hn, h1, h2⟩ := reaches_arrival hr
        refine hl ⟨(i + 1, d, none, pr), ?_, rfl, rfl, .inr ⟨i, rfl, hnth, ?_, n, hn, h1, h2⟩⟩
        · refine List.mem_append_left _ (List.mem_append_right _ ?_)
          refine List.mem_flatMap.2 ⟨i, hi, List.mem_flatMap.2 ⟨d, hd, ?_⟩⟩
          exact List.mem_map.2 ⟨pr, by cases pr <;> decide, rfl⟩
        · show P.board frm ≠ none
          rw [hb]; exact fun e => by cases e
      · obtain ⟨i, hi, hnth⟩ := nth_of_between hto
        exact ⟨.inr i, List.mem_append_right _ (List.mem_map.2 ⟨i, hi, rfl⟩), frm, to, rfl, hw, hnth⟩
      · obtain ⟨i, hi, hnth⟩ := nth_of_between (.inr hto)
        refine hl ⟨(i + 1, (0, 0), some k, false), ?_, rfl, rfl, i, rfl, hnth⟩
        refine List.mem_append_right _ (List.mem_flatMap.2 ⟨i, hi, ?_⟩)
        exact List.mem_map.2 ⟨k, by cases k <;> decide, rfl⟩
  · cases x with
    | inl x => exact coded_inj hx hx'
    | inr j =>
      obtain ⟨frm, to, rfl, hw, hj⟩ := hx
      obtain ⟨frm', to', rfl, hw', hj'⟩ := hx'
      cases nth_unique hj hj'
      cases wraps_inj hw hw'
      rfl

/-! ## The theorems -/

/-- C88, `is_check_move` and `in_check`. -/
theorem C88_checks (E : Env) (i : Fin 4) (J : Junk) (pp : CorePartialPosition) (ms : List Move)
    (p : Position) (h : Wandered E (buildAt i J) pp ms p) (m : Move)
    (hm : Unhindered (view p) m) (p' : Position) (hp : p.doMove E (buildAt i J) m = some p') :
    ∃ b, p.isCheckMove (buildAt i J) m = some b ∧ p'.inCheck (buildAt i J) = some b ∧
      (b = true ↔ NewCheckFirst (view p) m) := by
  have hK := buildAt_mem i J
  have L := lawful_of_mem hK
  have hr := (h.visited.consistent hK).1
  obtain ⟨b, hb, hbi⟩ := inCheck_after hK h hm hp
  refine ⟨b, ?_, hb, hbi.trans ?_⟩
  · rw [← hb]
    exact (inCheck_doMove L hr (h.caches hK) (by rw [← view_eq]; exact hm) hp).symm
  · have hf : ∀ s, FirstKing (apply (view p) m).board p.inner.side.flip s ↔
        FirstKing p.inner.board p.inner.side.flip s := by
      intro s
      unfold FirstKing
      simp only [kings_kept hm hp]
    unfold NewCheckFirst
    refine exists_congr fun king => ?_
    rw [h.visited.kingPosition hK, ← hf]
    constructor
    · rintro ⟨a, s, k, b⟩
      exact ⟨s, k, a, b⟩
    · rintro ⟨s, k, a, b⟩
      exact ⟨a, s, k, b⟩

theorem Wandered.reported {E : Env} {i : Fin 4} {J : Junk} {pp : CorePartialPosition}
    {ms : List Move} {p : Position} (h : Wandered E (buildAt i J) pp ms p) :
    ∃ b, p.inCheck (buildAt i J) = some b ∧ (b = true ↔ ReportedFirst (rootView pp) ms) := by
  have hK := buildAt_mem i J
  obtain ⟨p0, h0, hs⟩ := h
  have hp := hs.play hK (fun _ _ h => shape_of_unhindered h)
  clear hs
  cases hp with
  | start =>
    obtain ⟨b, hb, hbi⟩ := C87_in_check E i J pp p h0
    rw [view_new hK h0] at hbi
    exact ⟨b, hb, hbi⟩
  | @move ms' q _ m hq ha hm =>
    have hq' : Wandered E (buildAt i J) pp ms' q := ⟨p0, h0, hq.session⟩
    obtain ⟨b, _, hb, hbi⟩ := C88_checks E i J pp ms' q hq' m ha p hm
    rw [hq'.visited.current hK] at hbi
    exact ⟨b, hb, hbi⟩

/-- C88.  From every position that `Position::new` accepts, after every history of unhindered moves and
takebacks, in every build: the board, hands and side shown are the root with the moves in force applied;
`in_check` answers what `ReportedFirst` says; `legal_moves` lists, without repetition, the moves that
`ListedFirst` describes, all of them unhindered; it panics if and only if no check is reported and there
are more than 593 moves to collect; with a check reported it lists at most 288 moves.  On the portable
build, if the files without pawns are asked for, the mover's pawns must not make this search run over
(C80). -/
theorem C88_machine (E : Env) (i : Fin 4) (J : Junk) (pp : CorePartialPosition) (ms : List Move)
    (p : Position) (h : Wandered E (buildAt i J) pp ms p)
    (hin : i = 0 → AsksVacant (rootView pp) ms →
      ¬ RunsOut (pawnsOf (current (rootView pp) ms)) 7 ∧
      ¬ RunsOut (pawnsOf (current (rootView pp) ms)) 9) :
    view p = current (rootView pp) ms ∧
    (∃ b, p.inCheck (buildAt i J) = some b ∧ (b = true ↔ ReportedFirst (rootView pp) ms)) ∧
    (∀ l, p.legalMoves E (buildAt i J) = some l → l.Nodup ∧
      (∀ m, m ∈ l ↔ ListedFirst i (rootView pp) ms m) ∧
      (∀ m ∈ l, Unhindered (current (rootView pp) ms) m) ∧
      (ReportedFirst (rootView pp) ms → l.length ≤ 288)) ∧
    (p.legalMoves E (buildAt i J) = none ↔ ¬ ReportedFirst (rootView pp) ms ∧
      ∃ l : List Move, l.Nodup ∧ l.length = 594 ∧ ∀ m ∈ l, Collected i (current (rootView pp) ms) m) := by
  have hK := buildAt_mem i J
  have hcur := h.visited.current hK
  have hin' : i = 0 → AsksVacant (rootView pp) ms →
      ¬ RunsOut (OwnPawn p) 7 ∧ ¬ RunsOut (OwnPawn p) 9 := by
    rw [← hcur] at hin
    exact hin
  unfold AsksVacant at hin'
  rw [← hcur] at hin'
  obtain ⟨b, hb, hbr⟩ := h.reported
  refine ⟨hcur, ⟨b, hb, hbr⟩, ?_⟩
  have hmax : maxLegalMoves = 593 := rfl
  cases b with
  | false =>
    have hno : ¬ ReportedFirst (rootView pp) ms := fun e => by have := hbr.2 e; cases this
    have hin' := fun hi h0 => hin' hi ⟨h0, fun e => absurd e hno⟩
    constructor
    · intro l hl
      obtain ⟨hnd, h1, h2⟩ := C87_no_check E i J pp ms p h.visited hin' hb l hl
      have hmem : ∀ m, m ∈ l ↔ ListedFirst i (rootView pp) ms m := by
        intro m
        unfold ListedFirst
        rw [← hcur, and_iff_left (fun e => absurd e hno), forall_prop_of_true hno]
        cases m with
        | normal frm to pr => exact h1 frm to pr
        | drop to pc => exact (h2 to pc.kind pc.color).trans (and_iff_left trivial).symm
      exact ⟨hnd, hmem, fun m hm => collected_unhindered ((hmem m).1 hm).1, fun e => absurd e hno⟩
    · obtain ⟨st, G, hst, heq, _, hnd, hall⟩ := collected_noCheck h.visited hin' hb
      have hG : ∀ m, m ∈ G ↔ Collected i (current (rootView pp) ms) m := by
        intro m
        rw [hall, ← hcur]
        cases m with
        | normal frm to pr =>
          constructor
          · rintro (⟨_, _, _, e, h⟩ | ⟨_, _, _, e, _⟩)
            · cases e; exact h
            · cases e
          · exact fun h => .inl ⟨frm, to, pr, rfl, h⟩
        | drop to pc =>
          constructor
          · rintro (⟨_, _, _, e, _⟩ | ⟨_, _, _, e, hd⟩)
            · cases e
            · cases e; exact hd
          · exact fun hd => .inr ⟨to, pc.kind, pc.color, rfl, hd⟩
      rw [heq, legalList, Option.map_eq_none_iff, appendAll_nil_none, and_iff_right hno]
      constructor
      · intro hlt
        exact ⟨G.take 594, hnd.sublist (List.take_sublist ..), by rw [List.length_take]; omega,
          fun m hm => (hG m).1 (List.mem_of_mem_take hm)⟩
      · rintro ⟨l, hn, hlen, hl⟩
        have := length_le_of_nodup_subset hn fun m hm => (hG m).2 (hl m hm)
        omega
  | true =>
    have hyes : ReportedFirst (rootView pp) ms := hbr.1 rfl
    have hin' := fun hi h0 king ch u h1 h2 h3 => hin' hi ⟨h0, fun _ => ⟨king, ch, u, h1, h2, h3⟩⟩
    obtain ⟨st, G, king, hst, heq, hnd, hcode, _⟩ := collected_check h hin' hb
    have hlen : G.length ≤ 288 := evasions_length (P := p.inner.spec) hnd hcode
    constructor
    · intro l hl
      obtain ⟨king, hfk, _, _, hnd, h1, h2, h3⟩ := C87_check E i J pp ms p h hin' hb l hl
      have hfu : ∀ k, FirstKing (view p).board (view p).side k → k = king :=
        fun k hk => Fin.le_antisymm (hk.2 _ hfk.1) (hfk.2 _ hk.1)
      have hmem : ∀ m, m ∈ l ↔ ListedFirst i (rootView pp) ms m := by
        intro m
        unfold ListedFirst
        rw [← hcur, and_iff_right (fun e => absurd hyes e), forall_prop_of_true hyes]
        have hex : (∃ k, FirstKing (view p).board (view p).side k ∧ AnswersFirst (view p) ms k m) ↔
            AnswersFirst (view p) ms king m :=
          ⟨fun ⟨k, hk, ha⟩ => hfu k hk ▸ ha, fun ha => ⟨king, hfk, ha⟩⟩
        rw [hex]
        cases m with
        | normal frm to pr =>
          by_cases hf : frm = king
          · subst hf
            rw [h1]
            constructor
            · rintro ⟨a, b⟩
              exact ⟨.inl a, .inl ⟨rfl, b⟩⟩
            · rintro ⟨a, ⟨_, b⟩ | ⟨b, _⟩⟩
              · rcases a with a | ⟨_, a, _⟩
                · exact ⟨a, b⟩
                · have e : p.pieceAt frm = _ := a
                  rw [show p.pieceAt frm = _ from hfk.1] at e
                  cases e
              · exact absurd hfk.1 b
          · rw [h2 frm to pr hf]
            constructor
            · rintro ⟨a, b⟩
              exact ⟨a, .inr b⟩
            · rintro ⟨a, ⟨b, _⟩ | b⟩
              · exact absurd b hf
              · exact ⟨a, b⟩
        | drop to pc => exact h3 to pc.kind pc.color
      refine ⟨hnd, hmem, fun m hm => collected_unhindered ((hmem m).1 hm).1, fun _ => ?_⟩
      refine Nat.le_trans ?_ hlen
      rw [(legalList_perm (heq.symm.trans hl)).length_eq]
      exact List.length_filter_le ..
    · rw [heq, legalList, Option.map_eq_none_iff, appendAll_nil_none]
      constructor
      · intro e; omega
      · exact fun e => absurd hyes e.1

/-- C88.  Play with whatever `legal_moves` lists is unhindered play. -/
theorem C88_listed_play (E : Env) (i : Fin 4) (J : Junk) (pp : CorePartialPosition) (ms : List Move)
    (p : Position) (h : Wandered E (buildAt i J) pp ms p)
    (hin : i = 0 → AsksVacant (rootView pp) ms →
      ¬ RunsOut (pawnsOf (current (rootView pp) ms)) 7 ∧
      ¬ RunsOut (pawnsOf (current (rootView pp) ms)) 9)
    (l : List Move) (hl : p.legalMoves E (buildAt i J) = some l) (m : Move) (hm : m ∈ l)
    (p' : Position) (hp : p.doMove E (buildAt i J) m = some p') :
    Wandered E (buildAt i J) pp (m :: ms) p' := by
  obtain ⟨hcur, _, h1, _⟩ := C88_machine E i J pp ms p h hin
  have hu := (h1 l hl).2.2.1 m hm
  rw [← hcur] at hu
  obtain ⟨p0, h0, hs⟩ := h
  exact ⟨p0, h0, .move hs hu hp⟩

theorem collected_same {i j : Fin 4} {P : Pos} (hij : (i = 0 ↔ j = 0) ∨ ∀ s, ¬ (P.board s =
    some ⟨.pawn, P.side⟩ ∧ Dead .pawn P.side s)) (m : Move) : Collected i P m ↔ Collected j P m := by
  cases m with
  | drop to pc => exact Iff.rfl
  | normal frm to pr =>
    rcases hij with hij | hd
    · unfold Collected
      rw [Ne, Ne, hij]
    · have hw : ∀ T, ¬ WrapMove P T (.normal frm to pr) := by
        rintro T ⟨h1, h2, _⟩
        refine hd frm ⟨h1, ?_⟩
        revert h2
        cases P.side <;> exact fun h2 => h2.1
      unfold Collected
      simp only [hw, and_false]

/-- C88.  Two positions with the same root and the same moves in force answer alike, whatever the hash
table and the moves made and taken back in between, on any two SIMD builds, and on all builds while the
mover has no pawn on the last rank. -/
theorem C88_same_answers (E E' : Env) (i j : Fin 4) (J J' : Junk) (pp pp' : CorePartialPosition)
    (hroot : rootView pp' = rootView pp) (ms : List Move) (p p' : Position)
    (h : Wandered E (buildAt i J) pp ms p) (h' : Wandered E' (buildAt j J') pp' ms p')
    (hij : (i = 0 ↔ j = 0) ∨
      ∀ s, p.pieceAt s = some ⟨.pawn, p.sideToMove⟩ → ¬ Dead .pawn p.sideToMove s)
    (hin : i = 0 ∨ j = 0 → AsksVacant (rootView pp) ms →
      ¬ RunsOut (OwnPawn p) 7 ∧ ¬ RunsOut (OwnPawn p) 9) :
    view p' = view p ∧ p'.inCheck (buildAt j J') = p.inCheck (buildAt i J) ∧
    (p'.legalMoves E' (buildAt j J') = none ↔ p.legalMoves E (buildAt i J) = none) ∧
    ∀ l l', p.legalMoves E (buildAt i J) = some l → p'.legalMoves E' (buildAt j J') = some l' →
      l'.Perm l := by
  have hcur := h.visited.current (buildAt_mem i J)
  have hin1 : i = 0 ∨ j = 0 → AsksVacant (rootView pp) ms → ¬ RunsOut (pawnsOf (current (rootView pp) ms)) 7 ∧
      ¬ RunsOut (pawnsOf (current (rootView pp) ms)) 9 := by
    rw [← hcur]
    exact hin
  have hij1 : (i = 0 ↔ j = 0) ∨ ∀ s, ¬ ((current (rootView pp) ms).board s =
      some ⟨.pawn, (current (rootView pp) ms).side⟩ ∧ Dead .pawn (current (rootView pp) ms).side s) := by
    rw [← hcur]
    exact hij.imp_right fun h s hs => h s hs.1 hs.2
  have hco := collected_same hij1
  obtain ⟨a1, ⟨b, a2, a3⟩, a4, a5⟩ := C88_machine E i J pp ms p h fun e => hin1 (.inl e)
  obtain ⟨b1, ⟨b', b2, b3⟩, b4, b5⟩ := C88_machine E' j J' pp' ms p' h' (by
    rw [hroot]
    exact fun e => hin1 (.inr e))
  rw [hroot] at b1 b3 b4 b5
  refine ⟨b1.trans a1.symm, ?_, ?_, fun l l' hl hl' => ?_⟩
  · rw [a2, b2]
    congr 1
    rw [Bool.eq_iff_iff]
    exact b3.trans a3.symm
  · rw [b5, a5]
    simp only [hco]
  · refine (List.perm_ext_iff_of_nodup (b4 l' hl').1 (a4 l hl).1).2 fun m => ?_
    rw [(b4 l' hl').2.1 m, (a4 l hl).2.1 m]
    unfold ListedFirst
    rw [hco]

section
open Examples

/-- Two white kings, and a black pawn on the last rank. -/
def roundTheEdge : CorePartialPosition where
  side := .black
  ply := 1#16
  hands := fun _ => handOf []
  board := boardOf [(5,1,.pawn,.black),(9,9,.king,.black),(4,8,.king,.white),(7,3,.king,.white)]

/-- Whether the pawn's move is listed, what `is_check_move` says of it, what `in_check` answers after
it, and which of the moves are listed then. -/
def afterRound (i : Fin 4) (ms : List Move) : Option (Bool × Option Bool × Option Bool × List Bool) :=
  (Position.new env0 (buildAt i otherJunk) roundTheEdge).bind fun p =>
    (p.legalMoves env0 (buildAt i otherJunk)).bind fun l =>
      (p.doMove env0 (buildAt i otherJunk) (.normal (sq 5 1) (sq 4 9) false)).bind fun p' =>
        (p'.legalMoves env0 (buildAt i otherJunk)).map fun l' =>
          (l.any (· == .normal (sq 5 1) (sq 4 9) false),
            p.isCheckMove (buildAt i otherJunk) (.normal (sq 5 1) (sq 4 9) false),
            p'.inCheck (buildAt i otherJunk), ms.map fun m => l'.any (· == m))

/-- The pawn goes around the edge where the build is a SIMD one, and gives check to the first king.  This
king may take it; the other may not move. -/
theorem C88_example (i : Fin 4) :
    afterRound i [.normal (sq 4 8) (sq 4 9) false, .normal (sq 7 3) (sq 7 2) false] =
      some (i != 0, some true, some true, [true, false]) := by
  revert i
  decide +kernel

/-- The hypotheses of the theorems hold after this move. -/
example (i : Fin 4) : ∃ p, Wandered env0 (buildAt i otherJunk) roundTheEdge
      [.normal (sq 5 1) (sq 4 9) false] p ∧
    (∀ f, ¬ RunsOut (OwnPawn p) f) ∧
    ReportedFirst (rootView roundTheEdge) [.normal (sq 5 1) (sq 4 9) false] ∧
    ListedFirst i (rootView roundTheEdge) [.normal (sq 5 1) (sq 4 9) false]
      (.normal (sq 4 8) (sq 4 9) false) ∧
    ¬ ListedFirst i (rootView roundTheEdge) [.normal (sq 5 1) (sq 4 9) false]
      (.normal (sq 7 3) (sq 7 2) false) := by
  have h := C88_example i
  unfold afterRound at h
  obtain ⟨q, hq, h⟩ := Option.bind_eq_some_iff.1 h
  obtain ⟨l, hl, h⟩ := Option.bind_eq_some_iff.1 h
  obtain ⟨p, hp, h⟩ := Option.bind_eq_some_iff.1 h
  obtain ⟨l', hl', h⟩ := Option.map_eq_some_iff.1 h
  simp only [Prod.mk.injEq, List.map_cons, List.map_nil, List.cons.injEq, and_true,
    List.any_eq_true, beq_iff_eq, exists_eq_right] at h
  obtain ⟨_, _, hc, hl1, hl2⟩ := h
  have hu : Unhindered (view q) (.normal (sq 5 1) (sq 4 9) false) := by
    rw [view_new (buildAt_mem i otherJunk) hq]
    refine ⟨⟨.pawn, by decide⟩, by decide, ?_, ?_⟩
    · intro k
      have : (rootView roundTheEdge).board (sq 4 9) = none := by decide
      rw [this]
      exact fun e => by cases e
    · intro u hu
      exact absurd hu (wraps_not_between (c := .black) ⟨by decide, by decide, by decide, by decide⟩ u).1
  have hw : Wandered env0 (buildAt i otherJunk) roundTheEdge [.normal (sq 5 1) (sq 4 9) false] p :=
    ⟨q, hq, .move .start hu hp⟩
  have hcur := hw.visited.current (buildAt_mem i otherJunk)
  have hno : ∀ s, OwnPawn p s = false := by
    have : ∀ s, pawnsOf (current (rootView roundTheEdge) [.normal (sq 5 1) (sq 4 9) false]) s = false := by
      decide +kernel
    rw [← hcur] at this
    exact this
  have hrun : ∀ f, ¬ RunsOut (OwnPawn p) f := by
    rintro f ⟨_, _, ⟨s, _, hs, _⟩, _⟩
    rw [hno] at hs
    cases hs
  obtain ⟨_, ⟨b, hb, hbi⟩, hm, _⟩ := C88_machine env0 i otherJunk _ _ p hw (by
    rw [← hcur]
    exact fun _ _ => ⟨hrun 7, hrun 9⟩)
  obtain ⟨_, hm, _⟩ := hm l' hl'
  rw [hc] at hb
  refine ⟨p, hw, hrun, hbi.1 (Option.some.inj hb).symm, (hm _).1 hl1, fun e => ?_⟩
  rw [List.any_eq_false] at hl2
  exact hl2 _ ((hm _).2 e) (by simp)

end

end Yasai.Props

import Verif.Props.Caches
import Verif.Props.Contracts
import Verif.Proofs.GenList

/-!
# C95: who gives check after a legal move
-/

namespace Yasai.Props

open Yasai Spec

/-- The square where the moved or dropped piece stands. -/
def landing : Move → Square
  | .normal _ to _ => to
  | .drop to _ => to

theorem slides_kind {k : PieceKind} {c : Color} {s t : Square} (h : Slide k c s t) :
    k ∈ [PieceKind.lance, .bishop, .rook, .proBishop, .proRook] := by
  obtain ⟨d, hd, _⟩ := h
  cases k <;> first | decide | cases hd

/-- A piece that attacks the other king after the move, and does not stand where the move ended, was
uncovered by it. -/
theorem uncovered {P : Pos} (hn : ¬ InCheck P.board P.side.flip) {m : Move} (hm : PseudoLegal P m)
    {king s : Square} (hk : (apply P m).board king = some ⟨.king, P.side.flip⟩)
    (ha : AttacksFrom (apply P m).board P.side s king) (hs : s ≠ landing m) :
    ∃ frm to pr k, m = .normal frm to pr ∧ (apply P m).board s = some ⟨k, P.side⟩ ∧ Slide k P.side s king ∧
      Between s frm king ∧ ∀ u, Between s u king → ¬ Occ (apply P m).board u := by
  obtain ⟨k, hb, hr⟩ := ha
  have hflip : P.side.flip ≠ P.side := by cases P.side <;> decide
  cases m with
  | drop to pc =>
    obtain ⟨hc, _, _, he, _⟩ := hm
    simp only [landing] at hs
    have hkt : king ≠ to := by
      rintro rfl
      simp only [apply, put, if_true, Option.some.injEq] at hk
      rw [hk] at hc
      exact hflip hc
    simp only [apply, put, if_neg hs] at hb
    simp only [apply, put, if_neg hkt] at hk
    refine absurd ⟨king, hk, s, k, by rw [flip_flip]; exact hb, ?_⟩ hn
    rw [flip_flip]
    rw [reaches_iff] at hr ⊢
    refine hr.imp id fun ⟨h1, h2⟩ => ⟨h1, fun u hu ho => h2 u hu ?_⟩
    simp only [Occ, apply, put]
    split
    · exact Option.some_ne_none _
    · exact ho
  | normal frm to pr =>
    obtain ⟨k0, hf, hr0, hto, _⟩ := hm
    have hne : frm ≠ to := reaches_ne hr0
    simp only [landing] at hs
    have hboard : ∀ u, (apply P (.normal frm to pr)).board u =
        if u = to then some ⟨movedKind k0 pr, P.side⟩ else if u = frm then none else P.board u := by
      intro u; simp only [apply, hf, put]
    have hkt : king ≠ to := by
      rintro rfl
      rw [hboard, if_pos rfl] at hk
      simp only [Option.some.injEq, Piece.mk.injEq] at hk
      exact hflip hk.2.symm
    have hk' : P.board king = some ⟨.king, P.side.flip⟩ := by
      rw [hboard, if_neg hkt] at hk
      split at hk
      · cases hk
      · exact hk
    have hb' : P.board s = some ⟨k, P.side⟩ := by
      rw [hboard, if_neg hs] at hb
      split at hb
      · cases hb
      · exact hb
    have hno : ¬ Reaches (Occ P.board) k P.side s king := fun h =>
      hn ⟨king, hk', s, k, by rw [flip_flip]; exact hb', by rw [flip_flip]; exact h⟩
    rw [reaches_iff] at hr hno
    rcases hr with h | ⟨h1, h2⟩
    · exact absurd (.inl h) hno
    · refine ⟨frm, to, pr, k, rfl, hb, h1, Classical.byContradiction fun hB => hno (.inr ⟨h1, ?_⟩), h2⟩
      intro u hu ho
      refine h2 u hu ?_
      unfold Occ
      rw [hboard]
      split
      · exact Option.some_ne_none _
      · rw [if_neg (fun e : u = frm => hB (by rw [← e]; exact hu))]
        exact ho

/-- At most one piece is uncovered. -/
theorem uncovered_unique {P : Pos} (hn : ¬ InCheck P.board P.side.flip) {m : Move} (hm : PseudoLegal P m)
    {king s t : Square} (hk : (apply P m).board king = some ⟨.king, P.side.flip⟩)
    (ha : AttacksFrom (apply P m).board P.side s king) (hs : s ≠ landing m)
    (ha' : AttacksFrom (apply P m).board P.side t king) (ht : t ≠ landing m) : s = t := by
  obtain ⟨frm, to, pr, k, rfl, hb, _, hB, hc⟩ := uncovered hn hm hk ha hs
  obtain ⟨frm', to', pr', k', e, hb', _, hB', hc'⟩ := uncovered hn hm hk ha' ht
  cases e
  rcases between_beyond (between_symm hB) (between_symm hB') with h | h | h
  · exact h
  · exact absurd (by unfold Occ; rw [hb]; exact Option.some_ne_none _) (hc' s (between_symm h))
  · exact absurd (by unfold Occ; rw [hb']; exact Option.some_ne_none _) (hc t (between_symm h))

theorem length_le_two {l : List Square} (hn : l.Nodup) (x : Square)
    (h : ∀ s ∈ l, ∀ t ∈ l, s ≠ x → t ≠ x → s = t) : l.length ≤ 2 := by
  match l, hn, h with
  | [], _, _ => simp
  | [_], _, _ => simp
  | [_, _], _, _ => simp
  | a :: b :: c :: l, hn, h =>
    exfalso
    simp only [List.nodup_cons, List.mem_cons, not_or] at hn
    obtain ⟨⟨hab, hac, _⟩, ⟨hbc, _⟩, _⟩ := hn
    by_cases ha : a = x
    · subst ha
      exact hbc (h b (by simp) c (by simp) (Ne.symm hab) (Ne.symm hac))
    · by_cases hb : b = x
      · subst hb
        exact hac (h a (by simp) c (by simp) hab (Ne.symm hbc))
      · exact hab (h a (by simp) b (by simp) ha hb)

/-- The last move of a history, with the position before it. -/
theorem Reached.lastMove {E : Env} {K : Backend} (hK : K ∈ backends) {pp : CorePartialPosition}
    {m : Move} {ms : List Move} {p : Position} (h : Reached E K pp (m :: ms) p) :
    ∃ p', Reached E K pp ms p' ∧ Legal (view p') m ∧ p'.doMove E K m = some p := by
  obtain ⟨p0, h0, hs⟩ := h
  have hp := hs.play hK (fun _ _ h => shape_of_legal h)
  cases hp with
  | move h1 ha hm => exact ⟨_, ⟨p0, h0, h1.session⟩, ha, hm⟩

/-- **C95**.  After any legal play with at least one move in force, `m` being the last: every square of
`checkers()` is where `m` ended or carries a lance, bishop, rook, horse or dragon in front of which `m`
left the line to the king; no king is among the checkers; at most one checker stands elsewhere than where
`m` ended; so there are at most two, and after a drop at most one. -/
theorem C95_checkers (E : Env) (K : Backend) (hK : K ∈ backends) (pp : CorePartialPosition)
    (hv : Valid (rootView pp)) (m : Move) (ms : List Move) (p : Position)
    (h : Reached E K pp (m :: ms) p) :
    ∃ st, p.state = some st ∧
      (∀ s, K.contains st.attackInfo.checkers s = true →
        ∃ k king, p.pieceAt s = some ⟨k, p.sideToMove.flip⟩ ∧ k ≠ .king ∧
          p.pieceAt king = some ⟨.king, p.sideToMove⟩ ∧
          (s = landing m ∨
            ∃ frm to pr, m = .normal frm to pr ∧ Between s frm king ∧
              k ∈ [PieceKind.lance, .bishop, .rook, .proBishop, .proRook])) ∧
      (∀ s t, K.contains st.attackInfo.checkers s = true → K.contains st.attackInfo.checkers t = true →
        s ≠ landing m → t ≠ landing m → s = t) ∧
      (K.iter st.attackInfo.checkers).length ≤ 2 ∧
      (∀ to pc, m = .drop to pc → (K.iter st.attackInfo.checkers).length ≤ 1) := by
  have L := lawful_of_mem hK
  obtain ⟨st, hst, hch, _, _⟩ := C38_caches_exact E K hK pp hv _ p h
  obtain ⟨p', h', hl, hd⟩ := h.lastMove hK
  have hv' := (reached_inv hK hv h').2
  have hview := (C03_do_move_is_rules E K p' p m hd).1
  have hside : p.sideToMove = (view p').side.flip := by
    have e : (view p).side = p.sideToMove := rfl
    rw [← e, hview]
    have := hl.1.1
    revert this
    cases m with
    | normal frm to pr => rintro ⟨k, hf, _⟩; simp only [apply, hf]
    | drop to pc => intro _; rfl
  have hb : p.pieceAt = (apply (view p') m).board := by rw [← hview]; rfl
  rw [hside, flip_flip, hb] at hch
  have uniq : ∀ s t, K.contains st.attackInfo.checkers s = true →
      K.contains st.attackInfo.checkers t = true → s ≠ landing m → t ≠ landing m → s = t := by
    intro s t hs ht hs' ht'
    obtain ⟨king, hk, ha⟩ := (hch s).1 hs
    obtain ⟨king', hk', ha'⟩ := (hch t).1 ht
    have : king' = king := by
      have := (reached_inv hK hv h).2.oneKing p.sideToMove king' king
      rw [hside] at this
      exact this (by rw [hview]; exact hk') (by rw [hview]; exact hk)
    subst this
    exact uncovered_unique hv'.notInCheck hl.1.1 hk ha hs' ha' ht'
  have hok : Ok st.attackInfo.checkers := by
    obtain ⟨⟨hr, st', hst', hai⟩, _⟩ := reached_inv hK hv h
    rw [hst] at hst'
    cases hst'
    rw [hai]
    exact ok_calculateCheckers L hr.okBoards
  have hmem : ∀ s, s ∈ K.iter st.attackInfo.checkers ↔ K.contains st.attackInfo.checkers s = true := by
    intro s
    rw [mem_iter L hok, L.contains]
  have hnd : (K.iter st.attackInfo.checkers).Nodup := nodup_iter L hok
  refine ⟨st, hst, ?_, uniq, ?_, ?_⟩
  · intro s hs
    obtain ⟨king, hk, ha⟩ := (hch s).1 hs
    obtain ⟨k, hbs, hr⟩ := id ha
    refine ⟨k, king, by rw [hb, hside, flip_flip]; exact hbs, ?_, by rw [hb, hside]; exact hk, ?_⟩
    · rintro rfl
      refine hl.1.2 ⟨s, hbs, king, .king, hk, ?_⟩
      rw [reaches_iff] at hr ⊢
      rcases hr with h | ⟨⟨d, hd, _⟩, _⟩
      · exact .inl (step_symm h)
      · cases hd
    · by_cases e : s = landing m
      · exact .inl e
      · obtain ⟨frm, to, pr, k', hm, hb', hsl, hB, _⟩ := uncovered hv'.notInCheck hl.1.1 hk ha e
        rw [hbs] at hb'
        cases hb'
        exact .inr ⟨frm, to, pr, hm, hB, slides_kind hsl⟩
  · exact length_le_two hnd (landing m) fun s hs t ht => uniq s t ((hmem s).1 hs) ((hmem t).1 ht)
  · rintro to pc rfl
    have each : ∀ s ∈ K.iter st.attackInfo.checkers, s = to := by
      intro s hs
      obtain ⟨king, hk, ha⟩ := (hch s).1 ((hmem s).1 hs)
      refine Classical.byContradiction fun e => ?_
      obtain ⟨_, _, _, _, hm, _⟩ := uncovered hv'.notInCheck hl.1.1 hk ha e
      cases hm
    match hit : K.iter st.attackInfo.checkers with
    | [] => simp
    | [_] => simp
    | a :: b :: l =>
      rw [hit] at each hnd
      rw [each a (by simp), each b (by simp)] at hnd
      simp at hnd

section
open Yasai.Examples

/-- The gold can step off the file of the rook and give check itself. -/
def battery : CorePartialPosition where
  side := .black
  ply := 1#16
  hands := fun _ => handOf []
  board := boardOf [(9,9,.king,.black),(5,1,.king,.white),(5,9,.rook,.black),(5,3,.gold,.black)]

/-- Three pieces give check at once, which no legal move does. -/
def threeChecks : CorePartialPosition where
  side := .white
  ply := 1#16
  hands := fun _ => handOf []
  board := boardOf [(9,9,.king,.black),(5,1,.king,.white),(5,9,.rook,.black),(4,2,.gold,.black),
    (9,5,.bishop,.black)]

/-- The checkers on the `i`-th build after the moves. -/
def checkersAfter (i : Fin 4) (pp : CorePartialPosition) (ms : List Move) : Option (List Square) := do
  let K := buildAt i otherJunk
  let p ← Position.new env0 K pp
  let p ← ms.foldlM (fun p m => p.doMove env0 K m) p
  let st ← p.state
  pure (K.iter st.attackInfo.checkers)

/-- The bound is attained by a legal move from a valid root, and it is a bound on what moves do: a root
may have more checkers. -/
theorem C95_example : Valid (rootView battery) ∧
    Legal (rootView battery) (.normal (sq 5 3) (sq 4 2) false) ∧
    Valid (rootView threeChecks) ∧
    ∀ i, checkersAfter i battery [.normal (sq 5 3) (sq 4 2) false] = some [sq 4 2, sq 5 9] ∧
      checkersAfter i threeChecks [] = some [sq 4 2, sq 5 9, sq 9 5] := by
  refine ⟨?_, ?_, ?_, ?_⟩ <;> decide +kernel

end

end Yasai.Props

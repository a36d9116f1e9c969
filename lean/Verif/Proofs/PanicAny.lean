import Verif.Proofs.PanicExact
import Verif.Proofs.Complete

/-!
# When `legal_moves` panics, however the position arose
-/

namespace Yasai

open Spec

section
variable {E : Env} {K : Backend} {q : PartialPosition} {st : State} {king : Square}

/-- With a recorded check at most 280 moves are generated, with any number of kings. -/
theorem evList_length_sound (hK : Lawful K) (h : Repr q) (hv : PawnsOk q.spec)
    (hcs : CheckersSound K q st.attackInfo.checkers) (hk : q.kingPosition K q.side = some king)
    (attacks : BB) : (evList E K q st king attacks).length ≤ 280 := by
  have hn := (evList_sound (E := E) hK h hv hcs hk attacks).1
  have hk' : ∀ m ∈ kingEvasions K q king attacks, ∀ ch, ∃ x ∈ codes q.side,
      Coded q.spec ch king m x := by
    intro m hm ch
    obtain ⟨to, rfl, ⟨d, hd, h1⟩, _⟩ := (mem_kingEvasions hK h _ m).1 hm
    exact ⟨(0, d, none, false), List.mem_append_left _ (List.mem_append_left _
      (List.mem_map.2 ⟨d, hd, rfl⟩)), rfl, rfl, .inl ⟨rfl, rfl, h1⟩⟩
  have hall : ∃ ch, ∀ m ∈ evList E K q st king attacks, ∃ x ∈ codes q.side,
      Coded q.spec ch king m x := by
    unfold evList
    split
    · next ch hch =>
      refine ⟨ch, fun m hm => ?_⟩
      rcases List.mem_append.1 hm with hm | hm
      · exact hk' m hm ch
      · obtain ⟨hp, _, hto⟩ := (otherEvasions_sound hK h hv hcs hk hch).2 m hm
        cases m with
        | normal frm to pr =>
          obtain ⟨i, hi, hnth⟩ := nth_of_between hto
          obtain ⟨k, hb, hr, _⟩ := hp
          obtain ⟨d, hd, n, hn, h1, h2⟩ := reaches_arrival hr
          refine ⟨(i + 1, d, none, pr), ?_, rfl, rfl, .inr ⟨i, rfl, hnth, ?_, n, hn, h1, h2⟩⟩
          · refine List.mem_append_left _ (List.mem_append_right _ ?_)
            refine List.mem_flatMap.2 ⟨i, hi, List.mem_flatMap.2 ⟨d, hd, ?_⟩⟩
            exact List.mem_map.2 ⟨pr, by cases pr <;> decide, rfl⟩
          · show q.spec.board frm ≠ none
            rw [hb]; exact fun e => by cases e
        | drop to pc =>
          obtain ⟨i, hi, hnth⟩ := nth_of_between (.inr hto)
          refine ⟨(i + 1, (0, 0), some pc.kind, false), ?_, rfl, hp.1, i, rfl, hnth⟩
          refine List.mem_append_right _ (List.mem_flatMap.2 ⟨i, hi, ?_⟩)
          exact List.mem_map.2 ⟨pc.kind, by cases pc.kind <;> decide, rfl⟩
    · refine ⟨king, fun m hm => ?_⟩
      rw [List.append_nil] at hm
      exact hk' m hm king
  obtain ⟨ch, hall⟩ := hall
  rw [← codes_length q.side]
  exact length_le_of_rel hn hall fun _ _ _ _ _ h h' => coded_inj h h'

theorem pseudoList_length (hK : Lawful K) (h : Repr q) (hv : PawnsOk q.spec)
    (hcs : CheckersSound K q st.attackInfo.checkers)
    (hc : ¬ K.isEmpty st.attackInfo.checkers = true) : (pseudoList E K q st).length ≤ 280 := by
  unfold pseudoList
  rw [if_neg hc]
  split
  · exact Nat.zero_le _
  · next king hk =>
    split
    · exact Nat.zero_le _
    · exact evList_length_sound hK h hv hcs hk _

end

/-- The list returned is not longer than what was generated. -/
theorem legalMoves_of_length (E : Env) {K : Backend} (hK : Lawful K) {p : Position}
    (h : Repr p.inner) (hv : PawnsOk p.inner.spec) {st : State} (hst : p.state = some st)
    (hcs : CheckersSound K p.inner st.attackInfo.checkers) {n : Nat} (hn : n ≤ 593)
    (hl : (pseudoList E K p.inner st).length ≤ n) :
    ∃ l, p.legalMoves E K = some l ∧ l.length ≤ n := by
  have hl' : (pseudoList E K p.inner st).length ≤ maxLegalMoves := Nat.le_trans hl hn
  rw [(legalMoves_sound E hK h hv hst hcs).1, appendAll_nil_some hl']
  refine ⟨_, rfl, Nat.le_trans ?_ hl⟩
  rw [(filterLoop_perm _ _).length_eq]
  exact List.length_filter_le ..

end Yasai

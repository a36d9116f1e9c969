import Verif.Props.Check

/-!
# C38: the cached attack information
-/

namespace Yasai.Props

open Yasai Spec

/-- Taking the piece on `x` away opens a line of an enemy piece to the king of `c`. -/
def OpensLine (b : Square → Option Piece) (c : Color) (x : Square) : Prop :=
  ∃ king s, b king = some ⟨.king, c⟩ ∧
    ¬ AttacksFrom b c.flip s king ∧ AttacksFrom (put b x none) c.flip s king

theorem opensLine_iff {b : Square → Option Piece} {c : Color} {x : Square} :
    OpensLine b c x ↔ ∃ king, b king = some ⟨.king, c⟩ ∧ Pinned b c king x := by
  have hput : ∀ u, Occ (put b x none) u ↔ u ≠ x ∧ Occ b u := by
    intro u; unfold Occ put
    by_cases h : u = x <;> simp [h]
  unfold OpensLine
  apply exists_congr; intro king
  constructor
  · rintro ⟨s, hk, hn, k, hs, hr⟩
    refine ⟨hk, s, ?_⟩
    have hsx : s ≠ x := by rintro rfl; simp [put] at hs
    have hs' : b s = some ⟨k, c.flip⟩ := by simpa [put, hsx] using hs
    rw [reaches_iff] at hr
    rcases hr with hr | ⟨hsl, hr⟩
    · exact absurd ⟨k, hs', reaches_iff.2 (.inl hr)⟩ hn
    · have hblock : ¬ ∀ u, Between s u king → ¬ Occ b u :=
        fun h => hn ⟨k, hs', reaches_iff.2 (.inr ⟨hsl, h⟩)⟩
      have honly : ∀ u, Between s u king → Occ b u → u = x := by
        intro u hu ho
        apply Classical.byContradiction
        intro hne
        exact hr u hu ((hput u).2 ⟨hne, ho⟩)
      have hx : Between s x king ∧ Occ b x := by
        apply Classical.byContradiction
        intro hno
        apply hblock
        intro u hu ho
        have := honly u hu ho
        subst this
        exact hno ⟨hu, ho⟩
      exact ⟨⟨k, hs', hsl⟩, between_symm hx.1, hx.2, fun u hu ho => honly u (between_symm hu) ho⟩
  · rintro ⟨hk, s, ⟨k, hs, hsl⟩, hb, ho, hu⟩
    refine ⟨s, hk, ?_, k, ?_, ?_⟩
    · rintro ⟨k', hs', hr⟩
      exact reaches_path hr (between_symm hb) ho
    · have : s ≠ x := by rintro rfl; exact between_ne_right hb rfl
      simp [put, this, hs]
    · rw [reaches_iff]
      refine .inr ⟨hsl, fun u hbu hou => ?_⟩
      obtain ⟨h1, h2⟩ := (hput u).1 hou
      exact h1 (hu u (between_symm hbu) h2)

/-- C38.  In every position reached by any history, the three caches are exactly what they are meant
to be: `checkers()` are the enemy pieces attacking the king of the side to move; `pinned(c)` are the
pieces (of either colour) whose removal would open a line of attack on the king of `c`; and
`checkable(pk, sq)` holds iff a piece of that kind of the side to move would, standing on `sq`,
attack the opponent's king. -/
theorem C38_caches_exact (E : Env) (K : Backend) (hK : K ∈ backends) (pp : CorePartialPosition)
    (hv : Valid (rootView pp)) (ms : List Move) (p : Position) (h : Reached E K pp ms p) :
    ∃ st, p.state = some st ∧
      (∀ s, K.contains st.attackInfo.checkers s = true ↔
        ∃ king, p.pieceAt king = some ⟨.king, p.sideToMove⟩ ∧
          AttacksFrom p.pieceAt p.sideToMove.flip s king) ∧
      (∀ c s, K.contains (st.attackInfo.pinned c) s = true ↔ OpensLine p.pieceAt c s) ∧
      (∀ pk s, Position.checkable K st pk s = true ↔
        ∃ king, p.pieceAt king = some ⟨.king, p.sideToMove.flip⟩ ∧ pk ≠ .king ∧
          Reaches (Occ p.pieceAt) pk p.sideToMove s king) := by
  have L := lawful_of_mem hK
  obtain ⟨⟨hr, st, hst, hai⟩, hv'⟩ := reached_inv hK hv h
  refine ⟨st, hst, fun s => ?_, fun c s => ?_, fun pk s => ?_⟩
  · rw [L.contains, hai]
    exact mem_checkers L hr hv'.loose s
  · rw [L.contains, hai, opensLine_iff]
    exact mem_pinned L hr hv'.loose.tame c s
  · unfold Position.checkable
    rw [L.contains, hai]
    exact mem_checkables L hr hv'.loose pk s

section
open Yasai.Examples

/-- In `skirmish` White's rook pins the gold in front of Black's king. -/
example : OpensLine skirmish.board .black (sq 5 8) := by
  refine ⟨sq 5 9, sq 5 3, by decide +kernel, by decide +kernel, by decide +kernel⟩

end

end Yasai.Props

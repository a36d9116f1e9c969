import Verif.Props.Capacity
import Verif.Proofs.PanicExact

/-!
# C40: exactly when `legal_moves()` panics

No bound on the material is assumed here.
-/

namespace Yasai.Props

open Yasai Spec Examples

/-- C40.  `legal_moves()` panics exactly when the side to move is not in check and has at least 594
different moves that follow the movement and drop rules (the pawn drop that mates excluded). -/
theorem C40_panics_iff (E : Env) (K : Backend) (hK : K ∈ backends) (pp : CorePartialPosition)
    (hv : Valid (rootView pp)) (ms : List Move) (p : Position) (h : Reached E K pp ms p) :
    p.legalMoves E K = none ↔
      ¬ InCheck (view p).board (view p).side ∧
      ∃ l : List Move, l.Nodup ∧ l.length = 594 ∧
        ∀ m ∈ l, PseudoLegal (view p) m ∧ (IsPawnDrop m → ¬ Mated (apply (view p) m)) := by
  obtain ⟨hi, hv'⟩ := reached_inv hK hv h
  exact legalMoves_none_iff E (lawful_of_mem hK) hi hv'

/-- C40.  In check `legal_moves()` always returns, and lists at most 280 moves, whatever pieces are
on the board and in hand. -/
theorem C40_in_check_returns (E : Env) (K : Backend) (hK : K ∈ backends) (pp : CorePartialPosition)
    (hv : Valid (rootView pp)) (ms : List Move) (p : Position) (h : Reached E K pp ms p)
    (hc : InCheck (view p).board (view p).side) :
    ∃ l, p.legalMoves E K = some l ∧ l.length ≤ 280 ∧ l.Nodup ∧
      ∀ m, m ∈ l ↔ Legal (view p) m := by
  obtain ⟨hi, hv'⟩ := reached_inv hK hv h
  obtain ⟨l, hl, hlen⟩ := legalMoves_inCheck E (lawful_of_mem hK) hi hv'.loose hc
  exact ⟨l, hl, hlen, legalMoves_exact hK hv h hl⟩

/-- Both directions of C40 are inhabited: `kingless` has 594 such moves, the start position has
not. -/
example : (∃ l : List Move, l.Nodup ∧ l.length = 594 ∧ ∀ m ∈ l, PseudoLegal (rootView kingless) m) ∧
    ¬ ∃ l : List Move, l.Nodup ∧ l.length = 594 ∧ ∀ m ∈ l, PseudoLegal (rootView startpos) m := by
  constructor
  · obtain ⟨p, hp, hn⟩ : ∃ p, Position.new env0 CoreBB.backend kingless = some p ∧
        p.legalMoves env0 CoreBB.backend = none := by
      have h : (Position.new env0 CoreBB.backend kingless).any (fun p =>
          (p.legalMoves env0 CoreBB.backend).isNone) = true := by decide +kernel
      simp only [Option.any_eq_true, Option.isNone_iff_eq_none] at h
      exact h
    have hK : CoreBB.backend ∈ backends := core_mem
    obtain ⟨_, l, h1, h2, h3⟩ := (C40_panics_iff env0 _ hK kingless kingless_valid [] p
      ⟨p, hp, .start⟩).1 hn
    rw [view_new hK hp] at h3
    exact ⟨l, h1, h2, fun m hm => (h3 m hm).1⟩
  · rintro ⟨l, h1, h2, h3⟩
    have := length_le_593 startpos_standard.valid startpos_standard.material
      (.inl (startpos_standard.kings _)) h1 h3
    omega

/-- The hypotheses of `C40_in_check_returns` are met: a check by a dropped knight. -/
example : ∃ ms p, Reached env0 CoreBB.backend skirmish ms p ∧
    InCheck (view p).board (view p).side := by
  have h : ((Position.new env0 CoreBB.backend skirmish).bind fun p =>
      playLegal env0 CoreBB.backend p [.drop (sq 6 3) ⟨.knight, .black⟩]).any (fun p =>
        p.inCheck CoreBB.backend == some true) = true := by
    decide +kernel
  simp only [Option.any_eq_true, beq_iff_eq] at h
  obtain ⟨p, hp, hc⟩ := h
  have hr := reached_playLegal hp
  obtain ⟨b, hb, hiff⟩ := C08_in_check_exact env0 CoreBB.backend core_mem skirmish
    skirmish_valid _ p hr
  rw [hc] at hb
  cases hb
  exact ⟨_, p, hr, hiff.1 rfl⟩

end Yasai.Props

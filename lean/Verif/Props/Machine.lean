import Verif.Props.Recorded
import Verif.Props.Mirror

/-!
# C83: the API under pseudo-legal play, as a machine

C39 says what every call answers in legal play.  Here the moves made are only pseudo-legal: checks may
be ignored and kings left attacked.  The answers are then not always those of the rule book, but they
are still determined by the root and the moves in force, and this is the rule.
-/

namespace Yasai.Props

open Yasai Spec

/-- The position after the moves in force, the last one made first. -/
def current (R : Pos) (ms : List Move) : Pos := ms.foldr (fun m P => apply P m) R

/-- What `in_check` answers: at the root, whether a piece other than a king attacks the king; later,
whether the last move gave a new check. -/
def Reported (R : Pos) : List Move → Prop
  | [] => ∃ s, Recorded R [] s
  | m :: ms => NewCheck (current R ms) m

/-- What `legal_moves` lists. -/
def ListedBy (R : Pos) (ms : List Move) (m : Move) : Prop :=
  PseudoLegal (current R ms) m ∧ (IsPawnDrop m → ¬ Unanswered (current R ms) m) ∧
  ((∃ frm to pr, m = .normal frm to pr ∧
      (current R ms).board frm = some ⟨.king, (current R ms).side⟩ ∧
      (∀ s, ¬ AttacksFrom (current R ms).board (current R ms).side.flip s to) ∧
      (Reported R ms → ∀ s, Recorded (current R ms) ms s →
        ¬ AttacksFrom (put (current R ms).board frm none) (current R ms).side.flip s to)) ∨
   ((∀ frm to pr, m = .normal frm to pr →
        (current R ms).board frm ≠ some ⟨.king, (current R ms).side⟩ ∧
        NoNewAttack (current R ms) m) ∧
      (Reported R ms → ∃ king, (current R ms).board king = some ⟨.king, (current R ms).side⟩ ∧
        AnswersRecorded (current R ms) ms king m)))

theorem Roamed.current {E : Env} {K : Backend} (hK : K ∈ backends) {pp : CorePartialPosition}
    {ms : List Move} {p : Position} (h : Roamed E K pp ms p) :
    view p = current (rootView pp) ms := by
  obtain ⟨p0, h0, hs⟩ := h
  have hp := hs.play hK (fun _ _ h => shape_of_pseudoLegal h)
  rw [session_view hp, view_new hK h0]
  rfl

/-- C83.  Let the moves made be pseudo-legal only.  Then the board, hands and side shown are the root
with the moves in force applied, `in_check` answers what `Reported` says, and `legal_moves` lists,
without repetition, the moves that `ListedBy` describes. -/
theorem C83_machine (E : Env) (K : Backend) (hK : K ∈ backends)
    (pp : CorePartialPosition) (hv : Tame (rootView pp)) (ms : List Move) (p : Position)
    (h : Roamed E K pp ms p) :
    view p = current (rootView pp) ms ∧
    (∃ b, p.inCheck K = some b ∧ (b = true ↔ Reported (rootView pp) ms)) ∧
    (∀ l, p.legalMoves E K = some l → l.Nodup ∧ ∀ m, m ∈ l ↔ ListedBy (rootView pp) ms m) ∧
    (p.legalMoves E K = none ↔ ¬ Reported (rootView pp) ms ∧
      ∃ l : List Move, l.Nodup ∧ l.length = 594 ∧ ∀ m ∈ l,
        PseudoLegal (current (rootView pp) ms) m ∧
        (IsPawnDrop m → ¬ Unanswered (current (rootView pp) ms) m)) ∧
    ∀ m p', PseudoLegal (current (rootView pp) ms) m → p.doMove E K m = some p' →
      ∃ b, p.isCheckMove K m = some b ∧ (b = true ↔ NewCheck (current (rootView pp) ms) m) := by
  have L := lawful_of_mem hK
  have hcur := h.current hK
  have ht := Tame.roamed hK hv h
  have hic : ∃ b, p.inCheck K = some b ∧ (b = true ↔ Reported (rootView pp) ms) := by
    obtain ⟨p0, h0, hs⟩ := h
    have hp := hs.play hK (fun _ _ h => shape_of_pseudoLegal h)
    clear hs
    cases hp with
    | start =>
      have hr0 : Roamed E K pp [] p := ⟨p, h0, .start⟩
      obtain ⟨hr, st, hst, he⟩ := inv_new L h0
      have hi : p.inCheck K = some (!K.isEmpty st.attackInfo.checkers) := by
        simp only [Position.inCheck, hst, Option.bind_eq_bind, Option.bind_some, Option.pure_def]
      have hok : Ok st.attackInfo.checkers := by rw [he]; exact ok_calculateCheckers L hr
      refine ⟨_, hi, ?_⟩
      show _ ↔ ∃ s, Recorded (rootView pp) [] s
      rw [show rootView pp = view p from hcur.symm]
      constructor
      · intro hb
        have hc : p.inCheck K = some true := by rw [hi, hb]
        apply Classical.byContradiction
        intro hn
        have : st.attackInfo.checkers = 0#128 := ext_of_ok hok ok_zero fun u => by
          rw [mem_zero, ← Bool.not_eq_true, hr0.recorded hK hv hc hst]
          exact fun hu => hn ⟨u, hu⟩
        rw [this, L.isEmpty] at hb
        simp at hb
      · rintro ⟨s, king, k, h1, h2, h3, h4⟩
        have hk := (hr.kingPosition L _ (fun s t a b => ht.oneKing _ s t a b) king).2 h1
        have hm := (mem_calculateCheckers L hr hk s).2 ⟨k, h2, h3, h4⟩
        apply Classical.byContradiction
        intro hn
        simp only [Bool.not_eq_true, Bool.not_eq_false'] at hn
        rw [L.isEmpty, beq_iff_eq] at hn
        rw [he] at hn
        have hn' : AttackInfo.calculateCheckers K p.inner = 0#128 := hn
        rw [hn', mem_zero] at hm
        cases hm
    | @move ms' q _ m hq ha hm =>
      have hq' : Roamed E K pp ms' q := ⟨p0, h0, hq.session⟩
      have := C66_in_check_reports_new_checks E K hK pp hv.oneKing ms' q hq' m ha p hm
      rw [hq'.current hK] at this
      exact this
  refine ⟨hcur, hic, ?_, ?_, ?_⟩
  · intro l hl
    obtain ⟨b, hb, hbr⟩ := hic
    have hrep : Reported (rootView pp) ms ↔ b = true := hbr.symm
    unfold ListedBy
    rw [hrep, ← hcur]
    cases b with
    | false =>
      obtain ⟨hnd, hk, ho, hd, _⟩ := C67_no_check_recorded E K hK pp hv ms p h hb l hl
      refine ⟨hnd, fun m => ?_⟩
      cases m with
      | normal frm to pr =>
        by_cases hf : p.pieceAt frm = some ⟨.king, p.sideToMove⟩
        · rw [hk frm to pr hf]
          constructor
          · rintro ⟨a, b⟩
            exact ⟨a, fun e => e.elim, .inl ⟨frm, to, pr, rfl, hf, b, fun e => by cases e⟩⟩
          · rintro ⟨a, _, ⟨_, _, _, e, _, b, _⟩ | ⟨b, _⟩⟩
            · cases e; exact ⟨a, b⟩
            · exact absurd hf (b _ _ _ rfl).1
        · rw [ho frm to pr hf]
          constructor
          · rintro ⟨a, b⟩
            exact ⟨a, fun e => e.elim, .inr ⟨fun _ _ _ e => by cases e; exact ⟨hf, b⟩,
              fun e => by cases e⟩⟩
          · rintro ⟨a, _, ⟨_, _, _, e, b, _⟩ | ⟨b, _⟩⟩
            · cases e; exact absurd b hf
            · exact ⟨a, (b _ _ _ rfl).2⟩
      | drop to pc =>
        by_cases hpc : pc.kind = .pawn
        · rw [C81_pawn_drops E K hK pp hv ms p h hb l hl to pc hpc]
          constructor
          · rintro ⟨a, b⟩
            exact ⟨a, fun _ => b, .inr ⟨fun _ _ _ e => (by cases e), fun e => (by cases e)⟩⟩
          · rintro ⟨a, b, _⟩
            exact ⟨a, b hpc⟩
        · rw [hd to pc hpc]
          constructor
          · intro a
            exact ⟨a, fun e => absurd e hpc, .inr ⟨fun _ _ _ e => (by cases e), fun e => (by cases e)⟩⟩
          · exact fun a => a.1
    | true =>
      obtain ⟨king, hking, _, _, hnd, hk, ho, hd⟩ := C82_check_recorded E K hK pp hv ms p h hb l hl
      have huniq : ∀ s, p.pieceAt s = some ⟨.king, p.sideToMove⟩ → s = king :=
        fun s hs => ht.oneKing _ _ _ hs hking
      refine ⟨hnd, fun m => ?_⟩
      cases m with
      | normal frm to pr =>
        by_cases hf : frm = king
        · subst hf
          rw [hk to pr]
          constructor
          · rintro ⟨a, b, c⟩
            exact ⟨a, fun e => e.elim, .inl ⟨frm, to, pr, rfl, hking, b, fun _ => c⟩⟩
          · rintro ⟨a, _, ⟨_, _, _, e, _, b, c⟩ | ⟨b, _⟩⟩
            · cases e; exact ⟨a, b, c rfl⟩
            · exact absurd hking (b _ _ _ rfl).1
        · rw [ho frm to pr hf]
          constructor
          · rintro ⟨a, b, c⟩
            exact ⟨a, fun e => e.elim, .inr ⟨fun _ _ _ e => by
              cases e; exact ⟨fun e => hf (huniq _ e), b⟩, fun _ => ⟨king, hking, c⟩⟩⟩
          · rintro ⟨a, _, ⟨_, _, _, e, b, _⟩ | ⟨b, c⟩⟩
            · cases e; exact absurd (huniq _ b) hf
            · obtain ⟨king', hking', c⟩ := c rfl
              cases huniq _ hking'
              exact ⟨a, (b _ _ _ rfl).2, c⟩
      | drop to pc =>
        rw [hd to pc]
        constructor
        · rintro ⟨a, b, c⟩
          exact ⟨a, b, .inr ⟨fun _ _ _ e => (by cases e), fun _ => ⟨king, hking, c⟩⟩⟩
        · rintro ⟨a, b, ⟨_, _, _, e, _⟩ | ⟨_, c⟩⟩
          · cases e
          · obtain ⟨king', hking', c⟩ := c rfl
            cases huniq _ hking'
            exact ⟨a, b, c⟩
  · rw [C81_panics_iff E K hK pp hv ms p h, ← hcur]
    obtain ⟨b, hb, hbr⟩ := hic
    rw [hb, ← hbr]
    apply and_congr_left
    intro _
    cases b <;> simp
  · intro m p' hm hp
    rw [← hcur] at hm ⊢
    rw [← C66_in_check_is_is_check_move E K hK pp ms p h m hm p' hp]
    exact C66_in_check_reports_new_checks E K hK pp hv.oneKing ms p h m hm p' hp

/-- C83.  Two positions with the same root and the same moves in force answer alike, whatever the build,
the hash table and the moves made and taken back in between. -/
theorem C83_same_answers (E E' : Env) (K K' : Backend) (hK : K ∈ backends) (hK' : K' ∈ backends)
    (pp pp' : CorePartialPosition) (hv : Tame (rootView pp)) (hroot : rootView pp' = rootView pp)
    (ms : List Move) (p p' : Position) (h : Roamed E K pp ms p) (h' : Roamed E' K' pp' ms p') :
    view p' = view p ∧ p'.inCheck K' = p.inCheck K ∧
    (p'.legalMoves E' K' = none ↔ p.legalMoves E K = none) ∧
    ∀ l l', p.legalMoves E K = some l → p'.legalMoves E' K' = some l' → l'.Perm l := by
  obtain ⟨a1, ⟨b, a2, a3⟩, a4, a5, _⟩ := C83_machine E K hK pp hv ms p h
  obtain ⟨b1, ⟨b', b2, b3⟩, b4, b5, _⟩ :=
    C83_machine E' K' hK' pp' (by rw [hroot]; exact hv) ms p' h'
  rw [hroot] at b1 b3 b4 b5
  refine ⟨b1.trans a1.symm, ?_, b5.trans a5.symm, fun l l' hl hl' => ?_⟩
  · rw [a2, b2]
    congr 1
    rw [Bool.eq_iff_iff]
    exact b3.trans a3.symm
  · exact (List.perm_ext_iff_of_nodup (b4 l' hl').1 (a4 l hl).1).2 fun m =>
      ((b4 l' hl').2 m).trans ((a4 l hl).2 m).symm

section
open Examples

/-- The hypotheses hold after a check was ignored; the machine then lists a move that is not safe, and
does not list one that is pseudo-legal. -/
theorem C83_example : Tame (rootView halfSeen) ∧
    (∃ p l, Roamed env0 CoreBB.backend halfSeen [.drop (sq 4 7) ⟨.gold, .white⟩] p ∧
      p.legalMoves env0 CoreBB.backend = some l) ∧
    ListedBy (rootView halfSeen) [.drop (sq 4 7) ⟨.gold, .white⟩] (.normal (sq 5 8) (sq 5 9) false) ∧
    ¬ Safe (current (rootView halfSeen) [.drop (sq 4 7) ⟨.gold, .white⟩])
      (.normal (sq 5 8) (sq 5 9) false) ∧
    PseudoLegal (current (rootView halfSeen) [.drop (sq 4 7) ⟨.gold, .white⟩])
      (.drop (sq 5 5) ⟨.gold, .black⟩) ∧
    ¬ ListedBy (rootView halfSeen) [.drop (sq 4 7) ⟨.gold, .white⟩]
      (.drop (sq 5 5) ⟨.gold, .black⟩) := by
  obtain ⟨hv, p, l, h, _, hl, _, _, _, _, h1, h2, h3, h4⟩ := C82_example
  obtain ⟨a1, _, a2, _⟩ := C83_machine env0 _ core_mem _ hv _ p h
  obtain ⟨_, a2⟩ := a2 l hl
  rw [a1] at h2 h3
  exact ⟨hv, ⟨p, l, h, hl⟩, (a2 _).1 h1, h2, h3, fun e => h4 ((a2 _).2 e)⟩

end

end Yasai.Props

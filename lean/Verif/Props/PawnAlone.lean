import Verif.Props.Crowded

/-!
# C81: exactly which pawn drops are left out

`is_pawn_drop_mate` looks for answers to the pawn's own attack.  When the opponent's king is not
attacked by anything else, the drops it refuses are the mating ones.  When it is, the drops it refuses
are those described here, a part of the mating ones.
-/

namespace Yasai.Props

open Yasai Spec

/-- After the drop, the piece dropped attacks the king of the side now to move, and that side has no
answer to this attack: the king can go only to squares that are attacked while it still stands where it
is, and a capture of the dropped piece by another piece opens a new attack on the king. -/
def Unanswered (P : Pos) : Move → Prop
  | .normal _ _ _ => False
  | .drop to pc =>
    ∃ king, (apply P (.drop to pc)).board king = some ⟨.king, P.side.flip⟩ ∧
      AttacksFrom (apply P (.drop to pc)).board P.side to king ∧
      (∀ t pr, PseudoLegal (apply P (.drop to pc)) (.normal king t pr) →
        ∃ s, AttacksFrom (apply P (.drop to pc)).board P.side s t) ∧
      (∀ frm pr, frm ≠ king → PseudoLegal (apply P (.drop to pc)) (.normal frm to pr) →
        ¬ NoNewAttack (apply P (.drop to pc)) (.normal frm to pr))

/-- Behind a pawn in front of the king there is the king: no pawn or lance of its side takes it. -/
theorem no_forward_capture {b : Square → Option Piece} {c : Color} {king to frm : Square}
    {k : PieceKind} (hking : b king ≠ none) (hst : Step .pawn c to king) (hne : frm ≠ king)
    (hk : k = .pawn ∨ k = .lance) : ¬ Reaches (Occ b) k c.flip frm to := by
  intro hr
  have hst' := step_pawn.1 hst
  have hback : Disp frm to 0 (fwd c.flip) → False := by
    intro h
    have h1 : Disp to frm 0 (fwd c) := by
      obtain ⟨a, b⟩ := h
      rw [flip_fwd] at b
      constructor <;> omega
    exact hne (disp_unique h1 hst')
  rcases hk with rfl | rfl
  · exact hback (step_pawn.1 (reaches_pawn.1 hr))
  · rcases hr with ⟨d, hd, _⟩ | ⟨d, hd, n, hn, hdisp, hclear⟩
    · cases hd
    · have : d = (0, 1) := by simpa [slides] using hd
      subst this
      by_cases h1 : n = 1
      · subst h1
        apply hback
        simpa using hdisp
      · have : Disp frm king ((n - 1 : Nat) * 0) ((n - 1 : Nat) * (fwd c.flip * 1)) := by
          obtain ⟨a1, a2⟩ := hdisp
          obtain ⟨b1, b2⟩ := hst'
          rw [flip_fwd] at a2 ⊢
          have hn' : ((n - 1 : Nat) : Int) = n - 1 := by omega
          rw [hn']
          constructor
          · simp only [Int.mul_zero] at a1 ⊢; omega
          · rcases fwd_cases c with h | h <;> rw [h] at a2 b2 ⊢ <;> omega
        exact hclear (n - 1) (by omega) (by omega) king this hking

/-- What is tested, in terms of the position after the drop, for the king on the square `king`. -/
theorem dropMateCond_iff {P : Pos} {to king : Square} {c : Color} (hcc : c = P.side)
    (hto : P.board to = none) (hking : P.board king = some ⟨.king, c.flip⟩) :
    Step .pawn c to king ∧ DropMateCond P.board c king to ↔
      AttacksFrom (apply P (.drop to ⟨.pawn, c⟩)).board c to king ∧
      (∀ t pr, PseudoLegal (apply P (.drop to ⟨.pawn, c⟩)) (.normal king t pr) →
        ∃ s, AttacksFrom (apply P (.drop to ⟨.pawn, c⟩)).board c s t) ∧
      (∀ frm pr, P.board frm ≠ some ⟨.king, c.flip⟩ →
        PseudoLegal (apply P (.drop to ⟨.pawn, c⟩)) (.normal frm to pr) →
        ¬ NoNewAttackOn (apply P (.drop to ⟨.pawn, c⟩)) king (.normal frm to pr)) := by
  let b' := put P.board to (some (⟨.pawn, c⟩ : Piece))
  have hb' : (apply P (.drop to ⟨.pawn, c⟩)).board = b' := rfl
  have hs' : (apply P (.drop to ⟨.pawn, c⟩)).side = c.flip := by
    show P.side.flip = c.flip; rw [hcc]
  have hputto : b' to = some ⟨.pawn, c⟩ := put_same _ _ _
  have hkiff : b' king = some ⟨.king, c.flip⟩ ↔ P.board king = some ⟨.king, c.flip⟩ := by
    by_cases e : king = to
    · subst e
      rw [hputto, hto]
      constructor <;> intro h <;> cases h
    · rw [show b' king = P.board king from put_other _ _ e]
  rw [hb']
  have hking' := hkiff.2 hking
  have hatt : AttacksFrom b' c to king ↔ Step .pawn c to king := by
    constructor
    · rintro ⟨k, hk, hr⟩
      rw [hputto] at hk
      cases hk
      exact reaches_pawn.1 hr
    · exact fun h => ⟨.pawn, hputto, reaches_pawn.2 h⟩
  rw [hatt]
  apply and_congr_right
  intro hst
  have hst' := step_pawn.1 hst
  have hadj' : ∀ u, ¬ Between king u to := fun u h => step_not_between hst (between_symm h)
  have hne : king ≠ to := by rintro rfl; rw [hking] at hto; cases hto
  have hcolor : ∀ {s k}, P.board s = some ⟨k, c.flip⟩ → s ≠ to := by
    rintro s k h rfl; rw [h] at hto; cases hto
  have hold : ∀ {s k}, P.board s = some ⟨k, c.flip⟩ → b' s = some ⟨k, c.flip⟩ := by
    intro s k h
    show put _ _ _ _ = _; rw [put_other _ _ (hcolor h)]; exact h
  have hnew : ∀ {s k}, b' s = some ⟨k, c.flip⟩ → P.board s = some ⟨k, c.flip⟩ := by
    intro s k h
    by_cases e : s = to
    · subst e; rw [hputto] at h
      exact (some_piece_flip h).elim
    · rw [show b' s = P.board s from put_other _ _ e] at h; exact h
  have hattk : ∀ t, t ≠ king → ∀ s, AttacksFrom b' c s t ↔
      ∃ k, P.board s = some ⟨k, c⟩ ∧ Reaches (Occ b') k c s t := by
    intro t ht s
    constructor
    · rintro ⟨k, hk, hr⟩
      by_cases e : s = to
      · subst e
        rw [hputto] at hk
        cases hk
        exact absurd (disp_unique (step_pawn.1 (reaches_pawn.1 hr)) hst') ht
      · rw [show b' s = P.board s from put_other _ _ e] at hk
        exact ⟨k, hk, hr⟩
    · rintro ⟨k, hk, hr⟩
      refine ⟨k, ?_, hr⟩
      have e : s ≠ to := by rintro rfl; rw [hk] at hto; cases hto
      show put _ _ _ _ = _; rw [put_other _ _ e]; exact hk
  have hattto : ∀ s, AttacksFrom b' c s to ↔ AttacksFrom P.board c s to := by
    intro s
    rw [hattk to hne.symm]
    unfold AttacksFrom
    apply exists_congr; intro k
    apply and_congr_right; intro _
    exact reaches_put_self
  -- the king's moves
  have hkm : ∀ t, (∃ pr, PseudoLegal (apply P (.drop to ⟨.pawn, c⟩)) (.normal king t pr)) ↔
      Step .king c.flip king t ∧ ∀ k, P.board t ≠ some ⟨k, c.flip⟩ := by
    intro t
    constructor
    · rintro ⟨pr, k, h1, h2, h3, -⟩
      rw [hb', hs'] at h1 h2 h3
      rw [hking'] at h1
      cases h1
      refine ⟨?_, fun k hk => h3 _ (hold hk) rfl⟩
      rw [reaches_iff] at h2
      rcases h2 with h | h
      · exact h
      · exact absurd h.1 (not_slide rfl _ _ _)
    · rintro ⟨h1, h2⟩
      refine ⟨false, .king, by rw [hb', hs']; exact hking', ?_, ?_, ?_, ?_⟩
      · rw [hb', hs', reaches_iff]; exact .inl h1
      · rintro ⟨k, c2⟩ hq
        rw [hb'] at hq
        rw [hs']
        rintro rfl
        exact h2 k (hnew hq)
      · intro h; cases h
      · intro _ h; rw [hs'] at h; cases c <;> exact h
  -- captures by other pieces
  have hcap : ∀ frm pr k, P.board frm = some ⟨k, c.flip⟩ → Reaches (Occ b') k c.flip frm to →
      (NoNewAttackOn (apply P (.drop to ⟨.pawn, c⟩)) king (.normal frm to pr) ↔
        (Pinned b' c.flip king frm → Between king to frm)) := by
    intro frm pr k hfrm hr
    rw [noNewAttackOn_normal (k := k) (by rw [hb', hs']; exact hold hfrm)
      (by rw [hb', hs']; exact hr), hb', hs']
    constructor
    · intro h hpin
      rcases h hpin with h | h
      · exact h
      · exact absurd h (hadj' _)
    · exact fun h hpin => .inl (h hpin)
  constructor
  · rintro ⟨h1, h2, h3⟩
    refine ⟨fun t pr ht => ?_, fun frm pr hfk hfp hnn => ?_⟩
    · obtain ⟨hstep, hown⟩ := (hkm t).1 ⟨pr, ht⟩
      by_cases e : t = to
      · subst e
        obtain ⟨s, hs⟩ := h1
        exact ⟨s, (hattto s).2 hs⟩
      · obtain ⟨s, k, hs⟩ := h3 t hstep hown e
        exact ⟨s, (hattk t (step_ne hstep).symm s).2 ⟨k, hs⟩⟩
    · obtain ⟨k, hfrm, hr, -⟩ := hfp
      rw [hb', hs'] at hfrm hr
      have hfrm0 := hnew hfrm
      have hr0 := reaches_put_self.1 hr
      rw [hcap frm pr k hfrm0 hr] at hnn
      have hk : k ≠ .king := by rintro rfl; exact hfk hfrm0
      have hfk : frm ≠ king := by rintro rfl; exact hfk hking
      have hfwd : ∀ {q : PieceKind}, q = .pawn ∨ q = .lance → k ≠ q := by
        rintro q hq rfl
        exact no_forward_capture (by rw [hking]; simp) hst hfk hq hr0
      obtain ⟨hp, hf⟩ := h2 frm k hfrm0 hk (hfwd (.inr rfl)) (hfwd (.inl rfl)) hr0
      by_cases hp' : Pinned b' c.flip king frm
      · exact hf (between_file hst' (hnn hp'))
      · exact hf (pinned_file hto hst' (reaches_ne hr0) hp hp')
  · rintro ⟨h1, h2⟩
    refine ⟨?_, fun frm k hfrm hk _ _ hr => ?_, fun t hstep hown hne' => ?_⟩
    · have hstep : Step .king c.flip king to := by
        have := step_symm hst
        rw [step_king_iff]
        right
        obtain ⟨d, hd, h⟩ := this
        exact ⟨d, by simp [steps] at hd; subst hd; simp [steps, goldSteps], h⟩
      obtain ⟨pr, hpr⟩ := (hkm to).2 ⟨hstep, fun k => by rw [hto]; simp⟩
      obtain ⟨s, hs⟩ := h1 to pr hpr
      exact ⟨s, (hattto s).1 hs⟩
    · have hr' : Reaches (Occ b') k c.flip frm to := reaches_put_self.2 hr
      obtain ⟨pr, hpr⟩ := exists_promo hr'
      have hfk : frm ≠ king := by
        rintro rfl
        rw [hking] at hfrm
        exact hk (by cases hfrm; rfl)
      have hno := h2 frm pr (by rw [hfrm]; simpa using hk) ⟨k, by rw [hb', hs']; exact hold hfrm, by rw [hb', hs']; exact hr',
        by
          intro q hq
          rw [hb', hputto] at hq
          cases hq
          rw [hs']
          exact (flip_ne c).symm, by rw [hs']; exact hpr.1, by rw [hs']; exact hpr.2⟩
      rw [hcap frm pr k hfrm hr', Classical.not_imp] at hno
      obtain ⟨hp, hnb⟩ := hno
      refine ⟨pinned_put hto (by show P.board frm ≠ none; rw [hfrm]; simp) hp, fun hfile => ?_⟩
      rcases file_sides hst' hfile (hcolor hfrm) hfk with h | h
      · exact hnb h
      · exact reaches_path hr h (by show P.board king ≠ none; rw [hking]; simp)
    · obtain ⟨pr, hpr⟩ := (hkm t).2 ⟨hstep, hown⟩
      obtain ⟨s, hs⟩ := h1 t pr hpr
      obtain ⟨k, h⟩ := (hattk t (step_ne hstep).symm s).1 hs
      exact ⟨s, k, h⟩

theorem refused_iff_unanswered_of {P : Pos}
    (hv : ∀ s t, P.board s = some ⟨.king, P.side.flip⟩ → P.board t = some ⟨.king, P.side.flip⟩ → s = t)
    {to : Square} {c : Color} (hcc : c = P.side) (hto : P.board to = none) :
    Refused P (.drop to ⟨.pawn, c⟩) ↔ Unanswered P (.drop to ⟨.pawn, c⟩) := by
  unfold Refused Unanswered
  rw [← hcc] at hv ⊢
  have hb' : ∀ king, (apply P (.drop to ⟨.pawn, c⟩)).board king = some ⟨.king, c.flip⟩ ↔
      P.board king = some ⟨.king, c.flip⟩ := by
    intro king
    show put P.board to (some (⟨.pawn, c⟩ : Piece)) king = _ ↔ _
    by_cases e : king = to
    · subst e
      rw [put_same, hto]
      constructor <;> intro h <;> cases h
    · rw [put_other _ _ e]
  have hs' : (apply P (.drop to ⟨.pawn, c⟩)).side = c.flip := by
    show P.side.flip = c.flip; rw [hcc]
  refine exists_congr fun king => ?_
  rw [hb']
  refine and_congr_right fun hking => (dropMateCond_iff hcc hto hking).trans ?_
  refine and_congr_right fun _ => and_congr_right fun _ => ?_
  refine forall_congr' fun frm => forall_congr' fun pr => ?_
  have h1 : P.board frm ≠ some ⟨.king, c.flip⟩ ↔ frm ≠ king :=
    not_congr ⟨fun h => hv _ _ h hking, fun h => h ▸ hking⟩
  have h2 : NoNewAttackOn (apply P (.drop to ⟨.pawn, c⟩)) king (.normal frm to pr) ↔
      NoNewAttack (apply P (.drop to ⟨.pawn, c⟩)) (.normal frm to pr) := by
    rw [noNewAttack_iff, hs']
    constructor
    · intro h k hk
      rw [hv _ _ ((hb' k).1 hk) hking]
      exact h
    · exact fun h => h king ((hb' king).2 hking)
  rw [h1, h2]

theorem refused_iff_unanswered {P : Pos} (hv : Tame P) {to : Square} {pc : Piece}
    (hps : PseudoLegal P (.drop to pc)) (hp : IsPawnDrop (.drop to pc)) :
    Refused P (.drop to pc) ↔ Unanswered P (.drop to pc) := by
  obtain ⟨k, c⟩ := pc
  have hk : k = .pawn := hp
  subst hk
  exact refused_iff_unanswered_of (hv.oneKing _) hps.1 hps.2.2.2.1

/-- C81.  A pseudo-legal pawn drop without answer to the pawn is mate; and if the opponent's king is
not attacked before the drop, the mating drops are just these. -/
theorem C81_unanswered (P : Pos) (hv : Tame P) (to : Square) (pc : Piece)
    (hps : PseudoLegal P (.drop to pc)) (hpc : pc.kind = .pawn) :
    (Unanswered P (.drop to pc) → Mated (apply P (.drop to pc))) ∧
    (¬ InCheck P.board P.side.flip →
      (Unanswered P (.drop to pc) ↔ Mated (apply P (.drop to pc)))) := by
  rw [← refused_iff_unanswered hv hps hpc]
  exact ⟨mated_of_refused hv hps hpc,
    fun hn => refused_iff ⟨hv.oneKing, hn, hv.homePawn, hv.noDeadPawn⟩ hps hpc⟩

/-- C81.  Let the moves made be pseudo-legal only, and let `in_check` answer false, rightly or not.
Then `legal_moves` lists exactly the pseudo-legal pawn drops that the opponent could answer, were the
pawn the only attacker. -/
theorem C81_pawn_drops (E : Env) (K : Backend) (hK : K ∈ backends)
    (pp : CorePartialPosition) (hv : Tame (rootView pp)) (ms : List Move) (p : Position)
    (h : Roamed E K pp ms p) (hc : p.inCheck K = some false) (l : List Move)
    (hl : p.legalMoves E K = some l) (to : Square) (pc : Piece) (hpc : pc.kind = .pawn) :
    .drop to pc ∈ l ↔
      PseudoLegal (view p) (.drop to pc) ∧ ¬ Unanswered (view p) (.drop to pc) := by
  have L := lawful_of_mem hK
  have hr := (h.visited.consistent hK).1
  have ht := Tame.roamed hK hv h
  have ht' : Tame (view p) := by rw [view_eq]; exact ht
  obtain ⟨st, hst, _, hpin, hcs⟩ := h.caches hK
  obtain ⟨h1, _, _⟩ := legalMoves_sound E L hr ⟨ht.homePawn, ht.noDeadPawn⟩ hst hcs
  rw [h1] at hl
  obtain ⟨av, hav, rfl⟩ := Option.map_eq_some_iff.1 hl
  have := appendAll_eq_some hav
  rw [List.nil_append] at this
  subst this
  simp only [Position.inCheck, hst, Option.bind_eq_bind, Option.bind_some, Option.pure_def,
    Option.some.injEq, Bool.not_eq_false'] at hc
  have hperm := filterLoop_perm (p.inner.isLegal K st) (pseudoList E K p.inner st)
  rw [hperm.mem_iff, List.mem_filter]
  unfold pseudoList
  rw [if_pos hc, allList_fresh hpin, mem_allList L hr ht rfl, isLegal_fresh hpin, view_eq]
  rw [view_eq] at ht'
  constructor
  · rintro ⟨⟨a, b⟩, _⟩
    exact ⟨a, fun hu => b hpc ((refused_iff_unanswered ht' a hpc).2 hu)⟩
  · rintro ⟨a, b⟩
    exact ⟨⟨a, fun _ hu => b ((refused_iff_unanswered ht' a hpc).1 hu)⟩, rfl⟩

/-- C81.  When `in_check` answers true, under the hypotheses of C67: the pawn drops listed are exactly
the safe ones that the opponent could answer, were the pawn the only attacker. -/
theorem C81_check_recorded (E : Env) (K : Backend) (hK : K ∈ backends)
    (pp : CorePartialPosition) (hv : Tame (rootView pp)) (ms : List Move) (p : Position)
    (h : Roamed E K pp ms p) (hc : p.inCheck K = some true)
    (hap : ∀ c s t, p.pieceAt s = some ⟨.king, c⟩ → p.pieceAt t = some ⟨.king, c.flip⟩ →
      ¬ Reaches (Occ p.pieceAt) .king c s t)
    (hd : ∀ to pc ms', ms = .drop to pc :: ms' → ∀ king s,
      p.pieceAt king = some ⟨.king, p.sideToMove⟩ →
      AttacksFrom p.pieceAt p.sideToMove.flip s king → s = to)
    (l : List Move) (hl : p.legalMoves E K = some l) (to : Square) (pc : Piece)
    (hpc : pc.kind = .pawn) :
    .drop to pc ∈ l ↔ Safe (view p) (.drop to pc) ∧ ¬ Unanswered (view p) (.drop to pc) := by
  have L := lawful_of_mem hK
  have ht := Tame.roamed hK hv h
  have hi := h.inv_of_reported hK hc hd
  obtain ⟨st, _, heq, _, hmem⟩ :=
    legalMoves_loose E L hi ⟨ht.oneKing, hap, ht.homePawn, ht.noDeadPawn⟩
  rw [heq, Option.map_eq_some_iff] at hl
  obtain ⟨av, hav, rfl⟩ := hl
  obtain ⟨_, rfl⟩ := appendAll_eq_some hav
  rw [List.nil_append]
  have hperm := filterLoop_perm (p.inner.isLegal K st) (pseudoList E K p.inner st)
  rw [hperm.mem_iff, List.mem_filter, hmem, view_eq]
  constructor
  · rintro ⟨a, b⟩
    exact ⟨a, fun hu => b hpc ((refused_iff_unanswered ht a.1 hpc).2 hu)⟩
  · rintro ⟨a, b⟩
    exact ⟨a, fun _ hu => b ((refused_iff_unanswered ht a.1 hpc).1 hu)⟩

/-- C81.  Right after construction, whether or not a king is attacked (the positions of C55): the list
is exactly the moves that leave the own king safe, without the pawn drops that have no answer to the
pawn. -/
theorem C81_fresh (E : Env) (K : Backend) (hK : K ∈ backends) (pp : CorePartialPosition)
    (hv : Loose (rootView pp)) (p : Position) (h : Position.new E K pp = some p) (l : List Move)
    (hl : p.legalMoves E K = some l) (m : Move) :
    m ∈ l ↔ Safe (rootView pp) m ∧ (IsPawnDrop m → ¬ Unanswered (rootView pp) m) := by
  have L := lawful_of_mem hK
  have hi := inv_new L h
  have hvw : p.inner.spec = rootView pp := view_new hK h
  have hv' : Loose p.inner.spec := by rw [hvw]; exact hv
  obtain ⟨st, _, heq, _, hmem⟩ := legalMoves_loose E L hi hv'
  rw [heq, Option.map_eq_some_iff] at hl
  obtain ⟨av, hav, rfl⟩ := hl
  obtain ⟨_, rfl⟩ := appendAll_eq_some hav
  rw [List.nil_append]
  have hperm := filterLoop_perm (p.inner.isLegal K st) (pseudoList E K p.inner st)
  rw [hperm.mem_iff, List.mem_filter, hmem, hvw]
  unfold Generated
  apply and_congr_right
  intro hs
  apply forall_congr'
  intro hd
  cases m with
  | normal _ _ _ => exact hd.elim
  | drop to pc => rw [refused_iff_unanswered hv hs.1 hd]

/-- C81.  `legal_moves` panics, in positions reached by pseudo-legal moves, exactly when `in_check`
answers false and there are 594 moves of the kind it collects. -/
theorem C81_panics_iff (E : Env) (K : Backend) (hK : K ∈ backends)
    (pp : CorePartialPosition) (hv : Tame (rootView pp)) (ms : List Move) (p : Position)
    (h : Roamed E K pp ms p) :
    p.legalMoves E K = none ↔ p.inCheck K = some false ∧
      ∃ l : List Move, l.Nodup ∧ l.length = 594 ∧ ∀ m ∈ l, PseudoLegal (view p) m ∧
        (IsPawnDrop m → ¬ Unanswered (view p) m) := by
  have L := lawful_of_mem hK
  have hr := (h.visited.consistent hK).1
  have ht := Tame.roamed hK hv h
  obtain ⟨st, hst, _, hpin, hcs⟩ := h.caches hK
  have hic : p.inCheck K = some (!K.isEmpty st.attackInfo.checkers) := by
    simp only [Position.inCheck, hst, Option.bind_eq_bind, Option.bind_some, Option.pure_def]
  obtain ⟨h1, hnd, _⟩ := legalMoves_sound E L hr ⟨ht.homePawn, ht.noDeadPawn⟩ hst hcs
  have hmax : maxLegalMoves = 593 := rfl
  have hm : K.isEmpty st.attackInfo.checkers = true → ∀ m, m ∈ pseudoList E K p.inner st ↔
      PseudoLegal (view p) m ∧ (IsPawnDrop m → ¬ Unanswered (view p) m) := by
    intro hc m
    unfold pseudoList
    rw [if_pos hc, allList_fresh hpin, mem_allList L hr ht rfl, view_eq]
    apply and_congr_right
    intro hps
    apply forall_congr'
    intro hd
    cases m with
    | normal _ _ _ => exact hd.elim
    | drop to pc => rw [refused_iff_unanswered ht hps hd]
  rw [h1, Option.map_eq_none_iff, appendAll_nil_none, hic]
  constructor
  · intro hlt
    have hc : K.isEmpty st.attackInfo.checkers = true := by
      apply Classical.byContradiction
      intro hn
      have := pseudoList_length (E := E) L hr ⟨ht.homePawn, ht.noDeadPawn⟩ hcs hn
      omega
    exact ⟨by rw [hc]; rfl, (pseudoList E K p.inner st).take 594,
      hnd.sublist (List.take_sublist ..), by rw [List.length_take]; omega,
      fun m hmm => (hm hc m).1 (List.mem_of_mem_take hmm)⟩
  · rintro ⟨hc, l, hn, hlen, hl⟩
    simp only [Option.some.injEq, Bool.not_eq_false'] at hc
    have := length_le_of_nodup_subset hn fun m hmm => (hm hc m).2 (hl m hmm)
    omega

section
open Examples

/-- In the position of C55 the pawn dropped in front of the king mates together with the rook, but
taken alone it is answered by the gold: the drop is listed.  With the gold pinned it is not. -/
def pinnedGuard : CorePartialPosition where
  side := .black
  ply := 9#16
  hands := fun c => match c with
    | .black => handOf [(.pawn, 1)]
    | .white => handOf []
  board := boardOf ([
    (9,9,.king,.black),(9,1,.rook,.black),(5,3,.gold,.black),(7,3,.bishop,.black),
    (5,1,.king,.white),(4,1,.lance,.white),(4,2,.pawn,.white),(6,2,.gold,.white)])

theorem C81_example :
    (Loose (rootView leftInCheck) ∧ InCheck leftInCheck.board .white ∧
      Safe (rootView leftInCheck) (.drop (sq 5 2) ⟨.pawn, .black⟩) ∧
      Mated (apply (rootView leftInCheck) (.drop (sq 5 2) ⟨.pawn, .black⟩)) ∧
      ¬ Unanswered (rootView leftInCheck) (.drop (sq 5 2) ⟨.pawn, .black⟩)) ∧
    (Loose (rootView pinnedGuard) ∧ InCheck pinnedGuard.board .white ∧
      Safe (rootView pinnedGuard) (.drop (sq 5 2) ⟨.pawn, .black⟩) ∧
      Unanswered (rootView pinnedGuard) (.drop (sq 5 2) ⟨.pawn, .black⟩)) := by
  obtain ⟨_, p, l, hp, hl, hm, hmt, _⟩ := C55_exception
  have hs : Safe (rootView leftInCheck) (.drop (sq 5 2) ⟨.pawn, .black⟩) := by decide +kernel
  refine ⟨⟨leftInCheck_loose, by decide +kernel, hs, hmt,
    ((C81_fresh env0 _ core_mem _ leftInCheck_loose p hp l hl _).1 hm).2 rfl⟩, ?_⟩
  have hv : Loose (rootView pinnedGuard) := by decide +kernel
  have hs : Safe (rootView pinnedGuard) (.drop (sq 5 2) ⟨.pawn, .black⟩) := by decide +kernel
  refine ⟨hv, by decide +kernel, hs, ?_⟩
  have h : (Position.new env0 CoreBB.backend pinnedGuard).any (fun p =>
      (p.legalMoves env0 CoreBB.backend).any fun l =>
        decide (Move.drop (sq 5 2) ⟨.pawn, .black⟩ ∉ l)) = true := by
    decide +kernel
  simp only [Option.any_eq_true, decide_eq_true_eq] at h
  obtain ⟨p, hp, l, hl, hn⟩ := h
  apply Classical.byContradiction
  intro hu
  exact hn ((C81_fresh env0 _ core_mem _ hv p hp l hl _).2 ⟨hs, fun _ => hu⟩)

/-- The hypotheses of `C81_pawn_drops` hold there, with the opponent's king attacked. -/
example : Tame (rootView leftInCheck) ∧ ∃ p l, Roamed env0 CoreBB.backend leftInCheck [] p ∧
    p.inCheck CoreBB.backend = some false ∧ InCheck p.pieceAt p.sideToMove.flip ∧
    p.legalMoves env0 CoreBB.backend = some l ∧ .drop (sq 5 2) ⟨.pawn, .black⟩ ∈ l := by
  refine ⟨by decide +kernel, ?_⟩
  have h : (Position.new env0 CoreBB.backend leftInCheck).any (fun p =>
      p.inCheck CoreBB.backend == some false &&
      decide (InCheck p.pieceAt p.sideToMove.flip) &&
      (p.legalMoves env0 CoreBB.backend).any fun l =>
        decide (Move.drop (sq 5 2) ⟨.pawn, .black⟩ ∈ l)) = true := by
    decide +kernel
  simp only [Option.any_eq_true, Bool.and_eq_true, beq_iff_eq, decide_eq_true_eq] at h
  obtain ⟨p, hp, ⟨h1, h2⟩, l, hl, h3⟩ := h
  exact ⟨p, l, ⟨p, hp, .start⟩, h1, h2, hl, h3⟩

end

end Yasai.Props

import Verif.Props.AnyMachine

/-!
# C89: how `legal_moves` ends, from every position that `Position::new` accepts

C78 and C80 say when `legal_moves` stays within the contracts of `shogi_core`'s unchecked functions;
C88 says what it lists, for the portable build where the search for vacant files does not run over.
Here nothing is left open: in the watched model every call is classified as returning, panicking or
leaving a contract, by the root and the moves in force.
-/

namespace Yasai

open Spec

theorem Sim.eq {α : Type} {r : Watched α} {o : Option α} (h : Sim True r o) : r = Watched.lift o :=
  h.resolve_right fun h => h.2 trivial

theorem watched_ok {α β : Type} (a : α) (f : α → Watched β) : (Watched.ok a >>= f) = f a := rfl

theorem watched_some {α β : Type} (a : α) (f : α → Watched β) :
    (Watched.lift (some a) >>= f) = f a := rfl

/-- Collecting `a` and then `b`. -/
theorem watched_append {β : Type} (av : Av) (a b : List Move) (g : Av → Watched β) :
    (Watched.lift (appendAll av a) >>= fun av => Watched.lift (appendAll av b) >>= g) =
      Watched.lift (appendAll av (a ++ b)) >>= g := by
  rw [← appendAll_bind]
  cases appendAll av a <;> rfl

section
variable {K : Backend} {C : Checked} {V : BB → Prop} {E : Env} {q : PartialPosition} {st : State}

/-- With a pawn in hand `generate_drop` ends at once where `vacant_files` does. -/
theorem generateDropC_ends (h0 : 0 < ((q.hands q.side).count .pawn).getD 0) (av : Av) (target : BB) :
    (C.vacantFiles E.overflowChecks (K.and (q.playerBB q.side) (q.pieceBB .pawn)) = .panic →
      q.generateDropC K C E st av target = .panic) ∧
    (C.vacantFiles E.overflowChecks (K.and (q.playerBB q.side) (q.pieceBB .pawn)) = .broken →
      q.generateDropC K C E st av target = .broken) := by
  have hl : ∃ l, Hand.allHandPieces.filter (fun pk => decide (((q.hands q.side).count pk).getD 0 > 0)) =
      .pawn :: l := by
    unfold Hand.allHandPieces
    rw [List.filter_cons_of_pos (by simpa using h0)]
    exact ⟨_, rfl⟩
  obtain ⟨l, hl⟩ := hl
  unfold PartialPosition.generateDropC
  dsimp only
  rw [hl, List.foldlM_cons, if_pos rfl]
  unfold PartialPosition.pawnDropTargetC
  constructor <;> intro h <;> dsimp only <;> rw [h] <;> rfl

variable (hK : Lawful K) (hC : Tracks K C V) (hq : OkBoards q) (hf : FuFrom K q)
include hK hC hq hf

/-- `generate_all` up to the drops, when these end the run. -/
theorem generateAllC_ends {W : Watched Av}
    (hW : ∀ av target, q.generateDropC K C E st av target = W) :
    q.generateAllC K C E st [] = Watched.lift
      (appendAll [] (orderAll.flatMap (parts K q (K.not (q.playerBB q.side))))) >>= fun _ => W := by
  have ht : True → Ok (K.not (q.playerBB q.side)) := fun _ => by rw [hK.not]; exact ok_not _
  have hq : True → OkBoards q := fun _ => hq
  unfold PartialPosition.generateAllC
  dsimp only
  simp only [(generateForFu_sim hK hC (fun _ => hf) ht _).eq, (generateForKy_sim hK hC hq ht _).eq,
    (generateForKe_sim hK hC hq ht _).eq, (generateForGi_sim hK hC hq ht _).eq,
    (generateForKa_sim hK hC hq ht _).eq, (generateForHi_sim hK hC hq ht _).eq,
    (generateForKi_sim hK hC hq ht _).eq, (generateForOu_sim hK hC hq ht _).eq,
    (generateForUm_sim hK hC hq ht _).eq, (generateForRy_sim hK hC hq ht _).eq,
    generateForFu_eq, generateForKy_eq, generateForKe_eq, generateForGi_eq, generateForKa_eq,
    generateForHi_eq, generateForKi_eq, generateForOu_eq, generateForUm_eq, generateForRy_eq,
    hW, watched_append]
  simp only [orderAll, List.flatMap_cons, List.flatMap_nil, parts, List.append_nil]

/-- `generate_evasions` up to the drops, when these end the run. -/
theorem generateEvasionsC_ends {W : Watched Av} (hst : Ok st.attackInfo.checkers) {king : Square}
    {att : BB} {ch : Square} (hk : q.kingPosition K q.side = some king)
    (hatt : q.checkersAttacks K st king = some (att, (K.iter st.attackInfo.checkers).length))
    (hch : K.iter st.attackInfo.checkers = [ch])
    (hbt : K.isEmpty (betweenTable K ch king) = false)
    (hW : ∀ av target, q.generateDropC K C E st av target = W) :
    q.generateEvasionsC K C E st [] = Watched.lift (appendAll [] (kingEvasions K q king att ++
      orderEv.flatMap (parts K q (K.or (betweenTable K ch king) st.attackInfo.checkers)))) >>=
        fun _ => W := by
  have hd : Ok (betweenTable K ch king) := (betweenTable_spec hK _ _).1
  have ht : True → Ok (K.or (betweenTable K ch king) st.attackInfo.checkers) := fun _ => by
    rw [hK.or]; exact ok_or hd hst
  have hq' : True → OkBoards q := fun _ => hq
  have hkm : ∀ av : Av, (K.iter (K.and (K.and (ouAttack K king q.side) (K.not (q.playerBB q.side)))
      (K.not att))).foldlM (fun av to => Watched.lift (Av.push av (.normal king to false))) av =
      Watched.lift (appendAll av (kingEvasions K q king att)) := by
    intro av
    refine ((sim_foldlM (P := True) (g := fun av to => Av.push av (.normal king to false))
      (fun _ _ _ => sim_lift _) av).eq).trans (congrArg _ ?_)
    exact foldlM_appendAll (f := fun av to => av.push (.normal king to false))
      (g := fun to => [.normal king to false]) _ (fun to _ av => push_eq av _) av
  have hok : Ok (K.and (K.and (ouAttack K king q.side) (K.not (q.playerBB q.side))) (K.not att)) := by
    rw [hK.and, hK.not att]; exact ok_and_right _ (ok_not _)
  have hi : ∀ b, Ok b → C.iter b = .ok (K.iter b) :=
    fun b hb => ((hC.iter b).mono (P := True) fun _ => hb).eq
  unfold PartialPosition.generateEvasionsC
  dsimp only
  rw [(kingPosition_sim hK hC hq' q.side).eq, hk]
  simp only [watched_some, (checkersAttacks_sim hK hC (fun _ => hst) king).eq, hatt, hi _ hok, hi _ hst,
    hch, watched_ok, hkm, List.length_cons, List.length_nil, List.head?_cons]
  simp only [show (0 + 1 > 1) = False from by simp, if_false]
  simp only [(generateForFu_sim hK hC (fun _ => hf) ht _).eq, (generateForKy_sim hK hC hq' ht _).eq,
    (generateForKe_sim hK hC hq' ht _).eq, (generateForGi_sim hK hC hq' ht _).eq,
    (generateForKa_sim hK hC hq' ht _).eq, (generateForHi_sim hK hC hq' ht _).eq,
    (generateForKi_sim hK hC hq' ht _).eq, (generateForUm_sim hK hC hq' ht _).eq,
    (generateForRy_sim hK hC hq' ht _).eq,
    generateForFu_eq, generateForKy_eq, generateForKe_eq, generateForGi_eq, generateForKa_eq,
    generateForHi_eq, generateForKi_eq, generateForUm_eq, generateForRy_eq,
    hbt, hW, watched_append, Bool.not_false, if_true]
  simp only [orderEv, List.flatMap_cons, List.flatMap_nil, parts, List.append_nil]

end

/-- The number of moves is what ends the run, or what comes after them. -/
theorem collected_then {G : List Move} {W : Watched Av} {f : Av → Watched Av}
    (hW : W = .panic ∨ W = .broken) :
    ((Watched.lift (appendAll [] G) >>= fun _ => W) >>= f) =
      if maxLegalMoves < G.length then .panic else W := by
  split
  · rename_i h
    rw [appendAll_nil_none.2 h]
    rfl
  · rename_i h
    cases ha : appendAll [] G with
    | none => exact absurd (appendAll_nil_none.1 ha) h
    | some av => rcases hW with rfl | rfl <;> rfl

namespace Props

/-- The search for vacant files leaves the contract or overflows (C80). -/
def Overruns (i : Fin 4) (R : Pos) (ms : List Move) : Prop :=
  i = 0 ∧ AsksVacant R ms ∧
    (RunsOut (pawnsOf (current R ms)) 7 ∨ RunsOut (pawnsOf (current R ms)) 9)

/-- More moves than the list has room for. -/
def TooMany (S : Move → Prop) : Prop := ∃ l : List Move, l.Nodup ∧ l.length = 594 ∧ ∀ m ∈ l, S m

theorem tooMany_iff {S : Move → Prop} {G : List Move} (hn : G.Nodup) (hG : ∀ m, m ∈ G ↔ S m) :
    TooMany S ↔ maxLegalMoves < G.length := by
  have hmax : maxLegalMoves = 593 := rfl
  constructor
  · rintro ⟨l, hl, hlen, h⟩
    have := length_le_of_nodup_subset hl fun m hm => (hG m).2 (h m hm)
    omega
  · intro h
    exact ⟨G.take 594, hn.sublist (List.take_sublist ..), by rw [List.length_take]; omega,
      fun m hm => (hG m).1 (List.mem_of_mem_take hm)⟩

section
variable {E : Env} {i : Fin 4} {J : Junk} {pp : CorePartialPosition} {ms : List Move} {p : Position}

/-- A recorded check by one piece, with a square in between. -/
theorem blocks_iff (h : Wandered E (buildAt i J) pp ms p)
    (hc : p.inCheck (buildAt i J) = some true) {st : State} (hst : p.state = some st) :
    Blocks (buildAt i J) p.inner st ↔ ∃ king ch u, FirstKing (view p).board (view p).side king ∧
      (∀ s, RecordedFirst (view p) ms s ↔ s = ch) ∧ Between ch u king := by
  have L := lawful_of_mem (buildAt_mem i J)
  obtain ⟨st', king, att, hst', hce, hok, hpin, hk, hfk, hatt, hne, hrec, hatk, hone, _⟩ :=
    check_facts h hc
  rw [hst] at hst'
  cases hst'
  have hbe : ∀ ch, (buildAt i J).isEmpty (betweenTable (buildAt i J) ch king) = false ↔
      ∃ u, Between ch u king := by
    intro ch
    rw [L.isEmpty, ← Bool.not_eq_true, beq_iff_eq, eq_zero_iff (betweenTable_spec L ch king).1]
    constructor
    · intro he
      obtain ⟨u, hu⟩ := Classical.not_forall.1 he
      exact ⟨u, (mem_betweenTable L ch king u).1 (by simpa using hu)⟩
    · rintro ⟨u, hu⟩ he
      have := he u
      rw [(mem_betweenTable L ch king u).2 hu] at this
      cases this
  constructor
  · rintro ⟨king', ac, ch, hk', hac, hcnt, hch, hb⟩
    rw [hk] at hk'
    cases hk'
    rw [hatt] at hac
    cases hac
    obtain ⟨u, hu⟩ := (hbe ch).1 hb
    refine ⟨king, ch, u, hfk, (hone ch).1 ?_, hu⟩
    cases hl : (buildAt i J).iter st.attackInfo.checkers with
    | nil => exact absurd hl hne
    | cons a l =>
      rw [hl] at hch hcnt
      cases hch
      cases l with
      | nil => rfl
      | cons b l =>
        simp only [List.length_cons] at hcnt
        omega
  · rintro ⟨king', ch, u, hk', hch, hu⟩
    have : king' = king := Fin.le_antisymm (hk'.2 _ hfk.1) (hfk.2 _ hk'.1)
    subst this
    have hch := (hone ch).2 hch
    refine ⟨king', _, ch, hk, hatt, ?_, by rw [hch]; rfl, (hbe ch).2 ⟨u, hu⟩⟩
    rw [hch]
    simp

/-- What `vacant_files` does in the run. -/
theorem vacant_ends (hr : Repr p.inner) (b : Bool) :
    (CoreBB.vacantFilesC b ((buildAt 0 J).and (p.inner.playerBB p.inner.side)
        (p.inner.pieceBB .pawn)) = .panic ↔ b = true ∧ RunsOut (OwnPawn p) 9) ∧
    (CoreBB.vacantFilesC b ((buildAt 0 J).and (p.inner.playerBB p.inner.side)
        (p.inner.pieceBB .pawn)) = .broken ↔
      (RunsOut (OwnPawn p) 7 ∨ RunsOut (OwnPawn p) 9) ∧ ¬ (b = true ∧ RunsOut (OwnPawn p) 9)) := by
  have L := lawful_of_mem (buildAt_mem 0 J)
  have hok : Ok ((buildAt 0 J).and (p.inner.playerBB p.inner.side) (p.inner.pieceBB .pawn)) := by
    rw [L.and]; exact ok_and_left _ (hr.okPlayer _)
  have he : (buildAt 0 J).contains ((buildAt 0 J).and (p.inner.playerBB p.inner.side)
      (p.inner.pieceBB .pawn)) = OwnPawn p := by
    rw [← mem_ownPawns hr, L.and]
    exact funext fun s => L.contains _ s
  have hx := exactly_when J hok
  rw [he] at hx
  cases b with
  | true =>
    refine ⟨by rw [hx.1]; simp, hx.2.1.trans ?_⟩
    simp only [true_and]
    constructor
    · exact fun h => ⟨.inl h.1, h.2⟩
    · exact fun h => ⟨h.1.resolve_right h.2, h.2⟩
  | false =>
    refine ⟨by simp [hx.2.2.1], hx.2.2.2.trans ?_⟩
    simp

theorem asks_iff (h : Wandered E (buildAt i J) pp ms p) {st : State} (hst : p.state = some st) :
    AsksVacant (rootView pp) ms ↔ 0 < ((p.inner.hands p.inner.side).count .pawn).getD 0 ∧
      ((buildAt i J).isEmpty st.attackInfo.checkers = false → Blocks (buildAt i J) p.inner st) := by
  have hcur := h.visited.current (buildAt_mem i J)
  obtain ⟨b, hb, hbr⟩ := h.reported
  have hce : (buildAt i J).isEmpty st.attackInfo.checkers = !b := by
    simp only [Position.inCheck, hst, Option.bind_eq_bind, Option.bind_some, Option.pure_def,
      Option.some.injEq] at hb
    rw [← hb, Bool.not_not]
  unfold AsksVacant
  rw [← hcur, hce, ← hbr]
  refine and_congr Iff.rfl ?_
  cases b with
  | false => simp
  | true =>
    rw [blocks_iff h hb hst]
    simp

/-- Within the contracts unless the search for vacant files runs over. -/
theorem watched_eq (h : Wandered E (buildAt i J) pp ms p) (ho : ¬ Overruns i (rootView pp) ms) :
    p.legalMovesC (buildAt i J) (checkedAt i) E = Watched.lift (p.legalMoves E (buildAt i J)) := by
  have L := lawful_of_mem (buildAt_mem i J)
  have hr : Repr p.inner := (h.visited.consistent (buildAt_mem i J)).1
  have hcur := h.visited.current (buildAt_mem i J)
  obtain ⟨st, hst, _, hpin, hcs⟩ := h.caches (buildAt_mem i J)
  have hs : ∀ st, p.state = some st → Ok st.attackInfo.checkers := by
    intro st' hst'
    rw [hst] at hst'
    cases hst'
    exact hcs.1
  by_cases hi : i = 0
  · subst hi
    refine (legalMoves_sim (P := True) L (core_tracks_exact J) E (fun _ => hr)
      (fun _ => fuFrom_at 0 J hr) (fun _ h0 st hst hb oc hbr => ?_) (fun _ => hs)).eq
    refine ho ⟨rfl, (asks_iff h hst).2 ⟨h0, hb⟩, ?_⟩
    rw [← hcur]
    exact ((vacant_ends hr oc).2.1 hbr).1
  · exact legalMoves_checked hr hs fun e => absurd e hi

/-- The board moves collected by the portable build. -/
theorem mem_board_portable (hr : Repr p.inner) (m : Move) :
    m ∈ orderAll.flatMap (parts (buildAt 0 J) p.inner ((buildAt 0 J).not (p.inner.playerBB p.inner.side))) ↔
      Collected 0 (view p) m ∧ ∃ frm to pr, m = .normal frm to pr := by
  have L := lawful_of_mem (buildAt_mem 0 J)
  have htok : Ok ((buildAt 0 J).not (p.inner.playerBB p.inner.side)) := by
    rw [L.not]; exact ok_not _
  rw [mem_board_any hr htok (fun _ h => h) (by decide)]
  constructor
  · rintro (⟨k, _, hg⟩ | ⟨hi, _⟩)
    · obtain ⟨frm, to, pr, rfl, hg'⟩ := hg
      exact ⟨.inl (by rw [view_eq]; exact (gen_pseudoLegal L hr).1 ⟨k, frm, to, pr, rfl, hg'⟩),
        frm, to, pr, rfl⟩
    · exact absurd rfl hi
  · rintro ⟨hp, frm, to, pr, rfl⟩
    rcases hp with hp | ⟨hi, _⟩
    · rw [view_eq] at hp
      obtain ⟨k, hg⟩ := (gen_pseudoLegal L hr).2 hp
      exact .inl ⟨k, rep_mem k, hg⟩
    · exact absurd rfl hi

/-- Where the search for vacant files runs over. -/
theorem watched_overruns (h : Wandered E (buildAt 0 J) pp ms p) (ho : Overruns 0 (rootView pp) ms)
    {W : Watched (List Move)}
    (hW : (W = .panic ∧ E.overflowChecks = true ∧ RunsOut (OwnPawn p) 9) ∨
      W = .broken ∧ ¬ (E.overflowChecks = true ∧ RunsOut (OwnPawn p) 9)) :
    (¬ ReportedFirst (rootView pp) ms ∧
      TooMany (fun m => Collected 0 (view p) m ∧ ∃ frm to pr, m = .normal frm to pr) →
      p.legalMovesC (buildAt 0 J) (checkedAt 0) E = .panic) ∧
    (¬ (¬ ReportedFirst (rootView pp) ms ∧
      TooMany (fun m => Collected 0 (view p) m ∧ ∃ frm to pr, m = .normal frm to pr)) →
      p.legalMovesC (buildAt 0 J) (checkedAt 0) E = W) := by
  have L := lawful_of_mem (buildAt_mem 0 J)
  have hr : Repr p.inner := (h.visited.consistent (buildAt_mem 0 J)).1
  have hcur := h.visited.current (buildAt_mem 0 J)
  have hmax : maxLegalMoves = 593 := rfl
  obtain ⟨_, hask, hrun⟩ := ho
  rw [← hcur] at hrun
  obtain ⟨st, hst, _, hpin, hcs⟩ := h.caches (buildAt_mem 0 J)
  obtain ⟨h0, hbl⟩ := (asks_iff h hst).1 hask
  have hWW : W = .panic ∨ W = .broken := hW.imp And.left And.left
  have hD : ∀ av target,
      p.inner.generateDropC (buildAt 0 J) (checkedAt 0) E st av target = W := by
    intro av target
    have hd := generateDropC_ends (K := buildAt 0 J) (C := checkedAt 0) (E := E) (st := st) h0 av target
    have hv := vacant_ends (J := J) hr E.overflowChecks
    rcases hW with ⟨rfl, hb⟩ | ⟨rfl, hb⟩
    · exact hd.1 (hv.1.2 hb)
    · exact hd.2 (hv.2.2 ⟨hrun, hb⟩)
  obtain ⟨b, hb, hbr⟩ := h.reported
  have hce : (buildAt 0 J).isEmpty st.attackInfo.checkers = !b := by
    have hb := hb
    simp only [Position.inCheck, hst, Option.bind_eq_bind, Option.bind_some, Option.pure_def,
      Option.some.injEq] at hb
    rw [← hb, Bool.not_not]
  have T := core_tracks_exact J
  have htok : Ok ((buildAt 0 J).not (p.inner.playerBB p.inner.side)) := by
    rw [L.not]; exact ok_not _
  have hdef : p.legalMovesC (buildAt 0 J) (checkedAt 0) E =
      (if (!(buildAt 0 J).isEmpty st.attackInfo.checkers) = true then
        p.inner.generateEvasionsC (buildAt 0 J) (checkedAt 0) E st []
      else p.inner.generateAllC (buildAt 0 J) (checkedAt 0) E st []) >>= fun av =>
        filterLoopC (p.inner.isLegalC (buildAt 0 J) (checkedAt 0) st) av.length 0 av := by
    unfold Position.legalMovesC
    rw [hst, watched_some]
    cases (buildAt 0 J).isEmpty st.attackInfo.checkers <;> rfl
  rw [hdef, hce, Bool.not_not]
  cases b with
  | false =>
    have hno : ¬ ReportedFirst (rootView pp) ms := fun e => by have := hbr.2 e; cases this
    rw [if_neg (by simp), generateAllC_ends L T hr (fuFrom_at 0 J hr) hD, collected_then hWW,
      tooMany_iff (board_nodup_any hr htok (fun _ h => h) (by decide)) (mem_board_portable hr)]
    exact ⟨fun h => if_pos h.2, fun h => if_neg fun e => h ⟨hno, e⟩⟩
  | true =>
    have hyes : ReportedFirst (rootView pp) ms := hbr.1 rfl
    obtain ⟨st', king, att, hst', _, hok, _, hk, hfk, hatt, hne, hrec, hatk, hone, _⟩ :=
      check_facts h hb
    rw [hst] at hst'
    cases hst'
    obtain ⟨king', ac, ch, hk', hac, hcnt, hch, hbt⟩ := hbl hce
    rw [hk] at hk'
    cases hk'
    rw [hatt] at hac
    cases hac
    have hch1 : (buildAt 0 J).iter st.attackInfo.checkers = [ch] := by
      cases hl : (buildAt 0 J).iter st.attackInfo.checkers with
      | nil => exact absurd hl hne
      | cons a l =>
        rw [hl] at hch hcnt
        cases hch
        cases l with
        | nil => rfl
        | cons b l =>
          simp only [List.length_cons] at hcnt
          omega
    have hrc := (hone ch).1 hch1
    have htok : Ok ((buildAt 0 J).or (betweenTable (buildAt 0 J) ch king) st.attackInfo.checkers) := by
      rw [L.or]; exact ok_or (betweenTable_spec L ch king).1 hok
    have htm : ∀ t, mem ((buildAt 0 J).or (betweenTable (buildAt 0 J) ch king)
        st.attackInfo.checkers) t = true ↔ t = ch ∨ Between ch t king := by
      intro t
      rw [L.or, mem_or, Bool.or_eq_true, mem_betweenTable L, hrec, hrc, or_comm]
    have hmem := fun m => mem_board_any (i := 0) (J := J) hr htok (order := orderEv) (by decide)
      (by decide) m
    have hlen : (kingEvasions (buildAt 0 J) p.inner king att ++ orderEv.flatMap (parts (buildAt 0 J)
        p.inner ((buildAt 0 J).or (betweenTable (buildAt 0 J) ch king)
          st.attackInfo.checkers))).length ≤ 288 := by
      refine evasions_length (P := p.inner.spec) (king := king) (R := RecordedFirst (view p) ms)
        (List.nodup_append.2 ⟨kingEvasions_nodup L _,
          board_nodup_any hr htok (by decide) (by decide), ?_⟩) fun m hm => ?_
      · rintro a ha _ hb rfl
        obtain ⟨to, rfl, _⟩ := (mem_kingEvasions L hr _ _).1 ha
        rcases (hmem _).1 hb with ⟨k, hkk, _, _, _, e, h1, _⟩ | ⟨hi, _⟩
        · cases e
          rw [hfk.1] at h1
          cases h1
          exact rep_orderEv.1 hkk rfl
        · exact hi rfl
      · rcases List.mem_append.1 hm with hm | hm
        · obtain ⟨to, rfl, h1, _⟩ := (mem_kingEvasions L hr _ _).1 hm
          exact .inl ⟨to, rfl, h1⟩
        · refine .inr ⟨ch, .inl ?_, hrc⟩
          rcases (hmem _).1 hm with ⟨k, _, frm, to, pr, rfl, h1, h2, h3, _⟩ | ⟨hi, _⟩
          · exact ⟨frm, to, pr, rfl, (htm _).1 h3, .inl ⟨k, h1, h2⟩⟩
          · exact absurd rfl hi
    rw [if_pos rfl, generateEvasionsC_ends L T hr (fuFrom_at 0 J hr) hok hk hatt hch1 hbt hD,
      collected_then hWW, if_neg (by omega)]
    exact ⟨fun h => absurd hyes h.1, fun _ => rfl⟩

end

/-- C89.  From every position that `Position::new` accepts, after every history of unhindered moves and
takebacks, in every build.  `legal_moves` returns the moves of `ListedFirst`, panics, or leaves a contract
of `shogi_core`'s unchecked functions:
* it panics exactly if no check is reported and there are more moves than the list has room for (only the
  moves on the board count where the search for vacant files runs over), or this search overflows out of
  file 9 with overflow checks on;
* it leaves a contract exactly if this search runs over and nothing made it panic. -/
theorem C89_ends (E : Env) (i : Fin 4) (J : Junk) (pp : CorePartialPosition) (ms : List Move)
    (p : Position) (h : Wandered E (buildAt i J) pp ms p) :
    (∀ l, p.legalMovesC (buildAt i J) (checkedAt i) E = .ok l →
      ¬ Overruns i (rootView pp) ms ∧ l.Nodup ∧ (∀ m, m ∈ l ↔ ListedFirst i (rootView pp) ms m) ∧
      p.legalMoves E (buildAt i J) = some l) ∧
    (p.legalMovesC (buildAt i J) (checkedAt i) E = .panic ↔
      (Overruns i (rootView pp) ms ∧ E.overflowChecks = true ∧
        RunsOut (pawnsOf (current (rootView pp) ms)) 9) ∨
      ¬ ReportedFirst (rootView pp) ms ∧ TooMany fun m => Collected i (current (rootView pp) ms) m ∧
        (Overruns i (rootView pp) ms → ∃ frm to pr, m = .normal frm to pr)) ∧
    (p.legalMovesC (buildAt i J) (checkedAt i) E = .broken ↔ Overruns i (rootView pp) ms ∧
      ¬ (E.overflowChecks = true ∧ RunsOut (pawnsOf (current (rootView pp) ms)) 9) ∧
      ¬ (¬ ReportedFirst (rootView pp) ms ∧ TooMany fun m =>
        Collected i (current (rootView pp) ms) m ∧ ∃ frm to pr, m = .normal frm to pr)) := by
  by_cases ho : Overruns i (rootView pp) ms
  · have hi := ho.1
    subst hi
    have hcur := h.visited.current (buildAt_mem 0 J)
    have hf : ∀ m, (Collected 0 (current (rootView pp) ms) m ∧
        (Overruns 0 (rootView pp) ms → ∃ frm to pr, m = .normal frm to pr)) ↔
        (Collected 0 (current (rootView pp) ms) m ∧ ∃ frm to pr, m = .normal frm to pr) :=
      fun m => and_congr_right fun _ => forall_prop_of_true ho
    simp only [hf]
    have hown : pawnsOf (current (rootView pp) ms) = OwnPawn p := by rw [← hcur]; rfl
    rw [hown, ← hcur]
    by_cases ht : ¬ ReportedFirst (rootView pp) ms ∧
        TooMany (fun m => Collected 0 (view p) m ∧ ∃ frm to pr, m = .normal frm to pr)
    · by_cases hb : E.overflowChecks = true ∧ RunsOut (OwnPawn p) 9
      · rw [(watched_overruns h ho (W := .panic) (.inl ⟨rfl, hb⟩)).1 ht]
        exact ⟨fun l e => (by cases e), ⟨fun _ => .inr ht, fun _ => rfl⟩,
          ⟨fun e => (by cases e), fun e => absurd ht e.2.2⟩⟩
      · rw [(watched_overruns h ho (W := .broken) (.inr ⟨rfl, hb⟩)).1 ht]
        exact ⟨fun l e => (by cases e), ⟨fun _ => .inr ht, fun _ => rfl⟩,
          ⟨fun e => (by cases e), fun e => absurd ht e.2.2⟩⟩
    · by_cases hb : E.overflowChecks = true ∧ RunsOut (OwnPawn p) 9
      · rw [(watched_overruns h ho (W := .panic) (.inl ⟨rfl, hb⟩)).2 ht]
        exact ⟨fun l e => (by cases e), ⟨fun _ => .inl ⟨ho, hb⟩, fun _ => rfl⟩,
          ⟨fun e => (by cases e), fun e => absurd hb e.2.1⟩⟩
      · rw [(watched_overruns h ho (W := .broken) (.inr ⟨rfl, hb⟩)).2 ht]
        exact ⟨fun l e => (by cases e), ⟨fun e => (by cases e), fun e => (e.elim
          (fun e => absurd e.2 hb) (fun e => absurd e ht))⟩, ⟨fun _ => ⟨ho, hb, ht⟩, fun _ => rfl⟩⟩
  · rw [watched_eq h ho]
    have hm := C88_machine E i J pp ms p h fun hi ha =>
      ⟨fun e => ho ⟨hi, ha, .inl e⟩, fun e => ho ⟨hi, ha, .inr e⟩⟩
    obtain ⟨_, _, hl, hn⟩ := hm
    have hf : ∀ m, (Collected i (current (rootView pp) ms) m ∧
        (Overruns i (rootView pp) ms → ∃ frm to pr, m = .normal frm to pr)) ↔
        Collected i (current (rootView pp) ms) m :=
      fun m => and_iff_left fun e => absurd e ho
    simp only [hf]
    simp only [ho, false_and, false_or, not_false_eq_true, true_and]
    have hn : p.legalMoves E (buildAt i J) = none ↔ ¬ ReportedFirst (rootView pp) ms ∧
      TooMany (Collected i (current (rootView pp) ms)) := hn
    refine ⟨fun l e => ?_, ?_, ?_⟩
    · have hs : p.legalMoves E (buildAt i J) = some l := by
        cases hx : p.legalMoves E (buildAt i J) with
        | none => rw [hx] at e; cases e
        | some l' => rw [hx] at e; cases e; rfl
      exact ⟨(hl l hs).1, (hl l hs).2.1, hs⟩
    · refine Iff.trans ?_ hn
      cases p.legalMoves E (buildAt i J) with
      | none => exact ⟨fun _ => rfl, fun _ => rfl⟩
      | some l => exact ⟨fun e => (by cases e), fun e => (by cases e)⟩
    · refine iff_of_false ?_ (fun e => e)
      cases p.legalMoves E (buildAt i J) <;> exact fun e => by cases e

section
open Examples

/-- Two pawns on one file, one of them on the last rank of the opponent's side; a king and what attacks
it; a pawn in hand or not. -/
def twoPawns (file : Nat) (inHand : Bool) (attacker : List (Nat × Nat × PieceKind × Color)) :
    CorePartialPosition where
  side := .black
  ply := 1#16
  hands := fun c => match c, inHand with
    | .black, true => handOf [(.pawn, 1)]
    | _, _ => handOf []
  board := boardOf ([(file,9,.pawn,.black),(file,8,.pawn,.black),(5,9,.king,.black),
    (5,1,.king,.white)] ++ attacker)

/-- How `legal_moves` ends at the root, with the number of moves. -/
def howEnds (i : Fin 4) (overflowChecks : Bool) (pp : CorePartialPosition) : Option (Watched Nat) :=
  (Position.new { env0 with overflowChecks := overflowChecks } (buildAt i otherJunk) pp).map fun p =>
    match p.legalMovesC (buildAt i otherJunk) (checkedAt i)
        { env0 with overflowChecks := overflowChecks } with
    | .ok l => .ok l.length
    | .panic => .panic
    | .broken => .broken

/-- Pawns on file 9 overflow, pawns on file 7 leave the contract, pawns on file 3 do neither.  Without a
pawn in hand, in check from the next square, and in check from two pieces nothing happens; in check from
further away it does. -/
theorem C89_example :
    howEnds 0 true (twoPawns 9 true []) = some .panic ∧
    howEnds 0 false (twoPawns 9 true []) = some .broken ∧
    howEnds 0 true (twoPawns 7 true []) = some .broken ∧
    howEnds 0 true (twoPawns 3 true []) = some (.ok 67) ∧
    howEnds 0 true (twoPawns 9 false []) = some (.ok 6) ∧
    howEnds 0 true (twoPawns 9 true [(5,5,.rook,.white)]) = some .panic ∧
    howEnds 0 false (twoPawns 7 true [(5,5,.rook,.white)]) = some .broken ∧
    howEnds 0 true (twoPawns 9 true [(5,8,.rook,.white)]) = some (.ok 3) ∧
    howEnds 0 true (twoPawns 9 true [(5,5,.rook,.white),(4,7,.knight,.white)]) = some (.ok 4) ∧
    howEnds 2 true (twoPawns 9 true []) = some (.ok 75) := by
  decide +kernel

/-- The theorem at the first of these: the search runs over, although there are not too many moves. -/
example : Overruns 0 (rootView (twoPawns 9 true [])) [] ∧
    ¬ Overruns 0 (rootView (twoPawns 9 false [])) [] := by
  constructor
  · have h := C89_example.2.1
    unfold howEnds at h
    obtain ⟨p, hp, h⟩ := Option.map_eq_some_iff.1 h
    refine ((C89_ends _ 0 otherJunk _ [] p ⟨p, hp, .start⟩).2.2.1 ?_).1
    revert h
    split
    · exact fun h => by cases h
    · exact fun h => by cases h
    · rename_i e
      exact fun _ => e
  · have h := C89_example.2.2.2.2.1
    unfold howEnds at h
    obtain ⟨p, hp, h⟩ := Option.map_eq_some_iff.1 h
    revert h
    split
    · rename_i l e
      exact fun _ => ((C89_ends _ 0 otherJunk _ [] p ⟨p, hp, .start⟩).1 l e).1
    · exact fun h => by cases h
    · exact fun h => by cases h

end

end Props

end Yasai

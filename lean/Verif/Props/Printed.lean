import Verif.Model.Text
import Verif.Spec.Usi
import Verif.Props.Hazard
import Verif.Props.Divide

/-!
# C99: what the example prints
-/

namespace Yasai.Props

open Yasai Spec

/-! ## Texts of moves -/

theorem text_square : ∀ s t : Square, Square.text s = Square.text t → s = t := by decide +kernel

theorem text_kind : ∀ k k' : PieceKind, k.text = k'.text → k = k' := by decide +kernel

/-- C99.  The text of a move is the one USI text that stands for it; a piece that cannot be in a hand has
none. -/
theorem C99_usi (m : Move) (t : List Char) :
    Usi m t ↔ t = m.text ∧ ∀ to pc, m = .drop to pc → handKind pc.kind = true := by
  have w : ∀ (s : Square) (a b : Char), Written s a b ↔ Square.text s = [a, b] := by
    have h : ∀ s : Square,
        ['1', '2', '3', '4', '5', '6', '7', '8', '9'][s.file - 1]? = (Square.text s)[0]? ∧
        ['a', 'b', 'c', 'd', 'e', 'f', 'g', 'h', 'i'][s.rank - 1]? = (Square.text s)[1]? := by
      decide +kernel
    intro s a b
    unfold Written
    rw [(h s).1, (h s).2]
    simp [Square.text]
  have l : ∀ (k : PieceKind) (x : Char), (k, x) ∈ usiLetters → k.text = [x] ∧ handKind k = true := by
    intro k x h
    simp only [usiLetters, List.mem_cons, Prod.mk.injEq, List.not_mem_nil, or_false] at h
    rcases h with ⟨rfl, rfl⟩ | ⟨rfl, rfl⟩ | ⟨rfl, rfl⟩ | ⟨rfl, rfl⟩ | ⟨rfl, rfl⟩ | ⟨rfl, rfl⟩ | ⟨rfl, rfl⟩ <;>
      exact ⟨rfl, rfl⟩
  have l' : ∀ k : PieceKind, handKind k = true → ∃ x, (k, x) ∈ usiLetters ∧ k.text = [x] := by
    intro k h
    cases k with
    | pawn => exact ⟨'P', by simp [usiLetters], rfl⟩
    | lance => exact ⟨'L', by simp [usiLetters], rfl⟩
    | knight => exact ⟨'N', by simp [usiLetters], rfl⟩
    | silver => exact ⟨'S', by simp [usiLetters], rfl⟩
    | gold => exact ⟨'G', by simp [usiLetters], rfl⟩
    | bishop => exact ⟨'B', by simp [usiLetters], rfl⟩
    | rook => exact ⟨'R', by simp [usiLetters], rfl⟩
    | _ => cases h
  have e : ∀ s : Square, ∃ a b, Square.text s = [a, b] := fun s => ⟨_, _, rfl⟩
  constructor
  · intro h
    cases h with
    | board h1 h2 =>
      refine ⟨?_, fun _ _ e => (by cases e)⟩
      simp only [Move.text, (w _ _ _).1 h1, (w _ _ _).1 h2]
      rfl
    | promotion h1 h2 =>
      refine ⟨?_, fun _ _ e => (by cases e)⟩
      simp only [Move.text, (w _ _ _).1 h1, (w _ _ _).1 h2]
      rfl
    | drop h1 h2 =>
      refine ⟨?_, fun _ _ e => by cases e; exact (l _ _ h1).2⟩
      simp only [Move.text, (w _ _ _).1 h2, (l _ _ h1).1]
      rfl
  · rintro ⟨rfl, hk⟩
    cases m with
    | normal frm to pr =>
      obtain ⟨a, b, h1⟩ := e frm
      obtain ⟨c, d, h2⟩ := e to
      simp only [Move.text, h1, h2]
      cases pr with
      | false => exact .board ((w _ _ _).2 h1) ((w _ _ _).2 h2)
      | true => exact .promotion ((w _ _ _).2 h1) ((w _ _ _).2 h2)
    | drop to pc =>
      obtain ⟨x, hx, e1⟩ := l' pc.kind (hk to pc rfl)
      obtain ⟨a, b, h1⟩ := e to
      simp only [Move.text, h1, e1]
      exact .drop (col := pc.color) hx ((w _ _ _).2 h1)

/-- Legal moves have a USI text. -/
theorem legal_usi {P : Pos} {m : Move} (h : Legal P m) (t : List Char) : Usi m t ↔ t = m.text := by
  rw [C99_usi]
  refine ⟨fun h => h.1, fun e => ⟨e, fun to pc e => ?_⟩⟩
  subst e
  exact h.1.1.2.1

/-- The colon does not occur in a move. -/
theorem text_colon (m : Move) : ∀ c ∈ m.text, c ≠ ':' := by
  have hs : ∀ s : Square, ∀ c ∈ Square.text s, c ≠ ':' := by decide +kernel
  have hk : ∀ k : PieceKind, ∀ c ∈ k.text, c ≠ ':' := by decide +kernel
  intro c hc
  cases m with
  | normal frm to pr =>
    simp only [Move.text, List.mem_append] at hc
    rcases hc with (hc | hc) | hc
    · exact hs _ c hc
    · exact hs _ c hc
    · cases pr
      · cases hc
      · rw [List.mem_singleton.1 hc]; decide
  | drop to pc =>
    simp only [Move.text, List.mem_append, List.mem_cons] at hc
    rcases hc with hc | rfl | hc
    · exact hk _ c hc
    · decide
    · exact hs _ c hc

/-- Board moves begin with a digit, drops do not. -/
theorem text_head (frm to to' : Square) (pr : Bool) (pc : Piece) :
    (Move.normal frm to pr).text ≠ (Move.drop to' pc).text := by
  have hs : ∀ s : Square, ∀ k : PieceKind, (Square.text s).head? ≠ k.text.head? := by decide +kernel
  intro e
  have e := congrArg List.head? e
  simp only [Move.text] at e
  refine hs frm pc.kind ?_
  have h1 : (Square.text frm ++ Square.text to ++ if pr = true then ['+'] else []).head? =
      (Square.text frm).head? := rfl
  have h2 : (pc.kind.text ++ '*' :: Square.text to').head? = pc.kind.text.head? := by
    cases pc.kind <;> rfl
  rw [← h1, ← h2, e]

/-- C99.  Two moves with the same text are equal, up to the colour of a dropped piece, which is not
written. -/
theorem C99_texts_differ {m m' : Move} (h : m.text = m'.text)
    (hc : ∀ t t' pc pc', m = .drop t pc → m' = .drop t' pc' → pc.color = pc'.color) : m = m' := by
  cases m with
  | normal frm to pr =>
    cases m' with
    | normal frm' to' pr' =>
      simp only [Move.text, List.append_assoc] at h
      obtain ⟨e1, h⟩ := List.append_inj h rfl
      obtain ⟨e2, h⟩ := List.append_inj h rfl
      rw [text_square _ _ e1, text_square _ _ e2]
      cases pr <;> cases pr' <;> first | rfl | cases h
    | drop to' pc' => exact absurd h (text_head _ _ _ _ _)
  | drop to pc =>
    cases m' with
    | normal frm' to' pr' => exact absurd h.symm (text_head _ _ _ _ _)
    | drop to' pc' =>
      simp only [Move.text] at h
      obtain ⟨k, c⟩ := pc
      obtain ⟨k', c'⟩ := pc'
      have hcc : c = c' := hc to to' _ _ rfl rfl
      have h' : (k.text ++ ['*']) ++ Square.text to = (k'.text ++ ['*']) ++ Square.text to' := by
        simpa using h
      obtain ⟨e1, e2⟩ := List.append_inj' h' rfl
      obtain ⟨e3, _⟩ := List.append_inj' e1 rfl
      rw [text_square _ _ e2, text_kind _ _ e3, hcc]

/-- C99.  From a printed line move and number can be read. -/
theorem C99_lines_differ {x x' : Move × Nat} (h : perftLine x = perftLine x')
    (hc : ∀ t t' pc pc', x.1 = .drop t pc → x'.1 = .drop t' pc' → pc.color = pc'.color) : x = x' := by
  have cut : ∀ (l r : List Char), (∀ c ∈ l, c ≠ ':') → (l ++ ':' :: r).takeWhile (· != ':') = l := by
    intro l r hl
    rw [List.takeWhile_append_of_pos (by simpa using hl)]
    simp
  obtain ⟨m, n⟩ := x
  obtain ⟨m', n'⟩ := x'
  unfold perftLine at h
  have e := congrArg (List.takeWhile (· != ':')) h
  rw [cut _ _ (text_colon m), cut _ _ (text_colon m')] at e
  have hm := C99_texts_differ e hc
  subst hm
  have e2 := List.append_cancel_left h
  simp only [List.cons.injEq, true_and] at e2
  have e3 := congrArg (fun l => Nat.ofDigitChars 10 l 0) e2
  simp only [Nat.ofDigitChars_ten_toDigits] at e3
  rw [e3]

/-! ## Listed moves -/

theorem nodup_texts {α : Type} {f : α → List Char} {l : List α} (hl : l.Nodup)
    (hf : ∀ x ∈ l, ∀ y ∈ l, f x = f y → x = y) : (l.map f).Nodup := by
  induction l with
  | nil => exact List.nodup_nil
  | cons a l ih =>
    rw [List.nodup_cons] at hl
    rw [List.map_cons, List.nodup_cons]
    refine ⟨fun hm => ?_, ih hl.2 fun x hx y hy =>
      hf x (List.mem_cons_of_mem _ hx) y (List.mem_cons_of_mem _ hy)⟩
    obtain ⟨b, hb, e⟩ := List.mem_map.1 hm
    exact hl.1 (hf b (List.mem_cons_of_mem _ hb) a List.mem_cons_self e ▸ hb)

/-- C99.  From every position that `Position::new` accepts, after every history of unhindered moves and
takebacks, in every build, where `legal_moves` returns and leaves no contract: no two of the listed moves
have the same text. -/
theorem C99_listed_texts (E : Env) (i : Fin 4) (J : Junk) (pp : CorePartialPosition) (ms : List Move)
    (p : Position) (h : Wandered E (buildAt i J) pp ms p) (l : List Move)
    (hl : p.legalMovesC (buildAt i J) (checkedAt i) E = .ok l) : (l.map Move.text).Nodup := by
  obtain ⟨_, hn, hm, _⟩ := (C89_ends E i J pp ms p h).1 l hl
  refine nodup_texts hn fun x hx y hy e => C99_texts_differ e fun t t' pc pc' e1 e2 => ?_
  subst e1 e2
  exact ((hm _).1 hx).1.1.trans ((hm _).1 hy).1.1.symm

/-- C99.  The program of /repo/examples/perft.rs, started with the depth `d`: the assertion holds, nothing
panics, the total is the number of games of that length from the initial position, and the lines are
thirty different ones: for each legal first move its USI text and the number of games that begin with it. -/
theorem C99_example_program (E : Env) (K : Backend) (hK : K ∈ backends) (d : Nat)
    (hply : E.overflowChecks = true → d ≤ 65534) :
    ∃ out n, exampleMain E K d = some (out, n) ∧ GameCount initial (max d 1) n ∧
      out.length = 30 ∧ out.Nodup ∧
      ∀ t, t ∈ out ↔ ∃ m w c, Legal initial m ∧ Usi m w ∧
        GameCount (apply initial m) (max d 1 - 1) c ∧ t = w ++ ':' :: ' ' :: Nat.toDigits 10 c := by
  obtain ⟨p, hp, hv, hpl, _, l, hl, hlen⟩ := C43_default E K hK
  have hr : Reached E K .startpos [] p := ⟨p, hp, .start⟩
  have hp1 : E.overflowChecks = true → p.ply.toNat + d ≤ 65535 := by
    intro hE
    have := hply hE
    rw [hpl]
    show 1 + d ≤ 65535
    omega
  obtain ⟨lines, n, h1, h2, h3, h4, h5⟩ := C46_perft_divide E K hK _ startpos_standard d [] p hr hp1
  have hle : l = lines.map Prod.fst := Option.some.inj (hl.symm.trans h2)
  obtain ⟨_, hg⟩ := C31_perft E K hK _ startpos_standard.valid d [] p hr n p h5
  have hleg : ∀ m, m ∈ lines.map Prod.fst ↔ Legal initial m := by
    intro m
    rw [← hv]
    exact ⟨C05_legal_moves_sound E K hK _ startpos_standard.valid [] p hr _ h2 m,
      C06_legal_moves_complete E K hK _ startpos_standard.valid [] p hr _ h2 m⟩
  have hn := C07_legal_moves_nodup E K hK _ startpos_standard.valid [] p hr _ h2
  have hn' : lines.Nodup := List.Pairwise.of_map Prod.fst (fun a b hab e => hab (e ▸ rfl)) hn
  refine ⟨lines.map perftLine, n, ?_, hv ▸ hg, ?_, ?_, fun t => ?_⟩
  · unfold exampleMain
    simp only [hp, hl, h1, hlen, Option.bind_eq_bind, Option.bind_some, if_true, Option.pure_def]
  · rw [List.length_map, ← hlen, hle, List.length_map]
  · refine nodup_texts hn' fun x hx y hy e => C99_lines_differ e fun t t' pc pc' e1 e2 => ?_
    have hx := (hleg _).1 (List.mem_map_of_mem (f := Prod.fst) hx)
    have hy := (hleg _).1 (List.mem_map_of_mem (f := Prod.fst) hy)
    rw [e1] at hx
    rw [e2] at hy
    exact hx.1.1.1.trans hy.1.1.1.symm
  · rw [List.mem_map]
    constructor
    · rintro ⟨x, hx, rfl⟩
      have hx' := (hleg _).1 (List.mem_map_of_mem hx)
      refine ⟨x.1, x.1.text, x.2, hx', (legal_usi hx' _).2 rfl, ?_, rfl⟩
      rw [← hv]
      exact h3 x hx
    · rintro ⟨m, w, c, hm, hw, hc, rfl⟩
      rw [(legal_usi hm w).1 hw]
      obtain ⟨x, hx, rfl⟩ := List.mem_map.1 ((hleg m).2 hm)
      refine ⟨x, hx, ?_⟩
      have h3 := h3 x hx
      rw [hv] at h3
      rw [hc.unique h3]
      rfl

/-! ## Concrete cases -/

section
open Yasai.Examples

/-- Texts of the three kinds of moves; a printed line at depth 1; and two drops that only the
side to move tells apart. -/
theorem C99_example :
    (Move.normal (sq 7 7) (sq 7 6) false).text = ['7', 'g', '7', 'f'] ∧
    (Move.normal (sq 8 8) (sq 2 2) true).text = ['8', 'h', '2', 'b', '+'] ∧
    (Move.drop (sq 5 5) ⟨.pawn, .white⟩).text = ['P', '*', '5', 'e'] ∧
    (Move.drop (sq 5 5) ⟨.pawn, .white⟩).text = (Move.drop (sq 5 5) ⟨.pawn, .black⟩).text ∧
    ((exampleMain env0 CoreBB.backend 1).any fun r =>
      r.2 == 30 && r.1.contains ['7', 'g', '7', 'f', ':', ' ', '1']) = true := by
  decide +kernel

end

end Yasai.Props

import Verif.Model.Lazy
import Verif.Props.TableInit

/-!
# C102: the lazy statics, with any number of threads
-/

namespace Yasai.Props.Lazy

open Yasai Spec Yasai.Lazy Yasai.Lazy.Process

/-! ## Specification -/

/-- What the tables hold: the functions with which the rest of the model works. -/
def tables (K : Backend) (E : Env) : (t : Table) → Contents t
  | .attack => AttackTable.init K
  | .between => fun x => betweenTable K x.1 x.2
  | .relativeRanks => fun x => relativeRanks x.1 x.2
  | .promotable => fun x => promotable x.1 x.2
  | .files => filesTable K
  | .zobrist => E

/-- What a computation returns if all tables are there from the beginning. -/
def eval {α : Type} (T : (t : Table) → Contents t) : Code α → α
  | .ret a => a
  | .read t k => eval T (k (T t))

/-- How many accesses it makes. -/
def accesses {α : Type} (T : (t : Table) → Contents t) : Code α → Nat
  | .ret _ => 0
  | .read t k => accesses T (k (T t)) + 1

/-- The sum of `f 0`, …, `f (n - 1)`. -/
def total (f : Nat → Nat) : Nat → Nat
  | 0 => 0
  | n + 1 => total f n + f n

/-- A thread has finished with the result `a`. -/
def Finished {α : Type} (s : Process α) (i : Nat) (a : α) : Prop := s.threads i = ⟨.ret a, []⟩

/-! ## Updates -/

theorem setCell_self (cells : (t : Table) → Cell t) (t : Table) (c : Cell t) :
    setCell cells t c t = c := by
  simp [setCell]

theorem setCell_ne (cells : (t : Table) → Cell t) {t u : Table} (c : Cell t) (h : u ≠ t) :
    setCell cells t c u = cells u := by
  simp [setCell, h]

theorem setThread_self {α : Type} (f : Nat → Thread α) (i : Nat) (th : Thread α) :
    setThread f i th i = th := by
  simp [setThread]

theorem setThread_ne {α : Type} (f : Nat → Thread α) {i j : Nat} (th : Thread α) (h : j ≠ i) :
    setThread f i th j = f j := by
  simp [setThread, h]

/-! ## The initialisers -/

theorem promotableLoop_eval (T : (t : Table) → Contents t) :
    ∀ (l : List (Square × Color)) (tb : Square × Color → Bool),
      eval T (promotableLoop l tb) =
        some (l.foldl (fun tb i => if T .relativeRanks i ≤ 3 then upd tb i true else tb) tb) := by
  intro l
  induction l with
  | nil => intro tb; rfl
  | cons i l ih => intro tb; exact ih _

theorem promotableLoop_accesses (T : (t : Table) → Contents t) :
    ∀ (l : List (Square × Color)) (tb : Square × Color → Bool),
      accesses T (promotableLoop l tb) = l.length := by
  intro l
  induction l with
  | nil => intro tb; rfl
  | cons i l ih => intro tb; exact congrArg (· + 1) (ih _)

theorem eval_ret {α : Type} (T : (t : Table) → Contents t) (a : α) : eval T (.ret a) = a := rfl

theorem eval_between (K : Backend) (E : Env) :
    eval (tables K E) (initialiser K E .between) = some (tables K E .between) := by
  obtain ⟨T, h1, h2⟩ := between_init K
  rw [initialiser, eval_ret, h1, tables]
  exact congrArg some (funext fun x => h2 x.1 x.2)

theorem ranks_eq : relativeRanksInit = fun x => relativeRanks x.1 x.2 :=
  funext fun x => relativeRanks_init x.1 x.2

theorem eval_ranks (K : Backend) (E : Env) :
    eval (tables K E) (initialiser K E .relativeRanks) = some (tables K E .relativeRanks) := by
  rw [initialiser, eval_ret, tables, ranks_eq]

theorem eval_promotable (K : Backend) (E : Env) :
    eval (tables K E) (initialiser K E .promotable) = some (tables K E .promotable) := by
  have e : tables K E .relativeRanks = relativeRanksInit := by rw [tables, ranks_eq]
  have l : ∀ (r : Square × Color → Nat),
      squareColors.foldl (fun tb i => if r i ≤ 3 then upd tb i true else tb) (fun _ => false) =
        promotableInit r := by
    intro r
    unfold squareColors promotableInit
    rw [List.foldl_flatMap]
    simp only [List.foldl_map]
  rw [initialiser, promotableLoop_eval, e, l, tables]
  exact congrArg some (funext fun x => promotable_init x.1 x.2)

theorem eval_files (K : Backend) (E : Env) :
    eval (tables K E) (initialiser K E .files) = some (tables K E .files) := by
  obtain ⟨T, h1, h2⟩ := files_init K
  rw [initialiser, eval_ret, h1, tables]
  exact congrArg some (funext h2)

theorem initialiser_eval (K : Backend) (E : Env) (t : Table) :
    eval (tables K E) (initialiser K E t) = some (tables K E t) := by
  cases t with
  | attack => rfl
  | between => exact eval_between K E
  | relativeRanks => exact eval_ranks K E
  | promotable => exact eval_promotable K E
  | files => exact eval_files K E
  | zobrist => rfl

theorem squareColors_length : squareColors.length = 162 := by
  have h : ∀ l : List Square, (l.flatMap fun sq => Color.all.map fun c => (sq, c)).length =
      2 * l.length := by
    intro l
    induction l with
    | nil => rfl
    | cons a l ih =>
      rw [List.flatMap_cons, List.length_append, ih, List.length_map, List.length_cons]
      show 2 + _ = _
      omega
  unfold squareColors
  rw [h, Square.all, List.length_finRange]

theorem initialiser_accesses (K : Backend) (E : Env) (t : Table) :
    accesses (tables K E) (initialiser K E t) = if t = .promotable then 162 else 0 := by
  cases t with
  | promotable => exact (promotableLoop_accesses _ _ _).trans squareColors_length
  | attack => rfl
  | between => rfl
  | relativeRanks => rfl
  | files => rfl
  | zobrist => rfl

/-! ## The order in which initialisers need each other -/

/-- `PROMOTABLE` stands above the other tables. -/
def rank : Table → Nat
  | .promotable => 1
  | _ => 0

/-- The computation accesses only tables of rank less than `r`. -/
def Below {α : Type} (r : Nat) : Code α → Prop
  | .ret _ => True
  | .read t k => rank t < r ∧ ∀ v, Below r (k v)

theorem promotableLoop_below :
    ∀ (l : List (Square × Color)) (tb : Square × Color → Bool), Below 1 (promotableLoop l tb) := by
  intro l
  induction l with
  | nil => intro tb; trivial
  | cons i l ih => intro tb; exact ⟨Nat.zero_lt_one, fun v => ih _⟩

theorem initialiser_below (K : Backend) (E : Env) (t : Table) :
    Below (rank t) (initialiser K E t) := by
  cases t with
  | promotable => exact promotableLoop_below _ _
  | attack => trivial
  | between => trivial
  | relativeRanks => trivial
  | files => trivial
  | zobrist => trivial

/-! ## Invariant -/

/-- What holds in every state of every execution. -/
structure Sound {α : Type} (K : Backend) (E : Env) (n : Nat) (progs : Nat → Code α)
    (s : Process α) : Prop where
  ready : ∀ t v, s.cells t = .ready v → v = tables K E t
  whole : ∀ t, s.cells t ≠ .poisoned
  busy : ∀ t i, s.cells t = .busy i → i < n ∧ ∃ p, (⟨t, p⟩ : Job) ∈ (s.threads i).jobs
  job : ∀ i, i < n → ∀ f ∈ (s.threads i).jobs, s.cells f.1 = .busy i ∧
    eval (tables K E) f.2 = some (tables K E f.1) ∧ Below (rank f.1) f.2
  order : ∀ i, i < n → (s.threads i).jobs.Pairwise fun a b => rank a.1 < rank b.1
  main : ∀ i, i < n → eval (tables K E) (s.threads i).main = eval (tables K E) (progs i)
  once : s.log.Nodup ∧ ∀ t, t ∈ s.log ↔ s.cells t ≠ .empty

theorem sound_start {α : Type} (K : Backend) (E : Env) (n : Nat) (progs : Nat → Code α) :
    Sound K E n progs (start progs) where
  ready := fun t v h => by cases h
  whole := fun t h => by cases h
  busy := fun t i h => by cases h
  job := fun i _ f hf => by cases hf
  order := fun i _ => List.Pairwise.nil
  main := fun i _ => rfl
  once := ⟨List.nodup_nil, fun t => ⟨fun h => (by cases h), fun h => absurd rfl h⟩⟩

theorem sound_step {α : Type} {K : Backend} {E : Env} {n : Nat} {progs : Nat → Code α}
    {s s' : Process α} (h : Sound K E n progs s) (st : Process.Step K E n s s') :
    Sound K E n progs s' := by
  cases st with
  | init i t hi hw he =>
    have hlow : ∀ f ∈ (s.threads i).jobs, rank t < rank f.1 := by
      intro f hf
      cases hj : (s.threads i).jobs with
      | nil => rw [hj] at hf; cases hf
      | cons g rest =>
        have hg : rank t < rank g.1 := by
          have hb := (h.job i hi g (hj ▸ List.mem_cons_self)).2.2
          unfold Thread.wants at hw
          rw [hj] at hw
          obtain ⟨u, p⟩ := g
          cases p with
          | ret a => cases hw
          | read w k => cases hw; exact hb.1
        rw [hj] at hf
        cases List.mem_cons.1 hf with
        | inl e => exact e ▸ hg
        | inr e =>
          have ho := h.order i hi
          rw [hj] at ho
          exact Nat.lt_trans hg (List.rel_of_pairwise_cons ho e)
    constructor
    · intro u v hu
      dsimp only at hu
      by_cases e : u = t
      · subst e; rw [setCell_self] at hu; cases hu
      · rw [setCell_ne _ _ e] at hu; exact h.ready u v hu
    · intro u hu
      dsimp only at hu
      by_cases e : u = t
      · subst e; rw [setCell_self] at hu; cases hu
      · rw [setCell_ne _ _ e] at hu; exact h.whole u hu
    · intro u j hu
      dsimp only at hu
      by_cases e : u = t
      · subst e; rw [setCell_self] at hu; cases hu
        refine ⟨hi, initialiser K E u, ?_⟩
        show _ ∈ (setThread _ _ _ _).jobs
        rw [setThread_self]
        exact List.mem_cons_self
      · rw [setCell_ne _ _ e] at hu
        obtain ⟨hj, p, hp⟩ := h.busy u j hu
        refine ⟨hj, p, ?_⟩
        show _ ∈ (setThread _ _ _ _).jobs
        by_cases e' : j = i
        · subst e'; rw [setThread_self]; exact List.mem_cons_of_mem _ hp
        · rw [setThread_ne _ _ e']; exact hp
    · intro j hj f hf
      have old : f ∈ (s.threads j).jobs → setCell s.cells t (.busy i) f.1 = .busy j ∧
          eval (tables K E) f.2 = some (tables K E f.1) ∧ Below (rank f.1) f.2 := by
        intro hf
        obtain ⟨a, b⟩ := h.job j hj f hf
        refine ⟨?_, b⟩
        rw [setCell_ne _ _ (fun e => ?_)]
        · exact a
        · rw [e, he] at a; cases a
      by_cases e : j = i
      · subst e
        replace hf : f ∈ (setThread s.threads j _ j).jobs := hf
        rw [setThread_self] at hf
        cases List.mem_cons.1 hf with
        | inl e =>
          subst e
          exact ⟨setCell_self _ _ _, initialiser_eval K E t, initialiser_below K E t⟩
        | inr e => exact old e
      · replace hf : f ∈ (setThread s.threads i _ j).jobs := hf
        rw [setThread_ne _ _ e] at hf
        exact old hf
    · intro j hj
      show List.Pairwise _ (setThread _ _ _ _).jobs
      by_cases e : j = i
      · subst e
        rw [setThread_self]
        exact List.pairwise_cons.2 ⟨hlow, h.order j hj⟩
      · rw [setThread_ne _ _ e]; exact h.order j hj
    · intro j hj
      show eval _ (setThread _ _ _ _).main = _
      by_cases e : j = i
      · subst e; rw [setThread_self]; exact h.main j hj
      · rw [setThread_ne _ _ e]; exact h.main j hj
    · refine ⟨List.nodup_cons.2 ⟨fun hm => (h.once.2 t).1 hm he, h.once.1⟩, fun u => ?_⟩
      show u ∈ t :: s.log ↔ setCell s.cells t (.busy i) u ≠ .empty
      by_cases e : u = t
      · subst e; rw [setCell_self]
        exact ⟨fun _ e => (by cases e), fun _ => List.mem_cons_self⟩
      · rw [setCell_ne _ _ e, ← h.once.2 u]
        exact ⟨fun hm => (List.mem_cons.1 hm).resolve_left e, fun hm => List.mem_cons_of_mem _ hm⟩
  | readJob i t u k rest v hi hj hc =>
    have hv := h.ready t v hc
    constructor
    · exact h.ready
    · exact h.whole
    · intro w j hw
      obtain ⟨hj', p, hp⟩ := h.busy w j hw
      refine ⟨hj', ?_⟩
      show ∃ p, _ ∈ (setThread _ _ _ _).jobs
      by_cases e : j = i
      · subst e
        rw [setThread_self]
        rw [hj] at hp
        cases List.mem_cons.1 hp with
        | inl e => cases e; exact ⟨_, List.mem_cons_self⟩
        | inr e => exact ⟨p, List.mem_cons_of_mem _ e⟩
      · rw [setThread_ne _ _ e]; exact ⟨p, hp⟩
    · intro j hj' f hf
      by_cases e : j = i
      · subst e
        replace hf : f ∈ (setThread s.threads j _ j).jobs := hf
        rw [setThread_self] at hf
        cases List.mem_cons.1 hf with
        | inl e =>
          subst e
          obtain ⟨a, b, c⟩ := h.job j hj' ⟨u, .read t k⟩ (hj ▸ List.mem_cons_self)
          refine ⟨a, ?_, c.2 v⟩
          subst hv
          exact b
        | inr e => exact h.job j hj' f (hj ▸ List.mem_cons_of_mem _ e)
      · replace hf : f ∈ (setThread s.threads i _ j).jobs := hf
        rw [setThread_ne _ _ e] at hf
        exact h.job j hj' f hf
    · intro j hj'
      show List.Pairwise _ (setThread _ _ _ _).jobs
      by_cases e : j = i
      · subst e
        rw [setThread_self]
        have ho := h.order j hj'
        rw [hj] at ho
        exact List.pairwise_cons.2 (List.pairwise_cons.1 ho)
      · rw [setThread_ne _ _ e]; exact h.order j hj'
    · intro j hj'
      show eval _ (setThread _ _ _ _).main = _
      by_cases e : j = i
      · subst e; rw [setThread_self]; exact h.main j hj'
      · rw [setThread_ne _ _ e]; exact h.main j hj'
    · exact h.once
  | readMain i t k v hi ht hc =>
    have hv := h.ready t v hc
    constructor
    · exact h.ready
    · exact h.whole
    · intro w j hw
      obtain ⟨hj', p, hp⟩ := h.busy w j hw
      refine ⟨hj', ?_⟩
      show ∃ p, _ ∈ (setThread _ _ _ _).jobs
      by_cases e : j = i
      · subst e; rw [ht] at hp; cases hp
      · rw [setThread_ne _ _ e]; exact ⟨p, hp⟩
    · intro j hj' f hf
      by_cases e : j = i
      · subst e
        replace hf : f ∈ (setThread s.threads j _ j).jobs := hf
        rw [setThread_self] at hf
        cases hf
      · replace hf : f ∈ (setThread s.threads i _ j).jobs := hf
        rw [setThread_ne _ _ e] at hf
        exact h.job j hj' f hf
    · intro j hj'
      show List.Pairwise _ (setThread _ _ _ _).jobs
      by_cases e : j = i
      · subst e; rw [setThread_self]; exact List.Pairwise.nil
      · rw [setThread_ne _ _ e]; exact h.order j hj'
    · intro j hj'
      show eval _ (setThread _ _ _ _).main = _
      by_cases e : j = i
      · subst e
        rw [setThread_self]
        have hm := h.main j hj'
        rw [ht] at hm
        subst hv
        exact hm
      · rw [setThread_ne _ _ e]; exact h.main j hj'
    · exact h.once
  | finish i u v rest hi hj =>
    obtain ⟨hb, hv, _⟩ := h.job i hi ⟨u, .ret (some v)⟩ (hj ▸ List.mem_cons_self)
    have hv : v = tables K E u := Option.some.inj hv
    have ho := h.order i hi
    rw [hj] at ho
    have ho := List.pairwise_cons.1 ho
    constructor
    · intro w x hw
      dsimp only at hw
      by_cases e : w = u
      · subst e; rw [setCell_self] at hw; cases hw; exact hv
      · rw [setCell_ne _ _ e] at hw; exact h.ready w x hw
    · intro w hw
      dsimp only at hw
      by_cases e : w = u
      · subst e; rw [setCell_self] at hw; cases hw
      · rw [setCell_ne _ _ e] at hw; exact h.whole w hw
    · intro w j hw
      dsimp only at hw
      by_cases e : w = u
      · subst e; rw [setCell_self] at hw; cases hw
      · rw [setCell_ne _ _ e] at hw
        obtain ⟨hj', p, hp⟩ := h.busy w j hw
        refine ⟨hj', p, ?_⟩
        show _ ∈ (setThread _ _ _ _).jobs
        by_cases e' : j = i
        · subst e'
          rw [setThread_self]
          rw [hj] at hp
          cases List.mem_cons.1 hp with
          | inl x => cases x; exact absurd rfl e
          | inr x => exact x
        · rw [setThread_ne _ _ e']; exact hp
    · intro j hj' f hf
      have old : f ∈ (s.threads j).jobs → f.1 ≠ u → setCell s.cells u (.ready v) f.1 = .busy j ∧
          eval (tables K E) f.2 = some (tables K E f.1) ∧ Below (rank f.1) f.2 := by
        intro hf hne
        obtain ⟨a, b⟩ := h.job j hj' f hf
        exact ⟨by rw [setCell_ne _ _ hne]; exact a, b⟩
      by_cases e : j = i
      · subst e
        replace hf : f ∈ (setThread s.threads j _ j).jobs := hf
        rw [setThread_self] at hf
        refine old (hj ▸ List.mem_cons_of_mem _ hf) (fun e => ?_)
        have := ho.1 f hf
        rw [e] at this
        exact Nat.lt_irrefl _ this
      · replace hf : f ∈ (setThread s.threads i _ j).jobs := hf
        rw [setThread_ne _ _ e] at hf
        refine old hf (fun e' => e ?_)
        have := (h.job j hj' f hf).1
        rw [e', hb] at this
        cases this
        rfl
    · intro j hj'
      show List.Pairwise _ (setThread _ _ _ _).jobs
      by_cases e : j = i
      · subst e; rw [setThread_self]; exact ho.2
      · rw [setThread_ne _ _ e]; exact h.order j hj'
    · intro j hj'
      show eval _ (setThread _ _ _ _).main = _
      by_cases e : j = i
      · subst e; rw [setThread_self]; exact h.main j hj'
      · rw [setThread_ne _ _ e]; exact h.main j hj'
    · refine ⟨h.once.1, fun w => ?_⟩
      show w ∈ s.log ↔ setCell s.cells u (.ready v) w ≠ .empty
      by_cases e : w = u
      · subst e; rw [setCell_self, h.once.2 w, hb]
        exact ⟨fun _ e => (by cases e), fun _ e => (by cases e)⟩
      · rw [setCell_ne _ _ e]; exact h.once.2 w
  | panic i u rest hi hj =>
    have := (h.job i hi ⟨u, .ret none⟩ (hj ▸ List.mem_cons_self)).2.1
    cases this

theorem sound_steps {α : Type} {K : Backend} {E : Env} {n m : Nat} {progs : Nat → Code α}
    {s : Process α} (h : Steps K E n m (start progs) s) : Sound K E n progs s := by
  generalize hs : start progs = s0 at h
  induction h with
  | refl s => exact hs ▸ sound_start K E n progs
  | tail _ st ih => exact sound_step (ih hs) st

/-! ## Somebody can always go on -/

theorem busy_step {α : Type} {K : Backend} {E : Env} {n : Nat} {progs : Nat → Code α}
    {s : Process α} (h : Sound K E n progs s) : ∀ (r : Nat) (t : Table) (i : Nat), rank t < r →
      s.cells t = .busy i → ∃ s', Process.Step K E n s s' := by
  intro r
  induction r with
  | zero => intro t i hr; cases hr
  | succ r ih =>
    intro t i hr hc
    obtain ⟨hi, p, hp⟩ := h.busy t i hc
    cases hj : (s.threads i).jobs with
    | nil => rw [hj] at hp; cases hp
    | cons f rest =>
      have hle : rank f.1 ≤ rank t := by
        rw [hj] at hp
        cases List.mem_cons.1 hp with
        | inl e => exact e ▸ Nat.le_refl _
        | inr e =>
          have ho := h.order i hi
          rw [hj] at ho
          exact Nat.le_of_lt (List.rel_of_pairwise_cons ho e)
      have hb := (h.job i hi f (hj ▸ List.mem_cons_self)).2.2
      obtain ⟨u, p⟩ := f
      cases p with
      | ret a =>
        cases a with
        | none => exact ⟨_, .panic s i u rest hi hj⟩
        | some v => exact ⟨_, .finish s i u v rest hi hj⟩
      | read w k =>
        have hw : rank w < rank u := hb.1
        cases hcw : s.cells w with
        | empty => exact ⟨_, .init s i w hi (by unfold Thread.wants; rw [hj]; rfl) hcw⟩
        | busy j => exact ih w j (by have : rank u ≤ rank t := hle; omega) hcw
        | ready v => exact ⟨_, .readJob s i w u k rest v hi hj hcw⟩
        | poisoned => exact absurd hcw (h.whole w)

theorem unfinished_step {α : Type} {K : Backend} {E : Env} {n : Nat} {progs : Nat → Code α}
    {s : Process α} (h : Sound K E n progs s) {i : Nat} (hi : i < n)
    (hu : ¬ ∃ a, Finished s i a) : ∃ s', Process.Step K E n s s' := by
  cases hj : (s.threads i).jobs with
  | cons f rest => exact busy_step h _ f.1 i (Nat.lt_succ_self _) (h.job i hi f (hj ▸ List.mem_cons_self)).1
  | nil =>
    cases hm : (s.threads i).main with
    | ret a =>
      refine absurd ⟨a, ?_⟩ hu
      unfold Finished
      rw [← hm, ← hj]
    | read t k =>
      cases hc : s.cells t with
      | empty => exact ⟨_, .init s i t hi (by unfold Thread.wants; rw [hj, hm]; rfl) hc⟩
      | busy j => exact busy_step h _ t j (Nat.lt_succ_self _) hc
      | ready v => exact ⟨_, .readMain s i t k v hi (by rw [← hm, ← hj]) hc⟩
      | poisoned => exact absurd hc (h.whole t)

/-! ## The number of steps -/

theorem total_change (f g : Nat → Nat) (i : Nat) (h : ∀ j, j ≠ i → f j = g j) :
    ∀ n, i < n → total f n + g i = total g n + f i := by
  have below : ∀ n, n ≤ i → total f n = total g n := by
    intro n
    induction n with
    | zero => intro _; rfl
    | succ n ih =>
      intro hn
      show total f n + f n = total g n + g n
      rw [ih (by omega), h n (by omega)]
  intro n
  induction n with
  | zero => intro hi; cases hi
  | succ n ih =>
    intro hi
    show total f n + f n + g i = total g n + g n + f i
    by_cases e : n = i
    · subst e
      rw [below n (Nat.le_refl _)]
      omega
    · have := ih (by omega)
      rw [h n e]
      omega

/-- The steps the jobs of a thread still need. -/
def jobsLeft (T : (t : Table) → Contents t) : List Job → Nat
  | [] => 0
  | f :: rest => accesses T f.2 + 1 + jobsLeft T rest

/-- The steps a table still needs if it is ever accessed. -/
def cellLeft (K : Backend) (E : Env) (t : Table) : Cell t → Nat
  | .empty => accesses (tables K E) (initialiser K E t) + 2
  | _ => 0

def cellsLeft (K : Backend) (E : Env) (cells : (t : Table) → Cell t) : Nat :=
  cellLeft K E .attack (cells .attack) + cellLeft K E .between (cells .between) +
    cellLeft K E .relativeRanks (cells .relativeRanks) +
    cellLeft K E .promotable (cells .promotable) + cellLeft K E .files (cells .files) +
    cellLeft K E .zobrist (cells .zobrist)

def threadLeft {α : Type} (T : (t : Table) → Contents t) (th : Thread α) : Nat :=
  accesses T th.main + jobsLeft T th.jobs

/-- An upper bound for the number of steps to come. -/
def left {α : Type} (K : Backend) (E : Env) (n : Nat) (s : Process α) : Nat :=
  total (fun i => threadLeft (tables K E) (s.threads i)) n + cellsLeft K E s.cells

theorem cells_change (K : Backend) (E : Env) (cells : (t : Table) → Cell t) (t : Table)
    (c : Cell t) :
    cellsLeft K E (setCell cells t c) + cellLeft K E t (cells t) =
      cellsLeft K E cells + cellLeft K E t c := by
  cases t <;> simp [cellsLeft, setCell] <;> omega

theorem threads_change {α : Type} (T : (t : Table) → Contents t) (f : Nat → Thread α) (i n : Nat)
    (hi : i < n) (th : Thread α) :
    total (fun j => threadLeft T (setThread f i th j)) n + threadLeft T (f i) =
      total (fun j => threadLeft T (f j)) n + threadLeft T th := by
  have h := total_change (fun j => threadLeft T (setThread f i th j))
    (fun j => threadLeft T (f j)) i (fun j hj => by rw [setThread_ne _ _ hj]) n hi
  rw [setThread_self] at h
  exact h

theorem left_step {α : Type} {K : Backend} {E : Env} {n : Nat} {progs : Nat → Code α}
    {s s' : Process α} (h : Sound K E n progs s) (st : Process.Step K E n s s') :
    left K E n s' + 1 = left K E n s := by
  cases st with
  | init i t hi hw he =>
    have a := threads_change (tables K E) s.threads i n hi
      ⟨(s.threads i).main, ⟨t, initialiser K E t⟩ :: (s.threads i).jobs⟩
    have b := cells_change K E s.cells t (.busy i)
    rw [he] at b
    simp only [threadLeft, jobsLeft, cellLeft] at a b
    simp only [left, threadLeft]
    omega
  | readJob i t u k rest v hi hj hc =>
    have a := threads_change (tables K E) s.threads i n hi ⟨(s.threads i).main, ⟨u, k v⟩ :: rest⟩
    have hv := h.ready t v hc
    subst hv
    simp only [threadLeft, hj, jobsLeft, accesses] at a
    simp only [left, threadLeft]
    omega
  | readMain i t k v hi ht hc =>
    have a := threads_change (tables K E) s.threads i n hi ⟨k v, []⟩
    have hv := h.ready t v hc
    subst hv
    simp only [threadLeft, ht, jobsLeft, accesses] at a
    simp only [left, threadLeft]
    omega
  | finish i u v rest hi hj =>
    have a := threads_change (tables K E) s.threads i n hi ⟨(s.threads i).main, rest⟩
    have b := cells_change K E s.cells u (.ready v)
    have hb := (h.job i hi ⟨u, .ret (some v)⟩ (hj ▸ List.mem_cons_self)).1
    rw [hb] at b
    simp only [threadLeft, hj, jobsLeft, accesses] at a
    simp only [cellLeft] at b
    simp only [left, threadLeft]
    omega
  | panic i u rest hi hj =>
    have := (h.job i hi ⟨u, .ret none⟩ (hj ▸ List.mem_cons_self)).2.1
    cases this

theorem left_steps {α : Type} {K : Backend} {E : Env} {n m : Nat} {progs : Nat → Code α}
    {s : Process α} (h : Steps K E n m (start progs) s) :
    left K E n s + m = left K E n (start progs) := by
  generalize hs : start progs = s0 at h
  induction h with
  | refl s => rfl
  | tail hh st ih =>
    have := left_step (progs := progs) (sound_steps (hs ▸ hh)) st
    have := ih hs
    omega

theorem left_start {α : Type} (K : Backend) (E : Env) (n : Nat) (progs : Nat → Code α) :
    left K E n (start progs) = total (fun i => accesses (tables K E) (progs i)) n + 174 := by
  unfold left
  have a : cellsLeft K E (start progs).cells = 174 := by
    have e := initialiser_accesses K E
    have e1 := e .attack
    have e2 := e .between
    have e3 := e .relativeRanks
    have e4 := e .promotable
    have e5 := e .files
    have e6 := e .zobrist
    simp at e1 e2 e3 e4 e5 e6
    simp only [cellsLeft, start, cellLeft]
    omega
  rw [a]
  rfl

/-- Every execution can be continued until nobody can go on. -/
theorem complete {α : Type} {K : Backend} {E : Env} {n : Nat} {progs : Nat → Code α} :
    ∀ (b m : Nat) (s : Process α), Steps K E n m (start progs) s → left K E n s ≤ b →
      ∃ m' s', Steps K E n m' (start progs) s' ∧ m ≤ m' ∧
        ∀ i, i < n → ∃ a, Finished s' i a := by
  intro b
  induction b with
  | zero =>
    intro m s h hb
    refine ⟨m, s, h, Nat.le_refl _, fun i hi => Classical.byContradiction fun hu => ?_⟩
    obtain ⟨s', st⟩ := unfinished_step (sound_steps h) hi hu
    have := left_step (progs := progs) (sound_steps h) st
    omega
  | succ b ih =>
    intro m s h hb
    by_cases hf : ∀ i, i < n → ∃ a, Finished s i a
    · exact ⟨m, s, h, Nat.le_refl _, hf⟩
    · have : ∃ i, i < n ∧ ¬ ∃ a, Finished s i a := Classical.byContradiction fun hc =>
        hf fun i hi => Classical.byContradiction fun hu => hc ⟨i, hi, hu⟩
      obtain ⟨i, hi, hu⟩ := this
      obtain ⟨s', st⟩ := unfinished_step (sound_steps h) hi hu
      have := left_step (progs := progs) (sound_steps h) st
      obtain ⟨m', s'', a, c, d⟩ := ih (m + 1) s' (.tail h st) (by omega)
      exact ⟨m', s'', a, by omega, d⟩

/-! ## C102 -/

/-- What a table has to hold, by the rules. -/
def Right (K : Backend) (E : Env) : (t : Table) → Contents t → Prop
  | .attack, T => ∀ k c s t occ,
      (K.contains (T.attack K k s c occ) t = true ↔
        Reaches (fun u => K.contains occ u = true) k c s t) ∧
      (K.contains (T.pseudoAttack K k s c) t = true ↔
        Reaches (fun _ => False) (plainSlider k) c s t)
  | .between, T => ∀ a b u, K.contains (T (a, b)) u = true ↔ Between a u b
  | .relativeRanks, T => ∀ s : Square, T (s, .black) = s.rank ∧ T (s, .white) = 10 - s.rank
  | .promotable, T => ∀ s c, T (s, c) = true ↔ InZone c s
  | .files, T => ∀ f (s : Square), K.contains (T f) s = true ↔ s.file = f
  | .zobrist, T => T = E

theorem tables_right (K : Backend) (hK : K ∈ backends) (E : Env) (t : Table) :
    Right K E t (tables K E t) := by
  cases t with
  | attack => exact fun k c s t occ => C59_attack_table K hK k c s t occ
  | between => exact fun a b u => C29_between K hK a b u
  | relativeRanks =>
    intro s
    have h := (C59_rank_tables s .black).2.2.2.2
    rw [ranks_eq] at h
    exact h
  | promotable =>
    intro s c
    have h := (C59_rank_tables s c).1
    rw [promotable_init] at h
    exact h
  | files => exact fun f s => C50_files K hK f s
  | zobrist => rfl

/-- Thread 0 asks whether Black promotes on a square, thread 1 for its rank. -/
def race (sq : Square) : Nat → Code Nat
  | 0 => .read .promotable fun T => .ret (if T (sq, .black) then 1 else 0)
  | _ => .read .relativeRanks fun T => .ret (T (sq, .black))

end Yasai.Props.Lazy

namespace Yasai.Props

open Yasai.Lazy Yasai.Lazy.Process Yasai.Props.Lazy

/-- C102: with any number of threads that run any programs, whatever the scheduler does: a table
that is ready holds what the rules say; no initialiser panics; every initialiser is started at most
once; and a thread that has finished has computed what it computes if all tables are there from the
beginning. -/
theorem C102_results {α : Type} (K : Backend) (hK : K ∈ backends) (E : Env) (n m : Nat)
    (progs : Nat → Code α) (s : Process α) (h : Steps K E n m (start progs) s) :
    (∀ t v, s.cells t = .ready v → Right K E t v) ∧
    (∀ t, s.cells t ≠ .poisoned) ∧ s.log.Nodup ∧
    ∀ i, i < n → ∀ a, Finished s i a → a = eval (tables K E) (progs i) := by
  have H := sound_steps h
  refine ⟨fun t v hv => ?_, H.whole, H.once.1, fun i hi a ha => ?_⟩
  · rw [H.ready t v hv]
    exact tables_right K hK E t
  · have := H.main i hi
    rw [ha] at this
    exact this

/-- C102: no deadlock.  When no thread can go on, all have finished. -/
theorem C102_no_deadlock {α : Type} (K : Backend) (E : Env) (n m : Nat) (progs : Nat → Code α)
    (s : Process α) (h : Steps K E n m (start progs) s)
    (hstuck : ∀ s', ¬ Process.Step K E n s s') :
    ∀ i, i < n → Finished s i (eval (tables K E) (progs i)) := by
  intro i hi
  have H := sound_steps h
  have : ∃ a, Finished s i a := Classical.byContradiction fun hu =>
    let ⟨s', st⟩ := unfinished_step H hi hu
    hstuck s' st
  obtain ⟨a, ha⟩ := this
  have e := H.main i hi
  rw [ha] at e
  have e : a = eval (tables K E) (progs i) := e
  exact e ▸ ha

/-- C102: no livelock either.  Every execution has at most one step for every access the programs
make and 174 for the initialisers, and can be continued until all threads have finished. -/
theorem C102_terminates {α : Type} (K : Backend) (E : Env) (n m : Nat) (progs : Nat → Code α)
    (s : Process α) (h : Steps K E n m (start progs) s) :
    m ≤ total (fun i => accesses (tables K E) (progs i)) n + 174 ∧
    ∃ m' s', Steps K E n m' (start progs) s' ∧ m ≤ m' ∧
      ∀ i, i < n → Finished s' i (eval (tables K E) (progs i)) := by
  refine ⟨?_, ?_⟩
  · rw [← left_start, ← left_steps h]
    exact Nat.le_add_left _ _
  · obtain ⟨m', s', a, b, c⟩ := complete _ m s h (Nat.le_refl _)
    refine ⟨m', s', a, b, fun i hi => ?_⟩
    obtain ⟨x, hx⟩ := c i hi
    have e := (sound_steps a).main i hi
    rw [hx] at e
    have e : x = eval (tables K E) (progs i) := e
    exact e ▸ hx

/-- C102, an example: after two steps thread 0 runs the initialiser of `PROMOTABLE` and waits for
`RELATIVE_RANKS`, the initialiser of which thread 1 is running.  Both finish. -/
theorem C102_example (K : Backend) (E : Env) (sq : Square) :
    (∃ s, Steps K E 2 2 (start (race sq)) s ∧ s.cells .promotable = .busy 0 ∧
      s.cells .relativeRanks = .busy 1 ∧ (s.threads 0).wants = some .relativeRanks ∧
      s.log = [.promotable, .relativeRanks]) ∧
    ∃ m s, Steps K E 2 m (start (race sq)) s ∧
      Finished s 0 (if sq.rank ≤ 3 then 1 else 0) ∧ Finished s 1 sq.rank := by
  refine ⟨?_, ?_⟩
  · have h1 : Steps K E 2 1 (start (race sq)) _ :=
      .tail (.refl _) (.init _ 1 .relativeRanks (by omega) rfl rfl)
    have h2 := Steps.tail h1 (.init _ 0 .promotable (by omega) rfl rfl)
    refine ⟨_, h2, rfl, rfl, ?_, rfl⟩
    show (initialiser K E .promotable).wants = _
    have : ∃ i l, squareColors = i :: l := by
      cases h : squareColors with
      | nil => have := squareColors_length; rw [h] at this; cases this
      | cons i l => exact ⟨i, l, rfl⟩
    obtain ⟨i, l, e⟩ := this
    rw [initialiser, e]
    rfl
  · obtain ⟨_, m, s, h, _, hf⟩ := C102_terminates K E 2 0 (race sq) _ (.refl _)
    refine ⟨m, s, h, ?_, ?_⟩
    · have := hf 0 (by omega)
      have e : eval (tables K E) (race sq 0) = if sq.rank ≤ 3 then 1 else 0 := by
        show (if decide (sq.rank ≤ 3) = true then 1 else 0) = _
        simp
      exact e ▸ this
    · exact hf 1 (by omega)

end Yasai.Props

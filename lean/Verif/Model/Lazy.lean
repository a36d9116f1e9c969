import Verif.Model.TableInit
import Verif.Model.Zobrist

/-!
# The lazily initialised statics, with threads

`ATTACK_TABLE`, `BETWEEN_TABLE`, `RELATIVE_RANKS`, `PROMOTABLE`, `FILES`
(/repo/src/tables.rs:186, 198, 228, 238, 250) and `ZOBRIST_TABLE` (/repo/src/zobrist.rs:66) are
`once_cell::sync::Lazy`.  The first access runs the initialiser; a thread that needs a table while
its initialiser is running waits, also when it is the thread that runs it; an initialiser that panics
leaves a poisoned table.  The initialiser of `PROMOTABLE` reads `RELATIVE_RANKS`.
-/

namespace Yasai.Lazy

/-- The six statics. -/
inductive Table where
  | attack | between | relativeRanks | promotable | files | zobrist
  deriving DecidableEq, Repr

/-- What a static holds. -/
abbrev Contents : Table → Type
  | .attack => AttackTable
  | .between => Square × Square → BB
  | .relativeRanks => Square × Color → Nat
  | .promotable => Square × Color → Bool
  | .files => Nat → BB
  | .zobrist => Env

/-- A computation that reads statics, one at a time; what it does next may depend on what it read. -/
inductive Code (α : Type) where
  | ret (a : α)
  | read (t : Table) (k : Contents t → Code α)

/-- The loop of `PROMOTABLE` (/repo/src/tables.rs:240-246), which accesses `RELATIVE_RANKS` in every
iteration. -/
def promotableLoop : List (Square × Color) → (Square × Color → Bool) →
    Code (Option (Square × Color → Bool))
  | [], table => .ret (some table)
  | i :: is, table => .read .relativeRanks fun ranks =>
      promotableLoop is (if ranks i ≤ 3 then upd table i true else table)

/-- The pairs in the order of the nested loops over squares and colours. -/
def squareColors : List (Square × Color) :=
  Square.all.flatMap fun sq => Color.all.map fun c => (sq, c)

/-- The initialisers; `none` is a panic.  `E` holds the numbers `ZOBRIST_TABLE` is filled with
(`stdEnv` for the seed in the code). -/
def initialiser (K : Backend) (E : Env) : (t : Table) → Code (Option (Contents t))
  | .attack => .ret (some (AttackTable.init K))
  | .between => .ret (betweenInit K)
  | .relativeRanks => .ret (some relativeRanksInit)
  | .promotable => promotableLoop squareColors fun _ => false
  | .files => .ret (filesInit K)
  | .zobrist => .ret (some E)

/-- The state of a static. -/
inductive Cell (t : Table) where
  | empty
  | busy (thread : Nat)
  | ready (v : Contents t)
  | poisoned

/-- An initialiser that is running. -/
abbrev Job : Type := (t : Table) × Code (Option (Contents t))

/-- A thread: what is left of its program, and the initialisers it is running, innermost first.  It
works on the first job; it works on its program when there is none. -/
structure Thread (α : Type) where
  main : Code α
  jobs : List Job

/-- The table an access to which comes next. -/
def Code.wants {α : Type} : Code α → Option Table
  | .ret _ => none
  | .read t _ => some t

def Thread.wants {α : Type} (th : Thread α) : Option Table :=
  match th.jobs with
  | [] => th.main.wants
  | ⟨_, p⟩ :: _ => p.wants

/-- The statics, the threads and, newest first, the initialisers started so far. -/
structure Process (α : Type) where
  cells : (t : Table) → Cell t
  threads : Nat → Thread α
  log : List Table

namespace Process

variable {α : Type}

def setCell (cells : (t : Table) → Cell t) (t : Table) (c : Cell t) : (u : Table) → Cell u :=
  fun u => if h : u = t then h ▸ c else cells u

def setThread (threads : Nat → Thread α) (i : Nat) (th : Thread α) : Nat → Thread α :=
  fun j => if j = i then th else threads j

/-- All tables empty, thread `i` at the start of `progs i`. -/
def start (progs : Nat → Code α) : Process α :=
  ⟨fun _ => .empty, fun i => ⟨progs i, []⟩, []⟩

/-- One step of one of `n` threads. -/
inductive Step (K : Backend) (E : Env) (n : Nat) : Process α → Process α → Prop where
  /-- An access to a table nobody has accessed starts its initialiser. -/
  | init (s : Process α) (i : Nat) (t : Table) : i < n → (s.threads i).wants = some t →
      s.cells t = .empty →
      Step K E n s ⟨setCell s.cells t (.busy i),
        setThread s.threads i ⟨(s.threads i).main, ⟨t, initialiser K E t⟩ :: (s.threads i).jobs⟩,
        t :: s.log⟩
  /-- An initialiser accesses a table that is ready. -/
  | readJob (s : Process α) (i : Nat) (t u : Table) (k : Contents t → Code (Option (Contents u)))
      (rest : List Job) (v : Contents t) : i < n → (s.threads i).jobs = ⟨u, .read t k⟩ :: rest →
      s.cells t = .ready v →
      Step K E n s { s with
        threads := setThread s.threads i ⟨(s.threads i).main, ⟨u, k v⟩ :: rest⟩ }
  /-- The program accesses a table that is ready. -/
  | readMain (s : Process α) (i : Nat) (t : Table) (k : Contents t → Code α) (v : Contents t) :
      i < n → s.threads i = ⟨.read t k, []⟩ → s.cells t = .ready v →
      Step K E n s { s with threads := setThread s.threads i ⟨k v, []⟩ }
  /-- An initialiser is done. -/
  | finish (s : Process α) (i : Nat) (u : Table) (v : Contents u) (rest : List Job) : i < n →
      (s.threads i).jobs = ⟨u, .ret (some v)⟩ :: rest →
      Step K E n s ⟨setCell s.cells u (.ready v),
        setThread s.threads i ⟨(s.threads i).main, rest⟩, s.log⟩
  /-- An initialiser panics. -/
  | panic (s : Process α) (i : Nat) (u : Table) (rest : List Job) : i < n →
      (s.threads i).jobs = ⟨u, .ret none⟩ :: rest →
      Step K E n s ⟨setCell s.cells u .poisoned,
        setThread s.threads i ⟨(s.threads i).main, rest⟩, s.log⟩

/-- `m` steps, in any order the scheduler chooses. -/
inductive Steps (K : Backend) (E : Env) (n : Nat) : Nat → Process α → Process α → Prop where
  | refl (s : Process α) : Steps K E n 0 s s
  | tail {m : Nat} {s s' s'' : Process α} : Steps K E n m s s' → Step K E n s' s'' →
      Steps K E n (m + 1) s s''

end Process

end Yasai.Lazy

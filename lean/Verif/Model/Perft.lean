import Verif.Model.Movegen

/-!
# perft: /repo/examples/perft.rs, /repo/benches/bench_perft.rs, /repo/src/position.rs tests
-/

namespace Yasai

/-- The body of the loop of `perft` for one move: `do_move`, recursive count, `undo_move`.
Returns the count and the position after `undo_move`. -/
def perftStep (E : Env) (K : Backend) (p : Position) (m : Move)
    (rec : Position → Option (Nat × Position)) : Option (Nat × Position) := do
  let p' ← p.doMove E K m
  let (n, p'') ← rec p'
  let q ← p''.undoMove E K m
  pure (n, q)

/-- `perft` of /repo/examples/perft.rs:26-47 and /repo/benches/bench_perft.rs:11-29 (without the
printing at the root): counts leaves with `legal_moves().len()` at depth 2. -/
def perft (E : Env) (K : Backend) : Nat → Position → Option (Nat × Position)
  | depth, p => do
    let ms ← p.legalMoves E K
    match depth with
    | 0 | 1 => pure (ms.length, p)
    | 2 =>
      ms.foldlM (fun (acc : Nat × Position) m => do
        let (n, q) ← perftStep E K acc.2 m (fun p' => do
          let l ← p'.legalMoves E K
          pure (l.length, p'))
        pure (acc.1 + n, q)) (0, p)
    | d + 3 =>
      ms.foldlM (fun (acc : Nat × Position) m => do
        let (n, q) ← perftStep E K acc.2 m (perft E K (d + 2))
        pure (acc.1 + n, q)) (0, p)

/-- `perft(pos, depth, true)` of /repo/examples/perft.rs:26-47: like `perft`, with the printed lines
`(move, count)` in order. -/
def perftRoot (E : Env) (K : Backend) (depth : Nat) (p : Position) :
    Option (List (Move × Nat) × Nat × Position) := do
  let ms ← p.legalMoves E K
  ms.foldlM (fun (acc : List (Move × Nat) × Nat × Position) m => do
    let (count, q) ←
      match depth with
      | 0 | 1 => pure (1, acc.2.2)
      | 2 => perftStep E K acc.2.2 m (fun p' => do
          let l ← p'.legalMoves E K
          pure (l.length, p'))
      | d + 3 => perftStep E K acc.2.2 m (perft E K (d + 2))
    pure (acc.1 ++ [(m, count)], acc.2.1 + count, q)) ([], 0, p)

/-- Addition of `usize` values of `w` bits: panics on overflow with overflow checks, wraps without. -/
def usizeAdd (w : Nat) (overflowChecks : Bool) (a b : Nat) : Option Nat :=
  if a + b < 2 ^ w then some (a + b)
  else if overflowChecks then none
  else some ((a + b) % 2 ^ w)

/-- `perft` of /repo/examples/perft.rs:26-47 with its counts in `w`-bit `usize` (64 on the x86_64
and aarch64 builds, 32 on wasm32). -/
def perftUsize (w : Nat) (E : Env) (K : Backend) : Nat → Position → Option (Nat × Position)
  | depth, p => do
    let ms ← p.legalMoves E K
    ms.foldlM (fun (acc : Nat × Position) m => do
      let (count, q) ←
        match depth with
        | 0 | 1 => pure (1, acc.2)
        | 2 => perftStep E K acc.2 m (fun p' => do
            let l ← p'.legalMoves E K
            pure (l.length, p'))
        | d + 3 => perftStep E K acc.2 m (perftUsize w E K (d + 2))
      let ret ← usizeAdd w E.overflowChecks acc.1 count
      pure (ret, q)) (0, p)

/-- `perft` of the unit test /repo/src/position.rs:563-574: counts 1 at depth 0. -/
def perftTest (E : Env) (K : Backend) : Nat → Position → Option (Nat × Position)
  | 0, p => pure (1, p)
  | d + 1, p => do
    let ms ← p.legalMoves E K
    ms.foldlM (fun (acc : Nat × Position) m => do
      let (n, q) ← perftStep E K acc.2 m (perftTest E K d)
      pure (acc.1 + n, q)) (0, p)

/-- `perft` of the unit test /repo/src/position.rs:563-574 with its counts in `w`-bit integers; the code
has `u64`. -/
def perftTestU (w : Nat) (E : Env) (K : Backend) : Nat → Position → Option (Nat × Position)
  | 0, p => pure (1, p)
  | d + 1, p => do
    let ms ← p.legalMoves E K
    ms.foldlM (fun (acc : Nat × Position) m => do
      let (n, q) ← perftStep E K acc.2 m (perftTestU w E K d)
      let count ← usizeAdd w E.overflowChecks acc.1 n
      pure (count, q)) (0, p)

end Yasai

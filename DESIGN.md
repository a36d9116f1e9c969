# Formal model of sugyan/yasai in Lean 4

yasai is a shogi library: a `Position` with `do_move`/`undo_move`, legal move generation, check
queries and Zobrist keys, on top of bitboards with a portable and three SIMD implementations.

Layout of `lean/Verif`:

| directory | contents |
|-----------|----------|
| `Model/` | the code, function by function; every definition cites the lines it models |
| `Spec/` | the rules of shogi and from-scratch hashing, written without bitboards, tables or caches |
| `Examples/` | concrete positions for non-vacuity examples and counterexamples; the unit tests of the repository on the model; `Instances.lean` applies the theorems to one concrete game |
| `Proofs/` | lemmas |
| `Props/` | the property theorems `Cxx_…`, with their examples |

`properties.jsonl` states the properties in English, `MANIFEST.json` maps them to theorems,
`seeded/LOG.jsonl` records the wrong programs the theorems were tested against.

## 1. What is modelled

| code | model |
|------|-------|
| `src/bitboard.rs` (trait `Occupied`, operator macros, choice of backend) | `Model/Bits.lean` (`Backend`), `Model/Backends.lean` |
| `src/bitboard/core.rs` (portable build) | `Model/Bits.lean`, namespace `CoreBB` |
| `src/bitboard/x86_64.rs`, `aarch64.rs`, `wasm32.rs` | `Model/Simd.lean`, namespaces `X86`, `Aarch64`, `Wasm32` |
| `src/tables.rs` | `Model/Tables.lean`; the initialisers: `Model/TableInit.lean`, on first access: `Model/Lazy.lean` |
| `src/zobrist.rs` | `Model/Zobrist.lean`; the contents of `ZOBRIST_TABLE`: `Model/Rng.lean` |
| `src/position.rs` | `Model/Position.lean`, `Model/Start.lean` (`Default`); `do_move` and `undo_move` once more, statement by statement, in `Model/Unwind.lean` |
| `src/movegen.rs` | `Model/Movegen.lean` |
| the functions that contain calls with a contract | once more in `Model/Checked.lean`, with the contracts checked (iterators make all their calls at once; one call at a time: `Model/Iter.lean`) |
| `examples/perft.rs`, `benches/bench_perft.rs`, the `perft` of the unit tests | `Model/Perft.lean`; the printed lines and `main` of the example: `Model/Text.lean` |

The model is executable: it runs inside the kernel (`decide +kernel`), and the examples use that.

Conventions:

* **Panics** are `none` in `Option`.  Modelled panics: `unwrap`/`expect` on `None`, the Zobrist hand
  table index, `ArrayVec::push` beyond 593, overflow of `ply` and of the subtraction in the portable
  `vacant_files` when overflow checks are on, `expect("empty states")`.
* **`Env`** is a parameter: the raw random numbers of the Zobrist table and whether overflow checks are
  compiled in.  Theorems hold for every `Env`.  The numbers of the code are `stdEnv` (the loops of
  `ZOBRIST_TABLE` run on `StdRng::seed_from_u64(2022)`); C56–C58 are about it, since what they say is
  false of other numbers.
* **`Backend`** is a record of bitboard operations over a common 128-bit carrier (`BitVec 128`: the
  `u128` of shogi_core, `__m128i`/`__m256i` halves, `uint64x2_t`, `v128`).
* **Undefined behaviour.**  The contracts of `Square::from_u8_unchecked` (1..=81) and
  `Bitboard::from_u128_unchecked` (only the 81 square bits), and out-of-bounds reads of the mask
  tables, are modelled by an arbitrary parameter `J : Junk` that supplies the result when the
  contract is broken.  `K ∈ backends` means "one of the four builds with *some* `J`", so every
  theorem about `K ∈ backends` holds whatever happens outside the contracts, and C41/C42 say that the
  results do not depend on `J` at all.  `Model/Checked.lean` transcribes the functions that contain
  such calls a second time, with the first call outside a contract ending the run as `broken`; C78
  shows that this run is the model's, that it takes no value from an unchecked call
  (`C78_all_watched`) and that it is not broken, so no such call is made, used or not.
* `&mut self` methods return the new value.  `Vec<State>` is a list whose head is the last element.
* Lazy static tables and constant tables are functions that compute the entry their initialiser
  stores.  The initialising loops themselves are in `Model/TableInit.lean` (arrays as functions of the
  index, updated entry by entry) and C59 shows that they store these entries.  That each is made on
  first access, by whichever thread comes first, is in `Model/Lazy.lean` (C102).
* Loops are folds or structural recursion; the two `while` loops (`slidingAttackLoop`, `filterLoop`)
  and the iterator `popAll` take fuel, and the proofs show that it suffices.

## 2. Not modelled

Timing and the nps computation of the example, its command line, memory layout,
alignment, aliasing (the `MaybeUninit` in `Bitboard::values` of the x86_64 and aarch64 builds is taken
to hold what was stored; finding 10), allocation failure, memory
ordering inside `once_cell` (its `Lazy` is modelled by whole accesses, C102), `Debug` output, parsing (`shogi_usi_parser` is a dev-dependency).  Counts in `perft` are natural numbers, except in `perftUsize` (C47, C94) and `perftTestU` (C94).

## 3. Trusted base

* Lean 4.33.0's kernel.  The only axioms are `propext`, `Classical.choice` and `Quot.sound`; there is
  no `sorry`, no `native_decide`, no `bv_decide`, no axiom of our own, and Mathlib is not imported.
* That the model says what the code says (read by hand against the cited lines; the code is not run).
* `shogi_core` 0.1.4, whose source is not in the sandbox; its documented behaviour is written out in
  `Model/ShogiCore.lean`, `Model/Start.lean` and the first part of `CoreBB`:
  `Square` (index 9·(file−1)+(rank−1); `shift`, `relative_rank`), `Color`, `PieceKind` (order
  Pawn, Lance, Knight, Silver, Gold, Bishop, Rook, King, ProPawn … ProRook; `promote`/`unpromote`),
  `Piece`, `Hand` (`count` is `None` for non-hand pieces; `added` fails at 255, `removed` at 0),
  `Move`, `PartialPosition::startpos`, `Bitboard` (bit i for squares 0..=62, bit i+1 for squares
  63..=80; `!` masks to the 81 squares; `shift_up`/`shift_down` move inside a file and drop what
  leaves the board; iteration ascending), `ToUsi` for moves (used by C99 only).
* The SIMD intrinsics, from the vendor documentation: lane-wise and/or/xor/andnot/add/sub/compare/
  shift, `_mm_test_all_zeros`, `_mm_movemask_epi8`, AVX2 unpack within 128-bit halves, `vqmovn_u64`,
  `v128_any_true`, `u64x2_all_true`.
* `once_cell::sync::Lazy`, from its documentation: the first access runs the initialiser, other
  accesses wait for it, a panic poisons (`Model/Lazy.lean`).
* `rand` 0.8, `rand_chacha` 0.3, `rand_core` 0.6 (not in the sandbox): `StdRng` is ChaCha with 12
  rounds, a 64-bit block counter and a buffer of four blocks, `seed_from_u64` fills the key by PCG32,
  `gen::<u64>()` joins two words, the first one low.  `Model/Rng.lean` writes this out; two known
  answers from the tests of rand are checked in `Examples/ZobristTests.lean`.
  Only C56 (third theorem), C57 and C58 depend on it.
* `arrayvec`: `push` panics when full, `swap_remove` moves the last element into the hole.

**Validation of the model.**  The project itself cannot be run here.  As a check of the transcription,
`Examples/UnitTests.lean` evaluates the unit tests of the repository on the model, on all four builds
where the kernel is fast enough.  The slow ones were run once with the model compiled to native code
(scratch program, not part of the proofs): `perft` gives the counts of the tests, 30, 900, 25470,
719731 and 19861490 from the initial position (depth 4 on the portable and x86_64 builds, depth 5 on the
portable one) and 593, 105677, 53393368 from the 593-move position (all builds), `capture_all_pawns` passes, and so does the test `uniqueness` of
`zobrist.rs` with the concrete table.

## 4. Specification

`Spec/Rules.lean` (240 lines) uses from the model only the basic types, `file`, `rank`, `Color.flip`
and the list of all squares; which kinds promote, to what, and which can be held in hand are tables of
its own, so a wrong table in the model (or in `shogi_core`) is not copied into the specification.  It
defines positions (board, hands, side), displacement by files and
ranks, the step and slide patterns of the 14 kinds, `Reaches`, `Attacked`, `InCheck`, the effect of a
move (`apply`), promotion zone, dead pieces, `PseudoLegal`, `Safe`, `Mated`, `Legal` (with pawn-drop
mate), `Valid` (at most one king each, the side not to move is not in check, no dead pawns, no pawn on
its first rank sharing its file with another own pawn), `Loose` (the same, but the
side not to move may be in check from a piece), `Tame` (no condition on check at all),
`Material`/`Standard` (at most a standard set; both kings).
`Valid` contains every position that can occur in a game, and also positions with missing kings, with
doubled pawns further up the board, with dead lances and knights and with any number of pieces.
`C12_never_doubled` and `C13_never_dead` show that games do not leave the narrower class (C62 collects
this for games from the initial position).  `C13_dead_means_stuck` justifies the table `Dead`.
`Spec/Hash.lean` defines the XOR of table entries over board and hands; `Spec/Lines.lean` defines
betweenness; `Spec/Start.lean` gives the initial position by a diagram, `Spec/Usi.lean` the notation of moves; `Spec/Draws.lean` and
`Spec/Places.lean` say in which order the table is drawn and at how many places two positions differ
(C56, C57).  The connection to the model is `view p` (what `piece_at`, `hand`, `side_to_move` show)
and `rootView pp` (the argument of `Position::new`).

Histories: `Reached E K pp ms p` says that `p` is obtained from `Position::new(pp)` by some sequence
of legal `do_move` calls and matching `undo_move` calls, with `ms` the moves in force.  Legality in
this definition is the rule book's, not the generator's; C10 (`C10_listed_session`) shows that games
made of listed moves are such histories.  `C39_api_refines_rules` is the summary: the abstract machine
is the pair (root position, list of moves in force), and every answer of every call is the one the
rule book gives for it.

## 5. Proof structure

* *Bit level* (`Proofs/Bits`, `CoreLawful`, `SimdBits`, `SimdLawful`): `Lawful K` says that each
  operation is the intended set operation on `Ok` words (no bit outside the squares); each of the four
  builds is lawful for every `J`.  All later proofs use only `Lawful`.
* *Tables* (`Proofs/Tables…`): attack tables equal the spec's `Reaches` by induction on ray walks.
* *Representation invariant* `Repr` (bitboards agree with the board) and `Inv` (plus: caches of every
  state on the stack are those recomputed from scratch); preserved by `do_move`, restored by `undo_move`.
* *Generators* (`GenList`, `LegalGen`, `Evasions`, `Drops`, `DropMate`): membership characterisations.
* *Pins*: a safe non-king move is one that keeps the mover on the line between king and sniper.
* *Counting* (`Capacity`, `Bound593`): the number of pushes is bounded by a weight argument over the
  material; the bound 593 is attained (C22) and is exact for both kings on the board.
* *Agreement* (`Agree`, `Symmetry`): uniqueness of representations gives equality of all results
  between backends, histories, colours and mirrored boards.

| id | how |
|----|-----|
| C01, C02 | XOR cancellation, extensionality; induction on move lists |
| C03, C04 | unfold `do_move`, compare with `apply`; counting over the 81 squares |
| C05–C07, C10–C15, C30, C36, C37 | membership characterisation of every generator, pin and evasion analysis |
| C08, C09, C38 | cache invariant, reverse attack symmetry, discovered-check analysis |
| C16, C24, C32, C33 | uniqueness of the representation; equivariance of the rules |
| C17–C20 | invariant on keys |
| C21–C23, C40 | totality of each call; exact panic condition of `legal_moves` |
| C25–C29, C42, C45, C50 | bit level and tables |
| C31, C46, C47 | induction on depth |
| C48 | equivariance of games |
| C34, C35, C43, C44, C49 | direct, over sessions |
| C39 | refinement, from all of the above |
| C41 | results independent of `J`, from agreement |
| C51 | agreement and independence of `J` without validity (`Proofs/AgreeAny`) |
| C52 | case analysis over an invariant `Callable` of all visited positions, legal or not (`Props/MovePanic`) |
| C53 | the same, with the last entry of the history |
| C54 | the analysis of C09 without the safety of the move |
| C55 | the generator analysis is carried out for `Loose` positions (`legalMoves_loose`); `Valid` is only needed for the last step, that the pawn drops left out are exactly the mating ones |
| C56 | the fold over the loop indices writes each slot once; the numbers themselves by evaluation of ChaCha12 in the kernel (`Proofs/TableLit`) |
| C57, C58 | the difference of two keys is one of finitely many XORs of table entries; a sorting network on packed words (`Proofs/Lanes`) shows in the kernel that these are pairwise different (all of them, 35281 for C57 and 220218 for each side for C58); the reduction from positions to these values is a proof for all positions (`Proofs/Separate`, `Props/Zobrist`, `Props/Siblings`).  `SibBlack` and `SibWhite` need about 4 GB each |
| C59 | a loop over distinct indices, each of which changes only its own entries (`foldl_fiber`); then C25, C29, C50 |
| C60 | invariant of all call sequences: the bitboards hold only squares (`OkBoards`); the agreement proofs need no more than that |
| C61 | execution of the statements, case by case |
| C62 | from C04, C12, C13, C20, C22, C34, C37 |
| C63 | the invariant `Callable` of C52 |
| C64 | invariant: recorded checkers are enemy pieces attacking the king that `king_position` finds; pawn hypotheses kept by pseudo-legal moves |
| C65 | a legal move answers every check, so also the recorded ones; pins are always recomputed; two recorded checkers leave only king moves |
| C66 | the checkable squares and pins are always those of the board, so a reported check yields a non-empty set of checkers; the king that `king_position` finds does not move; the pin lemma gives the uncovered attackers |
| C67 | the generator uses only the pins and the recorded checkers; pins are always right, so with no checkers the filter is the pin test, and the pin lemma turns it into "no new attack"; with a recorded check the recorded set is the full one unless a drop joined older attackers, and then C55's argument applies |
| C68 | the counting of C22 with the opponent's king capturable: its square costs the drops there (4 on the last rank, 6 or more elsewhere); with a recorded check every generated move goes to the king's neighbourhood or to one line, coded in 280 ways |
| C69 | a symmetry of the rules (C32, C33) commutes with `apply`, so induction over the game; panics through C35, C40 and C52, whose conditions are symmetric |
| C70 | the invariant `Repr` under moves of the right shape; conversely a drop on a piece toggles or keeps the wrong bit of the colour boards |
| C71 – C75 | contracts of the single functions (`Proofs/Repr`, `GenList`, `Drops`, `LegalGen`, `Evasions`, `DropMate`, the fields of `Lawful`), restated over `piece_at` and the rules |
| C76 | relation between positions with equal contents and equal states above a common depth, preserved by every call; contents, keys and caches at the start agree by C18, C70 and the invariant |
| C77 | what `undo_move` writes for any argument, compared square by square and count by count with the position before |
| C78 | simulation: the checked run equals the model's, or is broken and a condition on the position fails (`Proofs/Checked`, `Proofs/CheckedOps`); the conditions hold by the invariants of C60 and of legal play |
| C79 | the numbers still to come are the bits of the lanes; induction over the calls |
| C80 | the set as a number with nine digits in base 512 (and a gap); comparison with the mask digit by digit, by induction over the number of digits; the top bit of a digit above 256 survives any borrow |
| C81 | the tests of `is_pawn_drop_mate`, clause by clause, against the moves of the opponent after the drop: pawns and lances cannot take a pawn in front of their king, and a pin on the king still holds after the drop unless it runs along the file |
| C82 | the recorded checkers are read off the last move made; the loop of `generate_evasions` over them puts into `attacks`, next to the king, the squares each attacks now or once the king is lifted, and only a list of one checker leads to the other moves |
| C83 | case distinction on the answer of `in_check`: C67 and C81 on one side, C82 on the other; the answer itself is C66 |
| C84 | both shifts bit by bit on all 81 squares; the two squares of a wrapped move are on no common line, so `is_legal` refuses it exactly if the pawn is pinned; all other parts of the list are the same function in both builds |
| C85 | two positions that differ have a table entry that takes part in exactly one of their two hashes (`unlike_entry`); C17 then makes the difference of the keys that entry plus a constant, and the mask of the table makes both even; that the same moves can be made with every table is C52 (`C85_any_table`) |
| C86 | one digit of a subtraction in base 512 with what is below and above it (`digit_sub`), for the whole word and for each 64-bit lane; `half` cuts the set to one lane; C84's proof only needs the two builds to agree on `vacant_files` (`listed_of_agree`) |
| C87 | the lemmas behind C82, C84 and C86 restated for the king that `king_position` finds (`isPawnDropMate_of`, `pawnDropTarget_any_king`, `dropMateCond_iff`, `isLegal_first`, `Wandered.recordedFirst`); `noNewAttackOn_of_clear` for one king at a time |
| C88 | `Wandered`: the cache invariant needs only unhindered moves (`cacheSound_doMove`, `inCheck_after`, `kings_kept`); `collected_noCheck` and `collected_check` (contents before `is_legal`); counting by codes with eight more for pawns around the edge (`evasions_length`) |
| C89 | the simulation of C78 with the contract of `vacant_files` asked for only where it is called (`Blocks`, `watched_eq`); otherwise the board moves are collected as in the model and the first drop ends the run (`generateAllC_ends`, `generateEvasionsC_ends`, `vacant_ends`) |
| C90 | induction on the depth with the loop invariant `Counts` (result and panic at once), from C88 for the list, C52 for `do_move` and C01 for `undo_move`; `trouble_succ` unfolds the tree by one level |
| C91 | sane pawns never make the borrow run out (`pawnsOk_not_runsOut`, `pawnsOk_taken`), so what is collected is pseudo-legal and keeps them sane (`pawnsOk_apply`); then C89 and C90 on both builds |
| C92 | every predicate of the machine of C83 commutes with a symmetry (`Sym.between`, `Sym.recorded`, `Sym.newCheck`, `Sym.unanswered`, `Sym.listedBy`) |
| C93 | the tree of lines of C90 commutes with a symmetry (`Sym.listedFirst`, `line_sym`, `trouble_sym`); at most one king a side makes the first king the king |
| C94 | the loops in `w`-bit integers simulate those in natural numbers (`loop_machine`); the buffer bounds every list (`Bounded`); `3 ^ d` games of two kings that stay in their yards |
| C95 | C38 gives the checkers; a checker off the landing square was uncovered (`uncovered`), two of them would block each other (`between_beyond`) |
| C96 | the attack information is a function of the board and the recorded checkers, these of the board, `in_check` and the last drop (`Visited.attackInfo`); then the simulation of C76 |
| C97 | induction over the program; single calls by C60, C61 (any arguments) and C24 (legal play) |
| C98 | induction over the session to the rules (C03), then two measures along a line: the number of pieces on the board, and a weight that moves without capture never lower |
| C99 | texts of squares and kinds by exhaustion of the finite types, lines by cutting at the colon; the counts by C31, C43, C46 and the listed moves by C89 |
| C100 | the generators with the hands replaced, definition by definition; the mate after a dropped pawn by the conditions of `is_pawn_drop_mate` (C74), which name no hand; two positions by C16 |
| C101 | induction over the depth, one fold over the listed moves each; C01, C03, C05–C07, C21, C22 for the single calls |
| C102 | invariant over all interleavings (a job's table is marked busy with its thread, jobs of a thread have falling rank, every job and program evaluates to the right value); progress by induction on the rank; a measure that every step lowers by exactly one |
| C103 | the induction of C101 with the invariant that every entry under the key of a position within reach is right for it; C18 for the positions found again |
| C104 | induction on the depth, with the loop invariant that the best value so far tells about the best of the moves seen; C01, C21, C22 for each move |

## 6. Findings about the code

1. **Keys ignore the side at construction** (C19 is false).  `Position::new` never XORs `Key::COLOR`
   for White, while every `do_move` toggles it.  So the same position with White to move has
   different keys when reached by a move and when constructed, and `new` gives Black-to-move and
   White-to-move positions with the same pieces equal keys (`C19_is_false`, `C19_new_ignores_side`).
   What does hold is `C19_exact_partial` and C18; mixing in the colour key for White in `new` is enough
   to make C19 true (`C19_fix_suffices`).
2. **Capacity** (C23 is false).  593 is the maximum with both kings on the board.  Without the
   opponent's king, `Position::new` accepts a position on which `legal_moves` pushes 599 moves and
   panics (`C23_false`); C40 gives the exact condition; 599 would do (`C23_599_would_do`).  With both
   kings, but the opponent's attacked on the mover's last rank, 595 moves are pushed and it panics too
   (`C68_panics_with_both_kings`).
3. **`vacant_files`** of the portable build is wrong, or panics with overflow checks, for two pawns
   on one file with one on the bottom rank (`C26_condition_needed`); which of the three (panic, word
   outside the contract, merely wrong) happens on which sets is C80.  The SIMD builds never panic, but
   give wrong files too; C86 says which files, in each build.
4. **Undefined behaviour from safe code** on an accepted but illegal position of that kind: the
   portable build hands `from_u128_unchecked` a word outside its contract
   (`C41_unsound_on_doubled_pawns`, `C78_broken_on_doubled_pawns`).  C60 and C78 say that this is the only way: no other call sequence, and
   none at all in the SIMD builds, leaves the contracts of these constructors.
5. **Several kings**: `Position::new` accepts them; only the one on the first square is protected, and
   checks to the others are not seen (C87).
6. **Dead pawns**: with an unpromoted pawn on its last rank the SIMD shifts wrap into the next file,
   and the x86 build lists a move the portable build does not (`C24_needs_valid`).  C84 says which moves
   are added, on every such position.

7. **Opponent left in check**: on such a position `legal_moves` lists the capture of the king, which
   makes `do_move` panic (`C55_king_capture`), may list a mating pawn drop (`C55_exception`), and after
   a quiet move `in_check` is wrong (`C55_only_fresh`).
8. **`undo_move` without a move in force** does not panic for a drop; it empties the history, and
   every later call panics (`C53_underflow`).

9. **`do_move` is not panic-safe**: a drop of a piece that is not in hand, a forbidden promotion with a
   capture and an overflow of the move counter panic after the position was changed (C61); a caller who
   catches the panic goes on with a damaged position (though, by C60, without leaving those contracts).

10. Read off the source, not proved (aliasing is not modelled): `Bitboard::values` of the x86_64 and
   aarch64 builds (x86_64.rs:67-73, aarch64.rs:63-69) stores through `MaybeUninit::as_ptr() as *mut _`.
   The documentation of `as_ptr` calls writing through that pointer undefined behaviour; `as_mut_ptr`
   on a `mut` variable would be right.  C41, C42, C60 and C78 speak of the contracts of
   `from_u8_unchecked`, `from_u128_unchecked` and the bounds of the tables only.

3–7 need positions that cannot occur in a game but that `Position::new` accepts.

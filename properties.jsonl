{"id": "C01", "title": "undo_move inverts do_move", "statement": "If do_move(m) does not panic, m moves a piece to a different square or drops onto an empty square, then undo_move(m) does not panic and restores the Position exactly: board, hands, side, ply, keys, check status, legal moves and the remaining history.", "quantifier": "every Position value (no validity assumption), every move of that shape, every Zobrist table, both overflow-check modes, every bitboard backend", "why_tests_cant": "the test replays one five-move game; the claim ranges over every board, hand, promotion, capture kind and history", "anchors": ["src/position.rs: Position::do_move, Position::undo_move", "src/position.rs: PartialPosition::xor_piece"]}
{"id": "C02", "title": "unwinding a whole game restores the start", "statement": "Playing any list of moves (each non-panicking and of the shape of C01) and undoing them in reverse order yields the original Position, identical in every observable.", "quantifier": "every Position, every finite move list of any length", "why_tests_cant": "needs induction over unbounded histories", "anchors": ["src/position.rs: Position::do_move, Position::undo_move"]}
{"id": "C03", "title": "do_move has exactly the effect of the rules of shogi", "statement": "After do_move(m) for a legal m: the origin is empty, the destination holds the moved (promoted iff requested) or dropped piece, every other square is unchanged, a captured piece is added unpromoted to the mover's hand, a dropped piece leaves the mover's hand, no other hand count changes, the side flips and ply increases by one.", "quantifier": "every valid position and every legal move", "why_tests_cant": "must hold on every square and every hand slot for every move, frame condition included", "anchors": ["src/position.rs: Position::do_move, piece_at, hand, side_to_move, ply"]}
{"id": "C04", "title": "pieces are conserved", "statement": "For each of the eight basic kinds (promoted pieces counted as their unpromoted kind), the number of pieces on the board plus in both hands never changes under do_move or undo_move.", "quantifier": "every valid position and every finite legal history", "why_tests_cant": "a conservation law over unbounded histories", "anchors": ["src/position.rs: Position::do_move, Position::undo_move, hand, piece_at"]}
{"id": "C05", "title": "legal_moves is sound", "statement": "Every move returned by legal_moves() is legal under the rules of shogi: own piece moving along its movement pattern without jumping, not onto an own piece, correct promotion, or a drop of a held piece on an empty square; no dead piece; no two pawns on a file; no pawn-drop mate; and the own king is not left attacked.", "quantifier": "every valid position (at most one king per side, side not to move not in check, no doubled or dead unpromoted pawns), every move in the output, every backend", "why_tests_cant": "positions are astronomically many; perft counts only sample two trees and cannot see compensating errors", "anchors": ["src/movegen.rs: Position::legal_moves, generate_all, generate_evasions, generate_for_*, generate_drop, is_legal"]}
{"id": "C06", "title": "legal_moves is complete", "statement": "Every move that is legal under the rules of shogi appears in legal_moves().", "quantifier": "every valid position and every legal move, every backend", "why_tests_cant": "a missing move in one rare pin, double check or discovered-escape configuration is invisible to sampled tests", "anchors": ["src/movegen.rs: Position::legal_moves, generate_all, generate_evasions, is_legal"]}
{"id": "C07", "title": "legal_moves never lists a move twice", "statement": "The list returned by legal_moves() contains no duplicate.", "quantifier": "every valid position, every backend", "why_tests_cant": "perft counts would be wrong only in the positions where it happens", "anchors": ["src/movegen.rs: Position::legal_moves, generate_*"]}
{"id": "C08", "title": "in_check is exact", "statement": "in_check() is true iff some enemy piece attacks the king of the side to move under the movement rules.", "quantifier": "every valid position reached by any history of do_move and undo_move", "why_tests_cant": "checkers are cached and updated incrementally (only recomputed when is_check_move said so), so a wrong cache depends on history", "anchors": ["src/position.rs: Position::in_check, AttackInfo::calculate_checkers, Position::do_move"]}
{"id": "C09", "title": "is_check_move predicts check", "statement": "For a legal move m, is_check_move(m) is true iff after do_move(m) the side to move is in check; both as reported by in_check() and under the rules.", "quantifier": "every valid position and every legal move, including discovered and double checks, promotions and drops", "why_tests_cant": "discovered checks along each of eight rays times every blocker configuration", "anchors": ["src/position.rs: Position::is_check_move, AttackInfo::new, AttackInfo::checkable, AttackInfo::pinned"]}
{"id": "C10", "title": "no move leaves or puts the own king in check", "statement": "After doing any move of legal_moves(), the king of the player who moved is not attacked; hence the position is valid again and every property here continues to hold.", "quantifier": "every valid position, every legal move, and by induction every reachable position", "why_tests_cant": "induction over histories; pins and king walks along attack rays", "anchors": ["src/movegen.rs: is_legal, generate_evasions, attackers_to", "src/position.rs: do_move"]}
{"id": "C11", "title": "an empty move list in check is checkmate, and conversely", "statement": "in_check() with legal_moves() empty holds iff the side to move is checkmated by the rules (its king is attacked and it has no legal move).", "quantifier": "every valid position", "why_tests_cant": "requires soundness and completeness of evasions everywhere", "anchors": ["src/movegen.rs: Position::legal_moves, generate_evasions"]}
{"id": "C12", "title": "two-pawns rule", "statement": "legal_moves() contains a pawn drop only on files with no unpromoted pawn of the mover, and other drop restrictions never remove a pawn drop on a vacant file that is not a dead square, not pawn-drop mate and answers any check. Hence a game from a position without doubled pawns never has doubled pawns.", "quantifier": "every valid position, every file", "why_tests_cant": "the file test is carry-borrow arithmetic over nine fields at once", "anchors": ["src/movegen.rs: generate_drop", "src/bitboard/core.rs: vacant_files"]}
{"id": "C13", "title": "dead-piece rule", "statement": "legal_moves() never moves without promotion or drops a pawn or lance to the last rank or a knight to the last two ranks (relative to the mover), and never omits such moves elsewhere. Hence a game from a position in which every piece can move never contains a dead piece.", "quantifier": "every valid position, both colours", "why_tests_cant": "both colours, all squares and all piece kinds", "anchors": ["src/movegen.rs: generate_for_fu, generate_for_ky, generate_for_ke, generate_drop", "src/tables.rs: RELATIVE_RANKS"]}
{"id": "C14", "title": "promotion rule", "statement": "A promoting move is listed iff the same piece may move there, the piece is promotable, and the origin or destination is in the mover's promotion zone.", "quantifier": "every valid position, every pair of squares", "why_tests_cant": "pawn, lance and knight generators look only at the destination; that this is enough is a theorem about the geometry", "anchors": ["src/movegen.rs: generate_for_*", "src/tables.rs: PROMOTABLE"]}
{"id": "C15", "title": "pawn-drop mate is excluded exactly", "statement": "A pawn drop that is otherwise legal is omitted from legal_moves() iff it leaves the opponent checkmated (attacked king and no legal reply).", "quantifier": "every valid position with a pawn in hand, every square", "why_tests_cant": "quantifies over all replies of the opponent in all positions; tests cover seven positions", "anchors": ["src/movegen.rs: is_pawn_drop_mate, generate_drop, attackers_to_except_klp"]}
{"id": "C16", "title": "position state does not depend on history", "statement": "For a valid position reached by any history, in_check(), is_check_move(), legal_moves() (including order), piece_at(), hand(), side_to_move() equal those of Position::new on the same board, hands and side.", "quantifier": "every finite history of legal do_move and of undo_move", "why_tests_cant": "incremental caches versus recomputation over unbounded histories", "anchors": ["src/position.rs: Position::new, do_move, undo_move, AttackInfo::new"]}
{"id": "C17", "title": "incremental hash equals hash from scratch", "statement": "After any history the board part of keys() is the XOR of the table entries of the current board, plus 1 iff an odd number of moves separate it from the root; the hand part is the XOR of the entries of the current hands.", "quantifier": "every finite history, every Zobrist table", "why_tests_cant": "unbounded histories; XOR bookkeeping errors cancel in many tests", "anchors": ["src/position.rs: Position::key, keys, do_move", "src/zobrist.rs: ZobristTable"]}
{"id": "C18", "title": "transpositions have equal keys", "statement": "Two games from roots with the same side to move that arrive at the same board, hands and side have the same key() and keys().", "quantifier": "all pairs of histories, every Zobrist table", "why_tests_cant": "quantifies over pairs of unbounded histories; tests try one pair", "anchors": ["src/position.rs: Position::key, keys", "src/zobrist.rs: Key"]}
{"id": "C19", "title": "the key encodes the side to move", "statement": "Equal boards and hands with equal side to move give equal keys however the Position was built, and positions that differ only in the side to move have different keys.", "quantifier": "all positions and histories, every Zobrist table", "why_tests_cant": "the unchanged code violates this for positions built by Position::new with White to move; a universally quantified claim is needed to expose it", "anchors": ["src/position.rs: Position::new, do_move", "src/zobrist.rs: Key::COLOR"]}
{"id": "C20", "title": "key parity", "statement": "keys().1 is always even and keys().0 changes parity at every do_move, so key() does too.", "quantifier": "every position and history, every Zobrist table", "why_tests_cant": "unbounded histories and arbitrary table contents", "anchors": ["src/zobrist.rs: Key::COLOR, ZOBRIST_TABLE", "src/position.rs: do_move"]}
{"id": "C21", "title": "legal play never panics", "statement": "From a valid start with at most a standard set of pieces and both kings, any sequence of legal_moves, do_move with a listed move, undo_move of the last move, is_check_move of a listed move, and the accessors runs without panic (unwrap on None, index out of bounds, capacity, overflow), as long as the ply counter does not overflow.", "quantifier": "every finite session", "why_tests_cant": "panics hide behind states no test reaches", "anchors": ["src/position.rs: Position", "src/movegen.rs: Position::legal_moves", "src/zobrist.rs: ZobristTable::hand"]}
{"id": "C22", "title": "593 slots are enough", "statement": "With at most a standard set of pieces and the opponent's king on board and not in check, legal_moves() never pushes more than 593 pseudo-legal moves, so the fixed-capacity buffer never overflows; 593 is attained.", "quantifier": "every such position", "why_tests_cant": "an extremal claim over all positions; a test can only show that one position reaches the bound", "anchors": ["src/movegen.rs: MAX_LEGAL_MOVES, legal_moves"]}
{"id": "C23", "title": "legal_moves on positions without the opponent's king", "statement": "legal_moves() also returns normally on positions with at most a standard set of pieces where the opponent's king is absent.", "quantifier": "every such position", "why_tests_cant": "the code treats missing kings as supported (Option), but the buffer bound is violated on rare positions", "anchors": ["src/movegen.rs: MAX_LEGAL_MOVES", "src/position.rs: king_position"]}
{"id": "C24", "title": "all bitboard backends behave alike", "statement": "legal_moves(), in_check(), is_check_move(), do_move() and undo_move() give identical results (order included) with the portable, x86_64 AVX2, aarch64 NEON and wasm32 SIMD bitboards; is_check_move(), do_move() and undo_move() also for arguments that are not legal moves.", "quantifier": "every valid position and history", "why_tests_cant": "three of the four backends are not even compiled on a given test machine; 2^81 occupancies", "anchors": ["src/bitboard/core.rs", "src/bitboard/x86_64.rs", "src/bitboard/aarch64.rs", "src/bitboard/wasm32.rs", "src/bitboard.rs: Occupied"]}
{"id": "C25", "title": "sliding attacks are ray walks", "statement": "For lance, bishop and rook the attacked squares computed by bit tricks equal those found by walking each ray square by square up to and including the first occupied square.", "quantifier": "every square, colour and occupancy (2^81), every backend", "why_tests_cant": "the occupancy space cannot be enumerated", "anchors": ["src/tables.rs: LanceAttackTable::attack, SlidingAttackTable::attack, sliding_attack", "src/bitboard/core.rs: sliding_positive, sliding_negative", "src/bitboard/x86_64.rs: sliding_positives, sliding_negatives", "src/bitboard/aarch64.rs", "src/bitboard/wasm32.rs"]}
{"id": "C26", "title": "vacant_files is exact without doubled pawns", "statement": "vacant_files() is the set of squares on files that contain no square of the argument, provided no file holds its bottom square together with another square.", "quantifier": "every such square set, every backend", "why_tests_cant": "borrow propagation between nine packed fields", "anchors": ["src/bitboard/core.rs: vacant_files", "src/bitboard/x86_64.rs: vacant_files", "src/bitboard/aarch64.rs: vacant_files", "src/bitboard/wasm32.rs: vacant_files"]}
{"id": "C27", "title": "bitboard set semantics", "statement": "single, contains, is_empty, count, and, or, xor, not behave as set operations on the 81 squares, and iteration yields each member exactly once in ascending order.", "quantifier": "every bitboard produced by the API, every backend", "why_tests_cant": "2^81 sets; SIMD backends use two lanes and junk bits", "anchors": ["src/bitboard/core.rs", "src/bitboard/x86_64.rs: SquareIterator, Not, PartialEq", "src/bitboard/aarch64.rs", "src/bitboard/wasm32.rs"]}
{"id": "C28", "title": "attack relation is symmetric under colour reversal", "statement": "A piece of kind k and colour c on a attacks b iff a piece of kind k and opposite colour on b attacks a (for the same occupancy), which is what the reverse lookup used for check detection relies on.", "quantifier": "all kinds, squares and occupancies", "why_tests_cant": "81*81*14*2 pairs times all occupancies", "anchors": ["src/movegen.rs: attackers_to", "src/position.rs: calculate_checkers", "src/tables.rs: AttackTable::attack"]}
{"id": "C29", "title": "squares between two squares", "statement": "The between table for (a,b) is exactly the set of squares strictly between a and b on a common rank, file or diagonal, and is empty for unaligned squares.", "quantifier": "all pairs of squares", "why_tests_cant": "finite but only correct as a whole; every pin and evasion depends on it", "anchors": ["src/tables.rs: BETWEEN_TABLE"]}
{"id": "C30", "title": "in-place filtering keeps exactly the legal moves", "statement": "The swap_remove loop of legal_moves() terminates and leaves a permutation of the generated moves that pass the legality filter.", "quantifier": "every generated list and every filter outcome", "why_tests_cant": "depends on the interleaving of hits and misses in lists of any length", "anchors": ["src/movegen.rs: Position::legal_moves"]}
{"id": "C31", "title": "perft counts legal games and leaves the position unchanged", "statement": "perft(depth) returns the number of legal move sequences of that length (the example's perft(0) counts like perft(1)), the two published variants (leaf counting at depth 2 or depth 0) agree for depth >= 1, and the Position is unchanged afterwards.", "quantifier": "every valid position, every depth", "why_tests_cant": "recursion over unbounded depth with in-place do/undo", "anchors": ["examples/perft.rs: perft", "benches/bench_perft.rs: perft", "src/position.rs: tests::perft"]}
{"id": "C32", "title": "colour symmetry", "statement": "Rotating the board by 180 degrees and swapping the colours of all pieces, hands and side to move maps the set of legal moves onto the set of legal moves of the new position, and preserves in_check().", "quantifier": "every valid position", "why_tests_cant": "black and white go through different tables, shifts and slide directions", "anchors": ["src/tables.rs", "src/movegen.rs", "src/bitboard/core.rs: sliding_positive, sliding_negative"]}
{"id": "C33", "title": "left-right mirror symmetry", "statement": "Reflecting the board left to right maps legal moves onto legal moves and preserves in_check().", "quantifier": "every valid position", "why_tests_cant": "east and west use different bit directions and lanes", "anchors": ["src/tables.rs", "src/movegen.rs", "src/bitboard/core.rs"]}
{"id": "C34", "title": "ply counter", "statement": "After n do_move calls ply() is the initial value plus n as long as that fits in 16 bits; at 65535 do_move panics in a build with overflow checks and wraps to 0 without.", "quantifier": "every history length", "why_tests_cant": "65536 plies are not exercised by tests", "anchors": ["src/position.rs: Position::ply, do_move, undo_move"]}
{"id": "C35", "title": "Position::new accepts exactly the positions with hand counts up to 18", "statement": "Position::new panics iff some hand holds more than 18 pieces of one kind; otherwise it reproduces the given board, hands, side and ply.", "quantifier": "every partial position", "why_tests_cant": "quantifies over all boards and hands", "anchors": ["src/position.rs: Position::new, PartialPosition::from", "src/zobrist.rs: MAX_HAND_NUM"]}
{"id": "C36", "title": "only the king or a double-check rule restricts evasions", "statement": "When the king is attacked by two or more pieces every listed move moves the king; when attacked by one piece every other listed move captures that piece or interposes between it and the king.", "quantifier": "every valid position in check", "why_tests_cant": "all checker configurations, promoted rook diagonal checks included", "anchors": ["src/movegen.rs: generate_evasions"]}
{"id": "C37", "title": "king captures never occur", "statement": "In a valid position no listed move captures a king, so each side keeps its king throughout any legal game.", "quantifier": "every valid position and reachable history", "why_tests_cant": "do_move would panic on a captured king; needs the invariant that the opponent is never in check on our turn", "anchors": ["src/movegen.rs: legal_moves", "src/position.rs: do_move"]}
{"id": "C38", "title": "the cached attack information is exact", "statement": "After any history: checkers() is the set of enemy pieces attacking the king of the side to move; pinned(c) is the set of pieces of either colour whose removal would open a line of attack on the king of c; checkable(pk, sq) holds iff pk is not the king and a piece of kind pk of the side to move standing on sq would attack the opponent's king.", "quantifier": "every valid position and every finite history of legal do_move and undo_move, every backend", "why_tests_cant": "the caches are pub(crate) and incrementally maintained; an error shows only in rare later answers", "anchors": ["src/position.rs: AttackInfo::new, calculate_checkers, checkers, pinned, checkable"]}
{"id": "C39", "title": "the API refines the rules of shogi", "statement": "For every finite list of public calls within the contract (do_move and is_check_move with legal moves, undo_move with the last move, all accessors), Position::new and all calls return, and every answer (piece_at, hand, side_to_move, ply, in_check, is_check_move, legal_moves as a set, key, keys) is the one that the rules require in the position given by the root and the moves in force.", "quantifier": "every root with at most a standard set of pieces and both kings, every finite list of calls, every backend and Zobrist table; with overflow checks as long as the ply counter cannot overflow", "why_tests_cant": "quantifies over all interleavings of calls of any length", "anchors": ["src/position.rs: Position", "src/movegen.rs: Position::legal_moves"]}
{"id": "C40", "title": "exactly when legal_moves panics", "statement": "For a valid position with any material, legal_moves() panics iff the side to move is not in check and has at least 594 different pseudo-legal moves (pawn-drop mates not counted). In check it always returns and lists at most 280 moves.", "quantifier": "all valid root positions with any material, all histories of legal moves, all four backends, overflow checks on or off", "why_tests_cant": "The panic needs positions with extreme mobility; a test can exhibit one but cannot show that there is no other cause of a panic.", "anchors": ["src/movegen.rs:10-50", "src/movegen.rs:60-180"]}
{"id": "C41", "title": "legal play never breaks the contract of an unsafe constructor or reads a table out of bounds", "statement": "In every session from a valid position, Square::from_u8_unchecked is never called outside 1..=81, Bitboard::from_u128_unchecked never with a bit outside the 81 squares, and no constant table is read out of bounds: whatever these would give outside their contract, Position::new, the possible histories and every call give the same. (The validity hypothesis is needed: with two pawns of one colour on file 7, one on the bottom rank, and a pawn in hand, the portable build breaks the contract of from_u128_unchecked.) (The aliasing rules of the language are outside this claim; see finding 9 in DESIGN.md.)", "quantifier": "all four backends, all valid root positions, all histories of legal moves, all calls, every possible behaviour outside the contracts", "why_tests_cant": "undefined behaviour need not show in any test run; the claim is about all reachable states", "anchors": ["src/movegen.rs:87-116 generate_for_fu", "src/bitboard/core.rs:6-78", "src/bitboard/x86_64.rs:128-153,226-257", "src/bitboard/aarch64.rs:70-97,201-232", "src/bitboard/wasm32.rs:66-86,172-203"]}
{"id": "C42", "title": "bitboard operations stay within their contracts", "statement": "On bitboards built with the Bitboard API, iteration, counting, the sliding operations and vacant_files (no bottom square sharing its file) never leave the contract of an unsafe constructor or the bounds of a table.", "quantifier": "all four backends, all bitboards built with the API, every possible behaviour outside the contracts", "why_tests_cant": "there are 2^81 bitboards and more combinations", "anchors": ["src/bitboard/core.rs:6-78", "src/bitboard/x86_64.rs:128-153,226-257", "src/bitboard/aarch64.rs:70-97,201-232", "src/bitboard/wasm32.rs:66-86,172-203"]}
{"id": "C43", "title": "Position::default is the initial position of a game", "statement": "Position::default() returns the initial position: its board, empty hands, Black to move, ply 1, not in check, with exactly 30 legal moves; and every session of calls within the contract on it runs without panic and answers as the rules require.", "quantifier": "for all Zobrist tables, overflow-check settings, bitboard builds and behaviours outside contracts, and all finite sessions of calls", "why_tests_cant": "tests run one build with one random table and a handful of games from the initial position", "anchors": ["src/position.rs:256-260", "src/position.rs:10-42"]}
{"id": "C44", "title": "captured and last_moved describe the last move in force", "statement": "After any session of legal moves made and taken back, captured() is the piece that stood on the target of the last move in force (None for a drop or a quiet move) and last_moved() is the moved or dropped piece as it was before any promotion; with no move in force both are None. Neither panics.", "quantifier": "for all accepted roots, all sessions of any length, all backends", "why_tests_cant": "undo restores earlier entries of the state stack, so the claim is about all interleavings of do and undo", "anchors": ["src/position.rs:97-174", "src/position.rs:231-237"]}
{"id": "C45", "title": "bitboard equality is set equality", "statement": "For bitboards built with the API, a == b holds exactly when they contain the same squares, in the portable, SSE/AVX2, NEON and WASM builds.", "quantifier": "for all pairs of bitboards built by any sequence of operations, all backends", "why_tests_cant": "there are 2^81 sets; the SIMD versions compare padding bits too, so equality depends on every operation keeping them clear", "anchors": ["src/bitboard/x86_64.rs:213-222", "src/bitboard/aarch64.rs:192-197", "src/bitboard/wasm32.rs:163-168", "src/bitboard/core.rs:10"]}
{"id": "C46", "title": "per-move perft counts", "statement": "perft with is_root prints one line per legal move in the order of legal_moves, each with the number of legal games of length depth-1 after that move (1 for depth 0 and 1); the printed numbers add up to the returned total, which equals perft without is_root; the position is unchanged and nothing panics.", "quantifier": "for all standard roots, all reached positions, all depths the u16 ply counter can hold, all backends", "why_tests_cant": "perft numbers are compared for a few positions and small depths only", "anchors": ["examples/perft.rs:26-47"]}
{"id": "C47", "title": "perft with machine integers", "statement": "With counts in a w-bit usize, perft returns the exact number of games when it fits, panics otherwise with overflow checks, and is the exact number modulo 2^w without; up to depth 6 a 64-bit usize and up to depth 3 a 32-bit usize always suffices.", "quantifier": "for all word sizes of at least 10 bits, all standard roots, all reached positions, all depths, both overflow settings, all backends", "why_tests_cant": "overflow needs more than 2^64 leaves; no test can reach it", "anchors": ["examples/perft.rs:26-47", "benches/bench_perft.rs:11-29"]}
{"id": "C48", "title": "perft is invariant under the symmetries of the board", "statement": "Two positions that are rotations of each other with colours exchanged, or left-right mirror images, have the same perft numbers at every depth.", "quantifier": "for all valid roots, histories, depths, Zobrist tables, pairs of backends", "why_tests_cant": "tests compare a few fixed numbers; a colour- or file-dependent slip deep in a game changes none of them", "anchors": ["examples/perft.rs:26-47", "src/movegen.rs:10-405"]}
{"id": "C49", "title": "the history grows and shrinks with the moves in force", "statement": "After any session the state stack holds exactly one entry per move in force plus the initial one, so state() never panics.", "quantifier": "for all accepted roots, all sessions of do_move and undo_move, all backends", "why_tests_cant": "sessions are unbounded in length and interleaving", "anchors": ["src/position.rs:166-174", "src/position.rs:205-208", "src/position.rs:247-249"]}
{"id": "C50", "title": "the small tables are exact", "statement": "pseudo_attack is the movement of the piece on an empty board (promoted bishop and rook as the plain ones), FILES[f] is the set of squares of file f, PROMOTABLE is the promotion zone, and the RELATIVE_RANKS comparisons of the generator are the dead-piece rule.", "quantifier": "for all kinds, colours, squares, files and backends", "why_tests_cant": "the tables have thousands of entries per backend and tests look at a handful", "anchors": ["src/tables.rs:176-183", "src/tables.rs:228-256"]}
{"id": "C51", "title": "the builds agree on arbitrary positions", "statement": "On every position accepted by Position::new, legal or not, and after every history of moves of the right shape, the four builds agree on in_check, is_check_move, do_move and undo_move (whatever move is given); the three SIMD builds agree on legal_moves and never leave the contracts of unsafe functions; the portable build agrees with them and stays within the contracts when no pawn of the side to move is on its last rank or on rank 9 together with another pawn on its file.", "quantifier": "for all accepted positions (several kings, none, dead pieces, doubled pawns, any material), all sessions of shape-correct moves, all pairs of builds, all behaviours outside the contracts", "why_tests_cant": "each CI machine runs one build, and tests use legal positions", "anchors": ["src/bitboard/x86_64.rs:66-84", "src/bitboard/core.rs:44-77", "src/movegen.rs:87-116", "src/movegen.rs:292-322"]}
{"id": "C52", "title": "do_move panics exactly in the listed cases", "statement": "do_move(m) panics if and only if: m is a board move from an empty square, onto a king, capturing a nineteenth piece of one kind, or promoting a piece that cannot promote; m is a drop of a piece that is not in hand; or the move counter is 65535 and overflow checks are on.", "quantifier": "for all positions accepted by Position::new (legal or not), all histories of shape-correct moves, all moves whatsoever, all backends, both overflow settings", "why_tests_cant": "tests only play legal moves", "anchors": ["src/position.rs:97-175", "src/zobrist.rs:1-60"]}
{"id": "C53", "title": "undo_move panics exactly in the listed cases", "statement": "undo_move(m), for any m and not only for the last move, panics on a board move exactly when no move is in force or the destination is empty, and on a drop exactly when the piece is not of a hand kind, or when no move is in force, the counter is 0 and overflow checks are on. Undoing a drop with no move in force leaves a position without history on which in_check, key, legal_moves and do_move all panic.", "quantifier": "for all positions accepted by Position::new (legal or not), all histories of shape-correct moves, all moves whatsoever, all backends, both overflow settings", "why_tests_cant": "tests only undo the move just made", "anchors": ["src/position.rs:176-208"]}
{"id": "C54", "title": "is_check_move is exact on pseudo-legal moves", "statement": "For a pseudo-legal move, even one that leaves the mover's own king in check, is_check_move(m) is true exactly when after the move the opponent's king is attacked by a piece other than the mover's king.", "quantifier": "for all positions reached by games from valid positions, all pseudo-legal moves, all backends", "why_tests_cant": "tests ask only about a few legal moves; the interplay of pins and discovered checks needs all positions", "anchors": ["src/position.rs:72-96", "src/position.rs:440-500"]}
{"id": "C55", "title": "positions with the opponent left in check", "statement": "On a position made by Position::new in which the side that just moved may be in check, in_check is exact; legal_moves lists, without repetition, only safe moves and all legal moves, and exactly the safe ones among moves that are not pawn drops; a listed illegal move is a mating pawn drop onto a king already attacked; listed king captures make do_move panic; legal_moves never panics when the side to move is in check.", "quantifier": "for all accepted positions with at most one king a side, kings not adjacent, no doubled or dead pawns; all backends", "why_tests_cant": "tests use positions from games; such positions come from hand-written SFEN strings", "anchors": ["src/movegen.rs:10-36", "src/movegen.rs:292-400"]}
{"id": "C56", "title": "every Zobrist table entry is its own random number", "statement": "ZOBRIST_TABLE assigns to each (square, colour, kind) and to each (colour, hand kind, count below 18) one number of the generator of its own, in the order of the loops, with the colour bit cleared; the first 2520 numbers are used, each once. With StdRng::seed_from_u64(2022) all 2520 entries are different and none is zero.", "quantifier": "for all generators (first part); for all entries and all pairs of entries of the table (second part)", "why_tests_cant": "tests compare keys of a few positions; a loop that skips or overwrites entries shows up only for the positions that use them", "anchors": ["src/zobrist.rs:66-87"]}
{"id": "C57", "title": "keys tell apart positions that differ in at most two places", "statement": "With the numbers of the code, two positions that differ in one or two places (a place is a square, or the number of pieces of one kind in one hand) have different key() values, different keys().0 if the boards differ in one or two squares, and different keys().1 if the hands differ in one or two counts, even when the bit for the side to move is ignored.", "quantifier": "for all pairs of positions accepted by Position::new, all histories, all backends", "why_tests_cant": "there are far more than 10^60 pairs of positions; the property also fails for unlucky tables, so it cannot be argued from the algorithm alone", "anchors": ["src/zobrist.rs:66-87", "src/position.rs:15-43", "src/position.rs:61-68", "src/position.rs:97-175"]}
{"id": "C58", "title": "different moves lead to different board keys", "statement": "In every position, two different pseudo-legal moves lead to positions with different keys().0, even when the bit for the side to move is ignored; so the positions after the moves of legal_moves() have pairwise different keys.", "quantifier": "for all positions reached by any history, all pairs of different pseudo-legal moves, all backends", "why_tests_cant": "tests look at the children of a few positions; each pair of moves gives another combination of up to six table entries", "anchors": ["src/zobrist.rs:66-87", "src/position.rs:61-68", "src/position.rs:97-175"]}
{"id": "C59", "title": "the initialisers fill every entry of the static tables correctly", "statement": "The initialising loops of ATTACK_TABLE, BETWEEN_TABLE, RELATIVE_RANKS, PROMOTABLE, FILES, SINGLE_VALUES, MASKED_VALUES and MASKED_BBS finish without reaching unreachable!() or an index out of bounds, and afterwards every entry holds the value that the movement rules (attacks on the given occupancy or on the empty board, squares strictly between, promotion zone, relative rank, squares of a file, bit of a square, bits below an index) prescribe.", "quantifier": "for all table indices (squares, colours, kinds, pairs of squares, files, bit positions), all occupancies, all backends", "why_tests_cant": "the unit tests look at single entries of the attack and between tables; an index mix-up, a skipped direction or an entry overwritten by a later round of the loop shows only in the entries not looked at", "anchors": ["src/tables.rs:42-54", "src/tables.rs:80-94", "src/tables.rs:115-132", "src/tables.rs:157-195", "src/tables.rs:198-226", "src/tables.rs:228-256", "src/bitboard/core.rs:11-20", "src/bitboard/x86_64.rs:7-19", "src/bitboard/aarch64.rs:7-30", "src/bitboard/wasm32.rs:6-29"]}
{"id": "C60", "title": "no sequence of safe calls breaks the contract of an unsafe constructor (SIMD builds)", "statement": "Whatever a caller does with the safe public functions of Position (any root, do_move and undo_move with any arguments in any order, going on after a caught panic): the positions that can come about are the same in all four builds; in_check, is_check_move, do_move and undo_move give the same result or panic in all of them and never leave the contracts of unsafe functions; legal_moves agrees among the three SIMD builds and never leaves the contracts; in the portable build legal_moves can leave them only when a pawn of the side to move on rank 9 shares its file with another one. (The aliasing rules of the language are outside this claim; see finding 9 in DESIGN.md.)", "quantifier": "for all root positions, all sequences of calls with arbitrary arguments, all partial writes left by panics, all pairs of builds, all behaviours outside the contracts", "why_tests_cant": "soundness of a safe interface is a statement about all callers, wrong ones included; undefined behaviour need not show in any run", "anchors": ["src/position.rs:97-208 do_move, undo_move", "src/movegen.rs:87-116 generate_for_fu", "src/movegen.rs:292-322 generate_drop", "src/bitboard/core.rs:44-77", "src/bitboard/x86_64.rs:128-153,226-257"]}
{"id": "C61", "title": "what a panicking do_move or undo_move leaves behind", "statement": "When do_move panics on a board move, the position is unchanged exactly if the reason is an empty origin, the capture of a king, a nineteenth piece of one kind in hand, or a forbidden promotion without a capture; a forbidden promotion with a capture or an overflow of the move counter leaves a half-done move. When do_move panics on a drop, the position is always damaged: the piece stands on the board although it was not in hand. When undo_move panics, the position is unchanged exactly for a board move with no move in force. In all cases the history is unchanged.", "quantifier": "for all accepted root positions, all histories, all moves, all backends, both settings of overflow checks", "why_tests_cant": "tests do not look at a position after a panic; the claim is about every panic and every position", "anchors": ["src/position.rs:97-175 do_move", "src/position.rs:176-208 undo_move"]}
{"id": "C62", "title": "games from the initial position", "statement": "In every position of every game from Position::default(): the forty pieces of a set are on the board or in hand (the right number of each kind), each side has exactly one king, no file holds two pawns of a side, every piece on the board could still move on an empty board, the side that just moved is not in check, legal_moves() returns at most 593 moves, and Black is to move iff the number of moves in force is even, iff ply() is odd, iff key() is even.", "quantifier": "every game from the initial position, with any moves made and taken back, of any length", "why_tests_cant": "unbounded games; each invariant must survive every capture, promotion, drop and undo", "anchors": ["src/position.rs: Position::default, do_move, undo_move, key, ply", "src/movegen.rs: Position::legal_moves"]}
{"id": "C63", "title": "when the queries panic", "statement": "is_check_move(m) panics iff m is a board move whose origin is empty; in_check(), key() and keys() never panic.", "quantifier": "every position accepted by Position::new, legal or not, after every history of moves made and taken back, and every move as argument", "why_tests_cant": "the unwrap of the king position depends on the cached pins of a position with any number of kings", "anchors": ["src/position.rs: Position::is_check_move, in_check, key, keys"]}
{"id": "C64", "title": "legal_moves keeps the rules of movement in every position", "statement": "With any number of kings and any checks left unanswered, every move returned by legal_moves() obeys the rules of movement, promotion and dropping (own piece, free path, no own piece captured, no dead piece, no second pawn on a file, piece in hand), no move is returned twice, legal_moves() panics only if there are 594 pseudo-legal moves, and do_move of a returned move panics iff it captures a king, the hand already holds eighteen pieces of the captured kind, or the move counter is full. in_check() answers true only if a king of the side to move is attacked; after a check was ignored it may answer false although one is.", "quantifier": "every position accepted by Position::new without pawns on their last rank and without a home-rank pawn that shares its file, after every history of pseudo-legal moves made and taken back", "why_tests_cant": "the recorded checkers are stale or partial when a king was left in check or when there are several kings; no test of the repository builds such a position", "anchors": ["src/position.rs: Position::legal_moves, do_move, is_check_move, AttackInfo::calculate_checkers", "src/movegen.rs: generate_all, generate_evasions, generate_drop"]}
{"id": "C65", "title": "no legal move is missing, however the position arose", "statement": "If moves were made that ignore checks, legal_moves() still returns every legal move of the position on the board (when it returns at all); and if no king is attacked in that position it returns exactly the legal moves.", "quantifier": "every root with at most one king per side, no pawn on its last rank and no home-rank pawn that shares its file, whether or not a king is in check there; every history of pseudo-legal moves made and taken back", "why_tests_cant": "after an ignored check the recorded checkers are only some of the pieces giving check; tests play legal games only", "anchors": ["src/position.rs: Position::legal_moves, do_move", "src/movegen.rs: generate_all, generate_evasions, is_legal, is_pawn_drop_mate"]}
{"id": "C66", "title": "in_check reports the new checks, however the position arose", "statement": "What is_check_move(m) says of a pseudo-legal move is what in_check() answers once the move is made, with any number of kings. With at most one king per side it is true exactly if the move gives a new check: afterwards a piece other than a king attacks the opponent's king from a square from which it was not attacked before, and this is not just the moved piece stepping straight back from a king it already attacked.", "quantifier": "every root (second part: at most one king per side); every history of pseudo-legal moves made and taken back; every pseudo-legal move that do_move accepts", "why_tests_cant": "in a legal game no king is attacked before the opponent moves, so the difference between a check and a new check cannot show; a discovered or repeated check depends on caches that any earlier move may have spoilt", "anchors": ["src/position.rs: Position::is_check_move, do_move, in_check", "src/position.rs: AttackInfo::calculate_checkers, checkables, pinned"]}
{"id": "C67", "title": "What legal_moves lists after checks were ignored", "statement": "However checks were ignored before: (1) if in_check() answers false, legal_moves() lists, without repetition, the king's pseudo-legal moves to squares not attacked on the board as it stands (the king still shielding what is behind it), the other pseudo-legal board moves that open no new attack on the king, all pseudo-legal drops other than pawn drops, and the pawn drops that do not mate (a mating one only if the opponent's king is attacked already). (2) If in_check() answers true, the kings are apart, and the last move was not a drop that gives check together with other pieces, the list has only moves after which the king is safe, and all such moves except mating pawn drops. Both conditions in (2) are needed.", "quantifier": "every root with at most one king per side and no dead pawn or doubled home-rank pawn; every history of pseudo-legal moves made and taken back; every move; all four backends", "why_tests_cant": "legal games never reach these states, so no perft count exercises them; the answer depends on which part of the attack cache is stale, on any of infinitely many histories", "anchors": ["src/movegen.rs: Position::legal_moves, is_legal, generate_all, generate_evasions", "src/position.rs: Position::do_move, in_check"]}
{"id": "C68", "title": "The move buffer after ignored checks", "statement": "However checks were ignored before: if in_check() answers true, legal_moves() returns at most 280 moves whatever pieces and kings are on the board. With at most a standard set of pieces it returns at most 593 moves if the opponent's king is on the board and is either not attacked or not on the mover's last rank, or if the mover lacks some kind in hand. Otherwise up to 595 pseudo-legal moves exist with both kings on the board (599 without the opponent's king), so that legal_moves() panics: it does after one pseudo-legal king move from a legal position. legal_moves() panics only if in_check() answers false and 594 moves qualify.", "quantifier": "every root with at most one king per side (first part: any number) and no dead pawn or doubled home-rank pawn; every history of pseudo-legal moves made and taken back; all four backends", "why_tests_cant": "the capacity 593 was chosen from the best known position; random tests come nowhere near it, and the bound needs every arrangement of the pieces", "anchors": ["src/movegen.rs: legal_moves, MAX_LEGAL_MOVES, generate_evasions", "src/position.rs: do_move, in_check"]}
{"id": "C69", "title": "Whole games are symmetric", "statement": "Start from a position and from its 180-degree rotation with colours exchanged (or its left-right reflection) and play the same moves, each rotated (reflected). Then the boards, hands and side shown stay rotated (reflected); in_check agrees; is_check_move agrees on corresponding legal moves; legal_moves panics on both or neither and lists corresponding moves; and do_move panics on both or neither, so that the image of every playable game is playable.", "quantifier": "every root the rules allow, of any material; every sequence of legal moves and take-backs; every pair of bitboard backends and Zobrist tables; for do_move: every accepted root, every history and every move, legal or not, at equal ply and overflow setting", "why_tests_cant": "tests check Black and White positions separately; a sign error in one colour's tables or shifts shows only in positions that no test mirrors", "anchors": ["src/position.rs: do_move, is_check_move, in_check", "src/movegen.rs: legal_moves"]}
{"id": "C70", "title": "The bitboards and the array of squares describe the same board", "statement": "In every position reached by moves that change the square and drops on empty squares, legal or not, player_bitboard, piece_kind_bitboard, piece_bitboard and occupied_bitboard hold exactly the squares where piece_at shows such a piece, count() on them counts those squares, and king_position(c) is the first square with a king of c (None iff there is none). do_move keeps the two descriptions in agreement exactly when the move changes the square or drops on an empty square; a drop on a piece breaks it.", "quantifier": "every accepted position, every history of such moves and take-backs, every colour, kind, piece and square, every bitboard backend and Zobrist table; for the equivalence: every move for which do_move returns", "why_tests_cant": "the bitboards are updated by xor while the array is overwritten, so a missed toggle shows only at later moves on particular squares; tests compare boards through the array only", "anchors": ["src/position.rs: piece_at, do_move, king_position", "src/position.rs: xor_piece", "src/position.rs: occupied_bitboard"]}
{"id": "C71", "title": "attackers_to is exact", "statement": "attackers_to(c, to, occ) holds exactly the pieces of c that reach `to` when the squares of occ are taken as occupied; with the real occupancy these are the attackers of `to`; attackers_to_except_klp leaves out exactly kings, lances and pawns.", "quantifier": "every accepted position, every history of moves with a change of square or a drop on an empty square, legal or not; every colour, square and occupancy; every backend", "why_tests_cant": "it is used with the own and the opposite colour and with the reversed attack tables; tests see it only through move lists", "anchors": ["src/movegen.rs: attackers_to", "src/movegen.rs: attackers_to_except_klp"]}
{"id": "C72", "title": "Each piece generator emits exactly its moves", "statement": "generate_for_fu/ky/ke/gi/ka/hi/ki/ou/um/ry append, without repetition, exactly the moves by the rules of movement and promotion of the own pieces of their kinds to the target squares, and panic exactly if they do not fit into the 593 slots; generate_drop appends exactly the drops by the rules on the target squares except mating pawn drops.", "quantifier": "every accepted position and history of shape-respecting moves, every target set, every buffer content (for pawns: no pawn on its last rank; for drops: reached by legal play and targets empty)", "why_tests_cant": "a generator is correct only relative to every target that generate_all and generate_evasions may pass; tests see a few targets", "anchors": ["src/movegen.rs: generate_for_fu, generate_for_ky, generate_for_ki, generate_drop"]}
{"id": "C73", "title": "generate_all, generate_evasions and is_legal keep their contracts", "statement": "generate_all appends exactly the moves by the rules of movement without mating pawn drops; generate_evasions appends moves by the rules of movement that include every legal move, and moves of other pieces than the king exactly if they answer a single checker; on these moves is_legal tells exactly whether the own king is safe afterwards.", "quantifier": "every root the rules allow and every reached position, every move by the rules of movement, every buffer content", "why_tests_cant": "is_legal is wrong on general moves when in check; that it is only asked where it is right is an argument over all positions", "anchors": ["src/movegen.rs: generate_all, generate_evasions, is_legal"]}
{"id": "C74", "title": "is_pawn_drop_mate is exact", "statement": "For an empty square in front of the opponent's king, is_pawn_drop_mate answers whether a pawn of the side to move dropped there is mate, whether or not such a pawn is in hand or the side is in check itself.", "quantifier": "every root the rules allow and every reached position", "why_tests_cant": "the function looks only at attackers of the square, pins and king moves; that this is exactly mate involves x-ray attacks and pins over all placements", "anchors": ["src/movegen.rs: is_pawn_drop_mate"]}
{"id": "C75", "title": "Shifts and slides of sets of squares", "statement": "shl and shr move every square by one rank when no square leaves the board; sliding_positives and sliding_negatives keep of each mask the squares up to the first occupied one in ascending or descending order; the consecutive forms do so for one mask within a file.", "quantifier": "every set built with the bitboard operations, every occupancy, every backend", "why_tests_cant": "carries and borrows cross the 64-bit halves only for particular combinations of squares", "anchors": ["src/bitboard/core.rs: shl, sliding_positives", "src/bitboard/x86_64.rs: sliding_negatives"]}
{"id": "C76", "title": "Positions that look the same behave the same", "statement": "Two positions reached by legal play that show the same board, hands, side to move and ply, with roots of the same side to move, cannot be told apart by any program that calls the API adaptively and undoes only its own moves: it gets the same answers in the same order, or panics in both.", "quantifier": "every pair of legal games from rule-conforming roots, every adaptive client program, every backend, overflow checks on or off", "why_tests_cant": "the hidden state (bitboards, state stack, keys, cached checkers and pins) could differ in a way that shows only after a particular sequence of calls", "anchors": ["src/position.rs: do_move, undo_move", "src/position.rs: struct State, struct AttackInfo", "src/movegen.rs: legal_moves"]}
{"id": "C77", "title": "undo_move restores the position only for the last move", "statement": "After do_move(m), undo_move(x) restores the position exactly if x is m (the promotion flag of a board move is not read). With any other argument it panics or leaves a different position, which shows other pieces or hands; the only invisible damage comes from undoing a drop with the wrong colour, which shows the old board and hands but leaves wrong bitboards.", "quantifier": "every position, every pseudo-legal move for which do_move returns, every argument of undo_move, every backend", "why_tests_cant": "a wrong argument is usually caught by chance; that no combination of squares, captures and pieces cancels out needs all of them", "anchors": ["src/position.rs: undo_move", "src/position.rs: do_move"]}
{"id": "C78", "title": "No call outside a contract is made", "statement": "Position::new, is_check_move, do_move and legal_moves never call Square::from_u8_unchecked or Bitboard::from_u128_unchecked outside their contracts and never index a mask table out of bounds, also where the result would not matter. The one exception is legal_moves of the portable build when a pawn of the side to move on rank 9 shares its file; there such a call can happen (exactly when: C80).", "quantifier": "every build, every position that any sequence of calls can produce (with moves that make no sense and panics caught), every move, overflow checks on or off", "why_tests_cant": "a call outside a contract usually gives a plausible value and no failure, and which calls are made depends on the whole position", "anchors": ["src/bitboard/core.rs: vacant_files, MASKED_BBS", "src/bitboard/x86_64.rs: SquareIterator, sliding_negatives", "src/movegen.rs: generate_for_fu", "src/position.rs: king_position"]}
{"id": "C79", "title": "The square iterator, call by call", "statement": "In the SIMD builds call after call of SquareIterator::next gives the squares of the set in ascending order, each once, and then None for ever. A loop over any 128-bit word ends after at most 129 calls without overflow in u8, visits what the model takes it to visit, and a loop left early makes no call that the whole loop does not make.", "quantifier": "every bitboard of the API, every 128-bit word for the loop, every number of calls, overflow checks on or off", "why_tests_cant": "there are 2^81 sets and two lanes with different offsets; an error at the boundary or after the end shows only for particular sets and numbers of calls", "anchors": ["src/bitboard/x86_64.rs: SquareIterator, pop_lsb, next", "src/bitboard/aarch64.rs: SquareIterator", "src/bitboard/wasm32.rs: SquareIterator"]}
{"id": "C80", "title": "Exactly when the portable vacant_files goes wrong", "statement": "vacant_files of the portable build subtracts the set from a mask. It panics on overflow (overflow checks on) exactly when some file holds its rank-9 square and another one and every file above it up to file 9 holds exactly its rank-9 square. It hands from_u128_unchecked a word outside its contract exactly when the same holds up to file 7 (and it has not panicked), or up to file 9 with overflow checks off. When it returns, the result is right exactly if no rank-9 square of the set shares its file; every file where it does is taken for vacant. So legal_moves of the portable build stays within the contracts unless the pawns of the side to move form such a chain.", "quantifier": "every bitboard of the API, overflow checks on or off; for legal_moves every position that any sequence of calls can produce", "why_tests_cant": "the borrow runs through nine fields with a gap after the seventh; which of the 2^81 sets overflow, leave the contract or are silently wrong is not visible from any one of them", "anchors": ["src/bitboard/core.rs: vacant_files, VACANT_MASK", "src/movegen.rs: generate_drop"]}
{"id": "C81", "title": "Exactly which pawn drops are left out", "statement": "Call a pawn drop unanswered if the pawn attacks the opponent's king, every square the king can then go to is attacked (with the king still on its square), and every capture of the pawn by another piece opens a new attack on that king. An unanswered drop is mate; if the opponent's king was not attacked before, unanswered and mating drops are the same. However checks were ignored before: if in_check() answers false, legal_moves() lists exactly the pseudo-legal pawn drops that are not unanswered; if it answers true (under the conditions of C67), exactly the safe ones that are not unanswered; right after construction the list is exactly the safe moves without the unanswered pawn drops. legal_moves() panics exactly when in_check() answers false and 594 pseudo-legal moves exist, not counting unanswered pawn drops.", "quantifier": "every root with at most one king per side and no dead pawn or doubled home-rank pawn; every history of pseudo-legal moves made and taken back; every pawn drop; all four backends", "why_tests_cant": "when the opponent's king is attacked already, some mating pawn drops are listed and some are not; no legal game reaches such a state, and the rule that separates them is not visible from examples", "anchors": ["src/movegen.rs: is_pawn_drop_mate, generate_drop, legal_moves", "src/position.rs: in_check"]}
{"id": "C82", "title": "Exactly what legal_moves lists when a check is recorded", "statement": "Whatever checks were ignored before, let in_check() answer true. Call recorded the piece just dropped, if the last move in force is a drop, and otherwise the enemy pieces other than a king that attack the king of the side to move. That king exists, something is recorded, and every recorded piece attacks it. legal_moves() lists, without repetition, exactly: the king's pseudo-legal moves to squares not attacked on the board as it is and not attacked by a recorded piece once the king has left its square; if exactly one piece is recorded, the pseudo-legal moves of other pieces that take it or step between it and the king and open no new attack on the king; and the pseudo-legal drops between it and the king, pawn drops only if they are not unanswered (C81). Other attackers of the king are not looked at.", "quantifier": "every root with at most one king per side and no dead pawn or doubled home-rank pawn; every history of pseudo-legal moves made and taken back after which in_check() is true; every move; all four backends", "why_tests_cant": "states in which a drop joins older attackers, or the kings touch, are not reached in legal games; in them the list contains moves that leave the king attacked, and only a complete rule says which", "anchors": ["src/movegen.rs: generate_evasions, generate_drop, legal_moves", "src/position.rs: do_move, is_legal, in_check"]}
{"id": "C83", "title": "Under pseudo-legal play the API is still an explicit machine", "statement": "Let all moves made be pseudo-legal, with checks ignored and kings left attacked as one likes. Then every answer is a function of the root and the moves in force: the board, hands and side are the root with these moves applied; in_check() says whether the last move gave a new check (at the root: whether a piece other than a king attacks the king); is_check_move(m) says whether m gives a new check; legal_moves() lists, without repetition, exactly the moves described by C67, C81 and C82 put together, and panics exactly if no check is reported and there are 594 pseudo-legal moves that are not unanswered pawn drops. Two positions with the same root and the same moves in force answer alike, whatever was made and taken back, on whatever build and with whatever hash table.", "quantifier": "every root with at most one king per side and no dead pawn or doubled home-rank pawn; every history of pseudo-legal moves made and taken back; all four backends, every Zobrist table", "why_tests_cant": "C39 describes legal play; engines that search pseudo-legal moves leave it, and there the caches are no function of the board alone", "anchors": ["src/position.rs: do_move, undo_move, in_check, is_check_move", "src/movegen.rs: legal_moves, generate_all, generate_evasions, is_legal, is_pawn_drop_mate"]}
{"id": "C84", "title": "Exactly what each build does with pawns on their last rank", "statement": "A pawn of the side to move may stand on its last rank. The portable build gives it no move: its pawn generator appends exactly the pawn moves by the rules, whatever the pawns. The SIMD builds move it round the edge of the board, unpromoted, to the first rank of the neighbouring file (Black from file f to file f-1, White from f to f+1), except from the last file and across the two 64-bit halves of the register (Black on 8a, White on 7i). So if in_check() is false, legal_moves() of a SIMD build lists what the portable build lists and exactly these moves in addition, namely to squares without a piece of the mover and where no line to the mover's king is opened; if a check is recorded, only those that take the only recorded piece or come between it and the king. No such move is possible by the rules.", "quantifier": "every accepted root, dead pawns included; every history of moves that change the square or drop onto an empty one, legal or not; for legal_moves at most one king of the side to move and no pawn of it on rank 9 sharing its file; every target set built with the bitboard operations; every move; each SIMD backend against the portable one", "why_tests_cant": "positions with dead pawns are never tested, and each platform's tests run one backend only; the wrap-around depends on the file", "anchors": ["src/movegen.rs: generate_for_fu, generate_all, generate_evasions", "src/bitboard/core.rs: shl, shr", "src/bitboard/x86_64.rs: shl, shr", "src/bitboard/aarch64.rs: shl, shr", "src/bitboard/wasm32.rs: shl, shr", "src/position.rs: is_legal"]}
{"id": "C85", "title": "How often two keys collide", "statement": "Take two positions, each reached by any moves of the shape do_move is meant for from any root that Position::new accepts, that differ on the board or in a hand. Then there is one entry of the Zobrist table such that, however all other entries are drawn, and for every 64-bit d whose lowest bit tells whether the numbers of moves in force have different parities, key() of the two positions differs (by exclusive or) by exactly d for exactly one value of the upper 63 bits drawn for that entry; for a d with the other lowest bit it never does. In particular, over a uniformly drawn table, two such positions have the same key with probability exactly 2^-63 when the numbers of moves in force have the same parity and never otherwise. Positions with the same board and hands have the same key for every table when the parities agree, and for none otherwise. Which moves can be made does not depend on the table.", "quantifier": "every pair of roots and histories (with take-backs), every build, every table, every value of the entry and every difference d", "why_tests_cant": "The claim is about all 2^64 values of an entry, all values of the some 2,500 others and all pairs of positions; a test sees one table and a few positions.", "anchors": ["src/zobrist.rs:50-86", "src/position.rs:13-70", "src/position.rs:95-165"]}
{"id": "C86", "title": "Exactly what each build does with doubled pawns", "statement": "vacant_files subtracts the pawns from a mask, so a file that holds its rank-9 square and another one borrows from the next file, and a file that holds exactly its rank-9 square passes a borrow on. In every build the result is exact file by file: a file with pawns is taken for vacant exactly if it borrows, a vacant file is taken for occupied exactly if the file before it borrows, and nothing else is wrong. The SIMD builds do this in each 64-bit half (files 1-7 and 8-9) separately and always return; the portable build does it over the whole word unless the borrow leaves file 7 or file 9, when it panics or breaks a contract (C80). So outside that case the four builds agree on vacant_files, and on legal_moves when no pawn is dead, also for doubled pawns, where C51 and C84 said nothing. When no check is recorded the drops listed by each build are exactly those of pieces in hand onto empty squares where they can move, for pawns onto files so taken for vacant and not answered.", "quantifier": "every bitboard of the API, overflow checks on or off, each build; for legal_moves every accepted root, doubled and dead pawns included, every history of moves that change the square or drop onto an empty one; at most one king of the opponent; for the portable build no borrow out of file 7 or file 9", "why_tests_cant": "positions with doubled pawns are never tested; which files come out wrong depends on the whole chain of files below and, in the SIMD builds, on the gap between the 64-bit lanes", "anchors": ["src/bitboard/core.rs: vacant_files", "src/bitboard/x86_64.rs: vacant_files", "src/bitboard/aarch64.rs: vacant_files", "src/bitboard/wasm32.rs: vacant_files", "src/movegen.rs: generate_drop"]}
{"id": "C87", "title": "Exactly what legal_moves lists, with no condition on kings and pawns", "statement": "Position::new accepts any number of kings and pawns anywhere, and none of the earlier exact descriptions of legal_moves covers all of this. Of several kings of one side, the one on the first square (file by file, rank by rank) counts. in_check of a new position is true exactly if a piece other than a king attacks the first king of the side to move. When no check is recorded, legal_moves lists without repetition exactly: the board moves possible by the rules (in the SIMD builds also dead pawns going round the edge, C84) that, if a king moves, go to a square not attacked on the board as it is, and that open no new attack on the first king unless it moves itself; and the drops of pieces in hand onto empty squares where they can move, for pawns onto files taken for vacant (C86) and where the first king of the opponent could be helped: it has a free square, or a piece other than a king takes the pawn without opening a line on it. When a check is recorded, exactly: the first king's moves to squares not attacked, nor attacked by a recorded piece through the king; no moves of other kings; and, if one piece only is recorded, the other board moves that take it or step between it and the first king without opening a new attack on the first king, and the drops in between.", "quantifier": "every accepted root, any number of kings (none included) and any pawns; each build; every history of moves that change the square or drop onto an empty one when no check is recorded, every history of unhindered moves (own pieces to squares without an own piece, over no piece; drops of own pieces onto empty squares) when one is; legal_moves returning; for the portable build, if the call asks for vacant files (a pawn in the mover's hand and, with a check recorded, a single recorded piece with a square between it and the first king), no borrow out of file 7 or file 9 (C80)", "why_tests_cant": "no test has more than one king of a side; which king is seen, and that checks and pins to the others are ignored, shows on no tested position", "anchors": ["src/movegen.rs: legal_moves", "src/movegen.rs: generate_all", "src/movegen.rs: generate_evasions", "src/movegen.rs: is_legal", "src/movegen.rs: is_pawn_drop_mate", "src/position.rs: king_position", "src/position.rs: in_check"]}
{"id": "C88", "title": "The API as a machine, from every accepted position", "statement": "Take any position that Position::new accepts, with any number of kings and any pawns, and make and take back any unhindered moves: own pieces go to squares without an own piece and over no piece, own pieces are dropped onto empty squares; everything that legal_moves lists is of this kind, so play with listed moves stays in this class. Then every answer is determined by the root and the moves in force, by an explicit rule. The board, hands and side shown are the root with the moves applied. in_check answers, at the root, whether a piece other than a king attacks the first king of the side to move, and after a move, whether that move newly attacks the first king of the side to move; is_check_move says the same beforehand. legal_moves lists without repetition exactly the moves of the C87 rule. It panics exactly if no check is reported and there are at least 594 moves to collect; with a check reported it always returns, and lists at most 288 moves. Consequently two positions with the same root and moves in force answer alike whatever the hash table, and whatever the build as long as both are SIMD builds or the mover has no pawn on the last rank.", "quantifier": "every accepted root; each build; every history of unhindered moves and takebacks; every environment; for the portable build, if the call asks for vacant files (a pawn in the mover's hand and, with a check recorded, a single recorded piece with a square between it and the first king), no borrow out of file 7 or file 9 (C80)", "why_tests_cant": "unbounded histories from positions that the rules of the game exclude; several kings, dead pawns and moves against the rules do not occur in any test", "anchors": ["src/position.rs: Position::new", "src/position.rs: do_move", "src/position.rs: undo_move", "src/position.rs: is_check_move", "src/position.rs: in_check", "src/movegen.rs: legal_moves", "src/movegen.rs: generate_all", "src/movegen.rs: generate_evasions"]}
{"id": "C89", "title": "How legal_moves ends: returning, panicking or leaving a contract", "statement": "Take any position that Position::new accepts, with any number of kings and any pawns, after any unhindered moves and takebacks. A call of legal_moves overruns if the build is the portable one, the call asks for vacant files (a pawn in the mover's hand and, with a check reported, a single recorded piece with a square between it and the first king), and the mover's pawns make the borrow run out of file 7 or file 9. Then exactly one of three things happens, decided by the root, the moves in force, the build and whether overflow checks are on. The call leaves a contract of an unchecked function (from_u128_unchecked) exactly if it overruns and nothing made it panic before. It panics exactly if it overruns out of file 9 with overflow checks on, or if no check is reported and more than 593 moves are collected (only board moves counted if it overruns). Otherwise it returns exactly the moves of the C87 rule, without repetition. In particular the SIMD builds never leave a contract, and the portable build never does without a pawn in the mover's hand.", "quantifier": "every accepted root; each build; every history of unhindered moves and takebacks; every environment, overflow checks on or off; no condition on pawns or kings", "why_tests_cant": "whether a call is undefined behaviour cannot be seen from its result; the positions concerned have doubled pawns, and the class of all of them is not enumerable", "anchors": ["src/movegen.rs: legal_moves", "src/movegen.rs: generate_all", "src/movegen.rs: generate_evasions", "src/movegen.rs: generate_drop", "src/bitboard/core.rs: vacant_files"]}
{"id": "C90", "title": "perft from every accepted position", "statement": "Take any position that Position::new accepts, with any number of kings and any pawns, after any unhindered moves and takebacks, and any depth d, such that no call of legal_moves in the tree overruns (C89; always so on the SIMD builds, and on every build if there are no pawns). A line is a sequence of moves each of which the rule of C88 lists when its turn comes. If perft (examples, benches) returns, it returns the number of lines of length max(d,1) and the position exactly as it was; if the counter of the unit test (src/position.rs) returns, the number of lines of length d. The printed root variant gives one entry for each listed move in the order of the list, with the number of lines of length max(d,1)-1 after it, and their sum. A call panics exactly if somewhere in the tree of lines it visits legal_moves panics (no check reported and more than 593 moves collected), or a move it makes captures a king, or a nineteenth piece of one kind into a hand, or meets a full move counter with overflow checks on. The counter of the unit test also makes the last moves, so it can panic where perft returns.", "quantifier": "every accepted root; each build; every history of unhindered moves and takebacks; every depth; every environment; the portable build where no visited call overruns", "why_tests_cant": "the tree grows exponentially with the depth and roots outside the rules of shogi are not tried by any test; an equality between the two counters holds on sane roots only", "anchors": ["examples/perft.rs: perft", "benches/bench_perft.rs: perft", "src/position.rs: tests::perft", "src/movegen.rs: legal_moves", "src/position.rs: do_move", "src/position.rs: undo_move"]}
{"id": "C91", "title": "Sane pawns are enough for the builds to agree, whatever the kings", "statement": "Take any position whose pawns are sane: no pawn stands on its last rank, and no pawn on its first rank has another pawn of its side on the file. Kings are not restricted. Then every build collects exactly the moves possible by the rules, except the pawn drops on the first enemy king to which the generator finds no answer; pawns stay sane along every sequence of listed moves; no call of legal_moves in the whole tree leaves a contract of an unchecked function; the sequences of listed moves are the same on every build; and perft, the counter of the unit test and the printed root variant give on any two builds the same numbers (the same entries, up to order) or panic on both, even with different hash tables. With a pawn on the last rank this fails: a concrete root counts 3 on the portable build and 4 on a SIMD build at depth 1.", "quantifier": "every accepted root with sane pawns at the position in question, any kings; any two of the four builds; every depth; every environment", "why_tests_cant": "a difference between builds shows only when the same position is run on different targets; the tests run on one", "anchors": ["src/movegen.rs: legal_moves", "src/bitboard/core.rs: vacant_files", "src/bitboard/x86_64.rs: vacant_files", "examples/perft.rs: perft", "src/position.rs: tests::perft"]}
{"id": "C92", "title": "The symmetries of the board under pseudo-legal play", "statement": "Take a root with at most one king on a side, no pawn on its last rank and no second pawn on the file of a pawn on its first rank, and its image under the rotation by 180 degrees with colours exchanged (or under the reflection left to right). Make the same pseudo-legal moves on both, each mapped, with takebacks on the way, on the same or different builds; checks may be ignored. Then the positions shown are images of each other, in_check answers alike (even where it overlooks a check), legal_moves panics on both or on neither and otherwise lists the mapped moves (even where it lists moves that are not legal), and is_check_move agrees on corresponding pseudo-legal moves that can be made. With two kings on a side this is false: of two concrete reflected positions one reports a check and the other does not, on every build.", "quantifier": "all such roots; all histories of pseudo-legal moves and takebacks; both symmetries; any two builds and environments", "why_tests_cant": "tests use fixed positions and legal moves; a dependence on square order or on a direction table shows only in pairs of positions", "anchors": ["src/position.rs: do_move", "src/position.rs: in_check", "src/position.rs: is_check_move", "src/movegen.rs: legal_moves", "src/bitboard.rs: Bitboard"]}
{"id": "C93", "title": "perft is symmetric also where the rules are not kept", "statement": "Take two histories that correspond move by move under the rotation by 180 degrees with colours exchanged (or under the reflection left to right), each on any build, from roots with the same move counter; the moves made may be any that go over no piece and onto no piece of their own side, and may leave kings in check. If the position where perft is called has at most one king on a side, no pawn on its last rank and no second pawn on the file of a pawn on its first rank, then the perft of the example, the bench and the unit test give the same count on both or panic on both, at every depth; the per-move lines printed by the example are the mapped moves with the same counts, and the totals agree. With two kings on a side the counts of two concrete reflected positions differ.", "quantifier": "all such roots and histories; all depths; both symmetries; any two builds, hash tables and equal overflow-check modes", "why_tests_cant": "the repository compares perft numbers of two positions with constants; no pair of mirrored positions is compared, and none with a king left in check", "anchors": ["examples/perft.rs: perft", "benches/bench_perft.rs: perft", "src/position.rs: tests::perft", "src/movegen.rs: legal_moves", "src/position.rs: do_move", "src/position.rs: undo_move"]}
{"id": "C94", "title": "the perft counters in machine integers, from every position", "statement": "Whatever the position, reachable or not, and whatever the build: a list returned by legal_moves has at most 593 moves; perft with its counts in a w-bit usize gives the exact count where that fits, and otherwise panics with overflow checks and gives the count modulo 2^w without; it panics wherever the exact counter panics; the same holds of the u64 counter of the unit test. From every root the library accepts, perft in w bits panics if legal_moves or do_move panics somewhere in the tree it walks, and otherwise its outcome is that of the number of lines, with the position as before. The overflow is real: from two bare kings on their home squares the exact count exceeds 64 bits at depth 41, and with overflow checks the 64-bit counter panics there.", "quantifier": "all position values, reached or not; all depths; all w of at least 10 bits (any w of at least 1 for the unit test); both overflow-check modes; all builds; for the count of lines: all roots and all histories of unhindered moves with tidy pawns", "why_tests_cant": "an overflow needs more than 2^64 leaves, which no test can reach, and positions that break the rules are in no test", "anchors": ["examples/perft.rs: perft", "benches/bench_perft.rs: perft", "src/position.rs: tests::perft", "src/movegen.rs: legal_moves"]}
{"id": "C95", "title": "who gives check after a legal move", "statement": "After any legal play with at least one move in force, every square of checkers() either is the square where the last move ended, or carries a lance, bishop, rook, promoted bishop or promoted rook whose line to the king leads over the square the last move left; no king is among the checkers; at most one checker stands elsewhere than where the last move ended. So checkers() has at most two squares, and at most one after a drop. A valid root, with no move made, may have three.", "quantifier": "all valid roots, all histories of legal do_move calls and undo_move calls with a move in force, all backends", "why_tests_cant": "the tests look at single positions; that no sequence of moves gives a triple check is a fact about all positions", "anchors": ["src/position.rs: AttackInfo::calculate_checkers", "src/position.rs: do_move", "src/position.rs: checkers", "src/movegen.rs: generate_evasions"]}
{"id": "C96", "title": "Positions that look the same behave the same, where the rules are not kept", "statement": "The conclusion of C76 after any do_move calls with sensible arguments, legal or not, from any accepted position: two positions that show the same board, hands, side to move and ply, with roots of the same side to move, that answer in_check the same and, if the answer is yes, came either both by a drop on the same square or neither by a drop, cannot be told apart by any program that calls the API adaptively and undoes only its own moves. Neither of the last two conditions can be left out.", "quantifier": "every pair of accepted roots, every pair of histories of do_move (from one square to another, or a drop on an empty square) and undo_move, every adaptive client program, every backend, overflow checks on or off", "why_tests_cant": "the cached checkers are part of the hidden state; which of the past survives in them shows only in play that ignores a check", "anchors": ["src/position.rs: do_move, undo_move", "src/position.rs: struct State, struct AttackInfo", "src/position.rs: AttackInfo::new", "src/movegen.rs: legal_moves"]}
{"id": "C97", "title": "No program can tell the builds apart", "statement": "Take any program over the public calls of Position that chooses each call by the answers so far. (1) The x86_64, aarch64 and wasm32 builds give it the same final result and leave the same position, whatever the root and the arguments, also if it catches panics and goes on with what they left. (2) If it never calls legal_moves, the same holds for any two of the four builds. (3) If it starts from a valid position, plays only legal moves (it may learn them from legal_moves) and takes back only the last move, the same holds for any two of the four builds, with legal_moves and its order included. With a pawn on its last rank a program that counts the listed moves does tell the portable build from the others.", "quantifier": "every program of any length, every accepted root (valid in (3)), all pairs of builds, all behaviours outside the contracts of unsafe functions, overflow checks on or off", "why_tests_cant": "a test compares single calls; a program can combine any number of them and depends on every bit of hidden state", "anchors": ["src/bitboard/core.rs", "src/bitboard/x86_64.rs", "src/bitboard/aarch64.rs", "src/bitboard/wasm32.rs", "src/position.rs: do_move, undo_move", "src/movegen.rs: legal_moves"]}
{"id": "C98", "title": "When a position comes back", "statement": "Make and take back moves in any order, each move following the rules of movement (leaving the king in check allowed). If board, hands and side to move are at some time the same as at the start and moves are in force, then (1) their number is even and at least four; (2) as many of them are drops as are captures; (3) if none of them is a capture, every one of them moves a silver, gold, bishop, rook, king or promoted piece without promoting it. (4) Whether or not a position comes back: along any moves without a capture, at most ten for each piece on the board are not of the kind of (3). So a search for repetitions may skip the last three positions and stop at the last move that is not of that kind, as long as no capture lies in between.", "quantifier": "every position, every session of do_move and undo_move of any length with pseudo-legal moves, all four builds, all behaviours outside the contracts of unsafe functions, overflow checks on or off", "why_tests_cant": "repetitions have no bounded length; (2) and (3) rest on quantities that every move keeps or raises, which no sample of games shows", "anchors": ["src/position.rs: do_move, undo_move", "src/position.rs: PartialPosition::hand_of_a_player_mut, piece_at_mut"]}
{"id": "C99", "title": "What the perft example prints", "statement": "The program examples/perft.rs, started with any depth d (at most 65534 if overflow checks are compiled in), passes its assertion, does not panic while counting, and prints thirty different lines: for each legal first move of a game exactly one line, the USI text of the move, a colon, a space and in decimal the number of games of length max(d,1) that begin with it; the total is the number of all games of that length. Move and number can be read back from a line: two different pairs never give the same line, up to the colour of a dropped piece, which USI does not write. In general, in every position reached by unhindered moves from any accepted root, where legal_moves returns within its contracts, no two listed moves have the same text.", "quantifier": "every depth; all four builds; every hash table, overflow checks on or off; for the texts, every accepted root and every history of unhindered moves and takebacks", "why_tests_cant": "a run prints one depth; that texts never coincide is a statement about all pairs of moves in all positions", "anchors": ["examples/perft.rs: main, perft", "src/position.rs: Position::default"]}
{"id": "C100", "title": "Hands matter only through the kinds the side to move holds", "statement": "(1) In any position whatever, reachable or not: all that legal_moves looks at is the board, its bitboards, the side to move, which kinds the side to move holds, and the attack information recorded last. If these are the same, the list is the same, in the same order, or both calls panic, whatever the numbers in hand, the opponent's hand, the move counter, the keys, the history and the hash tables; in_check and is_check_move look at no hand at all. (2) Two positions reached by legal play from any two valid roots, on any two builds, that show the same board and side: in_check and is_check_move agree, the lists of legal_moves have the same board moves and the same drops of each kind held in both or in neither, and if the same kinds are held the lists are equal, in the same order. (3) The same holds of the rules: in particular whether a dropped pawn mates does not depend on what the mated side could drop.", "quantifier": "every position; (2) every pair of valid roots and legal histories with takebacks, any two builds and environments; (3) every valid position", "why_tests_cant": "hands have unboundedly many combinations with boards; a test fixes both", "anchors": ["src/movegen.rs: legal_moves, generate_drop, is_pawn_drop_mate", "src/position.rs: in_check, is_check_move"]}
{"id": "C101", "title": "Tree searches built on the API compute what the rules say", "statement": "Take any search of fixed depth written like the perft of the repository: for each move of legal_moves it calls do_move, searches one move less deep, calls undo_move, and joins the results with any function; leaves are valued by any function of the position that answers rightly. From every position reached in play from a root with both kings and the material of a set it never panics (as long as the move counter has room), leaves the position exactly as it was, and returns the value defined on the rules alone; if the order of the results does not matter, this value is unique, so builds, hash tables and histories do not matter. In particular a mate solver built this way answers won exactly if the side to move has a forced win within d moves by the rules of shogi, and lost exactly if the opponent has.", "quantifier": "every type of values, every joining function, every leaf function that is right; every depth; every such root and history of legal moves and takebacks; all four builds", "why_tests_cant": "a test runs one search on one position; wrong values may need one rare line deep in the tree", "anchors": ["src/movegen.rs: legal_moves", "src/position.rs: do_move, undo_move", "examples/perft.rs: perft"]}
{"id": "C102", "title": "The lazy tables are right, made once and free of deadlock under any number of threads", "statement": "The six static tables are made on first access, and the initialiser of PROMOTABLE accesses RELATIVE_RANKS. Let any number of threads run any programs that access the tables, each access possibly depending on what was read before, scheduled in any way. Then every table that is ready holds what the rules say (attacks, squares between, ranks, promotion zone, files, the drawn Zobrist numbers); no initialiser panics; none is started twice; a thread that has finished has computed what it computes if all tables are there from the beginning; when no thread can go on, all have finished; and every execution ends, after at most one step for each access of the programs and 174 for the initialisers.", "quantifier": "every number of threads, every program of each, every interleaving of their steps of any length; all four builds and every drawing of the Zobrist numbers", "why_tests_cant": "an interleaving in which one thread waits inside one initialiser for another thread's initialiser occurs only in the first moments of a process, and a test sees one schedule", "anchors": ["src/tables.rs: ATTACK_TABLE, BETWEEN_TABLE, RELATIVE_RANKS, PROMOTABLE, FILES", "src/zobrist.rs: ZOBRIST_TABLE"]}
{"id": "C103", "title": "Hash tables keyed by key() do not change what a search returns, short of clashes", "statement": "Take a search as in C101 that first looks up the pair of key() and depth in a hash table and stores its result there afterwards; the table may replace or forget entries by any rule. Started with an empty table in any position reached in play from a root with both kings and the material of a set, it never panics (as long as the move counter has room), leaves the position exactly as it was, and returns a value that the rules give, as long as no two different positions (board, hands, side to move) within its reach have the same key; if the order of results does not matter, this is the value returned without a table. Equal positions are found again: within a game they have equal keys whatever the moves that led there. Without the condition on keys it is false.", "quantifier": "every rule of replacement, every type of values, joining function and right leaf function; every depth; every such root and history of legal moves and takebacks; all four builds and every drawing of the numbers", "why_tests_cant": "a test runs one search with one table; a wrong entry shows only when a second line of moves meets it", "anchors": ["src/position.rs: key, do_move, undo_move", "src/movegen.rs: legal_moves", "src/zobrist.rs: ZOBRIST_TABLE"]}
{"id": "C104", "title": "Alpha-beta searches that stop early return what they promise and restore the position", "statement": "Take an alpha-beta search of fixed depth written with legal_moves, do_move and undo_move, which leaves its loop as soon as the best value reaches beta. From any position reached in play from a root with both kings and the material of a set, and with any window alpha < beta, it never panics (as long as the move counter has room), leaves the position exactly as it was, and its result r stands to the value v by the rules as alpha-beta promises: r inside the window is v, r at or below alpha is an upper bound of v, r at or above beta is a lower bound. When v is inside the window it returns the same as the search that looks at every move.", "quantifier": "every depth, window, value of a lost position and right leaf function; every such root and history of legal moves and takebacks; all four builds and every drawing of the numbers", "why_tests_cant": "a test runs one tree with one window; a move list with a move missing, or a position not restored after a cutoff, shows only in some trees", "anchors": ["src/position.rs: do_move, undo_move", "src/movegen.rs: legal_moves"]}

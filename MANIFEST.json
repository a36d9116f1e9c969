{"claims": [
  {"property": "C01", "status": "proved", "theorems": ["Yasai.Props.C01_undo_inverts_do"], "note": "whole Position value; drops must go to an empty square"},
  {"property": "C02", "status": "proved", "theorems": ["Yasai.Props.C02_unwind_restores"], "note": ""},
  {"property": "C03", "status": "proved", "theorems": ["Yasai.Props.C03_do_move_is_rules", "Yasai.Props.C03_board_move", "Yasai.Props.C03_drop"], "note": "do_move equals the rule-book effect for every move that returns; spelled out square by square and hand by hand for legal moves"},
  {"property": "C04", "status": "proved", "theorems": ["Yasai.Props.C04_move_conserves", "Yasai.Props.C04_session_conserves"], "note": "every kind, every history of legal moves and undos"},
  {"property": "C05", "status": "proved", "theorems": ["Yasai.Props.C05_legal_moves_sound"], "note": "legal_moves returning at all (no capacity panic) is C22"},
  {"property": "C06", "status": "proved", "theorems": ["Yasai.Props.C06_legal_moves_complete"], "note": "legal_moves returning at all (no capacity panic) is C22"},
  {"property": "C07", "status": "proved", "theorems": ["Yasai.Props.C07_legal_moves_nodup"], "note": ""},
  {"property": "C08", "status": "proved", "theorems": ["Yasai.Props.C08_in_check_exact"], "note": "For every position reached from a valid root (missing kings allowed) by legal do_move and undo_move calls of any number, on all four backends; InCheck is the rule-level definition of Spec/Rules.lean."},
  {"property": "C09", "status": "proved", "theorems": ["Yasai.Props.C09_is_check_move_exact"], "note": "For every reached position and every legal move; both the rule-level meaning and the in_check() reported after do_move."},
  {"property": "C10", "status": "proved", "theorems": ["Yasai.Props.C10_king_safe", "Yasai.Props.C10_listed_session"], "note": ""},
  {"property": "C11", "status": "proved", "theorems": ["Yasai.Props.C11_mate_iff"], "note": ""},
  {"property": "C12", "status": "proved", "theorems": ["Yasai.Props.C12_two_pawns", "Yasai.Props.C12_never_doubled"], "note": "exact characterisation of the listed pawn drops. C12_never_doubled: no game from a position without doubled pawns ever doubles pawns."},
  {"property": "C13", "status": "proved", "theorems": ["Yasai.Props.C13_dead_piece_move", "Yasai.Props.C13_dead_piece_drop", "Yasai.Props.C12_two_pawns", "Yasai.Props.C13_never_dead", "Yasai.Props.C13_dead_means_stuck"], "note": "pawn drops are in C12_two_pawns. C13_never_dead: no game ever produces a piece without moves. C13_dead_means_stuck: the table of dead squares in the specification is exactly the squares from which the piece reaches nothing."},
  {"property": "C14", "status": "proved", "theorems": ["Yasai.Props.C14_promotion"], "note": ""},
  {"property": "C15", "status": "proved", "theorems": ["Yasai.Props.C15_pawn_drop_mate"], "note": ""},
  {"property": "C16", "status": "proved", "theorems": ["Yasai.Props.C16_history_independent", "Yasai.Props.C16_two_histories"], "note": "Equality of all answers with Position::new on the same board, hands and side (any ply, any key tables), after every history of legal do_move and undo_move from a valid root."},
  {"property": "C17", "status": "proved", "theorems": ["Yasai.Props.C17_incremental_hash"], "note": "arbitrary Zobrist tables; sessions with do_move and undo_move"},
  {"property": "C18", "status": "proved", "theorems": ["Yasai.Props.C18_transpositions"], "note": "arbitrary pairs of sessions from roots with the same side to move"},
  {"property": "C19", "status": "partial", "theorems": ["Yasai.Props.C19_is_false", "Yasai.Props.C19_exact_partial", "Yasai.Props.C19_fix_suffices", "Yasai.Props.C19_new_ignores_side", "Yasai.Props.C19_odd_history_differs", "Yasai.Props.C19_key_encodes_side_partial"], "note": "The full claim is false of the code (Position::new never mixes in the colour key); the negation is proved with a witness. C19_exact_partial is the complete description: with equal boards and hands the keys are equal iff the sides to move are related as those of the two roots. C19_fix_suffices: with the missing step added to Position::new the full claim holds."},
  {"property": "C20", "status": "proved", "theorems": ["Yasai.Props.C20_key_parity"], "note": ""},
  {"property": "C21", "status": "proved", "theorems": ["Yasai.Props.C21_no_panic", "Yasai.Props.C21_one_call", "Yasai.Props.C21_calls_return"], "note": "Any finite list of calls (moves chosen by index among the listed ones) runs to its end; the ply bound is needed only when the build has overflow checks."},
  {"property": "C22", "status": "proved", "theorems": ["Yasai.Props.C22_capacity", "Yasai.Props.C22_attained", "Yasai.Props.C22_legal_moves_total"], "note": "The model's push fails on the 594th move, so returning means that no more than 593 were pushed; attained on the position of the repository's own test."},
  {"property": "C23", "status": "partial", "theorems": ["Yasai.Props.C23_false", "Yasai.Props.C23_no_opponent_king_partial", "Yasai.Props.C23_599_would_do"], "note": "False of the code: C23_false gives a position (the 593-move position without White's king) with 599 pseudo-legal moves on which legal_moves() panics. Proved: it returns whenever one of the seven kinds is not in hand; 599 slots would be enough in every case."},
  {"property": "C24", "status": "proved", "theorems": ["Yasai.Props.C24_backends_agree", "Yasai.Props.C24_needs_valid"], "note": "The four backends give literally equal positions, equal histories, and equal results (panics included) of every call, in particular the same order of legal_moves; perft too. The SIMD intrinsics are modelled, see DESIGN.md. C24_needs_valid: on a position with a pawn on its last rank (accepted by Position::new) the x86_64 and the portable build differ."},
  {"property": "C25", "status": "proved", "theorems": ["Yasai.Props.C25_sliding_attacks", "Yasai.Props.C25_attack_table"], "note": ""},
  {"property": "C26", "status": "proved", "theorems": ["Yasai.Props.C26_vacant_files", "Yasai.Props.C26_condition_needed"], "note": ""},
  {"property": "C27", "status": "proved", "theorems": ["Yasai.Props.C27_set_semantics"], "note": ""},
  {"property": "C28", "status": "proved", "theorems": ["Yasai.Props.C28_attack_reversal"], "note": ""},
  {"property": "C29", "status": "proved", "theorems": ["Yasai.Props.C29_between", "Yasai.Props.C29_unaligned"], "note": ""},
  {"property": "C30", "status": "proved", "theorems": ["Yasai.Props.C30_filter_loop"], "note": ""},
  {"property": "C31", "status": "proved", "theorems": ["Yasai.Props.C31_perft", "Yasai.Props.C31_perft_test", "Yasai.Props.C31_variants_agree", "Yasai.Props.C31_perft_total", "Yasai.Props.C31_perft_test_total"], "note": "for calls that return; that they return is C21. The _total theorems add that perft returns on games from a standard root."},
  {"property": "C32", "status": "proved", "theorems": ["Yasai.Props.C32_colour_symmetry"], "note": ""},
  {"property": "C33", "status": "proved", "theorems": ["Yasai.Props.C33_mirror_symmetry"], "note": ""},
  {"property": "C34", "status": "proved", "theorems": ["Yasai.Props.C34_ply"], "note": ""},
  {"property": "C35", "status": "proved", "theorems": ["Yasai.Props.C35_new_panics_iff", "Yasai.Props.C35_new_reproduces"], "note": ""},
  {"property": "C36", "status": "proved", "theorems": ["Yasai.Props.C36_evasions"], "note": ""},
  {"property": "C37", "status": "proved", "theorems": ["Yasai.Props.C37_no_king_capture", "Yasai.Props.C37_kings_stay"], "note": ""},
  {"property": "C38", "status": "proved", "theorems": ["Yasai.Props.C38_caches_exact"], "note": "pinned(c) is specified by removing the piece, not by the betweenness used in the code"},
  {"property": "C39", "status": "proved", "theorems": ["Yasai.Props.C39_api_refines_rules"], "note": "the abstract machine knows only the root and the list of moves in force"},
  {"property": "C40", "status": "proved", "theorems": ["Yasai.Props.C40_panics_iff", "Yasai.Props.C40_in_check_returns"], "note": "Exact condition for the panic, for every valid root and no bound on material; in check never a panic and at most 280 moves."},
  {"property": "C41", "status": "proved", "theorems": ["Yasai.Props.C41_no_undefined_behaviour", "Yasai.Props.C41_unsound_on_doubled_pawns"], "note": "What happens outside the contracts is left open in the model (Junk); results in sessions from valid positions do not depend on it. C41_unsound_on_doubled_pawns: an accepted but illegal position on which the portable build breaks the contract of from_u128_unchecked. Aliasing (MaybeUninit::as_ptr in Bitboard::values) is not modelled; see finding 9 in DESIGN.md."},
  {"property": "C42", "status": "proved", "theorems": ["Yasai.Props.C42_operations_in_contract"], "note": "Operation by operation, on all bitboards built with the API."},
  {"property": "C43", "status": "proved", "theorems": ["Yasai.Props.C43_default", "Yasai.Props.C43_default_session"], "note": "The session part is C39 at the initial position. The 30 moves are computed once for the portable build with one table and carried to every build and table by C16/C24."},
  {"property": "C44", "status": "proved", "theorems": ["Yasai.Props.C44_last_move"], "note": "Holds for every root accepted by Position::new."},
  {"property": "C45", "status": "proved", "theorems": ["Yasai.Props.C45_eq_is_set_equality"], "note": "Bitboards built by the operations within the conditions of C27."},
  {"property": "C46", "status": "proved", "theorems": ["Yasai.Props.C46_perft_divide"], "note": "Counts are natural numbers here; C47 treats usize. The printed text itself (USI notation) is shogi_core's and not modelled."},
  {"property": "C47", "status": "proved", "theorems": ["Yasai.Props.C47_perft_usize", "Yasai.Props.C47_fits"], "note": "The loop of the example with its += in w-bit arithmetic."},
  {"property": "C48", "status": "proved", "theorems": ["Yasai.Props.C48_perft_symmetry"], "note": "From equivariance of the rules and C31."},
  {"property": "C49", "status": "proved", "theorems": ["Yasai.Props.C49_history_length"], "note": "Over every root that Position::new accepts."},
  {"property": "C50", "status": "proved", "theorems": ["Yasai.Props.C50_pseudo_attack", "Yasai.Props.C50_files", "Yasai.Props.C50_ranks"], "note": "RELATIVE_RANKS and PROMOTABLE do not depend on the backend."},
  {"property": "C51", "status": "proved", "theorems": ["Yasai.Props.C51_builds_agree", "Yasai.Props.C51_simd_agree", "Yasai.Props.C51_portable_in_contract"], "note": "No validity hypothesis: any position accepted by Position::new, after any moves that change the square or drop on an empty one; do_move agrees for every argument. legal_moves of the three SIMD builds agree unconditionally; agreement with the portable build needs two conditions on pawns, and C24_needs_valid and C41_unsound_on_doubled_pawns show that they are needed."},
  {"property": "C52", "status": "proved", "theorems": ["Yasai.Props.C52_do_move_panics_iff"], "note": "Any move on any visited position, legal or not; the reasons are stated on the public accessors (piece_at, hand, ply)."},
  {"property": "C53", "status": "proved", "theorems": ["Yasai.Props.C53_undo_move_panics_iff", "Yasai.Props.C53_underflow"], "note": "Any move, not only the last one; C53_underflow is the position left by undoing a drop at the root."},
  {"property": "C54", "status": "proved", "theorems": ["Yasai.Props.C54_is_check_move_pseudo"], "note": "Generalises C09 from legal to pseudo-legal moves; the king stepping next to the enemy king is the one case the function does not count, shown by an example."},
  {"property": "C55", "status": "proved", "theorems": ["Yasai.Props.C55_loose", "Yasai.Props.C55_king_capture", "Yasai.Props.C55_in_check_no_panic", "Yasai.Props.C55_exception", "Yasai.Props.C55_only_fresh"], "note": "Drops the hypothesis of C05-C08 that the opponent is not in check, for fresh positions. C55_exception shows the exception occurs; C55_only_fresh shows why histories are excluded."},
  {"property": "C56", "status": "proved", "theorems": ["Yasai.Props.C56_entries_are_draws", "Yasai.Props.C56_each_draw_once", "Yasai.Props.C56_std_entries_distinct"], "note": "The first two hold for every generator. The third is about the numbers of StdRng with seed 2022, computed in the kernel from the model of rand in Model/Rng.lean."},
  {"property": "C57", "status": "proved", "theorems": ["Yasai.Props.C57_key_separates", "Yasai.Props.C57_keys_separate"], "note": "By computation all differences of two entries of one place are distinct (35281 values); the theorem reduces the positions to them."},
  {"property": "C58", "status": "proved", "theorems": ["Yasai.Props.C58_siblings_differ", "Yasai.Props.C58_legal_moves_keys"], "note": "The changes of the board key by the moves of one side form 220218 values that are checked to be different in the kernel; the second theorem is the case of legal_moves()."},
  {"property": "C59", "status": "proved", "theorems": ["Yasai.Props.C59_attack_table", "Yasai.Props.C59_between_table", "Yasai.Props.C59_rank_tables", "Yasai.Props.C59_file_table", "Yasai.Props.C59_bitboard_constants", "Yasai.Props.C59_refines"], "note": "The initialising loops are modelled as array updates; no panic, every entry as the rules say, and equal to the functions through which the rest of the model reads the tables. The 16 literal MASKED_VALUES of x86_64 are part of the backend model (C25, C51)."},
  {"property": "C60", "status": "proved", "theorems": ["Yasai.Props.C60_any_calls", "Yasai.Props.C60_simd_legal_moves", "Yasai.Props.C60_portable_legal_moves"], "note": "No hypothesis on the calls: any root, any argument to do_move and undo_move, and continuing after a caught panic (Model/Unwind.lean writes the two functions statement by statement and keeps what a panic leaves; C61_statements ties it to the other model). C60_portable_legal_moves needs the condition on doubled pawns; C41_unsound_on_doubled_pawns shows that it is needed. Aliasing (MaybeUninit::as_ptr in Bitboard::values) is not modelled; see finding 9 in DESIGN.md."},
  {"property": "C61", "status": "proved", "theorems": ["Yasai.Props.C61_statements", "Yasai.Props.C61_board_move", "Yasai.Props.C61_drop", "Yasai.Props.C61_undo"], "note": "On every accepted position and after every history of shape-correct moves. C61_statements: the statement-by-statement form used here ends normally, with the same position, exactly when the other model of do_move and undo_move does not panic."},
  {"property": "C62", "status": "proved", "theorems": ["Yasai.Props.C62_games"], "note": "The example in Props/Games is a game with an exchange of bishops and a drop."},
  {"property": "C63", "status": "proved", "theorems": ["Yasai.Props.C63_queries"], "note": ""},
  {"property": "C64", "status": "proved", "theorems": ["Yasai.Props.C64_rules_of_movement", "Yasai.Props.C64_reported_checks_exist", "Yasai.Props.C64_unanswered_check_forgotten"], "note": "Roamed is the set of histories of pseudo-legal moves. The example is a root with three black kings, one of them left in check: legal_moves lists its capture and do_move panics. C64_reported_checks_exist needs no hypothesis about pawns; C64_unanswered_check_forgotten shows that its converse needs legal moves (C08)."},
  {"property": "C65", "status": "proved", "theorems": ["Yasai.Props.C65_no_legal_move_missing", "Yasai.Props.C65_exact_when_no_king_is_attacked"], "note": "Histories of pseudo-legal moves (Roamed); recorded checkers may be incomplete."},
  {"property": "C66", "status": "proved", "theorems": ["Yasai.Props.C66_in_check_is_is_check_move", "Yasai.Props.C66_in_check_reports_new_checks", "Yasai.Props.C66_attacking_reports"], "note": "Exact meaning of in_check after any pseudo-legal move. C66_attacking_reports shows five moves on a position where the king is already attacked: three reported, two not."},
  {"property": "C67", "status": "proved", "theorems": ["Yasai.Props.C67_no_check_recorded", "Yasai.Props.C67_check_recorded", "Yasai.Props.C67_shielded", "Yasai.Props.C67_conditions_needed"], "note": "Complete description of the list when no check is recorded; the list is right when a check is recorded, under two conditions shown necessary by C67_conditions_needed. C67_shielded: concrete list after an ignored check. The exact rule for pawn drops is C81, the exact list without the two conditions is C82."},
  {"property": "C68", "status": "proved", "theorems": ["Yasai.Props.C68_recorded_check_returns", "Yasai.Props.C68_returns", "Yasai.Props.C68_595_would_do", "Yasai.Props.C68_panics_iff", "Yasai.Props.C68_panics_with_both_kings", "Yasai.Props.C68_595_attained"], "note": "Bound by counting per square and per kind, now also when the opponent's king can be captured; the witness of the panic is reached by one pseudo-legal move from a legal position."},
  {"property": "C69", "status": "proved", "theorems": ["Yasai.Props.C69_rotated_game", "Yasai.Props.C69_reflected_game", "Yasai.Props.C69_rotated_game_playable", "Yasai.Props.C69_reflected_game_playable", "Yasai.Props.C69_do_move_rotated", "Yasai.Props.C69_do_move_reflected"], "note": "by induction over the game; C32, C33 and C48 cover single positions and perft"},
  {"property": "C70", "status": "proved", "theorems": ["Yasai.Props.C70_bitboards_mirror_board", "Yasai.Props.C70_kept_iff", "Yasai.Props.C70_drop_on_piece"], "note": "Visited: any root accepted by Position::new, any history of shape-respecting moves and take-backs, legal or not. C70_kept_iff is an equivalence over all moves that do_move accepts."},
  {"property": "C71", "status": "proved", "theorems": ["Yasai.Props.C71_attackers"], "note": "Visited: illegal moves included"},
  {"property": "C72", "status": "proved", "theorems": ["Yasai.Props.C72_piece_generators", "Yasai.Props.C72_pawn_generator", "Yasai.Props.C72_drop_generator"], "note": "C24_needs_valid shows why pawns on the last rank are excluded for generate_for_fu"},
  {"property": "C73", "status": "proved", "theorems": ["Yasai.Props.C73_generate_all", "Yasai.Props.C73_generate_evasions"], "note": ""},
  {"property": "C74", "status": "proved", "theorems": ["Yasai.Props.C74_pawn_drop_mate"], "note": ""},
  {"property": "C75", "status": "proved", "theorems": ["Yasai.Props.C75_shifts_and_slides"], "note": "precondition of shl/shr as in the operation's use; sets without it are the SIMD wrap finding of DESIGN.md"},
  {"property": "C76", "status": "proved", "theorems": ["Yasai.Props.C76_indistinguishable"], "note": "Client is a free program over the API calls of C66; illegal moves by the client are included. Undoing below the given position is excluded: it would reveal the history."},
  {"property": "C77", "status": "proved", "theorems": ["Yasai.Props.C77_undo_argument", "Yasai.Props.C77_own_capture"], "note": "For moves that capture an own piece (not pseudo-legal) another argument can restore the position as well, so the hypothesis is needed (second theorem)."},
  {"property": "C78", "status": "proved", "theorems": ["Yasai.Props.C78_contracts", "Yasai.Props.C78_constants", "Yasai.Props.C78_checked_run", "Yasai.Props.C78_all_watched", "Yasai.Props.C78_any_calls", "Yasai.Props.C78_simd_legal_moves", "Yasai.Props.C78_portable_legal_moves", "Yasai.Props.C78_legal_play", "Yasai.Props.C78_broken_on_doubled_pawns"], "note": "a second transcription (Model/Checked.lean) in which a call outside a contract ends the run; C78_checked_run says that it is the model otherwise, C78_all_watched that no result of an unchecked call enters it; the last theorem shows that the exception is real"},
  {"property": "C79", "status": "proved", "theorems": ["Yasai.Props.C79_next", "Yasai.Props.C79_whole_loop", "Yasai.Props.C79_early_exit"], "note": "the iterator as a state machine (Model/Iter.lean), with u8 arithmetic and the contract of from_u8_unchecked; C79_whole_loop and C79_early_exit tie it to the lists of the model"},
  {"property": "C80", "status": "proved", "theorems": ["Yasai.Props.C80_exactly_when", "Yasai.Props.C80_result", "Yasai.Props.C80_legal_moves"], "note": "equivalences with a condition on the set of squares (RunsOut); sharpens C26, C41 and C78, whose condition (no rank-9 square shares its file) is only sufficient for staying in contract"},
  {"property": "C81", "status": "proved", "theorems": ["Yasai.Props.C81_unanswered", "Yasai.Props.C81_pawn_drops", "Yasai.Props.C81_check_recorded", "Yasai.Props.C81_fresh", "Yasai.Props.C81_panics_iff", "Yasai.Props.C81_example"], "note": "turns the one-sided pawn-drop clauses of C55, C67 and C68 into equivalences. C81_example: one mating drop that is listed and one that is not, both onto a king already attacked."},
  {"property": "C82", "status": "proved", "theorems": ["Yasai.Props.C82_check_recorded", "Yasai.Props.C82_example"], "note": "together with C67 (no check recorded) and C81 (pawn drops) this is a complete description of the list of legal_moves after any history of pseudo-legal moves; C67's two conditions are gone. C82_example: a drop joins an older attacker, which is then overlooked."},
  {"property": "C83", "status": "proved", "theorems": ["Yasai.Props.C83_machine", "Yasai.Props.C83_same_answers", "Yasai.Props.C83_example"], "note": "collects C66, C67, C81 and C82 into one description (ListedBy) of which all answers are consequences. C83_example: a state in which the machine differs from the rule book."},
  {"property": "C84", "status": "proved", "theorems": ["Yasai.Props.C84_portable_generator", "Yasai.Props.C84_simd_generator", "Yasai.Props.C84_legal_moves", "Yasai.Props.C84_check_recorded", "Yasai.Props.C84_example"], "note": "both generators for all pawns, and the exact difference of the two lists of moves, with and without a recorded check"},
  {"property": "C85", "status": "proved", "theorems": ["Yasai.Props.C85_key_difference", "Yasai.Props.C85_collisions", "Yasai.Props.C85_alike", "Yasai.Props.C85_any_table", "Yasai.Props.C85_example"], "note": "Uniformity is stated by counting values of one entry with all others fixed; that the numbers of StdRng are random is not claimed. C57 gives, for the table of the code itself, separation of positions that differ at one or two places."},
  {"property": "C86", "status": "proved", "theorems": ["Yasai.Props.C86_vacant_files", "Yasai.Props.C86_files", "Yasai.Props.C86_builds_agree", "Yasai.Props.C86_wraps", "Yasai.Props.C86_drops", "Yasai.Props.C86_example"], "note": "C86_vacant_files: each build, file by file, in terms of RunsOut (C80). C86_files: which files are taken wrongly. C86_builds_agree and C86_wraps: C51 and C84 with their condition on doubled pawns replaced by the exact one. C86_drops: the drops listed when no check is recorded. C86_example: concrete positions on all builds."},
  {"property": "C87", "status": "proved", "theorems": ["Yasai.Props.C87_in_check", "Yasai.Props.C87_no_check", "Yasai.Props.C87_check", "Yasai.Props.C87_example"], "note": "C87_in_check: new positions. C87_no_check, C87_check: exact contents and no repetition, no hypothesis on the board except the exact C80 condition for the portable build when vacant files are asked for. FirstKing, RecordedFirst, NoAnswer, DropListed are the specification. C87_example: two kings, on all builds; the example below it gives the hypotheses."},
  {"property": "C88", "status": "proved", "theorems": ["Yasai.Props.C88_checks", "Yasai.Props.C88_machine", "Yasai.Props.C88_listed_play", "Yasai.Props.C88_same_answers", "Yasai.Props.C88_example"], "note": "C88_machine: board, in_check, contents, panics and length of legal_moves in terms of the root and the moves in force, with no hypothesis on the board except the exact C80 condition for the portable build when vacant files are asked for. C88_checks: is_check_move and in_check after the move. C88_listed_play: listed moves are unhindered. NewCheckFirst, ReportedFirst, AsksVacant, Collected, KeptSafe, AnswersFirst, ListedFirst are the specification. C88_example: a dead pawn goes round the edge and checks the first of two kings; the example below it gives the hypotheses on all builds."},
  {"property": "C89", "status": "proved", "theorems": ["Yasai.Props.C89_ends", "Yasai.Props.C89_example"], "note": "C89_ends: the three outcomes of the watched model (Model/Checked.lean) with no hypothesis beyond the history. Overruns, TooMany, AsksVacant, ListedFirst, Collected, ReportedFirst, RunsOut are the specification. C89_example: each outcome on concrete roots, with and without a pawn in hand, in check from near, from far and from two pieces; the example below it applies the theorem. No root with more than 593 board moves is exhibited; the theorem covers it should there be one."},
  {"property": "C90", "status": "proved", "theorems": ["Yasai.Props.C90_perft", "Yasai.Props.C90_perft_test", "Yasai.Props.C90_divide", "Yasai.Props.C90_tidy_simd", "Yasai.Props.C90_tidy_pawnless", "Yasai.Props.C90_example"], "note": "Line, LineCount, MoveStops, Full, Trouble and Tidy are the specification, over the rule of C88 (ListedFirst, Collected, ReportedFirst, TooMany) and the plain position (current). C91_tidy gives the hypothesis for sane pawns. Counts are natural numbers (C47 treats the width). C90_example: a gold against two kings without a king of its own; out of reach both counters give 20 at depth 2, on the next square perft returns 3 at depth 1 while the counter of the tests panics; the example below it applies the theorems."},
  {"property": "C91", "status": "proved", "theorems": ["Yasai.Props.C91_collected", "Yasai.Props.C91_line", "Yasai.Props.C91_tidy", "Yasai.Props.C91_in_contract", "Yasai.Props.C91_lines_builds", "Yasai.Props.C91_perft_builds", "Yasai.Props.C91_example"], "note": "PawnsOk (Spec/Rules.lean) is the condition on pawns; ListedFirst, Line, LineCount as in C88 and C90. C91_example: 58 at depth 1 with two white kings, and the two different numbers with a pawn on the last rank. The example below it carries the number from one build to all."},
  {"property": "C92", "status": "proved", "theorems": ["Yasai.Props.C92_rotated", "Yasai.Props.C92_reflected", "Yasai.Props.C92_example", "Yasai.Props.C92_two_kings"], "note": "Rotated, Reflected, RotatedMove, ReflectedMove are the specification of C32 and C33; Tame is the condition on kings and pawns. C92_example: the half-seen check of C82 and its reflection meet the hypotheses. C92_two_kings: the condition on kings is needed."},
  {"property": "C93", "status": "proved", "theorems": ["Yasai.Props.C93_rotated", "Yasai.Props.C93_reflected", "Yasai.Props.C93_example", "Yasai.Props.C93_two_kings"], "note": "Rotated, Reflected, RotatedMove, ReflectedMove, MoveByMove are the specification of C32, C33 and C69. The counts and panics are those of C90; C93 shows that the lines of C90 correspond. C93_example: a root with both kings attacked, which C48 excludes, meets the hypotheses. C93_two_kings: the condition on kings is needed."},
  {"property": "C94", "status": "proved", "theorems": ["Yasai.Props.C94_list_fits", "Yasai.Props.C94_usize", "Yasai.Props.C94_test", "Yasai.Props.C94_lines", "Yasai.Props.C94_overflow"], "note": "C94_usize and C94_test have no hypothesis on the position: the counters in machine integers refine the counters in natural numbers, by a simulation of the loops. C94_lines joins C94_usize with C90. C94_overflow is a concrete root with more than 2^64 games of length 41, counted by a family of 3^41 games; it does not run the counter."},
  {"property": "C95", "status": "proved", "theorems": ["Yasai.Props.C95_checkers", "Yasai.Props.C95_example"], "note": "The specification is landing (the destination), Between and a list of five kinds. generate_evasions relies on a single checker when it takes checkers().next(). C95_example: a legal move with two checkers, and a valid root with three, on all builds."},
  {"property": "C96", "status": "proved", "theorems": ["Yasai.Props.C96_indistinguishable", "Yasai.Props.C96_example", "Yasai.Props.C96_in_check_needed", "Yasai.Props.C96_drop_needed"], "note": "Same clients as C76. The two *_needed theorems give concrete pairs of positions that look the same and list different moves: a check left standing that is no longer recorded, and a dropped gold recorded without the rook that attacks as well."},
  {"property": "C97", "status": "proved", "theorems": ["Yasai.Props.C97_simd", "Yasai.Props.C97_no_lists", "Yasai.Props.C97_rules", "Yasai.Props.C97_example", "Yasai.Props.C97_portable_differs"], "note": "Caller: programs that go on after caught panics. Client.Keeps: programs that keep the rules. C97_example: a program that breaks every rule, its result carried from one SIMD build to the other two; the example at the end of the file carries the result of a rule-keeping program from the portable build to all."},
  {"property": "C98", "status": "proved", "theorems": ["Yasai.Props.C98_recurrence", "Yasai.Props.C98_reversible", "Yasai.Props.C98_progress", "Yasai.Props.C98_example"], "note": "Invariants of lines of moves: pieces on the board change by drops minus captures; the advance of pawns, lances and knights plus promotions never falls without a capture. C98_example: the bound of four is met from the initial position, and a position with two captures and two drops comes back; the example below it is a line with a move that is not reversible."},
  {"property": "C99", "status": "proved", "theorems": ["Yasai.Props.C99_usi", "Yasai.Props.C99_texts_differ", "Yasai.Props.C99_lines_differ", "Yasai.Props.C99_listed_texts", "Yasai.Props.C99_example_program", "Yasai.Props.C99_example"], "note": "Model/Text.lean: ToUsi of shogi_core (its documented behaviour), the printed lines and main without the lines about time. Counts are natural numbers (C47 treats the width). C99_example: texts of the three kinds of moves, a printed line, and two drops that only the side to move tells apart. The notation is specified separately (Spec/Usi.lean); C99_usi: the text of a move is the one USI text that stands for it."},
  {"property": "C100", "status": "proved", "theorems": ["Yasai.Props.C100_any", "Yasai.Props.C100_rules", "Yasai.Props.C100_play", "Yasai.Props.C100_example"], "note": "C100_any is the footprint of the three queries in the model of the code, C100_rules is about the rules (Legal, with all replies of the opponent), C100_play about both. C100_example: a position in which a dropped pawn mates, with different hands; the lists are equal, and with a lance in hand more they are not."},
  {"property": "C101", "status": "proved", "theorems": ["Yasai.Props.C101_search", "Yasai.Props.Value.unique", "Yasai.Props.C101_solver", "Yasai.Props.C101_example"], "note": "search is a client program, not code of the repository (the perft functions are C31, C46). Value, Wins and Loses are the specification, over Legal and apply. C101_example: the solver finds a mate in one, and the theorem turns this into a fact about the rules."},
  {"property": "C102", "status": "proved", "theorems": ["Yasai.Props.C102_results", "Yasai.Props.C102_no_deadlock", "Yasai.Props.C102_terminates", "Yasai.Props.C102_example"], "note": "once_cell::sync::Lazy is modelled from its documentation: the first access runs the initialiser, others wait (a thread that runs it too), a panic poisons. Right is stated over the rules; eval is the sequential reading. Steps are whole accesses: the memory ordering inside once_cell is trusted. C102_example: two threads, one waiting inside a nested initialiser."},
  {"property": "C103", "status": "proved", "theorems": ["Yasai.Props.C103_hash_search", "Yasai.Props.C103_same_as_plain", "Yasai.Props.C103_found_again", "Yasai.Props.C103_example", "Yasai.Props.C103_clash_needed"], "note": "hashSearch is a client program, not code of the repository. NoClash speaks of the positions within the depth of the search only, so it can hold (C103_example: a root and numbers for which it does). C103_clash_needed: with numbers all zero the solver misses a mate in one."},
  {"property": "C104", "status": "proved", "theorems": ["Yasai.Props.C104_alpha_beta", "Yasai.Props.C104_same_as_full", "Yasai.Props.C104_example"], "note": "alphaBeta is a client program, not code of the repository. Value is the specification of C101, by the rules; Tells says what the result promises. C104_example: a mate in one, with a window below and one above the value."}
]}

{
 "claims": [
  {
   "property": "C01",
   "status": "proved",
   "theorems": [
    "Knfmt.Io.filewrite_atomic",
    "Knfmt.Io.filewrite_frame",
    "Knfmt.Io.filewrite_temporary",
    "Knfmt.Io.filewrite_symlink"
   ],
   "note": ""
  },
  {
   "property": "C02",
   "status": "proved",
   "theorems": [
    "Knfmt.Io.filewrite_error_iff",
    "Knfmt.Io.filewrite_failed",
    "Knfmt.Io.filewrite_failed_path"
   ],
   "note": "the temporary file is removed unless unlink itself fails"
  },
  {
   "property": "C03",
   "status": "proved",
   "theorems": [
    "Knfmt.Io.filewrite_unchanged",
    "Knfmt.Io.filewrite_changed",
    "Knfmt.Io.alone_unchanged",
    "Knfmt.Io.alone_diff"
   ],
   "note": ""
  },
  {
   "property": "C04",
   "status": "proved",
   "theorems": [
    "Knfmt.Io.fileprint_prefix",
    "Knfmt.Io.filewrite_prefix",
    "Knfmt.Io.filewrite_terminates",
    "Knfmt.Io.filewrite_zero_writes",
    "Knfmt.Buffer.read_fd_spec"
   ],
   "note": ""
  },
  {
   "property": "C05",
   "status": "proved",
   "theorems": [
    "Knfmt.Io.fileLoop_oneByOne",
    "Knfmt.Io.main_exit_status",
    "Knfmt.Io.alone_status"
   ],
   "note": ""
  },
  {
   "property": "C06",
   "status": "proved",
   "theorems": [
    "Knfmt.Io.alone_mode",
    "Knfmt.Io.alone_rejected",
    "Knfmt.Io.main_usage"
   ],
   "note": ""
  },
  {
   "property": "C07",
   "status": "partial",
   "theorems": [
    "Knfmt.Io.filewrite_attr",
    "Knfmt.Io.filewrite_attr_exact_partial",
    "Knfmt.Io.filewrite_setid_lost"
   ],
   "note": "set-id bits may be lost because fchmod precedes fchown; negation proved"
  },
  {
   "property": "C08",
   "status": "partial",
   "theorems": [
    "Knfmt.Diff.diff_parse_selection_partial",
    "Knfmt.Diff.diff_parse_rejects",
    "Knfmt.Diff.diff_parse_no_newline_marker"
   ],
   "note": "The full statement is false of the code: diff_parse_no_newline_marker shows that a no-newline marker in front of an added line makes that line unselected. Proved for all other well formed diffs."
  },
  {
   "property": "C09",
   "status": "proved",
   "theorems": [
    "Knfmt.Diff.get_chunk_spec"
   ],
   "note": ""
  },
  {
   "property": "C10",
   "status": "proved",
   "theorems": [
    "Knfmt.Lexer.line_table_complete",
    "Knfmt.Lexer.get_lines_exact",
    "Knfmt.Lexer.get_lines_undefined"
   ],
   "note": "Line numbers start at one and the first line asked for is not after the last; get_lines_undefined shows that zero reads out of bounds."
  },
  {
   "property": "C11",
   "status": "proved",
   "theorems": [
    "Knfmt.Lexer.reader_is_cursor",
    "Knfmt.Lexer.unget_restores"
   ],
   "note": ""
  },
  {
   "property": "C12",
   "status": "partial",
   "theorems": [
    "Knfmt.Lexer.tokenize_lossless_partial",
    "Knfmt.Lexer.tokenize_nonblank_partial",
    "Knfmt.Lexer.joined_comments_lose_text",
    "Knfmt.Lexer.joined_comments_lose_line_feed",
    "Knfmt.Lexer.one_eof_token",
    "Knfmt.Lexer.eof_token_has_text"
   ],
   "note": "False in general: token_prolong uses the length of the trimmed second comment, so that two comments on one line may lose the end of the second one (joined_comments_lose_text). The partial theorems assume that no comments are joined wrongly."
  },
  {
   "property": "C13",
   "status": "proved",
   "theorems": [
    "Knfmt.Lexer.operators_longest_match"
   ],
   "note": "The exception for a period that starts a number is part of the statement."
  },
  {
   "property": "C14",
   "status": "proved",
   "theorems": [
    "Knfmt.Stream.look_ahead_unobservable",
    "Knfmt.Stream.peeks_unobservable"
   ],
   "note": "Programs may choose what to do next by the tokens delivered; the messages of lexer_error are counted, not their text."
  },
  {
   "property": "C15",
   "status": "proved",
   "theorems": [
    "Knfmt.Stream.pair_matching",
    "Knfmt.Stream.pair_consumed",
    "Knfmt.Stream.view_exists",
    "Knfmt.Stream.view_unique"
   ],
   "note": ""
  },
  {
   "property": "C16",
   "status": "partial",
   "theorems": [
    "Knfmt.Stream.remove_keeps",
    "Knfmt.Stream.remove_in_order_partial",
    "Knfmt.Stream.remove_reorders",
    "Knfmt.Stream.remove_first_reorders",
    "Knfmt.Stream.remove_position",
    "Knfmt.Stream.insert_keeps",
    "Knfmt.Stream.copy_keeps",
    "Knfmt.Stream.moveAfter_keeps",
    "Knfmt.Stream.moveBefore_keeps",
    "Knfmt.Stream.swap_stops_early",
    "Knfmt.Stream.copy_fresh",
    "Knfmt.Stream.is_first_iff"
   ],
   "note": "Nothing is lost; the order of comments changes if the removed token has comments on both sides, or is the first and has a comment after it. Negations proved."
  },
  {
   "property": "C17",
   "status": "proved",
   "theorems": [
    "Knfmt.Lexer.token_position"
   ],
   "note": ""
  },
  {
   "property": "C18",
   "status": "partial",
   "theorems": [
    "Knfmt.Expr.yield_sublist",
    "Knfmt.Expr.yield_partial",
    "Knfmt.Expr.yield_tidy_partial",
    "Knfmt.Expr.parse_total",
    "Knfmt.Expr.yield_fails_colon",
    "Knfmt.Expr.yield_fails_recover"
   ],
   "note": "For every list of tokens and every behaviour of the callbacks: the parser ends, and the tree's tokens are, in order, among those consumed (yield_sublist). They are exactly those consumed if no callback swallows a token while failing and an operand follows every colon (yield_partial; yield_tidy_partial for the callbacks of parser-expr.c). The two conditions are needed: yield_fails_colon, yield_fails_recover."
  },
  {
   "property": "C19",
   "status": "partial",
   "theorems": [
    "Knfmt.Expr.parse_yield_partial",
    "Knfmt.Expr.gram_unambiguous",
    "Knfmt.Expr.star_inc_fails",
    "Knfmt.Expr.cast_field_fails",
    "Knfmt.Expr.sizeof_field_fails",
    "Knfmt.Expr.plus_strings_fails"
   ],
   "note": "The tree of every expression of the C grammar is given back if it is Simple. Four kinds of trees are not given back, each with a theorem: *p++, (int)a.b, sizeof(a)->b, x + \"a\" \"b\"."
  },
  {
   "property": "C20",
   "status": "proved",
   "theorems": [
    "Knfmt.Doc.doc_exec_renders",
    "Knfmt.Doc.doc_exec_text",
    "Knfmt.Doc.doc_exec_leaves",
    "Knfmt.Doc.doc_exec_text_uniform"
   ],
   "note": "For every document, without a diff; doc_exec_renders: the texts are printed byte for byte with only white space around them. The hypothesis that the printer does not fail holds of all documents whose choices have the same number of candidates (doc_exec_ok), as those knfmt builds have."
  },
  {
   "property": "C21",
   "status": "proved",
   "theorems": [
    "Knfmt.Doc.doc_exec_no_trailing"
   ],
   "note": "Without a diff."
  },
  {
   "property": "C22",
   "status": "partial",
   "theorems": [
    "Knfmt.Doc.doc_exec_lines_partial",
    "Knfmt.Doc.doc_exec_lines_block_partial",
    "Knfmt.Doc.doc_exec_lines_space"
   ],
   "note": "False in general: a space written between line breaks resets the count (doc_exec_lines_space). Proved for documents in which line breaks do not follow spaces, with one more line break allowed after verbatim text; muted parts are left out."
  },
  {
   "property": "C23",
   "status": "partial",
   "theorems": [
    "Knfmt.Doc.fits_iff",
    "Knfmt.Doc.group_flat",
    "Knfmt.Doc.group_broken",
    "Knfmt.Doc.doc_width_flat",
    "Knfmt.Doc.fits_ignores_rest",
    "Knfmt.Doc.fits_ignores_width"
   ],
   "note": "Without a diff, for documents without forced or optional breaks, verbatim text, muted parts, noindent or forced indentation, and with no new line pending. What follows a group is not considered (fits_ignores_rest) and with a new line pending the width is not either (fits_ignores_width): both findings proved."
  },
  {
   "property": "C24",
   "status": "proved",
   "theorems": [
    "Knfmt.Doc.minimize_chooses",
    "Knfmt.Doc.doc_exec_ok",
    "Knfmt.Doc.doc_exec_out_of_bounds"
   ],
   "note": "Without a diff. The penalties are exact instead of floating point. doc_exec_out_of_bounds is the finding that nested choices with fewer candidates are read out of bounds; knfmt builds none."
  },
  {
   "property": "C25",
   "status": "proved",
   "theorems": [
    "Knfmt.Util.strindent_bytes",
    "Knfmt.Util.strindent_position",
    "Knfmt.Util.strindent_width",
    "Knfmt.Util.strindent_width_unaligned"
   ],
   "note": "width claim holds when starting on a tab stop or without tabs; strindent_width_unaligned shows the side condition is needed"
  },
  {
   "property": "C26",
   "status": "proved",
   "theorems": [
    "Knfmt.Util.strwidth_spec",
    "Knfmt.Util.colwidth_spec",
    "Knfmt.Util.strwidth_append",
    "Knfmt.Util.strwidth_plain"
   ],
   "note": ""
  },
  {
   "property": "C27",
   "status": "proved",
   "theorems": [
    "Knfmt.Comment.comment_trim_defined",
    "Knfmt.Comment.comment_trim_nonblank",
    "Knfmt.Comment.comment_trim_lines",
    "Knfmt.Comment.comment_trim_no_trailing",
    "Knfmt.Comment.comment_trim_idempotent"
   ],
   "note": ""
  },
  {
   "property": "C28",
   "status": "partial",
   "theorems": [
    "Knfmt.Include.sort_includes_partial",
    "Knfmt.Include.sort_includes_disabled",
    "Knfmt.Include.cmp_trans",
    "Knfmt.Include.cmp_swap",
    "Knfmt.Include.isSort_qsort",
    "Knfmt.Include.sort_includes_fails"
   ],
   "note": "For every list of prefixes of a token, every configuration and every sorting function that permutes and orders: the output is the one described by Spec.Output (blocks, which of them are sorted, groups in ascending order, order within a group, blank lines) and no null pointer is used. The comparison is a total preorder as qsort(3) requires. Missing: directives with NUL or directly followed by a closing delimiter, for which findpath reads a byte too many and sorts a block that it must not (sort_includes_fails)."
  },
  {
   "property": "C29",
   "status": "proved",
   "theorems": [
    "Knfmt.Include.stylePriority_spec",
    "Knfmt.Include.groups_sorted",
    "Knfmt.Include.mem_groups"
   ],
   "note": "Regular expressions are arbitrary predicates on paths."
  },
  {
   "property": "C30",
   "status": "partial",
   "theorems": [
    "Knfmt.Guard.guard_off",
    "Knfmt.Guard.guard_kept_partial",
    "Knfmt.Guard.guard_inserted",
    "Knfmt.Guard.guard_stable_partial",
    "Knfmt.Guard.guard_name_partial",
    "Knfmt.Guard.guard_name_fails",
    "Knfmt.Guard.guard_kept_fails",
    "Knfmt.Guard.guard_nested",
    "Knfmt.Util.path_slice_components",
    "Knfmt.Util.is_path_header_iff"
   ],
   "note": "Proved for names without white space, and for the result to be stable if the other conditionals are closed. The full statement is false: characters such as + are kept (guard_name_fails), a name with white space is never recognised (guard_kept_fails), and a guard with #define A_H 1 gets another one of the same name around it (guard_nested)."
  },
  {
   "property": "C31",
   "status": "partial",
   "theorems": [
    "Knfmt.Ruler.min_aligned",
    "Knfmt.Ruler.max_aligned",
    "Knfmt.Ruler.max_overlong",
    "Knfmt.Ruler.fixed_spaces",
    "Knfmt.Ruler.max_tabs_aligned_partial",
    "Knfmt.Ruler.tabs_aligned_partial",
    "Knfmt.Ruler.sense_aligned_partial",
    "Knfmt.Ruler.table_aligned_partial",
    "Knfmt.Ruler.alignment_not_empty",
    "Knfmt.Ruler.entry_separated_partial",
    "Knfmt.Ruler.putCell_truthful",
    "Knfmt.Ruler.exec_total",
    "Knfmt.Ruler.tabs_fails",
    "Knfmt.Ruler.sense_fails",
    "Knfmt.Ruler.max_tabs_fails",
    "Knfmt.Ruler.exec_fails"
   ],
   "note": "For every ruler that can be made with the interface, all entries of an aligned column start at the same display column, also in tables of several columns. With tabs this needs lines that start at a tab stop if entries have stars (tabs_fails, sense_fails) and a maximal width that is a tab stop (max_tabs_fails). That a text is as wide as told to the ruler is a premise (doc_width is in C23). An assertion fails for tokens with tabs in them (exec_fails)."
  },
  {
   "property": "C32",
   "status": "partial",
   "theorems": [
    "Knfmt.CppAlign.align_text_partial",
    "Knfmt.CppAlign.align_columns_partial",
    "Knfmt.CppAlign.align_columns_width",
    "Knfmt.CppAlign.cppAlign_total",
    "Knfmt.CppAlign.align_text_fails",
    "Knfmt.CppAlign.align_columns_fails",
    "Knfmt.CppAlign.sense_right"
   ],
   "note": "Proved for macros without NUL characters (a NUL truncates a line, align_text_fails); the same column is proved when the white space before each backslash is tabs only or spaces only and ColumnLimit - IndentWidth is a tab stop (align_columns_fails shows the mixed case)."
  },
  {
   "property": "C33",
   "status": "partial",
   "theorems": [
    "Knfmt.Simple.nested_restores_partial",
    "Knfmt.Simple.exclusive_partial",
    "Knfmt.Simple.nested_restores_fails",
    "Knfmt.Simple.exclusive_fails"
   ],
   "note": "For every nested use of the interface. A state is restored if every pass is either always or never forced, as in the code (nested_restores_fails). Passes enabled at the same time are in the same family; within the family of declarations two passes may be enabled although neither is allowed to be nested in the other (exclusive_fails)."
  },
  {
   "property": "C34",
   "status": "partial",
   "theorems": [
    "Knfmt.Printf.simplify_printf_partial",
    "Knfmt.Printf.simplify_printf_fails"
   ],
   "note": "For every token stream and every plain string literal, except for literals that end in an escaped backslash and the letter n, wide literals and literals with a NUL, of which the full statement is false (simplify_printf_fails)."
  },
  {
   "property": "C35",
   "status": "partial",
   "theorems": [
    "Knfmt.Stmt.braces_all_or_none_partial",
    "Knfmt.Stmt.braces_mixture"
   ],
   "note": "For every chain of up to 32 bodies; what the parser reports as bodies is a hypothesis (Spec.Reported). The full statement is false: bodies after the 32nd are not considered (braces_mixture)."
  },
  {
   "property": "C36",
   "status": "proved",
   "theorems": [
    "Knfmt.Forward.forward_sorted",
    "Knfmt.Forward.forward_permutation",
    "Knfmt.Forward.forward_stable"
   ],
   "note": "That the parser reports declarations in order, each ending in a semicolon, and that it leaves at blank lines and directives is a hypothesis, not modelled. Lines of tokens are not part of the claim."
  },
  {
   "property": "C37",
   "status": "proved",
   "theorems": [
    "Knfmt.Vector.vector_history",
    "Knfmt.Vector.alloc_spec",
    "Knfmt.Vector.pop_spec",
    "Knfmt.Vector.first_last_spec"
   ],
   "note": ""
  },
  {
   "property": "C38",
   "status": "proved",
   "theorems": [
    "Knfmt.KList.list_history",
    "Knfmt.KList.step",
    "Knfmt.KList.list_reads",
    "Knfmt.KList.linked_spec",
    "Knfmt.KList.foreach_safe_remove"
   ],
   "note": ""
  },
  {
   "property": "C39",
   "status": "partial",
   "theorems": [
    "Knfmt.KMap.map_history_partial",
    "Knfmt.KMap.find_spec",
    "Knfmt.KMap.insert_spec",
    "Knfmt.KMap.insert_succeeds",
    "Knfmt.KMap.remove_spec",
    "Knfmt.KMap.iterate_spec",
    "Knfmt.KMap.duplicate_found_again_after_growth",
    "Knfmt.KMap.failed_insert_leaves_entry"
   ],
   "note": "Proved for histories that insert only absent keys and whose insertions do not fail. The other two theorems show the code breaking the property outside of that: inserting a present key twice, and an insertion that reports failure after linking the entry."
  },
  {
   "property": "C40",
   "status": "proved",
   "theorems": [
    "Knfmt.Buffer.buffer_history",
    "Knfmt.Buffer.puts_spec",
    "Knfmt.Buffer.printf_spec",
    "Knfmt.Buffer.pop_spec",
    "Knfmt.Buffer.cmp_spec",
    "Knfmt.Buffer.str_spec",
    "Knfmt.Buffer.getlines_spec"
   ],
   "note": ""
  },
  {
   "property": "C41",
   "status": "partial",
   "theorems": [
    "Knfmt.Arena.arena_history_partial",
    "Knfmt.Arena.scope_restores",
    "Knfmt.Arena.realloc_of_outer_scope_overlaps",
    "Knfmt.Arena.leave_out_of_order_hands_out_header"
   ],
   "note": "arena_history_partial excludes growing an allocation that belongs to an outer scope. realloc_of_outer_scope_overlaps proves that the code hands out overlapping memory in that case, since arena_realloc does not check the scope on its fast path."
  },
  {
   "property": "C42",
   "status": "partial",
   "theorems": [
    "Knfmt.Arith.signed_add_correct",
    "Knfmt.Arith.signed_sub_correct",
    "Knfmt.Arith.signed_mul_correct",
    "Knfmt.Arith.unsigned_add_correct",
    "Knfmt.Arith.unsigned_sub_correct",
    "Knfmt.Arith.unsigned_mul_correct_partial",
    "Knfmt.Arith.unsigned_mul_by_zero"
   ],
   "note": "The unsigned product fallback divides by its second operand; unsigned_mul_by_zero proves the division by zero. Proved for every non-zero operand."
  },
  {
   "property": "C43",
   "status": "partial",
   "theorems": [
    "Knfmt.Str.str_match_default_spec",
    "Knfmt.Str.str_match_until_default_spec",
    "Knfmt.Str.str_match_native_eq_default",
    "Knfmt.Str.str_match_until_native_eq_default_partial",
    "Knfmt.Str.str_match_until_native_ne_default"
   ],
   "note": "the complement span function differs on strings with NUL bytes; negation proved"
  },
  {
   "property": "C44",
   "status": "proved",
   "theorems": [
    "Knfmt.Str.split_join",
    "Knfmt.Str.split_no_separator",
    "Knfmt.Str.split_empty_separator_diverges"
   ],
   "note": ""
  },
  {
   "property": "C45",
   "status": "partial",
   "theorems": [
    "Knfmt.Style.style_total",
    "Knfmt.Style.style_no_file",
    "Knfmt.Style.style_from",
    "Knfmt.Style.style_default_partial",
    "Knfmt.Style.style_invalid_false",
    "Knfmt.Style.negative_number",
    "Knfmt.Style.large_number",
    "Knfmt.Style.integer_word"
   ],
   "note": "Every text is read and gives exactly one style; a value is the default, or set by the file or by the style it is based on, where numbers count modulo 2^32. The full statement is false: the invalid values Integer and negative or large numbers are used (style_invalid_false). Include categories are modelled but not part of the claim."
  },
  {
   "property": "C46",
   "status": "proved",
   "theorems": [
    "Knfmt.Search.nearest_configuration",
    "Knfmt.Search.configuration_used",
    "Knfmt.Search.found_nearest"
   ],
   "note": ""
  },
  {
   "property": "C47",
   "status": "proved",
   "theorems": [
    "Knfmt.Diag.diagnostics_shown",
    "Knfmt.Diag.parser_diagnostics",
    "Knfmt.Diag.render_no"
   ],
   "note": ""
  },
  {
   "property": "C48",
   "status": "partial",
   "theorems": [
    "Knfmt.Doc.diff_mode_partial",
    "Knfmt.Doc.diff_mode_nothing",
    "Knfmt.Doc.diff_mode_fails",
    "Knfmt.Doc.getsLines"
   ],
   "note": "Unless the printer fails, the output in diff mode consists of lines of the input copied byte for byte and of spans formatted anew, each with a selected token; without a selected token it is the input. diff_mode_fails shows that the printer may ask for a negative number of bytes if a group with a leading comment covers two ranges."
  },
  {
   "property": "C49",
   "status": "partial",
   "theorems": [
    "Knfmt.Parser.region_verbatim_partial",
    "Knfmt.Parser.region_end_partial",
    "Knfmt.Parser.region_shown",
    "Knfmt.Parser.region_twice",
    "Knfmt.Parser.region_same_line",
    "Knfmt.Parser.region_end_trimmed",
    "Knfmt.Parser.region_after_token",
    "Knfmt.Parser.region_line_added"
   ],
   "note": "For a parse without look-ahead, branches or recovery. False if formatting is disabled twice in a row (everything after is lost), if the comment is followed by a token on its line (printed twice) and at the end of the input (empty lines removed): negations proved. Otherwise the lines between the comments are found byte for byte in the output."
  },
  {
   "property": "C50",
   "status": "proved",
   "theorems": [
    "Knfmt.Branch.read_spec",
    "Knfmt.Branch.read_good",
    "Knfmt.Branch.unlink_keeps",
    "Knfmt.Branch.removeToken_keeps",
    "Knfmt.Branch.branch_removes",
    "Knfmt.Branch.branch_good",
    "Knfmt.Branch.fold_keeps",
    "Knfmt.Branch.endOfBranch_forward"
   ],
   "note": "After reading, the directives of every #if that has its #endif (Spec.Group) are linked in both directions, all others are ordinary directives and exactly the tokens that start an alternative are marked; taking out one directive, one token, one alternative (clang_branch) or folding an alternative into one directive (clang_branch_fold) removes exactly the directives and tokens in question, keeps all other directives of every branch linked in order, keeps the marks right and dereferences no null pointer. Directives belonging to tokens in the order of the text is a hypothesis on what the lexer read."
  },
  {
   "property": "C51",
   "status": "proved",
   "theorems": [
    "Knfmt.Lexer.token_lexeme",
    "Knfmt.Lexer.lexeme_unique"
   ],
   "note": "The lexical rules are those of the specification, which give one token only (lexeme_unique)."
  },
  {
   "property": "C52",
   "status": "proved",
   "theorems": [
    "Knfmt.Lexer.comment_extent"
   ],
   "note": "Every unjoined comment token; joined ones are covered by C12's negation theorems."
  },
  {
   "property": "C53",
   "status": "partial",
   "theorems": [
    "Knfmt.Lexer.directive_extent_partial",
    "Knfmt.Lexer.quoted_comment_extends_directive",
    "Knfmt.Lexer.slash_star_slash_in_directive"
   ],
   "note": "Proved for directives without '/*'; the witnesses show that '/*' in a string makes a directive swallow the lines that follow and that '/*/' closes a comment."
  },
  {
   "property": "C54",
   "status": "proved",
   "theorems": [
    "Knfmt.Lexer.diff_flag",
    "Knfmt.Lexer.comment_extent"
   ],
   "note": "The markers are the last two conjuncts of comment_extent."
  },
  {
   "property": "C55",
   "status": "proved",
   "theorems": [
    "Knfmt.Stream.pop_what_was_peeked",
    "Knfmt.Stream.if_what_was_peeked",
    "Knfmt.Stream.if_flags_what_was_peeked",
    "Knfmt.Stream.halted_on_branch",
    "Knfmt.Stream.halts_at_branch",
    "Knfmt.Stream.end_of_file_halts_once",
    "Knfmt.Stream.until_first",
    "Knfmt.Stream.peek_until_first",
    "Knfmt.Stream.peek_until_comma_first",
    "Knfmt.Stream.seek_pop",
    "Knfmt.Stream.seek_after_pop"
   ],
   "note": ""
  },
  {
   "property": "C56",
   "status": "proved",
   "theorems": [
    "Knfmt.Stream.expect_reports_once",
    "Knfmt.Stream.expect_reports"
   ],
   "note": ""
  },
  {
   "property": "C57",
   "status": "proved",
   "theorems": [
    "Knfmt.Ruler.sense_stable"
   ],
   "note": "For every column aligned in the source with spaces, or with tabs up to a tab stop."
  },
  {
   "property": "C58",
   "status": "partial",
   "theorems": [
    "Knfmt.Ruler.indent_aligned_partial"
   ],
   "note": "For lines that start at a tab stop; otherwise the amount is rounded up to a multiple of eight although tabs end at tab stops."
  },
  {
   "property": "C59",
   "status": "partial",
   "theorems": [
    "Knfmt.CppAlign.align_twice_partial",
    "Knfmt.CppAlign.align_twice_fails"
   ],
   "note": "Proved when the first run put all backslashes in the same column or after single spaces and the first three lines fit; false in general (align_twice_fails)."
  },
  {
   "property": "C60",
   "status": "proved",
   "theorems": [
    "Knfmt.Include.main_include_first"
   ],
   "note": "A consequence of the specification Spec.Arranged proved for the code under C28."
  },
  {
   "property": "C61",
   "status": "proved",
   "theorems": [
    "Knfmt.Simple.no_reentry",
    "Knfmt.Simple.enter_once"
   ],
   "note": ""
  },
  {
   "property": "C62",
   "status": "proved",
   "theorems": [
    "Knfmt.Simple.only_forced",
    "Knfmt.Simple.only_forced_off"
   ],
   "note": ""
  },
  {
   "property": "C63",
   "status": "partial",
   "theorems": [
    "Knfmt.Style.parsed_reads",
    "Knfmt.Style.style_reads",
    "Knfmt.Style.categories_reads",
    "Knfmt.Style.style_lines",
    "Knfmt.Style.reads_unique",
    "Knfmt.Style.braces_linux",
    "Knfmt.Style.braces_custom",
    "Knfmt.Style.style_line_false",
    "Knfmt.Style.byte_ignores_all",
    "Knfmt.Style.byte_example",
    "Knfmt.Style.no_guards_ends",
    "Knfmt.Style.outside_group_ends",
    "Knfmt.Style.case_insensitive_kept",
    "Knfmt.Style.language_in_list"
   ],
   "note": "For every text written from entries, of the shapes in Style/FileSpec.lean (options, the group BraceWrapping, IncludeCategories, other keys with a value, a list or a group, documents, comments). For other texts the full statement is false: IncludeGuards: 0 as documented, an option of a group outside of it, a byte such as { and a language named in a list make it ignore other options."
  },
  {
   "property": "C64",
   "status": "partial",
   "theorems": [
    "Knfmt.Parse.C64_tokens_kept_in_order_partial",
    "Knfmt.Parse.C64_other_tokens_kept_in_order_partial",
    "Knfmt.Parse.C64_all_tokens_kept_partial",
    "Knfmt.Parse.C64_same_tokens_for_all_layouts_partial",
    "Knfmt.Parse.C64_statement_false",
    "Knfmt.Parse.C64_semicolon_misplaced",
    "Knfmt.Parse.C64_comma_lost",
    "Knfmt.Parse.C64_expression_swallowed"
   ],
   "note": "For every accepted source without branches and without simplification, unless one of three recorded things happens during the run. The full statement is false: the semicolon of int n, (*fn)(void); is printed after the comma (C64_statement_false), the comma of int ,; is lost, and an incomplete conditional expression is swallowed."
  },
  {
   "property": "C65",
   "status": "proved",
   "theorems": [
    "Knfmt.Parse.C65_no_token_printed_twice",
    "Knfmt.Parse.C65_no_token_invented"
   ],
   "note": "Without any assumption on the run, for sources without branches and without simplification."
  },
  {
   "property": "C66",
   "status": "partial",
   "theorems": [
    "Knfmt.Parse.C66_parser_ends_partial",
    "Knfmt.Parse.C66_check_changes_nothing_partial",
    "Knfmt.Parse.C66_bound_partial",
    "Knfmt.Parse.C66_ends_iff_partial",
    "Knfmt.Parse.C66_outcome_unique_partial",
    "Knfmt.Parse.C66_endless",
    "Knfmt.Parse.C66_statement_false"
   ],
   "note": "The full statement is false: on M({ int a __attribute__(x)) * y; } the loop of parser_type never ends (C66_endless). Proved: with a check for the end of the file in that loop the parser ends on all sources, with recursion depth at most 4 times the number of tokens plus 6, and the check changes nothing where the program ends; the program itself, if it ends, ends within the same bound, so one run decides whether it ends. For sources without branches and without simplification; the lexer and the printer have their own theorems."
  },
  {
   "property": "C67",
   "status": "partial",
   "theorems": [
    "Knfmt.SimpleDecl.simplify_declared_partial",
    "Knfmt.SimpleDecl.simplify_star_fails",
    "Knfmt.SimpleDecl.simplify_comma_fails",
    "Knfmt.SimpleDecl.simplify_enum_fails",
    "Knfmt.SimpleDecl.simplify_order_fails"
   ],
   "note": "For every block as the parser reports it and every order qsort may give: the result consists of well-formed declarations that declare the same variables with the same types and initialisers, the rest, the comments and what surrounds the block are kept. Excluded by Safe: types with a star before other words that are also used without it, commas with comments whose variable is moved, and bodies of which a later variable names the type; each excluded case is false of the program (simplify_star_fails: int *const p; int const q; changes the type of q; simplify_comma_fails; simplify_enum_fails). That declarations keep their order is false: simplify_order_fails."
  },
  {
   "property": "C68",
   "status": "partial",
   "theorems": [
    "Knfmt.Small.static_first_partial",
    "Knfmt.Small.static_nested_fails"
   ],
   "note": "For every type given by its first and last token: the first static is put in front and nothing else changes, unless it has a comment. That this static is the storage class of the declaration is false for types with arguments (static_nested_fails)."
  },
  {
   "property": "C69",
   "status": "proved",
   "theorems": [
    "Knfmt.Small.implicit_int"
   ],
   "note": "For every list of tokens and every type in it."
  },
  {
   "property": "C70",
   "status": "proved",
   "theorems": [
    "Knfmt.Small.empty_loop"
   ],
   "note": "For every list of tokens with distinct addresses and every right parenthesis in it: the three possible results and when each of them happens."
  },
  {
   "property": "C71",
   "status": "partial",
   "theorems": [
    "Knfmt.Small.switch_break",
    "Knfmt.Small.switch_last_partial",
    "Knfmt.Small.switch_break_iff",
    "Knfmt.Small.switch_break_fails"
   ],
   "note": "What is edited is proved in full (switch_break). The meaning is kept if and only if nothing is done after the empty statement (switch_break_iff, switch_last_partial); default: ; f(); is changed (switch_break_fails)."
  },
  {
   "property": "C72",
   "status": "partial",
   "theorems": [
    "Knfmt.Small.proto_names_partial",
    "Knfmt.Small.proto_array_fails",
    "Knfmt.Small.proto_variadic_fails",
    "Knfmt.Small.proto_pointer_fails"
   ],
   "note": "For every prototype in which only the names of arguments are identifiers after the types. Missing and false of the program: identifiers in the size of an array, variadic functions and pointers to functions."
  },
  {
   "property": "C73",
   "status": "partial",
   "theorems": [
    "Knfmt.Whole.format_keeps_tokens_partial",
    "Knfmt.Whole.format_text_partial",
    "Knfmt.Whole.lineDoc_document",
    "Knfmt.Whole.format_loses_end",
    "Knfmt.Whole.format_loses_byte",
    "Knfmt.Whole.format_drops_backslash"
   ],
   "note": "For every source accepted without an error and without branches, recovery, diffs or simplifications, and every layout the parser may choose (Document). Missing: sources with clang-format markers, with a semicolon after a semicolon or right brace (which may be removed), and with text that only the end of the file holds, which is lost (format_loses_end, format_loses_byte). That the parser's own layout is a Document is not proved."
  },
  {
   "property": "C74",
   "status": "partial",
   "theorems": [
    "Knfmt.Stream.semi_comments_partial",
    "Knfmt.Stream.semi_alone",
    "Knfmt.Stream.trim_semis",
    "Knfmt.Stream.semi_loses_comment",
    "Knfmt.Whole.format_loses_comment"
   ],
   "note": "After declarations nothing is lost (trim_semis). After statements comments are kept if and only if there are none in front of the first semicolon and none behind any but the last one (semi_comments_partial); the full statement is false (semi_loses_comment). Branches of conditionals between the semicolons are not followed."
  },
  {
   "property": "C75",
   "status": "partial",
   "theorems": [
    "Knfmt.Branch.recovery_keeps_partial",
    "Knfmt.Branch.recovery_keeps_corrected",
    "Knfmt.Branch.recovery_ends",
    "Knfmt.Branch.recover_loses_tokens",
    "Knfmt.Branch.parseRoot_ok"
   ],
   "note": "Proved for runs with at most one recovery (recovery_keeps_partial) and, for any number of recoveries, of a program in which clang_recover forgets the stamps of removed documents (recovery_keeps_corrected). For several recoveries the full statement is false of the code: text gets lost without an error (recover_loses_tokens). The loop always ends (recovery_ends). parser_root is arbitrary as long as it consumes a token if it succeeds, which the model of the parser does (parseRoot_ok). Alternatives of conditionals that stop the parser are the subject of C76, together with which more text may be lost (both_lose)."
  },
  {
   "property": "C76",
   "status": "partial",
   "theorems": [
    "Knfmt.Branch.alternatives_printed_partial",
    "Knfmt.Branch.alternatives_printed_corrected",
    "Knfmt.Branch.alternatives_lost",
    "Knfmt.Branch.semiRoot_ok",
    "Knfmt.Branch.alternatives_whole_partial",
    "Knfmt.Branch.both_end",
    "Knfmt.Branch.both_lose"
   ],
   "note": "Proved for files in which no token starts alternatives of two conditionals at once (alternatives_printed_partial), and for all files of a program that does not mute documents twice (alternatives_printed_corrected). Otherwise false: the rest of the file is lost without an error (alternatives_lost). parser_root is arbitrary as long as it does not fail, emits what it consumes and stops at alternatives; some such parser exists (semiRoot_ok). The loop with both alternatives and recovery always ends (both_end) but may lose text (both_lose)."
  },
  {
   "property": "C77",
   "status": "partial",
   "theorems": [
    "Knfmt.ExprDoc.expr_reads_back_partial",
    "Knfmt.ExprDoc.expr_keeps_meaning_partial",
    "Knfmt.ExprDoc.minus_minus_fails",
    "Knfmt.ExprDoc.slash_star_fails",
    "Knfmt.ExprDoc.sizeof_strings_fails",
    "Knfmt.Doc.doc_exec_spelled",
    "Knfmt.Lexer.read_back"
   ],
   "note": "Proved for expressions without comments, directives, braces or statements in them that are Clean: no prefix +, - or & in front of the same character, no division without spaces by something that begins with *, no period after a number. For expressions that are not Clean it is false: - -x becomes --x (minus_minus_fails), and b/ with *c on the next line may become b/*c (slash_star_fails). Parsing gives the same tree if the tree is Simple, see C19; otherwise simplification may make invalid code (sizeof_strings_fails). The documents of the callbacks for types are parameters that must print the tokens of the type with white space where it is needed."
  },
  {
   "property": "C78",
   "status": "partial",
   "theorems": [
    "Knfmt.Lexer.constants_read_partial",
    "Knfmt.Lexer.constant_token_partial",
    "Knfmt.Lexer.literal_token_partial",
    "Knfmt.ExprDoc.exponent_sign_fails",
    "Knfmt.ExprDoc.binary_exponent_fails",
    "Knfmt.ExprDoc.literal_prefix_fails"
   ],
   "note": "Proved for all constants without +, -, p and P and for all literals without prefix or with the prefix L. For the others it is false: 1e-5, 0x1p3 and u8\"x\" are each read as more than one token, and 1e-5 and u8\"x\" are printed with spaces in them."
  },
  {
   "property": "C79",
   "status": "partial",
   "theorems": [
    "Knfmt.Parse.C79_tokens_not_glued_partial",
    "Knfmt.Parse.C79_text_to_text_partial",
    "Knfmt.Parse.C79_static_glued",
    "Knfmt.Parse.C79_enumerator_glued",
    "Knfmt.Parse.C79_statement_false",
    "Knfmt.Ruler.alignment_not_empty",
    "Knfmt.Ruler.entry_separated_partial",
    "Knfmt.Parse.Spec.near_joins",
    "Knfmt.Parse.Sep.recs_sep",
    "Knfmt.Parse.Sep.parserDoc_apart"
   ],
   "note": "Proved for all files for which nothing is recorded as swallowed, lost, misplaced or glued. The full claim is false: the static of an array parameter and attributes of enumerators are glued to the next token. Comments and directives are not covered; that alignments made by rulers are at least one column wide is used in the model of the parser and proved of the model of rulers (alignment_not_empty), for texts without tabs."
  },
  {
   "property": "C80",
   "status": "partial",
   "theorems": [
    "Knfmt.Include.sort_includes_twice_partial",
    "Knfmt.Include.output_twice",
    "Knfmt.Include.block_unique"
   ],
   "note": "Proved for prefixes in which every include directive is on one line, without NUL, and under the conditions of C28 (nothing odd after the closing quote). Missing: includes continued with a backslash."
  },
  {
   "property": "C81",
   "status": "partial",
   "theorems": [
    "Knfmt.Small.static_twice",
    "Knfmt.Small.implicit_int_twice",
    "Knfmt.Small.empty_loop_twice",
    "Knfmt.Small.switch_twice",
    "Knfmt.Small.proto_twice_partial",
    "Knfmt.Printf.printf_twice_partial",
    "Knfmt.Printf.printf_twice_fails",
    "Knfmt.Forward.forward_stable",
    "Knfmt.Stmt.braces_twice_partial",
    "Knfmt.Stmt.braces_twice_fails"
   ],
   "note": "Proved for static, int, empty loops, break and forward declarations; for argument names if no name is left, for messages if their last line feed is the only one. for braces if the bodies of the second run correspond to those of the first one and are printed on as many lines. False for messages that end with several line feeds and for a comment in front of a left brace. Grouping of declarations is not covered."
  },
  {
   "property": "C82",
   "status": "proved",
   "theorems": [
    "Knfmt.Io.diff_complete",
    "Knfmt.Io.diff_result",
    "Knfmt.Io.diff_leaves_nothing",
    "Knfmt.Io.diff_shown",
    "Knfmt.Io.diff_ends"
   ],
   "note": "A temporary file stays only if unlink(2) fails; this exception is part of the statement."
  },
  {
   "property": "C83",
   "status": "partial",
   "theorems": [
    "Knfmt.Io.options_flags",
    "Knfmt.Io.options_refused",
    "Knfmt.Io.options_trace_partial",
    "Knfmt.Io.trace_fails"
   ],
   "note": "Proved but for a kind of trace named after a, of which it is false: -tal does not trace the lexer."
  },
  {
   "property": "C84",
   "status": "partial",
   "theorems": [
    "Knfmt.Parse.C84_work_doubles",
    "Knfmt.Parse.C84_statement_false"
   ],
   "note": "False of the code: shown by a family of sources of 3n+10 tokens, all accepted, for which the parser makes at least 2^n documents. That the work is always bounded follows from C66 only for a given source; no bound in terms of its length is proved."
  },
  {
   "property": "C85",
   "status": "partial",
   "theorems": [
    "Knfmt.Style.C85_partial",
    "Knfmt.Style.C85_base_first",
    "Knfmt.Style.C85_arranged_partial",
    "Knfmt.Style.C85_disabled",
    "Knfmt.Style.C85_based",
    "Knfmt.Style.C85_statement_false"
   ],
   "note": "Proved for configurations that are not based on another style and have no documents about other languages. False for others: the categories of the style a configuration is based on come first, and those of LLVM match every path (C85_based)."
  },
  {
   "property": "C86",
   "status": "partial",
   "theorems": [
    "Knfmt.ExprDoc.C86_partial",
    "Knfmt.ExprDoc.ternary_twice",
    "Knfmt.ExprDoc.align_twice",
    "Knfmt.ExprDoc.parens_twice",
    "Knfmt.ExprDoc.C86_statement_false",
    "Knfmt.Lexer.read_gaps"
   ],
   "note": "Proved for expressions without comments given on one line and printed on one line. False in general: when lines are broken a second run may move the breaks (ternary_twice, align_twice), and only one pair of redundant parentheses is removed each time (parens_twice). Missing: which broken lines are stable."
  },
  {
   "property": "C87",
   "status": "proved",
   "theorems": [
    "Knfmt.ExprDoc.C87_spaces"
   ],
   "note": "For expressions without comments on one line."
  },
  {
   "property": "C88",
   "status": "partial",
   "theorems": [
    "Knfmt.ArenaBuffer.C88_buffers_partial",
    "Knfmt.ArenaBuffer.outer_buffer_overwritten",
    "Knfmt.ArenaBuffer.outer_buffer_traps",
    "Knfmt.ArenaBuffer.C88_statement_false"
   ],
   "note": "Proved for programs that make a buffer larger only while the scope it was allocated in is the innermost one. False otherwise: the program is killed or the text overwritten."
  },
  {
   "property": "C89",
   "status": "partial",
   "theorems": [
    "Knfmt.ExprDoc.C89_partial",
    "Knfmt.ExprDoc.C89_source_partial",
    "Knfmt.ExprDoc.survey_fair",
    "Knfmt.ExprDoc.C89_statement_false",
    "Knfmt.ExprDoc.swallow_parens",
    "Knfmt.ExprDoc.swallow_field",
    "Knfmt.ExprDoc.swallow_blank",
    "Knfmt.ExprDoc.swallow_long",
    "Knfmt.Doc.exec_laid"
   ],
   "note": "False of the code, with four witnesses. Proved for expressions without missing operand, type or statement inside, in styles that do not align, without blank line, without line comment before the closing parenthesis of a parenthesised expression or after . and ->, if no line of the source exceeds the column limit."
  },
  {
   "property": "C90",
   "status": "partial",
   "theorems": [
    "Knfmt.Layout.C90_partial",
    "Knfmt.Layout.C90_source_partial",
    "Knfmt.Layout.C90_statement_false",
    "Knfmt.Layout.Example.dowhile_blank",
    "Knfmt.Layout.Example.dowhile_again",
    "Knfmt.Layout.run_edoc",
    "Knfmt.Layout.run_decls",
    "Knfmt.Layout.decls_lined",
    "Knfmt.Doc.run_sound"
   ],
   "note": "False of the code: an empty line between the right brace of do and while. Proved without it, for all styles, without comments, directives and structures with fields, if no line exceeds the column limit."
  },
  {
   "property": "C91",
   "status": "partial",
   "theorems": [
    "Knfmt.Layout.C91_partial",
    "Knfmt.Layout.C91_source_partial",
    "Knfmt.Layout.run_file"
   ],
   "note": "Proved for styles based on OpenBSD, without attributes, K&R arguments, comments, and declarations or directives between functions, if no line exceeds the column limit; bodies as in C90."
  },
  {
   "property": "C92",
   "status": "partial",
   "theorems": [
    "Knfmt.Layout.C92_partial",
    "Knfmt.Layout.run_blocks",
    "Knfmt.Layout.block_lined"
   ],
   "note": "Proved for styles based on OpenBSD, without attributes, bit-fields, structures with fields, braces, comments and line breaks after = and commas, if no line exceeds the column limit."
  },
  {
   "property": "C93",
   "status": "partial",
   "theorems": [
    "Knfmt.Layout.C93_partial",
    "Knfmt.Layout.run_units"
   ],
   "note": "Proved with the restrictions of C91 and C92."
  },
  {
   "property": "C94",
   "status": "partial",
   "theorems": [
    "Knfmt.Layout.C94_partial",
    "Knfmt.Layout.decls_decided",
    "Knfmt.Ruler.sense_tabs",
    "Knfmt.Ruler.sense_spaces"
   ],
   "note": "Proved with the restrictions of C92."
  },
  {
   "property": "C95",
   "status": "partial",
   "theorems": [
    "Knfmt.Layout.C95_partial",
    "Knfmt.Layout.C95_fails",
    "Knfmt.Layout.decls_again_partial",
    "Knfmt.Layout.decls_twice_differ",
    "Knfmt.Ruler.sense_twice",
    "Knfmt.Ruler.sense_again"
   ],
   "note": "False in general, with a counterexample (C95_fails). Proved with the restrictions of C92, for tokens without tabs, unless in a block there are tabs and stars, the widest types end at a tab stop and have no stars, and less than a quarter of the types are less wide."
  },
  {
   "property": "C96",
   "status": "partial",
   "theorems": [
    "Knfmt.Layout.C96_partial",
    "Knfmt.Layout.C96_fails",
    "Knfmt.Layout.body_again_partial"
   ],
   "note": "False in general for the reason given in C95 (C96_fails). Proved with the restrictions of C93 and C95 for indentations that are tab stops; that the text read again has the same statements and expressions is not part of it."
  }
 ]
}
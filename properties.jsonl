{"id": "C01", "title": "In-place formatting is atomic at every crash point", "statement": "When knfmt -i rewrites a file, stopping the process after any number of its system calls leaves the path naming either the complete original bytes or the complete formatted bytes, never a mixture or a truncated file.", "quantifier": "every original content, every formatted content, every schedule of short writes and failures, every crash point", "why_tests_cant": "there are unboundedly many crash points and short-write schedules; a test exercises one complete run", "anchors": ["knfmt.c: filewrite, fileattr", "file.c"]}
{"id": "C02", "title": "A failed in-place rewrite leaves the original untouched and the temporary removed", "statement": "If any system call of an in-place rewrite fails, knfmt reports an error, the path still has its original content and attributes, and the temporary file has been unlinked.", "quantifier": "every position and kind of system call failure, all contents", "why_tests_cant": "requires injecting a failure at each call for each content and write schedule", "anchors": ["knfmt.c: filewrite, fileattr"]}
{"id": "C03", "title": "An already formatted file is never rewritten", "statement": "If the formatted text equals the file content, knfmt -i makes no modifying system call and reports success, and knfmt -d prints no diff and reports success.", "quantifier": "every content", "why_tests_cant": "every content must be covered", "anchors": ["knfmt.c: filewrite, filediff"]}
{"id": "C04", "title": "Short writes never lose, repeat or reorder output", "statement": "Whatever sizes the individual write(2) calls return, the bytes written are a prefix of the formatted text, and they are the whole of it whenever knfmt reports success.", "quantifier": "every output and every schedule of write return values including errors", "why_tests_cant": "the kernel chooses the schedule", "anchors": ["knfmt.c: filewrite, fileprint"]}
{"id": "C05", "title": "Exit status and continuation over files", "statement": "Every file argument is processed regardless of failures in earlier ones; the exit status is non-zero if and only if formatting one of them failed, or one of them differed in diff mode.", "quantifier": "every list of files and outcomes", "why_tests_cant": "unbounded list of files", "anchors": ["knfmt.c: main, fileformat"]}
{"id": "C06", "title": "Mode selection", "statement": "Diff output takes precedence over in-place rewriting, which takes precedence over printing; a file that fails to parse produces no output and is not modified in any mode.", "quantifier": "every combination of flags and outcomes", "why_tests_cant": "needs every flag/outcome combination on every file", "anchors": ["knfmt.c: fileformat, main"]}
{"id": "C07", "title": "Permissions and ownership survive an in-place rewrite", "statement": "After a successful in-place rewrite the path has the formatted content and the mode, owner and group of the original file.", "quantifier": "every original attribute triple, umask-created temporary attributes, content and schedule", "why_tests_cant": "attribute space and failure schedule unbounded", "anchors": ["knfmt.c: filewrite, fileattr"]}
{"id": "C08", "title": "Diff selection covers exactly the added lines", "statement": "For a well formed unified diff, the line ranges knfmt -D selects for a file contain a line number if and only if that line is an added line of some hunk of that file, in the numbering of the new file.", "quantifier": "every unified diff", "why_tests_cant": "unbounded hunks and lines", "anchors": ["diff.c: diff_parse, matchpath, matchchunk, diff_end, strtou"]}
{"id": "C09", "title": "Chunk lookup", "statement": "Looking up a line in the selected ranges returns a range containing that line if there is one, the first such, and nothing otherwise.", "quantifier": "every list of ranges and line", "why_tests_cant": "unbounded list", "anchors": ["diff.c: diff_get_chunk"]}
{"id": "C10", "title": "Line extraction", "statement": "Asking the lexer for the source lines from beg up to end returns exactly those lines of the input, byte for byte, and the line table it relies on has one entry per line of the input.", "quantifier": "every input, every beg and end", "why_tests_cant": "unbounded inputs", "anchors": ["lexer.c: lexer_get_lines, lexer_getc, lexer_line_alloc"]}
{"id": "C11", "title": "Reading and un-reading characters", "statement": "Reading a character and putting it back restores the lexer position, and reading repeatedly yields the input characters in order followed by end of input; look-ahead never changes what is read later.", "quantifier": "every input and every sequence of reads and un-reads", "why_tests_cant": "histories are unbounded", "anchors": ["lexer.c: lexer_getc, lexer_ungetc, lexer_eof"]}
{"id": "C12", "title": "Tokenising loses nothing", "statement": "Concatenating the tokens produced from an input, comments and preprocessor directives included, together with the skipped white space, gives back the input.", "quantifier": "every input", "why_tests_cant": "unbounded inputs", "anchors": ["clang.c: clang_read, clang_read_prefix, clang_read_comment, clang_read_cpp", "lexer.c: lexer_tokenize, lexer_emit_template"]}
{"id": "C13", "title": "Operators are read greedily", "statement": "The operator token produced at a position is the longest operator of the C operator table that is a prefix of the remaining input.", "quantifier": "every input", "why_tests_cant": "every following context matters", "anchors": ["clang.c: clang_find_keyword1, clang_read"]}
{"id": "C14", "title": "Peeking never moves the lexer", "statement": "Any nesting of look-ahead sections restores the read position that was current when the outermost section was entered, whatever is read inside.", "quantifier": "every token stream, every sequence of operations inside look-ahead", "why_tests_cant": "histories are unbounded", "anchors": ["lexer.c: lexer_peek_enter, lexer_peek_leave, lexer_pop"]}
{"id": "C15", "title": "Pair matching", "statement": "Finding the closing bracket of a pair returns the token that balances the opening one: the tokens in between are balanced in that pair and no earlier candidate balances; it fails only if no such token exists.", "quantifier": "every token stream", "why_tests_cant": "arbitrary nesting depth", "anchors": ["lexer.c: lexer_peek_if_pair, lexer_if_pair"]}
{"id": "C16", "title": "Editing the token stream keeps comments", "statement": "Removing a token keeps every comment and directive attached to it, in order, on the neighbouring tokens; moving or inserting a token leaves all others in their order.", "quantifier": "every token stream and position", "why_tests_cant": "unbounded streams", "anchors": ["lexer.c: lexer_remove, lexer_move_before, lexer_move_after, lexer_insert_before", "token.c"]}
{"id": "C17", "title": "Column positions of tokens", "statement": "The line and column recorded for a token are those of its first character: one plus the number of preceding line breaks, and the column counting tabs to the next multiple of eight.", "quantifier": "every input", "why_tests_cant": "unbounded inputs", "anchors": ["lexer.c: lexer_emit_template, lexer_getc", "util.c: colwidth"]}
{"id": "C18", "title": "The expression parser loses and reorders nothing", "statement": "The expression tree built for an expression yields, read in order, exactly the tokens consumed.", "quantifier": "every token sequence", "why_tests_cant": "unbounded nesting", "anchors": ["expr.c: expr_exec1, expr_exec_binary, expr_exec_parens, expr_exec_ternary"]}
{"id": "C19", "title": "Operator precedence and associativity", "statement": "Parsing the token sequence of any expression tree written with the parentheses C precedence requires gives back that tree.", "quantifier": "every expression tree", "why_tests_cant": "unbounded nesting and operator combinations", "anchors": ["expr.c: rules, expr_exec1"]}
{"id": "C20", "title": "The printer preserves text", "statement": "Laying out a document changes only white space: the non-blank characters emitted are those of the document's texts in order.", "quantifier": "every document, column limit and style", "why_tests_cant": "unbounded documents", "anchors": ["doc.c: doc_exec1, doc_print"]}
{"id": "C21", "title": "No trailing white space", "statement": "Outside verbatim regions no output line ends with blanks.", "quantifier": "every document", "why_tests_cant": "unbounded documents", "anchors": ["doc.c: doc_trim_spaces, doc_print"]}
{"id": "C22", "title": "Blank lines are limited", "statement": "Outside verbatim regions the output has never more consecutive line breaks than the limit in force.", "quantifier": "every document", "why_tests_cant": "unbounded documents", "anchors": ["doc.c: doc_exec_optline, doc_print, doc_maxlines"]}
{"id": "C23", "title": "A group that fits is printed on one line", "statement": "If the flat width of a group fits in the remaining columns, laying it out emits no line break; if it is laid out flat without forced breaks the column limit is respected.", "quantifier": "every document, indentation and column limit", "why_tests_cant": "unbounded documents", "anchors": ["doc.c: doc_exec_group, doc_fits, doc_fits1"]}
{"id": "C24", "title": "Layout trials have no effect", "statement": "Trying out candidate layouts leaves the output, position and modes as they were, and the candidate used is one with the least penalty.", "quantifier": "every document and list of candidates", "why_tests_cant": "unbounded documents", "anchors": ["doc.c: doc_exec_minimize, doc_exec_minimize_indent"]}
{"id": "C25", "title": "Indentation has the requested width", "statement": "The white space emitted for an indentation of n columns is n columns wide with tab stops every eight columns, uses as many tabs as possible if tabs are enabled and none otherwise.", "quantifier": "every width and starting column", "why_tests_cant": "unbounded widths", "anchors": ["util.c: strindent_buffer, strwidth", "doc.c: doc_print_indent"]}
{"id": "C26", "title": "Display width composition", "statement": "The display column after printing a string depends only on the column before it and agrees with the tab stop definition; the width of a concatenation is the width of the second part starting where the first ended.", "quantifier": "every string and start column", "why_tests_cant": "unbounded strings", "anchors": ["util.c: strwidth, colwidth"]}
{"id": "C27", "title": "Comment clean-up only touches white space", "statement": "Cleaning up a comment keeps its non-blank characters and its number of lines, leaves no trailing blanks on any line, and doing it twice is the same as once.", "quantifier": "every comment text", "why_tests_cant": "unbounded strings", "anchors": ["comment.c: comment_trim"]}
{"id": "C28", "title": "Includes are permuted, never lost", "statement": "Sorting a block of include directives outputs a permutation of them, sorted within each priority group, groups in priority order; blocks that must not be sorted are left as they are.", "quantifier": "every block of includes and every category configuration", "why_tests_cant": "unbounded blocks", "anchors": ["cpp-include.c: cpp_include_add, cpp_include_exec, include_cmp"]}
{"id": "C29", "title": "Include priority", "statement": "The priority of an include is that of the first configured category whose pattern matches, or the lowest one if none matches.", "quantifier": "every list of categories and include path", "why_tests_cant": "unbounded list", "anchors": ["style.c: style_include_priority"]}
{"id": "C30", "title": "Include guards are stable", "statement": "Inserting an include guard in a header that already has exactly that guard changes nothing. A header without it gets it, after leading comments and with its end in front of the end of file; it replaces a guard of another name, and all other comments and directives stay. Formatting the result again changes nothing. The guard name only consists of upper case identifier characters.", "quantifier": "every header token stream and path", "why_tests_cant": "unbounded inputs", "anchors": ["cpp-include-guard.c"]}
{"id": "C31", "title": "Aligned columns line up", "statement": "After alignment, all entries of one aligned column start at the same display column.", "quantifier": "every set of rows", "why_tests_cant": "unbounded rows", "anchors": ["ruler.c: ruler_insert, ruler_exec"]}
{"id": "C32", "title": "Alignment of line continuations", "statement": "Aligning the backslashes of a multi line macro changes only the white space before them and puts those that fit in the same column.", "quantifier": "every macro text", "why_tests_cant": "unbounded strings", "anchors": ["cpp-align.c"]}
{"id": "C33", "title": "Simplification passes nest safely", "statement": "Entering and leaving simplification passes in a nested fashion restores the pass states exactly, and two mutually exclusive passes are never active at once.", "quantifier": "every nested sequence of enter and leave", "why_tests_cant": "histories are unbounded", "anchors": ["simple.c: simple_enter, simple_leave, simple_disable, simple_enable"]}
{"id": "C34", "title": "Trailing newline removal in err(3) formats", "statement": "Simplifying a format string removes exactly one trailing escaped newline directly before the closing quote and changes nothing else.", "quantifier": "every string token", "why_tests_cant": "unbounded strings", "anchors": ["simple-expr-printf.c"]}
{"id": "C35", "title": "Braces are added to all or removed from all", "statement": "For one if/else chain simplification either gives braces to every branch without braces, which happens if and only if some branch needs them, or removes the braces of every branch with braces, never a mixture; branches with preprocessor directives at their braces or outside of the diff are left alone, and no other token, comment or directive is changed.", "quantifier": "every chain", "why_tests_cant": "unbounded chains", "anchors": ["simple-stmt.c"]}
{"id": "C36", "title": "Declarations are sorted, none lost", "statement": "Sorting forward declarations outputs a permutation of the tokens, with every comment, directive and white space still attached. Within the declarations reported for one block, up to one that is no forward declaration, the forward declarations (with a diff: those part of it) are sorted by the name after struct and put where the first one was, all else stays in order after them; comments in front of the first stay in front of the first, white space after the last stays after the last. Declarations already in order with nothing in between are not changed.", "quantifier": "every token stream, every sequence of reported declarations and every order qsort may give", "why_tests_cant": "unbounded", "anchors": ["simple-decl-forward.c", "token.c: token_move_suffixes_if", "clang.c: clang_token_move_prefixes", "lexer.c: lexer_move_after"]}
{"id": "C37", "title": "Growable arrays", "statement": "A libks vector behaves as a sequence: after any history of pushes, pops and clears its content is what the list of those operations gives, indices stay valid and no size computation overflows silently.", "quantifier": "every history", "why_tests_cant": "histories are unbounded", "anchors": ["libks/vector.c"]}
{"id": "C38", "title": "Intrusive lists", "statement": "A libks list behaves as a sequence under insertion at head, tail, before, after, removal and concatenation, and its links stay consistent in both directions.", "quantifier": "every history of operations", "why_tests_cant": "histories and aliasing are unbounded", "anchors": ["libks/list.h"]}
{"id": "C39", "title": "Hash map", "statement": "A libks map returns for a key the value most recently associated with it, whatever the hash function does and whenever it grows; iteration visits every entry exactly once in insertion order.", "quantifier": "every history of operations and every hash function", "why_tests_cant": "collisions and growth points", "anchors": ["libks/map.c"]}
{"id": "C40", "title": "Byte buffers", "statement": "A libks buffer holds the concatenation of what was appended; comparing, popping and reading lines agree with the same operations on byte strings.", "quantifier": "every history", "why_tests_cant": "histories are unbounded", "anchors": ["libks/buffer.c"]}
{"id": "C41", "title": "Arena allocations never overlap", "statement": "Two live arena allocations never overlap, each is aligned and lies inside a frame; leaving a scope releases exactly the allocations made since entering it.", "quantifier": "every history of allocations and nested scopes", "why_tests_cant": "histories and sizes are unbounded", "anchors": ["libks/arena.c"]}
{"id": "C42", "title": "Overflow-checked arithmetic", "statement": "Checked addition, subtraction and multiplication report overflow if and only if the exact result is not representable, and otherwise return it.", "quantifier": "all operand values at each width", "why_tests_cant": "2^128 operand pairs", "anchors": ["libks/arithmetic.h, libks/arithmetic.c"]}
{"id": "C43", "title": "Vectorised string matching agrees with the portable one", "statement": "The SSE4.2 span functions return what the portable ones return for every string and set of ranges.", "quantifier": "every byte string and range set", "why_tests_cant": "lengths and contents unbounded", "anchors": ["libks/string.c", "libks/string-x86_64.S"]}
{"id": "C44", "title": "Splitting strings", "statement": "Splitting a string at a separator and joining the parts gives the string back and no part contains the separator.", "quantifier": "every string", "why_tests_cant": "unbounded strings", "anchors": ["libks/string.c: KS_str_split"]}
{"id": "C45", "title": "Configuration parsing is total and falls back to defaults", "statement": "Every option not set, or set to an invalid value, in .clang-format keeps the default of the base style; nothing in the file makes knfmt fail.", "quantifier": "every configuration text", "why_tests_cant": "unbounded texts", "anchors": ["style.c"]}
{"id": "C46", "title": "Nearest configuration wins", "statement": "Without a configuration given on the command line, the one used is the one in the nearest directory that has one which can be opened, starting with the working directory and going upwards as long as directories can be opened; the search always ends, and without any the default is used. A given configuration that cannot be read is an error.", "quantifier": "every directory depth and placement", "why_tests_cant": "unbounded depth", "anchors": ["fs.c: searchpath", "style.c"]}
{"id": "C47", "title": "Diagnostics are buffered", "statement": "Diagnostics of attempts that are later recovered from are discarded; those flushed appear once, in order.", "quantifier": "every history", "why_tests_cant": "histories are unbounded", "anchors": ["error.c"]}
{"id": "C48", "title": "Formatting only selected lines", "statement": "In diff mode lines outside the selected ranges are emitted verbatim.", "quantifier": "every document and set of ranges", "why_tests_cant": "unbounded", "anchors": ["doc.c: doc_diff_group_enter, doc_diff_verbatim, doc_diff_covers"]}
{"id": "C49", "title": "Regions with formatting disabled are verbatim", "statement": "The text between clang-format off and clang-format on comments is emitted byte for byte.", "quantifier": "every input", "why_tests_cant": "unbounded", "anchors": ["parser.c: clang_format_on, clang_format_off, clang_format_verbatim"]}
{"id": "C50", "title": "Preprocessor branches", "statement": "Linking #if/#else/#endif branches pairs each with its counterpart, properly nested, and unlinking or folding one keeps the others consistent.", "quantifier": "every nesting", "why_tests_cant": "arbitrary nesting", "anchors": ["clang.c: clang_branch_enter, clang_branch_link, clang_branch_leave, branch_fold"]}
{"id": "C51", "title": "Lexical class of every token", "statement": "Every token of an input has the text and type the lexical rules of C give to the characters at its position: string and character constants end at the first quote that is not escaped, identifiers, keywords and numbers extend as far as possible, a word is a keyword exactly if it is in the keyword table, and only the end of the input, an unterminated constant or a stray last character make the end of file token.", "quantifier": "every input", "why_tests_cant": "unbounded inputs and contexts", "anchors": ["clang.c: clang_read, clang_keyword, clang_find_keyword, isnum", "token.h"]}
{"id": "C52", "title": "Extent of every comment", "statement": "Every comment recognised by the lexer that is not joined with another one covers, apart from white space around it, exactly the comment that starts there: a block comment ends at the first '*/' after its opening (or at the end of input if there is none), a '//' comment at the end of the line unless the next line also starts with one, in which case both form a single comment.", "quantifier": "all inputs, all comments in them", "why_tests_cant": "A comment that ends too early turns text into code and one that ends too late turns code into a comment; the space of '*', '/', line feed and end of input combinations is unbounded.", "anchors": ["clang.c:clang_read_comment", "clang.c:peek_c99_comment", "lexer.c:lexer_getc"]}
{"id": "C53", "title": "Extent of every directive", "statement": "Every preprocessor directive without comments covers, apart from white space around it, the text from '#' up to the first line feed that is not preceded by a backslash, and is classified by its name.", "quantifier": "all inputs, all directives in them", "why_tests_cant": "Directives are emitted verbatim, so one that ends too late silently disables formatting and one that ends too early is parsed as C; continuation lines can nest arbitrarily.", "anchors": ["clang.c:clang_read_cpp", "clang.c:clang_find_cpp"]}
{"id": "C54", "title": "Marking of changed lines and of formatting markers", "statement": "A token, comment or directive is marked as changed exactly if the diff contains the line it starts on; a comment turns formatting off (or on) exactly if it is a one line comment whose text starts with ' clang-format off' (' clang-format on').", "quantifier": "all inputs, all diffs, all tokens", "why_tests_cant": "Which lines are left untouched depends on these marks for every token position and every comment text.", "anchors": ["lexer.c:lexer_emit_template", "clang.c:sense_clang_format_comment", "clang.c:clang_read_comment"]}
{"id": "C55", "title": "Consuming and searching tokens", "statement": "Away from preprocessor branches an attempt to consume a token takes it exactly if peeking delivers it and otherwise leaves the lexer as it is; in front of a branch it moves onto the branch, fails, and every further attempt fails. Searching delivers the first token ahead of the given type, and the first comma outside nested parentheses and braces before a given token.", "quantifier": "all token streams and positions", "why_tests_cant": "Every rule of the grammar is built from these operations, in combinations with branches that no test enumerates.", "anchors": ["lexer.c:lexer_pop", "lexer.c:lexer_if", "lexer.c:lexer_until", "lexer.c:lexer_peek_until_comma"]}
{"id": "C56", "title": "One error per failure", "statement": "After an expected token was missing, no further missing token is reported until errors are reset; a missing token is reported unless a branch is ahead, the lexer is looking ahead or an error was reported already.", "quantifier": "all token streams, all programs using the lexer", "why_tests_cant": "Errors cascade in as many ways as there are syntax errors.", "anchors": ["lexer.c:lexer_expect_impl", "lexer.c:lexer_expect_error", "lexer.c:lexer_error"]}
{"id": "C57", "title": "Existing alignment is kept", "statement": "A column of declarations or braces that is already aligned in the source, with at least one blank after every text, is printed with every entry in the column where it was.", "quantifier": "every set of rows and every alignment in the source", "why_tests_cant": "Widths, number of rows, numbers of stars and the mix of tabs and spaces are unbounded.", "anchors": ["ruler.c: ruler_column_alignment, ruler_exec"]}
{"id": "C58", "title": "Continuation lines of aligned entries", "statement": "A continuation line of an aligned declaration starts in the column in which the declared entry starts on its first line.", "quantifier": "every ruler and every entry indentation is requested for", "why_tests_cant": "unbounded rows and widths", "anchors": ["ruler.c: ruler_indent, ruler_exec_indent"]}
{"id": "C59", "title": "Aligning line continuations is idempotent", "statement": "Aligning the backslashes of a multi line macro whose backslashes have already been aligned by the tool changes nothing.", "quantifier": "every macro text and style", "why_tests_cant": "unbounded strings; the second run senses the alignment made by the first one", "anchors": ["cpp-align.c:cpp_align", "cpp-align.c:sense_alignment"]}
{"id": "C60", "title": "The main include stays first", "statement": "When includes are sorted without regrouping and the first include of a block is the header that belongs to the source file, it is still the first one afterwards.", "quantifier": "every block of includes, path of the source file and configuration", "why_tests_cant": "unbounded blocks and paths", "anchors": ["cpp-include.c: is_main_include, include_cmp"]}
{"id": "C61", "title": "A simplification never runs within itself", "statement": "A simplification pass that is active is not entered again, whatever is nested in it.", "quantifier": "every nested sequence of enter and leave", "why_tests_cant": "histories are unbounded", "anchors": ["simple.c: simple_enter"]}
{"id": "C62", "title": "Nothing is simplified unless asked for", "statement": "Without the simplify option no pass other than a forced one (sorting of includes, if configured) is ever enabled, and neither is one while simplification is suspended.", "quantifier": "every nested sequence of enter, leave, disable and enable", "why_tests_cant": "histories are unbounded", "anchors": ["simple.c: simple_enter, is_simple_enabled, simple_disable"]}
{"id": "C63", "title": "Options in the configuration take effect", "statement": "An option set to a valid value in .clang-format has that value, the last one if it is set more than once; entries that are not options, invalid values and documents about other languages change nothing; options named by BasedOnStyle count where it stands; BreakBeforeBraces: Linux puts the brace of a function on a line of its own and otherwise BraceWrapping decides.", "quantifier": "every configuration text and every style it may be based on", "why_tests_cant": "unbounded texts", "anchors": ["style.c: style_parse, parse_yaml, style, style_brace_wrapping"]}
{"id": "C64", "title": "Formatting keeps the program's tokens in order", "statement": "The formatted text of every source file that is accepted consists of the tokens of the source, in the same order, except that semicolons following a semicolon or a right brace, or followed by another semicolon, may be missing. Style, options, line widths and white space have no influence on this. In particular a source without such semicolons has exactly its tokens printed.", "quantifier": "every sequence of tokens accepted by the parser, every style, every option and every outcome of the decisions about the layout", "why_tests_cant": "sources, nesting depth and styles are unbounded", "anchors": ["parser.c: parser_exec", "parser-decl.c: parser_decl2, parser_decl_init", "parser-stmt.c: parser_stmt", "parser-func.c: parser_func_decl, parser_func_impl", "parser-type.c: parser_type", "parser-expr.c: parser_expr", "parser-braces.c: parser_braces", "expr.c: expr_exec, expr_doc", "doc.c: doc_alloc, doc_remove, doc_append"]}
{"id": "C65", "title": "Formatting invents and repeats no token", "statement": "No token occurs in the formatted text more often than in the source, and none occurs that is not in the source.", "quantifier": "every sequence of tokens accepted by the parser, every style, every option and every outcome of the decisions about the layout", "why_tests_cant": "sources, nesting depth and styles are unbounded", "anchors": ["parser.c: parser_exec, parser_doc_token", "parser-*.c", "expr.c: expr_doc", "doc.c: doc_append"]}
{"id": "C66", "title": "The parser ends", "statement": "Parsing ends for every source file, well-formed or not, whatever the style and the widths: with the source accepted or with an error reported. The depth of the recursion is bounded by a linear function of the number of tokens.", "quantifier": "every sequence of tokens, every style, every option and every outcome of the decisions about the layout", "why_tests_cant": "sources are unbounded and a loop that does not end is met only by peculiar ones", "anchors": ["parser.c: parser_exec", "parser-type.c: parser_type", "parser-*.c", "expr.c: expr_exec", "lexer.c: lexer_pop"]}
{"id": "C67", "title": "Grouping and sorting declarations keeps what is declared", "statement": "Simplifying a block of declarations, which puts variables of the same type together and sorts them by name, keeps what is declared: the result is a sequence of well-formed declarations that declares the same variables with the same types and initialisers, each exactly once, and all that is not a simple variable is as before. Comments and preprocessor directives are kept in their order, and nothing before or after the block is touched.", "quantifier": "every block of declarations, every number of variables per declaration, every type, every placement of comments and every order qsort(3) may give to equal names", "why_tests_cant": "blocks, declarations and placements of comments are unbounded", "anchors": ["simple-decl.c: simple_decl_type, simple_decl_semi, simple_decl_comma, simple_decl_leave, simple_decl_move_vars, classify, associate_semi", "parser-decl.c: parser_simple_decl_enter", "lexer.c: lexer_copy_after, lexer_insert_after, lexer_move_before, lexer_remove"]}
{"id": "C68", "title": "static is put first", "statement": "Simplifying the type of a declaration moves its storage class static to the front and changes nothing else: all other words of the type keep their order, comments and directives stay, and a static with a comment or directive of its own is left alone. A static that belongs to something else, as the size of an array argument, is not touched.", "quantifier": "every list of tokens and every type in it, with any comments", "why_tests_cant": "sources and placements of comments are unbounded", "anchors": ["simple-static.c: simple_static", "parser-type.c: parser_type_peek"]}
{"id": "C69", "title": "int is added to a lone unsigned", "statement": "A type that is just unsigned or signed, without comments, becomes unsigned int or signed int; every other type stays as it is, and so do all other tokens and all comments.", "quantifier": "every list of tokens and every type in it, with any comments", "why_tests_cant": "sources and placements of comments are unbounded", "anchors": ["simple-implicit-int.c: simple_implicit_int"]}
{"id": "C70", "title": "Empty loops get a continue", "statement": "The empty body of a loop, a lone semicolon or braces with nothing or a semicolon between them and without comments, becomes continue;, with the braces kept if there were some. Every other body stays as it is, and so do all other tokens and all comments.", "quantifier": "every list of tokens, every loop in it, every placement of comments", "why_tests_cant": "sources and placements of comments are unbounded", "anchors": ["simple-stmt-empty-loop.c: simple_stmt_empty_loop"]}
{"id": "C71", "title": "Empty default cases get a break", "statement": "The empty statement of default: ; becomes break; and the switch does what it did before. All other tokens and all comments stay.", "quantifier": "every list of tokens and every statement that may follow", "why_tests_cant": "sources and placements of comments are unbounded", "anchors": ["simple-stmt-switch.c: simple_stmt_switch"]}
{"id": "C72", "title": "Prototypes do not mix named and unnamed arguments", "statement": "If some arguments of a prototype have names and some do not, the names are removed and nothing else; otherwise nothing is changed. All comments stay.", "quantifier": "every prototype with any number of arguments, every type of an argument, every placement of comments", "why_tests_cant": "sources and placements of comments are unbounded", "anchors": ["simple-decl-proto.c: simple_decl_proto_arg, simple_decl_proto_arg_ident, simple_decl_proto_leave", "parser-func.c: parser_func_arg, parser_simple_decl_proto_enter"]}
{"id": "C73", "title": "Formatting a file keeps its tokens and comments", "statement": "If a source is accepted without an error, the output consists of the tokens of the source in their order and of its comments and preprocessor directives, all of them unchanged except for blanks at the end of a line, with white space between them. Where comments stay at their tokens, the input and the output are equal up to white space.", "quantifier": "every source, every style, every choice of groups, indentation, line breaks and white space made by the parser", "why_tests_cant": "sources, styles and layouts are unbounded; the property spans all stages from the lexer to the printer", "anchors": ["lexer.c: lexer_tokenize", "parser.c: parser_exec", "token.c: token_move_prefixes", "doc.c: doc_exec", "parser-priv.h: parser_doc_token"]}
{"id": "C74", "title": "Redundant semicolons are removed without their comments getting lost", "statement": "Of several semicolons in a row on a line after a statement one is printed, and semicolons after a declaration other than the first one are removed. Nothing else changes; comments before, between and after the semicolons stay.", "quantifier": "every list of tokens, any number of semicolons, every placement of comments", "why_tests_cant": "sources, numbers of semicolons and placements of comments are unbounded", "anchors": ["parser.c: parser_semi", "parser-decl.c: parser_decl2", "lexer.c: lexer_remove"]}
{"id": "C75", "title": "Recovering from invalid code loses nothing", "statement": "A conditional part of the source that cannot be parsed is printed unchanged as if it were a single preprocessor directive. If the run is successful in the end, every token that is not within such a part is printed exactly once and in order, all directives are there in order, and formatting ends.", "quantifier": "every source with conditionals nested in any way, every set of texts the parser rejects, any number of recoveries", "why_tests_cant": "sources, the placement of conditionals and the number and places of errors are unbounded", "anchors": ["clang.c: clang_recover", "clang.c: clang_recover_find_branch", "clang.c: clang_branch_fold", "clang.c: clang_stamp", "parser.c: parser_exec", "doc.c: doc_remove_tail"]}
{"id": "C76", "title": "All alternatives of a conditional are printed", "statement": "If the alternatives of a conditional within a declaration or statement are all valid code, formatting reaches the end of the file and every token is printed exactly once and in order, together with the directives in front of it, whatever alternative it belongs to.", "quantifier": "every source with conditionals placed and nested in any way that can be parsed with any of the alternatives", "why_tests_cant": "sources and the number, placement and nesting of conditionals and of alternatives are unbounded", "anchors": ["clang.c: clang_branch", "clang.c: token_branch_find", "parser.c: parser_exec", "parser.c: parser_doc_token_impl", "lexer.c: lexer_pop", "doc.c: doc_exec_mute"]}
{"id": "C77", "title": "Formatting an expression does not change what it means", "statement": "Reading the text printed for an expression gives the tokens of the expression again, in order, with the same texts and types, and no comment or directive; parsing them gives the same tree. If simplification is asked for, sizeof e is written as sizeof(e) and parentheses around the whole expression are removed, nothing else.", "quantifier": "every expression of any size and nesting, every style, every column limit, every placement of new lines in the source", "why_tests_cant": "expressions are unbounded, and which tokens end up next to each other depends on the style, on the column limit and on the new lines of the source", "anchors": ["expr.c: expr_exec", "expr.c: expr_doc", "expr.c: expr_doc_binary", "expr.c: expr_doc_sizeof", "expr.c: expr_doc_has_spaces", "doc.c: doc_exec", "clang.c: clang_read", "expr.c: expr_exec1"]}
{"id": "C78", "title": "Constants and string literals are not torn apart", "statement": "Every integer constant, floating constant, character constant and string literal of C11 is read as one token, with all of its characters, whatever comes before and after it with a blank in between.", "quantifier": "every constant and literal of C11, of any length, with any digits, suffix, exponent, prefix and escape sequences, and every sequence of them", "why_tests_cant": "constants and literals are unbounded in length, and their parts may be combined freely", "anchors": ["clang.c: clang_read", "clang.c: isnum", "lexer.c: lexer_getc"]}
{"id": "C79", "title": "The tokens of a file are not glued together", "statement": "Whenever a file without comments and preprocessor directives is formatted, reading the output gives the tokens of the file again, except for redundant semicolons: between any two tokens that would be read differently when written next to each other there is white space.", "quantifier": "every file the parser accepts, every style, option and width, every nesting of the document and every choice of line breaks", "why_tests_cant": "any token may come after any other one in some construct, and whether there is white space between them depends on the construct, the style and the line breaks", "anchors": ["parser.c: parser_exec", "parser-func.c: parser_func_arg", "parser-braces.c: parser_braces_field", "parser-stmt.c: parser_stmt", "parser-decl.c: parser_decl", "parser-type.c: parser_type", "expr.c: expr_exec", "doc.c: doc_exec"]}
{"id": "C80", "title": "Sorting includes a second time changes nothing", "statement": "Formatting the output again, with the same configuration, finds the include directives in the order they are in: their lines, and the blank lines between groups of them, are printed the same.", "quantifier": "every list of includes, comments and other directives, every configuration of categories, main includes and include blocks, every stable or unstable sort", "why_tests_cant": "the blank lines and groups made by the first run decide about the blocks and the main include of the second one, for any number of includes and any categories", "anchors": ["cpp-include.c: cpp_include_leave, cpp_include_exec, cpp_include_group, add_line", "clang.c: clang_read_cpp"]}
{"id": "C81", "title": "A second run finds nothing left to simplify", "statement": "With -s, what a simplification made of the source is left alone by the same simplification in a second run: moving static, adding int, removing empty loop bodies, adding break, removing argument names, removing line feeds from messages and sorting forward declarations.", "quantifier": "every token list the simplification is used on, every reading of its output with the same tokens and comments", "why_tests_cant": "whether an edit leaves something for the next run depends on the tokens around it, of which there are arbitrarily many", "anchors": ["simple-static.c: simple_static", "simple-implicit-int.c: simple_implicit_int", "simple-stmt-empty-loop.c: simple_stmt_empty_loop", "simple-stmt-switch.c: simple_stmt_switch", "simple-decl-proto.c: simple_decl_proto_leave", "simple-expr-printf.c: simple_expr_printf", "simple-decl-forward.c: simple_decl_forward_leave"]}
{"id": "C82", "title": "A diff shows the whole change", "statement": "With -d, diff(1) is run at most once per file, on the complete source and the complete formatted text, and only if they differ; the result is 0 exactly if they do not. No existing file is changed, no temporary file is left behind and no file is left open.", "quantifier": "every source and output, every behaviour of the operating system (any call may fail, writes may be short), every point at which the process is stopped", "why_tests_cant": "short writes and failures of single calls can occur at any point and in any combination", "anchors": ["knfmt.c: filediff", "libks/tmp.c: KS_tmpfd"]}
{"id": "C83", "title": "Options take effect in any order", "statement": "The options -D, -d, -i and -s take effect wherever and however often they are given, the last -c counts, a kind of trace is enabled if and only if -t names it or all kinds, and the program stops with an error if and only if an option or a kind of trace is unknown.", "quantifier": "every sequence of options and every argument of -t", "why_tests_cant": "options can be combined and repeated in any order", "anchors": ["knfmt.c: main", "options.c: options_trace_parse, ctotrace", "trace-types.h: FOR_TRACE_TYPES"]}
{"id": "C84", "title": "The work is polynomial in the size of the source", "statement": "The time taken to format a source grows at most polynomially with its length: there are no short sources for which the program runs for years.", "quantifier": "every sequence of tokens, with every way of placing them on lines", "why_tests_cant": "a test measures single sources; the sources that take long are nested in a way nobody writes a test for", "anchors": ["parser-stmt-expr.c: is_loop_stmt, parser_stmt_expr", "parser-stmt.c: parser_stmt_peek, parser_stmt_cpp", "parser.c: parser_exec"]}
{"id": "C85", "title": "Includes are grouped as the configuration says", "statement": "Of the categories listed in IncludeCategories, the first one with a pattern that matches the path of an include decides which group the include is put in, and where in the group; with SortIncludes: CaseSensitive and IncludeBlocks: Regroup the groups are in ascending order.", "quantifier": "every configuration text, every style it may be based on, every regular expression engine, every list of includes", "why_tests_cant": "unbounded texts, categories and includes", "anchors": ["style.c: parse_IncludeCategories, parse_Priority, parse_Regex, style_include_priority", "cpp-include.c: cpp_include_alloc, cpp_include_exec"]}
{"id": "C86", "title": "Formatting its own output changes nothing", "statement": "When an expression has been formatted and the result is formatted again with the same configuration, the same text is printed.", "quantifier": "every source text of an expression, every style, every column limit", "why_tests_cant": "unbounded texts and depth of nesting; a test compares two runs for one text", "anchors": ["clang.c: clang_read, clang_read_spaces", "token.c: token_trim, token_move_suffixes", "expr.c: expr_exec, expr_doc, token_move_next_line, token_move_prev_line", "doc.c: doc_exec"]}
{"id": "C87", "title": "Spaces inside a line do not matter", "statement": "Two ways to write the same expression, without comments, on one line that differ in spaces and tabs only are printed the same, if each *, / and | has white space around it in both or in none: only these three keep the spacing of the source.", "quantifier": "every pair of source texts with the same tokens, every style, every column limit", "why_tests_cant": "a relation between all pairs of texts, of any length and depth of nesting", "anchors": ["clang.c: clang_read, clang_read_spaces", "token.h: TOKEN_FLAG_SPACE", "token.c: token_has_spaces, token_trim", "expr.c: expr_doc_binary, expr_doc", "doc.c: doc_exec"]}
{"id": "C88", "title": "Buffers in an arena hold what was put there", "statement": "Whatever a program does with an arena and with any number of buffers allocated in it, it never traps and never reaches undefined behaviour, and at every moment each buffer, and each string obtained from one, holds exactly the bytes that were appended to it, until the scope it was allocated in is left.", "quantifier": "every history of scopes, allocations and operations on buffers, in any order", "why_tests_cant": "histories, sizes and the number of buffers are unbounded", "anchors": ["libks/arena-buffer.c: arena_buffer_alloc, callback_realloc", "libks/buffer.c: buffer_reserve, buffer_puts, buffer_vprintf, buffer_read_fd_impl, buffer_str, buffer_pop, buffer_reset", "libks/arena.c: arena_realloc"]}
{"id": "C89", "title": "A line comment never swallows code", "statement": "The text printed for an expression with comments behind its tokens consists of all its tokens, in order, and of comments of the source, with white space between them, and no token is printed behind a // comment on the same line, where it would become part of the comment.", "quantifier": "every source text of an expression with comments behind its tokens, every style, column limit and indentation", "why_tests_cant": "sources, comments and layouts are unbounded, and whether a line break survives depends on everything printed before it", "anchors": ["expr.c: expr_doc_binary, expr_doc_call, expr_doc_parens, expr_doc_field", "token.c: token_trim, token_move_suffixes, token_has_c99_comment", "clang.c: clang_read, clang_read_comment", "doc.c: doc_print, doc_exec, doc_fits1", "parser.c: parser_doc_token_impl"]}
{"id": "C90", "title": "Statements are laid out one per line, indented by their depth", "statement": "The body of a function is printed with each statement on a line of its own, indented by one IndentWidth for each statement it is nested in (the cases of a switch by none, and labels not at all); an opening brace is on the line of its statement, else and while on the line of the right brace before them, empty lines between statements are kept, others removed (so is one before a declaration at the beginning), the declarations of a block are on lines of their own with their names aligned, and it makes no other difference where the lines of the source end.", "quantifier": "every function body made of expression statements, blocks, loops, conditions, switches, cases, labels, jumps and blocks of declarations, nested to any depth, every style, with any IndentWidth, ContinuationIndentWidth, alignment of operands and arguments, and every column limit its lines do not exceed, with tabs or spaces", "why_tests_cant": "programs, nesting and the line breaks of the source are unbounded", "anchors": ["parser-stmt.c: parser_stmt1, parser_stmt_block, parser_stmt_if, parser_stmt_for, parser_stmt_dowhile, parser_stmt_kw_expr, parser_stmt_case, parser_stmt_goto, parser_stmt_return", "parser-stmt-expr.c: parser_stmt_expr", "parser.c: parser_doc_token_impl, parser_semi", "doc.c: doc_exec, doc_exec_hardline, doc_exec_verbatim, doc_trim_spaces"]}
{"id": "C91", "title": "Functions are laid out alike, one empty line apart", "statement": "A file of function definitions is printed with exactly one empty line between two functions and none at the end, however many there were; the type of each function is on a line of its own, followed by its name and arguments with one space after each comma and none after a star, and the left brace on a line of its own (or all on one line, if the style says so).", "quantifier": "every file of function definitions with any types, numbers of stars, arguments, array dimensions and bodies as in C90, every line break and empty line of the source, every style based on OpenBSD and column limit its lines do not exceed", "why_tests_cant": "functions, arguments and the line breaks of the source are unbounded", "anchors": ["parser-func.c: parser_func_impl, parser_func_impl1, parser_func_proto, parser_func_args, parser_func_arg, want_line_after_func_impl", "parser-type.c: parser_type", "parser.c: parser_exec", "doc.c: doc_exec, doc_exec_hardline, doc_exec_align, doc_exec_trim"]}
{"id": "C92", "title": "Declarations are laid out one per line with their names lined up", "statement": "Blocks of declarations, function prototypes and forward declarations such as `struct s;` separated by empty lines are printed with one declaration on every line and exactly one empty line between blocks; there is one space after each comma and around each `=`, and the first names of the declarations and prototypes of a block either all follow one space or all begin in the same column, not counting nor separating the stars in front of them; a forward declaration has no white space before its semicolon and does not take part in the alignment.", "quantifier": "every list of blocks of declarations with any types, numbers of stars, variables, array sizes, initial values and arguments of prototypes, every white space in the source, every style based on OpenBSD and column limit the lines do not exceed", "why_tests_cant": "blocks, declarations, variables and their widths are unbounded, and each width changes the white space of all others", "anchors": ["parser-decl.c: parser_decl1, parser_decl2, parser_decl_init, parser_decl_init1, parser_decl_init_assign", "parser-func.c: parser_func_decl1, parser_func_proto, parser_func_arg", "parser-type.c: parser_type", "ruler.c: ruler_insert, ruler_indent, ruler_exec", "doc.c: doc_exec, doc_exec_align, doc_exec_hardline, doc_exec_trim"]}
{"id": "C93", "title": "Declarations and functions of a file are laid out in order", "statement": "In a file of blocks of declarations and function definitions in any order, everything is printed in the order of the source, each block and function beginning on a new line; after a function that is not the last thing in the file there is exactly one empty line, after declarations there is exactly one if the source has any and none otherwise, and there is none at the end.", "quantifier": "every list of blocks of declarations as in C92 and functions as in C91, every line break and empty line of the source, every style based on OpenBSD and column limit the lines do not exceed", "why_tests_cant": "files are unbounded and every kind of neighbour and empty line can occur at every place", "anchors": ["parser.c: parser_exec, parser_root", "parser-decl.c: parser_decl1", "parser-func.c: parser_func_impl1, want_line_after_func_impl", "doc.c: doc_exec_hardline, doc_exec_trim"]}
{"id": "C94", "title": "Names are lined up if the source uses tabs and left alone otherwise", "statement": "If in the source at least one and at least a quarter, rounded down, of the types of a block of declarations are followed by a tab, the first names of all declarations of the block begin in the same column of the output. Otherwise, if the names do not all begin in the same column of the source, every name follows its type after exactly one space.", "quantifier": "every block of declarations as in C92, at the top of a file or at a tab stop in a function, every white space and line break of the source, every style based on OpenBSD and column limit the lines do not exceed", "why_tests_cant": "blocks and widths are unbounded, and one declaration decides for all others", "anchors": ["ruler.c: ruler_column_length, ruler_column_alignment, ruler_insert, ruler_exec", "parser-decl.c: parser_decl1", "parser-type.c: find_align_token", "token.c: token_has_tabs"]}
{"id": "C95", "title": "Formatting declarations a second time changes nothing", "statement": "The text printed for a file of declarations is printed unchanged if it is formatted again: reading the tokens at the lines and columns where they were printed, with the white space that was printed after each type, gives the same text.", "quantifier": "every file of blocks of declarations as in C92, every white space and line break of the source, every style based on OpenBSD and column limit the lines do not exceed", "why_tests_cant": "blocks and widths are unbounded, and the second run decides from columns and white space the first run made", "anchors": ["ruler.c: ruler_column_length, ruler_column_alignment, ruler_insert, ruler_exec", "parser-decl.c: parser_decl1", "parser-type.c: find_align_token", "token.c: token_has_tabs"]}
{"id": "C96", "title": "Formatting a file a second time changes nothing", "statement": "The text printed for a file of declarations and function definitions is printed unchanged if it is formatted again: reading it with the new lines, empty lines and white space that were printed gives the same text.", "quantifier": "every file of declarations and functions as in C93, with statements nested to any depth, every empty line and white space of the source, every style based on OpenBSD and column limit the lines do not exceed", "why_tests_cant": "files, nesting and widths are unbounded, and empty lines are kept, dropped and added depending on what is next to them", "anchors": ["parser-stmt.c: parser_stmt_block, parser_stmt_if, parser_stmt_dowhile, parser_stmt_case", "parser-func.c: parser_func_impl1, want_line_after_func_impl", "parser-decl.c: parser_decl1", "ruler.c: ruler_exec, ruler_column_length", "token.c: token_trim, token_has_tabs"]}

# Formal model of knfmt

The model lives in `lean/Verif`. Each source file of /repo that is modelled has
a directory with three kinds of modules:

* `Model.lean`: definitions transcribed from the C code, each citing file and lines;
* `Spec.lean`: small definitions independent of the model, used to state properties;
* `Props.lean`: the property theorems (and nothing else but `example`s showing that
  hypotheses are satisfiable); helper lemmas are in `Lemmas.lean`.

## Trusted base

* Lean's kernel; theorems depend at most on the axioms `propext`,
  `Classical.choice` and `Quot.sound` (checked with `#print axioms`).
* The transcription from C to Lean, function by function. Simplifications are
  listed in the comment of each definition and summarised below.

## Conventions

* Bytes are `Char`, `UInt8` or `Nat`; C strings with explicit length are lists.
* Undefined behaviour and traps are separate outcomes, never assumed away.
* Loops become structural recursion or well-founded recursion; fuel is only used
  where it is proved that enough fuel exists.

## Plan per property

* **C01 In-place formatting is atomic at every crash point.** Model the file system as inode table + directory; `filewrite` as a program emitting system calls whose results come from an arbitrary environment; prove over every prefix of the call trace.
* **C02 A failed in-place rewrite leaves the original untouched and the temporary removed.** Same model, any call may fail.
* **C03 An already formatted file is never rewritten.** Same model; plus `filediff`.
* **C04 Short writes never lose, repeat or reorder output.** Write loop as recursion over an arbitrary schedule of return values, including 0 and errors.
* **C05 Exit status and continuation over files.** `main` loop as a fold over file outcomes.
* **C06 Mode selection.** `fileformat` decision logic with abstract outcome of read/tokenise/parse.
* **C07 Permissions and ownership survive an in-place rewrite.** Same file system model with attributes.
* **C08 Diff selection covers exactly the added lines.** `diff_parse` as a line automaton, specification is an independent description of a unified diff as list of files, hunks and tagged lines; prove selection = added lines on all renderings.
* **C09 Chunk lookup.** `diff_get_chunk` on lists.
* **C10 Line extraction.** `lexer_getc` builds the line table; `lexer_get_lines` slices; specification splits the input at line feeds.
* **C11 Reading and un-reading characters.** Model of reader state machine; invariant by induction on op histories.
* **C12 Tokenising loses nothing.** Model of the clang tokeniser as total function on byte lists; round trip theorem.
* **C13 Operators are read greedily.** Model of the keyword table and the greedy search; compare with `longest prefix in table`.
* **C14 Peeking never moves the lexer.** Operations as an inductive language; nesting by structural recursion.
* **C15 Pair matching.** Loop over token list with a counter; specification of balance given inductively.
* **C16 Editing the token stream keeps comments.** Token stream as list with prefix/suffix lists.
* **C17 Column positions of tokens.** Column definition by a separate recursive specification.
* **C18 The expression parser loses and reorders nothing.** Model of the Pratt parser over token lists with fuel proved sufficient; `yield` of tree.
* **C19 Operator precedence and associativity.** Print trees with minimal parentheses according to an independent precedence table; prove parse of print is identity.
* **C20 The printer preserves text.** Model of doc_exec1 and doc_print over document trees; specification collects texts in order taking mute into account.
* **C21 No trailing white space.** Invariant on the output buffer.
* **C22 Blank lines are limited.** Invariant relating line counter to the output suffix.
* **C23 A group that fits is printed on one line.** Flat text specification; equality of output with flat text when it fits.
* **C24 Layout trials have no effect.** Snapshot/restore modelled explicitly; argmin specification.
* **C25 Indentation has the requested width.** Model of strindent_buffer; width specification by tab stops.
* **C26 Display width composition.** Model of strwidth and colwidth chunk loops; refinement to character fold.
* **C27 Comment clean-up only touches white space.** Model of comment_trim; specification per line.
* **C28 Includes are permuted, never lost.** Model on lists of includes; permutation + sortedness.
* **C29 Include priority.** First-match.
* **C30 Include guards are stable.** Model on token streams.
* **C31 Aligned columns line up.** Model of ruler_insert and ruler_exec; all rows of a column end at same width.
* **C32 Alignment of line continuations.** Model of cpp_align over lines.
* **C33 Simplification passes nest safely.** State machine; nested programs by induction.
* **C34 Trailing newline removal in err(3) formats.** String function.
* **C35 Braces are added to all or removed from all.** Model of simple_stmt_leave decision.
* **C36 Declarations are sorted, none lost.** Model of simple-decl-forward.c on the token list: recognizing, recording, sorting and moving token by token; an invariant on the token list after every single move.
* **C37 Growable arrays.** Concrete memory-level model refined to List.
* **C38 Intrusive lists.** Pointer heap model (next, prevp) refined to List.
* **C39 Hash map.** Bucket table + insertion list refined to association list; hash function arbitrary.
* **C40 Byte buffers.** Capacity/len/bytes model refined to byte list.
* **C41 Arena allocations never overlap.** Frames with sizes and lengths; interval disjointness invariant.
* **C42 Overflow-checked arithmetic.** BitVec/Int arithmetic of the portable fallback macros.
* **C43 Vectorised string matching agrees with the portable one.** Model of pcmpistrm/pcmpistri on 16-byte blocks.
* **C44 Splitting strings.** Model of KS_str_split with match loops.
* **C45 Configuration parsing is total and falls back to defaults.** Model of the whole of style.c but clang-format's dumps and regcomp(3), which are parameters: lexer, option table, documents, groups, include categories. Where a value comes from is an invariant of the parser (Style/From.lean); the text of a value is found through the tokens (Style/Lex.lean).
* **C46 Nearest configuration wins.** Directory chain model.
* **C47 Diagnostics are buffered.** State machine.
* **C48 Formatting only selected lines.** Document model in diff mode.
* **C49 Regions with formatting disabled are verbatim.** Document model: mute + verbatim slice of the source.
* **C50 Preprocessor branches.** Model of branch stack processing on directive sequences.
* **C51 Lexical class of every token.** The tokeniser of C12; the class of each token is compared with an independent description of identifiers, numbers, literals and operators.
* **C52 Extent of every comment, C53 Extent of every directive.** Same model; the specification says where a comment or directive ends, in terms of the text only.
* **C54 Marking of changed lines and of formatting markers.** Same model, with the chunks of a diff.
* **C55 Consuming and searching tokens, C56 One error per failure.** The token level of the lexer as a state machine; programs are an inductive language over it that may depend on the tokens delivered.
* **C57 Existing alignment is kept, C58 Continuation lines of aligned entries.** The ruler of C31.
* **C59 Aligning line continuations is idempotent.** The model of C32 run twice.
* **C60 The main include stays first.** A consequence of the specification of C28.
* **C61 A simplification never runs within itself, C62 Nothing is simplified unless asked for.** The state machine of C33.
* **C63 Options in the configuration take effect.** The model of C45. A file is described as entries, their text and their meaning (Style/FileSpec.lean); reading the text gives the meaning, by induction on the entries.
* **C64 Formatting keeps the program's tokens in order, C65 Formatting invents and repeats no token.** Model of the whole parser (parser-*.c, expr.c with its documents) on lists of tokens: what is consumed, removed and emitted, and into which document. All decisions about layout are an arbitrary oracle. A weakest-precondition calculus relates the consumed tokens to those in the document, with the set of documents still open at its end; each parsing function is proved once, recursion by induction on the fuel. Things that go wrong silently (a removed document with tokens, a token put in front of others, an expression given up) are recorded by the model, and the claim is about runs without them; each one has a concrete witness.
* **C66 The parser ends.** Same model; `none` is a run that is out of fuel. False of the program: the loop of `parser_type` (parser-type.c:224-304) does not look for the end of the file, and an expression parsed by it can go beyond the token it stops at. A run that ends does so within a fixed bound (`C66_bound_partial`), so one computed run shows that this one is out of fuel for every amount of it. The bound comes from a parser that counts up beyond any number when it meets the end of the file within this loop (`markEof`): that parser ends within the bound, and where its count stays low it has run as the program does. For the parser with the check: every function that reports success has consumed a token (`Str`), so by induction on the number of tokens left all functions end with a fuel of four times this number plus a constant (`Tot`). A third pass over all functions (`Ref`) shows that more fuel and the check change no result.
* **C67 Grouping declarations.** Model of simple-decl.c on token lists with addresses (Simple/Decl): the three reports of the parser collect types, slots and variables, and leaving edits the list. The specification (Simple/DeclSpec) describes a block as a list of declarations and says what each declares, as (type, declarator) pairs. Proof: the collected state is computed in closed form from the block (DeclCollect), each edit is a list operation on parts of the block (DeclEdit, DeclLeave), and the parts left and moved are accounted for (DeclLeft, DeclPlan, DeclProps). False without three conditions on the block, each with a witness.
* **C68 static first.** Model of simple-static.c on token lists with addresses (Simple/Small). Proof (Simple/Static): the type is split at its first `static`, and the result of `lexer_move_before` is computed on the parts. False for types that contain arguments, with a witness that takes the extent of the type from the model of the parser.
* **C69 Implicit int.** Model of simple-implicit-int.c; both cases of the result are computed from the parts of the list (Simple/Static).
* **C70 Empty loops.** Model of simple-stmt-empty-loop.c; the specification describes an empty body as a pattern of tokens, and the proof shows that the scan for the right brace finds exactly these patterns (Simple/Loop).
* **C71 Empty default.** Model of simple-stmt-switch.c, and a small semantics of statements up to the first `break`. The meaning is kept if and only if nothing is done afterwards; witness of the contrary (Simple/Loop).
* **C72 Names of arguments.** Model of simple-decl-proto.c over the reports of the parser. The specification splits each argument into type, name and rest; the collected state is computed by induction over the arguments, removal by induction over the names (Simple/Proto). Witnesses use the reports that the model of the parser's look-ahead gives.
* **C73 A whole file.** Lexer, parser, documents of tokens and printer put together (Whole/Attached, Whole/Format). What the parser puts around tokens (groups, indentation, white space) and which neighbour a comment is attached to are left open by a relation `Document`; C64 gives the tokens emitted, C12 that the pieces cover the source, C20 what the printer writes. `lineDoc_document` shows that there is such a document for every source.
* **C74 Redundant semicolons.** Model of parser_semi and of the loop in parser_decl2 over the list of tokens with what is attached to them (Stream/Semi), on top of the model of lexer_remove of C16. Result by induction over the semicolons; comments are compared by permutation.
* **C75 Recovery.** Model of clang_recover and of the loop of parser_exec (Stream/Recover) on top of the model of branches of C17, parser_root being an arbitrary function. Specification: the documents printed, the tokens and the texts of directives left (Stream/RecoverExec). Proof by an invariant of the loop; the end by a measure.
* **C76 Alternatives.** Model of the halt at alternatives, of clang_branch within the loop of parser_exec and of the muting of documents (Stream/Alternatives) on top of the model of branches of C17, parser_root being an arbitrary function that does not fail. Specification: what is printed of the documents. Proof by an invariant of the loop: all tokens before some token are printed, none from there on; a measure for the end.
* **C77 Expressions keep their meaning.** Model of expr_doc, which makes the document of a tree (Expr/Doc), on top of the models of the expression parser of C19, of doc_exec of C20 and of the lexer of C51. Specification: what a text made of tokens and white space is (Spelled), and when two tokens may be neighbours (joins). Proof: doc_exec prints the tokens with white space wherever the document has a place for it (Doc/Sep); the items of the document of an expression are computed by induction on the tree, and neighbours may be neighbours (Expr/Again); reading such a text gives the tokens (Lexer/ReadBack); parsing them gives the tree by C19 (Expr/Meaning).
* **C78 Constants are not torn apart.** On the lexer model of C51. Specification: the grammar of constants and string literals of C11 6.4.4 and 6.4.5 (Lexer/Constant: Constant, Literal). Proved by showing that all characters of a constant belong to numbers, then with the reading back of spelled texts of C77. False for signs in exponents, binary exponents and prefixes other than L; witnesses are given, so the theorem is partial.
* **C79 Tokens of a file are not glued together.** On the parser model of C64, which keeps track of the white space in the document, the printer of C77 and the lexer of C51. Specification: the texts and types read from the output are those of the file but redundant semicolons (Parse/SepFile: C79_statement, Spec.Tidy). Proved in three steps: every parsing function leaves the tokens in the document apart, by induction on the depth of calls with an invariant on what may be added to the open documents (Parse/SepRules to Parse/SepStmt); tokens whose types may be neighbours are not read as one (Parse/NearSound); a printed document is read back (Doc/Sep, Lexer/ReadBack). The document is any one that consists of the tokens and white space in question. Alignments count as white space: a ruler of the parser never makes an empty one (Ruler/White: alignment_not_empty, entry_separated_partial). False for array parameters with static and for enumerators with an attribute; these places are recorded by the model and excluded, so the theorem is partial.
* **C80 Sorting includes twice.** On the model of C28 (Cpp/Include). Specification: what a prefix is read as in the next run (Cpp/IncludeTwice: Spec.again, which makes a blank line part of the directive before it, as the lexer does), and the text printed for prefixes. Proof: from the specification of C28 only, which determines the output but for the order of equal lines. Blocks of the second run are those of the first one, the groups are the classes of priorities, and two sorted lists with the same elements are the same; the main include is looked for only at the first include, so it takes the same place again. Partial: directives on one line.
* **C81 Nothing left to simplify.** On the models of C34, C36 and C68 to C72. The tokens of the second run are any with the types, comments and texts of those made by the first one (Simple/Twice: Reads). Proof: the specification of each simplification says what is left, and that does not meet the conditions under which it changes anything. For braces the bodies reported by the second run are related to those of the first one (Simple/BracesTwice: Spec.Became). False for line feeds in messages, of which one is removed in every run, and for a comment in front of a left brace, after which braces are removed and added in turn. Grouped declarations are not covered.
* **C82 Diffs.** filediff and KS_tmpfd as a machine making one system call per step (Io/Diff), as in C03; offsets of open files are part of the state. Proof: an invariant kept by every step for all answers of the operating system, and a measure for the end.
* **C83 Options.** The loop over the options as a function on what getopt(3) returns (Io/Options), with the levels of traces as numbers of 32 bits. Proof: induction on the options. False for a kind of trace named after `a`: its level overflows to 0.
* **C84 Work.** The state of the parser counts the documents ever made, and leaving a nested use of the lexer does not set this counter back, so it is a lower bound of the work (Parse/Work). False: a statement hidden behind a macro is parsed once to see whether there is one, and once more. Proof: induction on the nesting, with rules that give the tokens left and a lower bound of the counter after each function of the parser.
* **C85 Includes are grouped as the configuration says.** Composes the model of the configuration (C63, now with the lines of categories) with the one of the pass that sorts includes; which paths a pattern matches is a parameter. False for a configuration based on another style, whose categories come first. Proof: what categories mean is unique since reading them is deterministic, and reading a file adds its categories to those there are.
* **C86 Formatting its own output changes nothing.** Composes the models of the lexer, the expression parser, the document of an expression and the printer, with the white space after each token and the functions that move it. False when lines have to be broken and for nested parentheses that are removed. Proof for expressions that fit on one line: the text printed is spelled as its tokens with a space exactly where the document has one (Lexer/Gaps, Doc/OneLine), reading it gives the same tokens (C33), they parse to the simplified expression (C71), and its document has the same items (Expr/Stable).
* **C87 Spaces inside a line do not matter.** The composition of C86 without conditions on what is printed. The white space the lexer attaches to each token is computed from the text (Lexer/Gaps); on one line no function moves it, and the document asks for it only next to the operators flagged in token.h. Proof by induction on the expression (Expr/Blanks).
* **C88 Buffers in an arena hold what was put there.** Composes the arena of C41 with the buffers of C40: the bytes are in the memory of the arena and are read back through pointer and length. The specification is a table of texts with the number of scopes open when each was made. False when a buffer is made larger while a scope inside its own is open. Otherwise proved by an invariant over histories: the regions of the buffers are live, different from each other, and each step leaves the others alone (Libks/ArenaBuffer).
* **C89 A line comment never swallows code.** Models expressions with comments behind their tokens: the suffixes made by the lexer, how `expr_exec` removes and moves them (token_trim, token_move_suffixes), the document with the two places that look at comments (Expr/Remark). The specification `Laid` reads the printed text from the left and asks for the end of the line after a line comment (Doc/Laid). False: a line break before the closing parenthesis of a parenthesised expression or after `.` and `->` is removed although a line comment comes before it, and after a blank line or a line that had to be broken no line break of the source is kept. Proved for expressions without these, whose lines do not exceed the column limit: a weakest-precondition calculus for documents all of whose groups fit, sound for the printer, and an invariant for the moved suffixes (Expr/RemarkProps). That the lexer puts the end of the line behind every line comment is proved from the lexer (Expr/RemarkLex, `survey_fair`).
* **C90 Statements are laid out one per line, indented by their depth.** Models the documents made by parser_stmt1 and the functions it calls, for a given tree of statements and blocks of declarations with the line breaks and empty lines of the source after each last token (Layout/Model). The specification writes the text of a function body down by recursion over the tree with the depth as argument (Layout/Spec). Proof: an abstract run of a document that follows text, column, pending and empty lines, sound for the printer (Doc/Straight, `run_sound`); the run of an expression that fits is its text on one line (Layout/Say, `run_edoc`), and a mutual induction over statements, `else` and lists (Layout/Props). False: `do { }`, an empty line and `while` are not joined, and formatting twice gives another text. Proved without this case, for all styles, without comments, directives and declarations, if no line exceeds the limit.
* **C91 Functions are laid out alike, one empty line apart.** Models the documents made by parser_exec, parser_func_impl1, parser_func_proto, parser_func_arg and parser_type for a given list of functions (Layout/FileModel); the bodies are those of C90. The specification writes the text of a file down by recursion over the list (Layout/FileSpec). Proof: runs of the documents (Doc/Straight) as for C90, and induction over types, arguments and functions (Layout/FileProps). Proved for functions without attributes and K&R arguments, without declarations and directives between them, if no line exceeds the limit and the style does not align after the bracket.
* **C92 Declarations are laid out one per line with their names lined up.** Models the documents made by parser_exec, parser_decl1, parser_decl2, parser_decl_init and parser_func_decl1 for given blocks of declarations, function prototypes and forward declarations, with the calls of the ruler they make (Layout/DeclModel); alignments and indentations are those computed by the model of the ruler. The specification writes the text of the blocks down, given the white space after each type, and says which white space is allowed (Layout/DeclSpec). Proof: the ruler has one column with the types in order, so C31 and C58 say where the names begin and how far initial values are indented; then runs of the documents (Doc/Straight) and induction over variables, declarations and blocks (Layout/DeclProps). Proved for declarations without attributes, bit-fields, braces and line breaks after `=` and `,`, if no line exceeds the limit.
* **C93 Declarations and functions of a file are laid out in order.** Models the loop of parser_exec and parser_root over a given list of blocks and functions (Layout/UnitModel) with the documents of C91 and C92. The specification gives the text of each piece and the empty lines between them (Layout/UnitSpec). Proof: each piece leaves the printer at the beginning of a line (run_def, run_block), and induction over the list (Layout/UnitProps). Proved with the restrictions of C91 and C92.
* **C94 Names are lined up if the source uses tabs and left alone otherwise.** Models nothing new. The specification says of the source of a block and of the white space printed after each type when the names are in one column and when they follow one space (Layout/SenseSpec). Proof: which of its two answers the ruler gives for a column (Ruler/Decide), for the column made of the types of the block (Layout/SenseProps). Proved with the restrictions of C92. Not covered: blocks whose names are in one column of the source already and which do not have enough tabs (see C57).
* **C95 Formatting declarations a second time changes nothing.** Models nothing new. The specification says where the tokens of the printed text are and what white space is after each type (Layout/AgainSpec); that the text, cut into tokens, gives exactly these is taken from that definition and not proved from the lexer. Proof: a ruler column, read again where it was printed, gives the same white space (Ruler/Again without tabs, Ruler/Twice in general), for all blocks of a file (Layout/AgainProps). False in general: eight lines `uint16_t` tab name and one line `int` tab `*p` are printed with spaces in the first eight lines and a tab in the last one, and this tab becomes a space the second time (`C95_fails`). Proved with the restrictions of C92 for all other blocks: those without a tab after a type, without stars, with widest types that do not end at a tab stop, with stars after one of the widest types, or with at least a quarter of the types less wide. Missing: blocks outside these, such as the example, that are lined up in the source already.
* **C96 Formatting a file a second time changes nothing.** Models nothing new. The specification says what is read again of the printed text: after each statement, brace, function and block of declarations the new line or empty line that was printed, and the tokens of declarations as in C95 (Layout/BodySpec, Layout/WholeSpec); the tree of statements and expressions is taken to be the same, which is what C64 and C86 are about, and equal blocks are given the same line numbers. Proof: structural induction shows that the text does not depend on what is different (Layout/BodyProps, Layout/WholeProps), and both texts are those of C93. False in general for the reason given in C95 (`C96_fails`). Proved with the restrictions of C93 and C95 for indentations that are tab stops.

## What is modelled

One line for each source file of /repo. Functions not named are modelled unless
the line says otherwise; the comments of the definitions give exact lines.

| file | modelled in | not modelled |
|------|-------------|--------------|
| knfmt.c, file.c | Io/ | option parsing by getopt(3), the child process diff(1), what formatting computes (a parameter) |
| diff.c | Diff/ | regcomp(3)/regexec(3), replaced by the matcher they denote for the two fixed expressions |
| lexer.c | Lexer/ (characters: Model, tokens: Stream, Peek, Edit, ...) | debugging output |
| clang.c | Lexer/, Cpp/, Stream/Branch*, Stream/Recover*, Stream/Alternatives*, Stream/Both | |
| token.c, token.h, token-defs.h | Lexer/Token, Lexer/ | reference counts and serialisation for debugging |
| comment.c | Comment/ | |
| util.c | Util/ | |
| cpp-align.c | Cpp/Align | |
| cpp-include.c | Cpp/Include | the sort is any sorting function |
| cpp-include-guard.c | Cpp/Guard | |
| doc.c | Doc/ | tracing; floating point penalties are exact |
| ruler.c | Ruler/ | |
| expr.c | Expr/, Parse/ | comments on lines of their own and directives within expressions (for the document); documents made by callbacks are parameters |
| parser.c | Parse/, Parser/Token, Stream/Recover*, Stream/Alternatives* | parser_reset |
| parser-*.c, expr.c from tree to document | Parse/ | branches (`#if` within a statement), simple passes, rulers; decisions about layout are an arbitrary oracle, see the head of Parse/Base.lean. In other models they appear as arbitrary callers of the lexer, the document builder and the simplifications |
| parser-stmt.c, parser-stmt-expr.c from tree to document | Layout/ | comments, directives, structures with fields, `asm`, statements after a label on the same line, simple passes |
| parser-func.c, parser-type.c, parser.c from a list of functions to a document | Layout/File* | comments, directives, attributes, K&R arguments, functions that return pointers to functions, declarations between functions, AlignAfterOpenBracket |
| parser-decl.c, parser-func.c, parser-type.c, parser.c from blocks of declarations, prototypes and forward declarations to a document | Layout/Decl* | comments, directives, attributes, bit-fields, structures with fields, braces, macros, line breaks after `=` and `,` |
| parser.c `parser_exec` and `parser_root` over blocks and functions | Layout/Unit* | `extern "C"`, assembly, macros, errors |
| simple.c | Simple/Pass | |
| simple-stmt.c | Simple/Stmt | |
| options.c, main of knfmt.c up to the options | Io/Options | what getopt(3) returns is given |
| libks/tmp.c, filediff of knfmt.c | Io/Diff | the length of /dev/fd/N is not checked |
| simple-decl-forward.c | Simple/Forward | |
| simple-expr-printf.c | Simple/Printf | |
| simple-decl.c | Simple/Decl | the parser's reports are the hypothesis Block of Simple/DeclSpec |
| simple-decl-proto.c, simple-implicit-int.c, simple-static.c, simple-stmt-empty-loop.c, simple-stmt-switch.c | Simple/Small | all functions; look-ahead past branches is not followed, allocation is left out |
| style.c | Style/ | the output of clang-format and regcomp(3), which are parameters |
| error.c, fs.c | Sys/ | |
| trace.c, compat-pledge.c | | not modelled |
| libks/vector.c, list.h, map.c, buffer.c, arena.c, arena-buffer.c, arithmetic.c | Libks/ | alignment of memory beyond what is said there; map.c's hash function is arbitrary |
| libks/string.c, string-x86_64.S | Str/ | |
| libks/consistency.c, section.h, fuzzer.h, arena-vector.c (not used by knfmt) | | not modelled |

The models of different files share definitions where the code does: tokens,
columns, paths. Composition that is proved and not assumed: tokens to document
to output (C49 uses the printer of C20 and the tokens of C12), source to output
(C73 uses the lexer of C12, the parser of C64 and the printer of C20), include guards and
includes on the prefixes of tokens.

## What the model assumes

* Memory allocation does not fail, except in libks and where a property is about failure.
* `int` has 32 bits, `size_t` 64, both wrap as on the platforms knfmt supports, where wrapping is defined; where it is not it is a separate outcome.
* Bytes are characters; the locale is C.
* System calls behave as POSIX says: rename(2) is atomic, write(2) writes a prefix.

## Findings

Properties that are false of the code, each with a theorem that gives a concrete case. The theorem proved instead is named `_partial`.

* **C07** set-id bits may be lost because fchmod precedes fchown; negation proved
* **C08** The full statement is false of the code: diff_parse_no_newline_marker shows that a no-newline marker in front of an added line makes that line unselected. Proved for all other well formed diffs.
* **C12** False in general: token_prolong uses the length of the trimmed second comment, so that two comments on one line may lose the end of the second one (joined_comments_lose_text). The partial theorems assume that no comments are joined wrongly.
* **C16** Nothing is lost; the order of comments changes if the removed token has comments on both sides, or is the first and has a comment after it. Negations proved.
* **C18** For every list of tokens and every behaviour of the callbacks: the parser ends, and the tree's tokens are, in order, among those consumed (yield_sublist). They are exactly those consumed if no callback swallows a token while failing and an operand follows every colon (yield_partial; yield_tidy_partial for the callbacks of parser-expr.c). The two conditions are needed: yield_fails_colon, yield_fails_recover.
* **C19** The tree of every expression of the C grammar is given back if it is Simple. Four kinds of trees are not given back, each with a theorem: *p++, (int)a.b, sizeof(a)->b, x + "a" "b".
* **C22** False in general: a space written between line breaks resets the count (doc_exec_lines_space). Proved for documents in which line breaks do not follow spaces, with one more line break allowed after verbatim text; muted parts are left out.
* **C23** Without a diff, for documents without forced or optional breaks, verbatim text, muted parts, noindent or forced indentation, and with no new line pending. What follows a group is not considered (fits_ignores_rest) and with a new line pending the width is not either (fits_ignores_width): both findings proved.
* **C28** For every list of prefixes of a token, every configuration and every sorting function that permutes and orders: the output is the one described by Spec.Output (blocks, which of them are sorted, groups in ascending order, order within a group, blank lines) and no null pointer is used. The comparison is a total preorder as qsort(3) requires. Missing: directives with NUL or directly followed by a closing delimiter, for which findpath reads a byte too many and sorts a block that it must not (sort_includes_fails).
* **C30** Proved for names without white space, and for the result to be stable if the other conditionals are closed. The full statement is false: characters such as + are kept (guard_name_fails), a name with white space is never recognised (guard_kept_fails), and a guard with #define A_H 1 gets another one of the same name around it (guard_nested).
* **C31** For every ruler that can be made with the interface, all entries of an aligned column start at the same display column, also in tables of several columns. With tabs this needs lines that start at a tab stop if entries have stars (tabs_fails, sense_fails) and a maximal width that is a tab stop (max_tabs_fails). That a text is as wide as told to the ruler is a premise (doc_width is in C23). An assertion fails for tokens with tabs in them (exec_fails).
* **C32** Proved for macros without NUL characters (a NUL truncates a line, align_text_fails); the same column is proved when the white space before each backslash is tabs only or spaces only and ColumnLimit - IndentWidth is a tab stop (align_columns_fails shows the mixed case).
* **C33** For every nested use of the interface. A state is restored if every pass is either always or never forced, as in the code (nested_restores_fails). Passes enabled at the same time are in the same family; within the family of declarations two passes may be enabled although neither is allowed to be nested in the other (exclusive_fails).
* **C34** For every token stream and every plain string literal, except for literals that end in an escaped backslash and the letter n, wide literals and literals with a NUL, of which the full statement is false (simplify_printf_fails).
* **C35** For every chain of up to 32 bodies; what the parser reports as bodies is a hypothesis (Spec.Reported). The full statement is false: bodies after the 32nd are not considered (braces_mixture).
* **C39** Proved for histories that insert only absent keys and whose insertions do not fail. The other two theorems show the code breaking the property outside of that: inserting a present key twice, and an insertion that reports failure after linking the entry.
* **C41** arena_history_partial excludes growing an allocation that belongs to an outer scope. realloc_of_outer_scope_overlaps proves that the code hands out overlapping memory in that case, since arena_realloc does not check the scope on its fast path.
* **C42** The unsigned product fallback divides by its second operand; unsigned_mul_by_zero proves the division by zero. Proved for every non-zero operand.
* **C43** the complement span function differs on strings with NUL bytes; negation proved
* **C45** Every text is read and gives exactly one style; a value is the default, or set by the file or by the style it is based on, where numbers count modulo 2^32. The full statement is false: the invalid values Integer and negative or large numbers are used (style_invalid_false). Include categories are modelled but not part of the claim.
* **C48** Unless the printer fails, the output in diff mode consists of lines of the input copied byte for byte and of spans formatted anew, each with a selected token; without a selected token it is the input. diff_mode_fails shows that the printer may ask for a negative number of bytes if a group with a leading comment covers two ranges.
* **C49** For a parse without look-ahead, branches or recovery. False if formatting is disabled twice in a row (everything after is lost), if the comment is followed by a token on its line (printed twice) and at the end of the input (empty lines removed): negations proved. Otherwise the lines between the comments are found byte for byte in the output.
* **C53** Proved for directives without '/*'; the witnesses show that '/*' in a string makes a directive swallow the lines that follow and that '/*/' closes a comment.
* **C58** For lines that start at a tab stop; otherwise the amount is rounded up to a multiple of eight although tabs end at tab stops.
* **C59** Proved when the first run put all backslashes in the same column or after single spaces and the first three lines fit; false in general (align_twice_fails).
* **C63** For every text written from entries, of the shapes in Style/FileSpec.lean (options, the group BraceWrapping, IncludeCategories, other keys with a value, a list or a group, documents, comments). For other texts the full statement is false: IncludeGuards: 0 as documented, an option of a group outside of it, a byte such as { and a language named in a list make it ignore other options.
* **C64** Proved for all runs in which nothing of the following happens, of each of which there is a witness: the semicolon of `int n, (*fn)(void);` is printed after the comma (`int n,; (*fn)(void)`, C64_semicolon_misplaced: valid C is broken); the comma of `int ,;` is lost (C64_comma_lost); an incomplete conditional expression as in `int a[x ? y : ];` is printed as `int a[];` (C64_expression_swallowed). If only a semicolon is misplaced all other tokens are still there in order.
* **C66** False: on `M({ int a __attribute__(x)) * y; }` the loop of parser_type does not end (C66_endless).
* **C67** `int *const p; int const q;` becomes `int *const p, q;` (simplify_star_fails: the type of q changes); a comma with a comment stays behind when its variable is moved (simplify_comma_fails); `enum { A } x, y;` becomes two declarations of which one reads `enum y;` (simplify_enum_fails); `int x, *p = &x;` may use x before it is declared (simplify_order_fails).
* **C68** The type found for `int (*f)(int a[static 3]);` reaches to the last parenthesis, so the `static` of the array size is moved: `static int (*f)(int a[3]);` (static_nested_fails).
* **C71** `default: ; f();` becomes `default: break; f();`: the call is not reached any more (switch_break_fails).
* **C72** `void f(int, char a[2 * n]);` becomes `void f(int, char a[2 *]);` (proto_array_fails: invalid C); `int f(char *s, ...);` loses its name because `...` counts as an argument without a name (proto_variadic_fails); the name of a pointer to a function is not seen, so that of the other arguments are removed (proto_pointer_fails).
* **C73** A string or character literal that is not terminated is lost, without an error, with everything after it: `int x;\n"abc` becomes `int x;` (format_loses_end). So is a stray byte at the end of the file (format_loses_byte). Backslashes between tokens are removed (format_drops_backslash).
* **C74** `x = 1; /* c */;` becomes `x = 1;`: the first of several semicolons is neither printed nor removed by way of lexer_remove, so what is attached to it is lost (semi_loses_comment; format_loses_comment from source to output).
* **C75** clang_recover never forgets the stamps of documents it tells parser_exec to remove and counts them again upon the next recovery: too many documents are removed and their text is lost without an error. `int a;` is lost in a file in which it is followed by `#if A`, `int b;`, `#endif`, `#if B`, `}`, `#endif`, `int d;` (recover_loses_tokens, with the model of the parser as parser_root). With at most one recovery all is well (recovery_keeps_partial), with the stamps forgotten always (recovery_keeps_corrected). Also, the first search goes backwards from the last token consumed, which is the last stamped token if parsing fails at once, and then does not stop at it: a branch in front of it that was parsed without an error is folded.
* **C76** A token that starts alternatives of two conditionals at once, such as `3` in `int x =`, `#if A`, `1`, `#if B`, `+ 2`, `#else`, `#endif`, `#else`, `3`, `#endif`, `;`, makes documents muted twice but unmuted once: it and everything after it is lost without an error (alternatives_lost). Without such tokens all is printed (alternatives_printed_partial); with documents not muted while they already are, always (alternatives_printed_corrected). That parser_root emits all tokens it consumes and does not fail is assumed. If it fails after an alternative was taken, the token to unmute at is overwritten while documents are muted: of `int x =`, `#if A`, `1`, `#else`, `2`, `#endif`, `+ 3`, `#if B`, `)`, `#endif`, `;` the lines from `#else` to `+ 3` are lost without an error, and with them the `#endif` of `#if A` (both_lose).
* **C77** Prefix operators are written right in front of their operand: `- -x` becomes `--x`, a decrement, and `+ +x` and `& &x` likewise (minus_minus_fails). Around `*`, `/` and `|` no spaces are written if the source has none, and a new line does not count: if the line of `b/` followed by `*c` on the next line is broken somewhere else, `b/*c` is written, and the rest of the file is a comment (slash_star_fails). `sizeof "a" "b"` becomes `sizeof("a") "b"` when simplified, which is not C (sizeof_strings_fails). For all other expressions reading the printed text gives the same tokens (expr_reads_back_partial) and, for the trees of C19, the same tree (expr_keeps_meaning_partial). Comments, directives and the tokens of types and braces are printed by functions that are parameters here.
* **C78** A sign is not taken to be part of a number: `1e-5` is read as `1e`, `-`, `5` and printed as `1e - 5`, which is not C (exponent_sign_fails). Neither is `p`: `0x1p3` is read as a constant and an identifier (binary_exponent_fails). Of the prefixes of literals only `L` is known: `u8"x"` is printed as `u8 "x"` (literal_prefix_fails).
* **C79** `int f(int a[static 10]);` is printed as `int f(int a[static10]);` (C79_static_glued): no white space is put between the tokens of an argument after its type unless both are identifiers (parser-func.c:235-264). `enum { A __unused };` is printed with the enumerator `A__unused` (C79_enumerator_glued, parser-braces.c:278-300, 350-380).
* **C80** A blank line with spaces in it does not separate includes: the directive before it ends with a line feed, two spaces and a line feed, and only two adjacent line feeds count (cpp-include.c:151, token_has_verbatim_line).
* **C81** `warnx("a\n\n")` becomes `warnx("a\n")` in the first run and `warnx("a")` in the second one (printf_twice_fails, simple-expr-printf.c).
* **C81** A comment on a line of its own in front of `{` becomes a part of the body when the braces are removed, the body is then printed on two lines, and the next run adds braces again (braces_twice_fails, simple-stmt.c:199-223).
* **C82** If a temporary file cannot be made, -d gives status 1 without a message, as if a diff had been shown (knfmt.c:262-268). If removing its name fails, it stays in /tmp (libks/tmp.c:46-47).
* **C83** `-tal` traces everything but the lexer: `a` sets all levels to the largest number, and `l` adds one (trace_fails, options.c:29-35).
* **C84** `A()` on n lines, each one column further to the right than the one above, and `;` after the last: the parser takes time proportional to 2^n, for a source of 3n+10 tokens (C84_work_doubles). is_loop_stmt parses the statement after `A()` to find out whether there is one (parser-stmt-expr.c:13-30), throws the result away, and parser_stmt_cpp parses it again.
* **C85** A configuration based on LLVM (or any other style of clang-format with the pattern `.*` last) may have categories of its own, but they are never used: the ones of the style come first (style.c:1220-1224 appends) and match everything (C85_based). CaseSensitive of a category is read and ignored, all patterns are matched ignoring the case (style.c:1296-1297).
* **C86** Formatting is not idempotent for expressions that do not fit on a line: a break on both sides of a question mark becomes one the second time (ternary_twice), with AlignAfterOpenBracket: Align the breaks made the first time turn the alignment off the second time (align_twice), and simplifying removes only one pair of parentheses each time (parens_twice).
* **C88** Appending to a buffer while a scope inside its own is open kills the program (outer_buffer_traps) or lets a later allocation overwrite the text (outer_buffer_overwritten). The calls in knfmt that append to a buffer do so in the scope of the buffer.
* **C89** Code is commented out when an expression with line comments is formatted: `x = (a // c`, new line, `)` becomes `x = (a // c)` (swallow_parens), `x = a. // c`, new line, `b` becomes `x = a. // cb` (swallow_field). In a call with one argument per line, each with a comment, a blank line between two arguments makes the last argument and the closing parenthesis part of the comment before (swallow_blank); so does an argument list in which an earlier line had to be broken because of the column limit (swallow_long).
* **C90** `do { f(); }`, an empty line, `while (x);`: `while` is printed on a line of its own with a space in front of it (dowhile_blank); when this is formatted again, it moves to the line of the right brace (dowhile_again).

## Axioms of each theorem

From `#print axioms`, for every theorem named in MANIFEST.json.

* `propext`: `Io.filewrite_unchanged`, `Io.alone_unchanged`, `Io.alone_diff`, `Io.fileprint_prefix`, `Io.alone_mode`, `Io.alone_rejected`, `Lexer.get_lines_undefined`, `Stream.view_unique`, `Ruler.exec_fails`, `Simple.nested_restores_fails`, `Simple.exclusive_fails`, `KMap.duplicate_found_again_after_growth`, `KMap.failed_insert_leaves_entry`, `Str.split_empty_separator_diverges`, `Stream.pop_what_was_peeked`, `Stream.if_what_was_peeked`, `Stream.if_flags_what_was_peeked`, `Stream.halts_at_branch`, `Stream.end_of_file_halts_once`, `Simple.no_reentry`, `Simple.enter_once`, `Style.braces_linux`, `Style.braces_custom`, `Io.diff_leaves_nothing`, `Io.options_flags`, `Io.trace_fails`.

* `propext`, `Classical.choice`, `Quot.sound`: `Buffer.read_fd_spec`, `Io.main_exit_status`, `Io.main_usage`, `Io.filewrite_setid_lost`, `Diff.diff_parse_selection_partial`, `Diff.diff_parse_rejects`, `Diff.diff_parse_no_newline_marker`, `Lexer.line_table_complete`, `Lexer.get_lines_exact`, `Lexer.reader_is_cursor`, `Lexer.unget_restores`, `Lexer.tokenize_lossless_partial`, `Lexer.tokenize_nonblank_partial`, `Lexer.joined_comments_lose_text`, `Lexer.joined_comments_lose_line_feed`, `Lexer.one_eof_token`, `Lexer.eof_token_has_text`, `Lexer.operators_longest_match`, `Stream.pair_matching`, `Stream.remove_position`, `Stream.moveAfter_keeps`, `Stream.moveBefore_keeps`, `Stream.copy_fresh`, `Lexer.token_position`, `Expr.yield_partial`, `Expr.yield_tidy_partial`, `Expr.parse_total`, `Expr.yield_fails_colon`, `Expr.yield_fails_recover`, `Expr.parse_yield_partial`, `Expr.gram_unambiguous`, `Expr.star_inc_fails`, `Expr.cast_field_fails`, `Expr.sizeof_field_fails`, `Expr.plus_strings_fails`, `Doc.doc_exec_renders`, `Doc.doc_exec_text`, `Doc.doc_exec_leaves`, `Doc.doc_exec_text_uniform`, `Doc.doc_exec_no_trailing`, `Doc.doc_exec_lines_partial`, `Doc.doc_exec_lines_block_partial`, `Doc.doc_exec_lines_space`, `Doc.fits_iff`, `Doc.group_flat`, `Doc.group_broken`, `Doc.doc_width_flat`, `Doc.fits_ignores_rest`, `Doc.fits_ignores_width`, `Doc.minimize_chooses`, `Doc.doc_exec_ok`, `Doc.doc_exec_out_of_bounds`, `Util.strwidth_spec`, `Util.colwidth_spec`, `Util.strwidth_append`, `Util.strwidth_plain`, `Comment.comment_trim_defined`, `Comment.comment_trim_nonblank`, `Comment.comment_trim_lines`, `Comment.comment_trim_no_trailing`, `Comment.comment_trim_idempotent`, `Include.sort_includes_partial`, `Include.sort_includes_disabled`, `Include.cmp_trans`, `Include.cmp_swap`, `Include.isSort_qsort`, `Include.sort_includes_fails`, `Guard.guard_off`, `Guard.guard_kept_partial`, `Guard.guard_inserted`, `Guard.guard_stable_partial`, `Guard.guard_name_fails`, `Guard.guard_kept_fails`, `Guard.guard_nested`, `Ruler.tabs_aligned_partial`, `Ruler.sense_aligned_partial`, `Ruler.table_aligned_partial`, `Ruler.alignment_not_empty`, `Ruler.entry_separated_partial`, `Ruler.exec_total`, `Ruler.tabs_fails`, `Ruler.sense_fails`, `CppAlign.align_text_partial`, `CppAlign.align_columns_partial`, `CppAlign.align_columns_width`, `CppAlign.align_text_fails`, `CppAlign.align_columns_fails`, `CppAlign.sense_right`, `Printf.simplify_printf_partial`, `Printf.simplify_printf_fails`, `Stmt.braces_all_or_none_partial`, `Forward.forward_sorted`, `Forward.forward_permutation`, `Vector.vector_history`, `Vector.alloc_spec`, `Vector.first_last_spec`, `KList.list_history`, `KList.step`, `KList.linked_spec`, `KList.foreach_safe_remove`, `KMap.map_history_partial`, `KMap.insert_spec`, `KMap.insert_succeeds`, `KMap.remove_spec`, `KMap.iterate_spec`, `Buffer.buffer_history`, `Buffer.puts_spec`, `Buffer.printf_spec`, `Buffer.cmp_spec`, `Buffer.str_spec`, `Buffer.getlines_spec`, `Arena.arena_history_partial`, `Arena.scope_restores`, `Arith.signed_add_correct`, `Arith.signed_sub_correct`, `Arith.signed_mul_correct`, `Arith.unsigned_mul_correct_partial`, `Str.str_match_default_spec`, `Str.str_match_until_default_spec`, `Str.str_match_native_eq_default`, `Str.str_match_until_native_eq_default_partial`, `Str.str_match_until_native_ne_default`, `Style.style_total`, `Style.style_no_file`, `Style.style_from`, `Style.style_default_partial`, `Style.style_invalid_false`, `Style.negative_number`, `Style.large_number`, `Style.integer_word`, `Search.nearest_configuration`, `Search.configuration_used`, `Search.found_nearest`, `Diag.diagnostics_shown`, `Diag.parser_diagnostics`, `Diag.render_no`, `Doc.diff_mode_partial`, `Doc.diff_mode_nothing`, `Doc.diff_mode_fails`, `Doc.getsLines`, `Parser.region_verbatim_partial`, `Parser.region_end_partial`, `Parser.region_shown`, `Parser.region_twice`, `Parser.region_same_line`, `Parser.region_end_trimmed`, `Parser.region_after_token`, `Parser.region_line_added`, `Branch.read_spec`, `Branch.read_good`, `Branch.unlink_keeps`, `Branch.removeToken_keeps`, `Branch.branch_removes`, `Branch.branch_good`, `Branch.fold_keeps`, `Lexer.token_lexeme`, `Lexer.lexeme_unique`, `Lexer.comment_extent`, `Lexer.directive_extent_partial`, `Lexer.quoted_comment_extends_directive`, `Lexer.slash_star_slash_in_directive`, `Lexer.diff_flag`, `Stream.peek_until_comma_first`, `Ruler.sense_stable`, `Ruler.indent_aligned_partial`, `CppAlign.align_twice_partial`, `CppAlign.align_twice_fails`, `Include.main_include_first`, `Style.parsed_reads`, `Style.style_reads`, `Style.categories_reads`, `Style.style_lines`, `Style.reads_unique`, `Style.style_line_false`, `Style.byte_ignores_all`, `Style.byte_example`, `Style.no_guards_ends`, `Style.outside_group_ends`, `Style.case_insensitive_kept`, `Style.language_in_list`, `Parse.C64_tokens_kept_in_order_partial`, `Parse.C64_other_tokens_kept_in_order_partial`, `Parse.C64_all_tokens_kept_partial`, `Parse.C64_same_tokens_for_all_layouts_partial`, `Parse.C64_statement_false`, `Parse.C64_semicolon_misplaced`, `Parse.C64_comma_lost`, `Parse.C64_expression_swallowed`, `Parse.C65_no_token_printed_twice`, `Parse.C65_no_token_invented`, `Parse.C66_parser_ends_partial`, `Parse.C66_check_changes_nothing_partial`, `Parse.C66_bound_partial`, `Parse.C66_ends_iff_partial`, `Parse.C66_outcome_unique_partial`, `Parse.C66_endless`, `Parse.C66_statement_false`, `SimpleDecl.simplify_declared_partial`, `Small.static_first_partial`, `Small.static_nested_fails`, `Small.implicit_int`, `Small.empty_loop`, `Small.switch_break`, `Small.switch_last_partial`, `Small.switch_break_iff`, `Small.switch_break_fails`, `Small.proto_names_partial`, `Small.proto_array_fails`, `Small.proto_variadic_fails`, `Small.proto_pointer_fails`, `Whole.format_keeps_tokens_partial`, `Whole.format_text_partial`, `Whole.lineDoc_document`, `Whole.format_loses_end`, `Whole.format_loses_byte`, `Whole.format_drops_backslash`, `Stream.semi_comments_partial`, `Stream.trim_semis`, `Whole.format_loses_comment`, `Branch.recovery_keeps_partial`, `Branch.recovery_keeps_corrected`, `Branch.recovery_ends`, `Branch.recover_loses_tokens`, `Branch.parseRoot_ok`, `Branch.alternatives_printed_partial`, `Branch.alternatives_printed_corrected`, `Branch.semiRoot_ok`, `Branch.alternatives_whole_partial`, `Branch.both_end`, `ExprDoc.expr_reads_back_partial`, `ExprDoc.expr_keeps_meaning_partial`, `ExprDoc.minus_minus_fails`, `ExprDoc.slash_star_fails`, `ExprDoc.sizeof_strings_fails`, `Doc.doc_exec_spelled`, `Lexer.read_back`, `Lexer.constants_read_partial`, `Lexer.constant_token_partial`, `Lexer.literal_token_partial`, `ExprDoc.exponent_sign_fails`, `ExprDoc.binary_exponent_fails`, `ExprDoc.literal_prefix_fails`, `Parse.C79_tokens_not_glued_partial`, `Parse.C79_text_to_text_partial`, `Parse.C79_static_glued`, `Parse.C79_enumerator_glued`, `Parse.C79_statement_false`, `Parse.Spec.near_joins`, `Parse.Sep.recs_sep`, `Parse.Sep.parserDoc_apart`, `Include.sort_includes_twice_partial`, `Include.output_twice`, `Small.static_twice`, `Small.implicit_int_twice`, `Small.empty_loop_twice`, `Small.switch_twice`, `Small.proto_twice_partial`, `Printf.printf_twice_partial`, `Printf.printf_twice_fails`, `Stmt.braces_twice_partial`, `Io.diff_complete`, `Io.diff_result`, `Io.diff_shown`, `Io.diff_ends`, `Io.options_refused`, `Io.options_trace_partial`, `Parse.C84_work_doubles`, `Parse.C84_statement_false`, `Style.C85_partial`, `Style.C85_base_first`, `Style.C85_arranged_partial`, `Style.C85_disabled`, `Style.C85_based`, `Style.C85_statement_false`, `ExprDoc.C86_partial`, `ExprDoc.ternary_twice`, `ExprDoc.align_twice`, `ExprDoc.parens_twice`, `ExprDoc.C86_statement_false`, `Lexer.read_gaps`, `ExprDoc.C87_spaces`, `ArenaBuffer.C88_buffers_partial`, `ArenaBuffer.C88_statement_false`, `ExprDoc.C89_partial`, `ExprDoc.C89_source_partial`, `ExprDoc.survey_fair`, `ExprDoc.C89_statement_false`, `ExprDoc.swallow_parens`, `ExprDoc.swallow_field`, `ExprDoc.swallow_blank`, `ExprDoc.swallow_long`, `Doc.exec_laid`, `Layout.C90_partial`, `Layout.C90_source_partial`, `Layout.C90_statement_false`, `Layout.Example.dowhile_blank`, `Layout.Example.dowhile_again`, `Layout.run_edoc`, `Layout.run_decls`, `Layout.decls_lined`, `Doc.run_sound`, `Layout.C91_partial`, `Layout.C91_source_partial`, `Layout.run_file`, `Layout.C92_partial`, `Layout.run_blocks`, `Layout.block_lined`, `Layout.C93_partial`, `Layout.run_units`, `Layout.C94_partial`, `Layout.decls_decided`, `Ruler.sense_tabs`, `Layout.C95_partial`, `Layout.C95_fails`, `Layout.decls_again_partial`, `Ruler.sense_twice`, `Ruler.sense_again`, `Layout.C96_partial`, `Layout.C96_fails`, `Layout.body_again_partial`.

* `propext`, `Quot.sound`: `Io.filewrite_atomic`, `Io.filewrite_frame`, `Io.filewrite_temporary`, `Io.filewrite_symlink`, `Io.filewrite_error_iff`, `Io.filewrite_failed`, `Io.filewrite_failed_path`, `Io.filewrite_changed`, `Io.filewrite_prefix`, `Io.filewrite_terminates`, `Io.filewrite_zero_writes`, `Io.fileLoop_oneByOne`, `Io.alone_status`, `Io.filewrite_attr`, `Io.filewrite_attr_exact_partial`, `Diff.get_chunk_spec`, `Stream.look_ahead_unobservable`, `Stream.peeks_unobservable`, `Stream.pair_consumed`, `Stream.view_exists`, `Stream.remove_keeps`, `Stream.remove_in_order_partial`, `Stream.remove_reorders`, `Stream.remove_first_reorders`, `Stream.insert_keeps`, `Stream.copy_keeps`, `Stream.is_first_iff`, `Expr.yield_sublist`, `Util.strindent_bytes`, `Util.strindent_position`, `Util.strindent_width`, `Util.strindent_width_unaligned`, `Include.stylePriority_spec`, `Include.groups_sorted`, `Include.mem_groups`, `Guard.guard_name_partial`, `Util.path_slice_components`, `Util.is_path_header_iff`, `Ruler.min_aligned`, `Ruler.max_aligned`, `Ruler.max_overlong`, `Ruler.fixed_spaces`, `Ruler.max_tabs_aligned_partial`, `Ruler.putCell_truthful`, `Ruler.max_tabs_fails`, `CppAlign.cppAlign_total`, `Simple.nested_restores_partial`, `Simple.exclusive_partial`, `Stmt.braces_mixture`, `Forward.forward_stable`, `Vector.pop_spec`, `KList.list_reads`, `KMap.find_spec`, `Buffer.pop_spec`, `Arena.realloc_of_outer_scope_overlaps`, `Arena.leave_out_of_order_hands_out_header`, `Arith.unsigned_add_correct`, `Arith.unsigned_sub_correct`, `Str.split_join`, `Str.split_no_separator`, `Branch.endOfBranch_forward`, `Stream.halted_on_branch`, `Stream.until_first`, `Stream.peek_until_first`, `Stream.seek_pop`, `Stream.seek_after_pop`, `Stream.expect_reports_once`, `Stream.expect_reports`, `Simple.only_forced`, `Simple.only_forced_off`, `SimpleDecl.simplify_star_fails`, `SimpleDecl.simplify_comma_fails`, `SimpleDecl.simplify_enum_fails`, `SimpleDecl.simplify_order_fails`, `Stream.semi_alone`, `Stream.semi_loses_comment`, `Branch.alternatives_lost`, `Branch.both_lose`, `Include.block_unique`, `Stmt.braces_twice_fails`, `ArenaBuffer.outer_buffer_overwritten`, `ArenaBuffer.outer_buffer_traps`, `Ruler.sense_spaces`, `Layout.decls_twice_differ`.

* none: `Stream.swap_stops_early`, `Arith.unsigned_mul_by_zero`.

All names are in the namespace `Knfmt`.

# Formal model of compiler-explorer/asm-parser

`/verif/lean` is a Lean 4 (4.33.0) Lake project.  `Verif/Model/*` is the model, `Verif/Spec/*` are small
specifications the properties are stated with, `Verif/Proofs/*` are helper lemmas, `Verif/Props/*` are the
property theorems (one file per group), with an `example` showing that the hypotheses are met by a concrete
non-trivial case.  `Verif/Tests.lean` and `Verif/Validate.lean` are *tests of the model*, not proofs.
`/verif/seeded/LOG.jsonl` records seeded faults: edits of the model that make a claim false, and the theorems that failed.

## Trusted base

* Lean's kernel, and for each theorem at most the axioms `propext`, `Classical.choice`, `Quot.sound`
  (see "Axioms" at the end).  No own axioms, no `sorry`, no `native_decide`/`bv_decide`.  Concrete witnesses and
  tables of all 256 bytes are checked by `decide +kernel`.
* The transcription of the C++ into `Verif/Model`, by reading.  Every definition cites file and lines.
  Evidence for it (tests): the model reproduces, byte for byte, all seven approved JSON outputs in
  `/repo/resources` whose input is available (`Verif/Validate.lean`), and all unit tests of
  `/repo/src/test/test_test.cpp` hold of the model (`Verif/Tests.lean`).
* CTRE: that the regular-expression library implements Perl-style leftmost, ordered-choice backtracking
  semantics on bytes (`Verif/Model/Regex.lean`): `.` matches any byte, `\h` is space/tab, `^`/`$` match only at
  the ends of the subject, an unset group is an empty view, and `to_number()` is `std::from_chars` (result 0 on
  overflow).  `commentOnly` repeats sub-patterns that always consume a byte, so empty iterations do not arise.
* The C library: `mblen` is a parameter (`Locale`), with the concrete `Locale.utf8` where needed; `isspace` is
  the ASCII one; `atoi` has its ISO C meaning with overflow undefined; `isspace`/`toupper`… are not otherwise used.
* `std::string`, `std::vector`, streams: a stream is the list of bytes it delivers, memory allocation succeeds,
  `out << n` prints plain decimal on `std::cout` and string streams created before the global locale is
  changed, and with digits grouped by commas on streams created after `std::locale::global(en_US.UTF-8)`, i.e. for the debug dump.

## What is modelled

| C++ | Lean |
|---|---|
| `src/types/*` | `Model/Types.lean` |
| `src/utils/utils.*`, `library_detection.*` (timer: a parameter) | `Model/Basic.lean`, `Model/Utils.lean` |
| `src/utils/regexes.hpp` (all used expressions) | `Model/Regex.lean`, `Model/Regexes.lean` |
| `src/utils/regexwrappers.cpp` | `Model/TextUtils.lean` (two objdump functions in `Model/Objdump.lean`) |
| `src/utils/jsonwriter.cpp`: `JsonWriter` | `Model/Json.lean` |
| `src/utils/jsonwriter.cpp`: `DebugJsonWriter` | `Model/DebugJson.lean` |
| both writers with `prettyPrint` set | `Model/JsonPretty.lean` |
| `src/objdump/parser.*` | `Model/Objdump.lean` |
| `src/assembly/parser.*` | `Model/AsmText.lean`; the usage analysis again with a counter of calls: `Model/Cost.lean` |
| `src/main.cpp` | `Model/Main.lean` |

Not modelled: the wall clock (a parameter), the messages on `std::cerr`, regular expressions no function uses, `undo_last_line_if_label` (never called),
benchmarks and build files, running out of
memory or stack (the symptom of C41 in practice), more than 2^31 lines.

Modelling decisions:

* `char`/`string` = `UInt8`/`List UInt8`.  16-bit columns and 32-bit `int` arithmetic are modelled where they can
  overflow (label columns, address shift, `atoi`, `to_number`).
* Undefined behaviour is a sticky ghost flag `ub` (objdump: shift by ≥ 32, `atoi` overflow, `erase` past the end;
  text: out-of-bounds line index, reading a dangling view).
* `string_view`s of the text parser carry a ghost owner (the line they point into); liveness is decidable in the model.
* Iteration order of hash containers is an arbitrary permutation (`Order`), a parameter of every theorem.
* The `thread_local` set of `isUsed` is explicit state; its recursion takes fuel and "diverges" means `none` for
  every fuel.  In C++ the set holds views; after a parser is destroyed they dangle, so the effect of leftovers that
  C42 shows is in fact undefined behaviour there; the model compares contents.
* `TextResult L f s p` (`Spec/TextMode.lean`) says that `p` is a possible result of text mode on input `s` with filter
  `f`: for some iteration order, fuel and leftover visited set.

## Specifications

Binary mode: `Names` (ignored functions), `Numbers`, `Objdump`, `Listing` (rendered objdump listings), `Pages` (output that is
truncated or taken back), `Decode` (what any line of any input is taken for), `Angles` (names in angle brackets), `LineInfo` (with and without source positions and bytes), `Apart` (a listing behind
another one).  Text mode: `Text` (tab stops, words, string literals), `Directives` (forms of lines), `TextMode` (lines of an input, what is
visible), `Lines`, `Sources` (positions, sections), `References` (names a line mentions), `Graph` and `Usage` (references between labels),
`Chains` (the examination of labels), `Removal` and `Loss` (lines removed after reading), `Compat` (inputs without data), `Remarks`
(comments), `Pieces` (parts of an input), `Lifetimes`.  Both: `Json` (RFC 8259 reader), `DebugJson`, `Utf8`, `Main` (options), and the
samples used by examples (`Samples`, `TextSamples`).

## Properties

### C01 Output of the objdump parser is capped (proved)

`Props/ObjLines.lean`: `C01_output_capped`, `C01_outputs_fixed`.

Invariant of `feed`: at most 5000 lines, or stopped with 5001 of which the last is the marker.

Scope: whole parser state is unchanged by input after the cap.


### C02 Every labelDefinitions entry of binary mode points at its own label line (partial)

`Props/ObjLines.lean`: `C02_label_definitions_point_at_labels_partial`, `C02_with_cap`, `C02_violation`.

Invariant: the label table lists the label lines with their numbers; the exception at line 5001 by a constructed input.

Scope: true below the cap; at the cap only an entry for line 5001 can be wrong, and a constructed input shows it is.


### C03 labelDefinitions of binary mode is complete, ordered and duplicate-free (partial)

`Props/ObjLines.lean`: `C03_label_definitions_exact_partial`, `C03_with_cap`, `C03_strictly_increasing`, `C03_violation`.

Same invariant as C02.

Scope: exact below the cap; at the cap at most one extra entry; numbers strictly increase always; C03_violation: at the cap an entry for a line that is no label is possible.


### C04 Binary mode is insensitive to CR bytes (proved)

`Props/ObjLines.lean`: `C04_cr_ignored`.

`feed` ignores byte 13; induction over the input.


### C05 filteredCount accounts for every input line (binary mode) (proved)

`Props/ObjLines.lean`: `C05_filtered_count`, `C05_filtered_count_consumed`.

Counting invariant.


### C06 Instruction addresses are decoded exactly (partial)

`Props/ObjNumbers.lean`: `C06_address_exact_partial`, `C06_address_sign_wrap`, `C06_address_undefined`, `C06_violation`.

Closed form of the address loop for digit strings, in every context; the 32-bit cases separately.

Scope: Exact for values below 2^31; [2^31,2^32) is reported minus 2^32; from 2^32 on the shift is undefined. All three cases proved for every context.


### C07 Label reference ranges denote the referenced name (partial)

`Props/ObjAngles.lean, Props/ObjText.lean`: `C07_reference_columns_partial`, `C07_characters_partial`, `C07_violation`.

Invariant on the text collected so far and the open label reference. For UTF-8: an ASCII byte always stands between two characters, so the count of characters at a bracket is the count of the bytes that do not continue one; corollary of C69.

Scope: ASCII lines of at most 65534 bytes; for UTF-8 lines with closed brackets the columns are those of the name in characters and the reported name ends with it (C07_characters_partial); a multibyte witness shows the general claim is false.


### C08 Ignored functions never appear in binary output (partial)

`Props/ObjNames.lean`: `C08_no_ignored_labels`, `C08_ignored_body_partial`, `C08_violation`.

The expression for ignored functions is characterised by a predicate on names (`Spec/Names.lean`); invariant.

Scope: No ignored label is ever output; the body is left out up to the next line whose first word is ended by a blank. A function-name line with a blank in it ends the ignored function early (C08_violation).


### C09 library_functions leaves only functions with user code (proved)

`Props/ObjLines.lean`: `C09_library_functions_removed`.

Invariant over the removal of functions.


### C10 library_functions never drops user code (proved)

`Props/ObjLines.lean`: `C10_user_code_kept`.

Simulation between the runs with and without the filter.


### C11 Binary-mode parsing can resume at line boundaries (proved)

`Props/ObjLines.lean`: `C11_chunked`.

Law of the left fold.


### C12 Output is append-only without library_functions (proved)

`Props/ObjLines.lean`: `C12_append_only`.

`feed` never removes lines without the filter.


### C13 An unterminated last line is not output in binary mode (proved)

`Props/ObjLines.lean`: `C13_unterminated_line`.

Only a line feed adds a line.


### C14 A well-formed objdump listing is decoded exactly (proved)

`Props/ObjListing.lean, Props/ObjPages.lean`: `C14_listing_exact`, `C14_listing_all`, `C14_capped`.

Listings are rendered from a data type (`Spec/Listing.lean`); the automaton is executed symbolically on every kind of item. For any size and filter: one line changes the parser like its bare copy without output, and the removal of functions follows `Spec/Pages.lean`.

Scope: All well-formed listings; C14_listing_all: any size and any filter (library_functions and the cap of 5000 lines are part of the expected output, Spec/Pages.lean). ASCII instruction texts up to 65533 characters; addresses below 2^31.


### C15 Opcode tokens are hexadecimal words (partial)

`Props/ObjText.lean`: `C15_opcode_tokens_partial`, `C15_opcode_tokens_no_tab`, `C15_violation`.

Invariant on the opcode being read.

Scope: Hex digits and tabs for all inputs; hex digits only if no tab directly follows a hex digit; witness with a tab inside a token.


### C16 Binary mode executes no undefined behaviour on listings with small numbers (proved)

`Props/ObjNumbers.lean`: `C16_no_undefined_behaviour`, `C16_violation`.

Invariant on runs of digits.

Scope: Condition is per line; the witnesses show both overflows happen without it.


### C17 Binary-mode lines carry the most recent source reference (partial)

`Props/ObjListing.lean`: `C17_source_partial`, `C17_source_file`, `C17_violation`.

From the listing theorem.

Scope: Exact when no function is left out; in general the file is right but the line number may be lost inside a left-out function (C17_violation).


### C18 Binary-mode lines carry the most recent section (proved)

`Props/ObjListing.lean`: `C18_section`.

From the listing theorem.

Scope: All well-formed listings (as in C14).


### C19 String escaping in the JSON output is reversible (proved)

`Props/Json.lean`: `C19_unescape`, `C19_injective`, `C19_closing_quote`.

Induction over the string.

Scope: unescape and closeQuote are independent scanners in Props/Json.lean.


### C20 The JSON output is well-formed and says exactly what was parsed (partial)

`Props/Json.lean, Props/JsonExact.lean, Props/TextJson.lean`: `C20_document_partial`, `C20_binary`, `C20_text`, `C20_violation_control`, `C20_violation_opcode`, `C20_violation_crlf`, `C20_binary_hex`, `C20_document_exact`, `C20_binary_exact`, `C20_binary_tab`, `C20_text_exact`, `C20_text_control`.

An executable JSON reader is the specification (`Spec/Json.lean`); compositional reading lemmas for everything the writer emits. For the end-to-end theorems an invariant says that the strings a parser keeps consist of characters of its input (Proofs/ObjChars, Proofs/TextChars). C20_*_exact: a lexer that follows the strings of a text (Proofs/JsonLex.lean); whatever the reader accepts has no control characters in strings; each piece the writer writes begins and ends outside strings.

Scope: Round trip through an RFC 8259 reader (Spec/Json.lean). C20_document_exact, C20_binary_exact, C20_text_exact: for all documents resp. inputs, the output is read back as the document if no string in it has a control character (tabs are allowed outside opcodes), and is no JSON otherwise. C20_binary_tab: for inputs without control characters, exactly the opcode tokens with tabs, which the code does not escape, break the output (C20_violation_opcode). C20_text_control: any control character in the text output, such as CR, makes the JSON output of text mode invalid.


### C21 The main source file name is masked (proved)

`Props/Json.lean`: `C21_main_file_masked`, `C21_file_member`.

Noninterference by rewriting; the member through the reader.

Scope: Noninterference (renaming the main file does not change the output) and the exact file member.


### C22 Reproducible mode makes the JSON independent of the clock (partial)

`Props/Json.lean`: `C22_reproducible_partial`, `C22_violation`.

The clock only occurs in one member.

Scope: Binary mode proved; the text-mode parser ignores the flag (C22_violation).


### C23 A line has a source object exactly when it has a source line and is not a bare label (proved)

`Props/Json.lean`: `C23_source_member`.

Through the reader.

Scope: Stated on the value a JSON reader recovers.


### C24 Tab expansion is alignment to 8 columns (partial)

`Props/TextUtils.lean`: `C24_replace`, `C24_exact`, `C24_aligned_partial`, `C24_violation`.

List inductions.

Scope: No tab left, each replaced by 1-8 spaces, and the exact number of spaces, for all strings. Alignment to tab stops (tabStops, Spec/Text) proved when all tabs but the last have a multiple of 8 non-tab characters before them; C24_violation is the counterexample for other lines.


### C25 Whitespace squashing only removes whitespace (partial)

`Props/TextUtils.lean, Props/Tidied.lean`: `C25_nonBlanks`, `C25_runs`, `C25_words_partial`, `C25_exact`, `C25_violation`.

List inductions; the result is given exactly by a closed formula (Spec/Tidied).

Scope: Only blanks removed, only spaces left, adjacent blanks only as the first two characters: all strings. C25_exact gives the result of every string by a closed formula. Words preserved if indentation or first word has length >= 2; violated otherwise (C25_violation).


### C26 Quoted strings survive whitespace squashing (proved)

`Props/TextUtils.lean, Props/Tidied.lean`: `C26_literals`, `C26_between`, `C26_total`, `C26_nonBlanks`, `C26_exact`.

String literals as a relation on strings (`Spec/Text.lean`); the result is given exactly by a relation (Spec/Tidied).

Scope: Literals as defined in Spec/Text (escapes included), all strings. C26_exact gives the result of every string.


### C27 Comment stripping returns a comment-free prefix containing the code (partial)

`Props/TextUtils.lean`: `C27_prefix`, `C27_comment`, `C27_no_comment_partial`, `C27_violation`.

Regular expressions through the language they match, then list reasoning.

Scope: Prefix and comment freedom for all lines; exact result for lines with a comment, for lines with at most one word, and for lines ending in blanks. C27_violation: every comment-free line of several words that does not end in a blank loses its last word.


### C28 Columns of used labels denote the label (partial)

`Props/Columns.lean, Props/TextUtils.lean`: `C28_columns`, `C28_columns_partial`, `C28_exact`, `C28_violation`.

Invariant of the search loop. `C28_exact` (Spec/Columns, Proofs/Columns) compares the whole result with a specification that reads the operands from left to right and counts characters; the position where the search starts is related to the blanks before the comment by an invariant of the loop that finds the operands.

Scope: All ASCII locales. C28_exact gives all references of any line with their columns, which are too large by the length of the comment and the blanks before it; C28_columns says the same as a bound (lines shorter than 65535 bytes), C28_columns_partial that columns are right when nothing is cut off.


### C29 Label and directive recognition agrees with its grammar (proved)

`Props/TextUtils.lean`: `C29_label`, `C29_data`, `C29_global`, `C29_weak`, `C29_type`, `C29_assignment`, `C29_directive`, `C29_comment`.

Each expression is proved equivalent to an explicit form of line (`Spec/Directives.lean`).

Scope: Each recogniser is equivalent to an explicit line form (Spec/Directives).


### C30 Without filters text mode reproduces the input (partial)

`Props/TextMode.lean`: `C30_identity_partial`, `C30_whitespace_partial`, `C30_violation`.

Invariant over lines: `readStream_lines` reduces the byte loop to lines, `eol_elim` splits `eol` into its seven ways out.

Scope: Exact output for all inputs without whitespace-only lines and without inline assembly markers; C30_violation gives counterexamples for both kinds of input (whitespace-only lines are put in front of the next line; labels in inline assembly lose their indentation).


### C31 A missing final newline does not matter in text mode (proved)

`Props/TextMode.lean`: `C31_final_newline`, `C31_result`, `C31_blank`.

As C30.

Scope: Whole parser state equal with and without the final newline, for all inputs, filters, iteration orders.


### C32 Text mode is insensitive to CR line endings (partial)

`Props/Crlf.lean, Props/TextMode.lean`: `C32_crlf_partial`, `C32_output_partial`, `C32_exact_partial`, `C32_violation`.

As C30, with the two runs related. The exact output (Props/Crlf.lean) is C57 applied to both files: a CR at the end of a line changes neither what the line is (comment, directive, label, data) nor how the rest of it is cleaned.

Scope: False as stated (C32_violation: CR is kept, a CR-only line is not blank). Proved: equal up to white space and blank lines when no line-dropping filter is set; and, with any of the filters for comments, directives and white space, the exact output: apart from empty lines, the CR LF file gives the lines of the LF file, each with its CR (C32_exact_partial).


### C33 labelDefinitions of text mode lists exactly the label lines (proved)

`Props/TextMode.lean`: `C33_label_definitions`, `C33_exactly_label_lines`.

Invariant: label lines are the lines that define or assign a label.

Scope: For all inputs and filters; label lines characterised by DefinesOrAssigns (Spec/TextMode). The only exception: a .file/.loc/... line that ends like a CUDA header is not a label line.


### C34 Text mode only drops lines (partial)

`Props/TextMode.lean`: `C34_shown`, `C34_subsequence_partial`, `C34_ink`, `C34_complete`, `C34_violation`.

Invariant: every stored line shows one input line.

Scope: C34_shown, C34_ink: all inputs, up to carried-over blanks and the un-indenting of inline assembly labels. C34_subsequence_partial: literally a subsequence of the cleaned input for inputs without whitespace-only lines and inline assembly (counterexamples: C34_violation). C34_complete: nothing lost when no dropping filter is set.


### C35 The directives filter removes all directives (partial)

`Props/Lines.lean, Props/TextMode.lean`: `C35_directives_partial`, `C35_violation`, `C35_headers_partial`.

Invariant on stored lines.

Scope: All inputs. C35_headers_partial: in CUDA code the directives between a function header and its closing parenthesis stay, and no others. The exception for .inst is any line containing .inst, C35_violation shows a .file directive that is kept because of this.


### C36 The comment_only filter removes all comment lines (partial)

`Props/Lines.lean, Props/TextComments.lean`: `C36_comments_partial`, `C36_whitespace_partial`, `C36_violation`, `C36_cuda_partial`.

Invariant on stored lines and the expression for comment lines.

Scope: Without the whitespace filter no comment line is left, with it only lines whose first character is a slash can be comments (C36_violation: squashing joins "/ /"). In CUDA code (C36_cuda_partial) lines that begin with @ are no comments. Inline assembly lines only if the input has no VT, FF, CR (C36_violation).


### C37 Label references only name labels defined in the input (proved)

`Props/TextMode.lean`: `C37_references_defined`.

The last pass filters references.

Scope: All inputs and filters.


### C38 library_functions keeps user code in text mode (partial)

`Props/TextMode.lean`: `C38_violation`.

Only a violation can be proved: the output is empty for every input.

Scope: The property is false for every input: with library_functions the output of text mode is always empty (proved for all inputs). Nothing of the positive statement can hold.


### C39 A label is only reported used if it is reachable from a root (proved)

`Props/Usage.lean`: `C39_query`, `C39_kept`, `C39_references`.

Labels and references as a graph (`Spec/Usage.lean`); soundness of the recursion `isUsed` for any fuel, iteration order and visited set.

Scope: For all tables of references, iteration orders and leftovers (C39_query); for the label lines that text mode keeps (C39_kept); and where every reference comes from in the input (C39_references).


### C40 A label reachable from a root is reported used (partial)

`Props/Graph.lean, Props/Usage.lean`: `C40_query_partial`, `C40_leaf_partial`, `C40_violation`, `C40_violation_count`.

Completeness of a single query by a visited-set argument; witness for the violation. The general bound on the number of labels kept (C40_violation_count) follows because every positive answer leaves a new root in the visited set (Proofs/UsageBound.lean).

Scope: Violated for every iteration order (C40_violation): the visited set is not cleared between labels. C40_violation_count: for all inputs in which no data mentions a name, at most as many labels are kept as there are roots. Proved: a single question with an empty visited set is answered correctly for references from code; a root that nothing leads to is kept.


### C41 Text-mode parsing terminates (partial)

`Props/Circles.lean, Props/Usage.lean`: `C41_balanced_partial`, `C41_acyclic_partial`, `C41_no_data_partial`, `C41_diverges`, `C41_violation`.

Termination by a measure: the pairs of label and depth that a chain of references leads to (Proofs/Circles.lean); beyond the number of labels the depth cannot return to 0, and a failed call restores the visited set. Divergence: a balanced circle is entered where its depth is lowest, so that the visited set is cleared once per round; no label of the circle is ever left marked because none is in use.

Scope: Violated. C41_diverges: no end, for every filter and iteration order, if there is a circle of references between different labels with as many references from code as from data, and none of these labels is in use; C41_violation is an instance. Proved (C41_balanced_partial): terminates if no circle of references has as many references from code as from data; in particular if no reference from data is part of a circle, and on inputs without data directives. Not decided: balanced circles that visit a label twice or that contain a label in use.


### C42 The result does not depend on hash iteration order (partial)

`Props/Loss.lean, Props/Usage.lean`: `C42_partial`, `C42_steps`, `C42_violation_order`, `C42_violation_history`, `C42_violation_data`.

The passes after reading only touch usage marks; witnesses by two orders and two visited sets.

Scope: Violated with unused_labels, both by the iteration order and by an earlier parse on the same thread, and with compatmode and directives by the iteration order (C42_violation_data). Proved: without unused_labels text and JSON output are the same for all orders and leftovers, unless data outside procedures is filtered (compatmode and directives).


### C43 Label bookkeeping never indexes out of bounds (proved)

`Props/TextMode.lean`: `C43_label_positions`, `C43_reuse_violation`.

Invariant: positions in the label table are below the number of lines.

Scope: Single parse: all inputs. C43_reuse_violation: second parse with the same object goes out of bounds.


### C44 Views into parsed lines stay valid (partial)

`Props/TextLive.lean`: `C44_labels`, `C44_views_partial`, `C44_output_partial`, `C44_violation_section`, `C44_violation_file`.

Ghost owner of every view; invariant that owners are alive (`Spec/Lifetimes.lean`).

Scope: Tables of labels: proved for all inputs. Views of file and section names: proved without library_functions resp. comment_only; both restrictions are necessary (violations proved).


### C45 Source files are resolved through the file table (partial)

`Props/Sources.lean`: `C45_files_partial`, `C45_violation`.

The file table equals the declarative `FileNamed` (`Spec/Sources.lean`) after every line.

Scope: All inputs. A .file directive whose text contains .data, .text, .section or .cfi_endproc (or a brace in CUDA code) is ignored (C45_violation). That an undefined index gives no source is part of C60_positions_partial.


### C46 Without unused_labels only data lines are removed after reading (proved)

`Props/TextMode.lean`: `C46_only_data_removed`.

From the definition of the last pass.

Scope: All inputs.


### C47 Command line options are order-independent switches (proved)

`Props/Main.lean`: `C47_switches`, `C47_order`.

Induction over the argument list.

Scope: Arguments that the program does not know are file names; the last one counts.


### C48 Exit status and output mode (proved)

`Props/Main.lean`: `C48_failure`, `C48_binary`, `C48_text`, `C48_exit`, `C48_run`.

Case distinction of the main program.

Scope: Exit status, what is written to standard output and to the debug dump. File system and streams are parameters of the model.


### C49 Converting a line for output preserves it (partial)

`Props/Main.lean`: `C49_preserved_partial`, `C49_binary`, `C49_violation`.

Field by field.

Scope: Violated (C49_violation): a line that is used only through an alias of its data loses that flag when it is copied for output. Proved: exactly the lines whose two alias flags agree are copied unchanged, the JSON is the same in any case, and in binary mode all lines are copied unchanged.


### C50 Column counting counts characters (proved)

`Props/TextUtils.lean`: `C50_code_points`, `C50_bytes`.

Induction over code points.

Scope: Locale.utf8 (mblen as in a UTF-8 locale).


### C51 No two consecutive blank lines in text mode (proved)

`Props/TextMode.lean`: `C51_no_double_blank`, `C51_output`, `C51_after_removal`.

Invariant on adjacent lines.

Scope: All inputs; C51_after_removal shows that the restriction to the lines before removal is needed.


### C52 Lines with filtered labels keep their label reference only for other functions (proved)

`Props/ObjNames.lean`: `C52_no_ignored_references`.

Invariant.

Scope: For all inputs.


### C53 User-code attribution means 'file outside the library directories' (proved)

`Props/ObjLines.lean`: `C53_user_code_iff`.

Invariant on the source reference.


### C54 library_functions removes functions whose code comes from libraries only (partial)

`Props/ObjLines.lean, Props/ObjPages.lean`: `C54_library_function_removed_partial`, `C54_violation`, `C54_listing_exact`.

Invariant; witness listing. Exact output for listings: induction on the items, functions split at label lines (`Spec/Pages.lean`).

Scope: The code violates the full statement: witness listing in C54_violation. C54_listing_exact: for well-formed listings exactly which functions stay.


### C55 Function label lines carry the function's address (partial)

`Props/ObjListing.lean`: `C55_header_address_partial`, `C55_violation`.

Symbolic execution of a header line.

Scope: Holds unless the preceding function is left out; then the address is missing (C55_violation).


### C56 Objects in the JSON output have distinct member names (partial)

`Props/Json.lean, Props/Lines.lean`: `C56_unique_names_partial`, `C56_violation`, `C56_exactly`, `C56_text`.

Through the reader.

Scope: The names are distinct exactly if the defined labels are (C56_exactly), for text mode end to end from the input (C56_text). Labels defined twice give duplicate labelDefinitions members (C56_violation).


### C57 The exact output of text mode with the comment and directive filters (partial)

`Props/Removal.lean, Props/TextVisible.lean`: `C57_shown_partial`, `C57_visible_lines_partial`, `C63_output`, `C57_violation`.

A scan of the input lines (`Scan` in `Spec/Sources.lean`, over declaratively specified kinds of lines) gives the lines shown; invariant that the stored lines are its value. For inputs without inline assembly and CUDA also a simpler function (`Spec/TextMode.lean`).

Scope: Exact output for any combination of comment_only, directives, whitespace (and library_functions, which shows nothing), for all inputs (C57_shown_partial); with unused_labels, or for data in the compatibility mode with directives, the output is what remains of it by C63 (C63_output). .cfi_startproc behind other text is a violation.


### C58 The debug dump is well-formed JSON and complete (partial)

`Props/DebugJson.lean, Props/JsonExact.lean, Props/TextJson.lean`: `C58_dump_partial`, `C58_text`, `C58_grouped_partial`, `C58_program_partial`, `C58_violation`, `C58_violation_numbers`, `C58_dump_exact`.

As C20. The program's dump has grouped digits (`groupDec`), which is the same below 1000; counterexamples for control characters and for numbers from 1000 on.

Scope: C58_dump_exact: for all dumps, the text is read back as the dump if no string has a control character other than tab, and is no JSON otherwise (also as the program writes it). End to end from the input: C58_text. The program writes the dump with digits grouped by commas: no difference if all numbers are below 1000 (C58_program_partial), invalid JSON otherwise (C58_violation_numbers).


### C59 filteredCount accounts for every input line (text mode) (partial)

`Props/TextJson.lean`: `C59_filtered_count_partial`, `C59_bounds`, `C59_violation`.

Counting invariant over lines.

Scope: Exact if the last line is not blank; otherwise at most one too large, which happens (C59_violation). Never negative.


### C60 Text-mode lines carry the source position in force (partial)

`Props/Settle.lean, Props/Sources.lean`: `C60_labels`, `C60_positions_partial`, `C60_loc`, `C60_label`, `C60_position_unique`, `C60_shown_unique`, `C60_violation`.

`PositionAt` is a declarative account of which directive set the position (`Spec/Sources.lean`); each directive's expression is proved equivalent to its form; invariant with line numbers. `C60_labels` (Spec/Settle.lean) says exactly which directive gives a label its position; its invariant tracks all stored lines, blank ones too.

Scope: All inputs. The position in force is specified in Spec/Sources.lean (SetsPos), which includes what the code really does with index 0 and with words that end a block; C60_violation shows the difference to the claim. C60_labels determines the position of every output line, labels included: GivesPosition (Spec/Settle.lean) says which later directives reach a label.


### C61 Text-mode lines carry the current section (partial)

`Props/Sources.lean`: `C61_sections_partial`, `C61_section_unique`, `C61_violation`.

As C60.

Scope: All inputs. SwitchesTo in Spec/Sources.lean says which lines switch; C61_violation shows the difference to the claim.


### C62 The label references of a line are the words of its operands that name labels (partial)

`Props/Columns.lean, Props/Lines.lean, Props/References.lean`: `C62_line`, `C62_columns`, `C62_references_partial`, `C62_violation_names`, `C62_violation_lines`, `C67_lines`.

`getUsedLabelsInLine` is shown to give the words of the operands (`mentioned`, Spec/References) for every line: an induction over the loop that finds the operands and one over the matches of the expression for names. `C62_references_partial` lifts this to the output lines with the invariant of C37. `C62_columns` adds the columns, from C28_exact. Missing: names with `$` or `@` inside, lines with a double quote and instructions of CUDA code list fewer references (two violations); lines with `.inst` or a first word followed by `=` may list all or none.

Scope: C62_line is the exact list of words for every line; C67_lines the exact references of every line of every input (label lines and lines that are neither instructions nor data have none), C62_columns the same with columns, C62_references_partial the same in terms of the text alone outside CUDA code. Violated for names with $ or @ inside, for lines with a double quote, and for instructions of CUDA code, which are not recognized as such.


### C63 What unused_labels removes (proved)

`Props/Removal.lean`: `C63_removed`, `C63_output`.

`Spec/Removal.lean` says which lines are removed, from the flags of all lines before it; invariant of the removing loop that its two modes mean `InUnused` and `LooseData`; the flags are sound (C39).


### C64 The code of an exported function is not removed (partial)

`Props/Removal.lean`: `C64_body_partial`, `C64_violation`, `C64_violation_assignment`.

From C63 and C40: the label of the function is flagged as used, so no line below it is in an unused function. Counterexample with a numeric local label.

Scope: Violated by numeric local labels. Proved for exported functions whose label is defined once and that refer to no other label, up to the next label that is neither compiler-generated nor in inline assembly. C75 extends this to functions that refer to exported labels, and shows that any other function can be lost. An assignment in the function hides the rest as well (C64_violation_assignment).


### C65 The references between labels are those in the input (proved)

`Props/Graph.lean`: `C65_defines_unique`, `C65_label_unique`, `C65_function_unique`, `C65_address_unique`, `C65_defined`, `C65_code`, `C65_data`, `C65_exported`, `C65_same_address`, `C65_reachable`, `C65_kept`, `C65_terminates`.

Spec/Graph.lean describes labels, functions, addresses and references over the lines of the input (Seen, the scan of C60). Each kind of line is recognised exactly (Proofs/GraphLines.lean), an invariant ties the tables of the parser to the lines read so far (Proofs/Graph.lean, GraphRead.lean), and the tables of the whole input follow (Props/Graph.lean). Reachability, the labels kept (C39) and termination (C41) are restated over the graph of the input.

Scope: Exact: both directions, for all inputs.


### C66 An instruction refers to the labels it mentions (partial)

`Props/Graph.lean`: `C66_mentions_partial`, `C66_violation`, `C66_violation_output`.

Consequence of C65 and of what counts of a line (counted): a line that begins with a letter is an instruction. The negation for CUDA code is proved for all lines whose first word has two letters; an input whose only function is removed is the witness for the output.

Scope: Proved outside CUDA code for lines without =. Violated by all CUDA code (ctre::match with a pattern for the first character only).


### C67 What text mode says about a line follows from its text and the lines before it (proved)

`Props/Lines.lean`: `C67_lines`, `C67_read`, `C67_unique`.

`Describes` (Spec/Lines.lean) says what is said about line number k of the input lines `seen f s`; an invariant over the lines read (Proofs/Held.lean) pairs the held lines with the numbers of the lines kept, and is carried through marking and removal. `C67_unique` shows that a description leaves no choice.

Scope: All inputs and filters, CUDA code included. Sections and sources are C60 and C61, usage flags C39/C40, columns of the references C28. Lines without a text are not described (C51, C57). The enclosing function is, as in the code, the last label that is not compiler-generated, and an assignment counts as a label (see C64_violation_assignment).


### C68 Valid UTF-8 in, valid UTF-8 out (partial)

`Props/Utf8.lean`: `C68_binary`, `C68_binary_json_partial`, `C68_violation`, `C68_text`, `C68_text_json`.

Binary mode: invariants `UtfInv` over the characters (the collected text and section name extend the last boundary between characters by what follows it), `C68_binary`, `C68_binary_json_partial`. Text mode: the fields are ASCII (labels, references, sections) or delimited by ASCII characters (lines, file names in quotes), `C68_text`, `C68_text_json`. The writer adds ASCII only. Violated by references after other characters: `C68_violation`.

Scope: Binary mode, JSON: proved if the output lines with label references are ASCII; violated otherwise (C68_violation). Text output and text mode are proved completely.


### C69 The label references of an instruction in binary mode are the names in angle brackets (partial)

`Props/ObjAngles.lean`: `C69_references_partial`, `C69_characters_partial`, `C69_violation`, `C69_violation_bytes`, `C69_violation_template`.

Two invariants over the bytes read: an open bracket is only remembered while reading the text of the line with the bracket, so lines with closed brackets leave nothing behind; and the references of the line so far are the closed names of its text, computed by a specification that knows no state (`Spec/Angles.lean`). Two violations by evaluation. For UTF-8 texts the same invariant, with the columns counted in characters and the name cut out by bytes, as the code does it (`Proofs/Utf8Count.lean`).

Scope: Exact for ASCII and for UTF-8 texts of at most 65535 bytes if every < is followed by > or + in its line without a # in between; after characters of several bytes the reported names have additional bytes in front. Violated by names with # (C69_violation), with < (C69_violation_template) and after multibyte characters (C69_violation_bytes).


### C70 In text mode a filter only removes lines (partial)

`Props/MoreFilters.lean`: `C70_more_filters_partial`, `C70_violation_inline`, `C70_violation_unused`, `C70_violation_proc`.

Simulation between the two scans of the specification of text mode: at every line the run with more filters shows at most what the other shows, and the states agree up to the fields that only matter for lines the filter hides; collapsing blank lines is monotone for sublists. Violations evaluated.

Scope: For all byte strings: with at least the filters comment_only, directives and library_functions (and possibly unused_labels and the compatibility mode) the lines shown are among those shown with fewer filters, in order and with the same text. Missing, each with a witness where the property fails: the smaller filter has unused_labels; comment_only is turned on for inputs with inline assembly (or CUDA); .cfi_startproc is not alone in its line. Also missing: data, if the smaller filter has compatmode and directives.


### C71 What the program prints, from the command line to standard output (partial)

`Props/Program.lean`: `C71_listing`, `C71_text`, `C71_text_json`, `C71_same`, `C71_ends`, `C71_hangs`, `C71_violation`.

Composition of C47/C48 with C14 and C20 (binary), C57, C20_text and C42 (text) and C41 (C41_balanced_partial, C41_diverges); the witness for the violation is that of C41 run through the model of main.

Scope: End to end for the model of main. The program ends if no circle of references has as many references from code as from data (C71_ends); it does not if there is such a circle of different labels that are not in use (C71_hangs, C71_violation). With -unused_labels the output of text mode depends on the order of the hash tables (C42).


### C72 The margin of a line does not matter in binary mode (proved)

`Props/ObjMargin.lean`: `C72_margins`, `C72_listing`.

At the beginning of a line (Boundary) reading a blank or a semicolon leaves the whole state unchanged; induction over the lines; with C14 for listings.


### C73 The output of binary mode for every input, line by line (proved)

`Props/Decode.lean`: `C73_every_line`, `C73_all_inputs`.

Spec/Decode.lean defines the kind of a line, what it shows and what it carries on. Proofs/Decode: for every phase of the state machine the part of the state that matters at the end of the line is computed by induction over the rest of the line; Proofs/DecodeLine: the phases put together; Proofs/DecodeEnd: end of line, removal of functions, truncation, and induction over the lines.

Scope: Exact for every input; only addresses from 2^32 and line numbers from 2^31 on (undefined behaviour) are left open.


### C74 Which labels the filter for unused labels keeps (partial)

`Props/Chains.lean`: `C74_marks_partial`, `C74_labels_partial`, `C74_first_partial`, `C74_violation`.

Spec/Chains.lean defines chains and the order-dependent examination over the lines of the text (Spec/Graph.lean). Proofs/Chains.lean: without data references a negative answer leaves the visited set unchanged and a positive one adds exactly a chain; induction over the loop of markLabelUsage; the table of labels points at the last definition. Missing: data that refers to labels (the visited set is then cleared in the middle of a search, and the search need not end).

Scope: Exact for all inputs whose data mentions no defined label, for every iteration order and every leftover of earlier parses. C74_violation: an exported function with a second label at its address can be lost completely. Missing: data that refers to labels.


### C75 Which exported functions are safe from the filter for unused labels (proved)

`Props/Kept.lean`: `C75_kept`, `C75_body`, `C75_lost`, `C75_safe`.

A question about a label asks about the labels that refer to it, so the function is only asked about by questions about the labels that it mentions; these are exported and answered at once (Proofs/Spared.lean). So it is not taken before its turn comes. Conversely an iteration order that begins with the mentioned label and its reference from the function takes the function away (Proofs/Chains.lean, result_front); the run ends by C41.

Scope: C75_safe is the equivalence; C75_body: the code stays too; C75_kept also for leftovers of earlier parses that do not contain the function.


### C76 Filtered text can be filtered again (partial)

`Props/Again.lean`: `C76_whitespace`, `C76_tabs`, `C76_again_partial`, `C76_violation`, `C76_violation_labels`.

`Proofs/Again.lean` proves that removing white space twice is the same as once: nothing before the first string literal is a quote, and dropping blanks makes no new literal. It then lets a second scan (`Spec/Sources.lean`) read what the first one shows, and proves that both stay in step: same CUDA state, outside block comments, no blanks carried over. Every line shown is shown again because being a comment carries over from the cleaned line to the raw one. `C76_again_partial` is the claim, with four conditions; `C76_violation` has an input for each condition that shows that it is needed, `C76_violation_labels` shows that the claim is false with `unused_labels`. `C76_whitespace` and `C76_tabs` hold for all strings.

Scope: Missing: unused_labels (false there, see C76_violation_labels), data with compatmode and directives, and outputs that start inline assembly, contain .cfi_startproc (with directives) or have lines starting with a slash (with comment_only and whitespace); C76_violation shows that each of these conditions is needed.


### C77 What comments say does not matter in text mode (partial)

`Props/Remarks.lean`: `C77_comments_partial`, `C77_removed_partial`, `C77_violation`, `C77_violation_blanks`.

Text mode with comment_only. `SameCode` (`Spec/Remarks.lean`) relates inputs that differ in comments only. Each comment line leaves the parser as it found it except for fields that do not depend on the text (`library_comment`, `eol_remark`), so the two runs stay in step (`read_same`) and the results are equal. `C77_violation`: comments that mention a section or `.data`, and braces in CUDA comments, do change the source positions, the section or the lines shown. `C77_removed_partial`: comments can also be left out altogether (`LeftOut`), from the exact output (C57_shown_partial); `C77_violation_blanks`: not if a line of blanks comes before the comment.

Scope: Missing: comments that contain .cfi_startproc, .cfi_endproc, .data, .text, .section or a closing brace, which do matter (C77_violation); comments after an instruction. C77_removed_partial (comments left out altogether) is about the text output, without unused_labels and without data if there are compatmode and directives.


### C78 Text mode only adds to its output when there is more input (partial)

`Props/Append.lean`: `C78_append_partial`, `C78_violation`.

From the exact output (C57_shown_partial): reading one more line only appends to the lines shown (`Scan.line_prefix`), complete lines stay complete (`inputLines_more`), and collapsing blank lines respects prefixes (`collapseFrom_prefix`). `C78_violation`: false with unused_labels, with compatmode and directives, and for an unfinished last line.

Scope: Missing: unused_labels, and data with compatmode and directives, where it is false (C78_violation).


### C79 Text mode filters the pieces of an input independently (partial)

`Props/Pieces.lean`: `C79_pieces_partial`, `C79_plain_partial`, `C79_violation`, `C79_violation_alone`.

From the exact output (C57_shown_partial): `Scan.Like` relates the state after the first piece to the initial state, up to the fields that no longer matter, and every line keeps it (`Scan.Like.line`); collapsing blank lines in two pieces differs by at most one empty line (`collapse_pieces`, `collapseFrom_either`). `C79_plain_partial` gives a sufficient condition on the text of the first piece. `C79_violation`: each of the things left open does matter.

Scope: Missing: unused_labels, and data with compatmode and directives; for both it is false (C78_violation).


### C80 The lines missing from the result are exactly the unneeded ones (partial)

`Props/Joint.lean, Props/Loss.lean`: `C80_lines_partial`, `C80_joint_partial`, `C80_exact_partial`, `C80_violation`.

Spec/Loss.lean says for a line number, in terms of the lines of the text (Spec/Graph.lean, Spec/Lines.lean), when the line is removed after reading, given the labels found in use. Proofs/Chains.lean (result_marks) describes the marks for all inputs, Proofs/Sides.lean which lines count as inside a procedure, Proofs/Loss.lean carries both removal passes over to line numbers. C80_exact_partial names the labels found (the examination of C74). Missing: that all labels in use are found (C80_violation), and data directives that define labels.

Scope: Violated: the data of a constant in use is removed with compatmode and directives, depending on the iteration order (C80_violation). Proved: the result is exactly the kept lines without the unneeded ones, for the labels that are found in use, each of which is found for a reason (all inputs and filters in which no data directive also defines a label), and each of them shows section and source position as without the removal (C80_joint_partial); which labels are found, if no data mentions a defined label. Missing: data directives that define labels.


### C81 The JSON output and the text output show the same lines (proved)

`Props/Agree.lean`: `C81_same_lines`.

mainProgram (Model/Main.lean) is run twice; Props/Agree.lean reads the texts back out of the JSON value that C20 says the output denotes (JVal.texts) and compares them with the lines of the text output.

Scope: For all argument lists, environments and inputs of plain text; what JSON becomes of other inputs is C20.


### C82 In binary mode a filter only removes lines (partial)

`Props/Fewer.lean`: `C82_library`, `C82_filters_partial`, `C82_violation_header`, `C82_violation_cap`.

Proofs/Fewer.lean turns the listing into a list of happenings (a function begins / a line is shown) with the decoder of C73 and proves by simulation that leaving out happenings and taking back functions yields a sublist. Violated by truncated output (C82_violation_cap, a listing of 6003 lines) and by lines that begin a function only inside a function left out (C82_violation_header).

Scope: Violated: a label that was cut off by the line limit appears with library_functions (C82_violation_cap), and inside a function left out by plt a line can begin a function that begins none otherwise (C82_violation_header). Proved for output that is not truncated: library_functions removes whole lines (all inputs); plt and library_functions together leave a sublist of the texts (inputs without such lines).


### C83 Binary mode treats the functions of a listing independently (partial)

`Props/Apart.lean`: `C83_functions_partial`, `C83_violation`.

With the decoder of C73, Proofs/Apart.lean compares the run over the second listing alone with the run that continues after the first one (ApartCarry), and shows that closed references leave nothing open. C83_violation: user code before a function changes what library_functions removes; the first address behind a function that is left out is lost; an unclosed < goes on in the next function.

Scope: Violated with library_functions, for the address behind a function that is left out, and by references that are not closed (C83_violation). Proved without library_functions for all inputs whose first part closes its references and whose result is not truncated; all addresses but the first in general, all if the first part leaves nothing out.


### C84 filteredCount accounts for all lines when a listing is read in several calls (partial)

`Props/ObjLines.lean`: `C84_count_partial`, `C84_violation`.

Reading in chunks leaves the same parser as reading at once but for the count (the lemma behind C11); the count is the newlines since the last call, by induction. Violation evaluated.

Scope: The exact count for every split, below the line limit; it is the intended one exactly if there is only one call.


### C85 Pretty-printing changes line ends only (proved)

`Props/JsonExact.lean, Props/JsonPretty.lean`: `C85_breaks`, `C85_document`, `C85_dump`, `C85_violation`, `C85_document_exact`, `C85_dump_exact`.

The writers with `prettyPrint` set are modelled in `Model/JsonPretty.lean`, next to the plain ones. Without line ends both give the same bytes, for all documents (`C85_breaks`). For printable documents the JSON reader of the specification recovers the same value from both (`C85_document`, `C85_dump`); the proof follows that of C20 and C58 with values that may have white space behind them. Missing: strings with control characters, for which neither text is valid (`C85_violation`). C85_*_exact: the lexer of C20 for the pretty-printed texts.

Scope: All documents: same bytes up to line ends, and the same result of a JSON reader (a value, or an error if a string has control characters, C85_violation). Opcodes must not contain quotes or backslashes; the parsers produce no such opcodes (C15).


### C86 Text mode can resume at line boundaries (partial)

`Props/Resume.lean`: `C86_text_partial`, `C86_lines_partial`, `C86_positions_partial`, `C86_violation`.

`TextResults` (Spec/Resume.lean) is a chain of `fromStream` calls, with an arbitrary iteration order and leftover `visited` set for each. The invariant that relates the parser to the scan of `Spec/Sources.lean` (the one used for C57 and C60) is shown to survive the end of a call, if nothing is removed there. Text output: `C86_text_partial`, for pieces of complete lines, and `C86_lines_partial` for arbitrary pieces. No out-of-bounds access: `C86_positions_partial`. Missing: unused_labels, data with compatmode and directives, and the JSON output, all of them false (`C86_violation`, `C43_reuse_violation`).

Scope: Text output without unused_labels and without loose data in compatmode with directives: the same for every split, and no access out of bounds. False for unused_labels, and for references and filteredCount in the JSON output (C86_violation).


### C87 Line numbers in a listing do not change which assembly is shown (partial)

`Props/LineInfo.lean`: `C87_line_numbers_partial`, `C87_violation`.

Both runs in terms of C73; the two sequences of output events agree up to the source and up to lines that do nothing (`SameShown`, `Proofs/LineInfo.lean`), which the truncation preserves.

Scope: Function names without blanks, colons and slashes that are no hexadecimal numbers, and positions with a slash in the first word. Violated by names with a scope (C87_violation); with library_functions the positions matter on purpose.


### C88 The bytes of instructions do not change which assembly is shown (partial)

`Props/LineInfo.lean`: `C88_bytes_partial`, `C88_violation`.

As C87; the text of an instruction is split differently into what is read before and after the text mode begins, with the same result (`bytes_kinds`).

Scope: Texts with a character other than hexadecimal digits before the first two blanks in a row (the character being none of < > + # R). The others are violated (C88_violation).


### C89 The result does not depend on the locale (partial)

`Props/Locales.lean`: `C89_text`, `C89_ascii`, `C89_binary_partial`, `C89_violation`.

Text mode: the names of references are ASCII, so that the only use of the locale gives their length. Binary mode: induction over the input, with the invariant that the collected text is ASCII; for all inputs as C87, from C73 with two readings that differ in the counting of characters.

Scope: Text mode: all inputs. Binary mode: everything for ASCII inputs, everything except the references for all inputs (C89_violation: there the references differ).


### C90 Directives that are filtered out do not influence the text output (partial)

`Props/Silent.lean`: `C90_directives_partial`, `C90_violation`.

Text mode with directives. `WithoutDirectives` (`Spec/Silent.lean`) relates inputs; by C57 the text output is what the declarative scan shows. A removed line leaves the scan as it found it except for the source position (`line_directive`), and the source position decides only whether a line with `.cfi_startproc` is skipped, which is then a hidden directive anyway (`Scan.Near.line`). `onlyDirective`: a simple form of removable lines.

Scope: Proved for inputs without CUDA functions, without lines of blanks only, with .cfi_startproc alone in its line and, in the compatibility mode, without shown data directives. Missing: unused_labels (directives decide which labels are exported; C90_violation), the JSON output (which shows the source positions the directives give). C90_violation: .loc before a label with .cfi_startproc in its line; .globl with unused_labels; parameters of CUDA functions.


### C91 The analysis of label usage takes polynomial time (partial)

`Props/Cost.lean`: `C91_calls_partial`, `C91_chains`, `C91_counter`, `C91_exponential`, `C91_violation`.

Text mode. `Model/Cost.lean` repeats the functions of the usage analysis with a counter of the calls of `isUsed`; without the counter they are the functions of the model (`C91_counter`). `isUsedC_idle`: if there is no reason to keep anything, a call leaves the visited set as it was and makes at least one call per chain (`length_le_sum` adds up over the references). `markLoopC_linear`: the upper bound if every reference list has at most one element. The family `ladder` (`Spec/Cost.lean`) is evaluated symbolically (`Proofs/Ladder.lean`).

Scope: Proved: if no data mentions a defined label and each label is mentioned by at most one function, there are at most 2N(N+1) calls for N labels. C91_chains: if nothing gives a reason to keep a label, there are at least as many calls as chains of references. C91_violation: not bounded by any power of the length. Missing because violated: labels mentioned by several functions.


### C92 The analysis of label usage needs bounded stack (partial)

`Props/Circles.lean, Props/Cost.lean`: `C92_depth_partial`, `C92_balanced_partial`, `C92_acyclic_partial`, `C92_chains`, `C92_violation`.

Text mode. The depth is the fuel of the model functions: `fromStream` with fuel n has a result iff at most n calls are nested. `isUsed_nested`: induction on the labels not yet visited, a failed call restores the visited set (`isUsed_chain`). The lower bound is part of `isUsedC_idle`. With data: `isUsed_acyclic` bounds the fuel by a rank of the label (the labels ahead of it, `aheadIn`), from the termination argument of C41.

Scope: Proved: depth at most N+1 for N labels, if no data mentions a defined label; at most (N+2)^2, if no circle of references has as many references from code as from data. C92_chains: without a reason to keep labels, at least the length of every chain. C92_violation: no fixed depth suffices. Missing: circles with as many references from code as from data (C41_diverges has the cases in which the recursion does not end at all).


### C93 Empty lines do not matter in text mode (partial)

`Props/Gaps.lean`: `C93_gaps_partial`, `C93_violation_label`, `C93_violation_data`.

Text mode. `TParser.plain` forgets empty lines, allocation numbers, positions in the label table and the source of labels. `eol_congr`: one line of input takes parsers that agree up to this to parsers that agree up to this; `eol_empty`: an empty line does not change what remains. `markLoop_filled`: the label table points to the last line with each label (`TableOk`), so marking is `updLast`, which commutes with forgetting empty lines; `removeLoop_filled`: so does removing.

Scope: Proved for all filters (including unused_labels) up to the source position of labels, and in the compatibility mode with directives if no line looks like data and defines a label. Both exceptions are violations with witnesses.


### C94 Empty lines and source code in a listing are not shown (partial)

`Props/Interleaved.lean`: `C94_empty_lines`, `C94_source_text_partial`, `C94_violation`.

Binary mode. With C73 the output is computed line by line from `lineKind`; `emptyLine_kind` and `sourceText_kind` show that such lines are read as lines without text or as remarks, which change neither what is carried over nor the output (`leavingOut_decode`). `header_title` shows that only titles of left-out functions can start leaving out.

Scope: Proved for empty lines (blanks, semicolons, carriage returns) without restriction; for source lines whose first word is followed by a blank or colon and not a hexadecimal number, if no function is left out. The other cases are violations with witnesses.


### C95 Lines that are filtered out and have no meaning leave no trace in text mode (proved)

`Props/Mute.lean`: `C95_mute`, `C95_limits`.

A projection of the parser state that forgets allocation numbers, owners, counts and the lines left out; every step of the parser respects it, and each such line leaves it unchanged. The conclusion is carried through the marking and removal of labels.

Scope: C95_mute. The exceptions (blank lines, CUDA parameters) are necessary: C95_limits. With library_functions the result is always empty.


### C96 Inline assembly is what stands between its markers (partial)

`Props/InlineAsm.lean`: `C96_inline_partial`, `C96_violation`.

An induction over the lines relates the lines that are looked at to the input lines and the nesting counter to the markers; C67 relates the result to the lines that are looked at.

Scope: Proved if the markers alternate, starting with one of a beginning. Otherwise the claim is false (C96_violation): the code counts markers, so #NO_APP at the beginning of a file (as compilers for some targets write it) makes the next block of inline assembly ordinary code, and after two markers of a beginning and one of an end ordinary code still counts as inline assembly.


### C97 The whitespace filter changes nothing but blanks (partial)

`Props/Respaced.lean, Props/Tidied.lean`: `C97_whitespace_partial`, `C97_exact_partial`, `C97_output_partial`, `C97_plain`, `C97_violation`.

Every recognizer that reads the text of a line is shown to give the same answer for two texts with the same words (Proofs/RespLines, RespMore); then the parsers with and without the filter run in lock step up to the number of blanks (Proofs/Alike, Respaced). The exact texts: the readers with and without the filter add the same lines one by one (Proofs/Squashed).

Scope: Proved for inputs in which squashing the blanks of a line keeps its words apart; C97_plain gives a simple sufficient condition, line by line (no string literal except at the end of the line, and a first word of at least two characters or good indentation; lines that begin with an indented word proc... are excluded; unindented ones are allowed if no line of the input consists of blanks only). C97_exact_partial gives the exact text of every line: literals are copied, other blanks are reduced as C25, C26 say. Without the condition the claim is false (C97_violation): with the filter, the blank between directory and name of a .file directive is lost, so that the directory is taken for the file and the code is no longer the user's; and an instruction of one letter is joined to its operand.


### C98 The output is not much longer than the input (partial)

`Props/Size.lean, Props/SizeBinary.lean, Props/SizeJson.lean`: `C98_text_partial`, `C98_binary_partial`, `C98_json_partial`, `C98_violation`, `C98_json_binary_partial`, `C98_violation_binary`.

Text mode: induction over the input lines, with eight times the length of what has been read as the bound. Binary mode: the line by line description C73. JSON: a family of listings (Proofs/BigJson), with the sections from C61 and the lines from C67. The square: every name written for a line is a piece of some line of the input (C60, C61, C67, C62), added up in Proofs/JsonSize. Binary mode: an invariant over the characters of the input bounds every part of the state and the number of references (Proofs/ObjJsonSize); the counterexample is a line with a byte that belongs to no character and then pairs of angle brackets (Proofs/BigBinary).

Scope: Proved for the text output of both modes: at most 8 times the length of the input plus 2 in text mode (tabs are expanded), at most the length of the input plus 10028 in binary mode. The JSON output of text mode is at most 33 times the square of the length plus linear terms (C98_json_partial), and a linear bound is false (C98_violation): the name of the section is repeated for every line, so that the output for n lines can have n*n characters; for every factor there is an input whose output is longer by more than this factor. The JSON output of binary mode is at most 55 times the square plus linear terms (C98_json_binary_partial), and a linear bound is false there, too (C98_violation_binary): columns are counted in characters and stop at a byte that belongs to none, while names are cut out by bytes, so that one line of n bytes can have n*n/4 characters of reference names.


### C99 If all labels are exported, the filter for unused labels changes nothing (partial)

`Props/Exported.lean`: `C99_exported_partial`, `C99_filter_partial`, `C99_ends`, `C99_violation_twice`, `C99_violation_history`.

Reading does not depend on the filter (Proofs/FilterRest, function by function); the loop over the labels marks the line of every exported label, and no other step unmarks it (Proofs/Exported); each label line is the line of its label if no label is defined twice (C67). Termination from C41.

Scope: Proved if no label is defined twice, no label of the input is left over as visited from an earlier call, and no data is shown if the compatibility mode and the filter directives are both set. False otherwise: if an exported label is defined twice, its first definition is removed with its code (C99_violation_twice); if the label is left over from an earlier input on the same thread, it is removed (C99_violation_history). Termination is proved without these conditions.


### C100 The filter for unused labels only removes lines (proved)

`Props/OnlyRemoves.lean`: `C100_unused`, `C100_outputs`.

Reading and marking do not depend on the filter (Proofs/FilterRest, function by function: changing the filter commutes with each step); the loop that removes lines is compared in lockstep for both filters.


### C101 Options without effect (proved)

`Props/Unaffected.lean`: `C101_text`, `C101_binary`, `C101_program`, `C101_program_text`.

Congruence of every function of both parsers with respect to the fields of the filter it does not read (Proofs/FilterRest, Proofs/Unaffected); the options of a command line from C47; the options without effect are listed in Spec/Unaffected.


### C102 What is shown of the assembly code that a compiler writes (proved)

`Props/Compiled.lean`: `C102_compiled`, `C102_ends`, `C102_no_tables`, `C102_jump_tables`, `C102_program`.

Abstract syntax of the code with its rendering and the expected rows in Spec/Compiled. Proofs/Compiled shows what each line is recognized as and reads the whole input by induction; Proofs/CompiledPos computes the positions and the file table; Proofs/CompiledRows matches the numbers of the lines; the theorem then follows from C57, C60 and C67, the end of the program from C41, with Proofs/CompiledCircle translating circles of references to the syntax.

Scope: The syntax excludes what the code is known to get wrong: the words .text, .data, .section and .cfi_endproc inside other lines (C60), lines that look like an assignment or a CUDA header, and, in the compatibility mode, data (C46).


### C103 What the filter for unused labels leaves of the assembly code that a compiler writes (proved)

`Props/CompiledUse.lean`: `C103_exact`, `C103_dead`, `C103_unneeded`, `C103_alive`, `C103_labels`, `C103_rows`, `C103_program`, `C103_dead_program`, `C103_alive_program`.

Spec/CompiledUse defines needed labels on the abstract syntax of C102 and the rule as a small machine with three flags. Proofs/CompiledUse and CompiledNeed translate labels, instructions, data and references of C65 to the syntax; Proofs/CompiledLeft shows that the flags say what the description of removed lines in C80 says. The corollaries follow by running the machine.

Scope: Which of the needed labels are found in use depends on the hash order (C42, C75); the theorem says that none but these are, and C103_alive which ones certainly are. In the compatibility mode data without position below an idle label is left out (C46), which the rule includes; C103_rows assumes that there is no data then.


### C104 The JSON document for the assembly code that a compiler writes, exactly (proved)

`Props/CompiledJson.lean`: `C104_document`, `C104_program`.

The expected document as a function of the abstract syntax in Spec/CompiledJson, with its own notions of section, position of a label and reference. Proofs/CompiledJson computes the section from C61, the line that gives a label its position from C60_labels by an induction over the lines after the label, and the opcode flag of labels; the theorem aligns the numbers of the lines of C60, C61, C62 and C67 and reads the document with C20; the program follows from C48 and C71.

Scope: The syntax excludes what C102 excludes, operands that begin with = and arguments of .cfi_endproc. That positions are not shown for labels like .L1 or _f is what the writer does, not necessarily what is intended.


### C105 The JSON document for the assembly code that a compiler writes, with the filter for unused labels (proved)

`Props/CompiledLeftJson.lean`: `C105_document`, `C105_program`.

Spec/CompiledLeftJson runs the rule of C103 over the lines while the position and the section are carried along as in C104. C80_joint_partial (Props/Joint) states removal, descriptions, sections and positions for the same numbering of lines: the numbers of the lines that are kept are determined by their set, so the lists of C60 and C80 agree. One line is computed by the lemma shared with C104.

Scope: As in C103, which of the needed labels are found in use depends on the hash order (C42, C75); the document is exact for the labels found, each of which is found for a reason. The syntax excludes what C104 excludes; in the compatibility mode label lines must not look like data.


### C106 The JSON document and the text for the assembly code that a compiler writes, with the whitespace filter (proved)

`Props/CompiledTidy.lean`: `C106_document`, `C106_text`, `C106_program`.

Comments are first replaced by plain ones (C77_comments_partial), then C97_exact_partial relates the run with the filter to a run without it, line by line, and the run without it is given by the lemma compiled_marked behind C105 (Props/CompiledLeftJson). The texts and columns of the tidied lines are put in at the end.

Scope: As in C103, which of the needed labels are found in use depends on the hash order (C42, C75); the document is exact for the labels found. The condition on blanks is needed: without it words are joined (C97_violation). Comments may have any blanks and quotes, but none of the words that matter in comments (C77).


### C107 Empty lines in the assembly code that a compiler writes (proved)

`Props/CompiledGaps.lean`: `C107_rows`, `C107_left`, `C107_dead`, `C107_alive`, `C107_program`.

C93's lemma fromStream_filled relates the run to a run with the same order, budget and visited set on the program without empty lines; its condition, that no data line defines a label, is shown for the syntax with compiled_seen and carried over to the other input by readStream_plain. The rest are C102 and C103 on that program, all of whose lines have a text.

Scope: Source positions of labels are left out: an empty line between a label and the .loc directive after it takes the position away (C93_violation_label). In the compatibility mode no label may start like a data directive (C93_violation_data). The whitespace filter is off here (C106 treats it).


### C108 Exported functions are not lost if they are looked at first (proved)

`Props/First.lean, Props/FirstJson.lean`: `C108_kept`, `C108_body`, `C108_compiled`, `C108_alive`, `C108_program`, `C108_order`, `C108_document`, `C108_json_program`.

Induction over the labels in iteration order (markLoop_first): a question about an exported label takes only this label, so the next exported label is not taken yet when its turn comes, and its line is marked. The rest as in C75 and C103: result_marks_of turns the marks into the lines of the result, used_body keeps the code, compiled_left gives the lines of the compiled program. C108_order computes the model for one program and two orders.

Scope: That the labels come first is asked for every list of exactly the defined labels without repetitions (ComesFirst); comesFirst_exists shows that there is such an order for any labels. C75 is the counterpart for all orders.


### C109 The assembly code that a compiler writes, with CR LF line ends (proved)

`Props/CompiledCrlf.lean`: `C109_compiled`, `C109_program`, `C109_json`.

C32_output_partial gives the output of text mode for CR LF: the visible lines, each with its CR; its conditions and which lines are visible follow from the syntax (only_comment, plain_iff, no_words).

Scope: In the compatibility mode there must be no data directives among the lines that are shown, as in C102. C32_violation shows what differs with CR LF in general.


### C110 The filters for directives and for comments, each on its own, on the assembly code that a compiler writes (proved)

`Props/CompiledFilters.lean`: `C110_filters`, `C110_crlf`, `C110_program`, `C110_crlf_program`, `C110_none`.

C57_visible_lines_partial (LF) and C32_output_partial (CR LF) give the output as the visible lines; which lines of the syntax are visible follows from only_comment and plain_iff, and a comment line is no directive.

Scope: In the compatibility mode with -directives there must be no data directives among the lines that are shown, as in C102. For the parser and for the whole program, with LF and with CR LF.


## Axioms

Output of `#print axioms` for the theorems in MANIFEST.json, grouped; nothing else occurs.

* propext, Classical.choice, Quot.sound: `C01_output_capped`, `C01_outputs_fixed`, `C02_label_definitions_point_at_labels_partial`, `C02_with_cap`, `C02_violation`, `C03_label_definitions_exact_partial`, `C03_with_cap`, `C03_strictly_increasing`, `C03_violation`, `C04_cr_ignored`, `C05_filtered_count`, `C05_filtered_count_consumed`, `C06_address_exact_partial`, `C06_address_sign_wrap`, `C06_address_undefined`, `C07_reference_columns_partial`, `C07_characters_partial`, `C08_no_ignored_labels`, `C08_ignored_body_partial`, `C08_violation`, `C09_library_functions_removed`, `C10_user_code_kept`, `C11_chunked`, `C14_listing_exact`, `C14_listing_all`, `C14_capped`, `C15_opcode_tokens_partial`, `C15_opcode_tokens_no_tab`, `C16_no_undefined_behaviour`, `C17_source_partial`, `C17_source_file`, `C17_violation`, `C18_section`, `C20_document_partial`, `C20_binary`, `C20_text`, `C20_binary_hex`, `C20_document_exact`, `C20_binary_exact`, `C20_binary_tab`, `C20_text_exact`, `C20_text_control`, `C21_file_member`, `C23_source_member`, `C24_replace`, `C24_exact`, `C24_aligned_partial`, `C25_nonBlanks`, `C26_literals`, `C26_between`, `C26_total`, `C26_nonBlanks`, `C26_exact`, `C27_comment`, `C28_columns`, `C28_columns_partial`, `C28_exact`, `C29_label`, `C29_global`, `C29_weak`, `C29_assignment`, `C29_comment`, `C30_identity_partial`, `C30_whitespace_partial`, `C31_final_newline`, `C31_result`, `C32_crlf_partial`, `C32_output_partial`, `C32_exact_partial`, `C33_label_definitions`, `C34_shown`, `C34_subsequence_partial`, `C34_ink`, `C34_complete`, `C34_violation`, `C35_directives_partial`, `C35_headers_partial`, `C36_comments_partial`, `C36_whitespace_partial`, `C36_cuda_partial`, `C37_references_defined`, `C38_violation`, `C39_kept`, `C39_references`, `C40_query_partial`, `C40_leaf_partial`, `C40_violation_count`, `C41_balanced_partial`, `C41_acyclic_partial`, `C41_no_data_partial`, `C41_diverges`, `C42_partial`, `C42_violation_data`, `C43_label_positions`, `C44_labels`, `C44_views_partial`, `C44_output_partial`, `C45_files_partial`, `C45_violation`, `C46_only_data_removed`, `C47_switches`, `C47_order`, `C48_failure`, `C48_binary`, `C48_text`, `C48_exit`, `C48_run`, `C49_binary`, `C50_code_points`, `C50_bytes`, `C51_no_double_blank`, `C51_output`, `C52_no_ignored_references`, `C53_user_code_iff`, `C54_library_function_removed_partial`, `C54_listing_exact`, `C55_header_address_partial`, `C55_violation`, `C56_unique_names_partial`, `C56_exactly`, `C56_text`, `C57_shown_partial`, `C57_visible_lines_partial`, `C63_output`, `C58_dump_partial`, `C58_text`, `C58_dump_exact`, `C59_filtered_count_partial`, `C59_bounds`, `C60_labels`, `C60_positions_partial`, `C60_loc`, `C60_label`, `C60_position_unique`, `C60_shown_unique`, `C61_sections_partial`, `C61_section_unique`, `C62_line`, `C62_columns`, `C62_references_partial`, `C67_lines`, `C63_removed`, `C64_body_partial`, `C65_defines_unique`, `C65_label_unique`, `C65_function_unique`, `C65_address_unique`, `C65_defined`, `C65_code`, `C65_data`, `C65_exported`, `C65_same_address`, `C65_reachable`, `C65_kept`, `C65_terminates`, `C66_mentions_partial`, `C66_violation`, `C67_read`, `C67_unique`, `C68_binary`, `C68_binary_json_partial`, `C68_violation`, `C68_text`, `C68_text_json`, `C69_references_partial`, `C69_characters_partial`, `C70_more_filters_partial`, `C71_listing`, `C71_text`, `C71_text_json`, `C71_same`, `C71_ends`, `C71_hangs`, `C72_margins`, `C72_listing`, `C73_every_line`, `C74_marks_partial`, `C74_labels_partial`, `C74_first_partial`, `C75_kept`, `C75_body`, `C75_lost`, `C75_safe`, `C76_whitespace`, `C76_tabs`, `C76_again_partial`, `C77_comments_partial`, `C77_removed_partial`, `C78_append_partial`, `C79_pieces_partial`, `C79_plain_partial`, `C80_lines_partial`, `C80_joint_partial`, `C80_exact_partial`, `C80_violation`, `C81_same_lines`, `C82_library`, `C82_filters_partial`, `C82_violation_cap`, `C83_functions_partial`, `C84_count_partial`, `C85_document`, `C85_dump`, `C85_document_exact`, `C85_dump_exact`, `C86_text_partial`, `C86_lines_partial`, `C86_positions_partial`, `C87_line_numbers_partial`, `C88_bytes_partial`, `C89_ascii`, `C89_binary_partial`, `C90_directives_partial`, `C91_calls_partial`, `C91_chains`, `C91_exponential`, `C91_violation`, `C92_depth_partial`, `C92_balanced_partial`, `C92_acyclic_partial`, `C92_chains`, `C92_violation`, `C93_gaps_partial`, `C94_empty_lines`, `C94_source_text_partial`, `C95_mute`, `C96_inline_partial`, `C97_whitespace_partial`, `C97_exact_partial`, `C97_output_partial`, `C97_plain`, `C98_text_partial`, `C98_binary_partial`, `C98_json_partial`, `C98_violation`, `C98_json_binary_partial`, `C98_violation_binary`, `C99_exported_partial`, `C99_filter_partial`, `C99_ends`, `C100_unused`, `C100_outputs`, `C101_text`, `C101_program`, `C101_program_text`, `C102_compiled`, `C102_ends`, `C102_no_tables`, `C102_jump_tables`, `C102_program`, `C103_exact`, `C103_dead`, `C103_alive`, `C103_labels`, `C103_rows`, `C103_program`, `C103_dead_program`, `C103_alive_program`, `C104_document`, `C104_program`, `C105_document`, `C105_program`, `C106_document`, `C106_text`, `C106_program`, `C107_rows`, `C107_left`, `C107_dead`, `C107_alive`, `C107_program`, `C108_kept`, `C108_body`, `C108_compiled`, `C108_alive`, `C108_program`, `C108_document`, `C108_json_program`, `C109_compiled`, `C109_program`, `C109_json`, `C110_filters`, `C110_crlf`, `C110_program`, `C110_crlf_program`, `C110_none`

* propext, Quot.sound: `C12_append_only`, `C13_unterminated_line`, `C20_violation_crlf`, `C21_main_file_masked`, `C25_runs`, `C25_exact`, `C27_prefix`, `C27_no_comment_partial`, `C27_violation`, `C29_data`, `C29_type`, `C29_directive`, `C30_violation`, `C32_violation`, `C33_exactly_label_lines`, `C35_violation`, `C36_violation`, `C39_query`, `C40_violation`, `C41_violation`, `C42_steps`, `C44_violation_section`, `C44_violation_file`, `C51_after_removal`, `C57_violation`, `C58_grouped_partial`, `C58_program_partial`, `C58_violation_numbers`, `C59_violation`, `C60_violation`, `C61_violation`, `C64_violation`, `C64_violation_assignment`, `C66_violation_output`, `C70_violation_inline`, `C70_violation_unused`, `C70_violation_proc`, `C71_violation`, `C73_all_inputs`, `C76_violation`, `C76_violation_labels`, `C77_violation`, `C77_violation_blanks`, `C78_violation`, `C79_violation`, `C79_violation_alone`, `C86_violation`, `C89_text`, `C90_violation`, `C93_violation_label`, `C93_violation_data`, `C95_limits`, `C96_violation`, `C97_violation`, `C99_violation_twice`, `C101_binary`, `C103_unneeded`

* propext: `C06_violation`, `C07_violation`, `C15_violation`, `C16_violation`, `C19_unescape`, `C19_injective`, `C19_closing_quote`, `C20_violation_control`, `C20_violation_opcode`, `C22_reproducible_partial`, `C22_violation`, `C25_words_partial`, `C31_blank`, `C42_violation_order`, `C42_violation_history`, `C43_reuse_violation`, `C49_preserved_partial`, `C54_violation`, `C56_violation`, `C58_violation`, `C62_violation_names`, `C62_violation_lines`, `C69_violation`, `C69_violation_bytes`, `C69_violation_template`, `C74_violation`, `C82_violation_header`, `C83_violation`, `C84_violation`, `C85_breaks`, `C85_violation`, `C87_violation`, `C88_violation`, `C89_violation`, `C91_counter`, `C94_violation`, `C99_violation_history`, `C108_order`

* none: `C24_violation`, `C25_violation`, `C28_violation`, `C49_violation`

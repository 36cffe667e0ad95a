{
 "claims": [
  {
   "property": "C01",
   "status": "proved",
   "theorems": [
    "AsmParser.C01_output_capped",
    "AsmParser.C01_outputs_fixed"
   ],
   "note": "whole parser state is unchanged by input after the cap"
  },
  {
   "property": "C02",
   "status": "partial",
   "theorems": [
    "AsmParser.C02_label_definitions_point_at_labels_partial",
    "AsmParser.C02_with_cap",
    "AsmParser.C02_violation"
   ],
   "note": "true below the cap; at the cap only an entry for line 5001 can be wrong, and a constructed input shows it is"
  },
  {
   "property": "C03",
   "status": "partial",
   "theorems": [
    "AsmParser.C03_label_definitions_exact_partial",
    "AsmParser.C03_with_cap",
    "AsmParser.C03_strictly_increasing",
    "AsmParser.C03_violation"
   ],
   "note": "exact below the cap; at the cap at most one extra entry; numbers strictly increase always; C03_violation: at the cap an entry for a line that is no label is possible"
  },
  {
   "property": "C04",
   "status": "proved",
   "theorems": [
    "AsmParser.C04_cr_ignored"
   ],
   "note": ""
  },
  {
   "property": "C05",
   "status": "proved",
   "theorems": [
    "AsmParser.C05_filtered_count",
    "AsmParser.C05_filtered_count_consumed"
   ],
   "note": ""
  },
  {
   "property": "C06",
   "status": "partial",
   "theorems": [
    "AsmParser.C06_address_exact_partial",
    "AsmParser.C06_address_sign_wrap",
    "AsmParser.C06_address_undefined",
    "AsmParser.C06_violation"
   ],
   "note": "Exact for values below 2^31; [2^31,2^32) is reported minus 2^32; from 2^32 on the shift is undefined. All three cases proved for every context."
  },
  {
   "property": "C07",
   "status": "partial",
   "theorems": [
    "AsmParser.C07_reference_columns_partial",
    "AsmParser.C07_characters_partial",
    "AsmParser.C07_violation"
   ],
   "note": "ASCII lines of at most 65534 bytes; for UTF-8 lines with closed brackets the columns are those of the name in characters and the reported name ends with it (C07_characters_partial); a multibyte witness shows the general claim is false."
  },
  {
   "property": "C08",
   "status": "partial",
   "theorems": [
    "AsmParser.C08_no_ignored_labels",
    "AsmParser.C08_ignored_body_partial",
    "AsmParser.C08_violation"
   ],
   "note": "No ignored label is ever output; the body is left out up to the next line whose first word is ended by a blank. A function-name line with a blank in it ends the ignored function early (C08_violation)."
  },
  {
   "property": "C09",
   "status": "proved",
   "theorems": [
    "AsmParser.C09_library_functions_removed"
   ],
   "note": ""
  },
  {
   "property": "C10",
   "status": "proved",
   "theorems": [
    "AsmParser.C10_user_code_kept"
   ],
   "note": ""
  },
  {
   "property": "C11",
   "status": "proved",
   "theorems": [
    "AsmParser.C11_chunked"
   ],
   "note": ""
  },
  {
   "property": "C12",
   "status": "proved",
   "theorems": [
    "AsmParser.C12_append_only"
   ],
   "note": ""
  },
  {
   "property": "C13",
   "status": "proved",
   "theorems": [
    "AsmParser.C13_unterminated_line"
   ],
   "note": ""
  },
  {
   "property": "C14",
   "status": "proved",
   "theorems": [
    "AsmParser.C14_listing_exact",
    "AsmParser.C14_listing_all",
    "AsmParser.C14_capped"
   ],
   "note": "All well-formed listings; C14_listing_all: any size and any filter (library_functions and the cap of 5000 lines are part of the expected output, Spec/Pages.lean). ASCII instruction texts up to 65533 characters; addresses below 2^31."
  },
  {
   "property": "C15",
   "status": "partial",
   "theorems": [
    "AsmParser.C15_opcode_tokens_partial",
    "AsmParser.C15_opcode_tokens_no_tab",
    "AsmParser.C15_violation"
   ],
   "note": "Hex digits and tabs for all inputs; hex digits only if no tab directly follows a hex digit; witness with a tab inside a token."
  },
  {
   "property": "C16",
   "status": "proved",
   "theorems": [
    "AsmParser.C16_no_undefined_behaviour",
    "AsmParser.C16_violation"
   ],
   "note": "Condition is per line; the witnesses show both overflows happen without it."
  },
  {
   "property": "C17",
   "status": "partial",
   "theorems": [
    "AsmParser.C17_source_partial",
    "AsmParser.C17_source_file",
    "AsmParser.C17_violation"
   ],
   "note": "Exact when no function is left out; in general the file is right but the line number may be lost inside a left-out function (C17_violation)."
  },
  {
   "property": "C18",
   "status": "proved",
   "theorems": [
    "AsmParser.C18_section"
   ],
   "note": "All well-formed listings (as in C14)."
  },
  {
   "property": "C19",
   "status": "proved",
   "theorems": [
    "AsmParser.C19_unescape",
    "AsmParser.C19_injective",
    "AsmParser.C19_closing_quote"
   ],
   "note": "unescape and closeQuote are independent scanners in Props/Json.lean"
  },
  {
   "property": "C20",
   "status": "partial",
   "theorems": [
    "AsmParser.C20_document_partial",
    "AsmParser.C20_binary",
    "AsmParser.C20_text",
    "AsmParser.C20_violation_control",
    "AsmParser.C20_violation_opcode",
    "AsmParser.C20_violation_crlf",
    "AsmParser.C20_binary_hex",
    "AsmParser.C20_document_exact",
    "AsmParser.C20_binary_exact",
    "AsmParser.C20_binary_tab",
    "AsmParser.C20_text_exact",
    "AsmParser.C20_text_control"
   ],
   "note": "Round trip through an RFC 8259 reader (Spec/Json.lean). C20_document_exact, C20_binary_exact, C20_text_exact: for all documents resp. inputs, the output is read back as the document if no string in it has a control character (tabs are allowed outside opcodes), and is no JSON otherwise. C20_binary_tab: for inputs without control characters, exactly the opcode tokens with tabs, which the code does not escape, break the output (C20_violation_opcode). C20_text_control: any control character in the text output, such as CR, makes the JSON output of text mode invalid."
  },
  {
   "property": "C21",
   "status": "proved",
   "theorems": [
    "AsmParser.C21_main_file_masked",
    "AsmParser.C21_file_member"
   ],
   "note": "Noninterference (renaming the main file does not change the output) and the exact file member"
  },
  {
   "property": "C22",
   "status": "partial",
   "theorems": [
    "AsmParser.C22_reproducible_partial",
    "AsmParser.C22_violation"
   ],
   "note": "Binary mode proved; the text-mode parser ignores the flag (C22_violation)"
  },
  {
   "property": "C23",
   "status": "proved",
   "theorems": [
    "AsmParser.C23_source_member"
   ],
   "note": "Stated on the value a JSON reader recovers"
  },
  {
   "property": "C24",
   "status": "partial",
   "theorems": [
    "AsmParser.C24_replace",
    "AsmParser.C24_exact",
    "AsmParser.C24_aligned_partial",
    "AsmParser.C24_violation"
   ],
   "note": "No tab left, each replaced by 1-8 spaces, and the exact number of spaces, for all strings. Alignment to tab stops (tabStops, Spec/Text) proved when all tabs but the last have a multiple of 8 non-tab characters before them; C24_violation is the counterexample for other lines."
  },
  {
   "property": "C25",
   "status": "partial",
   "theorems": [
    "AsmParser.C25_nonBlanks",
    "AsmParser.C25_runs",
    "AsmParser.C25_words_partial",
    "AsmParser.C25_exact",
    "AsmParser.C25_violation"
   ],
   "note": "Only blanks removed, only spaces left, adjacent blanks only as the first two characters: all strings. C25_exact gives the result of every string by a closed formula. Words preserved if indentation or first word has length >= 2; violated otherwise (C25_violation)."
  },
  {
   "property": "C26",
   "status": "proved",
   "theorems": [
    "AsmParser.C26_literals",
    "AsmParser.C26_between",
    "AsmParser.C26_total",
    "AsmParser.C26_nonBlanks",
    "AsmParser.C26_exact"
   ],
   "note": "Literals as defined in Spec/Text (escapes included), all strings. C26_exact gives the result of every string."
  },
  {
   "property": "C27",
   "status": "partial",
   "theorems": [
    "AsmParser.C27_prefix",
    "AsmParser.C27_comment",
    "AsmParser.C27_no_comment_partial",
    "AsmParser.C27_violation"
   ],
   "note": "Prefix and comment freedom for all lines; exact result for lines with a comment, for lines with at most one word, and for lines ending in blanks. C27_violation: every comment-free line of several words that does not end in a blank loses its last word."
  },
  {
   "property": "C28",
   "status": "partial",
   "theorems": [
    "AsmParser.C28_columns",
    "AsmParser.C28_columns_partial",
    "AsmParser.C28_exact",
    "AsmParser.C28_violation"
   ],
   "note": "All ASCII locales. C28_exact gives all references of any line with their columns, which are too large by the length of the comment and the blanks before it; C28_columns says the same as a bound (lines shorter than 65535 bytes), C28_columns_partial that columns are right when nothing is cut off."
  },
  {
   "property": "C29",
   "status": "proved",
   "theorems": [
    "AsmParser.C29_label",
    "AsmParser.C29_data",
    "AsmParser.C29_global",
    "AsmParser.C29_weak",
    "AsmParser.C29_type",
    "AsmParser.C29_assignment",
    "AsmParser.C29_directive",
    "AsmParser.C29_comment"
   ],
   "note": "Each recogniser is equivalent to an explicit line form (Spec/Directives)."
  },
  {
   "property": "C30",
   "status": "partial",
   "theorems": [
    "AsmParser.C30_identity_partial",
    "AsmParser.C30_whitespace_partial",
    "AsmParser.C30_violation"
   ],
   "note": "Exact output for all inputs without whitespace-only lines and without inline assembly markers; C30_violation gives counterexamples for both kinds of input (whitespace-only lines are put in front of the next line; labels in inline assembly lose their indentation)."
  },
  {
   "property": "C31",
   "status": "proved",
   "theorems": [
    "AsmParser.C31_final_newline",
    "AsmParser.C31_result",
    "AsmParser.C31_blank"
   ],
   "note": "Whole parser state equal with and without the final newline, for all inputs, filters, iteration orders."
  },
  {
   "property": "C32",
   "status": "partial",
   "theorems": [
    "AsmParser.C32_crlf_partial",
    "AsmParser.C32_output_partial",
    "AsmParser.C32_exact_partial",
    "AsmParser.C32_violation"
   ],
   "note": "False as stated (C32_violation: CR is kept, a CR-only line is not blank). Proved: equal up to white space and blank lines when no line-dropping filter is set; and, with any of the filters for comments, directives and white space, the exact output: apart from empty lines, the CR LF file gives the lines of the LF file, each with its CR (C32_exact_partial)."
  },
  {
   "property": "C33",
   "status": "proved",
   "theorems": [
    "AsmParser.C33_label_definitions",
    "AsmParser.C33_exactly_label_lines"
   ],
   "note": "For all inputs and filters; label lines characterised by DefinesOrAssigns (Spec/TextMode). The only exception: a .file/.loc/... line that ends like a CUDA header is not a label line."
  },
  {
   "property": "C34",
   "status": "partial",
   "theorems": [
    "AsmParser.C34_shown",
    "AsmParser.C34_subsequence_partial",
    "AsmParser.C34_ink",
    "AsmParser.C34_complete",
    "AsmParser.C34_violation"
   ],
   "note": "C34_shown, C34_ink: all inputs, up to carried-over blanks and the un-indenting of inline assembly labels. C34_subsequence_partial: literally a subsequence of the cleaned input for inputs without whitespace-only lines and inline assembly (counterexamples: C34_violation). C34_complete: nothing lost when no dropping filter is set."
  },
  {
   "property": "C35",
   "status": "partial",
   "theorems": [
    "AsmParser.C35_directives_partial",
    "AsmParser.C35_violation",
    "AsmParser.C35_headers_partial"
   ],
   "note": "All inputs. C35_headers_partial: in CUDA code the directives between a function header and its closing parenthesis stay, and no others. The exception for .inst is any line containing .inst, C35_violation shows a .file directive that is kept because of this."
  },
  {
   "property": "C36",
   "status": "partial",
   "theorems": [
    "AsmParser.C36_comments_partial",
    "AsmParser.C36_whitespace_partial",
    "AsmParser.C36_violation",
    "AsmParser.C36_cuda_partial"
   ],
   "note": "Without the whitespace filter no comment line is left, with it only lines whose first character is a slash can be comments (C36_violation: squashing joins \"/ /\"). In CUDA code (C36_cuda_partial) lines that begin with @ are no comments. Inline assembly lines only if the input has no VT, FF, CR (C36_violation)."
  },
  {
   "property": "C37",
   "status": "proved",
   "theorems": [
    "AsmParser.C37_references_defined"
   ],
   "note": "All inputs and filters."
  },
  {
   "property": "C38",
   "status": "partial",
   "theorems": [
    "AsmParser.C38_violation"
   ],
   "note": "The property is false for every input: with library_functions the output of text mode is always empty (proved for all inputs). Nothing of the positive statement can hold."
  },
  {
   "property": "C39",
   "status": "proved",
   "theorems": [
    "AsmParser.C39_query",
    "AsmParser.C39_kept",
    "AsmParser.C39_references"
   ],
   "note": "For all tables of references, iteration orders and leftovers (C39_query); for the label lines that text mode keeps (C39_kept); and where every reference comes from in the input (C39_references)."
  },
  {
   "property": "C40",
   "status": "partial",
   "theorems": [
    "AsmParser.C40_query_partial",
    "AsmParser.C40_leaf_partial",
    "AsmParser.C40_violation",
    "AsmParser.C40_violation_count"
   ],
   "note": "Violated for every iteration order (C40_violation): the visited set is not cleared between labels. C40_violation_count: for all inputs in which no data mentions a name, at most as many labels are kept as there are roots. Proved: a single question with an empty visited set is answered correctly for references from code; a root that nothing leads to is kept."
  },
  {
   "property": "C41",
   "status": "partial",
   "theorems": [
    "AsmParser.C41_balanced_partial",
    "AsmParser.C41_acyclic_partial",
    "AsmParser.C41_no_data_partial",
    "AsmParser.C41_diverges",
    "AsmParser.C41_violation"
   ],
   "note": "Violated. C41_diverges: no end, for every filter and iteration order, if there is a circle of references between different labels with as many references from code as from data, and none of these labels is in use; C41_violation is an instance. Proved (C41_balanced_partial): terminates if no circle of references has as many references from code as from data; in particular if no reference from data is part of a circle, and on inputs without data directives. Not decided: balanced circles that visit a label twice or that contain a label in use."
  },
  {
   "property": "C42",
   "status": "partial",
   "theorems": [
    "AsmParser.C42_partial",
    "AsmParser.C42_steps",
    "AsmParser.C42_violation_order",
    "AsmParser.C42_violation_history",
    "AsmParser.C42_violation_data"
   ],
   "note": "Violated with unused_labels, both by the iteration order and by an earlier parse on the same thread, and with compatmode and directives by the iteration order (C42_violation_data). Proved: without unused_labels text and JSON output are the same for all orders and leftovers, unless data outside procedures is filtered (compatmode and directives)."
  },
  {
   "property": "C43",
   "status": "proved",
   "theorems": [
    "AsmParser.C43_label_positions",
    "AsmParser.C43_reuse_violation"
   ],
   "note": "Single parse: all inputs. C43_reuse_violation: second parse with the same object goes out of bounds."
  },
  {
   "property": "C44",
   "status": "partial",
   "theorems": [
    "AsmParser.C44_labels",
    "AsmParser.C44_views_partial",
    "AsmParser.C44_output_partial",
    "AsmParser.C44_violation_section",
    "AsmParser.C44_violation_file"
   ],
   "note": "Tables of labels: proved for all inputs. Views of file and section names: proved without library_functions resp. comment_only; both restrictions are necessary (violations proved)."
  },
  {
   "property": "C45",
   "status": "partial",
   "theorems": [
    "AsmParser.C45_files_partial",
    "AsmParser.C45_violation"
   ],
   "note": "All inputs. A .file directive whose text contains .data, .text, .section or .cfi_endproc (or a brace in CUDA code) is ignored (C45_violation). That an undefined index gives no source is part of C60_positions_partial."
  },
  {
   "property": "C46",
   "status": "proved",
   "theorems": [
    "AsmParser.C46_only_data_removed"
   ],
   "note": "All inputs."
  },
  {
   "property": "C47",
   "status": "proved",
   "theorems": [
    "AsmParser.C47_switches",
    "AsmParser.C47_order"
   ],
   "note": "Arguments that the program does not know are file names; the last one counts."
  },
  {
   "property": "C48",
   "status": "proved",
   "theorems": [
    "AsmParser.C48_failure",
    "AsmParser.C48_binary",
    "AsmParser.C48_text",
    "AsmParser.C48_exit",
    "AsmParser.C48_run"
   ],
   "note": "Exit status, what is written to standard output and to the debug dump. File system and streams are parameters of the model."
  },
  {
   "property": "C49",
   "status": "partial",
   "theorems": [
    "AsmParser.C49_preserved_partial",
    "AsmParser.C49_binary",
    "AsmParser.C49_violation"
   ],
   "note": "Violated (C49_violation): a line that is used only through an alias of its data loses that flag when it is copied for output. Proved: exactly the lines whose two alias flags agree are copied unchanged, the JSON is the same in any case, and in binary mode all lines are copied unchanged."
  },
  {
   "property": "C50",
   "status": "proved",
   "theorems": [
    "AsmParser.C50_code_points",
    "AsmParser.C50_bytes"
   ],
   "note": "Locale.utf8 (mblen as in a UTF-8 locale)."
  },
  {
   "property": "C51",
   "status": "proved",
   "theorems": [
    "AsmParser.C51_no_double_blank",
    "AsmParser.C51_output",
    "AsmParser.C51_after_removal"
   ],
   "note": "All inputs; C51_after_removal shows that the restriction to the lines before removal is needed."
  },
  {
   "property": "C52",
   "status": "proved",
   "theorems": [
    "AsmParser.C52_no_ignored_references"
   ],
   "note": "For all inputs."
  },
  {
   "property": "C53",
   "status": "proved",
   "theorems": [
    "AsmParser.C53_user_code_iff"
   ],
   "note": ""
  },
  {
   "property": "C54",
   "status": "partial",
   "theorems": [
    "AsmParser.C54_library_function_removed_partial",
    "AsmParser.C54_violation",
    "AsmParser.C54_listing_exact"
   ],
   "note": "The code violates the full statement: witness listing in C54_violation. C54_listing_exact: for well-formed listings exactly which functions stay."
  },
  {
   "property": "C55",
   "status": "partial",
   "theorems": [
    "AsmParser.C55_header_address_partial",
    "AsmParser.C55_violation"
   ],
   "note": "Holds unless the preceding function is left out; then the address is missing (C55_violation)."
  },
  {
   "property": "C56",
   "status": "partial",
   "theorems": [
    "AsmParser.C56_unique_names_partial",
    "AsmParser.C56_violation",
    "AsmParser.C56_exactly",
    "AsmParser.C56_text"
   ],
   "note": "The names are distinct exactly if the defined labels are (C56_exactly), for text mode end to end from the input (C56_text). Labels defined twice give duplicate labelDefinitions members (C56_violation)."
  },
  {
   "property": "C57",
   "status": "partial",
   "theorems": [
    "AsmParser.C57_shown_partial",
    "AsmParser.C57_visible_lines_partial",
    "AsmParser.C63_output",
    "AsmParser.C57_violation"
   ],
   "note": "Exact output for any combination of comment_only, directives, whitespace (and library_functions, which shows nothing), for all inputs (C57_shown_partial); with unused_labels, or for data in the compatibility mode with directives, the output is what remains of it by C63 (C63_output). .cfi_startproc behind other text is a violation."
  },
  {
   "property": "C58",
   "status": "partial",
   "theorems": [
    "AsmParser.C58_dump_partial",
    "AsmParser.C58_text",
    "AsmParser.C58_grouped_partial",
    "AsmParser.C58_program_partial",
    "AsmParser.C58_violation",
    "AsmParser.C58_violation_numbers",
    "AsmParser.C58_dump_exact"
   ],
   "note": "C58_dump_exact: for all dumps, the text is read back as the dump if no string has a control character other than tab, and is no JSON otherwise (also as the program writes it). End to end from the input: C58_text. The program writes the dump with digits grouped by commas: no difference if all numbers are below 1000 (C58_program_partial), invalid JSON otherwise (C58_violation_numbers)."
  },
  {
   "property": "C59",
   "status": "partial",
   "theorems": [
    "AsmParser.C59_filtered_count_partial",
    "AsmParser.C59_bounds",
    "AsmParser.C59_violation"
   ],
   "note": "Exact if the last line is not blank; otherwise at most one too large, which happens (C59_violation). Never negative."
  },
  {
   "property": "C60",
   "status": "partial",
   "theorems": [
    "AsmParser.C60_labels",
    "AsmParser.C60_positions_partial",
    "AsmParser.C60_loc",
    "AsmParser.C60_label",
    "AsmParser.C60_position_unique",
    "AsmParser.C60_shown_unique",
    "AsmParser.C60_violation"
   ],
   "note": "All inputs. The position in force is specified in Spec/Sources.lean (SetsPos), which includes what the code really does with index 0 and with words that end a block; C60_violation shows the difference to the claim. C60_labels determines the position of every output line, labels included: GivesPosition (Spec/Settle.lean) says which later directives reach a label."
  },
  {
   "property": "C61",
   "status": "partial",
   "theorems": [
    "AsmParser.C61_sections_partial",
    "AsmParser.C61_section_unique",
    "AsmParser.C61_violation"
   ],
   "note": "All inputs. SwitchesTo in Spec/Sources.lean says which lines switch; C61_violation shows the difference to the claim."
  },
  {
   "property": "C62",
   "status": "partial",
   "theorems": [
    "AsmParser.C62_line",
    "AsmParser.C62_columns",
    "AsmParser.C62_references_partial",
    "AsmParser.C62_violation_names",
    "AsmParser.C62_violation_lines",
    "AsmParser.C67_lines"
   ],
   "note": "C62_line is the exact list of words for every line; C67_lines the exact references of every line of every input (label lines and lines that are neither instructions nor data have none), C62_columns the same with columns, C62_references_partial the same in terms of the text alone outside CUDA code. Violated for names with $ or @ inside, for lines with a double quote, and for instructions of CUDA code, which are not recognized as such."
  },
  {
   "property": "C63",
   "status": "proved",
   "theorems": [
    "AsmParser.C63_removed",
    "AsmParser.C63_output"
   ],
   "note": ""
  },
  {
   "property": "C64",
   "status": "partial",
   "theorems": [
    "AsmParser.C64_body_partial",
    "AsmParser.C64_violation",
    "AsmParser.C64_violation_assignment"
   ],
   "note": "Violated by numeric local labels. Proved for exported functions whose label is defined once and that refer to no other label, up to the next label that is neither compiler-generated nor in inline assembly. C75 extends this to functions that refer to exported labels, and shows that any other function can be lost. An assignment in the function hides the rest as well (C64_violation_assignment)."
  },
  {
   "property": "C65",
   "status": "proved",
   "theorems": [
    "AsmParser.C65_defines_unique",
    "AsmParser.C65_label_unique",
    "AsmParser.C65_function_unique",
    "AsmParser.C65_address_unique",
    "AsmParser.C65_defined",
    "AsmParser.C65_code",
    "AsmParser.C65_data",
    "AsmParser.C65_exported",
    "AsmParser.C65_same_address",
    "AsmParser.C65_reachable",
    "AsmParser.C65_kept",
    "AsmParser.C65_terminates"
   ],
   "note": "Exact: both directions, for all inputs."
  },
  {
   "property": "C66",
   "status": "partial",
   "theorems": [
    "AsmParser.C66_mentions_partial",
    "AsmParser.C66_violation",
    "AsmParser.C66_violation_output"
   ],
   "note": "Proved outside CUDA code for lines without =. Violated by all CUDA code (ctre::match with a pattern for the first character only)."
  },
  {
   "property": "C67",
   "status": "proved",
   "theorems": [
    "AsmParser.C67_lines",
    "AsmParser.C67_read",
    "AsmParser.C67_unique"
   ],
   "note": "All inputs and filters, CUDA code included. Sections and sources are C60 and C61, usage flags C39/C40, columns of the references C28. Lines without a text are not described (C51, C57). The enclosing function is, as in the code, the last label that is not compiler-generated, and an assignment counts as a label (see C64_violation_assignment)."
  },
  {
   "property": "C68",
   "status": "partial",
   "theorems": [
    "AsmParser.C68_binary",
    "AsmParser.C68_binary_json_partial",
    "AsmParser.C68_violation",
    "AsmParser.C68_text",
    "AsmParser.C68_text_json"
   ],
   "note": "Binary mode, JSON: proved if the output lines with label references are ASCII; violated otherwise (C68_violation). Text output and text mode are proved completely."
  },
  {
   "property": "C69",
   "status": "partial",
   "theorems": [
    "AsmParser.C69_references_partial",
    "AsmParser.C69_characters_partial",
    "AsmParser.C69_violation",
    "AsmParser.C69_violation_bytes",
    "AsmParser.C69_violation_template"
   ],
   "note": "Exact for ASCII and for UTF-8 texts of at most 65535 bytes if every < is followed by > or + in its line without a # in between; after characters of several bytes the reported names have additional bytes in front. Violated by names with # (C69_violation), with < (C69_violation_template) and after multibyte characters (C69_violation_bytes)."
  },
  {
   "property": "C70",
   "status": "partial",
   "theorems": [
    "AsmParser.C70_more_filters_partial",
    "AsmParser.C70_violation_inline",
    "AsmParser.C70_violation_unused",
    "AsmParser.C70_violation_proc"
   ],
   "note": "For all byte strings: with at least the filters comment_only, directives and library_functions (and possibly unused_labels and the compatibility mode) the lines shown are among those shown with fewer filters, in order and with the same text. Missing, each with a witness where the property fails: the smaller filter has unused_labels; comment_only is turned on for inputs with inline assembly (or CUDA); .cfi_startproc is not alone in its line. Also missing: data, if the smaller filter has compatmode and directives."
  },
  {
   "property": "C71",
   "status": "partial",
   "theorems": [
    "AsmParser.C71_listing",
    "AsmParser.C71_text",
    "AsmParser.C71_text_json",
    "AsmParser.C71_same",
    "AsmParser.C71_ends",
    "AsmParser.C71_hangs",
    "AsmParser.C71_violation"
   ],
   "note": "End to end for the model of main. The program ends if no circle of references has as many references from code as from data (C71_ends); it does not if there is such a circle of different labels that are not in use (C71_hangs, C71_violation). With -unused_labels the output of text mode depends on the order of the hash tables (C42)."
  },
  {
   "property": "C72",
   "status": "proved",
   "theorems": [
    "AsmParser.C72_margins",
    "AsmParser.C72_listing"
   ],
   "note": ""
  },
  {
   "property": "C73",
   "status": "proved",
   "theorems": [
    "AsmParser.C73_every_line",
    "AsmParser.C73_all_inputs"
   ],
   "note": "Exact for every input; only addresses from 2^32 and line numbers from 2^31 on (undefined behaviour) are left open."
  },
  {
   "property": "C74",
   "status": "partial",
   "theorems": [
    "AsmParser.C74_marks_partial",
    "AsmParser.C74_labels_partial",
    "AsmParser.C74_first_partial",
    "AsmParser.C74_violation"
   ],
   "note": "Exact for all inputs whose data mentions no defined label, for every iteration order and every leftover of earlier parses. C74_violation: an exported function with a second label at its address can be lost completely. Missing: data that refers to labels."
  },
  {
   "property": "C75",
   "status": "proved",
   "theorems": [
    "AsmParser.C75_kept",
    "AsmParser.C75_body",
    "AsmParser.C75_lost",
    "AsmParser.C75_safe"
   ],
   "note": "C75_safe is the equivalence; C75_body: the code stays too; C75_kept also for leftovers of earlier parses that do not contain the function."
  },
  {
   "property": "C76",
   "status": "partial",
   "theorems": [
    "AsmParser.C76_whitespace",
    "AsmParser.C76_tabs",
    "AsmParser.C76_again_partial",
    "AsmParser.C76_violation",
    "AsmParser.C76_violation_labels"
   ],
   "note": "Missing: unused_labels (false there, see C76_violation_labels), data with compatmode and directives, and outputs that start inline assembly, contain .cfi_startproc (with directives) or have lines starting with a slash (with comment_only and whitespace); C76_violation shows that each of these conditions is needed."
  },
  {
   "property": "C77",
   "status": "partial",
   "theorems": [
    "AsmParser.C77_comments_partial",
    "AsmParser.C77_removed_partial",
    "AsmParser.C77_violation",
    "AsmParser.C77_violation_blanks"
   ],
   "note": "Missing: comments that contain .cfi_startproc, .cfi_endproc, .data, .text, .section or a closing brace, which do matter (C77_violation); comments after an instruction. C77_removed_partial (comments left out altogether) is about the text output, without unused_labels and without data if there are compatmode and directives."
  },
  {
   "property": "C78",
   "status": "partial",
   "theorems": [
    "AsmParser.C78_append_partial",
    "AsmParser.C78_violation"
   ],
   "note": "Missing: unused_labels, and data with compatmode and directives, where it is false (C78_violation)."
  },
  {
   "property": "C79",
   "status": "partial",
   "theorems": [
    "AsmParser.C79_pieces_partial",
    "AsmParser.C79_plain_partial",
    "AsmParser.C79_violation",
    "AsmParser.C79_violation_alone"
   ],
   "note": "Missing: unused_labels, and data with compatmode and directives; for both it is false (C78_violation)."
  },
  {
   "property": "C80",
   "status": "partial",
   "theorems": [
    "AsmParser.C80_lines_partial",
    "AsmParser.C80_joint_partial",
    "AsmParser.C80_exact_partial",
    "AsmParser.C80_violation"
   ],
   "note": "Violated: the data of a constant in use is removed with compatmode and directives, depending on the iteration order (C80_violation). Proved: the result is exactly the kept lines without the unneeded ones, for the labels that are found in use, each of which is found for a reason (all inputs and filters in which no data directive also defines a label), and each of them shows section and source position as without the removal (C80_joint_partial); which labels are found, if no data mentions a defined label. Missing: data directives that define labels."
  },
  {
   "property": "C81",
   "status": "proved",
   "theorems": [
    "AsmParser.C81_same_lines"
   ],
   "note": "For all argument lists, environments and inputs of plain text; what JSON becomes of other inputs is C20."
  },
  {
   "property": "C82",
   "status": "partial",
   "theorems": [
    "AsmParser.C82_library",
    "AsmParser.C82_filters_partial",
    "AsmParser.C82_violation_header",
    "AsmParser.C82_violation_cap"
   ],
   "note": "Violated: a label that was cut off by the line limit appears with library_functions (C82_violation_cap), and inside a function left out by plt a line can begin a function that begins none otherwise (C82_violation_header). Proved for output that is not truncated: library_functions removes whole lines (all inputs); plt and library_functions together leave a sublist of the texts (inputs without such lines)."
  },
  {
   "property": "C83",
   "status": "partial",
   "theorems": [
    "AsmParser.C83_functions_partial",
    "AsmParser.C83_violation"
   ],
   "note": "Violated with library_functions, for the address behind a function that is left out, and by references that are not closed (C83_violation). Proved without library_functions for all inputs whose first part closes its references and whose result is not truncated; all addresses but the first in general, all if the first part leaves nothing out."
  },
  {
   "property": "C84",
   "status": "partial",
   "theorems": [
    "AsmParser.C84_count_partial",
    "AsmParser.C84_violation"
   ],
   "note": "The exact count for every split, below the line limit; it is the intended one exactly if there is only one call."
  },
  {
   "property": "C85",
   "status": "proved",
   "theorems": [
    "AsmParser.C85_breaks",
    "AsmParser.C85_document",
    "AsmParser.C85_dump",
    "AsmParser.C85_violation",
    "AsmParser.C85_document_exact",
    "AsmParser.C85_dump_exact"
   ],
   "note": "All documents: same bytes up to line ends, and the same result of a JSON reader (a value, or an error if a string has control characters, C85_violation). Opcodes must not contain quotes or backslashes; the parsers produce no such opcodes (C15)."
  },
  {
   "property": "C86",
   "status": "partial",
   "theorems": [
    "AsmParser.C86_text_partial",
    "AsmParser.C86_lines_partial",
    "AsmParser.C86_positions_partial",
    "AsmParser.C86_violation"
   ],
   "note": "Text output without unused_labels and without loose data in compatmode with directives: the same for every split, and no access out of bounds. False for unused_labels, and for references and filteredCount in the JSON output (C86_violation)."
  },
  {
   "property": "C87",
   "status": "partial",
   "theorems": [
    "AsmParser.C87_line_numbers_partial",
    "AsmParser.C87_violation"
   ],
   "note": "Function names without blanks, colons and slashes that are no hexadecimal numbers, and positions with a slash in the first word. Violated by names with a scope (C87_violation); with library_functions the positions matter on purpose."
  },
  {
   "property": "C88",
   "status": "partial",
   "theorems": [
    "AsmParser.C88_bytes_partial",
    "AsmParser.C88_violation"
   ],
   "note": "Texts with a character other than hexadecimal digits before the first two blanks in a row (the character being none of < > + # R). The others are violated (C88_violation)."
  },
  {
   "property": "C89",
   "status": "partial",
   "theorems": [
    "AsmParser.C89_text",
    "AsmParser.C89_ascii",
    "AsmParser.C89_binary_partial",
    "AsmParser.C89_violation"
   ],
   "note": "Text mode: all inputs. Binary mode: everything for ASCII inputs, everything except the references for all inputs (C89_violation: there the references differ)."
  },
  {
   "property": "C90",
   "status": "partial",
   "theorems": [
    "AsmParser.C90_directives_partial",
    "AsmParser.C90_violation"
   ],
   "note": "Proved for inputs without CUDA functions, without lines of blanks only, with .cfi_startproc alone in its line and, in the compatibility mode, without shown data directives. Missing: unused_labels (directives decide which labels are exported; C90_violation), the JSON output (which shows the source positions the directives give). C90_violation: .loc before a label with .cfi_startproc in its line; .globl with unused_labels; parameters of CUDA functions."
  },
  {
   "property": "C91",
   "status": "partial",
   "theorems": [
    "AsmParser.C91_calls_partial",
    "AsmParser.C91_chains",
    "AsmParser.C91_counter",
    "AsmParser.C91_exponential",
    "AsmParser.C91_violation"
   ],
   "note": "Proved: if no data mentions a defined label and each label is mentioned by at most one function, there are at most 2N(N+1) calls for N labels. C91_chains: if nothing gives a reason to keep a label, there are at least as many calls as chains of references. C91_violation: not bounded by any power of the length. Missing because violated: labels mentioned by several functions."
  },
  {
   "property": "C92",
   "status": "partial",
   "theorems": [
    "AsmParser.C92_depth_partial",
    "AsmParser.C92_balanced_partial",
    "AsmParser.C92_acyclic_partial",
    "AsmParser.C92_chains",
    "AsmParser.C92_violation"
   ],
   "note": "Proved: depth at most N+1 for N labels, if no data mentions a defined label; at most (N+2)^2, if no circle of references has as many references from code as from data. C92_chains: without a reason to keep labels, at least the length of every chain. C92_violation: no fixed depth suffices. Missing: circles with as many references from code as from data (C41_diverges has the cases in which the recursion does not end at all)."
  },
  {
   "property": "C93",
   "status": "partial",
   "theorems": [
    "AsmParser.C93_gaps_partial",
    "AsmParser.C93_violation_label",
    "AsmParser.C93_violation_data"
   ],
   "note": "Proved for all filters (including unused_labels) up to the source position of labels, and in the compatibility mode with directives if no line looks like data and defines a label. Both exceptions are violations with witnesses."
  },
  {
   "property": "C94",
   "status": "partial",
   "theorems": [
    "AsmParser.C94_empty_lines",
    "AsmParser.C94_source_text_partial",
    "AsmParser.C94_violation"
   ],
   "note": "Proved for empty lines (blanks, semicolons, carriage returns) without restriction; for source lines whose first word is followed by a blank or colon and not a hexadecimal number, if no function is left out. The other cases are violations with witnesses."
  },
  {
   "property": "C95",
   "status": "proved",
   "theorems": [
    "AsmParser.C95_mute",
    "AsmParser.C95_limits"
   ],
   "note": "C95_mute. The exceptions (blank lines, CUDA parameters) are necessary: C95_limits. With library_functions the result is always empty."
  },
  {
   "property": "C96",
   "status": "partial",
   "theorems": [
    "AsmParser.C96_inline_partial",
    "AsmParser.C96_violation"
   ],
   "note": "Proved if the markers alternate, starting with one of a beginning. Otherwise the claim is false (C96_violation): the code counts markers, so #NO_APP at the beginning of a file (as compilers for some targets write it) makes the next block of inline assembly ordinary code, and after two markers of a beginning and one of an end ordinary code still counts as inline assembly."
  },
  {
   "property": "C97",
   "status": "partial",
   "theorems": [
    "AsmParser.C97_whitespace_partial",
    "AsmParser.C97_exact_partial",
    "AsmParser.C97_output_partial",
    "AsmParser.C97_plain",
    "AsmParser.C97_violation"
   ],
   "note": "Proved for inputs in which squashing the blanks of a line keeps its words apart; C97_plain gives a simple sufficient condition, line by line (no string literal except at the end of the line, and a first word of at least two characters or good indentation; lines that begin with an indented word proc... are excluded; unindented ones are allowed if no line of the input consists of blanks only). C97_exact_partial gives the exact text of every line: literals are copied, other blanks are reduced as C25, C26 say. Without the condition the claim is false (C97_violation): with the filter, the blank between directory and name of a .file directive is lost, so that the directory is taken for the file and the code is no longer the user's; and an instruction of one letter is joined to its operand."
  },
  {
   "property": "C98",
   "status": "partial",
   "theorems": [
    "AsmParser.C98_text_partial",
    "AsmParser.C98_binary_partial",
    "AsmParser.C98_json_partial",
    "AsmParser.C98_violation",
    "AsmParser.C98_json_binary_partial",
    "AsmParser.C98_violation_binary"
   ],
   "note": "Proved for the text output of both modes: at most 8 times the length of the input plus 2 in text mode (tabs are expanded), at most the length of the input plus 10028 in binary mode. The JSON output of text mode is at most 33 times the square of the length plus linear terms (C98_json_partial), and a linear bound is false (C98_violation): the name of the section is repeated for every line, so that the output for n lines can have n*n characters; for every factor there is an input whose output is longer by more than this factor. The JSON output of binary mode is at most 55 times the square plus linear terms (C98_json_binary_partial), and a linear bound is false there, too (C98_violation_binary): columns are counted in characters and stop at a byte that belongs to none, while names are cut out by bytes, so that one line of n bytes can have n*n/4 characters of reference names."
  },
  {
   "property": "C99",
   "status": "partial",
   "theorems": [
    "AsmParser.C99_exported_partial",
    "AsmParser.C99_filter_partial",
    "AsmParser.C99_ends",
    "AsmParser.C99_violation_twice",
    "AsmParser.C99_violation_history"
   ],
   "note": "Proved if no label is defined twice, no label of the input is left over as visited from an earlier call, and no data is shown if the compatibility mode and the filter directives are both set. False otherwise: if an exported label is defined twice, its first definition is removed with its code (C99_violation_twice); if the label is left over from an earlier input on the same thread, it is removed (C99_violation_history). Termination is proved without these conditions."
  },
  {
   "property": "C100",
   "status": "proved",
   "theorems": [
    "AsmParser.C100_unused",
    "AsmParser.C100_outputs"
   ],
   "note": ""
  },
  {
   "property": "C101",
   "status": "proved",
   "theorems": [
    "AsmParser.C101_text",
    "AsmParser.C101_binary",
    "AsmParser.C101_program",
    "AsmParser.C101_program_text"
   ],
   "note": ""
  },
  {
   "property": "C102",
   "status": "proved",
   "theorems": [
    "AsmParser.C102_compiled",
    "AsmParser.C102_ends",
    "AsmParser.C102_no_tables",
    "AsmParser.C102_jump_tables",
    "AsmParser.C102_program"
   ],
   "note": "The syntax excludes what the code is known to get wrong: the words .text, .data, .section and .cfi_endproc inside other lines (C60), lines that look like an assignment or a CUDA header, and, in the compatibility mode, data (C46)."
  },
  {
   "property": "C103",
   "status": "proved",
   "theorems": [
    "AsmParser.C103_exact",
    "AsmParser.C103_dead",
    "AsmParser.C103_unneeded",
    "AsmParser.C103_alive",
    "AsmParser.C103_labels",
    "AsmParser.C103_rows",
    "AsmParser.C103_program",
    "AsmParser.C103_dead_program",
    "AsmParser.C103_alive_program"
   ],
   "note": "Which of the needed labels are found in use depends on the hash order (C42, C75); the theorem says that none but these are, and C103_alive which ones certainly are. In the compatibility mode data without position below an idle label is left out (C46), which the rule includes; C103_rows assumes that there is no data then."
  },
  {
   "property": "C104",
   "status": "proved",
   "theorems": [
    "AsmParser.C104_document",
    "AsmParser.C104_program"
   ],
   "note": "The syntax excludes what C102 excludes, operands that begin with = and arguments of .cfi_endproc. That positions are not shown for labels like .L1 or _f is what the writer does, not necessarily what is intended."
  },
  {
   "property": "C105",
   "status": "proved",
   "theorems": [
    "AsmParser.C105_document",
    "AsmParser.C105_program"
   ],
   "note": "As in C103, which of the needed labels are found in use depends on the hash order (C42, C75); the document is exact for the labels found, each of which is found for a reason. The syntax excludes what C104 excludes; in the compatibility mode label lines must not look like data."
  },
  {
   "property": "C106",
   "status": "proved",
   "theorems": [
    "AsmParser.C106_document",
    "AsmParser.C106_text",
    "AsmParser.C106_program"
   ],
   "note": "As in C103, which of the needed labels are found in use depends on the hash order (C42, C75); the document is exact for the labels found. The condition on blanks is needed: without it words are joined (C97_violation). Comments may have any blanks and quotes, but none of the words that matter in comments (C77)."
  },
  {
   "property": "C107",
   "status": "proved",
   "theorems": [
    "AsmParser.C107_rows",
    "AsmParser.C107_left",
    "AsmParser.C107_dead",
    "AsmParser.C107_alive",
    "AsmParser.C107_program"
   ],
   "note": "Source positions of labels are left out: an empty line between a label and the .loc directive after it takes the position away (C93_violation_label). In the compatibility mode no label may start like a data directive (C93_violation_data). The whitespace filter is off here (C106 treats it)."
  },
  {
   "property": "C108",
   "status": "proved",
   "theorems": [
    "AsmParser.C108_kept",
    "AsmParser.C108_body",
    "AsmParser.C108_compiled",
    "AsmParser.C108_alive",
    "AsmParser.C108_program",
    "AsmParser.C108_order",
    "AsmParser.C108_document",
    "AsmParser.C108_json_program"
   ],
   "note": "That the labels come first is asked for every list of exactly the defined labels without repetitions (ComesFirst); comesFirst_exists shows that there is such an order for any labels. C75 is the counterpart for all orders."
  },
  {
   "property": "C109",
   "status": "proved",
   "theorems": [
    "AsmParser.C109_compiled",
    "AsmParser.C109_program",
    "AsmParser.C109_json"
   ],
   "note": "In the compatibility mode there must be no data directives among the lines that are shown, as in C102. C32_violation shows what differs with CR LF in general."
  },
  {
   "property": "C110",
   "status": "proved",
   "theorems": [
    "AsmParser.C110_filters",
    "AsmParser.C110_crlf",
    "AsmParser.C110_program",
    "AsmParser.C110_crlf_program",
    "AsmParser.C110_none"
   ],
   "note": "In the compatibility mode with -directives there must be no data directives among the lines that are shown, as in C102. For the parser and for the whole program, with LF and with CR LF."
  }
 ]
}
{"id": "C01", "title": "Output of the objdump parser is capped", "statement": "For every input, parsing it with a fresh binary-mode parser yields at most 5001 output lines; if there are 5001, the last one is the text '[truncated; too many lines]', and nothing that follows in the input changes any later output (text, JSON apart from the clock).", "quantifier": "all byte strings, all filter settings", "why_tests_cant": "Tests use files of a few hundred lines; the cap, its interaction with function removal, and 'nothing after it matters' range over arbitrarily long inputs.", "anchors": ["src/objdump/parser.cpp: ObjDumpParser::eol", "src/objdump/parser.cpp: ObjDumpParser::fromStream"]}
{"id": "C02", "title": "Every labelDefinitions entry of binary mode points at its own label line", "statement": "After parsing any input, each labelDefinitions entry (name, n) satisfies: n is a valid 1-based line number and line n is the label line whose text is name followed by ':'. (The code violates this for a label that falls on line 5001.)", "quantifier": "all byte strings, all filter settings, including function removal", "why_tests_cant": "Line numbers must stay right through every interleaving of ignored functions, removed library functions, source lines and the line cap; tests check a handful of files.", "anchors": ["src/objdump/parser.cpp: ObjDumpParser::label", "src/objdump/parser.cpp: ObjDumpParser::maybe_remove_last_function", "src/objdump/parser.cpp: ObjDumpParser::eol"]}
{"id": "C03", "title": "labelDefinitions of binary mode is complete, ordered and duplicate-free", "statement": "labelDefinitions lists exactly the label lines of the output, in output order: it is the list of (label, line number) of the output lines that are labels; the line numbers are strictly increasing.", "quantifier": "all byte strings, all filter settings", "why_tests_cant": "Completeness ('no label line is missing') is a statement about every output line for every input.", "anchors": ["src/objdump/parser.cpp: ObjDumpParser::label", "src/objdump/parser.cpp: ObjDumpParser::maybe_remove_last_function"]}
{"id": "C04", "title": "Binary mode is insensitive to CR bytes", "statement": "Deleting any or all carriage returns from the input changes nothing in the result: CRLF, LF and stray-CR versions of a listing give identical text and JSON.", "quantifier": "all byte strings", "why_tests_cant": "There are infinitely many placements of CR bytes; each parser state must ignore them.", "anchors": ["src/objdump/parser.cpp: ObjDumpParser::fromStream"]}
{"id": "C05", "title": "filteredCount accounts for every input line (binary mode)", "statement": "Unless the cap was hit, the reported filteredCount equals the number of newline characters of the input minus the number of output lines, and it is never negative; with the cap it counts only lines consumed before stopping.", "quantifier": "all byte strings parsed by a fresh parser", "why_tests_cant": "The count has to be right for every mixture of dropped, ignored, removed and kept lines.", "anchors": ["src/objdump/parser.cpp: ObjDumpParser::eol", "src/utils/jsonwriter.cpp: JsonWriter::write"]}
{"id": "C06", "title": "Instruction addresses are decoded exactly", "statement": "For an instruction line whose address is written in hexadecimal with value v, the reported address is v. (The code is right exactly for v < 2^31: from 2^31 on it reports v - 2^32 or executes an undefined shift.)", "quantifier": "all hexadecimal digit strings, of any length and with any leading zeros", "why_tests_cant": "The address space is 64 bits; tests contain a few dozen small addresses.", "anchors": ["src/objdump/parser.cpp: ObjDumpParser::actually_address", "src/utils/utils.cpp: hex2int", "src/utils/utils.cpp: is_hex"]}
{"id": "C07", "title": "Label reference ranges denote the referenced name", "statement": "For each label reference of an output line that consists of ASCII characters, cutting columns [startCol-1, endCol-1) out of the line's text gives exactly the reference's name. (Violated after a multibyte character.)", "quantifier": "all byte strings, all output lines and label references", "why_tests_cant": "Column arithmetic crosses three adjustments (prefix space, 1-based columns, 16-bit columns) for arbitrary line contents.", "anchors": ["src/objdump/parser.cpp: ObjDumpParser::labelref", "src/objdump/parser.cpp: ObjDumpParser::eol"]}
{"id": "C08", "title": "Ignored functions never appear in binary output", "statement": "No output line is the label of a function whose name begins with '__', is _init/_start/_fini, register_tm_clones, deregister_tm_clones, call_gmon_start, frame_dummy, _dl_relocate_static_pie, or begins with '.plt'; with the plt filter also none that ends in '@plt'. Lines between such a label and the next one are not output either.", "quantifier": "all byte strings, all filter settings, all function names", "why_tests_cant": "The set of function names is infinite and the regular expression deciding it is backtracking.", "anchors": ["src/utils/regexwrappers.cpp: shouldIgnoreFunction", "src/utils/regexes.hpp: binaryIgnoreFunctionRe", "src/utils/regexes.hpp: pltFunctionRe", "src/objdump/parser.cpp: ObjDumpParser::label"]}
{"id": "C09", "title": "library_functions leaves only functions with user code", "statement": "With library_functions, every function in the binary output other than the last one contains at least one line attributed to user code.", "quantifier": "all byte strings", "why_tests_cant": "Which functions survive depends on the whole history of source references before and inside each function.", "anchors": ["src/objdump/parser.cpp: ObjDumpParser::maybe_remove_last_function", "src/objdump/parser.cpp: ObjDumpParser::do_file_check"]}
{"id": "C10", "title": "library_functions never drops user code", "statement": "Turning library_functions on removes lines only: the output is a subsequence of the output without it (below the cap), and every line attributed to user code that is output without it is still output with it, in order.", "quantifier": "all byte strings whose unfiltered output stays below the cap", "why_tests_cant": "Compares two runs on every input.", "anchors": ["src/objdump/parser.cpp: ObjDumpParser::maybe_remove_last_function"]}
{"id": "C11", "title": "Binary-mode parsing can resume at line boundaries", "statement": "Feeding a listing in two consecutive fromStream calls, split right after a newline, gives the same lines and label definitions as one call on the whole listing.", "quantifier": "all byte strings split at all line boundaries", "why_tests_cant": "Ranges over all splits of all inputs.", "anchors": ["src/objdump/parser.cpp: ObjDumpParser::fromStream", "src/objdump/parser.cpp: ObjDumpParserState::commonReset"]}
{"id": "C12", "title": "Output is append-only without library_functions", "statement": "Without library_functions, parsing a longer input only appends: the lines and label definitions for a prefix of the input are a prefix of those for the whole input.", "quantifier": "all byte strings and all their prefixes", "why_tests_cant": "A monotonicity law over all pairs of inputs.", "anchors": ["src/objdump/parser.cpp: ObjDumpParser::eol", "src/objdump/parser.cpp: ObjDumpParser::fromStream"]}
{"id": "C13", "title": "An unterminated last line is not output in binary mode", "statement": "Bytes after the last newline of the input never contribute an output line or label definition.", "quantifier": "all byte strings", "why_tests_cant": "Ranges over all parser states in which the input can end.", "anchors": ["src/objdump/parser.cpp: ObjDumpParser::fromStream"]}
{"id": "C14", "title": "A well-formed objdump listing is decoded exactly", "statement": "For every abstract listing made of section headers, function headers, source references, function-name lines, blank lines, instruction lines (with continuation and relocation lines), parsing its textual rendering yields exactly the expected lines: one label line per kept function, one line per instruction with its text, address, opcode bytes, label references, section and source attribution, and nothing else. (Two deviations around functions that are left out, a lost source line number and a lost label address, are part of the expected output and are the subject of C17 and C55.)", "quantifier": "all abstract listings (any number of items, any well-formed names, addresses, byte strings and instruction texts)", "why_tests_cant": "The whole pipeline on every listing: a full functional specification rather than samples.", "anchors": ["src/objdump/parser.cpp: ObjDumpParser::fromStream", "src/objdump/parser.cpp: ObjDumpParser::eol", "src/objdump/parser.cpp: ObjDumpParser::address", "src/objdump/parser.cpp: ObjDumpParser::opcodes", "src/objdump/parser.cpp: ObjDumpParser::label"]}
{"id": "C15", "title": "Opcode tokens are hexadecimal words", "statement": "Every opcode reported for a line is a non-empty string of lower-case hexadecimal digits. (Tabs can slip in: the code only guarantees hexadecimal digits and tabs.)", "quantifier": "all byte strings, all lines", "why_tests_cant": "Ranges over all inputs including malformed listings.", "anchors": ["src/objdump/parser.cpp: ObjDumpParser::opcodes", "src/objdump/parser.cpp: ObjDumpParser::fromStream"]}
{"id": "C16", "title": "Binary mode executes no undefined behaviour on listings with small numbers", "statement": "If on every line of the input the hexadecimal digits ending its first word denote less than 2^32, and on every source-reference line (first word ended by '/') each run of decimal digits denotes less than 2^31, then parsing executes no undefined behaviour (shift out of range, atoi overflow, erase past the end).", "quantifier": "all byte strings meeting the condition, all filter settings", "why_tests_cant": "Absence of UB on all inputs cannot be tested; sanitizers see one execution.", "anchors": ["src/objdump/parser.cpp: ObjDumpParser::actually_address", "src/objdump/parser.cpp: ObjDumpParser::updateSourceRefLineNumber", "src/objdump/parser.cpp: ObjDumpParser::maybe_remove_last_function"]}
{"id": "C17", "title": "Binary-mode lines carry the most recent source reference", "statement": "Every output line is attributed to the file and line of the last source reference (a line '/path:number') before it; lines before the first reference are unattributed.", "quantifier": "all well-formed listings", "why_tests_cant": "History-dependent over arbitrarily long inputs.", "anchors": ["src/objdump/parser.cpp: ObjDumpParser::fromStream", "src/objdump/parser.cpp: ObjDumpParser::updateSourceRefLineNumber"]}
{"id": "C18", "title": "Binary-mode lines carry the most recent section", "statement": "Every output line carries the name given by the last 'Disassembly of section NAME:' header before it.", "quantifier": "all well-formed listings", "why_tests_cant": "History-dependent over arbitrarily long inputs.", "anchors": ["src/objdump/parser.cpp: ObjDumpParser::fromStream"]}
{"id": "C19", "title": "String escaping in the JSON output is reversible", "statement": "Escaping is injective, and un-escaping (\\t, \\\\, \\\") an escaped string gives the original string; an escaped string contains no unescaped quote.", "quantifier": "all byte strings", "why_tests_cant": "Ranges over all strings.", "anchors": ["src/utils/jsonwriter.cpp: escape"]}
{"id": "C20", "title": "The JSON output is well-formed and says exactly what was parsed", "statement": "For every document whose strings contain no control characters other than tab, a standard JSON reader accepts the emitted text and recovers exactly the intended document: the lines with labels, opcodes, address, source, section and text, the label definitions, the clock and the filtered count. (Control characters such as CR make the code emit invalid JSON.)", "quantifier": "all documents (any number of lines, labels, opcodes, any contents without control characters)", "why_tests_cant": "Validity of serialisation for every document, all optional-member and separator combinations.", "anchors": ["src/utils/jsonwriter.cpp: JsonWriter::write", "src/utils/jsonwriter.cpp: JsonWriter::writeLine", "src/utils/jsonwriter.cpp: JsonWriter::writeSource", "src/utils/jsonwriter.cpp: JsonWriter::writeLabelArray", "src/utils/jsonwriter.cpp: JsonWriter::writeOpcodesArray"]}
{"id": "C21", "title": "The main source file name is masked", "statement": "Without dont_mask_filenames, the name of the user's main source file (/app/example.* or example.*) is never written; the file member is null exactly for a main or unknown file, otherwise the file name without a leading '/app/'.", "quantifier": "all file names, filter settings and lines", "why_tests_cant": "Ranges over all file names.", "anchors": ["src/utils/jsonwriter.cpp: JsonWriter::writeSource"]}
{"id": "C22", "title": "Reproducible mode makes the JSON independent of the clock", "statement": "After setReproducible, the JSON output does not depend on the running time. (Holds for binary mode; the text-mode parser ignores the flag.)", "quantifier": "all parser states and all clock values", "why_tests_cant": "A non-interference claim over all clock values.", "anchors": ["src/objdump/parser.cpp: ObjDumpParser::outputJson", "src/assembly/parser.cpp: AssemblyTextParser::outputJson", "src/assembly/parser.cpp: AssemblyTextParser::setReproducible"]}
{"id": "C23", "title": "A line has a source object exactly when it has a source line and is not a bare label", "statement": "In the JSON, source is null iff the line's source line number is not positive or the line is a label without opcode; otherwise it has file, mainsource and line, and column iff non-zero.", "quantifier": "all lines", "why_tests_cant": "All combinations of fields.", "anchors": ["src/utils/jsonwriter.cpp: JsonWriter::writeSource"]}
{"id": "C24", "title": "Tab expansion is alignment to 8 columns", "statement": "expandTabs leaves no tab, keeps all other characters in order, and moves the character after a tab to the next multiple of 8 columns. (The code does this for the first misaligned tab only; later ones drift.)", "quantifier": "all byte strings", "why_tests_cant": "Any number and position of tabs.", "anchors": ["src/utils/regexwrappers.cpp: expandTabs"]}
{"id": "C25", "title": "Whitespace squashing only removes whitespace", "statement": "Squashing keeps the sequence of non-blank characters, yields no tab, never two adjacent blanks except in the indentation, at most two blanks of indentation, and never joins two words. (The code does join a one-character first word with the next.)", "quantifier": "all byte strings", "why_tests_cant": "Unbounded runs and positions of whitespace.", "anchors": ["src/utils/regexwrappers.cpp: squashHorizontalWhitespace"]}
{"id": "C26", "title": "Quoted strings survive whitespace squashing", "statement": "Each double-quoted string literal of a line appears unchanged in the squashed line.", "quantifier": "all byte strings with quoted parts", "why_tests_cant": "Backtracking regex with escapes, any number of literals.", "anchors": ["src/utils/regexwrappers.cpp: squashHorizontalWhitespaceWithQuotes", "src/utils/regexes.hpp: findQuotes"]}
{"id": "C27", "title": "Comment stripping returns a comment-free prefix containing the code", "statement": "getLineWithoutComment returns a prefix of the line that contains no ';' or '#' and is missing only comment and trailing blanks. (The code also drops the last word of a line that has neither.)", "quantifier": "all byte strings", "why_tests_cant": "Unbounded line contents.", "anchors": ["src/utils/regexwrappers.cpp: getLineWithoutComment"]}
{"id": "C28", "title": "Columns of used labels denote the label", "statement": "Every label reference extracted from a line names a substring of the line, and columns [startCol-1, endCol-1) of the line are that substring. (Violated when trailing text was stripped.)", "quantifier": "all ASCII lines shorter than 65535 characters", "why_tests_cant": "Column arithmetic over all lines.", "anchors": ["src/utils/regexwrappers.cpp: getUsedLabelsInLine", "src/utils/regexwrappers.cpp: getLineWithoutCommentAndStripFirstWord"]}
{"id": "C29", "title": "Label and directive recognition agrees with its grammar", "statement": "A line defines the label L exactly when it starts with an optional 'xproc ' marker, then L consisting of word characters, '$', '.', '@', then ':'; it is data, global, weak, a directive or a comment exactly when it has the documented form.", "quantifier": "all lines", "why_tests_cant": "Backtracking regular expressions over all strings.", "anchors": ["src/utils/regexes.hpp: labelDef", "src/utils/regexes.hpp: dataDefn", "src/utils/regexes.hpp: definesGlobal", "src/utils/regexes.hpp: definesWeak", "src/utils/regexes.hpp: directive", "src/utils/regexes.hpp: commentOnly", "src/utils/regexwrappers.cpp: getLabel"]}
{"id": "C30", "title": "Without filters text mode reproduces the input", "statement": "With no filter set, the text output is the input line by line with tabs expanded, blank lines collapsed to single ones, leading blank lines removed and a newline after every line.", "quantifier": "all inputs whose lines are empty or contain a non-blank character, and for which the usage analysis terminates", "why_tests_cant": "The exact output for every input.", "anchors": ["src/assembly/parser.cpp: AssemblyTextParser::eol", "src/assembly/parser.cpp: AssemblyTextParser::removeUnused", "src/assembly/parser.cpp: AssemblyTextParser::outputText"]}
{"id": "C31", "title": "A missing final newline does not matter in text mode", "statement": "Parsing an input with and without its final newline gives the same result, if its last line is not blank.", "quantifier": "all byte strings", "why_tests_cant": "All inputs.", "anchors": ["src/assembly/parser.cpp: AssemblyTextParser::fromStream"]}
{"id": "C32", "title": "Text mode is insensitive to CR line endings", "statement": "CRLF and LF versions of the same assembly give the same output. (Violated: CR bytes are appended to the text.)", "quantifier": "all byte strings", "why_tests_cant": "All inputs.", "anchors": ["src/assembly/parser.cpp: AssemblyTextParser::fromStream"]}
{"id": "C33", "title": "labelDefinitions of text mode lists exactly the label lines", "statement": "In text mode labelDefinitions is exactly the list of (label, line number) of the output lines that define labels, in order with strictly increasing numbers, and each such line's text contains the label.", "quantifier": "all inputs, filters and iteration orders", "why_tests_cant": "Numbers must be right after any combination of removals.", "anchors": ["src/assembly/parser.cpp: AssemblyTextParser::redetermineLabels", "src/assembly/parser.cpp: AssemblyTextParser::outputJson"]}
{"id": "C34", "title": "Text mode only drops lines", "statement": "The output lines are, in order, a subsequence of the input lines after tab expansion (and whitespace squashing, if enabled), plus blank lines.", "quantifier": "all inputs, filters and iteration orders", "why_tests_cant": "All combinations of filters on all inputs.", "anchors": ["src/assembly/parser.cpp: AssemblyTextParser::eol", "src/assembly/parser.cpp: AssemblyTextParser::removeUnused"]}
{"id": "C35", "title": "The directives filter removes all directives", "statement": "With the directives filter, no output line is a directive other than data definitions, .inst, labels and assignments, outside CUDA headers.", "quantifier": "all inputs", "why_tests_cant": "All inputs.", "anchors": ["src/assembly/parser.cpp: AssemblyTextParser::eol", "src/utils/regexwrappers.cpp: isDirective"]}
{"id": "C36", "title": "The comment_only filter removes all comment lines", "statement": "With comment_only, outside CUDA code, no output line consists only of a comment (# @ // ; or /* */).", "quantifier": "all inputs", "why_tests_cant": "All inputs.", "anchors": ["src/assembly/parser.cpp: AssemblyTextParser::eol", "src/utils/regexwrappers.cpp: isJustComments"]}
{"id": "C37", "title": "Label references only name labels defined in the input", "statement": "Every label reference of an output line in text mode names a label that the input defines.", "quantifier": "all inputs, filters and iteration orders", "why_tests_cant": "All inputs.", "anchors": ["src/assembly/parser.cpp: AssemblyTextParser::filterOutReferedLabelsThatArentDefined"]}
{"id": "C38", "title": "library_functions keeps user code in text mode", "statement": "In text mode, library_functions does not remove lines that belong to user code. (Violated: it empties the output for every input.)", "quantifier": "all inputs", "why_tests_cant": "All inputs.", "anchors": ["src/assembly/parser.cpp: AssemblyTextParser::eol"]}
{"id": "C39", "title": "A label is only reported used if it is reachable from a root", "statement": "If the usage analysis says a label is used then there is a chain of references from the label to an externally visible label or to a reference from outside any label.", "quantifier": "all reference graphs, iteration orders and residual thread states", "why_tests_cant": "Graph reachability over all graphs.", "anchors": ["src/assembly/parser.cpp: AssemblyTextParser::isUsed"]}
{"id": "C40", "title": "A label reachable from a root is reported used", "statement": "If a label is referenced (transitively) from an externally visible label, unused_labels keeps it. (Violated: state left over from earlier queries makes reachable labels look unused.)", "quantifier": "all inputs and iteration orders", "why_tests_cant": "Graph reachability over all graphs and query histories.", "anchors": ["src/assembly/parser.cpp: AssemblyTextParser::isUsed", "src/assembly/parser.cpp: AssemblyTextParser::markLabelUsage"]}
{"id": "C41", "title": "Text-mode parsing terminates", "statement": "Parsing any finite input terminates. (Violated by every input with a circle of references between different labels that are not in use, with as many references from code as from data. Proved if no circle of references has as many references from code as from data.)", "quantifier": "all inputs, filters and iteration orders", "why_tests_cant": "Termination on all inputs.", "anchors": ["src/assembly/parser.cpp: AssemblyTextParser::isUsed"]}
{"id": "C42", "title": "The result does not depend on hash iteration order", "statement": "The output of text mode is a function of the input: it does not depend on the iteration order of hash containers nor on what was parsed before on the same thread. (Violated; proved without unused_labels when the analysis terminates, and for inputs without filters.)", "quantifier": "all inputs, all pairs of iteration orders, all residual thread states", "why_tests_cant": "Iteration orders are fixed per platform; a test only sees one.", "anchors": ["src/assembly/parser.cpp: AssemblyTextParser::markLabelUsage", "src/assembly/parser.cpp: AssemblyTextParser::isUsed"]}
{"id": "C43", "title": "Label bookkeeping never indexes out of bounds", "statement": "In a single parse, every recorded label position is a valid line at the time it is used and that line defines that label. (Reusing a parser object violates this.)", "quantifier": "all inputs, filters and iteration orders", "why_tests_cant": "Memory safety on all inputs.", "anchors": ["src/assembly/parser.cpp: AssemblyTextParser::markLabelUsage", "src/assembly/parser.cpp: AssemblyTextParser::handleLabelDefinition"]}
{"id": "C44", "title": "Views into parsed lines stay valid", "statement": "No view that the text parser stores and later reads refers to a line that has been discarded. (Violated for section names on discarded comment lines and for source files with library_functions; proved for labels, and for everything without comment_only and library_functions.)", "quantifier": "all inputs and filters", "why_tests_cant": "Lifetimes over all inputs.", "anchors": ["src/assembly/parser.cpp: AssemblyTextParser::handleSection", "src/assembly/parser.cpp: AssemblyTextParser::handleD2", "src/assembly/parser.cpp: AssemblyTextParser::eol"]}
{"id": "C45", "title": "Source files are resolved through the file table", "statement": "Every output line of text mode with a file index has the file name that the last .file directive for this index gave, and a line whose index was never defined has no source at all.", "quantifier": "all inputs", "why_tests_cant": "The table is read after the whole input was seen, for every line.", "anchors": ["src/assembly/parser.cpp: AssemblyTextParser::removeUnused", "src/assembly/parser.cpp: AssemblyTextParser::handleFiledef"]}
{"id": "C46", "title": "Without unused_labels only data lines are removed after reading", "statement": "If unused_labels is off, the final pass removes only data lines outside procedures, and only with directives in compatibility mode; with directives or compatibility mode off it removes nothing.", "quantifier": "all inputs and iteration orders", "why_tests_cant": "All inputs.", "anchors": ["src/assembly/parser.cpp: AssemblyTextParser::removeUnused"]}
{"id": "C47", "title": "Command line options are order-independent switches", "statement": "Every documented option sets exactly its own switch, repetition and order of options do not matter, any other argument is the file name and the last one wins.", "quantifier": "all argument lists", "why_tests_cant": "All argument lists.", "anchors": ["src/main.cpp: getConfigurationFromCommandline"]}
{"id": "C48", "title": "Exit status and output mode", "statement": "The program exits with 1 exactly when the locale is missing or neither a file nor -stdin was given, otherwise 0; the output is that of the objdump parser iff -binary is given, text iff -outputtext is given, and the debug dump is written exactly with -debugdump in non-binary file mode.", "quantifier": "all environments and argument lists", "why_tests_cant": "All argument lists.", "anchors": ["src/main.cpp: main"]}
{"id": "C49", "title": "Converting a line for output preserves it", "statement": "Copying a parsed line into the form the writers use preserves every field. (Violated: is_used_data_through_alias is copied from is_used_through_alias; the JSON is nevertheless unaffected.)", "quantifier": "all lines", "why_tests_cant": "All field combinations.", "anchors": ["src/types/line.hpp: asm_line_v::asm_line_v"]}
{"id": "C50", "title": "Column counting counts characters", "statement": "In a UTF-8 locale, the length used for columns is the number of code points of any valid UTF-8 string without NUL, and equals the byte length exactly for ASCII.", "quantifier": "all valid UTF-8 strings", "why_tests_cant": "All strings.", "anchors": ["src/utils/utils.cpp: ustrlen"]}
{"id": "C51", "title": "No two consecutive blank lines in text mode", "statement": "The parser's line list never starts with a blank line nor has two adjacent blank lines before unused lines are removed.", "quantifier": "all inputs and filters", "why_tests_cant": "All inputs.", "anchors": ["src/assembly/parser.cpp: AssemblyTextParser::maybeAddBlank"]}
{"id": "C52", "title": "Lines with filtered labels keep their label reference only for other functions", "statement": "In binary mode, no label reference names a function that is ignored by the filter.", "quantifier": "all byte strings, all filter settings", "why_tests_cant": "All inputs and names.", "anchors": ["src/objdump/parser.cpp: ObjDumpParser::labelref"]}
{"id": "C53", "title": "User-code attribution means 'file outside the library directories'", "statement": "A binary-mode output line that has a source file is attributed to user code exactly when the file does not lie below /opt/compiler-explorer/, /usr/include or /usr/local/include; a line attributed to user code never comes from a library file.", "quantifier": "all byte strings, all filter settings, all output lines", "why_tests_cant": "The attribution is carried in parser state across arbitrarily many lines of any shape; tests only show a few listings.", "anchors": ["src/objdump/parser.cpp: do_file_check, fromStream", "src/utils/library_detection.cpp: file_in_library"]}
{"id": "C54", "title": "library_functions removes functions whose code comes from libraries only", "statement": "With library_functions, every function in the binary output other than the last one has at least one instruction line attributed to user code. (Violated: the label line carries the source reference of the preceding function, so a library function directly after user code stays.)", "quantifier": "all byte strings", "why_tests_cant": "Depends on the order of functions in the listing; the approved listings happen not to show it.", "anchors": ["src/objdump/parser.cpp: maybe_remove_last_function, eol"]}
{"id": "C55", "title": "Function label lines carry the function's address", "statement": "In binary mode the output line for a function header 'ADDRESS <NAME>:' has the address given in the header.", "quantifier": "all well-formed listings and all kept functions in them", "why_tests_cant": "Whether the address survives depends on what precedes the function in an arbitrarily long listing.", "anchors": ["src/objdump/parser.cpp: ObjDumpParser::actually_address", "src/objdump/parser.cpp: ObjDumpParser::label", "src/objdump/parser.cpp: ObjDumpParser::eol"]}
{"id": "C56", "title": "Objects in the JSON output have distinct member names", "statement": "In the JSON output no object has two members of the same name, so readers agree on its meaning. (Violated for labelDefinitions when a label is defined more than once.)", "quantifier": "all documents (lists of parsed lines and label definitions) with printable strings", "why_tests_cant": "It concerns every object in the output for arbitrary documents; a unit test sees only the documents it was given, none of which has two equal labels.", "anchors": ["src/utils/jsonwriter.cpp: JsonWriter::write, writeLine, writeSource, writeLabel", "src/objdump/parser.cpp: labels"]}
{"id": "C57", "title": "The exact output of text mode with the comment and directive filters", "statement": "In text mode with any combination of comment_only, directives and whitespace (and no other filter), the output consists of exactly the input lines that are outside block comments and are no comments (when comment_only is set) and are no plain directives, i.e. directives that neither define or assign a label nor place data nor are .inst (when directives is set); in the order of the input, with tabs expanded and blanks squashed as requested, and with empty lines collapsed. In inline assembly, labels are moved to the left; in CUDA code, the parameters of a function are always shown and an @ does not start a comment. No other line is lost and nothing is added. (Violated for lines that mention .cfi_startproc behind something else.)", "quantifier": "all byte strings", "why_tests_cant": "Tests compare the output for a handful of listings; that no line is lost or shown wrongly is a statement about every sequence of lines, including block comments spanning any number of lines.", "anchors": ["src/assembly/parser.cpp: AssemblyTextParser::eol", "src/assembly/parser.cpp: AssemblyTextParser::maybeAddBlank", "src/utils/regexwrappers.cpp: AssemblyTextParserUtils::isJustComments"]}
{"id": "C58", "title": "The debug dump is well-formed JSON and complete", "statement": "The file written by -debugdump is a JSON document from which a JSON reader recovers every line with all its flags, position, section, enclosing function and label references, the label definitions, the tables of used, weakly used and data-used labels, and the aliases. (Violated if a string contains a control character other than tab, such as the carriage return of a CRLF listing.)", "quantifier": "all dumps (lists of parsed lines, tables of labels), in any iteration order of the hash tables", "why_tests_cant": "No test reads the dump; separators between nested tables of arbitrary sizes, and escaping of arbitrary strings, cannot be covered by samples.", "anchors": ["src/utils/jsonwriter.cpp: DebugJsonWriter::write, writeDebugLine", "src/assembly/parser.cpp: AssemblyTextParser::outputDebugJson"]}
{"id": "C59", "title": "filteredCount accounts for every input line (text mode)", "statement": "In text mode the filteredCount member of the JSON output is the number of input lines minus the number of output lines; it is never negative. (Violated by one if the input ends with a line that consists only of blanks.)", "quantifier": "all inputs, all filter settings, all iteration orders of the hash tables", "why_tests_cant": "It compares two counters over arbitrary inputs; the tests compare listings, none of which ends in a blank line.", "anchors": ["src/assembly/parser.cpp: AssemblyTextParser::eol, fromStream, outputJson", "src/utils/jsonwriter.cpp: JsonWriter::write"]}
{"id": "C60", "title": "Text-mode lines carry the source position in force", "statement": "In text mode every output line that is no label shows the position given by the last position directive (.loc, .stabn, .dbg line, .d2line) up to this line, and none if a directive that ends a block came after it or no file has this index; a label shows the position of a .loc or .d2line that follows it, with only compiler-generated labels in between and no blank line. (Violated: .loc with file index 0 is ignored, and a line that merely mentions .text, .data, .section or .cfi_endproc, e.g. in a symbol name, ends the position.)", "quantifier": "all inputs, all filter settings, all output lines", "why_tests_cant": "The position is state carried over arbitrarily many lines of any shape, and is rewritten for labels afterwards.", "anchors": ["src/assembly/parser.cpp: AssemblyTextParser::handleSource, handleStabs, handle6502, handleD2, eol, amendPreviousLinesWith", "src/utils/regexwrappers.cpp: getSourceRef, getSourceInfoFromStabs, get6502DbgInfo, getD2LineInfo"]}
{"id": "C61", "title": "Text-mode lines carry the current section", "statement": "In text mode every output line has the section that the last section directive (.text, .data, .section NAME) up to this line selected. (Violated: the name is cut off at an underscore, and any line that mentions .text or .data, e.g. in a symbol name, switches the section.)", "quantifier": "all inputs, all filter settings, all output lines", "why_tests_cant": "Parser state over arbitrarily many lines of any shape.", "anchors": ["src/assembly/parser.cpp: AssemblyTextParser::handleSection, eol", "src/utils/regexwrappers.cpp: getSectionNameDef"]}
{"id": "C62", "title": "The label references of a line are the words of its operands that name labels", "statement": "In text mode the label references of an output line are exactly the words of its operands (the code before the comment, without the first word) that name a label defined in the input, in order of occurrence, a word with a directly preceding $ or % being looked up with and without it. Lines that define a label and lines that are neither instructions nor data definitions have none.", "quantifier": "all byte strings as input, all filters, all lines of the output", "why_tests_cant": "Which words are found depends on the interplay of comment detection, the stripping of the first word, the leftmost-longest matches of a regular expression and the table of labels, for lines of unbounded length and arbitrary bytes.", "anchors": ["src/utils/regexwrappers.cpp:132-249", "src/utils/regexes.hpp", "src/assembly/parser.cpp"]}
{"id": "C63", "title": "What unused_labels removes", "statement": "In text mode the output consists of exactly those lines read that are not removed, in their order and unchanged. With unused_labels a line is removed exactly if it is (a) a compiler-generated label or a label in inline assembly that is not used, (b) a label that is only used through another label at the same address, or (c) in an unused function or variable, i.e. after a label of the program that is not used in any way, up to the next label that is used. With compat mode and directives, data outside procedures whose label is unused is removed too. A label is only considered used if a chain of references from exported symbols or code outside labels leads to it.", "quantifier": "all byte strings as input, all filter settings, all iteration orders and leftovers of earlier parses", "why_tests_cant": "Whether a line is removed depends on all lines before it, and the order of the labels is arbitrary.", "anchors": ["src/assembly/parser.cpp: AssemblyTextParser::removeUnused, markLabelUsage, isUsed"]}
{"id": "C64", "title": "The code of an exported function is not removed", "statement": "With unused_labels every instruction below the label of an externally visible function, up to the next function, is in the output of text mode. (Violated: a local label like 1: in hand-written assembly, referred to as 1b or 1f, counts as an unused function, and hides the rest of the function.)", "quantifier": "all inputs, all filters with unused_labels, all exported functions, all lines of them", "why_tests_cant": "Functions of unbounded length with any kind of labels in them.", "anchors": ["src/assembly/parser.cpp: AssemblyTextParser::removeUnused", "src/utils/regexes.hpp"]}
{"id": "C65", "title": "The references between labels are those in the input", "statement": "The references that text mode records for an input are exactly these: from a function, i.e. the last label before that does not begin with '.', '$' or 'L', to every label other than itself that an instruction in it mentions; from the last label before a .globl, .weak or similar directive to the symbol it declares; and from the last label before a data directive to every name in it (also from the function, if the position is given by file index). The exported labels are exactly the declared global ones, and a label has the same address as another one exactly if there is neither code nor data between them. Hence with unused_labels each label in the output is reachable in this graph from an exported label or from code outside functions, and parsing ends unless there is a cycle through data in this graph.", "quantifier": "all byte strings as input, all filter settings, locales and iteration orders", "why_tests_cant": "The graph depends on all lines of the input and on state carried between them.", "anchors": ["src/assembly/parser.cpp: AssemblyTextParser::eol, extractUsedLabelsFromOpcodeLine, extractUsedLabelsFromDataLine, extractUsedLabelsFromDirective, handleLabelAliasing, filterNonLabels"]}
{"id": "C66", "title": "An instruction refers to the labels it mentions", "statement": "Every instruction of a function is recorded as a reference from the function to each label that it mentions, so that unused_labels keeps the targets of branches. (Violated for CUDA: no instruction with a mnemonic of two or more letters is recognised, so nothing in a CUDA function refers to anything, and with unused_labels a visible CUDA function disappears from the output.)", "quantifier": "all inputs, all lines that begin with a letter and define no label", "why_tests_cant": "Unbounded line contents and positions in the input.", "anchors": ["src/utils/regexes.hpp: hasOpcodeRe, hasNvccOpcodeRe", "src/utils/regexwrappers.cpp: AssemblyTextParserUtils::hasOpcode"]}
{"id": "C67", "title": "What text mode says about a line follows from its text and the lines before it", "statement": "Every output line of text mode that has a text is a line of the input that the filters keep, in input order, and without unused_labels (and unless compatmode and directives are combined) every line that the filters keep is in the output. Its label, whether the label is compiler-generated or an assignment, whether the line is data, an instruction, a directive or part of inline assembly, its enclosing function and the labels it refers to are exactly those that its text, the lines before it and the set of labels defined in the input determine, also in CUDA code.", "quantifier": "all byte strings as input, all filters, all lines of the output", "why_tests_cant": "The flags of a line depend on parser state (nesting of inline assembly, CUDA headers, the last function) accumulated over inputs of unbounded length, and on regular expressions applied to arbitrary bytes.", "anchors": ["src/assembly/parser.cpp:297-520", "src/assembly/parser.cpp:717-804", "src/utils/regexwrappers.cpp"]}
{"id": "C68", "title": "Valid UTF-8 in, valid UTF-8 out", "statement": "If the input is well-formed UTF-8, then so are the text output and the JSON output, in both modes: neither the tab and white space treatment, nor the truncation of names, file names and sections, nor the escaping cuts a character into pieces. (Violated by the JSON output of binary mode: after characters that are not ASCII, the name of a label reference is cut out by a column in characters instead of bytes.)", "quantifier": "all well-formed UTF-8 inputs of any length, all filters, all locales", "why_tests_cant": "Any character can stand anywhere in the line, and each output field is cut out of the line by its own byte arithmetic or regular expression.", "anchors": ["src/objdump/parser.cpp: ObjDumpParser::labelref, ObjDumpParser::eol", "src/assembly/parser.cpp: AssemblyTextParser::outputText, AssemblyTextParser::outputJson", "src/utils/jsonwriter.cpp: JsonWriter::write", "src/utils/regexwrappers.cpp: expandTabs, squashHorizontalWhitespaceWithQuotes"]}
{"id": "C69", "title": "The label references of an instruction in binary mode are the names in angle brackets", "statement": "In binary mode the label references of an instruction line are exactly the names that its text before a comment shows in angle brackets, <name> or <name+offset>, from left to right and with their columns, except for functions that the filter ignores; nothing else is reported, in particular nothing left over from an earlier line. (Violated for names with '#', such as closures in Rust: the reference is lost and the next line gets a reference to a name that stands nowhere; and for names with '<', such as templates: only the part after the last '<' is reported, so that a call of f<int>() refers to int; and after a character of several bytes: the name gets bytes in front that stand before the bracket, and an ignored function is not recognised.)", "quantifier": "all byte strings, all filters, all output lines", "why_tests_cant": "The opened bracket and its column are parser state that survives the end of a line, so the references of a line depend on all lines before it.", "anchors": ["src/objdump/parser.cpp: ObjDumpParser::fromStream, ObjDumpParser::labelref", "src/objdump/parser.cpp: ObjDumpParserState::commonReset"]}
{"id": "C70", "title": "In text mode a filter only removes lines", "statement": "Turning on further filters in text mode (comment_only, directives, library_functions, unused_labels) only removes lines: every line of the output with more filters is a line of the output with fewer filters, with the same text and in the same order. (Violated if a block comment holds a marker of inline assembly: with comment_only the line behind it has another text; together with unused_labels, where turning on comment_only makes lines appear; and if .cfi_startproc stands behind a label.)", "quantifier": "all byte strings, all pairs of filters one of which includes the other", "why_tests_cant": "The filters act on state shared by all lines (block comments, inline assembly, the procedure a line belongs to, collapsed blank lines), so that hiding one line can change the treatment of every later one.", "anchors": ["src/assembly/parser.cpp: AssemblyTextParser::fromStream, AssemblyTextParser::eol, AssemblyTextParser::handleStabs", "src/types/filter.hpp: Filter"]}
{"id": "C71", "title": "What the program prints, from the command line to standard output", "statement": "With -binary on a well-formed printable listing the program exits with status 0 and prints a JSON document that lists exactly the expected lines, the label definitions and the number of dropped lines. In text mode with -outputtext (and without -unused_labels) it prints exactly the lines that the filters show, otherwise a JSON document; two runs with the same options on the same input print the same apart from the clock; and the program ends. (Violated: on data that refers to itself in a circle the program does not end.)", "quantifier": "all command lines, all inputs, all iteration orders of the hash tables", "why_tests_cant": "It composes option parsing, decoding, filtering, and JSON writing for unboundedly many inputs; a test sees one run on one hash order.", "anchors": ["src/main.cpp: main", "src/objdump/parser.cpp: ObjDumpParser::fromStream", "src/assembly/parser.cpp: AssemblyTextParser::fromStream", "src/utils/jsonwriter.cpp: JsonWriter::write"]}
{"id": "C72", "title": "The margin of a line does not matter in binary mode", "statement": "Blanks, tabs and semicolons in front of lines do not change the result of binary mode in any way, so the listings of llvm-objdump, which begin the lines about the source with '; ', are decoded like those of objdump.", "quantifier": "all byte strings, all filters, all margins", "why_tests_cant": "It relates the results for infinitely many pairs of inputs.", "anchors": ["src/objdump/parser.cpp: ObjDumpParser::fromStream"]}
{"id": "C73", "title": "The output of binary mode for every input, line by line", "statement": "For every input of binary mode, well-formed or not, the list of output lines and the table of labels are exactly those computed line by line by a specification that never looks at the parser: each line (carriage returns removed) is classified by its first word and what ends it as a remark, a section line, a source reference, a function title, or code with an address, bytes and text; the only things carried from line to line are the section, the source reference, whether the current function is left out, and a '<' that has not been closed; references are the names between '<' and '>' or '+' before a '#'; with the library filter a function without user code is taken back when the next function begins; after 5000 lines a marker is the last line. An unterminated last line contributes nothing.", "quantifier": "all byte strings, all filters, all locales (addresses below 2^32 and line numbers below 2^31 are determined, others are undefined behaviour of the code)", "why_tests_cant": "The statement fixes the result for arbitrary, also malformed, input of any length; tests only sample well-formed listings, and interactions between lines (ignored functions, open brackets, missing source references, truncation) multiply without bound.", "anchors": ["src/objdump/parser.cpp:11-26", "src/objdump/parser.cpp:33-94", "src/objdump/parser.cpp:96-151", "src/objdump/parser.cpp:153-298", "src/objdump/parser.cpp:305-486"]}
{"id": "C74", "title": "Which labels the filter for unused labels keeps", "statement": "The labels are examined one after the other in some order. A label stays exactly if, when its turn comes, there is a chain of references from code (an instruction or directive of each label's function mentions the previous label) that ends at an exported label or at code outside functions and that contains no label taken before; all labels of the chain are then taken. A label without such a chain, placed at the address of a label that has one, takes that chain without staying itself. All other labels are unused. The label lines of the output are exactly the last definitions of the labels that stay.", "quantifier": "all byte strings, all filters, all iteration orders of the hash tables, all leftovers of earlier parses on the thread (inputs whose data mentions no defined label)", "why_tests_cant": "The outcome depends on the iteration order of hash tables, which a test run cannot choose, and on reference graphs of any size.", "anchors": ["src/assembly/parser.cpp:588-672", "src/assembly/parser.cpp:674-707", "src/assembly/parser.cpp:709-805"]}
{"id": "C75", "title": "Which exported functions are safe from the filter for unused labels", "statement": "With unused_labels, in an input in which data mentions no label, an exported function with no further label at its address is in the output of every run on a fresh thread (for every iteration order of the hash tables) exactly if all labels that its code mentions are exported too; its code then stays as well, up to the next label that is neither compiler-generated nor in inline assembly. In particular every exported function that jumps to a label of its own can be removed. Whatever labels data elsewhere mentions, an exported function with no further label at its address stays, with its code, if all labels that its code and the data below it mention are exported.", "quantifier": "all inputs, all filters with unused_labels, all exported labels, all iteration orders", "why_tests_cant": "a test sees one iteration order of one standard library; that a function survives all of them, or that there is one which loses it, for every input, needs a proof", "anchors": ["src/assembly/parser.cpp:599-656", "src/assembly/parser.cpp:689-707", "src/assembly/parser.cpp:709-805"]}
{"id": "C76", "title": "Filtered text can be filtered again", "statement": "Running text mode with some filters on the output of text mode with the same filters gives this output again (as long as the filter for unused labels is off). In particular, expanding tabs and removing white space are done completely the first time.", "quantifier": "for all inputs, all filter settings without unused_labels and without compatmode together with directives, and all outputs that do not start inline assembly, do not contain .cfi_startproc (with directives) and have no line starting with a slash (with comment_only and whitespace)", "why_tests_cant": "The second run sees other text than the first one: tabs and blanks have changed, comments, directives and CUDA headers have been dropped or kept, and the state carried from line to line must come out the same. Tests compare one run with a stored output; they do not cover every text that can come out.", "anchors": ["src/assembly/parser.cpp: AssemblyTextParser::eol", "src/utils/regexwrappers.cpp:555-653", "src/utils/regexwrappers.cpp: expandTabs"]}
{"id": "C77", "title": "What comments say does not matter in text mode", "statement": "With the filter comment_only, changing what block comments and lines that are only comments say changes nothing in the result: text, JSON and debug output stay the same, whatever the other filters.", "quantifier": "for all inputs, all filters with comment_only, all changes of the text of comments that introduce or remove no .cfi_startproc, .cfi_endproc, .data, .text, .section, brace or inline assembly marker", "why_tests_cant": "The code looks at comments several times before dropping them (procedure and section markers, source directives, CUDA braces), so a comment may change the treatment of all later lines; tests compare a few inputs and cannot vary all comments.", "anchors": ["src/assembly/parser.cpp:297-444", "src/utils/regexwrappers.cpp: startCommentBlock, endCommentBlock, isJustComments, isJustNvccComments"]}
{"id": "C78", "title": "Text mode only adds to its output when there is more input", "statement": "The text output for an input of complete lines is the beginning of the text output for every longer input that starts with it.", "quantifier": "for all inputs of complete lines, all continuations, all filter settings without unused_labels, all inputs without data if there are both compatmode and directives", "why_tests_cant": "Text mode collects all lines and post-processes them at the end, pops lines again and collapses blank lines, so that later input could change earlier output; tests run fixed inputs and never compare an input with all its continuations.", "anchors": ["src/assembly/parser.cpp:297-525", "src/assembly/parser.cpp:709-830"]}
{"id": "C79", "title": "Text mode filters the pieces of an input independently", "statement": "If a piece of assembler text leaves nothing open (no block comment, inline assembly, pending blanks, CUDA code or current source line), the text output for that piece followed by any other input is the output for the piece followed by the output for the other input, with at most one additional empty line between them.", "quantifier": "for all inputs of complete lines that leave nothing open, all continuations, all filter settings without unused_labels, all inputs without data if there are both compatmode and directives", "why_tests_cant": "The parser carries over a dozen state variables from line to line and any of them could make an earlier function influence the output for a later one; tests run whole files and cannot compare all ways of putting inputs together.", "anchors": ["src/assembly/parser.cpp:297-525", "src/assembly/parser.cpp:709-830"]}
{"id": "C80", "title": "The lines missing from the result are exactly the unneeded ones", "statement": "A line of the input that the filters keep when it is read is missing from the result only if (with unused_labels) it belongs to a part under a label that is not in use, or is itself a local label not in use, or (with compatmode and directives) it places data that belongs to no label in use and has no source position; all other lines are in the result, in their order. Data of a label in use is never removed.", "quantifier": "for all input bytes, all filter settings, all iteration orders of hash containers", "why_tests_cant": "Which lines are removed depends on a search over all references of the input, on two removal passes that each keep state from line to line, and on the iteration order of a hash container; tests compare whole outputs of few files in one order.", "anchors": ["src/assembly/parser.cpp:588-708", "src/assembly/parser.cpp:709-805"]}
{"id": "C81", "title": "The JSON output and the text output show the same lines", "statement": "Two runs of the program whose arguments differ only in -outputtext show the same lines: if the run without it succeeds, its output is a JSON document, the other run succeeds too, and the texts of the entries of the document's asm array are, in order, the lines that the other run writes.", "quantifier": "for all argument lists, all environments and all inputs without control characters other than tab and newline (in binary mode without a tab directly behind a hexadecimal digit), both modes, all filter settings", "why_tests_cant": "It relates the output of two runs through two separate writers, one of which escapes; tests look at one format at a time for few inputs.", "anchors": ["src/main.cpp:94-145", "src/assembly/parser.cpp:859-882", "src/objdump/parser.cpp:488-523"]}
{"id": "C82", "title": "In binary mode a filter only removes lines", "statement": "In binary mode, turning on library_functions or plt never makes a line appear that is not shown without it: the lines shown with more filters are among the lines shown with fewer, in the same order.", "quantifier": "for all input bytes, all locales, all pairs of filter settings of which the second has at least the filters library_functions and plt of the first", "why_tests_cant": "It compares two runs over arbitrary listings in which filters act by skipping up to the next header or by taking lines back, while the limit on the number of lines counts only what is kept.", "anchors": ["src/objdump/parser.cpp:67-150", "src/objdump/parser.cpp:234-330"]}
{"id": "C83", "title": "Binary mode treats the functions of a listing independently", "statement": "In binary mode, the result for a listing followed by another one that begins with a function header is the result of the first one followed by the result of the second one: the texts, labels, bytes, references and addresses shown for a function do not depend on what precedes it. Only the source position and the section, as long as the second listing has named none, are taken over.", "quantifier": "for all pairs of byte strings of which the second begins with a header line, all filter settings, all locales", "why_tests_cant": "The parser keeps state across lines (open references, functions being left out, the number of lines, what was user code); that none of it leaks into later functions is a statement about all pairs of listings.", "anchors": ["src/objdump/parser.cpp:11-26", "src/objdump/parser.cpp:42-175", "src/objdump/parser.cpp:305-486"]}
{"id": "C84", "title": "filteredCount accounts for all lines when a listing is read in several calls", "statement": "If a listing is read with several fromStream calls on one binary-mode parser, split after newlines, the filteredCount of the JSON output is the number of all input lines minus the number of output lines, as if the listing had been read at once. (Violated: only the lines of the last call are counted, while the output has the lines of all calls, so that the count can be negative.)", "quantifier": "all byte strings, all splits at line boundaries", "why_tests_cant": "Ranges over all splits of all inputs; a test would have to guess that the count is reset by each call.", "anchors": ["src/objdump/parser.cpp: ObjDumpParser::fromStream, ObjDumpParser::outputJson", "src/utils/jsonwriter.cpp: JsonWriter::write"]}
{"id": "C85", "title": "Pretty-printing changes line ends only", "statement": "A writer derived from JsonWriter or DebugJsonWriter that switches pretty-printing on writes the same text as with pretty-printing off, except for line ends, and a JSON reader obtains the same document from both texts, or from neither of them. (Opcodes are assumed to contain no quotes and backslashes; the parsers produce only hexadecimal digits and tabs.)", "quantifier": "all documents (lines, label definitions, tables of references), all filter settings", "why_tests_cant": "The line ends are written in a dozen places between members, elements and brackets; that none of them falls inside a string or a number is a statement about all documents. The branch is never taken by the program, so no test of it covers it.", "anchors": ["src/utils/jsonwriter.hpp:30", "src/utils/jsonwriter.cpp:62-137", "src/utils/jsonwriter.cpp:175-407", "src/utils/jsonwriter.cpp:424-655"]}
{"id": "C86", "title": "Text mode can resume at line boundaries", "statement": "If an assembly file is read with several fromStream calls on one text-mode parser, split after newlines, the output is the same as if it had been read with one call. (Violated: with unused_labels what a later call exports has been removed already, and label positions of the first call are out of bounds; in the JSON output references to labels that only a later call defines are lost, and only the lines of the last call are counted.)", "quantifier": "all byte strings, all splits at line boundaries, all filter settings, all hash iteration orders", "why_tests_cant": "Ranges over all splits of all inputs; every call runs the whole usage analysis and removal over what earlier calls have left, so that a test would have to guess which state survives.", "anchors": ["src/assembly/parser.cpp:297-519", "src/assembly/parser.cpp:674-838"]}
{"id": "C87", "title": "Line numbers in a listing do not change which assembly is shown", "statement": "In binary mode without library_functions, the listing that objdump -l writes gives the same lines, label definitions, addresses, bytes and references as the listing without -l; only the source positions differ. (Violated: for a function in a scope like a::f the line with its name is shown as an instruction at address 0xa.)", "quantifier": "all listings, any of the lines with function names and source positions left out, both settings of plt, all locales", "why_tests_cant": "Relates two runs on every pair of listings; every position in which such a line can stand (inside left-out functions, behind an open reference, at the line limit) is a separate case.", "anchors": ["src/objdump/parser.cpp:324-362", "src/objdump/parser.cpp:402-449", "src/objdump/parser.cpp:42-94"]}
{"id": "C88", "title": "The bytes of instructions do not change which assembly is shown", "statement": "In binary mode a listing written with --no-show-raw-insn gives the same lines, label definitions, addresses, source positions and references as the listing with the bytes; only the bytes are missing. (Violated: a mnemonic of the letters a to f that is followed by two spaces, like add, is taken for the bytes of the instruction and missing in the text.)", "quantifier": "all listings, the bytes of any of the instructions left out, all filters, all locales", "why_tests_cant": "Relates two runs on every pair of listings; whether a text is taken for bytes depends on its first characters, so that a test with other mnemonics succeeds.", "anchors": ["src/objdump/parser.cpp:177-201", "src/objdump/parser.cpp:367-390"]}
{"id": "C89", "title": "The result does not depend on the locale", "statement": "For the same input and filter the library gives the same result in every locale in which ASCII characters are single bytes; what is shown does not depend on the locale at all. (Violated: behind characters that are not ASCII, the references of binary mode have other columns and even other names.)", "quantifier": "all inputs, all filters, all pairs of locales (mblen as a parameter), in text mode all hash iteration orders", "why_tests_cant": "Tests run in the locale of the build machine; the claim relates runs in two arbitrary locales on every input.", "anchors": ["src/utils/utils.cpp:21-50", "src/utils/regexwrappers.cpp:209-249", "src/objdump/parser.cpp:153-175", "src/objdump/parser.cpp:450-479"]}
{"id": "C90", "title": "Directives that are filtered out do not influence the text output", "statement": "With the filter directives (and without unused_labels), removing directives that define no label and place no data - the .loc, .file and .cfi lines of debug information, say - from the input does not change the text output. (Violated: a label followed by .cfi_startproc on the same line is shown only if a .loc came before; in the parameters of a CUDA function directives are shown.)", "quantifier": "all inputs, all ways to remove such directives outside block comments, all settings of the other filters but unused_labels, all locales and hash iteration orders", "why_tests_cant": "Relates the outputs for two arbitrary inputs that differ in any number of lines of unbounded variety; tests compare single listings.", "anchors": ["src/assembly/parser.cpp: AssemblyTextParser::fromStream, AssemblyTextParserUtils::isDirective, handleSource", "src/assembly/parser.cpp: filter.directives in fromStream"]}
{"id": "C91", "title": "The analysis of label usage takes polynomial time", "statement": "The number of times text mode asks whether a label is used is bounded by a polynomial in the length of the input. (Violated: the search for a reason to keep a label follows every chain of references without repetition; for each n there is a listing of 2n+2 functions and quadratic length that takes at least 2^(n+1) calls, with no filter set and in every iteration order, so that no power of the input length bounds the number of calls.)", "quantifier": "all inputs, filters, locales and hash iteration orders", "why_tests_cant": "A bound on the growth of the running time over all inputs; tests measure single inputs, and the blow-up needs a particular shape of call graph.", "anchors": ["src/assembly/parser.cpp: AssemblyTextParser::isUsed, isUsedThroughAlias, isDataUsedThroughAlias, markLabelUsage (599-707)"]}
{"id": "C92", "title": "The analysis of label usage needs bounded stack", "statement": "The recursion of the usage analysis in text mode never gets deeper than a fixed bound. (Violated: it is as deep as the longest chain of references between labels; proved: never more than one deeper than there are labels, if no data mentions labels; and quadratic in the number of labels, if no reference from data is part of a cycle.)", "quantifier": "all inputs, filters, locales, hash iteration orders and labels left over from earlier parses", "why_tests_cant": "The depth is unbounded over inputs; a test would have to know the stack size and the longest chain of references.", "anchors": ["src/assembly/parser.cpp: AssemblyTextParser::isUsed (599-656), markLabelUsage (689-707)"]}
{"id": "C93", "title": "Empty lines do not matter in text mode", "statement": "In text mode, inserting or deleting empty lines in the input changes nothing but the empty lines of the output: two inputs with the same non-empty lines in the same order give the same non-empty lines, with the same text, references, flags, section and source position, for every combination of filters. (Violated in two ways: an empty line between a label and the source directive that follows it takes away the label's source position; and in the compatibility mode with `directives`, a label whose name starts like a data directive is dropped or kept depending on such an empty line.)", "quantifier": "all pairs of inputs with the same non-empty lines, all filters, locales, hash iteration orders and initial visited sets", "why_tests_cant": "Relates infinitely many pairs of inputs; the state carried across lines (labels at the same address, parent labels, source positions, line numbers in the label table) must not notice any number of empty lines at any place.", "anchors": ["src/assembly/parser.cpp: AssemblyTextParser::eol, maybeAddBlank, amendPreviousLinesWith, markPreviousInternalLabelAsInsideProc, markLabelUsage, removeUnused (119-838)"]}
{"id": "C94", "title": "Empty lines and source code in a listing are not shown", "statement": "In binary mode, empty lines and the source code that `objdump -S` puts between the instructions have no influence on the lines and labels of the result. (Violated for source code: a line that consists of a single word, like `}`, is shown as an instruction; a line whose first word can be read as a hexadecimal number, like `a = b;`, is shown as a label; and in a function that is left out, a line like `int x;` begins a new function which is shown.)", "quantifier": "all listings and all ways to insert such lines, all filters, all locales", "why_tests_cant": "Relates the results for infinitely many pairs of inputs, for any text in the inserted lines and any state left behind by the lines before.", "anchors": ["src/objdump/parser.cpp: ObjDumpParser::eol, label, address, actually_address, fromStream (42-486)"]}
{"id": "C95", "title": "Lines that are filtered out and have no meaning leave no trace in text mode", "statement": "Take an input of text mode and leave out some of its lines: lines that are only a comment and whole block comments if the filter comment_only is set, and directives without a meaning of their own if the filter directives is set. (A directive has no meaning of its own if, however it is shown, it neither defines a label nor places data, gives no source position, ends no block and switches no section, begins no procedure, declares no symbol and has no closing brace: .cfi_def_cfa_offset, .size, .type, .p2align and the like. Comments with such words and inline-assembly markers are excluded in the same way.) Then both inputs give the same text output and, apart from the number of lines read, the same JSON document: the same lines, references, source positions, sections, flags and label definitions. This holds for every combination of the other filters, in particular for unused_labels. Lines with nothing but blanks must be empty, and directives may only be left out if there is no CUDA function header.", "quantifier": "for all locales, filters, inputs ending in a line break, choices of such lines, iteration orders of the hash containers, and states of the visited set", "why_tests_cant": "A test compares two particular inputs; the claim is about all inputs, all choices of the lines to leave out, and all filters together with the analysis of unused labels.", "anchors": ["src/assembly/parser.cpp:297-519", "src/assembly/parser.cpp:340-375", "src/assembly/parser.cpp:439-444", "src/assembly/parser.cpp:461-490", "src/assembly/parser.cpp:689-838"]}
{"id": "C96", "title": "Inline assembly is what stands between its markers", "statement": "In text mode a line counts as inline assembly (is_inline_asm; of an unused label only its own line is then removed, and labels are moved to the left margin) exactly if, among the lines up to and including it, a marker of its beginning (#APP or # Begin ASM after blanks) has occurred and no marker of its end (#NO_APP or # End ASM) since. Outside inline assembly, and inside it for lines without a colon, the text of a line is that of the input line, with tabs expanded or blanks squashed and perhaps with blanks of earlier blank lines in front. Inside, a label on a line of its own is shown without indentation. Lines of block comments do not take part if the filter comment_only is set.", "quantifier": "for all locales, filters, inputs whose markers alternate, iteration orders of the hash containers, and states of the visited set", "why_tests_cant": "The markers may be anywhere in the input, with any number of blocks and any lines between them; a test tries a few placements.", "anchors": ["src/assembly/parser.cpp:340-365", "src/assembly/parser.cpp:487", "src/assembly/parser.cpp:749", "src/utils/regexes.hpp:30-33", "src/utils/regexwrappers.cpp:195-207"]}
{"id": "C97", "title": "The whitespace filter changes nothing but blanks", "statement": "In text mode the filter whitespace has an effect only on the number of blanks where there are some, and thereby on the columns of references: with and without it, the same lines are kept in the same order, with the same words, the same flags (label, data, directive, opcode, in use, inline assembly), the same references, the same source positions and file names, the same sections and parent labels, the same label definitions, and the same number of lines read.", "quantifier": "for all locales, other filters, inputs, iteration orders of the hash containers, and states of the visited set", "why_tests_cant": "A comparison of two whole runs for every input: a single place where some recognizer depends on the number of blanks would break it, and no list of inputs shows that there is none.", "anchors": ["src/utils/regexwrappers.cpp:555-653", "src/assembly/parser.cpp:350-365", "src/utils/regexwrappers.cpp:47-71", "src/utils/regexes.hpp:1-69"]}
{"id": "C98", "title": "The output is not much longer than the input", "statement": "The length of the output is bounded by a constant times the length of the input: the parser cannot be made to write huge outputs for small inputs.", "quantifier": "for all inputs, filters, locales, iteration orders and states of the visited set", "why_tests_cant": "A bound on the length for every input; tests show the length for some inputs, and the inputs for which it fails have to be large to be noticed.", "anchors": ["src/assembly/parser.cpp:868-882", "src/objdump/parser.cpp:505-523", "src/utils/regexwrappers.cpp:47-71", "src/utils/jsonwriter.cpp:223-304"]}
{"id": "C99", "title": "If all labels are exported, the filter for unused labels changes nothing", "statement": "For an input in which every label that is defined is also made visible with .globl (or the like), the outputs (text and JSON) with the filter unused_labels are the same as without it, and the parser terminates.", "quantifier": "for all inputs in which every defined label is exported, all other filters, locales, iteration orders and states of the visited set", "why_tests_cant": "A relation between two calls for all inputs of a class, whatever the references between the labels, the iteration order of the hash containers and the state left over from earlier calls.", "anchors": ["src/assembly/parser.cpp:202-218", "src/assembly/parser.cpp:588-707", "src/assembly/parser.cpp:709-805"]}
{"id": "C100", "title": "The filter for unused labels only removes lines", "statement": "With the filter unused_labels the output consists of lines of the output without it, in the same order and with everything that is known about them (text, source, labels). The call with the filter ends exactly if the call without it does. In JSON the number of filtered lines grows by the number of the lines removed.", "quantifier": "for all inputs, all other filters, locales, iteration orders and states of the visited set", "why_tests_cant": "A relation between two calls on the same input, for all inputs: the state machine that removes lines interacts with the one that reads them, and a test shows only one input at a time.", "anchors": ["src/assembly/parser.cpp:709-805", "src/assembly/parser.cpp:588-707"]}
{"id": "C101", "title": "Options without effect", "statement": "With -binary the options -unused_labels, -directives, -comment_only, -whitespace and -debugdump make no difference to anything the program does; without -binary the option -plt makes none, and with -stdin the option -debugdump makes none. If the output is text, -dont_mask_filenames and -debugdump make no difference to what is printed, and -nocompat makes none with -binary or without -directives.", "quantifier": "for all inputs, command lines, files, locales, iteration orders and clocks", "why_tests_cant": "The independence of two parts of the program is a statement about pairs of runs on all inputs.", "anchors": ["src/main.cpp:23-142", "src/assembly/parser.cpp:709-805", "src/objdump/parser.cpp:1-420", "src/types/filter.hpp:7-20"]}
{"id": "C102", "title": "What is shown of the assembly code that a compiler writes", "statement": "Take assembly code as a compiler writes it: labels, perhaps with a comment after them, instructions, data, .file and .loc directives, directives that start or end a section or a function, other directives and comments (with #, @ or //, perhaps indented), one per line; instructions may have comments and tabs in their operands. With the filters directives and comment_only text mode shows exactly the labels, the instructions and the data, in their order, unchanged but for tabs. It gives each instruction and each piece of data the source position of the last .loc before it, unless a section or function ended in between, with the file name that the last .file directive for this index gives, joined to the directory if the directive names one; the column may be missing (it is 0 then); anything may follow the names and the column (an md5 sum, a view number, is_stmt); line 0 and unknown indices give no position. A .loc for file 0, which clang writes with DWARF 5, counts as another directive and changes nothing (see C60). Unless labels refer to each other in a circle in which as many references come from code as from data, the program ends; there is no such circle if data refers to no labels, or only as a jump table does, to internal labels of code. With -outputtext it prints just these lines.", "quantifier": "for all programs in this syntax of any length, all locales, iteration orders and states of the visited set", "why_tests_cant": "The property is about arbitrarily long programs in which positions, file tables and filtered lines interact over any distance; tests compare a few listings.", "anchors": ["src/assembly/parser.cpp:115-570", "src/assembly/parser.cpp:709-805", "src/utils/regexes.hpp:1-69"]}
{"id": "C103", "title": "What the filter for unused labels leaves of the assembly code that a compiler writes", "statement": "Take assembly code as a compiler writes it, in which each label is defined once, and the filters directives, comment_only and unused_labels. Call a label needed if it is declared global or weak, if an instruction outside functions or in a needed function mentions it, or if data below a needed label mentions it. Text mode shows exactly what is left by this rule: a function label that is not found in use starts a gap and the next label found in use ends it; internal labels that are not found in use and labels right behind a needed one are left out alone; everything else that is shown without the filter stays, in its order and with its source position. Labels are found in use only if they are needed, right behind a needed label, or mentioned by data of a label right behind a needed one. So a function that nothing needs disappears with all lines up to the next needed label, and only it. An exported function stays with all its instructions if every label that its code and the data below it mention is exported and no label is right behind it.", "quantifier": "for all programs in this syntax of any length, all locales, iteration orders and (but for the last sentence) states of the visited set", "why_tests_cant": "Which function disappears depends on chains of references over the whole program and on the hash order; tests only compare a few listings produced with one order.", "anchors": ["src/assembly/parser.cpp:115-570", "src/assembly/parser.cpp:572-805"]}
{"id": "C104", "title": "The JSON document for the assembly code that a compiler writes, exactly", "statement": "Take assembly code as a compiler writes it (see C102). With the options -directives and -comment_only the program prints a JSON document in which there is one entry for each label, instruction and piece of data, in their order. Its text is the line with tabs expanded; its labels are the words of its operands that are labels of the code, with their columns; its section is the one of the last .text, .data or .section before it; its source is the position of the last .loc before it in this block, for a label the one of the last .loc that follows it directly or after internal labels, and null for labels that do not begin with a letter. labelDefinitions numbers the labels by their entries, and filteredCount is the number of all other lines.", "quantifier": "for all programs in this syntax of any length, all locales that treat ASCII as usual, iteration orders and states of the visited set", "why_tests_cant": "The property is about the complete document for arbitrarily long programs, in which positions, sections, references and numbers depend on lines at any distance; tests compare a few listings.", "anchors": ["src/assembly/parser.cpp:115-570", "src/assembly/parser.cpp:709-880", "src/utils/jsonwriter.cpp:1-230", "src/utils/regexwrappers.cpp:1-669"]}
{"id": "C105", "title": "The JSON document for the assembly code that a compiler writes, with the filter for unused labels", "statement": "Take assembly code as a compiler writes it (see C102) in which no label is defined twice. With the options -directives and -comment_only, with or without -unused_labels and -nocompat, the program prints a JSON document in which there is one entry for each line that is left (see C103), in their order. Text, references, section and source of an entry are the same as without the filter (see C104): lines that are removed still count for sections and positions, and labels that are removed still count as labels of the code. labelDefinitions numbers the labels among the lines that are left, and filteredCount is the number of all other lines.", "quantifier": "for all programs in this syntax of any length, all locales that treat ASCII as usual, iteration orders and states of the visited set", "why_tests_cant": "The property is about the complete document for arbitrarily long programs with any pattern of used and unused labels and any hash order; tests compare a few listings in one order.", "anchors": ["src/assembly/parser.cpp:115-880", "src/utils/jsonwriter.cpp:1-230", "src/utils/regexwrappers.cpp:1-669"]}
{"id": "C106", "title": "The JSON document and the text for the assembly code that a compiler writes, with the whitespace filter", "statement": "Take assembly code as a compiler writes it (see C102) in which no label is defined twice and in which squashing blanks does not join words: string literals stand only at the end of a line and no line begins with a word proc.... With the options -directives, -comment_only and -whitespace, with or without -unused_labels and -nocompat, the program prints the document of C105 in which the text of every line is tidied as in C25 and C26 and the columns of the references are columns in this tidied text; everything else in the document, also sections, sources, labelDefinitions and filteredCount, is the same as without -whitespace. With -outputtext it prints the tidied texts of the lines that are left.", "quantifier": "for all programs in this syntax of any length, all locales that treat ASCII as usual, iteration orders and states of the visited set", "why_tests_cant": "The property is about the complete document for arbitrarily long programs, any distribution of blanks and any hash order; tests compare a few listings in one order.", "anchors": ["src/assembly/parser.cpp:115-880", "src/utils/utils.cpp:1-65", "src/utils/jsonwriter.cpp:1-230", "src/utils/regexwrappers.cpp:1-669"]}
{"id": "C107", "title": "Empty lines in the assembly code that a compiler writes", "statement": "Take an input whose non-empty lines are assembly code as a compiler writes it (see C102); empty lines may stand anywhere, and the newline at the end may be missing. With -directives and -comment_only the non-empty lines of the result are exactly those for the program without the empty lines: the labels, instructions and data of the program in order, each instruction with the source position of the .loc directive above it (C102); with -unused_labels in addition what is left by the rule of C103, so that functions that nothing needs disappear and exported functions that mention only exported labels stay with their code. Apart from them the program prints only empty lines. It ends if no labels refer to each other in a circle.", "quantifier": "for all programs in this syntax of any length, all distributions of empty lines, all locales, iteration orders and (except for the functions that stay) states of the visited set", "why_tests_cant": "Any number of empty lines may stand at any place, also between a label and its code or between a directive and its instruction, in programs of any length and for any hash order.", "anchors": ["src/assembly/parser.cpp:115-880", "src/main.cpp:20-110"]}
{"id": "C108", "title": "Exported functions are not lost if they are looked at first", "statement": "With -unused_labels, suppose the hash table of the labels happens to be iterated such that exported labels (a set of labels for which there is a .globl or similar directive) come before all others. Then every one of these labels that is defined is in the output, with all instructions up to the next function, whatever labels the function contains, jumps to or mentions, whatever label is right behind it, and whatever else is in the input. For the assembly code that a compiler writes, the program prints exactly what is left by the rule of C103 with all exported labels found in use, and without -outputtext the JSON document of C105 with all exported labels found in use. In other orders this fails: for an exported function that jumps to a label of its own, one order prints the whole function and another loses its label and the jump.", "quantifier": "for all inputs, locales, filters, all iteration orders in which exported labels come first, all visited sets without exported labels; for the compiled programs of any length", "why_tests_cant": "A test runs with the one hash order of its standard library and build; the statement is about all inputs and all orders with this property, and explains which functions can disappear when a compiler or library is replaced.", "anchors": ["src/assembly/parser.cpp:560-790", "src/main.cpp:20-110"]}
{"id": "C109", "title": "The assembly code that a compiler writes, with CR LF line ends", "statement": "Take assembly code as a compiler writes it (see C102) in which every line ends in CR LF and no line has the words .entry or .func. With -directives and -comment_only (and not -unused_labels, -library_functions or -whitespace) text mode prints exactly the labels, instructions and data of the program in order, unchanged but for the expansion of tabs, each with CR LF at its end: the same lines as for LF line ends, and no others. Without -outputtext, the program then prints something that is not valid JSON, unless the program shows no line at all.", "quantifier": "for all programs in this syntax of any length, all locales, iteration orders and states of the visited set", "why_tests_cant": "Every recogniser of directives, comments, labels and data sees the CR as part of the line; that none of them changes its mind is a statement about all lines of the syntax.", "anchors": ["src/assembly/parser.cpp:115-880", "src/utils/utils.cpp:1-200", "src/main.cpp:20-110"]}
{"id": "C110", "title": "The filters for directives and for comments, each on its own, on the assembly code that a compiler writes", "statement": "Take assembly code as a compiler writes it (see C102) in which no line has the words .entry or .func. For every choice of -directives and -comment_only (without -unused_labels, -library_functions and -whitespace) text mode prints the lines of the program in order and unchanged but for the expansion of tabs, without the comment lines if -comment_only is given and without the directives that place no data if -directives is given, and it leaves out nothing else. Without both options every line is printed. With CR LF line ends the same lines are printed, each with its CR LF.", "quantifier": "for all programs in this syntax of any length, all combinations of the two filters, all locales, iteration orders and states of the visited set", "why_tests_cant": "That each filter removes its own kind of line and nothing else is a statement about all lines of the syntax and all combinations of filters.", "anchors": ["src/assembly/parser.cpp:115-880", "src/utils/utils.cpp:1-200", "src/main.cpp:20-110"]}

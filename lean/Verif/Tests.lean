/-
TESTS, not proofs: the unit tests of /repo/src/test/test_test.cpp run against the model, as evidence
that the model was transcribed faithfully.
-/
import Verif.Model.AsmText
import Verif.Model.Objdump
import Verif.Spec.Json

namespace AsmParser.Tests
open AsmParser

-- "Test text assembly utilities"
#guard getSourceRef b! "        .loc 1 351 7" == (1, 351, 7)
#guard getFileDef b! "        .file 2 \"/opt/compiler-explorer/gcc-10.2.0/include/c++/10.2.0/bits/char_traits.h\""
  == some (2, b! "/opt/compiler-explorer/gcc-10.2.0/include/c++/10.2.0/bits/char_traits.h")
#guard endBlock b! "\t.cfi_endproc"
#guard endProcBlock b! "\t.cfi_endproc"
#guard getLineWithoutComment b! "\tlabel:" == b! "\tlabel:"
-- "Clang-style file directive"
#guard getFileDef b! "        .file 1 \"/dir/src\" \"filename.cpp\"" == some (1, b! "/dir/src/filename.cpp")
-- "expandTabs"
#guard expandTabs b! "no tabs in here" == b! "no tabs in here"
#guard expandTabs b! "0\t1234567A" == b! "0       1234567A"
#guard expandTabs b! "01\t234567A" == b! "01      234567A"
#guard expandTabs b! "012\t34567A" == b! "012     34567A"
#guard expandTabs b! "0123\t4567A" == b! "0123    4567A"
#guard expandTabs b! "01234\t567A" == b! "01234   567A"
#guard expandTabs b! "012345\t67A" == b! "012345  67A"
#guard expandTabs b! "0123456\t7A" == b! "0123456 7A"
#guard expandTabs b! "01234567\tA" == b! "01234567        A"
#guard expandTabs b! "\tpush\trbp" == b! "        push    rbp"
-- "line filters"
#guard getLineWithoutComment b! "   mov eax, [_mylabel+8]  " == b! "   mov eax, [_mylabel+8]"
#guard getLineWithoutCommentAndStripFirstWord b! "   mov eax, [_mylabel+8]  # some comment"
  == b! " eax, [_mylabel+8]"
#guard getLineWithoutCommentAndStripFirstWord b! "   mov eax, ptr [_mylabel+8]" == b! " eax, ptr [_mylabel+8]"
#guard getLineWithoutCommentAndStripFirstWord b! "   mov eax, ptr [_mylabel+8]     # comment"
  == b! " eax, ptr [_mylabel+8]"
#guard getLineWithoutComment b! "_label123:  # comment" == b! "_label123:"
#guard getLineWithoutComment b! "_label123:" == b! "_label123:"
#guard getLineWithoutCommentAndStripFirstWord b! "   mov eax, ptr #notacomment" == b! " eax, ptr #notacomment"
#guard getLineWithoutCommentAndStripFirstWord b! "        movl    $.L.str, %edi" == b! "    $.L.str, %edi"
-- "potential label spotting"
private def names (s : Str) : List Str := (getUsedLabelsInLine Locale.utf8 s).map (·.name)
#guard names b! "  mov ptr eax, <_somelabel+8>  # my comments" == [b! "ptr", b! "eax", b! "_somelabel"]
#guard getUsedLabelsInLine Locale.utf8 b! "        jbe     .LBB0_3" == [⟨b! ".LBB0_3", 17, 24⟩]
#guard names b! "        movw    r1, #:lower16:.LC0" == [b! "r1", b! "lower16", b! ".LC0"]
#guard names b! "        movl    $.L.str, %edi" == [b! ".L.str", b! "$.L.str", b! "edi", b! "%edi"]
#guard names b! "        bltid   r18,$L2" == [b! "r18", b! "L2", b! "$L2"]
#guard getUsedLabelsInLine Locale.utf8 b! "        movsd   xmm0, qword ptr [rsi + 8*rax]"
  == [⟨b! "xmm0", 17, 21⟩, ⟨b! "qword", 23, 28⟩, ⟨b! "ptr", 29, 32⟩, ⟨b! "rsi", 34, 37⟩, ⟨b! "rax", 42, 45⟩]
#guard names b! " .ascii  \\\"Hello world\\\\000\\\"" == []
-- "squashes horizontal whitespace"
#guard squashHorizontalWhitespace b! "" true == b! ""
#guard squashHorizontalWhitespace b! " " true == b! ""
#guard squashHorizontalWhitespace b! "    " true == b! ""
#guard squashHorizontalWhitespace b! " abc" true == b! " abc"
#guard squashHorizontalWhitespace b! "   abc" true == b! "  abc"
#guard squashHorizontalWhitespace b! "       abc" true == b! "  abc"
#guard squashHorizontalWhitespace b! "abc abc" true == b! "abc abc"
#guard squashHorizontalWhitespace b! "abc   abc" true == b! "abc abc"
#guard squashHorizontalWhitespace b! "abc     abc" true == b! "abc abc"
#guard squashHorizontalWhitespace b! " abc  abc" true == b! " abc abc"
#guard squashHorizontalWhitespace b! "  abc abc" true == b! "  abc abc"
#guard squashHorizontalWhitespace b! "  abc     abc" true == b! "  abc abc"
#guard squashHorizontalWhitespace b! "    abc   abc" true == b! "  abc abc"
-- "squashes horizontal whitespace with quotes"
#guard squashHorizontalWhitespaceWithQuotes b! "  .string   \"   abc  etc\"   # hello   \"  wor  ld\"" true
  == b! "  .string \"   abc  etc\"  # hello \"  wor  ld\""
-- "Data definitions", "data types"
#guard isDataDefn b! "  .string   \"   abc  etc\"   # hello   \"  wor  ld\""
#guard isDataDefn b! "        .ascii  \"Hello world\\000\""
#guard isDataDefn b! "        .ascii  \"moo\\012\\000\""
#guard isDataDefn b! "        .4byte  0x37d"
#guard isDataDefn b! "        .byte   0x2"
#guard isDataDefn b! "        .asciz   \"Hello world\""
#guard !isDataDefn b! "    mov eax, 0x12"
#guard isDataDefn b! "    .dword 12h"
#guard isDataDefn b! "    .string 'hello, world!'"
#guard isDataDefn b! "    .base64 'abc'"
-- "Labels"
#guard getLabel b! "hello:" == some b! "hello"
#guard getLabel b! ".LC0:" == some b! ".LC0"
#guard getLabel b! "_Z12testFunctionPii:" == some b! "_Z12testFunctionPii"
#guard getLabel b! "..___tag_value_main.2:" == some b! "..___tag_value_main.2"
#guard getLabel b! "$Ltext0:" == some b! "$Ltext0"
#guard getLabel b! "_ZN95_$LT$example..Bla$LT$$u27$a$GT$$u20$as$u20$core..convert..Into$LT$alloc..string..String$GT$$GT$4into17h38301ffbb2e8fb47E:"
  == some b! "_ZN95_$LT$example..Bla$LT$$u27$a$GT$$u20$as$u20$core..convert..Into$LT$alloc..string..String$GT$$GT$4into17h38301ffbb2e8fb47E"
#guard getLabelAssignment b! ".Lset0 = .Lpubnames_end1-.Lpubnames_begin1" == some b! ".Lset0"
#guard getLabelAssignment b! "$LFB0 = ." == some b! "$LFB0"
#guard getLabel b! "__do_global_dtors_aux:" == some b! "__do_global_dtors_aux"
-- "Objdump filtering"
#guard shouldIgnoreFunction b! "__do_global_dtors_aux" {}
-- "6502 debugging"
#guard get6502DbgInfo b! "\t.dbg\tline, \"/tmp/test.c\", 2" == some ⟨b! "/tmp/test.c", 2, false⟩
#guard get6502DbgInfo b! "\t.dbg\tline" == some ⟨b! "", 0, true⟩
-- "instruction directives"
#guard isInstOpcode b! "        .inst.n 0xdefe"
-- "d2 source directives"
#guard getD2FileInfo b! "        .d2file   \"/tmp/compiler-explorer-compiler202107-8023-z5iran.8cqm/example.cpp\""
  == some b! "/tmp/compiler-explorer-compiler202107-8023-z5iran.8cqm/example.cpp"
#guard getD2LineInfo b! "        .d2line         4,8" == some 4
#guard getD2LineInfo b! "        .d2line         5" == some 5

/-! The JSON reader of `Spec/Json.lean` on texts that are and are not JSON. -/
#guard readJson b! " [1, -2.50e+1 , \"a\\u0041\\n\\/\", true,false,null, {} ,[ ]] "
  == some (.arr [.num 1, .num (-250) (-1), .str b! "aA\n/", .bool true, .bool false, .null, .obj [], .arr []])
#guard readJson b! "{\"a\":{\"b\" : [ ]},\"a\":1}" == some (.obj [(b! "a", .obj [(b! "b", .arr [])]), (b! "a", .num 1)])
#guard [b! "", b! "[1,]", b! "[1 2]", b! "{\"a\"}", b! "{a:1}", b! "{\"a\":1,}", b! "\"a", b! "\"\t\"", b! "\"\\x\"",
  b! "01", b! "1.", b! "+1", b! "nul", b! "[] []", b! "[", b! "1e", b! "\"\n\"", b! "'a'"].all fun s => (readJson s).isNone

end AsmParser.Tests

/-
Concrete listings used in the `example`s that accompany the theorems.
-/
import Verif.Spec.Objdump

namespace AsmParser

/-- Four functions, two of them from a library header. -/
def sampleObj : Str :=
  b! "\n" ++
  b! "Disassembly of section .text:\n" ++
  b! "\n" ++
  b! "0000000000001020 <main>:\n" ++
  b! "main():\n" ++
  b! "/app/example.cpp:3\n" ++
  b! "    1020:\t55                   \tpush   %rbp\n" ++
  b! "    1021:\te8 00 00 00 00       \tcall   1030 <f>\n" ++
  b! "\n" ++
  b! "0000000000001030 <f>:\n" ++
  b! "f():\n" ++
  b! "/usr/include/x.h:7\n" ++
  b! "    1030:\tc3                   \tret\n" ++
  b! "\n" ++
  b! "0000000000001038 <h>:\n" ++
  b! "h():\n" ++
  b! "/usr/include/x.h:9\n" ++
  b! "    1038:\tc3                   \tret\n" ++
  b! "\n" ++
  b! "0000000000001040 <g>:\n" ++
  b! "g():\n" ++
  b! "/app/example.cpp:9 (discriminator 2)\n" ++
  b! "    1040:\tc3                   \tret\n"

end AsmParser

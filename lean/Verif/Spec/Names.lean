/-
Specification: the function names binary mode leaves out, and the directories of library files.
-/
import Verif.Model.Basic

namespace AsmParser

/-- Start-up and support functions that are never of interest. -/
def startupNames : List Str :=
  [b! "_init", b! "_start", b! "_fini", b! "register_tm_clones", b! "deregister_tm_clones",
   b! "call_gmon_start", b! "frame_dummy", b! "_dl_relocate_static_pie"]

/-- A name that binary mode ignores; `plt` says whether PLT stubs are ignored too: names with `@plt` at the
end, possibly followed by `>` or by an offset made of letters, digits and `-`. -/
def IgnoredName (plt : Bool) (n : Str) : Prop :=
  b! "__" <+: n ∨ b! ".plt" <+: n ∨ n ∈ startupNames ∨
    (plt = true ∧ ∃ a b, n = a ++ b! "@plt" ++ b ∧
      (b = b! ">" ∨ ∀ c ∈ b, c = c! '-' ∨ isAlpha c = true ∨ isDigit c = true))

/-- The directories library files live in. -/
def libraryDirs : List Str := [b! "/opt/compiler-explorer/", b! "/usr/include", b! "/usr/local/include"]

/-- A file below one of the library directories. -/
def inLibrary (file : Str) : Bool := libraryDirs.any (·.isPrefixOf file)

end AsmParser

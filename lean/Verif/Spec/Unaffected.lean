/-
Specification: the options that have no influence on the rest.
-/
import Verif.Spec.Main

namespace AsmParser

/-- The options of the program that make no difference, given the other ones. -/
def withoutEffect (args : List Str) : List Str :=
  if b! "-binary" ∈ args then [b! "-unused_labels", b! "-directives", b! "-comment_only", b! "-whitespace", b! "-debugdump"]
  else if b! "-stdin" ∈ args then [b! "-plt", b! "-debugdump"]
  else [b! "-plt"]

/-- The options that make no difference to what is printed, if the output is text. -/
def withoutEffectOnText (args : List Str) : List Str :=
  if b! "-binary" ∈ args then
    [b! "-unused_labels", b! "-directives", b! "-comment_only", b! "-whitespace", b! "-debugdump", b! "-dont_mask_filenames", b! "-nocompat"]
  else if b! "-directives" ∈ args then [b! "-plt", b! "-debugdump", b! "-dont_mask_filenames"]
  else [b! "-plt", b! "-debugdump", b! "-dont_mask_filenames", b! "-nocompat"]

/-- The same options, except for those in `xs`, and the same file. -/
def SameBut (xs args args' : List Str) : Prop :=
  (∀ a ∈ switches, a ∉ xs → (a ∈ args ↔ a ∈ args')) ∧ requestedFile args = requestedFile args'

end AsmParser

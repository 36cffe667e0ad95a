/-
Not part of the proofs: an executable that runs the *model* on a file, used to compare the model's
output with the approved outputs that ship in /repo/resources (see DESIGN.md).
-/
import Verif.Model.Main

open AsmParser

def AsmParser.validateFilter (flags : List String) : Filter :=
  flags.foldl (fun f s => match s with
    | "binary" => { f with binary := true }
    | "plt" => { f with plt := true }
    | "library_functions" => { f with libraryFunctions := true }
    | "unused_labels" => { f with unusedLabels := true }
    | "directives" => { f with directives := true }
    | "comment_only" => { f with commentOnly := true }
    | "whitespace" => { f with whitespace := true }
    | "compat" => { f with compatmode := true }
    | _ => f) {}

def main (args : List String) : IO UInt32 := do
  match args with
  | mode :: file :: flags =>
    let bytes ← IO.FS.readBinFile file
    let f := validateFilter flags
    let input := bytes.toList
    let out := match mode with
      | "objtext" => ((OParser.init f).fromStream Locale.utf8 input).outputText
      | "objjson" => ((OParser.init f).setReproducible.fromStream Locale.utf8 input).outputJson 0
      | "asmtext" | "asmjson" =>
        match (TParser.init f).fromStream Locale.utf8 Order.id 1000 input [] with
        | some (p, _) =>
          (if p.outputJsonUB || p.ub then b! "UB " else [])
            ++ if mode == "asmtext" then p.outputText else p.outputJson 0
        | none => b! "diverges"
      | _ => []
    (← IO.getStdout).write (ByteArray.mk out.toArray)
    return 0
  | _ => return 1

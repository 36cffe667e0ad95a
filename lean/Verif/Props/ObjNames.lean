/-
Properties C08 and C52 of binary mode: functions that are left out.
`IgnoredName` (`Verif/Spec/Names.lean`) says which names those are.
-/
import Verif.Proofs.Ignore
import Verif.Proofs.ObjRead
import Verif.Spec.Samples

namespace AsmParser

/-! ### C08 -/

/-- C08, first part: no output line is the label of an ignored function, and no ignored function is listed in
labelDefinitions. -/
theorem C08_no_ignored_labels (L : Locale) (f : Filter) (s : Str) :
    (∀ l ∈ (objParse L f s).lines, l.isLabel = true → ¬ IgnoredName f.plt l.label) ∧
    (∀ d ∈ (objParse L f s).labels, ¬ IgnoredName f.plt d.1) := by
  have h := NameInv.parse L f s
  exact ⟨fun l hl hlab => (shouldIgnore_false _ _).1 (h.labels l hl hlab),
    fun d hd => (shouldIgnore_false _ _).1 (h.table d hd)⟩

/-- C08, second part (partial): after the header of an ignored function nothing is output until the next line that looks
like a header, i.e. whose first word is ended by a blank.  (`s` is any complete number of lines; `ts` are the lines of
the function's body.)  Missing: lines such as `f(int, char):` that look like a header, see `C08_violation`. -/
theorem C08_ignored_body_partial (L : Locale) (f : Filter) (s addr name : Str) (ts : List Str)
    (hs : s = [] ∨ s.getLast? = some 10)
    (haddr : addr ≠ [] ∧ ∀ c ∈ addr, isHex c = true)
    (hname : (10 : Byte) ∉ name ∧ (13 : Byte) ∉ name) (hign : IgnoredName f.plt name)
    (hts : ∀ w ∈ ts, (10 : Byte) ∉ w ∧ headerLike w = false) :
    let p := objParse L f (s ++ addr ++ b! " <" ++ name ++ b! ">:\n" ++ unlines ts)
    p.lines <+: (objParse L f s).lines ∧ p.labels <+: (objParse L f s).labels ∧
    (f.libraryFunctions = false → p.lines = (objParse L f s).lines ∧ p.labels = (objParse L f s).labels) := by
  intro p
  have hp : p = (unlines ts).foldl (OParser.feed L)
      (([] ++ addr ++ b! " <" ++ name ++ b! ">:" ++ [10]).foldl (OParser.feed L) (objParse L f s)) := by
    rw [← List.foldl_append, ← objParse_append]
    have : s ++ ([] ++ addr ++ b! " <" ++ name ++ b! ">:" ++ [10] ++ unlines ts) =
      s ++ addr ++ b! " <" ++ name ++ b! ">:\n" ++ unlines ts := by simp
    rw [this]
  by_cases hst : (objParse L f s).st.stopParsing = true
  · rw [foldl_stop hst, foldl_stop hst] at hp
    rw [hp]
    exact ⟨List.prefix_refl _, List.prefix_refl _, fun _ => ⟨rfl, rfl⟩⟩
  have hst := Bool.eq_false_of_ne hst
  have hb := Boundary.parse L f s hs
  have hf := parse_filter L f s
  have h := header_ignored (L := L) hst hb (ws := []) (a := addr) (n := name) (by simp) haddr.2 haddr.1 hname.2 hname.1
    (by rw [hf]; exact (shouldIgnore_iff _ _).2 hign)
  have hbd : Boundary (([] ++ addr ++ b! " <" ++ name ++ b! ">:" ++ [10]).foldl (OParser.feed L) (objParse L f s)).st := by
    rw [← objParse_append]
    exact Boundary.parse L f _ (.inr (by rw [← List.append_assoc, List.getLast?_concat]))
  have h2 := skip_lines (L := L) ts hbd h.2.2 hts
  rw [← hp] at h2
  rw [h2.1, h2.2, h.1, h.2.1]
  refine ⟨?_, ?_, ?_⟩
  · exact prune_cases (P := fun q => q.lines <+: (objParse L f s).lines) (List.prefix_refl _)
      (fun _ _ _ _ _ _ => List.take_prefix _ _)
  · exact prune_cases (P := fun q => q.labels <+: (objParse L f s).labels) (List.prefix_refl _)
      (fun _ _ _ _ h _ => by rw [h]; exact List.prefix_append _ _)
  · intro hl
    rw [← hf] at hl
    simp [OParser.prune, hl]

/-- The hypotheses hold: `_start` after the four functions of the sample listing, and its two body lines. -/
example : IgnoredName false b! "_start" ∧ sampleObj.getLast? = some 10 ∧
    headerLike b! "_start():" = false ∧ headerLike b! "/a/b.c:3 (discriminator 1)" = false ∧
    headerLike b! "    1050:\t31 ed                \txor    %ebp,%ebp" = false ∧
    headerLike b! "0000000000001060 <g>:" = true ∧
    (objParse Locale.utf8 {} (sampleObj ++ b! "0000000000001050 <_start>:\n" ++
      unlines [b! "_start():", b! "    1050:\t31 ed                \txor    %ebp,%ebp"])).lines.length = 9 ∧
    (objParse Locale.utf8 {} (sampleObj ++ b! "0000000000001050 <start>:\n" ++
      unlines [b! "_start():", b! "    1050:\t31 ed                \txor    %ebp,%ebp"])).lines.length = 11 :=
  ⟨by simp [IgnoredName, startupNames], by decide +kernel⟩

/-- C08 fails: the line with the function's name, as `objdump -l` prints it, ends the ignored function if the name
contains a blank. -/
theorem C08_violation : IgnoredName false b! "__f(int, char)" ∧
    (objParse .utf8 {} (b! "0000000000001000 <__f(int, char)>:\n__f(int, char):\n    1000:\tc3   \tret\n")).lines.map (·.text) =
      [b! "char)::", b! " ret"] := by
  refine ⟨?_, by decide +kernel⟩
  exact (shouldIgnore_iff _ {}).1 (by decide +kernel)

/-! ### C52 -/

/-- C52: no label reference of an output line names an ignored function. -/
theorem C52_no_ignored_references (L : Locale) (f : Filter) (s : Str) :
    ∀ l ∈ (objParse L f s).lines, ∀ r ∈ l.labels, ¬ IgnoredName f.plt r.name :=
  fun l hl r hr => (shouldIgnore_false _ _).1 ((NameInv.parse L f s).lines l hl r hr)

/-- A reference to `g` is kept, one to a PLT stub is dropped exactly with the plt filter. -/
example :
    (objParse Locale.utf8 { plt := true } b! " 0:\t55   \tcall 1 <g@plt>\n 1:\t55   \tcall 2 <g>\n").lines.map
        (fun l => l.labels.map (·.name)) = [[], [b! "g"]] ∧
    (objParse Locale.utf8 {} b! " 0:\t55   \tcall 1 <g@plt>\n 1:\t55   \tcall 2 <g>\n").lines.map
        (fun l => l.labels.map (·.name)) = [[b! "g@plt"], [b! "g"]] := by decide +kernel

end AsmParser

/-
C72: what stands in front of a line does not matter in binary mode.
-/
import Verif.Props.ObjPages

namespace AsmParser

/-- Blanks and semicolons: `llvm-objdump` begins the lines about the source with `; `. -/
def Margin (w : Str) : Prop := ∀ c ∈ w, c = c! ' ' ∨ c = 9 ∨ c = c! ';'

theorem feed_margin {L : Locale} {p : OParser} (hb : Boundary p.st) {w : Str} (hw : Margin w) :
    w.foldl (OParser.feed L) p = p := by
  induction w with
  | nil => rfl
  | cons c w ih =>
    have hc : p.feed L c = p := by
      have hcc := hw c (by simp)
      unfold OParser.feed
      split
      · rfl
      · rw [if_neg (by rcases hcc with rfl | rfl | rfl <;> decide), if_neg (by rcases hcc with rfl | rfl | rfl <;> decide)]
        split
        · rfl
        · have hx : p.st.step L p.filter c = p.st := by
            unfold OState.step
            rw [if_pos hb.addr]
            unfold OState.stepAddress
            rcases hcc with rfl | rfl | rfl <;> simp [isWhitespace, hb.text]
          rw [hx]
    rw [List.foldl_cons, hc]
    exact ih fun c hc => hw c (by simp [hc])

/-- C72: the result of binary mode is the same if blanks and semicolons are put in front of lines (the last of which need not be
complete). -/
theorem C72_margins (L : Locale) (f : Filter) (ls : List (Str × Str)) (w t : Str) (h : ∀ l ∈ ls, Margin l.1) (hw : Margin w) :
    objParse L f (unlines (ls.map fun l => l.1 ++ l.2) ++ w ++ t) = objParse L f (unlines (ls.map (·.2)) ++ t) := by
  have key : ∀ ls : List (Str × Str), (∀ l ∈ ls, Margin l.1) →
      objParse L f (unlines (ls.map fun l => l.1 ++ l.2)) = objParse L f (unlines (ls.map (·.2))) ∧
      Boundary (objParse L f (unlines (ls.map (·.2)))).st := by
    intro ls h
    have bd : ∀ ks : List Str, Boundary (objParse L f (unlines ks)).st := by
      intro ks
      refine Boundary.parse L f _ ?_
      rcases List.eq_nil_or_concat ks with rfl | ⟨ks, k, rfl⟩
      · exact .inl rfl
      · right
        simp [unlines]
    refine ⟨?_, bd _⟩
    have : ∀ n, ∀ ls : List (Str × Str), ls.length = n → (∀ l ∈ ls, Margin l.1) →
        objParse L f (unlines (ls.map fun l => l.1 ++ l.2)) = objParse L f (unlines (ls.map (·.2))) := by
      intro n
      induction n with
      | zero => intro ls h1 _; rw [List.length_eq_zero_iff.1 h1]; rfl
      | succ n ih =>
        intro ls h1 h2
        rcases List.eq_nil_or_concat ls with rfl | ⟨ls, l, rfl⟩
        · simp at h1
        · have ih := ih ls (by simpa using h1) fun l hl => h2 l (by simp [hl])
          rw [List.concat_eq_append, List.map_append, List.map_append]
          simp only [unlines, List.flatMap_append] at ih ⊢
          rw [objParse_append, objParse_append, ih]
          simp only [List.map_cons, List.map_nil, List.flatMap_cons, List.flatMap_nil, List.append_nil, List.append_assoc]
          rw [List.foldl_append (l := l.1), feed_margin (p := objParse L f (List.flatMap (fun l => l ++ [10]) (List.map (fun x => x.2) ls))) (bd _) (h2 l (by simp))]
    exact this _ ls rfl h
  rw [objParse_append, objParse_append, objParse_append, (key ls h).1, feed_margin (key ls h).2 hw]

/-- C72 for well-formed listings: the lines may have any margins. -/
theorem C72_listing (L : Locale) (hL : L.Ascii) (f : Filter) (items : List (Str × Item)) (hm : ∀ i ∈ items, Margin i.1)
    (hw : WfListing f.plt {} (items.map (·.2))) :
    (objParse L f (unlines (items.map fun i => i.1 ++ i.2.render))).lines =
      (pages f.libraryFunctions f.plt {} {} (items.map (·.2))).lines := by
  rw [← (C14_listing_all L hL f _ hw).1]
  have := C72_margins L f (items.map fun i => (i.1, i.2.render)) [] [] (by
    intro l hl
    obtain ⟨i, hi, rfl⟩ := List.mem_map.1 hl
    exact hm i hi) (by simp [Margin])
  simp only [List.append_nil, List.map_map] at this
  refine congrArg OParser.lines (this.trans ?_)
  simp [renderListing, Function.comp_def]

/-- A piece of the output of `llvm-objdump --line-numbers`. -/
example : (objParse .utf8 {} b! "1000 <main>:\n; main():\n; /app/a.cpp:3\n    1000: c3  \tret\n").lines.map
      (fun l => (l.text, l.source.line)) = [(b! "main:", 0), (b! " ret", 3)] ∧
    (objParse .utf8 {} b! "1000 <main>:\nmain():\n/app/a.cpp:3\n1000: c3  \tret\n").lines.map
      (fun l => (l.text, l.source.line)) = [(b! "main:", 0), (b! " ret", 3)] := by decide +kernel

example : Margin b! "; " ∧ Margin b! "    " := by unfold Margin; decide

end AsmParser

/-
C94: empty lines and lines of source code do not influence binary mode.
-/
import Verif.Proofs.Interleaved
import Verif.Props.Decode

namespace AsmParser

theorem leavingOut_parse {L : Locale} {f : Filter} {P Q : Str → Prop} {J : Carry → Prop} {ls ls' : List Str} {t : Str} (h : LeavingOut P ls ls') (h1 : ∀ l ∈ ls, (10 : Byte) ∉ l)
    (ht : (10 : Byte) ∉ t) (hQ : ∀ l ∈ ls, Q l) (h0 : J {})
    (hJ : ∀ R : Reading, ∀ c l, J c → Q l → J (c.next R (leftOut f.plt) (lineKind c.ign (l.filter (· != 13)))))
    (hP : ∀ R : Reading, ∀ c l, J c → P l → Q l → c.next R (leftOut f.plt) (lineKind c.ign (l.filter (· != 13))) = c ∧
      c.shown R (leftOut f.plt) (lineKind c.ign (l.filter (· != 13))) = none ∧ (lineKind c.ign (l.filter (· != 13))).begins = false) :
    (objParse L f (unlines ls ++ t)).lines = (objParse L f (unlines ls' ++ t)).lines ∧
    (objParse L f (unlines ls ++ t)).labels = (objParse L f (unlines ls' ++ t)).labels := by
  obtain ⟨R, -, hR⟩ := C73_every_line L
  obtain ⟨a1, a2⟩ := hR f ls t h1 ht
  obtain ⟨b1, b2⟩ := hR f ls' t (fun l hl => h1 l (h.mem l hl)) ht
  have key := leavingOut_decode (lib := f.libraryFunctions) h hQ (hJ R) (hP R) {} {} h0
  refine ⟨by rw [a1, b1, key], ?_⟩
  rw [a2, b2, a1, b1, key]

/-- C94: lines with nothing but blanks, semicolons and carriage returns have no influence on the lines and labels of binary mode,
whatever else is in the input and for all filters. -/
theorem C94_empty_lines (L : Locale) (f : Filter) (ls ls' : List Str) (t : Str) (h : LeavingOut EmptyLine ls ls')
    (h1 : ∀ l ∈ ls, (10 : Byte) ∉ l) (ht : (10 : Byte) ∉ t) :
    (objParse L f (unlines ls ++ t)).lines = (objParse L f (unlines ls' ++ t)).lines ∧
    (objParse L f (unlines ls ++ t)).labels = (objParse L f (unlines ls' ++ t)).labels := by
  refine leavingOut_parse (Q := fun _ => True) (J := fun _ => True) h h1 ht (fun _ _ => trivial) trivial (fun _ _ _ _ _ => trivial) ?_
  intro R c l _ hl _
  rw [emptyLine_kind hl]
  refine ⟨rfl, ?_, rfl⟩
  exact if_pos (by simp [codeText, dropBlanks])

/-- C94 (partial): if no function is left out, neither do lines of source code whose first word is followed by a blank or a colon and
is not a hexadecimal number.  (Carriage returns: see C04.)  Missing: other source code and listings in which functions are left out,
see `C94_violation`. -/
theorem C94_source_text_partial (L : Locale) (f : Filter) (ls ls' : List Str) (t : Str) (h : LeavingOut (fun l => EmptyLine l ∨ SourceText l) ls ls')
    (h1 : ∀ l ∈ ls, (10 : Byte) ∉ l ∧ (13 : Byte) ∉ l) (ht : (10 : Byte) ∉ t) (h2 : ∀ l ∈ ls, ¬ LeftOutTitle f.plt l) :
    (objParse L f (unlines ls ++ t)).lines = (objParse L f (unlines ls' ++ t)).lines ∧
    (objParse L f (unlines ls ++ t)).labels = (objParse L f (unlines ls' ++ t)).labels := by
  have cr : ∀ l : Str, (13 : Byte) ∉ l → l.filter (· != 13) = l := fun l h =>
    List.filter_eq_self.2 fun x hx => by simp only [bne_iff_ne]; rintro rfl; exact h hx
  refine leavingOut_parse (Q := fun l => (13 : Byte) ∉ l ∧ ¬ LeftOutTitle f.plt l) (J := fun c => c.ign = false) h (fun l hl => (h1 l hl).1) ht
    (fun l hl => ⟨(h1 l hl).2, h2 l hl⟩) rfl ?_ ?_
  · intro R c l hc hl
    rw [cr l hl.1, hc]
    cases hk : lineKind false l with
    | header a title =>
      unfold Carry.next
      dsimp only
      split
      · exact hc
      · obtain ⟨m, w, b, r, k1, k2, k3, k3', k4, k5, k6⟩ := header_title hk
        show leftOut f.plt (titleName title) = false
        unfold leftOut
        rw [decide_eq_false_iff_not]
        intro hi
        exact hl.2 (k5 ▸ .intro k1 k2 k3 k3' k4 (k6 ▸ hi))
    | _ => exact hc
  · intro R c l hc hl hq
    rcases hl with hl | hl
    · rw [emptyLine_kind hl]
      refine ⟨rfl, ?_, rfl⟩
      exact if_pos (by simp [codeText, dropBlanks])
    · rw [cr l hq.1, hc, sourceText_kind hl]
      exact ⟨rfl, rfl, rfl⟩

/-- A listing with source code. -/
def sourceLines : List Str :=
  [b! "1000 <main>:", b! "int main() {", b! "  return 0;", b! "  1000:\tc3                   \tret", [], b! "default: break;"]

example : LeavingOut (fun l => EmptyLine l ∨ SourceText l) sourceLines [b! "1000 <main>:", b! "  1000:\tc3                   \tret"] := by
  refine .same (.out (.inr (.intro (m := []) (w := b! "int") (d := c! ' ') (r := b! "main() {") ?_ ?_ ?_ ?_ ?_))
    (.out (.inr (.intro (m := b! "  ") (w := b! "return") (d := c! ' ') (r := b! "0;") ?_ ?_ ?_ ?_ ?_)) (.same
      (.out (.inl (by simp [EmptyLine])) (.out (.inr (.intro (m := []) (w := b! "default") (d := c! ':') (r := b! " break;") ?_ ?_ ?_ ?_ ?_)) .nil)))))
  all_goals first
    | (unfold MarginOnly; decide)
    | (unfold OneWord; decide)
    | exact ⟨c! 'n', by decide, by unfold HexDigit; decide, by decide⟩
    | exact ⟨c! 'u', by decide, by unfold HexDigit; decide, by decide⟩
    | decide

example : ∀ l ∈ sourceLines, ¬ LeftOutTitle false l := by
  intro l hl h
  obtain ⟨a, t, h1, h2⟩ := leftOutTitle_kind h
  have k : ∀ l ∈ sourceLines, lineKind false l = .header b! "1000" b! "<main>:" ∨ lineKind false l = .remark ∨
      lineKind false l = .code none [] [] [] ∨ lineKind false l = .code (some b! "1000") [b! "c3"] [] b! "                 \tret" := by decide +kernel
  rcases k l hl with e | e | e | e <;> rw [e] at h1 <;> cases h1
  exact (shouldIgnore_false (b! "main") {}).1 (by decide +kernel) h2

example : (objParse .utf8 {} (unlines sourceLines)).outputText = b! "main:\n ret\n" := by decide +kernel

/-- Source code may be shown if it is a single word, or if its first word can be read as a hexadecimal number, and in functions that are
left out it may begin another function. -/
theorem C94_violation :
    (objParse .utf8 {} b! "1000 <f>:\n}\n 1000:\tc3    \tret\n").outputText = b! "f:\n }\n ret\n" ∧
    (objParse .utf8 {} b! "1000 <f>:\na = b;\n 1000:\tc3    \tret\n").outputText = b! "f:\n= b;:\n ret\n" ∧
    (objParse .utf8 {} b! "1000 <_init>:\nint x;\n 1000:\tc3    \tret\n").outputText = b! "x;:\n ret\n" ∧
    (objParse .utf8 {} b! "1000 <_init>:\n 1000:\tc3    \tret\n").outputText = [] := by
  refine ⟨?_, ?_, ?_, ?_⟩ <;> decide +kernel

end AsmParser

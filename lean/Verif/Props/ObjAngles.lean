/-
C69: the label references of an instruction in binary mode are the names in angle brackets.
-/
import Verif.Proofs.Utf8Count

namespace AsmParser

/-- C69 (partial): if every `<` in the input is followed by `>` or `+` in its line, without a `#` in between, the label references
of an instruction are exactly the names between `<` and `>` or `+` in its text before a comment, from left to right and with
their columns, except for ignored names.  Missing: texts that are not ASCII (`C69_characters_partial`) or longer than 65535 characters,
names with `<` (`C69_violation_template`), of which the part after the last `<` counts as the name here, and names with `#`
(`C69_violation`). -/
theorem C69_references_partial (L : Locale) (hL : L.Ascii) (f : Filter) (s : Str) (hc : ∀ line ∈ inputLines s, AnglesClosed line) :
    ∀ l ∈ (objParse L f s).lines, l.opcodes ≠ [] → asciiStr l.text → l.text.length ≤ 65535 →
      ∃ names : List (Str × Nat), names.Sublist (angleNames 1 (beforeHash l.text)) ∧
        (∀ x, x ∈ names ↔ x ∈ angleNames 1 (beforeHash l.text) ∧ ¬ IgnoredName f.plt x.1) ∧
        l.labels = names.map fun x => { name := x.1, startCol := x.2, endCol := x.2 + x.1.length } := by
  intro l hl h1 h2 h3
  refine ⟨_, List.filter_sublist (p := fun (x : Str × Nat) => !shouldIgnoreFunction x.1 f), fun x => ?_, ?_⟩
  · rw [List.mem_filter, Bool.not_eq_true', shouldIgnore_false]
  · have hcount : ∀ t, l.text = c! ' ' :: t → Counted L t := fun t e => counted_ascii hL fun c hc => h2 c (by rw [e]; exact .tail _ hc)
    rw [spans_parse f s hc l hl h1 hcount h3, show (1 : Nat) = ([] : Str).length + 1 from rfl, angleNames_spans, List.filter_map,
      List.filter_map, List.map_map]
    have hl : ∀ x ∈ angleSpans [] (beforeHash l.text), lineRef x = { name := x.2, startCol := x.1.length + 1, endCol := x.1.length + 1 + x.2.length } := by
      intro x hx
      obtain ⟨r, e⟩ := angleSpans_prefix hx
      have ha : asciiStr (x.1 ++ x.2) := fun c hc =>
        h2 c ((List.takeWhile_prefix _).subset (show c ∈ beforeHash l.text by rw [← e]; exact List.mem_append_left _ hc))
      have ha1 : asciiStr x.1 := fun c hc => ha c (List.mem_append_left _ hc)
      simp only [lineRef, charCount_ascii ha, charCount_ascii ha1, List.drop_length, List.nil_append, List.length_append]
      congr 1
      omega
    rw [List.filter_congr (q := (fun (x : Str × Nat) => !shouldIgnoreFunction x.1 f) ∘ fun x => (x.2, x.1.length + 1)) fun x hx => by
      simp only [Function.comp, hl x hx]]
    exact List.map_congr_left fun x hx => hl x (List.mem_filter.1 hx).1

/-- C69 (partial), for UTF-8: under the same condition on the brackets the references of an instruction whose text is valid UTF-8
are again those for the names in brackets, and their columns are those of the names, counted in characters.  The name of a
reference is the name in the brackets, but with as many of the bytes before it in front as the text before it has more bytes than
characters; whether a function is ignored is decided with that name.  Missing: as for `C69_references_partial`, and the additional
bytes (`C69_violation_bytes`). -/
theorem C69_characters_partial (f : Filter) (s : Str) (hc : ∀ line ∈ inputLines s, AnglesClosed line) :
    ∀ l ∈ (objParse Locale.utf8 f s).lines, l.opcodes ≠ [] → ValidUtf8 l.text → 0 ∉ l.text → l.text.length ≤ 65535 →
      ∃ refs : List AsmLabel, refs = (angleSpans [] (beforeHash l.text)).map (fun x =>
          { name := x.1.drop (charCount x.1) ++ x.2, startCol := charCount x.1 + 1, endCol := charCount (x.1 ++ x.2) + 1 }) ∧
        l.labels.Sublist refs ∧ ∀ r, r ∈ l.labels ↔ r ∈ refs ∧ ¬ IgnoredName f.plt r.name := by
  intro l hl h1 h2 h0 h3
  have hcount : ∀ t, l.text = c! ' ' :: t → Counted Locale.utf8 t := fun t e =>
    counted_utf8 (ValidUtf8.rest (e ▸ h2) (by decide)) fun hz => h0 (by rw [e]; exact .tail _ hz)
  have h := spans_parse f s hc l hl h1 hcount h3
  refine ⟨_, rfl, ?_, fun r => ?_⟩
  · rw [h]; exact List.filter_sublist
  · rw [h, List.mem_filter, Bool.not_eq_true', shouldIgnore_false]
    rfl

/-- C07 (partial), for UTF-8: the columns of a reference denote the name in brackets, counted in characters, and the name of the
reference ends with it. -/
theorem C07_characters_partial (f : Filter) (s : Str) (hc : ∀ line ∈ inputLines s, AnglesClosed line) :
    ∀ l ∈ (objParse Locale.utf8 f s).lines, l.opcodes ≠ [] → ValidUtf8 l.text → 0 ∉ l.text → l.text.length ≤ 65535 → ∀ r ∈ l.labels,
      ∃ before name after, l.text = before ++ name ++ after ∧ before.getLast? = some c! '<' ∧ (∀ c ∈ name, angleMark c = false) ∧
        (after.head? = some c! '>' ∨ after.head? = some c! '+') ∧
        r.startCol = charCount before + 1 ∧ r.endCol = charCount (before ++ name) + 1 ∧
        r.name = before.drop (charCount before) ++ name ∧ (Ascii7 before → r.name = name) := by
  intro l hl h1 h2 h0 h3 r hr
  obtain ⟨refs, rfl, -, h⟩ := C69_characters_partial f s hc l hl h1 h2 h0 h3
  obtain ⟨x, hx, rfl⟩ := List.mem_map.1 ((h r).1 hr).1
  obtain ⟨post, e, hlast, hn, hp⟩ := angleSpans_mem hx
  have e2 : l.text = beforeHash l.text ++ l.text.dropWhile (· ≠ c! '#') := (List.takeWhile_append_dropWhile).symm
  refine ⟨x.1, x.2, post ++ l.text.dropWhile (· ≠ c! '#'), ?_, hlast, hn, ?_, rfl, rfl, rfl, fun ha => ?_⟩
  · conv => lhs; rw [e2, ← List.nil_append (beforeHash l.text), ← e]
    simp
  · cases post with
    | nil => simp at hp
    | cons d post => simpa using hp
  · show x.1.drop (charCount x.1) ++ x.2 = x.2
    have : charCount x.1 = x.1.length := by
      unfold charCount
      rw [List.filter_eq_self.2]
      intro c hc
      rw [Bool.not_eq_true', Bool.and_eq_false_iff]
      exact .inl (decide_eq_false (by simpa using ha c hc))
    rw [this, List.drop_length, List.nil_append]

/-- A check for `AnglesClosed`. -/
def anglesClosed : Str → Bool
  | [] => true
  | c :: s => (c != c! '<' || (s.takeWhile (· ≠ c! '#')).any fun d => d == c! '>' || d == c! '+') && anglesClosed s

theorem anglesClosed_sound {s : Str} (h : anglesClosed s = true) : AnglesClosed s := by
  induction s with
  | nil => intro a b e; simp at e
  | cons c s ih =>
    rw [anglesClosed, Bool.and_eq_true] at h
    intro a b e
    cases a with
    | cons d a =>
      injection e with _ e
      exact ih h.2 a b e
    | nil =>
      injection e with e1 e2
      subst e1 e2
      have h := h.1
      rw [bne_self_eq_false, Bool.false_or, List.any_eq_true] at h
      obtain ⟨d, hd, hm⟩ := h
      obtain ⟨x, r, e⟩ := List.append_of_mem hd
      refine ⟨x, d, r ++ s.dropWhile (· ≠ c! '#'), ?_, by simpa using hm, fun hx => ?_⟩
      · conv => lhs; rw [← List.takeWhile_append_dropWhile (p := fun c => decide (c ≠ c! '#')) (l := s), e]
        simp
      · have hx : c! '#' ∈ s.takeWhile (fun c => decide (c ≠ c! '#')) := e ▸ List.mem_append_left _ hx
        have := List.all_eq_true.1 (List.all_takeWhile (p := fun c => decide (c ≠ c! '#')) (l := s)) _ hx
        simp at this

/-- References with and without offset, to an ignored function, two in one line, and in a comment. -/
def angleObj : Str :=
  b! "0000000000401000 <main>:\n  401000:\te8 00 \tcall 401010 <f+0x4> <g>\n" ++
  b! "  401005:\te8 00 \tcall 401030 <_init>\n  40100a:\t48 8d \tlea 0x4(%rip),%rax # 404010 <x>\n"

example : (∀ line ∈ inputLines angleObj, AnglesClosed line) ∧
    (objParse Locale.utf8 {} angleObj).lines.map (fun l => (l.text, l.labels.map fun r => (r.name, r.startCol, r.endCol))) =
      [(b! "main:", []), (b! " call 401010 <f+0x4> <g>", [(b! "f", 15, 16), (b! "g", 23, 24)]), (b! " call 401030 <_init>", []),
       (b! " lea 0x4(%rip),%rax # 404010 <x>", [])] ∧
    (∀ l ∈ (objParse Locale.utf8 {} angleObj).lines, l.isLabel = false → l.opcodes ≠ []) :=
  ⟨fun line h => anglesClosed_sound ((by decide +kernel : ∀ line ∈ inputLines angleObj, anglesClosed line = true) line h),
   by decide +kernel, by decide +kernel⟩

example : angleNames 1 b! " call 401010 <f+0x4> <g>" = [(b! "f", 15), (b! "g", 23)] ∧ angleNames 1 b! " a < b <c>" = [(b! "c", 9)] ∧
    angleNames 1 b! " x <a" = [] := by decide

/-- Two references, the first to a name that is not ASCII: `call <é> <f>`. -/
def bracketObj : Str := b! "  401000:\te8 00 \tcall <" ++ [195, 169] ++ b! "> <f>\n"

example : (∀ line ∈ inputLines bracketObj, AnglesClosed line) ∧
    ∃ l, (objParse Locale.utf8 {} bracketObj).lines = [l] ∧ l.opcodes ≠ [] ∧ ValidUtf8 l.text ∧ 0 ∉ l.text ∧
      l.text = b! " call <" ++ [195, 169] ++ b! "> <f>" ∧
      l.labels = [⟨[195, 169], 8, 9⟩, ⟨b! "<f", 12, 13⟩] ∧
      (angleSpans [] l.text).map (fun x => (x.2, charCount x.1 + 1, charCount (x.1 ++ x.2) + 1)) = [([195, 169], 8, 9), (b! "f", 12, 13)] :=
  ⟨fun line h => anglesClosed_sound ((by decide +kernel : ∀ line ∈ inputLines bracketObj, anglesClosed line = true) line h),
   { text := b! " call <" ++ [195, 169] ++ b! "> <f>", address := some 0x401000, opcodes := [b! "e8", b! "00"],
     labels := [⟨[195, 169], 8, 9⟩, ⟨b! "<f", 12, 13⟩] }, by decide +kernel, by decide,
   ⟨" call <é> <f>".toList.map Char.toNat, by unfold Scalar; decide, by decide +kernel⟩, by decide, rfl, rfl, by decide +kernel⟩

/-- C69 fails for texts that are not ASCII: an instruction whose text has `<f>` after another character gets a reference to `<f`,
and the columns of this reference are those of `f`.  So too the reference to an ignored function is not left out. -/
theorem C69_violation_bytes :
    (objParse Locale.utf8 {} bracketObj).lines.map (fun l => (l.text, l.labels.map (·.name))) =
      [(b! " call <" ++ [195, 169] ++ b! "> <f>", [[195, 169], b! "<f"])] ∧
    (objParse Locale.utf8 {} (b! "  401000:\te8 00 \tcall " ++ [195, 169] ++ b! " <_init>\n")).lines.map
        (fun l => l.labels.map fun r => (r.name, r.startCol, r.endCol)) = [[(b! "<_init", 10, 15)]] ∧
    (objParse Locale.utf8 {} (b! "  401000:\te8 00 \tcall e <_init>\n")).lines.map (·.labels) = [[]] := by decide +kernel

/-- C69 fails for names with `#`, such as those of closures in Rust: the reference is lost, and the next instruction gets a reference
to a name that stands nowhere in brackets. -/
theorem C69_violation : ∃ l1 l2, (objParse Locale.utf8 {} (b! "  401000:\te8 00 \tcall 1020 <main::{closure#0}>\n" ++
      b! "  401005:\t8b 45 08 \tmov    eax,DWORD PTR [rbp+0x8]\n")).lines = [l1, l2] ∧
    l1.text = b! " call 1020 <main::{closure#0}>" ∧ l1.labels = [] ∧
    l2.text = b! " mov    eax,DWORD PTR [rbp+0x8]" ∧ l2.labels.map (·.name) = [b! "DWORD PTR [rbp"] :=
  ⟨{ text := b! " call 1020 <main::{closure#0}>", address := some 0x401000, opcodes := [b! "e8", b! "00"] },
   { text := b! " mov    eax,DWORD PTR [rbp+0x8]", address := some 0x401005, opcodes := [b! "8b", b! "45", b! "08"],
     labels := [⟨b! "DWORD PTR [rbp", 13, 27⟩] }, by decide +kernel, rfl, rfl, rfl, rfl⟩

/-- C69 fails for names with `<`, such as those of templates: an instruction that refers to the function `f<int>()` of the listing
gets a reference to `int`. -/
theorem C69_violation_template : ∃ p, p = objParse Locale.utf8 {} (b! "0000000000401000 <f<int>()>:\n" ++
      b! "  401000:\te8 00 \tcall 401000 <f<int>()>\n") ∧
    p.labels = [(b! "f<int>()", 1)] ∧
    p.lines.map (fun l => (l.text, l.labels.map (·.name))) =
      [(b! "f<int>():", []), (b! " call 401000 <f<int>()>", [b! "int"])] :=
  ⟨_, rfl, by decide +kernel, by decide +kernel⟩

end AsmParser

/-
Property C82: in binary mode a filter only removes lines.
-/
import Verif.Proofs.Fewer
import Verif.Props.Decode

namespace AsmParser

/-- What a line does does not depend on whether the current function is left out: a line that would begin a function there also
begins one elsewhere. -/
def PlainHeaders (s : Str) : Prop :=
  ∀ l ∈ inputLines s, (lineKind true (l.filter (· != 13))).begins = true → (lineKind false (l.filter (· != 13))).begins = true

theorem inputLinesFrom_plain {l : Str} (h : (10 : Byte) ∉ l) (cur s : Str) : inputLinesFrom cur (l ++ 10 :: s) = (cur ++ l) :: inputLines s := by
  induction l generalizing cur with
  | nil => simp [inputLinesFrom, inputLines]
  | cons c l ih =>
    simp only [List.mem_cons, not_or] at h
    rw [List.cons_append, inputLinesFrom, if_neg (by simpa using fun e => h.1 e.symm), ih h.2]
    simp

theorem inputLines_unlines_rest {ls : List Str} (h : ∀ l ∈ ls, (10 : Byte) ∉ l) (t : Str) : inputLines (unlines ls ++ t) = ls ++ inputLines t := by
  induction ls with
  | nil => rfl
  | cons l ls ih =>
    have : unlines (l :: ls) ++ t = l ++ 10 :: (unlines ls ++ t) := by simp [unlines]
    rw [this]
    unfold inputLines
    rw [inputLinesFrom_plain (h l (by simp)), ih fun l hl => h l (by simp [hl])]
    rfl

/-! ### C82 -/

/-- C82 for `library_functions`: if the output without it is not truncated, the lines of the output with it are among them, in the same order. -/
theorem C82_library (L : Locale) (f g : Filter) (s : Str) (hp : f.plt = g.plt) (hl : f.libraryFunctions = true → g.libraryFunctions = true)
    (hfit : (objParse L f s).lines.length ≤ 5000) : (objParse L g s).lines.Sublist (objParse L f s).lines := by
  obtain ⟨ls, t, rfl, h1, h2⟩ := C73_all_inputs s
  obtain ⟨R, -, hR⟩ := C73_every_line L
  obtain ⟨e1, -⟩ := hR f ls t h1 h2
  obtain ⟨e2, -⟩ := hR g ls t h1 h2
  rw [e1] at hfit ⊢
  rw [e2, ← hp]
  rw [decodeLines_all] at hfit ⊢
  rw [decodeLines_all]
  have hf : (Pages.all f.libraryFunctions {} (happenings R (leftOut f.plt) {} ls)).full = false := by
    cases hb : (Pages.all f.libraryFunctions {} (happenings R (leftOut f.plt) {} ls)).full with
    | false => rfl
    | true => have := Pages.full_long (lib := f.libraryFunctions) _ (b := {}) (fun h => by cases h) hb; omega
  obtain ⟨r, hr⟩ := fewer_pages (φ := id) (fun a b h => by cases h; exact ⟨rfl, rfl⟩) hl
    (fewerShown_refl (happenings R (leftOut f.plt) {} ls)) (b := {}) (b' := {}) ⟨.slnil, fun _ => rfl, fun _ => rfl, rfl⟩ hf
  have := hr.sublist
  rwa [List.map_id, List.map_id] at this

theorem leftOut_plt {a b : Bool} (h : a = true → b = true) (n : Str) (hn : leftOut a n = true) : leftOut b n = true := by
  classical
  simp only [leftOut, decide_eq_true_eq] at hn ⊢
  rcases hn with hn | hn | hn | ⟨hn, hx⟩
  · exact .inl hn
  · exact .inr (.inl hn)
  · exact .inr (.inr (.inl hn))
  · exact .inr (.inr (.inr ⟨h hn, hx⟩))

/-- C82 (partial): with at least the filters `library_functions` and `plt` that `f` has, the texts of the lines are among those
that are output with `f`, in the same order, if that output is not truncated.  Missing: truncated output, see `C82_violation_cap`, and
inputs with lines that begin a function only if the current function is left out, see `C82_violation_header`. -/
theorem C82_filters_partial (L : Locale) (f g : Filter) (s : Str) (hp : f.plt = true → g.plt = true)
    (hl : f.libraryFunctions = true → g.libraryFunctions = true) (hfit : (objParse L f s).lines.length ≤ 5000) (hh : PlainHeaders s) :
    ((objParse L g s).lines.map (·.text)).Sublist ((objParse L f s).lines.map (·.text)) := by
  obtain ⟨ls, t, rfl, h1, h2⟩ := C73_all_inputs s
  have hh := fun l hl => hh l (by rw [inputLines_unlines_rest h1]; exact List.mem_append_left _ hl)
  obtain ⟨R, -, hR⟩ := C73_every_line L
  obtain ⟨e1, -⟩ := hR f ls t h1 h2
  obtain ⟨e2, -⟩ := hR g ls t h1 h2
  rw [e1] at hfit ⊢
  rw [e2]
  rw [decodeLines_all] at hfit ⊢
  rw [decodeLines_all]
  have hf : (Pages.all f.libraryFunctions {} (happenings R (leftOut f.plt) {} ls)).full = false := by
    cases hb : (Pages.all f.libraryFunctions {} (happenings R (leftOut f.plt) {} ls)).full with
    | false => rfl
    | true => have := Pages.full_long (lib := f.libraryFunctions) _ (b := {}) (fun h => by cases h) hb; omega
  obtain ⟨r, hr⟩ := fewer_pages (φ := lineView) (fun a b h => by
      simp only [lineView, Prod.mk.injEq] at h; exact h.2) hl
    (fewerShown_drop (R := R) (leftOut_plt hp) ls hh (q := false) (c := {}) (c' := {}) ⟨rfl, fun _ => rfl, fun h => by cases h⟩)
    (b := {}) (b' := {}) ⟨.slnil, fun _ => rfl, fun _ => rfl, rfl⟩ hf
  have := hr.sublist.map (·.1)
  rwa [List.map_map, List.map_map] at this

/-- Two functions, one of them a stub. -/
def sampleStub : Str := b! "0 <f>:\n/app/a.c:1\n 0:\t55  \tpush\n1 <g@plt>:\n 1:\t90  \tnop\n2 <h>:\n 2:\tc3  \tret\n"

/-- The hypotheses are met, and lines are removed. -/
example : ((objParse Locale.utf8 {} sampleStub).lines.map (·.text) = [b! "f:", b! " push", b! "g@plt:", b! " nop", b! "h:", b! " ret"]) ∧
    ((objParse Locale.utf8 { plt := true } sampleStub).lines.map (·.text) = [b! "f:", b! " push", b! "h:", b! " ret"]) ∧
    ((objParse Locale.utf8 {} sampleStub).lines.length ≤ 5000) ∧ PlainHeaders sampleStub := by
  unfold PlainHeaders; decide +kernel

/-- C82 fails for a line that begins a function only in a function that is left out: the filter `plt` makes `bar:` appear. -/
theorem C82_violation_header :
    (objParse Locale.utf8 {} b! "0 <f@plt>:\nfoo bar\n 1:\t90  \tnop\n").outputText = b! "f@plt:\n nop\n" ∧
    (objParse Locale.utf8 { plt := true } b! "0 <f@plt>:\nfoo bar\n 1:\t90  \tnop\n").outputText = b! "bar:\n nop\n" := by decide +kernel

/-! A listing that is truncated: two functions of 3001 lines, and the header of a third one. -/

def capLines : List Str :=
  b! "0 <a>:" :: (List.replicate 3000 b! " 1:\t90  \tnop" ++ b! "0 <b>:" :: (List.replicate 3000 b! " 1:\t90  \tnop" ++ [b! "0 <c>:"]))

def capNop (R : Reading) : AsmLine := { text := b! " nop", address := some (R.address b! "1"), opcodes := [b! "90"] }

def capHead (R : Reading) (n : Str) : AsmLine :=
  { text := n ++ b! ":", «label» := n, isLabel := true, address := some (R.address b! "0") }

theorem happenings_nops {R : Reading} {drop : Str → Bool} (n : Nat) (ls : List Str) :
    happenings R drop {} (List.replicate n b! " 1:\t90  \tnop" ++ ls) = List.replicate n (false, some (capNop R)) ++ happenings R drop {} ls := by
  induction n with
  | zero => rfl
  | succ n ih =>
    rw [List.replicate_succ, List.cons_append, happenings]
    have hk : lineKind ({} : Carry).ign (List.filter (· != 13) b! " 1:\t90  \tnop") = .code (some b! "1") [b! "90"] [] b! "\tnop" := by decide
    rw [hk, List.replicate_succ, List.cons_append]
    have hr : readRefs R drop ({} : Carry).opened [] b! "\tnop" = ([], none) := by simp [readRefs]
    have hn : ({} : Carry).next R drop (.code (some b! "1") [b! "90"] [] b! "\tnop") = {} := by simp only [Carry.next, hr]
    rw [hn, ih]
    congr 1

theorem happenings_header {R : Reading} {drop : Str → Bool} {line title n : Str} (hd : drop n = false) (hn : titleName title = n)
    (hk : lineKind false (List.filter (· != 13) line) = .header b! "0" title) (ht : title ≠ []) (ls : List Str) :
    happenings R drop {} (line :: ls) = (true, some (capHead R n)) :: happenings R drop {} ls := by
  rw [happenings, hk]
  have : ({} : Carry).next R drop (.header b! "0" title) = {} := by
    simp [Carry.next, hn, hd]
  simp only [this]
  congr 1
  simp [LineKind.begins, Carry.shown, hn, hd, ht, capHead]

theorem Pages.all_replicate {lib : Bool} {a : AsmLine} (n : Nat) : ∀ {b : Pages}, b.full = false → b.lines.length + n ≤ 5000 →
    b.all lib (List.replicate n (false, some a)) = { b with cur := b.cur ++ List.replicate n a } := by
  induction n with
  | zero => intro b _ _; simp [Pages.all]
  | succ n ih =>
    intro b hf hn
    rw [List.replicate_succ, Pages.all, List.foldl_cons]
    have : b.next lib false (some a) = { b with cur := b.cur ++ [a] } := by
      simp only [Pages.next, hf, Bool.false_eq_true, ↓reduceIte, Pages.add]
      rw [if_pos (by omega)]
    rw [this]
    have := ih (b := { b with cur := b.cur ++ [a] }) hf (by simp only [Pages.lines, List.length_append, List.length_cons, List.length_nil] at hn ⊢; omega)
    unfold Pages.all at this
    rw [this]
    simp [List.replicate_succ]

theorem Pages.all_append {lib : Bool} {b : Pages} (es es' : List (Bool × Option AsmLine)) : b.all lib (es ++ es') = (b.all lib es).all lib es' := by
  simp [Pages.all]

theorem Pages.all_cons {lib : Bool} {b : Pages} (x : Bool) (o : Option AsmLine) (es : List (Bool × Option AsmLine)) :
    b.all lib ((x, o) :: es) = (b.next lib x o).all lib es := rfl

/-- A function with `m` lines behind its label. -/
theorem Pages.all_function {lib : Bool} {b : Pages} {a n : AsmLine} {m : Nat} (hf : (b.close lib).full = false)
    (hl : (b.close lib).done.length + (m + 1) ≤ 5000) :
    b.all lib ((true, some a) :: List.replicate m (false, some n)) = { b.close lib with cur := a :: List.replicate m n } := by
  have hc : (b.close lib).cur = [] := by unfold Pages.close; split <;> rfl
  have hb : b.full = false := by rw [Pages.close_full] at hf; exact hf
  rw [Pages.all_cons]
  have e : b.next lib true (some a) = { b.close lib with cur := [a] } := by
    simp only [Pages.next, hb, Bool.false_eq_true, ↓reduceIte, Pages.add]
    rw [if_pos (by rw [Pages.lines, hc, List.append_nil]; omega), hc]
    rfl
  rw [e, Pages.all_replicate (b := { b.close lib with cur := [a] }) m hf (by simp only [Pages.lines, List.length_append, List.length_cons, List.length_nil]; omega)]
  rfl

theorem Pages.all_over {lib : Bool} {a : AsmLine} (n : Nat) : ∀ {b : Pages}, b.full = false → b.lines.length ≤ 5000 → 5000 < b.lines.length + n →
    (b.all lib (List.replicate n (false, some a))).full = true ∧
      ∀ l ∈ (b.all lib (List.replicate n (false, some a))).lines, l ∈ b.lines ∨ l = a ∨ l = markerLine := by
  induction n with
  | zero => intro b _ h1 h2; omega
  | succ n ih =>
    intro b hf h1 h2
    rw [List.replicate_succ, Pages.all_cons]
    by_cases hlt : b.lines.length < 5000
    · have e : b.next lib false (some a) = { b with cur := b.cur ++ [a] } := by
        simp only [Pages.next, hf, Bool.false_eq_true, ↓reduceIte, Pages.add]
        rw [if_pos hlt]
      have el : ({ b with cur := b.cur ++ [a] } : Pages).lines = b.lines ++ [a] := by simp [Pages.lines]
      rw [e]
      obtain ⟨i1, i2⟩ := ih (b := { b with cur := b.cur ++ [a] }) hf (by rw [el, List.length_append, List.length_singleton]; omega)
        (by rw [el, List.length_append, List.length_singleton]; omega)
      refine ⟨i1, fun l hl => ?_⟩
      rcases i2 l hl with h | h
      · rw [el, List.mem_append, List.mem_singleton] at h
        rcases h with h | h
        · exact .inl h
        · exact .inr (.inl h)
      · exact .inr h
    · have hfull : (b.next lib false (some a)).full = true := by
        simp only [Pages.next, hf, Bool.false_eq_true, ↓reduceIte, Pages.add]
        rw [if_neg hlt]
      rw [Pages.all_full hfull]
      refine ⟨hfull, fun l hl => ?_⟩
      simp only [Pages.next, hf, Bool.false_eq_true, ↓reduceIte, Pages.add] at hl
      rw [if_neg hlt] at hl
      simp only [Pages.lines, List.mem_append, List.mem_singleton] at hl ⊢
      rcases hl with h | h | h
      · exact .inl (.inl h)
      · exact .inl (.inr h)
      · exact .inr (.inr h)

/-- Two functions without user code, and a label: with the filter only the label is left. -/
theorem pages_taken_back {a b c n : AsmLine} {m : Nat} (ha : a.isLabel = true) (hb : b.isLabel = true) (ua : a.source.isUsercode = false)
    (ub : b.source.isUsercode = false) (un : n.source.isUsercode = false) (hm : m + 1 ≤ 5000) :
    (Pages.all true {} ((true, some a) :: (List.replicate m (false, some n) ++ (true, some b) :: (List.replicate m (false, some n) ++
      [(true, some c)])))).lines = [c] := by
  have hu : ∀ {x : AsmLine}, x.source.isUsercode = false → hasUserLine (x :: List.replicate m n) = false := by
    intro x hx
    rw [hasUserLine, List.any_eq_false]
    intro l hl
    simp only [List.mem_cons, List.mem_replicate] at hl
    rcases hl with rfl | ⟨-, rfl⟩ <;> simp [hx, un]
  have hcl : ∀ {x : AsmLine}, x.isLabel = true → x.source.isUsercode = false →
      ({ cur := x :: List.replicate m n } : Pages).close true = {} := by
    intro x h1 h2
    unfold Pages.close
    rw [if_pos (by simp [startsFunction, h1, hu h2])]
  have e0 : ({} : Pages).close true = {} := rfl
  rw [← List.cons_append, Pages.all_append, Pages.all_function rfl (by rw [e0]; simpa using hm), ← List.cons_append, Pages.all_append, e0]
  rw [Pages.all_function (by rw [hcl ha ua]) (by rw [hcl ha ua]; simpa using hm), hcl ha ua, Pages.all_cons]
  simp only [Pages.next, Bool.false_eq_true, ↓reduceIte, hcl hb ub, Pages.add, Pages.all, List.foldl_nil]
  rfl

/-- The same without the filter: the output is full before the label. -/
theorem pages_cut_off {a b c n : AsmLine} {m : Nat} (hm : m + 1 ≤ 4999) (hn : 5000 < 2 * (m + 1)) :
    ∀ l ∈ (Pages.all false {} ((true, some a) :: (List.replicate m (false, some n) ++ (true, some b) :: (List.replicate m (false, some n) ++
      [(true, some c)])))).lines, l = a ∨ l = b ∨ l = n ∨ l = markerLine := by
  have e0 : ({} : Pages).close false = {} := rfl
  rw [← List.cons_append, Pages.all_append, Pages.all_function (m := m) rfl (by rw [e0]; simp; omega), e0, Pages.all_cons]
  have e1 : ({ cur := a :: List.replicate m n } : Pages).next false true (some b) = { done := a :: List.replicate m n, cur := [b] } := by
    simp only [Pages.next, Bool.false_eq_true, ↓reduceIte, Pages.close, Bool.false_and, Pages.add]
    rw [if_pos (by simp [Pages.lines]; omega)]
    rfl
  rw [e1, Pages.all_append]
  obtain ⟨h1, h2⟩ := Pages.all_over (lib := false) (a := n) m (b := { done := a :: List.replicate m n, cur := [b] }) rfl
    (by simp [Pages.lines]; omega) (by simp [Pages.lines]; omega)
  rw [Pages.all_full h1]
  intro l hl
  rcases h2 l hl with h | h | h
  · simp only [Pages.lines, List.mem_append, List.mem_cons, List.mem_replicate, List.not_mem_nil, or_false] at h
    rcases h with (h | ⟨-, h⟩) | h
    · exact .inl h
    · exact .inr (.inr (.inl h))
    · exact .inr (.inl h)
  · exact .inr (.inr (.inl h))
  · exact .inr (.inr (.inr h))

/-- C82 fails for truncated output: the filter `library_functions` makes the line `c:` appear, which was cut off. -/
theorem C82_violation_cap (L : Locale) : (objParse L { libraryFunctions := true } (unlines capLines)).outputText = b! "c:\n" ∧
    ∀ l ∈ (objParse L {} (unlines capLines)).lines, l.text ≠ b! "c:" := by
  obtain ⟨R, -, hR⟩ := C73_every_line L
  have h10 : ∀ l ∈ capLines, (10 : Byte) ∉ l := by
    intro l hl
    simp only [capLines, List.mem_cons, List.mem_append, List.mem_replicate, List.not_mem_nil, or_false] at hl
    rcases hl with rfl | ⟨-, rfl⟩ | rfl | ⟨-, rfl⟩ | rfl <;> decide
  obtain ⟨e1, -⟩ := hR { libraryFunctions := true } capLines [] h10 (by simp)
  obtain ⟨e2, -⟩ := hR {} capLines [] h10 (by simp)
  rw [List.append_nil, decodeLines_all] at e1 e2
  have hd : ∀ n, n = b! "a" ∨ n = b! "b" ∨ n = b! "c" → leftOut false n = false := by
    rintro n (rfl | rfl | rfl) <;> (rw [leftOut_eq { }]; decide +kernel)
  have hh : happenings R (leftOut false) {} capLines =
      (true, some (capHead R b! "a")) :: (List.replicate 3000 (false, some (capNop R)) ++
        (true, some (capHead R b! "b")) :: (List.replicate 3000 (false, some (capNop R)) ++ [(true, some (capHead R b! "c"))])) := by
    rw [capLines, happenings_header (hd b! "a" (by simp)) (title := b! "<a>:") (by decide) (by decide) (by decide), happenings_nops,
      happenings_header (hd b! "b" (by simp)) (title := b! "<b>:") (by decide) (by decide) (by decide), happenings_nops,
      happenings_header (hd b! "c" (by simp)) (title := b! "<c>:") (by decide) (by decide) (by decide)]
    rfl
  constructor
  · rw [OParser.outputText, e1]
    refine (congrArg (List.flatMap fun l => l.text ++ [10]) (a₂ := [capHead R b! "c"]) ?_).trans (by simp [capHead])
    refine (congrArg (fun x => (Pages.all true {} x).lines) hh).trans ?_
    exact pages_taken_back rfl rfl rfl rfl rfl (by omega)
  · intro l hl
    rw [e2] at hl
    have hl : l ∈ (Pages.all false {} (happenings R (leftOut false) {} capLines)).lines := hl
    rw [hh] at hl
    rcases pages_cut_off (by omega) (by omega) l hl with rfl | rfl | rfl | rfl <;> simp [capHead, capNop, markerLine]

end AsmParser

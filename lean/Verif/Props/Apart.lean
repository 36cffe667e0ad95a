/-
Property C83: binary mode treats the functions of a listing independently.
-/
import Verif.Proofs.Apart
import Verif.Props.Fewer
import Verif.Props.ObjAngles

namespace AsmParser

/-- A line that begins a function: an address, a space, and a name or any other text. -/
structure HeaderLine (l : Str) : Prop where
  form : ∃ a x t, l = a ++ c! ' ' :: x :: t ∧ a ≠ [] ∧ (∀ c ∈ a, isHex c = true) ∧ isWhitespace x = false ∧ x ≠ 13
  line : (10 : Byte) ∉ l

theorem HeaderLine.begins {l : Str} (h : HeaderLine l) : (lineKind false (l.filter (· != 13))).begins = true := by
  obtain ⟨a, x, t, rfl, ha, hh, hx, h13⟩ := h.form
  have hf : (a ++ c! ' ' :: x :: t).filter (· != 13) = a ++ c! ' ' :: x :: t.filter (· != 13) := by
    rw [List.filter_append, List.filter_eq_self.2, List.filter_cons_of_pos (by decide), List.filter_cons_of_pos (by simpa using h13)]
    intro c hc
    exact byte_forall (P := fun c => isHex c = true → (c != 13) = true) (by decide +kernel) (hh c hc)
  have hm : withoutMargin (a ++ c! ' ' :: x :: t.filter (· != 13)) = a ++ c! ' ' :: x :: t.filter (· != 13) := by
    cases a with
    | nil => exact absurd rfl ha
    | cons c a =>
      rw [withoutMargin, List.cons_append, List.dropWhile_cons_of_neg]
      have := byte_forall (P := fun c => isHex c = true → (isWhitespace c || c == c! ';') = false) (by decide +kernel) (hh c (by simp))
      simpa using this
  have hw : ∀ c ∈ a, inLeadWord c = true := fun c hc =>
    byte_forall (P := fun c => isHex c = true → inLeadWord c = true) (by decide +kernel) (hh c hc)
  have h1 : leadWord (a ++ c! ' ' :: x :: t.filter (· != 13)) = a := by
    rw [leadWord, hm, List.takeWhile_append_of_pos hw, List.takeWhile_cons_of_neg (by decide), List.append_nil, List.filter_eq_self]
    intro c hc
    exact byte_forall (P := fun c => isHex c = true → (c != c! ';') = true) (by decide +kernel) (hh c hc)
  have h2 : afterWord (a ++ c! ' ' :: x :: t.filter (· != 13)) = c! ' ' :: x :: t.filter (· != 13) := by
    rw [afterWord, hm, List.dropWhile_append_of_pos hw, List.dropWhile_cons_of_neg (by decide)]
  have hd : a ≠ b! "Disassembly" := by
    rintro rfl
    exact absurd (hh c! 'D' (by decide)) (by decide)
  rw [hf, lineKind, h1, h2]
  dsimp only
  rw [if_neg (by decide), if_neg (by decide), if_neg hd, if_pos (by simpa using hh)]
  simp [LineKind.begins, dropBlanks, hx]

/-- No function of the listing is left out. -/
def NothingLeftOut (plt : Bool) (s : Str) : Prop :=
  ∀ l ∈ inputLines s, ∀ a t, lineKind false (l.filter (· != 13)) = .header a t → leftOut plt (titleName t) = false

theorem inputLines_newline (s : Str) : ∃ ls, s ++ [10] = unlines ls ∧ (∀ l ∈ ls, (10 : Byte) ∉ l) ∧ ∀ l ∈ ls, l ∈ inputLines (s ++ [10]) := by
  obtain ⟨ls, t, rfl, h1, h2⟩ := C73_all_inputs s
  refine ⟨ls ++ [t], by simp [unlines], ?_, ?_⟩
  · intro l hl
    rcases List.mem_append.1 hl with h | h
    · exact h1 l h
    · rw [List.mem_singleton.1 h]; exact h2
  · have e : unlines ls ++ t ++ [10] = unlines (ls ++ [t]) ++ [] := by simp [unlines]
    intro l hl
    rw [e, inputLines_unlines_rest]
    · exact List.mem_append_left _ hl
    · intro l hl
      rcases List.mem_append.1 hl with h | h
      · exact h1 l h
      · rw [List.mem_singleton.1 h]; exact h2

theorem Each.mono {α β : Type} {P Q : α → β → Prop} {a : List α} {b : List β} (h : Each P a b) (hp : ∀ x y, P x y → Q x y) : Each Q a b := by
  induction h with
  | nil => exact .nil
  | cons h _ ih => exact .cons (hp _ _ h) ih

theorem Each.maps {α β γ : Type} {f : α → γ} {g : β → γ} {a : List α} {b : List β} (h : Each (fun x y => g y = f x) a b) : b.map g = a.map f := by
  induction h with
  | nil => rfl
  | cons h _ ih => simp [h, ih]

theorem Each.length {α β : Type} {P : α → β → Prop} {a : List α} {b : List β} (h : Each P a b) : b.length = a.length := by
  induction h with
  | nil => rfl
  | cons h _ ih => simp [ih]

/-! ### C83 -/

/-- C83 (partial): without `library_functions`, if a listing that begins with a function is put behind another one, the result is that
of the first one followed by that of the second one; only lines for which the second listing has not yet named a source file or a section
take them from the first one, and the first label line of the second listing may lose its address if the first one leaves functions
out.  Missing: `library_functions`, truncated output, and references that the first listing does not close, see `C83_violation`. -/
theorem C83_functions_partial (L : Locale) (f : Filter) (s l t : Str) (hlib : f.libraryFunctions = false)
    (hc : ∀ line ∈ inputLines (s ++ [10]), AnglesClosed line) (hl : HeaderLine l)
    (hfit : (objParse L f (s ++ [10] ++ (l ++ 10 :: t))).lines.length ≤ 5000) :
    ∃ moved, (objParse L f (s ++ [10] ++ (l ++ 10 :: t))).lines = (objParse L f (s ++ [10])).lines ++ moved ∧
      Each Moved (objParse L f (l ++ 10 :: t)).lines moved ∧
      (moved.map (·.address)).tail = ((objParse L f (l ++ 10 :: t)).lines.map (·.address)).tail ∧
      (NothingLeftOut f.plt (s ++ [10]) → moved.map (·.address) = (objParse L f (l ++ 10 :: t)).lines.map (·.address)) := by
  obtain ⟨xs, e1, h1, hx⟩ := inputLines_newline s
  obtain ⟨ys, z, e2, h2, h3⟩ := C73_all_inputs t
  obtain ⟨R, -, hR⟩ := C73_every_line L
  have eb : l ++ 10 :: t = unlines (l :: ys) ++ z := by rw [e2]; simp [unlines]
  have ea : s ++ [10] ++ (l ++ 10 :: t) = unlines (xs ++ l :: ys) ++ z := by rw [eb, e1]; simp [unlines]
  have hy : ∀ x ∈ l :: ys, (10 : Byte) ∉ x := by
    intro x hx
    rcases List.mem_cons.1 hx with rfl | hx
    · exact hl.line
    · exact h2 x hx
  obtain ⟨r1, -⟩ := hR f (xs ++ l :: ys) z (by
    intro x hx
    rcases List.mem_append.1 hx with hx | hx
    · exact h1 x hx
    · exact hy x hx) h3
  obtain ⟨r2, -⟩ := hR f xs [] h1 (by simp)
  obtain ⟨r3, -⟩ := hR f (l :: ys) z hy h3
  rw [← ea, decodeLines_all, hlib] at r1
  rw [List.append_nil, ← e1, decodeLines_all, hlib] at r2
  rw [← eb, decodeLines_all, hlib] at r3
  have hfull : (Pages.all false {} (happenings R (leftOut f.plt) {} (xs ++ l :: ys))).full = false := by
    cases hb : (Pages.all false {} (happenings R (leftOut f.plt) {} (xs ++ l :: ys))).full with
    | false => rfl
    | true =>
      have := Pages.full_long (lib := false) _ (b := {}) (fun h => by cases h) hb
      rw [r1] at hfit
      omega
  have q1 := Pages.all_lines _ hfull
  have hfull2 : (Pages.all false {} (happenings R (leftOut f.plt) {} xs)).full = false := by
    rw [happenings_append, Pages.all_append] at hfull
    exact Pages.not_full_start hfull
  have q2 := Pages.all_lines _ hfull2
  obtain ⟨first, first', rest, rest', a1, a2, a3, a4, a5⟩ := apart_lines (R := R) (drop := leftOut f.plt)
    (c := carryAfter R (leftOut f.plt) {} xs) (l := l) (ls := ys) (carryAfter_opened xs (fun x h => hc x (hx x h)) rfl) hl.begins
  have hlen : ((happenings R (leftOut f.plt) {} (l :: ys)).filterMap (·.2)).length ≤ 5000 := by
    rw [r1, q1, happenings_append, List.filterMap_append, a2] at hfit
    rw [a1]
    simp only [List.length_append, a3.length, a5.length] at hfit ⊢
    omega
  have hfull3 : (Pages.all false {} (happenings R (leftOut f.plt) {} (l :: ys))).full = false :=
    Pages.all_short _ rfl (by simpa [Pages.lines] using hlen)
  have q3 := Pages.all_lines _ hfull3
  refine ⟨first' ++ rest', ?_, ?_, ?_, ?_⟩
  · rw [r1, q1, r2, q2, happenings_append, List.filterMap_append, a2, List.append_assoc]
  · rw [r3, q3, a1]
    exact (a3.mono fun _ _ h => h.1).append (a5.mono fun _ _ h => h.1)
  · rw [r3, q3, a1]
    have e5 := (a5.mono fun _ _ h => h.2).maps
    have hlen' := a3.length
    cases first with
    | nil => cases a3; simpa [Pages.lines] using congrArg List.tail e5
    | cons x first =>
      have : first = [] := by
        cases first with
        | nil => rfl
        | cons _ _ => simp at a4
      subst this
      cases a3 with
      | cons _ h => cases h; simpa [Pages.lines] using e5
  · intro hn
    have hign := carryAfter_ign (R := R) (drop := leftOut f.plt) xs (fun x h => hn x (hx x h)) (c := {}) rfl
    rw [r3, q3, a1]
    have e5 := (a5.mono fun _ _ h => h.2).maps
    have e3 := (a3.mono (Q := fun l l' => l'.address = l.address) fun _ _ h => h.2.resolve_right fun h => by rw [hign] at h; cases h.1).maps
    simp only [Pages.lines, List.nil_append, List.map_append, e3, e5]

/-- The hypotheses are met: two functions, the second one takes its source file from the first one. -/
example : ∃ s l t : Str, s ++ [10] ++ (l ++ 10 :: t) = b! "/app/a.c:1\n0 <f>:\n 0:\te8  \tcall 1 <g>\n1 <g>:\n 1:\tc3  \tret\n" ∧
    HeaderLine l ∧ (∀ line ∈ inputLines (s ++ [10]), AnglesClosed line) ∧ NothingLeftOut true (s ++ [10]) ∧
    (objParse Locale.utf8 {} (s ++ [10] ++ (l ++ 10 :: t))).lines.map (fun x => (x.text, x.address, x.source.line)) =
      [(b! "f:", some 0, 1), (b! " call 1 <g>", some 0, 1), (b! "g:", some 1, 1), (b! " ret", some 1, 1)] := by
  refine ⟨b! "/app/a.c:1\n0 <f>:\n 0:\te8  \tcall 1 <g>", b! "1 <g>:", b! " 1:\tc3  \tret\n", by decide,
    ⟨⟨b! "1", c! '<', b! "g>:", rfl, by decide, by decide, by decide, by decide⟩, by decide⟩,
    fun line h => anglesClosed_sound ?_, fun line h => ?_, by decide +kernel⟩
  · exact (by decide +kernel : ∀ line ∈ inputLines (b! "/app/a.c:1\n0 <f>:\n 0:\te8  \tcall 1 <g>" ++ [10]), anglesClosed line = true) line h
  · intro a t e
    have hm : line ∈ [b! "/app/a.c:1", b! "0 <f>:", b! " 0:\te8  \tcall 1 <g>"] := h
    simp only [List.mem_cons, List.not_mem_nil, or_false] at hm
    have e2 : (LineKind.header a t) = .header b! "0" b! "<f>:" ∨ ∀ a t, lineKind false (line.filter (· != 13)) ≠ .header a t := by
      rcases hm with rfl | rfl | rfl
      · exact .inr (fun a t e => absurd e (by rw [show lineKind false _ = LineKind.source b! "/app/a.c" b! "1" false from by decide]; simp))
      · exact .inl (by rw [← e]; decide)
      · exact .inr (fun a t e => absurd e (by
          rw [show lineKind false _ = LineKind.code (some b! "0") [b! "e8"] [] b! "\tcall 1 <g>" from by decide]; simp))
    rcases e2 with e2 | e2
    · cases e2
      rw [leftOut_eq { plt := true }]
      decide +kernel
    · exact absurd e (e2 a t)

/-- C83 fails with `library_functions`: a function that is removed is kept if user code precedes it; for the address of a function behind
one that is left out; and for references that are not closed, which go on in the next function. -/
theorem C83_violation :
    ((objParse Locale.utf8 { libraryFunctions := true } b! "0 <f>:\n 0:\t90  \tnop\n1 <g>:\n").outputText = b! "g:\n" ∧
      (objParse Locale.utf8 { libraryFunctions := true } b! "/app/a.c:1\n0 <f>:\n 0:\t90  \tnop\n1 <g>:\n").outputText =
        b! "f:\n nop\ng:\n") ∧
    (((objParse Locale.utf8 {} b! "1 <g>:\n").lines.map (·.address) = [some 1]) ∧
      (objParse Locale.utf8 {} b! "0 <_start>:\n1 <g>:\n").lines.map (·.address) = [none]) ∧
    (objParse Locale.utf8 {} b! "1 <g>:\n 1:\t90  \tmov  eax, [ebp+4]\n").lines.map (fun l => l.labels.map (·.name)) = [[], []] ∧
    (objParse Locale.utf8 {} b! " 0:\t90  \tcall 1 <g\n1 <g>:\n 1:\t90  \tmov  eax, [ebp+4]\n").lines.map (fun l => l.labels.map (·.name)) =
      [[], [], [b! ", [ebp"]] := by decide +kernel

end AsmParser

/-
Properties C14 and C54 of binary mode: listings of any size and with any filter are decoded exactly.
-/
import Verif.Proofs.ObjPages
import Verif.Props.ObjListing

namespace AsmParser

/-! ### C14 -/

/-- C14: the output for a well-formed listing, of any size and with any filter, is exactly the expected one
(`pages`, Spec/Pages), the label table lists its label lines and possibly one entry for a header that no longer fitted, and
no undefined behaviour occurs. -/
theorem C14_listing_all (L : Locale) (hL : L.Ascii) (f : Filter) (items : List Item) (hw : WfListing f.plt {} items) :
    (objParse L f (renderListing items)).lines = (pages f.libraryFunctions f.plt {} {} items).lines ∧
    (objParse L f (renderListing items)).labels =
      labelTable 1 (pages f.libraryFunctions f.plt {} {} items).lines ++ (pages f.libraryFunctions f.plt {} {} items).extra ∧
    (objParse L f (renderListing items)).st.ub = false := by
  have h := pages_ok (c := {}) (p := start f) hL items (b := {})
    ⟨At.start f, rfl, rfl, by simp [start], rfl, rfl, fun _ => by intro A B n i m j e; simp [start] at e,
      .inr (.inl (by simp [Pages.lines]))⟩ hw
  have e : objParse L f (renderListing items) = (renderListing items).foldl (OParser.feed L) (start f) := objParse_eq ..
  rw [← e] at h
  obtain ⟨h1, h2, h3⟩ := h
  exact ⟨h1, by rw [h2, h1]; rfl, h3⟩

/-! Without the filter for library functions. -/

theorem pages_nolib (plt : Bool) (c : Ctx) (b : Pages) (is : List Item) (hb : b.full = false) (hl : b.lines.length ≤ 5000) :
    (pages false plt c b is).lines =
      if b.lines.length + (expected plt c is).length ≤ 5000 then b.lines ++ expected plt c is
      else (b.lines ++ expected plt c is).take 5000 ++ [markerLine] := by
  induction is generalizing c b with
  | nil => simp [pages, expected, hl]
  | cons i is ih =>
    have hclose : ∀ x : Pages, x = (if i.isHeader then b.close false else b) → x.lines = b.lines ∧ x.full = false := by
      intro x hx
      subst hx
      split
      · simp [Pages.close, Pages.lines, hb]
      · exact ⟨rfl, hb⟩
    generalize hx : (if i.isHeader then b.close false else b) = x at hclose
    obtain ⟨hx1, hx2⟩ := hclose x rfl
    have hs : b.step false plt c i = match c.out plt i with | [] => x | l :: _ => x.add l := by
      simp only [Pages.step, hb, Bool.false_eq_true, ↓reduceIte, hx]
      cases c.out plt i <;> rfl
    have hle := c.out_le plt i
    rw [pages, hs]
    match ho : c.out plt i with
    | [] => simp only [expected, ho, List.nil_append]; rw [ih _ _ hx2 (by rw [hx1]; exact hl), hx1]
    | [l] =>
      simp only [expected, ho, List.cons_append, List.nil_append, List.length_cons]
      by_cases hlt : b.lines.length < 5000
      · have ea : x.add l = { x with cur := x.cur ++ [l] } := if_pos (by rw [hx1]; exact hlt)
        have el : (x.add l).lines = b.lines ++ [l] := by rw [ea, ← hx1]; simp [Pages.lines]
        rw [ih _ _ (by rw [ea]; exact hx2) (by rw [el]; simp; omega), el]
        simp only [List.length_append, List.length_singleton, List.append_assoc, List.singleton_append]
        have : b.lines.length + 1 + (expected plt (Ctx.after plt c i) is).length =
          b.lines.length + ((expected plt (Ctx.after plt c i) is).length + 1) := by omega
        rw [this]
      · have ea : x.add l = { x with cur := x.cur ++ [markerLine], full := true,
                                     extra := if l.isLabel then [(l.label, 5001)] else [] } :=
          if_neg (by rw [hx1]; exact hlt)
        have hno : ¬ b.lines.length + ((expected plt (Ctx.after plt c i) is).length + 1) ≤ 5000 := by omega
        rw [pages_full (by rw [ea]), ea, if_neg hno]
        have h5 : b.lines.length = 5000 := by omega
        rw [List.take_append_of_le_length (by omega), List.take_of_length_le (by omega), ← hx1]
        simp [Pages.lines]
    | _ :: _ :: _ => rw [ho] at hle; simp at hle

/-- C14 for listings of any size, without the filter `library_functions`: the expected output, cut off behind 5000 lines. -/
theorem C14_capped (L : Locale) (hL : L.Ascii) (f : Filter) (items : List Item) (hf : f.libraryFunctions = false)
    (hw : WfListing f.plt {} items) :
    (objParse L f (renderListing items)).lines =
      if (expected f.plt {} items).length ≤ 5000 then expected f.plt {} items
      else (expected f.plt {} items).take 5000 ++ [markerLine] := by
  rw [(C14_listing_all L hL f items hw).1, hf, pages_nolib _ _ _ _ rfl (by simp [Pages.lines])]
  simp [Pages.lines]

/-! With the filter for library functions. -/

theorem functionsOf_none {E : List AsmLine} (h : ∀ x ∈ E, x.isLabel = false) : functionsOf E = [] ∧ preamble E = E := by
  induction E with
  | nil => exact ⟨rfl, rfl⟩
  | cons l E ih =>
    simp only [List.mem_cons, forall_eq_or_imp] at h
    obtain ⟨h1, h2⟩ := ih h.2
    exact ⟨by simp [functionsOf, h.1, h1], by simp only [preamble] at h2; simp [preamble, h.1, h2]⟩

theorem preamble_label (E : List AsmLine) {l : AsmLine} (h : l.isLabel = true) : preamble (E ++ [l]) = preamble E := by
  induction E with
  | nil => simp [preamble, h]
  | cons x E ih =>
    simp only [preamble, List.cons_append, List.takeWhile_cons] at ih ⊢
    cases x.isLabel <;> simp [ih]

theorem preamble_func (E : List AsmLine) {l : AsmLine} (h : functionsOf E ≠ []) : preamble (E ++ [l]) = preamble E := by
  induction E with
  | nil => exact absurd rfl h
  | cons x E ih =>
    simp only [preamble, List.cons_append, List.takeWhile_cons] at ih ⊢
    cases hx : x.isLabel
    · simp only [functionsOf, hx, Bool.false_eq_true, ↓reduceIte] at h
      simp [ih h]
    · rfl

theorem functionsOf_label (E : List AsmLine) {l : AsmLine} (h : l.isLabel = true) :
    functionsOf (E ++ [l]) = functionsOf E ++ [[l]] := by
  induction E with
  | nil => simp [functionsOf, h, preamble]
  | cons x E ih =>
    simp only [List.cons_append, functionsOf, ih, preamble_label E h]
    split <;> rfl

theorem functionsOf_line (E : List AsmLine) {l : AsmLine} (h : l.isLabel = false) {fs : List (List AsmLine)}
    {g : List AsmLine} (hf : functionsOf E = fs ++ [g]) : functionsOf (E ++ [l]) = fs ++ [g ++ [l]] := by
  induction E generalizing fs with
  | nil => simp [functionsOf] at hf
  | cons x E ih =>
    simp only [List.cons_append, functionsOf] at hf ⊢
    split at hf
    · rename_i hx
      rw [if_pos hx]
      cases fs with
      | nil =>
        simp only [List.nil_append, List.cons.injEq] at hf
        have hn : ∀ y ∈ E, y.isLabel = false := by
          intro y hy
          have : ∀ E : List AsmLine, functionsOf E = [] → ∀ y ∈ E, y.isLabel = false := by
            intro E
            induction E with
            | nil => simp
            | cons z E ih =>
              intro h
              simp only [functionsOf] at h
              split at h
              · cases h
              · rename_i hz
                simp only [List.mem_cons, forall_eq_or_imp]
                exact ⟨by simpa using hz, ih h⟩
          exact this E hf.2 y hy
        have e1 := functionsOf_none (E := E ++ [l]) (by
          intro y hy
          simp only [List.mem_append, List.mem_singleton] at hy
          rcases hy with hy | rfl
          · exact hn y hy
          · exact h)
        rw [e1.1, e1.2, ← hf.1, (functionsOf_none hn).2]
        simp
      | cons y fs =>
        simp only [List.cons_append, List.cons.injEq] at hf
        rw [ih hf.2, preamble_func E (by rw [hf.2]; simp), hf.1]
        rfl
    · rename_i hx
      rw [if_neg hx]
      exact ih hf

/-- The output so far, in terms of the functions so far. -/
structure FunctionsAt (E : List AsmLine) (c : Ctx) (b : Pages) : Prop where
  full : b.full = false
  len : b.lines.length ≤ E.length
  cur : (b.done = [] ∧ b.cur = E ∧ c.ign = false ∧ ∀ x ∈ E, x.isLabel = false) ∨
    (∃ fs, functionsOf E = fs ++ [b.cur] ∧ startsFunction b.cur = true ∧ c.ign = false ∧
      b.done = preamble E ++ (fs.filter hasUserLine).flatten) ∨
    (c.ign = true ∧ b.cur = [] ∧ b.done = preamble E ++ ((functionsOf E).filter hasUserLine).flatten)

theorem FunctionsAt.lines {E : List AsmLine} {c : Ctx} {b : Pages} (h : FunctionsAt E c b) :
    b.lines = preamble E ++ (keptFunctions c.ign (functionsOf E)).flatten := by
  rcases h.cur with ⟨h1, h2, h3, h4⟩ | ⟨fs, h1, _, h2, h3⟩ | ⟨h1, h2, h3⟩
  · rw [(functionsOf_none h4).1, (functionsOf_none h4).2, Pages.lines, h1, h2]; simp [keptFunctions]
  · rw [h1, Pages.lines, h3, h2]; simp [keptFunctions]
  · rw [Pages.lines, h3, h2, h1]; simp [keptFunctions]

/-- Closing: all complete functions. -/
theorem FunctionsAt.close {E : List AsmLine} {c : Ctx} {b : Pages} (h : FunctionsAt E c b) :
    (b.close true).cur = [] ∧ (b.close true).done = preamble E ++ ((functionsOf E).filter hasUserLine).flatten ∧
    (b.close true).full = false ∧ (b.close true).lines.length ≤ E.length := by
  have hl := h.len
  rcases h.cur with ⟨h1, h2, h3, h4⟩ | ⟨fs, h1, h5, h2, h3⟩ | ⟨h1, h2, h3⟩
  · have hs : startsFunction b.cur = false := by
      rw [h2]
      cases E with
      | nil => rfl
      | cons x xs => exact h4 x (by simp)
    have e : b.close true = { b with done := b.done ++ b.cur, cur := [] } := by simp [Pages.close, hs]
    rw [e, (functionsOf_none h4).1, (functionsOf_none h4).2]
    exact ⟨rfl, by simp [h1, h2], h.full, by simpa [Pages.lines] using hl⟩
  · rw [h1]
    cases hu : hasUserLine b.cur
    · have e : b.close true = { b with cur := [] } := by simp [Pages.close, h5, hu]
      rw [e]
      exact ⟨rfl, by simp [h3, hu], h.full, by simp [Pages.lines] at hl ⊢; omega⟩
    · have e : b.close true = { b with done := b.done ++ b.cur, cur := [] } := by simp [Pages.close, hu]
      rw [e]
      exact ⟨rfl, by simp [h3, hu], h.full, by simpa [Pages.lines] using hl⟩
  · have e : b.close true = { b with done := b.done ++ b.cur, cur := [] } := by simp [Pages.close, h2, startsFunction]
    rw [e]
    exact ⟨rfl, by simp [h3, h2], h.full, by simpa [Pages.lines] using hl⟩

theorem FunctionsAt.step {E : List AsmLine} {plt : Bool} {c : Ctx} {b : Pages} (h : FunctionsAt E c b) (i : Item)
    (hn : (E ++ c.out plt i).length ≤ 5000) :
    FunctionsAt (E ++ c.out plt i) (c.after plt i) (b.step true plt c i) := by
  have hlen := h.len
  have hs : b.step true plt c i =
      match c.out plt i with
      | [] => if i.isHeader then b.close true else b
      | l :: _ => (if i.isHeader then b.close true else b).add l := by
    simp only [Pages.step, h.full, Bool.false_eq_true, ↓reduceIte]
    cases c.out plt i <;> rfl
  rw [hs]
  have hle := c.out_le plt i
  cases hh : i.isHeader
  · have hc : (c.after plt i).ign = c.ign := by cases i <;> first | rfl | cases hh
    simp only [Bool.false_eq_true, ↓reduceIte]
    match ho : c.out plt i with
    | [] =>
      rw [List.append_nil]
      exact ⟨h.full, h.len, by rw [hc]; exact h.cur⟩
    | [l] =>
      rw [ho, List.length_append, List.length_singleton] at hn
      have hnl : l.isLabel = false := by
        have hl : l ∈ c.out plt i := by rw [ho]; simp
        cases i <;> simp only [Ctx.out, Ctx.emit] at hl <;>
          first | (cases hh; done) | (split at hl <;> simp at hl; done) | (split at hl <;> simp at hl <;> simp [hl])
      have ea : b.add l = { b with cur := b.cur ++ [l] } := if_pos (by omega)
      simp only [ea]
      refine ⟨h.full, by simp [Pages.lines] at hlen ⊢; omega, ?_⟩
      rw [hc]
      rcases h.cur with ⟨h1, h2, h3, h4⟩ | ⟨fs, h1, h5, h2, h3⟩ | ⟨h1, h2, h3⟩
      · refine .inl ⟨h1, by simp [h2], h3, ?_⟩
        intro y hy
        simp only [List.mem_append, List.mem_singleton] at hy
        rcases hy with hy | rfl
        · exact h4 y hy
        · exact hnl
      · refine .inr (.inl ⟨fs, functionsOf_line E hnl h1, ?_, h2, ?_⟩)
        · simp only [startsFunction] at h5 ⊢
          cases hbc : b.cur with
          | nil => rw [hbc] at h5; cases h5
          | cons x xs => rw [hbc] at h5; exact h5
        · rw [preamble_func E (by rw [h1]; simp)]; exact h3
      · exfalso
        have : c.out plt i = [] := by cases i <;> first | (simp [Ctx.out, h1]; done) | cases hh
        rw [this] at ho; cases ho
    | _ :: _ :: _ => rw [ho] at hle; simp at hle
  · obtain ⟨g1, g2, g3, g4⟩ := h.close
    obtain ⟨a, n, rfl⟩ : ∃ a n, i = .header a n := by cases i <;> first | exact ⟨_, _, rfl⟩ | cases hh
    simp only [↓reduceIte]
    cases hlo : leftOut plt n
    · have ho : ∃ l, c.out plt (.header a n) = [l] ∧ l.isLabel = true := by simp [Ctx.out, hlo]
      obtain ⟨l, ho, hl⟩ := ho
      rw [ho, List.length_append, List.length_singleton] at hn
      rw [ho]
      have ea : (b.close true).add l = { b.close true with cur := (b.close true).cur ++ [l] } := if_pos (by omega)
      simp only [ea]
      refine ⟨g3, by simp [Pages.lines, g1] at g4 ⊢; omega, .inr (.inl ⟨functionsOf E, ?_, ?_, ?_, ?_⟩)⟩
      · rw [functionsOf_label E hl, g1]; rfl
      · simp [g1, startsFunction, hl]
      · simp [Ctx.after, hlo]
      · rw [preamble_label E hl]; exact g2
    · have ho : c.out plt (.header a n) = [] := by simp [Ctx.out, hlo]
      rw [ho, List.append_nil]
      exact ⟨g3, g4, .inr (.inr ⟨by simp [Ctx.after, hlo], g1, g2⟩)⟩

theorem functions_pages (plt : Bool) (is : List Item) {E : List AsmLine} {c : Ctx} {b : Pages} (h : FunctionsAt E c b)
    (hn : (E ++ expected plt c is).length ≤ 5000) :
    FunctionsAt (E ++ expected plt c is) (ctxAfter plt c is) (pages true plt c b is) := by
  induction is generalizing E c b with
  | nil => simpa [expected, ctxAfter, pages] using h
  | cons i is ih =>
    simp only [expected, ← List.append_assoc] at hn ⊢
    have hs := h.step (plt := plt) i (by simp at hn ⊢; omega)
    exact ih hs hn

/-- C54, C14 with the filter `library_functions`, for a listing of at most 5000 lines: the lines before the first function,
all functions with a line attributed to user code, and the last function unless a function that is left out follows it. -/
theorem C54_listing_exact (L : Locale) (hL : L.Ascii) (f : Filter) (items : List Item) (hf : f.libraryFunctions = true)
    (hw : WfListing f.plt {} items) (hn : (expected f.plt {} items).length ≤ 5000) :
    (objParse L f (renderListing items)).lines =
      preamble (expected f.plt {} items) ++
        (keptFunctions (ctxAfter f.plt {} items).ign (functionsOf (expected f.plt {} items))).flatten := by
  rw [(C14_listing_all L hL f items hw).1, hf]
  have := (functions_pages f.plt items (E := []) (c := {}) (b := {})
    ⟨rfl, by simp [Pages.lines], .inl ⟨rfl, rfl, rfl, by simp⟩⟩ (by simpa using hn)).lines
  simpa using this

/-! Examples. -/

/-- A program function, two library functions, another library function at the end. -/
def libItems : List Item :=
  [ .header b! "1000" b! "main",
    .source b! "/app/a.cpp" b! "3" [],
    .instr b! "    " b! "1000" [9] [b! "c3"] 32 [9] ⟨[.plain b! "ret"], []⟩,
    .header b! "1010" b! "g",
    .source b! "/usr/include/x.h" b! "7" [],
    .instr b! "    " b! "1010" [9] [b! "90"] 32 [9] ⟨[.plain b! "nop"], []⟩,
    .header b! "1020" b! "h",
    .instr b! "    " b! "1020" [9] [b! "90"] 32 [9] ⟨[.plain b! "nop"], []⟩,
    .header b! "1030" b! "k",
    .instr b! "    " b! "1030" [9] [b! "c3"] 32 [9] ⟨[.plain b! "ret"], []⟩ ]

theorem header_wf {ign : Bool} {a n : Str} (h : (a ≠ [] ∧ (∀ c ∈ a, isHex c = true) ∧ hexVal a < 2147483648) ∧
    (10 : Byte) ∉ n ∧ (13 : Byte) ∉ n) : Item.Wf ign (.header a n) := ⟨h.1, h.2⟩

theorem source_wf {ign : Bool} {path line : Str} (h : path.head? = some c! '/' ∧ c! ':' ∉ path ∧ ((10 : Byte) ∉ path ∧ (13 : Byte) ∉ path) ∧
    line ≠ [] ∧ (∀ c ∈ line, isDigit c = true) ∧ decVal line < 2147483648) : Item.Wf ign (.source path line []) :=
  ⟨h.1, h.2.1, h.2.2.1, h.2.2.2.1, h.2.2.2.2.1, h.2.2.2.2.2, .inl rfl⟩

theorem leftOut_names : leftOut false b! "g" = false ∧ leftOut false b! "h" = false ∧ leftOut false b! "k" = false := by
  refine ⟨?_, ?_, ?_⟩ <;> (rw [leftOut_eq { }]; decide +kernel)

theorem libItems_wf : WfListing false {} libItems := by
  unfold libItems
  simp only [WfListing, Ctx.after, leftOut_main, leftOut_names]
  refine ⟨header_wf (by decide), source_wf (by decide), instr_wf (by decide) ?_ ⟨_, _, rfl, by decide⟩,
    header_wf (by decide), source_wf (by decide), instr_wf (by decide) ?_ ⟨_, _, rfl, by decide⟩,
    header_wf (by decide), instr_wf (by decide) ?_ ⟨_, _, rfl, by decide⟩,
    header_wf (by decide), instr_wf (by decide) ?_ ⟨_, _, rfl, by decide⟩, trivial⟩
  all_goals
    intro p hp
    simp only [List.mem_cons, List.not_mem_nil, or_false] at hp
    subst hp; unfold Piece.Wf; decide

/-- The library function `g` stays because its label line still carries the source reference of `main`; `h` is removed; `k`
stays because it is the last. -/
example : (objParse .utf8 { libraryFunctions := true } (renderListing libItems)).lines.map (·.text) =
    [b! "main:", b! " ret", b! "g:", b! " nop", b! "k:", b! " ret"] := by
  have h1 : inLibrary b! "/app/a.cpp" = false := by decide +kernel
  have h2 : inLibrary b! "/usr/include/x.h" = true := by decide +kernel
  have hx : expected false {} libItems =
      [ { text := b! "main:", label := b! "main", isLabel := true, address := some 4096 },
        { text := b! " ret", address := some 4096, opcodes := [b! "c3"],
          source := { file := b! "/app/a.cpp", line := 3, isUsercode := true } },
        { text := b! "g:", label := b! "g", isLabel := true, address := some 4112,
          source := { file := b! "/app/a.cpp", line := 3, isUsercode := true } },
        { text := b! " nop", address := some 4112, opcodes := [b! "90"], source := { file := b! "/usr/include/x.h", line := 7 } },
        { text := b! "h:", label := b! "h", isLabel := true, address := some 4128,
          source := { file := b! "/usr/include/x.h", line := 7 } },
        { text := b! " nop", address := some 4128, opcodes := [b! "90"], source := { file := b! "/usr/include/x.h", line := 7 } },
        { text := b! "k:", label := b! "k", isLabel := true, address := some 4144,
          source := { file := b! "/usr/include/x.h", line := 7 } },
        { text := b! " ret", address := some 4144, opcodes := [b! "c3"],
          source := { file := b! "/usr/include/x.h", line := 7 } } ] := by
    unfold libItems
    simp only [expected, Ctx.out, Ctx.emit, Ctx.after, leftOut_main, leftOut_names, pieceRefs, h1, h2]
    rfl
  have hi : (ctxAfter false {} libItems).ign = false := by
    unfold libItems
    simp only [ctxAfter, List.foldl_cons, List.foldl_nil, Ctx.after, leftOut_names]
  rw [C54_listing_exact .utf8 Locale.utf8_ascii { libraryFunctions := true } libItems rfl libItems_wf (by
    show (expected false {} libItems).length ≤ 5000
    rw [hx]; decide)]
  show (preamble (expected false {} libItems) ++
    (keptFunctions (ctxAfter false {} libItems).ign (functionsOf (expected false {} libItems))).flatten).map (·.text) = _
  rw [hx, hi]
  decide +kernel

/-- Many instructions, then a function header. -/
def longItems : List Item :=
  List.replicate 5000 (.instr b! "    " b! "1000" [9] [b! "90"] 32 [9] ⟨[.plain b! "nop"], []⟩) ++ [.header b! "1010" b! "main"]

theorem longItems_wf : WfListing false {} longItems := by
  have : ∀ n, WfListing false {}
      (List.replicate n (.instr b! "    " b! "1000" [9] [b! "90"] 32 [9] ⟨[.plain b! "nop"], []⟩) ++ [.header b! "1010" b! "main"]) := by
    intro n
    induction n with
    | zero => exact ⟨header_wf (by decide), trivial⟩
    | succ n ih =>
      rw [List.replicate_succ, List.cons_append, WfListing]
      refine ⟨instr_wf (by decide) ?_ ⟨_, _, rfl, by decide⟩, ih⟩
      intro p hp
      simp only [List.mem_cons, List.not_mem_nil, or_false] at hp
      subst hp; unfold Piece.Wf; decide
  exact this 5000

theorem longItems_expected : expected false {} longItems =
    List.replicate 5000 { text := b! " nop", address := some 4096, opcodes := [b! "90"] } ++
      [{ text := b! "main:", label := b! "main", isLabel := true, address := some 4112 }] := by
  have : ∀ n, expected false {}
      (List.replicate n (.instr b! "    " b! "1000" [9] [b! "90"] 32 [9] ⟨[.plain b! "nop"], []⟩) ++ [.header b! "1010" b! "main"]) =
    List.replicate n { text := b! " nop", address := some 4096, opcodes := [b! "90"] } ++
      [{ text := b! "main:", label := b! "main", isLabel := true, address := some 4112 }] := by
    intro n
    induction n with
    | zero => simp only [List.replicate_zero, List.nil_append, expected, Ctx.out, leftOut_main]; rfl
    | succ n ih =>
      rw [List.replicate_succ, List.cons_append, expected]
      have e : Ctx.after false {} (.instr b! "    " b! "1000" [9] [b! "90"] 32 [9] ⟨[.plain b! "nop"], []⟩) = {} := rfl
      rw [e, ih]
      rfl
  exact this 5000

/-- The header no longer fits. -/
example : (objParse .utf8 {} (renderListing longItems)).lines =
    List.replicate 5000 { text := b! " nop", address := some 4096, opcodes := [b! "90"] } ++ [markerLine] := by
  rw [C14_capped .utf8 Locale.utf8_ascii {} longItems rfl longItems_wf]
  show (if (expected false {} longItems).length ≤ 5000 then _ else (expected false {} longItems).take 5000 ++ [markerLine]) = _
  rw [if_neg (by rw [longItems_expected, List.length_append, List.length_replicate]; decide), longItems_expected,
    List.take_append_of_le_length (by rw [List.length_replicate]; decide),
    List.take_of_length_le (by rw [List.length_replicate]; decide)]

end AsmParser

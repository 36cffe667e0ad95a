/-
C71: what the program prints, from the command line to standard output.
-/
import Verif.Props.Main
import Verif.Props.Json
import Verif.Props.TextJson
import Verif.Props.ObjPages
import Verif.Props.TextVisible
import Verif.Props.Usage
import Verif.Props.Graph
import Verif.Props.Lines
import Verif.Props.Circles
import Verif.Proofs.Recognize

namespace AsmParser

attribute [local irreducible] Re.search Re.fullMatch

/-! ### Binary mode -/

/-- The number of lines of a listing. -/
theorem newlines_listing {plt : Bool} : ∀ {c : Ctx} (items : List Item), WfListing plt c items →
    newlines (renderListing items) = items.length := by
  have blank : ∀ {w : Str}, AllBlank w → w.count 10 = 0 := fun h =>
    List.count_eq_zero.2 fun hm => absurd (h _ hm) (by decide)
  have hex : ∀ {w : Str}, (∀ c ∈ w, isHex c = true) → w.count 10 = 0 := fun h =>
    List.count_eq_zero.2 fun hm => absurd (h _ hm) (by decide)
  have one : ∀ {w : Str}, OneLine w → w.count 10 = 0 := fun h => List.count_eq_zero.2 h.1
  have bytes : ∀ {bs : List Str}, (∀ b ∈ bs, b ≠ [] ∧ ∀ c ∈ b, isHex c = true) → (bs.flatMap (· ++ b! " ")).count 10 = 0 := by
    intro bs
    induction bs with
    | nil => intro _; rfl
    | cons b bs ih =>
      intro h
      rw [List.flatMap_cons, List.count_append, List.count_append, ih fun b hb => h b (by simp [hb]),
        hex (h b (by simp)).2]
      rfl
  intro c items
  induction items generalizing c with
  | nil => intro _; rfl
  | cons i is ih =>
    rintro ⟨h1, h2⟩
    have ih := ih h2
    unfold newlines renderListing unlines at ih ⊢
    rw [List.map_cons, List.flatMap_cons, List.count_append, ih, List.count_append, List.length_cons]
    have h0 : i.render.count 10 = 0 := by
      cases i with
      | blank ws => exact blank h1
      | note word rest =>
        obtain ⟨⟨-, a, -⟩, b, -⟩ := h1
        simp only [Item.render, List.count_append, one a, one b]; rfl
      | prose word rest =>
        obtain ⟨⟨-, a, -⟩, b, -⟩ := h1
        simp only [Item.render, List.count_append, one a, one b]; rfl
      | «section» name rest =>
        obtain ⟨-, -, a, b⟩ := h1
        simp only [Item.render, List.count_append, one a, one b]; decide
      | header addr name =>
        obtain ⟨⟨-, a, -⟩, b⟩ := h1
        simp only [Item.render, List.count_append, hex a, one b]; rfl
      | source path line tail =>
        obtain ⟨-, -, a, -, b, -, d⟩ := h1
        have e : tail.count 10 = 0 := by
          rcases d with rfl | ⟨-, d⟩
          · rfl
          · exact one d
        have b' : line.count 10 = 0 := List.count_eq_zero.2 fun hm => absurd (b _ hm) (by decide)
        simp only [Item.render, List.count_append, one a, b', e]; rfl
      | instr ws addr gap bs sep pad text =>
        obtain ⟨a1, ⟨-, a2, -⟩, a3, ⟨-, a4⟩, a5, a6, a7⟩ := h1
        have e : text.render.count 10 = 0 := List.count_eq_zero.2 fun hm => (a7.ascii _ hm).2.2.1 rfl
        have e' : [sep].count 10 = 0 := List.count_eq_zero.2 fun hm => by
          rw [List.mem_singleton] at hm
          subst hm
          exact absurd a5 (by decide)
        simp only [Item.render, List.count_append, blank a1, hex a2, blank a3, bytes a4, e', blank a6, e]; rfl
      | more ws addr gap bs =>
        obtain ⟨a1, ⟨-, a2, -⟩, a3, -, a4⟩ := h1
        simp only [Item.render, List.count_append, blank a1, hex a2, blank a3, bytes a4]; rfl
      | reloc ws addr gap rest =>
        obtain ⟨a1, ⟨-, a2, -⟩, a3, a4⟩ := h1
        simp only [Item.render, List.count_append, blank a1, hex a2, blank a3, one a4]; rfl
    rw [h0]
    simp
    omega

/-- The bytes of the expected lines are hexadecimal words. -/
theorem pages_hex {lib plt : Bool} : ∀ {c : Ctx} {b : Pages} (items : List Item), WfListing plt c items →
    (∀ l ∈ b.lines, ∀ o ∈ l.opcodes, ∀ c ∈ o, isHex c = true) →
    ∀ l ∈ (pages lib plt c b items).lines, ∀ o ∈ l.opcodes, ∀ c ∈ o, isHex c = true := by
  intro c b items
  induction items generalizing c b with
  | nil => intro _ h; exact h
  | cons i is ih =>
    rintro ⟨h1, h2⟩ h
    refine ih h2 ?_
    have hout : ∀ l ∈ c.out plt i, ∀ o ∈ l.opcodes, ∀ c ∈ o, isHex c = true := by
      intro l hl
      cases i <;> simp only [Ctx.out, Ctx.emit] at hl
      case header addr name =>
        split at hl
        · simp at hl
        · simp only [List.mem_singleton] at hl; subst hl; intro o ho; simp at ho
      all_goals
        split at hl
        · simp at hl
        · first
          | (simp at hl; done)
          | (simp only [List.mem_singleton] at hl; subst hl; intro o ho; simp at ho; done)
          | (simp only [List.mem_singleton] at hl; subst hl
             obtain ⟨-, -, -, ⟨-, a4⟩, -⟩ := h1
             exact fun o ho => (a4 o ho).2)
    have hclose : ∀ l ∈ (b.close lib).lines, ∀ o ∈ l.opcodes, ∀ c ∈ o, isHex c = true := by
      intro l hl
      refine h l ?_
      unfold Pages.close at hl
      split at hl
      · simp only [Pages.lines, List.append_nil] at hl ⊢
        simp [hl]
      · simpa [Pages.lines] using hl
    unfold Pages.step
    split
    · exact h
    · have hb : ∀ l ∈ (if i.isHeader then b.close lib else b).lines, ∀ o ∈ l.opcodes, ∀ c ∈ o, isHex c = true := by
        split
        · exact hclose
        · exact h
      simp only
      generalize (if i.isHeader then b.close lib else b) = b' at hb ⊢
      cases ho : c.out plt i with
      | nil => exact hb
      | cons l ls =>
        rw [ho] at hout
        simp only
        unfold Pages.add
        split
        · intro l' hl'
          simp only [Pages.lines, ← List.append_assoc, List.mem_append, List.mem_singleton] at hl'
          rcases hl' with hl' | rfl
          · exact hb l' (by simpa [Pages.lines] using hl')
          · exact hout _ (by simp)
        · intro l' hl'
          simp only [Pages.lines, ← List.append_assoc, List.mem_append, List.mem_singleton] at hl'
          rcases hl' with hl' | rfl
          · exact hb l' (by simpa [Pages.lines] using hl')
          · intro o ho; simp [markerLine] at ho

/-- C71 for binary mode: on a printable listing the program ends with exit status 0 and prints a JSON document; the document lists
the expected lines and label definitions, and the number of the lines that are dropped. -/
theorem C71_listing (e : Env) (n : Nat) (items : List Item) (hl : e.localeOk = true) (hL : e.L.Ascii) (hi : hasInput e.args)
    (hb : b! "-binary" ∈ e.args) (ht : b! "-outputtext" ∉ e.args) (hin : requestedInput e = renderListing items)
    (hw : WfListing (decide (b! "-plt" ∈ e.args)) {} items) (hs : ∀ c ∈ renderListing items, 32 ≤ c ∨ c = 9 ∨ c = 10) :
    ∃ out dropped, mainProgram e n = some ⟨out, 0, none⟩ ∧
      let b := pages (decide (b! "-library_functions" ∈ e.args)) (decide (b! "-plt" ∈ e.args)) {} {} items
      readJson out = some (documentJson (requestedFilter e.args) b.lines (labelTable 1 b.lines ++ b.extra) (some e.time) dropped) ∧
      (b.lines.length ≤ 5000 → dropped = (items.length : Int) - b.lines.length) := by
  have hm := C48_binary e n hl hi hb
  rw [if_neg ht] at hm
  obtain ⟨h1, h2, -⟩ := C14_listing_all e.L hL (requestedFilter e.args) items hw
  rw [← hin] at h1 h2 hs
  have hj := C20_binary_hex e.L (requestedFilter e.args) (requestedInput e) e.time
    (fun c hc => (hs c hc).imp id fun h => h.imp id .inl) (by
      rw [h1]
      exact pages_hex items hw (by simp [Pages.lines]))
  rw [h2, h1] at hj
  refine ⟨_, ((objParse e.L (requestedFilter e.args) (requestedInput e)).totalLines : Int) -
    (pages (requestedFilter e.args).libraryFunctions (requestedFilter e.args).plt {} {} items).lines.length, hm, hj, ?_⟩
  intro h5
  have h5' : (objParse e.L (requestedFilter e.args) (requestedInput e)).lines.length ≤ 5000 := by rw [h1]; exact h5
  have hc := C05_filtered_count e.L (requestedFilter e.args) (requestedInput e) e.time h5'
  rw [h1, show newlines (requestedInput e) = items.length by rw [hin]; exact newlines_listing items hw] at hc
  refine Eq.trans ?_ hc
  simp [OParser.jsonDoc, JsonDoc.filteredCount, h1]

/-! ### Text mode -/

/-- C71 for text mode, `-outputtext`: whenever the program ends, it ends with exit status 0 and has printed exactly the lines that
are shown; whatever the order of the hash tables, the locale and the clock. -/
theorem C71_text (e : Env) (n : Nat) (r : Result) (hl : e.localeOk = true) (hi : hasInput e.args) (hb : b! "-binary" ∉ e.args)
    (ht : b! "-outputtext" ∈ e.args) (hu : b! "-unused_labels" ∉ e.args)
    (hd : b! "-nocompat" ∈ e.args ∨ b! "-directives" ∉ e.args ∨
      ∀ t ∈ (scan (requestedFilter e.args) (requestedInput e)).shown, ¬ StartsWithOneOf dataDirectives t) (h : mainProgram e n = some r) :
    r.exit = 0 ∧ r.stdout = unlines (collapse (scan (requestedFilter e.args) (requestedInput e)).shown) := by
  obtain ⟨h0, p, hp, h1, -⟩ := C48_text e n hl hi hb r h
  rw [if_pos ht] at h1
  refine ⟨h0, h1.trans ?_⟩
  refine C57_shown_partial e.L (requestedFilter e.args) (requestedInput e) p hp (by simpa [requestedFilter] using hu) ?_
  intro c1 c2
  rcases hd with hd | hd | hd
  · simp only [requestedFilter, decide_eq_true_eq] at c1
    exact absurd hd c1
  · simp only [requestedFilter, decide_eq_true_eq] at c2
    exact absurd c2 hd
  · exact hd

/-- C71 for text mode, JSON: whenever the program ends on an input without control characters other than tab and line feed, it has
printed a JSON document. -/
theorem C71_text_json (e : Env) (n : Nat) (r : Result) (hl : e.localeOk = true) (hi : hasInput e.args) (hb : b! "-binary" ∉ e.args)
    (ht : b! "-outputtext" ∉ e.args) (hs : PlainText (requestedInput e)) (h : mainProgram e n = some r) :
    r.exit = 0 ∧ ∃ p, TextResult e.L (requestedFilter e.args) (requestedInput e) p ∧
      readJson r.stdout = some (documentJson (requestedFilter e.args) (p.lines.map TLine.toAsm) (numberedLabels 1 p.lines)
        (some e.time) ((p.totalLines : Int) - p.lines.length)) := by
  obtain ⟨h0, p, hp, h1, -⟩ := C48_text e n hl hi hb r h
  rw [if_neg ht] at h1
  exact ⟨h0, p, hp, by rw [h1, C20_text e.L _ _ p e.time hp hs]⟩

/-- C71: without `-unused_labels` (and without data, if there is `-directives` in compatibility mode) two runs of the program in text mode with the
same options on the same input print the same, whatever the order of the hash tables. -/
theorem C71_same (e e' : Env) (n n' : Nat) (r r' : Result) (hl : e.localeOk = true) (hi : hasInput e.args)
    (hb : b! "-binary" ∉ e.args) (hu : b! "-unused_labels" ∉ e.args) 
    (hd : b! "-nocompat" ∈ e.args ∨ b! "-directives" ∉ e.args ∨
      ∀ t ∈ (scan (requestedFilter e.args) (requestedInput e)).shown, ¬ StartsWithOneOf dataDirectives t)
    (ha : e'.args = e.args) (hl' : e'.localeOk = true) (hL : e'.L = e.L) (hs : requestedInput e' = requestedInput e)
    (hc : e'.time = e.time) (h : mainProgram e n = some r) (h' : mainProgram e' n' = some r') : r.stdout = r'.stdout := by
  obtain ⟨-, p, hp, h1, -⟩ := C48_text e n hl hi hb r h
  obtain ⟨-, p', hp', h1', -⟩ := C48_text e' n' hl' (ha ▸ hi) (ha ▸ hb) r' h'
  rw [ha, hL, hs] at hp'
  rw [ha, hc] at h1'
  have hx : NoLooseData (requestedFilter e.args) (requestedInput e) := by
    intro c1 c2
    rcases hd with hd | hd | hd
    · simp only [requestedFilter, decide_eq_true_eq] at c1
      exact absurd hd c1
    · simp only [requestedFilter, decide_eq_true_eq] at c2
      exact absurd c2 hd
    · exact hd
  obtain ⟨e1, e2⟩ := C42_partial e.L _ _ p p' hp hp' (by simpa [requestedFilter] using hu) (hx.held e.L)
  rw [h1, h1', e1, e2]

/-- The program ends if the run of the text parser does. -/
theorem program_ends (e : Env) (h : b! "-binary" ∉ e.args → ∃ n r, (TParser.init (requestedFilter e.args)).fromStream e.L e.order n (requestedInput e) [] = some r) :
    ∃ n r, mainProgram e n = some r := by
  by_cases hf : e.localeOk = false ∨ ¬ hasInput e.args
  · obtain ⟨out, ho⟩ := C48_failure e 0 hf
    exact ⟨0, _, ho⟩
  · have hl : e.localeOk = true := by
      cases hl : e.localeOk with
      | true => rfl
      | false => exact absurd (.inl hl) hf
    have hi : hasInput e.args := Classical.byContradiction fun hi => hf (.inr hi)
    by_cases hb : b! "-binary" ∈ e.args
    · exact ⟨0, _, C48_binary e 0 hl hi hb⟩
    · obtain ⟨n, r, hr⟩ := h hb
      refine ⟨n, ?_⟩
      obtain ⟨c1, c2, c3, c4, c5, c6⟩ := C47_switches e.args
      have hin : (if (!decide (b! "-stdin" ∈ e.args)) = true then e.file ((requestedFile e.args).getD []) else e.stdin) = requestedInput e := by
        unfold requestedInput
        by_cases h1 : b! "-stdin" ∈ e.args <;> simp [h1]
      unfold mainProgram
      simp only [hl, c1, c2, c3, c4, c5, c6.2 hi]
      rw [if_neg (by simp), if_neg (by simp), if_neg (by simpa [requestedFilter] using hb), hin, hr]
      exact ⟨_, rfl⟩

/-- C71: the program ends, unless labels refer to each other in a circle with as many references from code as from data. -/
theorem C71_ends (e : Env)
    (h : b! "-binary" ∉ e.args → ∀ a n, ¬ RefChain (seen (requestedFilter e.args) (requestedInput e)) a (n + 1) (n + 1) a) :
    ∃ n r, mainProgram e n = some r :=
  program_ends e fun hb => C41_balanced_partial e.L (requestedFilter e.args) (requestedInput e) e.order [] (h hb)

/-- C71 is violated by all inputs of text mode with a circle of references between different labels that are not in use, with as many
references from code as from data: the program does not end. -/
theorem C71_hangs (e : Env) (hl : e.localeOk = true) (hi : hasInput e.args) (hb : b! "-binary" ∉ e.args) (c : List (Str × Bool))
    (hc : BalancedCircle (RefersTo (seen (requestedFilter e.args) (requestedInput e))) c)
    (hu : ∀ x ∈ c, ¬ InUse (seen (requestedFilter e.args) (requestedInput e)) x.1) (n : Nat) : mainProgram e n = none := by
  have hr := C41_diverges e.L (requestedFilter e.args) (requestedInput e) e.order [] n c hc hu (by simp)
  obtain ⟨c1, c2, c3, c4, c5, c6⟩ := C47_switches e.args
  have hin : (if (!decide (b! "-stdin" ∈ e.args)) = true then e.file ((requestedFile e.args).getD []) else e.stdin) = requestedInput e := by
    unfold requestedInput
    by_cases h1 : b! "-stdin" ∈ e.args <;> simp [h1]
  unfold mainProgram
  simp only [hl, c1, c2, c3, c4, c5, c6.2 hi]
  rw [if_neg (by simp), if_neg (by simp), if_neg (by simpa [requestedFilter] using hb), hin, hr]

/-! ### Examples -/

/-- A run on a listing. -/
def listingEnv : Env := sampleEnv [b! "-binary", b! "-stdin", b! "-library_functions"] (renderListing libItems)

example : listingEnv.localeOk = true ∧ hasInput listingEnv.args ∧ b! "-binary" ∈ listingEnv.args ∧ b! "-outputtext" ∉ listingEnv.args ∧
    requestedInput listingEnv = renderListing libItems ∧ (∀ c ∈ renderListing libItems, 32 ≤ c ∨ c = 9 ∨ c = 10) ∧
    WfListing (decide (b! "-plt" ∈ listingEnv.args)) {} libItems :=
  ⟨rfl, .inl (by decide), by decide, by decide, rfl, by decide +kernel, libItems_wf⟩

/-- A run in text mode. -/
example : mainProgram (sampleEnv [b! "-stdin", b! "-outputtext", b! "-comment_only", b! "-directives", b! "-nocompat"] visibleSample) 100 =
    some ⟨b! "f:\n" ++ b! "        ret # done\n" ++ b! "\n" ++ b! ".L1:\n" ++ b! "        .long   f\n", 0, none⟩ := by decide +kernel

/-- C71 fails for data that refers to itself in a circle: the program does not end. -/
theorem C71_violation (n : Nat) : mainProgram (sampleEnv [b! "-stdin", b! "-nocompat"] sampleCycle) n = none := by
  unfold mainProgram
  have h1 : (Config.ofArgs [b! "-stdin", b! "-nocompat"]).isConfigured = true := by decide
  have h2 : (Config.ofArgs [b! "-stdin", b! "-nocompat"]).filter = {} := by decide
  have h3 : (Config.ofArgs [b! "-stdin", b! "-nocompat"]).useStdin = true := by decide
  simp only [sampleEnv, h1, h2, h3]
  rw [if_neg (by simp), if_neg (by simp), if_neg (by simp), if_neg (by simp), C41_violation]

end AsmParser

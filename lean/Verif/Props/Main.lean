/-
Properties C47, C48, C49: the command line program and the conversion of lines for output.
-/
import Verif.Proofs.Main
import Verif.Proofs.ObjChars
import Verif.Spec.TextSamples

namespace AsmParser

/-! ### C47 -/

/-- C47: every option sets its own switch, wherever and however often it occurs; the last other argument is the file name. -/
theorem C47_switches (args : List Str) :
    (Config.ofArgs args).filter = requestedFilter args ∧
    (Config.ofArgs args).outputText = decide (b! "-outputtext" ∈ args) ∧
    (Config.ofArgs args).doDebugDump = decide (b! "-debugdump" ∈ args) ∧
    (Config.ofArgs args).useStdin = decide (b! "-stdin" ∈ args) ∧
    (Config.ofArgs args).filename = (requestedFile args).getD [] ∧
    ((Config.ofArgs args).isConfigured = true ↔ hasInput args) := by
  unfold Config.ofArgs
  rw [foldl_arg]
  refine ⟨rfl, rfl, rfl, rfl, rfl, ?_⟩
  unfold hasInput Config.after
  simp

/-- C47 for the whole program: only the set of the options and the last file name matter. -/
theorem C47_order (e : Env) (args : List Str) (n : Nat) (h1 : ∀ a ∈ switches, a ∈ args ↔ a ∈ e.args)
    (h2 : requestedFile args = requestedFile e.args) : mainProgram { e with args } n = mainProgram e n := by
  have hc : Config.ofArgs args = Config.ofArgs e.args := by
    unfold Config.ofArgs
    rw [foldl_arg, foldl_arg]
    unfold Config.after
    rw [h2]
    have h : ∀ a ∈ switches, decide (a ∈ args) = decide (a ∈ e.args) := fun a ha => by
      have := h1 a ha
      by_cases h3 : a ∈ args <;> simp_all
    unfold switches at h
    simp only [List.forall_mem_cons] at h
    obtain ⟨a1, a2, a3, a4, a5, a6, a7, a8, a9, a10, a11, a12, -⟩ := h
    simp only [decide_not, a1, a2, a3, a4, a5, a6, a7, a8, a9, a10, a11, a12]
  unfold mainProgram
  rw [hc]

/-- In particular options can be permuted and repeated. -/
example (e : Env) (n : Nat) :
    mainProgram { e with args := [b! "-directives", b! "other.s", b! "in.s", b! "-outputtext", b! "-directives"] } n =
    mainProgram { e with args := [b! "-outputtext", b! "-directives", b! "in.s"] } n := by
  refine C47_order { e with args := [b! "-outputtext", b! "-directives", b! "in.s"] } _ n ?_ ?_
  · show ∀ a ∈ switches, a ∈ [b! "-directives", b! "other.s", b! "in.s", b! "-outputtext", b! "-directives"] ↔
      a ∈ [b! "-outputtext", b! "-directives", b! "in.s"]
    decide +kernel
  · show requestedFile [b! "-directives", b! "other.s", b! "in.s", b! "-outputtext", b! "-directives"] =
      requestedFile [b! "-outputtext", b! "-directives", b! "in.s"]
    decide +kernel

/-! ### C48 -/

/-- The program fails before reading anything. -/
theorem C48_failure (e : Env) (n : Nat) (h : e.localeOk = false ∨ ¬ hasInput e.args) :
    ∃ out, mainProgram e n = some ⟨out, 1, none⟩ := by
  unfold mainProgram
  simp only
  cases hl : e.localeOk with
  | false => exact ⟨_, rfl⟩
  | true =>
    have hn : ¬ hasInput e.args := by simpa [hl] using h
    have hc : (Config.ofArgs e.args).isConfigured = false := by
      cases hi : (Config.ofArgs e.args).isConfigured with
      | false => rfl
      | true => exact absurd ((C47_switches e.args).2.2.2.2.2.1 hi) hn
    rw [hc]
    exact ⟨_, rfl⟩

/-- C48 in binary mode: the output is that of the objdump parser; it always ends with exit status 0. -/
theorem C48_binary (e : Env) (n : Nat) (hl : e.localeOk = true) (hi : hasInput e.args) (hb : b! "-binary" ∈ e.args) :
    mainProgram e n = some ⟨
      (let p := (OParser.init (requestedFilter e.args)).fromStream e.L (requestedInput e)
       if b! "-outputtext" ∈ e.args then p.outputText else p.outputJson e.time), 0, none⟩ := by
  obtain ⟨c1, c2, c3, c4, c5, c6⟩ := C47_switches e.args
  unfold mainProgram
  simp only [hl, c1, c2, c4, c5, c6.2 hi]
  rw [if_neg (by simp), if_neg (by simp), if_pos (by simpa [requestedFilter] using hb)]
  unfold requestedInput
  by_cases h1 : b! "-stdin" ∈ e.args <;> by_cases h2 : b! "-outputtext" ∈ e.args <;> simp [h1, h2]

/-- C48 in text mode: the text parser runs once, with the iteration orders of the program and nothing left over from earlier parses. -/
theorem C48_run (e : Env) (n : Nat) (hl : e.localeOk = true) (hi : hasInput e.args) (hb : b! "-binary" ∉ e.args) (r : Result)
    (h : mainProgram e n = some r) :
    r.exit = 0 ∧ ∃ p v', (TParser.init (requestedFilter e.args)).fromStream e.L e.order n (requestedInput e) [] = some (p, v') ∧
      r.stdout = (if b! "-outputtext" ∈ e.args then p.outputText else p.outputJson e.time) ∧
      r.debugDump = if b! "-debugdump" ∈ e.args ∧ b! "-stdin" ∉ e.args then some (p.outputDebugJson e.dumpOrder groupDec) else none := by
  obtain ⟨c1, c2, c3, c4, c5, c6⟩ := C47_switches e.args
  unfold mainProgram at h
  simp only [hl, c1, c2, c3, c4, c5, c6.2 hi] at h
  rw [if_neg (by simp), if_neg (by simp), if_neg (by simpa [requestedFilter] using hb)] at h
  have hin : (if (!decide (b! "-stdin" ∈ e.args)) = true then e.file ((requestedFile e.args).getD []) else e.stdin) = requestedInput e := by
    unfold requestedInput
    by_cases h1 : b! "-stdin" ∈ e.args <;> simp [h1]
  rw [hin] at h
  cases hp : (TParser.init (requestedFilter e.args)).fromStream e.L e.order n (requestedInput e) [] with
  | none => rw [hp] at h; simp at h
  | some q =>
    rw [hp] at h
    simp only [Option.some.injEq] at h
    subst h
    refine ⟨rfl, q.1, q.2, rfl, ?_, ?_⟩
    · by_cases h2 : b! "-outputtext" ∈ e.args <;> simp [h2]
    · simp [and_comm]

/-- C48 in text mode: the output is that of the text parser, and the debug dump is written iff it is asked for and the input
is a file. -/
theorem C48_text (e : Env) (n : Nat) (hl : e.localeOk = true) (hi : hasInput e.args) (hb : b! "-binary" ∉ e.args) (r : Result)
    (h : mainProgram e n = some r) :
    r.exit = 0 ∧ ∃ p, TextResult e.L (requestedFilter e.args) (requestedInput e) p ∧
      r.stdout = (if b! "-outputtext" ∈ e.args then p.outputText else p.outputJson e.time) ∧
      r.debugDump = if b! "-debugdump" ∈ e.args ∧ b! "-stdin" ∉ e.args then some (p.outputDebugJson e.dumpOrder groupDec) else none := by
  obtain ⟨h0, p, v', h1, h2⟩ := C48_run e n hl hi hb r h
  exact ⟨h0, p, ⟨e.order, n, [], v', h1⟩, h2⟩

/-- C48: the exit status. -/
theorem C48_exit (e : Env) (n : Nat) (r : Result) (h : mainProgram e n = some r) :
    (r.exit = 1 ↔ e.localeOk = false ∨ ¬ hasInput e.args) ∧ (r.exit = 0 ↔ e.localeOk = true ∧ hasInput e.args) := by
  by_cases hf : e.localeOk = false ∨ ¬ hasInput e.args
  · obtain ⟨out, ho⟩ := C48_failure e n hf
    rw [ho, Option.some.injEq] at h
    subst h
    refine ⟨by simp [hf], ?_⟩
    simp only [Nat.one_ne_zero, false_iff]
    rintro ⟨h1, h2⟩
    rcases hf with h3 | h3
    · rw [h1] at h3; exact absurd h3 (by simp)
    · exact h3 h2
  · have hl : e.localeOk = true := by
      cases hl : e.localeOk with
      | true => rfl
      | false => exact absurd (.inl hl) hf
    have hi : hasInput e.args := Classical.byContradiction fun hi => hf (.inr hi)
    have h0 : r.exit = 0 := by
      by_cases hb : b! "-binary" ∈ e.args
      · rw [C48_binary e n hl hi hb, Option.some.injEq] at h
        subst h
        rfl
      · exact (C48_text e n hl hi hb r h).1
    rw [h0]
    simp [hl, hi]

/-- The environment of an example: arguments and standard input. -/
def sampleEnv (args : List Str) (stdin : Str) : Env :=
  { args, file := fun _ => [], stdin, localeOk := true, L := Locale.utf8, order := Order.id, dumpOrder := DumpOrder.id, time := 0 }

example : mainProgram (sampleEnv [b! "-stdin", b! "-outputtext", b! "-comment_only"] b! "f: # a\n# b\n\tret") 100 =
    some ⟨b! "f: # a\n        ret\n", 0, none⟩ := by decide +kernel

/-- With a debug dump. -/
example : ((mainProgram (sampleEnv [b! "in.s", b! "-debugdump"] []) 100).bind (·.debugDump)).isSome = true := by decide +kernel

example : mainProgram (sampleEnv [b! "-outputtext"] []) 100 = some ⟨b! "Commandline arguments expected\n", 1, none⟩ := by
  decide +kernel

/-! ### C49 -/

/-- C49 (partial): a copy for output of a line whose two alias flags agree is the same line, and copying never changes the
JSON.  Missing: other lines, see `C49_violation`. -/
theorem C49_preserved_partial (l : AsmLine) :
    (l.toView = l ↔ l.isUsedDataThroughAlias = l.isUsedThroughAlias) ∧
    ∀ f : Filter, writeLine f l.toView = writeLine f l := by
  refine ⟨⟨fun h => ?_, fun h => ?_⟩, fun _ => rfl⟩
  · have := congrArg AsmLine.isUsedDataThroughAlias h
    exact this.symm
  · cases l
    simp only at h
    subst h
    rfl

/-- C49 for the program: copying changes no line that binary mode outputs. -/
theorem C49_binary (L : Locale) (f : Filter) (s : Str) :
    (objParse L f s).lines.map AsmLine.toView = (objParse L f s).lines := by
  let Q : AsmLine → Prop := fun l => l.isUsedDataThroughAlias = false ∧ l.isUsedThroughAlias = false
  have h : ∀ l ∈ (objParse L f s).lines, Q l := by
    refine (lines_inv_in (L := L) (f := f) (I := fun _ s => Q s.currentLine) (P := Q) s ⟨rfl, rfl⟩ ?_ ?_ ?_ ?_ ⟨rfl, rfl⟩ ?_ ?_).2
    · intro t st c _ _ h _ _ _ _
      refine step_cases (P := fun s => Q s.currentLine) h ?_ ?_ ?_ ?_ ?_ ?_ ?_ ?_ ?_ ?_ ?_ ?_ ?_ ?_ ?_ ?_ ?_ ?_ ?_ ?_ ?_ <;>
        (intros; exact h)
    · intros; assumption
    · intros; exact ⟨rfl, rfl⟩
    · intros; exact ⟨rfl, rfl⟩
    · intro t st _ _ h _ _ _ _
      unfold OState.finishLine
      simp only
      split <;> exact h
    · intro t st _ _ h _ _ _; exact h
  have e := List.map_congr_left (f := AsmLine.toView) (g := id) fun l hl => ((C49_preserved_partial l).1.2 ((h l hl).1.trans (h l hl).2.symm))
  rw [e, List.map_id]

/-- A line that is used through an alias of its data only loses that flag, and one that is used through an alias gains it. -/
theorem C49_violation : ({ text := b! "a:", isUsedDataThroughAlias := true : AsmLine } : AsmLine).toView.isUsedDataThroughAlias = false ∧
    ({ text := b! "a:", isUsedThroughAlias := true : AsmLine } : AsmLine).toView.isUsedDataThroughAlias = true := ⟨rfl, rfl⟩

end AsmParser

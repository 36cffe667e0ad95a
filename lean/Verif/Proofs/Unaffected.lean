/-
Helper lemmas: fields of the filter that have no influence, in both modes.
-/
import Verif.Proofs.FilterRest
import Verif.Proofs.UsageOrder
import Verif.Model.Objdump

namespace AsmParser

attribute [local irreducible] Re.search Re.fullMatch

/-! ### Text mode -/

theorem remLabel_rest {f g : Filter} (hu : f.unusedLabels = g.unusedLabels) (u : Usage) (r : RemState) (l : TLine) :
    remLabel (f.withRest g) u r l = remLabel f u r l := by
  have e : (f.withRest g).unusedLabels = f.unusedLabels := hu.symm
  unfold remLabel
  rw [e]

theorem remDrop_rest {f g : Filter} (hc : f.compatmode = g.compatmode ∨ f.directives = false) (r : RemState) (b : Bool) (l : TLine) :
    remDrop (f.withRest g) r b l = remDrop f r b l := by
  have e1 : (f.withRest g).compatmode = g.compatmode := rfl
  have e2 : (f.withRest g).directives = f.directives := rfl
  unfold remDrop
  rw [e1, e2]
  rcases hc with hc | hc <;> rw [hc]
  simp

theorem removeLoop_rest {g : Filter} {p : TParser} (hu : p.filter.unusedLabels = g.unusedLabels)
    (hc : p.filter.compatmode = g.compatmode ∨ p.filter.directives = false) (r : RemState) (ls : List TLine) :
    (p.withRest g).removeLoop r ls = p.removeLoop r ls := by
  induction ls generalizing r with
  | nil => rfl
  | cons l ls ih =>
    have e : (p.withRest g).filter = p.filter.withRest g := rfl
    have e2 : (p.withRest g).usage = p.usage := rfl
    have e3 : (p.withRest g).finishKept l = p.finishKept l := rfl
    unfold TParser.removeLoop
    simp only [e, e2, e3, remLabel_rest hu, remDrop_rest hc, ih]

theorem removeUnused_rest {g : Filter} {p : TParser} (hu : p.filter.unusedLabels = g.unusedLabels)
    (hc : p.filter.compatmode = g.compatmode ∨ p.filter.directives = false) : (p.withRest g).removeUnused = p.removeUnused.withRest g := by
  unfold TParser.removeUnused
  rw [removeLoop_rest hu hc]
  rfl

/-- The whole call, if the filters agree on unused labels and on the compatibility mode (or `directives` is not set). -/
theorem fromStream_same (L : Locale) (o : Order) (n : Nat) {f g : Filter} (s : Str) (v : List Str) (hu : f.unusedLabels = g.unusedLabels)
    (hc : f.compatmode = g.compatmode ∨ f.directives = false) :
    (TParser.init (f.withRest g)).fromStream L o n s v = ((TParser.init f).fromStream L o n s v).map fun r => (r.1.withRest g, r.2) := by
  have hf : ∀ (ls : List Str) (p : TParser) (v : List Str) (r : TParser × List Str), TParser.markLoop o n ls p v = some r → r.1.filter = p.filter := by
    intro ls
    induction ls with
    | nil =>
      intro p v r h
      cases h; rfl
    | cons l ls ih =>
      intro p v r h
      unfold TParser.markLoop at h
      simp only at h
      split at h
      · exact ih { p with ub := true } _ _ h
      · split at h
        · cases h
        · rename_i l' _ _
          exact ih { p with lines := p.lines.set ((p.labelsDefined.lookup l).getD 0 - 1) l' } _ _ h
  have hread := read_filter L f s
  rw [fromStream_rest]
  unfold TParser.fromStream
  cases hr : TParser.markLabelUsage o n ((TParser.init f).readStream L s).filterNonLabels v with
  | none => rfl
  | some r =>
    have := (hf _ _ _ _ hr).trans hread
    simp only [Option.map_some]
    rw [removeUnused_rest (by rw [this]; exact hu) (by rw [this]; exact hc)]

/-! ### Binary mode -/

/-- The filter with the fields of `g` that binary mode does not look at. -/
def Filter.withTextPart (f g : Filter) : Filter := { g with plt := f.plt, libraryFunctions := f.libraryFunctions }

def OParser.withRest (g : Filter) (p : OParser) : OParser := { p with filter := p.filter.withTextPart g }

theorem oremove_rest (g : Filter) (p : OParser) : (p.withRest g).maybeRemoveLastFunction = p.maybeRemoveLastFunction.withRest g := by
  have e : (p.withRest g).labels = p.labels := rfl
  have e2 : (p.withRest g).lines = p.lines := rfl
  unfold OParser.maybeRemoveLastFunction
  simp only [e, e2]
  split
  · rfl
  · split <;> rfl

/-- The end of `OParser.label`. -/
def OParser.labelEnd (p : OParser) : OParser :=
  let p := { p with st := { p.st with
    ignoreUntilNextLabel := shouldIgnoreFunction p.st.text p.filter } }
  if p.st.ignoreUntilNextLabel then p
  else
    { p with
      st := { p.st with
        previousLabel := p.st.text
        currentLine := { p.st.currentLine with label := p.st.text, isLabel := true }
        text := p.st.text ++ b! ":" }
      labels := p.labels ++ [(p.st.text, p.lines.length + 1)] }

theorem label_end (p : OParser) : p.label = if p.st.text.isEmpty then { p with st := { p.st with inLabel := false } }
    else
      let q := match getLabelFromObjdumpLabel p.st.text with
        | some l => { p with st := { p.st with text := l } }
        | none => p
      (if q.filter.libraryFunctions then q.maybeRemoveLastFunction else q).labelEnd := rfl

theorem labelEnd_rest (g : Filter) (p : OParser) : (p.withRest g).labelEnd = p.labelEnd.withRest g := by
  have e : (p.withRest g).st = p.st := rfl
  have e3 : shouldIgnoreFunction p.st.text (p.withRest g).filter = shouldIgnoreFunction p.st.text p.filter := rfl
  unfold OParser.labelEnd
  simp only [e, e3]
  cases shouldIgnoreFunction p.st.text p.filter <;> rfl

theorem olabel_rest (g : Filter) (p : OParser) : (p.withRest g).label = p.label.withRest g := by
  have key : ∀ q : OParser, (if q.filter.libraryFunctions then (q.withRest g).maybeRemoveLastFunction else q.withRest g).labelEnd =
      (if q.filter.libraryFunctions then q.maybeRemoveLastFunction else q).labelEnd.withRest g := by
    intro q
    rw [oremove_rest, ← labelEnd_rest]
    split <;> rfl
  rw [label_end, label_end]
  have e : (p.withRest g).st.text = p.st.text := rfl
  rw [e]
  cases p.st.text.isEmpty with
  | true => rfl
  | false =>
    cases getLabelFromObjdumpLabel p.st.text with
    | none => exact key p
    | some l => exact key { p with st := { p.st with text := l } }

theorem oeol_rest (g : Filter) (p : OParser) : (p.withRest g).eol = p.eol.withRest g := by
  have ht : ∀ p : OParser, (p.withRest g).eolTail = p.eolTail.withRest g := by
    intro p
    have e : (p.withRest g).st = p.st := rfl
    have e2 : (p.withRest g).lines = p.lines := rfl
    unfold OParser.eolTail
    simp only [e, e2]
    split
    · rfl
    · split
      · rfl
      · split
        · split <;> rfl
        · rfl
  let q : OParser := { p with totalLines := p.totalLines + 1 }
  show (if q.st.inLabel then (q.withRest g).label else q.withRest g).eolTail = (if q.st.inLabel then q.label else q).eolTail.withRest g
  rw [olabel_rest, ← ht]
  split <;> rfl

theorem ofeed_rest (L : Locale) (g : Filter) (p : OParser) (c : Byte) : (p.withRest g).feed L c = (p.feed L c).withRest g := by
  have e : (p.withRest g).st = p.st := rfl
  have e2 : OState.step L (p.withRest g).filter p.st c = OState.step L p.filter p.st c := rfl
  unfold OParser.feed
  simp only [e, e2, oeol_rest]
  split
  · rfl
  · split
    · rfl
    · split
      · rfl
      · split <;> rfl

theorem ofold_rest (L : Locale) (g : Filter) (s : Str) (p : OParser) :
    s.foldl (OParser.feed L) (p.withRest g) = (s.foldl (OParser.feed L) p).withRest g := by
  induction s generalizing p with
  | nil => rfl
  | cons c s ih => rw [List.foldl_cons, List.foldl_cons, ofeed_rest, ih]

/-- Binary mode does not look at the other fields. -/
theorem ofromStream_rest (L : Locale) (f g : Filter) (s : Str) :
    (OParser.init (f.withTextPart g)).fromStream L s = ((OParser.init f).fromStream L s).withRest g :=
  ofold_rest L g s { OParser.init f with totalLines := 0, st := { (OParser.init f).st with inAddress := true } }

end AsmParser

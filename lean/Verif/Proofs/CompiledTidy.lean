/-
Helper lemmas: the JSON document for the assembly code that a compiler writes, with the filter for white space.
-/
import Verif.Spec.CompiledTidy
import Verif.Proofs.CompiledLeftJson
import Verif.Props.Tidied

namespace AsmParser

attribute [local irreducible] Re.search Re.fullMatch

/-! ### Lines -/

/-- Put the tidied text into a line of the document. -/
def retext (g : Str → Str) (all : List CLine) : JVal × Bool × Str → JVal
  | (.obj (_ :: src :: rest), b, t) =>
    .obj ((b! "labels", .arr ((if b then (referencesIn (g t)).filter fun r => (labelNames all).contains r.name else []).map refJson)) :: src ::
      rest.dropLast ++ [(b! "text", .str (g t))])
  | (j, _, _) => j

theorem retext_row (g : Str → Str) (f : Filter) (all : List CLine) (pos : Option (Nat × Nat × Nat)) (sect : Str) (rest : List CLine) (y : CLine) :
    retext g all (rowMarked f all pos sect rest y) = rowTidy g f all pos sect rest y := by
  unfold rowMarked rowJson rowTidy retext
  simp only [List.cons_append, List.nil_append, List.dropLast_concat]
  cases y <;> rfl

theorem rowsTidy_gen (g : Str → Str) (f : Filter) (all : List CLine) (x : Found) (xs : List CLine) (s : Spot) (pos : Option (Nat × Nat × Nat))
    (sect : Str) : rowsTidy g f all x s pos sect xs = rowsGen f (rowTidy g f all) x s pos sect xs := by
  induction xs generalizing s pos sect with
  | nil => rfl
  | cons y xs ih => simp only [rowsTidy, rowsGen, ih]

theorem rowsGen_space {α : Type} (f : Filter) (b : Bool) (row : Option (Nat × Nat × Nat) → Str → List CLine → CLine → α) (x : Found)
    (xs : List CLine) (s : Spot) (pos : Option (Nat × Nat × Nat)) (sect : Str) :
    rowsGen { f with whitespace := b } row x s pos sect xs = rowsGen f row x s pos sect xs := by
  induction xs generalizing s pos sect with
  | nil => rfl
  | cons y xs ih => simp only [rowsGen, ih]

theorem retext_line (g : Str → Str) (f : Filter) (all : List CLine) {l l' : TLine} (h : l'.worded = l.worded) (ht : l'.text = g l.text)
    (hl : l'.labels = if l'.isLabel = false ∧ (l'.hasOpcode = true ∨ l'.isData = true) then
      (referencesIn l'.text).filter (fun r => (labelNames all).contains r.name) else []) :
    lineJson f.compatmode (!f.dontMaskFilenames) l'.toAsm = retext g all (l.marked f) := by
  have h1 : l'.isLabel = l.isLabel := (congrArg TLine.isLabel h :)
  have h2 : l'.hasOpcode = l.hasOpcode := (congrArg TLine.hasOpcode h :)
  have h3 : l'.isData = l.isData := (congrArg TLine.isData h :)
  have h4 : l'.sect = l.sect := (congrArg TLine.sect h :)
  have h5 : l'.source = l.source := (congrArg TLine.source h :)
  have h6 : l'.shownSource = l.shownSource := by unfold TLine.shownSource; rw [h5]
  unfold TLine.marked
  rw [line_json, line_json]
  unfold retext
  simp only [List.cons_append, List.nil_append, List.dropLast_concat]
  rw [hl, h1, h2, h3, h4, h6, ht]
  by_cases hd : l.isLabel = false ∧ (l.hasOpcode = true ∨ l.isData = true)
  · simp only [if_pos hd, decide_eq_true hd, if_true]
  · simp only [if_neg hd, decide_eq_false hd, Bool.false_eq_true, if_false]

theorem retext_lines (g : Str → Str) (f : Filter) (all : List CLine) (ls : List TLine) : ∀ ls' : List TLine,
    ls'.map TLine.worded = ls.map TLine.worded → ls'.map TLine.text = ls.map (fun l => g l.text) →
    (∀ l' ∈ ls', l'.labels = if l'.isLabel = false ∧ (l'.hasOpcode = true ∨ l'.isData = true) then
      (referencesIn l'.text).filter (fun r => (labelNames all).contains r.name) else []) →
    ls'.map (fun l => lineJson f.compatmode (!f.dontMaskFilenames) l.toAsm) = ls.map fun l => retext g all (l.marked f) := by
  induction ls with
  | nil =>
    intro ls' h _ _
    cases ls' with
    | nil => rfl
    | cons _ _ => cases h
  | cons l ls ih =>
    intro ls' h ht hl
    cases ls' with
    | nil => cases h
    | cons l' ls' =>
      rw [List.map_cons, List.map_cons, List.cons.injEq] at h ht ⊢
      exact ⟨retext_line g f all h.1 ht.1 (hl l' (by simp)), ih ls' h.2 ht.2 fun x hx => hl x (by simp [hx])⟩

/-! ### The input without what the comments say -/

def CLine.plainRender : CLine → Str
  | .comment .. => b! "##"
  | x => x.render

theorem remark_plain : Remark b! "##" :=
  remark_sample _ ⟨_, _, rfl, by decide⟩ (by decide) (by decide) (by decide)

theorem plain_same (xs : List CLine) (hx : ∀ x ∈ xs, x.Usual) (ha : ∀ x ∈ xs, x.Apart) :
    SameCode false (xs.map CLine.render) (xs.map CLine.plainRender) := by
  induction xs with
  | nil => exact .nil
  | cons x xs ih =>
    have := ih (fun y hy => hx y (by simp [hy])) fun y hy => ha y (by simp [hy])
    have h1 := ha x (by simp)
    have h2 := (no_words (hx x (by simp))).1
    rw [List.map_cons, List.map_cons]
    cases x with
    | comment ind m t => exact .remark h1 remark_plain this
    | _ => exact .line (by rw [h2]; exact this)

theorem plainRender_line {x : CLine} (hx : x.Usual) : 10 ∉ x.plainRender := by
  cases x with
  | comment ind m t => show 10 ∉ b! "##"; decide
  | _ => exact hx.noNewline

theorem plainRender_solid {x : CLine} (hx : x.Usual) : ¬ Blanks x.plainRender := by
  intro hb
  obtain ⟨bs, c, r, e, -, h⟩ := render_first hx
  rcases h with ⟨m, t, rfl, -⟩ | ⟨hn, hc⟩
  · exact absurd (hb c! '#' (show _ ∈ b! "##" by decide)) (by decide)
  · have e' : x.plainRender = x.render := by
      cases x with
      | comment ind m t => cases hn
      | _ => rfl
    refine symbolChar_solid hc (hb c ?_)
    rw [e', e]
    simp

theorem plainRender_even {x : CLine} (ha : x.Apart) {G : Prop} (hG : ¬ G) : EvenlySpaced G x.plainRender := by
  have h : PlainlySpaced False x.plainRender := by
    cases x with
    | comment ind m t => exact ⟨[], c! '#', b! "#", [], rfl, by decide, by unfold Space; decide, by decide, by decide, .inl rfl, .inl (by decide)⟩
    | _ => exact ha
  exact fun ws sp t h1 h2 => h.even ws sp t h1 (h2.imp id fun g => (hG g).elim)

theorem plain_even {xs : List CLine} (hx : ∀ x ∈ xs, x.Usual) (ha : ∀ x ∈ xs, x.Apart) : EvenInput (unlines (xs.map CLine.plainRender)) := by
  unfold EvenInput
  rw [inputLines_unlines _ (fun l hl => by obtain ⟨x, hm, rfl⟩ := List.mem_map.1 hl; exact plainRender_line (hx x hm))]
  intro l hl _
  obtain ⟨x, hm, rfl⟩ := List.mem_map.1 hl
  refine plainRender_even (ha x hm) ?_
  rintro ⟨b, hb, -, h2⟩
  obtain ⟨y, hy, rfl⟩ := List.mem_map.1 hb
  exact plainRender_solid (hx y hy) h2

end AsmParser

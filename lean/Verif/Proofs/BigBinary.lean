import Verif.Proofs.JsonSize
import Verif.Proofs.BigJson
import Verif.Proofs.Ignore
import Verif.Props.ObjPages

/-
Helper lemmas for C98: an input for which the JSON output of binary mode is long.
-/

namespace AsmParser

attribute [local irreducible] Re.search Re.fullMatch

/-- `n` pairs of angle brackets. -/
def angles (n : Nat) : Str := (List.replicate n b! "<>").flatten

/-- The state in the text of the instruction. -/
def ffState (t : Str) (refs : List AsmLabel) : OState := { text := t, currentLine := { address := some 0, labels := refs } }

/-- The state after an opening bracket. -/
def ffOpen (t : Str) (refs : List AsmLabel) : OState :=
  { text := t, currentLine := { address := some 0, labels := refs }, inSomethingWithALabel := true, currentLabelReference := ⟨[], 1, 0⟩ }

theorem angles_ignore (f : Filter) (hf : f.plt = false) (t : Str) : shouldIgnoreFunction (c! '<' :: t) f = false := by
  rw [shouldIgnore_false, hf]
  rintro (⟨r, h⟩ | ⟨r, h⟩ | h | ⟨h, -⟩)
  · simp at h
  · simp at h
  · have : ∀ n ∈ startupNames, n.head? ≠ some c! '<' := by decide
    exact this _ h rfl
  · cases h

theorem ff_length (t : Str) : ustrlen Locale.utf8 (255 :: t) = 0 := by
  unfold ustrlen
  rw [List.length_cons, ustrlenAux]
  rfl

theorem ff_step (t : Str) (refs : List AsmLabel) (p : OParser) (hp : p.filter = {}) (hs : p.st = ffState (255 :: t) refs)
    (ht : t = [] ∨ ∃ u, t = c! '<' :: u) :
    (b! "<>").foldl (OParser.feed Locale.utf8) p =
      { p with st := ffState (255 :: (t ++ b! "<>")) (refs ++ [⟨t ++ b! "<", 1, 0⟩]) } := by
  have hi : shouldIgnoreFunction (t ++ b! "<") {} = false := by
    rcases ht with rfl | ⟨u, rfl⟩
    · exact angles_ignore {} rfl []
    · exact angles_ignore {} rfl (u ++ b! "<")
  obtain ⟨filter, st, lines, labels, rep, tot⟩ := p
  simp only at hp hs
  subst hp hs
  have hl : ∀ u : Str, ustrlen Locale.utf8 (255 :: u) = 0 := ff_length
  have e1 : OParser.feed Locale.utf8 ⟨{}, ffState (255 :: t) refs, lines, labels, rep, tot⟩ c! '<' =
      ⟨{}, ffOpen (255 :: (t ++ b! "<")) refs, lines, labels, rep, tot⟩ := by
    simp [OParser.feed, OState.step, OState.stepText, OState.append, ffState, ffOpen, hl]
  have e2 : OParser.feed Locale.utf8 ⟨{}, ffOpen (255 :: (t ++ b! "<")) refs, lines, labels, rep, tot⟩ c! '>' =
      ⟨{}, ffState (255 :: (t ++ b! "<>")) (refs ++ [⟨t ++ b! "<", 1, 0⟩]), lines, labels, rep, tot⟩ := by
    simp [OParser.feed, OState.step, OState.stepText, OState.append, OState.labelref, ffState, ffOpen, hl, hi]
  rw [List.foldl_cons, List.foldl_cons, List.foldl_nil, e1, e2]

/-- The references after `n` pairs. -/
def anglesRefs : Nat → List AsmLabel
  | 0 => []
  | n + 1 => anglesRefs n ++ [⟨angles n ++ b! "<", 1, 0⟩]

theorem angles_succ (n : Nat) : angles (n + 1) = angles n ++ b! "<>" := by
  unfold angles
  rw [List.replicate_succ', List.flatten_append]
  rfl

theorem angles_length (n : Nat) : (angles n).length = 2 * n := by
  induction n with
  | zero => rfl
  | succ n ih => rw [angles_succ, List.length_append, ih]; simp only [List.length_cons, List.length_nil]; omega

theorem angles_head (n : Nat) : angles n = [] ∨ ∃ u, angles n = c! '<' :: u := by
  cases n with
  | zero => exact .inl rfl
  | succ n => exact .inr ⟨_, by unfold angles; rw [List.replicate_succ]; rfl⟩

theorem anglesRefs_size (n : Nat) : ((anglesRefs n).map fun r => r.name.length).sum = n * n := by
  induction n with
  | zero => rfl
  | succ n ih =>
    rw [anglesRefs, List.map_append, List.sum_append, ih]
    simp only [List.map_cons, List.map_nil, List.sum_cons, List.sum_nil, List.length_append, angles_length, List.length_cons, List.length_nil,
      Nat.add_mul, Nat.mul_add]
    omega

theorem angles_fold (n : Nat) (p : OParser) (hp : p.filter = {}) (hs : p.st = ffState [255] []) :
    (angles n).foldl (OParser.feed Locale.utf8) p = { p with st := ffState (255 :: angles n) (anglesRefs n) } := by
  induction n with
  | zero =>
    show p = _
    rw [show anglesRefs 0 = [] from rfl, show angles 0 = [] from rfl, ← hs]
  | succ n ih =>
    rw [angles_succ, List.foldl_append, ih]
    exact ff_step (angles n) (anglesRefs n) { p with st := ffState (255 :: angles n) (anglesRefs n) } hp rfl (angles_head n)

theorem angles_parse (n : Nat) : objParse Locale.utf8 {} (b! "0:" ++ [255] ++ angles n ++ b! "\n") =
    { filter := {}, lines := [(ffState (255 :: angles n) (anglesRefs n)).finishLine], totalLines := 1,
      st := (ffState (255 :: angles n) (anglesRefs n)).commonReset } := by
  unfold objParse OParser.fromStream
  rw [List.foldl_append, List.foldl_append]
  have e : (b! "0:" ++ [255]).foldl (OParser.feed Locale.utf8)
      { OParser.init {} with totalLines := 0, st := { (OParser.init {}).st with inAddress := true } } =
      { filter := {}, st := ffState [255] [] } := by decide +kernel
  rw [e, angles_fold n _ rfl rfl]
  rfl

theorem refs_size (f : Filter) (l : AsmLine) : (l.labels.map fun r => r.name.length).sum ≤ (writeLine f l).length := by
  have h1 := sepBy_size b! "," (l.labels.map fun r => writeLabelRef r)
  rw [List.map_map] at h1
  have h2 := sums_le (fun r : AsmLabel => r.name.length) (List.length ∘ fun r => writeLabelRef r) l.labels fun r _ => by
    have := escape_size r.name
    simp only [Function.comp, writeLabelRef, strValue, List.length_append]
    omega
  have h3 : (sepBy b! "," (l.labels.map fun r => writeLabelRef r)).length ≤ (writeLabelArray l).length := by
    show (sepBy b! "," (l.labels.map writeLabelRef)).length ≤ _
    unfold writeLabelArray
    simp only [List.length_append]
    omega
  unfold writeLine
  simp only [List.length_append]
  omega

end AsmParser

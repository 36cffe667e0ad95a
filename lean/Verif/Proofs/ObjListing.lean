/-
Helper lemmas for C14: reading the lines of a well-formed listing.
-/
import Verif.Proofs.Ignore
import Verif.Proofs.ObjInstr
import Verif.Proofs.ObjRefs
import Verif.Proofs.ObjLibrary
import Verif.Spec.Listing

namespace AsmParser

theorem leftOut_eq (f : Filter) (n : Str) : leftOut f.plt n = shouldIgnoreFunction n f := by
  unfold leftOut
  cases h : shouldIgnoreFunction n f
  · have := (shouldIgnore_false n f).1 h; simpa using this
  · have := (shouldIgnore_iff n f).1 h; simpa using this

/-- The part of an instruction line that is being read. -/
inductive M where
  | opc | txt | ref (start : Nat) | com | rel

def M.isOpc : M → Bool | .opc => true | _ => false
def M.isRef : M → Bool | .ref _ => true | _ => false
def M.isCom : M → Bool | .com => true | _ => false
def M.isRel : M → Bool | .rel => true | _ => false

/-- The state behind the colon of an instruction line: mode `m`, text `t`, line `l` so far. -/
structure MS (c : Ctx) (l : AsmLine) (t : Str) (m : M) (s : OState) : Prop where
  addr : s.inAddress = false
  lab : s.inLabel = false
  opc : s.inOpcodes = m.isOpc
  rel : s.inRelocation = m.isRel
  secs : s.inSectionStart = false
  srcr : s.inSourceRef = false
  srcl : s.inSourceRefLineNumber = false
  skip : s.skipRestOfTheLine = false
  stop : s.stopParsing = false
  com : s.inComment = m.isCom
  inref : s.inSomethingWithALabel = m.isRef
  start : ∀ st, m = .ref st → s.currentLabelReference.startCol = st
  name : s.currentLabelReference.name = []
  line : s.currentLine = l
  text : s.text = t
  sect : s.currentSection = c.sect
  source : s.currentSourceRef = c.source
  ign : s.ignoreUntilNextLabel = c.ign
  ub : s.ub = false

variable {L : Locale} {f : Filter} {c : Ctx} {l : AsmLine} {t : Str} {s : OState}

/-! ### Text mode -/

theorem MS.plain1 (h : MS c l t .txt s) {ch : Byte} (h1 : ch ≠ c! '<') (h2 : ch ≠ c! '#')
    (hne : t ≠ [] ∨ isWhitespace ch = false) : MS c l (t ++ [ch]) .txt (s.step L f ch) := by
  obtain ⟨a1, a2, a3, a4, a5, a6, a7, a8, a9, a10, a11, a12, a13, a14, a15, a16, a17, a18, a19⟩ := h
  simp only [M.isOpc, M.isRel, M.isCom, M.isRef] at *
  have e : s.step L f ch = { s with text := s.text ++ [ch] } := by
    have : ¬ ((isWhitespace ch && s.text.isEmpty) = true) := by rcases hne with h | h <;> simp [a15, h]
    simp [OState.step, a1, a2, a3, a4, a5, a6, OState.stepText, a10, h1, h2, a11, OState.append, this]
  rw [e]
  constructor <;> simp_all [M.isOpc, M.isRel, M.isCom, M.isRef]

theorem MS.pad1 (h : MS c l [] .txt s) {ch : Byte} (hw : isWhitespace ch = true) : MS c l [] .txt (s.step L f ch) := by
  obtain ⟨a1, a2, a3, a4, a5, a6, a7, a8, a9, a10, a11, a12, a13, a14, a15, a16, a17, a18, a19⟩ := h
  simp only [M.isOpc, M.isRel, M.isCom, M.isRef] at *
  have h1 : ch ≠ c! '<' := by rintro rfl; simp [isWhitespace] at hw
  have h2 : ch ≠ c! '#' := by rintro rfl; simp [isWhitespace] at hw
  have e : s.step L f ch = s := by
    simp [OState.step, a1, a2, a3, a4, a5, a6, OState.stepText, a10, h1, h2, a11, OState.append, hw, a15]
  rw [e]
  constructor <;> simp_all [M.isOpc, M.isRel, M.isCom, M.isRef]

theorem MS.hash (h : MS c l t .txt s) : MS c l (t ++ b! "#") .com (s.step L f (c! '#')) := by
  obtain ⟨a1, a2, a3, a4, a5, a6, a7, a8, a9, a10, a11, a12, a13, a14, a15, a16, a17, a18, a19⟩ := h
  simp only [M.isOpc, M.isRel, M.isCom, M.isRef] at *
  have e : s.step L f (c! '#') = { s with inComment := true, text := s.text ++ b! "#" } := by
    simp [OState.step, a1, a2, a3, a4, a5, a6, OState.stepText, a10, OState.append, isWhitespace]
  rw [e]
  constructor <;> simp_all [M.isOpc, M.isRel, M.isCom, M.isRef]

theorem MS.com1 (h : MS c l t .com s) (ht : t ≠ []) (ch : Byte) : MS c l (t ++ [ch]) .com (s.step L f ch) := by
  obtain ⟨a1, a2, a3, a4, a5, a6, a7, a8, a9, a10, a11, a12, a13, a14, a15, a16, a17, a18, a19⟩ := h
  simp only [M.isOpc, M.isRel, M.isCom, M.isRef] at *
  have e : s.step L f ch = { s with text := s.text ++ [ch] } := by
    simp [OState.step, a1, a2, a3, a4, a5, a6, OState.stepText, a10, OState.append, a15, ht]
  rw [e]
  constructor <;> simp_all [M.isOpc, M.isRel, M.isCom, M.isRef]

theorem MS.lt (h : MS c l t .txt s) :
    MS c l (t ++ b! "<") (.ref ((ustrlen L t + 1) % 65536)) (s.step L f (c! '<')) := by
  obtain ⟨a1, a2, a3, a4, a5, a6, a7, a8, a9, a10, a11, a12, a13, a14, a15, a16, a17, a18, a19⟩ := h
  simp only [M.isOpc, M.isRel, M.isCom, M.isRef] at *
  have e : s.step L f (c! '<') = { s with
      inSomethingWithALabel := true
      currentLabelReference := { s.currentLabelReference with startCol := (ustrlen L s.text + 1) % 65536, endCol := 0 }
      text := s.text ++ b! "<" } := by
    simp [OState.step, a1, a2, a3, a4, a5, a6, OState.stepText, a10, OState.append, isWhitespace]
  rw [e]
  constructor <;> simp_all [M.isOpc, M.isRel, M.isCom, M.isRef]

theorem MS.ref1 {st : Nat} (h : MS c l t (.ref st) s) (ht : t ≠ []) {ch : Byte} (h1 : ch ≠ c! '<') (h2 : ch ≠ c! '#')
    (h3 : ch ≠ c! '>') (h4 : ch ≠ c! '+') : MS c l (t ++ [ch]) (.ref st) (s.step L f ch) := by
  obtain ⟨a1, a2, a3, a4, a5, a6, a7, a8, a9, a10, a11, a12, a13, a14, a15, a16, a17, a18, a19⟩ := h
  simp only [M.isOpc, M.isRel, M.isCom, M.isRef] at *
  have e : s.step L f ch = { s with text := s.text ++ [ch] } := by
    simp [OState.step, a1, a2, a3, a4, a5, a6, OState.stepText, a10, a11, h1, h2, h3, h4, OState.append, a15, ht]
  rw [e]
  constructor <;> simp_all [M.isOpc, M.isRel, M.isCom, M.isRef]

/-- The reference that is recorded when a reference starting in column `st` of the text `t` ends. -/
def newRefs (L : Locale) (f : Filter) (ign : Bool) (t : Str) (st : Nat) : List AsmLabel :=
  if ign || decide (t.length < st) || shouldIgnoreFunction (t.drop st) f then []
  else [⟨t.drop st, st, ustrlen L t % 65536⟩]

theorem MS.close {st : Nat} (h : MS c l t (.ref st) s) (ht : t ≠ []) {ch : Byte} (h1 : ch = c! '>' ∨ ch = c! '+') :
    MS c { l with labels := l.labels ++ newRefs L f c.ign t st } (t ++ [ch]) .txt (s.step L f ch) := by
  obtain ⟨a1, a2, a3, a4, a5, a6, a7, a8, a9, a10, a11, a12, a13, a14, a15, a16, a17, a18, a19⟩ := h
  simp only [M.isOpc, M.isRel, M.isCom, M.isRef] at *
  have e : s.step L f ch = { s with
      inSomethingWithALabel := false
      currentLine := { s.currentLine with labels := refLabels L f s }
      currentLabelReference := {}
      text := s.text ++ [ch] } := by
    have lr : s.step L f ch = ({ s with inSomethingWithALabel := false }.labelref L f).append ch := by
      rcases h1 with rfl | rfl <;> simp [OState.step, a1, a2, a3, a4, a5, a6, OState.stepText, a10, a11, a13]
    rw [lr, labelref_eq]
    simp [OState.append, a15, ht, refLabels]
  rw [e]
  have hl : refLabels L f s = l.labels ++ newRefs L f c.ign t st := by
    unfold refLabels newRefs
    rw [a12 st rfl, a15, a18, a14]
    by_cases hc : (c.ign || decide (t.length < st) || shouldIgnoreFunction (t.drop st) f) = true <;> simp [hc]
  constructor <;> simp_all [M.isOpc, M.isRel, M.isCom, M.isRef]

/-! ### Reading strings -/

theorem MS.read1 {m m' : M} {l' : AsmLine} {t' : Str} (h : MS c l t m s) {ch : Byte} (h13 : ch ≠ 13)
    (hs : MS c l' t' m' (s.step L f ch)) : MS c l' t' m' (s.read L f [ch]) := by
  rw [read_one h13 h.skip]; exact hs

theorem MS.plain (h : MS c l t .txt s) {w : Str} (hw : ∀ ch ∈ w, ch ≠ c! '<' ∧ ch ≠ c! '#' ∧ ch ≠ 13)
    (hne : t ≠ [] ∨ ∀ ch, w.head? = some ch → isWhitespace ch = false) : MS c l (t ++ w) .txt (s.read L f w) := by
  induction w generalizing t s with
  | nil => simpa [read_nil] using h
  | cons ch w ih =>
    have h1 := hw ch (by simp)
    rw [read_cons]
    have h2 := h.read1 (L := L) (f := f) h1.2.2 (h.plain1 (L := L) (f := f) h1.1 h1.2.1 (hne.imp id fun h => h ch rfl))
    have := ih h2 (fun c hc => hw c (by simp [hc])) (.inl (by simp))
    simpa using this

theorem MS.pad (h : MS c l [] .txt s) {w : Str} (hw : AllBlank w) : MS c l [] .txt (s.read L f w) := by
  induction w generalizing s with
  | nil => simpa [read_nil] using h
  | cons ch w ih =>
    have h1 := hw ch (by simp)
    rw [read_cons]
    exact ih (h.read1 (by rintro rfl; simp [isWhitespace] at h1) (h.pad1 h1)) (fun c hc => hw c (by simp [hc]))

theorem MS.comment (h : MS c l t .txt s) {w : Str} (hw : w = [] ∨ w.head? = some c! '#') (h13 : (13 : Byte) ∉ w) :
    ∃ m, (m = .txt ∨ m = .com) ∧ MS c l (t ++ w) m (s.read L f w) := by
  have go : ∀ (w t : Str) (s : OState), MS c l t .com s → t ≠ [] → (13 : Byte) ∉ w → MS c l (t ++ w) .com (s.read L f w) := by
    intro w
    induction w with
    | nil => intro t s h _ _; simpa [read_nil] using h
    | cons ch w ih =>
      intro t s h ht h13
      simp only [List.mem_cons, not_or] at h13
      rw [read_cons]
      have := ih _ _ (h.read1 (L := L) (f := f) (fun e => h13.1 e.symm) (h.com1 ht ch)) (by simp) h13.2
      simpa using this
  cases w with
  | nil => exact ⟨.txt, .inl rfl, by simpa [read_nil] using h⟩
  | cons ch w =>
    simp only [reduceCtorEq, List.head?_cons, Option.some.injEq, false_or] at hw
    subst hw
    refine ⟨.com, .inr rfl, ?_⟩
    rw [read_cons]
    simp only [List.mem_cons, not_or] at h13
    have := go w _ _ (h.read1 (L := L) (f := f) (by decide) h.hash) (by simp) h13.2
    simpa using this

theorem MS.refName {st : Nat} (h : MS c l t (.ref st) s) (ht : t ≠ []) {w : Str}
    (hw : ∀ ch ∈ w, ch ≠ c! '<' ∧ ch ≠ c! '#' ∧ ch ≠ c! '>' ∧ ch ≠ c! '+' ∧ ch ≠ 13) :
    MS c l (t ++ w) (.ref st) (s.read L f w) := by
  induction w generalizing t s with
  | nil => simpa [read_nil] using h
  | cons ch w ih =>
    have h1 := hw ch (by simp)
    rw [read_cons]
    have := ih (h.read1 (L := L) (f := f) h1.2.2.2.2 (h.ref1 ht h1.1 h1.2.1 h1.2.2.1 h1.2.2.2.1)) (by simp)
      (fun c hc => hw c (by simp [hc]))
    simpa using this

/-- A whole reference. -/
theorem MS.ref (h : MS c l t .txt s) {name off : Str} (hp : (Piece.ref name off).Wf)
    (h13 : (13 : Byte) ∉ (Piece.ref name off).render) :
    MS c { l with labels := l.labels ++ newRefs L f c.ign (t ++ b! "<" ++ name) ((ustrlen L t + 1) % 65536) }
      (t ++ (Piece.ref name off).render) .txt (s.read L f (Piece.ref name off).render) := by
  obtain ⟨h1, h2, h3⟩ := hp
  simp only [Piece.render, List.mem_append, not_or] at h13
  have hn : ∀ ch ∈ name, ch ≠ c! '<' ∧ ch ≠ c! '#' ∧ ch ≠ c! '>' ∧ ch ≠ c! '+' ∧ ch ≠ 13 := by
    intro ch hc
    have := h1 ch hc
    exact ⟨this.1, this.2.1, this.2.2.1, this.2.2.2, by rintro rfl; exact h13.1.1.2 hc⟩
  have hA := (h.read1 (L := L) (f := f) (by decide) h.lt).refName (L := L) (f := f) (by simp) hn
  have hA' : MS c l (t ++ b! "<" ++ name) (.ref ((ustrlen L t + 1) % 65536)) (s.read L f (b! "<" ++ name)) := by
    rw [read_append]; exact hA
  simp only [Piece.render]
  cases off with
  | nil =>
    have hB := hA'.read1 (L := L) (f := f) (ch := c! '>') (by decide) (hA'.close (by simp) (.inl rfl))
    rw [← read_append] at hB
    simpa using hB
  | cons ch off =>
    simp only [reduceCtorEq, List.head?_cons, Option.some.injEq, false_or] at h2
    subst h2
    have hB := hA'.read1 (L := L) (f := f) (ch := c! '+') (by decide) (hA'.close (by simp) (.inr rfl))
    have hC := hB.plain (L := L) (f := f) (w := off ++ b! ">") (by
      intro ch hc
      simp only [List.mem_append, List.mem_singleton] at hc
      rcases hc with hc | rfl
      · have := h3 ch (by simp [hc])
        exact ⟨this.1, this.2, by rintro rfl; exact h13.1.2 (by simp [hc])⟩
      · decide) (.inl (by simp))
    rw [← read_append, ← read_append] at hC
    simpa using hC

theorem newRefs_eq (hL : L.Ascii) {name : Str} (ha : asciiStr (t ++ b! "<" ++ name)) (hlen : (t ++ b! "<" ++ name).length ≤ 65533) :
    newRefs L f c.ign (t ++ b! "<" ++ name) ((ustrlen L t + 1) % 65536) =
      if c.ign || leftOut f.plt name then [] else [⟨name, t.length + 1, t.length + 1 + name.length⟩] := by
  have h1 : asciiStr t := fun ch hc => ha ch (by simp [hc])
  simp only [List.length_append, List.length_cons, List.length_nil] at hlen
  rw [ustrlen_ascii hL h1, Nat.mod_eq_of_lt (by omega), leftOut_eq]
  have hd : (t ++ b! "<" ++ name).drop (t.length + 1) = name := by
    rw [show t.length + 1 = (t ++ b! "<").length by simp, List.drop_left]
  unfold newRefs
  rw [hd, ustrlen_ascii hL ha]
  have : decide ((t ++ b! "<" ++ name).length < t.length + 1) = false := by simp
  rw [this, Bool.or_false]
  simp only [List.length_append, List.length_cons, List.length_nil]
  rw [Nat.mod_eq_of_lt (by omega)]

/-- The references before the final shift by two columns. -/
def unshift (r : AsmLabel) : AsmLabel := ⟨r.name, r.startCol - 2, r.endCol - 2⟩

theorem MS.pieces (hL : L.Ascii) (ps : List Piece) (hps : ∀ p ∈ ps, p.Wf) (h : MS c l t .txt s)
    (ha : asciiStr (t ++ ps.flatMap Piece.render)) (hlen : (t ++ ps.flatMap Piece.render).length ≤ 65533)
    (h13 : (13 : Byte) ∉ ps.flatMap Piece.render)
    (hne : t ≠ [] ∨ ∀ ch, (ps.flatMap Piece.render).head? = some ch → isWhitespace ch = false) :
    MS c { l with labels := l.labels ++ if c.ign then [] else (pieceRefs f.plt t.length ps).map unshift }
      (t ++ ps.flatMap Piece.render) .txt (s.read L f (ps.flatMap Piece.render)) := by
  induction ps generalizing t s l with
  | nil => simpa [read_nil, pieceRefs] using h
  | cons p ps ih =>
    simp only [List.flatMap_cons, List.mem_append, not_or] at h13 ha hlen hne ⊢
    rw [read_append]
    have hp := hps p (by simp)
    cases p with
    | plain u =>
      have h1 := h.plain (L := L) (f := f) (w := u) (by
        intro ch hc
        have := hp ch hc
        exact ⟨this.1, this.2, by rintro rfl; exact h13.1 hc⟩) (by
        rcases hne with h | h
        · exact .inl h
        · right
          intro ch hc
          refine h ch ?_
          rw [List.head?_append]
          simp [Piece.render, hc])
      by_cases hu : t ++ u = []
      · simp only [List.append_eq_nil_iff] at hu
        obtain ⟨rfl, rfl⟩ := hu
        have := ih (t := []) (s := s) (fun p h => hps p (by simp [h])) (by simpa [read_nil] using h1) (by simpa [Piece.render] using ha)
          (by simpa [Piece.render] using hlen) h13.2 (by simpa [Piece.render] using hne)
        simpa [Piece.render, read_nil, pieceRefs] using this
      · have := ih (t := t ++ u) (fun p h => hps p (by simp [h])) h1 (by simpa [Piece.render] using ha)
          (by simpa [Piece.render] using hlen) h13.2 (.inl hu)
        simpa [Piece.render, pieceRefs] using this
    | ref name off =>
      have h1 := h.ref (L := L) (f := f) hp h13.1
      have hsub : asciiStr (t ++ b! "<" ++ name) := by
        intro ch hc
        refine ha ch ?_
        simp only [List.mem_append, Piece.render] at hc ⊢
        rcases hc with (hc | hc) | hc
        · exact .inl hc
        · exact .inr (.inl (.inl (.inl (.inl hc))))
        · exact .inr (.inl (.inl (.inl (.inr hc))))
      rw [newRefs_eq (f := f) (c := c) hL hsub (by simp [Piece.render] at hlen ⊢; omega)] at h1
      have := ih (t := t ++ (Piece.ref name off).render) (fun p h => hps p (by simp [h])) h1 (by simpa using ha)
        (by simpa using hlen) h13.2 (.inl (by simp [Piece.render]))
      have e : (if c.ign || leftOut f.plt name then [] else [(⟨name, t.length + 1, t.length + 1 + name.length⟩ : AsmLabel)]) ++
          (if c.ign then [] else (pieceRefs f.plt (t ++ (Piece.ref name off).render).length ps).map unshift) =
          if c.ign then [] else (pieceRefs f.plt t.length (.ref name off :: ps)).map unshift := by
        cases c.ign
        · cases hl : leftOut f.plt name
          · simp only [pieceRefs, unshift, hl, Bool.or_self, Bool.false_eq_true, ↓reduceIte, List.map_append, List.map_cons,
              List.map_nil, List.length_append]
            congr 3
            omega
          · simp [pieceRefs, hl]
        · simp
      rw [← e]
      simpa using this

/-- The text of an instruction. -/
theorem MS.instrText (hL : L.Ascii) {x : InstrText} (hx : x.Wf) (h : MS c l [] .txt s) (hl : l.labels = []) :
    ∃ m, (m = .txt ∨ m = .com) ∧
    MS c { l with labels := if c.ign then [] else (pieceRefs f.plt 0 x.pieces).map unshift } x.render m (s.read L f x.render) := by
  obtain ⟨h1, h2, h3, h4, h5⟩ := hx
  have hr : x.render = x.pieces.flatMap Piece.render ++ x.comment := rfl
  obtain ⟨c0, cs, h4, h4'⟩ := h4
  have hA := h.pieces (f := f) hL x.pieces h1 (by
      intro ch hc
      have := h3 ch (by rw [hr]; simp at hc ⊢; exact .inl hc)
      exact ⟨this.1, this.2.1⟩)
    (by rw [hr] at h5; simp at h5 ⊢; omega)
    (by intro hc; exact (h3 13 (by rw [hr]; simp at hc ⊢; exact .inl hc)).2.2.2 rfl)
    (by
      right
      intro ch hc
      rw [hr] at h4
      cases hp : x.pieces.flatMap Piece.render with
      | nil => rw [hp] at hc; cases hc
      | cons a as =>
        rw [hp] at hc h4
        simp at hc h4
        rw [← hc, h4.1]; exact h4')
  obtain ⟨m, hm, hB⟩ := hA.comment (L := L) (f := f) h2 (by
    intro hc; exact (h3 13 (by rw [hr]; simp [hc])).2.2.2 rfl)
  refine ⟨m, hm, ?_⟩
  rw [← read_append] at hB
  simpa [hr, hl] using hB

theorem pieceRefs_shift (plt : Bool) (ps : List Piece) (n : Nat) (hn : n + (ps.flatMap Piece.render).length ≤ 65533) :
    ((pieceRefs plt n ps).map unshift).map (fun r => { r with startCol := addCols r.startCol, endCol := addCols r.endCol }) =
      pieceRefs plt n ps := by
  induction ps generalizing n with
  | nil => rfl
  | cons p ps ih =>
    simp only [List.flatMap_cons, List.length_append] at hn
    cases p with
    | plain t =>
      simp only [pieceRefs]
      exact ih _ (by simp [Piece.render] at hn ⊢; omega)
    | ref name off =>
      simp only [pieceRefs, List.map_append]
      rw [ih _ (by omega)]
      congr 1
      have hl : (Piece.ref name off).render.length = name.length + off.length + 2 := by simp [Piece.render]; omega
      cases leftOut plt name
      · simp only [Bool.false_eq_true, ↓reduceIte, List.map_cons, List.map_nil, unshift, addCols]
        rw [Nat.mod_eq_of_lt (by omega), Nat.mod_eq_of_lt (by omega)]
        congr 2
        omega
      · rfl

/-! ### Opcode bytes and relocations -/

theorem MS.gap (h : MS c l [] .opc s) {w : Str} (hw : AllBlank w) : MS c l [] .opc (s.read L f w) := by
  induction w generalizing s with
  | nil => simpa [read_nil] using h
  | cons ch w ih =>
    have h1 := hw ch (by simp)
    rw [read_cons]
    refine ih (h.read1 (by rintro rfl; simp [isWhitespace] at h1) ?_) (fun c hc => hw c (by simp [hc]))
    have e : s.step L f ch = s := by
      have hw' : (ch == c! ' ' || ch == 9) = true := h1
      simp only [OState.step, h.addr, h.lab, h.opc, M.isOpc, OState.stepOpcodes, hw', h.text]
      simp
    rw [e]; exact h

theorem MS.hex (h : MS c l t .opc s) {w : Str} (hw : ∀ ch ∈ w, isHex ch = true) : MS c l (t ++ w) .opc (s.read L f w) := by
  induction w generalizing s t with
  | nil => simpa [read_nil] using h
  | cons ch w ih =>
    have h1 := hw ch (by simp)
    rw [read_cons]
    have e : s.step L f ch = { s with text := s.text ++ [ch] } := by
      have h2 : ch ≠ c! ' ' := by rintro rfl; cases h1
      have h3 : ch ≠ 9 := by rintro rfl; cases h1
      have h4 : ch ≠ c! 'R' := by rintro rfl; cases h1
      have h5 : isWhitespace ch = false := by simp [isWhitespace]; exact ⟨h2, h3⟩
      simp [OState.step, h.addr, h.lab, h.opc, M.isOpc, OState.stepOpcodes, h2, h3, h4, h1, OState.append, h5]
    have := ih (t := t ++ [ch]) (s := s.read L f [ch]) (h.read1 (by rintro rfl; cases h1) (by
      rw [e]
      obtain ⟨a1, a2, a3, a4, a5, a6, a7, a8, a9, a10, a11, a12, a13, a14, a15, a16, a17, a18, a19⟩ := h
      constructor <;> simp_all)) (fun c hc => hw c (by simp [hc]))
    simpa using this

theorem MS.byte (h : MS c l t .opc s) {w : Str} (hw : ∀ ch ∈ w, isHex ch = true) (hne : w ≠ []) :
    MS c l (t ++ (w ++ b! " ")) .opc (s.read L f (w ++ b! " ")) := by
  have h1 := h.hex (L := L) (f := f) hw
  rw [read_append, ← List.append_assoc]
  refine h1.read1 (by decide) ?_
  generalize s.read L f w = s' at h1 ⊢
  have hl : (t ++ w).getLast? ≠ some c! ' ' := by
    rw [List.getLast?_append, List.getLast?_eq_some_getLast hne, Option.some_or, ← List.getLast?_eq_some_getLast hne]
    intro hc
    have := hw _ (List.mem_of_getLast? hc)
    cases this
  have hne' : t ++ w ≠ [] := by simp [hne]
  have e : s'.step L f (c! ' ') = { s' with text := s'.text ++ b! " " } := by
    have htx := h1.text
    have : (s'.text.getLast? == some c! ' ') = false := by rw [htx]; simpa using hl
    have h3 : s'.text.isEmpty = false := by rw [htx]; simp [hne]
    simp [OState.step, h1.addr, h1.lab, h1.opc, M.isOpc, OState.stepOpcodes, this, h3, OState.append]
  rw [e]
  obtain ⟨a1, a2, a3, a4, a5, a6, a7, a8, a9, a10, a11, a12, a13, a14, a15, a16, a17, a18, a19⟩ := h1
  constructor <;> simp_all

theorem MS.bytes (h : MS c l t .opc s) {bs : List Str} (hb : ∀ b ∈ bs, b ≠ [] ∧ ∀ c ∈ b, isHex c = true) :
    MS c l (t ++ bs.flatMap (· ++ b! " ")) .opc (s.read L f (bs.flatMap (· ++ b! " "))) := by
  induction bs generalizing s t with
  | nil => simpa [read_nil] using h
  | cons b bs ih =>
    have h1 := hb b (by simp)
    rw [List.flatMap_cons, read_append]
    have := ih (h.byte (L := L) (f := f) h1.2 h1.1) (fun b hm => hb b (by simp [hm]))
    simpa using this

theorem splitOpcodes_word {w rest cur : Str} (hw : ∀ ch ∈ w, isHex ch = true) :
    splitOpcodes cur (w ++ rest) = splitOpcodes (cur ++ w) rest := by
  induction w generalizing cur with
  | nil => simp
  | cons ch w ih =>
    have h1 := hw ch (by simp)
    have h2 : (ch != c! ' ') = true := by simp; rintro rfl; cases h1
    rw [List.cons_append, splitOpcodes, h2]
    simp only [↓reduceIte]
    rw [ih (fun c hc => hw c (by simp [hc]))]
    simp

theorem splitOpcodes_bytes {bs : List Str} (hb : ∀ b ∈ bs, b ≠ [] ∧ ∀ c ∈ b, isHex c = true) :
    splitOpcodes [] (bs.flatMap (· ++ b! " ")) = bs := by
  induction bs with
  | nil => rfl
  | cons b bs ih =>
    have h1 := hb b (by simp)
    rw [List.flatMap_cons, List.append_assoc, splitOpcodes_word h1.2]
    have : ([] ++ b).isEmpty = false := by simp [h1.1]
    simp only [List.nil_append, List.cons_append, splitOpcodes]
    simp only [bne_self_eq_false, Bool.false_eq_true, ↓reduceIte]
    rw [ih (fun b hm => hb b (by simp [hm]))]
    simp [h1.1]

theorem MS.sep {bs : List Str} (h : MS c l (bs.flatMap (· ++ b! " ")) .opc s) (hb : IsBytes bs) {ch : Byte}
    (hw : isWhitespace ch = true) :
    MS c { l with opcodes := if c.ign then l.opcodes else l.opcodes ++ bs } [] .txt (s.read L f [ch]) := by
  refine h.read1 (by rintro rfl; simp [isWhitespace] at hw) ?_
  have hlast : (bs.flatMap (· ++ b! " ")).getLast? = some c! ' ' := by
    obtain ⟨bs', b, rfl⟩ : ∃ bs' b, bs = bs' ++ [b] := ⟨_, _, (List.dropLast_concat_getLast hb.1).symm⟩
    simp [List.flatMap_append]
  have e : s.step L f ch = s.opcodes := by
    have hw' : (ch == c! ' ' || ch == 9) = true := hw
    have h3 : s.text.isEmpty = false := by rw [h.text, List.isEmpty_eq_false_iff]; intro e; rw [e] at hlast; cases hlast
    have h4 : s.text.getLast? = some c! ' ' := by rw [h.text, hlast]
    simp only [OState.step, h.addr, h.lab, h.opc, M.isOpc, OState.stepOpcodes, hw', h3, h4]
    simp
  rw [e]
  have hsp := splitOpcodes_bytes hb.2
  obtain ⟨a1, a2, a3, a4, a5, a6, a7, a8, a9, a10, a11, a12, a13, a14, a15, a16, a17, a18, a19⟩ := h
  unfold OState.opcodes
  cases hi : c.ign <;> rw [hi] at a18 <;> constructor <;> simp_all [M.isOpc, M.isRel, M.isCom, M.isRef]

theorem MS.reloc (h : MS c l [] .opc s) {w : Str} (hw : (13 : Byte) ∉ w) :
    MS c l (b! "   R" ++ w.map (fun ch => if ch = 9 then 32 else ch)) .rel (s.read L f (b! "R" ++ w)) := by
  have go : ∀ (w t : Str) (s : OState), MS c l t .rel s → t ≠ [] → (13 : Byte) ∉ w →
      MS c l (t ++ w.map (fun ch => if ch = 9 then 32 else ch)) .rel (s.read L f w) := by
    intro w
    induction w with
    | nil => intro t s h _ _; simpa [read_nil] using h
    | cons ch w ih =>
      intro t s h ht h13
      simp only [List.mem_cons, not_or] at h13
      rw [read_cons]
      have e : s.step L f ch = { s with text := s.text ++ [if ch = 9 then 32 else ch] } := by
        have h3 : s.text.isEmpty = false := by rw [h.text, List.isEmpty_eq_false_iff]; exact ht
        by_cases h9 : ch = 9
        · simp [OState.step, h.addr, h.lab, h.opc, M.isOpc, h.rel, M.isRel, OState.stepRelocation, h9]
        · simp [OState.step, h.addr, h.lab, h.opc, M.isOpc, h.rel, M.isRel, OState.stepRelocation, h9, OState.append, h3]
      have h' : MS c l (t ++ [if ch = 9 then 32 else ch]) .rel (s.step L f ch) := by
        rw [e]
        obtain ⟨a1, a2, a3, a4, a5, a6, a7, a8, a9, a10, a11, a12, a13, a14, a15, a16, a17, a18, a19⟩ := h
        constructor <;> simp_all
      have := ih _ _ (h.read1 (L := L) (f := f) (fun e => h13.1 e.symm) h') (by simp) h13.2
      simpa using this
  rw [read_append]
  have e : s.step L f (c! 'R') = { s with inRelocation := true, inOpcodes := false, text := s.text ++ b! "   R" } := by
    simp [OState.step, h.addr, h.lab, h.opc, M.isOpc, OState.stepOpcodes, OState.append]
  refine go w _ _ (h.read1 (by decide) ?_) (by simp) hw
  rw [e]
  obtain ⟨a1, a2, a3, a4, a5, a6, a7, a8, a9, a10, a11, a12, a13, a14, a15, a16, a17, a18, a19⟩ := h
  constructor <;> simp_all [M.isOpc, M.isRel, M.isCom, M.isRef]

/-! ### Between the lines -/

/-- Between two lines, in the context `c`. -/
structure At (c : Ctx) (s : OState) : Prop where
  b : Boundary s
  stop : s.stopParsing = false
  inref : s.inSomethingWithALabel = false
  name : s.currentLabelReference.name = []
  sect : s.currentSection = c.sect
  source : s.currentSourceRef = c.source
  ign : s.ignoreUntilNextLabel = c.ign
  ub : s.ub = false

/-- Behind the colon of an address. -/
theorem At.colon (h : At c s) {ws a : Str} (hws : AllBlank ws) (ha : IsAddr a) :
    MS c { address := if c.ign then none else some (hexVal a) } [] .opc (s.read L f (ws ++ a ++ b! ":")) := by
  obtain ⟨h1, h2, h3⟩ := ha
  rw [read_hex_colon h.b hws h2 h1]
  have hm := h.b.modes.addr h.b.addr
  have hbad : addrBad (s.withText a) = false := addrBad_hex h2
  have hl := addrLoop_hex h2 (by omega)
  rw [wrap32_small (by omega) (by omega)] at hl
  obtain ⟨b1, b2, b3, b4, b5, b6, b7, b8⟩ := h
  simp only [addrDone, hbad]
  constructor <;> simp_all [OState.withText, M.isOpc, M.isRel, M.isCom, M.isRef]

/-- At the end of a line that is no function header. -/
structure Quiet (c : Ctx) (s : OState) : Prop where
  lab : s.inLabel = false ∨ s.text = []
  srcl : s.inSourceRefLineNumber = false
  stop : s.stopParsing = false
  inref : s.inSomethingWithALabel = false
  name : s.currentLabelReference.name = []
  sect : s.currentSection = c.sect
  source : s.currentSourceRef = c.source
  ign : s.ignoreUntilNextLabel = c.ign
  ub : s.ub = false

theorem MS.quiet {m : M} (h : MS c l t m s) (hm : m.isRef = false) : Quiet c s := by
  obtain ⟨a1, a2, a3, a4, a5, a6, a7, a8, a9, a10, a11, a12, a13, a14, a15, a16, a17, a18, a19⟩ := h
  constructor <;> simp_all

theorem Quiet.eol {p : OParser} (h : Quiet c p.st) (hn : p.lines.length < 5000 ∨ c.ign = true ∨ p.st.text = []) :
    At c p.eol.st ∧ p.eol.lines = p.lines ++ if c.ign || p.st.text.isEmpty then [] else [p.st.finishLine] := by
  obtain ⟨b1, b2, b3, b4, b5, b6, b7, b8, b9⟩ := h
  have key : ∀ q : OParser, q.eolTail = p.eol → q.lines = p.lines → q.st.text = p.st.text → q.st.ignoreUntilNextLabel = c.ign →
      q.st.inSourceRefLineNumber = false → q.st.stopParsing = false → q.st.inSomethingWithALabel = false →
      q.st.currentLabelReference.name = [] → q.st.currentSection = c.sect → q.st.currentSourceRef = c.source → q.st.ub = false →
      (p.st.text ≠ [] → q.st.finishLine = p.st.finishLine) →
      At c p.eol.st ∧ p.eol.lines = p.lines ++ if c.ign || p.st.text.isEmpty then [] else [p.st.finishLine] := by
    intro q hq hl ht hi h1 h2 h3 h4 h5 h6 h7 hf
    rw [← hq]
    unfold OParser.eolTail
    rw [hi, h1]
    cases hci : c.ign
    · simp only [Bool.false_eq_true, ↓reduceIte]
      by_cases hte : p.st.text = []
      · have : q.st.text.isEmpty = true := by rw [ht, hte]; rfl
        simp only [this, Bool.not_true, Bool.false_eq_true, ↓reduceIte]
        refine ⟨⟨Boundary.reset _, h2, h3, h4, h5, h6, hi.trans ?_, h7⟩, ?_⟩
        · rfl
        · simp [hte, hl]
      · have : q.st.text.isEmpty = false := by rw [ht]; simpa using hte
        have hlt : q.lines.length < maxLines := by
          rw [hl]
          rcases hn with h | h | h
          · exact h
          · rw [hci] at h; cases h
          · exact absurd h hte
        simp only [this, Bool.not_false, ↓reduceIte, hlt]
        refine ⟨⟨Boundary.reset _, h2, h3, h4, h5, h6, hi.trans ?_, h7⟩, ?_⟩
        · rfl
        · simp [hte, hl, hf hte]
    · simp only [↓reduceIte]
      refine ⟨⟨Boundary.reset _, h2, h3, h4, h5, h6, hi.trans ?_, h7⟩, ?_⟩
      · rfl
      · simp [hl]
  cases hlab : p.st.inLabel
  · refine key { p with totalLines := p.totalLines + 1 } ?_ rfl rfl b8 b2 b3 b4 b5 b6 b7 b9 (fun _ => rfl)
    simp [OParser.eol, hlab]
  · have hte : p.st.text = [] := by rcases b1 with h | h; rw [hlab] at h; cases h; exact h
    refine key { p with totalLines := p.totalLines + 1, st := { p.st with inLabel := false } } ?_ rfl rfl b8 b2 b3 b4 b5 b6 b7 b9
      (fun h => absurd hte h)
    simp [OParser.eol, OParser.label, hlab, hte]

/-- At the end of a line: has a function header been read? -/
def Item.Ends (s : OState) : Item → Prop
  | .header _ n => s.inLabel = true ∧ s.text ≠ [] ∧ labelText s.text = n
  | _ => s.inLabel = true → s.text = []

/-- What one line of the listing does to the parser. -/
def ItemOk (L : Locale) (c : Ctx) (p : OParser) (i : Item) : Prop :=
  At c p.st → i.Wf c.ign → p.filter.libraryFunctions = false → p.lines.length + (c.out p.filter.plt i).length ≤ 5000 →
    let q := (i.render ++ [10]).foldl (OParser.feed L) p
    (At (c.after p.filter.plt i) q.st ∧ q.lines = p.lines ++ c.out p.filter.plt i) ∧
    i.Ends (p.st.read L p.filter i.render)

theorem AllBlank.oneLine {w : Str} (h : AllBlank w) : OneLine w :=
  ⟨fun hm => by have := h _ hm; simp [isWhitespace] at this, fun hm => by have := h _ hm; simp [isWhitespace] at this⟩

theorem hexs_oneLine {w : Str} (h : ∀ c ∈ w, isHex c = true) : OneLine w :=
  ⟨fun hm => by have := h _ hm; simp [isHex] at this, fun hm => by have := h _ hm; simp [isHex] at this⟩

theorem bytes_oneLine {bs : List Str} (hb : ∀ b ∈ bs, b ≠ [] ∧ ∀ c ∈ b, isHex c = true) :
    OneLine (bs.flatMap (· ++ b! " ")) := by
  constructor <;>
  · simp only [List.mem_flatMap, not_exists, not_and, List.mem_append, not_or]
    intro b hm
    exact ⟨by first | exact (hexs_oneLine (hb b hm).2).1 | exact (hexs_oneLine (hb b hm).2).2, by decide⟩

theorem Item.oneLine {i : Item} {ign : Bool} (h : i.Wf ign) : (10 : Byte) ∉ i.render := by
  cases i with
  | blank ws => exact (AllBlank.oneLine h).1
  | note w r => obtain ⟨h1, h2, -⟩ := h; simp [Item.render, h1.2.1.1, h2.1]
  | prose w r => obtain ⟨h1, h2, -⟩ := h; simp [Item.render, h1.2.1.1, h2.1]
  | «section» n r => obtain ⟨_, _, h1, h2⟩ := h; simp [Item.render, h1.1, h2.1]
  | header a n => obtain ⟨h1, h2⟩ := h; simp [Item.render, h2.1, (hexs_oneLine h1.2.1).1]
  | source p l t =>
    obtain ⟨_, _, h1, _, h2, _, h3⟩ := h
    have hd : (10 : Byte) ∉ l := fun hm => by have := h2 _ hm; simp [isDigit] at this
    rcases h3 with rfl | h3
    · simp [Item.render, h1.1, hd]
    · simp [Item.render, h1.1, hd, h3.2.1]
  | instr ws a g bs sep pad x =>
    obtain ⟨h1, h2, h3, h4, h5, h6, h7⟩ := h
    have hs : sep ≠ 10 := by rintro rfl; simp [isWhitespace] at h5
    have hx : (10 : Byte) ∉ x.render := fun hm => (h7.ascii _ hm).2.2.1 rfl
    have hb := (bytes_oneLine h4.2).1
    simp only [Item.render, List.mem_append, not_or, List.mem_singleton]
    exact ⟨⟨⟨⟨⟨⟨⟨h1.oneLine.1, (hexs_oneLine h2.2.1).1⟩, by decide⟩, h3.oneLine.1⟩, hb⟩, hs.symm⟩, h6.oneLine.1⟩, hx⟩
  | more ws a g bs =>
    obtain ⟨h1, h2, h3, h4⟩ := h
    have hb := (bytes_oneLine h4.2).1
    simp only [Item.render, List.mem_append, not_or]
    exact ⟨⟨⟨⟨h1.oneLine.1, (hexs_oneLine h2.2.1).1⟩, by decide⟩, h3.oneLine.1⟩, hb⟩
  | reloc ws a g r =>
    obtain ⟨h1, h2, h3, h4⟩ := h
    simp only [Item.render, List.mem_append, not_or]
    exact ⟨⟨⟨⟨⟨h1.oneLine.1, (hexs_oneLine h2.2.1).1⟩, by decide⟩, h3.oneLine.1⟩, by decide⟩, h4.1⟩

variable {p : OParser}

/-- The end of a quiet line. -/
theorem quiet_item {i : Item} {s' : OState} (hno : i.isHeader = false) (hat : At c p.st) (hwf : i.Wf c.ign)
    (hq : Quiet c s') (hs' : p.st.read L p.filter i.render = s') (hc : c.after p.filter.plt i = c)
    (hout : c.out p.filter.plt i = if c.ign || s'.text.isEmpty then [] else [s'.finishLine])
    (hlen : p.lines.length + (c.out p.filter.plt i).length ≤ 5000) :
    let q := (i.render ++ [10]).foldl (OParser.feed L) p
    (At (c.after p.filter.plt i) q.st ∧ q.lines = p.lines ++ c.out p.filter.plt i) ∧
    i.Ends (p.st.read L p.filter i.render) := by
  intro q
  have hends : i.Ends (p.st.read L p.filter i.render) := by
    have h : (p.st.read L p.filter i.render).inLabel = true → (p.st.read L p.filter i.render).text = [] := by
      rw [hs']
      intro h
      rcases hq.lab with h1 | h1
      · rw [h] at h1; cases h1
      · exact h1
    cases i <;> first | exact h | (cases hno)
  refine ⟨?_, hends⟩
  have e : q = ({ p with st := p.st.read L p.filter i.render } : OParser).eol := feed_readline (Item.oneLine hwf) p hat.stop
  rw [hs'] at e
  have := Quiet.eol (p := { p with st := s' }) hq (by
    dsimp only
    cases hci : c.ign
    · by_cases ht : s'.text = []
      · exact .inr (.inr ht)
      · left
        rw [hout] at hlen
        simp [hci, ht] at hlen
        omega
    · exact .inr (.inl rfl))
  rw [hc, e, hout]
  exact this

theorem item_instr (hL : L.Ascii) {ws a g : Str} {bs : List Str} {sep : Byte} {pad : Str} {x : InstrText} :
    ItemOk L c p (.instr ws a g bs sep pad x) := by
  intro hat hwf _ hlen
  have hwf' := hwf
  obtain ⟨h1, h2, h3, h4, h5, h6, h7⟩ := hwf
  have hms := (((hat.colon (L := L) (f := p.filter) h1 h2).gap (L := L) (f := p.filter) h3).bytes
    (L := L) (f := p.filter) h4.2)
  rw [List.nil_append] at hms
  have hms2 := (hms.sep (L := L) (f := p.filter) h4 h5).pad (L := L) (f := p.filter) h6
  obtain ⟨m, hm, hms3⟩ := hms2.instrText hL (f := p.filter) h7 rfl
  simp only [← read_append] at hms3
  refine quiet_item rfl hat hwf' (hms3.quiet (by rcases hm with rfl | rfl <;> rfl)) rfl rfl ?_ hlen
  rw [hms3.text]
  obtain ⟨c0, cs, hx, _⟩ := h7.first
  have hne : x.render.isEmpty = false := by rw [hx]; rfl
  cases hci : c.ign
  · have hsh := pieceRefs_shift p.filter.plt x.pieces 0 (by have := h7.short; simp [InstrText.render] at this ⊢; omega)
    simp only [Ctx.out, Ctx.emit, hci, hne, Bool.or_self, Bool.false_eq_true, ↓reduceIte, OState.finishLine, hms3.line,
      hms3.text, hms3.sect, hms3.source, hsh, List.nil_append]
  · simp [Ctx.out, hci]

theorem item_more {ws a g : Str} {bs : List Str} : ItemOk L c p (.more ws a g bs) := by
  intro hat hwf _ hlen
  have hwf' := hwf
  obtain ⟨h1, h2, h3, h4⟩ := hwf
  have hms := (((hat.colon (L := L) (f := p.filter) h1 h2).gap (L := L) (f := p.filter) h3).bytes
    (L := L) (f := p.filter) h4.2)
  rw [List.nil_append] at hms
  simp only [← read_append] at hms
  refine quiet_item rfl hat hwf' (hms.quiet rfl) rfl rfl ?_ hlen
  rw [hms.text]
  have hne : (bs.flatMap (· ++ b! " ")).isEmpty = false := by
    obtain ⟨h5, h6⟩ := h4
    cases bs with
    | nil => exact absurd rfl h5
    | cons b bs => simp
  cases hci : c.ign
  · simp only [Ctx.out, Ctx.emit, hci, hne, Bool.or_self, Bool.false_eq_true, ↓reduceIte, OState.finishLine, hms.line,
      hms.text, hms.sect, hms.source, List.map_nil]
  · simp [Ctx.out, hci]

theorem item_reloc {ws a g r : Str} : ItemOk L c p (.reloc ws a g r) := by
  intro hat hwf _ hlen
  have hwf' := hwf
  obtain ⟨h1, h2, h3, h4⟩ := hwf
  have hms := (((hat.colon (L := L) (f := p.filter) h1 h2).gap (L := L) (f := p.filter) h3).reloc
    (L := L) (f := p.filter) h4.2)
  simp only [← read_append, ← List.append_assoc] at hms
  refine quiet_item rfl hat hwf' (hms.quiet rfl) rfl rfl ?_ hlen
  rw [hms.text]
  generalize p.st.read L p.filter _ = s' at hms ⊢
  cases hci : c.ign
  · simp [Ctx.out, Ctx.emit, hci, OState.finishLine, hms.line, hms.text, hms.sect, hms.source]
  · simp [Ctx.out, hci]

theorem item_blank {ws : Str} : ItemOk L c p (.blank ws) := by
  intro hat hwf _ hlen
  have hm := hat.b.modes.addr hat.b.addr
  have e : p.st.read L p.filter ws = p.st := read_addr_ws hat.b.addr hm.2.2.2.2.2.2.2.2.1 hat.b.text hwf
  obtain ⟨b1, b2, b3, b4, b5, b6, b7, b8⟩ := hat
  refine quiet_item (s' := p.st) rfl ⟨b1, b2, b3, b4, b5, b6, b7, b8⟩ hwf ?_ e rfl ?_ hlen
  · exact ⟨.inr b1.text, hm.2.2.2.2.2.2.1, b2, b3, b4, b5, b6, b7, b8⟩
  · simp [Ctx.out, Ctx.emit, b1.text]

theorem addrLoop_notHex_of {w : Str} (hw : ∃ c ∈ w, isHex c = false) (a : AddrAcc) : (addrLoop w a).notHex = true := by
  induction w generalizing a with
  | nil => obtain ⟨c, hc, _⟩ := hw; cases hc
  | cons ch w ih =>
    rw [addrLoop]
    by_cases h : isHex ch = true
    · simp only [h, Bool.not_true, Bool.false_eq_true, ↓reduceIte]
      refine ih ?_ _
      obtain ⟨d, hd, hd'⟩ := hw
      rcases List.mem_cons.1 hd with rfl | hd
      · rw [h] at hd'; cases hd'
      · exact ⟨d, hd, hd'⟩
    · simp [h]

theorem IsWord.firstChars {w : Str} (h : IsWord w) : ∀ ch ∈ w, firstChar ch = true := by
  intro ch hc
  have h1 := h.1 ch hc
  have h2 : ch ≠ 13 := by rintro rfl; exact h.2.1.2 hc
  simp [firstChar, wordChar, h1, h2]

theorem IsWord.ne {w : Str} (h : IsWord w) : w ≠ [] := by
  rintro rfl; obtain ⟨c, hc, _⟩ := h.2.2.1; cases hc

theorem IsWord.slash {w : Str} (h : IsWord w) (s : OState) : slashText (s.withText w) = false := by
  cases w with
  | nil => rfl
  | cons ch w => simpa [slashText, OState.withText] using (h.1 ch (by simp)).2.2.1

theorem read_word_colon (hb : Boundary s) {w : Str} (hw : IsWord w) :
    s.read L f (w ++ b! ":") = addrDone (s.withText w) false := by
  have hk : s.skipRestOfTheLine = false := (hb.modes.addr hb.addr).2.2.2.2.2.2.2.2.1
  have hl : s.inLabel = false := (hb.modes.addr hb.addr).1
  rw [read_append, read_word hb.addr hk hw.firstChars, hb.text, List.nil_append, read_one (by decide) (by exact hk)]
  have e : (s.withText w).inAddress = true := hb.addr
  have := address_done (hw.slash s) (by exact hw.ne)
  have h1 : (c! ':' == c! '/') = false := by decide
  have h2 : (c! ':' == c! ';') = false := by decide
  simp only [OState.step, e, OState.stepAddress, ↓reduceIte, h1, h2, Bool.false_eq_true, beq_self_eq_true]
  rw [this]
  simp [OState.withText, hl]

theorem read_word_ws (hb : Boundary s) {w : Str} (hw : IsWord w) (hd : w ≠ b! "Disassembly") :
    s.read L f (w ++ b! " ") = addrDone (s.withText w) true := by
  have hk : s.skipRestOfTheLine = false := (hb.modes.addr hb.addr).2.2.2.2.2.2.2.2.1
  rw [read_append, read_word hb.addr hk hw.firstChars, hb.text, List.nil_append, read_one (by decide) (by exact hk)]
  have e : (s.withText w).inAddress = true := hb.addr
  have et : (s.withText w).text = w := rfl
  have := address_done (hw.slash s) (by exact hw.ne)
  have h1 : c! ' ' ≠ c! '/' := by decide
  have h2 : c! ' ' ≠ c! ':' := by decide
  have h3 : c! ' ' ≠ c! ';' := by decide
  have hb' : isWhitespace c! ' ' = true := by decide
  simp only [OState.step, e, OState.stepAddress, ↓reduceIte, beq_iff_eq, h1, h2, h3, hb', et, hd]
  rw [this]
  simp [hw.ne, addrDone]

theorem IsWord.bad {w : Str} (h : IsWord w) (hi : s.ignoreUntilNextLabel = false) : addrBad (s.withText w) = true := by
  obtain ⟨ch, h1, h2⟩ := h.2.2.1
  have : (addrLoop w.reverse {}).notHex = true := addrLoop_notHex_of ⟨ch, by simpa using h1, h2⟩ _
  simp [addrBad, OState.withText, hi, this]

/-- Without `<` no reference begins. -/
theorem noref_read (w : Str) (hw : c! '<' ∉ w) (h1 : s.inSomethingWithALabel = false) :
    (s.read L f w).inSomethingWithALabel = false ∧
    (s.read L f w).currentLabelReference = s.currentLabelReference := by
  induction w generalizing s with
  | nil => exact ⟨h1, rfl⟩
  | cons ch w ih =>
    simp only [List.mem_cons, not_or] at hw
    rw [read_cons]
    have key : (s.read L f [ch]).inSomethingWithALabel = false ∧
        (s.read L f [ch]).currentLabelReference = s.currentLabelReference := by
      by_cases hc : (ch == 13 || s.skipRestOfTheLine) = true
      · simp only [OState.read, List.foldl_cons, List.foldl_nil, hc, ↓reduceIte]; exact ⟨h1, trivial⟩
      · simp only [OState.read, List.foldl_cons, List.foldl_nil, hc, Bool.false_eq_true, ↓reduceIte]
        refine step_cases (P := fun s' => s'.inSomethingWithALabel = false ∧ s'.currentLabelReference = s.currentLabelReference)
          ⟨h1, rfl⟩ ?_ ?_ ?_ ?_ ?_ ?_ ?_ ?_ ?_ ?_ ?_ ?_ ?_ ?_ ?_ ?_ ?_ ?_ ?_ ?_ ?_ <;> intros <;>
          first
          | exact ⟨h1, rfl⟩
          | (rename_i h; exact absurd h.symm hw.1)
          | simp_all
    have := ih hw.2 key.1
    exact ⟨this.1, this.2.trans key.2⟩

/-- Behind the first word no function header begins. -/
theorem nolabel_read (w : Str) (h1 : s.inAddress = false) (h2 : s.inLabel = false) :
    (s.read L f w).inAddress = false ∧ (s.read L f w).inLabel = false := by
  induction w generalizing s with
  | nil => exact ⟨h1, h2⟩
  | cons ch w ih =>
    rw [read_cons]
    have key : (s.read L f [ch]).inAddress = false ∧ (s.read L f [ch]).inLabel = false := by
      by_cases hc : (ch == 13 || s.skipRestOfTheLine) = true
      · simp only [OState.read, List.foldl_cons, List.foldl_nil, hc, ↓reduceIte]; exact ⟨h1, h2⟩
      · simp only [OState.read, List.foldl_cons, List.foldl_nil, hc, Bool.false_eq_true, ↓reduceIte]
        refine step_cases (P := fun s' => s'.inAddress = false ∧ s'.inLabel = false)
          ⟨h1, h2⟩ ?_ ?_ ?_ ?_ ?_ ?_ ?_ ?_ ?_ ?_ ?_ ?_ ?_ ?_ ?_ ?_ ?_ ?_ ?_ ?_ ?_ <;> intros <;>
          first
          | exact ⟨h1, h2⟩
          | simp_all
    exact ih key.1 key.2

theorem stop_read (w : Str) : (s.read L f w).stopParsing = s.stopParsing := by
  induction w generalizing s with
  | nil => rfl
  | cons ch w ih =>
    rw [read_cons, ih]
    by_cases hc : (ch == 13 || s.skipRestOfTheLine) = true
    · simp only [OState.read, List.foldl_cons, List.foldl_nil, hc, ↓reduceIte]
    · simp only [OState.read, List.foldl_cons, List.foldl_nil, hc, Bool.false_eq_true, ↓reduceIte]
      exact step_stopParsing ..

theorem item_note {w r : Str} : ItemOk L c p (.note w r) := by
  intro hat hwf _ hlen
  have hwf' := hwf
  obtain ⟨h1, h2, h3⟩ := hwf
  have hm := hat.b.modes.addr hat.b.addr
  have e : p.st.read L p.filter (Item.note w r).render = (addrDone (p.st.withText w) false).read L p.filter r := by
    rw [Item.render, read_append, read_word_colon hat.b h1]
  have hub : (addrLoop w.reverse {}).ub = false := addrLoop_no_ub w h1.2.2.2
  cases hi : c.ign
  · have hbad := h1.bad (s := p.st) (hat.ign.trans hi)
    rw [read_skip (s := addrDone (p.st.withText w) false) (by simp [addrDone, hbad])] at e
    have hta : ∀ a b, (addrDone a b).text = [] := fun _ _ => rfl
    refine quiet_item rfl hat hwf' ?_ e rfl (by simp [Ctx.out, Ctx.emit, hta]) hlen
    obtain ⟨b1, b2, b3, b4, b5, b6, b7, b8⟩ := hat
    constructor <;> simp_all [addrDone, OState.withText]
  · have hbody := (hat.b.body w).read (L := L) (f := p.filter) r
    have hnr := noref_read (L := L) (f := p.filter) (s := addrDone (p.st.withText w) false) r (h3 hi) hat.inref
    have hst := stop_read (L := L) (f := p.filter) (s := addrDone (p.st.withText w) false) r
    refine quiet_item rfl hat hwf' ⟨.inl hbody.inLabel, hbody.inLine, hst.trans hat.stop, hnr.1, ?_, hbody.sec.trans hat.sect,
      hbody.src.trans hat.source, hbody.ign.trans hat.ign, hbody.ub.trans ?_⟩ e rfl (by simp [Ctx.out, hi]) hlen
    · rw [hnr.2]; exact hat.name
    · simp only [addrDone, OState.withText, hub, hat.ub, Bool.and_false, Bool.or_false]

theorem item_prose {w r : Str} : ItemOk L c p (.prose w r) := by
  intro hat hwf _ hlen
  have hwf' := hwf
  obtain ⟨h1, h2, h3, hi⟩ := hwf
  have hm := hat.b.modes.addr hat.b.addr
  have e : p.st.read L p.filter (Item.prose w r).render = (addrDone (p.st.withText w) true).read L p.filter r := by
    rw [Item.render, read_append, read_word_ws hat.b h1 h3]
  have hub : (addrLoop w.reverse {}).ub = false := addrLoop_no_ub w h1.2.2.2
  have hbad := h1.bad (s := p.st) (hat.ign.trans hi)
  rw [read_skip (s := addrDone (p.st.withText w) true) (by simp [addrDone, hbad])] at e
  have hta : ∀ a b, (addrDone a b).text = [] := fun _ _ => rfl
  refine quiet_item rfl hat hwf' ?_ e rfl (by simp [Ctx.out, Ctx.emit, hta]) hlen
  obtain ⟨b1, b2, b3, b4, b5, b6, b7, b8⟩ := hat
  constructor <;> simp_all [addrDone, OState.withText]

/-! ### Section headers -/

/-- The state after `Disassembly of section ` and the name. -/
theorem read_section (hb : Boundary s) {n : Str} (hn : n ≠ []) (hc : c! ':' ∉ n) (h13 : (13 : Byte) ∉ n) :
    s.read L f (b! "Disassembly of section " ++ n ++ b! ":") =
      { s with inAddress := false, inSectionStart := true, inSectionName := true, skipRestOfTheLine := true,
               currentSection := n, text := [] } := by
  have hm := hb.modes.addr hb.addr
  have hk : s.skipRestOfTheLine = false := hm.2.2.2.2.2.2.2.2.1
  have hk' : ∀ t, (s.withText t).skipRestOfTheLine = false := fun _ => hk
  have e0 : b! "Disassembly of section " = b! "Disassembly" ++ (b! " " ++ b! "of section ") := rfl
  rw [read_append, read_append, e0, read_append, read_append,
    read_word hb.addr hk (by decide), hb.text, List.nil_append, read_one (s := s.withText _) (by decide) (by exact hk)]
  -- the blank behind `Disassembly`
  have e1 : (s.withText (b! "Disassembly")).step L f (c! ' ') =
      { s with inAddress := false, inSectionStart := true, currentSection := [], text := b! "Disassembly " } := by
    have ha : (s.withText (b! "Disassembly")).inAddress = true := hb.addr
    simp only [OState.step, ha, ↓reduceIte, OState.stepAddress]
    simp [OState.withText, isWhitespace, OState.append]
  rw [e1]
  -- `of section `
  have e2 : ∀ (u t : Str), (13 : Byte) ∉ u → (∀ v w, u = v ++ w → w ≠ [] → t ++ v ≠ b! "Disassembly of section ") → t ≠ [] →
      ({ s with inAddress := false, inSectionStart := true, currentSection := [], text := t } : OState).read L f u =
      { s with inAddress := false, inSectionStart := true, currentSection := [], text := t ++ u } := by
    intro u
    induction u with
    | nil => intro t _ _ _; simp [read_nil]
    | cons ch u ih =>
      intro t h13 hne ht
      simp only [List.mem_cons, not_or] at h13
      rw [read_cons, read_one (fun h => h13.1 h.symm) (by exact hk)]
      have h0 := hne [] (ch :: u) rfl (by simp)
      rw [List.append_nil] at h0
      have : ({ s with inAddress := false, inSectionStart := true, currentSection := [], text := t } : OState).step L f ch =
          { s with inAddress := false, inSectionStart := true, currentSection := [], text := t ++ [ch] } := by
        have h0' : (t == b! "Disassembly of section ") = false := by simpa using h0
        have ht' : t.isEmpty = false := by simpa using ht
        simp [OState.step, hm.1, hm.2.1, hm.2.2.1, OState.stepSection, hm.2.2.2.2.1, h0', OState.append, ht']
      rw [this, ih (t ++ [ch]) h13.2 (by
        intro v w hu hw
        have := hne (ch :: v) w (by rw [hu]; rfl) hw
        simpa using this) (by simp)]
      simp
  rw [e2 (b! "of section ") (b! "Disassembly ") (by decide) (by
    intro v w hvw hw he
    have h1 := congrArg List.length hvw
    have h2 := congrArg List.length he
    simp only [List.length_append, List.length_cons, List.length_nil] at h1 h2
    have : w.length = 0 := by omega
    exact hw (List.length_eq_zero_iff.1 this)) (by decide)]
  -- the name
  obtain ⟨ch, n, rfl⟩ : ∃ ch n', n = ch :: n' := by
    cases n with
    | nil => exact absurd rfl hn
    | cons ch n => exact ⟨ch, n, rfl⟩
  simp only [List.mem_cons, not_or] at hc h13
  rw [read_cons (b := n), read_one (fun h => h13.1 h.symm) (by exact hk)]
  have e3 : ({ s with inAddress := false, inSectionStart := true, currentSection := [],
                      text := b! "Disassembly " ++ b! "of section " } : OState).step L f ch =
      { s with inAddress := false, inSectionStart := true, inSectionName := true, currentSection := [ch], text := [] } := by
    simp [OState.step, hm.1, hm.2.1, hm.2.2.1, OState.stepSection, hm.2.2.2.2.1]
  rw [e3]
  have e4 : ∀ (u t : Str), (13 : Byte) ∉ u → c! ':' ∉ u →
      ({ s with inAddress := false, inSectionStart := true, inSectionName := true, currentSection := t, text := [] } : OState).read L f u =
      { s with inAddress := false, inSectionStart := true, inSectionName := true, currentSection := t ++ u, text := [] } := by
    intro u
    induction u with
    | nil => intro t _ _; simp [read_nil]
    | cons ch u ih =>
      intro t h13 hc
      simp only [List.mem_cons, not_or] at h13 hc
      rw [read_cons, read_one (fun h => h13.1 h.symm) (by exact hk)]
      have hch : ch ≠ c! ':' := fun h => hc.1 h.symm
      have : ({ s with inAddress := false, inSectionStart := true, inSectionName := true, currentSection := t, text := [] } : OState).step L f ch =
          { s with inAddress := false, inSectionStart := true, inSectionName := true, currentSection := t ++ [ch], text := [] } := by
        simp [OState.step, hm.1, hm.2.1, hm.2.2.1, OState.stepSection, hch]
      rw [this, ih _ h13.2 hc.2]
      simp
  rw [e4 n [ch] h13.2 hc.2, read_one (by decide) (by exact hk)]
  simp [OState.step, hm.1, hm.2.1, hm.2.2.1, OState.stepSection]

theorem item_section {n r : Str} : ItemOk L c p (.section n r) := by
  intro hat hwf _ hlen
  have hwf' := hwf
  obtain ⟨h1, h2, h3, h4⟩ := hwf
  have hm := hat.b.modes.addr hat.b.addr
  intro q
  have e : q = ({ p with st := p.st.read L p.filter (Item.section n r).render } : OParser).eol :=
    feed_readline (Item.oneLine hwf') p hat.stop
  rw [Item.render, read_append, read_section hat.b h1 h2 h3.2, read_skip rfl] at e
  refine ⟨?_, by rw [Item.render, read_append, read_section hat.b h1 h2 h3.2, read_skip rfl]; exact fun _ => rfl⟩
  rw [e]
  obtain ⟨b1, b2, b3, b4, b5, b6, b7, b8⟩ := hat
  have := Quiet.eol (c := { c with sect := n })
    (p := { p with st := { p.st with
        inAddress := false, inSectionStart := true, inSectionName := true, skipRestOfTheLine := true,
        currentSection := n, text := [] } }) (by constructor <;> simp_all) (.inr (.inr rfl))
  refine ⟨this.1, ?_⟩
  rw [this.2]
  simp [Ctx.out, Ctx.emit]

/-! ### Function headers -/

theorem item_header {a n : Str} : ItemOk L c p (.header a n) := by
  intro hat hwf hlib hlen
  have hwf' := hwf
  obtain ⟨⟨h1, h2, h3⟩, h4⟩ := hwf
  have hm := hat.b.modes.addr hat.b.addr
  intro q
  have e : q = ({ p with st := p.st.read L p.filter (Item.header a n).render } : OParser).eol :=
    feed_readline (Item.oneLine hwf') p hat.stop
  have hr := read_header (L := L) (f := p.filter) (ws := []) hat.b (by simp) h2 h1 h4.2
  rw [List.nil_append] at hr
  rw [Item.render, hr] at e
  have hl := addrLoop_hex h2 (by omega)
  rw [wrap32_small (by omega) (by omega)] at hl
  have hbad : addrBad (p.st.withText a) = false := addrBad_hex h2
  have hgl := getLabel_header n
  refine ⟨?_, by
    rw [Item.render, hr]
    exact ⟨by simp [addrDone, OState.withText], by simp [OState.withText], by simp only [OState.withText, labelText, hgl, Option.getD_some]⟩⟩
  rw [e]
  obtain ⟨b1, b2, b3, b4, b5, b6, b7, b8⟩ := hat
  have hlt : leftOut p.filter.plt n = shouldIgnoreFunction n p.filter := leftOut_eq _ _
  have hne : (b! "<" ++ n ++ b! ">:").isEmpty = false := by simp
  cases hi : shouldIgnoreFunction n p.filter
  · have hlen' : p.lines.length < maxLines := by
      simp only [Ctx.out, hlt, hi, Bool.false_eq_true, ↓reduceIte, List.length_cons, List.length_nil] at hlen
      show _ < 5000
      omega
    have hap : (n ++ b! ":").isEmpty = false := by simp
    have ev : (OParser.eol { p with st := (addrDone (p.st.withText a) true).withText (b! "<" ++ n ++ b! ">:") }) =
        { p with
          totalLines := p.totalLines + 1
          lines := p.lines ++ [{
            text := n ++ b! ":", label := n, isLabel := true, sect := c.sect, source := c.source,
            address := if c.ign then none else some (hexVal a) }]
          labels := p.labels ++ [(n, p.lines.length + 1)]
          st := { p.st with ignoreUntilNextLabel := false, previousLabel := n }.commonReset } := by
      simp only [OParser.eol, OParser.label, OState.withText, addrDone, ↓reduceIte, hne, hgl, hlib, hi, Bool.false_eq_true,
        OParser.eolTail, hm.2.2.2.2.2.2.1, hap, Bool.not_false, hlen', OState.finishLine, hl, hm.2.2.2.2.2.2.2.2.2.1, b5, b6, b7, b8]
      simp [OState.commonReset, b8]
    rw [ev]
    refine ⟨⟨Boundary.reset _, b2, b3, b4, b5, b6, ?_, b8⟩, ?_⟩
    · simp [Ctx.after, hlt, hi, OState.commonReset]
    · simp [Ctx.out, hlt, hi]
  · have ev : (OParser.eol { p with st := (addrDone (p.st.withText a) true).withText (b! "<" ++ n ++ b! ">:") }) =
        { p with
          totalLines := p.totalLines + 1
          st := { p.st with ignoreUntilNextLabel := true }.commonReset } := by
      simp only [OParser.eol, OParser.label, OState.withText, addrDone, ↓reduceIte, hne, hgl, hlib, hi, Bool.false_eq_true,
        OParser.eolTail, hl, b8]
      simp [OState.commonReset, b8]
    rw [ev]
    refine ⟨⟨Boundary.reset _, b2, b3, b4, b5, b6, ?_, b8⟩, ?_⟩
    · simp [Ctx.after, hlt, hi, OState.commonReset]
    · simp [Ctx.out, hlt, hi]

/-! ### Source references -/

theorem atoi_digits {w : Str} (h : ∀ c ∈ w, isDigit c = true) : atoi w = decVal w := by
  cases w with
  | nil => rfl
  | cons ch w =>
    have h1 := h ch (by simp)
    have h2 : isSpace ch = false :=
      byte_forall (P := fun c => isDigit c = true → isSpace c = false) (by decide +kernel) h1
    have h3 : ch ≠ c! '-' := by rintro rfl; cases h1
    have h4 : ch ≠ c! '+' := by rintro rfl; cases h1
    unfold atoi
    rw [List.dropWhile_cons_of_neg (by simp [h2])]
    simp [h3, h4, takeWhile_all h]

/-- Reading `PATH:LINE`. -/
theorem read_source (hb : Boundary s) {path line : Str} (h1 : path.head? = some c! '/') (h2 : c! ':' ∉ path)
    (h3 : (13 : Byte) ∉ path) (h4 : ∀ c ∈ line, isDigit c = true) :
    s.read L f (path ++ b! ":" ++ line) =
      { s with
        inAddress := false, inSourceRef := true, inSourceRefLineNumber := true, currentFilename := path,
        currentSourceRef := { file := path, isUsercode := !fileInLibrary path }, text := line } := by
  have hm := hb.modes.addr hb.addr
  have hk : s.skipRestOfTheLine = false := hm.2.2.2.2.2.2.2.2.1
  obtain ⟨path, rfl⟩ : ∃ q, path = c! '/' :: q := by
    cases path with
    | nil => cases h1
    | cons ch q => simp at h1; subst h1; exact ⟨q, rfl⟩
  simp only [List.mem_cons, not_or] at h2 h3
  rw [read_append, read_append, read_cons (b := path), read_one (by decide) hk]
  have e1 : s.step L f (c! '/') = { s with inAddress := false, inSourceRef := true, text := b! "/" } := by
    simp [OState.step, hb.addr, OState.stepAddress, OState.append, isWhitespace, hb.text]
  rw [e1]
  have e2 : ∀ (u t : Str), (13 : Byte) ∉ u → c! ':' ∉ u → t ≠ [] →
      ({ s with inAddress := false, inSourceRef := true, text := t } : OState).read L f u =
      { s with inAddress := false, inSourceRef := true, text := t ++ u } := by
    intro u
    induction u with
    | nil => intro t _ _ _; simp [read_nil]
    | cons ch u ih =>
      intro t h13 hc ht
      simp only [List.mem_cons, not_or] at h13 hc
      rw [read_cons, read_one (fun h => h13.1 h.symm) (by exact hk)]
      have hch : ch ≠ c! ':' := fun h => hc.1 h.symm
      have ht' : t.isEmpty = false := by simpa using ht
      have : ({ s with inAddress := false, inSourceRef := true, text := t } : OState).step L f ch =
          { s with inAddress := false, inSourceRef := true, text := t ++ [ch] } := by
        simp [OState.step, hm.1, hm.2.1, hm.2.2.1, hm.2.2.2.1, OState.stepSourceRef, hch, hm.2.2.2.2.2.2.1, OState.append, ht']
      rw [this, ih _ h13.2 hc.2 (by simp)]
      simp
  rw [e2 path (b! "/") h3.2 h2.2 (by decide), read_one (by decide) (by exact hk)]
  have e3 : ({ s with inAddress := false, inSourceRef := true, text := b! "/" ++ path } : OState).step L f (c! ':') =
      { s with
        inAddress := false, inSourceRef := true, inSourceRefLineNumber := true, currentFilename := b! "/" ++ path,
        currentSourceRef := { file := b! "/" ++ path, isUsercode := !fileInLibrary (b! "/" ++ path) }, text := [] } := by
    simp [OState.step, hm.1, hm.2.1, hm.2.2.1, hm.2.2.2.1, OState.stepSourceRef, OState.doFileCheck]
  rw [e3]
  have e4 : ∀ (u t : Str), (∀ c ∈ u, isDigit c = true) →
      ({ s with
        inAddress := false, inSourceRef := true, inSourceRefLineNumber := true, currentFilename := b! "/" ++ path,
        currentSourceRef := { file := b! "/" ++ path, isUsercode := !fileInLibrary (b! "/" ++ path) }, text := t } : OState).read L f u =
      { s with
        inAddress := false, inSourceRef := true, inSourceRefLineNumber := true, currentFilename := b! "/" ++ path,
        currentSourceRef := { file := b! "/" ++ path, isUsercode := !fileInLibrary (b! "/" ++ path) }, text := t ++ u } := by
    intro u
    induction u with
    | nil => intro t _; simp [read_nil]
    | cons ch u ih =>
      intro t hd
      have h1 := hd ch (by simp)
      rw [read_cons, read_one (by rintro rfl; cases h1) (by exact hk)]
      have hch : ch ≠ c! ':' := by rintro rfl; cases h1
      have hws : isWhitespace ch = false :=
        byte_forall (P := fun c => isDigit c = true → isWhitespace c = false) (by decide +kernel) h1
      have : ({ s with
        inAddress := false, inSourceRef := true, inSourceRefLineNumber := true, currentFilename := b! "/" ++ path,
        currentSourceRef := { file := b! "/" ++ path, isUsercode := !fileInLibrary (b! "/" ++ path) }, text := t } : OState).step L f ch =
          { s with
        inAddress := false, inSourceRef := true, inSourceRefLineNumber := true, currentFilename := b! "/" ++ path,
        currentSourceRef := { file := b! "/" ++ path, isUsercode := !fileInLibrary (b! "/" ++ path) }, text := t ++ [ch] } := by
        simp [OState.step, hm.1, hm.2.1, hm.2.2.1, hm.2.2.2.1, OState.stepSourceRef, hch, hws, OState.append]
      rw [this, ih _ (fun c hc => hd c (by simp [hc]))]
      simp
  rw [e4 line [] h4]
  rfl

theorem line_zero (s : OState) (h : s.currentSourceRef.line = 0) :
    ({ s with currentSourceRef := { s.currentSourceRef with line := 0 } } : OState) = s := by
  rw [← h]

theorem item_source {path line tail : Str} : ItemOk L c p (.source path line tail) := by
  intro hat hwf _ hlen
  have hwf' := hwf
  obtain ⟨h1, h2, h3, h4, h5, h6, h7⟩ := hwf
  have hm := hat.b.modes.addr hat.b.addr
  intro q
  have e : q = ({ p with st := p.st.read L p.filter (Item.source path line tail).render } : OParser).eol :=
    feed_readline (Item.oneLine hwf') p hat.stop
  rw [Item.render, read_append, read_source hat.b h1 h2 h3.2 h5] at e
  refine ⟨?_, fun hl => ?_⟩
  rotate_left
  · rw [Item.render, read_append, read_source hat.b h1 h2 h3.2 h5] at hl
    have := (nolabel_read (L := L) (f := p.filter) (s := { p.st with
      inAddress := false, inSourceRef := true, inSourceRefLineNumber := true, currentFilename := path,
      currentSourceRef := { file := path, isUsercode := !fileInLibrary path }, text := line }) tail rfl hm.1).2
    rw [this] at hl
    cases hl
  rw [e]
  obtain ⟨b1, b2, b3, b4, b5, b6, b7, b8⟩ := hat
  have hat' := atoi_digits h5
  have hk : p.st.skipRestOfTheLine = false := hm.2.2.2.2.2.2.2.2.1
  have hnr : ¬ ((decVal line : Int) < -2147483648 ∨ 2147483647 < (decVal line : Int)) := by omega
  have hupd : ∀ s : OState, s.text = line → s.currentSourceRef.line = 0 →
      s.updateSourceRefLineNumber = { s with currentSourceRef := { s.currentSourceRef with line := decVal line } } := by
    intro s ht hl
    unfold OState.updateSourceRefLineNumber
    have ea : atoi s.text = decVal line := by rw [ht, hat']
    rw [ea]
    simp only [hnr, ↓reduceIte]
    by_cases hz : (decVal line : Int) > 0
    · simp only [hz, ↓reduceIte]
    · simp only [hz, ↓reduceIte]
      have h0 : (decVal line : Int) = 0 := by omega
      rw [h0]
      exact (line_zero s hl).symm
  cases tail with
  | nil =>
    rw [read_nil]
    cases hi : c.ign
    · have hi' : p.st.ignoreUntilNextLabel = false := b7.trans hi
      simp only [OParser.eol, hm.1, Bool.false_eq_true, ↓reduceIte, OParser.eolTail, hi']
      rw [hupd _ rfl rfl]
      refine ⟨⟨Boundary.reset _, b2, b3, b4, b5, ?_, ?_, b8⟩, ?_⟩
      · simp [OState.commonReset, Ctx.after, hi, fileInLibrary_eq]
      · simp [OState.commonReset, Ctx.after, hi, fileInLibrary_eq]
      · simp [Ctx.out, Ctx.emit]
    · have hi' : p.st.ignoreUntilNextLabel = true := b7.trans hi
      simp only [OParser.eol, hm.1, Bool.false_eq_true, ↓reduceIte, OParser.eolTail, hi']
      refine ⟨⟨Boundary.reset _, b2, b3, b4, b5, ?_, ?_, b8⟩, ?_⟩
      · simp [OState.commonReset, Ctx.after, hi, fileInLibrary_eq]
      · simp [OState.commonReset, Ctx.after, hi, fileInLibrary_eq]
      · simp [Ctx.out, hi]
  | cons ch tail =>
    simp only [reduceCtorEq, List.head?_cons, Option.some.injEq, exists_eq_left', false_or] at h7
    have hws := h7.1
    rw [read_cons, read_one (by rintro rfl; simp [isWhitespace] at hws) (by exact hk)]
    have hch : ch ≠ c! ':' := by rintro rfl; cases hws
    have est : ({ p.st with
        inAddress := false, inSourceRef := true, inSourceRefLineNumber := true, currentFilename := path,
        currentSourceRef := { file := path, isUsercode := !fileInLibrary path }, text := line } : OState).step L p.filter ch =
        { p.st with
        inAddress := false, inSourceRef := true, inSourceRefLineNumber := true, currentFilename := path,
        currentSourceRef := { file := path, line := decVal line, isUsercode := !fileInLibrary path }, text := [],
        skipRestOfTheLine := true } := by
      simp only [OState.step, hm.1, hm.2.1, hm.2.2.1, hm.2.2.2.1, OState.stepSourceRef, Bool.false_eq_true, ↓reduceIte, beq_iff_eq, hch,
        hws, Bool.and_self]
      rw [hupd _ rfl rfl]
    rw [est, read_skip rfl]
    simp only [OParser.eol, hm.1, Bool.false_eq_true, ↓reduceIte, OParser.eolTail]
    have hup0 : ∀ s : OState, s.text = [] → s.updateSourceRefLineNumber = s := by
      intro s ht
      unfold OState.updateSourceRefLineNumber
      rw [ht]
      rfl
    cases hi : c.ign
    · have hi' : p.st.ignoreUntilNextLabel = false := b7.trans hi
      simp only [hi', Bool.false_eq_true, ↓reduceIte]
      rw [hup0 _ rfl]
      refine ⟨⟨Boundary.reset _, b2, b3, b4, b5, ?_, ?_, b8⟩, ?_⟩
      · simp [OState.commonReset, Ctx.after, hi, fileInLibrary_eq]
      · simp [OState.commonReset, Ctx.after, hi, fileInLibrary_eq]
      · simp [Ctx.out, Ctx.emit]
    · have hi' : p.st.ignoreUntilNextLabel = true := b7.trans hi
      simp only [hi', ↓reduceIte]
      refine ⟨⟨Boundary.reset _, b2, b3, b4, b5, ?_, ?_, b8⟩, ?_⟩
      · simp [OState.commonReset, Ctx.after, hi, fileInLibrary_eq]
      · simp [OState.commonReset, Ctx.after, hi, fileInLibrary_eq]
      · simp [Ctx.out, hi]

theorem item_ok (hL : L.Ascii) (i : Item) : ItemOk L c p i := by
  cases i with
  | blank => exact item_blank
  | note => exact item_note
  | prose => exact item_prose
  | «section» => exact item_section
  | header => exact item_header
  | source => exact item_source
  | instr => exact item_instr hL
  | more => exact item_more
  | reloc => exact item_reloc

theorem feed_keeps_filter (w : Str) : (w.foldl (OParser.feed L) p).filter = p.filter := by
  induction w generalizing p with
  | nil => rfl
  | cons ch w ih => rw [List.foldl_cons, ih, feed_filter]

theorem listing_ok (hL : L.Ascii) (is : List Item) (hat : At c p.st) (hwf : WfListing p.filter.plt c is)
    (hlib : p.filter.libraryFunctions = false) (hlen : p.lines.length + (expected p.filter.plt c is).length ≤ 5000) :
    let q := (renderListing is).foldl (OParser.feed L) p
    (∃ c', At c' q.st) ∧ q.lines = p.lines ++ expected p.filter.plt c is := by
  induction is generalizing c p with
  | nil => exact ⟨⟨c, hat⟩, by simp [renderListing, unlines, expected]⟩
  | cons i is ih =>
    obtain ⟨h1, h2⟩ := hwf
    simp only [expected, List.length_append] at hlen
    have hi := (item_ok hL i hat h1 hlib (by omega)).1
    have er : renderListing (i :: is) = (i.render ++ [10]) ++ renderListing is := by
      simp [renderListing, unlines]
    intro q
    have eq : q = (renderListing is).foldl (OParser.feed L) ((i.render ++ [10]).foldl (OParser.feed L) p) := by
      rw [← List.foldl_append, ← er]
    have hf := feed_keeps_filter (L := L) (p := p) (i.render ++ [10])
    generalize (i.render ++ [10]).foldl (OParser.feed L) p = p' at *
    have := ih (c := c.after p.filter.plt i) (p := p') (by exact hi.1) (by rw [hf]; exact h2) (by rw [hf]; exact hlib) (by
      rw [hi.2, hf, List.length_append]; omega)
    rw [← eq] at this
    refine ⟨this.1, ?_⟩
    rw [this.2, hi.2, hf]
    simp [expected]

end AsmParser

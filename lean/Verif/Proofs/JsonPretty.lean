/-
Reading pretty-printed JSON back.
-/
import Verif.Proofs.DebugJson
import Verif.Model.JsonPretty

namespace AsmParser

/-- `t` is the text of the value `v`, possibly with white space behind it. -/
structure ReadsW (v : JVal) (t : Str) : Prop where
  start : ∃ c cs, t = c :: cs ∧ isJsonWs c = false ∧ c ≠ 93
  read : ∀ n r, t.length ≤ n → OkRest r → ∃ r', readValue n (t ++ r) = some (v, r') ∧ skipWs r' = skipWs r

theorem OkRest.ws {w r : Str} (hw : ∀ c ∈ w, isJsonWs c = true) (hr : OkRest r) : OkRest (w ++ r) := by
  cases w with
  | nil => exact hr
  | cons c w =>
    have hc := hw c (by simp)
    simp only [isJsonWs, Bool.or_eq_true, beq_iff_eq] at hc
    intro d hd
    simp only [List.cons_append, List.head?_cons, Option.some.injEq] at hd
    subst hd
    rcases hc with ((rfl | rfl) | rfl) | rfl <;> decide

theorem Reads.ws {v : JVal} {t w : Str} (h : Reads v t) (hw : ∀ c ∈ w, isJsonWs c = true) : ReadsW v (t ++ w) := by
  obtain ⟨c, cs, rfl, h1, h2⟩ := h.start
  refine ⟨⟨c, cs ++ w, by simp, h1, h2⟩, fun n r hn hr => ⟨w ++ r, ?_, skipWs_ws hw r⟩⟩
  rw [List.append_assoc]
  exact h.read n _ (by rw [List.length_append] at hn; omega) (hr.ws hw)

theorem Reads.toW {v : JVal} {t : Str} (h : Reads v t) : ReadsW v t := by
  have := h.ws (w := []) (by simp)
  rwa [List.append_nil] at this

theorem ReadsElems.oneW {v : JVal} {t : Str} (h : ReadsW v t) : ReadsElems [v] t := by
  refine ⟨h.start, ?_⟩
  intro n r hn
  cases n with
  | zero => omega
  | succ n =>
    unfold readElements
    obtain ⟨r', e, hs⟩ := h.read n (93 :: r) (by omega) .cons
    rw [e]
    simp [hs, skipWs_cons (show isJsonWs 93 = false by decide)]

theorem ReadsElems.consW {v : JVal} {t w u : Str} {vs : List JVal} (h : ReadsW v t) (hw : ∀ c ∈ w, isJsonWs c = true)
    (hu : ReadsElems vs u) : ReadsElems (v :: vs) (t ++ (44 :: w ++ u)) := by
  obtain ⟨c, cs, rfl, h1, h2⟩ := h.start
  refine ⟨⟨c, cs ++ (44 :: w ++ u), by simp, h1, h2⟩, ?_⟩
  intro n r hn
  cases n with
  | zero => omega
  | succ n =>
    simp only [List.length_append, List.length_cons] at hn
    unfold readElements
    have e : c :: cs ++ (44 :: w ++ u) ++ 93 :: r = c :: cs ++ (44 :: (w ++ (u ++ 93 :: r))) := by simp
    obtain ⟨r', e', hs⟩ := h.read n (44 :: (w ++ (u ++ 93 :: r))) (by simp; omega) .cons
    rw [e, e']
    simp only [Option.bind_eq_bind, Option.bind_some, hs, skipWs_cons (show isJsonWs 44 = false by decide)]
    obtain ⟨d, ds, rfl, h3, h4⟩ := hu.start
    rw [skipWs_ws hw, List.cons_append, skipWs_cons h3, ← List.cons_append, hu.read n r (by simp at hn ⊢; omega)]
    rfl

theorem ReadsElems.sepW {w : Str} (hw : ∀ c ∈ w, isJsonWs c = true) {α : Type} (f : α → JVal) (g : α → Str) (xs : List α)
    (hne : xs ≠ []) (h : ∀ x ∈ xs, ReadsW (f x) (g x)) : ReadsElems (xs.map f) (sepBy (44 :: w) (xs.map g)) := by
  induction xs with
  | nil => exact absurd rfl hne
  | cons x xs ih =>
    cases xs with
    | nil => simpa [sepBy] using ReadsElems.oneW (h x (by simp))
    | cons y ys =>
      have := ReadsElems.consW (h x (by simp)) hw (ih (by simp) (fun z hz => h z (by simp [hz])))
      simpa [sepBy, List.append_assoc] using this

theorem reads_arrW {w : Str} (hw : ∀ c ∈ w, isJsonWs c = true) {α : Type} (f : α → JVal) (g : α → Str) (xs : List α)
    (h : ∀ x ∈ xs, ReadsW (f x) (g x)) : Reads (.arr (xs.map f)) (91 :: (sepBy (44 :: w) (xs.map g) ++ [93])) := by
  by_cases hne : xs = []
  · subst hne
    exact reads_arr (w := []) (by simp) f g [] (by simp)
  · exact (ReadsElems.sepW hw f g xs hne h).arr

/-- `t` is the text of further members, with a leading comma. -/
def ReadsTailW (ms : List (Str × JVal)) (t : Str) : Prop :=
  ∀ k v u, NoControl k → ReadsW v u → ReadsMems ((k, v) :: ms) (keyNameEsc k ++ u ++ t)

theorem readMembers_keyW {k : Str} (hk : NoControl k) {v : JVal} {u : Str} (h : ReadsW v u) (n : Nat) (r : Str)
    (hn : (keyNameEsc k ++ u).length ≤ n) (hr : OkRest r) :
    readMembers (n + 1) (keyNameEsc k ++ u ++ r) =
      (match skipWs r with
        | 44 :: r => do
          let (ms, r) ← readMembers n (skipWs r)
          return ((k, v) :: ms, r)
        | 125 :: r => some ([(k, v)], r)
        | _ => none) := by
  have e : keyNameEsc k ++ u ++ r = 34 :: (escape k ++ 34 :: (58 :: 32 :: (u ++ r))) := by simp [keyNameEsc, dq]
  simp only [keyNameEsc, dq, List.length_append, List.length_cons, List.length_nil] at hn
  rw [e]
  conv => lhs; unfold readMembers
  simp only [readString_escape hk n _ (show (escape k).length + 1 ≤ n by omega), Option.bind_eq_bind, Option.bind_some,
    skipWs_cons (show isJsonWs 58 = false by decide)]
  have : skipWs (32 :: (u ++ r)) = u ++ r := by
    obtain ⟨c, cs, rfl, h1, -⟩ := h.start
    exact (skipWs_ws (w := [32]) wsp _).trans (skipWs_cons h1)
  obtain ⟨r', e', hs⟩ := h.read n r (by omega) hr
  rw [this, e']
  simp only [Option.bind_some, hs]
  rfl

theorem ReadsTailW.nil : ReadsTailW [] [] := by
  intro k v u hk h
  refine ⟨⟨escape k ++ b! "\": " ++ u, by simp [keyNameEsc, dq]⟩, ?_⟩
  intro n r hn
  cases n with
  | zero => omega
  | succ n =>
    rw [List.append_nil] at hn ⊢
    rw [readMembers_keyW hk h n _ (by omega) .cons, skipWs_cons (by decide)]
    rfl

theorem ReadsTailW.cons {k w u t : Str} {v : JVal} {ms : List (Str × JVal)} (hk : NoControl k) (h : ReadsW v u)
    (hw : ∀ c ∈ w, isJsonWs c = true) (ht : ReadsTailW ms t) :
    ReadsTailW ((k, v) :: ms) (44 :: w ++ keyNameEsc k ++ u ++ t) := by
  intro k' v' u' hk' h'
  have hm := ht k v u hk h
  obtain ⟨cs, hcs⟩ := hm.start
  refine ⟨⟨escape k' ++ b! "\": " ++ u' ++ (44 :: w ++ keyNameEsc k ++ u ++ t), by simp [keyNameEsc, dq]⟩, ?_⟩
  intro n r hn
  cases n with
  | zero => omega
  | succ n =>
    have e : keyNameEsc k' ++ u' ++ (44 :: w ++ keyNameEsc k ++ u ++ t) ++ 125 :: r =
        keyNameEsc k' ++ u' ++ (44 :: (w ++ (keyNameEsc k ++ u ++ t ++ 125 :: r))) := by simp
    simp only [List.length_append, List.length_cons] at hn
    rw [e, readMembers_keyW hk' h' n _ (by simp; omega) .cons, skipWs_cons (by decide)]
    simp only
    have e2 : skipWs (w ++ (keyNameEsc k ++ u ++ t ++ 125 :: r)) = keyNameEsc k ++ u ++ t ++ 125 :: r := by
      rw [skipWs_ws hw, hcs]; exact skipWs_cons (by decide)
    rw [e2, hm.read n r (by simp; omega)]
    rfl

theorem ReadsTailW.opt {k w u t : Str} {v : JVal} {ms : List (Str × JVal)} (b : Prop) [Decidable b] (hk : NoControl k)
    (h : b → ReadsW v u) (hw : ∀ c ∈ w, isJsonWs c = true) (ht : ReadsTailW ms t) :
    ReadsTailW ((if b then [(k, v)] else []) ++ ms) ((if b then 44 :: w ++ keyNameEsc k ++ u else []) ++ t) := by
  by_cases hb : b
  · simpa [hb] using ht.cons hk (h hb) hw
  · simpa [hb] using ht

/-- An optional number member, with the comma before it and the line end behind it. -/
def numTextW (k : Str) : Option Int → Str
  | none => []
  | some z => 44 :: [32] ++ keyNameEsc k ++ (intToDec z ++ nl)

theorem wsl : ∀ c ∈ nl, isJsonWs c = true := by decide
theorem wspl : ∀ c ∈ ([32, 10] : Str), isJsonWs c = true := by decide

theorem ReadsTailW.optNum {k t : Str} {ms : List (Str × JVal)} (o : Option Int) (hk : NoControl k) (ht : ReadsTailW ms t) :
    ReadsTailW (AsmParser.optNum k o ++ ms) (numTextW k o ++ t) := by
  cases o with
  | none => exact ht
  | some z => exact ht.cons hk ((reads_num z).ws wsl) wsp

theorem ReadsMems.objW {ms : List (Str × JVal)} {t w : Str} (h : ReadsMems ms t) (hw : ∀ c ∈ w, isJsonWs c = true) :
    Reads (.obj ms) (123 :: (w ++ (t ++ [125]))) := by
  refine ⟨⟨123, _, rfl, by decide, by decide⟩, ?_⟩
  intro n r hn _
  cases n with
  | zero => simp at hn
  | succ n =>
    simp only [List.length_cons, List.length_append, List.length_nil] at hn
    obtain ⟨cs, rfl⟩ := h.start
    have e : 123 :: (w ++ (34 :: cs ++ [125])) ++ r = 123 :: (w ++ (34 :: cs ++ 125 :: r)) := by simp
    rw [e]
    unfold readValue
    simp only [List.cons_append]
    rw [skipWs_ws hw, skipWs_cons (by decide)]
    split
    · rename_i h'; simp at h'
    · rw [← List.cons_append, h.read n r (by simp only [List.length_cons] at hn ⊢; omega)]; rfl

theorem ReadsMems.sepW {w : Str} (hw : ∀ c ∈ w, isJsonWs c = true) {α : Type} (k : α → Str) (f : α → JVal) (g : α → Str)
    (xs : List α) (hne : xs ≠ []) (hk : ∀ x ∈ xs, NoControl (k x)) (h : ∀ x ∈ xs, ReadsW (f x) (g x)) :
    ReadsMems (xs.map fun x => (k x, f x)) (sepBy (44 :: w) (xs.map fun x => keyNameEsc (k x) ++ g x)) := by
  have tail : ∀ (ys : List α), (∀ x ∈ ys, NoControl (k x)) → (∀ x ∈ ys, ReadsW (f x) (g x)) →
      ReadsTailW (ys.map fun x => (k x, f x)) (ys.flatMap fun x => 44 :: w ++ keyNameEsc (k x) ++ g x) := by
    intro ys
    induction ys with
    | nil => intros; exact ReadsTailW.nil
    | cons y ys ih =>
      intro h1 h2
      have := ReadsTailW.cons (h1 y (by simp)) (h2 y (by simp)) hw
        (ih (fun x hx => h1 x (by simp [hx])) (fun x hx => h2 x (by simp [hx])))
      simpa using this
  have eq : ∀ (x : α) (ys : List α), sepBy (44 :: w) ((x :: ys).map fun x => keyNameEsc (k x) ++ g x) =
      keyNameEsc (k x) ++ g x ++ ys.flatMap fun x => 44 :: w ++ keyNameEsc (k x) ++ g x := by
    intro x ys
    induction ys generalizing x with
    | nil => simp [sepBy]
    | cons y ys ih =>
      have := ih y
      simp only [List.map_cons, List.flatMap_cons, sepBy] at this ⊢
      rw [this]
      simp
  cases xs with
  | nil => exact absurd rfl hne
  | cons x ys =>
    rw [eq]
    exact tail ys (fun z hz => hk z (by simp [hz])) (fun z hz => h z (by simp [hz])) _ _ _ (hk x (by simp)) (h x (by simp))

theorem reads_objW {w w' : Str} (hw : ∀ c ∈ w, isJsonWs c = true) (hw' : ∀ c ∈ w', isJsonWs c = true) {α : Type} (k : α → Str)
    (f : α → JVal) (g : α → Str) (xs : List α) (hk : ∀ x ∈ xs, NoControl (k x)) (h : ∀ x ∈ xs, ReadsW (f x) (g x)) :
    Reads (.obj (xs.map fun x => (k x, f x)))
      (123 :: (w' ++ (sepBy (44 :: w) (xs.map fun x => keyNameEsc (k x) ++ g x) ++ [125]))) := by
  by_cases hne : xs = []
  · subst hne
    refine ⟨⟨123, _, rfl, by decide, by decide⟩, ?_⟩
    intro n r hn _
    cases n with
    | zero => simp at hn
    | succ n =>
      have e : (123 : Byte) :: (w' ++ (sepBy (44 :: w) (([] : List α).map fun x => keyNameEsc (k x) ++ g x) ++ [125])) ++ r =
          123 :: (w' ++ 125 :: r) := by simp [sepBy]
      rw [e]
      unfold readValue
      simp only
      rw [skipWs_ws hw', skipWs_cons (by decide)]
      rfl
  · exact (ReadsMems.sepW hw k f g xs hne hk h).objW hw'

theorem reads_jsonW {v : JVal} {t : Str} (h : ReadsW v t) : readJson t = some v := by
  obtain ⟨r', h1, h2⟩ := h.read (t.length + 1) [] (by omega) (by intro c hc; simp at hc)
  obtain ⟨c, cs, rfl, h3, -⟩ := h.start
  rw [List.append_nil] at h1
  have h4 : skipWs [] = [] := rfl
  unfold readJson
  rw [skipWs_cons h3, h1]
  simp [h2, h4]

/-! ### The documents -/

theorem prettySource_eq (f : Filter) (l : AsmLine) : prettySource f l =
    if (!l.isLabel || l.hasOpcode) && decide (l.source.line > 0) then
    b! "{"
    ++ (if l.source.column ≠ 0 then keyName b! "column" ++ intToDec l.source.column ++ commaSp ++ nl else [])
    ++ (keyNameEsc b! "file" ++ fileText (sourceFileField f l.source.file) ++ commaSp ++ nl)
    ++ keyName b! "mainsource" ++ strValue (if sourceIsMain l.source.file then b! "true" else b! "false")
    ++ commaSp ++ nl
    ++ keyName b! "line" ++ intToDec l.source.line ++ nl
    ++ b! "}"
  else b! "null" := by
  unfold prettySource
  cases sourceFileField f l.source.file <;> rfl

theorem reads_prettySource (f : Filter) (l : AsmLine)
    (h : ∀ s, HasPosition l → shownFile (!f.dontMaskFilenames) l.source.file = some s → NoControl s) :
    Reads (positionJson (!f.dontMaskFilenames) l) (prettySource f l) := by
  unfold positionJson
  rw [prettySource_eq]
  have hc : ((!l.isLabel || l.hasOpcode) && decide (l.source.line > 0)) = decide (HasPosition l) := by
    rw [Bool.eq_iff_iff, decide_eq_true_iff]
    unfold HasPosition
    cases l.isLabel <;> cases l.hasOpcode <;> simp
  rw [hc]
  by_cases hp : HasPosition l
  · simp only [hp, decide_true, ↓reduceIte]
    rw [sourceFileField_eq]
    have hmain : sourceIsMain l.source.file = decide (l.source.file = [] ∨ MainFile l.source.file) := by
      unfold sourceIsMain
      rw [isMainFile_eq]
      by_cases he : l.source.file = [] <;> simp [he]
    have hfile : Reads (optStr (shownFile (!f.dontMaskFilenames) l.source.file))
        (fileText (shownFile (!f.dontMaskFilenames) l.source.file)) := by
      cases hs : shownFile (!f.dontMaskFilenames) l.source.file with
      | none => exact reads_null
      | some s => exact reads_escape (h s hp hs)
    rw [hmain]
    have hms : Reads (.str (if l.source.file = [] ∨ MainFile l.source.file then b! "true" else b! "false"))
        (strValue (if decide (l.source.file = [] ∨ MainFile l.source.file) = true then b! "true" else b! "false")) := by
      by_cases hm : l.source.file = [] ∨ MainFile l.source.file
      · simp only [hm, decide_true, ↓reduceIte]; exact reads_escape (by decide)
      · simp only [hm, decide_false, Bool.false_eq_true, ↓reduceIte]; exact reads_escape (by decide)
    generalize fileText (shownFile (!f.dontMaskFilenames) l.source.file) = ft at *
    generalize (strValue (if decide (l.source.file = [] ∨ MainFile l.source.file) = true then b! "true" else b! "false")) = mt at *
    have t1 := ReadsTailW.cons (k := b! "line") (by decide) ((reads_num l.source.line).ws wsl) wspl ReadsTailW.nil
    have t2 := t1.cons (k := b! "mainsource") (by decide) hms.toW wspl
    by_cases hcol : l.source.column = 0
    · have t3 := t2 b! "file" _ _ (by decide) hfile.toW
      have := t3.obj
      simp only [hcol, ↓reduceIte, List.nil_append, ne_eq, not_true_eq_false, List.append_assoc, List.append_nil,
        List.cons_append, commaSp, nl, keyName_eq (k := b! "mainsource") (by decide), keyName_eq (k := b! "line") (by decide)] at this ⊢
      exact this
    · have t3 := t2.cons (k := b! "file") (by decide) hfile.toW wspl b! "column" _ _ (by decide) (reads_num l.source.column).toW
      have := t3.obj
      simp only [hcol, ↓reduceIte, List.nil_append, ne_eq, not_false_eq_true, List.append_assoc, List.append_nil,
        List.cons_append, commaSp, nl, keyName_eq (k := b! "mainsource") (by decide), keyName_eq (k := b! "line") (by decide),
        keyName_eq (k := b! "column") (by decide)] at this ⊢
      exact this
  · simp only [hp, decide_false, Bool.false_eq_true, ↓reduceIte]
    exact reads_null

theorem reads_prettyRef {r : AsmLabel} (h : NoControl r.name) : Reads (refJson r) (prettyLabelRef r) := by
  have i1 := ReadsTailW.cons (k := b! "endCol") (by decide) ((reads_num r.endCol).ws wsl) wsp ReadsTailW.nil
  have i2 := (i1 b! "startCol" _ _ (by decide) ((reads_num r.startCol).ws wsl)).obj
  have o1 := ReadsTailW.cons (k := b! "range") (by decide) i2.toW wspl ReadsTailW.nil
  have := (o1 b! "name" _ _ (by decide) (reads_escape h).toW).obj
  unfold refJson prettyLabelRef
  simp only [List.nil_append, List.append_assoc, List.append_nil,
        List.cons_append, commaSp, nl, keyName_eq (k := b! "range") (by decide), keyName_eq (k := b! "startCol") (by decide),
        keyName_eq (k := b! "endCol") (by decide)] at this ⊢
  exact this

theorem prettyLine_eq (f : Filter) (l : AsmLine) : prettyLine f l =
    b! "{" ++ nl ++ keyName b! "labels" ++ prettyLabelArray l
  ++ (if l.opcodes.length > 0 then commaSp ++ keyName b! "opcodes" ++ writeOpcodesArray l else [])
  ++ numTextW b! "address" (if f.compatmode = true ∧ l.isLabel = true then none else l.address)
  ++ commaSp ++ keyName b! "source" ++ prettySource f l
  ++ (if !l.sect.isEmpty && !f.compatmode then
        commaSp ++ keyNameEsc b! "section" ++ strValue l.sect ++ nl else [])
  ++ commaSp ++ keyName b! "text" ++ strValue l.text ++ nl
  ++ nl ++ b! "}" := by
  unfold prettyLine
  cases l.address <;> cases f.compatmode <;> cases l.isLabel <;> rfl

theorem reads_prettyLine (f : Filter) {l : AsmLine} (h : LineWritable f l) (hop : ∀ o ∈ l.opcodes, NoEscape o) :
    Reads (lineJson f.compatmode (!f.dontMaskFilenames) l) (prettyLine f l) := by
  have t1 := ReadsTailW.cons (k := b! "text") (by decide) ((reads_escape h.text).ws (w := nl ++ nl) (by decide)) wsp ReadsTailW.nil
  have t2 := t1.opt (k := b! "section") (w := [32]) (¬ (l.sect = [] ∨ f.compatmode = true)) (by decide)
    (fun hs => (reads_escape (h.sect (by simpa using fun hc => hs (.inr hc)))).ws wsl) wsp
  have t3 := t2.cons (k := b! "source") (by decide) (reads_prettySource f l h.file).toW wsp
  have t4 := t3.optNum (k := b! "address") (if f.compatmode = true ∧ l.isLabel = true then none else l.address) (by decide)
  have ho : Reads (.arr (l.opcodes.map .str)) (writeOpcodesArray l) :=
    reads_arr wsp (α := Str) .str (fun o => dq ++ o ++ dq) l.opcodes (fun o ho => reads_raw (hop o ho))
  have t5 := t4.opt (k := b! "opcodes") (w := [32]) (¬ l.opcodes = []) (by decide) (fun _ => ho.toW) wsp
  have hl : Reads (.arr (l.labels.map refJson)) (prettyLabelArray l) :=
    reads_arrW wsnl refJson prettyLabelRef l.labels (fun r hr => (reads_prettyRef (h.refs r hr)).toW)
  have := (t5 b! "labels" _ _ (by decide) hl.toW).objW wsl
  unfold lineJson
  rw [prettyLine_eq]
  have c1 : (if l.opcodes.length > 0 then commaSp ++ keyName b! "opcodes" ++ writeOpcodesArray l else []) =
      (if ¬ l.opcodes = [] then 44 :: [32] ++ keyNameEsc b! "opcodes" ++ writeOpcodesArray l else []) := by
    by_cases he : l.opcodes = []
    · simp [he]
    · have : l.opcodes.length > 0 := List.length_pos_iff.2 he
      simp [he, this, commaSp, keyName_eq (k := b! "opcodes") (by decide)]
  have c2 : (if (!l.sect.isEmpty && !f.compatmode) = true then commaSp ++ keyNameEsc b! "section" ++ strValue l.sect ++ nl else []) =
      (if ¬ (l.sect = [] ∨ f.compatmode = true) then 44 :: [32] ++ keyNameEsc b! "section" ++ (strValue l.sect ++ nl) else []) := by
    by_cases he : l.sect = [] <;> cases f.compatmode <;> simp [he, commaSp]
  rw [c1, c2]
  have d1 : ∀ (x : List (Str × JVal)), (if l.opcodes = [] then [] else x) = if ¬ l.opcodes = [] then x else [] := by
    intro x; by_cases he : l.opcodes = [] <;> simp [he]
  have d2 : ∀ (x : List (Str × JVal)), (if l.sect = [] ∨ f.compatmode = true then [] else x) = if ¬ (l.sect = [] ∨ f.compatmode = true) then x else [] := by
    intro x; by_cases he : l.sect = [] ∨ f.compatmode = true <;> simp [he]
  rw [d1, d2]
  simp only [List.nil_append, List.append_assoc, List.append_nil,
        List.cons_append, commaSp, nl, keyName_eq (k := b! "labels") (by decide), keyName_eq (k := b! "source") (by decide), keyName_eq (k := b! "text") (by decide)] at this ⊢
  exact this

theorem prettyLabelDef_eq (ds : List LabelPair) :
    ds.map prettyLabelDef = ds.map fun p => keyNameEsc p.1 ++ (intToDec p.2 ++ nl) :=
  List.map_congr_left fun p _ => by unfold prettyLabelDef; rw [List.append_assoc]

theorem reads_prettyDocument (d : JsonDoc) (hl : ∀ l ∈ d.lines, LineWritable d.filter l)
    (hop : ∀ l ∈ d.lines, ∀ o ∈ l.opcodes, NoEscape o) (hd : ∀ p ∈ d.labels, NoControl p.1) :
    ReadsW (documentJson d.filter d.lines d.labels (if d.reproducible then none else some d.time) d.filteredCount) d.writePretty := by
  have t1 := ReadsTailW.cons (k := b! "filteredCount") (by decide) ((reads_num d.filteredCount).ws wsl) wsp ReadsTailW.nil
  have t2 := t1.optNum (k := b! "parsingTime") (if d.reproducible then none else some d.time) (by decide)
  have hlab := reads_objW wsp wsl (fun p : LabelPair => p.1) (fun p => .num p.2) (fun p => intToDec p.2 ++ nl) d.labels hd
    (fun p _ => (reads_num p.2).ws wsl)
  have t3 := t2.cons (k := b! "labelDefinitions") (by decide) hlab.toW wsn
  have hasm := reads_arrW wsnl (lineJson d.filter.compatmode (!d.filter.dontMaskFilenames)) (prettyLine d.filter) d.lines
    (fun l h => (reads_prettyLine d.filter (hl l h) (hop l h)).toW)
  have := (t3 b! "asm" _ _ (by decide) hasm.toW).obj.ws wsl
  unfold documentJson JsonDoc.writePretty
  have d1 : (if d.reproducible then [] else commaSp ++ keyName b! "parsingTime" ++ intToDec d.time ++ nl) =
      numTextW b! "parsingTime" (if d.reproducible then none else some d.time) := by
    cases d.reproducible
    · simp [numTextW, commaSp, keyName_eq (k := b! "parsingTime") (by decide)]
    · rfl
  rw [d1, prettyLabelDef_eq]
  simp only [List.nil_append, List.append_assoc, List.append_nil,
        List.cons_append, commaSp, nl, keyName_eq (k := b! "asm") (by decide), keyName_eq (k := b! "labelDefinitions") (by decide), keyName_eq (k := b! "filteredCount") (by decide)] at this ⊢
  exact this

theorem reads_prettyDebugLine (f : Filter) {l : AsmLine} (h : DebugWritable f l) :
    Reads (debugLineJson (!f.dontMaskFilenames) l) (prettyDebugLine f l) := by
  have hl : Reads (.arr (l.labels.map refJson)) (b! "[" ++ (sepBy (b! "," ++ nl) (l.labels.map prettyLabelRef) ++ b! "]")) :=
    reads_arrW wsnl refJson prettyLabelRef l.labels (fun r hr => (reads_prettyRef (h.refs r hr)).toW)
  have t := ReadsTailW.cons (k := b! "labels") (by decide) (hl.ws wsl) wsnl ReadsTailW.nil
  have t := t.cons (k := b! "source") (by decide) (reads_prettySource f l h.file).toW wspl
  have t := t.cons (k := b! "is_assignment") (by decide) (reads_flag l.isAssignment).toW wspl
  have t := t.cons (k := b! "is_directive") (by decide) (reads_flag l.isDirective).toW wspl
  have t := t.cons (k := b! "has_opcode") (by decide) (reads_flag l.hasOpcode).toW wspl
  have t := t.cons (k := b! "section") (by decide) (reads_escape h.sect).toW wspl
  have t := t.cons (k := b! "closest_parent_label") (by decide) (reads_escape h.parent).toW wspl
  have t := t.cons (k := b! "is_inline_asm") (by decide) (reads_flag l.isInlineAsm).toW wspl
  have t := t.cons (k := b! "is_internal_label") (by decide) (reads_flag l.isInternalLabel).toW wspl
  have t := t.cons (k := b! "is_label") (by decide) (reads_flag l.isLabel).toW wspl
  have t := t.cons (k := b! "is_used") (by decide) (reads_flag l.isUsed).toW wspl
  have t := t.cons (k := b! "is_data") (by decide) (reads_flag l.isData).toW wspl
  have t := t.cons (k := b! "address") (by decide) (reads_address l.address).toW wspl
  have := (t b! "text" _ _ (by decide) (reads_escape h.text).toW).obj
  unfold debugLineJson
  have e : prettyDebugLine f l = b! "{" ++ keyName b! "text" ++ strValue l.text ++ commaSp ++ nl
      ++ keyName b! "address" ++ addressText l.address ++ commaSp ++ nl
      ++ prettyFlags l
      ++ keyName b! "source" ++ prettySource f l ++ b! ",\n"
      ++ keyName b! "labels" ++ b! "[" ++ sepBy (b! "," ++ nl) (l.labels.map prettyLabelRef) ++ b! "]"
      ++ nl ++ b! "}" := by
    unfold prettyDebugLine addressText
    cases l.address <;> rfl
  rw [e]
  unfold prettyFlags
  simp only [List.nil_append, List.append_assoc, List.append_nil, List.cons_append, commaSp, nl,
    keyName_eq (k := b! "text") (by decide), keyName_eq (k := b! "address") (by decide),
    keyName_eq (k := b! "is_data") (by decide), keyName_eq (k := b! "is_used") (by decide),
    keyName_eq (k := b! "is_label") (by decide), keyName_eq (k := b! "is_internal_label") (by decide),
    keyName_eq (k := b! "is_inline_asm") (by decide), keyName_eq (k := b! "closest_parent_label") (by decide),
    keyName_eq (k := b! "has_opcode") (by decide), keyName_eq (k := b! "is_directive") (by decide),
    keyName_eq (k := b! "is_assignment") (by decide), keyName_eq (k := b! "source") (by decide),
    keyName_eq (k := b! "labels") (by decide)] at this ⊢
  exact this

theorem reads_prettyRefs {rs : List Str} (h : ∀ r ∈ rs, NoControl r) :
    Reads (refsJson rs) (b! "[" ++ sepBy commaSp (rs.map fun r => strValue r ++ nl) ++ b! "]") :=
  reads_arrW wsp (α := Str) .str (fun r => strValue r ++ nl) rs fun r hr => (reads_escape (h r hr)).ws wsl

theorem reads_prettyTable {m : List (Str × List Str)} (h : TablePrintable m) :
    Reads (.obj (m.map fun e => (e.1, refsJson e.2))) (b! "{" ++ (sepBy b! "," (m.map prettyRefs) ++ b! "}")) :=
  reads_obj_sep wsn (fun e : Str × List Str => e.1) (fun e => refsJson e.2)
    (fun e => b! "[" ++ sepBy commaSp (e.2.map fun r => strValue r ++ nl) ++ b! "]") m (fun e he => (h e he).1)
    fun e he => reads_prettyRefs (h e he).2

theorem reads_prettyDebug (d : DebugDoc) (hl : ∀ l ∈ d.lines, DebugWritable d.filter l) (hd : ∀ e ∈ d.labels, NoControl e.1)
    (hu : TablePrintable d.used) (hw : TablePrintable d.weaklyUsed) (ht : TablePrintable d.dataUsed)
    (ha : ∀ e ∈ d.aliased, NoControl e.1 ∧ NoControl e.2) : ReadsW (debugJson d) d.writePretty := by
  have halias := reads_objW wsp wsn (fun e : Str × Str => e.1) (fun e => .str e.2) (fun e => strValue e.2 ++ nl) d.aliased
    (fun e he => (ha e he).1) fun e he => (reads_escape (ha e he).2).ws wsl
  have hused : Reads (.arr (d.used.map fun e => .obj [(e.1, refsJson e.2)]))
      (b! "[" ++ (sepBy b! "," (d.used.map fun e => b! "{" ++ prettyRefs e ++ b! "}") ++ b! "]")) := by
    refine reads_arr wsn _ _ _ fun e he => ?_
    have := (ReadsTail.nil e.1 _ _ (hu e he).1 (reads_prettyRefs (hu e he).2)).obj
    simp only [List.append_nil, List.append_assoc, List.cons_append, List.nil_append, prettyRefs] at this ⊢
    exact this
  have hlab := reads_objW wsp wsl (fun p : LabelPair => p.1) (fun p => .num p.2) (fun p => intToDec p.2 ++ nl) d.labels hd
    (fun p _ => (reads_num p.2).ws wsl)
  have hasm := reads_arrW wsnl (debugLineJson (!d.filter.dontMaskFilenames)) (prettyDebugLine d.filter) d.lines
    (fun l h => (reads_prettyDebugLine d.filter (hl l h)).toW)
  have t := ReadsTailW.cons (k := b! "aliased_labels") (by decide) halias.toW wsnl ReadsTailW.nil
  have t := t.cons (k := b! "used_data_labels") (by decide) (reads_prettyTable ht).toW wsnl
  have t := t.cons (k := b! "used_weak_labels") (by decide) (reads_prettyTable hw).toW wsnl
  have t := t.cons (k := b! "used_labels") (by decide) hused.toW wsnl
  have t := t.cons (k := b! "labelDefinitions") (by decide) hlab.toW wsn
  have := (t b! "asm" _ _ (by decide) hasm.toW).obj.ws wsl
  unfold debugJson DebugDoc.writePretty
  rw [prettyLabelDef_eq]
  have e : (d.aliased.map fun e => keyNameEsc e.1 ++ strValue e.2 ++ nl) = d.aliased.map fun e => keyNameEsc e.1 ++ (strValue e.2 ++ nl) :=
    List.map_congr_left fun p _ => by rw [List.append_assoc]
  rw [e]
  simp only [List.nil_append, List.append_assoc, List.append_nil, List.cons_append, commaSp, nl,
    keyName_eq (k := b! "asm") (by decide), keyName_eq (k := b! "labelDefinitions") (by decide),
    keyName_eq (k := b! "used_labels") (by decide), keyName_eq (k := b! "used_weak_labels") (by decide),
    keyName_eq (k := b! "used_data_labels") (by decide), keyName_eq (k := b! "aliased_labels") (by decide)] at this ⊢
  exact this

/-! ### Line ends -/

/-- The text without line ends. -/
def noBreaks (s : Str) : Str := s.filter (· ≠ 10)

theorem noBreaks_append (a b : Str) : noBreaks (a ++ b) = noBreaks a ++ noBreaks b := List.filter_append ..

theorem noBreaks_nl : noBreaks nl = [] := rfl

theorem noBreaks_if (b : Prop) [Decidable b] (x : Str) : noBreaks (if b then x else []) = if b then noBreaks x else [] := by
  split <;> rfl

theorem noBreaks_sep {s s' : Str} (h : noBreaks s = noBreaks s') {α : Type} (g g' : α → Str) (xs : List α)
    (hg : ∀ x, noBreaks (g x) = noBreaks (g' x)) : noBreaks (sepBy s (xs.map g)) = noBreaks (sepBy s' (xs.map g')) := by
  induction xs with
  | nil => rfl
  | cons x xs ih =>
    cases xs with
    | nil => exact hg x
    | cons y ys =>
      simp only [List.map_cons, sepBy, noBreaks_append] at ih ⊢
      rw [hg x, h, ih]

theorem noBreaks_source (f : Filter) (l : AsmLine) : noBreaks (prettySource f l) = noBreaks (writeSource f l) := by
  unfold prettySource writeSource
  split
  · cases sourceFileField f l.source.file <;> by_cases hc : l.source.column = 0 <;>
      simp only [hc, noBreaks_append, noBreaks_nl, List.append_nil, ne_eq, not_true_eq_false, not_false_eq_true, if_true, if_false]
  · rfl

theorem noBreaks_ref (r : AsmLabel) : noBreaks (prettyLabelRef r) = noBreaks (writeLabelRef r) := by
  simp only [prettyLabelRef, writeLabelRef, noBreaks_append, noBreaks_nl, List.append_nil]

theorem noBreaks_refs (rs : List AsmLabel) :
    noBreaks (sepBy (b! "," ++ nl) (rs.map prettyLabelRef)) = noBreaks (sepBy b! "," (rs.map fun r => writeLabelRef r)) :=
  noBreaks_sep (by rw [noBreaks_append, noBreaks_nl, List.append_nil]) _ _ rs noBreaks_ref

theorem noBreaks_line (f : Filter) (l : AsmLine) : noBreaks (prettyLine f l) = noBreaks (writeLine f l) := by
  unfold prettyLine writeLine prettyLabelArray writeLabelArray
  have h1 := noBreaks_refs l.labels
  have h2 := noBreaks_source f l
  cases l.address <;> simp only [noBreaks_append, noBreaks_nl, noBreaks_if, List.append_nil] at h1 ⊢ <;> rw [h1, h2]

theorem noBreaks_labels (ds : List LabelPair) :
    noBreaks (sepBy commaSp (ds.map prettyLabelDef)) = noBreaks (sepBy commaSp (ds.map fun d => writeLabelDef d)) :=
  noBreaks_sep rfl _ _ ds fun d => by simp [prettyLabelDef, writeLabelDef, noBreaks_append, noBreaks_nl]

theorem noBreaks_document (d : JsonDoc) : noBreaks d.writePretty = noBreaks d.write := by
  have h1 : noBreaks (sepBy (b! "," ++ nl) (d.lines.map (prettyLine d.filter))) = noBreaks (sepBy b! "," (d.lines.map (writeLine d.filter))) :=
    noBreaks_sep (by rw [noBreaks_append, noBreaks_nl, List.append_nil]) _ _ _ (noBreaks_line d.filter)
  have h2 := noBreaks_labels d.labels
  unfold JsonDoc.writePretty JsonDoc.write
  cases d.reproducible <;> simp only [noBreaks_append, noBreaks_nl, List.append_nil, Bool.false_eq_true, if_false, if_true] at h1 ⊢ <;> rw [h1, h2]

theorem noBreaks_debugLine (f : Filter) (l : AsmLine) : noBreaks (prettyDebugLine f l) = noBreaks (writeDebugLine f l) := by
  have h1 := noBreaks_refs l.labels
  have h2 := noBreaks_source f l
  unfold prettyDebugLine writeDebugLine prettyFlags debugFlags
  cases l.address <;> simp only [noBreaks_append, noBreaks_nl, List.append_nil] at h1 ⊢ <;> rw [h1, h2]

theorem noBreaks_tableRefs (e : Str × List Str) : noBreaks (prettyRefs e) = noBreaks (writeRefs e) := by
  have : noBreaks (sepBy commaSp (e.2.map fun r => strValue r ++ nl)) = noBreaks (sepBy commaSp (e.2.map strValue)) :=
    noBreaks_sep rfl _ _ _ fun r => by rw [noBreaks_append, noBreaks_nl, List.append_nil]
  simp only [prettyRefs, writeRefs, noBreaks_append, this]

theorem noBreaks_debug (d : DebugDoc) : noBreaks d.writePretty = noBreaks d.write := by
  have h1 : noBreaks (sepBy (b! "," ++ nl) (d.lines.map (prettyDebugLine d.filter))) =
      noBreaks (sepBy b! "," (d.lines.map fun l => writeDebugLine d.filter l)) :=
    noBreaks_sep (by rw [noBreaks_append, noBreaks_nl, List.append_nil]) _ _ _ (noBreaks_debugLine d.filter)
  have h2 := noBreaks_labels d.labels
  have h3 : noBreaks (sepBy b! "," (d.used.map fun e => b! "{" ++ prettyRefs e ++ b! "}")) =
      noBreaks (sepBy b! "," (d.used.map fun e => b! "{" ++ writeRefs e ++ b! "}")) :=
    noBreaks_sep rfl _ _ _ fun e => by simp only [noBreaks_append, noBreaks_tableRefs]
  have h4 : ∀ m : List (Str × List Str), noBreaks (sepBy b! "," (m.map prettyRefs)) = noBreaks (sepBy b! "," (m.map writeRefs)) :=
    fun m => noBreaks_sep rfl _ _ m noBreaks_tableRefs
  have h5 : noBreaks (sepBy commaSp (d.aliased.map fun e => keyNameEsc e.1 ++ strValue e.2 ++ nl)) =
      noBreaks (sepBy commaSp (d.aliased.map fun e => keyNameEsc e.1 ++ strValue e.2)) :=
    noBreaks_sep rfl _ _ _ fun e => by simp only [noBreaks_append, noBreaks_nl, List.append_nil]
  unfold DebugDoc.writePretty DebugDoc.write
  simp only [noBreaks_append, noBreaks_nl, List.append_nil] at h1 h5 ⊢
  rw [h1, h2, h3, h4, h4, h5]

end AsmParser

/-
Helper lemmas: invariants of the lines of text mode.
-/
import Verif.Proofs.TextFacts

namespace AsmParser

attribute [local irreducible] Re.search Re.fullMatch

theorem handleSourceDirectives_form (p : TParser) (ln : TLine) (h : (p.handleSourceDirectives ln).2 = true) :
    SourceDirective ln.text := by
  unfold TParser.handleSourceDirectives at h
  split at h
  · exact absurd h (by simp)
  · split at h
    · rename_i q hq
      unfold TParser.handleFiledef at hq
      rw [Option.map_eq_some_iff] at hq
      obtain ⟨d, hd, -⟩ := hq
      exact fileDef_form hd
    · split at h
      · rename_i q hq
        apply sourceRef_form
        unfold TParser.handleSource at hq
        generalize getSourceRef ln.text = r at hq
        simp only at hq
        split at hq
        · assumption
        · exact absurd hq (by simp)
      · split at h
        · rename_i q hq
          unfold TParser.handleStabs at hq
          rw [Option.map_eq_some_iff] at hq
          obtain ⟨d, hd, -⟩ := hq
          exact stabs_form hd
        · split at h
          · rename_i q hq
            unfold TParser.handle6502 at hq
            rw [Option.map_eq_some_iff] at hq
            obtain ⟨d, hd, -⟩ := hq
            exact dbg6502_form hd
          · split at h
            · rename_i q hq
              unfold TParser.handleD2 at hq
              split at hq
              · exact d2Line_form ‹_›
              · rw [Option.map_eq_some_iff] at hq
                obtain ⟨d, hd, -⟩ := hq
                exact d2File_form hd
            · exact absurd h (by simp)

theorem handled_form (p : TParser) (h : p.handled = true) : SourceDirective p.newLine.text :=
  handleSourceDirectives_form p.pre p.newLine h

theorem noSrc_text {a b : TLine} (h : a.noSrc = b.noSrc) : a.text = b.text := by
  have := congrArg TLine.text h; exact this
theorem noSrc_isLabel {a b : TLine} (h : a.noSrc = b.noSrc) : a.isLabel = b.isLabel := by
  have := congrArg TLine.isLabel h; exact this
theorem noSrc_label {a b : TLine} (h : a.noSrc = b.noSrc) : a.label = b.label := by
  have := congrArg TLine.label h; exact this

/-- Some line is a CUDA header. -/
def HasCuda (ls : List TLine) : Prop := ∃ l ∈ ls, ∃ k, CudaHeader l.text k

theorem hasCuda_amended {a b : List TLine} (h : Amended a b) (hc : HasCuda a) : HasCuda b := by
  obtain ⟨l, hl, k, hk⟩ := hc
  obtain ⟨l', hl', e⟩ := Amended.mem (a := b) (b := a) h.symm hl
  have : l'.text = l.text := noSrc_text e
  exact ⟨l', hl', k, by rw [this]; exact hk⟩

theorem hasCuda_append {a b : List TLine} (h : HasCuda a) : HasCuda (a ++ b) := by
  obtain ⟨l, hl, h⟩ := h
  exact ⟨l, List.mem_append_left _ hl, h⟩

/-- Facts about a stored line that is not blank; `done` are the input lines so far, `cuda` says whether there is a CUDA header. -/
structure LineFact (L : Locale) (f : Filter) (done : List Str) (cuda : Prop) (l : TLine) : Prop where
  lib : f.libraryFunctions = false
  raw : ∃ n ws raw, Blanks ws ∧ raw ∈ done ∧ nonBlanks raw ≠ [] ∧ l.text = lineText f n (ws ++ raw) ∧
    l.isInlineAsm = decide (n > 0) ∧ (f.commentOnly = true → startCommentBlock (ws ++ raw) = false ∧
      (isJustComments (ws ++ raw) = false ∨ cuda))
  text : l.text ≠ []
  label : (l.isLabel = true ∧ ∃ c, getLabelFromLine l.text = some (l.label, l.isAssignment, c)) ∨
    (l.isLabel = false ∧ l.label = [] ∧ l.isAssignment = false ∧ (SourceDirective l.text ∨ getLabelFromLine l.text = none))
  internal : l.isInternalLabel = (l.isLabel && isInternalLabel l.label)
  data : l.isData = true → isDataDefn l.text = true
  data' : isDataDefn l.text = true → l.isData = true ∨ SourceDirective l.text
  directive : f.directives = true → l.isLabel = true ∨ l.isData = true ∨ isInstOpcode l.text = true ∨ isDirective l.text = false ∨ cuda
  refs : ∃ nv, (nv = true → cuda) ∧ l.labels =
    if (!l.isLabel && (hasOpcode l.text nv || l.isData)) = true then getUsedLabelsInLine L l.text else []

theorem LineFact.mono {L : Locale} {f : Filter} {done : List Str} {cuda : Prop} {l : TLine} (h : LineFact L f done cuda l)
    {done' : List Str} {cuda' : Prop} (hd : ∀ x ∈ done, x ∈ done') (hc : cuda → cuda') : LineFact L f done' cuda' l := by
  obtain ⟨h0, ⟨n, ws, raw, a1, a2, a3, a4, a5, a6⟩, h2, h3, h4, h5, h6, h7, h8⟩ := h
  exact ⟨h0, ⟨n, ws, raw, a1, hd _ a2, a3, a4, a5, fun h => ⟨(a6 h).1, (a6 h).2.imp_right hc⟩⟩, h2, h3, h4, h5, h6,
    fun h => (h7 h).imp_right fun h => h.imp_right fun h => h.imp_right fun h => h.imp_right hc,
    h8.imp fun _ h => ⟨fun h' => hc (h.1 h'), h.2⟩⟩

theorem LineFact.noSrc {L : Locale} {f : Filter} {done : List Str} {cuda : Prop} {l : TLine} :
    LineFact L f done cuda l ↔ LineFact L f done cuda l.noSrc :=
  ⟨fun ⟨a, b, c, d, e, g, h, i, j⟩ => ⟨a, b, c, d, e, g, h, i, j⟩, fun ⟨a, b, c, d, e, g, h, i, j⟩ => ⟨a, b, c, d, e, g, h, i, j⟩⟩

/-- A stored line: blank, or as described above. -/
def LineOk (L : Locale) (f : Filter) (done : List Str) (cuda : Prop) (l : TLine) : Prop :=
  l.noSrc = { id := l.id } ∨ LineFact L f done cuda l

theorem LineOk.noSrc {L : Locale} {f : Filter} {done : List Str} {cuda : Prop} (l : TLine) :
    LineOk L f done cuda l ↔ LineOk L f done cuda l.noSrc := by
  unfold LineOk
  rw [← LineFact.noSrc]
  exact Iff.rfl

/-- The table of defined labels agrees with the lines. -/
structure TableOk (lines : List TLine) (table : List (Str × Nat)) : Prop where
  sound : ∀ e ∈ table, 1 ≤ e.2 ∧ ∃ l, lines[e.2 - 1]? = some l ∧ l.isLabel = true ∧ l.label = e.1
  complete : ∀ l ∈ lines, l.isLabel = true → (table.lookup l.label).isSome = true
  nodup : (table.map (·.1)).Nodup
  last : ∀ a k, table.lookup a = some k → ∀ i l, lines[i]? = some l → l.isLabel = true → l.label = a → i < k

theorem assocSet_mem {k : Str} {v : Nat} {m : List (Str × Nat)} {e : Str × Nat} (h : e ∈ assocSet k v m) : e = (k, v) ∨ e ∈ m := by
  induction m with
  | nil => exact .inl (by simpa [assocSet] using h)
  | cons a m ih =>
    obtain ⟨k', v'⟩ := a
    unfold assocSet at h
    split at h
    · rename_i hk
      have : k' = k := by simpa using hk
      subst this
      rcases List.mem_cons.1 h with h | h
      · exact .inl h
      · exact .inr (List.mem_cons_of_mem _ h)
    · rcases List.mem_cons.1 h with h | h
      · exact .inr (by simp [h])
      · exact (ih h).imp_right fun h => List.mem_cons_of_mem _ h

theorem assocSet_lookup {k k' : Str} {v : Nat} {m : List (Str × Nat)} :
    (assocSet k v m).lookup k' = if k' = k then some v else m.lookup k' := by
  induction m with
  | nil =>
    unfold assocSet
    rw [List.lookup_cons]
    by_cases h : k' = k
    · subst h; simp
    · rw [if_neg h]
      have : (k' == k) = false := by simpa using h
      rw [this]
  | cons a m ih =>
    obtain ⟨k2, v2⟩ := a
    unfold assocSet
    split
    · rename_i hk
      have : k2 = k := by simpa using hk
      subst this
      rw [List.lookup_cons, List.lookup_cons]
      by_cases h : k' = k2
      · subst h; simp
      · have : (k' == k2) = false := by simpa using h
        rw [this, if_neg h]
    · rename_i hk
      rw [List.lookup_cons, List.lookup_cons, ih]
      by_cases h : k' = k2
      · subst h
        have : ¬ k' = k := by simpa using hk
        simp [this]
      · have : (k' == k2) = false := by simpa using h
        rw [this]

theorem assocSet_keys {k : Str} {v : Nat} {m : List (Str × Nat)} :
    (assocSet k v m).map (·.1) = if k ∈ m.map (·.1) then m.map (·.1) else m.map (·.1) ++ [k] := by
  induction m with
  | nil => simp [assocSet]
  | cons a m ih =>
    obtain ⟨k2, v2⟩ := a
    unfold assocSet
    split
    · rename_i hk
      have : k2 = k := by simpa using hk
      subst this
      simp
    · rename_i hk
      have hk : ¬ k2 = k := by simpa using hk
      simp only [List.map_cons, ih, List.mem_cons]
      by_cases h : k ∈ m.map (·.1)
      · rw [if_pos h, if_pos (.inr h)]
      · rw [if_neg h, if_neg]
        · rfl
        · rintro (h' | h')
          · exact hk h'.symm
          · exact h h'

theorem assocSet_nodup {k : Str} {v : Nat} {m : List (Str × Nat)} (h : (m.map (·.1)).Nodup) : ((assocSet k v m).map (·.1)).Nodup := by
  rw [assocSet_keys]
  split
  · exact h
  · rename_i hk
    rw [List.nodup_append]
    refine ⟨h, by simp, ?_⟩
    intro a ha b hb
    have : b = k := by simpa using hb
    subst this
    rintro rfl
    exact hk ha

theorem TableOk.amended {a b : List TLine} {t : List (Str × Nat)} (h : TableOk a t) (am : Amended a b) : TableOk b t := by
  refine ⟨fun e he => ?_, fun l hl hlab => ?_, h.nodup, fun x k hk i l hi hlab hx => ?_⟩
  · obtain ⟨h1, l, h2, h3, h4⟩ := h.sound e he
    have h5 : (a.map TLine.noSrc)[e.2 - 1]? = some l.noSrc := by rw [List.getElem?_map, h2]; rfl
    rw [show a.map TLine.noSrc = b.map TLine.noSrc from am, List.getElem?_map, Option.map_eq_some_iff] at h5
    obtain ⟨l', h6, h7⟩ := h5
    refine ⟨h1, l', h6, ?_, ?_⟩
    · rw [← h3]; exact noSrc_isLabel h7
    · rw [← h4]; exact noSrc_label h7
  · obtain ⟨l', h1, h2⟩ := am.mem hl
    have e1 : l'.isLabel = l.isLabel := noSrc_isLabel h2
    have e2 : l'.label = l.label := noSrc_label h2
    rw [← e2]
    exact h.complete l' h1 (e1.trans hlab)
  · have h5 : (b.map TLine.noSrc)[i]? = some l.noSrc := by rw [List.getElem?_map, hi]; rfl
    rw [← show a.map TLine.noSrc = b.map TLine.noSrc from am, List.getElem?_map, Option.map_eq_some_iff] at h5
    obtain ⟨l', h6, h7⟩ := h5
    exact h.last x k hk i l' h6 ((noSrc_isLabel h7).trans hlab) ((noSrc_label h7).trans hx)

theorem TableOk.append {a : List TLine} {t : List (Str × Nat)} (h : TableOk a t) (l : TLine) (hl : l.isLabel = false) :
    TableOk (a ++ [l]) t := by
  refine ⟨fun e he => ?_, fun l' hl' hlab => ?_, h.nodup, fun x k hk i l' hi hlab hx => ?_⟩
  · obtain ⟨h1, l', h2, h3⟩ := h.sound e he
    refine ⟨h1, l', ?_, h3⟩
    rw [List.getElem?_append_left (List.getElem?_eq_some_iff.1 h2).1, h2]
  · rcases List.mem_append.1 hl' with h' | h'
    · exact h.complete l' h' hlab
    · have : l' = l := by simpa using h'
      subst this
      rw [hl] at hlab
      exact absurd hlab (by simp)
  · by_cases hn : i < a.length
    · rw [List.getElem?_append_left hn] at hi
      exact h.last x k hk i l' hi hlab hx
    · rw [List.getElem?_append_right (by omega), List.getElem?_singleton] at hi
      split at hi
      · simp only [Option.some.injEq] at hi
        rw [← hi, hl] at hlab
        exact absurd hlab (by simp)
      · exact absurd hi (by simp)

theorem TableOk.label {a : List TLine} {t : List (Str × Nat)} (h : TableOk a t) (l : TLine) (hl : l.isLabel = true) :
    TableOk (a ++ [l]) (assocSet l.label (a.length + 1) t) := by
  refine ⟨fun e he => ?_, fun l' hl' hlab => ?_, assocSet_nodup h.nodup, fun x k hk i l' hi hlab hx => ?_⟩
  · rcases assocSet_mem he with rfl | he
    · exact ⟨by simp, l, by simp, hl, rfl⟩
    · obtain ⟨h1, l', h2, h3⟩ := h.sound e he
      refine ⟨h1, l', ?_, h3⟩
      rw [List.getElem?_append_left (List.getElem?_eq_some_iff.1 h2).1, h2]
  · rw [assocSet_lookup]
    split
    · rfl
    · rcases List.mem_append.1 hl' with h' | h'
      · exact h.complete l' h' hlab
      · have : l' = l := by simpa using h'
        subst this
        exact absurd rfl ‹_›
  · have hlen : i < (a ++ [l]).length := (List.getElem?_eq_some_iff.1 hi).1
    rw [List.length_append, List.length_singleton] at hlen
    rw [assocSet_lookup] at hk
    split at hk
    · simp only [Option.some.injEq] at hk
      omega
    · rename_i hne
      by_cases hn : i < a.length
      · rw [List.getElem?_append_left hn] at hi
        exact h.last x k hk i l' hi hlab hx
      · rw [List.getElem?_append_right (by omega), show i - a.length = 0 by omega] at hi
        simp only [List.getElem?_cons_zero, Option.some.injEq] at hi
        rw [← hi] at hx
        exact absurd hx.symm hne

/-- No two consecutive blank lines. -/
def NoDoubleBlank : Bool → List TLine → Prop
  | _, [] => True
  | prevBlank, l :: ls => (l.text = [] → prevBlank = false) ∧ NoDoubleBlank (decide (l.text = [])) ls

theorem noDoubleBlank_append {b : Bool} {ls : List TLine} {l : TLine} (h : NoDoubleBlank b ls)
    (hl : l.text = [] → (∀ l' ∈ ls.getLast?, l'.text ≠ []) ∧ (ls = [] → b = false)) : NoDoubleBlank b (ls ++ [l]) := by
  induction ls generalizing b with
  | nil => exact ⟨fun e => (hl e).2 rfl, trivial⟩
  | cons a ls ih =>
    refine ⟨h.1, ih h.2 fun e => ⟨fun l' hl' => (hl e).1 l' ?_, ?_⟩⟩
    · cases ls with
      | nil => simp at hl'
      | cons x xs => simpa using hl'
    · rintro rfl
      have := (hl e).1 a (by simp)
      simpa using this

theorem noDoubleBlank_text {b : Bool} {x y : List TLine} (h : x.map TLine.text = y.map TLine.text) (hx : NoDoubleBlank b x) :
    NoDoubleBlank b y := by
  induction x generalizing b y with
  | nil => cases y with
    | nil => trivial
    | cons _ _ => simp at h
  | cons a x ih => cases y with
    | nil => simp at h
    | cons c y =>
      simp only [List.map_cons, List.cons.injEq] at h
      refine ⟨by rw [← h.1]; exact hx.1, ?_⟩
      rw [← h.1]
      exact ih h.2 hx.2

theorem amended_text {a b : List TLine} (h : Amended a b) : a.map TLine.text = b.map TLine.text := h.map _ fun _ => rfl

/-- The invariant. -/
structure TextInv (L : Locale) (f : Filter) (done : List Str) (p : TParser) : Prop where
  carry : Blanks p.st.text
  lines : ∀ l ∈ p.lines, LineOk L f done (HasCuda p.lines) l
  cuda : (p.st.inNvccDef = true ∨ p.st.inNvccCode = true) → HasCuda p.lines
  table : TableOk p.lines p.labelsDefined
  blanks : NoDoubleBlank true p.lines
  lib : f.libraryFunctions = true → p.lines = []

theorem lineOk_step {L : Locale} {f : Filter} {done done' : List Str} {a b : List TLine} (am : Amended a b)
    (h : ∀ l ∈ a, LineOk L f done (HasCuda a) l) (hd : ∀ x ∈ done, x ∈ done') {b' : List TLine} (hc : HasCuda b → HasCuda b') :
    ∀ l ∈ b, LineOk L f done' (HasCuda b') l := by
  refine am.forall LineOk.noSrc fun l hl => ?_
  exact (h l hl).imp_right fun h => h.mono hd fun h' => hc (hasCuda_amended am h')

theorem textInv_step (L : Locale) (f : Filter) (done : List Str) (p : TParser) (l : Str) (hf : p.filter = f)
    (h : TextInv L f done p) (hs : EolStep L (p.addText l) ((p.addText l).eol L)) :
    TextInv L f (done ++ [l]) ((p.addText l).eol L) := by
  have hcl : (p.addText l).lines = p.lines := rfl
  have hfl : (p.addText l).filter = f := hf
  have hd : ∀ x ∈ done, x ∈ done ++ [l] := fun x hx => List.mem_append_left _ hx
  have hlib : f.libraryFunctions = true → ((p.addText l).eol L).lines = [] := by
    intro h'
    refine (hs.basic.lib ?_).1
    rw [hs.filter, hfl]; exact h'
  have hcuda' : HasCuda p.lines → HasCuda ((p.addText l).eol L).lines := by
    intro hc
    rcases hs.lines with ⟨-, am, -, -⟩ | ⟨l', -, -, eq, -, -⟩ | ⟨ls, am, ln, eq, -⟩
    · exact hasCuda_amended am hc
    · rw [eq]; exact hasCuda_append hc
    · rw [eq]; exact hasCuda_append (hasCuda_amended am hc)
  have hcuda : (((p.addText l).eol L).st.inNvccDef = true ∨ ((p.addText l).eol L).st.inNvccCode = true) →
      HasCuda ((p.addText l).eol L).lines := by
    intro hn
    rcases hs.cuda hn with hn | hn | ⟨ln, h1, k, a, h2⟩
    · exact hcuda' (h.cuda (.inl hn))
    · exact hcuda' (h.cuda (.inr hn))
    · exact ⟨ln, h1, k, getLabelFromLine_cuda h2⟩
  refine ⟨carry_step hs, ?_, hcuda, ?_, ?_, hlib⟩
  · rcases hs.lines with ⟨-, am, -, -⟩ | ⟨l', -, -, eq, -, -⟩ | ⟨ls, am, ln, eq, kept⟩
    · exact lineOk_step am h.lines hd id
    · rw [eq]
      intro x hx
      rcases List.mem_append.1 hx with hx | hx
      · exact lineOk_step (.refl _) h.lines hd hasCuda_append x hx
      · have : x = { id := (p.addText l).nextId + 1 } := by simpa using hx
        subst this
        exact .inl rfl
    · intro x hx
      rw [eq] at hx
      rcases List.mem_append.1 hx with hx | hx
      · exact lineOk_step am h.lines hd (fun h' => by rw [eq]; exact hasCuda_append h') x hx
      · have : x = ln := by simpa using hx
        subst this
        right
        have hc0 : p.st.inNvccCode = false ∨ HasCuda ((p.addText l).eol L).lines := by
          cases hn : p.st.inNvccCode
          · exact .inl rfl
          · exact .inr (hcuda' (h.cuda (.inr hn)))
        have hraw := kept.raw
        constructor
        · have := kept.lib; rwa [hfl] at this
        · refine ⟨(p.addText l).nested.st.inCustomAssembly, p.st.text, l, h.carry, by simp, ?_, ?_, kept.inline, fun hco => ?_⟩
          · intro e
            exact not_blanks_white.1 hraw (h.carry.append (nonBlanks_blanks.1 e))
          · rw [kept.text, ← hfl]; rfl
          · rw [← hfl] at hco
            refine ⟨(kept.block hco).2, ?_⟩
            rcases hc0 with hc0 | hc0
            · exact .inl (kept.comment hco hc0)
            · exact .inr hc0
        · rw [kept.text]; exact newLine_ne _ hraw
        · rcases kept.label with ⟨a1, -, ⟨c, a2, -⟩, -⟩ | ⟨a1, a2, a3, a4, -⟩
          · exact .inl ⟨a1, c, a2⟩
          · refine .inr ⟨a1, a3, a4, ?_⟩
            rcases a2 with a2 | a2
            · left; rw [kept.text]; exact handled_form _ a2
            · exact .inr a2
        · rcases kept.label with ⟨a1, -, -, a2, -⟩ | ⟨a1, -, -, -, a5, -⟩
          · rw [a1, a2]; rfl
          · rw [a1, a5]; rfl
        · exact fun h' => (kept.data h').1
        · intro h'
          cases hh : (p.addText l).handled
          · exact .inl (kept.data' hh h')
          · right; rw [kept.text]; exact handled_form _ hh
        · intro h'
          rw [← hfl] at h'
          rcases kept.directive h' with h' | h' | h' | h' | ⟨-, h', -⟩
          · exact .inl h'
          · exact .inr (.inl h')
          · exact .inr (.inr (.inl h'))
          · exact .inr (.inr (.inr (.inr (hcuda' (h.cuda (.inl h'))))))
          · exact .inr (.inr (.inr (.inl h')))
        · exact ⟨_, fun h' => hcuda (.inr h'), kept.refs⟩
  · rcases hs.lines with ⟨-, am, ld, -⟩ | ⟨l', -, -, eq, ld, -⟩ | ⟨ls, am, ln, eq, kept⟩
    · rw [ld]; exact h.table.amended am
    · rw [ld, eq]; exact h.table.append _ rfl
    · rw [eq]
      rcases kept.label with ⟨a1, -, -, -, a2⟩ | ⟨a1, -, -, -, -, a2, -⟩
      · rw [a2, show (p.addText l).lines.length = ls.length from am.length]
        exact (h.table.amended am).label ln a1
      · rw [a2]
        exact (h.table.amended am).append ln a1
  · rcases hs.lines with ⟨-, am, -, -⟩ | ⟨l', h1, h2, eq, -, -⟩ | ⟨ls, am, ln, eq, kept⟩
    · exact noDoubleBlank_text (amended_text am) h.blanks
    · rw [eq]
      refine noDoubleBlank_append h.blanks fun _ => ⟨fun x hx => ?_, fun e => ?_⟩
      · rw [h1] at hx
        have : l' = x := by simpa using hx
        rw [← this]; exact h2
      · rw [e] at h1
        exact absurd h1 (by simp)
    · rw [eq]
      refine noDoubleBlank_append (noDoubleBlank_text (amended_text am) h.blanks) fun e => ?_
      rw [kept.text] at e
      exact absurd e (newLine_ne _ kept.raw)

theorem textInv (L : Locale) (f : Filter) (s : Str) : ∃ e, (e = [] ∨ e = [[]]) ∧
    TextInv L f (inputLines s ++ e) ((TParser.init f).readStream L s) := by
  obtain ⟨e, he, h, -, -⟩ := readStream_lines L f (TextInv L f)
    ⟨fun c hc => absurd hc (by simp [TParser.init]), by simp [TParser.init], by simp [TParser.init], ⟨by simp [TParser.init], by simp [TParser.init], by simp [TParser.init], by simp [TParser.init]⟩, trivial, fun _ => rfl⟩
    (fun done p l _ hf _ h hs => textInv_step L f done p l hf h hs) s
  exact ⟨e, he.imp_right fun h => h.1, h⟩

/-- The facts about a line that was read, in terms of the input. -/
theorem read_line (L : Locale) (f : Filter) (s : Str) {l : TLine} (hl : l ∈ ((TParser.init f).readStream L s).lines) :
    LineOk L f (inputLines s) (HasCuda ((TParser.init f).readStream L s).lines) l := by
  obtain ⟨e, he, h⟩ := textInv L f s
  rcases h.lines l hl with h' | h'
  · exact .inl h'
  · right
    obtain ⟨h0, ⟨n, ws, raw, a1, a2, a3, a4, a5, a6⟩, h2, h3, h4, h5, h6, h7, h8⟩ := h'
    refine ⟨h0, ⟨n, ws, raw, a1, ?_, a3, a4, a5, a6⟩, h2, h3, h4, h5, h6, h7, h8⟩
    rcases he with rfl | rfl
    · rwa [List.append_nil] at a2
    · rcases List.mem_append.1 a2 with a2 | a2
      · exact a2
      · have : raw = [] := by simpa using a2
        subst this
        exact absurd rfl a3

end AsmParser

/-
Helper lemmas: the strings text mode keeps consist of characters of the input, spaces and slashes.
-/
import Verif.Proofs.TextOut
import Verif.Proofs.TextFacts

namespace AsmParser

/-! ### Captures -/

theorem starLang_caps {R : Nat → Str → Str → Caps → Prop} (hR : ∀ p w rest cs, R p w rest cs → ∀ e ∈ cs, ∀ c ∈ e.2, c ∈ w)
    {p w rest cs} (h : StarLang R p w rest cs) : ∀ e ∈ cs, ∀ c ∈ e.2, c ∈ w := by
  induction h with
  | nil => intro e he; exact absurd he (by simp)
  | cons _ h1 _ ih =>
    intro e he c hc
    rcases List.mem_append.1 he with he | he
    · exact List.mem_append_right _ (ih e he c hc)
    · exact List.mem_append_left _ (hR _ _ _ _ h1 e he c hc)

theorem lang_caps (r : Re) : ∀ p w rest cs, Lang r p w rest cs → ∀ e ∈ cs, ∀ c ∈ e.2, c ∈ w := by
  induction r with
  | eps => rintro p w rest cs ⟨-, rfl⟩ e he; exact absurd he (by simp)
  | cls P => rintro p w rest cs ⟨-, rfl⟩ e he; exact absurd he (by simp)
  | seq a b iha ihb =>
    rintro p w rest cs ⟨w1, w2, c1, c2, rfl, h1, h2, rfl⟩ e he c hc
    rcases List.mem_append.1 he with he | he
    · exact List.mem_append_right _ (ihb _ _ _ _ h2 e he c hc)
    · exact List.mem_append_left _ (iha _ _ _ _ h1 e he c hc)
  | alt a b iha ihb =>
    rintro p w rest cs (h | h)
    · exact iha _ _ _ _ h
    · exact ihb _ _ _ _ h
  | star g a ih => intro p w rest cs h; exact starLang_caps ih h
  | grp n a ih =>
    rintro p w rest cs ⟨k, h, rfl⟩ e he c hc
    rcases List.mem_cons.1 he with rfl | he
    · exact hc
    · exact ih _ _ _ _ h e he c hc
  | bol => rintro p w rest cs ⟨-, -, rfl⟩ e he; exact absurd he (by simp)
  | eol => rintro p w rest cs ⟨-, -, rfl⟩ e he; exact absurd he (by simp)

theorem get_caps {m : Match} {s : Str} (h : ∀ e ∈ m.caps, ∀ c ∈ e.2, c ∈ s) (n : Nat) : ∀ c ∈ m.get n, c ∈ s := by
  intro c hc
  unfold Match.get at hc
  cases hl : m.caps.lookup n with
  | none => rw [hl] at hc; exact absurd hc (by simp)
  | some v =>
    rw [hl] at hc
    rw [List.lookup_eq_some_iff] at hl
    obtain ⟨l1, l2, e, -⟩ := hl
    exact h (n, v) (by rw [e]; simp) c hc

theorem fullMatch_get {r : Re} {s : Str} {m : Match} (h : r.fullMatch s = some m) (n : Nat) : ∀ c ∈ m.get n, c ∈ s :=
  get_caps (lang_caps _ _ _ _ _ (fullMatch_mem h).1) n

theorem searchFrom_get {r : Re} {s : Str} {k : Nat} {m : Match} (h : r.searchFrom k s = some m) (n : Nat) : ∀ c ∈ m.get n, c ∈ s := by
  obtain ⟨u, w, rest, rfl, -, -, hl, -⟩ := searchFrom_mem h
  intro c hc
  have := get_caps (lang_caps _ _ _ _ _ hl) n c hc
  simp [this]

theorem search_get {r : Re} {s : Str} {m : Match} (h : r.search s = some m) (n : Nat) : ∀ c ∈ m.get n, c ∈ s :=
  searchFrom_get h n

theorem rangeAux_get {r : Re} {s : Str} (fuel pos : Nat) : ∀ m ∈ r.rangeAux s fuel pos, ∀ n, ∀ c ∈ m.get n, c ∈ s := by
  induction fuel generalizing pos with
  | zero => intro m hm; exact absurd hm (by simp [Re.rangeAux])
  | succ fuel ih =>
    intro m hm n c hc
    unfold Re.rangeAux at hm
    split at hm
    · exact absurd hm (by simp)
    · rename_i m' h
      rcases List.mem_cons.1 hm with rfl | hm
      · exact List.mem_of_mem_drop (searchFrom_get h n c hc)
      · exact ih _ m hm n c hc

attribute [local irreducible] Re.search Re.fullMatch

/-- All characters of the string are fine. -/
def Cs (Q : Byte → Prop) (s : Str) : Prop := ∀ c ∈ s, Q c

variable {Q : Byte → Prop}

theorem Cs.nil : Cs Q [] := fun _ h => absurd h (by simp)
theorem Cs.sub {a b : Str} (h : Cs Q b) (hs : ∀ c ∈ a, c ∈ b) : Cs Q a := fun c hc => h c (hs c hc)
theorem Cs.append {a b : Str} (h : Cs Q a) (h' : Cs Q b) : Cs Q (a ++ b) := fun c hc =>
  (List.mem_append.1 hc).elim (h c) (h' c)

theorem usedLabels_cs {L : Locale} {line : Str} (h : Cs Q line) : ∀ r ∈ getUsedLabelsInLine L line, Cs Q r.name := by
  unfold getUsedLabelsInLine
  have hs : ∀ c ∈ getLineWithoutCommentAndStripFirstWord line, c ∈ line := by
    intro c hc
    unfold getLineWithoutCommentAndStripFirstWord at hc
    exact List.mem_of_mem_take (List.mem_of_mem_drop hc)
  generalize getLineWithoutCommentAndStripFirstWord line = w at hs
  simp only
  split
  · intro r hr; exact absurd hr (by simp)
  · have hm : ∀ m ∈ Regexes.usedLabel.range w, ∀ n, Cs Q (m.get n) := fun m hm n c hc => h c (hs c (rangeAux_get _ _ m hm n c hc))
    generalize Regexes.usedLabel.range w = ms at hm
    generalize 0 = k
    generalize line.length - w.length + 1 = d
    induction ms generalizing k with
    | nil => intro r hr; exact absurd hr (by simp [usedLabelsLoop])
    | cons m ms ih =>
      intro r hr
      unfold usedLabelsLoop at hr
      simp only at hr
      rcases List.mem_append.1 hr with hr | hr
      · split at hr
        · have : r.name = m.get 2 := by rw [List.mem_singleton] at hr; rw [hr]
          rw [this]; exact hm m (by simp) 2
        · simp only [List.mem_cons, List.not_mem_nil, or_false] at hr
          rcases hr with rfl | rfl
          · exact hm m (by simp) 2
          · exact (hm m (by simp) 1).append (hm m (by simp) 2)
      · exact ih (fun m' h' => hm m' (by simp [h'])) _ r hr

/-! ### The text of a line -/

theorem expandTabs_cs (hsp : Q 32) {s : Str} (h : Cs Q s) : Cs Q (expandTabs s) := by
  rw [expandTabs_eq]
  generalize 0 = k
  induction s generalizing k with
  | nil => exact Cs.nil
  | cons c s ih =>
    have ih := fun k => ih (fun d hd => h d (by simp [hd])) k
    unfold padTabs
    split
    · refine Cs.append (fun d hd => ?_) (ih _)
      rw [List.eq_of_mem_replicate hd]; exact hsp
    · intro d hd
      rcases List.mem_cons.1 hd with rfl | hd
      · exact h _ (by simp)
      · exact ih _ d hd

theorem squash_cs (hsp : Q 32) {s : Str} (b : Bool) (h : Cs Q s) : Cs Q (squashHorizontalWhitespace s b) := by
  have : ∀ st, Cs Q (squashLoop st s) := by
    induction s with
    | nil => intro st; exact Cs.nil
    | cons c s ih =>
      have ih := ih (fun d hd => h d (by simp [hd]))
      intro st
      unfold squashLoop
      refine Cs.append ?_ (ih _)
      have hc : Q c := h c (by simp)
      cases st <;> simp only [squashStep] <;> split <;> intro d hd <;> simp at hd <;> subst hd <;> assumption
  unfold squashHorizontalWhitespace
  simp only
  split
  · exact Cs.nil
  · exact this _

theorem squashQuotes_cs (hsp : Q 32) (n : Nat) {s : Str} (b : Bool) (h : Cs Q s) : Cs Q (squashWithQuotesAux n s b) := by
  induction n generalizing s b with
  | zero => exact Cs.nil
  | succ n ih =>
    unfold squashWithQuotesAux
    split
    · rename_i m hm
      exact ((ih _ (h.sub (search_get hm 1))).append (h.sub (search_get hm 2))).append (ih _ (h.sub (search_get hm 3)))
    · exact squash_cs hsp _ h

theorem lineText_cs (hsp : Q 32) (f : Filter) (n : Int) {s : Str} (h : Cs Q s) : Cs Q (lineText f n s) := by
  obtain ⟨sp, t, rfl, -, -, e, -⟩ := lineText_shown f n s
  rw [e]
  have ht : Cs Q t := h.sub fun c hc => List.mem_append_right _ hc
  unfold cleaned
  split
  · exact squashQuotes_cs hsp _ _ (expandTabs_cs hsp ht)
  · exact expandTabs_cs hsp ht

/-! ### The state -/

/-- The strings of a line. -/
structure TLineCs (Q : Byte → Prop) (l : TLine) : Prop where
  text : Cs Q l.text
  sect : Cs Q l.sect.s
  file : Cs Q l.source.file.s
  refs : ∀ r ∈ l.labels, Cs Q r.name
  label : Cs Q l.label
  parent : Cs Q l.closestParentLabel

/-- The strings of a table of references. -/
def TableCs (Q : Byte → Prop) (m : List (Str × List Str)) : Prop := ∀ e ∈ m, Cs Q e.1 ∧ ∀ r ∈ e.2, Cs Q r

/-- The strings of the label bookkeeping. -/
structure UsageCs (Q : Byte → Prop) (u : Usage) : Prop where
  used : TableCs Q u.used
  data : TableCs Q u.dataUsed
  weak : TableCs Q u.weaklyUsed
  aliased : ∀ e ∈ u.aliased, Cs Q e.1 ∧ Cs Q e.2

/-- The strings of the state. -/
structure StateCs (Q : Byte → Prop) (s : TState) : Prop where
  text : Cs Q s.text
  src : Cs Q s.currentSourceRef.file.s
  prev : Cs Q s.previousLabel.s
  parent : Cs Q s.previousParentLabel.s
  same : Cs Q s.previousLabelOnSameAddress.s
  sec : Cs Q s.currentSection.s
  sfile : Cs Q s.currentSourceFile.s

/-- The strings of the parser. -/
structure ParserCs (Q : Byte → Prop) (p : TParser) : Prop where
  st : StateCs Q p.st
  files : ∀ e ∈ p.files, Cs Q e.2
  lines : ∀ l ∈ p.lines, TLineCs Q l
  usage : UsageCs Q p.usage

theorem addRef_cs {k v : Str} {m : List (Str × List Str)} (hk : Cs Q k) (hv : Cs Q v) (h : TableCs Q m) : TableCs Q (addRef k v m) := by
  induction m with
  | nil =>
    intro e he
    have : e = (k, [v]) := by simpa [addRef] using he
    subst this
    exact ⟨hk, fun r hr => by rw [List.mem_singleton.1 hr]; exact hv⟩
  | cons a m ih =>
    obtain ⟨k', vs⟩ := a
    have h0 := h (k', vs) (by simp)
    have h1 : TableCs Q m := fun e he => h e (by simp [he])
    unfold addRef
    intro e he
    split at he
    · rcases List.mem_cons.1 he with rfl | he
      · refine ⟨h0.1, fun r hr => ?_⟩
        simp only [setInsert] at hr
        split at hr
        · exact h0.2 r hr
        · rcases List.mem_append.1 hr with hr | hr
          · exact h0.2 r hr
          · rw [List.mem_singleton.1 hr]; exact hv
      · exact h1 e he
    · rcases List.mem_cons.1 he with rfl | he
      · exact h0
      · exact ih h1 e he

theorem addRefs_cs {refs : List AsmLabel} (hr : ∀ r ∈ refs, Cs Q r.name)
    (g : List (Str × List Str) → AsmLabel → List (Str × List Str))
    (hg : ∀ m r, r ∈ refs → TableCs Q m → TableCs Q (g m r)) {m : List (Str × List Str)} (h : TableCs Q m) :
    TableCs Q (refs.foldl g m) := by
  induction refs generalizing m with
  | nil => exact h
  | cons r refs ih =>
    rw [List.foldl_cons]
    exact ih (fun x hx => hr x (by simp [hx])) (fun m x hx => hg m x (by simp [hx])) (hg m r (by simp) h)

theorem assocSet_cs {α β : Type} [BEq α] {P : α → β → Prop} {k : α} {v : β} {m : List (α × β)} (hkv : ∀ k', (k' == k) = true → P k' v) (hk : P k v)
    (h : ∀ e ∈ m, P e.1 e.2) : ∀ e ∈ assocSet k v m, P e.1 e.2 := by
  induction m with
  | nil =>
    intro e he
    have : e = (k, v) := by simpa [assocSet] using he
    subst this; exact hk
  | cons a m ih =>
    intro e he
    unfold assocSet at he
    split at he
    · rename_i hb
      rcases List.mem_cons.1 he with rfl | he
      · exact hkv _ hb
      · exact h e (by simp [he])
    · rcases List.mem_cons.1 he with rfl | he
      · exact h _ (by simp)
      · exact ih (fun e he => h e (by simp [he])) e he

theorem amendRev_cs {src : TSource} (hs : Cs Q src.file.s) {ls : List TLine} (h : ∀ l ∈ ls, TLineCs Q l) :
    ∀ l ∈ amendRev src ls, TLineCs Q l := by
  induction ls with
  | nil => exact h
  | cons a ls ih =>
    have ha : TLineCs Q (a.amend src) := { h a (by simp) with file := hs }
    have ht : ∀ l ∈ ls, TLineCs Q l := fun l hl => h l (by simp [hl])
    unfold amendRev
    split
    · split
      · intro l hl
        rcases List.mem_cons.1 hl with rfl | hl
        · exact ha
        · exact ih ht l hl
      · intro l hl
        rcases List.mem_cons.1 hl with rfl | hl
        · exact ha
        · exact ht l hl
    · exact h

theorem amend_cs {p : TParser} {src : TSource} (h : ParserCs Q p) (hs : Cs Q src.file.s) : ParserCs Q (p.amendPreviousLinesWith src) := by
  refine { h with lines := ?_ }
  intro l hl
  rw [TParser.amendPreviousLinesWith, List.mem_reverse] at hl
  exact amendRev_cs hs (fun l hl => h.lines l (List.mem_reverse.1 hl)) l hl

theorem markPrevious_cs {p : TParser} (h : ParserCs Q p) : ParserCs Q p.markPreviousInternalLabelAsInsideProc := by
  refine { h with lines := ?_ }
  unfold TParser.markPreviousInternalLabelAsInsideProc
  simp only
  split
  · intro l hl; exact absurd hl (by simp)
  · rename_i a ls e
    have hm : ∀ l ∈ a :: ls, TLineCs Q l := fun l hl => h.lines l (by rw [← List.mem_reverse, e]; exact hl)
    intro l hl
    rw [List.mem_reverse] at hl
    rcases List.mem_cons.1 hl with rfl | hl
    · split
      · exact { hm a (by simp) with }
      · exact hm a (by simp)
    · exact hm l (by simp [hl])

theorem handleFiledef_cs (hsl : Q (c! '/')) {p q : TParser} {t : Str} (h : ParserCs Q p) (ht : Cs Q t) (e : p.handleFiledef t = some q) :
    ParserCs Q q := by
  unfold TParser.handleFiledef at e
  rw [Option.map_eq_some_iff] at e
  obtain ⟨d, hd, rfl⟩ := e
  refine { h with files := ?_ }
  have : Cs Q d.2 := by
    unfold getFileDef at hd
    split at hd
    · rename_i m hm
      simp only at hd
      split at hd
      · cases hd
        refine Cs.append (Cs.append (ht.sub (fullMatch_get hm 2)) ?_) (ht.sub (fullMatch_get hm 4))
        intro c hc; simp at hc; subst hc; exact hsl
      · cases hd
        exact ht.sub (fullMatch_get hm 2)
    · exact absurd hd (by simp)
  exact assocSet_cs (P := fun _ v => Cs Q v) (fun _ _ => this) this h.files

theorem handleSource_cs {p q : TParser} {t : Str} (h : ParserCs Q p) (e : p.handleSource t = some q) : ParserCs Q q := by
  unfold TParser.handleSource at e
  simp only at e
  split at e
  · cases e
    exact amend_cs { h with st := { h.st with src := h.st.src } } h.st.src
  · exact absurd e (by simp)

theorem handleStabs_cs {p q : TParser} {t : Str} (h : ParserCs Q p) (e : p.handleStabs t = some q) : ParserCs Q q := by
  unfold TParser.handleStabs at e
  rw [Option.map_eq_some_iff] at e
  obtain ⟨r, -, rfl⟩ := e
  split
  · exact { h with st := { h.st with src := Cs.nil } }
  · split
    · exact { h with st := { h.st with src := Cs.nil, prev := Cs.nil } }
    · exact h

theorem handle6502_cs {p q : TParser} {n : Nat} {t : Str} (h : ParserCs Q p) (ht : Cs Q t) (e : p.handle6502 n t = some q) :
    ParserCs Q q := by
  unfold TParser.handle6502 at e
  rw [Option.map_eq_some_iff] at e
  obtain ⟨d, hd, rfl⟩ := e
  split
  · refine { h with st := { h.st with src := ?_ } }
    unfold get6502DbgInfo at hd
    split at hd
    · rename_i m hm
      cases hd
      exact ht.sub (fullMatch_get hm 1)
    · split at hd
      · cases hd; exact Cs.nil
      · exact absurd hd (by simp)
  · exact h

theorem handleD2_cs {p q : TParser} {n : Nat} {t : Str} (h : ParserCs Q p) (ht : Cs Q t) (e : p.handleD2 n t = some q) :
    ParserCs Q q := by
  unfold TParser.handleD2 at e
  split at e
  · simp only at e
    cases e
    exact amend_cs { h with st := { h.st with src := h.st.sfile } } h.st.sfile
  · rw [Option.map_eq_some_iff] at e
    obtain ⟨d, hd, rfl⟩ := e
    unfold getD2FileInfo at hd
    rw [Option.map_eq_some_iff] at hd
    obtain ⟨m, hm, rfl⟩ := hd
    exact { h with st := { h.st with sfile := ht.sub (fullMatch_get hm 1) } }

theorem handleSourceDirectives_cs (hsl : Q (c! '/')) {p : TParser} {ln : TLine} (h : ParserCs Q p) (ht : Cs Q ln.text) :
    ParserCs Q (p.handleSourceDirectives ln).1 := by
  unfold TParser.handleSourceDirectives
  split
  · exact { h with st := { h.st with src := Cs.nil, prev := Cs.nil } }
  · split
    · exact handleFiledef_cs hsl h ht ‹_›
    · split
      · exact handleSource_cs h ‹_›
      · split
        · exact handleStabs_cs h ‹_›
        · split
          · exact handle6502_cs h ht ‹_›
          · split
            · exact handleD2_cs h ht ‹_›
            · exact h

theorem handleSection_cs {p : TParser} {n : Nat} {t : Str} (h : ParserCs Q p) (ht : Cs Q t) : ParserCs Q (p.handleSection n t) := by
  unfold TParser.handleSection
  split
  · rename_i s hs
    refine { h with st := { h.st with sec := ?_ } }
    unfold getSectionNameDef at hs
    rw [Option.map_eq_some_iff] at hs
    obtain ⟨m, hm, rfl⟩ := hs
    simp only
    split
    · exact ht.sub (search_get hm 2)
    · exact ht.sub (search_get hm 1)
  · exact h

theorem extractDirective_cs {p : TParser} {n : Nat} {t : Str} (h : ParserCs Q p) (ht : Cs Q t) :
    ParserCs Q (p.extractUsedLabelsFromDirective n t) := by
  unfold TParser.extractUsedLabelsFromDirective
  split
  · rename_i w hw
    unfold getWeakDefinedLabel at hw
    rw [Option.map_eq_some_iff] at hw
    obtain ⟨m, hm, rfl⟩ := hw
    exact { h with usage := { h.usage with used := addRef_cs (ht.sub (search_get hm 1)) h.st.prev h.usage.used } }
  · split
    · rename_i w hw
      unfold getGlobalDefinedLabel at hw
      rw [Option.map_eq_some_iff] at hw
      obtain ⟨m, hm, rfl⟩ := hw
      exact { h with usage := { h.usage with used := addRef_cs (ht.sub (search_get hm 1)) h.st.prev h.usage.used } }
    · exact h

theorem extractOpcode_cs {L : Locale} {p : TParser} {ln : TLine} (h : ParserCs Q p) (hl : TLineCs Q ln) :
    ParserCs Q (p.extractUsedLabelsFromOpcodeLine L ln).1 ∧ TLineCs Q (p.extractUsedLabelsFromOpcodeLine L ln).2 := by
  have hr := usedLabels_cs (L := L) hl.text
  refine ⟨{ h with usage := { h.usage with used := ?_ } }, { hl with refs := hr }⟩
  refine addRefs_cs hr _ (fun m r hm hc => ?_) h.usage.used
  split
  · exact addRef_cs (hr r hm) h.st.parent hc
  · exact hc

theorem extractData_cs {L : Locale} {p : TParser} {ln : TLine} (h : ParserCs Q p) (hl : TLineCs Q ln) :
    ParserCs Q (p.extractUsedLabelsFromDataLine L ln).1 ∧ TLineCs Q (p.extractUsedLabelsFromDataLine L ln).2 := by
  have hr := usedLabels_cs (L := L) hl.text
  refine ⟨{ h with usage := { h.usage with data := ?_ } }, { hl with refs := hr }⟩
  refine addRefs_cs hr _ (fun m r hm hc => ?_) h.usage.data
  split
  · exact addRef_cs (hr r hm) h.st.parent (addRef_cs (hr r hm) h.st.prev hc)
  · exact addRef_cs (hr r hm) h.st.prev hc

theorem aliasing_cs {p : TParser} {ln : TLine} (h : ParserCs Q p) (hl : Cs Q ln.label) : ParserCs Q (p.handleLabelAliasing ln) := by
  unfold TParser.handleLabelAliasing
  simp only
  have key : ∀ q : TParser, ParserCs Q q → ParserCs Q (if ln.isLabel && !ln.isAssignment then
      { q with st := { q.st with previousLabelOnSameAddress := ⟨ln.label, some ln.id⟩ } } else q) := by
    intro q hq
    split
    · exact { hq with st := { hq.st with same := hl } }
    · exact hq
  apply key
  split
  · split
    · split
      · refine { h with usage := { h.usage with aliased := ?_ } }
        exact assocSet_cs (P := fun k v => Cs Q k ∧ Cs Q v) (fun k' e => ⟨by rw [show k' = ln.label by simpa using e]; exact hl, h.st.same⟩)
          ⟨hl, h.st.same⟩ h.usage.aliased
      · split
        · exact { h with st := { h.st with same := Cs.nil } }
        · exact h
    · exact { h with st := { h.st with same := Cs.nil } }
  · exact h

theorem labelFromLine_cs {t l : Str} {a c : Bool} (ht : Cs Q t) (e : getLabelFromLine t = some (l, a, c)) : Cs Q l := by
  unfold getLabelFromLine at e
  split at e
  · rename_i w hw
    cases e
    unfold getLabel at hw
    rw [Option.map_eq_some_iff] at hw
    obtain ⟨m, hm, rfl⟩ := hw
    exact ht.sub (search_get hm 1)
  · split at e
    · rename_i w hw
      cases e
      unfold getLabelAssignment at hw
      rw [Option.map_eq_some_iff] at hw
      obtain ⟨m, hm, rfl⟩ := hw
      exact ht.sub (search_get hm 1)
    · split at e
      · rename_i w hw
        cases e
        unfold getAssignmentDef at hw
        rw [Option.map_eq_some_iff] at hw
        obtain ⟨m, hm, rfl⟩ := hw
        exact ht.sub (fullMatch_get hm 1)
      · split at e
        · rename_i w hw
          cases e
          unfold getCudaLabel at hw
          rw [Option.map_eq_some_iff] at hw
          obtain ⟨m, hm, rfl⟩ := hw
          exact ht.sub (search_get hm 1)
        · exact absurd e (by simp)

theorem labelDefinition_cs {p : TParser} {ln : TLine} (h : ParserCs Q p) (hl : TLineCs Q ln) :
    ParserCs Q (p.handleLabelDefinition ln).1 ∧ TLineCs Q (p.handleLabelDefinition ln).2 := by
  unfold TParser.handleLabelDefinition
  split
  · rename_i l a c e
    have := labelFromLine_cs hl.text e
    refine ⟨{ h with st := { h.st with prev := this, parent := ?_ } }, { hl with label := this }⟩
    show Cs Q (if _ then _ else _ : View).s
    split
    · exact this
    · exact h.st.parent
  · exact ⟨h, { hl with }⟩

theorem clear_cs {p : TParser} (h : ParserCs Q p) : ParserCs Q p.clear := { h with st := { h.st with text := Cs.nil } }

theorem finish_cs {L : Locale} {p : TParser} {ln : TLine} (h : ParserCs Q p) (hl : TLineCs Q ln) : ParserCs Q (p.eolFinish L ln) := by
  have h0 : TLineCs Q { ln with
      isInlineAsm := decide (p.st.inCustomAssembly > 0), hasOpcode := hasOpcode ln.text p.st.inNvccCode, labels := [] } :=
    { hl with refs := fun r hr => absurd hr (by simp) }
  have h1 : ∀ l', TLineCs Q l' → ParserCs Q (if !l'.isLabel && l'.hasOpcode then p.extractUsedLabelsFromOpcodeLine L l' else (p, l')).1 ∧
      TLineCs Q (if !l'.isLabel && l'.hasOpcode then p.extractUsedLabelsFromOpcodeLine L l' else (p, l')).2 := by
    intro l' h'
    split
    · exact extractOpcode_cs h h'
    · exact ⟨h, h'⟩
  have h2 : ∀ r : TParser × TLine, ParserCs Q r.1 ∧ TLineCs Q r.2 →
      ParserCs Q (if !r.2.isLabel && r.2.isData then r.1.extractUsedLabelsFromDataLine L r.2 else r).1 ∧
      TLineCs Q (if !r.2.isLabel && r.2.isData then r.1.extractUsedLabelsFromDataLine L r.2 else r).2 := by
    intro r hr
    split
    · exact extractData_cs hr.1 hr.2
    · exact hr
  obtain ⟨g1, g2⟩ := h2 _ (h1 _ h0)
  have g1 : ParserCs Q (collect L p { ln with
      isInlineAsm := decide (p.st.inCustomAssembly > 0), hasOpcode := hasOpcode ln.text p.st.inNvccCode, labels := [] }).1 := g1
  have g2 : TLineCs Q (collect L p { ln with
      isInlineAsm := decide (p.st.inCustomAssembly > 0), hasOpcode := hasOpcode ln.text p.st.inNvccCode, labels := [] }).2 := g2
  show ParserCs Q (
    let r := collect L p { ln with isInlineAsm := decide (p.st.inCustomAssembly > 0),
                                   hasOpcode := hasOpcode ln.text p.st.inNvccCode, labels := [] }
    let p := r.1
    let ln := { r.2 with
       closestParentLabel :=
         if r.2.isAssignment || r.2.label == p.st.previousParentLabel.s then [] else p.st.previousParentLabel.s
       source := p.st.currentSourceRef
       sect := p.st.currentSection }
    let p := p.handleLabelAliasing ln
    { p with lines := p.lines ++ [ln], stored := p.st.previousParentLabel.own :: p.stored }.clear)
  generalize collect L p _ = r at g1 g2
  simp only
  have g3 : TLineCs Q { r.2 with
      closestParentLabel :=
        if r.2.isAssignment || r.2.label == r.1.st.previousParentLabel.s then [] else r.1.st.previousParentLabel.s
      source := r.1.st.currentSourceRef
      sect := r.1.st.currentSection } := by
    refine { g2 with parent := ?_, file := g1.st.src, sect := g1.st.sec }
    show Cs Q (if _ then _ else _)
    split
    · exact Cs.nil
    · exact g1.st.parent
  refine clear_cs ?_
  have g4 := aliasing_cs g1 g3.label
  refine { g4 with lines := ?_ }
  intro l hm
  rcases List.mem_append.1 hm with hm | hm
  · exact g4.lines l hm
  · rw [List.mem_singleton.1 hm]; exact g3

theorem eolDirective_cs {L : Locale} {p : TParser} {ln : TLine} {b : Bool} (h : ParserCs Q p) (hl : TLineCs Q ln) :
    ParserCs Q (p.eolDirective L ln b) := by
  unfold TParser.eolDirective
  split
  · refine finish_cs ?_ hl
    split
    · exact { h with st := { h.st with } }
    · exact h
  · split
    · have h1 : TLineCs Q (if b then ln else { ln with isDirective := isDirective ln.text }) := by
        split
        · exact hl
        · exact { hl with }
      simp only
      generalize (if b then ln else { ln with isDirective := isDirective ln.text }) = ln' at h1
      split
      · have h2 := extractDirective_cs (n := ln'.id) h h1.text
        split
        · exact clear_cs { h2 with st := { h2.st with } }
        · exact finish_cs h2 h1
      · exact finish_cs h h1
    · exact finish_cs h hl

theorem eolLabel_cs {L : Locale} {p : TParser} {ln : TLine} {b : Bool} (h : ParserCs Q p) (hl : TLineCs Q ln) :
    ParserCs Q (p.eolLabel L ln b) := by
  unfold TParser.eolLabel
  split
  · exact eolDirective_cs h { hl with }
  · obtain ⟨h1, h2⟩ := labelDefinition_cs h hl
    exact eolDirective_cs h1 { h2 with }

theorem eolComment_cs {L : Locale} {p : TParser} {ln : TLine} {raw : Str} {b : Bool} (h : ParserCs Q p) (hl : TLineCs Q ln) :
    ParserCs Q (p.eolComment L ln raw b) := by
  unfold TParser.eolComment
  split
  · exact clear_cs h
  · exact eolLabel_cs h hl

theorem maybeRemovePrevious_cs {p : TParser} (h : ParserCs Q p) : ParserCs Q p.maybeRemovePrevious := by
  unfold TParser.maybeRemovePrevious
  split
  · split
    · exact h
    · split
      · exact { h with st := { h.st with } }
      · split
        · exact { h with st := { h.st with }, lines := fun l hl => h.lines l (List.dropLast_sublist _ |>.subset hl) }
        · exact { h with st := { h.st with } }
  · exact h

theorem eolLibrary_cs {L : Locale} {p : TParser} {ln : TLine} {raw : Str} {b : Bool} (h : ParserCs Q p) (hl : TLineCs Q ln) :
    ParserCs Q (p.eolLibrary L ln raw b) := by
  unfold TParser.eolLibrary
  split
  · have := maybeRemovePrevious_cs h
    simp only
    split
    · exact clear_cs this
    · exact eolComment_cs this hl
  · exact eolComment_cs { h with st := { h.st with } } hl

theorem eolSource_cs (hsl : Q (c! '/')) {L : Locale} {p : TParser} {ln : TLine} {raw : Str} (h : ParserCs Q p) (hl : TLineCs Q ln) :
    ParserCs Q (p.eolSource L ln raw) := by
  unfold TParser.eolSource
  have := handleSourceDirectives_cs hsl h hl.text
  simp only
  refine eolLibrary_cs ?_ hl
  split
  · exact handleSection_cs this hl.text
  · exact this

theorem eol_cs (hsp : Q 32) (hsl : Q (c! '/')) {L : Locale} {p : TParser} (h : ParserCs Q p) : ParserCs Q (p.eol L) := by
  unfold TParser.eol
  simp only
  have h0 : ParserCs Q { p with totalLines := p.totalLines + 1, nextId := p.nextId + 2 } := { h with }
  split
  · exact clear_cs { h0 with st := { h0.st with } }
  · split
    · unfold TParser.maybeAddBlank
      split
      · exact h0
      · split
        · exact h0
        · refine { h0 with lines := ?_ }
          intro l hl
          rcases List.mem_append.1 hl with hl | hl
          · exact h.lines l hl
          · rw [List.mem_singleton.1 hl]
            exact ⟨Cs.nil, Cs.nil, Cs.nil, fun r hr => absurd hr (by simp), Cs.nil, Cs.nil⟩
    · unfold TParser.eolBody
      simp only
      have h1 : ParserCs Q { p with
          totalLines := p.totalLines + 1, nextId := p.nextId + 2
          st := { p.st with inCustomAssembly := nesting p.st.inCustomAssembly p.st.text } } := { h with st := { h.st with } }
      have hl : TLineCs Q { id := p.nextId, text := lineText p.filter (nesting p.st.inCustomAssembly p.st.text) p.st.text } :=
        ⟨lineText_cs hsp _ _ h.st.text, Cs.nil, Cs.nil, fun r hr => absurd hr (by simp), Cs.nil, Cs.nil⟩
      split
      · split
        · exact clear_cs (markPrevious_cs h1)
        · exact eolSource_cs hsl (markPrevious_cs h1) hl
      · exact eolSource_cs hsl h1 hl

theorem readStream_cs (hsp : Q 32) (hsl : Q (c! '/')) (L : Locale) (f : Filter) (s : Str) (hs : ∀ c ∈ s, c ≠ 10 → Q c) :
    ParserCs Q ((TParser.init f).readStream L s) := by
  have h0 : ParserCs Q { TParser.init f with totalLines := 0 } :=
    ⟨⟨Cs.nil, Cs.nil, Cs.nil, Cs.nil, Cs.nil, Cs.nil, Cs.nil⟩, fun e he => absurd he (by simp [TParser.init]),
      fun e he => absurd he (by simp [TParser.init]), ⟨fun e he => absurd he (by simp [TParser.init]),
        fun e he => absurd he (by simp [TParser.init]), fun e he => absurd he (by simp [TParser.init]),
        fun e he => absurd he (by simp [TParser.init])⟩⟩
  have key : ∀ p, ParserCs Q p → ParserCs Q (s.foldl (TParser.feed L) p) := by
    induction s with
    | nil => intro p h; exact h
    | cons c s ih =>
      intro p h
      rw [List.foldl_cons]
      refine ih (fun d hd => hs d (by simp [hd])) _ ?_
      by_cases hc : c = 10
      · subst hc; exact eol_cs hsp hsl h
      · rw [feed_addText L p c hc]
        refine { h with st := { h.st with text := h.st.text.append fun d hd => ?_ } }
        rw [List.mem_singleton.1 hd]
        exact hs c (by simp) hc
  rw [readStream_eq]
  unfold TParser.flush
  split
  · exact eol_cs hsp hsl (key _ h0)
  · exact key _ h0

/-- The strings of the result. -/
theorem result_cs (hsp : Q 32) (hsl : Q (c! '/')) {L : Locale} {f : Filter} {s : Str} {p : TParser} (h : TextResult L f s p)
    (hs : ∀ c ∈ s, c ≠ 10 → Q c) : ParserCs Q p := by
  obtain ⟨o, n, v, v', h⟩ := h
  have h0 := readStream_cs hsp hsl L f s hs
  unfold TParser.fromStream at h
  split at h
  · exact absurd h (by simp)
  · rename_i q v2 hm
    simp only [Option.some.injEq, Prod.mk.injEq] at h
    obtain ⟨ls, ub, e, h'⟩ := markLabelUsage_frame hm
    have hu : ParserCs Q ((TParser.init f).readStream L s).filterNonLabels :=
      { h0 with usage := { h0.usage with
          used := fun e he => h0.usage.used e (List.mem_filter.1 he).1
          weak := fun e he => h0.usage.weak e (List.mem_filter.1 he).1 } }
    have hq : ParserCs Q q := by
      rw [e]
      refine { hu with lines := ?_ }
      intro l hl
      have hl := List.mem_map_of_mem (f := TLine.noUse) hl
      rw [h', List.mem_map] at hl
      obtain ⟨l0, hl0, e0⟩ := hl
      have h1 := hu.lines l0 hl0
      have e1 : l0.text = l.text := by have := congrArg TLine.text e0; exact this
      have e2 : l0.sect = l.sect := by have := congrArg TLine.sect e0; exact this
      have e3 : l0.source = l.source := by have := congrArg TLine.source e0; exact this
      have e4 : l0.labels = l.labels := by have := congrArg TLine.labels e0; exact this
      have e5 : l0.label = l.label := by have := congrArg TLine.label e0; exact this
      have e6 : l0.closestParentLabel = l.closestParentLabel := by have := congrArg TLine.closestParentLabel e0; exact this
      exact ⟨e1 ▸ h1.text, e2 ▸ h1.sect, e3 ▸ h1.file, e4 ▸ h1.refs, e5 ▸ h1.label, e6 ▸ h1.parent⟩
    obtain ⟨sub, h1, h2, -⟩ := removeLoop_all q q.lines
    rw [← h.1]
    refine { hq with st := { hq.st with }, lines := ?_ }
    intro l hl
    have hl : l ∈ (q.removeLoop {} q.lines).1 := hl
    rw [h2, List.mem_map] at hl
    obtain ⟨l0, hl0, rfl⟩ := hl
    have g := hq.lines l0 (h1.subset hl0)
    have gr : ∀ r ∈ l0.labels.filter (fun r => (q.labelsDefined.lookup r.name).isSome), Cs Q r.name :=
      fun r hr => g.refs r (List.mem_filter.1 hr).1
    unfold TParser.finishKept
    simp only
    split
    · split
      · rename_i fl hfl
        rw [List.lookup_eq_some_iff] at hfl
        obtain ⟨l1, l2, e, -⟩ := hfl
        exact { g with refs := gr, file := hq.files (l0.source.fileIdx, fl) (by rw [e]; simp) }
      · exact { g with refs := gr, file := Cs.nil }
    · exact { g with refs := gr }

/-- The names in the table of label definitions. -/
theorem redetermine_cs {n : Nat} {ls : List TLine} (h : ∀ l ∈ ls, TLineCs Q l) : ∀ d ∈ redetermineLabels n ls, Cs Q d.1 := by
  induction ls generalizing n with
  | nil => intro d hd; exact absurd hd (by simp [redetermineLabels])
  | cons a ls ih =>
    have ih := fun n => ih (n := n) fun l hl => h l (by simp [hl])
    intro d hd
    unfold redetermineLabels at hd
    split at hd
    · rcases List.mem_cons.1 hd with rfl | hd
      · exact (h a (by simp)).label
      · exact ih _ d hd
    · exact ih _ d hd

end AsmParser

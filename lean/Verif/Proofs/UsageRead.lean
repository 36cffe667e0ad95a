/-
Helper lemmas: where the entries of the tables of references come from.
-/
import Verif.Proofs.UsageLoop
import Verif.Proofs.TextFacts
import Verif.Proofs.UsedLabels

namespace AsmParser

attribute [local irreducible] Re.search Re.fullMatch

/-! ### Tables -/

theorem mem_setInsert {v x : Str} {l : List Str} : x ∈ setInsert v l ↔ x ∈ l ∨ x = v := by
  unfold setInsert
  split
  · rename_i h
    have : v ∈ l := by simpa using h
    constructor
    · exact .inl
    · rintro (h | rfl)
      · exact h
      · exact this
  · simp

theorem refers_addRef {k v : Str} {m : List (Str × List Str)} {a b : Str} :
    Refers (addRef k v m) a b ↔ Refers m a b ∨ (a = k ∧ b = v) := by
  unfold Refers
  induction m with
  | nil =>
    constructor
    · rintro ⟨rs, h1, h2⟩
      have h1 : (a, rs) = (k, [v]) := by simpa [addRef] using h1
      simp only [Prod.mk.injEq] at h1
      rw [h1.2] at h2
      exact .inr ⟨h1.1, by simpa using h2⟩
    · rintro (⟨rs, h1, -⟩ | ⟨rfl, rfl⟩)
      · exact absurd h1 (by simp)
      · exact ⟨[b], by simp [addRef], by simp⟩
  | cons e m ih =>
    unfold addRef
    split
    · rename_i he
      have he : e.1 = k := by simpa using he
      constructor
      · rintro ⟨rs, h1, h2⟩
        rcases List.mem_cons.1 h1 with h1 | h1
        · simp only [Prod.mk.injEq] at h1
          rw [h1.2, mem_setInsert] at h2
          rcases h2 with h2 | h2
          · exact .inl ⟨e.2, by rw [h1.1]; simp, h2⟩
          · exact .inr ⟨h1.1.trans he, h2⟩
        · exact .inl ⟨rs, by simp [h1], h2⟩
      · rintro (⟨rs, h1, h2⟩ | ⟨rfl, rfl⟩)
        · rcases List.mem_cons.1 h1 with h1 | h1
          · refine ⟨setInsert v e.2, by rw [← h1]; simp, mem_setInsert.2 (.inl ?_)⟩
            rw [← h1]; exact h2
          · exact ⟨rs, by simp [h1], h2⟩
        · exact ⟨setInsert b e.2, by rw [← he]; simp, mem_setInsert.2 (.inr rfl)⟩
    · constructor
      · rintro ⟨rs, h1, h2⟩
        rcases List.mem_cons.1 h1 with h1 | h1
        · exact .inl ⟨rs, by rw [h1]; simp, h2⟩
        · rcases ih.1 ⟨rs, h1, h2⟩ with ⟨rs', h3, h4⟩ | h3
          · exact .inl ⟨rs', by simp [h3], h4⟩
          · exact .inr h3
      · rintro (⟨rs, h1, h2⟩ | h3)
        · rcases List.mem_cons.1 h1 with h1 | h1
          · exact ⟨rs, by rw [h1]; simp, h2⟩
          · obtain ⟨rs', h4, h5⟩ := ih.2 (.inl ⟨rs, h1, h2⟩)
            exact ⟨rs', by simp [h4], h5⟩
        · obtain ⟨rs', h4, h5⟩ := ih.2 (.inr h3)
          exact ⟨rs', by simp [h4], h5⟩

theorem addRef_keys (k v : Str) (m : List (Str × List Str)) :
    (addRef k v m).map (·.1) = if k ∈ m.map (·.1) then m.map (·.1) else m.map (·.1) ++ [k] := by
  induction m with
  | nil => simp [addRef]
  | cons e m ih =>
    unfold addRef
    split
    · rename_i he
      have he : e.1 = k := by simpa using he
      rw [if_pos (by simp [he])]
      rfl
    · rename_i he
      have he : e.1 ≠ k := by simpa using he
      rw [List.map_cons, ih, List.map_cons]
      by_cases h : k ∈ m.map (·.1)
      · rw [if_pos h, if_pos (List.mem_cons_of_mem _ h)]
      · rw [if_neg h, if_neg (by rw [List.mem_cons, not_or]; exact ⟨Ne.symm he, h⟩)]
        rfl

theorem addRef_nodup {k v : Str} {m : List (Str × List Str)} (h : (m.map (·.1)).Nodup) : ((addRef k v m).map (·.1)).Nodup := by
  rw [addRef_keys]
  split
  · exact h
  · rename_i hk
    rw [List.nodup_append]
    refine ⟨h, by simp, ?_⟩
    intro a ha b hb
    rw [List.mem_singleton.1 hb]
    rintro rfl
    exact hk ha

theorem setInsert_nodup {v : Str} {l : List Str} (h : l.Nodup) : (setInsert v l).Nodup := by
  unfold setInsert
  split
  · exact h
  · rename_i hc
    rw [List.nodup_append]
    refine ⟨h, by simp, fun a ha b hb => ?_⟩
    rw [List.mem_singleton.1 hb]
    rintro rfl
    exact hc (by simpa using ha)

/-- No key twice, and no reference twice. -/
def Tidy (m : List (Str × List Str)) : Prop := (m.map (·.1)).Nodup ∧ ∀ e ∈ m, e.2.Nodup

theorem addRef_tidy {k v : Str} {m : List (Str × List Str)} (h : Tidy m) : Tidy (addRef k v m) := by
  refine ⟨addRef_nodup h.1, ?_⟩
  obtain ⟨-, h⟩ := h
  induction m with
  | nil => simp [addRef]
  | cons e m ih =>
    obtain ⟨k', vs⟩ := e
    unfold addRef
    split
    · intro e he
      rcases List.mem_cons.1 he with rfl | he
      · exact setInsert_nodup (h (k', vs) List.mem_cons_self)
      · exact h e (List.mem_cons_of_mem _ he)
    · intro e he
      rcases List.mem_cons.1 he with rfl | he
      · exact h (k', vs) List.mem_cons_self
      · exact ih (fun e he => h e (List.mem_cons_of_mem _ he)) e he

/-! ### The invariant -/

/-- `H`: labels; `C`, `D`: references from code and from data; `G`: visible labels. -/
structure Tables (H : Str → Prop) (C D : Str → Str → Prop) (G : Str → Prop) (p : TParser) : Prop where
  prev : H p.st.previousLabel.s
  parent : H p.st.previousParentLabel.s
  addr : H p.st.previousLabelOnSameAddress.s
  code : ∀ a b, Refers p.usage.used a b → C a b
  data : ∀ a b, Refers p.usage.dataUsed a b → D a b
  user : ∀ a ∈ p.usage.usercode, G a
  alias : ∀ e ∈ p.usage.aliased, H e.1 ∧ H e.2
  weak : p.usage.weaklyUsed = []
  keysU : Tidy p.usage.used
  keysD : Tidy p.usage.dataUsed

theorem Tables.mono {H H' : Str → Prop} {C C' D D' : Str → Str → Prop} {G G' : Str → Prop} {p : TParser} (h : Tables H C D G p)
    (hH : ∀ a, H a → H' a) (hC : ∀ a b, C a b → C' a b) (hD : ∀ a b, D a b → D' a b) (hG : ∀ a, G a → G' a) : Tables H' C' D' G' p :=
  ⟨hH _ h.prev, hH _ h.parent, hH _ h.addr, fun a b r => hC a b (h.code a b r), fun a b r => hD a b (h.data a b r),
    fun a r => hG a (h.user a r), fun e he => ⟨hH _ (h.alias e he).1, hH _ (h.alias e he).2⟩, h.weak, h.keysU, h.keysD⟩

section
variable {H : Str → Prop} {C D : Str → Str → Prop} {G : Str → Prop}

theorem tables_sources {p : TParser} {ln : TLine} (h : Tables H C D G p) (h0 : H []) :
    Tables H C D G (p.handleSourceDirectives ln).1 := by
  unfold TParser.handleSourceDirectives
  split
  · exact ⟨h0, h.parent, h.addr, h.code, h.data, h.user, h.alias, h.weak, h.keysU, h.keysD⟩
  · split
    · rename_i q hq
      unfold TParser.handleFiledef at hq
      rw [Option.map_eq_some_iff] at hq
      obtain ⟨d, -, rfl⟩ := hq
      exact ⟨h.prev, h.parent, h.addr, h.code, h.data, h.user, h.alias, h.weak, h.keysU, h.keysD⟩
    · split
      · rename_i q hq
        unfold TParser.handleSource at hq
        generalize getSourceRef ln.text = r at hq
        simp only at hq
        split at hq
        · simp only [Option.some.injEq] at hq
          subst hq
          exact ⟨h.prev, h.parent, h.addr, h.code, h.data, h.user, h.alias, h.weak, h.keysU, h.keysD⟩
        · exact absurd hq (by simp)
      · split
        · rename_i q hq
          unfold TParser.handleStabs at hq
          rw [Option.map_eq_some_iff] at hq
          obtain ⟨d, -, rfl⟩ := hq
          split
          · exact ⟨h.prev, h.parent, h.addr, h.code, h.data, h.user, h.alias, h.weak, h.keysU, h.keysD⟩
          · split
            · exact ⟨h0, h.parent, h.addr, h.code, h.data, h.user, h.alias, h.weak, h.keysU, h.keysD⟩
            · exact h
        · split
          · rename_i q hq
            unfold TParser.handle6502 at hq
            rw [Option.map_eq_some_iff] at hq
            obtain ⟨d, -, rfl⟩ := hq
            split
            · exact ⟨h.prev, h.parent, h.addr, h.code, h.data, h.user, h.alias, h.weak, h.keysU, h.keysD⟩
            · exact h
          · split
            · rename_i q hq
              unfold TParser.handleD2 at hq
              split at hq
              · simp only [Option.some.injEq] at hq
                subst hq
                exact ⟨h.prev, h.parent, h.addr, h.code, h.data, h.user, h.alias, h.weak, h.keysU, h.keysD⟩
              · rw [Option.map_eq_some_iff] at hq
                obtain ⟨d, -, rfl⟩ := hq
                exact ⟨h.prev, h.parent, h.addr, h.code, h.data, h.user, h.alias, h.weak, h.keysU, h.keysD⟩
            · exact h

theorem tables_pre {p : TParser} (h : Tables H C D G p) : Tables H C D G p.pre := by
  have h' : Tables H C D G p.nested := ⟨h.prev, h.parent, h.addr, h.code, h.data, h.user, h.alias, h.weak, h.keysU, h.keysD⟩
  unfold TParser.pre
  split
  · exact ⟨h.prev, h.parent, h.addr, h.code, h.data, h.user, h.alias, h.weak, h.keysU, h.keysD⟩
  · exact h'

theorem tables_sec {p : TParser} (h : Tables H C D G p) (h0 : H []) : Tables H C D G p.sec := by
  have h1 := tables_sources (ln := p.newLine) (tables_pre h) h0
  unfold TParser.sec
  split
  · unfold TParser.handleSection
    split
    · exact ⟨h1.prev, h1.parent, h1.addr, h1.code, h1.data, h1.user, h1.alias, h1.weak, h1.keysU, h1.keysD⟩
    · exact h1
  · exact h1

theorem tables_lab {p : TParser} (h : Tables H C D G p) (h0 : H []) (hl : p.lab.2.isLabel = true → H p.lab.2.label) :
    Tables H C D G p.lab.1 := by
  have h1 : Tables H C D G p.sec' := by
    have h := tables_sec h h0
    exact ⟨h.prev, h.parent, h.addr, h.code, h.data, h.user, h.alias, h.weak, h.keysU, h.keysD⟩
  unfold TParser.lab at hl ⊢
  split
  · exact h1
  · rename_i hh
    rw [if_neg hh] at hl
    unfold TParser.handleLabelDefinition at hl ⊢
    split
    · rename_i l a c e
      rw [e] at hl
      have hl : H l := hl rfl
      refine ⟨hl, ?_, h1.addr, h1.code, h1.data, h1.user, h1.alias, h1.weak, h1.keysU, h1.keysD⟩
      simp only
      split
      · exact hl
      · exact h1.parent
    · exact h1

theorem tables_dir {p : TParser} (h : Tables H C D G p) (n : Nat) (t : Str)
    (hw : ∀ w, getWeakDefinedLabel t = some w → C w p.st.previousLabel.s)
    (hg : ∀ g, getGlobalDefinedLabel t = some g → C g p.st.previousLabel.s ∧ G g) :
    Tables H C D G (p.extractUsedLabelsFromDirective n t) := by
  unfold TParser.extractUsedLabelsFromDirective
  split
  · rename_i w e
    refine ⟨h.prev, h.parent, h.addr, fun a b r => ?_, h.data, h.user, h.alias, h.weak, addRef_tidy h.keysU, h.keysD⟩
    rcases refers_addRef.1 r with r | ⟨rfl, rfl⟩
    · exact h.code a b r
    · exact hw _ e
  · split
    · rename_i g e
      refine ⟨h.prev, h.parent, h.addr, fun a b r => ?_, h.data, fun a ha => ?_, h.alias, h.weak, addRef_tidy h.keysU, h.keysD⟩
      · rcases refers_addRef.1 r with r | ⟨rfl, rfl⟩
        · exact h.code a b r
        · exact (hg _ e).1
      · rcases mem_setInsert.1 ha with ha | rfl
        · exact h.user a ha
        · exact (hg _ e).2
    · exact h

theorem foldl_code (parent : Str) (refs : List AsmLabel) (m : List (Str × List Str)) (hk : Tidy m) :
    Tidy (refs.foldl (fun m r => if r.name ≠ parent then addRef r.name parent m else m) m) ∧
    ∀ a b, Refers (refs.foldl (fun m r => if r.name ≠ parent then addRef r.name parent m else m) m) a b →
      Refers m a b ∨ (b = parent ∧ ∃ r ∈ refs, r.name = a) := by
  induction refs generalizing m with
  | nil => exact ⟨hk, fun a b h => .inl h⟩
  | cons r refs ih =>
    rw [List.foldl_cons]
    obtain ⟨h1, h2⟩ := ih (if r.name ≠ parent then addRef r.name parent m else m) (by
      split
      · exact addRef_tidy hk
      · exact hk)
    refine ⟨h1, fun a b h => ?_⟩
    rcases h2 a b h with h | ⟨e, x, hx, hn⟩
    · split at h
      · rcases refers_addRef.1 h with h | ⟨rfl, rfl⟩
        · exact .inl h
        · exact .inr ⟨rfl, r, by simp, rfl⟩
      · exact .inl h
    · exact .inr ⟨e, x, by simp [hx], hn⟩

theorem foldl_data (inside : Bool) (parent prev : Str) (refs : List AsmLabel) (m : List (Str × List Str)) (hk : Tidy m) :
    Tidy (refs.foldl (fun m r => if inside then addRef r.name parent (addRef r.name prev m) else addRef r.name prev m) m) ∧
    ∀ a b, Refers (refs.foldl (fun m r => if inside then addRef r.name parent (addRef r.name prev m) else addRef r.name prev m) m) a b →
      Refers m a b ∨ ((b = prev ∨ b = parent) ∧ ∃ r ∈ refs, r.name = a) := by
  induction refs generalizing m with
  | nil => exact ⟨hk, fun a b h => .inl h⟩
  | cons r refs ih =>
    rw [List.foldl_cons]
    obtain ⟨h1, h2⟩ := ih (if inside then addRef r.name parent (addRef r.name prev m) else addRef r.name prev m) (by
      split
      · exact addRef_tidy (addRef_tidy hk)
      · exact addRef_tidy hk)
    refine ⟨h1, fun a b h => ?_⟩
    rcases h2 a b h with h | ⟨e, x, hx, hn⟩
    · split at h
      · rcases refers_addRef.1 h with h | ⟨rfl, rfl⟩
        · rcases refers_addRef.1 h with h | ⟨rfl, rfl⟩
          · exact .inl h
          · exact .inr ⟨.inl rfl, r, by simp, rfl⟩
        · exact .inr ⟨.inr rfl, r, by simp, rfl⟩
      · rcases refers_addRef.1 h with h | ⟨rfl, rfl⟩
        · exact .inl h
        · exact .inr ⟨.inl rfl, r, by simp, rfl⟩
    · exact .inr ⟨e, x, by simp [hx], hn⟩

theorem tables_collect {L : Locale} {q : TParser} {ln : TLine} (h : Tables H C D G q)
    (hc : ln.isLabel = false → ln.hasOpcode = true → ∀ r ∈ getUsedLabelsInLine L ln.text, C r.name q.st.previousParentLabel.s)
    (hd : ln.isLabel = false → ln.isData = true → ∀ r ∈ getUsedLabelsInLine L ln.text,
      D r.name q.st.previousLabel.s ∧ D r.name q.st.previousParentLabel.s) : Tables H C D G (collect L q ln).1 := by
  have s2 : ∀ q' : TParser, Tables H C D G q' → q'.st = q.st → ∀ ln' : TLine, ln'.isLabel = ln.isLabel → ln'.isData = ln.isData →
      ln'.text = ln.text → (!ln'.isLabel && ln'.isData) = true → Tables H C D G (q'.extractUsedLabelsFromDataLine L ln').1 := by
    intro q' h' e ln' e1 e2 e3 hb
    simp only [Bool.and_eq_true, Bool.not_eq_true'] at hb
    have hd := hd (by rw [← e1]; exact hb.1) (by rw [← e2]; exact hb.2)
    rw [← e3, ← e] at hd
    obtain ⟨k1, k2⟩ := foldl_data q'.st.currentSourceRef.insideProc q'.st.previousParentLabel.s q'.st.previousLabel.s
      (getUsedLabelsInLine L ln'.text) q'.usage.dataUsed h'.keysD
    refine ⟨h'.prev, h'.parent, h'.addr, h'.code, fun a b r => ?_, h'.user, h'.alias, h'.weak, h'.keysU, k1⟩
    rcases k2 a b r with r | ⟨rfl | rfl, x, hr, rfl⟩
    · exact h'.data a b r
    · exact (hd x hr).1
    · exact (hd x hr).2
  unfold collect
  simp only
  by_cases hb : (!ln.isLabel && ln.hasOpcode) = true
  · rw [if_pos hb]
    simp only [Bool.and_eq_true, Bool.not_eq_true'] at hb
    have hc := hc hb.1 hb.2
    have h1 : Tables H C D G (q.extractUsedLabelsFromOpcodeLine L ln).1 := by
      obtain ⟨k1, k2⟩ := foldl_code q.st.previousParentLabel.s (getUsedLabelsInLine L ln.text) q.usage.used h.keysU
      refine ⟨h.prev, h.parent, h.addr, fun a b r => ?_, h.data, h.user, h.alias, h.weak, k1, h.keysD⟩
      rcases k2 a b r with r | ⟨rfl, x, hr, rfl⟩
      · exact h.code a b r
      · exact hc x hr
    split
    · rename_i hb2
      exact s2 _ h1 rfl _ rfl rfl rfl hb2
    · exact h1
  · rw [if_neg hb]
    split
    · rename_i hb2
      exact s2 _ h rfl _ rfl rfl rfl hb2
    · exact h

theorem assocSet_forall {α β : Type} [BEq α] [LawfulBEq α] {k : α} {v : β} {m : List (α × β)} {P : α × β → Prop}
    (h : ∀ e ∈ m, P e) (hk : P (k, v)) : ∀ e ∈ assocSet k v m, P e := by
  induction m with
  | nil => intro e he; rw [assocSet, List.mem_singleton] at he; rw [he]; exact hk
  | cons x m ih =>
    rw [List.forall_mem_cons] at h
    unfold assocSet
    split
    · rename_i hx
      have hx : x.1 = k := by simpa using hx
      rw [List.forall_mem_cons]
      exact ⟨by rw [hx]; exact hk, h.2⟩
    · rw [List.forall_mem_cons]
      exact ⟨h.1, ih h.2⟩

theorem tables_alias {p : TParser} {ln : TLine} (h : Tables H C D G p) (h0 : H []) (hl : ln.isLabel = true → H ln.label) :
    Tables H C D G (p.handleLabelAliasing ln) := by
  have key : ∀ q : TParser, Tables H C D G q → Tables H C D G (if ln.isLabel && !ln.isAssignment then
      { q with st := { q.st with previousLabelOnSameAddress := ⟨ln.label, some ln.id⟩ } } else q) := by
    intro q h
    split
    · rename_i hb
      simp only [Bool.and_eq_true] at hb
      exact ⟨h.prev, h.parent, hl hb.1, h.code, h.data, h.user, h.alias, h.weak, h.keysU, h.keysD⟩
    · exact h
  unfold TParser.handleLabelAliasing
  apply key
  split
  · split
    · split
      · rename_i hb
        refine ⟨h.prev, h.parent, h.addr, h.code, h.data, h.user, ?_, h.weak, h.keysU, h.keysD⟩
        exact assocSet_forall (P := fun e => H e.1 ∧ H e.2) h.alias ⟨hl hb, h.addr⟩
      · split
        · exact ⟨h.prev, h.parent, h0, h.code, h.data, h.user, h.alias, h.weak, h.keysU, h.keysD⟩
        · exact h
    · exact ⟨h.prev, h.parent, h0, h.code, h.data, h.user, h.alias, h.weak, h.keysU, h.keysD⟩
  · exact h

theorem tables_finish {L : Locale} {q : TParser} {ln : TLine} (h : Tables H C D G q) (h0 : H []) (hl : ln.isLabel = true → H ln.label)
    (hc : ln.isLabel = false → hasOpcode ln.text q.st.inNvccCode = true →
      ∀ r ∈ getUsedLabelsInLine L ln.text, C r.name q.st.previousParentLabel.s)
    (hd : ln.isLabel = false → ln.isData = true → ∀ r ∈ getUsedLabelsInLine L ln.text,
      D r.name q.st.previousLabel.s ∧ D r.name q.st.previousParentLabel.s) : Tables H C D G (q.eolFinish L ln) := by
  have e : q.eolFinish L ln =
    (let r := collect L q { ln with isInlineAsm := decide (q.st.inCustomAssembly > 0),
                                    hasOpcode := hasOpcode ln.text q.st.inNvccCode, labels := [] }
     let p := r.1
     let ln := { r.2 with
        closestParentLabel :=
          if r.2.isAssignment || r.2.label == p.st.previousParentLabel.s then [] else p.st.previousParentLabel.s
        source := p.st.currentSourceRef
        sect := p.st.currentSection }
     let p := p.handleLabelAliasing ln
     { p with lines := p.lines ++ [ln], stored := p.st.previousParentLabel.own :: p.stored }.clear) := rfl
  have h1 : Tables H C D G (collect L q { ln with isInlineAsm := decide (q.st.inCustomAssembly > 0),
                                                  hasOpcode := hasOpcode ln.text q.st.inNvccCode, labels := [] }).1 :=
    tables_collect h hc hd
  have h2 := collect_line L q { ln with isInlineAsm := decide (q.st.inCustomAssembly > 0),
                                        hasOpcode := hasOpcode ln.text q.st.inNvccCode, labels := [] } rfl
  rw [e]
  generalize collect L q { ln with isInlineAsm := decide (q.st.inCustomAssembly > 0),
                                   hasOpcode := hasOpcode ln.text q.st.inNvccCode, labels := [] } = r at h1 h2 ⊢
  have hl2 : r.2.isLabel = true → H r.2.label := by rw [h2]; exact hl
  clear e h2
  obtain ⟨q, ln2⟩ := r
  simp only at h1 hl2 ⊢
  have h3 := tables_alias (ln := { ln2 with
      closestParentLabel :=
        if ln2.isAssignment || ln2.label == q.st.previousParentLabel.s then [] else q.st.previousParentLabel.s
      source := q.st.currentSourceRef
      sect := q.st.currentSection }) h1 h0 hl2
  exact ⟨h3.prev, h3.parent, h3.addr, h3.code, h3.data, h3.user, h3.alias, h3.weak, h3.keysU, h3.keysD⟩

end

end AsmParser

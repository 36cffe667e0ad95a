/-
Helper lemmas: the references in the assembly code that a compiler writes.
-/
import Verif.Spec.CompiledUse
import Verif.Proofs.CompiledRows
import Verif.Props.Kept

namespace AsmParser

attribute [local irreducible] Re.search Re.fullMatch

/-! ### Single lines -/

theorem label_defines {name nt : Str} (h : (CLine.label name nt).Wf) : (CLine.label name nt).seen.Defines name := by
  obtain ⟨r, e, -⟩ := label_text h.usual
  refine ⟨rfl, ?_, .inl (.inl ⟨h.usual.1, fun c hc => .inl (h.usual.2.1 c hc), .inl ⟨r, e.trans (by simp)⟩⟩)⟩
  rintro ⟨-, hi⟩
  have := (cline_info h.usual).1 hi
  cases this

theorem defines_iff {x : CLine} (h : x.Wf) {l : Str} : x.seen.Defines l ↔ ∃ nt, x = .label l nt := by
  constructor
  · intro hd
    cases hl : x.isLabel with
    | true =>
      cases x with
      | label name nt => exact ⟨nt, by rw [C65_defines_unique _ _ _ hd (label_defines h)]⟩
      | _ => cases hl
    | false =>
      exfalso
      obtain ⟨h1, -, hd⟩ := hd
      have hnd := not_defines h hl h1 l
      rcases hd with (hd | ⟨hd, -⟩) | hd | hd
      · exact (hnd (.inl hd)).elim
      · exact (not_cuda h hd).elim
      · exact (hnd (.inr (.inl hd))).elim
      · exact (hnd (.inr (.inr (.inl hd)))).elim
  · rintro ⟨nt, rfl⟩
    exact label_defines h

theorem mem_labelNames {xs : List CLine} {a : Str} : a ∈ labelNames xs ↔ ∃ nt, .label a nt ∈ xs := by
  unfold labelNames
  rw [List.mem_filterMap]
  constructor
  · rintro ⟨x, hm, hd⟩
    cases x with
    | label b nt => cases hd; exact ⟨nt, hm⟩
    | _ => cases hd
  · rintro ⟨nt, hm⟩
    exact ⟨_, hm, rfl⟩

theorem labelNames_seen {ys : List CLine} (hy : ∀ y ∈ ys, y.Wf) {a : Str} : (∃ t ∈ ys.map CLine.seen, t.Defines a) ↔ a ∈ labelNames ys := by
  rw [mem_labelNames]
  constructor
  · rintro ⟨t, hm, hd⟩
    obtain ⟨y, hm', rfl⟩ := List.mem_map.1 hm
    obtain ⟨nt, rfl⟩ := (defines_iff (hy y hm')).1 hd
    exact ⟨nt, hm'⟩
  · rintro ⟨nt, hm⟩
    exact ⟨_, List.mem_map_of_mem hm, label_defines (hy _ hm)⟩

theorem plain_seen {x : CLine} (h : x.Wf) : x.seen.Plain ↔ x.isComment = false ∧ x.isLabel = false := by
  constructor
  · rintro ⟨h1, h2⟩
    refine ⟨h1, ?_⟩
    cases x with
    | label name nt => exact (h2 name (label_defines h)).elim
    | _ => rfl
  · rintro ⟨h1, h2⟩
    refine ⟨h1, fun l hl => ?_⟩
    obtain ⟨nt, rfl⟩ := (defines_iff h).1 hl
    cases h2

/-- The first character of the code. -/
theorem CLine.Usual.first {x : CLine} (h : x.Usual) {c : Byte} {w sep args : Str} (hp : x.parts = some (c :: w, sep, args)) :
    ∃ bs r, x.text = bs ++ c :: r ∧ Blanks bs ∧ ¬ Blank c := by
  obtain ⟨k, ⟨bs, bs', e, h1, -⟩, hk, -⟩ := h.shape hp
  exact ⟨bs, w ++ bs' ++ padTabs k args, by rw [e]; simp, h1, hk.2 c (by simp)⟩

theorem counted_first {t bs r : Str} {c : Byte} (e : t = bs ++ c :: r) (hb : Blanks bs) (hc : ¬ Blank c) (h : BeginsWithLetter (counted t)) :
    Letter c := by
  obtain ⟨bs', c', r', hb', hl, e'⟩ := h
  obtain ⟨z, hz⟩ := counted_prefix t
  rw [e', e] at hz
  rw [(blanks_first (r' := r' ++ z) hb hb' hc (symbolChar_solid (.inl hl)) (by rw [← hz]; simp)).1]
  exact hl

theorem instr_runs {x : CLine} (h : x.Wf) (hi : x.seen.Instr) : x.runs = true := by
  obtain ⟨hp, hi⟩ := hi
  obtain ⟨h1, h2⟩ := (plain_seen h).1 hp
  have hinst : Contains (counted x.text) b! ".inst" → Contains x.text b! ".inst" := by
    rintro ⟨a, b, e⟩
    obtain ⟨z, hz⟩ := counted_prefix x.text
    exact ⟨a, b ++ z, by rw [← hz, e]; simp⟩
  have key : ∀ {w sep args : Str}, x.parts = some (c! '.' :: w, sep, args) → Contains x.text b! ".inst" := by
    intro w sep args hp
    rcases hi with hi | ⟨-, hi⟩
    · exact hinst hi
    · obtain ⟨bs, r, e, hb, hc⟩ := h.usual.first hp
      exact absurd (counted_first e hb hc hi) (by unfold Letter; decide)
  have no : x.shows = false → ¬ Contains x.text b! ".inst" := by
    intro hs hc
    have := h.inst hs
    rw [(occurs_iff _ _).2 hc] at this
    cases this
  cases x with
  | label name nt => cases h2
  | comment ind m t => cases h1
  | instr op sep args => rfl
  | data kw sep args =>
    have : ∀ kw ∈ dataDirectives, ∃ w, kw = c! '.' :: w := by
      have : ∀ kw ∈ dataDirectives, kw.head? = some c! '.' := by decide
      intro kw hk
      have := this kw hk
      cases kw with
      | nil => cases this
      | cons c w => cases this; exact ⟨w, rfl⟩
    obtain ⟨w, hw⟩ := this kw h.usual.2
    show occurs b! ".inst" _ = true
    rw [occurs_iff]
    exact key (w := w) (sep := sep) (args := args) (by rw [← hw]; rfl)
  | file sep i d name m => exact (no rfl (key (w := b! "file") rfl)).elim
  | loc sep i n c m => exact (no rfl (key (w := b! "loc") rfl)).elim
  | block kw sep args =>
    have : ∀ kw ∈ [b! ".text", b! ".data", b! ".section", b! ".cfi_endproc"], ∃ w, kw = c! '.' :: w := by
      intro kw hk
      simp only [List.mem_cons, List.not_mem_nil, or_false] at hk
      rcases hk with rfl | rfl | rfl | rfl <;> exact ⟨_, rfl⟩
    obtain ⟨w, hw⟩ := this kw h.usual.2.2
    exact (no rfl (key (w := w) (sep := sep) (args := args) (by rw [← hw]; rfl))).elim
  | directive kw sep args =>
    obtain ⟨-, ⟨w, hw, -⟩, -⟩ := h.usual
    exact (no rfl (key (w := w) (sep := sep) (args := args) (by rw [← hw]; rfl))).elim

theorem data_seen {x : CLine} (h : x.Wf) : x.seen.Data ↔ x.isData = true := by
  constructor
  · rintro ⟨hp, -, bs, d, r, hb, hd, e⟩
    obtain ⟨h1, h2⟩ := (plain_seen h).1 hp
    have key : ∀ {kw sep args : Str}, x.parts = some (kw, sep, args) → (∀ d ∈ dataDirectives, ¬ d <+: kw) → False := fun hp hn =>
      let ⟨_, hs⟩ := h.usual.shape hp
      hn d hd (hs.starts (data_words d hd) hb e)
    cases x with
    | label name nt => cases h2
    | comment ind m t => cases h1
    | data kw sep args => rfl
    | instr op sep args =>
      obtain ⟨-, c, w, rfl, hc, -⟩ := h.usual
      refine (key (kw := c :: w) (sep := sep) (args := args) rfl fun d hd hpre => ?_).elim
      have : ∀ d ∈ dataDirectives, d.head? = some c! '.' := by decide
      have hd := this d hd
      cases d with
      | nil => cases hd
      | cons c' d =>
        cases hd
        obtain ⟨y, hy⟩ := hpre
        have : c! '.' = c := by simp at hy; exact hy.1
        rw [← this] at hc
        exact absurd hc (by unfold Letter; decide)
    | file sep i d name m => exact (key (kw := b! ".file") rfl (by decide)).elim
    | loc sep i n c m => exact (key (kw := b! ".loc") rfl (by decide)).elim
    | block kw sep args =>
      have : ∀ kw ∈ [b! ".text", b! ".data", b! ".section", b! ".cfi_endproc"], ∀ d ∈ dataDirectives, ¬ d <+: kw := by decide
      exact (key (kw := kw) (sep := sep) (args := args) rfl (this kw h.usual.2.2)).elim
    | directive kw sep args => exact (key (kw := kw) (sep := sep) (args := args) rfl h.usual.2.2.1).elim
  · intro hd
    cases x with
    | data kw sep args =>
      refine ⟨(plain_seen h).2 ⟨rfl, rfl⟩, ?_, ?_⟩
      · rintro ⟨-, hi⟩
        have := (cline_info h.usual).1 hi
        cases this
      · obtain ⟨k, ⟨bs, bs', e, h1, -⟩, -⟩ := h.usual.shape (kw := kw) (sep := sep) (args := args) rfl
        exact ⟨bs, kw, bs' ++ padTabs k args, h1, h.usual.2, by rw [show (CLine.data kw sep args).seen.text = _ from e]; simp⟩
    | _ => cases hd

/-- An instruction counts as one unless it looks like `name = ...`. -/
theorem instr_seen {op sep args : Str} (h : (CLine.instr op sep args).Wf) (hq : args.head? ≠ some c! '=') :
    (CLine.instr op sep args).seen.Instr := by
  refine ⟨(plain_seen h).2 ⟨rfl, rfl⟩, ?_⟩
  obtain ⟨k, ⟨bs, bs', e, h1, h2, h3⟩, hk, hf⟩ := h.usual.shape (kw := op) (sep := sep) (args := args) rfl
  rw [← padTabs_first k (h.usual.parts (kw := op) (sep := sep) (args := args) rfl).2.2.2.2.1] at hq
  obtain ⟨hsp, c, w, rfl, hl, hw⟩ := h.usual
  have hc : ¬ Blank c := symbolChar_solid (.inl hl)
  have hcc : ¬ CommentChar c := by
    exact byte_forall (P := fun c => Letter c → ¬ CommentChar c) (by unfold Letter CommentChar; decide +kernel) hl
  have e : (CLine.instr (c :: w) sep args).text = bs ++ c :: (w ++ bs' ++ padTabs k args) := by rw [e]; simp
  have hink := counted_ink ⟨bs, c, _, h1, hc, hcc, e⟩
  obtain ⟨z, hz⟩ := counted_prefix (CLine.instr (c :: w) sep args).text
  show Instruction false (CLine.instr (c :: w) sep args).text
  generalize hcnt : counted (CLine.instr (c :: w) sep args).text = u at *
  refine .inr ⟨?_, ?_⟩
  · rintro l ⟨b1, b2, d, t, g1, g2, rfl, g3, -, g4, g5⟩
    rw [hcnt] at g5
    rw [g5, e] at hz
    have hd := symbolStart_solid g3
    obtain ⟨rfl, e2⟩ := blanks_first (bs := b1) (bs' := bs) (r := t ++ b2 ++ b! "=" ++ z) g1 h1 hd hc (by rw [← hz]; simp)
    have stop : ∀ {t r : Str}, (∀ d ∈ t, SymbolChar d) → (∀ d ∈ r.head?, ¬ SymbolChar d) → (t ++ r).dropWhile Regexes.symChar = r := by
      intro t r ht hr
      rw [List.dropWhile_append_of_pos fun d hd => symChar_iff.2 (ht d hd)]
      cases r with
      | nil => rfl
      | cons d r => rw [List.dropWhile_cons_of_neg fun h => hr d (by simp) (symChar_iff.1 h)]
    have blank : ∀ {d : Byte}, Blank d → ¬ SymbolChar d := fun h1 h2 => symbolChar_solid h2 h1
    have a1 := stop (t := t) (r := b2 ++ c! '=' :: z) g4 (by
      cases b2 with
      | nil => intro d hd; cases hd; unfold SymbolChar Letter Digit; decide
      | cons b b2 => intro d hd; cases hd; exact blank (g2 _ (by simp)))
    have a2 := stop (t := w) (r := bs' ++ padTabs k args) hw fun d hd => blank (head_of_blanks h2 h3 d hd)
    rw [show t ++ (b2 ++ c! '=' :: z) = w ++ (bs' ++ padTabs k args) by rw [← List.append_assoc w, ← e2]; simp, a2] at a1
    have a3 := dropWhile_blanks_c (r := padTabs k args) h2 hf
    rw [a1, dropWhile_blanks_c (r := c! '=' :: z) g2 (by intro d hd; cases hd; decide)] at a3
    exact hq (by rw [← a3]; rfl)
  · simp only [Bool.false_eq_true, if_false]
    rw [hcnt]
    rw [e] at hz
    rcases List.append_eq_append_iff.1 hz with ⟨a', e1, e2⟩ | ⟨c', e1, e2⟩
    · exact (hink fun d hd => h1 d (by rw [e1]; simp [hd])).elim
    · cases c' with
      | nil => exact (hink fun d hd => h1 d (by rw [e1] at hd; simpa using hd)).elim
      | cons d c' =>
        rw [List.cons_append, List.cons.injEq] at e2
        rw [← e2.1] at e1
        exact ⟨bs, c, c', h1, hl, e1⟩

end AsmParser

/-
Helper lemmas: the strings of text mode are valid UTF-8 if the input is.
-/
import Verif.Proofs.TextUtf8
import Verif.Proofs.HeldText

namespace AsmParser

attribute [local irreducible] Re.search Re.fullMatch

theorem blanks_low {s : Str} (h : Blanks s) : Ascii7 s := by
  intro c hc
  rcases h c hc with rfl | rfl <;> decide

theorem symbolChar_low {c : Byte} (h : SymbolChar c) : c < 128 := by
  unfold SymbolChar Letter Digit at h
  rcases h with (h | h) | h | h | h | h
  · exact UInt8.lt_of_le_of_lt h.2 (by decide)
  · exact UInt8.lt_of_le_of_lt h.2 (by decide)
  · exact UInt8.lt_of_le_of_lt h.2 (by decide)
  all_goals subst h; decide

theorem defines_low {t l : Str} (h : DefinesOrAssigns t l) : Ascii7 l := by
  rcases h with ⟨-, h, -⟩ | ⟨c, t', bs, r, rfl, h1, h2, -⟩ | ⟨bs, bs', c, t', -, -, rfl, h1, -, h2, -⟩ | ⟨a, bs, ret, c, t', h, -⟩
  · intro c hc
    rcases h c hc with h | rfl
    · exact symbolChar_low h
    · decide
  · intro d hd
    rcases List.mem_cons.1 hd with rfl | hd
    · exact symbolChar_low h1
    · rcases h2 d hd with h | h | h
      · exact symbolChar_low (.inl h)
      · exact symbolChar_low (.inr (.inl h))
      · exact symbolChar_low (.inr (.inr (.inl h)))
  · intro d hd
    rcases List.mem_cons.1 hd with rfl | hd
    · rcases h1 with h1 | rfl
      · rcases h1 with h | h | h
        · exact symbolChar_low (.inl h)
        · exact symbolChar_low (.inr (.inr (.inl h)))
        · exact symbolChar_low (.inr (.inr (.inr (.inl h))))
      · decide
    · exact symbolChar_low (h2 d hd)
  · simp only [List.mem_cons, List.not_mem_nil, or_false] at h
    rcases h with rfl | rfl <;> decide

theorem space_low {c : Byte} (h : Space c) : c < 128 := by
  rcases h with rfl | h
  · decide
  · exact UInt8.lt_of_le_of_lt h.2 (by decide)

theorem inputLinesFrom_valid (cur s : Str) (h : ValidUtf8 (cur ++ s)) : ∀ l ∈ inputLinesFrom cur s, ValidUtf8 l := by
  induction s generalizing cur with
  | nil =>
    intro l hl
    unfold inputLinesFrom at hl
    split at hl
    · simp at hl
    · simp only [List.mem_singleton] at hl
      subst hl; simpa using h
  | cons c s ih =>
    intro l hl
    unfold inputLinesFrom at hl
    split at hl
    · rename_i hc
      subst hc
      rcases List.mem_cons.1 hl with rfl | hl
      · exact h.left (by decide)
      · exact ih [] (h.right (by decide)) l hl
    · exact ih (cur ++ [c]) (by simpa using h) l hl

theorem inputLines_valid {s : Str} (h : ValidUtf8 s) : ∀ l ∈ inputLines s, ValidUtf8 l := inputLinesFrom_valid [] s h

theorem cleaned_valid {f : Filter} {t : Str} (h : ValidUtf8 t) : ValidUtf8 (cleaned f t) := by
  unfold cleaned
  split
  · exact (squashQuotes_edit _ _).valid (expandTabs_valid h)
  · exact expandTabs_valid h

theorem shown_valid {f : Filter} {t raw : Str} {b : Bool} (h : Shown f t b raw) (hr : ValidUtf8 raw) : ValidUtf8 t := by
  obtain ⟨ws, sp, t', h1, h2, h3, -, rfl⟩ := h
  refine cleaned_valid (ValidUtf8.cancel (v := sp) (.ascii fun c hc => space_low (h3 c hc)) ?_)
  rw [← h2]
  exact .append (.ascii (blanks_low h1)) hr

theorem fixLabel_valid {t : Str} (h : ValidUtf8 t) : ValidUtf8 (fixLabelIndentation t) := by
  unfold fixLabelIndentation
  split
  · obtain ⟨sp, h1, h2⟩ := ltrim_split t
    rw [h2] at h
    exact ValidUtf8.cancel (v := sp) (.ascii fun c hc => space_low (h1 c hc)) h
  · exact h

section
variable [Recognizers]

theorem scanLine_valid (f : Filter) (s : Scan) (l : Str) (hl : ValidUtf8 l) (hc : ValidUtf8 s.carry) (hs : ∀ t ∈ s.texts, ValidUtf8 t.text) :
    ValidUtf8 (Scan.line f s l).carry ∧ ∀ t ∈ (Scan.line f s l).texts, ValidUtf8 t.text := by
  unfold Scan.line
  simp only
  have hraw := hc.append hl
  split
  · exact ⟨.nil, hs⟩
  split
  · exact ⟨hraw, hs⟩
  · generalize (if startsWithWord [b! "#APP", b! "# Begin ASM"] (s.carry ++ l) = true then s.nest + 1
              else if startsWithWord [b! "#NO_APP", b! "# End ASM"] (s.carry ++ l) = true then s.nest - 1 else s.nest) = n
    have hv : ValidUtf8 (cleaned f (if n > 0 then fixLabelIndentation (s.carry ++ l) else s.carry ++ l)) := by
      refine cleaned_valid ?_
      split
      · exact fixLabel_valid hraw
      · exact hraw
    refine ⟨by rw [Scan.see_carry]; exact .nil, ?_⟩
    rcases Scan.see_texts f { s with nest := n, carry := [] } (s.carry ++ l)
      (cleaned f (if n > 0 then fixLabelIndentation (s.carry ++ l) else s.carry ++ l)) with e | e
    · rw [e]; exact hs
    · rw [e]
      intro t ht
      rcases List.mem_append.1 ht with ht | ht
      · exact hs t ht
      · obtain rfl := List.mem_singleton.1 ht
        exact hv

theorem seen_valid {f : Filter} {s : Str} (h : ValidUtf8 s) : ∀ t ∈ seen f s, ValidUtf8 t.text := by
  have : ∀ (ls : List Str) (sc : Scan), (∀ l ∈ ls, ValidUtf8 l) → ValidUtf8 sc.carry → (∀ t ∈ sc.texts, ValidUtf8 t.text) →
      ∀ t ∈ (ls.foldl (Scan.line f) sc).texts, ValidUtf8 t.text := by
    intro ls
    induction ls with
    | nil => intro sc _ _ h; exact h
    | cons l ls ih =>
      intro sc h1 h2 h3
      obtain ⟨g1, g2⟩ := scanLine_valid f sc l (h1 l (by simp)) h2 h3
      exact ih _ (fun x hx => h1 x (by simp [hx])) g1 g2
  exact this _ {} (inputLines_valid h) .nil (by simp)

omit [Recognizers] in
theorem quoted_valid {x q a r : Str} (hq : Quoted q a) (h : ValidUtf8 (x ++ q ++ r)) : ValidUtf8 a ∧ ValidUtf8 r := by
  obtain ⟨-, -, rfl⟩ := hq
  have e : x ++ (b! "\"" ++ a ++ b! "\"") ++ r = x ++ c! '"' :: (a ++ c! '"' :: r) := by simp
  rw [e] at h
  have h' := h.right (by decide)
  exact ⟨h'.left (by decide), h'.right (by decide)⟩

omit [Recognizers] in
theorem fileDirective_valid {t name : Str} {i : Int} (h : FileDirective t i name) (ht : ValidUtf8 t) : ValidUtf8 name := by
  obtain ⟨d, bs, q, a, r, -, -, -, -, hq, ⟨b1, b2, -, -, -, rfl⟩, h⟩ := h
  obtain ⟨ha, hr⟩ := quoted_valid (x := b1 ++ b! ".file" ++ b2 ++ d ++ bs) (r := r) hq (by simpa using ht)
  rcases h with ⟨bs', q', b, r', -, -, hq', rfl, rfl⟩ | ⟨-, rfl⟩
  · exact (ha.append (.ascii (by decide))).append (quoted_valid hq' hr).1
  · exact ha

omit [Recognizers] in
theorem dbgDirective_valid {t file : Str} {n : Int} (h : DbgDirective t file n) (ht : ValidUtf8 t) : ValidUtf8 file := by
  obtain ⟨bs, q, bs', a, -, hq, -, -, -, b1, b2, -, -, -, rfl⟩ := h
  exact (quoted_valid (x := b1 ++ b! ".dbg" ++ b2 ++ b! "line," ++ bs) (r := b! "," ++ bs' ++ a) hq (by simpa using ht)).1

omit [Recognizers] in
theorem d2File_valid {t file : Str} (h : D2File t file) (ht : ValidUtf8 t) : ValidUtf8 file := by
  obtain ⟨b1, b2, -, -, -, rfl⟩ := h
  have e : b1 ++ b! ".d2file" ++ b2 ++ (b! "\"" ++ file ++ b! "\"") = (b1 ++ b! ".d2file" ++ b2) ++ c! '"' :: (file ++ c! '"' :: []) := by simp
  rw [e] at ht
  exact (ht.right (by decide)).left (by decide)

omit [Recognizers] in
theorem fileNamed_valid {ts : List Seen} {i : Int} {name : Str} (h : FileNamed ts i name) (ht : ∀ t ∈ ts, ValidUtf8 t.text) : ValidUtf8 name := by
  obtain ⟨a, t, b, rfl, -, h, -⟩ := h
  exact fileDirective_valid h (ht t (by simp))

omit [Recognizers] in
theorem setsPos_valid {ts : List Seen} {t : Seen} {file : Str} {n : Int} (h : SetsPos ts t (some (.named file n)))
    (ht : ∀ x ∈ ts, ValidUtf8 x.text) (ht' : ValidUtf8 t.text) : ValidUtf8 file := by
  cases h with
  | stab _ _ => exact .nil
  | dbg _ h => exact dbgDirective_valid h ht'
  | d2 _ _ h =>
    rcases h with ⟨rfl, -⟩ | ⟨a, x, b, rfl, -, h, -⟩
    · exact .nil
    · exact d2File_valid h (ht x (by simp))

omit [Recognizers] in
theorem positionAt_valid {ts : List Seen} {file : Str} {n : Int} (h : PositionAt ts (some (.named file n)))
    (ht : ∀ x ∈ ts, ValidUtf8 x.text) : ValidUtf8 file := by
  generalize hq : some (Pos.named file n) = q at h
  induction h with
  | start => cases hq
  | set h => subst hq; exact setsPos_valid h (fun x hx => ht x (by simp [hx])) (ht _ (by simp))
  | keep _ _ ih => exact ih (fun x hx => ht x (by simp [hx])) hq

omit [Recognizers] in
theorem shownAs_valid {ts us : List Seen} {q : Option Pos} {file : Str} {n c : Int} (hp : PositionAt us q) (h : ShownAs ts q (some (file, n, c)))
    (ht : ∀ x ∈ ts, ValidUtf8 x.text) (hu : ∀ x ∈ us, ValidUtf8 x.text) : ValidUtf8 file := by
  cases h with
  | named _ => exact positionAt_valid hp hu
  | file h _ => exact fileNamed_valid h ht

omit [Recognizers] in
theorem mem_takeWhile_sat {P : Byte → Bool} {s : Str} {c : Byte} (h : c ∈ s.takeWhile P) : P c = true := by
  induction s with
  | nil => simp at h
  | cons d s ih =>
    rw [List.takeWhile_cons] at h
    split at h
    · rcases List.mem_cons.1 h with rfl | h
      · assumption
      · exact ih h
    · simp at h

omit [Recognizers] in
theorem sectionAt_low {ts : List Seen} {name : Str} (h : SectionAt ts name) : Ascii7 name := by
  rcases h with ⟨rfl, -⟩ | ⟨a, t, b, rfl, ⟨x, kw, r, hk, -, -, rfl⟩, -⟩
  · intro c hc; simp at hc
  · split
    · unfold sectionName
      intro c hc
      have := mem_takeWhile_sat hc
      have low : ∀ c : Fin 256, ((c! 'a' ≤ UInt8.ofFin c && UInt8.ofFin c ≤ c! 'z') || (c! 'A' ≤ UInt8.ofFin c && UInt8.ofFin c ≤ c! 'Z') ||
        (c! '0' ≤ UInt8.ofFin c && UInt8.ofFin c ≤ c! '9') || UInt8.ofFin c == c! '.' || UInt8.ofFin c == c! '-') = true →
        UInt8.ofFin c < 128 := by decide +kernel
      exact low c.toFin this
    · simp only [List.mem_cons, List.not_mem_nil, or_false] at hk
      rcases hk with rfl | rfl | rfl <;> decide

/-- Blank lines have no source. -/
def BlankSrc (ls : List TLine) : Prop := ∀ l ∈ ls, l.text = [] → l.isLabel = false ∧ l.source = {}

omit [Recognizers] in
theorem BlankSrc.pre {p : TParser} (h : BlankSrc p.lines) : BlankSrc p.pre.lines := by
  unfold TParser.pre
  split
  · rcases mark_split p.nested with e | ⟨a, l, e1, h1, e2⟩
    · rw [e]; exact h
    · rw [e2]
      rw [show p.nested.lines = p.lines from rfl] at e1
      rw [e1] at h
      intro x hx ht
      rcases List.mem_append.1 hx with hx | hx
      · exact h x (List.mem_append_left _ hx) ht
      · simp only [List.mem_singleton] at hx
        subst hx
        exact absurd h1 (by simp [(h l (by simp) ht).1])
  · exact h

omit [Recognizers] in
theorem BlankSrc.amd {t : Seen} {ls ls' : List TLine} {src : TSource} (h : BlankSrc ls) (ha : Amd t ls ls' src) : BlankSrc ls' := by
  rcases ha with ⟨rfl, -⟩ | ⟨-, a, labs, rfl, h1, -, rfl, -⟩
  · exact h
  · intro x hx ht
    rcases List.mem_append.1 hx with hx | hx
    · exact h x (List.mem_append_left _ hx) ht
    · obtain ⟨y, hy, rfl⟩ := List.mem_map.1 hx
      have := (h y (List.mem_append_right _ hy) ht).1
      rw [h1 y hy] at this
      cases this

omit [Recognizers] in
theorem blank_step (L : Locale) (sc : Scan) (p : TParser) (l : Str) (hb : Basic p)
    (h : ReadInv sc p) (hi : BlankSrc p.lines) : BlankSrc ((p.addText l).eol L).lines := by
  have hstate : SrcState sc.texts (p.addText l) := h.state.congr rfl
  have hi' : BlankSrc (p.addText l).lines := hi
  have hsrc := eol_src L (p.addText l) (basic_addText hb l)
  clear h hb hi
  generalize p.addText l = p at *
  generalize p.eol L = p' at *
  rcases hsrc with ⟨h1, e1, e2, e3, e4, e5⟩ | ⟨h1, h2, e1, e2, e3, e4, e5⟩ | ⟨h1, h2, h3, h4, e1, e2, e3, e4, e5⟩ |
    ⟨h1, h2, h3, e1, e2, e3, e4, e5, e6, e7⟩
  · rw [e1]; exact hi'
  · rw [e1]
    rcases maybeAddBlank_cases p.start (p.nextId + 1) with e | ⟨x, -, -, e⟩
    · rw [e]; exact hi'
    · rw [e]
      intro y hy ht
      rcases List.mem_append.1 hy with hy | hy
      · exact hi' y hy ht
      · obtain rfl := List.mem_singleton.1 hy
        exact ⟨rfl, rfl⟩
  · rw [e1]; exact hi'.pre
  · obtain ⟨-, hamd, -⟩ := sec_state p hstate
    have hs := hi'.pre.amd hamd
    rcases e1 with e1 | ⟨ln, e1, hln⟩
    · rw [e1]; exact hs
    · rw [e1]
      intro y hy ht
      rcases List.mem_append.1 hy with hy | hy
      · exact hs y hy ht
      · obtain rfl := List.mem_singleton.1 hy
        rw [hln.text] at ht
        exact absurd ht (newLine_ne p h2)

theorem blank_read (L : Locale) (f : Filter) (s : Str) : BlankSrc ((TParser.init f).readStream L s).lines := by
  obtain ⟨e, -, h, -, -⟩ := readStream_lines L f (fun done p => ReadInv (scanned f done) p ∧ BlankSrc p.lines)
    ⟨⟨rfl, rfl, rfl, rfl, rfl, rfl, fun h => (h rfl).elim,
      ⟨⟨none, .start, rfl, rfl⟩, fun i name => ⟨fun h => by simp [TParser.init] at h, fun ⟨a, t, b, e, _⟩ => by
        simp [scanned] at e⟩, .inl ⟨rfl, fun t ht => by simp [scanned] at ht⟩, .inl ⟨rfl, fun t ht => by simp [scanned] at ht⟩⟩,
        [], rfl, by simp, .nil, by simp, fun za z zb e => by simp at e⟩, by simp [BlankSrc, TParser.init]⟩
    (fun done p l _ hf hb h hs => ⟨by
      rw [scanned_snoc]
      exact readInv_step L f _ p l hf hb h.1 hs, blank_step L _ p l hb h.1 h.2⟩) s
  exact h.2

/-- Blank output lines have no source and no section. -/
theorem blank_result {L : Locale} {f : Filter} {s : Str} {p : TParser} (h : TextResult L f s p) :
    ∀ l ∈ p.lines, l.text = [] → l.source = {} ∧ l.sect = {} := by
  obtain ⟨o, n, v, v', h⟩ := h
  obtain ⟨us, ls, lines, fl, ub, rfl, h1, sub, h2, h3, -⟩ := outcome h
  have hr := blank_read L f s
  obtain ⟨e, -, ht⟩ := textInv L f s
  intro l hl htx
  have hl : l ∈ lines := hl
  rw [h3] at hl
  obtain ⟨l0, hl0, rfl⟩ := List.mem_map.1 hl
  rw [finishKept_text] at htx
  have : l0.noUse ∈ ls.map TLine.noUse := List.mem_map_of_mem (h2.subset hl0)
  rw [h1] at this
  obtain ⟨y, hy, e⟩ := List.mem_map.1 this
  have t1 : y.text = l0.text := (congrArg TLine.text e :)
  have t2 : y.sect = l0.sect := (congrArg TLine.sect e :)
  have t4 : y.source = l0.source := (congrArg TLine.source e :)
  have hsrc : l0.source = {} := t4 ▸ (hr y hy (t1.trans htx)).2
  refine ⟨?_, ?_⟩
  · rw [finishKept_source, hsrc]; rfl
  · rw [finishKept_sect, ← t2]
    rcases ht.lines y hy with h | h
    · exact (congrArg TLine.sect h :)
    · exact absurd (t1.trans htx) h.text

end

end AsmParser

import Verif.Proofs.Held

/-! Which lines that are read count as inside of a procedure, for C80. -/

namespace AsmParser

attribute [local irreducible] Re.search Re.fullMatch

/-- The line is no label and counts as inside of a procedure. -/
def TLine.inner (l : TLine) : Bool := !l.isLabel && l.source.insideProc

/-- This for each line that has a text. -/
def TParser.inners (p : TParser) : List Bool := (p.lines.filter fun l => l.text ≠ []).map TLine.inner

/-- The position after the line with the number `k` is by the index of a file. -/
def IndexedAt (ts : List Seen) (k : Nat) : Prop := ∃ i n c, PositionAt (ts.take (k + 1)) (some (.indexed i n c))

theorem inner_labels {labs : List TLine} (h : ∀ l ∈ labs, l.isLabel = true) (g : TLine → TLine)
    (hg : ∀ l, (g l).text = l.text ∧ (g l).isLabel = l.isLabel) :
    ((labs.map g).filter fun l => l.text ≠ []).map TLine.inner = (labs.filter fun l => l.text ≠ []).map TLine.inner := by
  rw [List.filter_map, List.map_map]
  have : (fun l : TLine => decide (l.text ≠ [])) ∘ g = fun l => decide (l.text ≠ []) := by
    funext l; simp [(hg l).1]
  rw [this]
  refine List.map_congr_left fun l hl => ?_
  have := h l (List.mem_filter.1 hl).1
  simp [TLine.inner, (hg l).2, this]

theorem amd_inners {t : Seen} {ls ls' : List TLine} {src : TSource} (h : Amd t ls ls' src) :
    (ls'.filter fun l => l.text ≠ []).map TLine.inner = (ls.filter fun l => l.text ≠ []).map TLine.inner := by
  rcases h with ⟨e, -⟩ | ⟨-, a, labs, e1, h1, -, e2, -⟩
  · rw [e]
  · rw [e1, e2, List.filter_append, List.filter_append, List.map_append, List.map_append]
    congr 1
    exact inner_labels h1 _ fun l => ⟨rfl, rfl⟩

theorem pre_inners (p : TParser) : p.pre.inners = p.inners := by
  unfold TParser.pre
  split
  · unfold TParser.inners
    rcases mark_split p.nested with e | ⟨a, l, e1, h1, e2⟩
    · rw [e]; rfl
    · rw [e2, show p.lines = a ++ [l] from e1, List.filter_append, List.filter_append, List.map_append, List.map_append]
      congr 1
      exact inner_labels (labs := [l]) (by simp [h1]) (fun l => { l with source := { l.source with insideProc := true } }) fun l => ⟨rfl, rfl⟩
  · rfl

/-- The lines that are stored, with their numbers. -/
structure SideInv (f : Filter) (ts : List Seen) (bs : List Bool) (ws : List (Bool × Nat)) : Prop where
  map : ws.map (·.1) = bs
  pair : ws.Pairwise fun a b => a.2 < b.2
  all : ∀ k, (∃ w ∈ ws, w.2 = k) ↔ ∃ t, ts[k]? = some t ∧ t.Kept f
  told : ∀ w ∈ ws, ∃ t, ts[w.2]? = some t ∧ ((∀ a, ¬ t.Defines a) → (w.1 = true ↔ IndexedAt ts w.2))

theorem SideInv.lt {f : Filter} {ts : List Seen} {bs : List Bool} {ws : List (Bool × Nat)} (h : SideInv f ts bs ws) :
    ∀ w ∈ ws, w.2 < ts.length := by
  intro w hw
  obtain ⟨t, ht, -⟩ := h.told w hw
  exact (List.getElem?_eq_some_iff.1 ht).1

theorem indexedAt_snoc {ts : List Seen} {u : Seen} {k : Nat} (h : k < ts.length) : IndexedAt (ts ++ [u]) k ↔ IndexedAt ts k := by
  unfold IndexedAt
  rw [List.take_append_of_le_length h]

theorem SideInv.drop {f : Filter} {ts : List Seen} {bs : List Bool} {ws : List (Bool × Nat)} (h : SideInv f ts bs ws)
    {t : Seen} (hk : ¬ t.Kept f) : SideInv f (ts ++ [t]) bs ws := by
  refine ⟨h.map, h.pair, fun k => ?_, fun z hz => ?_⟩
  · rw [h.all]
    constructor
    · rintro ⟨u, h1, h2⟩
      exact ⟨u, by rw [List.getElem?_append_left (List.getElem?_eq_some_iff.1 h1).1]; exact h1, h2⟩
    · rintro ⟨u, h1, h2⟩
      rcases get_snoc h1 with h1 | ⟨-, rfl⟩
      · exact ⟨u, h1, h2⟩
      · exact (hk h2).elim
  · obtain ⟨u, h1, h2⟩ := h.told z hz
    exact ⟨u, by rw [List.getElem?_append_left (h.lt z hz)]; exact h1, by rw [indexedAt_snoc (h.lt z hz)]; exact h2⟩

theorem SideInv.push {f : Filter} {ts : List Seen} {bs : List Bool} {ws : List (Bool × Nat)} (h : SideInv f ts bs ws)
    {t : Seen} {b : Bool} (hk : t.Kept f) (ht : (∀ a, ¬ t.Defines a) → (b = true ↔ IndexedAt (ts ++ [t]) ts.length)) :
    SideInv f (ts ++ [t]) (bs ++ [b]) (ws ++ [(b, ts.length)]) := by
  refine ⟨by rw [List.map_append, h.map]; rfl, ?_, fun k => ?_, fun z hz => ?_⟩
  · rw [List.pairwise_append]
    refine ⟨h.pair, by simp, fun a ha b hb => ?_⟩
    rw [List.mem_singleton] at hb
    subst hb
    exact h.lt a ha
  · constructor
    · rintro ⟨z, hz, rfl⟩
      rcases List.mem_append.1 hz with hz | hz
      · obtain ⟨u, h1, h2⟩ := (h.all _).1 ⟨z, hz, rfl⟩
        exact ⟨u, by rw [List.getElem?_append_left (h.lt z hz)]; exact h1, h2⟩
      · rw [List.mem_singleton] at hz
        subst hz
        exact ⟨t, by simp, hk⟩
    · rintro ⟨u, h1, h2⟩
      rcases get_snoc h1 with h1 | ⟨rfl, rfl⟩
      · obtain ⟨z, hz, rfl⟩ := (h.all _).2 ⟨u, h1, h2⟩
        exact ⟨z, by simp [hz], rfl⟩
      · exact ⟨(b, ts.length), by simp, rfl⟩
  · rcases List.mem_append.1 hz with hz | hz
    · obtain ⟨u, h1, h2⟩ := h.told z hz
      exact ⟨u, by rw [List.getElem?_append_left (h.lt z hz)]; exact h1, by rw [indexedAt_snoc (h.lt z hz)]; exact h2⟩
    · rw [List.mem_singleton] at hz
      subst hz
      exact ⟨t, by simp, ht⟩

variable [Recognizers]

theorem sideInv_step (L : Locale) (f : Filter) (sc : Scan) (p : TParser) (l : Str) (hf : p.filter = f) (hb : Basic p)
    (h : ReadInv sc p) (hg : LabelInv sc.texts p) (hh : ∃ zs, SideInv f sc.texts p.inners zs) :
    ∃ zs, SideInv f (Scan.line f sc l).texts ((p.addText l).eol L).inners zs := by
  have hn := (labelInv_step L f sc p l hf hb h hg).graph.parent
  have ht := line_texts f sc p l hf h
  have hhe := eol_held L (p.addText l) (basic_addText hb l)
  have hsr := eol_src L (p.addText l) (basic_addText hb l)
  have hst : SrcState sc.texts (p.addText l) := h.state.congr rfl
  have hin : Inside (p.addText l).st.currentSourceRef := hg.inside
  obtain ⟨zs, hz⟩ : ∃ zs, SideInv f sc.texts (p.addText l).inners zs := hh
  have hfl : (p.addText l).filter = f := hf
  clear h hg hb hf
  rw [ht] at hn ⊢
  clear ht
  generalize p.addText l = p at *
  generalize p.eol L = p' at *
  have hk := seen_kept p
  rw [hfl] at hk
  obtain ⟨hst', ham, -⟩ := sec_state p hst
  have hsec : (p.sec.lines.filter fun l => l.text ≠ []).map TLine.inner = p.inners := (amd_inners ham).trans (pre_inners p)
  have hheld : ∀ q : TParser, q.lines = p.sec.lines → q.held = p.held := by
    intro q hq
    have h1 : Amended p.lines q.lines := by rw [hq]; exact (frame_sec p).lines
    exact amended_held h1
  have hpush : isEmptyOrJustWhitespace p.st.text = false → ∀ ln, p'.lines = p.sec.lines ++ [ln] → Pushed p ln →
      p'.held = p.held ++ [ln.bare] ∧ p'.inners = p.inners ++ [ln.inner] := by
    intro hw ln e hp
    have hne : ln.text ≠ [] := by rw [hp.text]; exact newLine_ne p hw
    refine ⟨?_, ?_⟩
    · unfold TParser.held
      rw [e, List.map_append, List.filter_append]
      congr 1
      · exact hheld p.sec rfl
      · exact List.filter_cons_of_pos (by show decide (ln.text ≠ []) = true; simpa using hne)
    · rw [← hsec]
      unfold TParser.inners
      rw [e, List.filter_append, List.map_append, List.filter_cons_of_pos (by simpa using hne)]
      rfl
  rcases hhe with ⟨h, e⟩ | ⟨h, hs, e⟩ | ⟨h, hs, hl, e, hp⟩
  · rw [if_pos h]
    have key : p'.inners = p.inners := by
      cases hsr with
      | block h lines => unfold TParser.inners; rw [lines]
      | blank h h1 lines =>
        unfold TParser.inners
        rw [lines]
        rcases maybeAddBlank_cases p.start (p.nextId + 1) with e | ⟨x, -, -, e⟩ <;> rw [e]
        · rfl
        · rw [List.filter_append, List.map_append]
          exact List.append_nil _
      | proc h h1 h2 h3 lines => unfold TParser.inners; rw [lines]; exact pre_inners p
      | line g h1 h2 =>
        rw [g, h1, Bool.false_or, Bool.false_or, Bool.and_eq_true] at h
        rw [h2 h.1] at h
        cases h.2
    rw [key]
    exact ⟨zs, hz⟩
  · rw [if_neg (by rw [h]; simp)]
    have key : p'.inners = p.inners := by
      rw [Bool.or_eq_false_iff, Bool.or_eq_false_iff] at h
      cases hsr with
      | block g => rw [h.1.1] at g; cases g
      | blank g h1 => rw [h.1.2] at h1; cases h1
      | proc g h1 h2 h3 => rw [h2, h3] at h; cases h.2
      | line g h1 h2 lines =>
        rcases lines with lines | ⟨ln, lines, hp⟩
        · rw [← hsec]; unfold TParser.inners; rw [lines]
        · have := congrArg List.length ((hpush h1 ln lines hp).1.symm.trans e)
          simp at this
    rw [key]
    refine ⟨zs, hz.drop fun hc => ?_⟩
    obtain ⟨h1, h2⟩ := hk.1 hc
    rcases hs with hs | hs
    · rw [h1] at hs; cases hs
    · rw [h2] at hs; cases hs
  · rw [if_neg (by rw [h]; simp), hp] at hn
    rw [if_neg (by rw [h]; simp)]
    rw [Bool.or_eq_false_iff, Bool.or_eq_false_iff] at h
    cases hsr with
    | block g => rw [h.1.1] at g; cases g
    | blank g h1 => rw [h.1.2] at h1; cases h1
    | proc g h1 h2 h3 => rw [h2, h3] at h; cases h.2
    | line g h1 h2 lines =>
      rcases lines with lines | ⟨ln, lines, hpu⟩
      · have := congrArg List.length ((hheld p' lines).symm.trans e)
        simp at this
      · obtain ⟨k1, k2⟩ := hpush h1 ln lines hpu
        rw [k2]
        refine ⟨_, hz.push (hk.2 ⟨hs, hl⟩) fun hd => ?_⟩
        have e' : ln.bare = p.made L := by
          have := List.append_cancel_left (k1.symm.trans e)
          simpa using this
        have hlab : ln.isLabel = false := by
          have : ln.isLabel = (p.made L).isLabel := (congrArg TLine.isLabel e' :)
          rcases (made_told L p hs hn).rest.label with ⟨-, h⟩ | ⟨h, -⟩
          · exact (hd _ h).elim
          · exact this.trans h
        unfold TLine.inner IndexedAt
        rw [hlab, hpu.source, take_self, ← inside_position (sec_graph p hin).1 hst']
        simp

/-- The lines after the input is read. -/
theorem readSides (L : Locale) (f : Filter) (s : Str) : ∃ ws, SideInv f (seen f s) ((TParser.init f).readStream L s).inners ws := by
  obtain ⟨e, he, h, -, -⟩ := readStream_lines L f (fun done p => TextInv L f done p ∧ ReadInv (scanned f done) p ∧
      LabelInv (scanned f done).texts p ∧ ∃ zs, SideInv f (scanned f done).texts p.inners zs)
    ⟨⟨fun c hc => absurd hc (by simp [TParser.init]), by simp [TParser.init], by simp [TParser.init],
      ⟨by simp [TParser.init], by simp [TParser.init], by simp [TParser.init], by simp [TParser.init]⟩, trivial, fun _ => rfl⟩,
     ⟨rfl, rfl, rfl, rfl, rfl, rfl, fun h => (h rfl).elim,
      ⟨⟨none, .start, rfl, rfl⟩, fun i name => ⟨fun h => by simp [TParser.init] at h, fun ⟨a, t, b, e, _⟩ => by
        simp [scanned] at e⟩, .inl ⟨rfl, fun t ht => by simp [scanned] at ht⟩, .inl ⟨rfl, fun t ht => by simp [scanned] at ht⟩⟩,
        [], rfl, by simp, .nil, by simp, fun za z zb e => by simp at e⟩,
     ⟨graphInv_nil, ⟨fun h => (by simp [TParser.init] at h), fun h => (h rfl).elim⟩⟩,
     [], rfl, .nil, by simp [scanned], by simp⟩
    (fun done p l _ hf hb h hs => ⟨textInv_step L f done p l hf h.1 hs, by
      rw [scanned_snoc]
      exact readInv_step L f _ p l hf hb h.2.1 hs, by
      rw [scanned_snoc]
      exact labelInv_step L f _ p l hf hb h.2.1 h.2.2.1, by
      rw [scanned_snoc]
      exact sideInv_step L f _ p l hf hb h.2.1 h.2.2.1 h.2.2.2⟩) s
  rcases he with rfl | ⟨rfl, q, hq, hi', hr, -⟩
  · rw [List.append_nil] at h
    exact h.2.2.2
  · obtain ⟨hi, -, -, h⟩ := h
    have hb : (scanned f (inputLines s)).carry.all (fun c => c = 32 || c = 9) = true := by
      rw [← hr.carry, ← white_scan, blanks_white]
      exact hi'.carry
    have e : (Scan.line f (scanned f (inputLines s)) []).texts = seen f s := by
      unfold Scan.line
      simp only [List.append_nil, hb, if_true]
      split <;> rfl
    rw [scanned_snoc, e] at h
    exact h

end AsmParser

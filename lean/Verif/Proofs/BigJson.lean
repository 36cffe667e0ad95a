/-
Helper lemmas: a family of listings whose JSON output is not proportional to the input.
-/
import Verif.Proofs.Ladder
import Verif.Proofs.Size
import Verif.Model.Json

namespace AsmParser

attribute [local irreducible] Re.search Re.fullMatch

/-- A line that selects a section with a name of `n` letters. -/
def sectLine (n : Nat) : Str := b! ".section " ++ List.replicate n c! 'a'
/-- This line and `n` instructions. -/
def sectLines (n : Nat) : List Str := sectLine n :: List.replicate n b! " ret"
/-- The listing. -/
def sectListing (n : Nat) : Str := unlines (sectLines n)

theorem sectLine_mem {n : Nat} {c : Byte} (h : c ∈ sectLine n) : c ∈ b! ".section a" := by
  unfold sectLine at h
  rcases List.mem_append.1 h with h | h
  · exact (List.mem_append_left [c! 'a'] h : c ∈ b! ".section " ++ [c! 'a'])
  · rw [(List.mem_replicate.1 h).2]; decide

theorem sectLine_no {n : Nat} {c : Byte} (h : c ∉ b! ".section a") : c ∉ sectLine n := fun hm => h (sectLine_mem hm)

theorem sectLine_cuda (n : Nat) : ¬ StartsCuda (sectLine n) := by
  rintro ⟨⟨_, a, bs, ret, c, t, -, -, -, -, -, -, e⟩, -⟩
  have : c! '(' ∉ sectLine n := sectLine_no (by decide)
  rw [e] at this
  exact this (by simp)

theorem sectLine_words (n : Nat) {ws : List Str} (hw : ∀ w ∈ ws, c! '#' ∈ w) : startsWithWord ws (sectLine n) = false := by
  unfold startsWithWord
  rw [List.any_eq_false]
  intro w hm hp
  obtain ⟨r, e⟩ := List.isPrefixOf_iff_prefix.1 hp
  have : c! '#' ∈ (sectLine n).dropWhile fun c => c = 32 || c = 9 := by rw [← e]; exact List.mem_append_left _ (hw w hm)
  exact sectLine_no (n := n) (c := c! '#') (by decide) ((List.dropWhile_sublist _).mem this)

theorem sectLine_clean (n : Nat) : cleaned {} (sectLine n) = sectLine n := by
  unfold cleaned
  rw [if_neg (by simp), expandTabs_eq]
  exact padTabs_free _ (sectLine_no (by decide)) 0

section
variable [Recognizers]

theorem sectLine_line (n : Nat) (s : Scan) (h1 : s.nest = 0) (h2 : s.carry = []) (h3 : s.code = false) (h4 : s.params = false) :
    ∃ s', Scan.line {} s (sectLine n) = s' ∧ s'.nest = 0 ∧ s'.carry = [] ∧ s'.code = false ∧ s'.params = false ∧
      s'.texts = s.texts ++ [{ text := sectLine n }] := by
  refine ⟨_, rfl, ?_⟩
  have hb : ((sectLine n).all fun c => c = 32 || c = 9) = false := by unfold sectLine; rfl
  unfold Scan.line
  simp only [h2, List.nil_append, Bool.false_and, Bool.false_eq_true, if_false, hb,
    sectLine_words n (ws := [b! "#APP", b! "# Begin ASM"]) (by decide),
    sectLine_words n (ws := [b! "#NO_APP", b! "# End ASM"]) (by decide), h1]
  simp only [gt_iff_lt, Int.lt_irrefl, if_false, sectLine_clean]
  unfold Scan.see
  simp [h3, h4, sectLine_cuda]

omit [Recognizers] in
theorem sect_lines_end (n : Nat) : ∀ l ∈ sectLines n, (10 : Byte) ∉ l := by
  intro l hl
  rcases List.mem_cons.1 hl with rfl | hl
  · exact sectLine_no (by decide)
  · rw [(List.mem_replicate.1 hl).2]; decide

theorem sect_seen (n : Nat) : seen {} (sectListing n) = (sectLines n).map fun l => { text := l } := by
  have key : ∀ (ls : List Str) (s : Scan), (∀ l ∈ ls, Easy l) → s.nest = 0 → s.carry = [] → s.code = false → s.params = false →
      (ls.foldl (Scan.line {}) s).texts = s.texts ++ ls.map fun l => { text := l } := by
    intro ls
    induction ls with
    | nil => intro s _ _ _ _ _; simp
    | cons l ls ih =>
      intro s h h1 h2 h3 h4
      obtain ⟨s', e, g1, g2, g3, g4, g5⟩ := (h l (by simp)).line s h1 h2 h3 h4
      rw [List.foldl_cons, e, ih s' (fun l hl => h l (by simp [hl])) g1 g2 g3 g4, g5]
      simp
  unfold seen scan sectListing
  rw [inputLines_unlines _ (sect_lines_end n), sectLines, List.foldl_cons]
  obtain ⟨s', e, g1, g2, g3, g4, g5⟩ := sectLine_line n {} rfl rfl rfl rfl
  rw [e, key _ s' (fun l hl => by rw [(List.mem_replicate.1 hl).2]; exact ret_easy) g1 g2 g3 g4, g5]
  rfl

end

/-- The part before the first of two given bytes is determined. -/
theorem dot_first {a b r : Str} (h : c! '.' :: r = a ++ c! '.' :: b) (hr : c! '.' ∉ r) : a = [] ∧ b = r := by
  cases a with
  | nil => exact ⟨rfl, ((List.cons.inj h).2).symm⟩
  | cons x a => exact absurd (by rw [(List.cons.inj h).2]; simp) hr

theorem sectLine_switch {n : Nat} {name : Str} (h : SwitchesTo (sectLine n) name) : name = List.replicate n c! 'a' := by
  obtain ⟨a, kw, r, hk, e, -, hn⟩ := h
  have e0 : sectLine n = c! '.' :: (b! "section " ++ List.replicate n c! 'a') := rfl
  have e1 : c! '.' :: (b! "section " ++ List.replicate n c! 'a') = a ++ c! '.' :: (kw ++ r) := by
    rw [← e0, e]; simp
  have hr : c! '.' ∉ b! "section " ++ List.replicate n c! 'a' := by
    intro hm
    rcases List.mem_append.1 hm with hm | hm
    · revert hm; decide
    · exact absurd (List.mem_replicate.1 hm).2 (by decide)
  obtain ⟨-, e2⟩ := dot_first e1 hr
  simp only [List.mem_cons, List.not_mem_nil, or_false] at hk
  rcases hk with rfl | rfl | rfl
  · exact absurd (List.cons.inj e2).1 (by decide)
  · exact absurd (List.cons.inj e2).1 (by decide)
  · rw [if_pos rfl] at hn
    have e3 : r = c! ' ' :: List.replicate n c! 'a' := by
      simpa using e2
    rw [hn, e3]
    unfold sectionName
    have hd : (c! ' ' :: List.replicate n c! 'a').dropWhile (fun c => decide (c = 32) || decide (c = 9)) = List.replicate n c! 'a' := by
      rw [List.dropWhile_cons, if_pos (by decide)]
      cases n with
      | zero => rfl
      | succ n => rw [List.replicate_succ, List.dropWhile_cons, if_neg (by decide)]
    simp only [hd]
    have hq : (List.replicate n c! 'a').head? ≠ some c! '"' := by
      cases n with
      | zero => simp
      | succ n => rw [List.replicate_succ]; simp
    rw [if_neg hq]
    rw [List.takeWhile_replicate]
    rfl

theorem sectLine_switches (n : Nat) : SwitchesTo (sectLine n) (sectionName (c! ' ' :: List.replicate n c! 'a')) :=
  ⟨[], b! "section", c! ' ' :: List.replicate n c! 'a', by decide, rfl, fun _ _ _ _ _ => Nat.zero_le _, rfl⟩

theorem ret_switch (name : Str) : ¬ SwitchesTo b! " ret" name := by
  rintro ⟨a, kw, r, -, e, -⟩
  have : c! '.' ∉ b! " ret" := by decide
  rw [e] at this
  exact this (by simp)

theorem sect_at (n k : Nat) (name : Str)
    (h : SectionAt (((sectLines n).map fun l => ({ text := l } : Seen)).take (k + 1)) name) : name = List.replicate n c! 'a' := by
  unfold sectLines at h
  rw [List.map_cons, List.take_succ_cons] at h
  rcases h with ⟨-, h⟩ | ⟨a, t, b, e, h, -⟩
  · exact absurd (sectLine_switches n) (h _ (List.mem_cons_self ..) _)
  · have ht : t ∈ ({ text := sectLine n } : Seen) :: ((List.replicate n b! " ret").map fun l => ({ text := l } : Seen)).take k := by rw [e]; simp
    rcases List.mem_cons.1 ht with rfl | ht
    · exact sectLine_switch h
    · obtain ⟨x, hx, rfl⟩ := List.mem_map.1 (List.mem_of_mem_take ht)
      rw [(List.mem_replicate.1 hx).2] at h
      exact absurd h (ret_switch _)

/-- There is no data in the listing. -/
theorem sect_no_data (n : Nat) : ∀ line ∈ inputLines (sectListing n), ∀ kw ∈ dataDirectives, ¬ Contains (ink line) kw := by
  intro line hl kw hk
  unfold sectListing at hl
  rw [inputLines_unlines _ (sect_lines_end n)] at hl
  have hkw : ∀ kw ∈ dataDirectives, ∃ x, kw = c! '.' :: x ∧ x.take 2 ≠ b! "se" ∧ 2 ≤ x.length := by
    have : ∀ kw ∈ dataDirectives, kw = c! '.' :: kw.tail ∧ kw.tail.take 2 ≠ b! "se" ∧ 2 ≤ kw.tail.length := by decide +kernel
    exact fun kw h => ⟨_, this kw h⟩
  obtain ⟨x, rfl, h1, h2⟩ := hkw kw hk
  rintro ⟨a, b, e⟩
  rcases List.mem_cons.1 hl with rfl | hl
  · have e0 : ink (sectLine n) = c! '.' :: (b! "section" ++ List.replicate n c! 'a') := by
      unfold ink sectLine
      rw [List.filter_append, List.filter_replicate]
      rfl
    have hr : c! '.' ∉ b! "section" ++ List.replicate n c! 'a' := by
      intro hm
      rcases List.mem_append.1 hm with hm | hm
      · revert hm; decide
      · exact absurd (List.mem_replicate.1 hm).2 (by decide)
    rw [e0, List.append_assoc, List.cons_append] at e
    obtain ⟨-, e2⟩ := dot_first e hr
    apply h1
    have : (x ++ b).take 2 = _ := congrArg (List.take 2) e2
    rw [List.take_append_of_le_length h2] at this
    rw [this]; rfl
  · rw [(List.mem_replicate.1 hl).2] at e
    have : c! '.' ∉ ink b! " ret" := by decide
    rw [e] at this
    exact this (by simp)

theorem escape_size (s : Str) : s.length ≤ (escape s).length := by
  induction s with
  | nil => exact Nat.le_refl _
  | cons c s ih =>
    unfold escape
    rw [List.length_append, List.length_cons]
    split
    · have : (b! "\\t").length = 2 := rfl
      omega
    · split
      · have : (b! "\\\\").length = 2 := rfl
        omega
      · split
        · have : (b! "\\\"").length = 2 := rfl
          omega
        · rw [List.length_singleton]; omega

theorem sepBy_size (sep : Str) (xs : List Str) : (xs.map List.length).sum ≤ (sepBy sep xs).length := by
  induction xs with
  | nil => exact Nat.le_refl _
  | cons x xs ih =>
    cases xs with
    | nil => simp [sepBy]
    | cons y ys =>
      rw [sepBy]
      · simp only [List.map_cons, List.sum_cons, List.length_append] at ih ⊢; omega
      · simp

theorem writeLine_size (f : Filter) (l : AsmLine) (hf : f.compatmode = false) : l.sect.length ≤ (writeLine f l).length := by
  by_cases h : l.sect = []
  · rw [h]; exact Nat.zero_le _
  · unfold writeLine
    have e : (!l.sect.isEmpty && !f.compatmode) = true := by
      rw [hf]; simpa using h
    rw [if_pos e]
    have := escape_size l.sect
    simp only [strValue, List.length_append]
    omega

theorem write_size (d : JsonDoc) (m : Nat) (hf : d.filter.compatmode = false) :
    (d.lines.filter fun l => decide (m ≤ l.sect.length)).length * m ≤ d.write.length := by
  have h1 : ∀ ls : List AsmLine, (ls.filter fun l => decide (m ≤ l.sect.length)).length * m ≤
      ((ls.map (writeLine d.filter)).map List.length).sum := by
    intro ls
    induction ls with
    | nil => simp
    | cons l ls ih =>
      have h2 := writeLine_size d.filter l hf
      rw [List.filter_cons]
      split
      · rename_i h
        have h : m ≤ l.sect.length := by simpa using h
        simp only [List.length_cons, List.map_cons, List.sum_cons, Nat.succ_mul]
        omega
      · simp only [List.map_cons, List.sum_cons]
        omega
  have h1 := h1 d.lines
  have h2 := sepBy_size b! "," (d.lines.map (writeLine d.filter))
  unfold JsonDoc.write
  simp only [List.length_append]
  omega

theorem cover_length (n : Nat) : ∀ xs : List Nat, (∀ k, k < n → k ∈ xs) → n ≤ xs.length := by
  induction n with
  | zero => intro xs _; exact Nat.zero_le _
  | succ n ih =>
    intro xs h
    have h1 := ih (xs.erase n) fun k hk => (List.mem_erase_of_ne (by omega)).2 (h k (by omega))
    have h2 := List.length_erase_of_mem (h n (by omega))
    have h3 : 0 < xs.length := List.length_pos_of_mem (h n (by omega))
    omega

theorem sectListing_size (n : Nat) : (sectListing n).length = 6 * n + 10 := by
  unfold sectListing sectLines unlines
  have h : ∀ k, ((List.replicate k b! " ret").flatMap fun l => l ++ [10]).length = 5 * k := by
    intro k
    induction k with
    | zero => rfl
    | succ k ih => rw [List.replicate_succ, List.flatMap_cons, List.length_append, ih]; simp; omega
  rw [List.flatMap_cons, List.length_append, h, sectLine]
  simp only [List.length_append, List.length_replicate, List.length_singleton]
  have : (b! ".section ").length = 9 := rfl
  omega

end AsmParser

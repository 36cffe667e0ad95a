/-
Helper lemmas: comments and directives among the lines that text mode keeps.
-/
import Verif.Proofs.Held
import Verif.Proofs.TextComment
import Verif.Proofs.TextVisible

namespace AsmParser

attribute [local irreducible] Re.search Re.fullMatch

/-- As `onlyComment_cleaned`, for CUDA code. -/
theorem cudaComment_cleaned (f : Filter) (t : Str) (h : CudaComment (cleaned f t)) : CudaComment t ∨
    (∃ bs r, Blanks bs ∧ t = bs ++ b! "/*" ++ r) ∨ (f.whitespace = true ∧ ∃ bs r, Blanks bs ∧ cleaned f t = bs ++ c! '/' :: r) := by
  obtain ⟨bs, u, hb, e, hu⟩ := h
  have one : ∀ (c : Byte) (r : Str), ¬ Blank c → u = c :: r → ∃ bs' r', Blanks bs' ∧ t = bs' ++ c :: r' := by
    intro c r hc hr
    obtain ⟨bs', r', h1, h2, -⟩ := nonBlanks_split (x := t) (c := c) (y := nonBlanks r)
      (by rw [← nonBlanks_cleaned f, e, hr, nonBlanks_prefix hb hc])
    exact ⟨bs', r', h1, h2⟩
  have other : OnlyComment (cleaned f t) → (∀ r, u ≠ c! '@' :: r) → CudaComment t ∨
      (∃ bs r, Blanks bs ∧ t = bs ++ b! "/*" ++ r) ∨ (f.whitespace = true ∧ ∃ bs r, Blanks bs ∧ cleaned f t = bs ++ c! '/' :: r) := by
    intro ho hat
    rcases onlyComment_cleaned f t ho with ⟨b2, v, h1, h2, h3⟩ | h | h
    · refine .inl ⟨b2, v, h1, h2, ?_⟩
      rcases h3 with h3 | ⟨w, rfl⟩ | h3 | h3 | ⟨r, rfl, -⟩
      · exact .inl h3
      · exfalso
        have e2 := nonBlanks_cleaned f t
        rw [e, h2] at e2
        have e3 : nonBlanks (bs ++ u) = c! '@' :: nonBlanks w := by
          rw [e2]; exact nonBlanks_prefix h1 (by decide)
        obtain ⟨b3, r3, g1, g2, -⟩ := nonBlanks_split e3
        obtain ⟨c, u', rfl, hc⟩ : ∃ c u', u = c :: u' ∧ ¬ Blank c := by
          rcases hu with ⟨x, rfl⟩ | ⟨x, rfl⟩ | ⟨x, rfl⟩ | ⟨x, rfl⟩
          · exact ⟨c! '#', x, rfl, by decide⟩
          · exact ⟨c! ';', x, rfl, by decide⟩
          · exact ⟨c! '/', c! '/' :: x, rfl, by decide⟩
          · exact ⟨c! '/', c! '*' :: (x ++ b! "*/"), rfl, by decide⟩
        obtain ⟨-, rfl, -⟩ := split_unique hb g1 hc (by decide) g2
        exact hat _ rfl
      · exact .inr (.inr (.inl h3))
      · exact .inr (.inr (.inr h3))
      · exact .inr (.inl ⟨r, rfl⟩)
    · exact .inr (.inl h)
    · exact .inr (.inr h)
  rcases hu with ⟨r, hr⟩ | ⟨r, hr⟩ | ⟨r, hr⟩ | ⟨x, hx⟩
  · exact other ⟨bs, u, hb, e, .inl ⟨r, hr⟩⟩ fun r' h => by rw [← hr] at h; exact absurd (List.cons.inj h).1 (by decide)
  · obtain ⟨bs', r', h1, h2⟩ := one c! ';' r (by decide) hr.symm
    exact .inl ⟨bs', _, h1, h2, .inr (.inl ⟨r', rfl⟩)⟩
  · exact other ⟨bs, u, hb, e, .inr (.inr (.inl ⟨r, hr⟩))⟩ fun r' h => by rw [← hr] at h; exact absurd (List.cons.inj h).1 (by decide)
  · exact other ⟨bs, u, hb, e, .inr (.inr (.inr (.inl ⟨x, hx⟩)))⟩ fun r' h => by
      rw [hx] at h; exact absurd (List.cons.inj h).1 (by decide)

theorem cudaComment_blanks {sp t : Str} (h : Blanks sp) (ht : CudaComment t) : CudaComment (sp ++ t) := by
  obtain ⟨bs, u, h1, rfl, h2⟩ := ht
  exact ⟨sp ++ bs, u, h.append h1, by simp, h2⟩

section

variable [Recognizers]

/-- Where a line seen comes from. -/
def Seen.From (f : Filter) (lines : List Str) (t : Seen) : Prop :=
  ∃ ws raw, Blanks ws ∧ raw ∈ lines ∧ ∃ n : Int, t.inline = decide (n > 0) ∧ t.text = lineText f n (ws ++ raw) ∧
    (f.commentOnly = true → opensComment (ws ++ raw) = false ∧
      (t.skipped = false → ¬ if t.code then CudaComment (ws ++ raw) else OnlyComment (ws ++ raw)))

theorem Scan.see_texts (f : Filter) (s : Scan) (raw text : Str) : (s.see f raw text).texts = s.texts ∨
    (s.see f raw text).texts = s.texts ++ [⟨text, s.code,
      decide (f.libraryFunctions = true ∨ f.commentOnly = true ∧ (if s.code then CudaComment raw else OnlyComment raw)), s.params,
      decide (s.nest > 0)⟩] := by
  unfold Scan.see
  split
  · exact .inl rfl
  · right
    simp only
    repeat' split
    all_goals rfl

theorem Scan.see_carry (f : Filter) (s : Scan) (raw text : Str) : (s.see f raw text).carry = s.carry := by
  unfold Scan.see
  simp only
  repeat' split
  all_goals rfl

omit [Recognizers] in
theorem blanks_of_all {x : Str} (h : x.all (fun c => c = 32 || c = 9) = true) : Blanks x := by
  intro c hc
  have := List.all_eq_true.1 h c hc
  simpa [Blank] using this

theorem scan_from (f : Filter) (ls : List Str) : ∀ (lines : List Str) (sc : Scan), (∀ l ∈ lines, l ∈ ls) → Blanks sc.carry →
    (∀ t ∈ sc.texts, t.From f ls) → ∀ t ∈ (lines.foldl (Scan.line f) sc).texts, t.From f ls := by
  intro lines
  induction lines with
  | nil => intro sc _ _ h; exact h
  | cons l lines ih =>
    intro sc hl hb h
    rw [List.foldl_cons]
    refine ih _ (fun x hx => hl x (List.mem_cons_of_mem _ hx)) ?_ ?_
    · unfold Scan.line
      simp only
      split
      · intro c hc; cases hc
      · split
        · rename_i h2
          exact blanks_of_all h2
        · rw [Scan.see_carry]
          intro c hc; cases hc
    · unfold Scan.line
      simp only
      split
      · exact h
      · rename_i h1
        split
        · exact h
        · generalize (if startsWithWord [b! "#APP", b! "# Begin ASM"] (sc.carry ++ l) = true then sc.nest + 1
              else if startsWithWord [b! "#NO_APP", b! "# End ASM"] (sc.carry ++ l) = true then sc.nest - 1 else sc.nest) = n
          rcases Scan.see_texts f { sc with nest := n, carry := [] } (sc.carry ++ l)
              (cleaned f (if n > 0 then fixLabelIndentation (sc.carry ++ l) else sc.carry ++ l)) with e | e
          · rw [e]; exact h
          · rw [e]
            intro t ht
            rcases List.mem_append.1 ht with ht | ht
            · exact h t ht
            · obtain rfl := List.mem_singleton.1 ht
              refine ⟨sc.carry, l, hb, hl l List.mem_cons_self, n, rfl, rfl, fun hc => ⟨?_, fun hs hcom => ?_⟩⟩
              · rw [hc] at h1
                cases ho : opensComment (sc.carry ++ l) with
                | false => rfl
                | true => exact absurd (by rw [ho]; simp) h1
              · have := of_decide_eq_false hs
                exact this (.inr ⟨hc, hcom⟩)

theorem seen_from (f : Filter) (s : Str) : ∀ t ∈ seen f s, t.From f (inputLines s) :=
  scan_from f (inputLines s) (inputLines s) {} (fun _ h => h) (by intro c hc; cases hc) (by intro t ht; cases ht)

/-- With `comment_only`, a line that is kept is no comment, up to what cleaning does. -/
theorem kept_comment {f : Filter} {s : Str} {t : Seen} (hc : f.commentOnly = true) (ht : t ∈ seen f s) (hk : t.skipped = false)
    (hi : t.inline = false ∨ (11 ∉ s ∧ 12 ∉ s ∧ 13 ∉ s)) (h : if t.code then CudaComment t.text else OnlyComment t.text) :
    f.whitespace = true ∧ ∃ bs r, Blanks bs ∧ t.text = bs ++ c! '/' :: r := by
  obtain ⟨ws, raw, g1, g2, n, g4, g3, g5⟩ := seen_from f s t ht
  obtain ⟨g6, g7⟩ := g5 hc
  have g7 := g7 hk
  obtain ⟨sp, t', k1, k2, k3, k4, -⟩ := lineText_shown f n (ws ++ raw)
  have hsp : Blanks sp := by
    rcases hi with hi | hi
    · rw [g4] at hi
      have : ¬ 0 < n := by simpa using hi
      rcases k3 with rfl | k3
      · intro c hc; simp at hc
      · exact absurd k3 this
    · intro c hc
      have hm : c ∈ ws ++ raw := by rw [k1]; exact List.mem_append_left _ hc
      rcases List.mem_append.1 hm with hm | hm
      · exact g1 c hm
      · obtain ⟨h2, h3⟩ := inputLines_chars g2 hm
        refine space_blank (k2 c hc) h3 ?_ ?_ ?_
        · rintro rfl; exact hi.1 h2
        · rintro rfl; exact hi.2.1 h2
        · rintro rfl; exact hi.2.2 h2
  rw [g3, k4] at h ⊢
  have key : (if t.code then CudaComment t' else OnlyComment t') ∨
      (∃ bs r, Blanks bs ∧ t' = bs ++ b! "/*" ++ r) ∨ (f.whitespace = true ∧ ∃ bs r, Blanks bs ∧ cleaned f t' = bs ++ c! '/' :: r) := by
    cases hcode : t.code with
    | true => rw [hcode] at h; exact cudaComment_cleaned f t' h
    | false => rw [hcode] at h; exact onlyComment_cleaned f t' h
  rcases key with h2 | ⟨bs, r, h2, h3⟩ | h2
  · exfalso
    apply g7
    rw [k1]
    cases hcode : t.code with
    | true => rw [hcode] at h2; exact cudaComment_blanks hsp h2
    | false => rw [hcode] at h2; exact onlyComment_blanks hsp h2
  · have := (startCommentBlock_iff (ws ++ raw)).2 ⟨sp ++ bs, r, hsp.append h2, by rw [k1, h3]; simp⟩
    rw [startCommentBlock_opens, g6] at this
    exact absurd this (by simp)
  · exact h2

end

end AsmParser

/-
Helper lemmas: the length of the output.
-/
import Verif.Spec.Decode
import Verif.Proofs.TextView
import Verif.Proofs.TextRead
import Verif.Proofs.TextFacts
import Verif.Proofs.Quotes

namespace AsmParser

attribute [local irreducible] Re.search Re.fullMatch

/-! ### Text mode -/

theorem padTabs_size (s : Str) : ∀ k, (padTabs k s).length ≤ 8 * s.length := by
  induction s with
  | nil => intro k; simp [padTabs]
  | cons c s ih =>
    intro k
    unfold padTabs
    split
    · rw [List.length_append, List.length_replicate, List.length_cons]
      have := ih k
      omega
    · rw [List.length_cons, List.length_cons]
      have := ih (k + 1)
      omega

theorem squashLoop_size (s : Str) : ∀ st, (squashLoop st s).length ≤ s.length := by
  induction s with
  | nil => intro st; simp [squashLoop]
  | cons c s ih =>
    intro st
    have h : (squashStep st c).2.length ≤ 1 := by unfold squashStep; cases st <;> simp only <;> split <;> simp
    unfold squashLoop
    rw [List.length_append, List.length_cons]
    have := ih (squashStep st c).1
    omega

theorem squash_size (s : Str) (b : Bool) : (squashHorizontalWhitespace s b).length ≤ s.length := by
  unfold squashHorizontalWhitespace
  simp only
  split
  · exact Nat.zero_le _
  · exact squashLoop_size s _

theorem squashQuotes_size (n : Nat) : ∀ s : Str, s.length ≤ n → (squashHorizontalWhitespaceWithQuotes s true).length ≤ s.length := by
  induction n with
  | zero =>
    intro s h
    obtain rfl := List.length_eq_zero_iff.1 (Nat.le_zero.1 h)
    exact (by decide +kernel : (squashHorizontalWhitespaceWithQuotes [] true).length ≤ 0)
  | succ n ih =>
    intro s h
    by_cases hn : NoLiteral s
    · rw [squashQuotes_none true hn]; exact squash_size s _
    · obtain ⟨u, q, r, hf⟩ := firstLiteral_exists s hn
      have h1 := firstLiteral_shorter hf
      rw [squashQuotes_first true hf]
      have h2 := squash_size u true
      have h3 := ih r (by omega)
      have h4 : s.length = u.length + q.length + r.length := by rw [hf.eq]; simp; omega
      simp only [List.length_append]
      omega

theorem cleaned_size (f : Filter) (t : Str) : (cleaned f t).length ≤ 8 * t.length := by
  have h := padTabs_size t 0
  unfold cleaned
  rw [expandTabs_eq]
  split
  · exact Nat.le_trans (squashQuotes_size _ _ (Nat.le_refl _)) h
  · exact h

theorem lineText_size (f : Filter) (n : Int) (raw : Str) : (lineText f n raw).length ≤ 8 * raw.length := by
  obtain ⟨sp, t, e, -, -, h, -⟩ := lineText_shown f n raw
  rw [h, e, List.length_append]
  have := cleaned_size f t
  omega

/-- Characters and line ends of lines. -/
def sizeOfTexts (ts : List Str) : Nat := (ts.map fun t => t.length + 1).sum

theorem sizeOfTexts_append (a b : List Str) : sizeOfTexts (a ++ b) = sizeOfTexts a + sizeOfTexts b := by
  unfold sizeOfTexts; rw [List.map_append, List.sum_append]

theorem sizeOfTexts_one (t : Str) : sizeOfTexts [t] = t.length + 1 := rfl

theorem sizeOfTexts_sublist {a b : List Str} (h : List.Sublist a b) : sizeOfTexts a ≤ sizeOfTexts b := by
  unfold sizeOfTexts
  induction h with
  | slnil => exact Nat.le_refl _
  | cons x _ ih => simp only [List.map_cons, List.sum_cons]; omega
  | cons_cons x _ ih => simp only [List.map_cons, List.sum_cons]; omega

theorem sizeOfTexts_lines {α : Type} (g : α → Str) (ls : List α) :
    (ls.flatMap fun l => g l ++ [10]).length = sizeOfTexts (ls.map g) := by
  unfold sizeOfTexts
  induction ls with
  | nil => rfl
  | cons l ls ih => rw [List.flatMap_cons, List.length_append, ih]; simp

theorem amended_texts {a b : List TLine} (h : Amended a b) : a.map (·.text) = b.map (·.text) := by
  have := congrArg (List.map TLine.text) h
  rw [List.map_map, List.map_map] at this
  exact this

def SizeInv (done : List Str) (p : TParser) : Prop :=
  sizeOfTexts (p.lines.map (·.text)) + 8 * p.st.text.length ≤ 8 * (done.map List.length).sum + done.length

theorem size_step (L : Locale) (done : List Str) (p : TParser) (l : Str) (h : SizeInv done p)
    (hs : EolStep L (p.addText l) ((p.addText l).eol L)) : SizeInv (done ++ [l]) ((p.addText l).eol L) := by
  unfold SizeInv at h ⊢
  have e : (p.addText l).st.text = p.st.text ++ l := rfl
  have el : (p.addText l).lines = p.lines := rfl
  have hsum : ((done ++ [l]).map List.length).sum = (done.map List.length).sum + l.length := by simp
  rw [hsum, List.length_append, List.length_singleton]
  have hc : ((p.addText l).eol L).st.text.length ≤ p.st.text.length + l.length := by
    rcases hs.carry with h | h <;> rw [h]
    · exact Nat.zero_le _
    · rw [e, List.length_append]; exact Nat.le_refl _
  rcases hs.lines with ⟨-, am, -, -⟩ | ⟨x, -, -, eq, -, -⟩ | ⟨ls, am, ln, eq, k⟩
  · rw [← amended_texts am, el]; omega
  · rw [eq, List.map_append, sizeOfTexts_append, el]
    have : sizeOfTexts ([({ id := (p.addText l).nextId + 1 } : TLine)].map (·.text)) = 1 := rfl
    omega
  · rw [hs.text k.raw, eq, List.map_append, sizeOfTexts_append, ← amended_texts am, el]
    have h1 : ln.text.length ≤ 8 * (p.st.text.length + l.length) := by
      rw [k.text, ← List.length_append, ← e]
      exact lineText_size _ _ _
    have : sizeOfTexts ([ln].map (·.text)) = ln.text.length + 1 := rfl
    simp only [List.length_nil]
    omega

theorem inputLinesFrom_size (s : Str) : ∀ cur,
    ((inputLinesFrom cur s).map List.length).sum + (inputLinesFrom cur s).length ≤ cur.length + s.length + 1 ∧
    (inputLinesFrom cur s = [] → cur = [] ∧ s = []) := by
  induction s with
  | nil =>
    intro cur
    unfold inputLinesFrom
    split
    · rename_i h; simp [h]
    · simp
  | cons c s ih =>
    intro cur
    unfold inputLinesFrom
    split
    · have := (ih []).1
      simp only [List.map_cons, List.sum_cons, List.length_cons, List.length_nil] at this ⊢
      refine ⟨by omega, by simp⟩
    · have := ih (cur ++ [c])
      rw [List.length_append, List.length_singleton] at this
      refine ⟨by rw [List.length_cons]; omega, fun h => absurd (this.2 h).1 (by simp)⟩

theorem read_size (L : Locale) (f : Filter) (s : Str) :
    sizeOfTexts (((TParser.init f).readStream L s).lines.map (·.text)) ≤ 8 * s.length + 2 := by
  obtain ⟨e, he, h, -⟩ := readStream_lines L f SizeInv (Nat.le_refl _) (fun done p l _ _ _ h hs => size_step L done p l h hs) s
  have hi := inputLinesFrom_size s []
  rw [List.length_nil, Nat.zero_add] at hi
  change ((inputLines s).map List.length).sum + (inputLines s).length ≤ _ ∧ (inputLines s = [] → _) at hi
  unfold SizeInv at h
  rcases he with rfl | ⟨rfl, q, hq, hi'⟩
  · rw [List.append_nil] at h
    cases hn : inputLines s with
    | nil => rw [hn] at h; simp at h; omega
    | cons a as =>
      have : 1 ≤ (inputLines s).length := by rw [hn]; simp
      omega
  · have hsum : ((inputLines s ++ [[]]).map List.length).sum = ((inputLines s).map List.length).sum := by simp
    rw [hsum, List.length_append, List.length_singleton] at h
    unfold SizeInv at hi'
    have : 1 ≤ q.st.text.length := List.length_pos_iff.2 hq
    by_cases hn : inputLines s = []
    · rw [hn] at hi'; simp at hi'; omega
    · have : 1 ≤ (inputLines s).length := List.length_pos_iff.2 hn
      omega

/-! ### Binary mode -/

theorem dropBlanks_size (s : Str) : (dropBlanks s).length ≤ s.length := (List.dropWhile_sublist _).length_le

theorem readBytes_size (r : Str) : ∀ t : Str, (readBytes t r).2.1.length + (readBytes t r).2.2.length ≤ t.length + r.length + 3 := by
  induction r with
  | nil => intro t; simp [readBytes]
  | cons c r ih =>
    intro t
    unfold readBytes
    have e : (c :: r).length = r.length + 1 := rfl
    rw [e]
    split
    · split
      · have := ih []; rw [List.length_nil] at this; omega
      · split
        · simp only [List.length_nil]; omega
        · have := ih (t ++ [c]); rw [List.length_append, List.length_singleton] at this; omega
    · split
      · simp only [List.length_append, List.length_map, List.length_nil]
        have : (b! "   R").length = 4 := rfl
        omega
      · split
        · have := ih (t ++ [c]); rw [List.length_append, List.length_singleton] at this; omega
        · simp only [List.length_append, List.length_singleton]; omega

theorem leadWord_size (line : Str) : (leadWord line).length + (afterWord line).length ≤ line.length := by
  have h1 : (leadWord line).length ≤ ((withoutMargin line).takeWhile inLeadWord).length := (List.filter_sublist).length_le
  have h2 : ((withoutMargin line).takeWhile inLeadWord).length + (afterWord line).length = (withoutMargin line).length := by
    rw [← List.length_append]; unfold afterWord; rw [List.takeWhile_append_dropWhile]
  have h3 : (withoutMargin line).length ≤ line.length := (List.dropWhile_sublist _).length_le
  omega

theorem codeText_size (a b : Str) : (codeText a b).length ≤ a.length + b.length := by
  unfold codeText
  split
  · have := dropBlanks_size b; omega
  · rw [List.length_append]; exact Nat.le_refl _

theorem titleName_size (t : Str) : (titleName t).length ≤ t.length := by
  unfold titleName
  split
  · split
    · rw [List.length_cons, List.length_take]; omega
    · exact Nat.le_refl _
  · exact Nat.le_refl _

/-- The text a line can show. -/
def LineKind.size : LineKind → Nat
  | .remark | .section _ | .source .. => 0
  | .noSection t => t.length
  | .header _ t => t.length
  | .code _ _ a b => a.length + b.length

theorem readLineNo_size (r : Str) : ∀ file n, (readLineNo file n r).size = 0 := by
  induction r with
  | nil => intro file n; rfl
  | cons c r ih =>
    intro file n
    unfold readLineNo
    split
    · exact ih _ _
    · split
      · rfl
      · exact ih _ _

theorem lineKind_size (ign : Bool) (line : Str) : (lineKind ign line).size ≤ line.length + 1 := by
  have h := leadWord_size line
  unfold lineKind
  simp only
  split
  · simp only [LineKind.size, List.length_nil]; omega
  · rename_i d r e
    rw [e, List.length_cons] at h
    have hw : (leadWord line ++ d :: r).length ≤ line.length := by rw [List.length_append, List.length_cons]; omega
    split
    · unfold sourceLine
      split
      · simp only [LineKind.size, List.length_nil]; omega
      · rw [readLineNo_size]; omega
    · split
      · split
        · simp only [LineKind.size, List.length_nil]; omega
        · split
          · rename_i hne _
            have h1 := readBytes_size r []
            rw [List.length_nil] at h1
            have h2 : 1 ≤ (leadWord line).length := List.length_pos_iff.2 hne
            simp only [LineKind.size]; omega
          · simp only [LineKind.size]; omega
      · split
        · unfold sectionLine
          split
          · simp only [LineKind.size]; omega
          · simp only [LineKind.size]; omega
        · split
          · have := dropBlanks_size r
            simp only [LineKind.size]; omega
          · simp only [LineKind.size]; omega

theorem shown_size {R : Reading} {drop : Str → Bool} {c : Carry} {k : LineKind} {l : AsmLine} (h : c.shown R drop k = some l) :
    l.text.length ≤ k.size + 1 := by
  cases k with
  | remark => exact absurd h (by simp [Carry.shown])
  | «section» name => exact absurd h (by simp [Carry.shown])
  | source _ _ _ => exact absurd h (by simp [Carry.shown])
  | noSection t =>
    unfold Carry.shown at h
    simp only at h
    split at h
    · exact absurd h (by simp)
    · cases h; exact Nat.le_refl _
  | header a t =>
    unfold Carry.shown at h
    simp only at h
    split at h
    · exact absurd h (by simp)
    · cases h
      have := titleName_size t
      simp only [LineKind.size, List.length_append]
      have : (b! ":").length = 1 := rfl
      omega
  | code a bs x y =>
    unfold Carry.shown at h
    simp only at h
    split at h
    · exact absurd h (by simp)
    · cases h
      have := codeText_size x y
      simp only [LineKind.size, List.length_cons]
      omega

/-- Characters beyond the first one. -/
def excess (ls : List AsmLine) : Nat := (ls.map fun l => l.text.length - 1).sum

theorem excess_append (a b : List AsmLine) : excess (a ++ b) = excess a + excess b := by
  unfold excess; rw [List.map_append, List.sum_append]

theorem excess_one (l : AsmLine) : excess [l] = l.text.length - 1 := rfl

theorem excess_size (ls : List AsmLine) : sizeOfTexts (ls.map (·.text)) ≤ excess ls + 2 * ls.length := by
  unfold sizeOfTexts excess
  induction ls with
  | nil => exact Nat.le_refl _
  | cons l ls ih => simp only [List.map_cons, List.sum_cons, List.length_cons]; omega

/-- What has been written, a bound being `n`. -/
def Pages.Within (b : Pages) (n : Nat) : Prop := excess b.lines ≤ n + if b.full then 26 else 0

theorem next_within {b : Pages} {n m : Nat} (lib begins : Bool) (l : Option AsmLine) (h : b.Within n)
    (hl : ∀ x ∈ l, x.text.length ≤ m + 1) : (b.next lib begins l).Within (n + m) := by
  unfold Pages.Within at h
  unfold Pages.next
  cases hf : b.full with
  | true => rw [if_pos rfl]; unfold Pages.Within; rw [hf] at h ⊢; simp at h ⊢; omega
  | false =>
    rw [if_neg (by simp)]
    rw [hf] at h
    have h : excess b.lines ≤ n := by simpa using h
    have hb : ∃ b' : Pages, (if begins = true then b.close lib else b) = b' ∧ b'.full = false ∧ excess b'.lines ≤ n := by
      refine ⟨_, rfl, ?_⟩
      split
      · unfold Pages.close
        unfold Pages.lines at h ⊢
        rw [excess_append] at h
        split
        · refine ⟨hf, ?_⟩
          simp only [List.append_nil]; omega
        · refine ⟨hf, ?_⟩
          simp only [List.append_nil, excess_append]; exact h
      · exact ⟨hf, h⟩
    obtain ⟨b', e, h1, h2⟩ := hb
    simp only [e]
    cases l with
    | none => simp only [Pages.Within, h1]; simp; omega
    | some l =>
      have := hl l rfl
      simp only [Pages.Within, Pages.add]
      unfold Pages.lines at h2 ⊢
      split
      · simp only [h1, ← List.append_assoc, excess_append, excess_one] at h2 ⊢; simp; omega
      · simp only [← List.append_assoc, excess_append, excess_one] at h2 ⊢
        have : markerLine.text.length = 27 := rfl
        simp; omega

theorem decode_within (R : Reading) (drop : Str → Bool) (lib : Bool) (ls : List Str) : ∀ (c : Carry) (b : Pages) (n : Nat), b.Within n →
    (decodeLines R drop lib c b ls).Within (n + sizeOfTexts ls) := by
  induction ls with
  | nil => intro c b n h; exact h
  | cons l ls ih =>
    intro c b n h
    unfold decodeLines
    have h1 := lineKind_size c.ign (l.filter (· != 13))
    have h2 : (l.filter (· != 13)).length ≤ l.length := (List.filter_sublist).length_le
    have := ih (c.next R drop (lineKind c.ign (l.filter (· != 13)))) _ _
      (next_within (m := l.length + 1) lib (lineKind c.ign (l.filter (· != 13))).begins (c.shown R drop (lineKind c.ign (l.filter (· != 13)))) h
        (fun x hx => by have := shown_size hx; omega))
    have e : sizeOfTexts (l :: ls) = l.length + 1 + sizeOfTexts ls := rfl
    rw [e, ← Nat.add_assoc]
    exact this

end AsmParser

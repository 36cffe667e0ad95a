/-
Helper lemmas: changing ASCII characters keeps UTF-8 well-formed; the writers add ASCII characters only.
-/
import Verif.Proofs.Utf8Valid
import Verif.Proofs.Quotes
import Verif.Proofs.Json

namespace AsmParser

attribute [local irreducible] Re.search Re.fullMatch

/-- `y` is `x` with ASCII characters replaced by strings of ASCII characters. -/
inductive AsciiEdit : Str → Str → Prop
  | nil : AsciiEdit [] []
  | high {c : Byte} {x y : Str} : AsciiEdit x y → AsciiEdit (c :: x) (c :: y)
  | low {c : Byte} {x y w : Str} : c < 128 → Ascii7 w → AsciiEdit x y → AsciiEdit (c :: x) (w ++ y)

theorem AsciiEdit.refl (x : Str) : AsciiEdit x x := by
  induction x with
  | nil => exact .nil
  | cons c x ih => exact .high ih

theorem AsciiEdit.append {x y x' y' : Str} (h : AsciiEdit x y) (h' : AsciiEdit x' y') : AsciiEdit (x ++ x') (y ++ y') := by
  induction h with
  | nil => exact h'
  | high _ ih => exact .high ih
  | low h1 h2 _ ih => rw [List.append_assoc]; exact .low h1 h2 ih

theorem AsciiEdit.high_prefix {e x y : Str} (he : ∀ c ∈ e, ¬ c < 128) (h : AsciiEdit (e ++ x) y) :
    ∃ y', y = e ++ y' ∧ AsciiEdit x y' := by
  induction e generalizing y with
  | nil => exact ⟨y, rfl, h⟩
  | cons c e ih =>
    cases h with
    | high h =>
      obtain ⟨y', rfl, h'⟩ := ih (fun d hd => he d (by simp [hd])) h
      exact ⟨y', rfl, h'⟩
    | low h => exact absurd h (he c (by simp))

theorem AsciiEdit.valid {x y : Str} (h : AsciiEdit x y) (hx : ValidUtf8 x) : ValidUtf8 y := by
  obtain ⟨ns, h1, rfl⟩ := hx
  induction ns generalizing y with
  | nil => cases h; exact .nil
  | cons n ns ih =>
    have hn := h1 n (by simp)
    have ih := fun {y} => ih (y := y) (fun m hm => h1 m (by simp [hm]))
    rw [List.flatMap_cons] at h
    rcases utf8Encode_bytes n hn with ⟨c, hc, e⟩ | hb
    · rw [e] at h
      cases h with
      | high h => exact ValidUtf8.append (a := [c]) (.one hc) (ih h)
      | low _ hw h => exact (ValidUtf8.ascii hw).append (ih h)
    · obtain ⟨y', rfl, h'⟩ := h.high_prefix hb
      exact (ValidUtf8.encode hn).append (ih h')

/-! ### Tabs and blanks -/

theorem expandTabsLoop_edit (s out : Str) (extra : Nat) : ∃ y, expandTabsLoop s out extra = out ++ y ∧ AsciiEdit s y := by
  induction s generalizing out extra with
  | nil => exact ⟨[], by simp [expandTabsLoop], .nil⟩
  | cons c s ih =>
    rw [expandTabsLoop]
    split
    · rename_i hc
      simp only [beq_iff_eq] at hc
      obtain ⟨y, h1, h2⟩ := ih (out ++ List.replicate (8 - (out.length + extra + 8) % 8) 32) (extra + (out.length + extra + 8) % 8)
      refine ⟨_, h1.trans (List.append_assoc _ _ _), .low (by rw [hc]; decide) ?_ h2⟩
      intro d hd
      rw [(List.mem_replicate.1 hd).2]; decide
    · obtain ⟨y, h1, h2⟩ := ih (out ++ [c]) extra
      exact ⟨c :: y, by rw [h1]; simp, .high h2⟩

theorem expandTabs_valid {s : Str} (h : ValidUtf8 s) : ValidUtf8 (expandTabs s) := by
  obtain ⟨y, h1, h2⟩ := expandTabsLoop_edit s [] 0
  unfold expandTabs
  rw [h1]
  exact h2.valid h

theorem blank_low {c : Byte} (h : isWhitespace c = true) : c < 128 := by
  simp only [isWhitespace, Bool.or_eq_true, beq_iff_eq] at h
  rcases h with rfl | rfl <;> decide

theorem squashStep_edit (st : HorSpaceState) (c : Byte) : (squashStep st c).2 = [c] ∨ c < 128 ∧ Ascii7 (squashStep st c).2 := by
  unfold squashStep
  cases st <;> simp only <;> split <;> first | exact .inl rfl | exact .inr ⟨blank_low ‹_›, by decide⟩

theorem squashLoop_edit (st : HorSpaceState) (s : Str) : AsciiEdit s (squashLoop st s) := by
  induction s generalizing st with
  | nil => exact .nil
  | cons c s ih =>
    rw [squashLoop]
    rcases squashStep_edit st c with h | ⟨h1, h2⟩
    · rw [h]; exact .high (ih _)
    · exact .low h1 h2 (ih _)

theorem AsciiEdit.erase {s : Str} (h : Ascii7 s) : AsciiEdit s [] := by
  induction s with
  | nil => exact .nil
  | cons c s ih => exact .low (w := []) (h c (by simp)) (by simp [Ascii7]) (ih fun d hd => h d (by simp [hd]))

theorem squash_edit (s : Str) (b : Bool) : AsciiEdit s (squashHorizontalWhitespace s b) := by
  unfold squashHorizontalWhitespace
  simp only
  split
  · rename_i h
    simp only [Bool.and_eq_true, List.all_eq_true] at h
    exact .erase fun c hc => blank_low (h.2 c hc)
  · exact squashLoop_edit _ _

theorem squashQuotes_edit (s : Str) (b : Bool) : AsciiEdit s (squashHorizontalWhitespaceWithQuotes s b) := by
  generalize hn : s.length = n
  induction n using Nat.strongRecOn generalizing s b with
  | _ n ih =>
    by_cases h : NoLiteral s
    · rw [squashQuotes_none b h]; exact squash_edit _ _
    · obtain ⟨u, q, r, h⟩ := firstLiteral_exists s h
      rw [squashQuotes_first b h]
      have hs := firstLiteral_shorter h
      have h1 := ((squash_edit u true).append (.refl q)).append (ih r.length (by omega) r true rfl)
      rw [← h.eq] at h1
      exact h1

/-! ### The writer -/

theorem natToDec_valid (n : Nat) : ValidUtf8 (natToDec n) := by
  refine .ascii fun c hc => ?_
  have h := (natToDec_ok n).1 c hc
  simp only [isDec, Bool.and_eq_true, decide_eq_true_eq] at h
  exact UInt8.lt_of_le_of_lt h.2 (by decide)

theorem intToDec_valid (n : Int) : ValidUtf8 (intToDec n) := by
  unfold intToDec
  split
  · exact ValidUtf8.append (a := b! "-") (.ascii (by decide)) (natToDec_valid _)
  · exact natToDec_valid _

theorem escape_edit (s : Str) : AsciiEdit s (escape s) := by
  induction s with
  | nil => exact .nil
  | cons c s ih =>
    rw [escape]
    split
    · rename_i h; simp only [beq_iff_eq] at h; subst h; exact .low (by decide) (by decide) ih
    split
    · rename_i h; simp only [beq_iff_eq] at h; subst h; exact .low (by decide) (by decide) ih
    split
    · rename_i h; simp only [beq_iff_eq] at h; subst h; exact .low (by decide) (by decide) ih
    · exact .high ih

theorem escape_valid {s : Str} (h : ValidUtf8 s) : ValidUtf8 (escape s) := (escape_edit s).valid h

theorem strValue_valid {s : Str} (h : ValidUtf8 s) : ValidUtf8 (strValue s) :=
  (ValidUtf8.append (a := dq) (.ascii (by decide)) (escape_valid h)).append (.ascii (by decide))

theorem keyName_valid {k : Str} (h : ValidUtf8 k) : ValidUtf8 (keyName k) :=
  (ValidUtf8.append (a := dq) (.ascii (by decide)) h).append (.ascii (by decide))

theorem keyNameEsc_valid {k : Str} (h : ValidUtf8 k) : ValidUtf8 (keyNameEsc k) :=
  (ValidUtf8.append (a := dq) (.ascii (by decide)) (escape_valid h)).append (.ascii (by decide))

theorem sepBy_valid {sep : Str} (hs : ValidUtf8 sep) (xs : List Str) (h : ∀ x ∈ xs, ValidUtf8 x) : ValidUtf8 (sepBy sep xs) := by
  induction xs with
  | nil => exact .nil
  | cons x xs ih =>
    cases xs with
    | nil => exact h x (by simp)
    | cons y xs => exact ((h x (by simp)).append hs).append (ih fun z hz => h z (by simp [hz]))

/-- The strings of a line that the writer outputs. -/
structure LineValid (l : AsmLine) : Prop where
  text : ValidUtf8 l.text
  sect : ValidUtf8 l.sect
  file : 0 < l.source.line → ValidUtf8 l.source.file
  refs : ∀ r ∈ l.labels, ValidUtf8 r.name
  ops : ∀ o ∈ l.opcodes, ValidUtf8 o

theorem sourceFileField_valid {f : Filter} {file n : Str} (h : ValidUtf8 file) (e : sourceFileField f file = some n) : ValidUtf8 n := by
  unfold sourceFileField at e
  split at e
  · split at e
    · cases e
    split at e
    · rename_i hp
      cases e
      simp only [startsWith, List.isPrefixOf_iff_prefix] at hp
      obtain ⟨x, rfl⟩ := hp
      have : ValidUtf8 x := ValidUtf8.cancel (v := b! "/app/") (.ascii (by decide)) h
      simpa using this
    · cases e; exact h
  · cases e

theorem writeSource_valid (f : Filter) {l : AsmLine} (h : LineValid l) : ValidUtf8 (writeSource f l) := by
  unfold writeSource
  split
  · rename_i hpos
    simp only [Bool.and_eq_true, decide_eq_true_eq] at hpos
    refine .append (.append (.append (.append (.append (.append (.append (.append (.ascii (by decide)) ?_) ?_) (.ascii (by decide +kernel))) ?_)
      (.ascii (by decide))) (.ascii (by decide +kernel))) (intToDec_valid _)) (.ascii (by decide))
    · split
      · exact .append (.append (.ascii (by decide +kernel)) (intToDec_valid _)) (.ascii (by decide))
      · exact .nil
    · split
      · exact .ascii (by decide +kernel)
      · rename_i e
        exact .append (.append (.ascii (by decide +kernel)) (strValue_valid (sourceFileField_valid (h.file hpos.2) e))) (.ascii (by decide))
    · split <;> exact .ascii (by decide +kernel)
  · exact .ascii (by decide)

theorem writeLabelRef_valid {r : AsmLabel} (h : ValidUtf8 r.name) : ValidUtf8 (writeLabelRef r) := by
  unfold writeLabelRef
  exact .append (.append (.append (.append (.append (.append (.append (.append (.append (.append (.append (.append (.ascii (by decide)) (.ascii (by decide +kernel)))
    (strValue_valid h)) (.ascii (by decide))) (.ascii (by decide +kernel))) (.ascii (by decide))) (.ascii (by decide +kernel)))
    (intToDec_valid _)) (.ascii (by decide))) (.ascii (by decide +kernel))) (intToDec_valid _)) (.ascii (by decide))) (.ascii (by decide))

theorem writeLine_valid (f : Filter) {l : AsmLine} (h : LineValid l) : ValidUtf8 (writeLine f l) := by
  unfold writeLine
  refine .append (.append (.append (.append (.append (.append (.append (.append (.append (.append (.append (.append (.ascii (by decide)) (.ascii (by decide +kernel)))
    ?_) ?_) ?_) (.ascii (by decide))) (.ascii (by decide +kernel))) (writeSource_valid f h)) ?_) (.ascii (by decide))) (.ascii (by decide +kernel)))
    (strValue_valid h.text)) (.ascii (by decide))
  · refine .append (.append (.ascii (by decide)) (sepBy_valid (.ascii (by decide)) _ ?_)) (.ascii (by decide))
    intro x hx
    obtain ⟨r, hr, rfl⟩ := List.mem_map.1 hx
    exact writeLabelRef_valid (h.refs r hr)
  · split
    · refine .append (.append (.ascii (by decide)) (.ascii (by decide +kernel))) ?_
      refine .append (.append (.ascii (by decide)) (sepBy_valid (.ascii (by decide)) _ ?_)) (.ascii (by decide))
      intro x hx
      obtain ⟨o, ho, rfl⟩ := List.mem_map.1 hx
      exact .append (.append (.ascii (by decide)) (h.ops o ho)) (.ascii (by decide))
    · exact .nil
  · split
    · split
      · exact .append (.append (.ascii (by decide)) (.ascii (by decide +kernel))) (intToDec_valid _)
      · exact .nil
    · exact .nil
  · split
    · exact .append (.append (.ascii (by decide)) (.ascii (by decide +kernel))) (strValue_valid h.sect)
    · exact .nil

theorem write_valid (d : JsonDoc) (h1 : ∀ l ∈ d.lines, LineValid l) (h2 : ∀ x ∈ d.labels, ValidUtf8 x.1) : ValidUtf8 d.write := by
  unfold JsonDoc.write
  refine .append (.append (.append (.append (.append (.append (.append (.append (.append (.append (.append (.append (.append (.ascii (by decide)) (.ascii (by decide +kernel)))
    (.ascii (by decide))) (sepBy_valid (.ascii (by decide)) _ ?_)) (.ascii (by decide))) (.ascii (by decide +kernel))) (.ascii (by decide)))
    (sepBy_valid (.ascii (by decide)) _ ?_)) (.ascii (by decide))) ?_) (.ascii (by decide))) (.ascii (by decide +kernel))) (intToDec_valid _)) (.ascii (by decide))
  · intro x hx
    obtain ⟨l, hl, rfl⟩ := List.mem_map.1 hx
    exact writeLine_valid _ (h1 l hl)
  · intro x hx
    obtain ⟨l, hl, rfl⟩ := List.mem_map.1 hx
    exact (keyNameEsc_valid (h2 l hl)).append (intToDec_valid _)
  · split
    · exact .nil
    · exact .append (.append (.ascii (by decide)) (.ascii (by decide +kernel))) (intToDec_valid _)

end AsmParser

/-
Helper lemmas: label references of a line (`getUsedLabelsInLine`).
-/
import Verif.Proofs.ObjRead
import Verif.Proofs.RegexLemmas
import Verif.Proofs.ObjRefs
import Verif.Proofs.TextUtils

namespace AsmParser
open Re Regexes

/-! ### The part of the line that is looked at -/

/-- The next character exists and is not blank. -/
def nextNonBlank : Str → Bool
  | d :: _ => !isWhitespace d
  | [] => false

theorem swLoop_cons (n : Nat) (c : Byte) (cs : Str) (it : Nat) (ws we sp : Bool) (after lastit : Nat) :
    swLoop n (c :: cs) it ws we sp after lastit =
    if isCommentChar c then
      if nextNonBlank cs then swLoop n cs (it + 1) ws we sp after lastit
      else (after, if sp then lastit else it)
    else if !ws && isAlpha c then swLoop n cs (it + 1) true we sp after lastit
    else if ws && !we && isWhitespace c then swLoop n cs (it + 1) ws true sp it lastit
    else if we then
      if sp then
        if !isWhitespace c then swLoop n cs (it + 1) ws we false after n
        else swLoop n cs (it + 1) ws we sp after lastit
      else if isWhitespace c then swLoop n cs (it + 1) ws we true after it
      else swLoop n cs (it + 1) ws we sp after lastit
    else swLoop n cs (it + 1) ws we sp after lastit := by
  cases cs <;> rfl

theorem swLoop_bounds (n : Nat) (s : Str) (it : Nat) (ws we sp : Bool) (after lastit : Nat) (hn : it + s.length = n)
    (ha : after ≤ it) (hl : lastit ≤ n) (hal : sp = true → after ≤ lastit) (hnl : sp = false → lastit = n)
    (hwe : we = false → sp = false) :
    (swLoop n s it ws we sp after lastit).1 ≤ (swLoop n s it ws we sp after lastit).2 ∧
      (swLoop n s it ws we sp after lastit).2 ≤ n := by
  induction s generalizing it ws we sp after lastit with
  | nil =>
    simp only [swLoop]
    refine ⟨?_, hl⟩
    cases sp
    · rw [hnl rfl]; simp at hn; omega
    · exact hal rfl
  | cons c s ih =>
    have hn' : it + 1 + s.length = n := by simp at hn; omega
    rw [swLoop_cons]
    split
    · by_cases hm : nextNonBlank s = true
      · rw [if_pos hm]
        exact ih _ _ _ _ _ _ hn' (by omega) hl hal hnl hwe
      · rw [if_neg hm]
        cases sp
        · simp only [Bool.false_eq_true, ↓reduceIte]; simp at hn; omega
        · simp only [↓reduceIte]; exact ⟨hal rfl, hl⟩
    · split
      · exact ih _ _ _ _ _ _ hn' (by omega) hl hal hnl hwe
      · split
        · rename_i h
          have hsp : sp = false := hwe (by simp at h; exact h.1.2)
          exact ih _ _ _ _ _ _ hn' (by omega) hl (by simp [hsp]) (fun _ => hnl hsp) (by simp)
        · split
          · split
            · split
              · exact ih _ _ _ _ _ _ hn' (by omega) (by omega) (by simp) (fun _ => rfl) (by simp)
              · exact ih _ _ _ _ _ _ hn' (by omega) hl hal hnl hwe
            · split
              · exact ih _ _ _ _ _ _ hn' (by omega) (by omega) (fun _ => ha) (by simp) (by simp_all)
              · exact ih _ _ _ _ _ _ hn' (by omega) hl hal hnl hwe
          · exact ih _ _ _ _ _ _ hn' (by omega) hl hal hnl hwe

/-- Nothing is cut off at the end if every comment character is followed by a character that is not blank, and the line
does not end in a blank. -/
theorem swLoop_all (n : Nat) (s : Str) (it : Nat) (ws we sp : Bool) (after lastit : Nat)
    (hc : ∀ a c b, s = a ++ c :: b → isCommentChar c = true → ∃ d b', b = d :: b' ∧ isWhitespace d = false)
    (he : ∀ c, s.getLast? = some c → isWhitespace c = false)
    (hs : sp = true → (ws = true ∧ we = true) ∧ s ≠ []) (hnl : sp = false → lastit = n)
    (hw : we = true → ws = true) :
    (swLoop n s it ws we sp after lastit).2 = n := by
  induction s generalizing it ws we sp after lastit with
  | nil =>
    cases sp
    · exact hnl rfl
    · exact absurd rfl (hs rfl).2
  | cons c s ih =>
    have hc' : ∀ a x b, s = a ++ x :: b → isCommentChar x = true → ∃ d b', b = d :: b' ∧ isWhitespace d = false :=
      fun a x b e hx => hc (c :: a) x b (by rw [e]; rfl) hx
    have he' : ∀ x, s.getLast? = some x → isWhitespace x = false := by
      intro x hx
      exact he x (by rw [List.getLast?_cons, hx]; rfl)
    have hnil : s = [] → isWhitespace c = false := by rintro rfl; exact he c rfl
    rw [swLoop_cons]
    split
    · rename_i hcc
      obtain ⟨d, b', rfl, hd⟩ := hc [] c s rfl hcc
      simp only [nextNonBlank, hd, Bool.not_false, ↓reduceIte]
      exact ih _ _ _ _ _ _ hc' he' (fun h => ⟨(hs h).1, by simp⟩) hnl hw
    · split
      · rename_i h
        have hsp : sp = false := by
          cases sp
          · rfl
          · simp [(hs rfl).1.1] at h
        exact ih _ _ _ _ _ _ hc' he' (by simp [hsp]) hnl (fun _ => rfl)
      · split
        · rename_i h
          have hsp : sp = false := by
            cases sp
            · rfl
            · simp [(hs rfl).1.2] at h
          exact ih _ _ _ _ _ _ hc' he' (by simp [hsp]) hnl (fun _ => by simp at h; exact h.1.1)
        · split
          · split
            · split
              · exact ih _ _ _ _ _ _ hc' he' (by simp) (fun _ => rfl) hw
              · rename_i hwe _ h
                exact ih _ _ _ _ _ _ hc' he' (fun _ => ⟨⟨hw hwe, hwe⟩, fun h' => by simp [hnil h'] at h⟩) hnl hw
            · split
              · rename_i hwe _ h
                exact ih _ _ _ _ _ _ hc' he' (fun _ => ⟨⟨hw hwe, hwe⟩, fun h' => by simp [hnil h'] at h⟩) (by simp) hw
              · exact ih _ _ _ _ _ _ hc' he' (by simp_all) hnl hw
          · rename_i hwe
            exact ih _ _ _ _ _ _ hc' he' (fun h => absurd (hs h).1.2 hwe) hnl hw

theorem strip_eq (line : Str) : ∃ a z, line = a ++ getLineWithoutCommentAndStripFirstWord line ++ z ∧
    line.length - (getLineWithoutCommentAndStripFirstWord line).length = a.length + z.length ∧
    ((∀ a c b, line = a ++ c :: b → isCommentChar c = true → ∃ d b', b = d :: b' ∧ isWhitespace d = false) →
     (∀ c, line.getLast? = some c → isWhitespace c = false) → z = []) := by
  have hb := swLoop_bounds line.length line 0 false false false 0 line.length (by simp) (Nat.le_refl _) (Nat.le_refl _)
    (by simp) (fun _ => rfl) (fun _ => rfl)
  have hall := swLoop_all line.length line 0 false false false 0 line.length
  unfold getLineWithoutCommentAndStripFirstWord
  generalize swLoop line.length line 0 false false false 0 line.length = r at hb hall
  have h1 : line.take r.2 = line.take r.1 ++ (line.take r.2).drop r.1 := by
    have : line.take r.1 = (line.take r.2).take r.1 := by rw [List.take_take, Nat.min_eq_left hb.1]
    rw [this, List.take_append_drop]
  refine ⟨line.take r.1, line.drop r.2, ?_, ?_, ?_⟩
  · simp only
    rw [← h1, List.take_append_drop]
  · simp; omega
  · intro hc he
    rw [hall hc he (by simp) (fun _ => rfl) (by simp)]
    simp

/-! ### The references -/

/-- `[.@A-Z_a-z]` -/
def refStart (c : Byte) : Bool := c == c! '.' || c == c! '@' || isUpper c || c == c! '_' || isLower c
/-- `[.\dA-Z_a-z]` -/
def refChar (c : Byte) : Bool := c == c! '.' || isDigit c || isUpper c || c == c! '_' || isLower c

theorem lang_usedLabel {p w rest cs} : Lang usedLabel p w rest cs ↔
    ∃ x y, w = x ++ y ∧ cs = [(2, y), (1, x)] ∧ (x = [] ∨ x = [c! '$'] ∨ x = [c! '%']) ∧
      ∃ c t, y = c :: t ∧ refStart c = true ∧ ∀ d ∈ t, refChar d = true := by
  show Lang (.seq (.grp 1 (opt _)) (.grp 2 (.seq _ (many _)))) p w rest cs ↔ _
  simp only [lang_seq, lang_grp, lang_opt, lang_cls, lang_many_cls]
  constructor
  · rintro ⟨x, y, c1, c2, rfl, ⟨c3, h1, rfl⟩, ⟨c4, ⟨y1, y2, c5, c6, rfl, ⟨⟨b, rfl, hb⟩, rfl⟩, ⟨h2, rfl⟩, rfl⟩, rfl⟩, rfl⟩
    refine ⟨x, [b] ++ y2, rfl, ?_, ?_, b, y2, rfl, hb, h2⟩
    · rcases h1 with ⟨_, rfl⟩ | ⟨_, rfl⟩ <;> rfl
    · rcases h1 with ⟨⟨b, rfl, hb⟩, _⟩ | ⟨rfl, _⟩
      · simp at hb; rcases hb with rfl | rfl <;> simp
      · exact .inl rfl
  · rintro ⟨x, y, rfl, rfl, hx, c, t, rfl, hc, ht⟩
    refine ⟨x, c :: t, [(1, x)], [(2, c :: t)], rfl, ⟨[], ?_, rfl⟩, ⟨[], ⟨[c], t, [], [], rfl, ⟨⟨c, rfl, hc⟩, rfl⟩, ⟨ht, rfl⟩, rfl⟩, rfl⟩, rfl⟩
    rcases hx with rfl | rfl | rfl
    · exact .inr ⟨rfl, rfl⟩
    · exact .inl ⟨⟨_, rfl, rfl⟩, rfl⟩
    · exact .inl ⟨⟨_, rfl, rfl⟩, rfl⟩

/-- What a match in `s` (from offset `pos` on) looks like: no possible reference starts before it. -/
structure RefAt (s : Str) (pos : Nat) (m : Match) : Prop where
  ex : ∃ a z, s = a ++ m.get 1 ++ m.get 2 ++ z ∧ m.stop = a.length + (m.get 1).length + (m.get 2).length ∧
    pos ≤ a.length ∧ ∀ d ∈ (a ++ m.get 1).drop pos, refStart d = false
  pre : m.get 1 = [] ∨ m.get 1 = [c! '$'] ∨ m.get 1 = [c! '%']
  name : ∃ c t, m.get 2 = c :: t ∧ refStart c = true ∧ ∀ d ∈ t, refChar d = true

theorem searchFrom_refAt {s : Str} {pos : Nat} {m : Match} (hp : pos ≤ s.length)
    (h : usedLabel.searchFrom pos (s.drop pos) = some m) : RefAt s pos m := by
  obtain ⟨u, w, rest, h1, h2, h3, h4, h5⟩ := searchFrom_mem h
  obtain ⟨x, y, rfl, hcs, hx, hy⟩ := lang_usedLabel.1 h4
  have g1 : m.get 1 = x := by unfold Match.get; rw [hcs]; rfl
  have g2 : m.get 2 = y := by unfold Match.get; rw [hcs]; rfl
  refine ⟨?_, by rw [g1]; exact hx, by rw [g2]; exact hy⟩
  rw [g1, g2]
  refine ⟨s.take pos ++ u, rest, ?_, ?_, ?_, ?_⟩
  · have := List.take_append_drop pos s
    rw [h1] at this
    exact (this.symm.trans (by simp))
  · rw [h3, h2]; simp; omega
  · simp; omega
  · have hl : (s.take pos).length = pos := by simp; omega
    rw [List.append_assoc, List.drop_left' hl]
    intro d hd
    rw [List.mem_append] at hd
    rcases hd with hd | hd
    · obtain ⟨u1, u2, rfl⟩ := List.append_of_mem hd
      by_cases hr : refStart d = true
      · have := h5 u1 [d] (u2 ++ (x ++ y) ++ rest) [(2, [d]), (1, [])] (by rw [h1]; simp)
          (lang_usedLabel.2 ⟨[], [d], rfl, rfl, .inl rfl, d, [], rfl, hr, by simp⟩)
        simp at this
        omega
      · simpa using hr
    · rcases hx with rfl | rfl | rfl
      · simp at hd
      · simp at hd; subst hd; decide
      · simp at hd; subst hd; decide

theorem findAux_at (needle x z : Str) (i : Nat) (c : Byte) (t : Str) (hn : needle = c :: t) (P : Byte → Bool) (hc : P c = true)
    (hx : ∀ d ∈ x, P d = false) : findAux needle i (x ++ needle ++ z) = some (i + x.length) := by
  induction x generalizing i with
  | nil =>
    subst hn
    simp [findAux, List.isPrefixOf_iff_prefix]
  | cons d x ih =>
    rw [List.cons_append, List.cons_append]
    unfold findAux
    have : needle.isPrefixOf (d :: (x ++ needle ++ z)) = false := by
      rw [hn, List.isPrefixOf]
      have : (c == d) = false := by
        rw [beq_eq_false_iff_ne]
        rintro rfl
        rw [hx _ (by simp)] at hc; cases hc
      simp [this]
    rw [this]
    simp only [Bool.false_eq_true, ↓reduceIte]
    rw [ih _ (fun y hy => hx y (by simp [hy]))]
    simp; omega

theorem find_refAt {s : Str} {pos : Nat} {m : Match} (h : RefAt s pos m) :
    ∃ loc, find s (m.get 2) pos = some loc ∧ loc + (m.get 2).length = m.stop ∧ (m.get 1).length ≤ loc ∧
      m.stop ≤ s.length ∧ (s.drop loc).take (m.get 2).length = m.get 2 ∧
      (s.drop (loc - (m.get 1).length)).take ((m.get 1).length + (m.get 2).length) = m.get 1 ++ m.get 2 := by
  obtain ⟨⟨a, z, h1, h2, h3, h4⟩, hp, c, t, hy, hc, -⟩ := h
  generalize m.get 1 = x at *
  generalize m.get 2 = y at *
  have hlen : s.length = a.length + x.length + y.length + z.length := by rw [h1]; simp; omega
  refine ⟨(a ++ x).length, ?_, by rw [h2]; simp, by simp, by omega, ?_, ?_⟩
  · unfold find
    rw [if_neg (by omega)]
    have hd : s.drop pos = (a ++ x).drop pos ++ y ++ z := by
      rw [h1, List.append_assoc, List.drop_append_of_le_length (by simp; omega)]
      simp
    rw [hd, findAux_at y _ z pos c t hy refStart hc h4]
    simp; omega
  · rw [h1, List.append_assoc, List.drop_left' rfl, List.take_left' rfl]
  · have : (a ++ x).length - x.length = a.length := by simp
    rw [this, h1]
    have : a ++ x ++ y ++ z = a ++ ((x ++ y) ++ z) := by simp
    rw [this, List.drop_left' rfl, List.take_left' (by simp)]

theorem refStart_ascii {c : Byte} (h : refStart c = true ∨ refChar c = true) : 0 < c ∧ c < 128 := by
  revert h
  exact byte_forall (P := fun c => refStart c = true ∨ refChar c = true → 0 < c ∧ c < 128) (by decide +kernel)

/-- All references of a line `s`, columns shifted by `k`. -/
theorem usedLabels_cols {L : Locale} (hL : L.Ascii) (s : Str) (k : Nat) (hk : 0 < k) (hs : s.length + k < 65536) (fuel pos : Nat)
    (hp : pos ≤ s.length) (r : AsmLabel) (hr : r ∈ usedLabelsLoop L s k (usedLabel.rangeAux s fuel pos) pos) :
    ∃ a z, s = a ++ r.name ++ z ∧ r.startCol = a.length + k ∧ r.endCol = r.startCol + r.name.length := by
  induction fuel generalizing pos with
  | zero => simp [Re.rangeAux, usedLabelsLoop] at hr
  | succ fuel ih =>
    unfold Re.rangeAux at hr
    cases hm : usedLabel.searchFrom pos (s.drop pos) with
    | none => rw [hm] at hr; simp [usedLabelsLoop] at hr
    | some m =>
      rw [hm] at hr
      have hra := searchFrom_refAt hp hm
      obtain ⟨loc, f1, f2, f3, f4, f5, f6⟩ := find_refAt hra
      obtain ⟨c, t, hy, hc, ht⟩ := hra.name
      have hu : ustrlen L (m.get 2) = (m.get 2).length := by
        apply ustrlen_ascii hL
        rw [hy]
        intro d hd
        rcases List.mem_cons.1 hd with rfl | hd
        · exact refStart_ascii (.inl hc)
        · exact refStart_ascii (.inr (ht d hd))
      have hpre := hra.pre
      unfold usedLabelsLoop at hr
      simp only [f1, Option.getD_some, hu] at hr
      rw [List.mem_append] at hr
      have m1 : (loc + k) % 65536 = loc + k := Nat.mod_eq_of_lt (by omega)
      have m2 : (loc + k + (m.get 2).length) % 65536 = loc + k + (m.get 2).length := Nat.mod_eq_of_lt (by omega)
      have split : ∀ (i : Nat) (w : Str), (s.drop i).take w.length = w → i ≤ s.length →
          ∃ z, s = s.take i ++ w ++ z ∧ (s.take i).length = i := by
        intro i w hw hi
        refine ⟨(s.drop i).drop w.length, ?_, by simp; omega⟩
        conv => lhs; rw [← List.take_append_drop i s, ← List.take_append_drop w.length (s.drop i), hw]
        simp
      rcases hr with hr | hr
      · obtain ⟨z, hz, hl⟩ := split loc (m.get 2) f5 (by omega)
        have main : ∃ a z, s = a ++ m.get 2 ++ z ∧ loc + k = a.length + k ∧ loc + k + (m.get 2).length = loc + k + (m.get 2).length :=
          ⟨_, z, hz, by rw [hl], rfl⟩
        split at hr
        · simp at hr
          subst hr
          simp only [m1, m2]
          simpa using main
        · rename_i hne
          have h1 : (m.get 1).length = 1 := by
            rcases hpre with h | h | h
            · rw [h] at hne; simp at hne
            · rw [h]; rfl
            · rw [h]; rfl
          simp at hr
          rcases hr with rfl | rfl
          · simp only [m1, m2]
            simpa using main
          · obtain ⟨z, hz, hl⟩ := split (loc - (m.get 1).length) (m.get 1 ++ m.get 2) (by simpa using f6) (by omega)
            refine ⟨_, z, hz, ?_, ?_⟩
            · simp only [hl]; omega
            · simp only [m2, List.length_append]; omega
      · rw [f2] at hr
        exact ih m.stop f4 hr

end AsmParser

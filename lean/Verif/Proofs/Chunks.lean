/-
Helper lemmas: reading a listing in several calls.
-/
import Verif.Proofs.ObjLines

namespace AsmParser

/-- Reading in chunks is reading at once, but for the count of lines. -/
theorem chunked_eq (L : Locale) (f : Filter) (chunks : List Str) (t : Str) (h : ∀ c ∈ chunks, c.getLast? = some 10) :
    ∃ k, (chunks.foldl (OParser.fromStream L) (OParser.init f)).fromStream L t = (objParse L f (chunks.flatten ++ t)).setTot k := by
  have key : ∀ (cs : List Str), (∀ c ∈ cs, c.getLast? = some 10) → ∀ (p q : OParser) (k : Nat),
      q = p.setTot k → (p.st.stopParsing = true → p.st.inAddress = true) →
      ((cs = [] → p.st.inAddress = true)) → p.st.inAddress = true →
      ∃ k', (cs.foldl (OParser.fromStream L) q) = (cs.flatten.foldl (OParser.feed L) p).setTot k' ∧
        (cs.flatten.foldl (OParser.feed L) p).st.inAddress = true := by
    intro cs
    induction cs with
    | nil => intro _ p q k e _ _ ha; exact ⟨k, by simpa using e, ha⟩
    | cons c cs ih =>
      intro hc p q k e hs _ ha
      obtain ⟨u, hu⟩ := List.getLast?_eq_some_iff.1 (hc c (by simp))
      have e1 : q.fromStream L c = c.foldl (OParser.feed L) (p.setTot 0) := by
        unfold OParser.fromStream
        congr 1
        subst e
        cases p with
        | mk fl st ln lb rp tl =>
          simp only [OParser.setTot] at ha ⊢
          cases st; simp only at ha; subst ha; rfl
      obtain ⟨k1, hk1⟩ := fold_setTot L c p 0
      have hb := boundary_inAddress L p hs u
      rw [← hu] at hb
      have := ih (fun c' h' => hc c' (by simp [h'])) (c.foldl (OParser.feed L) p) (q.fromStream L c) k1
        (by rw [e1, hk1]) (hb.2 c) (fun _ => hb.1) hb.1
      simpa [List.foldl_append] using this
  cases chunks with
  | nil =>
    exact ⟨_, rfl⟩
  | cons c cs =>
    have hst : ∀ (c : Str), (OParser.init f).fromStream L c = c.foldl (OParser.feed L) (start f) := fun _ => rfl
    obtain ⟨u, hu⟩ := List.getLast?_eq_some_iff.1 (h c (by simp))
    have hb := boundary_inAddress L (start f) (fun h => by simp [start] at h) u
    rw [← hu] at hb
    obtain ⟨k', hk, ha⟩ := key cs (fun c' h' => h c' (by simp [h'])) (c.foldl (OParser.feed L) (start f))
      ((OParser.init f).fromStream L c) (c.foldl (OParser.feed L) (start f)).totalLines rfl (hb.2 c)
      (fun _ => hb.1) hb.1
    simp only [List.foldl_cons]
    rw [hk]
    have e2 : ((cs.flatten.foldl (OParser.feed L) (c.foldl (OParser.feed L) (start f))).setTot k').fromStream L t =
        t.foldl (OParser.feed L)
          ((cs.flatten.foldl (OParser.feed L) (c.foldl (OParser.feed L) (start f))).setTot 0) := by
      unfold OParser.fromStream
      congr 1
      generalize cs.flatten.foldl (OParser.feed L) (c.foldl (OParser.feed L) (start f)) = p at ha
      cases p with
      | mk fl st ln lb rp tl =>
        simp only [OParser.setTot] at ha ⊢
        cases st; simp only at ha; subst ha; rfl
    rw [e2]
    obtain ⟨k2, hk2⟩ := fold_setTot L t (cs.flatten.foldl (OParser.feed L) (c.foldl (OParser.feed L) (start f))) 0
    refine ⟨k2, ?_⟩
    rw [hk2, objParse_eq]
    simp [List.foldl_append]

/-- Reading on counts the lines that are read. -/
theorem fold_total (L : Locale) (t : Str) (p : OParser) (h : (t.foldl (OParser.feed L) p).st.stopParsing = false) :
    (t.foldl (OParser.feed L) p).totalLines = p.totalLines + newlines t := by
  induction t generalizing p with
  | nil => rfl
  | cons c t ih =>
    have hs : p.st.stopParsing = false := by
      cases hs : p.st.stopParsing with
      | false => rfl
      | true => rw [foldl_stop hs] at h; rw [hs] at h; cases h
    rw [List.foldl_cons] at h ⊢
    rw [ih _ h, feed_total c hs]
    simp only [newlines, List.count_cons, List.count_nil]
    omega

end AsmParser

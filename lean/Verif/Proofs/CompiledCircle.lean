/-
Helper lemmas: circles of references in the assembly code that a compiler writes.
-/
import Verif.Proofs.CompiledNeed

namespace AsmParser

attribute [local irreducible] Re.search Re.fullMatch

section
variable {xs ys : List CLine} (hy : ∀ y ∈ ys, y.Wf) (sub : ys.Sublist xs) (same : CodeEq xs ys)

include sub same in
theorem split_directive {bs cs : List CLine} {x : CLine} (e : ys = bs ++ x :: cs) (hx : x.isDirective = true) :
    ∃ b' a', xs = b' ++ x :: a' ∧ CodeEq b' bs ∧ CodeEq a' cs := by
  subst e
  obtain ⟨r1, r2, rfl, s1, s2⟩ := List.append_sublist_iff.1 sub
  obtain ⟨r3, r4, rfl, hm, s3⟩ := List.cons_sublist_iff.1 s2
  obtain ⟨u, v, rfl⟩ := List.append_of_mem hm
  refine ⟨r1 ++ u, v ++ r4, by simp, ?_⟩
  have t1 : (bs.filter fun x => !x.isDirective).Sublist ((r1 ++ u).filter fun x => !x.isDirective) :=
    (s1.trans (List.sublist_append_left _ _)).filter _
  have t2 : (cs.filter fun x => !x.isDirective).Sublist ((v ++ r4).filter fun x => !x.isDirective) :=
    (s3.trans (List.sublist_append_right _ _)).filter _
  have hlen := congrArg List.length (show _ = _ from same)
  have l1 := t1.length_le
  have l2 := t2.length_le
  have hf : ∀ l : List CLine, (x :: l).filter (fun x => !x.isDirective) = l.filter fun x => !x.isDirective := fun l => by simp [hx]
  simp only [List.filter_append, hf, List.length_append] at hlen l1 l2
  exact ⟨t1.eq_of_length (by simp only [List.filter_append, List.length_append]; omega),
    t2.eq_of_length (by simp only [List.filter_append, List.length_append]; omega)⟩

include sub same in
theorem split_line {bs cs : List CLine} {x : CLine} (e : ys = bs ++ x :: cs) : ∃ b' a', xs = b' ++ x :: a' ∧ CodeEq b' bs ∧ CodeEq a' cs := by
  cases hx : x.isDirective with
  | true => exact split_directive sub same e hx
  | false =>
    rw [e] at same
    exact same.split hx

include hy sub same in
theorem code_or_weak {a b : Str} (h : CodeUse (ys.map CLine.seen) a b) (he : ¬ Exported (ys.map CLine.seen) a) (hb : b ≠ []) :
    CodeMentions xs a b ∨ WeakBelow xs a b := by
  have h0 := h
  obtain ⟨before, t, after, e, h⟩ := h
  obtain ⟨bs, x, cs, e', rfl, rfl, rfl⟩ := map_split e
  rcases h with ⟨hi, ha, hf, hne⟩ | ⟨hd, hl⟩
  · refine .inl ?_
    have hxm : x ∈ ys := by rw [e']; simp
    have hr := instr_runs (hy x hxm) hi
    rcases functionAt_of hf bs rfl (fun z hz => hy z (by rw [e']; simp [hz])) with ⟨hn, -⟩ | ⟨before, nt, inside, rfl, h1, h2⟩
    · exact (hb hn).elim
    · rw [e'] at same
      obtain ⟨b', a', rfl, s1, -⟩ := same.split (runs_not hr)
      obtain ⟨b1, b2, rfl, s2, s3⟩ := s1.split rfl
      exact ⟨b1, nt, b2, x, a', rfl, hr, ha, h1, s3.noFunction h2⟩
  · have hxm : x ∈ ys := by rw [e']; simp
    rcases hd with hd | ⟨g1, g2, g3, g4⟩
    · exact (he ⟨_, List.mem_map_of_mem hxm, hd⟩).elim
    · have hdir := (plain_iff (hy x hxm) g1).1 g3
      refine .inr ?_
      rcases labelAt_of hl (bs ++ [x]) (by simp) (fun z hz => hy z (by
        rw [e']
        rcases List.mem_append.1 hz with hz | hz
        · simp [hz]
        · simp [List.mem_singleton.1 hz])) with h | ⟨before, nt, inside, e2, h⟩
      · exact (hb h).elim
      · rcases List.eq_nil_or_concat inside with rfl | ⟨i', y, rfl⟩
        · have := (List.append_inj' e2 rfl).2
          simp only [List.cons.injEq, and_true] at this
          rw [this] at hdir; cases hdir
        · have e3 := List.append_inj' (show bs ++ [x] = (before ++ .label b nt :: i') ++ [y] by rw [e2]; simp) rfl
          obtain ⟨b', a', rfl, s1, -⟩ := split_line sub same e'
          rw [e3.1] at s1
          obtain ⟨b1, b2, rfl, s2, s3⟩ := s1.split rfl
          exact ⟨b1, nt, b2, x, a', by simp, g4, s3.unbroken fun z hz => h z (by simp [hz])⟩

/-- Nothing mentions the empty name. -/
theorem refers_nil {ts : List Seen} {k : Bool} {b : Str} (hr : RefersTo ts k [] b) : False := by
  cases k with
  | true =>
    obtain ⟨-, before, t, after, -, ⟨-, hm, -⟩ | ⟨hd, -⟩⟩ := (hr : Defined _ _ ∧ CodeUse _ _ _)
    · exact mentioned_nonempty hm rfl
    · have key : ∀ {l : List Str} {t : Str}, DeclaresSymbol l t [] → False := by
        rintro l t ⟨_, _, _, _, -, -, -, ⟨c, t, h, -⟩, -⟩
        cases h
      rcases hd with ⟨-, -, -, h⟩ | ⟨-, -, -, h | ⟨h, -⟩⟩ <;> exact key h
  | false =>
    obtain ⟨before, t, after, -, -, hm, -⟩ := (hr : DataUse _ _ _)
    exact mentioned_nonempty hm rfl

variable (more : ∀ x ∈ xs, occurs b! ".cfi_startproc" x.text = false → x ∈ ys)
include hy sub same more

theorem chain_of {a x : Str} {c d : Nat} (h : RefChain (ys.map CLine.seen) a c d x) (hx : x ≠ []) : MentionChain xs a c d x := by
  have glob : ∀ {a}, ¬ Exported (ys.map CLine.seen) a → ¬ Global xs a := by
    rintro a he ⟨z, hm, hd, h1, h2⟩
    have hz := more z hm h2
    exact he ⟨_, List.mem_map_of_mem hz, exports_directive (hy z hz) hd h1⟩
  induction h with
  | refl => exact .refl
  | @code a b c d x he hr hc ih =>
    have hb : b ≠ [] := by
      rintro rfl
      cases hc with
      | refl => exact hx rfl
      | code _ hr _ => exact refers_nil hr
      | data _ hr _ => exact refers_nil hr
    obtain ⟨⟨t, ht, hd⟩, hu⟩ := (hr : Defined _ _ ∧ CodeUse _ _ _)
    obtain ⟨y, hm, rfl⟩ := List.mem_map.1 ht
    obtain ⟨nt, rfl⟩ := (defines_iff (hy y hm)).1 hd
    exact .code (glob he) (mem_labelNames.2 ⟨nt, sub.subset hm⟩) (code_or_weak hy sub same hu he hb) (ih hx)
  | @data a b c d x he hr hc ih =>
    have hb : b ≠ [] := by
      rintro rfl
      cases hc with
      | refl => exact hx rfl
      | code _ hr _ => exact refers_nil hr
      | data _ hr _ => exact refers_nil hr
    exact .data (glob he) (data_mentions hy sub same hr hb) (ih hx)

theorem no_circle (hn : NoCircle xs) (a : Str) (n : Nat) : ¬ RefChain (ys.map CLine.seen) a (n + 1) (n + 1) a := by
  intro h
  have ha : a ≠ [] := by
    rintro rfl
    cases h with
    | code _ hr _ => exact refers_nil hr
    | data _ hr _ => exact refers_nil hr
  exact hn a n (chain_of hy sub same more h ha)

end

theorem no_chain [Recognizers] {f : Filter} (hf : UsualFilter f) {xs : List CLine} (hx : ∀ x ∈ xs, x.Wf) (hn : NoCircle xs) :
    ∀ a n, ¬ RefChain (seen f (unlines (xs.map CLine.render))) a (n + 1) (n + 1) a := by
  intro a n hc
  obtain ⟨ys, pl, e, sub, hys, more⟩ := scan_items_more hf xs hx false [] []
  have hlines : inputLines (unlines (xs.map CLine.render)) = xs.map CLine.render := by
    refine inputLines_unlines _ fun l hl => ?_
    obtain ⟨x, hm, rfl⟩ := List.mem_map.1 hl
    exact (hx x hm).usual.noNewline
  have hseen : seen f (unlines (xs.map CLine.render)) = ys.map CLine.seen := by
    unfold seen scan
    rw [hlines, e]
    rfl
  rw [hseen] at hc
  exact no_circle (fun y hm => hx y (sub.subset hm)) sub hys more hn a n hc

/-! ### Programs without circles -/

/-- The label `b` mentions `a`, or declares it weak. -/
def MentionsSome (xs : List CLine) (a b : Str) : Prop := CodeMentions xs a b ∨ WeakBelow xs a b ∨ DataMentions xs a b

theorem chain_end {xs : List CLine} {a e : Str} {c d : Nat} (h : MentionChain xs a c d e) (hn : c ≠ 0 ∨ d ≠ 0) : ∃ y, MentionsSome xs y e := by
  induction h with
  | refl => simp at hn
  | @code a b c d e _ _ hm hc ih =>
    by_cases h : c ≠ 0 ∨ d ≠ 0
    · exact ih h
    · obtain ⟨rfl, rfl⟩ : c = 0 ∧ d = 0 := by omega
      cases hc
      exact ⟨a, hm.imp_right .inl⟩
  | @data a b c d e _ hm hc ih =>
    by_cases h : c ≠ 0 ∨ d ≠ 0
    · exact ih h
    · obtain ⟨rfl, rfl⟩ : c = 0 ∧ d = 0 := by omega
      cases hc
      exact ⟨a, .inr (.inr hm)⟩

theorem chain_noData {xs : List CLine} (hq : ∀ a b, DataMentions xs a b → ∀ c, ¬ MentionsSome xs c a) {b e : Str} {c d : Nat}
    (h : MentionChain xs b c d e) (hb : ∀ r, ¬ DataMentions xs b r) : d = 0 := by
  induction h with
  | refl => rfl
  | @code a b c d e _ _ hm hc ih => exact ih fun r hr => hq b r hr a (hm.imp_right .inl)
  | data _ hm _ _ => exact (hb _ hm).elim

theorem noCircle_of {xs : List CLine} (hq : ∀ a b, DataMentions xs a b → ∀ c, ¬ MentionsSome xs c a) : NoCircle xs := by
  intro a n h
  generalize hk : n + 1 = k at h
  generalize hk' : n + 1 = k' at h
  generalize ha : a = a' at h
  revert ha
  cases h with
  | refl => omega
  | @code _ b _ _ _ _ _ hm hc =>
    have := chain_noData hq hc fun r hr => hq b r hr _ (hm.imp_right .inl)
    omega
  | @data _ b _ _ _ _ hm hc =>
    rintro rfl
    obtain ⟨y, hy⟩ := chain_end hc (by omega)
    exact hq _ _ hm y hy

end AsmParser

/-
Helper lemmas: the directives with source positions.
-/
import Verif.Spec.Sources
import Verif.Proofs.Markers
import Verif.Proofs.RegexFirst

namespace AsmParser
open Re Regexes

attribute [local irreducible] Re.search Re.fullMatch

/-! ### Building blocks -/

theorem toNumber_eq (n : Str) : toNumber n = numberOf n := by
  unfold toNumber numberOf
  have : (decVal n : Int) ≤ intMax ↔ decVal n < 2147483648 := by
    unfold intMax; omega
  by_cases h : decVal n < 2147483648
  · rw [if_pos h, if_pos (by first | exact this.2 h | (unfold intMax; omega))]
  · rw [if_neg h, if_neg (by first | exact fun h' => h (this.1 h') | (unfold intMax; omega))]

theorem First.grp_plus {n : Nat} {P : Byte → Bool} {p : Nat} {a r : Str} {caps : Caps} (hne : a ≠ []) (ha : ∀ b ∈ a, P b = true)
    (hr : ∀ c ∈ r.head?, P c = false) :
    First (Re.grp n (plus (.cls P))) ⟨p, a ++ r, caps⟩ ⟨p + a.length, r, (n, a) :: caps⟩ := by
  have := (First.plus_run (p := p) (caps := caps) hne ha hr).grp (n := n)
  simpa using this

theorem First.grp_many {n : Nat} {P : Byte → Bool} {p : Nat} {a r : Str} {caps : Caps} (ha : ∀ b ∈ a, P b = true)
    (hr : ∀ c ∈ r.head?, P c = false) :
    First (Re.grp n (many (.cls P))) ⟨p, a ++ r, caps⟩ ⟨p + a.length, r, (n, a) :: caps⟩ := by
  have := (First.many_run (p := p) (caps := caps) ha hr).grp (n := n)
  simpa using this

theorem First.rest {p : Nat} {r : Str} {caps : Caps} : First (many any) ⟨p, r, caps⟩ ⟨p + r.length, [], caps⟩ := by
  have := First.many_run (P := fun _ => true) (p := p) (a := r) (r := []) (caps := caps) (by simp) (by simp)
  rw [List.append_nil] at this
  exact this

theorem first_blanks1 {p : Nat} {bs r : Str} {caps : Caps} (h1 : bs ≠ []) (h2 : Blanks bs) (hr : ∀ c ∈ r.head?, ¬ Blank c) :
    First hs1 ⟨p, bs ++ r, caps⟩ ⟨p + bs.length, r, caps⟩ :=
  First.plus_run h1 (blanks_iff.2 h2) fun c hc => by rw [← Bool.not_eq_true, isH_iff]; exact hr c hc

theorem first_blanks {p : Nat} {bs r : Str} {caps : Caps} (h2 : Blanks bs) (hr : ∀ c ∈ r.head?, ¬ Blank c) :
    First hs ⟨p, bs ++ r, caps⟩ ⟨p + bs.length, r, caps⟩ :=
  First.many_run (blanks_iff.2 h2) fun c hc => by rw [← Bool.not_eq_true, isH_iff]; exact hr c hc

theorem first_number {n p : Nat} {a r : Str} {caps : Caps} (h : Number a r) :
    First (Re.grp n digits) ⟨p, a ++ r, caps⟩ ⟨p + a.length, r, (n, a) :: caps⟩ :=
  First.grp_plus h.1 (fun c hc => isDigit_iff.2 (h.2.1 c hc)) fun c hc => by
    rw [← Bool.not_eq_true, isDigit_iff]; exact h.2.2 c hc

theorem digit_not_blank {c : Byte} (h : Digit c) : ¬ Blank c := by
  rw [← isH_iff, Bool.not_eq_true]
  exact blank_not (P := isDigit) (by decide) (by decide) (isDigit_iff.2 h)

theorem blank_not_digit {c : Byte} (h : Blank c) : ¬ Digit c := fun h' => digit_not_blank h' h

theorem Number.head {a r x : Str} (h : Number a r) : ∀ c ∈ (a ++ x).head?, ¬ Blank c := by
  obtain ⟨h1, h2, -⟩ := h
  cases a with
  | nil => exact (h1 rfl).elim
  | cons d a =>
    intro c hc
    simp at hc
    exact digit_not_blank (h2 c (by simp [hc]))

theorem Quoted.head {q a x : Str} (h : Quoted q a) : ∀ c ∈ (q ++ x).head?, ¬ Blank c := by
  obtain ⟨-, -, rfl⟩ := h
  intro c hc
  simp at hc
  subst hc
  decide

/-- The word of a directive. -/
def KwWord (kw : Str) : Prop := kw ≠ [] ∧ ∀ c ∈ kw, ¬ Blank c

instance (kw : Str) : Decidable (KwWord kw) := inferInstanceAs (Decidable (_ ∧ _))

theorem KwWord.head {kw x : Str} (h : KwWord kw) : ∀ c ∈ (kw ++ x).head?, ¬ Blank c := by
  obtain ⟨h1, h2⟩ := h
  cases kw with
  | nil => exact (h1 rfl).elim
  | cons d a => intro c hc; simp at hc; exact h2 c (by simp [hc])

/-- The beginning of a directive. -/
theorem first_instr {kw bs bs' arg : Str} (hk : KwWord kw) (h1 : Blanks bs) (h2 : bs' ≠ []) (h3 : Blanks bs')
    (ha : ∀ c ∈ arg.head?, ¬ Blank c) :
    First (bol ++ hs ++ lit kw ++ hs1) ⟨0, bs ++ kw ++ bs' ++ arg, []⟩ ⟨0 + bs.length + kw.length + bs'.length, arg, []⟩ := by
  rw [List.append_assoc, List.append_assoc]
  refine ((((First.bol rfl).seq (first_blanks h1 hk.head)).seq First.lit).seq ?_)
  exact first_blanks1 h2 h3 ha

theorem lang_instr {kw : Str} {p w rest cs} (h : Lang (bol ++ hs ++ lit kw ++ hs1) p w rest cs) :
    p = 0 ∧ cs = [] ∧ ∃ bs bs', Blanks bs ∧ bs' ≠ [] ∧ Blanks bs' ∧ w = bs ++ kw ++ bs' := by
  obtain ⟨_, _, _, _, rfl, g1, h4, rfl⟩ := lang_seq.1 h
  obtain ⟨_, _, _, _, rfl, g2, h3, rfl⟩ := lang_seq.1 g1
  obtain ⟨_, _, _, _, rfl, g3, h2, rfl⟩ := lang_seq.1 g2
  obtain ⟨rfl, rfl, rfl⟩ := lang_bol.1 g3
  obtain ⟨k2, rfl⟩ := lang_hs.1 h2
  obtain ⟨rfl, rfl⟩ := lang_lit.1 h3
  obtain ⟨k4, k5, rfl⟩ := lang_hs1.1 h4
  exact ⟨rfl, rfl, _, _, blanks_iff.1 k2, k4, blanks_iff.1 k5, rfl⟩

theorem lang_number {n : Nat} {p w rest cs} (h : Lang (Re.grp n digits) p w rest cs) :
    w ≠ [] ∧ (∀ c ∈ w, Digit c) ∧ cs = [(n, w)] := by
  obtain ⟨c, g, rfl⟩ := lang_grp.1 h
  obtain ⟨h1, h2, rfl⟩ := lang_digits.1 g
  exact ⟨h1, fun c hc => isDigit_iff.1 (h2 c hc), rfl⟩

theorem Instructs.of {bs kw bs' arg : Str} (h1 : Blanks bs) (h2 : bs' ≠ []) (h3 : Blanks bs') : Instructs (bs ++ kw ++ bs' ++ arg) kw arg :=
  ⟨bs, bs', h1, h2, h3, rfl⟩

/-- A word is followed by its argument in only one way. -/
theorem Instructs.unique {line kw kw' arg arg' : Str} (h : Instructs line kw arg) (h' : Instructs line kw' arg') (hk : KwWord kw)
    (hk' : KwWord kw') (ha : arg ≠ [] ∧ ∀ c ∈ arg.head?, ¬ Blank c) (ha' : arg' ≠ [] ∧ ∀ c ∈ arg'.head?, ¬ Blank c) :
    kw = kw' ∧ arg = arg' := by
  obtain ⟨bs, cs, h1, h2, h3, rfl⟩ := h
  obtain ⟨bs', cs', h1', h2', h3', e⟩ := h'
  have hb : ∀ {b : Byte}, Blank b → (isH b = true) := isH_iff.2
  have hn : ∀ {b : Byte}, ¬ Blank b → (isH b = false) := fun h => by rw [← Bool.not_eq_true, isH_iff]; exact h
  obtain ⟨k, kw, rfl⟩ := List.exists_cons_of_ne_nil hk.1
  obtain ⟨k', kw', rfl⟩ := List.exists_cons_of_ne_nil hk'.1
  obtain ⟨a, arg, rfl⟩ := List.exists_cons_of_ne_nil ha.1
  obtain ⟨a', arg', rfl⟩ := List.exists_cons_of_ne_nil ha'.1
  obtain ⟨c, cs, rfl⟩ := List.exists_cons_of_ne_nil h2
  obtain ⟨c', cs', rfl⟩ := List.exists_cons_of_ne_nil h2'
  simp only [List.append_assoc, List.cons_append] at e
  obtain ⟨-, e1, e⟩ := run_unique (P := isH) (fun b hb' => hb (h1 b hb')) (fun b hb' => hb (h1' b hb')) (hn (hk.2 k (by simp)))
    (hn (hk'.2 k' (by simp))) e
  obtain ⟨e2, e3, e⟩ := run_unique (P := fun b => !isH b) (fun b hb' => by simp [hn (hk.2 b (by simp [hb']))])
    (fun b hb' => by simp [hn (hk'.2 b (by simp [hb']))]) (by simp [hb (h3 c (by simp))]) (by simp [hb (h3' c' (by simp))]) e
  obtain ⟨-, e4, e5⟩ := run_unique (P := isH) (fun b hb' => hb (h3 b (by simp [hb']))) (fun b hb' => hb (h3' b (by simp [hb'])))
    (hn (ha.2 a (by simp))) (hn (ha'.2 a' (by simp))) e
  exact ⟨by rw [e1, e2], by rw [e4, e5]⟩

theorem takeWhile_split {P : Byte → Bool} {a r a' r' : Str} (ha : ∀ b ∈ a, P b = true) (hr : ∀ c ∈ r.head?, P c = false)
    (ha' : ∀ b ∈ a', P b = true) (hr' : ∀ c ∈ r'.head?, P c = false) (e : a ++ r = a' ++ r') : a = a' ∧ r = r' := by
  have h := takeWhile_run ha hr
  have h' := takeWhile_run ha' hr'
  rw [e] at h
  exact ⟨h.1.symm.trans h'.1, h.2.symm.trans h'.2⟩

theorem Number.unique {a r a' r' : Str} (h : Number a r) (h' : Number a' r') (e : a ++ r = a' ++ r') : a = a' ∧ r = r' :=
  takeWhile_split (P := isDigit) (fun b hb => isDigit_iff.2 (h.2.1 b hb)) (fun c hc => by rw [← Bool.not_eq_true, isDigit_iff]; exact h.2.2 c hc)
    (fun b hb => isDigit_iff.2 (h'.2.1 b hb)) (fun c hc => by rw [← Bool.not_eq_true, isDigit_iff]; exact h'.2.2 c hc) e

theorem blanks_unique {a r a' r' : Str} (h : Blanks a) (hr : ∀ c ∈ r.head?, ¬ Blank c) (h' : Blanks a') (hr' : ∀ c ∈ r'.head?, ¬ Blank c)
    (e : a ++ r = a' ++ r') : a = a' ∧ r = r' :=
  takeWhile_split (P := isH) (fun b hb => isH_iff.2 (h b hb)) (fun c hc => by rw [← Bool.not_eq_true, isH_iff]; exact hr c hc)
    (fun b hb => isH_iff.2 (h' b hb)) (fun c hc => by rw [← Bool.not_eq_true, isH_iff]; exact hr' c hc) e

/-- A number followed by blanks. -/
theorem number_blanks {a bs : Str} (x : Str) (h1 : a ≠ []) (h2 : ∀ c ∈ a, Digit c) (h3 : bs ≠ []) (h4 : Blanks bs) : Number a (bs ++ x) := by
  refine ⟨h1, h2, fun c hc => ?_⟩
  obtain ⟨b, bs, rfl⟩ := List.exists_cons_of_ne_nil h3
  simp at hc
  exact blank_not_digit (h4 c (by simp [hc]))

theorem Number.blanks {a bs : Str} (x : Str) (h : Number a bs) (h3 : bs ≠ []) (h4 : Blanks bs) : Number a (bs ++ x) :=
  number_blanks x h.1 h.2.1 h3 h4

/-- Take as many digits as there are. -/
theorem number_extend {a : Str} (r : Str) (h1 : a ≠ []) (h2 : ∀ c ∈ a, Digit c) :
    ∃ a' r', a ++ r = a' ++ r' ∧ Number a' r' := by
  refine ⟨a ++ r.takeWhile isDigit, r.dropWhile isDigit, by simp, by simp [h1], ?_, ?_⟩
  · intro c hc
    rcases List.mem_append.1 hc with h | h
    · exact h2 c h
    · exact isDigit_iff.1 (mem_takeWhile h)
  · intro c hc
    rw [← isDigit_iff]
    have := List.head?_dropWhile_not isDigit r
    intro h
    cases hd : (r.dropWhile isDigit).head? with
    | none => rw [hd] at hc; simp at hc
    | some d =>
      rw [hd] at hc this
      simp at hc
      subst hc
      simp [h] at this

/-! ### `.loc` -/

theorem head_append {x : Str} {y : Str} (h : x ≠ []) : (x ++ y).head? = x.head? := by
  cases x with
  | nil => exact (h rfl).elim
  | cons c x => rfl

theorem word_loc : KwWord b! ".loc" := by decide
theorem word_file : KwWord b! ".file" := by decide
theorem word_stabn : KwWord b! ".stabn" := by decide
theorem word_dbg : KwWord b! ".dbg" := by decide
theorem word_d2line : KwWord b! ".d2line" := by decide
theorem word_d2file : KwWord b! ".d2file" := by decide

theorem First.full {r : Re} {s : Str} {p : Nat} {caps : Caps} (h : First r ⟨0, s, []⟩ ⟨p, [], caps⟩) :
    ∃ m, r.fullMatch s = some m ∧ m.caps = caps := ⟨_, h.fullMatch rfl, rfl⟩

theorem sourceTag_of {cs ds a bs b r : Str} (hc : Blanks cs) (hd1 : ds ≠ []) (hd : Blanks ds) (ha : Number a bs) (hb1 : bs ≠ [])
    (hb2 : Blanks bs) (hb : Number b r) :
    ∃ m, sourceTag.fullMatch (cs ++ b! ".loc" ++ ds ++ (a ++ bs ++ b ++ r)) = some m ∧ m.caps = [(2, b), (1, a)] := by
  have h0 := first_instr word_loc hc hd1 hd (arg := a ++ (bs ++ (b ++ r))) ha.head
  have h1 := h0.seq (first_number (n := 1) (ha.blanks (b ++ r) hb1 hb2))
  have h2 := h1.seq (first_blanks1 hb1 hb2 hb.head)
  have h3 := h2.seq (first_number (n := 2) hb)
  have h4 := (h3.seq First.rest).full
  simp only [List.append_assoc] at h4 ⊢
  exact h4

theorem sourceTagColumn_of {cs ds a bs b es c r : Str} (hc : Blanks cs) (hd1 : ds ≠ []) (hd : Blanks ds) (ha : Number a bs) (hb1 : bs ≠ [])
    (hb2 : Blanks bs) (hb : Number b es) (he1 : es ≠ []) (he : Blanks es) (hn : Number c r) :
    ∃ m, sourceTagWithColumn.fullMatch (cs ++ b! ".loc" ++ ds ++ (a ++ bs ++ b ++ (es ++ c ++ r))) = some m ∧
      m.caps = [(3, c), (2, b), (1, a)] := by
  have h0 := first_instr word_loc hc hd1 hd (arg := a ++ (bs ++ (b ++ (es ++ (c ++ r))))) ha.head
  have h1 := h0.seq (first_number (n := 1) (ha.blanks _ hb1 hb2))
  have h2 := h1.seq (first_blanks1 hb1 hb2 hb.head)
  have h3 := h2.seq (first_number (n := 2) (hb.blanks (c ++ r) he1 he))
  have h4 := h3.seq (first_blanks1 he1 he hn.head)
  have h5 := h4.seq (first_number (n := 3) hn)
  have h6 := (h5.seq First.rest).full
  simp only [List.append_assoc] at h6 ⊢
  exact h6

theorem getSourceRef_of {t : Str} {i n c : Int} (h : LocLine t i n c) : getSourceRef t = (i, n, c) := by
  obtain ⟨a, bs, b, r, ha, rfl, hb1, hb2, hb, rfl, ⟨cs, ds, hc, hd1, hd, rfl⟩, hcol⟩ := h
  obtain ⟨m, hm, hmc⟩ := sourceTag_of hc hd1 hd ha hb1 hb2 hb
  unfold getSourceRef
  rw [hm]
  simp only [Match.get, hmc]
  rw [toNumber_eq, toNumber_eq]
  have e : ∀ x, (numberOf ((List.lookup 1 [(2, b), (1, a)]).getD []), numberOf ((List.lookup 2 [(2, b), (1, a)]).getD []), x) =
      (numberOf a, numberOf b, (x : Int)) := fun _ => rfl
  rw [e]
  congr 2
  rcases hcol with ⟨es, d, r', he1, he, hn, rfl, rfl⟩ | ⟨hno, rfl⟩
  · obtain ⟨m', hm', hmc'⟩ := sourceTagColumn_of hc hd1 hd ha hb1 hb2 (number_blanks [] hb.1 hb.2.1 he1 he) (by simpa using he1)
      (by simpa using he) hn
    rw [List.append_nil] at hm'
    rw [hm']
    simp only [hmc', toNumber_eq]
    rfl
  · split
    · rename_i m' hm'
      exfalso
      have hl := (fullMatch_mem hm').1
      unfold sourceTagWithColumn at hl
      obtain ⟨w1, z, _, _, e1, g1, k6, -⟩ := lang_seq.1 hl
      obtain ⟨w2, c', _, _, rfl, g2, k5, rfl⟩ := lang_seq.1 g1
      obtain ⟨w3, es, _, _, rfl, g3, k4, rfl⟩ := lang_seq.1 g2
      obtain ⟨w4, b', _, _, rfl, g4, k3, rfl⟩ := lang_seq.1 g3
      obtain ⟨w5, bs', _, _, rfl, g5, k2, rfl⟩ := lang_seq.1 g4
      obtain ⟨w6, a', _, _, rfl, g6, k1, rfl⟩ := lang_seq.1 g5
      obtain ⟨-, -, cs', ds', hc', hd1', hd', rfl⟩ := lang_instr g6
      obtain ⟨n1, n2, rfl⟩ := lang_number k1
      obtain ⟨n3, n4, rfl⟩ := lang_hs1.1 k2
      obtain ⟨n5, n6, rfl⟩ := lang_number k3
      obtain ⟨n7, n8, rfl⟩ := lang_hs1.1 k4
      obtain ⟨n9, n10, rfl⟩ := lang_number k5
      rw [blanks_iff] at n4 n8
      have i1 : Instructs (cs ++ b! ".loc" ++ ds ++ (a ++ bs ++ b ++ r)) b! ".loc" (a ++ (bs ++ (b ++ r))) :=
        ⟨cs, ds, hc, hd1, hd, by simp only [List.append_assoc]⟩
      have i2 : Instructs (cs ++ b! ".loc" ++ ds ++ (a ++ bs ++ b ++ r)) b! ".loc" (a' ++ (bs' ++ (b' ++ (es ++ (c' ++ z))))) :=
        ⟨cs', ds', hc', hd1', hd', by rw [e1]; simp only [List.append_assoc]⟩
      have na' := number_blanks (b' ++ (es ++ (c' ++ z))) n1 n2 n3 n4
      obtain ⟨-, e2⟩ := i1.unique i2 word_loc word_loc ⟨by simp [ha.1], ha.head⟩ ⟨by simp [n1], na'.head⟩
      obtain ⟨-, e3⟩ := (ha.blanks _ hb1 hb2).unique na' e2
      have nb' := number_blanks (c' ++ z) n5 n6 n7 n8
      obtain ⟨-, e4⟩ := blanks_unique hb2 hb.head n4 nb'.head e3
      obtain ⟨-, e5⟩ := hb.unique nb' e4
      obtain ⟨c2, r2, e6, hn⟩ := number_extend z n9 n10
      exact hno es c2 r2 n7 n8 hn (by rw [e5, e6, List.append_assoc])
    · rfl

theorem sourceTag_form {t : Str} (h : (sourceTag.fullMatch t).isSome = true) : ∃ i n c, LocLine t i n c := by
  obtain ⟨caps, hl⟩ := fullMatch_isSome.1 h
  unfold sourceTag at hl
  obtain ⟨w1, z, _, _, rfl, g1, -, rfl⟩ := lang_seq.1 hl
  obtain ⟨w2, b, _, _, rfl, g2, k3, rfl⟩ := lang_seq.1 g1
  obtain ⟨w3, bs, _, _, rfl, g3, k2, rfl⟩ := lang_seq.1 g2
  obtain ⟨w4, a, _, _, rfl, g4, k1, rfl⟩ := lang_seq.1 g3
  obtain ⟨-, -, cs, ds, hc, hd1, hd, rfl⟩ := lang_instr g4
  obtain ⟨n1, n2, rfl⟩ := lang_number k1
  obtain ⟨n3, n4, rfl⟩ := lang_hs1.1 k2
  obtain ⟨n5, n6, rfl⟩ := lang_number k3
  rw [blanks_iff] at n4
  obtain ⟨b', r, e, hb⟩ := number_extend z n5 n6
  have ha : Number a bs := by have := number_blanks [] n1 n2 n3 n4; rwa [List.append_nil] at this
  have hi : Instructs (cs ++ b! ".loc" ++ ds ++ a ++ bs ++ b ++ z) b! ".loc" (a ++ bs ++ b' ++ r) :=
    ⟨cs, ds, hc, hd1, hd, by
      have : a ++ bs ++ b' ++ r = a ++ bs ++ (b ++ z) := by rw [e, List.append_assoc]
      rw [this]
      simp only [List.append_assoc]⟩
  by_cases hx : ∃ bs' c r', bs' ≠ [] ∧ Blanks bs' ∧ Number c r' ∧ r = bs' ++ c ++ r'
  · obtain ⟨bs', c, r', x1, x2, x3, x4⟩ := hx
    exact ⟨_, _, _, a, bs, b', r, ha, rfl, n3, n4, hb, rfl, hi, .inl ⟨bs', c, r', x1, x2, x3, x4, rfl⟩⟩
  · exact ⟨_, _, 0, a, bs, b', r, ha, rfl, n3, n4, hb, rfl, hi, .inr ⟨fun bs' c r' x1 x2 x3 x4 => hx ⟨bs', c, r', x1, x2, x3, x4⟩, rfl⟩⟩

/-- What `.loc` says. -/
theorem getSourceRef_cases (t : Str) :
    (∃ i n c, LocLine t i n c ∧ getSourceRef t = (i, n, c)) ∨ ((∀ i n c, ¬ LocLine t i n c) ∧ getSourceRef t = (0, 0, 0)) := by
  by_cases h : ∃ i n c, LocLine t i n c
  · obtain ⟨i, n, c, h⟩ := h
    exact .inl ⟨i, n, c, h, getSourceRef_of h⟩
  · refine .inr ⟨fun i n c h' => h ⟨i, n, c, h'⟩, ?_⟩
    unfold getSourceRef
    split
    · rename_i m hm
      exact (h (sourceTag_form (by rw [hm]; rfl))).elim
    · rfl

/-! ### `.file` -/

theorem First.quoted {X : Re} {st : MSt} {n p : Nat} {q a r : Str} {caps : Caps} (hX : First X st ⟨p, q ++ r, caps⟩) (h : Quoted q a) :
    First (X ++ Re.chr c! '"' ++ Re.grp n notQuotes ++ Re.chr c! '"') st ⟨p + q.length, r, (n, a) :: caps⟩ := by
  obtain ⟨h1, h2, rfl⟩ := h
  have e1 : b! "\"" ++ a ++ b! "\"" ++ r = c! '"' :: (a ++ c! '"' :: r) := by simp
  rw [e1] at hX
  have h3 : First (Re.grp n notQuotes) ⟨p + 1, a ++ c! '"' :: r, caps⟩ _ :=
    First.grp_plus h1 (fun b hb => by simp; rintro rfl; exact h2 hb) (by simp)
  have h4 := ((hX.seq (First.chr (c := c! '"'))).seq h3).seq (First.chr (c := c! '"'))
  have e2 : p + (b! "\"" ++ a ++ b! "\"").length = p + 1 + a.length + 1 := by simp; omega
  rw [e2]
  exact h4

theorem lang_quoted {X : Re} {n : Nat} {p w rest cs} (h : Lang (X ++ chr c! '"' ++ Re.grp n notQuotes ++ chr c! '"') p w rest cs) :
    ∃ w' q a cs', Quoted q a ∧ w = w' ++ q ∧ Lang X p w' (q ++ rest) cs' ∧ cs = (n, a) :: cs' := by
  obtain ⟨_, _, _, _, rfl, g1, h3, rfl⟩ := lang_seq.1 h
  obtain ⟨_, a, _, _, rfl, g2, h2, rfl⟩ := lang_seq.1 g1
  obtain ⟨w', _, _, cs', rfl, g3, h1, rfl⟩ := lang_seq.1 g2
  obtain ⟨rfl, rfl⟩ := lang_chr.1 h1
  obtain ⟨rfl, rfl⟩ := lang_chr.1 h3
  obtain ⟨c, g, rfl⟩ := lang_grp.1 h2
  obtain ⟨k1, k2, rfl⟩ := lang_plus_cls.1 g
  refine ⟨w', b! "\"" ++ a ++ b! "\"", a, _, ⟨k1, fun hm => ?_, rfl⟩, by simp only [List.append_assoc], ?_, rfl⟩
  · have := k2 _ hm
    simp at this
  · simp only [List.append_assoc] at g3 ⊢
    exact g3

/-- Text in quotes ends in only one way. -/
theorem Quoted.unique {q a r q' a' r' : Str} (h : Quoted q a) (h' : Quoted q' a') (e : q ++ r = q' ++ r') : a = a' ∧ q = q' ∧ r = r' := by
  obtain ⟨h1, h2, rfl⟩ := h
  obtain ⟨h1', h2', rfl⟩ := h'
  simp only [List.append_assoc, List.cons_append, List.nil_append, List.cons.injEq, true_and] at e
  obtain ⟨e1, -, e2⟩ := run_unique (P := fun c => c != c! '"') (fun b hb => by simp; rintro rfl; exact h2 hb)
    (fun b hb => by simp; rintro rfl; exact h2' hb) (by simp) (by simp) e
  exact ⟨e1, by rw [e1], e2⟩

theorem fileFind_two {cs ds d bs q a es q' b r : Str} (hc : Blanks cs) (hd1 : ds ≠ []) (hd : Blanks ds) (ha : Number d bs) (hb1 : bs ≠ [])
    (hb2 : Blanks bs) (hq : Quoted q a) (he1 : es ≠ []) (he : Blanks es) (hq' : Quoted q' b) :
    ∃ m x, fileFind.fullMatch (cs ++ b! ".file" ++ ds ++ (d ++ bs ++ q ++ (es ++ q' ++ r))) = some m ∧
      m.caps = [(3, x), (4, b), (2, a), (1, d)] := by
  have h0 := first_instr word_file hc hd1 hd (arg := d ++ (bs ++ (q ++ (es ++ (q' ++ r))))) ha.head
  have h1 := h0.seq (first_number (n := 1) (ha.blanks _ hb1 hb2))
  have h2 := h1.seq (first_blanks1 hb1 hb2 hq.head)
  have h3 := h2.quoted (n := 2) hq
  have h4 := h3.seq (((first_blanks1 he1 he hq'.head).quoted (n := 4) hq').grp (n := 3)).opt_some
  obtain ⟨m, e1, e2⟩ := (h4.seq First.rest).full
  simp only [List.append_assoc] at e1 ⊢
  exact ⟨m, _, e1, e2⟩

theorem fileFind_one {cs ds d bs q a r : Str} (hc : Blanks cs) (hd1 : ds ≠ []) (hd : Blanks ds) (ha : Number d bs) (hb1 : bs ≠ [])
    (hb2 : Blanks bs) (hq : Quoted q a) (hno : ∀ bs' q' b r', bs' ≠ [] → Blanks bs' → Quoted q' b → r ≠ bs' ++ q' ++ r') :
    ∃ m, fileFind.fullMatch (cs ++ b! ".file" ++ ds ++ (d ++ bs ++ q ++ r)) = some m ∧ m.caps = [(2, a), (1, d)] := by
  have h0 := first_instr word_file hc hd1 hd (arg := d ++ (bs ++ (q ++ r))) ha.head
  have h1 := h0.seq (first_number (n := 1) (ha.blanks _ hb1 hb2))
  have h2 := h1.seq (first_blanks1 hb1 hb2 hq.head)
  have h3 := h2.quoted (n := 2) hq
  have h4 := h3.seq (First.opt_none (a := Re.grp 3 (hs1 ++ chr c! '"' ++ Re.grp 4 notQuotes ++ chr c! '"')) (run_nil_of_lang ?_))
  · have h5 := (h4.seq First.rest).full
    simp only [List.append_assoc] at h5 ⊢
    exact h5
  · intro w rest cs' e hl
    obtain ⟨_, g, rfl⟩ := lang_grp.1 hl
    obtain ⟨bs', q', b, _, k1, rfl, k3, -⟩ := lang_quoted g
    obtain ⟨n1, n2, rfl⟩ := lang_hs1.1 k3
    exact hno bs' q' b rest n1 (blanks_iff.1 n2) k1 e

theorem getFileDef_of {t name : Str} {i : Int} (h : FileDirective t i name) : getFileDef t = some (i, name) := by
  obtain ⟨d, bs, q, a, r, ha, rfl, hb1, hb2, hq, ⟨cs, ds, hc, hd1, hd, rfl⟩, hcol⟩ := h
  unfold getFileDef
  rcases hcol with ⟨es, q', b, r', he1, he, hq', rfl, rfl⟩ | ⟨hno, rfl⟩
  · obtain ⟨m, x, hm, hmc⟩ := fileFind_two (r := r') hc hd1 hd ha hb1 hb2 hq he1 he hq'
    rw [hm]
    have e1 : m.get 1 = d := by simp [Match.get, hmc, List.lookup]
    have e2 : m.get 2 = a := by simp [Match.get, hmc, List.lookup]
    have e3 : m.get 4 = b := by simp [Match.get, hmc, List.lookup]
    simp [e1, e2, e3, hq'.1, toNumber_eq]
  · obtain ⟨m, hm, hmc⟩ := fileFind_one hc hd1 hd ha hb1 hb2 hq hno
    rw [hm]
    have e1 : m.get 1 = d := by simp [Match.get, hmc, List.lookup]
    have e2 : m.get 2 = name := by simp [Match.get, hmc]
    have e3 : m.get 4 = [] := by simp [Match.get, hmc, List.lookup]
    simp [e1, e2, e3, toNumber_eq]

theorem fileFind_form {t : Str} (h : (fileFind.fullMatch t).isSome = true) : ∃ i name, FileDirective t i name := by
  obtain ⟨caps, hl⟩ := fullMatch_isSome.1 h
  unfold fileFind at hl
  obtain ⟨w1, z, _, _, rfl, g1, -, rfl⟩ := lang_seq.1 hl
  obtain ⟨w2, y, _, _, rfl, g2, -, rfl⟩ := lang_seq.1 g1
  obtain ⟨w3, q, a, _, hq, rfl, g3, rfl⟩ := lang_quoted g2
  obtain ⟨w4, bs, _, _, rfl, g4, k2, rfl⟩ := lang_seq.1 g3
  obtain ⟨w5, d, _, _, rfl, g5, k1, rfl⟩ := lang_seq.1 g4
  obtain ⟨-, -, cs, ds, hc, hd1, hd, rfl⟩ := lang_instr g5
  obtain ⟨n1, n2, rfl⟩ := lang_number k1
  obtain ⟨n3, n4, rfl⟩ := lang_hs1.1 k2
  rw [blanks_iff] at n4
  have ha : Number d bs := by have := number_blanks [] n1 n2 n3 n4; rwa [List.append_nil] at this
  have hi : Instructs (cs ++ b! ".file" ++ ds ++ d ++ bs ++ q ++ y ++ z) b! ".file" (d ++ bs ++ q ++ (y ++ z)) :=
    ⟨cs, ds, hc, hd1, hd, by simp only [List.append_assoc]⟩
  by_cases hx : ∃ bs' q' b r', bs' ≠ [] ∧ Blanks bs' ∧ Quoted q' b ∧ y ++ z = bs' ++ q' ++ r'
  · obtain ⟨bs', q', b, r', x1, x2, x3, x4⟩ := hx
    exact ⟨_, _, d, bs, q, a, _, ha, rfl, n3, n4, hq, hi, .inl ⟨bs', q', b, r', x1, x2, x3, x4, rfl⟩⟩
  · exact ⟨_, _, d, bs, q, a, _, ha, rfl, n3, n4, hq, hi, .inr ⟨fun bs' q' b r' x1 x2 x3 x4 => hx ⟨bs', q', b, r', x1, x2, x3, x4⟩, rfl⟩⟩

/-- What `.file` says. -/
theorem getFileDef_iff {t name : Str} {i : Int} : getFileDef t = some (i, name) ↔ FileDirective t i name := by
  refine ⟨fun h => ?_, getFileDef_of⟩
  have : (fileFind.fullMatch t).isSome = true := by
    unfold getFileDef at h
    cases hm : fileFind.fullMatch t with
    | none => rw [hm] at h; simp at h
    | some m => rfl
  obtain ⟨i', name', h'⟩ := fileFind_form this
  rw [getFileDef_of h'] at h
  cases h
  exact h'

/-! ### `.stabn` -/

theorem number_of {a : Str} {b : Byte} (x : Str) (h : Number a []) (hb : ¬ Digit b) : Number a (b :: x) :=
  ⟨h.1, h.2.1, fun c hc => by simp at hc; subst hc; exact hb⟩

theorem not_digit_comma : ¬ Digit c! ',' := by unfold Digit; decide

theorem number_nil {a : Str} (h1 : a ≠ []) (h2 : ∀ c ∈ a, Digit c) : Number a [] := ⟨h1, h2, by simp⟩

theorem getStabs_of {t : Str} {k n : Int} (h : StabDirective t k n) :
    getSourceInfoFromStabs t = some (k, if k = 68 then n else 0) := by
  obtain ⟨a, b, r, ha, rfl, hb, rfl, cs, ds, hc, hd1, hd, rfl⟩ := h
  have h0 := first_instr word_stabn hc hd1 hd (arg := a ++ (b! ",0," ++ (b ++ (c! ',' :: r)))) ha.head
  have h1 := h0.seq (first_number (n := 1) (number_of _ ha not_digit_comma))
  have h2 := h1.seq (First.lit (w := b! ",0,"))
  have h3 := h2.seq (first_number (n := 2) (number_of r hb not_digit_comma))
  have h4 := (h3.seq (First.chr (c := c! ','))).seq First.rest
  have h5 := h4.search
  have e : cs ++ b! ".stabn" ++ ds ++ (a ++ (b! ",0," ++ (b ++ (c! ',' :: r)))) =
      cs ++ b! ".stabn" ++ ds ++ (a ++ b! ",0," ++ b ++ b! "," ++ r) := by simp
  rw [e] at h5
  unfold getSourceInfoFromStabs
  have h6 : sourceStab.search (cs ++ b! ".stabn" ++ ds ++ (a ++ b! ",0," ++ b ++ b! "," ++ r)) = _ := h5
  rw [h6]
  simp only [Match.get, toNumber_eq]
  have e1 : (List.lookup 1 [(2, b), (1, a)]).getD [] = a := rfl
  have e2 : (List.lookup 2 [(2, b), (1, a)]).getD [] = b := rfl
  rw [e1, e2]
  split
  · rename_i h; rw [h]
  · rfl

theorem sourceStab_form {t : Str} (h : (sourceStab.search t).isSome = true) : ∃ k n, StabDirective t k n := by
  obtain ⟨u, w, rest, cs, rfl, hl⟩ := search_isSome.1 h
  unfold sourceStab at hl
  obtain ⟨w1, z, _, _, rfl, g1, -, rfl⟩ := lang_seq.1 hl
  obtain ⟨w2, y, _, _, rfl, g2, k5, rfl⟩ := lang_seq.1 g1
  obtain ⟨w3, b, _, _, rfl, g3, k4, rfl⟩ := lang_seq.1 g2
  obtain ⟨w4, x, _, _, rfl, g4, k3, rfl⟩ := lang_seq.1 g3
  obtain ⟨w5, a, _, _, rfl, g5, k2, rfl⟩ := lang_seq.1 g4
  obtain ⟨hu, -, cs, ds, hc, hd1, hd, rfl⟩ := lang_instr g5
  obtain rfl : u = [] := List.eq_nil_of_length_eq_zero hu
  obtain ⟨n1, n2, rfl⟩ := lang_number k2
  obtain ⟨rfl, rfl⟩ := lang_lit.1 k3
  obtain ⟨n3, n4, rfl⟩ := lang_number k4
  obtain ⟨rfl, rfl⟩ := lang_chr.1 k5
  exact ⟨_, _, a, b, z ++ rest, number_nil n1 n2, rfl, number_nil n3 n4, rfl, cs, ds, hc, hd1, hd, by
    simp only [List.append_assoc, List.nil_append]⟩

/-- What `.stabn` says. -/
theorem getStabs_cases (t : Str) :
    (∃ k n, StabDirective t k n ∧ getSourceInfoFromStabs t = some (k, if k = 68 then n else 0)) ∨
    ((∀ k n, ¬ StabDirective t k n) ∧ getSourceInfoFromStabs t = none) := by
  by_cases h : ∃ k n, StabDirective t k n
  · obtain ⟨k, n, h⟩ := h
    exact .inl ⟨k, n, h, getStabs_of h⟩
  · refine .inr ⟨fun k n h' => h ⟨k, n, h'⟩, ?_⟩
    unfold getSourceInfoFromStabs
    split
    · rfl
    · rename_i m hm
      exact (h (sourceStab_form (by rw [hm]; rfl))).elim

/-! ### `.dbg` -/

theorem getDbg_of {t file : Str} {n : Int} (h : DbgDirective t file n) : get6502DbgInfo t = some ⟨file, n, false⟩ := by
  obtain ⟨bs, q, bs', a, h1, ⟨q1, q2, rfl⟩, h2, ha, rfl, cs, ds, hc, hd1, hd, rfl⟩ := h
  have h0 := first_instr word_dbg hc hd1 hd (arg := b! "line," ++ (bs ++ (c! '"' :: (file ++ (b! "\"," ++ (bs' ++ (a ++ []))))))) (by simp; decide)
  have h3 := (h0.seq First.lit).seq (first_blanks h1 (by simp; decide))
  have h4 := h3.seq (First.chr (c := c! '"'))
  have h5 := h4.seq (First.grp_plus (n := 1) (P := fun c => c != c! '"') q1 (fun b hb => by simp; rintro rfl; exact q2 hb) (by simp))
  have h6 := ((h5.seq (First.lit (w := b! "\","))).seq (first_blanks h2 ha.head)).seq (first_number (n := 2) ha)
  obtain ⟨m, e1, e2⟩ := h6.full
  have e : cs ++ b! ".dbg" ++ ds ++ (b! "line," ++ (bs ++ (c! '"' :: (file ++ (b! "\"," ++ (bs' ++ (a ++ []))))))) =
      cs ++ b! ".dbg" ++ ds ++ (b! "line," ++ bs ++ (b! "\"" ++ file ++ b! "\"") ++ b! "," ++ bs' ++ a) := by simp
  rw [e] at e1
  unfold get6502DbgInfo
  have e3 : source6502Dbg.fullMatch (cs ++ b! ".dbg" ++ ds ++ (b! "line," ++ bs ++ (b! "\"" ++ file ++ b! "\"") ++ b! "," ++ bs' ++ a)) = _ := e1
  rw [e3]
  have e4 : m.get 1 = file := by simp [Match.get, e2, List.lookup]
  have e5 : m.get 2 = a := by simp [Match.get, e2]
  simp [e4, e5, toNumber_eq]

theorem source6502_form {t : Str} (h : (source6502Dbg.fullMatch t).isSome = true) : ∃ file n, DbgDirective t file n := by
  obtain ⟨caps, hl⟩ := fullMatch_isSome.1 h
  unfold source6502Dbg at hl
  obtain ⟨w1, a, _, _, rfl, g1, k1, rfl⟩ := lang_seq.1 hl
  obtain ⟨w2, bs', _, _, rfl, g2, k2, rfl⟩ := lang_seq.1 g1
  obtain ⟨w3, z, _, _, rfl, g3, k3, rfl⟩ := lang_seq.1 g2
  obtain ⟨w4, f, _, _, rfl, g4, k4, rfl⟩ := lang_seq.1 g3
  obtain ⟨w5, y, _, _, rfl, g5, k5, rfl⟩ := lang_seq.1 g4
  obtain ⟨w6, bs, _, _, rfl, g6, k6, rfl⟩ := lang_seq.1 g5
  obtain ⟨w7, x, _, _, rfl, g7, k7, rfl⟩ := lang_seq.1 g6
  obtain ⟨-, -, cs, ds, hc, hd1, hd, rfl⟩ := lang_instr g7
  obtain ⟨rfl, rfl⟩ := lang_lit.1 k7
  obtain ⟨n1, rfl⟩ := lang_hs.1 k6
  obtain ⟨rfl, rfl⟩ := lang_chr.1 k5
  obtain ⟨c, g, rfl⟩ := lang_grp.1 k4
  obtain ⟨n2, n3, rfl⟩ := lang_plus_cls.1 g
  obtain ⟨rfl, rfl⟩ := lang_lit.1 k3
  obtain ⟨n4, rfl⟩ := lang_hs.1 k2
  obtain ⟨n5, n6, rfl⟩ := lang_number k1
  refine ⟨f, _, bs, _, bs', a, blanks_iff.1 n1, ⟨n2, fun hm => ?_, rfl⟩, blanks_iff.1 n4, number_nil n5 n6, rfl, cs, ds, hc, hd1, hd, by simp⟩
  have := n3 _ hm
  simp at this

/-- What `.dbg` says. -/
theorem getDbg_cases (t : Str) :
    (∃ file n, DbgDirective t file n ∧ get6502DbgInfo t = some ⟨file, n, false⟩) ∨
    ((∀ file n, ¬ DbgDirective t file n) ∧ (get6502DbgInfo t = none ∨ get6502DbgInfo t = some ⟨[], 0, true⟩)) := by
  by_cases h : ∃ k n, DbgDirective t k n
  · obtain ⟨k, n, h⟩ := h
    exact .inl ⟨k, n, h, getDbg_of h⟩
  · refine .inr ⟨fun k n h' => h ⟨k, n, h'⟩, ?_⟩
    unfold get6502DbgInfo
    split
    · rename_i m hm
      exact (h (source6502_form (by rw [hm]; rfl))).elim
    · split
      · exact .inr rfl
      · exact .inl rfl

/-! ### `.d2line` and `.d2file` -/

theorem getD2Line_of {t : Str} {n : Int} (h : D2Line t n) : getD2LineInfo t = some n := by
  obtain ⟨a, r, ha, rfl, cs, ds, hc, hd1, hd, rfl⟩ := h
  have h0 := (first_instr word_d2line hc hd1 hd (arg := a ++ r) ha.head).seq (first_number (n := 1) ha)
  have h1 : ∃ p r', First (opt (chr c! ',')) ⟨0 + cs.length + (b! ".d2line").length + ds.length + a.length, r, [(1, a)]⟩ ⟨p, r', [(1, a)]⟩ := by
    by_cases hr : ∃ r', r = c! ',' :: r'
    · obtain ⟨r', rfl⟩ := hr
      exact ⟨_, _, First.opt_some First.chr⟩
    · refine ⟨_, _, First.opt_none (run_nil_of_lang fun w rest cs' e hl => ?_)⟩
      obtain ⟨rfl, -⟩ := lang_chr.1 hl
      exact hr ⟨rest, e⟩
  obtain ⟨p, r', h1⟩ := h1
  have h2 := ((h0.seq h1).seq (First.many_cls (P := isH))).seq ((First.many_cls (P := isDigit)).grp (n := 2))
  obtain ⟨m, e1, e2⟩ := (h2.seq First.rest).full
  unfold getD2LineInfo
  have e3 : sourceD2Tag.fullMatch (cs ++ b! ".d2line" ++ ds ++ (a ++ r)) = _ := e1
  rw [e3]
  have e5 : m.get 1 = a := by simp [Match.get, e2, List.lookup]
  simp [e5, toNumber_eq]

theorem sourceD2Tag_form {t : Str} (h : (sourceD2Tag.fullMatch t).isSome = true) : ∃ n, D2Line t n := by
  obtain ⟨caps, hl⟩ := fullMatch_isSome.1 h
  unfold sourceD2Tag at hl
  obtain ⟨w1, z, _, _, rfl, g1, -, rfl⟩ := lang_seq.1 hl
  obtain ⟨w2, y, _, _, rfl, g2, -, rfl⟩ := lang_seq.1 g1
  obtain ⟨w3, x, _, _, rfl, g3, -, rfl⟩ := lang_seq.1 g2
  obtain ⟨w4, w, _, _, rfl, g4, -, rfl⟩ := lang_seq.1 g3
  obtain ⟨w5, a, _, _, rfl, g5, k1, rfl⟩ := lang_seq.1 g4
  obtain ⟨-, -, cs, ds, hc, hd1, hd, rfl⟩ := lang_instr g5
  obtain ⟨n5, n6, rfl⟩ := lang_number k1
  obtain ⟨a', r, e, hn⟩ := number_extend (w ++ (x ++ (y ++ z))) n5 n6
  exact ⟨_, a', r, hn, rfl, cs, ds, hc, hd1, hd, by rw [← e]; simp only [List.append_assoc]⟩

/-- What `.d2line` says. -/
theorem getD2Line_iff {t : Str} {n : Int} : getD2LineInfo t = some n ↔ D2Line t n := by
  refine ⟨fun h => ?_, getD2Line_of⟩
  have : (sourceD2Tag.fullMatch t).isSome = true := by
    unfold getD2LineInfo at h
    cases hm : sourceD2Tag.fullMatch t with
    | none => rw [hm] at h; simp at h
    | some m => rfl
  obtain ⟨n', h'⟩ := sourceD2Tag_form this
  rw [getD2Line_of h'] at h
  cases h
  exact h'

theorem sourceD2File_form {t : Str} {m : Match} (h : sourceD2File.fullMatch t = some m) : D2File t (m.get 1) := by
  have hl := (fullMatch_mem h).1
  unfold sourceD2File at hl
  obtain ⟨w1, z, _, _, e, g1, k1, ec⟩ := lang_seq.1 hl
  obtain ⟨w2, y, _, _, rfl, g2, k2, rfl⟩ := lang_seq.1 g1
  obtain ⟨w3, x, _, _, rfl, g3, k3, rfl⟩ := lang_seq.1 g2
  obtain ⟨-, rfl, cs, ds, hc, hd1, hd, rfl⟩ := lang_instr g3
  obtain ⟨rfl, rfl⟩ := lang_chr.1 k1
  obtain ⟨rfl, rfl⟩ := lang_chr.1 k3
  obtain ⟨_, k4, rfl⟩ := lang_grp.1 k2
  obtain rfl := lang_many_any.1 k4
  have : m.get 1 = y := by simp [Match.get, ec]
  rw [this]
  exact ⟨cs, ds, hc, hd1, hd, by rw [e]; simp only [List.append_assoc]⟩

theorem d2file_arg {x : Str} : (b! "\"" ++ x ++ b! "\"") ≠ [] ∧ ∀ c ∈ (b! "\"" ++ x ++ b! "\"").head?, ¬ Blank c :=
  ⟨by simp, by simp; decide⟩

theorem D2File.unique {t a b : Str} (h : D2File t a) (h' : D2File t b) : a = b := by
  have := (Instructs.unique h h' word_d2file word_d2file d2file_arg d2file_arg).2
  simpa using this

/-- What `.d2file` says. -/
theorem getD2File_iff {t file : Str} : getD2FileInfo t = some file ↔ D2File t file := by
  unfold getD2FileInfo
  constructor
  · intro h
    cases hm : sourceD2File.fullMatch t with
    | none => rw [hm] at h; simp at h
    | some m =>
      rw [hm] at h
      simp at h
      rw [← h]
      exact sourceD2File_form hm
  · intro h
    obtain ⟨cs, ds, hc, hd1, hd, e⟩ := id h
    have : (sourceD2File.fullMatch t).isSome = true := by
      rw [fullMatch_isSome]
      unfold sourceD2File
      refine ⟨_, lang_seq.2 ⟨cs ++ b! ".d2file" ++ ds ++ b! "\"" ++ file, b! "\"", _, _, by rw [e]; simp only [List.append_assoc], lang_seq.2
        ⟨cs ++ b! ".d2file" ++ ds ++ b! "\"", file, _, _, rfl, lang_seq.2 ⟨cs ++ b! ".d2file" ++ ds, b! "\"", [], [], rfl, ?_, lang_chr.2 ⟨rfl, rfl⟩, rfl⟩,
          lang_grp.2 ⟨_, lang_many_any.2 rfl, rfl⟩, rfl⟩, lang_chr.2 ⟨rfl, rfl⟩, rfl⟩⟩
      · exact lang_seq.2 ⟨cs ++ b! ".d2file", ds, [], [], rfl, lang_seq.2 ⟨cs, b! ".d2file", [], [], rfl, lang_seq.2 ⟨[], cs, [], [], rfl,
          lang_bol.2 ⟨rfl, rfl, rfl⟩, lang_hs.2 ⟨blanks_iff.2 hc, rfl⟩, rfl⟩, lang_lit.2 ⟨rfl, rfl⟩, rfl⟩, lang_hs1.2 ⟨hd1, blanks_iff.2 hd, rfl⟩, rfl⟩
    cases hm : sourceD2File.fullMatch t with
    | none => rw [hm] at this; simp at this
    | some m => simp [(sourceD2File_form hm).unique h]

/-! ### Sections -/

theorem First.searchFrom {r : Re} {s : Str} {st : MSt} (u : Str) (p : Nat) (h : First r ⟨p + u.length, s, []⟩ st)
    (hno : ∀ u' w' rest' cs, u ++ s = u' ++ w' ++ rest' → Lang r (p + u'.length) w' rest' cs → u.length ≤ u'.length) :
    r.searchFrom p (u ++ s) = some ⟨p + u.length, st.pos, st.caps⟩ := by
  induction u generalizing p with
  | nil =>
    unfold First at h
    unfold Re.searchFrom
    rw [List.nil_append]
    simp only [List.length_nil, Nat.add_zero] at h ⊢
    cases hr : r.run ⟨p, s, []⟩ with
    | nil => rw [hr] at h; simp at h
    | cons x xs => rw [hr] at h; simp at h; subst h; rfl
  | cons c u ih =>
    have h0 : r.run ⟨p, c :: u ++ s, []⟩ = [] := by
      apply run_nil_of_lang
      intro w rest cs e hl
      have := hno [] w rest cs e (by simpa using hl)
      simp at this
    unfold Re.searchFrom
    rw [h0]
    simp only [List.cons_append]
    have e : p + 1 + u.length = p + (c :: u).length := by simp; omega
    rw [ih (p + 1) (by rw [e]; exact h) ?_, e]
    intro u' w' rest' cs e' hl
    have := hno (c :: u') w' rest' cs (by rw [List.cons_append, e', List.cons_append, List.cons_append]) (by
      have : p + (c :: u').length = p + 1 + u'.length := by simp; omega
      rw [this]; exact hl)
    simpa using this

theorem sectionChar_eq : sectionChar = fun c =>
    (c! 'a' ≤ c && c ≤ c! 'z') || (c! 'A' ≤ c && c ≤ c! 'Z') || (c! '0' ≤ c && c ≤ c! '9') || c == c! '.' || c == c! '-' := by
  funext c
  simp only [sectionChar, isAlpha, isLower, isUpper, isDigit]
  ac_rfl

theorem isH_eq : isH = fun c => decide (c = 32) || decide (c = 9) := by
  funext c
  rw [Bool.eq_iff_iff, isH_iff]
  simp [Blank]

/-- The end of a section directive. -/
theorem first_sectionEnd {p : Nat} {kw r : Str} {caps : Caps} (hk : kw ∈ [b! "data", b! "text", b! "section"]) :
    ∃ st', First sectionDef ⟨p, b! "." ++ kw ++ r, caps⟩ st' ∧ st'.caps = (2, sectionName r) :: (1, kw) :: caps := by
  have h1 : First (Re.grp 1 (oneOf [b! "data", b! "text", b! "section"])) ⟨p + 1, kw ++ r, caps⟩ ⟨p + 1 + kw.length, r, [(1, kw)] ++ caps⟩ := by
    refine First.unique rfl (lang_grp.2 ⟨[], lang_oneOf.2 ⟨hk, rfl⟩, rfl⟩) ?_
    intro w' rest' cs' e hl
    obtain ⟨_, g, rfl⟩ := lang_grp.1 hl
    obtain ⟨hw, rfl⟩ := lang_oneOf.1 g
    have : w' = kw := by
      simp only [List.mem_cons, List.not_mem_nil, or_false] at hk hw
      rcases hk with rfl | rfl | rfl <;> rcases hw with rfl | rfl | rfl <;> simp at e ⊢
    rw [this]
    exact ⟨rfl, rfl⟩
  have h2 := (First.chr (c := c! '.')).seq h1
  have h3 := h2.seq (First.many_cls (P := isH))
  unfold sectionName
  rw [← isH_eq, ← sectionChar_eq]
  show ∃ st' : MSt, _ ∧ st'.caps = (2, (if (r.dropWhile isH).head? = some c! '"' then (r.dropWhile isH).tail else r.dropWhile isH).takeWhile
    sectionChar) :: (1, kw) :: caps
  generalize r.dropWhile isH = x at h3 ⊢
  have h4 : ∃ p', First (opt (chr c! '"')) ⟨p + 1 + kw.length + (r.takeWhile isH).length, x, [(1, kw)] ++ caps⟩
      ⟨p', if x.head? = some c! '"' then x.tail else x, [(1, kw)] ++ caps⟩ := by
    cases x with
    | nil => exact ⟨_, First.opt_none (run_nil_of_lang fun w rest cs e hl => by
        obtain ⟨rfl, -⟩ := lang_chr.1 hl; simp at e)⟩
    | cons c x =>
      by_cases hc : c = c! '"'
      · subst hc
        exact ⟨_, First.opt_some First.chr⟩
      · refine ⟨p + 1 + kw.length + (r.takeWhile isH).length, ?_⟩
        rw [if_neg (by simpa using hc)]
        refine First.opt_none (run_nil_of_lang fun w rest cs e hl => ?_)
        obtain ⟨rfl, -⟩ := lang_chr.1 hl
        simp at e
        exact hc e.1
  obtain ⟨p', h4⟩ := h4
  have h5 := h3.seq h4
  generalize (if x.head? = some c! '"' then x.tail else x) = y at h5 ⊢
  have h6 := h5.seq ((First.many_cls (P := sectionChar)).grp (n := 2))
  have hopt : ∀ (q : Nat) (z : Str) (cs : Caps), ∃ p'' z', First (opt (chr c! '"')) ⟨q, z, cs⟩ ⟨p'', z', cs⟩ := by
    intro q z cs
    by_cases hz : ∃ z', z = c! '"' :: z'
    · obtain ⟨z', rfl⟩ := hz
      exact ⟨_, _, First.opt_some First.chr⟩
    · refine ⟨_, _, First.opt_none (run_nil_of_lang fun w rest cs' e hl => ?_)⟩
      obtain ⟨rfl, -⟩ := lang_chr.1 hl
      exact hz ⟨rest, e⟩
  obtain ⟨p'', z', h7⟩ := hopt (p' + (y.takeWhile sectionChar).length) (y.dropWhile sectionChar)
    ((2, y.take (y.length - (y.dropWhile sectionChar).length)) :: ([(1, kw)] ++ caps))
  refine ⟨_, h6.seq h7, ?_⟩
  have e : y.take (y.length - (y.dropWhile sectionChar).length) = y.takeWhile sectionChar := by
    have e1 : y.takeWhile sectionChar ++ y.dropWhile sectionChar = y := List.takeWhile_append_dropWhile
    have e2 := congrArg List.length e1
    rw [List.length_append] at e2
    have e3 : y.length - (y.dropWhile sectionChar).length = (y.takeWhile sectionChar).length := by omega
    rw [e3]
    conv => lhs; arg 2; rw [← e1]
    exact List.take_left
  simp only [e]
  rfl

theorem sectionDef_lang {t a w rest : Str} {cs : Caps} {n : Nat} (e : t = a ++ w ++ rest) (h : Lang sectionDef n w rest cs) :
    ∃ kw r, kw ∈ [b! "data", b! "text", b! "section"] ∧ t = a ++ b! "." ++ kw ++ r := by
  unfold sectionDef at h
  obtain ⟨w1, x1, _, _, rfl, g1, -, rfl⟩ := lang_seq.1 h
  obtain ⟨w2, x2, _, _, rfl, g2, -, rfl⟩ := lang_seq.1 g1
  obtain ⟨w3, x3, _, _, rfl, g3, -, rfl⟩ := lang_seq.1 g2
  obtain ⟨w4, x4, _, _, rfl, g4, -, rfl⟩ := lang_seq.1 g3
  obtain ⟨w5, kw, _, _, rfl, g5, k, rfl⟩ := lang_seq.1 g4
  obtain ⟨rfl, rfl⟩ := lang_chr.1 g5
  obtain ⟨_, k', rfl⟩ := lang_grp.1 k
  obtain ⟨hk, rfl⟩ := lang_oneOf.1 k'
  exact ⟨kw, x4 ++ x3 ++ x2 ++ x1 ++ rest, hk, by rw [e]; simp only [List.append_assoc]⟩

theorem getSection_of {t name : Str} (h : SwitchesTo t name) : getSectionNameDef t = some name := by
  obtain ⟨a, kw, r, hk, rfl, hno, rfl⟩ := h
  obtain ⟨st', h1, h2⟩ := first_sectionEnd (p := 0 + a.length) (r := r) (caps := []) hk
  have h3 := First.searchFrom a 0 h1 (fun u' w' rest' cs e hl => by
    obtain ⟨kw', r', hk', e'⟩ := sectionDef_lang e hl
    exact hno u' kw' r' hk' (by rw [← e']; simp only [List.append_assoc]))
  have e : a ++ (b! "." ++ kw ++ r) = a ++ b! "." ++ kw ++ r := by simp only [List.append_assoc]
  rw [e] at h3
  have h4 : sectionDef.search (a ++ b! "." ++ kw ++ r) = some ⟨0 + a.length, st'.pos, st'.caps⟩ := by
    unfold Re.search; exact h3
  unfold getSectionNameDef
  rw [h4]
  have e1 : (⟨0 + a.length, st'.pos, st'.caps⟩ : Match).get 1 = kw := by simp [Match.get, h2, List.lookup]
  have e2 : (⟨0 + a.length, st'.pos, st'.caps⟩ : Match).get 2 = sectionName r := by simp [Match.get, h2]
  rw [Option.map_some, e1, e2]
  congr 1
  by_cases hs : kw = b! "section"
  · rw [if_pos hs, if_pos (by simpa using hs)]
  · rw [if_neg hs, if_neg (by simpa using hs)]

theorem getSection_iff {t name : Str} : getSectionNameDef t = some name ↔ SwitchesTo t name := by
  refine ⟨fun h => ?_, getSection_of⟩
  have : ∃ name', SwitchesTo t name' := by
    unfold getSectionNameDef at h
    cases hm : sectionDef.search t with
    | none => rw [hm] at h; simp at h
    | some m =>
      obtain ⟨u, w, rest, e, h1, -, h2, h3⟩ := search_mem hm
      obtain ⟨kw, r, hk, e'⟩ := sectionDef_lang e h2
      refine ⟨_, u, kw, r, hk, e', fun a' kw' r' hk' e'' => ?_, rfl⟩
      obtain ⟨st', g1, -⟩ := first_sectionEnd (p := a'.length) (r := r') (caps := []) hk'
      have hmem : st' ∈ sectionDef.run ⟨a'.length, b! "." ++ kw' ++ r', []⟩ := List.mem_of_mem_head? g1
      obtain ⟨w', cs', k1, -, -, k4⟩ := (mem_run _ _ _).1 hmem
      simp only at k1
      exact h3 a' w' st'.rest cs' (by rw [e'', List.append_assoc, List.append_assoc, ← List.append_assoc (b! "."), k1, List.append_assoc]) k4
  obtain ⟨name', h'⟩ := this
  rw [getSection_of h'] at h
  cases h
  exact h'

theorem SwitchesTo.unique {t a b : Str} (h : SwitchesTo t a) (h' : SwitchesTo t b) : a = b := by
  have := getSection_of h
  rw [getSection_of h'] at this
  cases this
  rfl

theorem SwitchesTo.ends {t a : Str} (h : SwitchesTo t a) : EndsBlock t := by
  obtain ⟨a, kw, r, hk, rfl, -, -⟩ := h
  simp only [List.mem_cons, List.not_mem_nil, or_false] at hk
  rcases hk with rfl | rfl | rfl
  · exact ⟨b! ".data", by simp, a, r, by simp⟩
  · exact ⟨b! ".text", by simp, a, r, by simp⟩
  · exact ⟨b! ".section", by simp, a, r, by simp⟩

end AsmParser

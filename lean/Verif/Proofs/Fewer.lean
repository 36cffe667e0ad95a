/-
More filters in binary mode leave fewer lines.
-/
import Verif.Spec.Decode
import Verif.Proofs.DecodeEnd

namespace AsmParser

/-- What the lines do to the output: does a function begin, and which line is shown? -/
def happenings (R : Reading) (drop : Str → Bool) : Carry → List Str → List (Bool × Option AsmLine)
  | _, [] => []
  | c, l :: ls =>
    let k := lineKind c.ign (l.filter (· != 13))
    (k.begins, c.shown R drop k) :: happenings R drop (c.next R drop k) ls

def Pages.all (lib : Bool) (b : Pages) (es : List (Bool × Option AsmLine)) : Pages := es.foldl (fun b e => b.next lib e.1 e.2) b

theorem decodeLines_all (R : Reading) (drop : Str → Bool) (lib : Bool) (ls : List Str) : ∀ (c : Carry) (b : Pages),
    decodeLines R drop lib c b ls = b.all lib (happenings R drop c ls) := by
  induction ls with
  | nil => intro c b; rfl
  | cons l ls ih => intro c b; rw [decodeLines, happenings]; exact ih _ _

theorem Pages.close_full (lib : Bool) (b : Pages) : (b.close lib).full = b.full := by
  unfold Pages.close; split <;> rfl

theorem Pages.next_full {lib : Bool} {b : Pages} {x : Bool} {l : Option AsmLine} (h : b.full = true) : b.next lib x l = b := by
  simp [Pages.next, h]

theorem Pages.all_full {lib : Bool} {b : Pages} (h : b.full = true) (es : List (Bool × Option AsmLine)) : b.all lib es = b := by
  unfold Pages.all
  induction es with
  | nil => rfl
  | cons e es ih => rw [List.foldl_cons, Pages.next_full h]; exact ih

theorem Pages.not_full_start {lib : Bool} {b : Pages} {es : List (Bool × Option AsmLine)} (h : (b.all lib es).full = false) : b.full = false := by
  cases hb : b.full with
  | false => rfl
  | true => rw [Pages.all_full hb, hb] at h; cases h

/-- The output is full only if there are more than 5000 lines. -/
theorem Pages.full_long {lib : Bool} (es : List (Bool × Option AsmLine)) : ∀ {b : Pages}, (b.full = true → 5000 < b.lines.length) →
    (b.all lib es).full = true → 5000 < (b.all lib es).lines.length := by
  induction es with
  | nil => intro b h; exact h
  | cons e es ih =>
    intro b h
    refine ih (b := b.next lib e.1 e.2) ?_
    cases hb : b.full with
    | true => rw [Pages.next_full hb]; exact h
    | false =>
      intro h1
      simp only [Pages.next, hb, Bool.false_eq_true, ↓reduceIte] at h1 ⊢
      have hc : (if e.1 = true then b.close lib else b).full = false := by
        split
        · rw [Pages.close_full, hb]
        · exact hb
      generalize (if e.1 = true then b.close lib else b) = b0 at h1 hc ⊢
      cases he : e.2 with
      | none => simp only [he, hc] at h1; cases h1
      | some l =>
        simp only [he, Pages.add] at h1 ⊢
        split at h1
        · simp only [hc] at h1; cases h1
        · rename_i hlt
          rw [if_neg hlt]
          simp only [Pages.lines, List.length_append, List.length_cons, List.length_nil] at hlt ⊢
          omega

/-- Two runs over the same lines, the second with more filters: functions begin at the same places, and the second one shows what
the first one shows (up to `φ`), except in the functions it leaves out (`q`: the current one is left out). -/
inductive FewerShown {α : Type} (φ : AsmLine → α) : (q : Bool) → (es es' : List (Bool × Option AsmLine)) → Prop
  | done {q} : FewerShown φ q [] []
  | same {o o' es es'} : o.map φ = o'.map φ → FewerShown φ false es es' → FewerShown φ false ((false, o) :: es) ((false, o') :: es')
  | hidden {o es es'} : FewerShown φ true es es' → FewerShown φ true ((false, o) :: es) ((false, none) :: es')
  | begins {q o o' es es'} : o.map φ = o'.map φ → FewerShown φ false es es' → FewerShown φ q ((true, o) :: es) ((true, o') :: es')
  | leaves {q o es es'} : FewerShown φ true es es' → FewerShown φ q ((true, o) :: es) ((true, none) :: es')

/-- The outputs of the two runs. -/
structure FewerPages {α : Type} (φ : AsmLine → α) (q : Bool) (b b' : Pages) : Prop where
  done : (b'.done.map φ).Sublist (b.done.map φ)
  cur : q = false → b'.cur.map φ = b.cur.map φ
  away : q = true → b'.cur = []
  room : b'.full = false

variable {α : Type} {φ : AsmLine → α}

theorem FewerPages.sublist {q : Bool} {b b' : Pages} (h : FewerPages φ q b b') : (b'.lines.map φ).Sublist (b.lines.map φ) := by
  simp only [Pages.lines, List.map_append]
  cases q with
  | false => rw [h.cur rfl]; exact h.done.append_right _
  | true => rw [h.away rfl, List.map_nil, List.append_nil]; exact h.done.trans (List.sublist_append_left _ _)

theorem map_startsFunction (hφ : ∀ a b, φ a = φ b → a.isLabel = b.isLabel ∧ a.source.isUsercode = b.source.isUsercode) :
    ∀ {xs ys : List AsmLine}, xs.map φ = ys.map φ → startsFunction xs = startsFunction ys ∧ hasUserLine xs = hasUserLine ys
  | [], [], _ => ⟨rfl, rfl⟩
  | [], _ :: _, h => by simp at h
  | _ :: _, [], h => by simp at h
  | x :: xs, y :: ys, h => by
    simp only [List.map_cons, List.cons.injEq] at h
    obtain ⟨h1, h2⟩ := hφ _ _ h.1
    have := (map_startsFunction hφ h.2).2
    refine ⟨by simp [startsFunction, h1], ?_⟩
    simp only [hasUserLine, List.any_cons] at this ⊢
    rw [h2, this]

theorem FewerPages.close (hφ : ∀ a b, φ a = φ b → a.isLabel = b.isLabel ∧ a.source.isUsercode = b.source.isUsercode)
    {lib lib' : Bool} (hlib : lib = true → lib' = true) {q r : Bool} {b b' : Pages} (h : FewerPages φ q b b') :
    FewerPages φ r (b.close lib) (b'.close lib') := by
  have hc : (b.close lib).cur = [] := by unfold Pages.close; split <;> rfl
  have hc' : (b'.close lib').cur = [] := by unfold Pages.close; split <;> rfl
  refine ⟨?_, fun _ => by rw [hc, hc'], fun _ => hc', by rw [Pages.close_full, h.room]⟩
  have key : ((b'.close lib').done.map φ).Sublist ((b'.lines).map φ) := by
    unfold Pages.close Pages.lines
    split
    · rw [List.map_append]; exact List.sublist_append_left _ _
    · exact List.Sublist.refl _
  by_cases hcond : (lib && startsFunction b.cur && !hasUserLine b.cur) = true
  · rw [show (b.close lib).done = b.done by unfold Pages.close; rw [if_pos hcond]]
    simp only [Bool.and_eq_true, Bool.not_eq_true'] at hcond
    obtain ⟨⟨h1, h2⟩, h3⟩ := hcond
    cases q with
    | true =>
      refine List.Sublist.trans ?_ h.done
      have := key
      rwa [Pages.lines, h.away rfl, List.append_nil] at this
    | false =>
      obtain ⟨e1, e2⟩ := map_startsFunction hφ (h.cur rfl)
      unfold Pages.close
      rw [if_pos (by simp [hlib h1, e1, e2, h2, h3])]
      exact h.done
  · rw [show (b.close lib).done = b.lines by unfold Pages.close; rw [if_neg hcond]; rfl]
    exact key.trans h.sublist

theorem FewerPages.add {b b' : Pages} (h : FewerPages φ false b b') {a a' : AsmLine} (ha : φ a' = φ a) (hb : (b.add a).full = false) :
    FewerPages φ false (b.add a) (b'.add a') := by
  have hlt : b.lines.length < 5000 := by
    unfold Pages.add at hb
    split at hb
    · assumption
    · cases hb
  have hlt' : b'.lines.length < 5000 := by
    have := h.sublist.length_le
    simp only [List.length_map] at this
    omega
  simp only [Pages.add, hlt, hlt', ↓reduceIte]
  exact ⟨h.done, fun _ => by simp [h.cur rfl, ha], fun h => (by cases h), h.room⟩

theorem FewerPages.more {b b' : Pages} (h : FewerPages φ false b b') {o o' : Option AsmLine} (ho : o.map φ = o'.map φ)
    (hb : (match o with | none => b | some l => b.add l).full = false) :
    FewerPages φ false (match o with | none => b | some l => b.add l) (match o' with | none => b' | some l => b'.add l) := by
  cases o with
  | none =>
    cases o' with
    | none => exact h
    | some _ => simp at ho
  | some a =>
    cases o' with
    | none => simp at ho
    | some a' =>
      simp only [Option.map_some, Option.some.injEq] at ho
      exact h.add ho.symm hb

theorem FewerPages.hide {b b' : Pages} (h : FewerPages φ true b b') (o : Option AsmLine) :
    (match o with | none => b | some l => b.add l).full = false → FewerPages φ true (match o with | none => b | some l => b.add l) b' := by
  intro hb
  cases o with
  | none => exact h
  | some a =>
    simp only [Pages.add] at hb ⊢
    split at hb
    · rename_i hlt
      rw [if_pos hlt]
      exact ⟨h.done, fun h => (by cases h), h.away, h.room⟩
    · cases hb

theorem fewer_pages (hφ : ∀ a b, φ a = φ b → a.isLabel = b.isLabel ∧ a.source.isUsercode = b.source.isUsercode)
    {lib lib' : Bool} (hlib : lib = true → lib' = true) {q : Bool} {es es' : List (Bool × Option AsmLine)} (hes : FewerShown φ q es es') :
    ∀ {b b' : Pages}, FewerPages φ q b b' → (b.all lib es).full = false → ∃ r, FewerPages φ r (b.all lib es) (b'.all lib' es') := by
  induction hes with
  | done => exact fun h _ => ⟨_, h⟩
  | same ho _ ih =>
    intro b b' h hf
    have hb := Pages.not_full_start hf
    have hn := Pages.not_full_start (b := b.next lib false _) hf
    refine ih (b := b.next lib false _) (b' := b'.next lib' false _) ?_ hf
    simp only [Pages.next, hb, h.room, Bool.false_eq_true, ↓reduceIte] at hn ⊢
    exact h.more ho hn
  | hidden _ ih =>
    intro b b' h hf
    have hb := Pages.not_full_start hf
    have hn := Pages.not_full_start (b := b.next lib false _) hf
    refine ih (b := b.next lib false _) (b' := b'.next lib' false _) ?_ hf
    simp only [Pages.next, hb, h.room, Bool.false_eq_true, ↓reduceIte] at hn ⊢
    exact h.hide _ hn
  | begins ho _ ih =>
    intro b b' h hf
    have hb := Pages.not_full_start hf
    have hn := Pages.not_full_start (b := b.next lib true _) hf
    refine ih (b := b.next lib true _) (b' := b'.next lib' true _) ?_ hf
    simp only [Pages.next, hb, h.room, Bool.false_eq_true, ↓reduceIte] at hn ⊢
    exact (h.close hφ hlib).more ho hn
  | leaves _ ih =>
    intro b b' h hf
    have hb := Pages.not_full_start hf
    have hn := Pages.not_full_start (b := b.next lib true _) hf
    refine ih (b := b.next lib true _) (b' := b'.next lib' true _) ?_ hf
    simp only [Pages.next, hb, h.room, Bool.false_eq_true, ↓reduceIte] at hn ⊢
    exact (h.close hφ hlib).hide _ hn

/-! ### The same names left out -/

theorem fewerShown_refl (es : List (Bool × Option AsmLine)) : FewerShown φ false es es := by
  induction es with
  | nil => exact .done
  | cons e es ih =>
    obtain ⟨x, o⟩ := e
    cases x with
    | false => exact .same rfl ih
    | true => exact .begins rfl ih

/-! ### More names left out -/

/-- What the text output shows of a line, and what decides about its function. -/
def lineView (l : AsmLine) : Str × Bool × Bool := (l.text, l.isLabel, l.source.isUsercode)

/-- The states of the two runs. -/
structure FewerCarry (q : Bool) (c c' : Carry) : Prop where
  user : c'.source.isUsercode = c.source.isUsercode
  ign : q = false → c'.ign = c.ign
  hide : q = true → c'.ign = true

variable {R : Reading} {drop drop' : Str → Bool}

theorem FewerCarry.shown {c c' : Carry} (h : FewerCarry false c c') (k : LineKind) (hk : k.begins = false) :
    (c.shown R drop k).map lineView = (c'.shown R drop' k).map lineView := by
  have hi := h.ign rfl
  cases k with
  | remark => rfl
  | «section» n => rfl
  | source a b e => rfl
  | noSection t =>
    simp only [Carry.shown, hi]
    split
    · rfl
    · simp [lineView, h.user]
  | header a title =>
    have ht : title = [] := by simpa [LineKind.begins] using hk
    simp [Carry.shown, ht]
  | code a bytes front rest =>
    simp only [Carry.shown, hi]
    split
    · rfl
    · simp [lineView, h.user]

theorem FewerCarry.next {q : Bool} {c c' : Carry} (h : FewerCarry q c c') {k k' : LineKind} (hk : k.begins = false) (hk' : k'.begins = false)
    (hs : k' = k ∨ k = .remark ∧ ∀ a b e, k' ≠ .source a b e) : FewerCarry q (c.next R drop k) (c'.next R drop' k') := by
  have plain : ∀ {d : Carry} {drop : Str → Bool} {k : LineKind}, k.begins = false → (∀ a b e, k ≠ .source a b e) →
      (d.next R drop k).source.isUsercode = d.source.isUsercode := by
    intro d drop k hk hs
    cases k with
    | header a title =>
      have ht : title = [] := by simpa [LineKind.begins] using hk
      simp only [Carry.next, ht, ↓reduceIte]
    | source a b e => exact absurd rfl (hs a b e)
    | _ => rfl
  refine ⟨?_, fun hq => ?_, fun hq => ?_⟩
  · rcases hs with rfl | ⟨rfl, hs⟩
    · cases k' with
      | source a b e => rfl
      | _ =>
        rw [plain hk (by intros; simp), plain hk (by intros; simp)]
        exact h.user
    · rw [plain hk' hs]
      exact h.user
  · rw [next_ign_plain hk, next_ign_plain hk', h.ign hq]
  · rw [next_ign_plain hk', h.hide hq]

/-- The kind of a line in a function that is left out. -/
theorem lineKind_ign (l : Str) : lineKind true l = lineKind false l ∨ lineKind false l = .remark ∧ ∀ a b e, lineKind true l ≠ .source a b e := by
  simp only [lineKind, Bool.true_or, Bool.false_or]
  cases afterWord l with
  | nil => exact .inl rfl
  | cons d r =>
    dsimp only
    by_cases h1 : d = c! '/'
    · simp [h1]
    by_cases h2 : d = c! ':'
    · simp only [h2, ↓reduceIte, reduceIte]
      by_cases h3 : leadWord l = []
      · simp [h3]
      · cases h4 : (leadWord l).all isHex with
        | true => simp
        | false => simp [h3]
    · by_cases h3 : leadWord l = b! "Disassembly"
      · simp [h1, h2, h3]
      · cases h4 : (leadWord l).all isHex with
        | true => simp
        | false => simp [h1, h2, h3]

theorem fewerShown_drop (hd : ∀ n, drop n = true → drop' n = true) (ls : List Str)
    (hh : ∀ l ∈ ls, (lineKind true (l.filter (· != 13))).begins = true → (lineKind false (l.filter (· != 13))).begins = true) :
    ∀ {q : Bool} {c c' : Carry}, FewerCarry q c c' → FewerShown lineView q (happenings R drop c ls) (happenings R drop' c' ls) := by
  induction ls with
  | nil => intro q c c' _; exact .done
  | cons l ls ih =>
    have ih : ∀ {q : Bool} {c c' : Carry}, FewerCarry q c c' → FewerShown lineView q (happenings R drop c ls) (happenings R drop' c' ls) :=
      ih fun l hl => hh l (by simp [hl])
    have hh := hh l (by simp)
    intro q c c' h
    rw [happenings, happenings]
    -- the two kinds
    have hk : lineKind c'.ign (l.filter (· != 13)) = lineKind c.ign (l.filter (· != 13)) ∨
        q = true ∧ lineKind c.ign (l.filter (· != 13)) = .remark ∧ (lineKind c'.ign (l.filter (· != 13))).begins = false ∧
          ∀ a b e, lineKind c'.ign (l.filter (· != 13)) ≠ .source a b e := by
      cases q with
      | false => rw [h.ign rfl]; exact .inl rfl
      | true =>
        cases hi : c.ign with
        | true => rw [h.hide rfl]; exact .inl rfl
        | false =>
          rw [h.hide rfl]
          rcases lineKind_ign (l.filter (· != 13)) with e | ⟨e1, e2⟩
          · exact .inl e
          · refine .inr ⟨rfl, e1, ?_, e2⟩
            rw [e1] at hh
            cases hb : (lineKind true (l.filter (· != 13))).begins with
            | false => rfl
            | true => exact absurd (hh hb) (by simp [LineKind.begins])
    generalize lineKind c'.ign (l.filter (· != 13)) = k' at hk ⊢
    generalize lineKind c.ign (l.filter (· != 13)) = k at hk ⊢
    clear hh
    rcases hk with rfl | ⟨rfl, rfl, hb, hs⟩
    · cases hb : k'.begins with
      | false =>
        have hn := h.next (R := R) (drop := drop) (drop' := drop') hb hb (.inl rfl)
        cases q with
        | false => exact .same (h.shown _ hb) (ih hn)
        | true =>
          rw [shown_ign (c := c') hb (h.hide rfl)]
          exact .hidden (ih hn)
      | true =>
        cases k' with
        | header a title =>
          have ht : title ≠ [] := by simpa [LineKind.begins] using hb
          cases h2 : drop' (titleName title) with
          | true =>
            rw [show c'.shown R drop' (.header a title) = none by simp [Carry.shown, h2]]
            refine .leaves (ih ⟨?_, fun h => (by cases h), fun _ => ?_⟩)
            · simp only [Carry.next, ht, ↓reduceIte]; exact h.user
            · simp only [Carry.next, ht, ↓reduceIte, h2]
          | false =>
            have h1 : drop (titleName title) = false := by
              cases h1 : drop (titleName title) with
              | false => rfl
              | true => rw [hd _ h1] at h2; cases h2
            refine .begins ?_ (ih ⟨?_, fun _ => ?_, fun h => (by cases h)⟩)
            · simp [Carry.shown, ht, h1, h2, lineView, h.user]
            · simp only [Carry.next, ht, ↓reduceIte]; exact h.user
            · simp only [Carry.next, ht, ↓reduceIte, h1, h2]
        | _ => simp [LineKind.begins] at hb
    · have hn := h.next (R := R) (drop := drop) (drop' := drop') (k := .remark) rfl hb (.inr ⟨rfl, hs⟩)
      rw [hb, shown_ign (c := c') hb (h.hide rfl)]
      exact .hidden (ih hn)

end AsmParser

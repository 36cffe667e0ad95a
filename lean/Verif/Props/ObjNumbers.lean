/-
Properties C06 and C16 of binary mode: addresses and the absence of undefined behaviour.
-/
import Verif.Proofs.ObjUb
import Verif.Spec.Samples

namespace AsmParser

/-! ### C06 -/

/-- C06 (partial): a line `ADDRESS:...` behind complete lines adds at most one line (apart from the truncation
marker), and this line has the address' value.  Missing: addresses from 2^31 on, see the next theorems. -/
theorem C06_address_exact_partial (L : Locale) (f : Filter) (s ws a rest : Str)
    (hs : s = [] ∨ s.getLast? = some 10) (hws : ∀ c ∈ ws, isWhitespace c = true)
    (ha : ∀ c ∈ a, isHex c = true) (hne : a ≠ []) (hr : (10 : Byte) ∉ rest) (hv : hexVal a < 2 ^ 31) :
    let p := objParse L f s
    let q := objParse L f (s ++ ws ++ a ++ b! ":" ++ rest ++ [10])
    q.st.ub = p.st.ub ∧ (q.lines = p.lines ∨ q.lines = p.lines ++ [markerLine] ∨
      ∃ l, q.lines = p.lines ++ [l] ∧ l.address = some (hexVal a : Int)) := by
  intro p q
  have hq : q = (ws ++ a ++ b! ":" ++ rest ++ [10]).foldl (OParser.feed L) p := by
    rw [← objParse_append]
    have : s ++ (ws ++ a ++ b! ":" ++ rest ++ [10]) = s ++ ws ++ a ++ b! ":" ++ rest ++ [10] := by simp
    rw [this]
  by_cases hst : p.st.stopParsing = true
  · rw [hq, foldl_stop hst]; exact ⟨rfl, .inl rfl⟩
  have h := feed_instr (L := L) (Bool.eq_false_of_ne hst) (Boundary.parse L f s hs) hws ha hne hr
  have hv' : hexVal a < 2147483648 := hv
  have hl := addrLoop_hex ha (by omega)
  simp only at h
  rw [← hq] at h
  refine ⟨?_, ?_⟩
  · rw [h.1]; simp [addrDone, OState.withText, hl.2]
  · rcases h.2 with h | h | ⟨l, h1, h2, h3, -⟩
    · exact .inl h
    · exact .inr (.inl h)
    · refine .inr (.inr ⟨l, h1, ?_⟩)
      rw [h3]
      have : (p.st.withText a).ignoreUntilNextLabel = false := h2
      simp only [addrDone, this, Bool.false_eq_true, ↓reduceIte]
      rw [show (p.st.withText a).text = a from rfl, hl.1, wrap32_small (by omega) (by omega)]

/-- Nontrivial instance: the first instruction of the sample listing. -/
example : (objParse Locale.utf8 {} sampleObj).lines[1]?.map (·.address) = some (some 0x1020) ∧
    hexVal b! "1020" = 0x1020 := by decide +kernel

/-- C06, addresses from 2^31 to 2^32 - 1: the reported address is too small by 2^32. -/
theorem C06_address_sign_wrap (L : Locale) (f : Filter) (s ws a rest : Str)
    (hs : s = [] ∨ s.getLast? = some 10) (hws : ∀ c ∈ ws, isWhitespace c = true)
    (ha : ∀ c ∈ a, isHex c = true) (hne : a ≠ []) (hr : (10 : Byte) ∉ rest) (hv : 2 ^ 31 ≤ hexVal a)
    (hv2 : hexVal a < 2 ^ 32) :
    let p := objParse L f s
    let q := objParse L f (s ++ ws ++ a ++ b! ":" ++ rest ++ [10])
    q.st.ub = p.st.ub ∧ (q.lines = p.lines ∨ q.lines = p.lines ++ [markerLine] ∨
      ∃ l, q.lines = p.lines ++ [l] ∧ l.address = some ((hexVal a : Int) - 2 ^ 32)) := by
  intro p q
  have hq : q = (ws ++ a ++ b! ":" ++ rest ++ [10]).foldl (OParser.feed L) p := by
    rw [← objParse_append]
    have : s ++ (ws ++ a ++ b! ":" ++ rest ++ [10]) = s ++ ws ++ a ++ b! ":" ++ rest ++ [10] := by simp
    rw [this]
  by_cases hst : p.st.stopParsing = true
  · rw [hq, foldl_stop hst]; exact ⟨rfl, .inl rfl⟩
  have h := feed_instr (L := L) (Bool.eq_false_of_ne hst) (Boundary.parse L f s hs) hws ha hne hr
  have hv' : hexVal a < 4294967296 := hv2
  have hv'' : 2147483648 ≤ hexVal a := hv
  have hl := addrLoop_hex ha hv'
  simp only at h
  rw [← hq] at h
  refine ⟨?_, ?_⟩
  · rw [h.1]; simp [addrDone, OState.withText, hl.2]
  · rcases h.2 with h | h | ⟨l, h1, h2, h3, -⟩
    · exact .inl h
    · exact .inr (.inl h)
    · refine .inr (.inr ⟨l, h1, ?_⟩)
      rw [h3]
      have : (p.st.withText a).ignoreUntilNextLabel = false := h2
      simp only [addrDone, this, Bool.false_eq_true, ↓reduceIte]
      rw [show (p.st.withText a).text = a from rfl, hl.1, wrap32_big (by omega) (by omega)]
      rfl

/-- C06, addresses from 2^32 on (up to 64 digits): outside an ignored function, and unless the output was already
truncated, the shift is undefined behaviour. -/
theorem C06_address_undefined (L : Locale) (f : Filter) (s ws a rest : Str)
    (hs : s = [] ∨ s.getLast? = some 10) (hws : ∀ c ∈ ws, isWhitespace c = true)
    (ha : ∀ c ∈ a, isHex c = true) (hlen : a.length ≤ 64) (hr : (10 : Byte) ∉ rest) (hv : 2 ^ 32 ≤ hexVal a)
    (hst : (objParse L f s).st.stopParsing = false) (hig : (objParse L f s).st.ignoreUntilNextLabel = false) :
    (objParse L f (s ++ ws ++ a ++ b! ":" ++ rest ++ [10])).st.ub = true := by
  have hne : a ≠ [] := by rintro rfl; simp [hexVal] at hv
  have h := (feed_instr (L := L) hst (Boundary.parse L f s hs) hws ha hne hr).1
  rw [← objParse_append] at h
  have : s ++ (ws ++ a ++ b! ":" ++ rest ++ [10]) = s ++ ws ++ a ++ b! ":" ++ rest ++ [10] := by simp
  rw [this] at h
  rw [h]
  simp [addrDone, OState.withText, hig, addrLoop_hex_ub ha hlen hv]

/-- C06 is violated: 0x80000000 is reported as a negative number, 0x100000000 is undefined behaviour. -/
theorem C06_violation :
    (objParse Locale.utf8 {} b! "80000000:\t90   \tnop\n").lines.map (·.address) = [some (-2147483648)] ∧
    (objParse Locale.utf8 {} b! "100000000:\t90   \tnop\n").st.ub = true := by decide +kernel

/-! ### C16 -/

/-- C16: on complete lines `ls` (and any unterminated rest whose numbers are small too) with small numbers nothing
undefined is executed: no shift out of range, no `atoi` overflow, no erasure past the end. -/
theorem C16_no_undefined_behaviour (L : Locale) (f : Filter) (ls : List Str) (last : Str)
    (h : ∀ w ∈ ls ++ [last], (10 : Byte) ∉ w ∧ SmallNumbers w) :
    (objParse L f (unlines ls ++ last)).st.ub = false := by
  have bd : ∀ ls : List Str, unlines ls = [] ∨ (unlines ls).getLast? = some 10 := by
    intro ls
    cases hls : ls.getLast? with
    | none => left; rw [List.getLast?_eq_none_iff] at hls; rw [hls]; rfl
    | some w =>
      right
      obtain ⟨u, rfl⟩ := List.getLast?_eq_some_iff.1 hls
      simp [unlines, List.flatMap_append]
  have idx : ∀ s T n i, (objParse L f s).labels = T ++ [(n, i)] → i - 1 ≤ (objParse L f s).lines.length := by
    intro s T n i hT
    have hg := Good.parse L f s
    cases hs : (objParse L f s).st.stopParsing
    · have hmem : (n, i) ∈ labelTable 1 (objParse L f s).lines := by rw [← hg.table hs, hT]; simp
      have := labelTable_lt hmem; omega
    · rcases hg.tableS hs with e | ⟨m, e⟩
      · have hmem : (n, i) ∈ labelTable 1 (objParse L f s).lines := by rw [← e, hT]; simp
        have := labelTable_lt hmem; omega
      · rw [hT] at e
        have := List.append_inj' e rfl
        have h2 := this.2
        simp only [List.cons.injEq, Prod.mk.injEq, and_true] at h2
        have := (hg.marker hs).1; omega
  have main : ∀ ls : List Str, (∀ w ∈ ls, (10 : Byte) ∉ w ∧ SmallNumbers w) → (objParse L f (unlines ls)).st.ub = false := by
    intro ls
    induction ls using snoc_induct with
    | nil => intro _; rfl
    | snoc ls w ih =>
      intro h
      have e : unlines (ls ++ [w]) = unlines ls ++ (w ++ [10]) := by simp [unlines, List.flatMap_append]
      rw [e, objParse_append]
      exact line_ub (h w (by simp)).2 (h w (by simp)).1 (Boundary.parse L f _ (bd ls))
        (ih fun w hw => h w (by simp [hw])) (idx _)
  have hm := main ls fun w hw => h w (by simp [hw])
  have hl := h last (by simp)
  rw [objParse_append]
  by_cases hs : (objParse L f (unlines ls)).st.stopParsing = true
  · rw [foldl_stop hs]; exact hm
  · rw [feed_read hl.1 _ (Bool.eq_false_of_ne hs)]
    exact (read_ub hl.2 (Boundary.parse L f _ (bd ls)) hm last (List.prefix_refl _)).ub

/-- Real lines meet the hypothesis: a header with a 16-digit address, a source reference, an instruction. -/
example : SmallNumbers b! "0000000000001020 <main>:" ∧ SmallNumbers b! "/app/example.cpp:3 (discriminator 2)" ∧
    SmallNumbers b! "    1020:\t48 b8 99 99 99 99 99 \tmovabs $0x9999999999999999,%rax" := by
  -- suffixes and infixes by position, so that the three lines can be checked by evaluation
  have key : ∀ w : Str, (∀ n : Fin ((firstWord w).length + 1), ((firstWord w).drop n).all isHex = true →
        hexVal ((firstWord w).drop n) < 4294967296) →
      (wordEnd w = some c! '/' → ∀ i j : Fin ((w.filter (· != 13)).length + 1),
        (((w.filter (· != 13)).drop i).take j).all isDigit = true →
        decVal (((w.filter (· != 13)).drop i).take j) < 2147483648) → SmallNumbers w := by
    intro w h1 h2
    refine ⟨?_, ?_⟩
    · rintro h ⟨u, hu⟩ hx
      have := h1 ⟨u.length, by rw [← hu]; simp; omega⟩
      dsimp only at this
      rw [← hu] at this
      simpa using this (by simpa using hx)
    · rintro he d ⟨u, v, hd⟩ hx
      have hl := congrArg List.length hd
      simp only [List.length_append] at hl
      have := h2 he ⟨u.length, by omega⟩ ⟨d.length, by omega⟩
      dsimp only at this
      rw [← hd] at this
      simpa using this (by simpa using hx)
  exact ⟨key _ (by decide +kernel) (by decide +kernel), key _ (by decide +kernel) (by decide +kernel),
    key _ (by decide +kernel) (by decide +kernel)⟩

/-- Both kinds of overflow happen otherwise. -/
theorem C16_violation :
    (objParse Locale.utf8 {} b! "100000000:\t90   \tnop\n").st.ub = true ∧
    (objParse Locale.utf8 {} b! "/a.c:2147483648\n").st.ub = true := by decide +kernel

end AsmParser

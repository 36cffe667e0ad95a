/-
Properties C41 and C92: which circles of references keep text mode from ending.
-/
import Verif.Proofs.Circles
import Verif.Props.Chains
import Verif.Props.Usage
import Verif.Props.Cost

namespace AsmParser

attribute [local irreducible] Re.search Re.fullMatch

variable [Recognizers]

theorem gref_refersTo (L : Locale) (f : Filter) (s : Str) (k : Bool) (a b : Str) :
    GRef (references L f s) k a b ↔ RefersTo (seen f s) k a b := by
  cases k with
  | true => exact C65_code L f s a b
  | false => exact C65_data L f s a b

theorem CountedChain.refChain {L : Locale} {f : Filter} {s : Str} {a x : Str} {c d : Nat} (h : CountedChain (references L f s) a c d x) :
    RefChain (seen f s) a c d x := by
  have hx : ∀ a, a ∉ (references L f s).usercode → ¬ Exported (seen f s) a := fun a ha he => ha ((C65_exported L f s a).2 he)
  induction h with
  | refl => exact .refl
  | code h1 h2 _ ih => exact .code (hx _ h1) ((gref_refersTo L f s true _ _).1 h2) ih
  | data h1 h2 _ ih => exact .data (hx _ h1) ((gref_refersTo L f s false _ _).1 h2) ih

/-- C41 (partial): text mode terminates, whatever the iteration order and the labels left over from earlier, if no circle of references
has as many references from code as from data.  (In particular circles of references from data only, as in a circular list of static
objects, do no harm.) -/
theorem C41_balanced_partial (L : Locale) (f : Filter) (s : Str) (o : Order) (v : List Str)
    (h : ∀ a n, ¬ RefChain (seen f s) a (n + 1) (n + 1) a) : ∃ n r, (TParser.init f).fromStream L o n s v = some r := by
  obtain ⟨n, hn⟩ := fromStream_balanced L f s o v fun a n hc => h a n hc.refChain
  exact ⟨n, hn n (Nat.le_refl _)⟩

/-- C41 is violated by all inputs with a circle of references between different labels, with as many references from code as from
data, if none of these labels is in use: text mode does not end, whatever the filters and the iteration order, unless one of these
labels is left over from an earlier input. -/
theorem C41_diverges (L : Locale) (f : Filter) (s : Str) (o : Order) (v : List Str) (n : Nat) (c : List (Str × Bool))
    (hc : BalancedCircle (RefersTo (seen f s)) c) (hu : ∀ e ∈ c, ¬ InUse (seen f s) e.1) (hv : ∀ e ∈ c, e.1 ∉ v) :
    (TParser.init f).fromStream L o n s v = none := by
  have hR : GRef (references L f s) = RefersTo (seen f s) :=
    funext fun k => funext fun a => funext fun b => propext (gref_refersTo L f s k a b)
  rw [← hR] at hc
  refine fromStream_circle L f s o v hc (fun e he h => hu e he ((C65_reachable L f s _).1 h)) hv (fun a b h hb => ?_) n
  obtain ⟨m, hm⟩ := (C65_defined L f s b).2 (((C65_code L f s a b).1 h).2.defined.resolve_left hb)
  exact List.mem_map.2 ⟨_, hm, rfl⟩

/-- C92 (partial): if no circle of references has as many references from code as from data, the calls are nested at most (N + 2)² deep
for N labels.  Missing: such circles, for which parsing may not terminate (C41_diverges). -/
theorem C92_balanced_partial (L : Locale) (f : Filter) (s : Str) (h : ∀ a n, ¬ RefChain (seen f s) a (n + 1) (n + 1) a)
    (labels : List Str) (hl : ∀ a, Defined (seen f s) a → a ∈ labels) : Depth L f s ((labels.length + 2) ^ 2) := by
  intro o v
  have hn : ∀ a b, CodeRef (references L f s) a b ∨ DataRef (references L f s) a b → b ∈ [] :: labels := by
    intro a b hr
    have : b = [] ∨ Defined (seen f s) b := by
      rcases hr with hr | hr
      · exact ((C65_code L f s a b).1 hr).2.defined
      · exact ((C65_data L f s a b).1 hr).defined
    rcases this with rfl | h
    · exact List.mem_cons_self
    · exact List.mem_cons_of_mem _ (hl b h)
  have ht : ∀ a ∈ [] :: labels, ∀ v, isUsed (references L f s) o ((labels.length + 2) ^ 2) a 1 v ≠ none := by
    intro a ha v
    refine isUsed_ends_balanced (fun a n hc => h a n hc.refChain) hn ha ?_
    have := placesAhead_le (references L f s) ([] :: labels) ([] :: labels : List Str).length a 1
    rw [List.length_cons] at this ⊢
    rw [Nat.pow_two]
    have e : (labels.length + 2) * (labels.length + 2) = (labels.length + 1 + 1) * (labels.length + 1) + (labels.length + 2) := by
      rw [← Nat.mul_succ]
    omega
  obtain ⟨_, -, hinv⟩ := textInv L f s
  have := markLoop_total (nodes := [] :: labels) (references L f s)
    (fun e he => List.mem_cons_of_mem _ (hl _ ((C65_same_address L f s e.1 e.2).1 he).defined)) ht
    (o.run .labels (((TParser.init f).readStream L s).filterNonLabels.labelsDefined.map (·.1))) ((TParser.init f).readStream L s).filterNonLabels rfl
    (fun l hm => by
      have hm' : l ∈ ((TParser.init f).readStream L s).lines := hm
      rcases hinv.lines l hm' with e | e
      · have : l.label = [] := (congrArg TLine.label e :)
        rw [this]
        exact List.mem_cons_self
      · rcases e.label with ⟨h1, -⟩ | ⟨-, h1, -⟩
        · obtain ⟨k, hk⟩ := Option.isSome_iff_exists.1 (hinv.table.complete l hm' h1)
          exact List.mem_cons_of_mem _ (hl _ ((keys_defined L f s _).1 (List.mem_map.2 ⟨_, mem_of_lookup hk, rfl⟩)))
        · rw [h1]
          exact List.mem_cons_self) v
  unfold TParser.fromStream TParser.markLabelUsage
  cases hm : ((TParser.init f).readStream L s).filterNonLabels.markLoop o ((labels.length + 2) ^ 2)
      (o.run .labels (((TParser.init f).readStream L s).filterNonLabels.labelsDefined.map (·.1))) v with
  | none => exact absurd hm this
  | some x => exact ⟨_, rfl⟩

/-- A circular list of two static objects. -/
def sampleRing : Str := b! "A:\n  .quad B\nB:\n  .quad A\n"

omit [Recognizers] in
theorem sampleRing_refs : references Locale.utf8 {} sampleRing = { dataUsed := [(b! "B", [b! "A"]), (b! "A", [b! "B"])] } := by
  decide +kernel

/-- Text mode terminates on it: no circle has a reference from code.  But the references from data are part of a circle. -/
example : (∀ a n, ¬ RefChain (seen {} sampleRing) a (n + 1) (n + 1) a) ∧
    DataUse (seen {} sampleRing) b! "A" b! "B" ∧ DataUse (seen {} sampleRing) b! "B" b! "A" := by
  refine ⟨fun a n h => ?_, (C65_data Locale.utf8 {} _ _ _).1 (.inl ⟨[b! "B"], by rw [sampleRing_refs]; decide, by decide⟩),
    (C65_data Locale.utf8 {} _ _ _).1 (.inl ⟨[b! "A"], by rw [sampleRing_refs]; decide, by decide⟩)⟩
  have : ∀ {a c d x}, RefChain (seen {} sampleRing) a c d x → c = 0 := by
    intro a c d x h
    induction h with
    | refl => rfl
    | code _ h1 _ _ =>
      obtain ⟨rs, h1, -⟩ := (C65_code Locale.utf8 {} _ _ _).2 h1
      rw [sampleRing_refs] at h1
      cases h1
    | data _ _ _ ih => exact ih
  exact absurd (this h) (by omega)

/-- The circle of `sampleCycle`: code in `A` refers to `B`, data below `B` refers to `A`. -/
example : BalancedCircle (RefersTo (seen {} sampleCycle)) [(b! "A", false), (b! "B", true)] ∧
    ∀ e ∈ [(b! "A", false), (b! "B", true)], ¬ InUse (seen {} sampleCycle) e.1 := by
  refine ⟨⟨⟨(gref_refersTo Locale.utf8 {} _ _ _ _).1 ?_, (gref_refersTo Locale.utf8 {} _ _ _ _).1 ?_, trivial⟩, by simp, by decide, by decide⟩, ?_⟩
  · exact .inl ⟨[b! "B"], by rw [sampleCycle_refs]; decide, by decide⟩
  · exact ⟨[b! "A"], by rw [sampleCycle_refs]; decide, by decide⟩
  · intro e _ h
    have key : ∀ a, Reachable (references Locale.utf8 {} sampleCycle) a → False := by
      intro a h
      rw [sampleCycle_refs] at h
      induction h with
      | visible h => cases h
      | @outside a h =>
        obtain ⟨rs, h1, h2⟩ := h
        simp only [List.mem_singleton, Prod.mk.injEq] at h1
        rw [h1.2] at h2
        exact absurd h2 (by decide)
      | code _ _ ih => exact ih
      | data _ _ ih => exact ih
    exact key _ ((C65_reachable Locale.utf8 {} _ _).2 h)

end AsmParser

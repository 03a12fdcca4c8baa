import Verif.SymbolSetLemmas
/-
Properties C01-C04: symbol sets are sets of symbols.

The specification is `SetExpr.denote`: the set-theoretic meaning of a history of operations, written
without reference to stored ranges. `SetExpr.eval` runs the modelled code on the same history.
-/
namespace TameParse.SymSet

/-- A history of operations building one symbol set (any operation may be applied to any results). -/
inductive SetExpr where
  | empty
  | ofRange (r : Range)                    -- symbol_set(const symbol_range&)
  | addRange (e : SetExpr) (r : Range)     -- operator|=(range)
  | union (e f : SetExpr)                  -- operator|=(set)
  | dropRange (e : SetExpr) (r : Range)    -- exclude(range)
  | diff (e f : SetExpr)                   -- exclude(set)
  | compl (e : SetExpr)                    -- operator~
  | inter (e f : SetExpr)                  -- operator&=(set)
  | interRange (e : SetExpr) (r : Range)   -- operator&=(range)

namespace SetExpr

/-- Runs the modelled code. -/
def eval : SetExpr → SymSet
  | empty => []
  | ofRange r => insert [] r
  | addRange e r => unionRange e.eval r
  | union e f => SymSet.union e.eval f.eval
  | dropRange e r => excludeRange e.eval r
  | diff e f => exclude e.eval f.eval
  | compl e => invert e.eval
  | inter e f => SymSet.inter e.eval f.eval
  | interRange e r => SymSet.interRange e.eval r

/-- Set-theoretic meaning. The complement is relative to the ordinary symbols. -/
def denote : SetExpr → Int → Prop
  | empty, _ => False
  | ofRange r, x => r.lo ≤ x ∧ x < r.hi
  | addRange e r, x => e.denote x ∨ (r.lo ≤ x ∧ x < r.hi)
  | union e f, x => e.denote x ∨ f.denote x
  | dropRange e r, x => e.denote x ∧ ¬ (r.lo ≤ x ∧ x < r.hi)
  | diff e f, x => e.denote x ∧ ¬ f.denote x
  | compl e, x => (0 ≤ x ∧ x < maxSymbol) ∧ ¬ e.denote x
  | inter e f, x => e.denote x ∧ f.denote x
  | interRange e r, x => e.denote x ∧ (r.lo ≤ x ∧ x < r.hi)

/-- Preconditions: ranges are non-empty, and complement and intersection are used on ordinary symbols. -/
def Ok : SetExpr → Prop
  | empty => True
  | ofRange r => r.lo < r.hi
  | addRange e r => e.Ok ∧ r.lo < r.hi
  | union e f => e.Ok ∧ f.Ok
  | dropRange e r => e.Ok ∧ r.lo < r.hi
  | diff e f => e.Ok ∧ f.Ok
  | compl e => e.Ok ∧ ∀ x, e.denote x → 0 ≤ x ∧ x < maxSymbol
  | inter e f => e.Ok ∧ f.Ok ∧ (∀ x, e.denote x → 0 ≤ x ∧ x < maxSymbol) ∧
      ∀ x, f.denote x → 0 ≤ x ∧ x < maxSymbol
  | interRange e r => e.Ok ∧ (∀ x, e.denote x → 0 ≤ x ∧ x < maxSymbol) ∧
      r.lo < r.hi ∧ 0 ≤ r.lo ∧ r.hi ≤ maxSymbol

end SetExpr

/-- C01, C02, C03: whatever history of operations built a set, its stored form is canonical and
it contains exactly the symbols the history denotes. -/
theorem symbol_set_history_correct (e : SetExpr) (h : e.Ok) :
    Canon e.eval ∧ ∀ x, Mem x e.eval ↔ e.denote x := by
  induction e with
  | empty => exact ⟨canon_nil, fun x => by simp [SetExpr.eval, SetExpr.denote, mem_nil]⟩
  | ofRange r =>
    exact ⟨canon_single h, fun x => by simp [SetExpr.eval, SetExpr.denote, insert, mem_cons, mem_nil, Range.Mem]⟩
  | addRange e r ih =>
    have ⟨h1, h2⟩ := ih h.1
    have ⟨h3, h4⟩ := unionRange_spec e.eval r h1 h.2
    exact ⟨h3, fun x => by simp only [SetExpr.eval, SetExpr.denote, h4, h2, Range.Mem]⟩
  | union e f ih1 ih2 =>
    have ⟨h1, h2⟩ := ih1 h.1
    have ⟨h3, h4⟩ := ih2 h.2
    have ⟨h5, h6⟩ := union_spec e.eval f.eval h1 h3.2
    exact ⟨h5, fun x => by simp only [SetExpr.eval, SetExpr.denote, h6, h2, h4]⟩
  | dropRange e r ih =>
    have ⟨h1, h2⟩ := ih h.1
    have ⟨h3, h4⟩ := excludeRange_spec e.eval r h1 h.2
    exact ⟨h3, fun x => by simp only [SetExpr.eval, SetExpr.denote, h4, h2, Range.Mem]⟩
  | diff e f ih1 ih2 =>
    have ⟨h1, h2⟩ := ih1 h.1
    have ⟨h3, h4⟩ := ih2 h.2
    have ⟨h5, h6⟩ := exclude_spec e.eval f.eval h1 h3.2
    exact ⟨h5, fun x => by simp only [SetExpr.eval, SetExpr.denote, h6, h2, h4]⟩
  | compl e ih =>
    have ⟨h1, h2⟩ := ih h.1
    have ⟨h3, h4⟩ := invert_spec e.eval h1 (fun x hx => h.2 x ((h2 x).1 hx))
    exact ⟨h3, fun x => by simp only [SetExpr.eval, SetExpr.denote, h4, h2, and_assoc]⟩
  | inter e f ih1 ih2 =>
    have ⟨h1, h2⟩ := ih1 h.1
    have ⟨h3, h4⟩ := ih2 h.2.1
    have ⟨h5, h6⟩ := invert_spec f.eval h3 (fun x hx => h.2.2.2 x ((h4 x).1 hx))
    have ⟨h7, h8⟩ := exclude_spec e.eval _ h1 h5.2
    refine ⟨h7, fun x => ?_⟩
    simp only [SetExpr.eval, SetExpr.denote, SymSet.inter]
    rw [h8, h6, h2, h4]
    constructor
    · rintro ⟨ha, hb⟩
      have := h.2.2.1 x ha
      refine ⟨ha, ?_⟩
      by_cases hf : f.denote x
      · exact hf
      · exact absurd ⟨this.1, this.2, hf⟩ hb
    · rintro ⟨ha, hb⟩
      exact ⟨ha, fun hc => hc.2.2 hb⟩
  | interRange e r ih =>
    have ⟨h1, h2⟩ := ih h.1
    obtain ⟨_, ho, hr, hr0, hrm⟩ := h
    have ⟨h5, h6⟩ := invert_spec [r] (canon_single hr) (by
      rintro x ⟨r', hr', hx⟩
      simp at hr'; subst hr'; simp only [Range.Mem] at hx; omega)
    have ⟨h7, h8⟩ := exclude_spec e.eval _ h1 h5.2
    refine ⟨h7, fun x => ?_⟩
    simp only [SetExpr.eval, SetExpr.denote, SymSet.interRange]
    rw [h8, h6, h2]
    simp only [mem_cons, mem_nil, or_false, Range.Mem]
    constructor
    · rintro ⟨ha, hb⟩
      have := ho x ha
      refine ⟨ha, ?_⟩
      omega
    · rintro ⟨ha, hb⟩
      exact ⟨ha, fun hc => hc.2.2 hb⟩

/-- The hypothesis is met by a history that merges, splits, complements and intersects. -/
example : (SetExpr.inter (.compl (.addRange (.addRange (.ofRange ⟨10, 20⟩) ⟨30, 40⟩) ⟨20, 30⟩))
    (.dropRange (.ofRange ⟨0, 50⟩) ⟨5, 8⟩)).Ok := by
  simp only [SetExpr.Ok, SetExpr.denote, maxSymbol]
  refine ⟨⟨⟨⟨by omega, by omega⟩, by omega⟩, fun x => by omega⟩, ⟨by omega, by omega⟩, fun x => by omega, fun x => by omega⟩

example : (SetExpr.inter (.compl (.addRange (.addRange (.ofRange ⟨10, 20⟩) ⟨30, 40⟩) ⟨20, 30⟩))
    (.dropRange (.ofRange ⟨0, 50⟩) ⟨5, 8⟩)).eval = [⟨0, 5⟩, ⟨8, 10⟩, ⟨40, 50⟩] := by decide

/-- C01: adding a range or a set is union, for any set that satisfies the invariant. -/
theorem symbol_set_union_is_union (s t : SymSet) (r : Range) (hs : Canon s) (ht : Canon t) (hr : r.lo < r.hi) :
    (Canon (unionRange s r) ∧ ∀ x, Mem x (unionRange s r) ↔ Mem x s ∨ (r.lo ≤ x ∧ x < r.hi)) ∧
    (Canon (union s t) ∧ ∀ x, Mem x (union s t) ↔ Mem x s ∨ Mem x t) :=
  ⟨unionRange_spec s r hs hr, union_spec s t hs ht.2⟩

example : Canon [⟨0, 5⟩, ⟨8, 10⟩] ∧ Canon [⟨5, 8⟩] ∧ (⟨3, 9⟩ : Range).lo < (⟨3, 9⟩ : Range).hi := by
  simp [Canon]

/-- C02: excluding a range or a set is set difference. -/
theorem symbol_set_exclude_is_difference (s t : SymSet) (r : Range) (hs : Canon s) (ht : Canon t) (hr : r.lo < r.hi) :
    (Canon (excludeRange s r) ∧ ∀ x, Mem x (excludeRange s r) ↔ Mem x s ∧ ¬ (r.lo ≤ x ∧ x < r.hi)) ∧
    (Canon (exclude s t) ∧ ∀ x, Mem x (exclude s t) ↔ Mem x s ∧ ¬ Mem x t) :=
  ⟨excludeRange_spec s r hs hr, exclude_spec s t hs ht.2⟩

/-- The precondition of C02 is needed: excluding an empty range splits a stored range, after which two
sets with the same members no longer compare equal. -/
theorem exclude_empty_range_breaks_canonical_form :
    excludeRange [⟨0, 10⟩] ⟨5, 5⟩ = [⟨0, 5⟩, ⟨5, 10⟩] ∧ ¬ Canon (excludeRange [⟨0, 10⟩] ⟨5, 5⟩) ∧
    beq (excludeRange [⟨0, 10⟩] ⟨5, 5⟩) [⟨0, 10⟩] = false := by
  refine ⟨by decide, ?_, by decide⟩
  have : excludeRange [⟨0, 10⟩] ⟨5, 5⟩ = [⟨0, 5⟩, ⟨5, 10⟩] := by decide
  rw [this]; simp [Canon]

/-- C03: complement is exact on ordinary symbols, and complementing twice gives back the same set. -/
theorem symbol_set_complement (s : SymSet) (hs : Canon s) (ho : ∀ x, Mem x s → 0 ≤ x ∧ x < maxSymbol) :
    (Canon (invert s) ∧ ∀ x, Mem x (invert s) ↔ (0 ≤ x ∧ x < maxSymbol ∧ ¬ Mem x s)) ∧
    invert (invert s) = s := by
  have ⟨h1, h2⟩ := invert_spec s hs ho
  have ⟨h3, h4⟩ := invert_spec (invert s) h1 (fun x hx => ⟨((h2 x).1 hx).1, ((h2 x).1 hx).2.1⟩)
  refine ⟨⟨h1, h2⟩, canon_ext _ _ h3 hs fun x => ?_⟩
  rw [h4, h2]
  constructor
  · rintro ⟨a, b, c⟩
    by_cases h : Mem x s
    · exact h
    · exact absurd ⟨a, b, h⟩ c
  · intro h
    have := ho x h
    exact ⟨this.1, this.2, fun hc => hc.2.2 h⟩

example : Canon [⟨0, 5⟩, ⟨8, 10⟩] ∧ ∀ x, Mem x [⟨0, 5⟩, ⟨8, 10⟩] → 0 ≤ x ∧ x < maxSymbol := by
  refine ⟨by simp [Canon], fun x => ?_⟩
  simp only [mem_cons, mem_nil, Range.Mem, maxSymbol, or_false]; intro h; omega

/-- Outside its precondition inversion is wrong: a special (negative) symbol makes it produce an
inverted range, which later operations rely on never seeing. -/
theorem invert_negative_symbol_yields_inverted_range :
    invert [Range.single (-3)] = [⟨-2, maxSymbol⟩, ⟨0, -3⟩] := by
  decide

/-- `operator[]` decides membership. -/
theorem symbol_set_lookup (s : SymSet) (hs : Canon s) (x : Int) : contains s x = true ↔ Mem x s :=
  contains_iff s hs x

/-- C04: equality is extensional and `<` is a strict total order compatible with it; `<=` is its
reflexive closure. -/
theorem symbol_set_order_extensional :
    (∀ s t, Canon s → Canon t → (beq s t = true ↔ ∀ x, Mem x s ↔ Mem x t)) ∧
    (∀ s, lt s s = false) ∧
    (∀ s t u, lt s t = true → lt t u = true → lt s u = true) ∧
    (∀ s t, Canon s → Canon t → (¬ ∀ x, Mem x s ↔ Mem x t) → lt s t = true ∨ lt t s = true) ∧
    (∀ s t, le s t = true ↔ lt s t = true ∨ s = t) := by
  refine ⟨fun s t hs ht => ?_, lt_irrefl, fun _ _ _ => lt_trans, fun s t _ _ h => ?_, le_iff⟩
  · rw [beq_iff]
    exact ⟨fun h x => by rw [h], canon_ext s t hs ht⟩
  · exact lt_total (fun he => h (fun x => by rw [he]))

example : lt [⟨0, 5⟩] [⟨0, 6⟩] = true ∧ Canon [⟨0, 5⟩] ∧ Canon [⟨0, 6⟩] := by
  refine ⟨by decide, canon_single (by decide), canon_single (by decide)⟩

end TameParse.SymSet

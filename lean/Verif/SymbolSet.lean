/-
Model of `dfa::range<int>` and `dfa::symbol_set`.

Sources: /repo/TameParse/Dfa/range.h, /repo/TameParse/Dfa/symbol_set.{h,cpp}.

Simplifications:
* symbols are mathematical integers, so the overflow of `range(INT_MAX)` is not represented;
* `std::set<range, sort_by_lower>` is a list in increasing order of lower bound, and its iterators
  are indices into that list (`end()` is the length).
-/
namespace TameParse

/-- `dfa::range<int>`: half open `[lo, hi)` (range.h 35-154). Nothing forces `lo < hi`. -/
structure Range where
  lo : Int
  hi : Int
deriving DecidableEq, Repr, Inhabited

namespace Range

/-- `range(T value)` (range.h 57-60): the single symbol `v`. -/
def single (v : Int) : Range := ⟨v, v + 1⟩

/-- `operator[]` (range.h 89-93). -/
def contains (r : Range) (v : Int) : Bool :=
  if v < r.lo then false else if v ≥ r.hi then false else true

/-- `operator<` (range.h 104-110): lexicographic on (lower, upper). -/
def lt (a b : Range) : Bool :=
  if a.lo < b.lo then true else if a.lo > b.lo then false else decide (a.hi < b.hi)

/-- `overlaps` (range.h 124-128). -/
def overlaps (a b : Range) : Bool :=
  if b.hi ≤ a.lo then false else if b.lo ≥ a.hi then false else true

/-- `can_merge` (range.h 138-142). -/
def canMerge (a b : Range) : Bool :=
  if b.hi < a.lo then false else if b.lo > a.hi then false else true

/-- `merge` (range.h 145-153). -/
def merge (a b : Range) : Range :=
  ⟨if b.lo < a.lo then b.lo else a.lo, if b.hi > a.hi then b.hi else a.hi⟩

/-- Specification: the symbols denoted by a range. -/
def Mem (x : Int) (r : Range) : Prop := r.lo ≤ x ∧ x < r.hi

end Range

/-- `symbol_set::m_Symbols` (symbol_set.h, `symbol_store`): ranges ordered by lower bound. -/
abbrev SymSet := List Range

namespace SymSet

/-- `c_MaxSymbol` (symbol_set.h). -/
def maxSymbol : Int := 0x7fffffff

/-- `std::set::lower_bound` with `sort_by_lower`: index of the first range with lower bound ≥ `k`. -/
def lowerBound (s : SymSet) (k : Int) : Nat := (s.takeWhile (fun r => decide (r.lo < k))).length

/-- `std::set::upper_bound` with `sort_by_lower`: index of the first range with lower bound > `k`. -/
def upperBound (s : SymSet) (k : Int) : Nat := (s.takeWhile (fun r => decide (r.lo ≤ k))).length

/-- `std::set::insert` with `sort_by_lower`: no effect if a range with the same lower bound is there. -/
def insert : SymSet → Range → SymSet
  | [], m => [m]
  | r :: t, m => if m.lo < r.lo then m :: r :: t else if r.lo < m.lo then r :: insert t m else r :: t

/-- The start of the affected ranges, shared by `operator|=` (symbol_set.cpp 72-85) and `exclude`
(symbol_set.cpp 123-136): `lower_bound`, stepping back one range if that one reaches `m.lo`. -/
def firstAffected (s : SymSet) (m : Range) : Nat :=
  let lb := lowerBound s m.lo
  if lb ≠ 0 ∧ s[lb - 1]!.hi ≥ m.lo then lb - 1 else lb

/-- `operator|=(const symbol_range&)` (symbol_set.cpp 68-109). -/
def unionRange (s : SymSet) (m : Range) : SymSet :=
  let first := firstAffected s m
  if first = s.length ∨ ¬ m.canMerge s[first]! then insert s m
  else
    let final := upperBound s m.hi
    let merged := ((s.drop first).take (final - first)).foldl Range.merge m
    insert (s.take first ++ s.drop final) merged

/-- `operator|=(const symbol_set&)` (symbol_set.cpp 57-65). -/
def union (s t : SymSet) : SymSet := t.foldl unionRange s

/-- `exclude(const symbol_range&)` (symbol_set.cpp 121-167). -/
def excludeRange (s : SymSet) (e : Range) : SymSet :=
  let first := firstAffected s e
  if first = s.length ∨ ¬ e.canMerge s[first]! then s
  else
    let eraseTo := upperBound s e.hi
    let initial := s[first]!
    let final := s[eraseTo - 1]!
    let s1 := s.take first ++ s.drop eraseTo
    let s2 := if initial.lo < e.lo then insert s1 ⟨initial.lo, e.lo⟩ else s1
    if final.hi > e.hi then insert s2 ⟨e.hi, final.hi⟩ else s2

/-- `exclude(const symbol_set&)` (symbol_set.cpp 112-118). -/
def exclude (s t : SymSet) : SymSet := t.foldl excludeRange s

/-- The loop of `invert` (symbol_set.cpp 176-185): state is (`last.upper()`, `newRanges`). -/
def invertLoop (st : Int × SymSet) (r : Range) : Int × SymSet :=
  (r.hi, if r.lo ≠ st.1 then insert st.2 ⟨st.1, r.lo⟩ else st.2)

/-- `invert` / `operator~` (symbol_set.cpp 170-193). -/
def invert (s : SymSet) : SymSet :=
  let st := s.foldl invertLoop (0, [])
  if st.1 < maxSymbol then insert st.2 ⟨st.1, maxSymbol⟩ else st.2

/-- `operator&=(const symbol_set&)` (symbol_set.h 112-115). -/
def inter (s t : SymSet) : SymSet := exclude s (invert t)

/-- `operator&=(const symbol_range&)` (symbol_set.h 118-123). -/
def interRange (s : SymSet) (r : Range) : SymSet := exclude s (invert [r])

/-- `operator[]` (symbol_set.cpp 196-208). -/
def contains (s : SymSet) (x : Int) : Bool :=
  let n := upperBound s x
  if n = 0 then false else s[n - 1]!.contains x

/-- Loop of `operator==` (symbol_set.cpp 218-222). -/
def eqLoop : SymSet → SymSet → Bool
  | a :: s, b :: t => if a ≠ b then false else eqLoop s t
  | _, _ => true

/-- `operator==` (symbol_set.cpp 211-225). -/
def beq (s t : SymSet) : Bool := if t.length ≠ s.length then false else eqLoop s t

/-- Loop of `operator<` (symbol_set.cpp 236-241). -/
def ltLoop : SymSet → SymSet → Bool
  | a :: s, b :: t => if a = b then ltLoop s t else a.lt b
  | _, _ => false

/-- `operator<` (symbol_set.cpp 228-245). -/
def lt (s t : SymSet) : Bool :=
  if s.length < t.length then true else if t.length < s.length then false else ltLoop s t

/-- Loop of `operator<=` (symbol_set.cpp 256-260). -/
def leLoop : SymSet → SymSet → Bool
  | a :: s, b :: t => if a = b then leLoop s t else a.lt b
  | _, _ => true

/-- `operator<=` (symbol_set.cpp 248-264). -/
def le (s t : SymSet) : Bool :=
  if s.length < t.length then true else if t.length < s.length then false else leLoop s t

/-! ### Specification -/

/-- The symbols denoted by a set. -/
def Mem (x : Int) (s : SymSet) : Prop := ∃ r ∈ s, r.Mem x

/-- Canonical form: non-empty ranges, in order, with a gap between consecutive ones. -/
def Canon (s : SymSet) : Prop := s.Pairwise (fun a b => a.hi < b.lo) ∧ ∀ r ∈ s, r.lo < r.hi

/-- Only ordinary symbols, `[0, maxSymbol)`. -/
def Ordinary (s : SymSet) : Prop := ∀ x, Mem x s → 0 ≤ x ∧ x < maxSymbol

/-! ### Helper lemmas -/

theorem mem_nil (x : Int) : ¬ Mem x [] := by simp [Mem]

theorem mem_cons (x : Int) (r : Range) (s : SymSet) : Mem x (r :: s) ↔ r.Mem x ∨ Mem x s := by
  simp [Mem]

theorem mem_append (x : Int) (s t : SymSet) : Mem x (s ++ t) ↔ Mem x s ∨ Mem x t := by
  simp only [Mem, List.mem_append]
  constructor
  · rintro ⟨r, h | h, hx⟩
    · exact .inl ⟨r, h, hx⟩
    · exact .inr ⟨r, h, hx⟩
  · rintro (⟨r, h, hx⟩ | ⟨r, h, hx⟩)
    · exact ⟨r, .inl h, hx⟩
    · exact ⟨r, .inr h, hx⟩

theorem canon_nil : Canon [] := by simp [Canon]

theorem canon_cons {r : Range} {s : SymSet} :
    Canon (r :: s) ↔ (r.lo < r.hi ∧ (∀ b ∈ s, r.hi < b.lo)) ∧ Canon s := by
  simp only [Canon, List.pairwise_cons, List.mem_cons, forall_eq_or_imp]
  constructor
  · rintro ⟨⟨h1, h2⟩, h3, h4⟩; exact ⟨⟨h3, h1⟩, h2, h4⟩
  · rintro ⟨⟨h3, h1⟩, h2, h4⟩; exact ⟨⟨h1, h2⟩, h3, h4⟩

theorem canon_append {s t : SymSet} :
    Canon (s ++ t) ↔ Canon s ∧ Canon t ∧ ∀ a ∈ s, ∀ b ∈ t, a.hi < b.lo := by
  simp only [Canon, List.pairwise_append, List.mem_append]
  constructor
  · rintro ⟨⟨h1, h2, h3⟩, h4⟩
    exact ⟨⟨h1, fun r hr => h4 r (.inl hr)⟩, ⟨h2, fun r hr => h4 r (.inr hr)⟩, h3⟩
  · rintro ⟨⟨h1, h4⟩, ⟨h2, h5⟩, h3⟩
    exact ⟨⟨h1, h2, h3⟩, fun r hr => hr.elim (h4 r) (h5 r)⟩

theorem canon_single {r : Range} (h : r.lo < r.hi) : Canon [r] := by
  simp [Canon, h]

/-- Inserting between smaller and larger keys. -/
theorem insert_mid (p q : SymSet) (m : Range) (hp : ∀ a ∈ p, a.lo < m.lo) (hq : ∀ b ∈ q, m.lo < b.lo) :
    insert (p ++ q) m = p ++ m :: q := by
  induction p with
  | nil =>
    cases q with
    | nil => rfl
    | cons b q => simp [insert, hq b (by simp)]
  | cons a p ih =>
    have ha := hp a (by simp)
    simp only [List.cons_append, insert]
    rw [if_neg (by omega), if_pos ha, ih (fun a h => hp a (by simp [h]))]

theorem insert_end (p : SymSet) (m : Range) (hp : ∀ a ∈ p, a.lo < m.lo) : insert p m = p ++ [m] := by
  have := insert_mid p [] m hp (by simp); simpa using this

/-- `firstAffected` is the number of ranges that lie strictly (with a gap) below `m`. -/
theorem firstAffected_eq (s : SymSet) (m : Range) (hs : Canon s) :
    firstAffected s m = (s.takeWhile (fun r => decide (r.hi < m.lo))).length := by
  induction s with
  | nil => simp [firstAffected, lowerBound]
  | cons r t ih =>
    have ⟨⟨hr, hrt⟩, ht⟩ := canon_cons.1 hs
    have ih := ih ht
    by_cases h1 : r.lo < m.lo
    · have hlb : lowerBound (r :: t) m.lo = lowerBound t m.lo + 1 := by
        simp [lowerBound, h1]
      cases htt : lowerBound t m.lo with
      | zero =>
        have htw : t.takeWhile (fun r => decide (r.hi < m.lo)) = [] := by
          cases t with
          | nil => rfl
          | cons b t =>
            have : ¬ b.lo < m.lo := by
              intro h; simp [lowerBound, h] at htt
            have hb := (canon_cons.1 ht).1.1
            have h' : ¬ b.hi < m.lo := by omega
            simp [h']
        simp only [firstAffected, hlb, htt]
        by_cases h2 : r.hi ≥ m.lo
        · simp [h2]
        · simp only [ne_eq, Nat.zero_add, Nat.one_ne_zero, not_false_eq_true, Nat.sub_self, true_and]
          have h3 : r.hi < m.lo := by omega
          simp [h3, htw]
      | succ n =>
        have hrm : r.hi < m.lo := by
          cases t with
          | nil => simp [lowerBound] at htt
          | cons b t =>
            have : b.lo < m.lo := by
              by_cases h : b.lo < m.lo
              · exact h
              · simp [lowerBound, h] at htt
            have := hrt b (by simp); omega
        have : firstAffected (r :: t) m = firstAffected t m + 1 := by
          simp only [firstAffected, hlb, htt]
          simp only [Nat.add_sub_cancel, ne_eq, Nat.succ_ne_zero, not_false_eq_true, true_and, List.getElem!_cons_succ]
          split <;> omega
        rw [this, ih]; simp [hrm]
    · have hlb : lowerBound (r :: t) m.lo = 0 := by simp [lowerBound, h1]
      have : ¬ r.hi < m.lo := by omega
      simp [firstAffected, hlb, this]

/-- The three parts of a set relative to a range: below with a gap, touching, above with a gap. -/
def partP (s : SymSet) (m : Range) : SymSet := s.takeWhile (fun r => decide (r.hi < m.lo))
def partM (s : SymSet) (m : Range) : SymSet :=
  (s.dropWhile (fun r => decide (r.hi < m.lo))).takeWhile (fun r => decide (r.lo ≤ m.hi))
def partR (s : SymSet) (m : Range) : SymSet :=
  (s.dropWhile (fun r => decide (r.hi < m.lo))).dropWhile (fun r => decide (r.lo ≤ m.hi))

theorem parts (s : SymSet) (m : Range) : s = partP s m ++ (partM s m ++ partR s m) := by
  simp [partP, partM, partR, List.takeWhile_append_dropWhile]

theorem mem_takeWhile_imp {α} {p : α → Bool} {l : List α} {a : α} (h : a ∈ l.takeWhile p) : p a = true := by
  induction l with
  | nil => simp at h
  | cons b l ih =>
    rw [List.takeWhile_cons] at h
    split at h
    · rcases List.mem_cons.1 h with h | h
      · subst h; assumption
      · exact ih h
    · simp at h

theorem partP_lt {s : SymSet} {m : Range} {a : Range} (h : a ∈ partP s m) : a.hi < m.lo := by
  simpa using mem_takeWhile_imp h

theorem partM_le {s : SymSet} {m : Range} {a : Range} (h : a ∈ partM s m) : a.lo ≤ m.hi := by
  simpa using mem_takeWhile_imp h

/-- In a canonical list the elements after the first one failing `hi < k` all satisfy `k ≤ hi`. -/
theorem dropWhile_hi {s : SymSet} (hs : Canon s) (k : Int) :
    ∀ a ∈ s.dropWhile (fun r => decide (r.hi < k)), k ≤ a.hi := by
  induction s with
  | nil => simp
  | cons r t ih =>
    have ⟨⟨hr, hrt⟩, ht⟩ := canon_cons.1 hs
    intro a ha
    rw [List.dropWhile_cons] at ha
    split at ha
    · exact ih ht a ha
    · rename_i h
      simp at h
      rcases List.mem_cons.1 ha with h' | h'
      · subst h'; exact h
      · have := hrt a h'
        have := ht.2 a h'; omega

theorem dropWhile_lo {s : SymSet} (hs : Canon s) (k : Int) :
    ∀ a ∈ s.dropWhile (fun r => decide (r.lo ≤ k)), k < a.lo := by
  induction s with
  | nil => simp
  | cons r t ih =>
    have ⟨⟨hr, hrt⟩, ht⟩ := canon_cons.1 hs
    intro a ha
    rw [List.dropWhile_cons] at ha
    split at ha
    · exact ih ht a ha
    · rename_i h
      simp at h
      rcases List.mem_cons.1 ha with h' | h'
      · subst h'; exact h
      · have := hrt a h'
        omega

theorem canon_dropWhile {s : SymSet} (hs : Canon s) (p : Range → Bool) : Canon (s.dropWhile p) := by
  have := List.takeWhile_append_dropWhile (p := p) (l := s)
  rw [← this] at hs
  exact (canon_append.1 hs).2.1

theorem partM_ge {s : SymSet} {m : Range} (hs : Canon s) {a : Range} (h : a ∈ partM s m) : m.lo ≤ a.hi :=
  dropWhile_hi hs m.lo a (List.takeWhile_subset _ h)

theorem partR_gt {s : SymSet} {m : Range} (hs : Canon s) {a : Range} (h : a ∈ partR s m) : m.hi < a.lo :=
  dropWhile_lo (canon_dropWhile hs _) m.hi a h

theorem canon_parts {s : SymSet} (m : Range) (hs : Canon s) :
    Canon (partP s m) ∧ Canon (partM s m) ∧ Canon (partR s m) ∧
    (∀ a ∈ partP s m, ∀ b ∈ partM s m, a.hi < b.lo) ∧
    (∀ a ∈ partP s m, ∀ b ∈ partR s m, a.hi < b.lo) ∧
    (∀ a ∈ partM s m, ∀ b ∈ partR s m, a.hi < b.lo) := by
  rw [parts s m] at hs
  have ⟨h1, h2, h3⟩ := canon_append.1 hs
  have ⟨h4, h5, h6⟩ := canon_append.1 h2
  exact ⟨h1, h4, h5, fun a ha b hb => h3 a ha b (by simp [hb]),
    fun a ha b hb => h3 a ha b (by simp [hb]), h6⟩

theorem takeWhile_append_all {α} (p : α → Bool) (a b : List α) (h : ∀ x ∈ a, p x = true) :
    (a ++ b).takeWhile p = a ++ b.takeWhile p := by
  induction a with
  | nil => rfl
  | cons x a ih => simp [h x (by simp), ih (fun y hy => h y (by simp [hy]))]

theorem takeWhile_none {α} (p : α → Bool) (b : List α) (h : ∀ x ∈ b, p x = false) :
    b.takeWhile p = [] := by
  cases b with
  | nil => rfl
  | cons x b => simp [h x (by simp)]

theorem upperBound_eq (s : SymSet) (m : Range) (hs : Canon s) (hm : m.lo ≤ m.hi) :
    upperBound s m.hi = (partP s m).length + (partM s m).length := by
  have hp := canon_parts m hs
  conv => lhs; rw [upperBound, parts s m]
  rw [takeWhile_append_all, takeWhile_append_all, takeWhile_none]
  · simp
  · intro x hx; have := partR_gt hs hx; simp; omega
  · intro x hx; have := partM_le hx; simpa using this
  · intro x hx; have := partP_lt hx; have := hp.1.2 x hx; simp; omega

theorem getElem!_append_head (a b : SymSet) (x : Range) : (a ++ x :: b)[a.length]! = x := by
  simp

/-- When there is nothing to merge with, the code takes the early exit. -/
theorem early_iff (s : SymSet) (m : Range) (hs : Canon s) (hm : m.lo ≤ m.hi) :
    (firstAffected s m = s.length ∨ ¬ m.canMerge s[firstAffected s m]!) ↔ partM s m = [] := by
  have hf : firstAffected s m = (partP s m).length := firstAffected_eq s m hs
  rw [hf]
  have hsplit := parts s m
  cases hM : partM s m with
  | nil =>
    simp only [iff_true]
    rw [hM] at hsplit
    cases hR : partR s m with
    | nil => left; rw [hR] at hsplit; conv => rhs; rw [hsplit]
             simp
    | cons b R =>
      right
      rw [hR] at hsplit
      have : s[(partP s m).length]! = b := by
        conv => lhs; arg 1; rw [hsplit]
        exact getElem!_append_head _ _ _
      rw [this]
      have := partR_gt (s := s) (m := m) hs (a := b) (by simp [hR])
      simp [Range.canMerge]; omega
  | cons b M =>
    simp only [reduceCtorEq, iff_false, not_or]
    rw [hM] at hsplit
    have h1 : s[(partP s m).length]! = b := by
      conv => lhs; arg 1; rw [hsplit]
      exact getElem!_append_head _ _ _
    have h2 := partM_le (s := s) (m := m) (a := b) (by simp [hM])
    have h3 := partM_ge (s := s) (m := m) hs (a := b) (by simp [hM])
    constructor
    · intro h
      have := congrArg List.length hsplit
      simp at this; omega
    · rw [h1]; simp only [Range.canMerge]; rw [if_neg (by omega), if_neg (by omega)]; simp

theorem take_first (s : SymSet) (m : Range) : s.take (partP s m).length = partP s m := by
  conv => lhs; arg 2; rw [parts s m]
  simp

theorem drop_first (s : SymSet) (m : Range) : s.drop (partP s m).length = partM s m ++ partR s m := by
  conv => lhs; arg 2; rw [parts s m]
  simp

theorem drop_final (s : SymSet) (m : Range) :
    s.drop ((partP s m).length + (partM s m).length) = partR s m := by
  rw [← List.drop_drop, drop_first]; simp

/-- Folding `merge` over ranges that all touch `m`. -/
theorem fold_merge (M : SymSet) (m acc : Range) (hm : m.lo < m.hi)
    (hacc : acc.lo ≤ m.lo ∧ m.hi ≤ acc.hi)
    (hM : ∀ a ∈ M, a.lo ≤ m.hi ∧ m.lo ≤ a.hi ∧ a.lo < a.hi) :
    let r := M.foldl Range.merge acc
    (∀ x, r.Mem x ↔ acc.Mem x ∨ Mem x M) ∧ r.lo ≤ acc.lo ∧ acc.hi ≤ r.hi ∧
    (r.lo = acc.lo ∨ ∃ a ∈ M, r.lo = a.lo) ∧ (r.hi = acc.hi ∨ ∃ a ∈ M, r.hi = a.hi) := by
  induction M generalizing acc with
  | nil => simp [mem_nil]
  | cons b M ih =>
    have hb := hM b (by simp)
    have hacc' : (acc.merge b).lo ≤ m.lo ∧ m.hi ≤ (acc.merge b).hi := by
      simp only [Range.merge]; constructor <;> split <;> omega
    have ⟨h1, h2, h3, h4, h5⟩ := ih (acc.merge b) hacc' (fun a ha => hM a (by simp [ha]))
    refine ⟨?_, ?_, ?_, ?_, ?_⟩
    · intro x
      simp only [List.foldl_cons]
      rw [h1 x, mem_cons, ← or_assoc]
      apply or_congr_left
      simp only [Range.Mem, Range.merge]
      split <;> split <;> omega
    · refine Int.le_trans h2 ?_
      simp only [Range.merge]; split <;> omega
    · refine Int.le_trans ?_ h3
      simp only [Range.merge]; split <;> omega
    · rcases h4 with h4 | ⟨a, ha, h4⟩
      · rw [List.foldl_cons, h4]
        simp only [Range.merge]
        split
        · right; exact ⟨b, by simp, rfl⟩
        · left; rfl
      · right; exact ⟨a, by simp [ha], h4⟩
    · rcases h5 with h5 | ⟨a, ha, h5⟩
      · rw [List.foldl_cons, h5]
        simp only [Range.merge]
        split
        · right; exact ⟨b, by simp, rfl⟩
        · left; rfl
      · right; exact ⟨a, by simp [ha], h5⟩

/-- What `unionRange` computes on a canonical set. -/
theorem unionRange_eq (s : SymSet) (m : Range) (hs : Canon s) (hm : m.lo < m.hi) :
    unionRange s m = partP s m ++ (partM s m).foldl Range.merge m :: partR s m := by
  have hp := canon_parts m hs
  have hf : firstAffected s m = (partP s m).length := firstAffected_eq s m hs
  simp only [unionRange]
  by_cases hM : partM s m = []
  · rw [if_pos ((early_iff s m hs (by omega)).2 hM)]
    conv => lhs; arg 1; rw [parts s m, hM]
    rw [hM]
    simp only [List.nil_append, List.foldl_nil]
    apply insert_mid
    · intro a ha; have := partP_lt ha; have := hp.1.2 a ha; omega
    · intro a ha; have := partR_gt hs ha; omega
  · rw [if_neg (fun h => hM ((early_iff s m hs (by omega)).1 h))]
    rw [hf, upperBound_eq s m hs (by omega), take_first, drop_first, drop_final]
    simp only [Nat.add_sub_cancel_left, List.take_left']
    have ⟨h1, h2, h3, h4, h5⟩ := fold_merge (partM s m) m m hm (by omega)
      (fun a ha => ⟨partM_le ha, partM_ge hs ha, hp.2.1.2 a ha⟩)
    apply insert_mid
    · intro a ha
      have ha1 := partP_lt ha
      have ha2 := hp.1.2 a ha
      rcases h4 with h4 | ⟨b, hb, h4⟩
      · omega
      · have := hp.2.2.2.1 a ha b hb; omega
    · intro a ha; have := partR_gt hs ha; omega

theorem unionRange_spec (s : SymSet) (m : Range) (hs : Canon s) (hm : m.lo < m.hi) :
    Canon (unionRange s m) ∧ ∀ x, Mem x (unionRange s m) ↔ Mem x s ∨ m.Mem x := by
  have hp := canon_parts m hs
  have ⟨h1, h2, h3, h4, h5⟩ := fold_merge (partM s m) m m hm (by omega)
    (fun a ha => ⟨partM_le ha, partM_ge hs ha, hp.2.1.2 a ha⟩)
  rw [unionRange_eq s m hs hm]
  constructor
  · rw [canon_append, canon_cons]
    refine ⟨hp.1, ⟨⟨by omega, ?_⟩, hp.2.2.1⟩, ?_⟩
    · intro b hb
      have := partR_gt hs hb
      rcases h5 with h5 | ⟨a, ha, h5⟩
      · omega
      · have := hp.2.2.2.2.2 a ha b hb; omega
    · intro a ha b hb
      rcases List.mem_cons.1 hb with rfl | hb
      · have := partP_lt ha
        rcases h4 with h4 | ⟨b, hb, h4⟩
        · omega
        · have := hp.2.2.2.1 a ha b hb; omega
      · exact hp.2.2.2.2.1 a ha b hb
  · intro x
    conv => rhs; rw [parts s m]
    rw [mem_append, mem_cons, h1 x, mem_append, mem_append]
    constructor
    · rintro (h | (h | h) | h) <;> simp [h]
    · rintro ((h | h | h) | h) <;> simp [h]

theorem mem_middle {M : SymSet} {a : Range} (hc : Canon M) (hne : M ≠ []) (ha : a ∈ M) :
    (a = M.head hne ∨ (M.head hne).hi < a.lo) ∧ (a = M.getLast hne ∨ a.hi < (M.getLast hne).lo) := by
  constructor
  · cases M with
    | nil => simp at ha
    | cons b M =>
      rcases List.mem_cons.1 ha with h | h
      · left; simpa using h
      · right; exact (canon_cons.1 hc).1.2 a h
  · have hd := List.dropLast_concat_getLast hne
    rw [← hd] at ha hc
    rcases List.mem_append.1 ha with h | h
    · right; exact (canon_append.1 hc).2.2 a h _ (by simp)
    · left; simpa using h

theorem excludeRange_spec (s : SymSet) (e : Range) (hs : Canon s) (he : e.lo < e.hi) :
    Canon (excludeRange s e) ∧ ∀ x, Mem x (excludeRange s e) ↔ Mem x s ∧ ¬ e.Mem x := by
  have hp := canon_parts e hs
  have hf : firstAffected s e = (partP s e).length := firstAffected_eq s e hs
  have hsplit := parts s e
  have hPno : ∀ x, Mem x (partP s e) → ¬ e.Mem x := by
    rintro x ⟨r, hr, hx⟩ hxe
    have := partP_lt hr; simp only [Range.Mem] at hx hxe; omega
  have hRno : ∀ x, Mem x (partR s e) → ¬ e.Mem x := by
    rintro x ⟨r, hr, hx⟩ hxe
    have := partR_gt hs hr; simp only [Range.Mem] at hx hxe; omega
  simp only [excludeRange]
  by_cases hM : partM s e = []
  · rw [if_pos ((early_iff s e hs (by omega)).2 hM)]
    refine ⟨hs, fun x => ?_⟩
    constructor
    · intro h
      refine ⟨h, ?_⟩
      rw [hsplit, hM, List.nil_append, mem_append] at h
      exact h.elim (hPno x) (hRno x)
    · exact fun h => h.1
  · rw [if_neg (fun h => hM ((early_iff s e hs (by omega)).1 h))]
    rw [hf, upperBound_eq s e hs (by omega), take_first, drop_final]
    -- identify the first and last affected ranges
    have hinit : s[(partP s e).length]! = (partM s e).head hM := by
      conv => lhs; arg 1; rw [hsplit]
      generalize partM s e = M at hM
      cases M with
      | nil => exact absurd rfl hM
      | cons b M => simp
    have hlen : 0 < (partM s e).length := List.length_pos_iff.2 hM
    have hfin : s[(partP s e).length + (partM s e).length - 1]! = (partM s e).getLast hM := by
      conv => lhs; arg 1; rw [hsplit]
      rw [getElem!_def, List.getElem?_append_right (by omega), List.getElem?_append_left (by omega)]
      have : (partP s e).length + (partM s e).length - 1 - (partP s e).length = (partM s e).length - 1 := by omega
      rw [this, ← List.getLast?_eq_getElem?, List.getLast?_eq_some_getLast hM]
    rw [hinit, hfin]
    have hi1 : (partM s e).head hM ∈ partM s e := List.head_mem hM
    have hf1 : (partM s e).getLast hM ∈ partM s e := List.getLast_mem hM
    have hmid := fun a (ha : a ∈ partM s e) => mem_middle hp.2.1 hM ha
    generalize hI : (partM s e).head hM = I at *
    generalize hF : (partM s e).getLast hM = F at *
    have hI1 := partM_le hi1
    have hI2 := partM_ge hs hi1
    have hI3 := hp.2.1.2 I hi1
    have hF1 := partM_le hf1
    have hF2 := partM_ge hs hf1
    have hF3 := hp.2.1.2 F hf1
    have hIF := (hmid F hf1).1
    have hMmem : ∀ x, Mem x (partM s e) ∧ ¬ e.Mem x ↔
        (I.lo ≤ x ∧ x < e.lo) ∨ (e.hi ≤ x ∧ x < F.hi) := by
      intro x
      constructor
      · rintro ⟨⟨r, hr, hx⟩, hne⟩
        have ⟨h1, h2⟩ := hmid r hr
        simp only [Range.Mem] at hx hne
        rcases h1 with rfl | h1 <;> rcases h2 with rfl | h2 <;> omega
      · rintro (h | h)
        · exact ⟨⟨I, hi1, by simp only [Range.Mem]; omega⟩, by simp only [Range.Mem]; omega⟩
        · exact ⟨⟨F, hf1, by simp only [Range.Mem]; omega⟩, by simp only [Range.Mem]; omega⟩
    -- the resulting list
    have hPlo : ∀ a ∈ partP s e, a.lo < I.lo := fun a ha => by
      have := hp.2.2.2.1 a ha I hi1; have := hp.1.2 a ha; omega
    have hPhi : ∀ a ∈ partP s e, a.hi < I.lo := fun a ha => hp.2.2.2.1 a ha I hi1
    have hRlo : ∀ b ∈ partR s e, F.hi < b.lo := fun b hb => hp.2.2.2.2.2 F hf1 b hb
    have hRlo' : ∀ b ∈ partR s e, e.hi < b.lo := fun b hb => partR_gt hs hb
    have hPe : ∀ a ∈ partP s e, a.hi < e.lo := fun a ha => partP_lt ha
    have hPne := hp.1.2
    have hs2 : (if I.lo < e.lo then insert (partP s e ++ partR s e) ⟨I.lo, e.lo⟩ else partP s e ++ partR s e)
        = partP s e ++ (if I.lo < e.lo then [⟨I.lo, e.lo⟩] else []) ++ partR s e := by
      split
      · rw [insert_mid]
        · simp
        · exact hPlo
        · intro b hb; have := hRlo' b hb; simp only; omega
      · simp
    rw [hs2]
    have hs3 : (if F.hi > e.hi then insert (partP s e ++ (if I.lo < e.lo then [⟨I.lo, e.lo⟩] else []) ++ partR s e) ⟨e.hi, F.hi⟩
          else partP s e ++ (if I.lo < e.lo then [⟨I.lo, e.lo⟩] else []) ++ partR s e)
        = partP s e ++ (if I.lo < e.lo then [⟨I.lo, e.lo⟩] else []) ++ (if F.hi > e.hi then [⟨e.hi, F.hi⟩] else []) ++ partR s e := by
      split
      · rw [insert_mid]
        · simp
        · intro a ha
          rcases List.mem_append.1 ha with ha | ha
          · have := hPe a ha; have := hPne a ha; simp only; omega
          · split at ha
            · simp at ha; subst ha; simp only; omega
            · simp at ha
        · intro b hb; exact hRlo' b hb
      · simp
    rw [hs3]
    constructor
    · rw [canon_append, canon_append, canon_append]
      refine ⟨⟨⟨hp.1, ?_, ?_⟩, ?_, ?_⟩, hp.2.2.1, ?_⟩
      · split
        · exact canon_single (by simpa)
        · exact canon_nil
      · intro a ha b hb
        split at hb
        · simp at hb; subst hb; exact hPhi a ha
        · simp at hb
      · split
        · exact canon_single (by simpa)
        · exact canon_nil
      · intro a ha b hb
        have hb' : b = ⟨e.hi, F.hi⟩ := by
          split at hb
          · simpa using hb
          · simp at hb
        subst hb'
        rcases List.mem_append.1 ha with ha | ha
        · have := hPe a ha; simp only; omega
        · split at ha
          · simp at ha; subst ha; simpa using he
          · simp at ha
      · intro a ha b hb
        have := hRlo b hb
        have := hRlo' b hb
        rcases List.mem_append.1 ha with ha | ha
        · rcases List.mem_append.1 ha with ha | ha
          · exact hp.2.2.2.2.1 a ha b hb
          · split at ha
            · simp at ha; subst ha; simp only; omega
            · simp at ha
        · split at ha
          · simp at ha; subst ha; simp only; omega
          · simp at ha
    · intro x
      conv => rhs; rw [hsplit]
      simp only [mem_append]
      have hA : Mem x (if I.lo < e.lo then [⟨I.lo, e.lo⟩] else []) ↔ (I.lo ≤ x ∧ x < e.lo) := by
        split
        · simp [mem_cons, mem_nil, Range.Mem]
        · simp only [mem_nil, false_iff]; omega
      have hB : Mem x (if F.hi > e.hi then [⟨e.hi, F.hi⟩] else []) ↔ (e.hi ≤ x ∧ x < F.hi) := by
        split
        · simp [mem_cons, mem_nil, Range.Mem]
        · simp only [mem_nil, false_iff]; omega
      rw [hA, hB]
      have hm := hMmem x
      have h1 := hPno x
      have h2 := hRno x
      constructor
      · rintro (((h | h) | h) | h)
        · exact ⟨.inl h, h1 h⟩
        · have := hm.2 (.inl h); exact ⟨.inr (.inl this.1), this.2⟩
        · have := hm.2 (.inr h); exact ⟨.inr (.inl this.1), this.2⟩
        · exact ⟨.inr (.inr h), h2 h⟩
      · rintro ⟨h | h | h, hne⟩
        · exact .inl (.inl (.inl h))
        · rcases hm.1 ⟨h, hne⟩ with h | h
          · exact .inl (.inl (.inr h))
          · exact .inl (.inr h)
        · exact .inr h

end SymSet
end TameParse

import Verif.SymbolSetLemmas
/-
Model of `dfa::symbol_map` and `dfa::remapped_symbol_map`.

Sources: /repo/TameParse/Dfa/symbol_map.{h,cpp}, /repo/TameParse/Dfa/remapped_symbol_map.{h,cpp}.

Simplifications:
* `std::map<symbol_set_container, int>` is an association list kept in `symbol_set::operator<` order;
* identifiers are natural numbers, "not present" is `none` (the code returns -1);
* the map of ranges in `add_set` is an association list sorted by lower bound, iterators are keys;
* `setsForSets` is an association list in first-seen order (the code iterates in key order, which only
  changes which number a new set gets).
-/
namespace TameParse

/-- `symbol_map` (symbol_map.h): `m_IdForSymbols` and `m_SymbolsForId`. -/
structure SymbolMap where
  ids : List (SymSet × Nat)
  syms : List SymSet
deriving Repr

namespace SymbolMap

def empty : SymbolMap := ⟨[], []⟩

/-- `std::map::find`: neither key is less than the other. -/
def lookup (ids : List (SymSet × Nat)) (s : SymSet) : Option Nat :=
  (ids.find? (fun p => !SymSet.lt p.1 s && !SymSet.lt s p.1)).map (·.2)

/-- `std::map::insert` for a key that is not present. -/
def insertKey : List (SymSet × Nat) → SymSet × Nat → List (SymSet × Nat)
  | [], p => [p]
  | q :: t, p => if SymSet.lt p.1 q.1 then p :: q :: t else q :: insertKey t p

/-- `identifier_for_symbols` (symbol_map.cpp 51-71). -/
def identifierFor (m : SymbolMap) (s : SymSet) : SymbolMap × Nat :=
  match lookup m.ids s with
  | some i => (m, i)
  | none =>
    let newId := m.syms.length
    (⟨insertKey m.ids (s, newId), m.syms ++ [s]⟩, newId)

/-- `find_identifier_for_symbols` (symbol_map.cpp 74-85). -/
def find (m : SymbolMap) (s : SymSet) : Option Nat := lookup m.ids s

/-- `operator[]` (symbol_map.cpp 88-91): the empty set for unknown identifiers. -/
def get (m : SymbolMap) (i : Nat) : SymSet := (m.syms[i]?).getD []

/-- Number of sets (`count_sets`). -/
def count (m : SymbolMap) : Nat := m.syms.length

/-- The two directions of the map agree. -/
def Inv (m : SymbolMap) : Prop :=
  (∀ s i, (s, i) ∈ m.ids ↔ m.syms[i]? = some s) ∧
  (∀ s i j, (s, i) ∈ m.ids → (s, j) ∈ m.ids → i = j)

theorem lookup_eq {ids : List (SymSet × Nat)} {s : SymSet} {i : Nat} (h : lookup ids s = some i) :
    (s, i) ∈ ids := by
  simp only [lookup, Option.map_eq_some_iff] at h
  obtain ⟨⟨t, j⟩, h1, h2⟩ := h
  have hp := List.find?_some h1
  have hm := List.mem_of_find?_eq_some h1
  simp only [Bool.and_eq_true, Bool.not_eq_true'] at hp
  have : t = s := by
    by_cases hne : t = s
    · exact hne
    · rcases SymSet.lt_total hne with h | h <;> simp_all
  subst this; simp at h2; subst h2; exact hm

theorem lookup_none {ids : List (SymSet × Nat)} {s : SymSet} (h : lookup ids s = none) :
    ∀ i, (s, i) ∉ ids := by
  intro i hi
  simp only [lookup, Option.map_eq_none_iff, List.find?_eq_none] at h
  have := h _ hi
  simp [SymSet.lt_irrefl] at this

theorem mem_insertKey {ids : List (SymSet × Nat)} {p q : SymSet × Nat} :
    q ∈ insertKey ids p ↔ q = p ∨ q ∈ ids := by
  induction ids with
  | nil => simp [insertKey]
  | cons r t ih =>
    simp only [insertKey]
    split
    · simp
    · simp only [List.mem_cons, ih]
      constructor
      · rintro (h | h | h) <;> simp [h]
      · rintro (h | h | h) <;> simp [h]

theorem inv_empty : Inv empty := by simp [Inv, empty]

/-- Everything there is to know about one registration. -/
theorem identifierFor_spec (m : SymbolMap) (s : SymSet) (h : Inv m) :
    let r := identifierFor m s
    Inv r.1 ∧ r.1.syms[r.2]? = some s ∧ (∃ l, r.1.syms = m.syms ++ l ∧ l.length ≤ 1) ∧
    (r.1 = m ∨ r.1.syms = m.syms ++ [s] ∧ r.2 = m.syms.length ∧ s ∉ m.syms) := by
  simp only [identifierFor]
  cases hl : lookup m.ids s with
  | some i =>
    have := lookup_eq hl
    exact ⟨h, (h.1 s i).1 this, ⟨[], by simp, by simp⟩, .inl rfl⟩
  | none =>
    have hn := lookup_none hl
    have hns : s ∉ m.syms := by
      intro hs
      obtain ⟨i, hi, he⟩ := List.mem_iff_getElem.1 hs
      exact hn i ((h.1 s i).2 (by rw [List.getElem?_eq_getElem hi, he]))
    refine ⟨⟨fun t i => ?_, fun t i j h1 h2 => ?_⟩, by simp, ⟨[s], rfl, by simp⟩, .inr ⟨rfl, rfl, hns⟩⟩
    · simp only [mem_insertKey, Prod.mk.injEq]
      rw [h.1 t i]
      by_cases hi : i < m.syms.length
      · rw [List.getElem?_append_left hi]
        constructor
        · rintro (⟨_, h2⟩ | h2)
          · omega
          · exact h2
        · exact .inr
      · by_cases hi2 : i = m.syms.length
        · subst hi2
          simp [eq_comm]
        · have h1 : m.syms[i]? = none := List.getElem?_eq_none (by omega)
          have h2 : (m.syms ++ [s])[i]? = none := List.getElem?_eq_none (by simp; omega)
          simp [h1, h2, hi2]
    · simp only [mem_insertKey, Prod.mk.injEq] at h1 h2
      rcases h1 with ⟨ht, hi⟩ | h1
      · rcases h2 with ⟨_, hj⟩ | h2
        · omega
        · subst ht; exact absurd h2 (hn j)
      · rcases h2 with ⟨ht, _⟩ | h2
        · subst ht; exact absurd h1 (hn i)
        · exact h.2 t i j h1 h2

theorem find_iff (m : SymbolMap) (h : Inv m) (s : SymSet) (i : Nat) :
    find m s = some i ↔ m.syms[i]? = some s := by
  constructor
  · intro hf; exact (h.1 s i).1 (lookup_eq hf)
  · intro hg
    have hm := (h.1 s i).2 hg
    cases hl : lookup m.ids s with
    | none => exact absurd hm (lookup_none hl i)
    | some j => simp only [find, hl]; exact congrArg some (h.2 s j i (lookup_eq hl) hm)

theorem syms_inj (m : SymbolMap) (h : Inv m) {s : SymSet} {i j : Nat}
    (hi : m.syms[i]? = some s) (hj : m.syms[j]? = some s) : i = j :=
  h.2 s i j ((h.1 s i).2 hi) ((h.1 s j).2 hj)

end SymbolMap

/-! ### remapped_symbol_map -/

/-- `std::set<int>::insert` on a sorted list. -/
def insertId : List Nat → Nat → List Nat
  | [], i => [i]
  | j :: t, i => if i < j then i :: j :: t else if j < i then j :: insertId t i else j :: t

theorem mem_insertId {l : List Nat} {i j : Nat} : j ∈ insertId l i ↔ j = i ∨ j ∈ l := by
  induction l with
  | nil => simp [insertId]
  | cons k t ih =>
    simp only [insertId]
    split
    · simp
    · split
      · simp only [List.mem_cons, ih]
        constructor
        · rintro (h | h | h) <;> simp [h]
        · rintro (h | h | h) <;> simp [h]
      · have : k = i := by omega
        subst this; simp

/-- `sets_for_range` (remapped_symbol_map.cpp 69): ranges to the identifiers of the sets containing them. -/
abbrev SetsForRange := List (Range × List Nat)

namespace Dedup

/-! `std::map<symbol_range, set<int>, sort_by_lower>` operations: keys are compared by lower bound only, and an
iterator is represented by the lower bound of the entry it points at (`none` is `end()`). -/

/-- The entry an iterator points at. -/
def mget (sets : SetsForRange) (k : Int) : Option (Range × List Nat) := sets.find? (fun p => p.1.lo == k)

/-- `map::erase`. -/
def merase (sets : SetsForRange) (k : Int) : SetsForRange := sets.filter (fun p => p.1.lo != k)

/-- `map::insert`: no effect if there is an entry with the same lower bound. -/
def minsert : SetsForRange → Range → List Nat → SetsForRange
  | [], r, v => [(r, v)]
  | p :: t, r, v => if r.lo < p.1.lo then (r, v) :: p :: t else if p.1.lo < r.lo then p :: minsert t r v else p :: t

/-- `sets[r] = v`: an entry with the same lower bound keeps its key (and so its upper bound). -/
def mput : SetsForRange → Range → List Nat → SetsForRange
  | [], r, v => [(r, v)]
  | p :: t, r, v => if r.lo < p.1.lo then (r, v) :: p :: t else if p.1.lo < r.lo then p :: mput t r v else (p.1, v) :: t

/-- `it->second.insert(i)`. -/
def madd (sets : SetsForRange) (k : Int) (i : Nat) : SetsForRange :=
  sets.map (fun p => if p.1.lo = k then (p.1, insertId p.2 i) else p)

/-- `++it`. -/
def mnext (sets : SetsForRange) (k : Int) : Option Int := (sets.find? (fun p => decide (k < p.1.lo))).map (·.1.lo)

/-- `split` (remapped_symbol_map.cpp 75-87); the returned iterator is `original.lower()`. -/
def split (sets : SetsForRange) (original : Range) (point : Int) : SetsForRange :=
  let values := ((mget sets original.lo).map (·.2)).getD []
  minsert (mput (merase sets original.lo) ⟨point, original.hi⟩ values) ⟨original.lo, point⟩ values

/-- `sets[*range].insert(identifier)` (remapped_symbol_map.cpp 113): `std::map::operator[]` compares lower
bounds only, so an entry with the same lower bound is reused. -/
def upsert : SetsForRange → Range → Nat → SetsForRange
  | [], r, i => [(r, [i])]
  | (q, v) :: t, r, i =>
    if r.lo < q.lo then (r, [i]) :: (q, v) :: t
    else if q.lo < r.lo then (q, v) :: upsert t r i
    else (q, insertId v i) :: t

/-- The iterator `firstGreaterThan` (remapped_symbol_map.cpp 93-106). -/
def start (sets : SetsForRange) (r : Range) : Option Int :=
  let pre := sets.takeWhile (fun p => decide (p.1.lo < r.lo))
  let post := sets.dropWhile (fun p => decide (p.1.lo < r.lo))
  match pre.getLast? with
  | some p => if p.1.hi > r.lo then some p.1.lo else post.head?.map (·.1.lo)
  | none => post.head?.map (·.1.lo)

/-- The `while` loop of `add_set` (remapped_symbol_map.cpp 123-167).
Returns `none` when the fuel runs out (the loop would not have terminated by then) or the iterator is invalid. -/
def loop : Nat → SetsForRange → Option Int → Range → Nat → Option SetsForRange
  | 0, _, _, _, _ => none
  | fuel + 1, sets, it, remaining, i =>
    if remaining.hi = remaining.lo then some sets
    else match it with
    -- at the end: add the remaining range and stop (125-128)
    | none => some (mput sets remaining [i])
    | some k =>
      match mget sets k with
      | none => none
      | some (q, _) =>
        -- gap before the current entry: fill it (131-145). Nothing limits the gap to `remaining`.
        if q.lo > remaining.lo then
          let sets := minsert sets ⟨remaining.lo, q.lo⟩ [i]
          loop fuel sets (mnext sets remaining.lo) ⟨q.lo, remaining.hi⟩ i
        else
          -- the entry starts earlier: split it and move to the next entry (148-152)
          let (sets, it) :=
            if q.lo < remaining.lo then
              let sets := split sets q remaining.lo
              (sets, mnext sets q.lo)
            else (sets, some q.lo)
          match it.bind (mget sets) with
          | none => none
          | some (q, _) =>
            -- the entry ends later: split it and stay on the first half (155-157)
            let sets := if q.hi > remaining.hi then split sets q remaining.hi else sets
            match mget sets q.lo with
            | none => none
            | some (q, _) =>
              -- add the identifier and move on (160-166)
              let sets := madd sets q.lo i
              loop fuel sets (mnext sets q.lo) ⟨q.hi, remaining.hi⟩ i

/-- One iteration of the outer loop of `add_set` (remapped_symbol_map.cpp 91-168). -/
def addRange (sets : SetsForRange) (r : Range) (i : Nat) : Option SetsForRange :=
  match (start sets r).bind (mget sets) with
  | none => some (upsert sets r i)
  | some (q, _) =>
    if !q.overlaps r || q = r then some (upsert sets r i)
    else loop (2 * sets.length + 5) sets (some q.lo) r i

/-- `add_set` (remapped_symbol_map.cpp 89-169). -/
def addSet (sets : SetsForRange) (s : SymSet) (i : Nat) : Option SetsForRange :=
  s.foldlM (fun sets r => addRange sets r i) sets

/-- `setsForSets[key] |= r` (remapped_symbol_map.cpp 199). -/
def addKey : List (List Nat × SymSet) → List Nat → Range → List (List Nat × SymSet)
  | [], k, r => [(k, SymSet.unionRange [] r)]
  | (k', s) :: t, k, r => if k' = k then (k', SymSet.unionRange s r) :: t else (k', s) :: addKey t k r

end Dedup

/-- `remapped_symbol_map`: the new symbol map and `m_OldToNew`. -/
structure RemappedMap where
  map : SymbolMap
  oldToNew : List (Nat × List Nat)
deriving Repr

namespace RemappedMap

def empty : RemappedMap := ⟨SymbolMap.empty, []⟩

/-- `m_OldToNew[old].insert(setId)`. -/
def addOld : List (Nat × List Nat) → Nat → Nat → List (Nat × List Nat)
  | [], o, n => [(o, [n])]
  | (o', l) :: t, o, n => if o' = o then (o', insertId l n) :: t else (o', l) :: addOld t o n

/-- `identifier_for_symbols(symbols, oldSymbols)` (remapped_symbol_map.cpp 52-63). -/
def identifierFor (m : RemappedMap) (s : SymSet) (olds : List Nat) : RemappedMap :=
  let r := m.map.identifierFor s
  ⟨r.1, olds.foldl (fun acc o => addOld acc o r.2) m.oldToNew⟩

/-- `new_symbols` (remapped_symbol_map.h 69-73). -/
def newSymbols (m : RemappedMap) (o : Nat) : List Nat :=
  match m.oldToNew.find? (fun p => p.1 == o) with
  | some p => p.2
  | none => []

end RemappedMap

namespace Dedup

/-- First phase of `deduplicate`: `add_set` for every set in the source (remapped_symbol_map.cpp 177-183). -/
def collect (m : SymbolMap) : Option SetsForRange :=
  m.ids.foldlM (fun sets p => addSet sets p.1 p.2) []

/-- Second phase: combine ranges that are in the same sets (remapped_symbol_map.cpp 196-199). -/
def combine (sets : SetsForRange) : List (List Nat × SymSet) :=
  sets.foldl (fun acc p => addKey acc p.2 p.1) []

/-- `deduplicate` (remapped_symbol_map.cpp 175-209). -/
def deduplicate (m : SymbolMap) : Option RemappedMap := do
  let sets ← collect m
  let r0 := match m.find [] with
    | some eps => RemappedMap.empty.identifierFor [] [eps]
    | none => RemappedMap.empty
  return (combine sets).foldl (fun acc p => acc.identifierFor p.2 p.1) r0

end Dedup

end TameParse

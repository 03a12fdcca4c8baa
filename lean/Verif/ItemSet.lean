import Mathlib.Data.Finset.Card
import Mathlib.Data.Finset.Image
import Mathlib.Tactic.Ring
/-
Model of `item_set`, a bit set of item identifiers.

Sources: /repo/TameParse/ContextFree/item_set.cpp 84-310, item_set.h 128-158, 180-228.

Words are `BitVec 32`, the array is a list. Simplifications: identifiers are natural numbers (negative ones, which the grammar never
issues, would write before the array); the mask that `next_item_id` shifts along is recomputed from the bit number.
-/
namespace TameParse

structure ItemSet where
  words : List (BitVec 32)
  size : Nat
deriving DecidableEq

namespace ItemSet

/-- Constructors (item_set.cpp 37-57). -/
def empty : ItemSet := ⟨[], 0⟩

/-- `realloc` and clearing of the new words (item_set.cpp 136-142, 193-199). -/
def grow (l : List (BitVec 32)) (n : Nat) : List (BitVec 32) := l ++ List.replicate (n - l.length) 0

def mask (bit : Nat) : BitVec 32 := 1#32 <<< bit

/-- `contains(int)` (item_set.cpp 229-241). -/
def contains (s : ItemSet) (id : Nat) : Bool :=
  if s.words.length ≤ id / 32 then false else s.words.getD (id / 32) 0 &&& mask (id % 32) != 0

/-- `insert(int)` (item_set.cpp 129-154). -/
def insert (s : ItemSet) (id : Nat) : Bool × ItemSet :=
  let words := grow s.words (id / 32 + 1)
  let w := words.getD (id / 32) 0
  if w &&& mask (id % 32) = 0 then (true, ⟨words.set (id / 32) (w ||| mask (id % 32)), s.size + 1⟩)
  else (false, ⟨words, s.size⟩)

/-- `erase(int)` (item_set.cpp 159-180). -/
def erase (s : ItemSet) (id : Nat) : Bool × ItemSet :=
  if s.words.length ≤ id / 32 then (false, s)
  else
    let w := s.words.getD (id / 32) 0
    if w &&& mask (id % 32) != 0 then (true, ⟨s.words.set (id / 32) (w &&& ~~~ mask (id % 32)), s.size - 1⟩)
    else (false, s)

/-- The inner loop of `count_size` (item_set.cpp 109-114), which clears the lowest bit until none is left. -/
def countBits : Nat → BitVec 32 → Nat
  | 0, _ => 0
  | k + 1, b => if b = 0 then 0 else countBits k (b &&& (b - 1)) + 1

/-- `count_size` (item_set.cpp 103-116). -/
def countSize (l : List (BitVec 32)) : Nat := l.foldl (fun n w => n + countBits 32 w) 0

/-- The loop of `merge` over the words of the other set (item_set.cpp 205-218): whether something changed, and the words. -/
def mergeWords : List (BitVec 32) → List (BitVec 32) → Bool × List (BitVec 32)
  | ws, [] => (false, ws)
  | [], _ :: _ => (false, [])
  | w :: ws, b :: bs =>
    let (changed, rest) := mergeWords ws bs
    if b = 0 then (changed, w :: rest)
    else if b &&& ~~~ w = 0 then (changed, w :: rest)
    else (true, (w ||| b) :: rest)

/-- `merge` (item_set.cpp 191-226). -/
def merge (s t : ItemSet) : Bool × ItemSet :=
  let (changed, words) := mergeWords (grow s.words t.words.length) t.words
  (changed, ⟨words, if changed then countSize words else s.size⟩)

/-- The loop of `next_item_id` (item_set.cpp 273-306). -/
def nextLoop (words : List (BitVec 32)) : Nat → Nat → Nat → Nat
  | 0, _, _ => words.length * 32
  | k + 1, set, bit =>
    if set < words.length then
      if bit = 0 ∧ words.getD set 0 = 0 then
        if set + 1 < words.length ∧ words.getD (set + 1) 0 &&& 1 ≠ 0 then (set + 1) * 32
        else nextLoop words k (set + 1) bit
      else
        let (set', bit') := if 32 ≤ bit + 1 then (set + 1, 0) else (set, bit + 1)
        if words.length ≤ set' then set' * 32
        else if words.getD set' 0 &&& mask bit' ≠ 0 then set' * 32 + bit'
        else nextLoop words k set' bit'
    else words.length * 32

/-- `next_item_id` (item_set.cpp 267-310). -/
def next (s : ItemSet) (id : Nat) : Nat := nextLoop s.words (s.words.length * 32 + 1) (id / 32) (id % 32)

/-- `begin` (item_set.cpp 250-262). -/
def first (s : ItemSet) : Nat :=
  if s.words.length = 0 then 0
  else if s.words.getD 0 0 &&& 1 ≠ 0 then 0
  else s.next 0

/-- Iteration from `id` to `end()` (item_set.h 226-228). -/
def iterFrom (s : ItemSet) : Nat → Nat → List Nat
  | 0, _ => []
  | k + 1, id => if id = s.words.length * 32 then [] else id :: iterFrom s k (s.next id)

/-- All the identifiers the iterator visits. -/
def iter (s : ItemSet) : List Nat := iterFrom s (s.words.length * 32 + 1) s.first

/-- `operator==` (item_set.h 128-139). -/
def eq (s t : ItemSet) : Bool := s.words == t.words

/-- The element loop of `operator<` (item_set.h 151-154). -/
def ltWords : List (BitVec 32) → List (BitVec 32) → Bool
  | a :: s, b :: t => if a < b then true else if b < a then false else ltWords s t
  | _, _ => false

/-- `operator<` (item_set.h 145-158). -/
def lt (s t : ItemSet) : Bool :=
  if s.words.length < t.words.length then true
  else if t.words.length < s.words.length then false
  else ltWords s.words t.words

end ItemSet
end TameParse

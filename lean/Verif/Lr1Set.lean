import Verif.ItemSetProps
/-
Model of `lr1_item_set`: a set of LR(1) items that keeps one entry for each LR(0) item and merges the lookahead of the others into it.

Sources: /repo/TameParse/Lr/lr1_item_set.h 52-118, lr_item.cpp 82-100 (`lr0_item::operator<`, `operator==`).

An LR(0) item is represented by what the comparison looks at: the offset and the grammar's identifier of the rule (C28: equal
identifiers are equal rules). The `std::set` is the list of its entries in iteration order, an iterator is the part of that list from
the entry on, and the lookahead is the bit set of Verif/ItemSet.lean. Simplification: on a merge the code keeps the rule object of the
new item, which compares equal to the old one.
-/
namespace TameParse

/-- What the comparison of LR(0) items looks at. -/
structure Lr0 where
  offset : Int
  rule : Int
deriving DecidableEq

/-- `lr0_item::operator<` (lr_item.cpp 82-90). -/
def Lr0.lt (a b : Lr0) : Bool :=
  if a.offset < b.offset then true
  else if a.offset > b.offset then false
  else decide (a.rule < b.rule)

/-- `lr0_item::operator==` (lr_item.cpp 93-100). -/
def Lr0.eq (a b : Lr0) : Bool :=
  if a.offset ≠ b.offset then false else decide (a.rule = b.rule)

namespace Lr1Set

abbrev Entry := Lr0 × ItemSet

/-- `std::set::insert`: nothing happens if an equivalent entry is there. -/
def setInsert (e : Entry) : List Entry → List Entry × Bool
  | [] => ([e], true)
  | f :: l =>
    if f.1.lt e.1 then
      let r := setInsert e l
      (f :: r.1, r.2)
    else if e.1.lt f.1 then (e :: f :: l, true)
    else (f :: l, false)

/-- `insert` (lr1_item_set.h 78-118): the set, the entry the returned iterator refers to, and the flag. -/
def insert (data : List Entry) (new : Entry) : List Entry × Entry × Bool :=
  let before := data.takeWhile (fun e => e.1.lt new.1)
  match data.dropWhile (fun e => e.1.lt new.1) with
  | [] => (before ++ [new], new, true)
  | existing :: after =>
    if existing.1.eq new.1 then
      if new.2.size = existing.2.size ∧ new.2.eq existing.2 = true then (data, existing, false)
      else
        let merged := (existing.2.merge new.2).2
        if merged.size = existing.2.size then (data, existing, false)
        else
          let r := setInsert (new.1, merged) (before ++ after)
          (r.1, (new.1, merged), r.2)
    else (before ++ new :: existing :: after, new, true)

/-- A sequence of insertions into an empty set. -/
def insertAll (l : List Entry) : List Entry := l.foldl (fun d e => (insert d e).1) []

end Lr1Set
end TameParse

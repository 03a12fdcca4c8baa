import Verif.First
/-
LR(1) closures and the cache for them.

Sources: /repo/TameParse/ContextFree/item.cpp 110-145 (`fill_follow`), 151-167 (`add`, `insert_closure_item`), 185-251 (`cache_closure`),
standard_items.cpp 86-102 (`nonterminal::closure`), 199-205 (`empty_item::closure`), ebnf_items.cpp 201-215, 251-266, 305-322, 370-431.

A set of LR(1) items is a list of LR(0) items with their lookahead of which only the members matter, one entry for each LR(0) item (C33).
`grammar::first` is a function: FIRST sets do not change once they are computed (C30). `m_CachingClosure` belongs to an item object, and
it is set while a call for the object runs, so the objects that have it set are those of the enclosing calls; the same item may be
several objects. Which calls find it set is a parameter here. Simplification: an alternative whose only item is an alternative is
flattened recursively instead of with a stack, and an alternative that occurs twice is flattened twice, which gives the same rules.
-/
namespace TameParse
open AssocMap

/-- An LR(0) item (lr_item.h): a rule and the position of the dot. -/
structure LItem where
  rule : Rule
  dot : Nat
deriving DecidableEq

namespace Closure

/-! Rules of an item -/

mutual
/-- Flattening (ebnf_items.cpp 377-430). -/
def flattenItem : Item → List (List Item)
  | .ebnf .alternative rs => flattenRules rs
  | x => [[x]]

@[inherit_doc flattenItem]
def flattenRule : List Item → List (List Item)
  | [x] => flattenItem x
  | [] => [[]]
  | x :: y :: l => [x :: y :: l]

@[inherit_doc flattenItem]
def flattenRules : List (List Item) → List (List Item)
  | [] => []
  | r :: rs => flattenRule r ++ flattenRules rs
end

/-- The rules that the `closure` function of an item adds. -/
def closRules (g : Gram) : Item → List (List Item)
  | .nonterminal n => g.rules n
  | .ebnf .optional rs => [[], Gram.ebnfRule rs]
  | .ebnf .repeating rs => [Gram.ebnfRule rs, .ebnf .repeating rs :: Gram.ebnfRule rs]
  | .ebnf .repeatZero rs => [[], .ebnf .repeatZero rs :: Gram.ebnfRule rs]
  | .ebnf .alternative rs => flattenRules rs
  | _ => []

/-! Sets of LR(1) items -/

abbrev Set1 := List (LItem × List Item)

/-- `lr1_item_set::insert`: the set, and whether it was changed. -/
def insert (i : LItem) (la : List Item) : Set1 → Set1 × Bool
  | [] => ([(i, la)], true)
  | (j, old) :: s =>
    if j = i then
      if ∀ a ∈ la, a ∈ old then ((j, old) :: s, false) else ((j, old ++ la) :: s, true)
    else ((j, old) :: (insert i la s).1, (insert i la s).2)

section
variable (first : Item → List Item)

/-- The loop of `fill_follow` and what follows it (item.cpp 120-143): `follow` is what has been collected, the list is what is left of
the rule. -/
def followLoop (la : List Item) : List Item → List Item → List Item
  | follow, [] => if .empty ∈ follow then follow.filter (· ≠ .empty) ++ la else follow
  | follow, x :: l => if .empty ∈ follow then followLoop la (follow.filter (· ≠ .empty) ++ first x) l else follow

/-- `fill_follow` (item.cpp 110-145). -/
def fillFollow (i : LItem) (la : List Item) : List Item :=
  match i.rule.items.drop (i.dot + 1) with
  | [] => la
  | x :: l => followLoop first la (first x) l

/-- The cache of the grammar and the set that is being extended. -/
structure State where
  cache : List (Item × Set1)
  set : Set1

/-- `insert_closure_item` (item.cpp 157-167); `rec` is `cache_closure`. -/
def insertClosureItem (rec : LItem → List Item → State → Option State) (i : LItem) (la : List Item) (st : State) : Option State :=
  let r := insert i la st.set
  match i.rule.items with
  | [] => some { st with set := r.1 }
  | .terminal _ :: _ => some { st with set := r.1 }
  | _ :: _ => if r.2 then rec i la { st with set := r.1 } else some { st with set := r.1 }

/-- Adding the rules of an item one after the other. -/
def addRules (rec : LItem → List Item → State → Option State) (x : Item) (follow : List Item) : List (List Item) → State → Option State
  | [], st => some st
  | r :: rs, st =>
    match insertClosureItem rec ⟨⟨x, r⟩, 0⟩ follow st with
    | none => none
    | some st => addRules rec x follow rs st

/-- `closure` of the item `x` after the dot of `i`. -/
def closureItem (rec : LItem → List Item → State → Option State) (g : Gram) (x : Item) (i : LItem) (la : List Item) (st : State) : Option State :=
  match x with
  | .empty => some { st with set := (insert ⟨i.rule, i.dot + 1⟩ la st.set).1 }
  | x => addRules rec x (fillFollow first i la) (closRules g x) st

/-- The loop that substitutes the follow set for `$` (item.cpp 226-247). -/
def substitute (follow : List Item) : Set1 → Set1 → Set1
  | [], s => s
  | (i, la) :: c, s => substitute follow c (insert i (if .eoi ∈ la then la.filter (· ≠ .eoi) ++ follow else la) s).1

/-- The item of the fake rule (item.cpp 206-211). -/
def fake (x : Item) : LItem := ⟨⟨.eoi, [x]⟩, 0⟩

/-- `cache_closure` (item.cpp 185-251). `caching` says whether the flag is set, given the items of the enclosing calls and the item
after the dot. -/
def cacheClosure (caching : List Item → LItem → Bool) (g : Gram) : Nat → List Item → LItem → List Item → State → Option State
  | 0, _, _, _, _ => none
  | fuel + 1, flags, i, la, st =>
    match i.rule.items[i.dot]? with
    | none => none
    | some x =>
      if caching flags i then closureItem first (cacheClosure caching g fuel flags) g x i la st
      else if ((get x st.cache).getD []).isEmpty then
        match closureItem first (cacheClosure caching g fuel (x :: flags)) g x (fake x) [.eoi] ⟨st.cache, []⟩ with
        | none => none
        | some r => some ⟨put x r.set r.cache, substitute (fillFollow first i la) r.set st.set⟩
      else some ⟨st.cache, substitute (fillFollow first i la) ((get x st.cache).getD []) st.set⟩

end
end Closure
end TameParse

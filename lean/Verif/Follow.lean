import Verif.First
/-
FOLLOW sets.

Sources: /repo/TameParse/ContextFree/grammar.cpp 283-395 (`follow`, `fill_follow`), item_set.cpp 191-226 (`merge`), ebnf_items.cpp 49-91 (the
rules of an EBNF item have the item itself as their nonterminal).

Item sets are lists of which only the members matter, as in First.lean. The maps of the C++ code (`m_CachedFollowSets`, `dependencies`) are
association lists; the order in which the dependencies are visited (by item and by identifier) is left open: `order` stands for it.
-/
namespace TameParse
open AssocMap

namespace Gram

abbrev ItemSets := List (Item × List Item)

/-- `merge` (item_set.cpp 191-226): the members of both sets, and whether there was a new one (C26 has it bit by bit). -/
def unite (s t : List Item) : List Item × Bool :=
  (s ++ t.filter fun x => !s.contains x, t.any fun x => !s.contains x)

/-- The sets of `fill_follow`: cached FIRST sets, FOLLOW sets, and for each item those whose FOLLOW sets it gets. -/
structure FollowState where
  firsts : ItemCache
  follow : ItemSets
  depend : ItemSets

/-- The loop over the following items (grammar.cpp 363-375). The `Bool` tells that the end of the rule was reached. -/
def followRest (g : Gram) (fuel : Nat) : ItemCache → List Item → List Item → Option (ItemCache × List Item × Bool)
  | c, s, [] => some (c, s, true)
  | c, s, y :: ys =>
    match g.first fuel c y with
    | none => none
    | some (c, f) => if Item.empty ∈ f then followRest g fuel c (unite s f).1 ys else some (c, (unite s f).1, false)

/-- One item of a rule of `X` (grammar.cpp 354-385), without its children. -/
def followItem (g : Gram) (fuel : Nat) (X : Item) (st : FollowState) (x : Item) (rest : List Item) : Option FollowState :=
  match followRest g fuel st.firsts ((get x st.follow).getD []) rest with
  | none => none
  | some (c, s, atEnd) =>
    some ⟨c, put x s st.follow, if atEnd then put x (unite ((get x st.depend).getD []) [X]).1 st.depend else st.depend⟩

mutual
/-- The items of a rule of `X` from some position on (grammar.cpp 347-394). -/
def fillFollow (g : Gram) (fuel : Nat) (X : Item) : FollowState → List Item → Option FollowState
  | st, [] => some st
  | st, .terminal _ :: rest => fillFollow g fuel X st rest
  | st, x :: rest =>
    match followItem g fuel X st x rest with
    | none => none
    | some st =>
      match fillInner g fuel st x with
      | none => none
      | some st => fillFollow g fuel X st rest

/-- The children of an EBNF item (grammar.cpp 388-393). -/
def fillInner (g : Gram) (fuel : Nat) : FollowState → Item → Option FollowState
  | st, .ebnf k rs => fillRules g fuel (.ebnf k rs) st rs
  | st, _ => some st

/-- The rules of an item, one after the other (grammar.cpp 295-297 and 390-392). -/
def fillRules (g : Gram) (fuel : Nat) (X : Item) : FollowState → List (List Item) → Option FollowState
  | st, [] => some st
  | st, r :: rs =>
    match fillFollow g fuel X st r with
    | none => none
    | some st => fillRules g fuel X st rs
end

/-- All rules of the grammar (grammar.cpp 294-298); `nts` are the keys of `m_Nonterminals`. -/
def fillAll (g : Gram) (fuel : Nat) : FollowState → List Int → Option FollowState
  | st, [] => some st
  | st, n :: nts =>
    match fillRules g fuel (.nonterminal n) st (g.rules n) with
    | none => none
    | some st => fillAll g fuel st nts

/-- One dependency (grammar.cpp 312-328). -/
def dependStep (x : Item) (p : ItemSets × Bool) (y : Item) : ItemSets × Bool :=
  if y = x then p
  else match get y p.1 with
    | none => p
    | some s => (put x (unite ((get x p.1).getD []) s).1 p.1, p.2 || (unite ((get x p.1).getD []) s).2)

/-- One pass over the dependencies (grammar.cpp 303-330). -/
def dependPass (deps : ItemSets) (m : ItemSets) : ItemSets × Bool :=
  deps.foldl (fun p d => d.2.foldl (dependStep d.1) p) (m, false)

/-- The passes, until nothing changes (grammar.cpp 301-331). -/
def dependLoop (deps : ItemSets) : Nat → ItemSets → Option ItemSets
  | 0, _ => none
  | fuel + 1, m => if (dependPass deps m).2 then dependLoop deps fuel (dependPass deps m).1 else some (dependPass deps m).1

/-- The caches of a grammar (grammar.h `m_CachedFirstSets`, `m_CachedFollowSets`). -/
structure Caches where
  firsts : ItemCache := []
  follows : ItemSets := []

/-- `grammar::follow` (grammar.cpp 287-339); `fuel` is for the calls of `first`, `passes` for the loop. -/
def follow (g : Gram) (nts : List Int) (order : ItemSets → ItemSets) (fuel passes : Nat) (c : Caches) (x : Item) :
    Option (Caches × List Item) :=
  if c.follows = [] then
    match fillAll g fuel ⟨c.firsts, [], []⟩ nts with
    | none => none
    | some st =>
      match dependLoop (order st.depend) passes st.follow with
      | none => none
      | some m => some (⟨st.firsts, m⟩, (get x m).getD [])
  else some (c, (get x c.follows).getD [])

/-- A question about the sets of a grammar. -/
inductive Query
  | first (x : Item)
  | follow (x : Item)

/-- The caches after some questions, in any order. -/
def asked (g : Gram) (nts : List Int) (order : ItemSets → ItemSets) (fuel passes : Nat) : Caches → List Query → Option Caches
  | c, [] => some c
  | c, .first x :: qs =>
    match g.first fuel c.firsts x with
    | none => none
    | some (f, _) => asked g nts order fuel passes { c with firsts := f } qs
  | c, .follow x :: qs =>
    match g.follow nts order fuel passes c x with
    | none => none
    | some (c, _) => asked g nts order fuel passes c qs

end Gram
end TameParse

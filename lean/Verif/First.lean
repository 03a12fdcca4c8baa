import Verif.GrammarIds
import Mathlib.Logic.Relation
import Mathlib.Data.List.Basic
/-
FIRST sets.

Sources: /repo/TameParse/ContextFree/grammar.cpp 238-280 (`first`, `first_for_rule`), standard_items.cpp 59-64, 111-157, 191-196, 246-251,
285-290, ebnf_items.cpp 181-198, 234-248, 285-302, 348-368, guard.cpp 99-104.

An item set is a list of items of which only the members matter (C26 shows that item sets behave as finite sets; insertion, merging and
erasing are by members). The cache of FIRST sets is an association list from items to sets. A C++ call that does not return is an
exhausted `fuel`; `first_total` shows how much is enough. A guard is a symbol of its own: `guard::first` holds just the guard.
-/
namespace TameParse
open AssocMap

/-- The rules of a grammar: the right-hand sides for each nonterminal (grammar.h `m_Nonterminals`, grammar.cpp 86-100). -/
structure Gram where
  rules : Int → List (List Item)

abbrev ItemCache := List (Item × List Item)

namespace Gram

/-- `merge` and `insert` add members; `erase` of the empty item removes it. -/
def dropEmpty (s : List Item) : List Item := s.filter (· ≠ .empty)

section Body
variable (rec : ItemCache → Item → Option (ItemCache × List Item))

/-- standard_items.cpp 137-152: the items of a rule after the first one. -/
def firstTail : ItemCache → List Item → List Item → Option (ItemCache × List Item)
  | c, result, [] => some (c, result)
  | c, result, x :: xs =>
    match rec c x with
    | none => none
    | some (c, s) =>
      if Item.empty ∈ s then firstTail c (dropEmpty result ++ s) xs else some (c, dropEmpty result ++ s)

/-- standard_items.cpp 121-154: the rules of a nonterminal. -/
def firstRules : ItemCache → List Item → List (List Item) → Option (ItemCache × List Item)
  | c, result, [] => some (c, result)
  | c, result, [] :: rs => firstRules c (result ++ [.empty]) rs
  | c, result, (x :: xs) :: rs =>
    match rec c x with
    | none => none
    | some (c, s) =>
      if Item.empty ∈ s then
        match firstTail rec c (result ++ s) xs with
        | none => none
        | some (c, result) => firstRules c result rs
      else firstRules c (result ++ s) rs

/-- ebnf_items.cpp 353-365: the first item of each rule of an alternative. -/
def firstHeads : ItemCache → List Item → List (List Item) → Option (ItemCache × List Item)
  | c, result, [] => some (c, result)
  | c, result, [] :: rs => firstHeads c (result ++ [.empty]) rs
  | c, result, (x :: _) :: rs =>
    match rec c x with
    | none => none
    | some (c, s) => firstHeads c (result ++ s) rs

/-- `get_rule` (ebnf_items.cpp 154-157). An EBNF item always has a rule. -/
def ebnfRule (rs : List (List Item)) : List Item := rs.headD []

/-- `item::first` for each kind of item. -/
def itemFirst (g : Gram) (c : ItemCache) : Item → Option (ItemCache × List Item)
  | .nonterminal n => firstRules rec c [.nonterminal n] (g.rules n)
  | .ebnf .optional rs | .ebnf .repeatZero rs =>
    match ebnfRule rs with
    | [] => some (c, [.empty])
    | x :: _ =>
      match rec c x with
      | none => none
      | some (c, s) => some (c, .empty :: s)
  | .ebnf .repeating rs =>
    match ebnfRule rs with
    | [] => some (c, [])
    | x :: _ => rec c x
  | .ebnf .alternative rs => firstHeads rec c [] rs
  | x => some (c, [x])

end Body

/-- `grammar::first` (grammar.cpp 238-253). -/
def first (g : Gram) : Nat → ItemCache → Item → Option (ItemCache × List Item)
  | 0, _, _ => none
  | fuel + 1, c, x =>
    match get x c with
    | some s => some (c, s)
    | none =>
      match itemFirst (first g fuel) g (put x [] c) x with
      | none => none
      | some (c, s) => some (put x s c, s)

/-- The loop of `first_for_rule` (grammar.cpp 264-275). -/
def firstForRuleFrom (g : Gram) (fuel : Nat) : ItemCache → List Item → List Item → Option (ItemCache × List Item)
  | c, result, [] => some (c, result ++ [.empty])
  | c, result, x :: xs =>
    match g.first fuel c x with
    | none => none
    | some (c, s) =>
      if Item.empty ∈ dropEmpty result ++ s then firstForRuleFrom g fuel c (dropEmpty result ++ s) xs
      else some (c, dropEmpty result ++ s)

/-- `first_for_rule` (grammar.cpp 256-280). -/
def firstForRule (g : Gram) (fuel : Nat) (c : ItemCache) (r : List Item) : Option (ItemCache × List Item) :=
  if r = [] then some (c, [.empty]) else firstForRuleFrom g fuel c [] r

/-- Queries in any order, one after the other. -/
def queries (g : Gram) (fuel : Nat) : ItemCache → List Item → Option ItemCache
  | c, [] => some c
  | c, x :: xs =>
    match g.first fuel c x with
    | none => none
    | some (c, _) => queries g fuel c xs

/-! ### The language of a grammar -/

/-- Symbols of sentences. -/
def isLeaf : Item → Bool
  | .terminal _ | .guard _ _ | .eoi | .eog => true
  | _ => false

/-- The productions of an item: the rules of a nonterminal, and the usual ones for EBNF items (they are the rules that the `closure`
functions of ebnf_items.cpp generate, 201-215, 251-266, 305-322, 371-440). -/
def prods (g : Gram) : Item → List (List Item)
  | .nonterminal n => g.rules n
  | .ebnf .optional rs => [[], ebnfRule rs]
  | .ebnf .repeating rs => [ebnfRule rs, .ebnf .repeating rs :: ebnfRule rs]
  | .ebnf .repeatZero rs => [[], .ebnf .repeatZero rs :: ebnfRule rs]
  | .ebnf .alternative rs => rs
  | .empty => [[]]
  | _ => []

/-- One step of a derivation. -/
def Step (g : Gram) (u v : List Item) : Prop := ∃ a x b r, u = a ++ x :: b ∧ r ∈ g.prods x ∧ v = a ++ r ++ b

/-- Sentential forms that can be derived. -/
def Derives (g : Gram) : List Item → List Item → Prop := Relation.ReflTransGen g.Step

/-- C31: every symbol in the set begins a sentential form, and the empty item is there only for items that derive the empty string. -/
def FirstSound (g : Gram) (x : Item) (s : List Item) : Prop :=
  (∀ t ∈ s, isLeaf t → ∃ rest, g.Derives [x] (t :: rest)) ∧ (Item.empty ∈ s → g.Derives [x] [])

/-- C32: every symbol that begins a sentential form is in the set, and so is the empty item if the empty string can be derived. -/
def FirstComplete (g : Gram) (x : Item) (s : List Item) : Prop :=
  (∀ t rest, isLeaf t → g.Derives [x] (t :: rest) → t ∈ s) ∧ (g.Derives [x] [] → Item.empty ∈ s)

/-- The rules written inside an item. -/
def ownRules (g : Gram) : Item → List (List Item)
  | .nonterminal n => g.rules n
  | .ebnf _ rs => rs
  | _ => []

end Gram
end TameParse

import Verif.Lookahead

/-!
# Where the LR(1) resolver looks

Sources: /repo/TameParse/Lr/lr1_rewriter.cpp 80-147, lalr_builder.cpp 277-317 (what is recorded about the lookaheads), 569-630 (`find_lookahead_source`).
The rest of the resolver is `rewriteLr1` in `Rewriters.lean`, which has the sets of states as a parameter.
-/

namespace TameParse
namespace Lalr
open AssocMap Closure

/-- An entry of `m_SpontaneousLookahead`: where it comes from, where it goes, and the lookahead. -/
structure Record where
  source : Key
  target : Key
  la : List Item

section
variable (self : LItem → Set1)

/-- What is recorded for an item of a closure (lalr_builder.cpp 283-317). Entries for the same pair of items are merged in the source, and are separate here. -/
def recordClose (m : Mach) (s : Nat) (i : LItem) (c : LItem × List Item) : Option Record :=
  match c.1.rule.items[c.1.dot]? with
  | none => none
  | some x =>
    match tr m s x with
    | none => none
    | some t => if adv c.1 ∈ kern m t ∧ c.2.any (fun a => decide (a ≠ .empty)) = true then some ⟨(s, i), (t, adv c.1), c.2⟩ else none

/-- `m_Spontaneous` and `m_SpontaneousLookahead` after `complete_lookaheads` (lalr_builder.cpp 252-331). -/
def records (m : Mach) : List Record :=
  (List.range m.states.length).flatMap fun s => (kern m s).flatMap fun i =>
    if i.rule.items.length ≤ i.dot then [] else (self i).filterMap (recordClose m s i)

end

section
variable (R : List Record) (P : Props) (m : Mach) (a : Item)

/-- The sources found in the spontaneous tables (lalr_builder.cpp 592-608). -/
def generators (v : Key) : List Key := (R.filter fun r => decide (r.target = v) && decide (a ∈ r.la)).map (·.source)

/-- The sources found in the propagation tables (lalr_builder.cpp 611-628). -/
def feeders (v : Key) : List Key := (P.filter fun e => decide (a ∈ laOf m e.1) && decide (v ∈ e.2)).map Prod.fst

/-- The loop of `find_lookahead_source` (lalr_builder.cpp 582-629). -/
def findLoop : Nat → List Key → List Key → List Key → Option (List Key)
  | _, _, [], found => some found
  | 0, _, _ :: _, _ => none
  | fuel + 1, visited, v :: todo, found =>
    if v ∈ visited then findLoop fuel visited todo found
    else findLoop fuel (v :: visited) (todo ++ feeders P m a v) (found ++ generators R a v ++ feeders P m a v)

/-- `find_lookahead_source` (lalr_builder.cpp 569-630). -/
def findSource (fuel : Nat) (v : Key) : Option (List Key) := findLoop R P m a fuel [] [v] []

/-- The states that an item can reduce to (lr1_rewriter.cpp 98-124). -/
def returns (fuel : Nat) (s : Nat) (i : LItem) : Option (List Nat) :=
  (findSource R P m a fuel (s, i)).map fun l => (l.filter fun u => decide (u.2.rule.items[u.2.dot]? = some i.rule.nonterminal)).map Prod.fst

/-- `targetStateForItem` (lr1_rewriter.cpp 85-125): only the items that the state was made from are looked at. -/
def targetsFor (fuel : Nat) (s : Nat) : Option (List (List Nat)) :=
  ((kern m s).filter fun i => decide (i.rule.items.length ≤ i.dot) && decide (a ∈ laOf m (s, i))).mapM (returns R P m a fuel s)

end

end Lalr
end TameParse

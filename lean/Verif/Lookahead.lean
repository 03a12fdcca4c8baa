import Verif.Lalr
import Verif.Rewriters

/-!
# The lookaheads of the LALR builder and the actions of its states

Sources: /repo/TameParse/Lr/lalr_builder.cpp 230-366 (`complete_lookaheads`), 380-423 (`generate_closure`), 425-447 (`add_guard`), 449-546
(`actions_for_state`), lalr_machine.cpp 98-117 (`add_lookahead`).

* An item of the machine (`lr_item_id`) is named by its state and the item itself; the order of these names is a parameter `lt`.
* `self i` is the set made in lines 271-275: the item with the lookahead `{ε}`, and what `cache_closure` adds to that set.
* `clos` is `cache_closure` as in `Lalr.lean`. `guard::initial` is a parameter `initial`.
* What is recorded for the queries `spontaneous_for_item` and `lookahead_for_spontaneous` is left out.
* Adding lookaheads to the set that is being walked through (an item that propagates to itself) adds nothing; the model takes the set as it
  was before the loop.
* The action rewriters are in `Rewriters.lean`.
-/

namespace TameParse
namespace Lalr

open AssocMap Closure

abbrev Key := Nat × LItem

/-- `lalr_state::lookahead_for` (lalr_state.cpp 93-100). -/
def laOf (m : Mach) (k : Key) : List Item := (get k.2 (m.states.getD k.1 [])).getD []

/-- The loop of `add_lookahead` (lalr_machine.cpp 103-109): the set, and whether it was changed. -/
def addLa : List Item → List Item → List Item × Bool
  | [], old => (old, false)
  | a :: new, old => if a = .empty then addLa new old else if a ∈ old then addLa new old else ((addLa new (old ++ [a])).1, true)

/-- `add_lookahead` (lalr_machine.cpp 98-112). -/
def addLookahead (m : Mach) (k : Key) (new : List Item) : Mach × Bool :=
  match get k.2 (m.states.getD k.1 []) with
  | none => (m, false)
  | some old => ({ m with states := m.states.set k.1 (put k.2 (addLa new old).1 (m.states.getD k.1 [])) }, (addLa new old).2)

section
variable (lt : Key → Key → Bool)

/-- A new element of a `set<lr_item_id>` in its place. -/
def place (x : Key) : List Key → List Key
  | [] => [x]
  | y :: l => if lt x y then x :: y :: l else y :: place x l

/-- `set<lr_item_id>::insert`. -/
def keyAdd (x : Key) (l : List Key) : List Key := if x ∈ l then l else place lt x l

/-- `m_Propagate`. -/
abbrev Props := List (Key × List Key)

/-- What is done for an item of the closure (lalr_builder.cpp 283-329). -/
def spontClose (s : Nat) (i : LItem) (p : Mach × Props) (c : LItem × List Item) : Mach × Props :=
  match c.1.rule.items[c.1.dot]? with
  | none => p
  | some x =>
    match tr p.1 s x with
    | none => p
    | some t =>
      if adv c.1 ∈ kern p.1 t then
        ((addLookahead p.1 (t, adv c.1) c.2).1,
          if .empty ∈ c.2 then put (s, i) (keyAdd lt (t, adv c.1) ((get (s, i) p.2).getD [])) p.2 else p.2)
      else p

variable (self : LItem → Set1)

/-- What is done for an item of a state (lalr_builder.cpp 258-330). -/
def spontItem (s : Nat) (p : Mach × Props) (i : LItem) : Mach × Props :=
  if i.rule.items.length ≤ i.dot then p else (self i).foldl (spontClose lt s i) p

/-- What is done for a state (lalr_builder.cpp 253-330). -/
def spontState (p : Mach × Props) (s : Nat) : Mach × Props := (kern p.1 s).foldl (spontItem lt self s) p

/-- The first part of `complete_lookaheads` (lalr_builder.cpp 252-331). -/
def spontaneous (m : Mach) : Mach × Props := (List.range m.states.length).foldl (spontState lt self) (m, [])

/-- Propagation to one item (lalr_builder.cpp 356-364). -/
def propStep (P : Props) (la : List Item) (p : Mach × List Key) (v : Key) : Mach × List Key :=
  ((addLookahead p.1 v la).1, if (addLookahead p.1 v la).2 && (get v P).isSome then keyAdd lt v p.2 else p.2)

/-- The loop that propagates (lalr_builder.cpp 342-365). -/
def propLoop (P : Props) : Nat → Mach → List Key → Option Mach
  | _, m, [] => some m
  | 0, _, _ :: _ => none
  | fuel + 1, m, u :: todo =>
    propLoop P fuel (((get u P).getD []).foldl (propStep lt P (laOf m u)) (m, todo)).1 (((get u P).getD []).foldl (propStep lt P (laOf m u)) (m, todo)).2

/-- `complete_lookaheads` (lalr_builder.cpp 230-366). -/
def completeLookaheads (fuel : Nat) (m : Mach) : Option Mach :=
  propLoop lt (spontaneous lt self m).2 fuel (spontaneous lt self m).1 (((spontaneous lt self m).2.map Prod.fst).foldl (fun l k => keyAdd lt k l) [])

end

section
variable (clos : LItem → List Item → Set1)

/-- Adding the items of a closure (lalr_builder.cpp 415-420): the closure, and those that are new. -/
def addNew1 : Set1 → Set1 → Set1 × Set1
  | [], c => (c, [])
  | (i, la) :: s, c =>
    ((addNew1 s (insert i la c).1).1, if (insert i la c).2 then (i, la) :: (addNew1 s (insert i la c).1).2 else (addNew1 s (insert i la c).1).2)

/-- The loop of `generate_closure` (lalr_builder.cpp 399-422). -/
def genLoop : Nat → Set1 → Set1 → Option Set1
  | _, c, [] => some c
  | 0, _, _ :: _ => none
  | fuel + 1, c, (i, la) :: waiting =>
    if i.rule.items.length ≤ i.dot then genLoop fuel c waiting
    else genLoop fuel (addNew1 (clos i la) c).1 (waiting ++ (addNew1 (clos i la) c).2)

/-- `generate_closure` (lalr_builder.cpp 381-423). -/
def generateClosure (fuel : Nat) (state : Set1) : Option Set1 :=
  genLoop clos fuel (state.foldl (fun c p => (insert p.1 p.2 c).1) []) state

variable (initial : Item → List Item)

/-- `add_guard` (lalr_builder.cpp 426-447). -/
def addGuardActions (m : Mach) (x : Item) (acts : List LrAction) : List LrAction :=
  match x with
  | .guard p l =>
    match get ⟨.guard p l, l⟩ m.guards with
    | none => acts
    | some k => ((initial x).filter ParserTables.isTerminal).foldl (fun acts a => Rewriters.add acts ⟨.guard, a, k, ⟨.guard p l, l⟩⟩) acts
  | _ => acts

/-- The type of the action for a transition (lalr_builder.cpp 490-494). -/
def shiftType : Item → ActType
  | .terminal _ => .shift
  | .guard _ _ => .shift
  | _ => .goto

/-- The type of the action for an item at the end of its rule (lalr_builder.cpp 512-515). -/
def reduceType : Item → ActType
  | .empty => .accept
  | .guard _ _ => .accept
  | _ => .reduce

/-- The symbols that a reduction is made for (lalr_builder.cpp 520-531). -/
def reduceSymbol : Item → Bool
  | .terminal _ => true
  | .eoi => true
  | .eog => true
  | .guard _ _ => true
  | _ => false

/-- The actions for an item of the closure (lalr_builder.cpp 500-537). -/
def reduceActions (m : Mach) (acts : List LrAction) (c : LItem × List Item) : List LrAction :=
  if c.1.rule.items.length ≤ c.1.dot then
    (c.2.filter reduceSymbol).foldl (fun acts a => Rewriters.add (addGuardActions initial m a acts) ⟨reduceType c.1.rule.nonterminal, a, -1, c.1.rule⟩) acts
  else acts

/-- The actions for a closure and the transitions of its state (lalr_builder.cpp 472-537). -/
def actionsFor (m : Mach) (transits : List (Item × Nat)) (closure : Set1) : List LrAction :=
  closure.foldl (reduceActions initial m)
    (transits.foldl (fun acts p => Rewriters.add acts ⟨shiftType p.1, p.1, p.2, Rewriters.emptyRule⟩)
      (transits.foldl (fun acts p => addGuardActions initial m p.1 acts) []))

/-- `actions_for_state` before the rewriters (lalr_builder.cpp 452-546). -/
def actionsForState (fuel : Nat) (m : Mach) (s : Nat) : Option (List LrAction) :=
  (generateClosure clos fuel (m.states.getD s [])).map fun c => actionsFor initial m (m.trans.getD s []) c

end
end Lalr
end TameParse

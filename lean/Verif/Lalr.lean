import Verif.Closure
import Verif.ParserTables

/-!
# The LALR builder

Sources: /repo/TameParse/Lr/lalr_builder.cpp 58-546, lalr_machine.cpp 52-117, lr_state.h 67-229, lalr_state.cpp 34-100, lr_item.cpp 82-100.

* `cache_closure` is a parameter `clos`: the LR(1) items that it adds for an item and its lookahead. C56 says what they are, and that they
  do not depend on what is in the cache.
* The identifiers of rules are a parameter `rid`; they are issued when they are first asked for and do not change (C28).
* Lookahead sets are lists of which only the members matter. The items of a state are a list with the lookahead of each; the place of an
  item in it is its identifier. Where the code stores the identifier of an item, the model stores the item.
* `guard::initial` is a parameter `initial`.
* Loops take fuel.
-/

namespace TameParse
namespace Lalr

open AssocMap Closure

section
variable (rid : Rule → Nat) (clos : LItem → List Item → Set1)

/-- `lr0_item::operator<` (lr_item.cpp 82-90). -/
def ltI (a b : LItem) : Bool :=
  if a.dot < b.dot then true else if b.dot < a.dot then false else decide (rid a.rule < rid b.rule)

/-- `set<lr0_item>::insert`: the set in its order, and whether the item is new. -/
def setAdd (x : LItem) : List LItem → List LItem × Bool
  | [] => ([x], true)
  | y :: l => if ltI rid x y then (x :: y :: l, true) else if ltI rid y x then (y :: (setAdd x l).1, (setAdd x l).2) else (y :: l, false)

/-- Adding the items of a closure to the target (lalr_builder.cpp 113-118): the target, and those that are new. -/
def addNew : Set1 → List LItem → List LItem × List (LItem × List Item)
  | [], target => (target, [])
  | (i, la) :: s, target =>
    let p := setAdd rid i target
    let q := addNew s p.1
    (q.1, if p.2 then (i, la) :: q.2 else q.2)

/-- The loop of `create_closure` (lalr_builder.cpp 98-120). -/
def closureLoop : Nat → List LItem → List (LItem × List Item) → Option (List LItem)
  | _, target, [] => some target
  | 0, _, _ :: _ => none
  | fuel + 1, target, (i, la) :: waiting =>
    if i.rule.items.length ≤ i.dot then closureLoop fuel target waiting
    else
      let p := addNew rid (clos i la) target
      closureLoop fuel p.1 (waiting ++ p.2)

/-- `create_closure` (lalr_builder.cpp 84-121). -/
def createClosure (fuel : Nat) (state : Set1) : Option (List LItem) :=
  closureLoop rid clos fuel (state.foldl (fun t p => (setAdd rid p.1 t).1) []) state

/-- The machine, and the states for the rules of guards. -/
structure Mach where
  states : List Set1
  trans : List (List (Item × Nat))
  guards : List (Rule × Nat)

/-- The items of a state (`state_with_id`). -/
def kern (m : Mach) (s : Nat) : List LItem := (m.states.getD s []).map Prod.fst

/-- The transition of a state over a symbol (`transitions_for_state`). -/
def tr (m : Mach) (s : Nat) (x : Item) : Option Nat := get x (m.trans.getD s [])

/-- The item with the dot moved. -/
def adv (i : LItem) : LItem := ⟨i.rule, i.dot + 1⟩

/-- `lalr_machine::add_state` (lalr_machine.cpp 52-82). -/
def addState (m : Mach) (s : Set1) : Mach × Nat :=
  match m.states.findIdx? (fun t => decide (t.map Prod.fst = s.map Prod.fst)) with
  | some k => (m, k)
  | none => ({ m with states := m.states ++ [s], trans := m.trans ++ [[]] }, m.states.length)

/-- `lalr_machine::add_transition` (lalr_machine.cpp 89-95). -/
def addTransition (m : Mach) (s : Nat) (x : Item) (t : Nat) : Mach :=
  if t < m.states.length then
    { m with trans := m.trans.modify s (fun l => match get x l with | some _ => l | none => put x t l) }
  else m

/-- `add_initial_state` (lalr_builder.cpp 58-78). -/
def addInitial (m : Mach) (language : Item) : Mach × Nat := addState m [(⟨⟨.empty, [language]⟩, 0⟩, [.eoi])]

/-- `lr_state::add` of a new item (lr_state.h 169-202). -/
def stateAdd (i : LItem) (l : List LItem) : List LItem := if i ∈ l then l else l ++ [i]

/-- `newStates[x]->add(i)` (lalr_builder.cpp 205-206): a map in the order of its keys. -/
def newAdd (x : Item) (i : LItem) : List (Item × List LItem) → List (Item × List LItem)
  | [] => [(x, [i])]
  | (y, l) :: m =>
    match Item.cmp x y with
    | .lt => (x, [i]) :: (y, l) :: m
    | .eq => (y, stateAdd i l) :: m
    | .gt => (y, l) :: newAdd x i m

/-- The state for the rule of a guard (lalr_builder.cpp 172-202). -/
def addGuard (r : Rule) (m : Mach) (queue : List Nat) : Mach × List Nat :=
  match get r m.guards with
  | some _ => (m, queue)
  | none =>
    let a := addState m [(⟨r, 0⟩, [.eog])]
    ({ a.1 with guards := put r a.2 a.1.guards }, queue ++ [a.2])

/-- What is done for an item of the closure (lalr_builder.cpp 152-207). -/
def scanItem (p : Mach × List Nat × List (Item × List LItem)) (i : LItem) : Mach × List Nat × List (Item × List LItem) :=
  match i.rule.items[i.dot]? with
  | none => p
  | some .empty => p
  | some (.guard pr l) =>
    let q := addGuard ⟨.guard pr l, l⟩ p.1 p.2.1
    (q.1, q.2, newAdd (.guard pr l) ⟨i.rule, i.dot + 1⟩ p.2.2)
  | some x => (p.1, p.2.1, newAdd x ⟨i.rule, i.dot + 1⟩ p.2.2)

/-- The state of the loop of `complete_parser`. -/
structure Work where
  m : Mach
  max : Nat
  queue : List Nat

/-- What is done for a new state (lalr_builder.cpp 210-222). -/
def addTarget (s : Nat) (w : Work) (n : Item × List LItem) : Work :=
  let a := addState w.m (n.2.map fun i => (i, []))
  let m := addTransition a.1 s n.1 a.2
  if w.max ≤ a.2 then ⟨m, a.2 + 1, w.queue ++ [a.2]⟩ else ⟨m, w.max, w.queue⟩

/-- The body of the loop (lalr_builder.cpp 141-222). -/
def processState (cf : Nat) (s : Nat) (w : Work) : Option Work :=
  match w.m.states[s]? with
  | none => none
  | some st =>
    match createClosure rid clos cf st with
    | none => none
    | some closure =>
      let p := closure.foldl scanItem (w.m, w.queue, [])
      some (p.2.2.foldl (addTarget s) ⟨p.1, w.max, p.2.1⟩)

/-- The loop of `complete_parser` (lalr_builder.cpp 139-223). -/
def buildLoop (cf : Nat) : Nat → Work → Option Mach
  | _, ⟨m, _, []⟩ => some m
  | 0, ⟨_, _, _ :: _⟩ => none
  | fuel + 1, ⟨m, max, s :: queue⟩ =>
    match processState rid clos cf s ⟨m, max, queue⟩ with
    | none => none
    | some w => buildLoop cf fuel w

/-- `complete_parser` before the lookaheads (lalr_builder.cpp 124-223). -/
def completeStates (cf fuel : Nat) (m : Mach) : Option Mach :=
  buildLoop rid clos cf fuel ⟨m, m.states.length, List.range m.states.length⟩

/-- A machine with initial states only. -/
def initials (languages : List Item) : Mach := languages.foldl (fun m l => (addInitial m l).1) ⟨[], [], []⟩

end
end Lalr
end TameParse

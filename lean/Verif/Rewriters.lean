import Verif.ParserTables
import Verif.Lr1Set
/-
Model of the action rewriters and of the search for conflicts.

Sources: /repo/TameParse/Lr/ignored_symbols.cpp 61-120, weak_symbols.cpp 60-71 and 192-341, precedence_rewriter.cpp 44-194,
lr1_rewriter.cpp 45-161, conflict.cpp 94-245, lr_action.cpp 30-70.

A `std::set` of actions (or of items) is a list without duplicates, in the order in which the set is iterated; two actions are the
same element of the set exactly if they are equal (the order compares every field, and the orders of items and rules are total, C26).
A new element is put at the end: where the order of the result matters (the first reduction in `lr1_rewriter`) the theorems are about
every order.  `stack` and `map` are lists that are walked in the same order as in the code.
-/
namespace TameParse
namespace Rewriters

/-- `an_empty_rule` (lr_action.cpp 33-36). -/
def emptyRule : Rule := ⟨.empty, []⟩

/-- `std::set::insert`. -/
def add {α : Type} [DecidableEq α] (l : List α) (a : α) : List α := if a ∈ l then l else l ++ [a]

/-! Ignored symbols -/

/-- One round of the loop in ignored_symbols.cpp 68-104: the new actions and the used items. -/
def ignoreStep (ignored : List Item) (p : List LrAction × List Item) (a : LrAction) : List LrAction × List Item :=
  match a.type with
  | .reduce =>
    if a.item ∈ ignored then (add p.1 { a with type := .weakreduce }, p.2) else (add p.1 a, p.2)
  | .shift => (add p.1 a, if a.item ∈ ignored then add p.2 a.item else p.2)
  | .ignore => (add p.1 a, add p.2 a.item)
  | _ => (add p.1 a, p.2)

/-- `ignored_symbols::rewrite_actions` (ignored_symbols.cpp 61-120). -/
def rewriteIgnored (ignored : List Item) (state : Int) (actions : List LrAction) : List LrAction :=
  let p := actions.foldl (ignoreStep ignored) ([], [])
  ignored.foldl (fun l i => if i ∈ p.2 then l else add l ⟨.ignore, i, state, emptyRule⟩) p.1

/-! Weak symbols -/

/-- `m_StrongToWeak` and `m_WeakSymbols` (weak_symbols.h). -/
structure Weak where
  strongToWeak : List (Item × List Item)
  weakSymbols : List Item

/-- `item_map::find`. -/
def Weak.find (w : Weak) (i : Item) : Option (List Item) := (w.strongToWeak.find? (fun p => p.1 == i)).map (·.2)

/-- `weak_symbols::add_symbols` for a strong symbol and its weak ones (weak_symbols.cpp 60-71). -/
def Weak.addSymbols (w : Weak) (strong : Item) (weak : List Item) : Weak :=
  let map := match w.find strong with
    | none => w.strongToWeak ++ [(strong, weak.foldl add [])]
    | some _ => w.strongToWeak.map (fun p => if p.1 = strong then (p.1, weak.foldl add p.2) else p)
  ⟨map, weak.foldl add w.weakSymbols⟩

open ParserTables (isTerminal)

/-- The first loop (weak_symbols.cpp 194-206). -/
def haveStrong (w : Weak) (actions : List LrAction) : Bool :=
  actions.any (fun a => isTerminal a.item && match w.find a.item with | some l => !l.isEmpty | none => false)

/-- What the second loop does with an action (weak_symbols.cpp 219-251). -/
inductive Sort3 | keep | strong | weak
deriving DecidableEq

def sortAction (w : Weak) (a : LrAction) : Sort3 :=
  if !isTerminal a.item then .keep
  else if a.item ∉ w.weakSymbols then .strong
  else if a.type = .guard then .keep
  else .weak

/-- The entry of `weakSymbols` for a symbol: how many actions refer to it. -/
def bump (counts : List (Item × Int)) (i : Item) (d : Int) : List (Item × Int) :=
  if counts.any (fun p => p.1 == i) then counts.map (fun p => if p.1 = i then (p.1, p.2 + d) else p) else counts ++ [(i, d)]

/-- The body of the loop over the weak actions (weak_symbols.cpp 254-301): new actions, and the counts. -/
def weakStep (p : List LrAction × List (Item × Int)) (a : LrAction) : List LrAction × List (Item × Int) :=
  match a.type with
  | .shift | .shiftstrong | .ignore | .accept | .guard => (add p.1 a, p.2)
  | .reduce | .weakreduce =>
    let counts := if p.2.any (fun q => q.1 == a.item) then (bump p.2 a.item (-1)).filter (fun q => !(q.1 == a.item && decide (q.2 < 0))) else p.2
    (add p.1 { a with type := .weakreduce }, counts)
  | _ => p

/-- The copy of an action for a weak symbol (weak_symbols.cpp 328-333). -/
def asWeak (a : LrAction) (weak : Item) : LrAction :=
  { a with item := weak, type := if a.type = .shift then .shiftstrong else a.type }

/-- The body of the loop over the strong actions (weak_symbols.cpp 306-337). -/
def strongStep (w : Weak) (counts : List (Item × Int)) (l : List LrAction) (a : LrAction) : List LrAction :=
  match w.find a.item with
  | none => l
  | some ws => ws.foldl (fun l i => if !isTerminal i then l else if counts.any (fun q => q.1 == i) then l else add l (asWeak a i)) l

/-- `weak_symbols::rewrite_actions` (weak_symbols.cpp 192-341). -/
def rewriteWeak (w : Weak) (actions : List LrAction) : List LrAction :=
  if !haveStrong w actions then actions
  else
    let kept := (actions.filter (fun a => sortAction w a ≠ .weak)).foldl add []
    let weak := (actions.filter (fun a => sortAction w a = .weak))
    let strong := (actions.filter (fun a => sortAction w a = .strong))
    let counts := weak.foldl (fun c a => bump c a.item 1) []
    let p := weak.reverse.foldl weakStep (kept, counts)
    strong.reverse.foldl (strongStep w p.2) p.1

/-! Precedence -/

inductive Assoc | undefined | nonassociative | left | right
deriving DecidableEq

/-- The virtual functions of `precedence_rewriter`; `none` is `no_precedence`. -/
structure Prec where
  precedence : Item → List Lr0 → Option Int
  associativity : Item → List Lr0 → Assoc

/-- `precedence_item_index` (precedence_rewriter.cpp 134-164); `none` is -1. -/
def precItem (p : Prec) : List Item → Option Item → Option Item
  | [], found => found
  | i :: l, found =>
    if !isTerminal i then precItem p l found
    else if p.precedence i [] = none then precItem p l found
    else if found.isSome then none
    else precItem p l (some i)

/-- `get_rule_precedence` (precedence_rewriter.cpp 167-179). -/
def rulePrecedence (p : Prec) (r : Rule) : Option Int :=
  match precItem p r.items none with
  | none => none
  | some i => p.precedence i []

/-- `get_rule_associativity` (precedence_rewriter.cpp 182-194). -/
def ruleAssociativity (p : Prec) (r : Rule) : Assoc :=
  match precItem p r.items none with
  | none => .nonassociative
  | some i => p.associativity i []

/-- The items of the state that shift a terminal (precedence_rewriter.cpp 84-94). -/
def shiftItems (ruleWith : Int → Rule) (items : List Lr0) (t : Item) : List Lr0 :=
  items.filter (fun i => decide ((ruleWith i.rule).items[i.offset.toNat]? = some t))

/-- What happens to one terminal (precedence_rewriter.cpp 63-130); `acts` are its actions, `actions` all of them. -/
def precStep (p : Prec) (ruleWith : Int → Rule) (items : List Lr0) (all : List LrAction) (actions : List LrAction) (t : Item) : List LrAction :=
  let acts := all.filter (fun a => decide (a.item = t))
  match acts.filter (fun a => decide (a.type = .shift)), acts.filter (fun a => decide (a.type = .reduce)) with
  | [shift], [reduce] =>
    match p.precedence t (shiftItems ruleWith items t), rulePrecedence p reduce.rule with
    | some sp, some rp =>
      if sp < rp then actions.filter (· ≠ shift)
      else if sp > rp then actions.filter (· ≠ reduce)
      else if ruleAssociativity p reduce.rule = .right then actions.filter (· ≠ reduce)
      else if ruleAssociativity p reduce.rule = .left then actions.filter (· ≠ shift)
      else actions
    | _, _ => actions
  | _, _ => actions

/-- `precedence_rewriter::rewrite_actions` (precedence_rewriter.cpp 44-131): the map of actions by terminal is made from the original
actions, and its keys are walked. -/
def rewritePrecedence (p : Prec) (ruleWith : Int → Rule) (items : List Lr0) (actions : List LrAction) : List LrAction :=
  (((actions.filter (fun a => isTerminal a.item)).map (·.item)).foldl add []).foldl (precStep p ruleWith items actions) actions

/-! LR(1) -/

/-- The check that the target states are different (lr1_rewriter.cpp 128-147): one set of states for each item. -/
def resolvable : List (List Nat) → List Nat → Bool
  | [], _ => true
  | s :: l, used => if s.any (· ∈ used) then false else resolvable l (used ++ s)

/-- The body of the loop over the reductions (lr1_rewriter.cpp 80-160) for one terminal. `targets` gives, for the terminal, the sets of
states that the items of the state can reduce to (lr1_rewriter.cpp 87-126). -/
def lr1Step (targets : Item → List (List Nat)) (all : List LrAction) (actions : List LrAction) (t : Item) : List LrAction :=
  match all.filter (fun a => decide (a.item = t) && decide (a.type = .reduce)) with
  | _ :: r :: rest =>
    if resolvable (targets t) [] then
      (r :: rest).foldl (fun l a => add (l.filter (· ≠ a)) { a with type := .weakreduce }) actions
    else actions
  | _ => actions

/-- `lr1_rewriter::rewrite_actions` (lr1_rewriter.cpp 45-161). The early return when there is no conflict has no effect of its own. -/
def rewriteLr1 (targets : Item → List (List Nat)) (actions : List LrAction) : List LrAction :=
  (((actions.filter (fun a => isTerminal a.item && decide (a.type = .reduce))).map (·.item)).foldl add []).foldl (lr1Step targets actions) actions

/-! Conflicts -/

/-- The actions that are looked at (conflict.cpp 103-119). -/
def counted : ActType → Bool
  | .goto | .ignore | .accept => false
  | _ => true

/-- The actions that do not conflict (conflict.cpp 130-142). -/
def isWeak : ActType → Bool
  | .guard | .weakreduce | .ignore => true
  | _ => false

/-- `find_conflicts` for one state (conflict.cpp 94-236): the tokens that a conflict is reported for. `involved t` tells whether some
item of the closure can shift `t` or some item with `t` in its lookahead can be reduced (conflict.cpp 156-229). -/
def findConflicts (involved : Item → Bool) (actions : List LrAction) : List Item :=
  let acts := actions.filter (fun a => counted a.type)
  ((acts.map (·.item)).foldl add []).filter (fun t =>
    let mine := acts.filter (fun a => decide (a.item = t))
    decide (2 ≤ mine.length) && decide (2 ≤ mine.length - (mine.filter (fun a => isWeak a.type)).length) && involved t)

end Rewriters
end TameParse

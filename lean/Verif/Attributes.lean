import Verif.Rewriters
/-
Model of the rewriter that resolves conflicts by the attributes in the grammar.

Sources: /repo/TameParse/Compiler/conflict_attribute_rewriter.cpp 45-160; Language/ebnf_item_attributes.h (the conflict actions);
Compiler/rule_item_data.cpp (attributes of the items of a rule, a parameter here).

Sets are lists as in `Rewriters`. The closure of the state (lines 77-79) is a parameter: the items that are not at the end of their rule, as
the item that they shift and the attribute at that place, in the order in which the closure is walked.
-/
namespace TameParse
namespace Rewriters

open ParserTables (isTerminal)

/-- `ebnf_item_attributes::conflict_action`; `none` is `conflict_notspecified`. -/
inductive Resolve | shift | reduce | weakreduce
deriving DecidableEq

/-- The loop over the closure (conflict_attribute_rewriter.cpp 93-113): the last action that is specified for the item. -/
def resolveLoop (t : Item) : List (Item × Option Resolve) → Option Resolve → Option Resolve
  | [], r => r
  | (i, a) :: l, r =>
    if i ≠ t then resolveLoop t l r
    else if a ≠ r then (if a ≠ none then resolveLoop t l a else resolveLoop t l r)
    else resolveLoop t l r

/-- The types that are counted as a shift (conflict_attribute_rewriter.cpp 75-76). -/
def isShift (t : ActType) : Bool := decide (t = .shift) || decide (t = .shiftstrong)

/-- What happens to one action (conflict_attribute_rewriter.cpp 126-158). -/
def resolveAct (r : Resolve) (actions : List LrAction) (a : LrAction) : List LrAction :=
  if !isShift a.type && decide (a.type ≠ .reduce) then actions
  else match r with
    | .shift => if a.type = .reduce then actions.filter (· ≠ a) else actions
    | .reduce => if a.type ≠ .reduce then actions.filter (· ≠ a) else actions
    | .weakreduce => if a.type = .reduce then add (actions.filter (· ≠ a)) { a with type := .weakreduce } else actions

/-- What happens to one terminal (conflict_attribute_rewriter.cpp 65-159); `all` are the actions at the beginning. -/
def attributeStep (closure : List (Item × Option Resolve)) (all actions : List LrAction) (t : Item) : List LrAction :=
  let acts := all.filter (fun a => decide (a.item = t))
  if acts.length < 2 then actions
  else
    let numShift := (acts.filter (fun a => isShift a.type)).length
    let numReduce := (acts.filter (fun a => decide (a.type = .reduce))).length
    if numShift = 0 ∨ numReduce = 0 then actions
    else match resolveLoop t closure none with
      | none => actions
      | some r => if 1 < numReduce ∧ r ≠ .reduce then actions else acts.foldl (resolveAct r) actions

/-- `conflict_attribute_rewriter::rewrite_actions` (conflict_attribute_rewriter.cpp 45-160). -/
def rewriteAttributes (closure : List (Item × Option Resolve)) (actions : List LrAction) : List LrAction :=
  (((actions.filter (fun a => isTerminal a.item)).map (·.item)).foldl add []).foldl (attributeStep closure actions) actions

end Rewriters
end TameParse

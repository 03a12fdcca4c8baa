import Verif.Items
import Verif.Search
/-
Model of the parser tables: how they are built from the actions of the LALR builder, how the parser looks actions up in them, and how
they are copied.

Sources: /repo/TameParse/Lr/parser_tables.cpp 36-238 (construction), 258-395 (copies), parser_tables.h 44-223 (layout and queries),
lr_action.h 58-170.

Arrays are lists; reading outside of them gives `none`. The grammar is given by three functions: identifiers of items and of rules, and
the rule with an identifier. `std::sort` is any function that sorts (the order of actions that compare equal is unspecified). The
24 bits of `nextState` are modelled, the 8 bits of `type` always suffice. Simplifications: the rule table is filled in the order of its
indices (the code goes through a map from identifiers to indices, which writes the same cells); allocation and `m_DeleteTables` are
left out.
-/
namespace TameParse

/-- `lr_action::action_type` (lr_action.h 61-107). -/
inductive ActType | shift | shiftstrong | ignore | reduce | weakreduce | accept | goto | divert | guard
deriving DecidableEq

/-- `lr_action` (lr_action.h 110-120). -/
structure LrAction where
  type : ActType
  item : Item
  next : Int
  rule : Rule
deriving DecidableEq

namespace ParserTables

/-- `parser_tables::action` (parser_tables.h 46-58). -/
structure TableAction where
  type : ActType
  nextState : Nat
  symbolId : Int
deriving DecidableEq

/-- `reduce_rule` (parser_tables.h 63-72). -/
structure ReduceRule where
  identifier : Int
  ruleId : Int
  length : Nat
deriving DecidableEq

/-- `action_score` (parser_tables.cpp 37-64). -/
def score : ActType → Nat
  | .guard => 0
  | .weakreduce => 1
  | .shift | .shiftstrong | .divert => 2
  | .reduce => 3
  | .goto => 4
  | .ignore | .accept => 5

/-- `compare_actions` (parser_tables.cpp 66-80). -/
def compareActions (a b : TableAction) : Bool :=
  if a.symbolId < b.symbolId then true
  else if a.symbolId > b.symbolId then false
  else decide (score a.type < score b.type)

/-- The grammar's numbering. -/
structure Numbering where
  ident : Item → Int
  ruleId : Rule → Int
  ruleWith : Int → Rule

/-- Whether `nextState` is the index of a rule (parser_tables.cpp 132). -/
def isReduce : ActType → Bool
  | .reduce | .weakreduce | .accept => true
  | _ => false

def isTerminal : Item → Bool
  | .terminal _ => true
  | _ => false

/-- The symbol an action is filed under (parser_tables.cpp 149, 156). -/
def symbolOf (g : Numbering) : Item → Int
  | .terminal n => n
  | i => g.ident i

/-- A 24 bit field. -/
def field24 (n : Int) : Nat := (n % 16777216).toNat

/-- Looking up or issuing the index of a rule (parser_tables.cpp 134-142): `ruleIds` lists the identifiers by index. -/
def ruleIndex (ids : List Int) (r : Int) : List Int × Nat :=
  match ids.findIdx? (· == r) with
  | some i => (ids, i)
  | none => (ids ++ [r], ids.length)

/-- One round of the loop in parser_tables.cpp 126-164: the rule indices and the entry. -/
def encode (g : Numbering) (ids : List Int) (a : LrAction) : List Int × TableAction :=
  if isReduce a.type then
    let r := ruleIndex ids (g.ruleId a.rule)
    (r.1, ⟨a.type, field24 r.2, symbolOf g a.item⟩)
  else (ids, ⟨a.type, field24 a.next, symbolOf g a.item⟩)

/-- The loop over the actions of a state: rule indices, terminal entries and other entries. -/
def fillState (g : Numbering) : List Int → List LrAction → List Int × List TableAction × List TableAction
  | ids, [] => (ids, [], [])
  | ids, a :: l =>
    let e := encode g ids a
    let r := fillState g e.1 l
    if isTerminal a.item then (r.1, e.2 :: r.2.1, r.2.2) else (r.1, r.2.1, e.2 :: r.2.2)

/-- One row of the tables. -/
structure Row where
  terms : List TableAction
  nonterms : List TableAction
deriving DecidableEq

/-- The loop over the states (parser_tables.cpp 102-175): rule indices, rows, and the states pushed to `eogStates`. -/
def fillStates (g : Numbering) (sort : List TableAction → List TableAction) (eog : Int) :
    List Int → Nat → List (List LrAction) → List Int × List Row × List Nat
  | ids, _, [] => (ids, [], [])
  | ids, s, acts :: rest =>
    let r := fillState g ids acts
    let t := fillStates g sort eog r.1 (s + 1) rest
    (t.1, ⟨sort r.2.1, sort r.2.2⟩ :: t.2.1, (r.2.2.filter (fun e => e.symbolId == eog)).map (fun _ => s) ++ t.2.2)

/-- The tables (parser_tables.h 100-134). -/
structure Tables where
  numStates : Nat
  endOfInput : Int
  endOfGuard : Int
  terminalActions : List (List TableAction)
  nonterminalActions : List (List TableAction)
  counts : List (Nat × Nat)
  endGuardStates : List Nat
  numEndOfGuards : Nat
  numRules : Nat
  rules : List ReduceRule
  numWeakToStrong : Nat
  weakToStrong : Option (List (Int × Int))
deriving DecidableEq

/-- The weak symbol table before sorting (parser_tables.cpp 211-230). -/
def weakTable (weak : List (Item × List Item)) : List (Int × Int) :=
  weak.flatMap (fun p =>
    match p.1 with
    | .terminal strong => p.2.filterMap (fun w => match w with | .terminal n => some (n, strong) | _ => none)
    | _ => [])

/-- The constructor (parser_tables.cpp 83-238). `sortWeak` is `std::sort` for the weak symbols. -/
def build (g : Numbering) (sort : List TableAction → List TableAction) (sortWeak : List (Int × Int) → List (Int × Int))
    (states : List (List LrAction)) (weak : Option (List (Item × List Item))) : Tables :=
  let r := fillStates g sort (g.ident .eog) [] 0 states
  { numStates := states.length
    endOfInput := g.ident .eoi
    endOfGuard := g.ident .eog
    terminalActions := r.2.1.map (·.terms)
    nonterminalActions := r.2.1.map (·.nonterms)
    counts := r.2.1.map (fun row => (row.terms.length, row.nonterms.length))
    endGuardStates := r.2.2
    numEndOfGuards := r.2.2.length
    numRules := r.1.length
    rules := r.1.map (fun id =>
      let rule := g.ruleWith id
      ⟨g.ident rule.nonterminal, g.ruleId rule, rule.items.length⟩)
    numWeakToStrong := match weak with | none => 0 | some w => (weakTable w).length
    weakToStrong := weak.map (fun w => sortWeak (weakTable w)) }

/-! Queries -/

/-- `find_action` (parser_tables.h 165-170): the position of the first entry whose symbol is not less. `none` if the search would read
outside the array. -/
def findAction (symbol : Int) (l : List TableAction) (count : Nat) : Option Nat :=
  if count ≤ l.length then some (lowerBoundPos (fun i => match l[i]? with | some a => decide (a.symbolId < symbol) | none => false) 0 count)
  else none

/-- `find_terminal` (parser_tables.h 188-190). -/
def findTerminal (t : Tables) (state : Nat) (terminal : Int) : Option Nat := do
  findAction terminal (← t.terminalActions[state]?) (← t.counts[state]?).1

/-- `find_nonterminal` (parser_tables.h 194-196). -/
def findNonterminal (t : Tables) (state : Nat) (nonterminal : Int) : Option Nat := do
  findAction nonterminal (← t.nonterminalActions[state]?) (← t.counts[state]?).2

/-- The entries from position `pos` to the end of the row while they are for `symbol` (parser_state.h 518-520). -/
def scan (symbol : Int) (l : List TableAction) (count pos : Nat) : List TableAction :=
  ((l.take count).drop pos).takeWhile (fun a => a.symbolId == symbol)

/-- The entries that the parser tries for a terminal (parser_state.h 593-594, 518-520). -/
def visitTerminal (t : Tables) (state : Nat) (terminal : Int) : Option (List TableAction) := do
  return scan terminal (← t.terminalActions[state]?) (← t.counts[state]?).1 (← findTerminal t state terminal)

/-- The entries that the parser tries for another symbol (parser_state.h 599-600, 518-520). -/
def visitNonterminal (t : Tables) (state : Nat) (nonterminal : Int) : Option (List TableAction) := do
  return scan nonterminal (← t.nonterminalActions[state]?) (← t.counts[state]?).2 (← findNonterminal t state nonterminal)

/-- `rule` (parser_tables.h 174). -/
def rule (t : Tables) (r : Nat) : Option ReduceRule := t.rules[r]?

/-- The comparison made by the binary search in the end of guard states. -/
def below (l : List Nat) (x i : Nat) : Bool := match l[i]? with | some y => decide (y < x) | none => false

/-- `std::binary_search` among the first `count` entries: `lower_bound` and a comparison. -/
def binarySearch (l : List Nat) (count x : Nat) : Option Bool :=
  if count ≤ l.length then
    let p := lowerBoundPos (below l x) 0 count
    if p = count then some false else l[p]?.map (fun y => !decide (x < y))
  else none

/-- `has_end_of_guard` (parser_tables.h 205-207). -/
def hasEndOfGuard (t : Tables) (state : Nat) : Option Bool := binarySearch t.endGuardStates t.numEndOfGuards state

/-- `strong_for_weak` (parser_tables.h 210-223). `none` if the search would go through a null pointer or read outside the array. -/
def strongIn (count : Nat) (table : Option (List (Int × Int))) (weak : Int) : Option Int :=
  if count = 0 then some weak
  else match table with
    | none => none
    | some l =>
      if count ≤ l.length then
        match (l.take count).find? (fun e => e.1 == weak) with
        | some e => some e.2
        | none => some weak
      else none

@[inherit_doc strongIn]
def strongForWeak (t : Tables) (weak : Int) : Option Int := strongIn t.numWeakToStrong t.weakToStrong weak

/-- `count_actions_for_state` (parser_tables.h 227-229). -/
def countActions (t : Tables) (state : Nat) : Option Nat := (t.counts[state]?).map (fun c => c.1 + c.2)

/-! Copies -/

/-- The loop over the states in both copy functions (parser_tables.cpp 271-286, 351-366), for one of the two tables. -/
def copyRows : Nat → List (List TableAction) → List Nat → List (List TableAction)
  | 0, _, _ => []
  | n + 1, rows, counts => (rows.headD []).take (counts.headD 0) :: copyRows n rows.tail counts.tail

/-- The copy constructor (parser_tables.cpp 258-313). -/
def copy (t : Tables) : Tables :=
  { t with
    counts := t.counts.take t.numStates
    terminalActions := copyRows t.numStates t.terminalActions (t.counts.map (·.1))
    nonterminalActions := copyRows t.numStates t.nonterminalActions (t.counts.map (·.2))
    rules := t.rules.take t.numRules
    endGuardStates := t.endGuardStates.take t.numEndOfGuards
    weakToStrong := t.weakToStrong.map (fun l => l.take t.numWeakToStrong) }

/-- `operator=` (parser_tables.cpp 316-395): what the left-hand side holds afterwards. -/
def assign (same : Bool) (dst src : Tables) : Tables := if same then dst else copy src

end ParserTables
end TameParse

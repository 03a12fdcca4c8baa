import Verif.ParserTables

/-!
# The parser

`parser::state` with its two sets of actions: the loop that runs the tables on the tokens, guards, and the test whether a symbol can be
reduced.

Sources: /repo/TameParse/Lr/parser.h 285-728, parser_state.h 112-701.

Simplifications:
* the stack is the list of its entries, top first; C39 shows that `parser_stack` behaves like that. At the bottom is the initial state,
  whose item is never set. `pop` does nothing there;
* the stream is the list of the tokens that are left; C41 shows that sessions read it like that. `next()` at the end of the stream erases
  past the end of a vector and is undefined here;
* the user's actions are the ones that build the tree of the shifts and reductions; any others are functions of it, apart from the
  position that `reduce` is passed;
* loops take fuel. A loop that never ends runs out of every amount of it;
* an entry is addressed by its row and index. Where the code compares a pointer with the end of another row, the two are taken to be
  different, and reading at the end of a row is undefined.
-/

namespace TameParse
namespace Parser

open ParserTables

/-- Ways of not getting a result. -/
inductive Stop | ub | fuel
deriving DecidableEq

abbrev M := Except Stop

def orUb {α : Type} : Option α → M α
  | some a => .ok a
  | none => .error .ub

/-- A lexeme: what it was matched as, and the rest of it (content and position). -/
structure Tok where
  sym : Int
  text : Nat
deriving DecidableEq

/-- What the user's actions have made: nothing (the item at the bottom of the stack), the result of `shift`, the result of `reduce`. -/
inductive Tree
  | nothing
  | leaf (la : Option Tok)
  | node (nonterminal rule : Int) (children : List Tree)

/-- The first entry for a symbol or the place where it would be (`find_terminal`, `find_nonterminal`). -/
def findSym (t : Tables) (term : Bool) (state : Nat) (sym : Int) : M Nat :=
  orUb (if term then findTerminal t state sym else findNonterminal t state sym)

/-- The row up to `last_terminal_action` or `last_nonterminal_action`. -/
def rowOf (t : Tables) (term : Bool) (state : Nat) : M (List TableAction) := do
  let row ← orUb (if term then t.terminalActions[state]? else t.nonterminalActions[state]?)
  let c ← orUb t.counts[state]?
  return row.take (if term then c.1 else c.2)

/-- The entries for a symbol: from the first one while the symbol is the same. -/
def entriesFor (t : Tables) (term : Bool) (state : Nat) (sym : Int) : M (List TableAction) := do
  let row ← rowOf t term state
  let i ← findSym t term state sym
  return (row.drop i).takeWhile (fun a => a.symbolId == sym)

/-- The loop looking for the goto of a nonterminal (parser.h 347-360, 484-494, parser_state.h 384-391): the first goto from there to the
end of the row. -/
def gotoFor (t : Tables) (state : Nat) (nonterminal : Int) : M (Option Nat) := do
  let row ← rowOf t false state
  let i ← findSym t false state nonterminal
  return ((row.drop i).find? (fun a => decide (a.type = .goto))).map (·.nextState)

/-! can_reduce -/

/-- The state on top of a faked stack (parser_state.h 376-381, 419-425): `popped` is `-stackPos`. -/
def topOf (popped : Nat) (pushed under : List Nat) : M Nat :=
  match pushed with
  | s :: _ => .ok s
  | [] => orUb under[min popped (under.length - 1)]?

/-- The loop that pops (parser_state.h 364-372). -/
def fakePop : Nat → Nat → List Nat → Nat × List Nat
  | 0, popped, pushed => (popped, pushed)
  | n + 1, popped, _ :: pushed => fakePop n popped pushed
  | n + 1, popped, [] => fakePop n (popped + 1) []

/-- `fake_reduce` (parser_state.h 353-413). -/
def fakeReduce (t : Tables) (act : TableAction) (popped : Nat) (pushed under : List Nat) : M (Nat × List Nat) :=
  match act.type with
  | .reduce | .weakreduce | .accept => do
    let r ← orUb (rule t act.nextState)
    let p := fakePop r.length popped pushed
    let s ← topOf p.1 p.2 under
    match ← gotoFor t s r.identifier with
    | some g => return (p.1, g :: p.2)
    | none => return p
  | .divert =>
    let p := fakePop 1 popped pushed
    .ok (p.1, act.nextState :: p.2)
  | .shift | .shiftstrong => .ok (popped, act.nextState :: pushed)
  | _ => .ok (popped, pushed)

/-- The loop of `can_reduce` (parser_state.h 431-501). `outer` is the state it was called in, whose row ends the loop; the entry looked
at is number `i` of the row of `cur`. -/
def canLoop (t : Tables) (term : Bool) (sym : Int) (under : List Nat) : Nat → Nat → Nat → Nat → Nat → List Nat → M Bool
  | 0, _, _, _, _, _ => .error .fuel
  | fuel + 1, outer, cur, i, popped, pushed => do
    let row ← rowOf t term cur
    if cur = outer ∧ i = row.length then return false
    let act ← orUb row[i]?
    if act.symbolId ≠ sym then return false
    match act.type with
    | .shift | .shiftstrong | .accept => return true
    | .divert => canLoop t term sym under fuel outer cur i popped (act.nextState :: pushed)
    | .guard => canLoop t term sym under fuel outer cur (i + 1) popped pushed
    | .weakreduce => do
      let p ← fakeReduce t act popped pushed under
      let s ← topOf p.1 p.2 under
      let j ← findSym t term s sym
      if ← canLoop t term sym under fuel s s j p.1 p.2 then return true
      canLoop t term sym under fuel outer cur (i + 1) popped pushed
    | .reduce => do
      let p ← fakeReduce t act popped pushed under
      let s ← topOf p.1 p.2 under
      let j ← findSym t term s sym
      canLoop t term sym under fuel outer s j p.1 p.2
    | _ => return false

/-- `can_reduce` (parser_state.h 416-505). -/
def canReduce (t : Tables) (fuel : Nat) (term : Bool) (sym : Int) (popped : Nat) (pushed under : List Nat) : M Bool := do
  let s ← topOf popped pushed under
  let j ← findSym t term s sym
  canLoop t term sym under fuel s s j popped pushed

/-- `can_reduce` and `can_reduce_nonterminal` of the actions (parser.h 397-429, 511-543): `pushed` is empty for the standard actions and
the guard's stack for guards. -/
def canReduceAct (t : Tables) (fuel : Nat) (term : Bool) (sym : Int) (act : TableAction) (pushed under : List Nat) : M Bool :=
  if act.type = .shift ∨ act.type = .shiftstrong ∨ act.type = .accept then .ok true
  else do
    let p ← fakeReduce t act 0 pushed under
    canReduce t fuel term sym p.1 p.2 under

/-! Performing actions -/

/-- An action set: its state, how it shifts and reduces, and what `can_reduce` starts from. -/
structure Delegate (σ : Type) where
  current : σ → M Nat
  shift : Option Tok → Nat → σ → σ
  reduce : ReduceRule → σ → M σ
  setState : Nat → σ → M σ
  pushed : σ → List Nat
  under : σ → List Nat

/-- `perform_generic` (parser_state.h 160-217). -/
def perform {σ : Type} (d : Delegate σ) (t : Tables) (la : Option Tok) (act : TableAction) (s : σ) : M (Bool × σ) :=
  match act.type with
  | .ignore => .ok (true, s)
  | .shift => .ok (true, d.shift la act.nextState s)
  | .shiftstrong => do
    let tok ← orUb la
    let strong ← orUb (strongForWeak t tok.sym)
    return (true, d.shift (some { tok with sym := strong }) act.nextState s)
  | .divert => .ok (false, d.shift la act.nextState s)
  | .reduce | .weakreduce | .accept => do
    let r ← orUb (rule t act.nextState)
    return (false, ← d.reduce r s)
  | .goto => do return (false, ← d.setState act.nextState s)
  | .guard => .ok (true, s)

/-- The first loop of `process_guard` (parser_state.h 633-651): whether one of the actions can be performed. -/
def guardPossible {σ : Type} (d : Delegate σ) (t : Tables) (fuel : Nat) (sym : Int) (s : σ) : List TableAction → M Bool
  | [] => .ok false
  | a :: l =>
    if a.type = .reduce ∨ a.type = .weakreduce then do
      if ← canReduceAct t fuel false sym a (d.pushed s) (d.under s) then return true
      guardPossible d t fuel sym s l
    else if a.type = .shift ∨ a.type = .shiftstrong then .ok true
    else guardPossible d t fuel sym s l

/-- The choice of an action in the second loop (parser_state.h 662-685): the first that is not a guard and not an impossible weak
reduction. -/
def guardChoice {σ : Type} (d : Delegate σ) (t : Tables) (fuel : Nat) (sym : Int) (s : σ) : List TableAction → M (Option TableAction)
  | [] => .ok none
  | a :: l =>
    if a.type = .weakreduce then do
      if ← canReduceAct t fuel false sym a (d.pushed s) (d.under s) then return some a
      guardChoice d t fuel sym s l
    else if a.type = .guard then guardChoice d t fuel sym s l
    else .ok (some a)

/-- The second loop of `process_guard` (parser_state.h 660-697). -/
def guardPerform {σ : Type} (d : Delegate σ) (t : Tables) (la : Option Tok) (sym : Int) : Nat → σ → M σ
  | 0, _ => .error .fuel
  | fuel + 1, s => do
    let st ← d.current s
    let acts ← entriesFor t false st sym
    match ← guardChoice d t fuel sym s acts with
    | none => return s
    | some a =>
      let r ← perform d t la a s
      if r.1 then return r.2
      guardPerform d t la sym fuel r.2

/-- `process_guard` (parser_state.h 615-701): `none` if the guard symbol cannot be processed. -/
def processGuard {σ : Type} (d : Delegate σ) (t : Tables) (fuel : Nat) (la : Option Tok) (sym : Int) (s : σ) : M (Option σ) := do
  let st ← d.current s
  let acts ← entriesFor t false st sym
  if ← guardPossible d t fuel sym s acts then return some (← guardPerform d t la sym fuel s)
  return none

/-! Guards -/

/-- `guard_actions::reduce` (parser.h 474-495): popping an empty `std::stack` is undefined. -/
def popN : Nat → List Nat → M (List Nat)
  | 0, l => .ok l
  | _ + 1, [] => .error .ub
  | n + 1, _ :: l => popN n l

/-- `guard_actions` (parser.h 437-544) on top of the parser's own stack `under`; the offset is kept elsewhere. -/
def guardDelegate (t : Tables) (under : List Nat) : Delegate (List Nat) where
  current s := orUb s.head?
  shift _ n s := n :: s
  reduce r s := do
    let l ← popN r.length s
    let top ← orUb l.head?
    match ← gotoFor t top r.identifier with
    | some g => return g :: l
    | none => return l
  setState n s := match s with | [] => .error .ub | _ :: l => .ok (n :: l)
  pushed s := s
  under _ := under

/-- What trying the actions of a guard ends with: the guard's symbol, or another stack and offset, or nothing. -/
inductive Tried
  | accepted (guard : Int)
  | performed (stack : List Nat) (offset : Nat)
  | failed

/-- The test whether a weak reduction is passed over (parser_state.h 285-302). It is made for the token in the stream, also when the
action is one for the end of guard symbol. -/
def skips (t : Tables) (fuel : Nat) (under : List Nat) (la : Option Tok) (stack : List Nat) (a : TableAction) : M Bool :=
  if a.type = .weakreduce then
    match la with
    | some tok => return !(← canReduceAct t fuel true tok.sym a stack under)
    | none => return !(← canReduceAct t fuel false t.endOfInput a stack under)
  else .ok false

/-- The inner loop of `check_guard` (parser_state.h 280-342); `nested` is `check_guard`. -/
def tryActions (t : Tables) (fuel : Nat) (under : List Nat) (la : Option Tok) (nested : Nat → Nat → M Int) (stack : List Nat) (offset : Nat) :
    List TableAction → M Tried
  | [] => .ok .failed
  | a :: l => do
    if ← skips t fuel under la stack a then tryActions t fuel under la nested stack offset l
    else if a.type = .accept then do
      let r ← orUb (rule t a.nextState)
      return .accepted r.identifier
    else if a.type = .guard then do
      let g ← nested a.nextState offset
      if g < 0 then tryActions t fuel under la nested stack offset l
      else match ← processGuard (guardDelegate t under) t fuel la g stack with
        | some s => return .performed s offset
        | none => tryActions t fuel under la nested stack offset l
    else do
      let r ← perform (guardDelegate t under) t la a stack
      return .performed r.2 (if r.1 then offset + 1 else offset)

/-- Whether `check_guard` looks at the end of guard symbol (parser_state.h 261-276). -/
def useEog (t : Tables) (fuel : Nat) (under : List Nat) (state : Nat) (stack : List Nat) : M Bool := do
  if ← orUb (hasEndOfGuard t state) then
    let row ← rowOf t false state
    let i ← findSym t false state t.endOfGuard
    let act ← orUb row[i]?
    canReduceAct t fuel false t.endOfGuard act stack under
  else return false

/-- The actions that are tried (parser_state.h 240-276). -/
def guardActs (t : Tables) (eog : Bool) (state : Nat) (la : Option Tok) : M (List TableAction) :=
  if eog then entriesFor t false state t.endOfGuard
  else match la with
    | some tok => entriesFor t true state tok.sym
    | none => entriesFor t false state t.endOfInput

/-- The loop of `check_guard` (parser_state.h 227-351). -/
def checkLoop (t : Tables) (under : List Nat) (input : List Tok) : Nat → List Nat → Nat → M Int
  | 0, _, _ => .error .fuel
  | fuel + 1, stack, offset => do
    let la := input[offset]?
    let state ← orUb stack.head?
    let eog ← useEog t fuel under state stack
    let acts ← guardActs t eog state la
    match ← tryActions t fuel under la (fun s o => checkLoop t under input fuel [s] o) stack offset acts with
    | .accepted g => return g
    | .performed s o => checkLoop t under input fuel s o
    | .failed => return -1

/-! The parser itself -/

/-- A parser state: stack and the tokens that are left. -/
structure PState where
  stack : List (Nat × Tree)
  input : List Tok

/-- `pop` (parser_stack.h 350-355). -/
def popStack : List (Nat × Tree) → List (Nat × Tree)
  | _ :: e :: l => e :: l
  | l => l

/-- Popping the items of a rule (parser.h 324-328), top first. -/
def popItems : Nat → List (Nat × Tree) → List Tree → M (List Tree × List (Nat × Tree))
  | 0, l, items => .ok (items, l)
  | n + 1, l, items => do
    let e ← orUb l.head?
    popItems n (popStack l) (items ++ [e.2])

/-- `standard_actions` (parser.h 297-430). -/
def standard (t : Tables) : Delegate PState where
  current s := orUb (s.stack.head?.map (·.1))
  shift la n s := { s with stack := (n, .leaf la) :: s.stack }
  reduce r s := do
    let p ← popItems r.length s.stack []
    let top ← orUb p.2.head?
    match ← gotoFor t top.1 r.identifier with
    | some g => return { s with stack := (g, .node r.identifier r.ruleId p.1) :: p.2 }
    | none => return { s with stack := p.2 }
  setState n s := match s.stack with | [] => .error .ub | e :: l => .ok { s with stack := (n, e.2) :: l }
  pushed _ := []
  under s := s.stack.map (·.1)

inductive Result | more | reject | accept
deriving DecidableEq

/-- `next` (parser_state.h 112-115). -/
def next (s : PState) : M PState :=
  match s.input with
  | [] => .error .ub
  | _ :: l => .ok { s with input := l }

/-- The loop of `process_generic` over the actions for the lookahead (parser_state.h 518-573). -/
def processActions (t : Tables) (fuel : Nat) (la : Option Tok) (sym : Int) (term : Bool) (s : PState) : List TableAction → M (Result × PState)
  | [] => .ok (.reject, s)
  | a :: l => do
    if a.type = .weakreduce then
      if ← canReduceAct t fuel term sym a [] (s.stack.map (·.1)) then
        let r ← perform (standard t) t la a s
        return (.more, r.2)
      processActions t fuel la sym term s l
    else if a.type = .guard then
      let g ← checkLoop t (s.stack.map (·.1)) s.input fuel [a.nextState] 0
      if g < 0 then processActions t fuel la sym term s l
      else match ← processGuard (standard t) t fuel la g s with
        | some s' => return (.more, s')
        | none => processActions t fuel la sym term s l
    else if a.type = .accept then return (.accept, s)
    else
      let r ← perform (standard t) t la a s
      if r.1 then return (.more, ← next r.2)
      return (.more, r.2)

/-- `process` (parser_state.h 576-604, parser.h 692-695). -/
def process (t : Tables) (fuel : Nat) (s : PState) : M (Result × PState) := do
  let st ← (standard t).current s
  match s.input.head? with
  | some tok => processActions t fuel (some tok) tok.sym true s (← entriesFor t true st tok.sym)
  | none => processActions t fuel none t.endOfInput false s (← entriesFor t false st t.endOfInput)

/-- `parse` (parser.h 699-710): whether the input was accepted, and the final state. -/
def parse (t : Tables) : Nat → PState → M (Bool × PState)
  | 0, _ => .error .fuel
  | fuel + 1, s => do
    let r ← process t fuel s
    match r.1 with
    | .more => parse t fuel r.2
    | .accept => return (true, r.2)
    | .reject => return (false, r.2)

/-- The state of a new parser (parser.h 725-728, parser_state.h 37-48). -/
def start (initial : Nat) (input : List Tok) : PState := ⟨[(initial, .nothing)], input⟩

end Parser
end TameParse

import Verif.Ast

/-!
# The positions of the objects that generated parsers make

Every generated class has functions `pos` and `final_pos`. Those of a terminal ask the lexeme, those of other classes ask their first or last member, and an object
without members returns the position of the lookahead at the time when it was made, which the parser hands to `reduce`.

Sources: /repo/TameParse/Compiler/OutputStages/cplusplus.cpp 1315-1436 (`pos`, `final_pos`), 1187-1188 (terminals), 1076, 1157 and 1279 (`m_Position`), 1610-1647
(`reduce`), /repo/TameParse/Lr/parser.h 297-430 (the parser), /repo/TameParse/Dfa/position.h 47-51.

Simplifications:
* the positions of an object are computed when it is made: its members are constant, and the only thing that changes later is a list that gets more contents,
  which is made anew here;
* a lexeme is known by the number of its text (`Tok.text`), also its positions; a weak symbol and its strong equivalent have the same (parser_state.h 178);
* what is simplified in Ast is so here.
-/

namespace TameParse
namespace Spans

open TameParse.Parser ParserTables Ast

/-! ### The parser, with the lookahead at each reduction -/

/-- Trees as in Parser; a node also has the lookahead that the reduction was made at, or nothing at the end of the input. -/
inductive Noted
  | nothing
  | leaf (la : Option Tok)
  | node (nonterminal rule : Int) (children : List Noted) (la : Option Nat)

mutual
/-- The tree without the lookaheads. -/
def Noted.erase : Noted → Tree
  | .nothing => .nothing
  | .leaf la => .leaf la
  | .node n r cs _ => .node n r (eraseAll cs)

@[inherit_doc Noted.erase]
def eraseAll : List Noted → List Tree
  | [] => []
  | t :: ts => t.erase :: eraseAll ts
end

/-- The parser's state with such trees. -/
structure NState where
  stack : List (Nat × Noted)
  input : List Tok

/-- `pop` (parser_stack.h 350-355). -/
def popTop : List (Nat × Noted) → List (Nat × Noted)
  | _ :: e :: l => e :: l
  | l => l

/-- Popping the items of a rule (parser.h 324-328), top first. -/
def popNoted : Nat → List (Nat × Noted) → List Noted → M (List Noted × List (Nat × Noted))
  | 0, l, items => .ok (items, l)
  | n + 1, l, items => do
    let e ← orUb l.head?
    popNoted n (popTop l) (items ++ [e.2])

/-- `standard_actions` (parser.h 297-430), with the position that is handed to `reduce` (parser.h 333-346). -/
def noted (t : Tables) : Delegate NState where
  current s := orUb (s.stack.head?.map (·.1))
  shift la n s := { s with stack := (n, .leaf la) :: s.stack }
  reduce r s := do
    let p ← popNoted r.length s.stack []
    let top ← orUb p.2.head?
    match ← gotoFor t top.1 r.identifier with
    | some g => return { s with stack := (g, .node r.identifier r.ruleId p.1 (s.input.head?.map (·.text))) :: p.2 }
    | none => return { s with stack := p.2 }
  setState n s := match s.stack with | [] => .error .ub | e :: l => .ok { s with stack := (n, e.2) :: l }
  pushed _ := []
  under s := s.stack.map (·.1)

/-- `next` (parser_state.h 112-115). -/
def nextNoted (s : NState) : M NState :=
  match s.input with
  | [] => .error .ub
  | _ :: l => .ok { s with input := l }

/-- The loop of `process_generic` over the actions for the lookahead (parser_state.h 518-573). -/
def processNoted (t : Tables) (fuel : Nat) (la : Option Tok) (sym : Int) (term : Bool) (s : NState) : List TableAction → M (Result × NState)
  | [] => .ok (.reject, s)
  | a :: l => do
    if a.type = .weakreduce then
      if ← canReduceAct t fuel term sym a [] (s.stack.map (·.1)) then
        let r ← perform (noted t) t la a s
        return (.more, r.2)
      processNoted t fuel la sym term s l
    else if a.type = .guard then
      let g ← checkLoop t (s.stack.map (·.1)) s.input fuel [a.nextState] 0
      if g < 0 then processNoted t fuel la sym term s l
      else match ← processGuard (noted t) t fuel la g s with
        | some s' => return (.more, s')
        | none => processNoted t fuel la sym term s l
    else if a.type = .accept then return (.accept, s)
    else
      let r ← perform (noted t) t la a s
      if r.1 then return (.more, ← nextNoted r.2)
      return (.more, r.2)

/-- `process` (parser_state.h 576-604, parser.h 692-695). -/
def stepNoted (t : Tables) (fuel : Nat) (s : NState) : M (Result × NState) := do
  let st ← (noted t).current s
  match s.input.head? with
  | some tok => processNoted t fuel (some tok) tok.sym true s (← entriesFor t true st tok.sym)
  | none => processNoted t fuel none t.endOfInput false s (← entriesFor t false st t.endOfInput)

/-- `parse` (parser.h 699-710): whether the input was accepted, and the final state. -/
def parseNoted (t : Tables) : Nat → NState → M (Bool × NState)
  | 0, _ => .error .fuel
  | fuel + 1, s => do
    let r ← stepNoted t fuel s
    match r.1 with
    | .more => parseNoted t fuel r.2
    | .accept => return (true, r.2)
    | .reject => return (false, r.2)

/-- The state of a new parser (parser.h 725-728, parser_state.h 37-48). -/
def startNoted (initial : Nat) (input : List Tok) : NState := ⟨[(initial, .nothing)], input⟩

/-! ### The positions -/

/-- `dfa::position`: offset, line, column. -/
abbrev Pos : Type := Int × Int × Int

/-- The positions of the lexemes: `pos` and `final_pos` (lexeme.h 108, lexeme.cpp 64-70). -/
structure Places where
  pos : Nat → Pos
  final : Nat → Pos

/-- The position that is handed to `reduce` (parser.h 333-346). -/
def Places.ahead (p : Places) : Option Nat → Pos
  | some k => p.pos k
  | none => (-1, -1, -1)

/-- What the functions of an object return; for a list also whether it has contents. -/
structure Span where
  start : Pos
  final : Pos
  empty : Bool

/-- The items that get no variable in the position functions, besides guards (cplusplus.cpp 1354-1356, 1396-1398): those of a list whose type and symbol are those of
the list. All EBNF items have the same symbol (ebnf_items.cpp 45-72). -/
def sameKind : Item → Item → Bool
  | .ebnf .repeating _, .ebnf .repeating _ => true
  | .ebnf .repeatZero _, .ebnf .repeatZero _ => true
  | _, _ => false

/-- The members of an object (cplusplus.cpp 1582-1608): the items with their positions, from the item at an index. -/
def members (x : Item) : Nat → List Item → List Span → List (Item × Span)
  | _, [], _ => []
  | _, _ :: _, [] => []
  | index, y :: ys, s :: ss => if isGuard y || isRepetition x index y then members x (index + 1) ys ss else (y, s) :: members x (index + 1) ys ss

/-- `pos` and `final_pos` of an object (cplusplus.cpp 1344-1371, 1386-1413). Without members they return the `m_Position` that the constructor has set. If there are
only members that they leave out, `m_Position` is declared for `*` lists, because of their empty rule, but not set; for `+` lists it is not declared, so that the
generated source does not compile. -/
def own (x : Item) (ms : List (Item × Span)) (la : Pos) : M (Pos × Pos) :=
  let asked := ms.filter (fun m => !sameKind x m.1)
  match asked.head?, asked.getLast? with
  | some a, some b => .ok (a.2.start, b.2.final)
  | _, _ => if ms.isEmpty then .ok (la, la) else match x with
    | .ebnf .repeatZero _ => .ok ((0, 0, 0), (0, 0, 0))
    | _ => .error .ub

/-- The object that a reduction makes (cplusplus.cpp 1537-1651), from the objects of the rule in order. For the empty rule of a `*` list that is a list whose
`m_Position` is not set (cplusplus.cpp 1623); a list returns the positions of its first and last content (1424-1433). -/
def spanRule (r : Rule) (ss : List Span) (la : Pos) : M Span :=
  match r.nonterminal, r.items with
  | .guard _ _, _ => .error .ub
  | .ebnf .repeatZero _, [] => .ok ⟨(0, 0, 0), (0, 0, 0), true⟩
  | x, items => do
    let p ← own x (members x 0 items ss) la
    match items, ss with
    | y :: _, s :: _ => if isRepetition x 0 y && !s.empty then return ⟨s.start, p.2, false⟩ else return ⟨p.1, p.2, false⟩
    | _, _ => return ⟨p.1, p.2, false⟩

mutual
/-- The positions of the object that the actions make of a tree. -/
def span (d : Gen) (p : Places) : Noted → M Span
  | .nothing => .error .ub
  | .leaf none => .error .ub
  | .leaf (some k) => .ok ⟨p.pos k.text, p.final k.text, false⟩
  | .node _ rule cs la => do
    let ss ← spans d p cs
    match d.rule rule with
    | none => .error .ub
    | some r => spanRule r ss.reverse (p.ahead la)

@[inherit_doc span]
def spans (d : Gen) (p : Places) : List Noted → M (List Span)
  | [] => .ok []
  | t :: ts => do return (← span d p t) :: (← spans d p ts)
end

end Spans
end TameParse

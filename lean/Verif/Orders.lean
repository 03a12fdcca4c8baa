import Verif.Items
import Verif.Position
import Verif.WeakLexer
/-
Model of the comparison operators of the values that are kept in sorted sets and maps, or in containers that are compared.

Sources: /repo/TameParse/Dfa/range.h 96-121, Dfa/transition.cpp 39-54, Dfa/transition.h 68-74, Dfa/lexeme.cpp 73-83, Dfa/lexeme.h 92-98,
Util/astnode.cpp 64-79, Util/astnode.h 103-109, ContextFree/rule.h 163-169, Lr/lr_item.cpp 82-100 and 149-198, Lr/lr_item.h 115-118 and 228-231,
Lr/lr_state.h 111-149, Lr/lalr_state.cpp 53-60, Lr/lr_action.h 139-154, Lr/lalr_builder.h 65-74, Lr/conflict.cpp 57-79, Compiler/lexer_stage.cpp 91-105.

Simplifications:
* a pointer is an `Option` with the object it points to; the tests whether two pointers are equal, which only save time, are left out;
* the symbols and lookahead items of an item set are the list that its iterator yields (C26);
* sets and maps of the standard library are the lists of their elements in order, and are compared by `std::lexicographical_compare`.
-/
namespace TameParse
namespace Orders

/-- `<` on numbers. -/
def ilt (a b : Int) : Bool := decide (a < b)

/-- The static functions `compare` that take pointers (lexeme.h 92-98, astnode.h 103-109, rule.h 163-169, conflict.cpp 57-63). -/
def ptrLt {α : Type} (lt : α → α → Bool) : Option α → Option α → Bool
  | none, none => false
  | none, some _ => true
  | some _, none => false
  | some a, some b => lt a b

/-- `std::lexicographical_compare`, with which strings, sets and maps are compared. -/
def lexLt {α : Type} (lt : α → α → Bool) : List α → List α → Bool
  | _, [] => false
  | [], _ :: _ => true
  | a :: as, b :: bs => if lt a b then true else if lt b a then false else lexLt lt as bs

/-- `operator<` of `std::pair`. -/
def pairLt {α β : Type} (lt : α → α → Bool) (lt' : β → β → Bool) (a b : α × β) : Bool := lt a.1 b.1 || (!lt b.1 a.1 && lt' a.2 b.2)

/-- `range<int>`. -/
structure Range where
  lower : Int
  upper : Int
deriving DecidableEq

/-- `range::operator<` (range.h 104-110). -/
def Range.lt (a b : Range) : Bool :=
  if a.lower < b.lower then true
  else if a.lower > b.lower then false
  else decide (a.upper < b.upper)

/-- `range::operator<=` (range.h 113-115). -/
def Range.le (a b : Range) : Bool := decide (a.lower < b.lower) || (decide (a.lower = b.lower) && decide (a.upper ≤ b.upper))

/-- `transition`. -/
structure Transition where
  symbolSet : Int
  newState : Int
deriving DecidableEq

/-- `transition::operator<` (transition.cpp 44-49). -/
def Transition.lt (a b : Transition) : Bool :=
  if a.symbolSet < b.symbolSet then true
  else if a.symbolSet > b.symbolSet then false
  else decide (a.newState < b.newState)

/-- `transition::operator<=` (transition.cpp 52-54). -/
def Transition.le (a b : Transition) : Bool := decide (a.newState < b.newState) || decide (a.symbolSet < b.symbolSet) || decide (a = b)

/-- `transition::operator>` (transition.h 71). -/
def Transition.gt (a b : Transition) : Bool := !a.le b

/-- `lexeme`. -/
structure Lexeme where
  matched : Int
  symbols : List Int
  position : Pos
deriving DecidableEq

/-- `lexeme::operator<` (lexeme.cpp 73-83). -/
def Lexeme.lt (a b : Lexeme) : Bool :=
  if a.matched < b.matched then true
  else if a.matched > b.matched then false
  else if lexLt ilt a.symbols b.symbols then true
  else if lexLt ilt b.symbols a.symbols then false
  else if a.position.lt b.position then true
  else false

/-- `astnode`; the rule is not compared. -/
inductive Node where
  | mk (item : Int) (lexeme : Option Lexeme) (children : List Node)

mutual
/-- `astnode::operator<` (astnode.cpp 64-79). -/
def Node.lt : Node → Node → Bool
  | .mk i l cs, .mk j m ds =>
    if decide (i < j) || ptrLt Lexeme.lt l m then true
    else if decide (j < i) || ptrLt Lexeme.lt m l then false
    else if cs.length < ds.length then true
    else if cs.length > ds.length then false
    else Node.loop cs ds
termination_by a b => sizeOf a + sizeOf b

/-- The loop over the children (astnode.cpp 73-76). -/
def Node.loop : List Node → List Node → Bool
  | c :: cs, d :: ds => if c.lt d then true else if d.lt c then false else Node.loop cs ds
  | _, _ => false
termination_by as bs => sizeOf as + sizeOf bs
end

/-- Comparing a rule with another (`rule::compare`, rule.h 158-169). -/
def ruleLt (a b : Rule) : Bool := Rule.cmp a b == .lt

/-- Comparing items (`item::compare`). -/
def itemLt (a b : Item) : Bool := Item.cmp a b == .lt

/-- `lr0_item`, with the identifier that the grammar gives to its rule. -/
structure Lr0 where
  rule : Int
  offset : Int
deriving DecidableEq

/-- `lr0_item::operator<` (lr_item.cpp 82-90). -/
def Lr0.lt (a b : Lr0) : Bool :=
  if a.offset < b.offset then true
  else if a.offset > b.offset then false
  else decide (a.rule < b.rule)

/-- `lr0_item::operator==` (lr_item.cpp 93-100). -/
def Lr0.eq (a b : Lr0) : Bool := if a.offset ≠ b.offset then false else decide (a.rule = b.rule)

/-- `lr1_item`. -/
structure Lr1 where
  core : Lr0
  lookahead : List Item
deriving DecidableEq

/-- The loop over the lookahead in `lr1_item::operator<` (lr_item.cpp 167-170). -/
def Lr1.loop : List Item → List Item → Bool
  | a :: as, b :: bs => if itemLt a b then true else if a ≠ b then false else Lr1.loop as bs
  | _, _ => false

/-- `lr1_item::operator<` (lr_item.cpp 149-174). -/
def Lr1.lt (a b : Lr1) : Bool :=
  if b.core.lt a.core then false
  else if !a.core.eq b.core then true
  else if a.lookahead.length < b.lookahead.length then true
  else if b.lookahead.length < a.lookahead.length then false
  else Lr1.loop a.lookahead b.lookahead

/-- The loop over the lookahead in `lr1_item::operator==` (lr_item.cpp 191-193). -/
def Lr1.eqLoop : List Item → List Item → Bool
  | a :: as, b :: bs => if a ≠ b then false else Lr1.eqLoop as bs
  | _, _ => true

/-- `lr1_item::operator==` (lr_item.cpp 177-198). -/
def Lr1.eq (a b : Lr1) : Bool :=
  if a.lookahead.length ≠ b.lookahead.length then false
  else if !a.core.eq b.core then false
  else Lr1.eqLoop a.lookahead b.lookahead

/-- `lr1_item::operator>` (lr_item.h 229). -/
def Lr1.gt (a b : Lr1) : Bool := !a.lt b

/-- `lr1_item::operator<=` (lr_item.h 230). -/
def Lr1.le (a b : Lr1) : Bool := a.lt b || a.eq b

/-- `lr1_item::operator>=` (lr_item.h 231). -/
def Lr1.ge (a b : Lr1) : Bool := !a.lt b || a.eq b

/-- The loop of `lr_state::operator<` (lr_state.h 134-140). -/
def stateLoop {α : Type} (lt : α → α → Bool) : List α → List α → Bool
  | a :: as, b :: bs => if lt a b then true else if lt b a then false else stateLoop lt as bs
  | _, _ => false

/-- `lr_state::operator<` (lr_state.h 128-144), for the items in the order in which they were added; also `lalr_state::operator<` (lalr_state.cpp 53-56). -/
def stateLt {α : Type} (lt : α → α → Bool) (a b : List α) : Bool :=
  if a.length < b.length then true
  else if a.length > b.length then false
  else stateLoop lt a b

/-- The loop of `lr_state::operator==` (lr_state.h 117-122). -/
def stateEqLoop {α : Type} (lt : α → α → Bool) : List α → List α → Bool
  | a :: as, b :: bs => if lt a b || lt b a then false else stateEqLoop lt as bs
  | _, _ => true

/-- `lr_state::operator==` (lr_state.h 111-125). -/
def stateEq {α : Type} (lt : α → α → Bool) (a b : List α) : Bool :=
  if a.length ≠ b.length then false else stateEqLoop lt a b

/-- `lr_action`; the type is a number. -/
structure Action where
  type : Int
  item : Option Item
  nextState : Int
  rule : Option Rule
deriving DecidableEq

/-- `lr_action::operator<` (lr_action.h 139-149). -/
def Action.lt (a b : Action) : Bool :=
  if ptrLt itemLt a.item b.item then true
  else if ptrLt itemLt b.item a.item then false
  else if a.type < b.type then true
  else if a.type > b.type then false
  else if a.nextState < b.nextState then true
  else if a.nextState > b.nextState then false
  else if ptrLt ruleLt a.rule b.rule then true
  else false

/-- `lr_item_id`. -/
structure ItemId where
  state : Int
  item : Int
deriving DecidableEq

/-- `lr_item_id::operator<` (lalr_builder.h 65-70). -/
def ItemId.lt (a b : ItemId) : Bool :=
  if a.state < b.state then true
  else if a.state ≠ b.state then false
  else decide (a.item < b.item)

/-- `conflict`: the state, the token, the items that are shifted, and those that are reduced with where they lead. -/
structure Conflict where
  state : Int
  token : Option Item
  shift : List (Option Lr0)
  reduce : List (Option Lr0 × List ItemId)
deriving DecidableEq

/-- `conflict::operator<` (conflict.cpp 66-79). -/
def Conflict.lt (a b : Conflict) : Bool :=
  if a.state < b.state then true
  else if a.state > b.state then false
  else if ptrLt itemLt a.token b.token then true
  else if ptrLt itemLt b.token a.token then false
  else if lexLt (ptrLt Lr0.lt) a.shift b.shift then true
  else if lexLt (ptrLt Lr0.lt) b.shift a.shift then false
  else if lexLt (pairLt (ptrLt Lr0.lt) (lexLt ItemId.lt)) a.reduce b.reduce then true
  else false

/-- `accept_action::operator==` and `language_accept_action::operator==` (accept_action.cpp 53-62, lexer_stage.cpp 91-105), for actions that are not eager. -/
def acceptEq : WeakLexer.Accept → WeakLexer.Accept → Bool
  | .plain s, b => decide (s = b.symbol)
  | .lang .., .plain _ => false
  | .lang s t _, .lang s' t' _ => if s ≠ s' then false else decide (t = t')

end Orders
end TameParse

import Verif.Items
/-
Model of the text that shows grammar items, rules, LR items, item sets, states, parser actions and conflicts.

Sources: /repo/TameParse/Language/formatter.cpp 61-197 (guards, items, item sets and rules), 229-264 (LR(0) and LR(1) items), 266-336
(states), 338-399 (actions), 464-519 (conflicts).

Simplifications:
* the names of terminals and nonterminals (`name_for_symbol`, `name_for_nonterminal`) are parameters;
* a repetition or option without a rule shows nothing between the parentheses, where `get_rule` (ebnf_items.cpp 157) would read the first
  element of an empty vector; the theorems ask for exactly one rule;
* the iterators of item sets, states and conflicts are lists;
* the closure of a state (formatter.cpp 309-333) is only shown on request, and is left out; `endl` is the newline.
-/
namespace TameParse
namespace Show

abbrev Text : Type := List Char

structure Names where
  sym : Int → Text
  nt : Int → Text

/-- The character behind the parentheses (formatter.cpp 124-126). -/
def mark : EbnfKind → Text
  | .optional => ['?']
  | .repeating => ['+']
  | .repeatZero => ['*']
  | .alternative => []

variable (N : Names)

mutual
/-- `to_string(const item&, …)` (formatter.cpp 74-134), and that of a guard (formatter.cpp 62-71). -/
def showItem : Item → Text
  | .empty => ['[', 'e', 'm', 'p', 't', 'y', ']']
  | .eoi => ['$']
  | .eog => ['%']
  | .terminal n => N.sym n
  | .nonterminal n => N.nt n
  | .guard _ r => ['[', '=', '>', ' '] ++ (showItems (-1) 0 true r ++ [']'])
  | .ebnf .alternative rs => '(' :: (showAlts true rs ++ [' ', ')'])
  | .ebnf k rs => ['(', ' '] ++ (showFirst rs ++ ([' ', ')'] ++ mark k))

/-- The loop over the items of a rule (formatter.cpp 174-193): `dot` is where the dot is, `pos` the place of the first item of the list. -/
def showItems (dot pos : Int) (first : Bool) : List Item → Text
  | [] => if dot = pos then (if first then [] else [' ']) ++ ['^'] else []
  | x :: xs => (if first then [] else [' ']) ++ ((if dot = pos then ['^', ' '] else []) ++ (showItem x ++ showItems dot (pos + 1) false xs))

/-- The loop over the rules of an alternative (formatter.cpp 101-111). -/
def showAlts (first : Bool) : List (List Item) → Text
  | [] => []
  | r :: rs => ' ' :: ((if first then [] else ['|', ' ']) ++ (showItems (-1) 0 true r ++ showAlts false rs))

/-- The rule of a repetition (`get_rule`, formatter.cpp 121). -/
def showFirst : List (List Item) → Text
  | [] => []
  | r :: _ => showItems (-1) 0 true r
end

/-- `to_string(const rule&, …)` with the nonterminal (formatter.cpp 165-197); with a dot it is that of an LR(0) item (formatter.cpp 230-232). -/
def showRule (lhs : Item) (r : List Item) (dot : Int) : Text := showItem N lhs ++ ([' ', '=', ' '] ++ showItems N dot 0 true r)

/-- The loop over the items of a set (formatter.cpp 146-160). -/
def showSet (first : Bool) : List Item → Text
  | [] => [')']
  | x :: xs => (if first then [] else [',', ' ']) ++ (showItem N x ++ showSet false xs)

/-- `to_string(const item_set&, …)` (formatter.cpp 137-162). -/
def showItemSet (xs : List Item) : Text := '(' :: showSet N true xs

/-- `lr_action::action_type` (lr_action.h 61-107). -/
inductive ActType | ignore | shift | shiftstrong | divert | reduce | weakreduce | goto | accept | guard
deriving DecidableEq

structure Act where
  type : ActType
  item : Item
  next : Int
  lhs : Item
  rule : List Item

/-- What `<<` writes for an `int`. -/
def decimal (n : Int) : Text := if n < 0 then '-' :: Nat.toDigits 10 n.natAbs else Nat.toDigits 10 n.natAbs

/-- The name of an action (formatter.cpp 344-380). -/
def actName (next : Int) : ActType → Text
  | .accept => ['A', 'c', 'c', 'e', 'p', 't', ' ']
  | .divert => ['D', 'i', 'v', 'e', 'r', 't', ' ']
  | .guard => ['G', 'u', 'a', 'r', 'd', ' ']
  | .goto => ['G', 'o', 't', 'o', ' '] ++ (decimal next ++ [' '])
  | .ignore => ['I', 'g', 'n', 'o', 'r', 'e', ' ']
  | .reduce => ['R', 'e', 'd', 'u', 'c', 'e', ' ']
  | .weakreduce => ['W', 'e', 'a', 'k', ' ', 'r', 'e', 'd', 'u', 'c', 'e', ' ']
  | .shift => ['S', 'h', 'i', 'f', 't', ' ', 't', 'o', ' '] ++ (decimal next ++ [' '])
  | .shiftstrong => ['S', 'h', 'i', 'f', 't', ' ', 's', 't', 'r', 'o', 'n', 'g', ' ', 'e', 'q', 'u', 'i', 'v', 'a', 'l', 'e', 'n', 't', ' ', 't', 'o', ' '] ++ (decimal next ++ [' '])

/-- The actions whose rule is shown (formatter.cpp 386-391). -/
def hasRule : ActType → Bool
  | .reduce | .weakreduce | .accept | .guard => true
  | _ => false

/-- The actions whose state is shown (formatter.cpp 357-359, 373-379). -/
def hasState : ActType → Bool
  | .goto | .shift | .shiftstrong => true
  | _ => false

/-- `to_string(const lr_action&, …)` (formatter.cpp 339-399). -/
def showAct (a : Act) : Text :=
  actName a.next a.type ++ (['o', 'n', ' '] ++ (showItem N a.item ++ (if hasRule a.type then [' ', '('] ++ (showRule N a.lhs a.rule (-1) ++ [')']) else [])))

/-- An LR(0) item. -/
structure Lr0 where
  lhs : Item
  rule : List Item
  offset : Int

/-- `to_string(const lr0_item&, …)` (formatter.cpp 230-232). -/
def showLr0 (i : Lr0) : Text := showRule N i.lhs i.rule i.offset

/-- The loop over the lookahead, and what is written behind it (formatter.cpp 247-261, 294-302): `close` is the last character. -/
def showLook (close : Char) (first : Bool) : List Item → Text
  | [] => [close]
  | x :: xs => (if first then [] else [',', ' ']) ++ (showItem N x ++ showLook close false xs)

/-- The lookahead behind an item, if there is any (formatter.cpp 247-261, 289-303). -/
def lookText (opening close : Char) (la : List Item) : Text :=
  match la with
  | [] => []
  | _ => [' ', opening] ++ showLook N close true la

/-- `to_string(const lr1_item&, …)` (formatter.cpp 235-264). -/
def showLr1 (i : Lr0) (la : List Item) : Text := showLr0 N i ++ lookText N '[' ']' la

/-- The loop of `to_string(const lalr_state&, …)` (formatter.cpp 275-307): the items with their lookahead. -/
def showState (first : Bool) : List (Lr0 × List Item) → Text
  | [] => []
  | (i, la) :: rest => (if first then [] else ['\n']) ++ (showLr0 N i ++ (lookText N '(' ')' la ++ showState false rest))

/-- A conflict: the state, the token, the items that are shifted and those that are reduced. -/
structure Conf where
  state : Int
  token : Item
  shift : List Lr0
  reduce : List Lr0

/-- The loop over the items that are shifted (formatter.cpp 487-500). -/
def showShift (first : Bool) : List Lr0 → Text
  | [] => []
  | i :: is => '\n' :: ((if first then [' ', ' ', 'S', 'h', 'i', 'f', 't', ':', '\n'] else []) ++ ([' ', ' ', ' ', ' '] ++ (showLr0 N i ++ showShift false is)))

/-- The loop over the items that are reduced (formatter.cpp 509-515). -/
def showReduce : List Lr0 → Text
  | [] => []
  | i :: is => '\n' :: ([' ', ' ', ' ', ' '] ++ (showLr0 N i ++ showReduce is))

/-- The kind of a conflict (formatter.cpp 472-478). -/
def confKind (c : Conf) : Text :=
  if c.shift.isEmpty then ['R', 'e', 'd', 'u', 'c', 'e', '/', 'r', 'e', 'd', 'u', 'c', 'e', ' ', 'c', 'o', 'n', 'f', 'l', 'i', 'c', 't'] else ['S', 'h', 'i', 'f', 't', '/', 'r', 'e', 'd', 'u', 'c', 'e', ' ', 'c', 'o', 'n', 'f', 'l', 'i', 'c', 't']

/-- The line between the items (formatter.cpp 503-507). -/
def confLine (c : Conf) : Text :=
  if c.shift.isEmpty then ['\n', ' ', ' ', 'R', 'e', 'd', 'u', 'c', 'e', ':'] else ['\n', ' ', ' ', 'O', 'r', ' ', 'r', 'e', 'd', 'u', 'c', 'e', ':']

/-- `to_string(const conflict&, …)` (formatter.cpp 465-519). -/
def showConf (c : Conf) : Text :=
  confKind c ++ ([' ', 'i', 'n', ' ', 's', 't', 'a', 't', 'e', ' '] ++ (decimal c.state ++ ([' ', 'o', 'n', ' '] ++ (showItem N c.token ++ (showShift N true c.shift ++ (confLine c ++ showReduce N c.reduce))))))

end Show
end TameParse

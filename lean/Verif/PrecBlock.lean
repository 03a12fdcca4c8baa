import Verif.Rewriters
import Verif.GrammarIds

/-!
# The rewriter for a precedence block

Compiler/precedence_block_rewriter.cpp and Language/precedence_block.h. A block is a list of levels with an associativity and EBNF items each. Of an item
only what the code looks at is kept. The map of names to symbols of the terminal dictionary is a parameter; it is negative for names that it does not have.
-/
namespace TameParse
namespace PrecBlock

open AssocMap

/-- `precedence_block::associativity` (precedence_block.h). -/
inductive Side | left | right | nonassoc
deriving DecidableEq, Repr

/-- What the code looks at in an item: whether it is a terminal (of one of three kinds), `source_identifier` and `identifier`. -/
structure BlockItem where
  terminal : Bool
  source : String
  name : String
deriving DecidableEq, Repr

/-- `precedence_block::item`. -/
structure Level where
  side : Side
  items : List BlockItem
deriving DecidableEq, Repr

/-- The switch (precedence_block_rewriter.cpp 47-52). -/
def assocOf : Side → Rewriters.Assoc
  | .left => .left
  | .right => .right
  | .nonassoc => .nonassociative

/-- `m_TerminalPrecedence` and `m_TerminalAssociativity`. -/
structure Maps where
  precedence : List (Int × Int)
  assoc : List (Int × Rewriters.Assoc)

/-- The loop over the items of a level (56-79). -/
def addItem (symbol : String → Int) (current : Int) (assoc : Rewriters.Assoc) (m : Maps) (i : BlockItem) : Maps :=
  if !i.terminal then m
  else if i.source ≠ "" then m
  else if symbol i.name < 0 then m
  else ⟨put (symbol i.name) current m.precedence, put (symbol i.name) assoc m.assoc⟩

/-- The loop over the levels (42-80), with `currentPrecedence`. -/
def levels (symbol : String → Int) : Int → List Level → Maps → Maps
  | _, [], m => m
  | current, l :: ls, m => levels symbol (current + 1) ls (l.items.foldl (addItem symbol (current + 1) (assocOf l.side)) m)

/-- The constructor (37-81). -/
def maps (symbol : String → Int) (block : List Level) : Maps := levels symbol 0 block ⟨[], []⟩

/-- `get_precedence` and `get_associativity` (93-128). The items are not used. -/
def prec (symbol : String → Int) (block : List Level) : Rewriters.Prec where
  precedence i _ := match i with
    | .terminal n => get n (maps symbol block).precedence
    | _ => none
  associativity i _ := match i with
    | .terminal n => (get n (maps symbol block).assoc).getD .nonassociative
    | _ => .nonassociative

end PrecBlock
end TameParse

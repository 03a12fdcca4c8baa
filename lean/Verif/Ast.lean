import Verif.SoundProps

/-!
# The syntax trees of generated parsers

The C++ output stage writes a class for every symbol of the grammar and the functions `shift` and `reduce` that the parser calls; they
make the objects of those classes.

Sources: /repo/TameParse/Compiler/OutputStages/cplusplus.cpp 1480-1659 (`shift`, `reduce`), 1190-1311 (constructors), 992-1160 (classes),
/repo/TameParse/Compiler/output_stage.cpp 440-524 (the rules), /repo/TameParse/Util/syntax_ptr.h 132-154 (casts),
/repo/TameParse/Lr/parser.h 303-366 (what the parser calls).

Simplifications:
* a class stands for itself rather than for the text of its name; the names are C67;
* the members of an object are listed in the order of the rule; what they are called is C67;
* `cast_to` on an object of a different class is undefined at once, not when the object is used, and so it is on a null pointer;
* an object is a value. `add_child` writes to the list object itself, which is the same as long as nothing else refers to it (copies of
  a parser state do, and that is not modelled);
* positions are left out; Spans has them.
-/

namespace TameParse
namespace Ast

open TameParse.Parser

/-- The generated classes: `terminal`, the class of an item, the class for the content of a list. -/
inductive Cls
  | plain
  | item (x : Item)
  | content (x : Item)
deriving DecidableEq

/-- What a `syntax_ptr<syntax_node>` points to. -/
inductive Node
  | null
  | term (c : Cls) (lexeme : Tok)
  | object (c : Cls) (rule : Int) (fields : List Node)
  | list (x : Item) (contents : List Node)

def Node.cls : Node → Option Cls
  | .null => none
  | .term c _ => some c
  | .object c _ _ => some c
  | .list x _ => some (.item x)

/-- What the output stage knows: the number of terminal symbols, the rule with an identifier, the identifier of a rule. -/
structure Gen where
  terminals : Nat
  rule : Int → Option Rule
  ruleId : Rule → Int

/-- `cast_to` and the use of the result as an object of that class. -/
def castTo (c : Cls) (n : Node) : M Node := if n.cls = some c then .ok n else .error .ub

/-- The generated `shift` (cplusplus.cpp 1480-1506). At the end of the input there is no lexeme whose symbol could be looked at. -/
def shift (d : Gen) : Option Tok → M Node
  | none => .error .ub
  | some k => .ok (.term (if 0 ≤ k.sym ∧ k.sym < d.terminals then .item (.terminal k.sym) else .plain) k)

def isGuard : Item → Bool
  | .guard _ _ => true
  | _ => false

/-- `isRepeating` (output_stage.cpp 475-477). -/
def isList : Item → Bool
  | .ebnf .repeating _ => true
  | .ebnf .repeatZero _ => true
  | _ => false

/-- `isEbnfRepetition` of the item at an index of a rule (output_stage.cpp 513-517). -/
def isRepetition (x : Item) (index : Nat) (y : Item) : Bool := isList x && index == 0 && y == x

/-- The parameters of the constructor (cplusplus.cpp 1582-1608): `children` is the reduce list, which has the last item first. -/
def fields (x : Item) (size : Nat) (children : List Node) : Nat → List Item → M (List Node)
  | _, [] => .ok []
  | index, y :: ys =>
    if isGuard y || isRepetition x index y then fields x size children (index + 1) ys
    else do
      let n ← orUb children[size - index - 1]?
      let f ← castTo (.item y) n
      return f :: (← fields x size children (index + 1) ys)

/-- The list that the content is added to (cplusplus.cpp 1619-1647): the first item of the rule, or a new one. -/
def theList (x : Item) (items : List Item) (children : List Node) : M (List Node) :=
  match items with
  | [] => .ok []
  | y :: _ =>
    if isRepetition x 0 y then do
      let n ← orUb children[items.length - 1]?
      match n with
      | .list x' cs => if x' = x then .ok cs else .error .ub
      | _ => .error .ub
    else .ok []

/-- One case of the generated `reduce` (cplusplus.cpp 1537-1651). For the rules of a guard there is no code, and the case goes on with the
next one; that is undefined here. The generator reads the first item of every rule of a `+` list, also where there is none. The content of
a `+` list always has the constructor that is declared for the rule without the repetition. -/
def reduceCase (d : Gen) (r : Rule) (children : List Node) : M Node :=
  match r.nonterminal with
  | .guard _ _ => .error .ub
  | .ebnf .repeating rs =>
    match r.items with
    | [] => .error .ub
    | y :: ys => do
      let c ← fields r.nonterminal r.items.length children 0 r.items
      let l ← theList r.nonterminal r.items children
      let id := d.ruleId ⟨r.nonterminal, if isRepetition r.nonterminal 0 y then ys else y :: ys⟩
      return .list (.ebnf .repeating rs) (l ++ [.object (.content r.nonterminal) id c])
  | .ebnf .repeatZero rs =>
    if r.items.isEmpty then .ok (.list (.ebnf .repeatZero rs) [])
    else do
      let c ← fields r.nonterminal r.items.length children 0 r.items
      let l ← theList r.nonterminal r.items children
      return .list (.ebnf .repeatZero rs) (l ++ [.object (.content r.nonterminal) (d.ruleId r) c])
  | x => do return .object (.item x) (d.ruleId r) (← fields x r.items.length children 0 r.items)

/-- The generated `reduce` (cplusplus.cpp 1509-1659). -/
def reduce (d : Gen) (rule : Int) (children : List Node) : M Node :=
  match d.rule rule with
  | none => .ok .null
  | some r => reduceCase d r children

mutual
/-- What the parser makes with these actions: the leaves are shifted, the nodes reduced. -/
def build (d : Gen) : Tree → M Node
  | .nothing => .ok .null
  | .leaf la => shift d la
  | .node _ rule children => do reduce d rule (← buildAll d children)

@[inherit_doc build]
def buildAll (d : Gen) : List Tree → M (List Node)
  | [] => .ok []
  | t :: ts => do return (← build d t) :: (← buildAll d ts)
end

end Ast
end TameParse

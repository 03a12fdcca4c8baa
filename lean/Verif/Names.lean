import Verif.Ast

/-!
# The names in generated parsers

Sources: /repo/TameParse/Compiler/OutputStages/cplusplus.cpp 80-164 (`get_identifier`), 166-213 (`class_name_for_item`), 308-396 (constants for
the symbols), 990-1160 (classes), 1190-1311 (constructors), /repo/TameParse/Compiler/output_stage.cpp 290-437 (names of items), 443-530 (the
rules).

Simplifications:
* strings are lists of characters;
* the names of classes are kept for items rather than for the identifiers of the items in the grammar (different items have different
  identifiers, C28);
* the map that counts the constants is the list of the names that were counted;
* of a class only the declarations that depend on the grammar are kept: members, constructors, `m_Position`;
* the name in the attributes of an item of a rule is a parameter.
-/

namespace TameParse
namespace Names

abbrev Str := List Char

/-! ### Identifiers -/

def isLetter (c : Char) : Bool := (decide ('A' ≤ c) && decide (c ≤ 'Z')) || (decide ('a' ≤ c) && decide (c ≤ 'z'))
def isDigit (c : Char) : Bool := decide ('0' ≤ c) && decide (c ≤ '9')

/-- What is written for a character of a name (cplusplus.cpp 105-160); `alone` says that there are no others. -/
def charText (alone : Bool) (c : Char) : Str :=
  if isLetter c || isDigit c then [c]
  else match c with
    | '<' => "_lessthan_".toList
    | '>' => "_greaterthan_".toList
    | '\'' => "_quote_".toList
    | '"' => "_doublequote_".toList
    | '&' => "_ampersand_".toList
    | ':' => "_colon_".toList
    | '=' => "_equals_".toList
    | '!' => "_exclamation_".toList
    | '@' => "_at_".toList
    | '#' => "_hash_".toList
    | '$' => "_dollar_".toList
    | '%' => "_percent_".toList
    | '^' => "_cicumflex_".toList
    | '*' => "_star_".toList
    | '(' => "_openparen_".toList
    | ')' => "_closeparen_".toList
    | '+' => "_plus_".toList
    | '/' => "_slash_".toList
    | '\\' => "_backslash_".toList
    | '|' => "_pipe_".toList
    | ';' => "_semicolon_".toList
    | '.' => "_dot_".toList
    | ',' => "_comma_".toList
    | '?' => "_question_".toList
    | '~' => "_tilde_".toList
    | '{' => "_opencurly_".toList
    | '}' => "_closecurly_".toList
    | '[' => "_opensquare_".toList
    | ']' => "_closesquare_".toList
    | '-' => if alone then "_minus_".toList else ['_']
    | _ => ['_']

/-- The first and the last character are these two. -/
def within (l r : Char) (s : Str) : Bool := decide (s.head? = some l) && decide (s.getLast? = some r)

def quoted (s : Str) : Bool := within '\'' '\'' s || within '"' '"' s || within '<' '>' s

/-- `get_identifier` (cplusplus.cpp 80-164). The substring of a single quote is empty. -/
def identifier (name : Str) : Str :=
  if name = [] then ['_']
  else
    let stripped := if quoted name then name.tail.dropLast else name
    "yy_".toList ++ stripped.flatMap (charText (decide (stripped.length = 1)))

/-! ### Names of items -/

/-- `strip` (output_stage.cpp 357-375). -/
def strip (s : Str) : Str := if s.length < 3 then s else if quoted s then s.tail.dropLast else s

/-- `name_for_rule` (output_stage.cpp 290-321), from the names of the items. -/
def nameForRule (items : List Str) : Str :=
  match items with
  | [] => "empty".toList
  | x :: xs => if (x :: xs).length ≤ 3 then List.intercalate "_".toList (x :: xs) else x ++ "_etc".toList

/-- `name_for_ebnf_item` (output_stage.cpp 324-354). -/
def nameForRules (rules : List (List Str)) : Str :=
  match rules with
  | [] => "empty".toList
  | r :: rs => List.intercalate "_or_".toList ((r :: rs).map nameForRule)

section
variable (term nonterm : Int → Str)

mutual
/-- `name_for_item` (output_stage.cpp 378-431) before empty names are replaced. -/
def rawName : Item → Str
  | .empty => "epsilon".toList
  | .eoi => "end_of_input".toList
  | .eog => "end_of_guard".toList
  | .terminal n => strip (term n)
  | .nonterminal n => strip (nonterm n)
  | .ebnf .optional rs => "optional_".toList ++ nameForRules (ruleNames rs)
  | .ebnf .alternative rs => "one_of_".toList ++ nameForRules (ruleNames rs)
  | .ebnf _ rs => "list_of_".toList ++ nameForRules (ruleNames rs)
  | _ => "unknown_item".toList

/-- The names of the items of a rule. -/
def itemNames : List Item → List Str
  | [] => []
  | x :: xs => (if rawName x = [] then "item".toList else rawName x) :: itemNames xs

/-- The names of the items of several rules. -/
def ruleNames : List (List Item) → List (List Str)
  | [] => []
  | r :: rs => itemNames r :: ruleNames rs
end

/-- `name_for_item` (output_stage.cpp 378-431). -/
def nameForItem (x : Item) : Str := if rawName term nonterm x = [] then "item".toList else rawName term nonterm x

end

/-! ### Choosing names -/

/-- A number as it is written to a stream. -/
def decimal (n : Nat) : Str := if n < 10 then [Char.ofNat (48 + n)] else decimal (n / 10) ++ [Char.ofNat (48 + n % 10)]
termination_by n
decreasing_by omega

/-- A name with a number, the first without. -/
def variant (base : Str) (v : Nat) : Str := if 1 < v then base ++ '_' :: decimal v else base

/-- The loops that look for a name that is not used (cplusplus.cpp 185-211, output_stage.cpp 499-508). -/
def freshLoop (used : List Str) (base : Str) : Nat → Nat → Option Str
  | 0, _ => none
  | fuel + 1, v => if variant base v ∈ used then freshLoop used base fuel (v + 1) else some (variant base v)

/-- `m_ClassNameForItem` and `m_UsedClassNames`. -/
structure Classes where
  names : List (Item × Str)
  used : List Str

/-- `class_name_for_item` (cplusplus.cpp 167-212), given the name of the item. -/
def classNameFor (name : Item → Str) (fuel : Nat) (c : Classes) (x : Item) : Option (Classes × Str) :=
  match AssocMap.get x c.names with
  | some s => some (c, s)
  | none =>
    match freshLoop c.used (identifier (name x)) fuel 1 with
    | none => none
    | some s => some (⟨AssocMap.put x s c.names, s :: c.used⟩, s)

/-- The class names for the items in the order in which they are asked for. -/
def assign (name : Item → Str) (fuel : Nat) : Classes → List Item → Option Classes
  | c, [] => some c
  | c, x :: xs =>
    match classNameFor name fuel c x with
    | none => none
    | some p => assign name fuel p.1 xs

/-- The class of an item (`s_TypeSuffix`) and of the content of a list (`s_ContentSuffix`). -/
def typeName (s : Str) : Str := s ++ "_n".toList
@[inherit_doc typeName]
def contentName (s : Str) : Str := typeName s ++ "_content".toList

/-- The names that the generated class declares itself, apart from the symbols (cplusplus.cpp 317, 355, 406, 465-466, 836, 846-930). -/
def fixed : List Str := ["t", "nt", "number_of_symbol_sets", "number_of_lexer_states", "lexer", "lr_tables", "syntax_node", "terminal", "parser_actions",
  "syntax_node_container", "ast_parser_type", "ast_parser", "state"].map String.toList

/-! ### Constants for the symbols -/

/-- The loop (cplusplus.cpp 333-335): `counted` are the names counted so far, `count` is the number for the short name. -/
def constLoop (counted : List Str) (count : Nat) : Nat → Str → Option Str
  | 0, _ => none
  | fuel + 1, name => if name ∈ counted then constLoop counted count fuel (name ++ '_' :: decimal count) else some name

/-- The constants for the short names of the symbols (cplusplus.cpp 319-341, 357-387). -/
def constants (fuel : Nat) : List Str → List Str → Option (List Str)
  | _, [] => some []
  | counted, s :: ss =>
    match constLoop counted (counted.count s) fuel s with
    | none => none
    | some n => (constants fuel (s :: counted) ss).map (n :: ·)

/-! ### Members and constructors -/

/-- `ast_rule_item`. -/
structure Part where
  item : Item
  name : Str
  rep : Bool
deriving DecidableEq

/-- The items of a rule of `x` with names that are used once (output_stage.cpp 482-521): `index` is the place of the first one, and each item
has the name in its attributes beside it. An empty name counts as used. -/
def parts (name : Item → Str) (fuel : Nat) (x : Item) : Nat → List Str → List (Item × Str) → Option (List Part)
  | _, _, [] => some []
  | index, used, (y, attr) :: l =>
    match freshLoop ([] :: used) (if attr = [] then name y else attr) fuel 1 with
    | none => none
    | some n => (parts name fuel x (index + 1) (n :: used) l).map (⟨y, n, Ast.isRepetition x index y⟩ :: ·)

/-- Whether an item has a member and a parameter (cplusplus.cpp 1043-1051). -/
def Part.counts (p : Part) : Bool := !Ast.isGuard p.item && !p.rep

/-- What a class declares. A constructor without parameters has one for the position. -/
inductive Decl
  | field (name : Str) (type : Item)
  | position
  | ctor (params : List Item)
deriving DecidableEq

/-- The members for a rule (cplusplus.cpp 1040-1071): those that are not defined yet, and all that are defined then. -/
def fieldDecls : List Str → List Part → List Decl × List Str
  | defined, [] => ([], defined)
  | defined, p :: ps =>
    if p.counts then
      if identifier p.name ∈ defined then fieldDecls defined ps
      else
        let q := fieldDecls (identifier p.name :: defined) ps
        (.field (identifier p.name) p.item :: q.1, q.2)
    else fieldDecls defined ps

/-- Whether a constructor is declared for a rule (cplusplus.cpp 1078-1099). The first item of a rule of a `+` list is looked at also if there is
none; the result is then undefined. -/
def declares (x : Item) (ps : List Part) : Bool :=
  match x with
  | .ebnf .repeating _ => !(ps.head?.map Part.rep).getD false
  | .ebnf .repeatZero _ => !ps.isEmpty
  | _ => true

/-- The declarations for the rules of `x` (cplusplus.cpp 1026-1139). -/
def body (x : Item) : List Str → List (List Part) → List Decl
  | _, [] => []
  | defined, ps :: rules =>
    let q := fieldDecls defined ps
    q.1 ++ (if ps.any Part.counts then [] else [.position]) ++ (if declares x ps then [.ctor ((ps.filter Part.counts).map Part.item)] else []) ++ body x q.2 rules

/-- What the constructor of a rule initialises (cplusplus.cpp 1282-1301). -/
def inits (ps : List Part) : List (Str × Item) := (ps.filter Part.counts).map fun p => (identifier p.name, p.item)

end Names
end TameParse

import Verif.ErrorExample
import Verif.AstParseProps

/-!
# The JSON formatter among the examples

Sources: /repo/Examples/JsonPrettyPrinter/json.tp 6-66 (the language), /repo/Examples/JsonPrettyPrinter/json_format.cpp 18-126 (the program).

Terminal symbols and nonterminals are numbered as the language stage does it (`stage_gram`): `true` 0, `false` 1, `null` 2, string 3, number 4, whitespace 5, `{` 6, `}` 7, `,` 8,
`:` 9, `[` 10, `]` 11; the nonterminals are Object 1, Pair 2, Value 4, Array 5.

Simplifications:
* the program writes to `wcout`, which is a text here; characters that `wcout` cannot write are not considered;
* the contents of lexemes are a parameter;
* `endl` writes a newline;
* a member of a generated class is named by its item. In these rules no item occurs twice. It is null if the object was made by a rule without that item
  (a new pointer is null, syntax_ptr.h 36-42, 80-83);
* the symbols in quotation marks are weak (language_stage.cpp 647-648), but `ex` has no weak symbols: no other symbol matches the texts that they match (`matches_unique`), so there is none
  that they are weaker than (weak_symbols.cpp 94-150).
-/

namespace TameParse
namespace Json

open AssocMap Closure Lalr TameParse.Parser ParserTables Sound Ast

/-! ### The grammar (json.tp 49-65) -/

def object : Item := .nonterminal 1
def pair : Item := .nonterminal 2
def array : Item := .nonterminal 5
def value : Item := .nonterminal 4

/-- `(',' <Pair>)*` (json.tp 51). -/
def pairs : Item := .ebnf .repeatZero [[.terminal 8, pair]]
/-- `(',' <Value>)*` (json.tp 56). -/
def values : Item := .ebnf .repeatZero [[.terminal 8, value]]

/-- json.tp 50-51. -/
def objectRules : List (List Item) := [[.terminal 6, .terminal 7], [.terminal 6, pair, pairs, .terminal 7]]
/-- json.tp 53. -/
def pairRules : List (List Item) := [[.terminal 3, .terminal 9, value]]
/-- json.tp 55-56. -/
def arrayRules : List (List Item) := [[.terminal 10, .terminal 11], [.terminal 10, value, values, .terminal 11]]
/-- json.tp 58-64. -/
def valueRules : List (List Item) := [[.terminal 3], [.terminal 4], [object], [array], [.terminal 0], [.terminal 1], [.terminal 2]]

/-- json.tp 49-65. -/
def gram : Gram := ⟨fun n => if n = 1 then objectRules else if n = 2 then pairRules else if n = 5 then arrayRules else if n = 4 then valueRules else []⟩

/-- The grammar with its items and rules; whitespace is ignored (json.tp 37-39), and the program parses an `<Object>` (json_format.cpp 20). -/
def ex : Ex where
  g := gram
  items := [object, pair, array, value, pairs, values, .terminal 0, .terminal 1, .terminal 2, .terminal 3, .terminal 4, .terminal 6, .terminal 7,
    .terminal 8, .terminal 9, .terminal 10, .terminal 11]
  rules := ⟨.empty, [object]⟩ :: (objectRules.map (⟨object, ·⟩) ++ pairRules.map (⟨pair, ·⟩) ++ arrayRules.map (⟨array, ·⟩) ++
    valueRules.map (⟨value, ·⟩) ++ [⟨pairs, []⟩, ⟨pairs, [pairs, .terminal 8, pair]⟩, ⟨values, []⟩, ⟨values, [values, .terminal 8, value]⟩])
  start := object
  ignored := [.terminal 5]
  fuel := 200

/-- What the output stage knows of the grammar. -/
def gen : Gen := ⟨12, fun n => ex.rules.find? fun r => decide ((numRule r : Int) = n), fun r => (numRule r : Int)⟩

/-! ### The program -/

abbrev Text : Type := List Int

/-- `indent` (json_format.cpp 56-62). -/
def indent (amount : Nat) : Text := List.replicate amount 32

/-- `endl` and the indentation (json_format.cpp 69, 76, 114, 118, 122). -/
def line (amount : Nat) : Text := 10 :: indent amount

/-- The items that an object made by this rule has members for: all but the list that is continued. -/
def memberItems (r : Rule) : List Item :=
  match r.items with
  | [] => []
  | y :: ys => if isRepetition r.nonterminal 0 y then ys else y :: ys

/-- A member of an object: nothing if it is null. -/
def member (n : Node) (y : Item) : M (Option Node) :=
  match n with
  | .object _ id fs => do
    let r ← orUb (gen.rule id)
    return (((memberItems r).zip fs).find? fun p => p.1 == y).map (·.2)
  | _ => .error .ub

/-- `content` of a lexeme. -/
def contentOf (content : Nat → Text) : Node → M Text
  | .term _ k => .ok (content k.text)
  | _ => .error .ub

/-- The contents of a list, which must not be null. -/
def elements : Option Node → M (List Node)
  | some (.list _ cs) => .ok cs
  | _ => .error .ub

mutual
/-- `pretty_print` for arrays (json_format.cpp 64-82). -/
def printArray (content : Nat → Text) : Nat → Nat → Node → M Text
  | 0, _, _ => .error .fuel
  | fuel + 1, ind, n => do
    match ← member n value with
    | none => return [91] ++ [93]
    | some v => do
      let a ← printValue content fuel (ind + 2) v
      let b ← printValues content fuel (ind + 2) (← elements (← member n values))
      return [91] ++ (line (ind + 2) ++ a ++ b) ++ [93]

/-- The loop over the rest of an array (json_format.cpp 75-78). -/
def printValues (content : Nat → Text) : Nat → Nat → List Node → M Text
  | 0, _, _ => .error .fuel
  | _ + 1, _, [] => .ok []
  | fuel + 1, ind, c :: cs => do
    let v ← orUb (← member c value)
    let a ← printValue content fuel ind v
    let b ← printValues content fuel ind cs
    return [44] ++ line ind ++ a ++ b

/-- `pretty_print` for values (json_format.cpp 84-102). -/
def printValue (content : Nat → Text) : Nat → Nat → Node → M Text
  | 0, _, _ => .error .fuel
  | fuel + 1, ind, n => do
    match ← member n (.terminal 3) with
    | some k => contentOf content k
    | none =>
    match ← member n (.terminal 4) with
    | some k => contentOf content k
    | none =>
    match ← member n (.terminal 0) with
    | some _ => return [116, 114, 117, 101]
    | none =>
    match ← member n (.terminal 1) with
    | some _ => return [102, 97, 108, 115, 101]
    | none =>
    match ← member n (.terminal 2) with
    | some _ => return [110, 117, 108, 108]
    | none =>
    match ← member n object with
    | some o => printObject content fuel ind o
    | none =>
    match ← member n array with
    | some a => printArray content fuel ind a
    | none => return []

/-- `pretty_print` for pairs (json_format.cpp 104-107). -/
def printPair (content : Nat → Text) : Nat → Nat → Node → M Text
  | 0, _, _ => .error .fuel
  | fuel + 1, ind, n => do
    let name ← contentOf content (← orUb (← member n (.terminal 3)))
    let v ← orUb (← member n value)
    return name ++ [58, 32] ++ (← printValue content fuel (ind + 2) v)

/-- `pretty_print` for objects (json_format.cpp 109-126). -/
def printObject (content : Nat → Text) : Nat → Nat → Node → M Text
  | 0, _, _ => .error .fuel
  | fuel + 1, ind, n => do
    match ← member n pair with
    | none => return [123] ++ [125]
    | some p => do
      let a ← printPair content fuel (ind + 2) p
      let b ← printPairs content fuel (ind + 2) (← elements (← member n pairs))
      return [123] ++ (line (ind + 2) ++ a ++ b ++ line ind) ++ [125]

/-- The loop over the rest of an object (json_format.cpp 117-120). -/
def printPairs (content : Nat → Text) : Nat → Nat → List Node → M Text
  | 0, _, _ => .error .fuel
  | _ + 1, _, [] => .ok []
  | fuel + 1, ind, c :: cs => do
    let p ← orUb (← member c pair)
    let a ← printPair content fuel ind p
    let b ← printPairs content fuel ind cs
    return [44] ++ line ind ++ a ++ b
end

/-- What `main` writes for the lexemes of an input (json_format.cpp 18-50): nothing if there is a syntax error. `fuel` bounds the parser and the printer. -/
def format (content : Nat → Text) (fuel : Nat) (input : List Tok) : M (Option Text) := do
  match ← parse ex.tables fuel (Parser.start 0 input) with
  | (false, _) => return none
  | (true, s) =>
    match s.stack with
    | [] => .error .ub
    | (_, τ) :: _ => return some ([10] ++ (← printObject content fuel 0 (← Ast.build gen τ)) ++ [10])

end Json
end TameParse

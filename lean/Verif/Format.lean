/-
Model of the text that shows a syntax tree.

Sources: /repo/TameParse/Language/formatter.cpp 522-564 (`to_string(const astnode&, …)`), /repo/TameParse/Util/astnode.h 43-112.

Simplifications:
* the names of grammar items and of lexer symbols (`to_string(*thisItem, …)`, `name_for_symbol`) are parameters, and so is the content of a lexeme;
* the rule of a node, which is not shown, is left out;
* a text is a list of character codes, 10 is the newline that `endl` writes.
-/
namespace TameParse
namespace Format

abbrev Text : Type := List Int

/-- `astnode` (astnode.h 43-60): the item, the lexeme (what was matched, and its content), and the children. -/
inductive Node where
  | mk (item : Int) (lexeme : Option (Int × Text)) (children : List Node)

variable (itemName symbolName : Int → Text)

/-- What is shown for a lexeme (formatter.cpp 532, 535): its symbol and its content in quotes. -/
def showLexeme (l : Int × Text) : Text := symbolName l.1 ++ [32, 34] ++ l.2 ++ [34]

/-- What is shown for the node itself (formatter.cpp 527-538). -/
def label (item : Int) (lexeme : Option (Int × Text)) : Text :=
  if item ≥ 0 then itemName item ++ (match lexeme with | some l => 32 :: showLexeme symbolName l | none => [])
  else match lexeme with
    | some l => showLexeme symbolName l
    | none => "(Unknown symbol)".toList.map (fun c => (c.toNat : Int))

/-- The loop over the characters of a child (formatter.cpp 550-559). -/
def indent (more : Bool) (s : Text) : Text := s.flatMap (fun c => if c = 10 then c :: (if more then [124, 32, 32] else [32, 32, 32]) else [c])

mutual
/-- `to_string(const astnode&, …)` (formatter.cpp 522-564). -/
def print : Node → Text
  | .mk item lexeme children => label itemName symbolName item lexeme ++ printAll children

/-- The loop over the children (formatter.cpp 541-560). -/
def printAll : List Node → Text
  | [] => []
  | c :: cs => [10, 43, 45, 32] ++ indent (!cs.isEmpty) (print c) ++ printAll cs
end

end Format
end TameParse

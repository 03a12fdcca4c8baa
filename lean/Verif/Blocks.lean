import Verif.Position

/-!
# The objects for definition files

The objects that the language parser makes of a definition file, and how they are copied, assigned and destroyed.

Sources: /repo/TameParse/Language: block.cpp 33-47, ebnf_item.cpp 34-114, production_definition.cpp 33-91, nonterminal_definition.cpp 33-81, grammar_block.cpp 33-70,
lexeme_definition.h 39-103, lexer_block.cpp 33-79, precedence_block.h 57-73 and precedence_block.cpp 34-65, language_unit.cpp 34-110, language_block.cpp 35-89, import_block.h
40-54, parser_block.h 37-65, test_definition.h 37-94, test_block.cpp 34-77, toplevel_block.cpp 33-111, definition_file.cpp 33-85.

Simplifications:
* an object is owned by one other object, and is a part of it here. Only the items of precedence blocks are known by their addresses, because copies share them;
* the values of enumerations are numbers;
* allocation does not fail.
-/

namespace TameParse
namespace Blocks

/-- The value of a member, or what was in the memory before. -/
inductive Val (α : Type) where
  | is (a : α)
  | junk
deriving DecidableEq, Repr

abbrev Text : Type := List Int

/-- `block` (block.h 37-71). -/
structure Place where
  start : Pos
  final : Pos
deriving DecidableEq, Repr

/-- `block()` (block.cpp 33-36). -/
def Place.none : Place := ⟨Pos.zero, Pos.zero⟩

/-- `ebnf_item_attributes` (ebnf_item_attributes.h 38-77). -/
structure Attr where
  name : Text
  conflict : Nat
  clash : Bool
deriving DecidableEq, Repr

/-- `ebnf_item` (ebnf_item.h 41-156). -/
inductive Ebnf where
  | mk (type : Val Nat) (source identifier : Text) (attr : Attr) (children : List Ebnf) (place : Place)

def Ebnf.type : Ebnf → Val Nat | .mk t _ _ _ _ _ => t
def Ebnf.children : Ebnf → List Ebnf | .mk _ _ _ _ c _ => c
def Ebnf.place : Ebnf → Place | .mk _ _ _ _ _ p => p

mutual
/-- The copy constructor (ebnf_item.cpp 50-52), which assigns (64-87) to an object whose type is not set. -/
def Ebnf.copy : Ebnf → Ebnf
  | .mk _ s i a c p => .mk .junk s i a (copyItems c) p

@[inherit_doc Ebnf.copy]
def copyItems : List Ebnf → List Ebnf
  | [] => []
  | e :: l => e.copy :: copyItems l
end

/-- `operator=` from another object (ebnf_item.cpp 64-87): the type stays. -/
def Ebnf.assign (to from_ : Ebnf) : Ebnf :=
  match from_ with
  | .mk _ s i a c p => .mk to.type s i a (copyItems c) p

/-- `add_child` (ebnf_item.cpp 92-114). The end of the item is set to itself (106). -/
def Ebnf.addChild (e child : Ebnf) : Ebnf :=
  match e with
  | .mk t s i a c p =>
    let place :=
      if child.place ≠ Place.none then
        if p = Place.none then child.place
        else ⟨if child.place.start.lt p.start then child.place.start else p.start, p.final⟩
      else p
    .mk t s i a (c ++ [child]) place

/-- `production_definition` (production_definition.h 40-75). -/
structure Production where
  items : List Ebnf
  place : Place

/-- The copy constructor (production_definition.cpp 38-40, 52-71). -/
def Production.copy (p : Production) : Production := ⟨copyItems p.items, p.place⟩

/-- `add_item` (production_definition.cpp 76-91). -/
def Production.addItem (p : Production) (e : Ebnf) : Production :=
  let place := if p.place.start = p.place.final then e.place else p.place
  let place := if e.place.start.lt place.start then { place with start := e.place.final } else place
  let place := if place.final.lt e.place.final then { place with final := e.place.final } else place
  ⟨p.items ++ [e], place⟩

/-- `nonterminal_definition` (nonterminal_definition.h 41-108). -/
structure Nonterminal where
  type : Val Nat
  identifier : Text
  productions : List Production
  place : Place

/-- The copy constructor (nonterminal_definition.cpp 40-42, 54-74): the type is not copied. -/
def Nonterminal.copy (n : Nonterminal) : Nonterminal := ⟨.junk, n.identifier, n.productions.map (·.copy), n.place⟩

/-- `grammar_block` (grammar_block.h 40-73). -/
structure Grammar where
  nonterminals : List Nonterminal
  place : Place

/-- The copy constructor (grammar_block.cpp 38-40, 52-65): the position is not copied. -/
def Grammar.copy (g : Grammar) : Grammar := ⟨g.nonterminals.map (·.copy), Place.none⟩

/-- `operator=` from another object (grammar_block.cpp 52-65). -/
def Grammar.assign (to from_ : Grammar) : Grammar := ⟨from_.nonterminals.map (·.copy), to.place⟩

/-- `operator=` from the object itself, which there is no test for (grammar_block.cpp 52-65): what is copied has just been deleted and removed. -/
def Grammar.assignSelf (g : Grammar) : Grammar := { g with nonterminals := [] }

/-- `lexeme_definition` (lexeme_definition.h 39-103), copied member by member. -/
structure Lexeme where
  type : Nat
  identifier : Text
  definition : Text
  add : Bool
  replace : Bool
  definitionPos : Pos
  place : Place

/-- `lexer_block` (lexer_block.h 46-107). -/
structure Lexer where
  lexemes : List Lexeme
  weak : Val Bool
  ci : Val Bool
  cs : Val Bool
  place : Place

/-- The copy constructor (lexer_block.cpp 41-43, 55-74): the flags are not copied. -/
def Lexer.copy (l : Lexer) : Lexer := ⟨l.lexemes, .junk, .junk, .junk, l.place⟩

/-- `precedence_block` (precedence_block.h 40-90): associativities and the addresses of items. It has no copy constructor of its own. -/
structure Precedence where
  list : List (Nat × List Nat)
  place : Place

/-- The items that the destructor deletes (precedence_block.cpp 39-49). -/
def Precedence.frees (p : Precedence) : List Nat := p.list.flatMap (·.2)

/-- `language_unit` (language_unit.h 38-146): the first three may be null. -/
structure LUnit where
  grammar : Option Grammar
  lexer : Option Lexer
  precedence : Option Precedence
  type : Nat
  place : Place

/-- The copy constructor (language_unit.cpp 66-71, 74-99). -/
def LUnit.copy (u : LUnit) : LUnit := ⟨u.grammar.map (·.copy), u.lexer.map (·.copy), u.precedence, u.type, u.place⟩

/-- What the destructor deletes of the items of precedence blocks (language_unit.cpp 102-110). -/
def LUnit.frees (u : LUnit) : List Nat := match u.precedence with | none => [] | some p => p.frees

/-- `language_block` (language_block.h 41-92). -/
structure Lang where
  identifier : Text
  inherits : List Text
  units : List LUnit
  place : Place

/-- The copy constructor (language_block.cpp 41-43, 46-70). -/
def Lang.copy (l : Lang) : Lang := ⟨l.identifier, l.inherits, l.units.map (·.copy), l.place⟩

/-- `import_block` (import_block.h 40-54), copied member by member. -/
structure Import where
  file : Text
  place : Place

/-- `parser_block` (parser_block.h 37-65), copied member by member. -/
structure ParserB where
  name : Text
  language : Text
  startSymbols : List Text
  place : Place

/-- `test_definition` (test_definition.h 37-94), copied member by member. -/
structure TestDef where
  language : Text
  nonterminal : Text
  type : Nat
  identifier : Text
  text : Text
  textPos : Pos
  place : Place

/-- `test_block` (test_block.h 39-78). -/
structure Test where
  language : Text
  definitions : List TestDef
  place : Place

/-- The copy constructor (test_block.cpp 40-42, 45-63): the position is not copied. -/
def Test.copy (t : Test) : Test := ⟨t.language, t.definitions, Place.none⟩

/-- A pointer: null, to an object, or to one that was deleted. -/
inductive Ptr (α : Type) where
  | null
  | to (a : α)
  | dangling

/-- `toplevel_block` (toplevel_block.h 41-88). -/
structure Top where
  import_ : Ptr Import
  language : Ptr Lang
  parser : Ptr ParserB
  test : Ptr Test
  place : Place

/-- What `operator=` makes of a pointer: the old object is deleted, and replaced if there is one to copy (toplevel_block.cpp 94-107). A pointer to a deleted object is
not null, so it would be copied; that has no meaning and does not occur below. -/
def Ptr.assign (copy : α → α) (old from_ : Ptr α) : Ptr α :=
  match from_ with
  | .to a => .to (copy a)
  | .dangling => .dangling
  | .null => match old with
    | .null => .null
    | _ => .dangling

/-- `operator=` from another object (toplevel_block.cpp 90-111). -/
def Top.assign (old from_ : Top) : Top :=
  ⟨old.import_.assign id from_.import_, old.language.assign (·.copy) from_.language, old.parser.assign id from_.parser, old.test.assign (·.copy) from_.test, from_.place⟩

/-- The copy constructor (toplevel_block.cpp 73-79). -/
def Top.copy (t : Top) : Top := Top.assign ⟨.null, .null, .null, .null, Place.none⟩ t

/-- What the destructor deletes of the items of precedence blocks (toplevel_block.cpp 82-87, language_block.cpp 73-79). -/
def Top.frees (t : Top) : List Nat := match t.language with | .to l => l.units.flatMap (·.frees) | _ => []

/-- `definition_file` (definition_file.h 41-84). -/
structure File where
  blocks : List Top
  place : Place

/-- `definition_file()` (definition_file.cpp 34-35). -/
def File.new : File := ⟨[], Place.none⟩

/-- `add` (definition_file.cpp 75-85). -/
def File.add (f : File) (t : Top) : File :=
  ⟨f.blocks ++ [t], ⟨if f.blocks.isEmpty || t.place.start.lt f.place.start then t.place.start else f.place.start,
    if f.blocks.isEmpty || f.place.final.lt t.place.final then t.place.final else f.place.final⟩⟩

/-- `clone`, the copy constructor and `operator=` (definition_file.h 77, definition_file.cpp 38-63). -/
def File.copy (f : File) : File := (f.blocks.map (·.copy)).foldl File.add File.new

/-- What the destructor deletes of the items of precedence blocks (definition_file.cpp 66-72). -/
def File.frees (f : File) : List Nat := f.blocks.flatMap (·.frees)

end Blocks
end TameParse

import Verif.GrammarIds
import Verif.First
import Verif.Attributes
/-
Model of the stage that turns a language definition into a terminal dictionary and a grammar.

Sources: /repo/TameParse/Language/language_parser.cpp 191-502 (from the syntax tree to definitions), Language/ebnf_item.h, ebnf_item.cpp 92-114,
Language/process.cpp 34-70, Compiler/language_stage.cpp 65-87 (symbols that are used), 90-394 (`compile`, symbols), 398-504 (`compile`, grammar),
569-661 (implicit symbols), 664-674 (attributes), 680-840 (`compile_item`), 866-886 (`export_to`), Compiler/Data/rule_item_data.cpp 40-67,
Compiler/Data/lexer_data.cpp 33-70, ContextFree/rule.cpp 137-179, ContextFree/guard.h 73.

A `std::map` is an association list that holds a key once and a `std::set` a list without duplicates, in the order of insertion (the code never
depends on their order here). Errors are kept as a list of their tags with the name that they are about; warnings, positions, file names and
the console are left out, and so are `m_FirstNonterminalUsage`, `m_RuleDefinition` and `m_TerminalDefinition`, which only serve messages.
Precedence blocks (`m_ActionRewriters`) are not modelled here. The keys of items inside EBNF items and guards are not kept: equal items are one
item for the grammar, whatever their keys (rule.h 140-143). The first child of an item of one child is the item itself, so that an `ebnf_item`
without children, which the parser of definitions never makes, does not occur.
-/
namespace TameParse
namespace Language
open AssocMap

/-- `ebnf_item_attributes` (ebnf_item_attributes.h 38-77); the conflict action `none` is `conflict_notspecified`. -/
structure Attr where
  name : String
  conflict : Option Rewriters.Resolve
  canClash : Bool
deriving DecidableEq

def Attr.blank : Attr := ⟨"", none, false⟩

/-- The three kinds of terminal of a definition (ebnf_item.h 48-55). -/
inductive TermKind | ident | character | string
deriving DecidableEq

/-! ### The syntax tree and the definitions -/

/-- `ast_Simple_Ebnf_Item` (definition.tp 150-162): an `Ebnf-Item` is a first sequence and the sequences after each `|`. -/
inductive Simple
  | nonterminal (source name : String) (attr : Attr)
  | terminal (kind : TermKind) (source name : String) (attr : Attr)
  | guard (canClash : Bool) (first : List Simple) (rest : List (List Simple)) (attr : Attr)
  | star (x : Simple) (attr : Attr)
  | plus (x : Simple) (attr : Attr)
  | question (x : Simple) (attr : Attr)
  | paren (first : List Simple) (rest : List (List Simple)) (attr : Attr)

/-- `ebnf_item` (ebnf_item.h). -/
inductive Ebnf
  | terminal (kind : TermKind) (source name : String) (attr : Attr)
  | nonterminal (source name : String) (attr : Attr)
  | guard (x : Ebnf) (attr : Attr)
  | alternative (x y : Ebnf) (attr : Attr)
  | repeatZero (x : Ebnf) (attr : Attr)
  | repeatOne (x : Ebnf) (attr : Attr)
  | optional (x : Ebnf) (attr : Attr)
  | paren (xs : List Ebnf) (attr : Attr)

/-- `add_child` on a parenthesized item (ebnf_item.cpp 92-114, without the positions). -/
def addChild : Ebnf → Ebnf → Ebnf
  | .paren xs a, y => .paren (xs ++ [y]) a
  | x, _ => x

/-- The loop over the items of a sequence (language_parser.cpp 237-265): the result so far, and whether it is already in parentheses. -/
def seqLoop : Option Ebnf → Bool → List Ebnf → Option Ebnf
  | r, _, [] => r
  | none, p, x :: xs => seqLoop (some x) p xs
  | some r, false, x :: xs => seqLoop (some (addChild (addChild (.paren [] .blank) r) x)) true xs
  | some r, true, x :: xs => seqLoop (some (addChild r x)) true xs

/-- A sequence (language_parser.cpp 234-270). -/
def seqOf (xs : List Ebnf) : Ebnf := (seqLoop none false xs).getD (.paren [] .blank)

mutual
/-- `definition_for(const ast_Simple_Ebnf_Item*)` (language_parser.cpp 297-424). -/
def simpleDef : Simple → Ebnf
  | .nonterminal s n a => .nonterminal s n a
  | .terminal k s n a => .terminal k s n a
  | .guard c first rest a =>
    let x := match altDefs rest with
      | none => seqOf (simpleDefs first)
      | some y => .alternative (seqOf (simpleDefs first)) y .blank
    .guard x (if c then { a with canClash := true } else a)
  | .star x a => .repeatZero (simpleDef x) a
  | .plus x a => .repeatOne (simpleDef x) a
  | .question x a => .optional (simpleDef x) a
  | .paren first rest a =>
    match altDefs rest with
    | none => seqOf (simpleDefs first)
    | some y => .alternative (seqOf (simpleDefs first)) y a

/-- `definition_for(const ast_Ebnf_Item*)` for `yy_or_item` (language_parser.cpp 273-290). -/
def altDefs : List (List Simple) → Option Ebnf
  | [] => none
  | first :: rest => some (match altDefs rest with
      | none => seqOf (simpleDefs first)
      | some y => .alternative (seqOf (simpleDefs first)) y .blank)

def simpleDefs : List Simple → List Ebnf
  | [] => []
  | x :: xs => simpleDef x :: simpleDefs xs
end

/-- `nonterminal_definition::type`. -/
inductive NtType | assignment | addition | replace
deriving DecidableEq

/-- `nonterminal_definition`, with the productions as items. -/
structure NtDef where
  type : NtType
  name : String
  prods : List (List Ebnf)

/-- `ast_Nonterminal_Definition`. -/
structure NtSyntax where
  type : NtType
  name : String
  prods : List (List Simple)

/-- `definition_for(const ast_Nonterminal_Definition*)` (language_parser.cpp 453-502). -/
def ntDef (d : NtSyntax) : NtDef := ⟨d.type, d.name, d.prods.map simpleDefs⟩

/-- `lexeme_definition::type` (the kinds that the parser of definitions makes). -/
inductive LexKind | literal | string | character | regex
deriving DecidableEq

/-- `lexeme_definition`. -/
structure Lexeme where
  kind : LexKind
  name : String
  definition : List Char
  add : Bool
  replace : Bool

/-- The lexer units in the order of `language_unit::unit_type` (language_unit.h 41-62). -/
inductive UnitType | symbols | keywords | lexer | ignore
deriving DecidableEq

/-- The units of a language block; a grammar block is a list of nonterminal definitions, as syntax or after the parser of definitions. -/
inductive Block (δ : Type)
  | lexer (type : UnitType) (weak ci cs : Bool) (items : List Lexeme)
  | grammar (defs : List δ)

/-- The parser of definitions on a unit (language_parser.cpp 505-523 for grammars). -/
def unitDef : Block NtSyntax → Block NtDef
  | .lexer t w ci cs ls => .lexer t w ci cs ls
  | .grammar ds => .grammar (ds.map ntDef)

/-! ### The state of the stage -/

/-- `lexer_item` (lexer_item.h), without positions. -/
structure LexItem where
  regex : Bool
  definition : List Char
  ci : Bool
  cs : Bool
  symbol : Int
  type : Option UnitType
  weak : Bool
deriving DecidableEq

/-- The errors that the stage reports (`sev_error` only). -/
inductive Err
  | duplicateLexer (name : String)
  | missingForAdding (name : String)
  | missingForReplacing (name : String)
  | differentType (name : String)
  | duplicateNonterminal (name : String)
  | undefinedNonterminal (id : Nat)
deriving DecidableEq

/-- A rule with the keys of its items; 0 is no key. -/
abbrev KeyRule := List (Item × Nat)

/-- The members of `language_stage`. -/
structure Lang where
  /-- `m_Terminals` -/
  terminals : TerminalDict
  /-- `m_Lexer`: expressions -/
  exprs : List (String × List LexItem)
  /-- `m_Lexer`: definitions -/
  defs : List (String × List LexItem)
  /-- `m_Grammar`: identifiers -/
  ids : GrammarIds
  /-- `m_Grammar`: `m_Nonterminals` -/
  rules : List (Nat × List KeyRule)
  /-- `m_WeakSymbols` -/
  weak : List Int
  /-- `m_IgnoredSymbols` -/
  ignored : List Int
  /-- `m_TypeForTerminal` -/
  typeFor : List (Int × UnitType)
  /-- `m_UnusedSymbols` -/
  unused : List Int
  /-- `m_UsedIgnoredSymbols` -/
  usedIgnored : List Int
  /-- `m_RuleItemData`: `m_NextKey` -/
  nextKey : Nat
  /-- `m_RuleItemData`: `m_RuleItemAttributes` -/
  attrs : List (Nat × Attr)
  /-- `m_Guards`: the keys -/
  guards : List Item
  errors : List Err

def Lang.new : Lang := ⟨.new, [], [], .new, [], [], [], [], [], [], 1, [], [], []⟩

namespace Lang

def error (s : Lang) (e : Err) : Lang := { s with errors := s.errors ++ [e] }

/-! ### Items -/

/-- `rule << item` (rule.cpp 137-143). -/
def push (r : KeyRule) (x : Item) : KeyRule := r ++ [(x, 0)]

/-- `rule_item_data::set_attributes` for the last item of a rule (rule_item_data.cpp 55-67). -/
def setLast (s : Lang) (r : KeyRule) (a : Attr) : Lang × KeyRule :=
  match r.getLast? with
  | none => (s, r)
  | some (x, key) =>
    if key = 0 then ({ s with nextKey := s.nextKey + 1, attrs := put s.nextKey a s.attrs }, r.dropLast ++ [(x, s.nextKey)])
    else ({ s with attrs := put key a s.attrs }, r)

/-- `append_attribute` (language_stage.cpp 664-674). -/
def appendAttr (s : Lang) (r : KeyRule) (a : Attr) : Lang × KeyRule := if a = .blank then (s, r) else s.setLast r a

/-- The items of a rule. -/
def items (r : KeyRule) : List Item := r.map Prod.fst

/-- Giving an item an identifier (`m_Grammar.identifier_for_item`). -/
def know (s : Lang) (x : Item) : Lang := { s with ids := (s.ids.identifierForItem x).1 }

mutual
/-- `compile_item` (language_stage.cpp 680-840): the state and the rule with what was appended to it. -/
def compileItem (s : Lang) (r : KeyRule) : Ebnf → Lang × KeyRule
  | .terminal _ _ n a => appendAttr s (push r (.terminal (s.terminals.symbolForName n))) a
  | .nonterminal _ n a =>
    let (ids, i) := s.ids.idForNonterminal n
    appendAttr { s with ids := ids } (push r (.nonterminal i)) a
  | .paren xs _ => compileItems s r xs
  | .optional x a =>
    let (s, r') := compileItem s [] x
    let y := Item.ebnf .optional [items r']
    appendAttr (s.know y) (push r y) a
  | .repeatOne x a =>
    let (s, r') := compileItem s [] x
    let y := Item.ebnf .repeating [items r']
    appendAttr (s.know y) (push r y) a
  | .repeatZero x a =>
    let (s, r') := compileItem s [] x
    let y := Item.ebnf .repeatZero [items r']
    appendAttr (s.know y) (push r y) a
  | .guard x a =>
    let (s, r') := compileItem s [] x
    let y := Item.guard (-1) (items r')
    let (s, r) := appendAttr s (push r y) a
    ({ s.know y with guards := s.guards.insert y }, r)
  | .alternative x y a =>
    let (s, l) := compileItem s [] x
    let (s, r') := compileItem s [] y
    let z := Item.ebnf .alternative [items l, items r']
    appendAttr (s.know z) (push r z) a

/-- The loop over several items (language_stage.cpp 432-435, 714-716). -/
def compileItems (s : Lang) (r : KeyRule) : List Ebnf → Lang × KeyRule
  | [] => (s, r)
  | x :: xs =>
    let (s, r) := compileItem s r x
    compileItems s r xs
end

/-! ### Grammar blocks -/

/-- `m_Grammar.rules_for_nonterminal`. -/
def rulesFor (s : Lang) (i : Nat) : List KeyRule := (get i s.rules).getD []

/-- One production (language_stage.cpp 427-442). -/
def addProd (i : Nat) (s : Lang) (p : List Ebnf) : Lang :=
  let (s, r) := compileItems s [] p
  { s with rules := put i (s.rulesFor i ++ [r]) s.rules, ids := (s.ids.identifierForRule ⟨.nonterminal i, items r⟩).1 }

/-- One nonterminal definition (language_stage.cpp 406-443). -/
def addNt (s : Lang) (d : NtDef) : Lang :=
  let (ids, i) := s.ids.idForNonterminal d.name
  let s := { s with ids := ids }
  let defined := !(s.rulesFor i).isEmpty
  let s := if d.type = .assignment ∧ defined then s.error (.duplicateNonterminal d.name) else s
  let s := if d.type = .replace ∧ defined then { s with rules := put i [] s.rules } else s
  d.prods.foldl (addProd i) s

/-- The grammar blocks (language_stage.cpp 398-444). -/
def addUnit (s : Lang) : Block NtDef → Lang
  | .grammar ds => ds.foldl addNt s
  | .lexer .. => s

/-- The grammar that was made, as its rules. -/
def gram (s : Lang) : Gram := ⟨fun n => if 0 ≤ n then (s.rulesFor n.toNat).map items else []⟩

/-! ### Symbols -/

/-- `process::dequote_string` (process.cpp 34-70), from the second character; the last character is dropped. `rest` is what follows `pos`;
`string[size]` is the terminating 0 of the string. -/
def dequoteLoop : List Char → List Char
  | [] => []
  | [_] => []
  | c :: d :: rest =>
    if c = '\\' then
      (match d with
        | 'a' => '\x07' | 'e' => '\x1b' | 'n' => '\n' | 'r' => '\r' | 'f' => '\x0c' | 't' => '\t' | d => d) :: dequoteLoop rest
    else c :: dequoteLoop (d :: rest)

/-- `process::dequote_string`; the empty string is read out of bounds by the code (`size()-1` wraps around). -/
def dequote (s : List Char) : List Char := dequoteLoop s.tail

/-- `m_Lexer.add_definition`. -/
def addDef (s : Lang) (n : String) (i : LexItem) : Lang := { s with defs := put n ((get n s.defs).getD [] ++ [i]) s.defs }

/-- `m_Lexer.add_expression`. -/
def addExpr (s : Lang) (n : String) (i : LexItem) : Lang := { s with exprs := put n ((get n s.exprs).getD [] ++ [i]) s.exprs }

/-- `erase` of a key in a map. -/
def erase {κ ν : Type} [DecidableEq κ] (k : κ) (m : List (κ × ν)) : List (κ × ν) := m.filter (fun p => decide (p.1 ≠ k))

/-- The item for a definition (language_stage.cpp 178-209, 321-353): whether it is a regular expression, and the text. -/
def lexText (l : Lexeme) : Bool × List Char :=
  match l.kind with
  | .regex => (true, l.definition.tail.dropLast)
  | .literal => (false, l.name.toList)
  | .string | .character => (false, dequote l.definition)

/-- One definition of a lexer-symbols block (language_stage.cpp 148-210). -/
def addSymbol (ci cs : Bool) (s : Lang) (l : Lexeme) : Lang :=
  let old := (get l.name s.exprs).getD []
  let s := if old.isEmpty then
      (if l.add then s.error (.missingForAdding l.name) else if l.replace then s.error (.missingForReplacing l.name) else s)
    else (if !l.add ∧ !l.replace then s.error (.duplicateLexer l.name) else s)
  let s := if l.replace then { s with exprs := erase l.name s.exprs } else s
  let t := lexText l
  s.addExpr l.name ⟨t.1, t.2, ci, cs, -1, none, false⟩

/-- The symbol of a definition (language_stage.cpp 251-301), negative if there is none. -/
def symbolFor (type : UnitType) (s : Lang) (l : Lexeme) : Lang × Int :=
  let old := s.terminals.symbolForName l.name
  if !l.add then
    if !l.replace then
      let s := if old ≥ 0 then s.error (.duplicateLexer l.name) else s
      let (d, i) := s.terminals.addNamed l.name
      ({ s with terminals := d }, i)
    else if old < 0 then (s.error (.missingForReplacing l.name), old)
    else ({ s with defs := erase l.name s.defs }, old)
  else if old < 0 then (s.error (.missingForAdding l.name), old)
  else if get old s.typeFor ≠ some type then (s.error (.differentType l.name), old)
  else (s, old)

/-- One definition of a lexer block (language_stage.cpp 249-369). -/
def addLexeme (type : UnitType) (weak ci cs : Bool) (s : Lang) (l : Lexeme) : Lang :=
  let (s, i) := symbolFor type s l
  if i < 0 then s else
  let s := { s with typeFor := put i type s.typeFor }
  let s := if type ≠ .ignore then { s with unused := s.unused.insert i } else s
  let t := lexText l
  let s := s.addDef l.name ⟨t.1, t.2, ci, cs, i, some type, weak⟩
  let s := if type = .ignore then { s with ignored := s.ignored.insert i } else s
  if weak then { s with weak := s.weak.insert i } else s

/-- One block in one pass (language_stage.cpp 235-249): blocks of other kinds are left for another pass. -/
def addLexerUnit (weak : Bool) (type : UnitType) (s : Lang) : Block NtDef → Lang
  | .lexer t w ci cs ls => if t = type ∧ w = weak then ls.foldl (addLexeme t w ci cs) s else s
  | .grammar _ => s

def addSymbolsUnit (s : Lang) : Block NtDef → Lang
  | .lexer .symbols _ ci cs ls => ls.foldl (addSymbol ci cs) s
  | _ => s

mutual
/-- `add_ebnf_lexer_items` (language_stage.cpp 569-661). -/
def implicit (s : Lang) : Ebnf → Lang
  | .guard x _ | .repeatZero x _ | .repeatOne x _ | .optional x _ => implicit s x
  | .alternative x y _ => implicit (implicit s x) y
  | .paren xs _ => implicits s xs
  | .terminal k src n _ =>
    if k = .ident ∧ src ≠ "" then s
    else if s.terminals.symbolForName n ≥ 0 then s
    else
      let (d, i) := s.terminals.addNamed n
      let s := { s with terminals := d }
      let s := s.addDef n ⟨decide (k = .ident), if k = .ident then n.toList else dequote n.toList, false, false, i, some .keywords, true⟩
      { s with unused := s.unused.insert i, typeFor := put i .keywords s.typeFor, weak := s.weak.insert i }
  | .nonterminal .. => s

def implicits (s : Lang) : List Ebnf → Lang
  | [] => s
  | x :: xs => implicits (implicit s x) xs
end

def implicitUnit (s : Lang) : Block NtDef → Lang
  | .grammar ds => ds.foldl (fun s d => d.prods.foldl implicits s) s
  | .lexer .. => s

mutual
/-- `process_rule_symbols` (language_stage.cpp 65-87): `cast_ebnf` gives nothing for a guard (item.cpp 262-265, guard.h 60-115). -/
def useItem (s : Lang) : Item → Lang
  | .terminal n =>
    { s with unused := s.unused.erase n, usedIgnored := if n ∈ s.ignored then s.usedIgnored.insert n else s.usedIgnored }
  | .ebnf _ rs => useRules s rs
  | _ => s

def useItems (s : Lang) : List Item → Lang
  | [] => s
  | x :: xs => useItems (useItem s x) xs

def useRules (s : Lang) : List (List Item) → Lang
  | [] => s
  | r :: rs => useRules (useItems s r) rs
end

/-- The loop over all rules (language_stage.cpp 447-455). -/
def useAll (s : Lang) : Lang :=
  (List.range s.ids.itemIds.length).foldl (fun s i => (s.rulesFor i).foldl (fun s r => useItems s (items r)) s) s

/-- Nonterminals without rules (language_stage.cpp 487-504). -/
def checkUndefined (s : Lang) : Lang :=
  (List.range s.ids.itemIds.length).foldl (fun s i =>
    match s.ids.itemWithIdentifier i with
    | .nonterminal _ => if (s.rulesFor i).isEmpty then s.error (.undefinedNonterminal i) else s
    | _ => s) s

/-- `lexerDefinitionOrder` in both passes (language_stage.cpp 214-233). -/
def passes : List (Bool × UnitType) :=
  [(true, .keywords), (true, .lexer), (true, .ignore), (false, .keywords), (false, .lexer), (false, .ignore)]

/-- The symbols of a language block (language_stage.cpp 138-394). -/
def addSymbols (s : Lang) (us : List (Block NtDef)) : Lang :=
  us.foldl implicitUnit (passes.foldl (fun s p => us.foldl (addLexerUnit p.1 p.2) s) (us.foldl addSymbolsUnit s))

/-- `compile` (language_stage.cpp 90-547) of one language block, given what is inherited. -/
def compileBlock (s : Lang) (us : List (Block NtDef)) : Lang := checkUndefined (useAll (us.foldl addUnit (addSymbols s us)))

/-- `compile` of a language that inherits from others, the oldest first: `export_to` (861-885) hands everything but the errors on. -/
def compile : Lang → List (List (Block NtDef)) → Lang
  | s, [] => s
  | s, us :: more => compile (compileBlock s us) more

end Lang
end Language
end TameParse

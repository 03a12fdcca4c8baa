import Verif.LanguageGrammarProps
import Verif.PrecBlock
/-
Model of how definition files are read: from the syntax tree of a file to its blocks, the files that it imports, and the languages that a
language inherits from.

Sources: /repo/TameParse/Language/language_parser.cpp 84-188 (parser and test blocks), 526-570 (lexemes), 573-735 (lexer units, precedence),
738-872 (language units, language blocks, files), 944-985 (`parse`), Language/definition.tp 89-250 (the syntax), Compiler/parser_stage.cpp 47-84,
Compiler/import_stage.cpp 41-129, import_stage.h 80-100, Compiler/language_stage.cpp 90-117 (inheritance), Compiler/language_builder_stage.cpp 54-87.

The positions of blocks and the verbose messages are left out. A `std::map` is an association list. Opening and parsing a file is the console's
`read`, a parameter: it gives the syntax tree, if the file can be opened and parsed. Languages are values here, not pointers into the files,
which `m_DefinitionForFile` keeps alive. The loops of the import stage and of inheritance take a bound on their number of turns.
-/
namespace TameParse
namespace Files
open AssocMap Language

/-! ### The syntax of a file -/

/-- `ast_Lexeme_Definition` (definition.tp 141-143): a definition, or a reference to a lexeme of another language. -/
inductive LexemeSyntax
  | definition (l : Lexeme)
  | reference (name language lexeme : String)

/-- `ast_Keyword_Definition` (definition.tp 138-139). -/
inductive KeywordSyntax
  | literal (name : String)
  | lexeme (l : LexemeSyntax)

/-- `ast_Lexer_Modifier` (definition.tp 131-133); a `Lexer-Symbols-Modifier` is one of the last two. -/
inductive Modifier | weak | sensitive | insensitive
deriving DecidableEq

/-- `ast_Language_Definition` (definition.tp 105-129). -/
inductive UnitSyntax
  | symbols (mods : List Modifier) (items : List LexemeSyntax)
  | lexer (mods : List Modifier) (items : List LexemeSyntax)
  | ignore (items : List KeywordSyntax)
  | keywords (mods : List Modifier) (items : List KeywordSyntax)
  | grammar (defs : List NtSyntax)
  | precedence (items : List (PrecBlock.Side × List Simple))

/-- `ast_Language_Block`. -/
structure LanguageSyntax where
  name : String
  inherits : Option String
  units : List UnitSyntax

/-- The three kinds of test (test_definition.h). -/
inductive TestType | match | noMatch | matchFromFile
deriving DecidableEq

/-- `ast_Test_Definition`: the nonterminal, and the texts with their names. -/
structure TestSyntax where
  source : String
  nonterminal : String
  type : TestType
  specs : List (Option String × List Char)

/-- `ast_TopLevel_Block`; strings are as written, in quotes. -/
inductive TopSyntax
  | language (l : LanguageSyntax)
  | imports (file : List Char)
  | parser (name language : String) (starts : List String)
  | tests (language : String) (tests : List TestSyntax)

/-! ### The blocks of a file -/

/-- `language_unit`. -/
inductive DefUnit
  | block (b : Block NtDef)
  | precedence (items : List (PrecBlock.Side × List Ebnf))

/-- `language_block`. -/
structure LanguageDef where
  name : String
  inherits : List String
  units : List DefUnit

/-- `test_definition`. -/
structure TestDef where
  language : String
  nonterminal : String
  type : TestType
  name : String
  text : List Char
deriving DecidableEq

/-- `toplevel_block`. -/
inductive Top
  | language (l : LanguageDef)
  | imports (file : String)
  | parser (name language : String) (starts : List String)
  | tests (language : String) (tests : List TestDef)

/-- `add_lexeme_definition` (language_parser.cpp 526-570): a reference is not implemented, and fails. -/
def lexemeDef : LexemeSyntax → Option Lexeme
  | .definition l => some l
  | .reference .. => none

/-- The loop of `definition_for(const list_of_Keyword_Definition*, ...)` (language_parser.cpp 605-622). -/
def keywordDef : KeywordSyntax → Option Lexeme
  | .lexeme l => lexemeDef l
  | .literal n => some ⟨.literal, n, n.toList, false, false⟩

/-- The flags of a lexer block (language_parser.cpp 579-599, 635-655): one loop over the modifiers. -/
def flags (mods : List Modifier) : Bool × Bool × Bool :=
  mods.foldl (fun f m => match m with
    | .weak => (true, f.2)
    | .insensitive => (f.1, true, f.2.2)
    | .sensitive => (f.1, f.2.1, true)) (false, false, false)

/-- A lexer block from its definitions, if all of them can be read. -/
def lexerBlock (t : UnitType) (mods : List Modifier) (items : Option (List Lexeme)) : Option DefUnit :=
  items.map fun ls => .block (.lexer t (flags mods).1 (flags mods).2.1 (flags mods).2.2 ls)

/-- `definition_for(const ast_Language_Definition*)` (language_parser.cpp 738-757). -/
def unitOf : UnitSyntax → Option DefUnit
  | .symbols mods ls => lexerBlock .symbols mods (ls.mapM lexemeDef)
  | .lexer mods ls => lexerBlock .lexer mods (ls.mapM lexemeDef)
  | .ignore ls => lexerBlock .ignore [] (ls.mapM keywordDef)
  | .keywords mods ls => lexerBlock .keywords mods (ls.mapM keywordDef)
  | .grammar ds => some (.block (.grammar (ds.map ntDef)))
  | .precedence ps => some (.precedence (ps.map fun p => (p.1, simpleDefs p.2)))

/-- `definition_for(const ast_Language_Block*)` (language_parser.cpp 760-791). -/
def languageOf (l : LanguageSyntax) : Option LanguageDef :=
  (l.units.mapM unitOf).map fun us => ⟨l.name, l.inherits.toList, us⟩

/-- `add_test_definition` (language_parser.cpp 84-144). -/
def testOf (t : TestSyntax) : Option (List TestDef) :=
  if t.specs = [] then none
  else some (t.specs.map fun s => ⟨t.source, t.nonterminal, t.type, s.1.getD "", Lang.dequote s.2⟩)

/-- `definition_for(const ast_TopLevel_Block*)` (language_parser.cpp 794-842). -/
def topOf : TopSyntax → Option Top
  | .language l => (languageOf l).map .language
  | .imports f => some (.imports (String.ofList (Lang.dequote f)))
  | .parser n l ss => some (.parser n l ss)
  | .tests l ts => (ts.mapM testOf).map fun ts => .tests l ts.flatten

/-- `definition_for(const Parser_Language*)` (language_parser.cpp 845-866). -/
def fileOf (f : List TopSyntax) : Option (List Top) := f.mapM topOf

/-! ### The import stage -/

/-- What comes of opening and parsing a file. -/
inductive Reading
  | missing
  | syntaxError
  | parsed (f : List TopSyntax)

/-- The parts of `console` that are used. -/
structure Console where
  realPath : String → String
  read : String → Reading

/-- The errors of the two stages. -/
inductive FileErr
  | cantOpen (file : String)
  | syntax (file : String)
  | ambiguous (name file : String)
deriving DecidableEq

/-- `parser_stage::compile` and `definition_file()` (parser_stage.cpp 47-84, language_parser.cpp 944-985): the data of a file and the errors. -/
def parserStage (c : Console) (file : String) : Option (List Top) × List FileErr :=
  match c.read file with
  | .missing => (none, [.cantOpen file])
  | .syntaxError => (none, [.syntax file])
  | .parsed f => (fileOf f, [])

/-- The members of `import_stage`, with the variables of `compile` and the errors. -/
structure Import where
  /-- `m_DefinitionForFile` -/
  files : List (String × Option (List Top))
  /-- `m_ShortNameForFile` -/
  short : List (String × String)
  /-- `m_LanguageBlock` -/
  langs : List (String × LanguageDef)
  /-- `m_LanguageFile` -/
  langFile : List (String × String)
  /-- `imported` -/
  imported : List String
  /-- `toImport` -/
  todo : List (String × Option (List Top))
  errors : List FileErr

/-- One block of a file (import_stage.cpp 80-123). -/
def Import.block (c : Console) (path : String) (s : Import) : Top → Import
  | .imports file =>
    let real := c.realPath file
    if real ∈ s.imported then s
    else
      let r := parserStage c file
      { s with
        imported := real :: s.imported
        files := put real r.1 s.files
        short := put real file s.short
        todo := (real, r.1) :: s.todo
        errors := s.errors ++ r.2 }
  | .language l =>
    if (get l.name s.langs).isSome then { s with errors := s.errors ++ [.ambiguous l.name ((get path s.short).getD "")] }
    else { s with langs := put l.name l s.langs, langFile := put l.name path s.langFile }
  | _ => s

/-- The loop of `import_stage::compile` (import_stage.cpp 71-124). -/
def Import.loop (c : Console) : Nat → Import → Option Import
  | 0, _ => none
  | fuel + 1, s =>
    match s.todo with
    | [] => some s
    | (_, none) :: todo => loop c fuel { s with todo := todo }
    | (path, some f) :: todo => loop c fuel (f.foldl (Import.block c path) { s with todo := todo })

/-- The constructor and the beginning of `compile` (import_stage.cpp 41-68). -/
def Import.start (c : Console) (file : String) (root : Option (List Top)) : Import where
  files := [(c.realPath file, root)]
  short := [(c.realPath file, file)]
  langs := []
  langFile := []
  imported := [c.realPath (c.realPath file)]
  todo := [(c.realPath file, root)]
  errors := []

/-- `parser_stage` on a file and `import_stage` on what it gives (parsetool/main.cpp 59-76). -/
def importFile (c : Console) (fuel : Nat) (file : String) : Option Import :=
  let r := parserStage c file
  (Import.loop c fuel (Import.start c file r.1)).map fun s => { s with errors := r.2 ++ s.errors }

/-- `language_with_name` (import_stage.h 80-84). -/
def Import.languageWithName (s : Import) (n : String) : Option LanguageDef := get n s.langs

/-- `file_with_language` (import_stage.h 87-100). -/
def Import.fileWithLanguage (s : Import) (n : String) : String :=
  match get n s.langFile with
  | none => "unknown"
  | some p => (get p s.short).getD p

/-! ### Inheritance -/

/-- The units that are not precedences. -/
def DefUnit.block? : DefUnit → Option (Block NtDef)
  | .block b => some b
  | .precedence _ => none

/-- The lexer and grammar blocks of a language. -/
def LanguageDef.blocks (l : LanguageDef) : List (Block NtDef) := l.units.filterMap DefUnit.block?

/-- `language_stage::compile` (language_stage.cpp 90-117 and the rest as in `Language`): the language that is inherited from is compiled first.
The second part are the names of languages that were not found. `none`: the recursion is deeper than the bound. -/
def compileLanguage (find : String → Option LanguageDef) : Nat → LanguageDef → Option (Lang × List String)
  | 0, _ => none
  | fuel + 1, l =>
    match l.inherits with
    | [] => some (Lang.new.compileBlock l.blocks, [])
    | p :: _ =>
      match find p with
      | none => some (Lang.new.compileBlock l.blocks, [p])
      | some parent => (compileLanguage find fuel parent).map fun r => (r.1.compileBlock l.blocks, r.2)

end Files
end TameParse

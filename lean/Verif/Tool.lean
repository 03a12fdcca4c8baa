import Verif.Files
/-
Model of the command line tool: severities and exit codes, the tests of a definition file, and the choice of the language that is compiled.

Sources: /repo/TameParse/Compiler/error.h 44-66, Compiler/std_console.cpp 66-84 (`report_error`, as far as the exit code goes),
Compiler/test_stage.cpp 68-393, parsetool/main.cpp 44-384.

The stages that are run (language, lexer, parser, output) are parameters: their reports, and whether their products exist. Running a parser on a text
is a parameter too, which may have no result (`none`: it never ends). A report is its severity and its identifier; positions and verbose messages are
left out. What the language does not define is a `Crash`: a null pointer that is used, an exception that ends the program, a run without end.
-/
namespace TameParse
namespace Tool
open AssocMap Files

/-- `error::severity` (error.h 44-66). -/
inductive Sev | message | info | detail | warning | error | fatal | bug
deriving DecidableEq

/-- The value of the enumeration. -/
def Sev.code : Sev → Nat
  | .message => 0
  | .info => 1
  | .detail => 2
  | .warning => 3
  | .error => 4
  | .fatal => 5
  | .bug => 6

structure Report where
  sev : Sev
  id : String
deriving DecidableEq

/-- `std_console::report_error` (std_console.cpp 66-84): a suppressed warning returns at once, other reports may set the exit code. -/
def report (suppress : Bool) (exit : Nat) (r : Report) : Nat :=
  if r.sev ≠ .detail ∧ r.sev.code ≤ Sev.warning.code ∧ suppress = true then exit
  else if Sev.error.code ≤ r.sev.code then r.sev.code else exit

/-- `exit_code()` after these reports. -/
def exitCode (suppress : Bool) (log : List Report) : Nat := log.foldl (report suppress) 0

/-! ### The test stage -/

/-- What is left of an `lr_parser_stage` after `compile`: its tables, which are null if it gave up. -/
structure ParserBuild where
  reports : List Report
  tables : Option (List Char → Option Bool)

/-- What the stages say about a language. -/
structure Stages where
  language : List Report
  unused : List Report
  lexer : List Report
  hasLexer : Bool
  parser : String → ParserBuild

/-- What the test stage is given: `m_Import`, the stages and the console's files. -/
structure World where
  find : String → Option LanguageDef
  stages : String → Stages
  openFile : String → Option (List Char)

inductive Crash | null | lengthError | endless
deriving DecidableEq

/-- The members of `test_stage` (false: a null pointer), with the reports and the results. -/
structure St where
  /-- `m_Languages` -/
  langs : List (String × Bool)
  /-- `m_Lexers` -/
  lexers : List (String × Bool)
  /-- `m_Parsers` -/
  parsers : List ((String × String) × Bool)
  log : List Report
  /-- what is written for each test -/
  lines : List (String × Bool)
deriving DecidableEq

def St.new : St := ⟨[], [], [], [], []⟩

def St.say (s : St) (l : List Report) : St := { s with log := s.log ++ l }

/-- `get_language` (test_stage.cpp 68-98). -/
def getLanguage (w : World) (n : String) (s : St) : Bool × St :=
  match get n s.langs with
  | some b => (b, s)
  | none =>
    match w.find n with
    | none => (false, { s.say [⟨.error, "CANT_FIND_LANGUAGE"⟩] with langs := put n false s.langs })
    | some _ => (true, { s.say (w.stages n).language with langs := put n true s.langs })

/-- `get_lexer` (test_stage.cpp 101-130). -/
def getLexer (w : World) (n : String) (s : St) : Bool × St :=
  match get n s.lexers with
  | some b => (b, s)
  | none =>
    let r := getLanguage w n s
    if r.1 then (true, { r.2.say ((w.stages n).unused ++ (w.stages n).lexer) with lexers := put n true r.2.lexers })
    else (false, { r.2 with lexers := put n false r.2.lexers })

/-- `get_parser` (test_stage.cpp 133-170). -/
def getParser (w : World) (n nt : String) (s : St) : Bool × St :=
  match get (n, nt) s.parsers with
  | some b => (b, s)
  | none =>
    let r := getLexer w n s
    let r' := getLanguage w n r.2
    if r.1 && r'.1 then (true, { r'.2.say ((w.stages n).parser nt).reports with parsers := put (n, nt) true r'.2.parsers })
    else (false, { r'.2 with parsers := put (n, nt) false r'.2.parsers })

/-- The text of a test (test_stage.cpp 242-273). -/
def testText (w : World) (t : TestDef) : Option (List Char) :=
  match t.type with
  | .matchFromFile => w.openFile (String.ofList t.text)
  | _ => some t.text

/-- The name without its number (test_stage.cpp 294-306). -/
def baseName (lang : String) (t : TestDef) : String := lang ++ "." ++ (if t.name ≠ "" then t.name else t.nonterminal)

/-- The variables of the loop over the tests of a block. -/
structure Loop where
  st : St
  /-- `testIds` -/
  ids : List (String × Nat)
  passed : Nat
  failed : Nat

/-- The reports about a test that failed (test_stage.cpp 321-350). -/
def failure (t : TestDef) : List Report :=
  match t.type with
  | .matchFromFile => [⟨.warning, "TEST_SYNTAX_ERROR"⟩]
  | .noMatch => [⟨.error, "THIS_TEST_FAILED"⟩]
  | .match => [⟨.error, "THIS_TEST_FAILED"⟩, ⟨.detail, "FAILURE_POSITION"⟩]

/-- One test (test_stage.cpp 237-361). The dots after a name of more than 54 characters are a string of negative length. -/
def runTest (w : World) (lang : String) (l : Loop) (t : TestDef) : Except Crash Loop :=
  let p := getParser w lang t.nonterminal l.st
  match testText w t with
  | none => .ok { l with st := p.2.say [⟨.error, "TEST_FILE_NOT_FOUND"⟩] }
  | some text =>
    match (if p.1 then ((w.stages lang).parser t.nonterminal).tables else none) with
    | none => .error .null
    | some run =>
      match run text with
      | none => .error .endless
      | some b =>
        let result := if t.type = .noMatch then !b else b
        let base := baseName lang t
        let id := (get base l.ids).getD 0 + 1
        let name := base ++ "." ++ toString id
        if 54 < name.length then .error .lengthError
        else
          let s := { p.2 with lines := p.2.lines ++ [(name, result)] }
          .ok { st := if result then s else s.say (failure t)
                ids := put base id l.ids
                passed := if result then l.passed + 1 else l.passed
                failed := if result then l.failed else l.failed + 1 }

/-- One test block (test_stage.cpp 204-387). -/
def runBlock (w : World) (lang : String) (ts : List TestDef) (s : St) : Except Crash St :=
  match w.find lang with
  | none => .ok (s.say [⟨.error, "CANT_FIND_LANGUAGE"⟩])
  | some _ =>
    let r := getLexer w lang s
    if r.1 && (w.stages lang).hasLexer then
      (ts.foldlM (runTest w lang) ⟨r.2, [], 0, 0⟩).map fun l =>
        (l.st.say (if l.passed = 0 ∧ l.failed = 0 then [⟨.warning, "NO_TESTS_TO_RUN"⟩] else [])).say
          (if l.failed ≠ 0 then [⟨.error, "TESTS_FAILED"⟩] else [])
    else .ok r.2

/-- The body of the loop over the blocks (test_stage.cpp 192-202): blocks that are no tests are passed over. -/
def testTop (w : World) (s : St) : Top → Except Crash St
  | .tests lang ts => runBlock w lang ts s
  | _ => .ok s

def isTests : Top → Bool
  | .tests .. => true
  | _ => false

/-- `test_stage::compile` (test_stage.cpp 173-393). -/
def testStage (w : World) (tops : List Top) : Except Crash St :=
  (tops.foldlM (testTop w) St.new).map fun s =>
    if tops.any isTests then s else s.say [⟨.error, "NO_TEST_BLOCKS"⟩]

/-! ### The tool -/

/-- The options of the command line that are used here; the empty string is an option that is not given. -/
structure Opts where
  suppressWarnings : Bool
  runTests : Bool
  outputFile : String
  outputLanguage : String
  test : Bool
  showParser : Bool
  compileLanguage : String
  className : String
  startSymbols : List String

/-- The first loop over the blocks (main.cpp 129-142): the parser block, if there is one only. -/
def parserBlock : List Top → Option (String × String × List String) → Option (String × String × List String) × List Report
  | [], found => (found, [])
  | .parser n l ss :: tops, none => parserBlock tops (some (n, l, ss))
  | .parser .. :: _, some _ => (none, [⟨.info, "MULTIPLE_PARSER_BLOCKS"⟩])
  | _ :: tops, found => parserBlock tops found

/-- The second loop (main.cpp 157-173): the name of the language, if there is one only. -/
def onlyLanguage : List Top → Nat → String → String
  | [], _, name => name
  | .language l :: tops, 0, _ => onlyLanguage tops 1 l.name
  | .language _ :: _, _ + 1, _ => ""
  | _ :: tops, n, name => onlyLanguage tops n name

/-- What is compiled: language, class name and start symbols. -/
structure Target where
  language : String
  className : String
  starts : List String
deriving DecidableEq

/-- main.cpp 144-154: the command line, or the parser block if the command line says nothing. -/
def requested (o : Opts) : Option (String × String × List String) → Target
  | some (n, l, ss) =>
    if o.compileLanguage = "" ∧ o.startSymbols = [] then ⟨l, if o.className = "" then n else o.className, ss⟩ else ⟨o.compileLanguage, o.className, o.startSymbols⟩
  | none => ⟨o.compileLanguage, o.className, o.startSymbols⟩

/-- main.cpp 112-192: the choice, with the reports. The name is empty if there is none. -/
def choose (o : Opts) (tops : List Top) : Target × List Report :=
  let p := parserBlock tops none
  let t := requested o p.1
  let name := if t.language = "" then onlyLanguage tops 0 "" else t.language
  (⟨name, if t.className = "" then name else t.className, t.starts⟩, p.2 ++ if t.language = "" ∧ name ≠ "" then [⟨.info, "INFERRED_LANGUAGE"⟩] else [])

/-- The stages that the tool runs, in their order. -/
structure Run where
  /-- `parser_stage` on the input file: its data and its reports -/
  data : Option (List Top)
  parsed : List Report
  imported : List Report
  tests : Except Crash (List Report)
  built : List Report
  /-- `language_with_name` of the import stage and of the builder stage -/
  known : String → Bool
  unused : String → List Report
  lexer : String → List Report
  parser : String → List String → List Report
  /-- the output stage, or a test of the parser -/
  output : String → Target → List Report

/-- What comes of a run of the tool: its result, all reports, and what was compiled to which kind of output. -/
structure Result where
  code : Nat
  log : List Report
  output : Option (String × Target)
deriving DecidableEq

/-- The kinds of output (main.cpp 316-371). -/
def outputs : List String := ["cplusplus", "test", "test-trace"]

/-- main.cpp 295-303. -/
def targetLanguage (o : Opts) : String :=
  let t := if o.test then "test" else o.outputLanguage
  if t = "" then "cplusplus" else t

/-- main.cpp 112-379, with the reports up to here. -/
def mainBuild (o : Opts) (r : Run) (tops : List Top) (log : List Report) : Result :=
  let exit := exitCode o.suppressWarnings
  let c := choose o tops
  let log := log ++ c.2
  let stop (l : List Report) : Result := ⟨Sev.error.code, l, none⟩
  if c.1.language = "" then stop (log ++ [⟨.error, "NO_LANGUAGE_SPECIFIED"⟩])
  else if r.known c.1.language = false then stop (log ++ [⟨.error, "MISSING_TARGET_LANGUAGE"⟩])
  else
    let log := log ++ r.unused c.1.language
    if c.1.starts = [] then stop (log ++ [⟨.error, "NO_START_SYMBOLS"⟩])
    else
      let log := log ++ r.lexer c.1.language
      if exit log ≠ 0 then ⟨exit log, log, none⟩
      else
        let log := log ++ r.parser c.1.language c.1.starts
        if exit log ≠ 0 then ⟨exit log, log, none⟩
        else if targetLanguage o ∉ outputs then stop (log ++ [⟨.error, "UNKNOWN_OUTPUT_LANGUAGE_TYPE"⟩])
        else
          let log := log ++ r.output (targetLanguage o) c.1
          ⟨exit log, log, some (targetLanguage o, c.1)⟩

/-- `main` (main.cpp 44-384) for a console that can start. -/
def mainRun (o : Opts) (r : Run) : Except Crash Result :=
  let exit := exitCode o.suppressWarnings
  let log := r.parsed
  if exit log ≠ 0 then .ok ⟨exit log, log, none⟩
  else
    match r.data with
    | none => .ok ⟨Sev.bug.code, log ++ [⟨.bug, "BUG_NO_FILE_DATA"⟩], none⟩
    | some tops =>
      let log := log ++ r.imported
      if exit log ≠ 0 then .ok ⟨exit log, log, none⟩
      else
        let rest (log : List Report) : Result :=
          let log := log ++ r.built
          if exit log ≠ 0 then ⟨exit log, log, none⟩ else mainBuild o r tops log
        if o.runTests then
          r.tests.map fun t =>
            let log := log ++ t
            if exit log ≠ 0 then ⟨exit log, log, none⟩
            else if o.outputFile = "" ∧ o.startSymbols = [] ∧ o.outputLanguage = "" ∧ o.test = false ∧ o.showParser = false then ⟨exit log, log, none⟩
            else rest log
        else .ok (rest log)

end Tool
end TameParse

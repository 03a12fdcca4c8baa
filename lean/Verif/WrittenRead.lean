import Verif.Written
/-
How a C++ compiler reads the tables of a generated parser (property C79). This is no model of /repo: it is what the written text means in
C++, for the few kinds of declarations that occur in it. Whatever else is in the text makes the result `none`.

* Tokens: names, decimal numbers (a number that begins with `0` and goes on is octal in C++ and is not read here), single characters;
  white space, `//` comments and lines that begin with `#` are passed over.
* Declarations: an array with a list of values, an object with arguments, anything else up to `;`.
* An array without a bound must have values (C++ standard, [dcl.init.aggr]); `zero` says whether the compiler takes empty ones all the
  same, as some do.
-/
namespace TameParse
namespace Written
open ParserTables

/-- A machine that reads symbols and gives out results. -/
def runM {σ α β : Type} (step : σ → α → Option (List β × σ)) : σ → List α → Option (List β × σ)
  | s, [] => some ([], s)
  | s, a :: l =>
    match step s a with
    | none => none
    | some p => (runM step p.2 l).map (fun q => (p.1 ++ q.1, q.2))

/-! Tokens -/

inductive Tok
  | word (s : List Char)
  | num (n : Nat)
  | punct (c : Char)
deriving DecidableEq

inductive Mode
  | normal
  | word (s : List Char)
  | num (s : List Char)
  | slash
  | skip
deriving DecidableEq

def isDigit (c : Char) : Bool := '0' ≤ c && c ≤ '9'
def isLetter (c : Char) : Bool := ('a' ≤ c && c ≤ 'z') || ('A' ≤ c && c ≤ 'Z') || c == '_'
def isBlank (c : Char) : Bool := c == ' ' || c == '\n' || c == '\t'

/-- The value of a decimal number. -/
def value (s : List Char) : Nat := s.foldl (fun n c => 10 * n + (c.toNat - 48)) 0

/-- The token that has been read, when it ends. -/
def flush : Mode → Option (List Tok)
  | .normal | .skip => some []
  | .word s => some [.word s]
  | .num s => if s.head? = some '0' ∧ s ≠ ['0'] then none else some [.num (value s)]
  | .slash => some [.punct '/']

/-- A character where a token may begin. -/
def begin (c : Char) : List Tok × Mode :=
  if isBlank c then ([], .normal)
  else if isLetter c then ([], .word [c])
  else if isDigit c then ([], .num [c])
  else if c = '/' then ([], .slash)
  else if c = '#' then ([], .skip)
  else ([.punct c], .normal)

/-- Whether a character goes on with a token. -/
def continues : Mode → Char → Option (Option Mode)
  | .normal, _ => some none
  | .word s, c => some (if isLetter c || isDigit c then some (.word (s ++ [c])) else none)
  | .num s, c => if isDigit c then some (some (.num (s ++ [c]))) else if isLetter c || c == '.' || c == '\'' then none else some none
  | .slash, c => if c = '/' then some (some .skip) else if c = '*' then none else some none
  | .skip, c => some (some (if c = '\n' then .normal else .skip))

def lexStep (m : Mode) (c : Char) : Option (List Tok × Mode) :=
  match continues m c with
  | none => none
  | some (some m') => some ([], m')
  | some none => (flush m).map (fun l => (l ++ (begin c).1, (begin c).2))

/-- The tokens of a text. -/
def lexC (s : List Char) : Option (List Tok) :=
  match runM lexStep .normal s with
  | none => none
  | some p => (flush p.2).map (fun l => p.1 ++ l)

def toks (s : String) : List Tok := (lexC s.toList).getD []

/-! Declarations -/

/-- Values in a list of values: a number, an address in an array (or an object), the address of an object, a list. -/
inductive Init
  | int (n : Int)
  | addr (name : List Char) (offset : Nat)
  | ref (name : List Char)
  | braces (l : List Init)

/-- Declarations: their tokens before the values, and the values. -/
inductive Decl
  | array (head : List Tok) (values : List Init)
  | object (head : List Tok) (args : List Init)
  | other (head : List Tok)

/-- Expressions. -/
def expr : List Tok → Option Init
  | [.num n] => some (.int n)
  | [.punct '-', .num n] => some (.int (-(n : Int)))
  | [.word w] => some (.addr w 0)
  | [.word w, .punct '+', .num n] => some (.addr w n)
  | [.punct '&', .word w] => some (.ref w)
  | _ => none

inductive RState
  | head (acc : List Tok)
  | equals (head : List Tok)
  | init (head : List Tok) (stack : List (List Init)) (closed : Bool) (pending : List Tok)
  | args (head : List Tok) (values : List Init) (pending : List Tok)
  | stop (d : Decl)

/-- The value that ends at a comma or a closing brace, added to the innermost list. -/
def finish (stack : List (List Init)) (closed : Bool) (pending : List Tok) : Option (List (List Init)) :=
  if closed then some stack
  else match expr pending, stack with
    | some i, top :: rest => some ((top ++ [i]) :: rest)
    | _, _ => none

/-- The innermost list is closed. -/
def close (head : List Tok) : List (List Init) → Option RState
  | [] => none
  | [l] => some (.stop (.array head l))
  | l :: p :: rest => some (.init head ((p ++ [.braces l]) :: rest) true [])

def readStep : RState → Tok → Option (List Decl × RState)
  | .head acc, t =>
    if t = .punct ';' then some ([.other acc], .head [])
    else if t = .punct '=' then some ([], .equals acc)
    else if t = .punct '(' then some ([], .args acc [] [])
    else some ([], .head (acc ++ [t]))
  | .equals h, t => if t = .punct '{' then some ([], .init h [[]] false []) else none
  | .init h stack closed pending, t =>
    if t = .punct '{' then if closed = false ∧ pending = [] then some ([], .init h ([] :: stack) false []) else none
    else if t = .punct ',' then (finish stack closed pending).map (fun s => ([], .init h s false []))
    else if t = .punct '}' then
      if pending = [] then (close h stack).map (fun s => ([], s))
      else match finish stack closed pending with
        | none => none
        | some s => (close h s).map (fun s => ([], s))
    else if closed then none else some ([], .init h stack false (pending ++ [t]))
  | .args h values pending, t =>
    if t = .punct ',' then (expr pending).map (fun i => ([], .args h (values ++ [i]) []))
    else if t = .punct ')' then (expr pending).map (fun i => ([], .stop (.object h (values ++ [i]))))
    else some ([], .args h values (pending ++ [t]))
  | .stop d, t => if t = .punct ';' then some ([d], .head []) else none

/-- Whether an array may have these values: with a bound there are that many. -/
def arrayOk (zero : Bool) : Decl → Bool
  | .array h l =>
    match h.reverse with
    | .punct ']' :: .punct '[' :: .word _ :: _ => zero || !l.isEmpty
    | .punct ']' :: .num k :: .punct '[' :: .word _ :: _ => l.length == k && (zero || !l.isEmpty)
    | _ => false
  | _ => true

/-- The declarations of a text. -/
def compile (zero : Bool) (s : List Char) : Option (List Decl) :=
  match lexC s with
  | none => none
  | some ts =>
    match runM readStep (.head []) ts with
    | some (ds, .head []) => if ds.all (arrayOk zero) then some ds else none
    | _ => none

/-! The parser tables -/

/-- The values of the array with this type and name. -/
def arrayOf (ty : List Tok) (ds : List Decl) (name : List Char) : Option (List Init) :=
  ds.findSome? (fun d => match d with
    | .array h l => if h = ty ++ [.word name, .punct '[', .punct ']'] then some l else none
    | _ => none)

/-- The same for an array that is declared with its size. -/
def boundedOf (ty : List Tok) (ds : List Decl) (name : List Char) (n : Nat) : Option (List Init) :=
  ds.findSome? (fun d => match d with
    | .array h l => if h = ty ++ [.word name, .punct '[', .num n, .punct ']'] then some l else none
    | _ => none)

/-- The arguments of the object whose declaration begins like this. -/
def objectOf (ds : List Decl) (head : List Tok) : Option (List Init) :=
  ds.findSome? (fun d => match d with
    | .object h l => if h = head then some l else none
    | _ => none)

def typeOf : Int → Option ActType
  | 0 => some .shift
  | 1 => some .shiftstrong
  | 2 => some .ignore
  | 3 => some .reduce
  | 4 => some .weakreduce
  | 5 => some .accept
  | 6 => some .goto
  | 7 => some .divert
  | 8 => some .guard
  | _ => none

/-- An `action`: `nextState` has 24 bits (parser_tables.h 46-58). -/
def actionOf : Init → Option TableAction
  | .braces [.int a, .int b, .int c] =>
    match typeOf a with
    | some ty => if 0 ≤ b ∧ b < 16777216 then some ⟨ty, b.toNat, c⟩ else none
    | none => none
  | _ => none

def natOf : Init → Option Nat
  | .int n => if 0 ≤ n then some n.toNat else none
  | _ => none

def countOf : Init → Option (Nat × Nat)
  | .braces [.int a, .int b] => if 0 ≤ a ∧ 0 ≤ b then some (a.toNat, b.toNat) else none
  | _ => none

def ruleOf : Init → Option ReduceRule
  | .braces [.int a, .int b, .int c] => if 0 ≤ c then some ⟨a, b, c.toNat⟩ else none
  | _ => none

def equivalentOf : Init → Option (Int × Int)
  | .braces [.int a, .int b] => some (a, b)
  | _ => none

/-- What a pointer to an `action` gives access to: the array from there on. -/
def pointerOf (ds : List Decl) : Init → Option (List TableAction)
  | .addr w k =>
    match (arrayOf (toks "static lr::parser_tables::action") ds w).bind (fun l => l.mapM actionOf) with
    | some l => if k ≤ l.length then some (l.drop k) else none
    | none => none
  | _ => none

/-- The object `lr_tables` of a class: the constructor from tables (parser_tables.cpp 241-256, parser_tables.h 143-144) keeps what it is
given. -/
def tablesOf (cls : List Char) (ds : List Decl) : Option Tables :=
  match objectOf ds (toks "const lr::parser_tables" ++ .word cls :: toks "::lr_tables") with
  | some [.int n, .int eoi, .int eog, .addr ta 0, .addr na 0, .addr c 0, .addr g 0, .int ng, .int nr, .addr r 0, .int nw, .addr w 0] => do
    let trows ← (← arrayOf (toks "static lr::parser_tables::action*") ds ta).mapM (pointerOf ds)
    let nrows ← (← arrayOf (toks "static lr::parser_tables::action*") ds na).mapM (pointerOf ds)
    let counts ← (← arrayOf (toks "static lr::parser_tables::action_count") ds c).mapM countOf
    let guards ← (← arrayOf (toks "static int") ds g).mapM natOf
    let rules ← (← arrayOf (toks "static lr::parser_tables::reduce_rule") ds r).mapM ruleOf
    let weak ← (← arrayOf (toks "static lr::parser_tables::symbol_equivalent") ds w).mapM equivalentOf
    return ⟨n.toNat, eoi, eog, trows, nrows, counts, guards, ng.toNat, nr.toNat, rules, nw.toNat, some weak⟩
  | _ => none

/-! The lexer tables -/

def transOf : Init → Option Trans
  | .braces [.int a, .int b] => if 0 ≤ a ∧ 0 ≤ b then some (a.toNat, b.toNat) else none
  | _ => none

def intOf : Init → Option Int
  | .int n => some n
  | _ => none

/-- The position that a pointer into the array `name` has. -/
def positionIn (name : List Char) : Init → Option Nat
  | .addr w k => if w = name then some k else none
  | _ => none

/-- The object `lexer` of a class: the symbol table, the tables of the state machine, what the states accept. -/
def lexerOf (cls : List Char) (ds : List Decl) : Option (List Int × Ndfa.GenTable × List Int) :=
  match objectOf ds (toks "const dfa::lexer" ++ .word cls :: toks "::lexer") with
  | some [.ref d, .addr _ 0] =>
    match objectOf ds (toks "static lexer_definition" ++ [.word d]) with
    | some [.addr m 0, .int _, .addr a 0] =>
      match objectOf ds (toks "static const lexer_state_machine" ++ [.word m]) with
      | some [.addr s 0, .addr l 0, .int n] =>
        match objectOf ds (toks "static const dfa::hard_coded_symbol_table<wchar_t, 2>" ++ [.word s]) with
        | some [.addr table 0] => do
          let symbols ← (← arrayOf (toks "static const int") ds table).mapM intOf
          let accept ← (← arrayOf (toks "static const int") ds a).mapM intOf
          let pointers ← boundedOf (toks "static const dfa::state_machine_compact_table<false>::entry*") ds l n.toNat
          let starts ← pointers.mapM (positionIn "s_LexerStateMachine".toList)
          let entries ← (← arrayOf (toks "static const dfa::state_machine_compact_table<false>::entry") ds "s_LexerStateMachine".toList).mapM transOf
          return (symbols, ⟨entries, starts⟩, accept)
        | _ => none
      | _ => none
    | _ => none
  | _ => none

end Written
end TameParse

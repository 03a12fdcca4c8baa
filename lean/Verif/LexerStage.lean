import Verif.WeakLexer
import Verif.Pipeline
import Verif.LexerBuild
import Verif.CompactProps
/-
Model of the lexer stage of the language compiler: from the lexer definitions of a language to the tables of its lexer.

Source: /repo/TameParse/Compiler/lexer_stage.cpp 272-562 (`lexer_stage::compile`); the builders are those of Dfa/ndfa.h 200-379 and
Dfa/ndfa_regex.cpp 135-200, the accept actions those of lexer_stage.cpp 43-107 (modelled in `WeakLexer`).

Simplifications:
* the definitions come as a list in the order in which the loops visit them (lexer_stage.cpp 313-315);
* what `{name}` means is a parameter; `languageEnv` is the one with the expressions defined in the language (`ndfa_lexer_compiler`, lexer_stage.cpp 109-188);
* the check of the expressions (`check_regex`), which only reports errors, is in `RegexCheck`;
* the automata of this model hold numbers as accept actions. `code` numbers the accept actions of the language compiler; none of the
  automaton transformations looks at them, they only copy them from state to state;
* messages and the size of the lexer are left out, the warning about terminals that are never generated is `unused`.
-/
namespace TameParse
namespace LexerStage
open TameParse.Language WeakLexer Regex

/-! ### Numbers for accept actions -/

def base : Int := 0x80000000

def unrank (k : Int) : UnitType :=
  if k = 0 then .symbols else if k = 1 then .keywords else if k = 2 then .lexer else .ignore

/-- A number for an accept action whose symbol is at least 0 and below 2^31. -/
def code : Accept → Int
  | .plain s => 8 * base + s
  | .lang s t w => (if w then 0 else 4 * base) + ((rank t : Int) - 1) * base + s

/-- The accept action of a number. -/
def decode (c : Int) : Accept :=
  if 8 * base ≤ c then .plain (c - 8 * base)
  else .lang (c % base) (unrank (c / base % 4)) (decide (c < 4 * base))

/-! ### The automaton -/

/-- The members that the loop over the definitions changes: the automaton, `ignoreBuilder` (its automaton is `stage0` as well), `firstIgnore` and
`ignoreSymbol` (`none` for -1). -/
structure St where
  n : Ndfa
  ignore : Builder
  first : Bool
  ignoreSymbol : Option Int

/-- Before the loop (lexer_stage.cpp 290-299): `get_cons()` and `push()`. Nobody tells this builder to generate surrogates. -/
def St.start : St := ⟨Ndfa.new, (cons Ndfa.new false none 0).push, true, none⟩

/-- The characters of a definition. -/
def textOf (i : LexItem) : List Int := i.definition.map (fun c => (c.toNat : Int))

/-- The name for some symbols (`convert_syms`, ndfa_regex.cpp 121-132). -/
def nameOf (name : List Int) : String := String.ofList (name.map (fun x => Char.ofNat x.toNat))

/-- `get_expressions` (lexer_data.cpp 68-70) for the name in `{name}` (lexer_stage.cpp 124). -/
def namedIn (s : Lang) (name : List Int) : List Named :=
  ((AssocMap.get (nameOf name) s.exprs).getD []).map (fun i => ⟨i.regex, textOf i, i.ci, i.cs⟩)

/-- The expressions that the stage compiles may use those of the language, and otherwise what `ndfa_regex` knows (lexer_stage.cpp 122-127). -/
def languageEnv (env : Env) (folds : (SymSet → SymSet) × (SymSet → SymSet)) (s : Lang) : Env := { env with named := namedIn s, folds := folds }

/-- An ignored definition that the grammar does not use (lexer_stage.cpp 323-338). -/
def bland (used : List Int) (i : LexItem) : Bool := decide (i.type = some .ignore) && !decide (i.symbol ∈ used)

section
variable (env : Env) (depth : Nat) (folds : (SymSet → SymSet) × (SymSet → SymSet)) (used : List Int)

/-- `add_regex` or `add_literal` to a builder. -/
def addTo (i : LexItem) (b : Builder) : Option Builder :=
  if i.regex then addRegexTo env depth (textOf i) b else some (addLiteralTo b (textOf i))

/-- `add_regex` or `add_literal` to state 0 (ndfa_regex.h 94-106). -/
def addNew (i : LexItem) (n : Ndfa) : Option (Ndfa × Nat) :=
  let fold := if i.ci then some folds else none
  if i.regex then addRegex env depth n true fold 0 (textOf i) else some (addLiteral n true fold 0 (textOf i))

/-- One definition (lexer_stage.cpp 315-383). -/
def addItem (s : St) (i : LexItem) : Option St :=
  match i.type with
  | none => some s
  | some t =>
    let (symbol, ignoreSymbol) := symbolOf used s.ignoreSymbol i
    if bland used i then do
      let b := { s.ignore with n := s.n }
      let b := if s.first then b else b.beginOr
      let b := { b.push with lower := if i.ci then some folds.1 else none, upper := if i.ci then some folds.2 else none }
      let b ← addTo env depth i b
      let b := b.pop
      some ⟨b.n, b, false, ignoreSymbol⟩
    else do
      let (n, f) ← addNew env depth folds i s.n
      some { s with n := n.addAccept f ⟨code (.lang symbol t i.weak), false⟩, ignoreSymbol := ignoreSymbol }

/-- The loop over the definitions. -/
def addItems : List LexItem → St → Option St
  | [], s => some s
  | i :: l, s => (addItem env depth folds used s i).bind (addItems l)

/-- After the loop (lexer_stage.cpp 386-404). -/
def finish (s : St) : Ndfa :=
  if s.first then s.n
  else
    let b := { s.ignore with n := s.n }.pop
    b.n.addAccept b.cur ⟨code (.lang (s.ignoreSymbol.getD (-1)) .ignore false), false⟩

/-- `stage0`. -/
def automaton (items : List LexItem) : Option Ndfa := (addItems env depth folds used items St.start).map finish

end

/-! ### The later stages -/

/-- The symbol reported in a state with these accept actions (`fill_accept`, basic_lexer.h 157-174). -/
def reported (l : List Action) : Int :=
  match highest (l.map (fun a => decode a.symbol)) with
  | none => -1
  | some a => a.symbol

/-- The accept actions of the states. -/
def lists (d : Ndfa) : List (List Accept) := (List.range d.states.length).map (fun q => (d.accept q).map (fun a => decode a.symbol))

/-- `add_symbols` for the DFA (lexer_stage.cpp 501-520). -/
def withWeak (weak : List Int) (dict : TerminalDict) (d : Ndfa) : Ndfa :=
  let split := (addSymbols (lists d) weak dict).1
  { d with accept := fun q => (split.accept.getD q []).map (fun a => ⟨code a, false⟩) }

/-- The tables (`dfa_lexer` with a flat table, Dfa/lexer.cpp 53-58) with the accept actions of the language. -/
def tables (d : Ndfa) : Option LexMachine :=
  d.flatLexer.map (fun m => { m with accept := fun q => if q < d.states.length then reported (d.accept q) else -1 })

/-- The options that the stage looks at (lexer_stage.cpp 527, 542). -/
structure Options where
  compact : Bool
  merge : Bool

/-- From `stage2` to `stage4` (lexer_stage.cpp 527-549). -/
def finalAutomaton (o : Options) (d : Ndfa) : Option Ndfa :=
  (if o.compact then d.toCompact [0] else some d).map (fun d => if o.merge then d.toMerged else d)

/-- `stage2`: the deterministic automaton (lexer_stage.cpp 410-432). -/
def deterministic (n : Ndfa) : Option Ndfa := n.toUnique.bind (fun u => u.toDfa [0])

/-- `lexer_stage::compile`. -/
def compile (env : Env) (depth : Nat) (folds : (SymSet → SymSet) × (SymSet → SymSet)) (used : List Int) (weak : List Int)
    (dict : TerminalDict) (o : Options) (items : List LexItem) : Option LexMachine := do
  let n ← automaton env depth folds used items
  let d ← deterministic n
  let d ← finalAutomaton o (withWeak weak dict d)
  tables d

/-- The terminals for which the warning SYMBOL_CANNOT_BE_GENERATED is given (lexer_stage.cpp 435-471). -/
def unused (count : Nat) (ignored : List Int) (d : Ndfa) : List Int :=
  ((List.range count).map (fun (k : Nat) => (k : Int))).filter (fun t =>
    !(decide (t ∈ ignored)) && !((List.range d.states.length).any (fun q => decide (d.accept q ≠ []) && decide (reported (d.accept q) = t))))

end LexerStage
end TameParse

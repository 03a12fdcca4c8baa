import Verif.Language
import Verif.Rewriters
/-
Model of the accept actions that the language compiler gives to the lexer, and of the search for the strong symbols behind weak ones.

Sources: /repo/TameParse/Compiler/lexer_stage.cpp 43-107 (`language_accept_action`), 296-390 (symbols of the definitions), 497-517 (weak symbols),
Dfa/accept_action.cpp 67-69, Dfa/basic_lexer.h 157-174 (`fill_accept`), Dfa/ndfa.cpp 190-199, Lr/weak_symbols.cpp 74-169 (`add_symbols` for a DFA).

A DFA is only its accept actions here, one list for each state. A `std::map` is an association list that holds a key once; its order only matters for
the order in which symbols are put into sets, and not at all for the result. Symbols are kept as integers of any size; 0x7fffffff is the value that
the code takes for "no symbol".
-/
namespace TameParse
namespace WeakLexer
open AssocMap Language

/-- The order of `language_unit::unit_type` (language_unit.h 41-62). -/
def rank : UnitType → Nat
  | .symbols => 1
  | .keywords => 2
  | .lexer => 3
  | .ignore => 4

/-- `accept_action` and `language_accept_action`. -/
inductive Accept
  | plain (symbol : Int)
  | lang (symbol : Int) (type : UnitType) (weak : Bool)
deriving DecidableEq

def Accept.symbol : Accept → Int
  | .plain s | .lang s _ _ => s

/-- `operator<`: whether an action is less important than another (accept_action.cpp 67-69, lexer_stage.cpp 66-87). -/
def Accept.less : Accept → Accept → Bool
  | .plain s, b => decide (s > b.symbol)
  | .lang .., .plain _ => true
  | .lang s t w, .lang s' t' w' =>
    if w' ≠ w then w'
    else if rank t' < rank t then true
    else if rank t' > rank t then false
    else decide (s > s')

/-- `fill_accept` (basic_lexer.h 157-174): the action whose symbol is reported. -/
def highest : List Accept → Option Accept
  | [] => none
  | a :: r => some ((a :: r).foldl (fun h b => if h.less b then b else h) a)

/-! ### `weak_symbols::add_symbols` -/

/-- The members that the loop changes. -/
structure Split where
  /-- the accept actions of the DFA -/
  accept : List (List Accept)
  terminals : TerminalDict
  /-- `weakToStrong` -/
  strong : List (Int × Int)

/-- An element of a `std::set<int>`. -/
def insertSorted (x : Int) : List Int → List Int
  | [] => [x]
  | y :: l => if x < y then x :: y :: l else if x = y then y :: l else y :: insertSorted x l

def none32 : Int := 0x7fffffff

/-- The loop over the accept actions (weak_symbols.cpp 107-122): the strongest symbol and the weak ones. -/
def scan (weak : List Int) (l : List Accept) : Int × List Int :=
  l.foldl (fun p a =>
    if a.symbol ∈ weak then (p.1, insertSorted a.symbol p.2)
    else if a.symbol < p.1 then (a.symbol, p.2) else p) (none32, [])

/-- One weak symbol of a state (weak_symbols.cpp 131-149). -/
def useWeak (state : Nat) (strongest : Int) (s : Split) (w : Int) : Split :=
  match get w s.strong with
  | none => { s with strong := put w strongest s.strong }
  | some x =>
    if x ≠ strongest then
      let (d, n) := s.terminals.split w
      ⟨s.accept.set state [.plain n], d, put n strongest s.strong⟩
    else s

/-- One state (weak_symbols.cpp 96-150). -/
def splitState (weak : List Int) (s : Split) (state : Nat) : Split :=
  let p := scan weak (s.accept.getD state [])
  if p.1 = none32 then s else p.2.foldl (useWeak state p.1) s

/-- The loop over the states (weak_symbols.cpp 94-150). -/
def splitStates (weak : List Int) (s : Split) : Split := (List.range s.accept.length).foldl (splitState weak) s

/-- One entry of `weakToStrong` (weak_symbols.cpp 155-165). -/
def addPair (m : List (Item × List Item)) (p : Int × Int) : List (Item × List Item) :=
  match get (.terminal p.2) m with
  | none => put (.terminal p.2) [.terminal p.1] m
  | some ws => put (.terminal p.2) (Rewriters.add ws (.terminal p.1)) m

/-- `add_symbols` (weak_symbols.cpp 74-169) for a `weak_symbols` without symbols, as lexer_stage.cpp 501-520 calls it. -/
def addSymbols (accept : List (List Accept)) (weak : List Int) (d : TerminalDict) : Split × Rewriters.Weak :=
  if weak = [] then (⟨accept, d, []⟩, ⟨[], []⟩)
  else
    let s := splitStates weak ⟨accept, d, []⟩
    (s, ⟨s.strong.foldl addPair [], weak.foldl (fun l n => Rewriters.add l (.terminal n)) []⟩)

/-! ### The symbols of the definitions -/

/-- The symbol for a definition (lexer_stage.cpp 323-338): the state is the symbol of the first ignored definition that the grammar does not use. -/
def symbolOf (used : List Int) (first : Option Int) (i : LexItem) : Int × Option Int :=
  if i.type = some .ignore ∧ i.symbol ∉ used then
    match first with
    | none => (i.symbol, some i.symbol)
    | some s => (s, some s)
  else (i.symbol, first)

/-- The definitions in the order of the map (lexer_stage.cpp 296-384), with the symbol that the lexer reports for them. -/
def symbolsOf (used : List Int) : Option Int → List LexItem → List (LexItem × Int)
  | _, [] => []
  | first, i :: l => (i, (symbolOf used first i).1) :: symbolsOf used (symbolOf used first i).2 l

end WeakLexer
end TameParse

import Verif.ParserTables
import Verif.StateMachine
/-
The tables as they are written into the source file of a generated parser (property C79).

Source: `output_cplusplus::source_symbol_map`, `source_lexer_state_machine`, `write_action_table`, `source_parser_tables`
(/repo/TameParse/Compiler/OutputStages/cplusplus.cpp 414-585, 601-834), `lr_action::action_type` (/repo/TameParse/Lr/lr_action.h 61-107).

Notes:
* text is a list of characters;
* numbers are written by `ostream::operator<<` in decimal (the stream's locale is not changed anywhere);
* the class name is the result of `get_identifier` (C66-C67);
* the loops over a table run over the counted entries; that the arrays hold that many is `WellFormed` (C48).
-/
namespace TameParse
namespace Written
open ParserTables

abbrev Text := List Char

def digit (n : Nat) : Char := Char.ofNat (48 + n)

/-- `operator<<` for a number that is not negative. -/
def showNat (n : Nat) : Text := if n < 10 then [digit n] else showNat (n / 10) ++ [digit (n % 10)]

/-- `operator<<` for an `int`. -/
def showInt : Int → Text
  | .ofNat n => showNat n
  | .negSucc n => '-' :: showNat (n + 1)

/-- The number that `action_type` has (lr_action.h 61-107). -/
def code : ActType → Nat
  | .shift => 0
  | .shiftstrong => 1
  | .ignore => 2
  | .reduce => 3
  | .weakreduce => 4
  | .accept => 5
  | .goto => 6
  | .divert => 7
  | .guard => 8

/-- The loops with `first` and `count` (cplusplus.cpp 723-742, 749-768, 775-795, 802-821, 649-670): a comma unless it is the first
entry, a new line before every `every`-th one, the entry. -/
def entriesLoop (every : Nat) : Bool → Nat → List Text → Text
  | _, _, [] => []
  | first, count, x :: l =>
    (if first then [] else ", ".toList) ++ (if count % every = 0 then "\n    ".toList else []) ++ x ++ entriesLoop every false (count + 1) l

/-- The inner loop of `write_action_table` (cplusplus.cpp 619-638). The result has the text and the new values of `first` and `count`. -/
def actionLoop : Bool → Nat → Bool → List TableAction → Text × Bool × Nat
  | first, count, _, [] => ([], first, count)
  | first, count, showing, a :: l =>
    let r := actionLoop false (count + 1) false l
    ((if first then [] else ", ".toList) ++ (if count % 5 = 0 ∧ showing = false then "\n    ".toList else []) ++
      ("{ ".toList ++ showNat (code a.type) ++ ", ".toList ++ showNat a.nextState ++ ", ".toList ++ showInt a.symbolId ++ " }".toList) ++ r.1, r.2)

/-- The loop over the states (cplusplus.cpp 611-639). -/
def stateLoop : Nat → Bool → Nat → List (List TableAction) → Text
  | _, _, _, [] => []
  | state, first, count, row :: rows =>
    let r := actionLoop first count true row
    "\n\n    // State ".toList ++ showNat state ++ "\n    ".toList ++ r.1 ++ stateLoop (state + 1) r.2.1 r.2.2 rows

/-- The positions of the rows (cplusplus.cpp 645, 664-665). -/
def positions : Nat → List (List TableAction) → List Nat
  | _, [] => []
  | pos, row :: rows => pos :: positions (pos + row.length) rows

/-- `write_action_table` (cplusplus.cpp 601-673) for the rows cut to their counts. -/
def writeActionTable (name : Text) (rows : List (List TableAction)) : Text :=
  "static lr::parser_tables::action ".toList ++ name ++ "_data[] = {".toList ++ stateLoop 0 true 0 rows ++ "\n};\n".toList ++
  "static lr::parser_tables::action* ".toList ++ name ++ "[] = {".toList ++
  entriesLoop 3 true 0 ((positions 0 rows).map (fun p => name ++ "_data + ".toList ++ showNat p)) ++ "\n};\n".toList

/-- An array that is written by one of the loops: the text before, the entries, the end. -/
def writeArray (head : Text) (every : Nat) (entries : List Text) : Text :=
  head ++ "[] = {".toList ++ entriesLoop every true 0 entries ++ "\n};\n".toList

/-- The rows of a table cut to the numbers of actions (cplusplus.cpp 676-689, 613-619). -/
def cutRows (n : Nat) (rows : List (List TableAction)) (counts : List Nat) : List (List TableAction) := copyRows n rows counts

/-- `source_parser_tables` (cplusplus.cpp 699-834). -/
def parserSource (cls : Text) (t : Tables) : Text :=
  "\n#include \"TameParse/Lr/parser_tables.h\"\n".toList ++
  "\n".toList ++ writeActionTable "s_TerminalActions".toList (cutRows t.numStates t.terminalActions (t.counts.map (·.1))) ++
  "\n".toList ++ writeActionTable "s_NonterminalActions".toList (cutRows t.numStates t.nonterminalActions (t.counts.map (·.2))) ++
  writeArray "\nstatic lr::parser_tables::action_count s_ActionCounts".toList 5
    ((t.counts.take t.numStates).map (fun c => "{ ".toList ++ showNat c.1 ++ ", ".toList ++ showNat c.2 ++ " }".toList)) ++
  writeArray "\nstatic int s_EndGuardStates".toList 20 ((t.endGuardStates.take t.numEndOfGuards).map showNat) ++
  writeArray "\nstatic lr::parser_tables::reduce_rule s_ReduceRules".toList 5
    ((t.rules.take t.numRules).map (fun r =>
      "{ ".toList ++ showInt r.identifier ++ ", ".toList ++ showInt r.ruleId ++ ", ".toList ++ showNat r.length ++ " }".toList)) ++
  writeArray "\nstatic lr::parser_tables::symbol_equivalent s_WeakToStrong".toList 10
    (((t.weakToStrong.getD []).take t.numWeakToStrong).map (fun e =>
      "{ ".toList ++ showInt e.1 ++ ", ".toList ++ showInt e.2 ++ " }".toList)) ++
  ("\nconst lr::parser_tables ".toList ++ cls ++ "::lr_tables(".toList ++
    showNat t.numStates ++ ", ".toList ++ showInt t.endOfInput ++ ", ".toList ++ showInt t.endOfGuard ++
    ", s_TerminalActions, s_NonterminalActions, s_ActionCounts, s_EndGuardStates, ".toList ++
    showNat t.numEndOfGuards ++ ", ".toList ++ showNat t.numRules ++ ", ".toList ++ "s_ReduceRules, ".toList ++
    showNat t.numWeakToStrong ++ ", ".toList ++ "s_WeakToStrong".toList ++ ");\n".toList)

/-! The lexer -/

/-- The loop over the table of symbols (cplusplus.cpp 434-445). -/
def symbolLoop : Nat → List Int → Text
  | _, [] => []
  | pos, x :: l =>
    (if pos % 10 = 0 then "\n        ".toList else []) ++ showInt x ++ (if l = [] then [] else ", ".toList) ++ symbolLoop (pos + 1) l

/-- `source_symbol_map` (cplusplus.cpp 414-455) for the table that `to_hard_coded_table` makes (C14). -/
def symbolSource (table : List Int) : Text :=
  "\n#include \"TameParse/Dfa/hard_coded_symbol_table.h\"\n".toList ++
  "\nstatic const int s_SymbolMapTable[] = {".toList ++ symbolLoop 0 table ++ "\n    };\n".toList ++
  "\nstatic const dfa::hard_coded_symbol_table<wchar_t, 2> s_SymbolMap(s_SymbolMapTable);\n".toList

/-- The loop over the transitions (cplusplus.cpp 489-517); `last` is the state whose transitions are being written. -/
def transitionLoop : Option Nat → Nat → List (Nat × Trans) → Text
  | _, _, [] => []
  | last, pos, (q, t) :: l =>
    (if last = some q then [] else "\n\n        // State ".toList ++ showNat q ++ "\n        ".toList) ++
    (if pos > 0 then ", ".toList ++ (if pos % 10 = 0 then "\n        ".toList else []) else []) ++
    ("{ ".toList ++ showNat t.1 ++ ", ".toList ++ showNat t.2 ++ " }".toList) ++ transitionLoop (some q) (pos + 1) l

/-- The loop over the rows (cplusplus.cpp 530-539). -/
def startLoop : Bool → List Nat → Text
  | _, [] => []
  | first, p :: l => (if first then [] else ", ".toList) ++ "s_LexerStateMachine + ".toList ++ showNat p ++ startLoop false l

/-- The loop over the accepting states (cplusplus.cpp 548-561): the number of the state decides about the comma. -/
def acceptLoop : Nat → List Int → Text
  | _, [] => []
  | q, a :: l => (if q > 0 then ", ".toList else []) ++ showInt a ++ acceptLoop (q + 1) l

/-- `source_lexer_state_machine` (cplusplus.cpp 470-576). `accept` has the symbol of each state, -1 if it accepts nothing
(output_stage.cpp 210-243, C16). -/
def lexerSource (cls : Text) (rows : List (List Trans)) (accept : List Int) : Text :=
  let ts := Ndfa.lexerTransitions 0 rows
  let starts := (Ndfa.genTable rows).starts
  "\n#include \"TameParse/Dfa/state_machine.h\"\n".toList ++
  "\nstatic const dfa::state_machine_compact_table<false>::entry s_LexerStateMachine[] = {\n".toList ++
  transitionLoop none 0 ts ++ "\n    };\n".toList ++
  "\nstatic const dfa::state_machine_compact_table<false>::entry* s_LexerStates[".toList ++ showNat starts.length ++ "] = {\n        ".toList ++
  startLoop true starts ++ "\n    };\n".toList ++
  "\nstatic const int s_AcceptingStates[] = {\n        ".toList ++ acceptLoop 0 accept ++ "\n    };\n".toList ++
  "\ntypedef dfa::state_machine_tables<wchar_t, dfa::hard_coded_symbol_table<wchar_t, 2> > lexer_state_machine;\n".toList ++
  "static const lexer_state_machine s_StateMachine(s_SymbolMap, s_LexerStates, ".toList ++ showNat starts.length ++ ");\n".toList ++
  "\ntypedef dfa::dfa_lexer_base<const lexer_state_machine&, 0, 0, false, const lexer_state_machine&> lexer_definition;\n".toList ++
  "static lexer_definition s_LexerDefinition(s_StateMachine, ".toList ++ showNat starts.length ++ ", s_AcceptingStates);\n".toList ++
  "\nconst dfa::lexer ".toList ++ cls ++ "::lexer(&s_LexerDefinition, false);\n".toList

end Written
end TameParse

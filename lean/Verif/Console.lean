import Verif.Tool
import Verif.Show

/-!
# What the console says of errors

Source: /repo/TameParse/Compiler/std_console.cpp 66-168, /repo/TameParse/Compiler/error.h 44-103.

Simplifications:
* the streams are texts; characters that they cannot write are not considered;
* an option is set or not: its value does not matter here. For `std_console` itself only `verbose` is set (std_console.cpp 173-179); the command line tool takes them from its arguments
  (parsetool/boost_console.cpp 204-233);
* `line() + 1` does not overflow.
-/

namespace TameParse
namespace Console

abbrev Text : Type := List Char

/-- `error` (error.h 41-104); the position is the line and the column. -/
structure Report where
  sev : Tool.Sev
  id : Text
  description : Text
  filename : Text
  line : Int
  column : Int

/-- The options that matter for reports. -/
structure Options where
  suppress : Bool
  verbose : Bool
  codes : Bool

/-- What `wcerr` and `wcout` have got, and the exit code. -/
structure Out where
  err : Text
  out : Text
  exit : Nat

/-- A line or a column, with a colon after it (std_console.cpp 93-104). -/
def place (n : Int) : Text := if 0 ≤ n then Show.decimal (n + 1) ++ [':'] else [':']

/-- std_console.cpp 107-135. -/
def severity : Tool.Sev → Text
  | .message => []
  | .info => []
  | .detail => [' ', ' ', ' ', ' ']
  | .warning => [' ', 'w', 'a', 'r', 'n', 'i', 'n', 'g', ':']
  | .error => [' ', 'e', 'r', 'r', 'o', 'r', ':']
  | .fatal => [' ', 'f', 'a', 'i', 'l', 'u', 'r', 'e', ':']
  | .bug => [' ', 'c', 'o', 'm', 'p', 'i', 'l', 'e', 'r', ' ', 'f', 'a', 'i', 'l', 'u', 'r', 'e', ':']

/-- std_console.cpp 87-143. -/
def message (codes : Bool) (r : Report) : Text :=
  let file := if r.filename ≠ [] then r.filename ++ [':'] else [':']
  let code := if codes then [' ', '['] ++ r.id ++ [']'] else []
  file ++ place r.line ++ place r.column ++ severity r.sev ++ code ++ ([' '] ++ r.description ++ ['\n'])

/-- `report_error` (std_console.cpp 66-144). -/
def report (o : Options) (s : Out) (r : Report) : Out :=
  if r.sev ≠ .detail ∧ r.sev.code ≤ Tool.Sev.warning.code ∧ o.suppress = true then s
  else
    let s := if Tool.Sev.error.code ≤ r.sev.code then { s with exit := r.sev.code } else s
    if r.sev.code < Tool.Sev.detail.code then (if o.verbose then { s with out := s.out ++ message o.codes r } else s)
    else { s with err := s.err ++ message o.codes r }

/-- The reports of a run. -/
def run (o : Options) (log : List Report) : Out := log.foldl (report o) ⟨[], [], 0⟩

end Console
end TameParse

import Verif.Position
import Verif.Builder
/-
Model of the check of regular expressions.

Sources: /repo/TameParse/Dfa/ndfa_regex.cpp 502-625 (`check_regex`, `check`) and 898-911 (`check_expression`), regex_error.h 37-82,
/repo/TameParse/Compiler/lexer_stage.cpp 178-186 (`check_expression` of the language compiler), 217-269 (`check_regex`) and 303-311, 342-345 (where it is called).

Simplifications:
* an iterator is the list of the symbols that follow it, and the end iterator the empty list;
* whether `{name}` is known is a parameter; `known` is the one for what an expression may refer to (`Env`);
* the text of the messages is left out, as is the file, which is that of the definition.
-/
namespace TameParse
namespace RegexCheck
open Regex

/-- The errors (`regex_error::error_type`, regex_error.h 40-55; nothing makes `unknown`), with the symbol of `missing_expression`. -/
inductive Fault
  | round
  | square
  | curly
  | name (n : List Int)
deriving DecidableEq, Repr

/-- `regex_error` (regex_error.h 37-82). -/
structure Error where
  fault : Fault
  pos : Pos
deriving DecidableEq, Repr

/-- The stack of closing brackets after one symbol (ndfa_regex.cpp 546-570). -/
def push (st : List Int) (c : Int) : List Int :=
  let free := st.isEmpty || decide (st.head? = some 41)
  if c = 123 then (if free then 125 :: st else st)
  else if c = 91 then (if free then 93 :: st else st)
  else if c = 40 then (if free then 41 :: st else st)
  else if c = 41 ∨ c = 93 ∨ c = 125 then (if st.head? = some c then st.tail else st)
  else st

/-- The loop that looks for the closing bracket (ndfa_regex.cpp 545-575): `bracketPos` and `brackets` at its end. -/
def closing : List Int → List Int → List Int × List Int
  | [], st => ([], st)
  | c :: rest, st => if push st c = [] then (c :: rest, []) else closing rest (push st c)

variable (known : List Int → Bool)

/-- `check` (ndfa_regex.cpp 525-625): `exprPos`, `pos` and the errors that are added. -/
def check (t : Tracker) : List Int → Tracker × List Int × List Error
  | [] => (t, [], [])
  | c :: rest =>
    if c = 40 ∨ c = 91 then
      let r := closing (c :: rest) []
      let errors := if r.2 ≠ [] then [⟨if c = 91 then .square else .round, t.pos⟩] else []
      if c = 91 then (t.updateAll ((c :: rest).take ((c :: rest).length - r.1.length)), r.1, errors) else (t, c :: rest, errors)
    else if c = 92 then (t.update c, rest, [])
    else if c = 123 then
      let expr := rest.takeWhile (fun x => x ≠ 125)
      let pos := rest.dropWhile (fun x => x ≠ 125)
      ((t.update c).updateAll expr, pos,
        if pos = [] then [⟨.curly, t.pos⟩] else if known expr then [] else [⟨.name expr, t.pos⟩])
    else (t, c :: rest, [])

theorem closing_length (w st : List Int) : (closing w st).1.length ≤ w.length := by
  induction w generalizing st with
  | nil => exact Nat.le_refl _
  | cons c w ih =>
    unfold closing
    split
    · exact Nat.le_refl _
    · exact Nat.le_succ_of_le (ih _)

theorem check_length (t : Tracker) (w : List Int) : (check known t w).2.1.length ≤ w.length := by
  cases w with
  | nil => exact Nat.le_refl _
  | cons c w =>
    unfold check
    dsimp only
    split
    · split
      · exact closing_length _ _
      · exact Nat.le_refl _
    · split
      · exact Nat.le_succ _
      · split
        · exact Nat.le_succ_of_le (List.dropWhile_suffix _).length_le
        · exact Nat.le_refl _

/-- The loop of `check_regex` (ndfa_regex.cpp 510-514). -/
def loop (t : Tracker) (pos : List Int) : List Error :=
  match pos with
  | [] => []
  | c :: rest =>
    match _h : (check known t (c :: rest)).2.1 with
    | [] => (check known t (c :: rest)).2.2
    | d :: l => (check known t (c :: rest)).2.2 ++ loop ((check known t (c :: rest)).1.update d) l
termination_by pos.length
decreasing_by
  have := check_length known t (c :: rest)
  rw [_h] at this
  exact this

/-- `check_regex` (ndfa_regex.cpp 502-518). -/
def checkRegex (w : List Int) : List Error := loop known (Tracker.ofPos Pos.zero) w

/-- `check_expression` (ndfa_regex.cpp 898-911, and lexer_stage.cpp 178-186 for the expressions of a language). The literal expressions are not
looked at. -/
def knownIn (env : Env) (name : List Int) : Bool :=
  !(env.named name).isEmpty || (env.exprs name).isSome || (env.category name).isSome

/-- Where an error of the expression of a definition at `p` is reported (lexer_stage.cpp 255-264). The position of the error is never negative. -/
def place (p e : Pos) : Pos :=
  if e.line ≥ 1 then ⟨p.offset + e.offset + 1, p.line + e.line, e.column⟩ else ⟨p.offset + e.offset + 1, p.line, p.column + e.column + 1⟩

/-- A definition (`lexer_item`, Compiler/Data/lexer_item.h 39-95) with its text and its position; `typed` tells that its type is not `unit_null`. -/
structure Item where
  regex : Bool
  text : List Int
  pos : Pos
  typed : Bool

/-- `lexer_stage::check_regex` (lexer_stage.cpp 217-269). -/
def report (i : Item) : List Error :=
  if i.regex then (checkRegex known i.text).map (fun e => ⟨e.fault, place i.pos e.pos⟩) else []

/-- The errors that `lexer_stage::compile` reports for the expressions (lexer_stage.cpp 302-311) and the definitions (314-345) of a language. -/
def reports (exprs defs : List Item) : List Error :=
  exprs.flatMap (report known) ++ (defs.filter (·.typed)).flatMap (report known)

end RegexCheck
end TameParse

import Verif.Stage
import Verif.Tool
/-
Model of what the parser stage reports: start symbols, conflicts and clashing guards.

Sources: /repo/TameParse/Lr/conflict.cpp 94-244 (`find_conflicts`), Compiler/lr_parser_stage.cpp 96-211 (`warn_clashing_guards`), 276-304 (start
symbols), 340-448 (reports of conflicts), 466-504 (`report_reduce_conflict`).

* A report is its severity and its identifier, as in `Tool.lean`; messages and positions are left out.
* The checks for missing parts of the language and lexer stages (lr_parser_stage.cpp 227-274) are left out: the tool runs those stages first.
* A set of items is a list. Conflicts come in the order of the states, in a state in the order in which the tokens appear among the actions.
* The items that a lookahead comes from (`possible_reduce_states`) only matter for detail messages; how many of these there are is a parameter.
-/
namespace TameParse
namespace ParserStage
open AssocMap Closure Lalr Tool

/-- `conflict` (conflict.h): the items that shift the token, and those that can be reduced before it. -/
structure Conflict where
  state : Nat
  token : Item
  shifts : List LItem
  reduces : List LItem
deriving DecidableEq

/-- `at_end` (lr_item.h). -/
def atEnd (i : LItem) : Bool := decide (i.rule.items.length ≤ i.dot)

/-- Whether an item of the closure counts as one that shifts the token (conflict.cpp 159-168). -/
def shifting (first : Item → List Item) (t : Item) (i : LItem) : Bool :=
  match i.rule.items[i.dot]? with
  | none => false
  | some x => decide (t ∈ first x)

/-- The items that are shifted (conflict.cpp 157-169). -/
def shiftItems (first : Item → List Item) (closure : Set1) (t : Item) : List LItem := (closure.map Prod.fst).filter (shifting first t)

/-- The items that are reduced because of one item of the state (conflict.cpp 173-224). -/
def reduceOf (clos : LItem → List Item → Set1) (t : Item) (p : LItem × List Item) : List LItem :=
  if atEnd p.1 then if t ∈ p.2 then [p.1] else []
  else ((clos p.1 p.2).filter fun c => atEnd c.1 && decide (t ∈ c.2)).map Prod.fst

/-- The items that are reduced (conflict.cpp 171-225). -/
def reduceItems (clos : LItem → List Item → Set1) (state : Set1) (t : Item) : List LItem := (state.flatMap (reduceOf clos t)).foldl Rewriters.add []

/-- `find_conflicts` for a state with the given closure and actions (conflict.cpp 94-236). -/
def conflictsIn (first : Item → List Item) (clos : LItem → List Item → Set1) (s : Nat) (state closure : Set1) (acts : List LrAction) : List Conflict :=
  (Rewriters.findConflicts (fun t => !((shiftItems first closure t).isEmpty && (reduceItems clos state t).isEmpty)) acts).map fun t =>
    ⟨s, t, shiftItems first closure t, reduceItems clos state t⟩

/-- `conflict::find_conflicts` (conflict.cpp 239-244), for the actions of all states. -/
def allConflicts (first : Item → List Item) (clos : LItem → List Item → Set1) (fuel : Nat) (m : Mach) (states : List (List LrAction)) : Option (List Conflict) :=
  ((List.range states.length).mapM fun s =>
    (generateClosure clos fuel (m.states.getD s [])).map fun c => conflictsIn first clos s (m.states.getD s []) c (states.getD s [])).map List.flatten

/-! ### The reports -/

/-- The options of the console that are asked for. -/
structure Options where
  allowReduce : Bool
  noConflicts : Bool
  details : Bool

/-- `shiftReduceSev` (lr_parser_stage.cpp 346-357). -/
def Options.shiftSev (o : Options) : Sev := if o.noConflicts then .error else .warning

/-- `reduceReduceSev` (lr_parser_stage.cpp 347-357). -/
def Options.reduceSev (o : Options) : Sev := if o.noConflicts then .error else if o.allowReduce then .warning else .error

/-- The reports for the items that are shifted (lr_parser_stage.cpp 364-394). -/
def shiftReports (o : Options) : List LItem → List Report
  | [] => []
  | _ :: l => ⟨o.shiftSev, "CONFLICT_SHIFT_REDUCE"⟩ :: if o.details then l.map fun _ => ⟨.detail, "CONFLICT_SHIFT_REDUCE"⟩ else []

/-- What is said for every item that is reduced, after its first line (lr_parser_stage.cpp 424-428, 466-504). -/
def contextReports (o : Options) (contexts : LItem → Nat) (i : LItem) : List Report :=
  if o.details then List.replicate (contexts i) ⟨.detail, "DETAIL_REDUCE_IN"⟩ else []

/-- The reports for the items that are reduced (lr_parser_stage.cpp 397-429); the first one is a conflict of its own if nothing is shifted. -/
def reduceReports (o : Options) (contexts : LItem → Nat) (alone : Bool) : List LItem → List Report
  | [] => []
  | i :: l =>
    (if alone then ⟨o.reduceSev, "CONFLICT_REDUCE_REDUCE"⟩ else ⟨.detail, "DETAIL_REDUCE"⟩) :: contextReports o contexts i ++
      l.flatMap fun j => ⟨.detail, "DETAIL_REDUCE"⟩ :: contextReports o contexts j

/-- The reports for a conflict (lr_parser_stage.cpp 359-445). -/
def conflictReports (o : Options) (contexts : LItem → Nat) (c : Conflict) : List Report :=
  shiftReports o c.shifts ++ reduceReports o contexts c.shifts.isEmpty c.reduces ++
    if c.reduces.isEmpty then [⟨.bug, if c.shifts.isEmpty then "BUG_CONFLICT_NO_ACTIONS" else "BUG_CONFLICT_NO_REDUCE"⟩] else []

/-! ### Clashing guards -/

/-- The guards that a token has actions for (lr_parser_stage.cpp 101-117), with the tokens in the order of `order`. -/
def guardsFor (order : List Item → List Item) (acts : List LrAction) : List (Item × List Item) :=
  let guards := acts.filter fun a => decide (a.type = .guard) && ParserTables.isTerminal a.item
  (order ((guards.map (·.item)).foldl Rewriters.add [])).map fun t =>
    (t, ((guards.filter fun a => decide (a.item = t)).map (·.rule.nonterminal)).foldl Rewriters.add [])

/-- The items of a state that are before a guard (lr_parser_stage.cpp 153-159); only those of its kernel are there. -/
def usesOf (kernel : List LItem) (g : Item) : List LItem := kernel.filter fun i => decide (i.rule.items[i.dot]? = some g)

/-- The items that are named for a set of guards (lr_parser_stage.cpp 138-208): those that may not clash, then the others. -/
def namedItems (canClash : LItem → Bool) (kernel : List LItem) (gs : List Item) : List LItem :=
  let uses := gs.flatMap (usesOf kernel)
  if uses.all canClash then [] else uses.filter (fun i => !canClash i) ++ uses.filter canClash

/-- A warning about guards: the token and the items that are named. -/
structure Clash where
  token : Item
  items : List LItem
deriving DecidableEq

/-- The loop over the tokens of a state (lr_parser_stage.cpp 120-209), with the guards that were looked at before. -/
def clashLoop (canClash : LItem → Bool) (kernel : List LItem) : List Item → List (Item × List Item) → List Clash
  | _, [] => []
  | warned, (t, gs) :: l =>
    if gs.length ≤ 1 then clashLoop canClash kernel warned l
    else if gs.all (decide <| · ∈ warned) then clashLoop canClash kernel warned l
    else
      (match namedItems canClash kernel gs with
        | [] => []
        | is => [⟨t, is⟩]) ++ clashLoop canClash kernel (warned ++ gs) l

/-- `warn_clashing_guards` for a state (lr_parser_stage.cpp 100-209). -/
def clashesIn (order : List Item → List Item) (canClash : LItem → Bool) (kernel : List LItem) (acts : List LrAction) : List Clash :=
  clashLoop canClash kernel [] (guardsFor order acts)

/-- The reports for clashing guards (lr_parser_stage.cpp 175-191, 197-207). -/
def clashReports (c : Clash) : List Report := ⟨.warning, "CLASHING_GUARDS"⟩ :: c.items.map fun _ => ⟨.detail, "CLASHING_GUARDS_DETAIL"⟩

/-- `warn_clashing_guards` (lr_parser_stage.cpp 96-211). -/
def allClashes (order : List Item → List Item) (canClash : LItem → Bool) (m : Mach) (states : List (List LrAction)) : List Clash :=
  (List.range states.length).flatMap fun s => clashesIn order canClash (kern m s) (states.getD s [])

/-! ### The stage -/

/-- What comes of `compile`: its reports, and the start symbols that there is a parser for; none if it gave up. -/
structure Outcome where
  reports : List Report
  starts : Option (List String)

/-- `lr_parser_stage::compile` (lr_parser_stage.cpp 276-304, 340-448). `build` gives the conflicts and the clashing guards of the parser for these start symbols. -/
def compile (o : Options) (contexts : LItem → Nat) (defined : String → Bool) (build : List String → List Conflict × List Clash) (starts : List String) : Outcome :=
  let undefined := (starts.filter fun s => !defined s).map fun _ => ⟨.error, "UNDEFINED_NONTERMINAL"⟩
  let good := starts.filter defined
  if good.isEmpty then ⟨undefined ++ [⟨.error, "NO_START_SYMBOLS"⟩], none⟩
  else ⟨undefined ++ (build good).1.flatMap (conflictReports o contexts) ++ (build good).2.flatMap clashReports, some good⟩

end ParserStage
end TameParse

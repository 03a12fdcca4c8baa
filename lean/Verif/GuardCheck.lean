import Verif.Language
/-
Model of the check of guards at the end of the language stage.

Source: /repo/TameParse/Compiler/language_stage.cpp 506-537.

`m_Guards` is an `std::map` of items; the order of the loop is a parameter, since FIRST sets can depend on the order in which they are asked for. The FIRST
sets of the grammar are not cached before the loop: nothing else in the stage asks for them, and `grammar::operator=` (grammar.cpp 61-83) clears the caches
when a language is inherited. Filling item sets gives identifiers to items (item_set.cpp); these are left out here, as the model of the stage refers to
nonterminals by name. Positions, file names and texts of messages are left out.
-/
namespace TameParse
namespace GuardCheck

/-- The reports about guards; `empty` is a warning, `ineffective` an error. -/
inductive Report
  | empty (guard : Item)
  | ineffective (guard : Item)
deriving DecidableEq

/-- What is reported about one guard (language_stage.cpp 524-536); `allow` is whether the option `allow-empty-guards` is set. -/
def reportsFor (allow : Bool) (x : Item) (r first : List Item) : List Report :=
  if Item.empty ∈ first then
    if r = [] then (if allow then [] else [.empty x]) else [.ineffective x]
  else []

/-- The loop over the guards (language_stage.cpp 515-537). -/
def checkGuards (g : Gram) (fuel : Nat) (allow : Bool) : ItemCache → List Item → Option (ItemCache × List Report)
  | c, [] => some (c, [])
  | c, .guard p r :: xs =>
    match g.firstForRule fuel c r with
    | none => none
    | some (c, s) =>
      match checkGuards g fuel allow c xs with
      | none => none
      | some (c, reps) => some (c, reportsFor allow (.guard p r) r s ++ reps)
  | c, _ :: xs => checkGuards g fuel allow c xs

end GuardCheck
end TameParse

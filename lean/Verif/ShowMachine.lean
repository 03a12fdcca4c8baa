import Verif.Show

/-!
# C99: the text of machines and builders

Source: /repo/TameParse/Language/formatter.cpp 401-462.

Simplifications: `showClosure` is false; a machine is the list of its states (lalr_machine.h 145-148), each with its identifier, its items and what `transitions_for_state` or `actions_for_state` gives for it.
-/

namespace TameParse
namespace Show

/-- A state, with its transitions or actions. -/
structure Node (α : Type) where
  id : Int
  items : List (Lr0 × List Item)
  out : List α

/-- `State #` -/
def stateWord : Text := ['S', 't', 'a', 't', 'e', ' ', '#']

/-- The lines of the transitions (formatter.cpp 422-424) or actions (formatter.cpp 453-455); `line` is the text of one of them. -/
def showOut {α : Type} (line : α → Text) : List α → Text
  | [] => []
  | x :: rest => '\n' :: (line x ++ showOut line rest)

/-- A state and what leaves it (formatter.cpp 412-425, 444-456). -/
def showNode {α : Type} (N : Names) (line : α → Text) (n : Node α) : Text :=
  stateWord ++ (decimal n.id ++ ('\n' :: (showState N true n.items ++ if n.out.isEmpty then [] else '\n' :: showOut line n.out)))

/-- The loop over the states (formatter.cpp 409-428, 441-459). -/
def showNodes {α : Type} (N : Names) (line : α → Text) (first : Bool) : List (Node α) → Text
  | [] => []
  | n :: rest => (if first then [] else ['\n', '\n']) ++ (showNode N line n ++ showNodes N line false rest)

/-- A transition (formatter.cpp 423). -/
def showMove (N : Names) (t : Item × Int) : Text := showItem N t.1 ++ ([' ', '-', '>', ' '] ++ decimal t.2)

/-- `to_string(const lalr_machine&, …)` (formatter.cpp 402-431). -/
def showMachine (N : Names) (l : List (Node (Item × Int))) : Text := showNodes N (showMove N) true l

/-- `to_string(const lalr_builder&, …)` (formatter.cpp 434-462). -/
def showBuilder (N : Names) (l : List (Node Act)) : Text := showNodes N (showAct N) true l

end Show
end TameParse

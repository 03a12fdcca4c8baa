import Verif.ShowMachine

/-!
# C99: the text of states with their closure

Source: /repo/TameParse/Language/formatter.cpp 266-336 and 401-462 with `showClosure`.

Simplification: the closure that `generate_closure` gives (lalr_builder.cpp, C56) is a parameter.
-/

namespace TameParse
namespace Show

/-- The loop over the items of the closure (formatter.cpp 321-332); `first` is the flag of the loop before it. -/
def showLr1s (N : Names) (first : Bool) : List (Lr0 × List Item) → Text
  | [] => []
  | (i, la) :: rest => (if first then [] else ['\n']) ++ (showLr1 N i la ++ showLr1s N false rest)

/-- `to_string(const lalr_state&, …)` with `showClosure` (formatter.cpp 266-336). -/
def showFull (N : Names) (items closure : List (Lr0 × List Item)) : Text :=
  showState N true items ++ ((if items.isEmpty then [] else ['\n', '-', '-']) ++ showLr1s N items.isEmpty closure)

/-- A state with its closure and what leaves it (formatter.cpp 412-425, 444-456). -/
def showNodeFull {α : Type} (N : Names) (line : α → Text) (n : Node α) (closure : List (Lr0 × List Item)) : Text :=
  stateWord ++ (decimal n.id ++ ('\n' :: (showFull N n.items closure ++ if n.out.isEmpty then [] else '\n' :: showOut line n.out)))

/-- The loop over the states (formatter.cpp 409-428, 441-459). -/
def showNodesFull {α : Type} (N : Names) (line : α → Text) (first : Bool) : List (Node α × List (Lr0 × List Item)) → Text
  | [] => []
  | (n, closure) :: rest => (if first then [] else ['\n', '\n']) ++ (showNodeFull N line n closure ++ showNodesFull N line false rest)

/-- `to_string(const lalr_machine&, …)` (formatter.cpp 402-431). -/
def showMachineFull (N : Names) (l : List (Node (Item × Int) × List (Lr0 × List Item))) : Text := showNodesFull N (showMove N) true l

/-- `to_string(const lalr_builder&, …)` (formatter.cpp 434-462), as `parsetool` writes it (parsetool/main.cpp 235). -/
def showBuilderFull (N : Names) (l : List (Node Act × List (Lr0 × List Item))) : Text := showNodesFull N (showAct N) true l

end Show
end TameParse

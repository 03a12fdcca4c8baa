import Verif.ShowClosureProps

/-!
# C99: where the lines of machines and conflicts are
-/

namespace TameParse
namespace Show

variable {N : Names}

theorem gap_cons (line : α → Text) : ∀ (l : List (Node α)) (n : Node α), showNodes N line true (n :: l) = ['\n', '\n'].intercalate ((n :: l).map (showNode N line))
  | [], n => by simp [showNodes]
  | m :: l, n => by
    have h := gap_cons line l m
    rw [List.map_cons, List.map_cons, List.intercalate_cons_cons, ← List.map_cons, ← h]
    simp [showNodes]

/-- States are separated by an empty line. -/
theorem nodes_eq (line : α → Text) (l : List (Node α)) : showNodes N line true l = ['\n', '\n'].intercalate (l.map (showNode N line)) := by
  cases l with
  | nil => rfl
  | cons n l => exact gap_cons line l n

theorem gap_full (line : α → Text) : ∀ (l : List (Node α × List (Lr0 × List Item))) (n : Node α × List (Lr0 × List Item)),
    showNodesFull N line true (n :: l) = ['\n', '\n'].intercalate ((n :: l).map fun n => showNodeFull N line n.1 n.2)
  | [], n => by simp [showNodesFull]
  | m :: l, n => by
    have h := gap_full line l m
    rw [List.map_cons, List.map_cons, List.intercalate_cons_cons, ← List.map_cons (f := fun n : Node α × List (Lr0 × List Item) => showNodeFull N line n.1 n.2), ← h]
    simp [showNodesFull]

theorem nodes_full_eq (line : α → Text) (l : List (Node α × List (Lr0 × List Item))) :
    showNodesFull N line true l = ['\n', '\n'].intercalate (l.map fun n => showNodeFull N line n.1 n.2) := by
  cases l with
  | nil => rfl
  | cons n l => exact gap_full line l n

theorem shift_join (l : List Lr0) : showShift N false l = l.flatMap fun i => '\n' :: ' ' :: ' ' :: ' ' :: ' ' :: showLr0 N i := by
  induction l with
  | nil => rfl
  | cons x l ih => rw [showShift, ih]; simp

theorem reduce_join (l : List Lr0) : showReduce N l = l.flatMap fun i => '\n' :: ' ' :: ' ' :: ' ' :: ' ' :: showLr0 N i := by
  induction l with
  | nil => rfl
  | cons x l ih => rw [showReduce, ih]; simp

/-- The lines of a conflict: its kind with the state and the token, the items that are shifted under a heading if there are any, and those that are reduced under another one. -/
theorem conflict_eq (c : Conf) : showConf N c = ['\n'].intercalate
    (((if c.shift = [] then "Reduce/reduce conflict in state ".toList else "Shift/reduce conflict in state ".toList) ++ (decimal c.state ++ (" on ".toList ++ showItem N c.token))) ::
      ((if c.shift = [] then ["  Reduce:".toList] else "  Shift:".toList :: (c.shift.map (fun i => "    ".toList ++ showLr0 N i) ++ ["  Or reduce:".toList])) ++
        c.reduce.map fun i => "    ".toList ++ showLr0 N i)) := by
  have e1 : "Reduce/reduce conflict in state ".toList = ['R', 'e', 'd', 'u', 'c', 'e', '/', 'r', 'e', 'd', 'u', 'c', 'e', ' ', 'c', 'o', 'n', 'f', 'l', 'i', 'c', 't'] ++ [' ', 'i', 'n', ' ', 's', 't', 'a', 't', 'e', ' '] := by decide +kernel
  have e2 : "Shift/reduce conflict in state ".toList = ['S', 'h', 'i', 'f', 't', '/', 'r', 'e', 'd', 'u', 'c', 'e', ' ', 'c', 'o', 'n', 'f', 'l', 'i', 'c', 't'] ++ [' ', 'i', 'n', ' ', 's', 't', 'a', 't', 'e', ' '] := by decide +kernel
  have e3 : " on ".toList = [' ', 'o', 'n', ' '] := by decide +kernel
  have e4 : "  Reduce:".toList = [' ', ' ', 'R', 'e', 'd', 'u', 'c', 'e', ':'] := by decide +kernel
  have e5 : "  Or reduce:".toList = [' ', ' ', 'O', 'r', ' ', 'r', 'e', 'd', 'u', 'c', 'e', ':'] := by decide +kernel
  have e6 : "  Shift:".toList = [' ', ' ', 'S', 'h', 'i', 'f', 't', ':'] := by decide +kernel
  have e7 : "    ".toList = [' ', ' ', ' ', ' '] := by decide +kernel
  obtain ⟨st, tok, sh, re⟩ := c
  rw [e1, e2, e3, e4, e5, e6, e7, join_cons]
  cases sh with
  | nil => simp [showConf, confKind, confLine, showShift, reduce_join, List.flatMap_map]
  | cons i sh => simp [showConf, confKind, confLine, showShift, shift_join, reduce_join, List.flatMap_map]

namespace Ex

example : showMachine names nodes = ['\n', '\n'].intercalate (nodes.map (showNode names (showMove names))) := nodes_eq _ _

example : String.ofList (showConf names ⟨7, .terminal 1, [⟨.nonterminal 1, [.terminal 0, .terminal 1], 1⟩, ⟨.nonterminal 0, [.terminal 0, .terminal 1], 1⟩], [⟨.nonterminal 0, [.terminal 0], 1⟩]⟩) =
    "Shift/reduce conflict in state 7 on \"a b\"\n  Shift:\n    <T> = id ^ \"a b\"\n    <E> = id ^ \"a b\"\n  Or reduce:\n    <E> = id ^" := by decide +kernel

end Ex

end Show
end TameParse

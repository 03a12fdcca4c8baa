import Verif.BlocksProps

/-!
# C94: which items of precedence blocks are deleted
-/

namespace TameParse
namespace Blocks

/-- The item with the address `n` stands in a precedence block of the file. -/
def Holds (f : File) (n : Nat) : Prop := ∃ t ∈ f.blocks, ∃ l, t.language = .to l ∧ ∃ u ∈ l.units, ∃ p, u.precedence = some p ∧ ∃ e ∈ p.list, n ∈ e.2

/-- The destructor of a file deletes the items of its precedence blocks. -/
theorem mem_frees (f : File) (n : Nat) : n ∈ f.frees ↔ Holds f n := by
  unfold File.frees Holds
  rw [List.mem_flatMap]
  refine exists_congr fun t => and_congr_right fun _ => ?_
  unfold Top.frees
  cases h : t.language with
  | to l =>
    simp only [List.mem_flatMap, Ptr.to.injEq, exists_eq_left']
    refine exists_congr fun u => and_congr_right fun _ => ?_
    unfold LUnit.frees
    cases hp : u.precedence with
    | none => simp
    | some p => simp [Precedence.frees]
  | _ => simp

/-- Every item of a precedence block is deleted by the destructor of the file and by that of its copy. -/
theorem deleted_twice_violated {f : File} {n : Nat} (h : Holds f n) : n ∈ f.frees ∧ n ∈ f.copy.frees := by
  have h1 := (mem_frees f n).2 h
  exact ⟨h1, by rw [copy_frees_violated]; exact h1⟩

example : Holds sample 17 := (mem_frees sample 17).1 (by decide +kernel)
example : ¬ Holds sample 18 := fun h => absurd ((mem_frees sample 18).2 h) (by decide +kernel)

end Blocks
end TameParse

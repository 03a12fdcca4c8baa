import Verif.ParserTablesProps

/-!
# C34: the order in which actions are tried

Stated on the types of actions, without `score`.
-/

namespace TameParse
namespace ParserTables

/-- One type may be tried before the other: guards come first, then weak reductions, shifts, reductions and the rest. -/
def Before (a b : ActType) : Prop :=
  (b = .guard → a = .guard) ∧ (b = .weakreduce → a = .guard ∨ a = .weakreduce) ∧
    (b = .shift ∨ b = .shiftstrong ∨ b = .divert → a ≠ .reduce ∧ a ≠ .goto ∧ a ≠ .ignore ∧ a ≠ .accept) ∧ (b = .reduce → a ≠ .goto ∧ a ≠ .ignore ∧ a ≠ .accept)

theorem before_of_score {a b : ActType} (h : score a ≤ score b) : Before a b := by
  cases a <;> cases b <;> simp [score] at h <;> simp [Before]

/-- Guards are visited before weak reductions, these before shifts, and shifts before reductions. -/
theorem action_order (g : Numbering) (sort : List TableAction → List TableAction) (sortWeak : List (Int × Int) → List (Int × Int))
    (hsort : IsSort compareActions sort) (states : List (List LrAction)) (weak : Option (List (Item × List Item)))
    (hf : Fits g states (build g sort sortWeak states weak).numRules) (state : Nat) (acts : List LrAction)
    (hs : states[state]? = some acts) (symbol : Int) :
    (∃ l, visitTerminal (build g sort sortWeak states weak) state symbol = some l ∧ l.Pairwise (fun a b => Before a.type b.type)) ∧
      ∃ l, visitNonterminal (build g sort sortWeak states weak) state symbol = some l ∧ l.Pairwise (fun a b => Before a.type b.type) := by
  obtain ⟨⟨l, h1, -, h2⟩, ⟨l', h3, -, h4⟩⟩ := action_lookup_exact g sort sortWeak hsort states weak hf state acts hs symbol
  exact ⟨⟨l, h1, h2.imp before_of_score⟩, l', h3, h4.imp before_of_score⟩

example : ¬ Before .reduce .weakreduce := fun h => by simpa using h.2.1 rfl
example : Before .weakreduce .shift := by simp [Before]
example : ¬ Before .weakreduce .guard := fun h => nomatch h.1 rfl

end ParserTables
end TameParse

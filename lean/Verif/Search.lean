/-
`std::lower_bound` as implemented by the usual halving loop, and its contract.

Used by the compact state tables (state_machine.h 166, 344) and the parser tables (parser_tables.h 165-223). The C++
standard only fixes the contract; the loop below is the usual implementation (libstdc++).
-/
namespace TameParse

/-- The halving loop: `p i` is `comp(*i, value)`. The first argument bounds the number of rounds. -/
def lowerBoundLoop (p : Nat → Bool) : Nat → Nat → Nat → Nat
  | 0, first, _ => first
  | fuel + 1, first, len =>
    if len = 0 then first
    else
      let half := len / 2
      if p (first + half) then lowerBoundLoop p fuel (first + half + 1) (len - half - 1)
      else lowerBoundLoop p fuel first half

/-- `std::lower_bound` over the positions `first .. last`. -/
def lowerBoundPos (p : Nat → Bool) (first last : Nat) : Nat := lowerBoundLoop p (last - first) first (last - first)

theorem lowerBoundLoop_spec (p : Nat → Bool) : ∀ (fuel first len : Nat), len ≤ fuel →
    (∀ i j, first ≤ i → i ≤ j → j < first + len → p j = true → p i = true) →
    first ≤ lowerBoundLoop p fuel first len ∧ lowerBoundLoop p fuel first len ≤ first + len ∧
    (∀ i, first ≤ i → i < lowerBoundLoop p fuel first len → p i = true) ∧
    (∀ i, lowerBoundLoop p fuel first len ≤ i → i < first + len → p i = false) := by
  intro fuel
  induction fuel with
  | zero =>
    intro first len hl _
    have : len = 0 := by omega
    subst this
    simp only [lowerBoundLoop]
    exact ⟨by omega, by omega, fun i h1 h2 => absurd h1 (by omega), fun i h1 h2 => absurd h1 (by omega)⟩
  | succ f ih =>
    intro first len hl hm
    simp only [lowerBoundLoop]
    by_cases h0 : len = 0
    · subst h0
      simp only [if_true]
      exact ⟨by omega, by omega, fun i h1 h2 => absurd h1 (by omega), fun i h1 h2 => absurd h1 (by omega)⟩
    · rw [if_neg h0]
      by_cases hp : p (first + len / 2) = true
      · simp only [hp, if_true]
        obtain ⟨h1, h2, h3, h4⟩ := ih (first + len / 2 + 1) (len - len / 2 - 1) (by omega)
          (fun i j hi hij hj => hm i j (by omega) hij (by omega))
        refine ⟨by omega, by omega, fun i hi hlt => ?_, fun i hi hlt => h4 i hi (by omega)⟩
        by_cases hle : i ≤ first + len / 2
        · exact hm i _ hi hle (by omega) hp
        · exact h3 i (by omega) hlt
      · have hp : p (first + len / 2) = false := by simpa using hp
        simp only [hp, if_neg (show ¬ (false = true) by simp)]
        obtain ⟨h1, h2, h3, h4⟩ := ih first (len / 2) (by omega) (fun i j hi hij hj => hm i j (by omega) hij (by omega))
        refine ⟨by omega, by omega, h3, fun i hi hlt => ?_⟩
        by_cases hle : i < first + len / 2
        · exact h4 i hi hle
        · cases hpi : p i with
          | false => rfl
          | true =>
            have := hm (first + len / 2) i (by omega) (by omega) hlt hpi
            rw [this] at hp; exact absurd hp (by simp)

theorem lowerBoundPos_spec (p : Nat → Bool) (first last : Nat) (hfl : first ≤ last)
    (hm : ∀ i j, first ≤ i → i ≤ j → j < last → p j = true → p i = true) :
    first ≤ lowerBoundPos p first last ∧ lowerBoundPos p first last ≤ last ∧
    (∀ i, first ≤ i → i < lowerBoundPos p first last → p i = true) ∧
    (∀ i, lowerBoundPos p first last ≤ i → i < last → p i = false) := by
  obtain ⟨h1, h2, h3, h4⟩ := lowerBoundLoop_spec p (last - first) first (last - first) (Nat.le_refl _)
    (fun i j hi hij hj => hm i j hi hij (by omega))
  exact ⟨h1, by unfold lowerBoundPos; omega, h3, fun i hi hlt => h4 i hi (by omega)⟩

end TameParse

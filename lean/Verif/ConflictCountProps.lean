import Verif.ParserStageProps

/-!
# C80: where reductions are shown
-/

namespace TameParse
namespace ParserStage
open Tool

/-- How many places are reported. -/
def places (l : List Report) : Nat := l.countP fun r => r.id == "DETAIL_REDUCE_IN"

theorem places_append (l l' : List Report) : places (l ++ l') = places l + places l' := List.countP_append

theorem places_context (o : Options) (contexts : LItem → Nat) (i : LItem) : places (contextReports o contexts i) = if o.details then contexts i else 0 := by
  unfold contextReports
  split <;> simp [places, List.countP_replicate]

theorem places_shift (o : Options) (l : List LItem) : places (shiftReports o l) = 0 := by
  cases l with
  | nil => rfl
  | cons i l =>
    rw [shiftReports]
    split <;> simp [places]

/-- The places of a conflict are reported if details are asked for: all places of each of its reductions. -/
theorem places_conflict (o : Options) (contexts : LItem → Nat) (c : Conflict) : places (conflictReports o contexts c) = if o.details then (c.reduces.map contexts).sum else 0 := by
  have step : ∀ l : List LItem, places (l.flatMap fun j => (⟨.detail, "DETAIL_REDUCE"⟩ : Report) :: contextReports o contexts j) = if o.details then (l.map contexts).sum else 0 := by
    intro l
    induction l with
    | nil => simp [places]
    | cons i l ih =>
      rw [List.flatMap_cons, places_append, ih]
      have : places ((⟨.detail, "DETAIL_REDUCE"⟩ : Report) :: contextReports o contexts i) = places (contextReports o contexts i) := by simp [places]
      rw [this, places_context]
      split <;> simp
  have bug : ∀ b : Bool, places (if b then [(⟨.bug, if c.shifts.isEmpty then "BUG_CONFLICT_NO_ACTIONS" else "BUG_CONFLICT_NO_REDUCE"⟩ : Report)] else []) = 0 := by
    intro b
    cases b <;> cases c.shifts.isEmpty <;> simp [places]
  unfold conflictReports
  rw [places_append, places_append, places_shift, bug]
  cases h : c.reduces with
  | nil => simp [reduceReports, places]
  | cons i l =>
    have : ∀ a : Bool, places (reduceReports o contexts a (i :: l)) = places (contextReports o contexts i) + places (l.flatMap fun j => (⟨.detail, "DETAIL_REDUCE"⟩ : Report) :: contextReports o contexts j) := by
      intro a
      rw [reduceReports, ← places_append]
      cases a <;> simp [places]
    rw [this, places_context, step]
    split <;> simp

example (i j : LItem) : places (conflictReports ⟨false, false, true⟩ (fun _ => 2) ⟨0, .eoi, [], [i, j]⟩) = 4 := places_conflict _ _ _
example (i j : LItem) : places (conflictReports ⟨false, false, false⟩ (fun _ => 2) ⟨0, .eoi, [i], [j]⟩) = 0 := places_conflict _ _ _

end ParserStage
end TameParse

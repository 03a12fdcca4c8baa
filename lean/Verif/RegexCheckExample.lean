import Verif.RegexCheckProps
/-
C91: the violations, and examples.
-/
namespace TameParse
namespace RegexCheck
open Regex

/-- No names are defined. -/
def noNames : Env := ⟨fun _ => none, fun _ => none, fun _ => none, fun _ => [], (id, id)⟩

theorem not_before_92 {q : Bool} : ¬ Before q [92] := by
  intro h
  cases h with
  | chr _ _ h => simp at h

/-- `(\()`: the group is closed, but an error is reported. -/
theorem round_alarm (known : List Int → Bool) : checkRegex known [40, 92, 40, 41] = [⟨.round, Pos.zero⟩] := by
  unfold checkRegex
  rw [loop_round, loop_quoted, loop_chr known (by decide), loop_nil]
  decide

/-- `(\)`: the group is not closed, and no error is reported. -/
theorem round_missed (known : List Int → Bool) : checkRegex known [40, 92, 41] = [] := by
  unfold checkRegex
  rw [loop_round, loop_quoted, loop_nil]
  decide

/-- `[\](]`: the class is closed, but the check takes the quoted bracket for its end. -/
theorem square_alarm (known : List Int → Bool) : checkRegex known [91, 92, 93, 40, 93] = [⟨.round, ⟨3, 0, 3⟩⟩] := by
  unfold checkRegex
  rw [show ([91, 92, 93, 40, 93] : List Int) = 91 :: ([92] ++ 93 :: [40, 93]) from rfl, loop_class known (by decide), loop_round, loop_chr known (by decide),
    loop_nil]
  decide

/-- C91 is violated both ways: in `(\()` an error is reported although nothing is wrong, and in `(\)` none although the group is not closed. -/
theorem check_violated (known : List Int → Bool) :
    (∃ w e, e ∈ checkRegex known w ∧ ¬ Wrong true known w e) ∧ ∃ w e, Wrong true known w e ∧ e ∉ checkRegex known w := by
  refine ⟨⟨[40, 92, 40, 41], _, by rw [round_alarm]; exact List.mem_singleton.2 rfl, ?_⟩, [40, 92, 41], ⟨.round, Pos.zero⟩, ?_, by
    rw [round_missed]; simp⟩
  · rintro ⟨u, v, hw, hu, hv, -⟩
    match u, hw with
    | [], hw =>
      rw [List.nil_append] at hw
      subst hw
      cases hv with
      | round _ h => exact h ⟨[92, 40], [], rfl, .quoted 40 [] rfl .nil⟩
    | [a], hw =>
      simp only [List.cons_append, List.nil_append, List.cons.injEq] at hw
      obtain ⟨-, rfl⟩ := hw
      cases hv
    | [a, b], hw =>
      simp only [List.cons_append, List.nil_append, List.cons.injEq] at hw
      obtain ⟨rfl, rfl, -⟩ := hw
      cases hu with
      | chr _ _ _ h => exact not_before_92 h
    | [a, b, c], hw =>
      simp only [List.cons_append, List.nil_append, List.cons.injEq] at hw
      obtain ⟨-, -, -, rfl⟩ := hw
      cases hv
    | [a, b, c, d], hw =>
      simp only [List.cons_append, List.nil_append, List.cons.injEq] at hw
      obtain ⟨-, -, -, -, rfl⟩ := hw
      cases hv
    | a :: b :: c :: d :: e :: l, hw =>
      have := congrArg List.length hw
      simp at this
  · refine ⟨[], _, rfl, .nil, .round _ ?_, rfl⟩
    rintro ⟨x, y, hxy, hx⟩
    match x, hxy with
    | [], hxy => simp at hxy
    | [a], hxy =>
      simp only [List.cons_append, List.nil_append, List.cons.injEq] at hxy
      obtain ⟨rfl, -⟩ := hxy
      cases hx with
      | chr _ _ _ h => exact absurd rfl (h rfl)
    | a :: b :: l, hxy =>
      have := congrArg List.length hxy
      simp at this

/-- Well-written expressions draw errors if they quote brackets: `(\()` and `[\](]`. -/
theorem well_written_violated : ∃ r s : Re, r.Ok noNames false ∧ s.Ok noNames false ∧ checkRegex (knownIn noNames) r.text ≠ [] ∧
    checkRegex (knownIn noNames) s.text ≠ [] := by
  refine ⟨.grp (.atom (.chr (.quoted 40))), .atom (.cls false [.one (.quoted 93), .one (.plain 40)]), ⟨⟨⟨by simp [Chr.Ok, Chr.Special], trivial⟩, by simp⟩, by simp⟩,
    ⟨⟨?_, by simp, 40, .one (.plain 40), by simp, rfl⟩, by simp⟩, ?_, ?_⟩
  · intro i hi
    simp only [List.mem_cons, List.not_mem_nil, or_false] at hi
    rcases hi with rfl | rfl
    · exact ⟨by simp [Chr.Ok, Chr.Special], trivial⟩
    · exact ⟨by simp [Chr.Ok], by simp [Chr.NotPlain]⟩
  · rw [show (Re.grp (.atom (.chr (.quoted 40)))).text = [40, 92, 40, 41] from rfl, round_alarm]
    simp
  · rw [show (Re.atom (.cls false [.one (.quoted 93), .one (.plain 40)])).text = [91, 92, 93, 40, 93] from rfl, square_alarm]
    simp

/-- An expression with the name of a string that `define_expression_literal` defines is well written and compiled, but the name is reported as unknown. -/
theorem literal_names_violated : ∃ (env : Env) (r : Re), r.Ok env false ∧ NoQuoted r.text ∧ checkRegex (knownIn env) r.text = [⟨.name [120], Pos.zero⟩] := by
  refine ⟨{ noNames with literals := fun n => if n = [120] then some [97] else none }, .lit [120] [97],
    ⟨by simp, rfl, rfl, by simp, by simp, by simp⟩, ?_, ?_⟩
  · intro u c v h
    have : (92 : Int) ∈ (Re.lit [120] [97]).text := by rw [h]; simp
    simp [Re.text] at this
  · unfold checkRegex
    rw [show (Re.lit [120] [97]).text = 123 :: ([120] ++ 125 :: []) from rfl, loop_name _ (by decide), loop_nil]
    simp [knownIn, noNames, Tracker.ofPos]

/-- `(a|{x})⏎[b`: the unknown name and the class that is not closed, on the second line. -/
example : checkRegex (knownIn noNames) [40, 97, 124, 123, 120, 125, 41, 10, 91, 98] = [⟨.name [120], ⟨3, 0, 3⟩⟩, ⟨.square, ⟨8, 1, 0⟩⟩] := by
  unfold checkRegex
  rw [loop_round, loop_chr _ (by decide), loop_chr _ (by decide),
    show ([123, 120, 125, 41, 10, 91, 98] : List Int) = 123 :: ([120] ++ 125 :: [41, 10, 91, 98]) from rfl, loop_name _ (by decide), loop_chr _ (by decide),
    loop_chr _ (by decide), loop_open _ (by decide)]
  decide

/-- In `x = /{y}/` the error is at column 5. -/
example : report (knownIn noNames) ⟨true, [123, 121, 125], (Tracker.new.updateAll [120, 32, 61, 32]).pos, true⟩ = [⟨.name [121], ⟨5, 0, 5⟩⟩] := by
  unfold report checkRegex
  rw [show ([123, 121, 125] : List Int) = 123 :: ([121] ++ 125 :: []) from rfl, loop_name _ (by decide), loop_nil]
  decide

/-- `((a|\*)*[^(]){y}` quotes no bracket, and `{y}` is known. -/
example : let env : Env := { noNames with exprs := fun n => if n = [121] then some [97] else none }
    let r : Re := .cat (.grp (.cat (.star (.grp (.alt (.atom (.chr (.plain 97))) (.atom (.chr (.quoted 42)))))) (.atom (.cls true [.one (.plain 40)]))))
      (.ref [121] (.atom (.chr (.plain 97))))
    checkRegex (knownIn env) r.text = [] := by
  intro env r
  refine well_written_partial (env := env) (R := fun _ _ => True) (c := false) (fun _ => rfl) ?_ ?_
  · simp only [r, Re.OkR, Atom.Ok, Chr.Ok, Chr.Special, Chr.NotPlain, Atom.operators, Re.isItem, Re.isSeq, Re.isAlt, Re.loopIn, Re.loopOut, Re.text, Atom.text,
      Chr.text, Atom.Has, ClassItem.Ok, ClassItem.Has, env, noNames]
    simp
    exact ⟨by simp [SymSet.maxSymbol, Chr.val], 41, by simp [Chr.val, SymSet.maxSymbol]⟩
  · intro u c v h
    have ht : r.text = [40, 40, 97, 124, 92] ++ 42 :: [41, 42, 91, 94, 40, 93, 41, 123, 121, 125] := rfl
    rw [ht] at h
    have h1 := congrArg (List.idxOf (92 : Int)) h
    have hu : u.length = 4 ∧ u = [40, 40, 97, 124] := by
      match u, h with
      | [], h => simp at h
      | [a], h => simp at h
      | [a, b], h => simp at h
      | [a, b, d], h => simp at h
      | [a, b, d, e], h => simp at h ⊢; tauto
      | a :: b :: d :: e :: f :: l, h =>
        simp only [List.cons_append, List.nil_append, List.cons.injEq] at h
        have : (92 : Int) ∈ [42, 41, 42, 91, 94, 40, 93, 41, 123, 121, 125] := by rw [h.2.2.2.2.2]; simp
        simp at this
    obtain ⟨-, rfl⟩ := hu
    simp only [List.cons_append, List.nil_append, List.cons.injEq] at h
    rw [← h.2.2.2.2.2.1]
    decide

end RegexCheck
end TameParse

import Verif.ToolExample

/-!
# C78: the report about a test that failed
-/

namespace TameParse
namespace Tool
open Files

/-- A test that fails is reported as an error of its own, or as a warning if its text comes from a file; a test that passes adds no report of this kind. -/
theorem failed_reported {w : World} {lang : String} {l l' : Loop} {t : TestDef} (h : runTest w lang l t = .ok l') :
    (l'.failed = l.failed + 1 → ∃ id, (⟨if t.type = .matchFromFile then .warning else .error, id⟩ : Report) ∈ l'.st.log.drop (getParser w lang t.nonterminal l.st).2.log.length) ∧
      (l'.passed = l.passed + 1 → l'.st.log = (getParser w lang t.nonterminal l.st).2.log) := by
  unfold runTest at h
  simp only at h
  split at h
  · cases h
    exact ⟨fun h => absurd h (by simp), fun h => absurd h (by simp)⟩
  · split at h
    · cases h
    · split at h
      · cases h
      · split at h
        · cases h
        · cases h
          rename_i b _ _
          dsimp only
          generalize (if t.type = .noMatch then !b else b) = r
          cases r with
          | true => exact ⟨fun h => by simp at h, fun _ => rfl⟩
          | false =>
            refine ⟨fun _ => ?_, fun h => by simp at h⟩
            simp only [Bool.false_eq_true, if_false, St.say, List.drop_left]
            unfold failure
            cases ht : t.type <;> simp

example : (runTest easyWorld "Easy" ⟨St.new, [], 0, 0⟩ ⟨"", "S", .noMatch, "", "y".toList⟩).map (fun l => (l.failed, l.st.log)) = .ok (1, [⟨.error, "THIS_TEST_FAILED"⟩]) := by decide +kernel
example : (runTest easyWorld "Easy" ⟨St.new, [], 0, 0⟩ ⟨"", "S", .match, "", "y".toList⟩).map (fun l => (l.passed, l.st.log)) = .ok (1, []) := by decide +kernel

end Tool
end TameParse

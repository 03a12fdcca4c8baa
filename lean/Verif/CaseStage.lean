import Verif.CaseExample
import Verif.LexerStageProps

/-!
Definitions of a lexer that do not look at the case (C88, C69).
-/

namespace TameParse
namespace LexerStage
open TameParse.Language Regex CaseMap

/-- The conversions with the tables of the source (ndfa.cpp 344-355 and unicode.cpp 113-136). -/
def caseFolds : (SymSet → SymSet) × (SymSet → SymSet) := (fun s => (convert lowercaseMap s).getD [], fun s => (convert uppercaseMap s).getD [])

/-- A keyword in ASCII that may be written in any case: C69 holds for such definitions, and these are the texts. -/
theorem keyword_denotes (env : Env) (depth : Nat) (sr : Bool) (i : LexItem) (h1 : i.regex = false) (h2 : i.ci = true) (h3 : i.definition ≠ [])
    (h4 : ∀ c ∈ i.definition, c.toNat < 128) :
    Denotes env depth caseFolds sr i {w | w.map asciiLower = (textOf i).map asciiLower} := by
  have hw : ∀ x ∈ textOf i, 0 ≤ x ∧ x < 128 := by
    intro x hx
    obtain ⟨c, hc, rfl⟩ := List.mem_map.1 hx
    have := h4 c hc
    omega
  have := Denotes.literalFold (env := env) (depth := depth) (folds := caseFolds) (sr := sr) (i := i) lowercaseMap uppercaseMap h1 h2 rfl lower_sorted
    upper_sorted (by simpa [textOf] using h3) (fun _ x hx => ascii_fit hw x hx)
  refine (congrArg (Denotes env depth caseFolds sr i) ?_).mp this
  apply _root_.Language.ext
  intro w
  constructor
  · rintro ⟨v, hv, rfl⟩
    have hv := (ascii_key hw v).1 hv
    rw [ascii_enc sr hw v hv]
    exact hv
  · intro h
    exact ⟨w, (ascii_key hw w).2 h, (ascii_enc sr hw w h).symm⟩

-- the keyword `if`, written `iF`
example : ∃ L, Denotes noDefs 1 caseFolds true ⟨false, ['i', 'f'], true, true, 0, some .keywords, false⟩ L ∧ [105, 70] ∈ L :=
  ⟨_, keyword_denotes noDefs 1 true _ rfl rfl (by decide) (by decide), by show List.map _ _ = List.map _ _; decide⟩

end LexerStage
end TameParse

import Verif.NamedProps
/-
Examples for C90.
-/
namespace TameParse
namespace NamedExprs
open AssocMap TameParse.Language Lang LexerStage Regex CaseMap

deriving instance DecidableEq for Language.Lexeme, Named

namespace Ex
open Language.Example (t nt)

/-- `case-sensitive lexer-symbols { digit = /[0-9]/ }`, `case-insensitive lexer-symbols { letter = /[0-9]/ letter |= /{digit}/ }` in a language, and
`case-insensitive lexer-symbols { replace letter = /[a-z]/ letter |= /{digit}/ }`, `lexer { word = /_{letter}+/ }` in one that inherits from it. -/
def lang : List (List (Block NtSyntax)) := [[.lexer .symbols false false true [⟨.regex, "digit", "/[0-9]/".toList, false, false⟩],
    .lexer .symbols false true false [⟨.regex, "letter", "/[0-9]/".toList, false, false⟩, ⟨.regex, "letter", "/{digit}/".toList, true, false⟩]],
  [.lexer .symbols false true false [⟨.regex, "letter", "/[a-z]/".toList, false, true⟩, ⟨.regex, "letter", "/{digit}/".toList, true, false⟩],
    .lexer .lexer false false false [⟨.regex, "word", "/_{letter}+/".toList, false, false⟩], .grammar [⟨.assignment, "S", [[t "word"]]⟩]]]

example : (stage lang).errors = [] := by decide +kernel

/-- What the expressions of the language refer to. -/
def env : Env := languageEnv noDefs caseFolds (stage lang)

/-- `{digit}` -/
def digits : Re := .named (codes "digit".toList) (.entry false true digit)

/-- `_{letter}+` -/
def word : Re := .cat (ch 95) (.plus (.named (codes "letter".toList) (.either (.entry true false letter) (.entry true false digits))))

-- the definition as it is written
example : word.text = codes "_{letter}+".toList := by decide +kernel

theorem named_digit : env.named (codes "digit".toList) = [⟨true, codes "[0-9]".toList, false, true⟩] :=
  named_meaning noDefs caseFolds lang "digit" [] [(⟨.regex, "digit", "/[0-9]/".toList, false, false⟩, false, true)] (by decide +kernel) (.inl rfl) (by simp)

theorem named_letter : env.named (codes "letter".toList) = [⟨true, codes "[a-z]".toList, true, false⟩, ⟨true, codes "{digit}".toList, true, false⟩] :=
  named_meaning noDefs caseFolds lang "letter"
    [(⟨.regex, "letter", "/[0-9]/".toList, false, false⟩, true, false), (⟨.regex, "letter", "/{digit}/".toList, true, false⟩, true, false)]
    [(⟨.regex, "letter", "/[a-z]/".toList, false, true⟩, true, false), (⟨.regex, "letter", "/{digit}/".toList, true, false⟩, true, false)]
    (by decide +kernel) (.inr ⟨_, _, rfl, rfl⟩) (by simp)

theorem digits_ok (sr c : Bool) : digits.OkR env (SetsWell sr lowercaseMap uppercaseMap) c := by
  refine ⟨?_, by decide +kernel, ?_⟩
  · have e : Re.within c false true = false := by cases c <;> rfl
    show Re.OkR env _ (Re.within c false true) digit
    rw [e]
    exact ⟨(digit_ok sr).1, (digit_ok sr).2⟩
  · rw [named_digit]; rfl

theorem word_ok (sr : Bool) : word.OkR env (SetsWell sr lowercaseMap uppercaseMap) false := by
  have h95 := ch_ok 95 (by decide) (by decide) (by decide) sr
  refine ⟨⟨h95.1, h95.2⟩, ⟨⟨⟨⟨(letter_ok sr).1, letters_fold sr⟩, digits_ok sr true, rfl⟩, by decide +kernel, ?_⟩, rfl⟩, rfl, rfl, .inl rfl⟩
  rw [named_letter]
  rfl

/-- C69 holds for such a definition ... -/
theorem word_denotes (sr : Bool) (i : LexItem) (h1 : i.regex = true) (h2 : i.ci = false) (h3 : i.definition = "_{letter}+".toList) :
    Denotes env 3 caseFolds sr i (word.langN (modes sr lowercaseMap uppercaseMap) false) := by
  have := Denotes.named (env := env) (depth := 3) (folds := caseFolds) (sr := sr) (i := i) lowercaseMap uppercaseMap word h1 rfl rfl lower_sorted
    upper_sorted (by unfold textOf; rw [h3]; decide +kernel) (by rw [h2]; exact word_ok sr) (by decide +kernel)
  rw [h2] at this
  exact this

/-- ... and its automaton accepts "_B7". -/
example : ∃ n f, addRegex env 3 Ndfa.new true none 0 word.text = some (n, f) ∧ Ndfa.Reach n 0 [95, 66, 55] f := by
  obtain ⟨n, f, h1, _, _, _, _, h6, _⟩ := named_language_partial env 3 Ndfa.new (Ndfa.built_wf .new) true lowercaseMap uppercaseMap
    lower_sorted upper_sorted rfl false 0 (by decide) word (word_ok true) (by decide +kernel) (fun _ => rfl)
  refine ⟨n, f, h1, (h6 0 _ (by decide)).2 ⟨[], [95, 66, 55], .refl, ?_, rfl⟩⟩
  refine ⟨[95], ⟨95, ⟨95, rfl, rfl⟩, by decide⟩, [66, 55], ⟨[66], .inl ⟨66, ⟨98, ⟨_, List.mem_singleton.2 rfl, ?_⟩, .inr (.inr ?_)⟩, by decide⟩, [55], ?_, rfl⟩, rfl⟩
  · simp [ClassItem.Has, Chr.val]
  · rw [upper_ascii (by decide)]
    decide
  · refine Language.mem_kstar.2 ⟨[[55]], rfl, fun y hy => ?_⟩
    rw [List.mem_singleton.1 hy]
    exact .inr ⟨55, ⟨55, ⟨_, List.mem_singleton.2 rfl, by simp [ClassItem.Has, Chr.val]⟩, rfl⟩, by decide⟩

/-- `lexer-symbols { x = /{x}/ }` -/
def circle : List (List (Block NtSyntax)) := [[.lexer .symbols false false false [⟨.regex, "x", "/{x}/".toList, false, false⟩],
  .lexer .lexer false false false [⟨.regex, "y", "/{x}/".toList, false, false⟩], .grammar [⟨.assignment, "S", [[t "y"]]⟩]]]

/-- C90 is violated for a definition that refers to itself: nothing is reported, and the expressions that use it are followed without end. -/
theorem named_circle_violated (env : Env) (folds : (SymSet → SymSet) × (SymSet → SymSet)) : (stage circle).errors = [] ∧
    ∀ (d : Nat) (b : Builder), addRegexTo (languageEnv env folds (stage circle)) d (codes "{x}".toList) b = none := by
  refine ⟨by decide +kernel, fun d b => ?_⟩
  have h := named_meaning env folds circle "x" [] [(⟨.regex, "x", "/{x}/".toList, false, false⟩, false, false)] (by decide +kernel) (.inl rfl) (by simp)
  exact named_self_reference_violated _ false false [] h d b

end Ex
end NamedExprs
end TameParse

import Verif.IgnoreGrammarProps
import Verif.SoundExample

/-!
# C38: an instance
-/

namespace TameParse
namespace Sound

open AssocMap Closure Relation Lalr TameParse.Parser ParserTables

/-- Symbol 9 can be put anywhere in the input of the parser made from `pointerGram`. -/
theorem pointer_ignored (k0 : Nat) (A B : List Tok) (hAB : A.filter (fun k => decide (Item.terminal k.sym ∉ pStage.ignored)) =
    B.filter (fun k => decide (Item.terminal k.sym ∉ pStage.ignored))) (r : Option (Bool × List (Nat × Tree))) :
    Ends pTables k0 A r ↔ Ends pTables k0 B r := by
  obtain ⟨m, m', h1, h2, h3, h4, h5⟩ := pMach_some
  have hw : pStage.weak.strongToWeak = [(.terminal 3, [.terminal 4])] := by decide +kernel
  refine ignored_no_effect_grammar (initial := fun _ => []) (okI := (· ∈ pItems)) (okR := (· ∈ pointerRules)) (lt := pLt) (clos := pClos) (self := pSelf)
    (languages := [.nonterminal 1]) numRule_inj p_univ (by decide +kernel) (by decide +kernel) (by decide +kernel) (by simp)
    (closWith_ok p_univ.proper (fun _ h => h) p_first) (selfWith_ok p_univ.proper (fun _ h => h) p_first) h1 h3 ?_ ?_ (by decide +kernel) ?_
    insertionSort_isSort ?_ ?_ k0 A B hAB r
  · intro s hs
    rw [h4] at hs
    have hall : ∀ s < 10, (pFull.bind fun m => actionsForState pClos (fun _ => []) 100 m s).isSome = true := by decide +kernel
    have := hall s hs
    rw [h2] at this
    obtain ⟨acts, ha⟩ := Option.isSome_iff_exists.1 this
    have ha' : actionsForState pClos (fun _ => []) 100 m' s = some acts := ha
    refine ⟨100, acts, ha', ?_⟩
    unfold pStates
    rw [List.getElem?_map, List.getElem?_range hs, h2]
    simp [ha']
  · rw [h4]
    simp [pStates]
  · rw [hw]
    decide +kernel
  · refine ⟨by decide +kernel, ?_, ?_⟩
    · decide +kernel
    · decide +kernel
  · intro x h
    have : numI x = numI .eog := by simpa [pNum] using h
    exact numI_inj x _ this

end Sound
end TameParse

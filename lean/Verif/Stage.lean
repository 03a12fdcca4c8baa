import Verif.Lookahead
import Verif.Attributes
/-
Model of how the compiler puts the rewriters together.

Sources: /repo/TameParse/Compiler/lr_parser_stage.cpp 306-339 (which rewriters, in which order), 451 (tables); Lr/lalr_builder.cpp 540-542 (the
rewriters are applied one after another).

The precedences, the closures that the attributes are looked up in and the states that reductions lead to are parameters.
-/
namespace TameParse
namespace Lalr

/-- The rewriters of a language. `precs` are the precedence blocks, with the items of each state. -/
structure Stage where
  precs : List (Rewriters.Prec × (Int → Rule) × (Nat → List Lr0))
  weak : Rewriters.Weak
  attributes : Nat → List (Item × Option Rewriters.Resolve)
  targets : Option (Nat → Item → List (List Nat))
  ignored : List Item

/-- The LR(1) resolver, if it is enabled (lr_parser_stage.cpp 332-334). -/
def Stage.applyLr1 (st : Stage) (s : Nat) (acts : List LrAction) : List LrAction :=
  match st.targets with
  | none => acts
  | some t => Rewriters.rewriteLr1 (t s) acts

/-- The actions of a state after the rewriters (lr_parser_stage.cpp 320-335). -/
def Stage.rewrite (st : Stage) (s : Nat) (acts : List LrAction) : List LrAction :=
  let a1 := st.precs.foldl (fun l p => Rewriters.rewritePrecedence p.1 p.2.1 (p.2.2 s) l) acts
  let a2 := Rewriters.rewriteAttributes (st.attributes s) (Rewriters.rewriteWeak st.weak a1)
  Rewriters.rewriteIgnored st.ignored s (st.applyLr1 s a2)

end Lalr
end TameParse

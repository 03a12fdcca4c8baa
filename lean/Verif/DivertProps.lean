import Verif.CompleteGrammarProps
/-
The tables that are made from a grammar have no `act_divert` entries: the cases of the parser for them (parser_state.h 182, 396, 441) are never reached.
-/
namespace TameParse
namespace Sound
open AssocMap Closure Relation Lalr TameParse.Parser ParserTables

/-- No entry of the tables diverts. -/
theorem no_divert {g : Gram} {num : Numbering} {m : Mach} {occ : Item → Prop} {ig : Int → Prop} {strong : Int → Int → Prop} {t : Tables}
    (h : Tab g num m occ ig strong t) {b : Bool} {s : Nat} {n : Int} {l : List TableAction} (hl : entriesFor t b s n = .ok l) : ∀ e ∈ l, e.type ≠ .divert := by
  intro e he
  have key : ∀ a : LrAction, Allowed g m ig strong s a → entryMeaning t e = meaning num a → e.type ≠ .divert := by
    intro a ha hm
    have ht : e.type = a.type := congrArg Prod.fst hm
    rw [ht]
    intro hd
    cases ha with
    | reduce hty _ _ _ _ =>
      rcases hty with h1 | h1
      · exact nomatch hd.symm.trans h1
      · exact nomatch hd.symm.trans h1
    | _ => exact nomatch hd
  cases b with
  | true =>
    obtain ⟨a, ha, -, -, hm⟩ := h.term s n l hl e he
    exact key a ha hm
  | false =>
    obtain ⟨a, ha, -, -, -, hm⟩ := h.nonterm s n l hl e he
    exact key a ha hm

end Sound
end TameParse

import Verif.WrittenLexerProps
import Verif.NamesProps
import Verif.CompleteExample
/-
Property C79 for the parsers of grammars, and examples.
-/
namespace TameParse
namespace Written
open ParserTables TameParse.Parser Ndfa

/-- The name of the class is an identifier (C67). -/
theorem name_identifier (name : Names.Str) : Name (Names.identifier name) := by
  have hl : ∀ c, Names.isLetter c = true → isLetter c = true := by
    intro c h
    simp only [Names.isLetter, isLetter, Bool.or_eq_true, Bool.and_eq_true, decide_eq_true_eq] at h ⊢
    rcases h with h | h
    · exact Or.inl (Or.inr h)
    · exact Or.inl (Or.inl h)
  rcases Names.identifier_valid name with h | ⟨s, h, hs⟩
  · rw [h]
    exact ⟨'_', [], rfl, by decide, by simp⟩
  · rw [h]
    refine Name.append (s := "yy_".toList) ⟨'y', "y_".toList, by decide, by decide, by decide⟩ ?_
    intro c hc
    rcases hs c hc with h1 | h1 | h1
    · exact Or.inl (hl c h1)
    · exact Or.inr h1
    · subst h1
      exact Or.inl (by decide)

theorem isSort_length {sortWeak : List (Int × Int) → List (Int × Int)} (h : IsSort (fun a b => decide (a.1 < b.1)) sortWeak) (l : List (Int × Int)) :
    (sortWeak l).length = l.length := (h l).1.length_eq

/-- C79 for tables that the constructor makes of any states. -/
theorem generated_from_build_partial (name : Names.Str) (g : Numbering) {sort : List TableAction → List TableAction}
    {sortWeak : List (Int × Int) → List (Int × Int)} (hsort : IsSort compareActions sort) (hweak : IsSort (fun a b => decide (a.1 < b.1)) sortWeak)
    (states : List (List LrAction)) (weak : Option (List (TameParse.Item × List TameParse.Item))) :
    ∃ ds t', compile true (parserSource (Names.identifier name) (build g sort sortWeak states weak)) = some ds ∧
      tablesOf (Names.identifier name) ds = some t' ∧ ∀ fuel s, parse t' fuel s = parse (build g sort sortWeak states weak) fuel s := by
  obtain ⟨ds, t', h1, h2, -, h3⟩ := generated_parser_partial _ (name_identifier name) (build g sort sortWeak states weak)
    (exact_build g sort sortWeak states weak (isSort_length hweak)) (small_build g sort (fun l => (hsort l).1) sortWeak states weak)
  exact ⟨ds, t', h1, h2, h3⟩

open Sound Lalr Closure in
/-- C79 with C36: the text that is generated for a grammar, compiled, is a parser that accepts just the sentences of the grammar. -/
theorem generated_decides_partial {first initial : TameParse.Item → List TameParse.Item} {g : Gram} {okI : TameParse.Item → Prop} {okR : Rule → Prop}
    {rid : Rule → Nat} {clos : LItem → List TameParse.Item → Set1} {own : LItem → Set1} {lt : Key → Key → Bool} {languages : List TameParse.Item}
    {m m' : Mach} {st : Stage} {states : List (List LrAction)} {num : Numbering} {sort : List TableAction → List TableAction}
    {sortWeak : List (Int × Int) → List (Int × Int)} {occ : TameParse.Item → Prop} (name : Names.Str)
    (h : Made first initial g okI okR rid clos own lt languages m m' st states num sort sortWeak occ) (hb : Bare st) (hg : Plain g okI)
    (hf : ∀ x, okI x → g.FirstComplete x (first x)) {involved : Nat → TameParse.Item → Bool}
    (hinv : ∀ s t, Involved first g m (Lalr.initials languages).states.length s t → involved s t = true)
    (hcon : ∀ (s : Nat) (acts : List LrAction), states[s]? = some acts → Rewriters.findConflicts (involved s) acts = [])
    (hacc : ∀ (s : Nat) (acts : List LrAction), states[s]? = some acts → ∀ b ∈ acts, ∀ c ∈ acts, b.type = .accept → c.item = .eoi → c.type ≠ .reduce)
    {k0 : Nat} {start : TameParse.Item} (hk : k0 < (Lalr.initials languages).states.length) (hS : kern m k0 = [startItem start]) (hst : okI start) :
    ∃ ds t', compile true (parserSource (Names.identifier name) (build num sort sortWeak states (some st.weak.strongToWeak))) = some ds ∧
      tablesOf (Names.identifier name) ds = some t' ∧ ∀ input : List Parser.Tok,
        (∃ fuel s', parse t' fuel (Parser.start k0 input) = .ok (true, s')) ↔
          g.Derives [start] ((input.filter (fun k => decide (.terminal k.sym ∉ st.ignored))).map (fun k => .terminal k.sym)) := by
  obtain ⟨ds, t', h1, h2, h3⟩ := generated_from_build_partial name num h.sortOk h.sortWeakOk states (some st.weak.strongToWeak)
  refine ⟨ds, t', h1, h2, fun input => ?_⟩
  rw [← parser_decides_partial h hb hg hf hinv hcon hacc hk hS hst input]
  simp only [h3]

/-! Examples -/

/-- A text, compiled. -/
example : (compile true "static int a[] = { 1, -2,\n  // three\n  30 };\nconst T C::t(a, 7, &b);\n".toList).map
    (fun ds => ((arrayOf (toks "static int") ds "a".toList).bind (fun l => l.mapM intOf), (objectOf ds (toks "const T C::t")).map List.length)) =
    some (some [1, -2, 30], some 3) := by decide +kernel

/-- A text that is not C++: two numbers without a comma. -/
example : (compile true "static int a[] = { 1 2 };\n".toList).isNone = true := by decide +kernel

example : (compile false "static int a[] = {\n};\n".toList).isNone = true ∧ (compile true "static int a[] = {\n};\n".toList).isSome = true := by decide +kernel

/-- The text for the tables of C48's example. -/
example : writeArray "\nstatic lr::parser_tables::reduce_rule s_ReduceRules".toList 5
    ((exampleTables.rules.take exampleTables.numRules).map (fun r =>
      "{ ".toList ++ showInt r.identifier ++ ", ".toList ++ showInt r.ruleId ++ ", ".toList ++ showNat r.length ++ " }".toList)) =
    "\nstatic lr::parser_tables::reduce_rule s_ReduceRules[] = {\n    { 1, 41, 0 }, { 1, 40, 2 }\n};\n".toList := by decide +kernel

/-- The tables that are read back. -/
example : ((compile true (parserSource "yy_Parser".toList exampleTables)).bind (tablesOf "yy_Parser".toList)).map (fun t => (t.numStates, t.endOfInput, t.counts)) =
      some (1, 100, [(4, 2)]) ∧
    ((compile true (parserSource "yy_Parser".toList exampleTables)).bind (tablesOf "yy_Parser".toList)).map (fun t => t.terminalActions) =
      some exampleTables.terminalActions := by decide +kernel

/-- The example has no guards and no weak symbols: a standard compiler rejects its text. -/
theorem standard_violated : compile false (parserSource "yy_Parser".toList exampleTables) = none :=
  empty_arrays_violated _ ⟨'y', "y_Parser".toList, by decide, by decide, by decide⟩ exampleTables
    (exact_build _ _ _ _ _ (fun _ => rfl)) (.inl (by decide +kernel))

open Sound Lalr in
/-- The source of the parser for the grammar of pointers (C36's example). -/
example : ∃ ds t', compile true (parserSource (Names.identifier "<Pointer>".toList) pointerEx.tables) = some ds ∧
    tablesOf (Names.identifier "<Pointer>".toList) ds = some t' ∧ ∀ input : List Parser.Tok,
      (∃ fuel s', parse t' fuel (Parser.start 0 input) = .ok (true, s')) ↔
        pointerGram.Derives [.nonterminal 1] ((input.filter (fun k => decide (.terminal k.sym ∉ [TameParse.Item.terminal 9]))).map (fun k => .terminal k.sym)) := by
  obtain ⟨m, m', -, -, h⟩ := Ex.made pointerEx_ok
  obtain ⟨ds, t', h1, h2, h3⟩ := generated_from_build_partial "<Pointer>".toList pointerEx.num h.sortOk h.sortWeakOk pointerEx.states
    (some pointerEx.stage.weak.strongToWeak)
  refine ⟨ds, t', h1, h2, fun input => ?_⟩
  rw [← pointer_decides input]
  simp only [h3]
  rfl

/-- A lexer with three states. -/
example : ∃ ds, compile false (symbolSource [0, 131073, 1, 2] ++ lexerSource "yy_Parser".toList [[(0, 1), (1, 2)], [(1, 2)], []] [-1, 4, 5]) = some ds ∧
    lexerOf "yy_Parser".toList ds = some ([0, 131073, 1, 2], ⟨[(0, 1), (1, 2), (1, 2)], [0, 2]⟩, [-1, 4, 5]) := by
  have hn : Name "yy_Parser".toList := ⟨'y', "y_Parser".toList, by decide, by decide, by decide⟩
  have h1 := (denotes_lexer _ hn [0, 131073, 1, 2] [[(0, 1), (1, 2)], [(1, 2)], []] [-1, 4, 5]).compile false
  rw [lexer_arrays] at h1
  exact ⟨_, h1, lexerOf_declared ..⟩

end Written
end TameParse

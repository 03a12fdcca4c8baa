import Verif.LanguageGrammarProps
import Verif.TermExample
/-
From the definition of a language to its parser (C63): the grammar stage (C59) and the parser generator (C35, C36, C37) put together.
-/
namespace TameParse
namespace Sound
open AssocMap Closure Relation Lalr TameParse.Parser ParserTables Language

/-- Sequences of terminals as sentences. -/
theorem reads_terminals {g : Gram} {xs : List Item} {ns : List Int} (h : g.Derives xs (ns.map .terminal)) : Reads g xs ns := by
  refine ⟨_, h, ?_, ?_⟩
  · intro y hy
    obtain ⟨n, -, rfl⟩ := List.mem_map.1 hy
    exact Or.inl rfl
  · rw [List.filter_eq_self]
    intro y hy
    obtain ⟨n, -, rfl⟩ := List.mem_map.1 hy
    rfl

/-- Without guards a sentence is the terminals that it reads. -/
theorem derives_terminals {g : Gram} {okI : Item → Prop} (hg : Plain g okI) {xs : List Item} (hx : ∀ x ∈ xs, okI x) {ns : List Int} (h : Reads g xs ns) : g.Derives xs (ns.map .terminal) := by
  obtain ⟨v, hv, h1, h2⟩ := h
  have hok : ∀ y ∈ v, okI y := by
    clear h1 h2
    induction hv with
    | refl => exact hx
    | tail _ hstep ih =>
      obtain ⟨u, x, w, r, rfl, hr, rfl⟩ := hstep
      intro y hy
      simp only [List.mem_append] at hy
      rcases hy with (hy | hy) | hy
      · exact ih y (by simp [hy])
      · exact hg.prods x (ih x (by simp)) r hr y hy
      · exact ih y (by simp [hy])
  rw [← h2, List.filter_eq_self.2]
  · exact hv
  · intro y hy
    rcases h1 y hy with h | ⟨p, l, rfl⟩
    · exact h
    · exact absurd (hok _ hy) (hg.noGuard p l)

section
variable {first initial : Item → List Item} {okI : Item → Prop} {okR : Rule → Prop} {rid : Rule → Nat} {clos : LItem → List Item → Set1}
  {own : LItem → Set1} {lt : Key → Key → Bool} {languages : List Item} {m m' : Mach} {st : Stage} {states : List (List LrAction)} {num : Numbering}
  {sort : List TableAction → List TableAction} {sortWeak : List (Int × Int) → List (Int × Int)} {occ : Item → Prop} {blocks : List (List (Block NtSyntax))}

/-- **C63** (partial). The parser that is made from the definition of a language comes to an end for every sequence of tokens, and it accepts just those that
are sentences of the definition once the ignored tokens are left out. The conditions are those of C59 for the definition and those of C36 and C37 for its grammar. -/
theorem language_parser_partial (hown : ∀ d ∈ defsOf blocks, ∀ p ∈ d.prods, ownAll p = true) (hd : ∀ n, Err.duplicateLexer n ∉ (Language.stage blocks).errors)
    {n : String} (hn : ∃ p, IsProd (defsOf blocks) n p)
    (h : Made first initial (Language.stage blocks).gram okI okR rid clos own lt languages m m' st states num sort sortWeak occ) (hb : Bare st)
    (hg : Plain (Language.stage blocks).gram okI)
    (hf : ∀ x, okI x → (Language.stage blocks).gram.FirstComplete x (first x)) (hsd : ∀ x, okI x → (Language.stage blocks).gram.FirstSound x (first x))
    {U : List Item} (hU : ∀ x, okI x → x ∈ U)
    {involved : Nat → Item → Bool} (hinv : ∀ s t, Involved first (Language.stage blocks).gram m (Lalr.initials languages).states.length s t → involved s t = true)
    (hcon : ∀ (s : Nat) (acts : List LrAction), states[s]? = some acts → Rewriters.findConflicts (involved s) acts = [])
    (hacc : ∀ (s : Nat) (acts : List LrAction), states[s]? = some acts → ∀ b ∈ acts, ∀ c ∈ acts, b.type = .accept → c.item = .eoi → c.type ≠ .reduce)
    {k0 : Nat} (hk : k0 < (Lalr.initials languages).states.length) (hS : kern m k0 = [startItem (.nonterminal ((Language.stage blocks).ids.idForNonterminal n).2)])
    (hst : okI (.nonterminal ((Language.stage blocks).ids.idForNonterminal n).2)) (input : List Tok) :
    ∃ fuel b s', parse (build num sort sortWeak states (some st.weak.strongToWeak)) fuel (Parser.start k0 input) = .ok (b, s') ∧
      (b = true ↔ ∃ w, Means (IsProd (defsOf blocks)) [.nonterminal "" n .blank] w ∧
        (input.filter (fun k => decide (.terminal k.sym ∉ st.ignored))).map Tok.sym = w.map (Language.stage blocks).terminals.symbolForName) := by
  obtain ⟨fuel, b, s', hp, hi⟩ := parser_total_partial h hb hg hf hsd hU hinv hcon hacc hk hS hst input
  refine ⟨fuel, b, s', hp, hi.trans ?_⟩
  generalize input.filter (fun k => decide (.terminal k.sym ∉ st.ignored)) = ks
  have e : ks.map (fun k => Item.terminal k.sym) = (ks.map Tok.sym).map .terminal := by simp [Function.comp_def]
  rw [e]
  obtain ⟨h1, h2⟩ := language_reads hown hd hn
  constructor
  · exact fun hder => h2 _ (reads_terminals hder)
  · rintro ⟨w, hw, he⟩
    rw [he]
    exact derives_terminals hg (by simpa using hst) (h1 w hw).1

end

/-! ### An example -/

open Language.Example (t nt) in
/-- `ignore { ws = / +/ }`, `S = L "=" R | R`, `L = "*" R | id`, `R = L`. -/
def pointerLang : List (List (Block NtSyntax)) := [[.lexer .ignore false false false [⟨.regex, "ws", "/ +/".toList, false, false⟩],
  .grammar [⟨.assignment, "S", [[nt "L", .terminal .string "" "\"=\"" .blank, nt "R"], [nt "R"]]⟩,
    ⟨.assignment, "L", [[.terminal .string "" "\"*\"" .blank, nt "R"], [t "id"]]⟩, ⟨.assignment, "R", [[nt "L"]]⟩]]]

theorem pointer_of_rules (s : Lang) (h : s.rules.map (fun p => (p.1, p.2.map Lang.items)) = [(1, pointerGram.rules 1), (2, pointerGram.rules 2), (3, pointerGram.rules 3)]) :
    s.gram = pointerGram := by
  have hget : ∀ (l : List (Nat × List KeyRule)) (i : Nat), ((get i l).getD []).map Lang.items = (get i (l.map (fun p => (p.1, p.2.map Lang.items)))).getD [] := by
    intro l i
    induction l with
    | nil => rfl
    | cons q l ih =>
      obtain ⟨a, b⟩ := q
      simp only [List.map_cons, AssocMap.get]
      split
      · rfl
      · exact ih
  have hr : ∀ k, s.gram.rules k = pointerGram.rules k := by
    intro k
    show (if 0 ≤ k then (s.rulesFor k.toNat).map Lang.items else []) = _
    unfold Lang.rulesFor
    rw [hget, h]
    by_cases h1 : k = 1
    · subst h1; rfl
    · by_cases h2 : k = 2
      · subst h2; rfl
      · by_cases h3 : k = 3
        · subst h3; rfl
        · have e : pointerGram.rules k = [] := by simp [pointerGram, h1, h2, h3]
          rw [e]
          split
          · simp only [AssocMap.get]
            rw [if_neg (by omega), if_neg (by omega), if_neg (by omega)]
            rfl
          · rfl
  have : ∀ g g' : Gram, (∀ k, g.rules k = g'.rules k) → g = g' := by
    rintro ⟨r⟩ ⟨r'⟩ h
    congr 1
    exact funext h
  exact this _ _ hr

theorem pointerLang_gram : (Language.stage pointerLang).gram = pointerGram := pointer_of_rules _ (by decide +kernel)

def pointerLangEx : Ex := { pointerEx with ignored := [.terminal 0] }

theorem pointerLangEx_ok : pointerLangEx.Ok where
  items := by decide +kernel
  closed := by decide +kernel
  prods := by decide +kernel
  rules := by decide +kernel
  start := by decide +kernel
  first := by decide +kernel
  mach := by decide +kernel
  full := by decide +kernel
  size := by decide +kernel
  actions := by decide +kernel
  ignored := by decide +kernel
  numRules := by decide +kernel
  next := by decide +kernel
  back := by decide +kernel

/-- The parser of this language, for every input. -/
theorem pointerLang_total (input : List Tok) : ∃ fuel b s', parse pointerLangEx.tables fuel (Parser.start 0 input) = .ok (b, s') ∧
    (b = true ↔ ∃ w, Means (IsProd (defsOf pointerLang)) [.nonterminal "" "S" .blank] w ∧
      (input.filter (fun k => decide (Item.terminal k.sym ∉ [Item.terminal 0]))).map Tok.sym = w.map (Language.stage pointerLang).terminals.symbolForName) := by
  obtain ⟨m, m', hm, hm', hmade⟩ := Ex.made pointerLangEx_ok
  obtain ⟨h0, hk⟩ := Ex.start_kernel pointerLangEx_ok hm
  have hgr : pointerLangEx.g = (Language.stage pointerLang).gram := pointerLang_gram.symm
  have hpl := Ex.plain pointerLangEx_ok
  have hf : ∀ y ∈ pointerLangEx.items, pointerLangEx.g.FirstComplete y (pointerLangEx.first y) := pointerEx_first
  have hsd : ∀ y ∈ pointerLangEx.items, pointerLangEx.g.FirstSound y (pointerLangEx.first y) := pointerEx_sound
  rw [hgr] at hmade hpl hf hsd
  have hid : (Item.nonterminal ((Language.stage pointerLang).ids.idForNonterminal "S").2) = pointerLangEx.start := by decide +kernel
  have hcon : ∀ acts ∈ pointerLangEx.states, Rewriters.findConflicts (fun _ => true) acts = [] := by decide +kernel
  have hacc : ∀ acts ∈ pointerLangEx.states, ∀ b ∈ acts, ∀ c ∈ acts, b.type = .accept → c.item = .eoi → c.type ≠ .reduce := by decide +kernel
  exact language_parser_partial (blocks := pointerLang) (n := "S") (involved := fun _ _ => true) (U := pointerLangEx.items) (by decide +kernel)
    (by rw [show (Language.stage pointerLang).errors = [] from by decide +kernel]; simp)
    ⟨_, [], _, (defsOf pointerLang).drop 1, rfl, rfl, List.mem_cons_self .., by decide +kernel⟩ hmade (Ex.bare rfl) hpl hf hsd (fun _ h => h) (fun _ _ _ => rfl)
    (fun s acts hs => hcon acts (List.mem_of_getElem? hs)) (fun s acts hs => hacc acts (List.mem_of_getElem? hs)) h0 (by rw [hid]; exact hk)
    (by rw [hid]; decide +kernel) input

end Sound
end TameParse

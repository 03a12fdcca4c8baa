import Verif.DefinitionProps
import Verif.LexerStageProps
import Verif.LanguageParserProps
/-
C75: from the definition of a language to the texts that its lexer and its parser accept together.
-/
namespace TameParse
namespace Text
open AssocMap TameParse.Language Lang WeakLexer LexerStage Regex Definitions

/-! ### How a text is read -/

/-- Which of two definitions that match the same text counts: ignored ones come last, weak ones first, then keywords before other symbols, then those with the older symbol. -/
def Ahead (x y : LexItem) : Prop :=
  y.type = some .ignore ∨ x.weak = true ∧ y.weak = false ∨ x.weak = y.weak ∧ ∃ t t', x.type = some t ∧ y.type = some t' ∧ (rank t < rank t' ∨ t = t' ∧ x.symbol < y.symbol)

/-- How a text is split into the names of definitions, if `D` says which texts a definition matches: always the longest text that any definition matches. -/
inductive Tokens (D : List Int → String → LexItem → Prop) : List Int → List String → Prop
  | nil : Tokens D [] []
  | token {c rest : List Int} {n : String} {x : LexItem} {ns : List String} : c ≠ [] → D c n x → x.type ≠ some .ignore → (∀ m y, D c m y → m = n ∨ Ahead x y) →
      (∀ w, w <+: c ++ rest → c.length < w.length → ∀ m y, ¬ D w m y) → Tokens D rest ns → Tokens D (c ++ rest) (n :: ns)
  | skip {c rest : List Int} {ns : List String} : c ≠ [] → (∃ m y, D c m y) → (∀ m y, D c m y → y.type = some .ignore) →
      (∀ w, w <+: c ++ rest → c.length < w.length → ∀ m y, ¬ D w m y) → Tokens D rest ns → Tokens D (c ++ rest) ns

/-- A definition of the language matches the text. -/
def Matches (s : Lang) (lang : LexItem → _root_.Language Int) (c : List Int) (n : String) (x : LexItem) : Prop := Entry s n x ∧ c ∈ lang x

section
variable {s : Lang} {lang : LexItem → _root_.Language Int} {items : List LexItem}

/-- The action of the lexer for a definition. -/
def For (s : Lang) (x : LexItem) (a : Accept) : Prop :=
  ∃ t, x.type = some t ∧ (t ≠ .ignore ∧ a = .lang x.symbol t x.weak ∨ t = .ignore ∧ ∃ m ∈ s.ignored, a = .lang m .ignore false)

theorem mem_symbolsOf {used : List Int} {x : LexItem} : ∀ (l : List LexItem) (first : Option Int), x ∈ l → ∃ m, (x, m) ∈ symbolsOf used first l := by
  intro l
  induction l with
  | nil => exact fun _ h => nomatch h
  | cons y l ih =>
    intro first h
    rcases List.mem_cons.1 h with rfl | h
    · exact ⟨_, List.mem_cons_self ..⟩
    · obtain ⟨m, hm⟩ := ih (symbolOf used first y).2 h
      exact ⟨m, List.mem_cons_of_mem _ hm⟩

/-- What the lexer says about a text, in terms of the definitions. -/
theorem says_iff {P : String → LexItem → Prop} (h : DInv P s) (hu : s.usedIgnored = []) (hitems : ∀ x, x ∈ items ↔ ∃ n, Entry s n x) (c : List Int) :
    (∀ a, Says s.usedIgnored lang none items c a → ∃ n x, Matches s lang c n x ∧ For s x a) ∧
    ∀ n x, Matches s lang c n x → ∃ a, Says s.usedIgnored lang none items c a ∧ For s x a := by
  have hig : ∀ n x, Entry s n x → x.type = some .ignore → x.symbol ∈ s.ignored := fun n x hx ht => (h.ignored _).2 ⟨n, x, hx, rfl, ht⟩
  have key : ∀ n x m t, Entry s n x → (x, m) ∈ symbolsOf s.usedIgnored none items → x.type = some t → For s x (.lang m t (x.weak && !bland s.usedIgnored x)) := by
    intro n x m t hx hm ht
    obtain ⟨-, hs⟩ := symbolsOf_spec items none hm
    refine ⟨t, ht, ?_⟩
    simp only [hu, List.not_mem_nil, not_false_eq_true, and_true] at hs
    by_cases hti : t = .ignore
    · subst hti
      right
      rcases hs with ⟨-, hs⟩ | ⟨-, hs⟩
      · exact absurd ht hs
      · rcases hs with hs | ⟨y, hy, hyt, -, rfl⟩
        · cases hs
        · obtain ⟨n', hn'⟩ := (hitems y).1 hy
          refine ⟨rfl, y.symbol, hig n' y hn' hyt, ?_⟩
          have : bland s.usedIgnored x = true := by simp [bland, ht, hu]
          rw [this]
          simp
    · left
      have hne : ¬ x.type = some .ignore := by rw [ht]; exact fun e => hti (Option.some.inj e)
      rcases hs with ⟨rfl, -⟩ | ⟨hs, -⟩
      · have : bland s.usedIgnored x = false := by simp [bland, hne]
        rw [this]
        exact ⟨hti, by simp⟩
      · exact absurd hs hne
  constructor
  · rintro a ⟨x, m, t, h1, h2, h3, rfl⟩
    obtain ⟨hx, -⟩ := symbolsOf_spec items none h1
    obtain ⟨n, hn⟩ := (hitems x).1 hx
    exact ⟨n, x, ⟨hn, h3⟩, key n x m t hn h1 h2⟩
  · rintro n x ⟨h1, h2⟩
    obtain ⟨t, ht⟩ := Option.ne_none_iff_exists'.1 (h.type n x h1).1
    obtain ⟨m, hm⟩ := mem_symbolsOf (used := s.usedIgnored) items none ((hitems x).2 ⟨n, h1⟩)
    exact ⟨_, ⟨x, m, t, hm, ht, h2, rfl⟩, key n x m t h1 hm ht⟩

theorem before_of_ahead {x y : LexItem} {a b : Accept} (ha : For s x a) (hb : For s y b) (hx : x.type ≠ some .ignore) (h : Ahead x y) : Before a b := by
  obtain ⟨t, ht, ⟨hti, rfl⟩ | ⟨rfl, -⟩⟩ := ha
  · obtain ⟨t', ht', ⟨hti', rfl⟩ | ⟨rfl, m, -, rfl⟩⟩ := hb
    · rcases h with h | ⟨h1, h2⟩ | ⟨h1, u, u', h2, h3, h4⟩
      · rw [ht'] at h; exact absurd (Option.some.inj h) hti'
      · exact Or.inl ⟨h1, h2⟩
      · rw [ht] at h2
        rw [ht'] at h3
        cases h2
        cases h3
        exact Or.inr ⟨h1, h4⟩
    · cases hw : x.weak with
      | true => exact Or.inl ⟨rfl, rfl⟩
      | false =>
        refine Or.inr ⟨rfl, Or.inl ?_⟩
        revert hti
        cases t <;> simp [rank]
  · exact absurd ht hx

theorem ahead_of_before {x y : LexItem} {a b : Accept} (ha : For s x a) (hb : For s y b) (hx : x.type ≠ some .ignore) (h : Before a b) : Ahead x y := by
  obtain ⟨t, ht, ⟨hti, rfl⟩ | ⟨rfl, -⟩⟩ := ha
  · obtain ⟨t', ht', ⟨hti', rfl⟩ | ⟨rfl, m, -, rfl⟩⟩ := hb
    · rcases h with h | ⟨h1, h2⟩
      · exact Or.inr (Or.inl h)
      · exact Or.inr (Or.inr ⟨h1, t, t', ht, ht', h2⟩)
    · exact Or.inl ht'
  · exact absurd ht hx

theorem for_ignored {x : LexItem} {a : Accept} (h : For s x a) (hx : x.type = some .ignore) : a.symbol ∈ s.ignored := by
  obtain ⟨t, ht, ⟨hti, -⟩ | ⟨-, m, hm, rfl⟩⟩ := h
  · rw [hx] at ht; exact absurd (Option.some.inj ht).symm hti
  · exact hm

theorem for_symbol {x : LexItem} {a : Accept} (h : For s x a) (hx : x.type ≠ some .ignore) : a.symbol = x.symbol := by
  obtain ⟨t, ht, ⟨-, rfl⟩ | ⟨rfl, -⟩⟩ := h
  · rfl
  · exact absurd ht hx

/-- Nothing is ahead of an action of another definition if it is that of an ignored one. -/
theorem ignored_last {x y : LexItem} {a b : Accept} (ha : For s x a) (hb : For s y b) (hx : x.type = some .ignore) (hy : y.type ≠ some .ignore) :
    Before b a := by
  obtain ⟨t, ht, ⟨hti, -⟩ | ⟨-, m, hm, rfl⟩⟩ := ha
  · rw [hx] at ht; exact absurd (Option.some.inj ht).symm hti
  · obtain ⟨t', ht', ⟨hti', rfl⟩ | ⟨rfl, -⟩⟩ := hb
    · cases hw : y.weak with
      | true => exact Or.inl ⟨rfl, rfl⟩
      | false =>
        refine Or.inr ⟨rfl, Or.inl ?_⟩
        revert hti'
        cases t' <;> simp [rank]
    · exact absurd ht' hy

variable {P : String → LexItem → Prop}

/-- The symbols that the parser does not skip. -/
def kept (s : Lang) (ls : List Lexeme) : List Int := (ls.map Lexeme.matched).filter (fun i => decide (i ∉ s.ignored))

/-- The lexemes that the lexer finds give the tokens of the text. -/
theorem tokens_of_lexed (h : DInv P s) (hu : s.usedIgnored = []) (hitems : ∀ x, x ∈ items ↔ ∃ n, Entry s n x) {input : List Int} {ls : List Lexeme}
    (hl : Lexed (Says s.usedIgnored lang none items) input ls) : ∀ {w : List String}, (∀ n ∈ w, s.termKnown n) →
    kept s ls = w.map s.terminals.symbolForName → Tokens (Matches s lang) input w := by
  have hlong : ∀ {c rest : List Int}, (∀ v, v <+: c ++ rest → c.length < v.length → ∀ b, ¬ Says s.usedIgnored lang none items v b) →
      ∀ v, v <+: c ++ rest → c.length < v.length → ∀ m y, ¬ Matches s lang v m y := by
    intro c rest hno v hv hlt m y hm
    obtain ⟨a, ha, -⟩ := (says_iff (lang := lang) h hu hitems v).2 m y hm
    exact hno v hv hlt a ha
  induction hl with
  | nil =>
    intro w _ he
    have : w = [] := List.map_eq_nil_iff.1 he.symm
    rw [this]
    exact .nil
  | @token l rest ls a h1 h2 h3 h4 _ ih =>
    intro w hk he
    obtain ⟨n, x, hm, hf⟩ := (says_iff (lang := lang) h hu hitems l.content).1 a h2.1
    by_cases hx : x.type = some .ignore
    · refine .skip h1 ⟨n, x, hm⟩ (fun m y hy => ?_) (hlong h4) (ih hk ?_)
      · by_contra hne
        obtain ⟨b, hb, hfb⟩ := (says_iff (lang := lang) h hu hitems l.content).2 m y hy
        have hba := ignored_last hf hfb hx hne
        rcases h2.2 b hb with rfl | hab
        · exact before_irrefl _ hba
        · exact before_irrefl _ (before_trans hab hba)
      · have : l.matched ∈ s.ignored := by rw [h3]; exact for_ignored hf hx
        simpa [kept, this] using he
    · have hsym : l.matched = x.symbol := by rw [h3]; exact for_symbol hf hx
      have hni : l.matched ∉ s.ignored := by
        rw [hsym]
        intro hmem
        obtain ⟨m, y, g1, g2, g3⟩ := (h.ignored _).1 hmem
        have e : n = m := h.inv.inj n m x.symbol (h.name n x hm.1) (by rw [← g2]; exact h.name m y g1)
        subst e
        rw [(h.type n y g1).2, g2, ← (h.type n x hm.1).2] at g3
        exact hx g3
      have he' : x.symbol :: kept s ls = w.map s.terminals.symbolForName := by
        rw [← he, ← hsym]
        simp [kept, hni]
      cases w with
      | nil => cases he'
      | cons n' w =>
        rw [List.map_cons, List.cons.injEq] at he'
        have hn' := hk n' (List.mem_cons_self ..)
        obtain ⟨j, hj⟩ := Option.ne_none_iff_exists'.1 hn'
        have e : n' = n := by
          have e1 := he'.1
          simp only [TerminalDict.symbolForName, hj, Option.getD_some] at e1
          exact h.inv.inj n' n j hj (by rw [← e1]; exact h.name n x hm.1)
        subst e
        refine .token h1 hm hx (fun m y hy => ?_) (hlong h4) (ih (fun n hn => hk n (List.mem_cons_of_mem _ hn)) he'.2)
        obtain ⟨b, hb, hfb⟩ := (says_iff (lang := lang) h hu hitems l.content).2 m y hy
        rcases h2.2 b hb with rfl | hab
        · left
          by_cases hy' : y.type = some .ignore
          · have := for_ignored hfb hy'
            rw [← h3] at this
            exact absurd this hni
          · have e1 := for_symbol hfb hy'
            rw [for_symbol hf hx] at e1
            exact h.inv.inj m n' y.symbol (h.name m y hy.1) (by rw [← e1]; exact h.name n' x hm.1)
        · exact Or.inr (ahead_of_before hf hfb hx hab)
  | @error l x rest ls h1 h2 h3 _ ih =>
    intro w hk he
    exfalso
    have hni : (-1 : Int) ∉ s.ignored := by
      intro hmem
      obtain ⟨m, y, g1, g2, -⟩ := (h.ignored _).1 hmem
      have := (h.inv.lt _ _ (h.name m y g1)).1
      omega
    have he' : -1 :: kept s ls = w.map s.terminals.symbolForName := by
      rw [← he]
      simp [kept, h2, hni]
    cases w with
    | nil => cases he'
    | cons n' w =>
      rw [List.map_cons, List.cons.injEq] at he'
      have := (known_of_symbol h.inv n').2 (hk n' (List.mem_cons_self ..))
      have := he'.1
      omega

theorem prefix_eq {c d rest rest' : List Int} (h : c ++ rest = d ++ rest') (hl : c.length = d.length) : c = d ∧ rest = rest' := List.append_inj h hl

/-- The tokens of a text are those of the lexemes that the lexer finds. -/
theorem lexed_of_tokens (h : DInv P s) (hu : s.usedIgnored = []) (hitems : ∀ x, x ∈ items ↔ ∃ n, Entry s n x) {input : List Int} {w : List String}
    (ht : Tokens (Matches s lang) input w) : ∀ {ls : List Lexeme}, Lexed (Says s.usedIgnored lang none items) input ls →
    kept s ls = w.map s.terminals.symbolForName := by
  have hinv : ∀ {c rest : List Int} {ls : List Lexeme}, c ≠ [] → (∃ m y, Matches s lang c m y) →
      (∀ w, w <+: c ++ rest → c.length < w.length → ∀ m y, ¬ Matches s lang w m y) → Lexed (Says s.usedIgnored lang none items) (c ++ rest) ls →
      ∃ l ls' a, ls = l :: ls' ∧ Best (Says s.usedIgnored lang none items) c a ∧ l.matched = a.symbol ∧ Lexed (Says s.usedIgnored lang none items) rest ls' := by
    rintro c rest ls hc ⟨m, y, hm⟩ hlong hl
    obtain ⟨b, hb, -⟩ := (says_iff (lang := lang) h hu hitems c).2 m y hm
    generalize hi : c ++ rest = input at hl hlong
    cases hl with
    | nil => exact absurd (List.append_eq_nil_iff.1 hi).1 hc
    | @token l rest' ls' a h1 h2 h3 h4 h5 =>
      have hlen : c.length = l.content.length := by
        rcases lt_trichotomy c.length l.content.length with hlt | heq | hgt
        · obtain ⟨m', y', hm', -⟩ := (says_iff (lang := lang) h hu hitems l.content).1 a h2.1
          exact absurd hm' (hlong l.content (List.prefix_append ..) hlt m' y')
        · exact heq
        · exact absurd hb (h4 c ⟨rest, hi⟩ hgt b)
      obtain ⟨rfl, rfl⟩ := prefix_eq hi hlen
      exact ⟨l, ls', a, rfl, h2, h3, h5⟩
    | error h1 h2 h3 h4 => exact absurd hb (h3 c ⟨rest, hi⟩ hc b)
  induction ht with
  | nil =>
    intro ls hl
    generalize hi : ([] : List Int) = input at hl
    cases hl with
    | nil => rfl
    | token a h1 => exact absurd (List.append_eq_nil_iff.1 hi.symm).1 h1
    | error => cases hi
  | @token c rest n x ns h1 h2 h3 h4 h5 _ ih =>
    intro ls hl
    obtain ⟨l, ls', a, rfl, hb, hma, hl'⟩ := hinv h1 ⟨n, x, h2⟩ h5 hl
    obtain ⟨n', x', hm', hf'⟩ := (says_iff (lang := lang) h hu hitems c).1 a hb.1
    obtain ⟨b, hsb, hfb⟩ := (says_iff (lang := lang) h hu hitems c).2 n x h2
    have hab : a.symbol = x.symbol := by
      have hx' : x'.type ≠ some .ignore := by
        intro hx'
        have hba := ignored_last hf' hfb hx' h3
        rcases hb.2 b hsb with rfl | hab
        · exact before_irrefl _ hba
        · exact before_irrefl _ (before_trans hab hba)
      rcases h4 n' x' hm' with rfl | hah
      · rw [for_symbol hf' hx']
        have e1 := h.name _ _ hm'.1
        rw [h.name _ _ h2.1] at e1
        exact (Option.some.inj e1).symm
      · have hba := before_of_ahead hfb hf' h3 hah
        rcases hb.2 b hsb with rfl | hab
        · exact absurd hba (before_irrefl _)
        · exact absurd (before_trans hab hba) (before_irrefl _)
    have hsym : l.matched = x.symbol := hma.trans hab
    have hni : l.matched ∉ s.ignored := by
      rw [hsym]
      intro hmem
      obtain ⟨m, y, g1, g2, g3⟩ := (h.ignored _).1 hmem
      have e : n = m := h.inv.inj n m x.symbol (h.name n x h2.1) (by rw [← g2]; exact h.name m y g1)
      subst e
      rw [(h.type n y g1).2, g2, ← (h.type n x h2.1).2] at g3
      exact h3 g3
    have e1 : s.terminals.symbolForName n = x.symbol := by simp [TerminalDict.symbolForName, h.name n x h2.1]
    rw [List.map_cons, e1, ← ih hl', ← hsym]
    simp [kept, hni]
  | @skip c rest ns h1 h2 h3 h4 _ ih =>
    intro ls hl
    obtain ⟨l, ls', a, rfl, hb, hma, hl'⟩ := hinv h1 h2 h4 hl
    obtain ⟨n', x', hm', hf'⟩ := (says_iff (lang := lang) h hu hitems c).1 a hb.1
    have : l.matched ∈ s.ignored := by rw [hma]; exact for_ignored hf' (h3 n' x' hm')
    rw [← ih hl']
    simp [kept, this]

end

/-! ### The theorem -/

/-- What the parser gets to see of a lexeme. -/
def tok (text : Lexeme → Nat) (l : Lexeme) : Parser.Tok := ⟨l.matched, text l⟩

section
open Closure Relation Lalr TameParse.Parser ParserTables Sound
variable {first initial : Item → List Item} {okI : Item → Prop} {okR : Rule → Prop} {rid : Rule → Nat} {clos : LItem → List Item → Set1}
  {own : LItem → Set1} {lt : Key → Key → Bool} {languages : List Item} {m m' : Mach} {st : Stage} {states : List (List LrAction)} {num : Numbering}
  {sort : List TableAction → List TableAction} {sortWeak : List (Int × Int) → List (Int × Int)} {occ : Item → Prop} {blocks : List (List (Block NtSyntax))}

/-- **C75** (partial). The lexer and the parser that are made from the definition of a language come to an end for every text, and together they accept a text just if it is
split by the definitions of the language into names that are a sentence of its grammar. The conditions are those of C63 for the grammar, those of C69 for the definitions,
those of C74, and that no production reads an ignored symbol. -/
theorem text_accepted_partial
    -- the definition
    (hown : ∀ d ∈ defsOf blocks, ∀ p ∈ d.prods, ownAll p = true) (hr : ∀ l t w ci cs, Written blocks.flatten l t w ci cs → l.replace = false)
    (he : (Language.stage blocks).errors = []) (hu : (Language.stage blocks).usedIgnored = []) {n : String} (hn : ∃ p, IsProd (defsOf blocks) n p)
    -- the lexer
    {env : Env} {depth : Nat} {folds : (SymSet → SymSet) × (SymSet → SymSet)} {items : List LexItem} (hitems : ∀ x, x ∈ items ↔ x ∈ allItems (Language.stage blocks))
    (lang : LexItem → _root_.Language Int) (hd : ∀ i ∈ items, Denotes env depth folds (!bland [] i) i (lang i)) (hmax : ∀ i ∈ items, i.symbol < base)
    {o : Options} {n0 : Ndfa} (hn0 : automaton env depth folds [] items = some n0) (hsuit : Suitable o (Language.stage blocks).weak (Language.stage blocks).terminals n0)
    -- the parser
    (h : Made first initial (Language.stage blocks).gram okI okR rid clos own lt languages m m' st states num sort sortWeak occ) (hb : Bare st)
    (hig : ∀ i, .terminal i ∈ st.ignored ↔ i ∈ (Language.stage blocks).ignored)
    (hg : Plain (Language.stage blocks).gram okI)
    (hf : ∀ x, okI x → (Language.stage blocks).gram.FirstComplete x (first x)) (hsd : ∀ x, okI x → (Language.stage blocks).gram.FirstSound x (first x))
    {U : List Item} (hU : ∀ x, okI x → x ∈ U)
    {involved : Nat → Item → Bool} (hinv : ∀ s t, Involved first (Language.stage blocks).gram m (Lalr.initials languages).states.length s t → involved s t = true)
    (hcon : ∀ (s : Nat) (acts : List LrAction), states[s]? = some acts → Rewriters.findConflicts (involved s) acts = [])
    (hacc : ∀ (s : Nat) (acts : List LrAction), states[s]? = some acts → ∀ b ∈ acts, ∀ c ∈ acts, b.type = .accept → c.item = .eoi → c.type ≠ .reduce)
    {k0 : Nat} (hk : k0 < (Lalr.initials languages).states.length) (hS : kern m k0 = [startItem (.nonterminal ((Language.stage blocks).ids.idForNonterminal n).2)])
    (hst : okI (.nonterminal ((Language.stage blocks).ids.idForNonterminal n).2)) :
    ∃ lexer, compile env depth folds (Language.stage blocks).usedIgnored (Language.stage blocks).weak (Language.stage blocks).terminals o items = some lexer ∧
      ∀ (input : List Int) (text : Lexeme → Nat), (∀ x ∈ input, 0 ≤ x ∧ x < 65536) →
        ∃ ls st1 st2, LexMachine.PlainRun lexer (LexStream.new input 0) ls st1 ∧ lexer.next st1 = some (none, st2) ∧
        ∃ fuel b s', parse (build num sort sortWeak states (some st.weak.strongToWeak)) fuel (Parser.start k0 (ls.map (tok text))) = .ok (b, s') ∧
          (b = true ↔ ∃ w, Tokens (Matches (Language.stage blocks) lang) input w ∧ Means (IsProd (defsOf blocks)) [.nonterminal "" n .blank] w) := by
  have hD := stage_dinv hr he
  have hit : ∀ x, x ∈ items ↔ ∃ n, Entry (Language.stage blocks) n x := fun x => (hitems x).trans ((definition_symbols_partial hr he).2.2.2.2.2 x)
  have hrange : ∀ i ∈ items, 0 ≤ i.symbol ∧ i.symbol < base := by
    intro i hi
    obtain ⟨n, hn⟩ := (hit i).1 hi
    exact ⟨(hD.inv.lt _ _ (hD.name n i hn)).1, hmax i hi⟩
  have hdup : ∀ n, Err.duplicateLexer n ∉ (Language.stage blocks).errors := by rw [he]; exact fun _ => List.not_mem_nil
  rw [← hu] at hd hn0
  obtain ⟨lexer, hc, hlex⟩ := language_lexer_partial env depth folds (Language.stage blocks).usedIgnored lang items (fun i hi _ => hd i hi) hrange o
    (Language.stage blocks).weak (Language.stage blocks).terminals n0 hn0 hsuit
  refine ⟨lexer, hc, fun input text hin => ?_⟩
  obtain ⟨ls, st1, st2, hrun, hend, hlexed⟩ := hlex input hin
  obtain ⟨fuel, b, s', hp, hi⟩ := language_parser_partial hown hdup hn h hb hg hf hsd hU hinv hcon hacc hk hS hst (ls.map (tok text))
  refine ⟨ls, st1, st2, hrun, hend, fuel, b, s', hp, hi.trans ?_⟩
  have hkept : ((ls.map (tok text)).filter (fun k => decide (Item.terminal k.sym ∉ st.ignored))).map Tok.sym = kept (Language.stage blocks) ls := by
    have hall : ∀ ls : List Lexeme, ((ls.map (tok text)).filter (fun k => decide (Item.terminal k.sym ∉ st.ignored))).map Tok.sym = kept (Language.stage blocks) ls := by
      intro ls
      induction ls with
      | nil => rfl
      | cons l ls ih =>
        unfold kept at ih ⊢
        by_cases hl : l.matched ∈ (Language.stage blocks).ignored
        · have hl' : Item.terminal (tok text l).sym ∈ st.ignored := (hig _).2 hl
          simpa [hl, hl'] using ih
        · have hl' : Item.terminal (tok text l).sym ∉ st.ignored := fun hm => hl ((hig _).1 hm)
          rw [List.map_cons, List.map_cons, List.filter_cons_of_pos (by simpa using hl'), List.filter_cons_of_pos (by simpa using hl), List.map_cons, ih]
          rfl
    exact hall ls
  rw [hkept]
  obtain ⟨h1, -⟩ := language_reads hown hdup hn
  constructor
  · rintro ⟨w, hw, e⟩
    exact ⟨w, tokens_of_lexed hD hu hit hlexed (h1 w hw).2 e, hw⟩
  · rintro ⟨w, ht, hw⟩
    exact ⟨w, hw, lexed_of_tokens hD hu hit ht hlexed⟩

end

/-! ### The splitting is unique -/

theorem ahead_asymm {x y : LexItem} (hx : x.type ≠ some .ignore) (hy : y.type ≠ some .ignore) (h : Ahead x y) : ¬ Ahead y x := by
  rintro (h' | ⟨h1, h2⟩ | ⟨h1, t, t', e1, e2, h2⟩)
  · exact hx h'
  · rcases h with h | ⟨h3, h4⟩ | ⟨h3, -⟩
    · exact hy h
    · rw [h1] at h4; exact nomatch h4
    · rw [h2, h1] at h3; exact nomatch h3
  · rcases h with h | ⟨h3, h4⟩ | ⟨h3, u, u', g1, g2, h4⟩
    · exact hy h
    · rw [h4, h3] at h1; exact nomatch h1
    · rw [e1] at g2
      rw [e2] at g1
      rw [← Option.some.inj g1, ← Option.some.inj g2] at h4
      rcases h2 with h2 | ⟨rfl, h2⟩ <;> rcases h4 with h4 | ⟨h5, h4⟩
      · omega
      · rw [h5] at h2; omega
      · omega
      · omega

/-- A text is split into names in at most one way, whichever definitions there are. -/
theorem tokens_unique {D : List Int → String → LexItem → Prop} {input : List Int} {w w' : List String} (h : Tokens D input w) (h' : Tokens D input w') : w = w' := by
  have same : ∀ {c rest c' rest' : List Int}, c ++ rest = c' ++ rest' → (∃ n x, D c n x) → (∃ n x, D c' n x) →
      (∀ w, w <+: c ++ rest → c.length < w.length → ∀ m y, ¬ D w m y) → (∀ w, w <+: c' ++ rest' → c'.length < w.length → ∀ m y, ¬ D w m y) → c = c' ∧ rest = rest' := by
    intro c rest c' rest' e ⟨n, x, hx⟩ ⟨n', x', hx'⟩ h1 h2
    have l : c.length = c'.length := by
      rcases Nat.lt_trichotomy c.length c'.length with hl | hl | hl
      · exact absurd hx' (h1 c' (e ▸ List.prefix_append ..) hl n' x')
      · exact hl
      · exact absurd hx (h2 c (e ▸ List.prefix_append ..) hl n x)
    exact List.append_inj e l
  induction h generalizing w' with
  | nil =>
    generalize he : ([] : List Int) = input at h'
    cases h' with
    | nil => rfl
    | token hc => rw [List.nil_eq, List.append_eq_nil_iff] at he; exact absurd he.1 hc
    | skip hc => rw [List.nil_eq, List.append_eq_nil_iff] at he; exact absurd he.1 hc
  | @token c rest n x ns hc hd ht hb hl hr ih =>
    generalize he : c ++ rest = input at h'
    cases h' with
    | nil => rw [List.append_eq_nil_iff] at he; exact absurd he.1 hc
    | @token c' rest' n' x' ns' hc' hd' ht' hb' hl' hr' =>
      obtain ⟨rfl, rfl⟩ := same he ⟨_, _, hd⟩ ⟨_, _, hd'⟩ hl hl'
      rw [ih hr']
      congr 1
      rcases hb _ _ hd' with h1 | h1
      · exact h1.symm
      · rcases hb' _ _ hd with h2 | h2
        · exact h2
        · exact absurd h2 (ahead_asymm ht ht' h1)
    | @skip c' rest' ns' hc' hd' hi' hl' hr' =>
      obtain ⟨rfl, rfl⟩ := same he ⟨_, _, hd⟩ hd' hl hl'
      exact absurd (hi' _ _ hd) ht
  | @skip c rest ns hc hd hi hl hr ih =>
    generalize he : c ++ rest = input at h'
    cases h' with
    | nil => rw [List.append_eq_nil_iff] at he; exact absurd he.1 hc
    | @token c' rest' n' x' ns' hc' hd' ht' hb' hl' hr' =>
      obtain ⟨rfl, rfl⟩ := same he hd ⟨_, _, hd'⟩ hl hl'
      exact absurd (hi _ _ hd') ht'
    | @skip c' rest' ns' hc' hd' hi' hl' hr' =>
      obtain ⟨rfl, rfl⟩ := same he hd hd' hl hl'
      exact ih hr'


end Text
end TameParse

import Verif.WeakLexer
import Verif.SoundGrammarProps
/-
Which symbol the lexer of a language reports (C60), and what weak symbols fall back to (C61).
-/
namespace TameParse
namespace WeakLexer
open AssocMap Language

/-! ### The most important action -/

/-- The priority of symbols: weak ones first, then keywords before other symbols before ignored ones, then the older ones. -/
def Before : Accept → Accept → Prop
  | .lang s t w, .lang s' t' w' => (w = true ∧ w' = false) ∨ (w = w' ∧ (rank t < rank t' ∨ (t = t' ∧ s < s')))
  | _, _ => False

def IsLang : Accept → Prop
  | .lang .. => True
  | .plain _ => False

theorem rank_inj {t t' : UnitType} (h : rank t = rank t') : t = t' := by cases t <;> cases t' <;> first | rfl | cases h

theorem less_iff {a b : Accept} (ha : IsLang a) (hb : IsLang b) : a.less b = true ↔ Before b a := by
  cases a with
  | plain => exact ha.elim
  | lang s t w =>
    cases b with
    | plain => exact hb.elim
    | lang s' t' w' =>
      unfold Accept.less Before
      dsimp only
      by_cases hw : w' = w
      · subst hw
        rw [if_neg (by simp)]
        by_cases h1 : rank t' < rank t
        · simp [h1]
        · by_cases h2 : rank t' > rank t
          · have : t' ≠ t := by rintro rfl; omega
            simp [h1, h2, this]
          · have : t' = t := rank_inj (by omega)
            subst this
            simp
      · rw [if_pos hw]
        cases w <;> cases w' <;> simp_all

theorem before_trans {a b c : Accept} (h : Before a b) (h' : Before b c) : Before a c := by
  cases a <;> cases b <;> cases c <;> first | exact h.elim | exact h'.elim | skip
  rename_i s t w s' t' w' s'' t'' w''
  unfold Before at h h' ⊢
  rcases h with ⟨h1, h2⟩ | ⟨rfl, h⟩
  · rcases h' with ⟨h3, h4⟩ | ⟨rfl, h'⟩
    · exact Or.inl ⟨h1, h4⟩
    · exact Or.inl ⟨h1, h2⟩
  · rcases h' with h' | ⟨rfl, h'⟩
    · exact Or.inl h'
    · refine Or.inr ⟨rfl, ?_⟩
      rcases h with h | ⟨rfl, h⟩ <;> rcases h' with h' | ⟨rfl, h'⟩
      · exact Or.inl (by omega)
      · exact Or.inl h
      · exact Or.inl h'
      · exact Or.inr ⟨rfl, by omega⟩

theorem before_irrefl (a : Accept) : ¬ Before a a := by
  cases a with
  | plain => exact fun h => h
  | lang s t w =>
    unfold Before
    rintro (⟨h1, h2⟩ | ⟨-, h | ⟨-, h⟩⟩)
    · rw [h1] at h2; cases h2
    · omega
    · omega

theorem before_total {a b : Accept} (ha : IsLang a) (hb : IsLang b) : a = b ∨ Before a b ∨ Before b a := by
  cases a with
  | plain => exact ha.elim
  | lang s t w =>
    cases b with
    | plain => exact hb.elim
    | lang s' t' w' =>
      unfold Before
      rcases Nat.lt_trichotomy (rank t) (rank t') with h | h | h
      · cases w <;> cases w' <;> simp [h]
      · have := rank_inj h
        subst this
        rcases Int.lt_trichotomy s s' with h | h | h
        · cases w <;> cases w' <;> simp [h]
        · subst h
          cases w <;> cases w' <;> simp
        · cases w <;> cases w' <;> simp [h]
      · cases w <;> cases w' <;> simp [h]

theorem highest_fold (l : List Accept) : ∀ h, IsLang h → (∀ a ∈ l, IsLang a) →
    (l.foldl (fun h b => if h.less b then b else h) h = h ∨ l.foldl (fun h b => if h.less b then b else h) h ∈ l) ∧
    ∀ b ∈ h :: l, b = l.foldl (fun h b => if h.less b then b else h) h ∨ Before (l.foldl (fun h b => if h.less b then b else h) h) b := by
  induction l with
  | nil => intro h _ _; exact ⟨Or.inl rfl, fun b hb => Or.inl (List.mem_singleton.1 hb)⟩
  | cons a l ih =>
    intro h hh hl
    have ha := hl a (List.mem_cons_self ..)
    simp only [List.foldl_cons]
    by_cases hla : h.less a = true
    · rw [if_pos hla]
      obtain ⟨h1, h2⟩ := ih a ha (fun b hb => hl b (List.mem_cons_of_mem _ hb))
      refine ⟨Or.inr (by rcases h1 with h1 | h1; exacts [by rw [h1]; simp, List.mem_cons_of_mem _ h1]), ?_⟩
      intro b hb
      rcases List.mem_cons.1 hb with rfl | hb
      · have hba := (less_iff hh ha).1 hla
        right
        rcases h2 a (List.mem_cons_self ..) with e | e
        · rw [← e]; exact hba
        · exact before_trans e hba
      · exact h2 b hb
    · rw [if_neg hla]
      obtain ⟨h1, h2⟩ := ih h hh (fun b hb => hl b (List.mem_cons_of_mem _ hb))
      refine ⟨by rcases h1 with h1 | h1; exacts [Or.inl h1, Or.inr (List.mem_cons_of_mem _ h1)], ?_⟩
      intro b hb
      rcases List.mem_cons.1 hb with rfl | hb
      · exact h2 b (List.mem_cons_self ..)
      · rcases List.mem_cons.1 hb with rfl | hb
        · have hnb : ¬ Before b h := fun hc => hla ((less_iff hh ha).2 hc)
          rcases before_total hh ha with e | e | e
          · rw [← e]; exact h2 h (List.mem_cons_self ..)
          · right
            rcases h2 h (List.mem_cons_self ..) with e' | e'
            · rw [← e']; exact e
            · exact before_trans e' e
          · exact absurd e hnb
        · exact h2 b (List.mem_cons_of_mem _ hb)

/-- **C60**, the actions. Of the actions of a state, the lexer reports the one with the highest priority; it does not depend on their order. -/
theorem accept_priority {l : List Accept} (hne : l ≠ []) (hl : ∀ a ∈ l, IsLang a) :
    ∃ a, highest l = some a ∧ a ∈ l ∧ ∀ b ∈ l, b = a ∨ (Before a b ∧ ¬ Before b a) := by
  cases l with
  | nil => exact absurd rfl hne
  | cons a l =>
    obtain ⟨h1, h2⟩ := highest_fold (a :: l) a (hl a (List.mem_cons_self ..)) hl
    refine ⟨_, rfl, by rcases h1 with h1 | h1; exacts [by rw [h1]; simp, h1], ?_⟩
    intro b hb
    rcases h2 b (List.mem_cons_of_mem _ hb) with e | e
    · exact Or.inl e
    · exact Or.inr ⟨e, fun h => before_irrefl _ (before_trans e h)⟩

/-- `if` as a keyword and as an identifier; a weak keyword wins over both. -/
example : highest [.lang 1 .lexer false, .lang 2 .keywords false] = some (.lang 2 .keywords false) ∧
    highest [.lang 1 .lexer false, .lang 2 .keywords false, .lang 7 .lexer true] = some (.lang 7 .lexer true) := by decide

theorem highest_iff {l : List Accept} (hl : ∀ a ∈ l, IsLang a) {a : Accept} : highest l = some a ↔ a ∈ l ∧ ∀ b ∈ l, b = a ∨ Before a b := by
  constructor
  · intro h
    have hne : l ≠ [] := by rintro rfl; cases h
    obtain ⟨a', h1, h2, h3⟩ := accept_priority hne hl
    rw [h] at h1
    cases h1
    exact ⟨h2, fun b hb => (h3 b hb).imp id And.left⟩
  · rintro ⟨ha, hb⟩
    obtain ⟨a', h1, h2, h3⟩ := accept_priority (List.ne_nil_of_mem ha) hl
    rw [h1]
    congr 1
    rcases hb a' h2 with e | e
    · exact e
    · rcases h3 a ha with e' | e'
      · exact e'.symm
      · exact absurd e e'.2

/-! ### The order of the symbols of a language -/

open Lang

/-- All definitions of symbols. -/
def allItems (s : Lang) : List LexItem := s.defs.flatMap Prod.snd

theorem mem_put {κ ν : Type} [DecidableEq κ] {k : κ} {v : ν} {m : List (κ × ν)} {p : κ × ν} (h : p ∈ put k v m) : p = (k, v) ∨ p ∈ m := by
  induction m with
  | nil => exact Or.inl (List.mem_singleton.1 h)
  | cons q m ih =>
    unfold put at h
    split at h
    · rcases List.mem_cons.1 h with h | h
      · exact Or.inl h
      · exact Or.inr (List.mem_cons_of_mem _ h)
    · rcases List.mem_cons.1 h with h | h
      · exact Or.inr (by rw [h]; exact List.mem_cons_self ..)
      · exact (ih h).imp id (List.mem_cons_of_mem _)

theorem get_mem {κ ν : Type} [DecidableEq κ] {k : κ} {v : ν} {m : List (κ × ν)} (h : get k m = some v) : (k, v) ∈ m := by
  induction m with
  | nil => cases h
  | cons q m ih =>
    obtain ⟨a, b⟩ := q
    simp only [AssocMap.get] at h
    split at h
    · next e => cases h; rw [e]; exact List.mem_cons_self ..
    · exact List.mem_cons_of_mem _ (ih h)

theorem allItems_addDef {s : Lang} {n : String} {i x : LexItem} (h : x ∈ allItems (s.addDef n i)) : x ∈ allItems s ∨ x = i := by
  obtain ⟨p, hp, hx⟩ := List.mem_flatMap.1 h
  rcases mem_put hp with rfl | hp
  · rcases List.mem_append.1 hx with hx | hx
    · left
      cases hg : get n s.defs with
      | none => rw [hg] at hx; cases hx
      | some l =>
        rw [hg] at hx
        exact List.mem_flatMap.2 ⟨(n, l), get_mem hg, hx⟩
    · exact Or.inr (List.mem_singleton.1 hx)
  · exact Or.inl (List.mem_flatMap.2 ⟨p, hp, hx⟩)

/-- The strong definitions of the passes so far are in the order of the passes. -/
structure Ord (s : Lang) (k : Nat) : Prop where
  lt : ∀ x ∈ allItems s, x.symbol < s.terminals.max
  pass : ∀ x ∈ allItems s, x.weak = false → ∃ t, x.type = some t ∧ rank t < k + 1
  mono : ∀ x ∈ allItems s, ∀ y ∈ allItems s, x.weak = false → y.weak = false → ∀ t t', x.type = some t → y.type = some t' → x.symbol < y.symbol → rank t ≤ rank t'

/-- A definition that neither adds to an existing symbol nor replaces one. -/
def PlainLexeme (l : Lexeme) : Prop := l.add = false ∧ l.replace = false

theorem ord_add {s t : Lang} {k : Nat} (h : Ord s k) {i : LexItem} (hm : s.terminals.max < t.terminals.max) (hi : i.symbol = s.terminals.max)
    (hp : ∀ x ∈ allItems t, x ∈ allItems s ∨ x = i) (hk : i.weak = false → i.type.map rank = some k) : Ord t k := by
  refine ⟨?_, ?_, ?_⟩
  · intro x hx
    rcases hp x hx with hx | rfl
    · have := h.lt x hx; omega
    · omega
  · intro x hx hw
    rcases hp x hx with hx | rfl
    · exact h.pass x hx hw
    · obtain ⟨t, h1, h2⟩ := Option.map_eq_some_iff.1 (hk hw)
      exact ⟨t, h1, by omega⟩
  · intro x hx y hy hwx hwy t t' htx hty hlt
    rcases hp x hx with hx | rfl
    · rcases hp y hy with hy | rfl
      · exact h.mono x hx y hy hwx hwy t t' htx hty hlt
      · obtain ⟨u, h1, h2⟩ := h.pass x hx hwx
        have h3 := hk hwy
        rw [htx] at h1
        rw [hty] at h3
        cases h1
        cases h3
        omega
    · rcases hp y hy with hy | rfl
      · have := h.lt y hy; omega
      · omega

theorem ord_lexeme {s : Lang} {type : UnitType} {weak : Bool} {k : Nat} (h : Ord s k) (hk : weak = false → rank type = k) {ci cs : Bool} {l : Lexeme} (hl : PlainLexeme l) :
    Ord (addLexeme type weak ci cs s l) k := by
  unfold addLexeme symbolFor
  simp only [hl.1, hl.2, Bool.not_false, if_true]
  generalize hs : (if s.terminals.symbolForName l.name ≥ 0 then s.error (.duplicateLexer l.name) else s) = u
  have hu : u.terminals = s.terminals ∧ u.defs = s.defs := by
    rw [← hs]; split <;> exact ⟨rfl, rfl⟩
  have hadd : (u.terminals.addNamed l.name).2 = s.terminals.max := by rw [hu.1]; rfl
  have hmax : (u.terminals.addNamed l.name).1.max = s.terminals.max + 1 := by rw [hu.1]; rfl
  generalize u.terminals.addNamed l.name = q at hadd hmax
  obtain ⟨d, i⟩ := q
  dsimp only at hadd hmax ⊢
  split
  · refine ⟨?_, ?_, ?_⟩
    · intro x hx
      have := h.lt x (by simpa [allItems, hu.2] using hx)
      show x.symbol < d.max
      omega
    · intro x hx; exact h.pass x (by simpa [allItems, hu.2] using hx)
    · intro x hx y hy; exact h.mono x (by simpa [allItems, hu.2] using hx) y (by simpa [allItems, hu.2] using hy)
  · refine ord_add h (i := ⟨(lexText l).1, (lexText l).2, ci, cs, i, some type, weak⟩) ?_ hadd ?_ ?_
    · split_ifs <;> simp only [addDef] <;> omega
    · intro x hx
      have hx' : x ∈ allItems (({ u with terminals := d } : Lang).addDef l.name ⟨(lexText l).1, (lexText l).2, ci, cs, i, some type, weak⟩) := by
        revert hx
        split_ifs <;> exact fun h => h
      rcases allItems_addDef hx' with h1 | h1
      · left
        simpa [allItems, hu.2] using h1
      · exact Or.inr h1
    · intro hw
      simp only [Option.map_some, hk hw]

theorem ord_foldl {α : Type} (f : Lang → α → Lang) {k : Nat} (l : List α) (hf : ∀ a ∈ l, ∀ s, Ord s k → Ord (f s a) k) : ∀ s, Ord s k → Ord (l.foldl f s) k := by
  induction l with
  | nil => exact fun _ h => h
  | cons a l ih => exact fun s h => ih (fun b hb => hf b (List.mem_cons_of_mem _ hb)) _ (hf a (List.mem_cons_self ..) s h)

theorem Ord.up {s : Lang} {k k' : Nat} (h : Ord s k) (hk : k ≤ k') : Ord s k' :=
  ⟨h.lt, fun x hx hw => by obtain ⟨t, h1, h2⟩ := h.pass x hx hw; exact ⟨t, h1, by omega⟩, h.mono⟩

/-- A unit with plain definitions only. -/
def PlainUnit {δ : Type} : Block δ → Prop
  | .lexer _ _ _ _ ls => ∀ l ∈ ls, PlainLexeme l
  | .grammar _ => True

theorem ord_lexerUnit {s : Lang} {type : UnitType} {weak : Bool} {k : Nat} (h : Ord s k) (hk : weak = false → rank type = k) {u : Block NtDef} (hu : PlainUnit u) :
    Ord (addLexerUnit weak type s u) k := by
  cases u with
  | grammar => exact h
  | lexer t w ci cs ls =>
    simp only [addLexerUnit]
    split
    · next e =>
      obtain ⟨rfl, rfl⟩ := e
      exact ord_foldl (addLexeme t w ci cs) ls (fun l hl s h => ord_lexeme h hk (hu l hl)) s h
    · exact h

theorem addSymbol_same (ci cs : Bool) (s : Lang) (l : Lexeme) : (addSymbol ci cs s l).terminals = s.terminals ∧ (addSymbol ci cs s l).defs = s.defs := by
  unfold addSymbol
  simp only [addExpr, Lang.error]
  split_ifs <;> exact ⟨rfl, rfl⟩

theorem ord_symbolsUnit {s : Lang} {k : Nat} (h : Ord s k) (u : Block NtDef) : Ord (addSymbolsUnit s u) k := by
  unfold addSymbolsUnit
  split
  · next ci cs ls =>
    refine ord_foldl (addSymbol ci cs) ls (fun l _ s h => ?_) s h
    obtain ⟨h1, h2⟩ := addSymbol_same ci cs s l
    refine ⟨?_, ?_, ?_⟩
    · intro x hx; rw [h1]; exact h.lt x (by simpa [allItems, h2] using hx)
    · intro x hx; exact h.pass x (by simpa [allItems, h2] using hx)
    · intro x hx y hy; exact h.mono x (by simpa [allItems, h2] using hx) y (by simpa [allItems, h2] using hy)
  · exact h

mutual
theorem ord_implicit {k : Nat} : ∀ (x : Ebnf) (s : Lang), Ord s k → Ord (s.implicit x) k
  | .guard x _, s, h | .repeatZero x _, s, h | .repeatOne x _, s, h | .optional x _, s, h => by simp only [implicit]; exact ord_implicit x s h
  | .alternative x y _, s, h => by simp only [implicit]; exact ord_implicit y _ (ord_implicit x s h)
  | .paren xs _, s, h => by simp only [implicit]; exact ord_implicits xs s h
  | .nonterminal _ _ _, s, h => by simp only [implicit]; exact h
  | .terminal kind src n a, s, h => by
    simp only [implicit]
    split
    · exact h
    · split
      · exact h
      · refine ord_add h (i := ⟨decide (kind = .ident), if kind = .ident then n.toList else dequote n.toList, false, false, s.terminals.max, some .keywords, true⟩) ?_ rfl ?_ ?_
        · show s.terminals.max < s.terminals.max + 1
          omega
        · intro x hx
          exact allItems_addDef (s := { s with terminals := (s.terminals.addNamed n).1 }) hx
        · intro hw; cases hw

theorem ord_implicits {k : Nat} : ∀ (xs : List Ebnf) (s : Lang), Ord s k → Ord (s.implicits xs) k
  | [], s, h => by simp only [implicits]; exact h
  | x :: xs, s, h => by simp only [implicits]; exact ord_implicits xs _ (ord_implicit x s h)
end

theorem ord_new : Ord Lang.new 0 :=
  ⟨fun _ h => (nomatch h), fun _ h => (nomatch h), fun _ h => (nomatch h)⟩

theorem ord_addSymbols {us : List (Block NtDef)} (hu : ∀ u ∈ us, PlainUnit u) : Ord (Lang.new.addSymbols us) 4 := by
  have h0 := ord_foldl addSymbolsUnit us (fun u _ s h => ord_symbolsUnit h u) _ ord_new
  have step : ∀ (weak : Bool) (type : UnitType) (k : Nat) (s : Lang), (weak = false → rank type = k) → Ord s k → Ord (us.foldl (addLexerUnit weak type) s) k :=
    fun weak type k s hk h => ord_foldl _ us (fun u hu' s h => ord_lexerUnit h hk (hu u hu')) s h
  unfold Lang.addSymbols passes
  simp only [List.foldl_cons, List.foldl_nil]
  refine ord_foldl _ us ?_ _ ?_
  · intro u _ s h
    cases u with
    | lexer => exact h
    | grammar ds => exact ord_foldl _ ds (fun d _ s h => ord_foldl _ d.prods (fun p _ s h => ord_implicits p s h) s h) s h
  · have h1 := step true .keywords 0 _ (by simp) h0
    have h2 := step true .lexer 0 _ (by simp) h1
    have h3 := step true .ignore 0 _ (by simp) h2
    have h4 := step false .keywords 2 _ (by simp [rank]) (h3.up (by omega))
    have h5 := step false .lexer 3 _ (by simp [rank]) (h4.up (by omega))
    exact step false .ignore 4 _ (by simp [rank]) (h5.up (by omega))

/-! The grammar blocks leave the definitions of symbols alone -/

theorem defs_appendAttr (s : Lang) (r : KeyRule) (a : Attr) : (s.appendAttr r a).1.defs = s.defs := by
  unfold appendAttr setLast
  split
  · rfl
  · cases r.getLast? with
    | none => rfl
    | some p => dsimp only; split <;> rfl

mutual
theorem defs_compileItem : ∀ (x : Ebnf) (s : Lang) (r : KeyRule), (s.compileItem r x).1.defs = s.defs
  | .terminal .., s, r => by simp only [compileItem, defs_appendAttr]
  | .nonterminal .., s, r => by simp only [compileItem, defs_appendAttr]
  | .paren xs _, s, r => by simp only [compileItem]; exact defs_compileItems xs s r
  | .optional x _, s, r | .repeatOne x _, s, r | .repeatZero x _, s, r | .guard x _, s, r => by
    simp only [compileItem, defs_appendAttr, know]; exact defs_compileItem x s []
  | .alternative x y _, s, r => by
    simp only [compileItem, defs_appendAttr, know]; exact (defs_compileItem y _ []).trans (defs_compileItem x s [])

theorem defs_compileItems : ∀ (xs : List Ebnf) (s : Lang) (r : KeyRule), (s.compileItems r xs).1.defs = s.defs
  | [], s, r => by simp only [compileItems]
  | x :: xs, s, r => by simp only [compileItems]; exact (defs_compileItems xs _ _).trans (defs_compileItem x s r)
end

theorem defs_foldl {α : Type} (f : Lang → α → Lang) (hf : ∀ s a, (f s a).defs = s.defs) (l : List α) : ∀ s, (l.foldl f s).defs = s.defs := by
  induction l with
  | nil => exact fun _ => rfl
  | cons a l ih => exact fun s => (ih _).trans (hf s a)

theorem defs_addNt (s : Lang) (d : NtDef) : (s.addNt d).defs = s.defs := by
  unfold Lang.addNt
  generalize s.ids.idForNonterminal d.name = q
  obtain ⟨ids, i⟩ := q
  dsimp only
  rw [defs_foldl (Lang.addProd i) (fun s p => by unfold Lang.addProd; exact defs_compileItems p s [])]
  simp only [Lang.error]
  split_ifs <;> rfl

mutual
theorem defs_useItem : ∀ (x : Item) (s : Lang), (s.useItem x).defs = s.defs
  | .terminal n, s => by simp only [useItem]
  | .ebnf k rs, s => by simp only [useItem]; exact defs_useRules rs s
  | .empty, s | .eoi, s | .eog, s | .nonterminal _, s | .guard _ _, s => by simp only [useItem]

theorem defs_useItems : ∀ (xs : List Item) (s : Lang), (s.useItems xs).defs = s.defs
  | [], s => by simp only [useItems]
  | x :: xs, s => by simp only [useItems]; exact (defs_useItems xs _).trans (defs_useItem x s)

theorem defs_useRules : ∀ (rs : List (List Item)) (s : Lang), (s.useRules rs).defs = s.defs
  | [], s => by simp only [useRules]
  | r :: rs, s => by simp only [useRules]; exact (defs_useRules rs _).trans (defs_useItems r s)
end

theorem defs_compileBlock (s : Lang) (us : List (Block NtDef)) : (s.compileBlock us).defs = (s.addSymbols us).defs := by
  unfold compileBlock checkUndefined useAll
  rw [defs_foldl _ (fun s i => by split; · { split <;> rfl }; · rfl), defs_foldl _ (fun s i => defs_foldl _ (fun s r => defs_useItems (items r) s) _ s),
    defs_foldl _ (fun s u => by cases u with | lexer => rfl | grammar ds => exact defs_foldl _ defs_addNt ds s)]

/-- **C60**, the numbers. In a language that inherits from no other and that only has plain definitions of symbols, the strong symbols are
numbered by their kind: keywords, then other symbols, then ignored ones. -/
theorem symbol_order {us : List (Block NtDef)} (hu : ∀ u ∈ us, PlainUnit u) {x y : LexItem} (hx : x ∈ allItems (Lang.new.compile [us]))
    (hy : y ∈ allItems (Lang.new.compile [us])) (hwx : x.weak = false) (hwy : y.weak = false) {t t' : UnitType} (ht : x.type = some t) (ht' : y.type = some t')
    (h : x.symbol < y.symbol) : rank t ≤ rank t' := by
  have e : allItems (Lang.new.compile [us]) = allItems (Lang.new.addSymbols us) := by
    simp only [allItems, Lang.compile, defs_compileBlock]
  rw [e] at hx hy
  exact (ord_addSymbols hu).mono x hx y hy hwx hwy t t' ht ht' h

end WeakLexer
end TameParse

import Verif.WeakLexerProps
import Verif.LanguageGrammarProps
/-
The symbols that a grammar uses are told apart by its lexer (C62).

`lexer_stage` gives one symbol to all ignored definitions that the grammar does not use (`symbolsOf`). Which ones it uses is found by
`process_rule_symbols`, which looks into EBNF items but not into guards.
-/
namespace TameParse
namespace WeakLexer
open AssocMap Language Lang

/-- A terminal in a sequence of items, inside EBNF items too but not inside guards. -/
inductive Occurs (n : Int) : List Item → Prop
  | here {xs : List Item} : .terminal n ∈ xs → Occurs n xs
  | inside {xs : List Item} {k : EbnfKind} {rs : List (List Item)} {r : List Item} : .ebnf k rs ∈ xs → r ∈ rs → Occurs n r → Occurs n xs

/-! ### The ignored symbols -/

/-- The definitions of ignored symbols are known as such. -/
def Ign (s : Lang) : Prop := ∀ x ∈ allItems s, x.type = some .ignore → x.symbol ∈ s.ignored

theorem ign_foldl {α : Type} (f : Lang → α → Lang) (l : List α) (hf : ∀ a ∈ l, ∀ s, Ign s → Ign (f s a)) : ∀ s, Ign s → Ign (l.foldl f s) := by
  induction l with
  | nil => exact fun _ h => h
  | cons a l ih => exact fun s h => ih (fun b hb => hf b (List.mem_cons_of_mem _ hb)) _ (hf a (List.mem_cons_self ..) s h)

theorem mem_erase {κ ν : Type} [DecidableEq κ] {k : κ} {m : List (κ × ν)} {p : κ × ν} (h : p ∈ Lang.erase k m) : p ∈ m := by
  unfold Lang.erase at h
  exact (List.mem_filter.1 h).1

theorem symbolFor_defs (type : UnitType) (s : Lang) (l : Lexeme) : (∀ x ∈ allItems (symbolFor type s l).1, x ∈ allItems s) ∧ (symbolFor type s l).1.ignored = s.ignored := by
  unfold symbolFor
  dsimp only
  split_ifs <;> refine ⟨?_, rfl⟩ <;> first | exact fun _ h => h | skip
  intro x hx
  obtain ⟨p, hp, hx⟩ := List.mem_flatMap.1 hx
  exact List.mem_flatMap.2 ⟨p, mem_erase hp, hx⟩

theorem ign_lexeme (type : UnitType) (weak ci cs : Bool) {s : Lang} (h : Ign s) (l : Lexeme) : Ign (addLexeme type weak ci cs s l) := by
  unfold addLexeme
  obtain ⟨h1, h2⟩ := symbolFor_defs type s l
  generalize symbolFor type s l = q at h1 h2
  obtain ⟨u, i⟩ := q
  dsimp only at h1 h2 ⊢
  have hu : Ign u := fun x hx hi => by rw [h2]; exact h x (h1 x hx) hi
  split
  · exact hu
  · generalize ht : (if weak = true then _ else _ : Lang) = t
    have hd : t.defs = (u.addDef l.name ⟨(lexText l).1, (lexText l).2, ci, cs, i, some type, weak⟩).defs := by
      rw [← ht]; split_ifs <;> rfl
    have hi : t.ignored = if type = .ignore then u.ignored.insert i else u.ignored := by
      rw [← ht]; split_ifs <;> rfl
    intro x hx hxt
    have hx' : x ∈ allItems (u.addDef l.name ⟨(lexText l).1, (lexText l).2, ci, cs, i, some type, weak⟩) := by
      unfold allItems at hx ⊢; rw [← hd]; exact hx
    rw [hi]
    rcases allItems_addDef hx' with hx' | rfl
    · have := hu x hx' hxt
      split
      · exact List.mem_insert_of_mem this
      · exact this
    · cases hxt
      rw [if_pos rfl]
      exact List.mem_insert_self

theorem addSymbol_ignored (ci cs : Bool) (s : Lang) (l : Lexeme) : (addSymbol ci cs s l).ignored = s.ignored := by
  unfold addSymbol
  simp only [addExpr, Lang.error]
  split_ifs <;> rfl

mutual
theorem ign_implicit : ∀ (x : Ebnf) (s : Lang), Ign s → Ign (s.implicit x)
  | .guard x _, s, h | .repeatZero x _, s, h | .repeatOne x _, s, h | .optional x _, s, h => by simp only [implicit]; exact ign_implicit x s h
  | .alternative x y _, s, h => by simp only [implicit]; exact ign_implicit y _ (ign_implicit x s h)
  | .paren xs _, s, h => by simp only [implicit]; exact ign_implicits xs s h
  | .nonterminal _ _ _, s, h => by simp only [implicit]; exact h
  | .terminal kind src n a, s, h => by
    simp only [implicit]
    split
    · exact h
    · split
      · exact h
      · intro x hx hi
        rcases allItems_addDef (s := { s with terminals := (s.terminals.addNamed n).1 }) hx with hx | rfl
        · exact h x hx hi
        · cases hi

theorem ign_implicits : ∀ (xs : List Ebnf) (s : Lang), Ign s → Ign (s.implicits xs)
  | [], s, h => by simp only [implicits]; exact h
  | x :: xs, s, h => by simp only [implicits]; exact ign_implicits xs _ (ign_implicit x s h)
end

theorem ign_addSymbols {s : Lang} (h : Ign s) (us : List (Block NtDef)) : Ign (s.addSymbols us) := by
  unfold Lang.addSymbols
  refine ign_foldl _ us ?_ _ (ign_foldl _ _ ?_ _ (ign_foldl _ us ?_ _ h))
  · intro u _ s h
    cases u with
    | lexer => exact h
    | grammar ds => exact ign_foldl _ ds (fun d _ s h => ign_foldl _ d.prods (fun p _ s h => ign_implicits p s h) s h) s h
  · intro p _ s h
    refine ign_foldl _ us (fun u _ s h => ?_) s h
    cases u with
    | grammar => exact h
    | lexer t w ci cs ls =>
      simp only [addLexerUnit]
      split
      · exact ign_foldl (addLexeme t w ci cs) ls (fun l _ s h => ign_lexeme t w ci cs h l) s h
      · exact h
  · intro u _ s h
    unfold addSymbolsUnit
    split
    · next ci cs ls h' =>
      clear h'
      refine ign_foldl (addSymbol ci cs) ls (fun l _ s h => ?_) s h
      intro x hx hi
      rw [addSymbol_ignored]
      exact h x (by simpa [allItems, (addSymbol_same ci cs s l).2] using hx) hi
    · exact h

/-! The grammar blocks leave the ignored symbols alone -/

theorem ignored_appendAttr (s : Lang) (r : KeyRule) (a : Attr) : (s.appendAttr r a).1.ignored = s.ignored := by
  unfold appendAttr setLast
  split
  · rfl
  · cases r.getLast? with
    | none => rfl
    | some p => dsimp only; split <;> rfl

mutual
theorem ignored_compileItem : ∀ (x : Ebnf) (s : Lang) (r : KeyRule), (s.compileItem r x).1.ignored = s.ignored
  | .terminal .., s, r => by simp only [compileItem, ignored_appendAttr]
  | .nonterminal .., s, r => by simp only [compileItem, ignored_appendAttr]
  | .paren xs _, s, r => by simp only [compileItem]; exact ignored_compileItems xs s r
  | .optional x _, s, r | .repeatOne x _, s, r | .repeatZero x _, s, r | .guard x _, s, r => by
    simp only [compileItem, ignored_appendAttr, know]; exact ignored_compileItem x s []
  | .alternative x y _, s, r => by
    simp only [compileItem, ignored_appendAttr, know]; exact (ignored_compileItem y _ []).trans (ignored_compileItem x s [])

theorem ignored_compileItems : ∀ (xs : List Ebnf) (s : Lang) (r : KeyRule), (s.compileItems r xs).1.ignored = s.ignored
  | [], s, r => by simp only [compileItems]
  | x :: xs, s, r => by simp only [compileItems]; exact (ignored_compileItems xs _ _).trans (ignored_compileItem x s r)
end

theorem ignored_foldl {α : Type} (f : Lang → α → Lang) (hf : ∀ s a, (f s a).ignored = s.ignored) (l : List α) : ∀ s, (l.foldl f s).ignored = s.ignored := by
  induction l with
  | nil => exact fun _ => rfl
  | cons a l ih => exact fun s => (ih _).trans (hf s a)

theorem ignored_addNt (s : Lang) (d : NtDef) : (s.addNt d).ignored = s.ignored := by
  unfold Lang.addNt
  generalize s.ids.idForNonterminal d.name = q
  obtain ⟨ids, i⟩ := q
  dsimp only
  rw [ignored_foldl (Lang.addProd i) (fun s p => by unfold Lang.addProd; exact ignored_compileItems p s [])]
  simp only [Lang.error]
  split_ifs <;> rfl

/-! ### What `process_rule_symbols` finds -/

/-- What a look at some items keeps and adds. -/
structure Used (s t : Lang) : Prop where
  ignored : t.ignored = s.ignored
  rules : t.rules = s.rules
  ids : t.ids = s.ids
  used : ∀ n ∈ s.usedIgnored, n ∈ t.usedIgnored

theorem Used.refl (s : Lang) : Used s s := ⟨rfl, rfl, rfl, fun _ h => h⟩

theorem Used.trans {s t u : Lang} (h : Used s t) (h' : Used t u) : Used s u :=
  ⟨h'.ignored.trans h.ignored, h'.rules.trans h.rules, h'.ids.trans h.ids, fun n hn => h'.used n (h.used n hn)⟩

mutual
theorem useItem_used : ∀ (x : Item) (s : Lang), Used s (s.useItem x)
  | .terminal n, s => by
    simp only [useItem]
    refine ⟨rfl, rfl, rfl, fun m hm => ?_⟩
    dsimp only
    split
    · exact List.mem_insert_of_mem hm
    · exact hm
  | .ebnf k rs, s => by simp only [useItem]; exact useRules_used rs s
  | .empty, s | .eoi, s | .eog, s | .nonterminal _, s | .guard _ _, s => by simp only [useItem]; exact .refl s

theorem useItems_used : ∀ (xs : List Item) (s : Lang), Used s (s.useItems xs)
  | [], s => by simp only [useItems]; exact .refl s
  | x :: xs, s => by simp only [useItems]; exact (useItem_used x s).trans (useItems_used xs _)

theorem useRules_used : ∀ (rs : List (List Item)) (s : Lang), Used s (s.useRules rs)
  | [], s => by simp only [useRules]; exact .refl s
  | r :: rs, s => by simp only [useRules]; exact (useItems_used r s).trans (useRules_used rs _)
end

theorem used_foldl {α : Type} (f : Lang → α → Lang) (hf : ∀ s a, Used s (f s a)) (l : List α) : ∀ s, Used s (l.foldl f s) := by
  induction l with
  | nil => exact .refl
  | cons a l ih => exact fun s => (hf s a).trans (ih _)

/-- A look at a list finds what a look at each of its elements finds. -/
theorem found_foldl {α : Type} (f : Lang → α → Lang) (hf : ∀ s a, Used s (f s a)) {P : Lang → Prop} (hP : ∀ s t, Used s t → P s → P t) {n : Int} {l : List α} {a : α} (ha : a ∈ l)
    (h : ∀ s, P s → n ∈ (f s a).usedIgnored) : ∀ s, P s → n ∈ (l.foldl f s).usedIgnored := by
  induction l with
  | nil => cases ha
  | cons b l ih =>
    intro s hs
    rw [List.foldl_cons]
    rcases List.mem_cons.1 ha with rfl | ha
    · exact (used_foldl f hf l _).used n (h s hs)
    · exact ih ha _ (hP _ _ (hf s b) hs)

theorem useItems_eq (xs : List Item) : ∀ s : Lang, s.useItems xs = xs.foldl Lang.useItem s := by
  induction xs with
  | nil => intro s; simp only [useItems, List.foldl_nil]
  | cons x xs ih => intro s; simp only [useItems, List.foldl_cons, ih]

theorem useRules_eq (rs : List (List Item)) : ∀ s : Lang, s.useRules rs = rs.foldl Lang.useItems s := by
  induction rs with
  | nil => intro s; simp only [useRules, List.foldl_nil]
  | cons x xs ih => intro s; simp only [useRules, List.foldl_cons, ih]

theorem occurs_used {n : Int} {xs : List Item} (h : Occurs n xs) : ∀ s : Lang, n ∈ s.ignored → n ∈ (s.useItems xs).usedIgnored := by
  induction h with
  | here hm =>
    intro s hs
    rw [useItems_eq]
    refine found_foldl Lang.useItem (fun s x => useItem_used x s) (P := fun s => n ∈ s.ignored) (fun s t h hs => by rw [h.ignored]; exact hs) hm (fun s hs => ?_) s hs
    simp only [useItem]
    rw [if_pos hs]
    exact List.mem_insert_self
  | inside hm hr _ ih =>
    intro s hs
    rw [useItems_eq]
    refine found_foldl Lang.useItem (fun s x => useItem_used x s) (P := fun s => n ∈ s.ignored) (fun s t h hs => by rw [h.ignored]; exact hs) hm (fun s hs => ?_) s hs
    simp only [useItem]
    rw [useRules_eq]
    exact found_foldl Lang.useItems (fun s x => useItems_used x s) (P := fun s => n ∈ s.ignored) (fun s t h hs => by rw [h.ignored]; exact hs) hr ih s hs

theorem useAll_used (s : Lang) : Used s s.useAll :=
  used_foldl _ (fun s i => used_foldl _ (fun s r => useItems_used (items r) s) _ s) _ s

theorem useAll_found {s : Lang} {i : Nat} (hi : i < s.ids.itemIds.length) {r : KeyRule} (hr : r ∈ s.rulesFor i) {n : Int} (ho : Occurs n (items r)) (hn : n ∈ s.ignored) :
    n ∈ s.useAll.usedIgnored := by
  unfold useAll
  refine found_foldl _ (fun s i => used_foldl _ (fun s r => useItems_used (items r) s) _ s) (P := fun t => n ∈ t.ignored ∧ r ∈ t.rulesFor i)
    (fun s t h hs => ⟨by rw [h.ignored]; exact hs.1, by rw [rulesFor_congr h.rules]; exact hs.2⟩) (List.mem_range.2 hi) (fun t ht => ?_) s ⟨hn, hr⟩
  exact found_foldl _ (fun s r => useItems_used (items r) s) (P := fun t => n ∈ t.ignored) (fun s t h hs => by rw [h.ignored]; exact hs) ht.2
    (fun t ht => occurs_used ho t ht) t ht.1

theorem checkUndefined_used (s : Lang) : Used s s.checkUndefined ∧ s.checkUndefined.usedIgnored = s.usedIgnored := by
  unfold checkUndefined
  generalize List.range s.ids.itemIds.length = l
  suffices H : ∀ t : Lang, Used t (l.foldl (fun s i => match s.ids.itemWithIdentifier i with
      | .nonterminal _ => if (s.rulesFor i).isEmpty then s.error (.undefinedNonterminal i) else s
      | _ => s) t) ∧ (l.foldl (fun s i => match s.ids.itemWithIdentifier i with
      | .nonterminal _ => if (s.rulesFor i).isEmpty then s.error (.undefinedNonterminal i) else s
      | _ => s) t).usedIgnored = t.usedIgnored from H s
  induction l with
  | nil => exact fun t => ⟨.refl t, rfl⟩
  | cons i l ih =>
    intro t
    rw [List.foldl_cons]
    have hstep : ∀ u : Lang, u = t ∨ u = t.error (.undefinedNonterminal i) → Used t u ∧ u.usedIgnored = t.usedIgnored := by
      rintro u (rfl | rfl)
      · exact ⟨.refl _, rfl⟩
      · exact ⟨⟨rfl, rfl, rfl, fun _ h => h⟩, rfl⟩
    generalize hu : (match t.ids.itemWithIdentifier i with
      | .nonterminal _ => if (t.rulesFor i).isEmpty then t.error (.undefinedNonterminal i) else t
      | _ => t) = u
    obtain ⟨h1, h2⟩ := hstep u (by
      rw [← hu]
      split
      · split
        · exact Or.inr rfl
        · exact Or.inl rfl
      · exact Or.inl rfl)
    exact ⟨h1.trans (ih u).1, (ih u).2.trans h2⟩

/-- After a block, every ignored symbol that a rule reads is known to be used. -/
theorem compileBlock_used (s : Lang) (us : List (Block NtDef)) {i : Nat} (hi : i < (s.compileBlock us).ids.itemIds.length) {r : KeyRule} (hr : r ∈ (s.compileBlock us).rulesFor i) {n : Int}
    (ho : Occurs n (items r)) (hn : n ∈ (s.compileBlock us).ignored) : n ∈ (s.compileBlock us).usedIgnored := by
  unfold compileBlock at hi hr hn ⊢
  generalize us.foldl addUnit (s.addSymbols us) = t at hi hr hn ⊢
  obtain ⟨h1, h2⟩ := checkUndefined_used t.useAll
  have h3 := useAll_used t
  rw [h2]
  rw [h1.ids, h3.ids] at hi
  rw [rulesFor_congr h1.rules, rulesFor_congr h3.rules] at hr
  rw [h1.ignored, h3.ignored] at hn
  exact useAll_found hi hr ho hn

theorem ign_compileBlock {s : Lang} (h : Ign s) (us : List (Block NtDef)) : Ign (s.compileBlock us) := by
  have h1 := ign_addSymbols h us
  have hig : (s.compileBlock us).ignored = (s.addSymbols us).ignored := by
    unfold compileBlock
    rw [(checkUndefined_used _).1.ignored, (useAll_used _).ignored,
      ignored_foldl _ (fun s u => by cases u with | lexer => rfl | grammar ds => exact ignored_foldl _ ignored_addNt ds s)]
  intro x hx hi
  rw [hig]
  refine h1 x ?_ hi
  unfold allItems at hx ⊢
  rw [← defs_compileBlock]
  exact hx

theorem ign_compile (bs : List (List (Block NtDef))) : ∀ s : Lang, Ign s → Ign (s.compile bs) := by
  induction bs with
  | nil => exact fun _ h => h
  | cons us bs ih => exact fun s h => ih _ (ign_compileBlock h us)

theorem compile_used (bs : List (List (Block NtDef))) : ∀ s : Lang, bs ≠ [] → ∀ {i : Nat}, i < (s.compile bs).ids.itemIds.length → ∀ {r : KeyRule}, r ∈ (s.compile bs).rulesFor i →
    ∀ {n : Int}, Occurs n (items r) → n ∈ (s.compile bs).ignored → n ∈ (s.compile bs).usedIgnored := by
  induction bs with
  | nil => exact fun _ h => absurd rfl h
  | cons us bs ih =>
    intro s _
    cases bs with
    | nil => exact fun hi _ hr _ ho hn => compileBlock_used s us hi hr ho hn
    | cons vs bs => exact ih _ (by simp)

/-! ### The symbols that the lexer reports -/

theorem symbolsOf_spec {used : List Int} : ∀ (l : List LexItem) (first : Option Int) {x : LexItem} {m : Int}, (x, m) ∈ symbolsOf used first l →
    x ∈ l ∧ (m = x.symbol ∧ ¬ (x.type = some .ignore ∧ x.symbol ∉ used) ∨
      (x.type = some .ignore ∧ x.symbol ∉ used) ∧ (first = some m ∨ ∃ y ∈ l, y.type = some .ignore ∧ y.symbol ∉ used ∧ y.symbol = m)) := by
  intro l
  induction l with
  | nil => intro _ x m h; cases h
  | cons y l ih =>
    intro first x m h
    unfold symbolsOf at h
    rcases List.mem_cons.1 h with h | h
    · cases h
      refine ⟨List.mem_cons_self .., ?_⟩
      unfold symbolOf
      by_cases hb : y.type = some .ignore ∧ y.symbol ∉ used
      · rw [if_pos hb]
        right
        refine ⟨hb, ?_⟩
        cases first with
        | none => exact Or.inr ⟨y, List.mem_cons_self .., hb.1, hb.2, rfl⟩
        | some s => exact Or.inl rfl
      · rw [if_neg hb]
        exact Or.inl ⟨rfl, hb⟩
    · obtain ⟨h1, h2⟩ := ih _ h
      refine ⟨List.mem_cons_of_mem _ h1, h2.imp id ?_⟩
      rintro ⟨hb, h3⟩
      refine ⟨hb, ?_⟩
      rcases h3 with h3 | ⟨z, hz, h3⟩
      · unfold symbolOf at h3
        by_cases hy : y.type = some .ignore ∧ y.symbol ∉ used
        · rw [if_pos hy] at h3
          cases first with
          | none =>
            cases h3
            exact Or.inr ⟨y, List.mem_cons_self .., hy.1, hy.2, rfl⟩
          | some s => exact Or.inl h3
        · rw [if_neg hy] at h3
          exact Or.inl h3
      · exact Or.inr ⟨z, List.mem_cons_of_mem _ hz, h3⟩

/-- **C62** (partial). If a rule of the grammar reads a symbol, then the lexer reports it for the definitions of this symbol and for no others, in whatever order
the definitions are put into the lexer. Symbols that only occur in guards are left out. -/
theorem symbols_told_apart_partial {blocks : List (List (Block NtSyntax))} (hown : ∀ d ∈ defsOf blocks, ∀ p ∈ d.prods, ownAll p = true)
    (hd : ∀ n, Err.duplicateLexer n ∉ (stage blocks).errors) {k : Int} {r : List Item} (hr : r ∈ (stage blocks).gram.rules k) {n : Int} (ho : Occurs n r)
    {l : List LexItem} (hl : ∀ x ∈ l, x ∈ allItems (stage blocks)) {x : LexItem} {m : Int} (hx : (x, m) ∈ symbolsOf (stage blocks).usedIgnored none l) :
    m = n ↔ x.symbol = n := by
  have hig : Ign (stage blocks) := ign_compile _ _ (fun _ h => (nomatch h))
  have hus : n ∈ (stage blocks).ignored → n ∈ (stage blocks).usedIgnored := by
    intro hn
    obtain ⟨hg, -⟩ := stage_inv hown hd
    have hr' : r ∈ if 0 ≤ k then ((stage blocks).rulesFor k.toNat).map items else [] := hr
    split at hr'
    · obtain ⟨kr, hkr, rfl⟩ := List.mem_map.1 hr'
      obtain ⟨nm, hnm⟩ := hg.extra _ (List.ne_nil_of_mem hkr)
      refine compile_used _ _ ?_ ?_ hkr ho hn
      · rintro hb
        have : stage blocks = Lang.new := by unfold stage; rw [hb]; rfl
        rw [this] at hkr
        cases hkr
      · exact hg.ids.lt _ _ (hg.ids.names nm _ hnm).1
    · cases hr'
  obtain ⟨h1, h2⟩ := symbolsOf_spec l none hx
  constructor
  · rintro rfl
    rcases h2 with ⟨h2, -⟩ | ⟨hb, h3⟩
    · exact h2.symm
    · rcases h3 with h3 | ⟨y, hy, hyt, hyu, rfl⟩
      · cases h3
      · exact absurd (hus (hig y (hl y hy) hyt)) hyu
  · rintro rfl
    rcases h2 with ⟨h2, -⟩ | ⟨hb, -⟩
    · exact h2
    · exact absurd (hus (hig x (hl x h1) hb.1)) hb.2

namespace IgnoredExample
open Language.Example (t)

/-- `ignore { cr = /\r/ newline = /\n/ tab = /\t/ }`, with the rules `S = x newline*` and `T = [=> newline] x`, or only the second one. -/
def symbols : Block NtSyntax := .lexer .ignore false false false
  [⟨.regex, "cr", "/\\r/".toList, false, false⟩, ⟨.regex, "newline", "/\\n/".toList, false, false⟩, ⟨.regex, "tab", "/\\t/".toList, false, false⟩]

def reads : List (List (Block NtSyntax)) := [[symbols, .grammar [⟨.assignment, "S", [[t "x", .star (t "newline") .blank]]⟩]]]

def guards : List (List (Block NtSyntax)) := [[symbols, .grammar [⟨.assignment, "T", [[.guard false [t "newline"] [] .blank, t "x"]]⟩]]]

/-- In the first language a newline is told from a tab. -/
example (x : LexItem) (m : Int) (hx : (x, m) ∈ symbolsOf (stage reads).usedIgnored none (allItems (stage reads))) : m = 1 ↔ x.symbol = 1 := by
  refine symbols_told_apart_partial (k := 1) (r := [.terminal 3, .ebnf .repeatZero [[.terminal 1]]]) (by decide +kernel) ?_ (by decide +kernel)
    (.inside (r := [.terminal 1]) (List.mem_cons_of_mem _ (List.mem_singleton_self _)) (List.mem_singleton_self _) (.here (List.mem_singleton_self _))) (fun _ h => h) hx
  rw [show (stage reads).errors = [] from by decide +kernel]
  simp

/-- And the lexer reports different symbols for carriage returns and newlines, but the same for carriage returns and tabs. -/
example : (symbolsOf (stage reads).usedIgnored none (allItems (stage reads))).map Prod.snd = [0, 1, 0, 3] := by decide +kernel

/-- **C62**, guards: in the second language a rule asks for a newline, but the lexer reports newlines as carriage returns. The stage does not report an error. -/
theorem guarded_ignored_violated : (stage guards).errors = [] ∧ (stage guards).terminals.symbolForName "newline" = 1 ∧
    (stage guards).gram.rules 1 = [[.guard (-1) [.terminal 1], .terminal 3]] ∧
    (symbolsOf (stage guards).usedIgnored none (allItems (stage guards))).map (fun p => (p.1.symbol, p.2)) = [(0, 0), (1, 0), (2, 0), (3, 3)] := by
  decide +kernel

end IgnoredExample

end WeakLexer
end TameParse

import Verif.IgnoredUseProps
/-
Warnings about symbols that are defined but not used (C71).

`language_stage::report_unused_symbols` (language_stage.cpp 550-566) warns about what is left in `m_UnusedSymbols`.
-/
namespace TameParse
namespace Unused
open AssocMap Language Lang WeakLexer

/-! ### What `process_rule_symbols` removes -/

/-- What a look at some items keeps. -/
structure Less (s t : Lang) : Prop where
  rules : t.rules = s.rules
  ids : t.ids = s.ids
  less : t.unused.Sublist s.unused

theorem Less.refl (s : Lang) : Less s s := ⟨rfl, rfl, .refl _⟩

theorem Less.trans {s t u : Lang} (h : Less s t) (h' : Less t u) : Less s u := ⟨h'.rules.trans h.rules, h'.ids.trans h.ids, h'.less.trans h.less⟩

mutual
theorem useItem_less : ∀ (x : Item) (s : Lang), Less s (s.useItem x)
  | .terminal n, s => by
    simp only [useItem]
    exact ⟨rfl, rfl, List.erase_sublist⟩
  | .ebnf k rs, s => by simp only [useItem]; exact useRules_less rs s
  | .empty, s | .eoi, s | .eog, s | .nonterminal _, s | .guard _ _, s => by simp only [useItem]; exact .refl s

theorem useItems_less : ∀ (xs : List Item) (s : Lang), Less s (s.useItems xs)
  | [], s => by simp only [useItems]; exact .refl s
  | x :: xs, s => by simp only [useItems]; exact (useItem_less x s).trans (useItems_less xs _)

theorem useRules_less : ∀ (rs : List (List Item)) (s : Lang), Less s (s.useRules rs)
  | [], s => by simp only [useRules]; exact .refl s
  | r :: rs, s => by simp only [useRules]; exact (useItems_less r s).trans (useRules_less rs _)
end

theorem less_foldl {α : Type} (f : Lang → α → Lang) (hf : ∀ s a, Less s (f s a)) (l : List α) : ∀ s, Less s (l.foldl f s) := by
  induction l with
  | nil => exact .refl
  | cons a l ih => exact fun s => (hf s a).trans (ih _)

/-- What one step removes stays removed. -/
theorem gone_foldl {α : Type} (f : Lang → α → Lang) (hf : ∀ s a, Less s (f s a)) {P : Lang → Prop} (hP : ∀ s t, Less s t → P s → P t) {n : Int} {l : List α} {a : α} (ha : a ∈ l)
    (h : ∀ s, P s → n ∉ (f s a).unused) : ∀ s, P s → n ∉ (l.foldl f s).unused := by
  induction l with
  | nil => cases ha
  | cons b l ih =>
    intro s hs
    rw [List.foldl_cons]
    rcases List.mem_cons.1 ha with rfl | ha
    · exact fun hn => h s hs ((less_foldl f hf l _).less.subset hn)
    · exact ih ha _ (hP _ _ (hf s b) hs)

theorem less_nodup (s t : Lang) (h : Less s t) (hs : s.unused.Nodup) : t.unused.Nodup := h.less.nodup hs

theorem occurs_gone {n : Int} {xs : List Item} (h : Occurs n xs) : ∀ s : Lang, s.unused.Nodup → n ∉ (s.useItems xs).unused := by
  induction h with
  | here hm =>
    intro s hs
    rw [useItems_eq]
    refine gone_foldl Lang.useItem (fun s x => useItem_less x s) less_nodup hm (fun s hs => ?_) s hs
    simp only [useItem]
    exact hs.not_mem_erase
  | inside hm hr _ ih =>
    intro s hs
    rw [useItems_eq]
    refine gone_foldl Lang.useItem (fun s x => useItem_less x s) less_nodup hm (fun s hs => ?_) s hs
    simp only [useItem]
    rw [useRules_eq]
    exact gone_foldl Lang.useItems (fun s x => useItems_less x s) less_nodup hr ih s hs

theorem useAll_less (s : Lang) : Less s s.useAll :=
  less_foldl _ (fun s i => less_foldl _ (fun s r => useItems_less (items r) s) _ s) _ s

theorem useAll_gone {s : Lang} {i : Nat} (hi : i < s.ids.itemIds.length) {r : KeyRule} (hr : r ∈ s.rulesFor i) {n : Int} (ho : Occurs n (items r)) (hn : s.unused.Nodup) :
    n ∉ s.useAll.unused := by
  unfold useAll
  refine gone_foldl _ (fun s i => less_foldl _ (fun s r => useItems_less (items r) s) _ s) (P := fun t => t.unused.Nodup ∧ r ∈ t.rulesFor i)
    (fun s t h hs => ⟨less_nodup s t h hs.1, by rw [rulesFor_congr h.rules]; exact hs.2⟩) (List.mem_range.2 hi) (fun t ht => ?_) s ⟨hn, hr⟩
  exact gone_foldl _ (fun s r => useItems_less (items r) s) less_nodup ht.2 (fun t ht => occurs_gone ho t ht) t ht.1

/-! ### What it leaves -/

mutual
theorem useItem_left {n : Int} : ∀ (x : Item) (s : Lang), n ∈ s.unused → n ∈ (s.useItem x).unused ∨ Occurs n [x]
  | .terminal m, s, h => by
    by_cases e : n = m
    · exact Or.inr (.here (by simp [e]))
    · simp only [useItem]
      exact Or.inl ((List.mem_erase_of_ne e).2 h)
  | .ebnf k rs, s, h => by
    simp only [useItem]
    rcases useRules_left rs s h with h | ⟨r, hr, ho⟩
    · exact Or.inl h
    · exact Or.inr (.inside (List.mem_singleton_self _) hr ho)
  | .empty, s, h | .eoi, s, h | .eog, s, h | .nonterminal _, s, h | .guard _ _, s, h => by simp only [useItem]; exact Or.inl h

theorem useItems_left {n : Int} : ∀ (xs : List Item) (s : Lang), n ∈ s.unused → n ∈ (s.useItems xs).unused ∨ Occurs n xs
  | [], s, h => by simp only [useItems]; exact Or.inl h
  | x :: xs, s, h => by
    simp only [useItems]
    rcases useItem_left x s h with h | h
    · rcases useItems_left xs _ h with h | h
      · exact Or.inl h
      · cases h with
        | here hm => exact Or.inr (.here (List.mem_cons_of_mem _ hm))
        | inside hm hr ho => exact Or.inr (.inside (List.mem_cons_of_mem _ hm) hr ho)
    · cases h with
      | here hm => exact Or.inr (.here (List.mem_singleton.1 hm ▸ List.mem_cons_self ..))
      | @inside _ k rs r hm hr ho =>
        have hm' : Item.ebnf k rs = x := List.mem_singleton.1 hm
        exact Or.inr (.inside (by rw [hm']; exact List.mem_cons_self ..) hr ho)

theorem useRules_left {n : Int} : ∀ (rs : List (List Item)) (s : Lang), n ∈ s.unused → n ∈ (s.useRules rs).unused ∨ ∃ r ∈ rs, Occurs n r
  | [], s, h => by simp only [useRules]; exact Or.inl h
  | r :: rs, s, h => by
    simp only [useRules]
    rcases useItems_left r s h with h | h
    · rcases useRules_left rs _ h with h | ⟨r', hr, ho⟩
      · exact Or.inl h
      · exact Or.inr ⟨r', List.mem_cons_of_mem _ hr, ho⟩
    · exact Or.inr ⟨r, List.mem_cons_self .., h⟩
end

theorem useAll_left {s : Lang} {n : Int} (h : n ∈ s.unused) : n ∈ s.useAll.unused ∨ ∃ i, ∃ r ∈ s.rulesFor i, Occurs n (items r) := by
  unfold useAll
  generalize List.range s.ids.itemIds.length = l
  suffices H : ∀ t : Lang, t.rules = s.rules → n ∈ t.unused →
      n ∈ (l.foldl (fun s i => (s.rulesFor i).foldl (fun s r => useItems s (items r)) s) t).unused ∨ ∃ i, ∃ r ∈ s.rulesFor i, Occurs n (items r) from H s rfl h
  induction l with
  | nil => exact fun t _ h => Or.inl h
  | cons i l ih =>
    intro t ht hn
    rw [List.foldl_cons]
    have hl := less_foldl (fun s r => useItems s (items r)) (fun s r => useItems_less (items r) s) (t.rulesFor i) t
    have inner : ∀ (rs : List KeyRule) (u : Lang), n ∈ u.unused → n ∈ (rs.foldl (fun s r => useItems s (items r)) u).unused ∨ ∃ r ∈ rs, Occurs n (items r) := by
      intro rs
      induction rs with
      | nil => exact fun u h => Or.inl h
      | cons r rs ih =>
        intro u hu
        rw [List.foldl_cons]
        rcases useItems_left (items r) u hu with h | h
        · rcases ih _ h with h | ⟨r', hr, ho⟩
          · exact Or.inl h
          · exact Or.inr ⟨r', List.mem_cons_of_mem _ hr, ho⟩
        · exact Or.inr ⟨r, List.mem_cons_self .., h⟩
    rcases inner (t.rulesFor i) t hn with h | ⟨r, hr, ho⟩
    · exact ih _ (hl.rules.trans ht) h
    · exact Or.inr ⟨i, r, by rw [← rulesFor_congr ht]; exact hr, ho⟩

theorem checkUndefined_unused (s : Lang) : s.checkUndefined.unused = s.unused := by
  unfold checkUndefined
  generalize List.range s.ids.itemIds.length = l
  induction l generalizing s with
  | nil => rfl
  | cons i l ih =>
    rw [List.foldl_cons, ih]
    split
    · split <;> rfl
    · rfl

/-! ### The grammar blocks leave the list alone -/

theorem unused_appendAttr (s : Lang) (r : KeyRule) (a : Attr) : (s.appendAttr r a).1.unused = s.unused := by
  unfold appendAttr setLast
  split
  · rfl
  · split
    · rfl
    · split <;> rfl

mutual
theorem unused_compileItem : ∀ (x : Ebnf) (s : Lang) (r : KeyRule), (s.compileItem r x).1.unused = s.unused
  | .terminal .., s, r => by simp only [compileItem, unused_appendAttr]
  | .nonterminal .., s, r => by simp only [compileItem, unused_appendAttr]
  | .paren xs _, s, r => by simp only [compileItem]; exact unused_compileItems xs s r
  | .optional x _, s, r | .repeatOne x _, s, r | .repeatZero x _, s, r => by simp only [compileItem, unused_appendAttr, know]; exact unused_compileItem x s []
  | .guard x _, s, r => by simp only [compileItem, unused_appendAttr, know]; exact unused_compileItem x s []
  | .alternative x y _, s, r => by
    simp only [compileItem, unused_appendAttr, know]
    exact (unused_compileItem y _ _).trans (unused_compileItem x s [])

theorem unused_compileItems : ∀ (xs : List Ebnf) (s : Lang) (r : KeyRule), (s.compileItems r xs).1.unused = s.unused
  | [], s, r => by simp only [compileItems]
  | x :: xs, s, r => by simp only [compileItems]; exact (unused_compileItems xs _ _).trans (unused_compileItem x s r)
end

theorem unused_foldl {α : Type} (f : Lang → α → Lang) (hf : ∀ s a, (f s a).unused = s.unused) (l : List α) : ∀ s, (l.foldl f s).unused = s.unused := by
  induction l with
  | nil => exact fun _ => rfl
  | cons a l ih => exact fun s => (ih _).trans (hf s a)

theorem unused_addNt (s : Lang) (d : NtDef) : (s.addNt d).unused = s.unused := by
  unfold Lang.addNt
  generalize s.ids.idForNonterminal d.name = q
  obtain ⟨ids, i⟩ := q
  dsimp only
  rw [unused_foldl _ (fun s p => by unfold addProd; exact unused_compileItems p s [])]
  split_ifs <;> rfl

theorem unused_units (us : List (Block NtDef)) (s : Lang) : (us.foldl addUnit s).unused = s.unused :=
  unused_foldl _ (fun s u => by cases u with | lexer => rfl | grammar ds => exact unused_foldl _ unused_addNt ds s) us s

/-! ### The symbols -/

/-- The list holds nothing twice, and every symbol with a definition that is not ignored is in it, or has `P`. -/
structure Known (P : Int → Prop) (s : Lang) : Prop where
  nodup : s.unused.Nodup
  known : ∀ x ∈ allItems s, x.type ≠ some .ignore → x.symbol ∈ s.unused ∨ P x.symbol

variable {P : Int → Prop}

theorem known_foldl {α : Type} (f : Lang → α → Lang) (l : List α) (hf : ∀ a ∈ l, ∀ s, Known P s → Known P (f s a)) : ∀ s, Known P s → Known P (l.foldl f s) := by
  induction l with
  | nil => exact fun _ h => h
  | cons a l ih => exact fun s h => ih (fun b hb => hf b (List.mem_cons_of_mem _ hb)) _ (hf a (List.mem_cons_self ..) s h)

theorem symbolFor_unused (type : UnitType) (s : Lang) (l : Lexeme) : (symbolFor type s l).1.unused = s.unused := by
  unfold symbolFor
  dsimp only
  split_ifs <;> rfl

theorem known_lexeme (type : UnitType) (weak ci cs : Bool) {s : Lang} (h : Known P s) (l : Lexeme) : Known P (addLexeme type weak ci cs s l) := by
  unfold addLexeme
  obtain ⟨h1, -⟩ := symbolFor_defs type s l
  have h2 := symbolFor_unused type s l
  generalize symbolFor type s l = q at h1 h2
  obtain ⟨u, i⟩ := q
  dsimp only at h1 h2 ⊢
  have hu : Known P u := ⟨by rw [h2]; exact h.nodup, fun x hx hi => by rw [h2]; exact h.known x (h1 x hx) hi⟩
  split
  · exact hu
  · generalize ht : (if weak = true then _ else _ : Lang) = t
    have hd : t.defs = (u.addDef l.name ⟨(lexText l).1, (lexText l).2, ci, cs, i, some type, weak⟩).defs := by
      rw [← ht]; split_ifs <;> rfl
    have hi : t.unused = if type ≠ .ignore then u.unused.insert i else u.unused := by
      rw [← ht]; split_ifs <;> rfl
    constructor
    · rw [hi]
      split
      · exact hu.nodup.insert
      · exact hu.nodup
    intro x hx hxt
    have hx' : x ∈ allItems (u.addDef l.name ⟨(lexText l).1, (lexText l).2, ci, cs, i, some type, weak⟩) := by
      unfold allItems at hx ⊢; rw [← hd]; exact hx
    rw [hi]
    rcases allItems_addDef hx' with hx' | rfl
    · rcases hu.known x hx' hxt with h | h
      · left
        split
        · exact List.mem_insert_of_mem h
        · exact h
      · exact Or.inr h
    · left
      rw [if_pos (fun e => hxt (by rw [e]))]
      exact List.mem_insert_self

mutual
theorem known_implicit : ∀ (x : Ebnf) (s : Lang), Known P s → Known P (s.implicit x)
  | .guard x _, s, h | .repeatZero x _, s, h | .repeatOne x _, s, h | .optional x _, s, h => by simp only [implicit]; exact known_implicit x s h
  | .alternative x y _, s, h => by simp only [implicit]; exact known_implicit y _ (known_implicit x s h)
  | .paren xs _, s, h => by simp only [implicit]; exact known_implicits xs s h
  | .terminal k src n _, s, h => by
    simp only [implicit]
    split
    · exact h
    · split
      · exact h
      · refine ⟨h.nodup.insert, fun x hx hxt => ?_⟩
        rcases allItems_addDef (s := { s with terminals := (s.terminals.addNamed n).1 }) hx with hx | rfl
        · rcases h.known x hx hxt with h | h
          · exact Or.inl (List.mem_insert_of_mem h)
          · exact Or.inr h
        · exact Or.inl List.mem_insert_self
  | .nonterminal .., s, h => by simp only [implicit]; exact h

theorem known_implicits : ∀ (xs : List Ebnf) (s : Lang), Known P s → Known P (s.implicits xs)
  | [], s, h => by simp only [implicits]; exact h
  | x :: xs, s, h => by simp only [implicits]; exact known_implicits xs _ (known_implicit x s h)
end

theorem addSymbol_unused (ci cs : Bool) (s : Lang) (l : Lexeme) : (addSymbol ci cs s l).unused = s.unused := by
  unfold addSymbol
  simp only [addExpr, Lang.error]
  split_ifs <;> rfl

theorem known_addSymbols {s : Lang} (h : Known P s) (us : List (Block NtDef)) : Known P (s.addSymbols us) := by
  unfold Lang.addSymbols
  refine known_foldl _ us ?_ _ (known_foldl _ _ ?_ _ (known_foldl _ us ?_ _ h))
  · intro u _ s h
    cases u with
    | lexer => exact h
    | grammar ds => exact known_foldl _ ds (fun d _ s h => known_foldl _ d.prods (fun p _ s h => known_implicits p s h) s h) s h
  · intro p _ s h
    refine known_foldl _ us (fun u _ s h => ?_) s h
    cases u with
    | grammar => exact h
    | lexer t w ci cs ls =>
      simp only [addLexerUnit]
      split
      · exact known_foldl (addLexeme t w ci cs) ls (fun l _ s h => known_lexeme t w ci cs h l) s h
      · exact h
  · intro u _ s h
    unfold addSymbolsUnit
    split
    · next ci cs ls h' =>
      clear h'
      refine known_foldl (addSymbol ci cs) ls (fun l _ s h => ?_) s h
      refine ⟨by rw [addSymbol_unused]; exact h.nodup, fun x hx hi => ?_⟩
      rw [addSymbol_unused]
      exact h.known x (by simpa [allItems, (addSymbol_same ci cs s l).2] using hx) hi
    · exact h

/-- A terminal of some rule. -/
def Used (s : Lang) (n : Int) : Prop := ∃ k, ∃ r ∈ s.gram.rules k, Occurs n r

theorem used_of {s : Lang} {i : Nat} {r : KeyRule} (hr : r ∈ s.rulesFor i) {n : Int} (ho : Occurs n (items r)) : Used s n := by
  refine ⟨i, items r, ?_, ho⟩
  simp only [gram, Int.natCast_nonneg, if_true, Int.toNat_natCast]
  exact List.mem_map_of_mem hr

theorem known_compileBlock {s : Lang} (h : Known P s) (us : List (Block NtDef)) (hP : ∀ n, Used (s.compileBlock us) n → P n) : Known P (s.compileBlock us) := by
  have h1 := known_addSymbols h us
  have hun := unused_units us (s.addSymbols us)
  have hdefs := defs_compileBlock s us
  unfold compileBlock at hP hdefs ⊢
  generalize us.foldl addUnit (s.addSymbols us) = t at hun hdefs hP ⊢
  have hnd : t.unused.Nodup := by rw [hun]; exact h1.nodup
  refine ⟨by rw [checkUndefined_unused]; exact less_nodup _ _ (useAll_less t) hnd, fun x hx hi => ?_⟩
  rw [checkUndefined_unused]
  have hx' : x ∈ allItems (s.addSymbols us) := by unfold allItems at hx ⊢; rw [← hdefs]; exact hx
  rcases h1.known x hx' hi with h | h
  · rw [← hun] at h
    rcases useAll_left h with h | ⟨i, r, hr, ho⟩
    · exact Or.inl h
    · refine Or.inr (hP _ (used_of (i := i) (r := r) ?_ ho))
      rw [rulesFor_congr (checkUndefined_used _).1.rules, rulesFor_congr (useAll_less t).rules]
      exact hr
  · exact Or.inr h

theorem known_compile (bs : List (List (Block NtDef))) : ∀ s : Lang, Known P s →
    (∀ p, p <+: bs → p ≠ [] → ∀ n, Used (s.compile p) n → P n) → Known P (s.compile bs) := by
  induction bs with
  | nil => exact fun _ h _ => h
  | cons us bs ih =>
    intro s h hP
    refine ih _ (known_compileBlock h us fun n hn => hP [us] ⟨bs, rfl⟩ (by simp) n hn) ?_
    rintro p ⟨q, rfl⟩ hp n hn
    exact hP (us :: p) ⟨q, rfl⟩ (by simp) n hn

/-- **C71** (partial). A symbol that is reported as unused is not read by any rule of the language, except perhaps in guards. -/
theorem unused_symbols_sound_partial {blocks : List (List (Block NtSyntax))} (hown : ∀ d ∈ defsOf blocks, ∀ p ∈ d.prods, ownAll p = true)
    (hd : ∀ n, Err.duplicateLexer n ∉ (stage blocks).errors) {n : Int} (hn : n ∈ (stage blocks).unused) : ¬ Used (stage blocks) n := by
  rintro ⟨k, r, hr, ho⟩
  obtain ⟨hg, -⟩ := stage_inv hown hd
  have hr' : r ∈ if 0 ≤ k then ((stage blocks).rulesFor k.toNat).map items else [] := hr
  split at hr'
  · obtain ⟨kr, hkr, rfl⟩ := List.mem_map.1 hr'
    obtain ⟨nm, hnm⟩ := hg.extra _ (List.ne_nil_of_mem hkr)
    have hlt := hg.ids.lt _ _ (hg.ids.names nm _ hnm).1
    clear hg hr hr' hown hd hnm
    revert hn hkr hlt
    unfold stage
    suffices H : ∀ (bs : List (List (Block NtDef))) (s : Lang), Known (fun _ => True) s → n ∉ s.unused ∨ bs ≠ [] → n ∈ (s.compile bs).unused → kr ∈ (s.compile bs).rulesFor k.toNat →
        k.toNat < (s.compile bs).ids.itemIds.length → False from
      H _ _ ⟨List.nodup_nil, fun _ h => (nomatch h)⟩ (Or.inl List.not_mem_nil)
    intro bs
    induction bs with
    | nil =>
      rintro s - (h | h) hn
      · exact absurd hn h
      · exact absurd rfl h
    | cons us bs ih =>
      intro s hs _
      cases bs with
      | cons vs bs => exact ih _ (known_compileBlock hs us fun _ _ => trivial) (Or.inr (by simp))
      | nil =>
        intro hn hkr hlt
        have h1 := known_addSymbols hs us
        have hun := unused_units us (s.addSymbols us)
        simp only [Lang.compile] at hn hkr hlt
        unfold compileBlock at hn hkr hlt
        generalize us.foldl addUnit (s.addSymbols us) = t at hun hn hkr hlt
        rw [checkUndefined_unused] at hn
        rw [rulesFor_congr (checkUndefined_used _).1.rules, rulesFor_congr (useAll_less t).rules] at hkr
        rw [(checkUndefined_used _).1.ids, (useAll_less t).ids] at hlt
        exact useAll_gone hlt hkr ho (by rw [hun]; exact h1.nodup) hn
  · cases hr'

/-- **C71** (partial). A symbol with a definition that is not ignored is reported as unused, unless a rule of the language or of one that it inherits from reads it. -/
theorem unused_symbols_complete_partial (blocks : List (List (Block NtSyntax))) {x : LexItem} (hx : x ∈ allItems (stage blocks)) (ht : x.type ≠ some .ignore) :
    x.symbol ∈ (stage blocks).unused ∨ ∃ p, p <+: blocks ∧ p ≠ [] ∧ Used (stage p) x.symbol := by
  refine (known_compile (P := fun n => ∃ p, p <+: blocks ∧ p ≠ [] ∧ Used (stage p) n) (blocks.map (List.map unitDef)) Lang.new
    ⟨List.nodup_nil, fun _ h => (List.not_mem_nil h).elim⟩ ?_).known x hx ht
  rintro p ⟨q, hq⟩ hp n hn
  have hpl : p = (blocks.take p.length).map (List.map unitDef) := by
    rw [List.map_take, ← hq, List.take_left]
  refine ⟨blocks.take p.length, List.take_prefix _ _, ?_, ?_⟩
  · intro h
    rw [h] at hpl
    exact hp hpl
  · unfold stage
    rw [← hpl]
    exact hn

namespace UnusedExample
open Language.Example (t)

/-- `keywords { a b c d } ignore { ws }`, `S = a (b)*` and `T = [=> c] a`. -/
def lang : List (List (Block NtSyntax)) := [[.lexer .keywords false false false
    [⟨.literal, "a", [], false, false⟩, ⟨.literal, "b", [], false, false⟩, ⟨.literal, "c", [], false, false⟩, ⟨.literal, "d", [], false, false⟩],
  .lexer .ignore false false false [⟨.regex, "ws", "/ /".toList, false, false⟩],
  .grammar [⟨.assignment, "S", [[t "a", .star (t "b") .blank]]⟩, ⟨.assignment, "T", [[.guard false [t "c"] [] .blank, t "a"]]⟩]]]

/-- Symbol 3 (`d`) is not read by any rule. -/
example : (stage lang).terminals.symbolForName "d" = 3 ∧ ¬ Used (stage lang) 3 :=
  ⟨by decide +kernel, unused_symbols_sound_partial (by decide +kernel) (by rw [show (stage lang).errors = [] from by decide +kernel]; simp) (by decide +kernel)⟩

/-- **C71**, guards: symbol 2 (`c`) is reported as unused, together with `d`, although the rule for `T` asks for it. -/
theorem guarded_unused_violated : (stage lang).errors = [] ∧ (stage lang).terminals.symbolForName "c" = 2 ∧ (stage lang).unused = [3, 2] ∧
    (stage lang).gram.rules 3 = [[.guard (-1) [.terminal 2], .terminal 0]] := by decide +kernel

/-- A language that replaces the only rule with `b`. -/
def inherited : List (List (Block NtSyntax)) := [[.lexer .keywords false false false [⟨.literal, "a", [], false, false⟩, ⟨.literal, "b", [], false, false⟩],
  .grammar [⟨.assignment, "S", [[t "a", t "b"]]⟩]], [.grammar [⟨.replace, "S", [[t "a"]]⟩]]]

/-- **C71**, inheritance: no rule of the language reads `b` any more, but it is not reported. -/
theorem inherited_unused_violated : (stage inherited).errors = [] ∧ (stage inherited).terminals.symbolForName "b" = 1 ∧ (stage inherited).unused = [] ∧
    ¬ Used (stage inherited) 1 := by
  refine ⟨by decide +kernel, by decide +kernel, by decide +kernel, ?_⟩
  have hr : ∀ p ∈ (stage inherited).rules, p.2.map items = [[.terminal 0]] := by decide +kernel
  rintro ⟨k, r, h, ho⟩
  have h : r ∈ if 0 ≤ k then ((stage inherited).rulesFor k.toNat).map items else [] := h
  split at h
  · unfold rulesFor at h
    cases hg : get k.toNat (stage inherited).rules with
    | none => rw [hg] at h; cases h
    | some l =>
      rw [hg, Option.getD_some, hr _ (get_mem hg)] at h
      rw [List.mem_singleton.1 h] at ho
      cases ho with
      | here hm => simp at hm
      | inside hm => simp at hm
  · cases h

end UnusedExample
end Unused
end TameParse

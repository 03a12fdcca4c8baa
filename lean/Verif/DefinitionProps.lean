import Verif.IgnoredUseProps
/-
C74: the lexer definitions that a language ends up with.
-/
namespace TameParse
namespace Definitions
open AssocMap TameParse.Language Lang WeakLexer

/-- The language has this definition under this name. -/
def Entry (s : Lang) (n : String) (x : LexItem) : Prop := ∃ xs, get n s.defs = some xs ∧ x ∈ xs

/-! ### What is written -/

/-- The definition `l` is in a block of this kind (blocks of `lexer-symbols` define expressions and no symbols). -/
structure Written {δ : Type} (us : List (Block δ)) (l : Lexeme) (t : UnitType) (w ci cs : Bool) : Prop where
  block : ∃ ls, .lexer t w ci cs ls ∈ us ∧ l ∈ ls
  kind : t ≠ .symbols

/-- The item of a written definition with the symbol `i`. -/
def itemFor (l : Lexeme) (t : UnitType) (w ci cs : Bool) (i : Int) : LexItem := ⟨(lexText l).1, (lexText l).2, ci, cs, i, some t, w⟩

mutual
/-- The terminals of an item that are not those of another language, with their kinds. -/
def mentioned : Simple → List (TermKind × String)
  | .nonterminal .. => []
  | .terminal k src n _ => if k = .ident ∧ src ≠ "" then [] else [(k, n)]
  | .guard _ f r _ | .paren f r _ => mentionedAll f ++ mentionedAlts r
  | .star x _ | .plus x _ | .question x _ => mentioned x

def mentionedAll : List Simple → List (TermKind × String)
  | [] => []
  | x :: xs => mentioned x ++ mentionedAll xs

def mentionedAlts : List (List Simple) → List (TermKind × String)
  | [] => []
  | xs :: r => mentionedAll xs ++ mentionedAlts r
end

/-- The terminal is in some production. -/
def Mentioned (ds : List NtSyntax) (k : TermKind) (n : String) : Prop := ∃ d ∈ ds, ∃ p ∈ d.prods, (k, n) ∈ mentionedAll p

/-- The item of a terminal that is only mentioned. -/
def itemOfTerm (k : TermKind) (n : String) (i : Int) : LexItem :=
  ⟨decide (k = .ident), if k = .ident then n.toList else dequote n.toList, false, false, i, some .keywords, true⟩

mutual
/-- The same for the items of the definition. -/
def terms : Ebnf → List (TermKind × String)
  | .nonterminal .. => []
  | .terminal k src n _ => if k = .ident ∧ src ≠ "" then [] else [(k, n)]
  | .guard x _ | .repeatZero x _ | .repeatOne x _ | .optional x _ => terms x
  | .alternative x y _ => terms x ++ terms y
  | .paren xs _ => termsAll xs

def termsAll : List Ebnf → List (TermKind × String)
  | [] => []
  | x :: xs => terms x ++ termsAll xs
end

theorem terms_seqOf (xs : List Ebnf) : terms (seqOf xs) = termsAll xs := by
  rw [seqOf_eq]
  match xs with
  | [] => rfl
  | [x] => simp [termsAll]
  | x :: y :: xs => simp [terms]

mutual
theorem terms_simple : ∀ x : Simple, terms (simpleDef x) = mentioned x
  | .nonterminal .. => by simp only [simpleDef, terms, mentioned]
  | .terminal .. => by simp only [simpleDef, terms, mentioned]
  | .star x _ | .plus x _ | .question x _ => by simp only [simpleDef, terms, mentioned, terms_simple x]
  | .guard _ f [] _ => by simp only [simpleDef, altDefs, terms, terms_seqOf, terms_simples f, mentioned, mentionedAlts, List.append_nil]
  | .guard _ f (g :: r) _ => by
    have h := terms_alts (g :: r)
    simp only [simpleDef, mentioned]
    generalize altDefs (g :: r) = o at h
    cases o with
    | none => simp only [terms, terms_seqOf, terms_simples f, ← h, List.append_nil]
    | some y => simp only [terms, terms_seqOf, terms_simples f, ← h]
  | .paren f [] _ => by simp only [simpleDef, altDefs, terms_seqOf, terms_simples f, mentioned, mentionedAlts, List.append_nil]
  | .paren f (g :: r) _ => by
    have h := terms_alts (g :: r)
    simp only [simpleDef, mentioned]
    generalize altDefs (g :: r) = o at h
    cases o with
    | none => simp only [terms_seqOf, terms_simples f, ← h, List.append_nil]
    | some y => simp only [terms, terms_seqOf, terms_simples f, ← h]

theorem terms_alts : ∀ r : List (List Simple), (match altDefs r with | none => [] | some y => terms y) = mentionedAlts r
  | [] => by simp only [altDefs, mentionedAlts]
  | f :: r => by
    have h := terms_alts r
    simp only [altDefs, mentionedAlts]
    generalize altDefs r = o at h
    cases o with
    | none => simp only [terms_seqOf, terms_simples f, ← h, List.append_nil]
    | some y => simp only [terms, terms_seqOf, terms_simples f, ← h]

theorem terms_simples : ∀ xs : List Simple, termsAll (simpleDefs xs) = mentionedAll xs
  | [] => by simp only [simpleDefs, termsAll, mentionedAll]
  | x :: xs => by simp only [simpleDefs, termsAll, mentionedAll, terms_simple x, terms_simples xs]
end

/-! ### One definition -/

theorem entry_addDef (s : Lang) (n : String) (x : LexItem) (m : String) (y : LexItem) : Entry (s.addDef n x) m y ↔ Entry s m y ∨ m = n ∧ y = x := by
  unfold Entry addDef
  dsimp only
  rw [get_put]
  split
  · next e =>
    subst e
    constructor
    · rintro ⟨xs, h1, h2⟩
      cases h1
      rcases List.mem_append.1 h2 with h | h
      · left
        cases hg : get n s.defs with
        | none => rw [hg] at h; cases h
        | some l => rw [hg] at h; exact ⟨l, rfl, h⟩
      · exact Or.inr ⟨rfl, List.mem_singleton.1 h⟩
    · rintro (⟨xs, h1, h2⟩ | ⟨-, rfl⟩)
      · exact ⟨_, rfl, by rw [h1]; exact List.mem_append_left _ h2⟩
      · exact ⟨_, rfl, List.mem_append_right _ (List.mem_singleton_self _)⟩
  · next e =>
    constructor
    · exact Or.inl
    · rintro (h | ⟨rfl, -⟩)
      · exact h
      · exact absurd rfl e

theorem put_keys {κ ν : Type} [DecidableEq κ] (k : κ) (v : ν) (l : List (κ × ν)) (h : (l.map Prod.fst).Nodup) : ((put k v l).map Prod.fst).Nodup := by
  cases hg : get k l with
  | none => exact Lalr.keys_put_new hg h
  | some o => rw [Lalr.keys_put hg]; exact h

/-- One more definition for a name that is new, or that has this type already. -/
structure Adds (n : String) (x : LexItem) (ty : UnitType) (s t : Lang) : Prop where
  entry : ∀ m y, Entry t m y ↔ Entry s m y ∨ m = n ∧ y = x
  keys : (s.defs.map Prod.fst).Nodup → (t.defs.map Prod.fst).Nodup
  type : x.type = some ty
  typeFor : t.typeFor = put x.symbol ty s.typeFor
  ignored : ∀ i, i ∈ t.ignored ↔ i ∈ s.ignored ∨ i = x.symbol ∧ ty = .ignore
  weak : ∀ i, i ∈ t.weak ↔ i ∈ s.weak ∨ i = x.symbol ∧ x.weak = true
  name : get n t.terminals.symbolOf = some x.symbol
  others : ∀ m, m ≠ n → get m t.terminals.symbolOf = get m s.terminals.symbolOf
  inv : TInv t.terminals
  old : get n s.terminals.symbolOf = none ∧ x.symbol = s.terminals.max ∨ get n s.terminals.symbolOf = some x.symbol ∧ get x.symbol s.typeFor = some ty

/-- What holds of the definitions. -/
structure DInv (P : String → LexItem → Prop) (s : Lang) : Prop where
  inv : TInv s.terminals
  keys : (s.defs.map Prod.fst).Nodup
  name : ∀ n x, Entry s n x → get n s.terminals.symbolOf = some x.symbol
  type : ∀ n x, Entry s n x → x.type ≠ none ∧ x.type = get x.symbol s.typeFor
  ignored : ∀ i, i ∈ s.ignored ↔ ∃ n x, Entry s n x ∧ x.symbol = i ∧ x.type = some .ignore
  weak : ∀ i, i ∈ s.weak ↔ ∃ n x, Entry s n x ∧ x.symbol = i ∧ x.weak = true
  known : ∀ n i, get n s.terminals.symbolOf = some i → ∃ x, Entry s n x
  sound : ∀ n x, Entry s n x → P n x

variable {P : String → LexItem → Prop}

theorem DInv.adds {s t : Lang} (h : DInv P s) {n : String} {x : LexItem} {ty : UnitType} (ha : Adds n x ty s t) (hp : P n x) : DInv P t := by
  have hsym : ∀ m y, Entry s m y → y.symbol = x.symbol → get x.symbol s.typeFor = some ty := by
    intro m y hy he
    rcases ha.old with ⟨-, h2⟩ | ⟨-, h2⟩
    · have := (h.inv.lt _ _ (h.name m y hy)).2
      omega
    · exact h2
  refine ⟨ha.inv, ha.keys h.keys, ?_, ?_, ?_, ?_, ?_, ?_⟩
  · intro m y hy
    rcases (ha.entry m y).1 hy with hy | ⟨rfl, rfl⟩
    · have e := h.name m y hy
      by_cases hm : m = n
      · subst hm
        rcases ha.old with ⟨h1, -⟩ | ⟨h1, -⟩
        · rw [h1] at e; cases e
        · rw [ha.name, ← h1, e]
      · rw [ha.others m hm]; exact e
    · exact ha.name
  · intro m y hy
    rw [ha.typeFor, get_put]
    rcases (ha.entry m y).1 hy with hy | ⟨rfl, rfl⟩
    · obtain ⟨h1, h2⟩ := h.type m y hy
      refine ⟨h1, ?_⟩
      split
      · next e => rw [h2, ← e, hsym m y hy e.symm]
      · exact h2
    · rw [if_pos rfl, ha.type]
      exact ⟨Option.some_ne_none _, rfl⟩
  · intro i
    rw [ha.ignored]
    constructor
    · rintro (hi | ⟨rfl, hi⟩)
      · obtain ⟨m, y, h1, h2⟩ := (h.ignored i).1 hi
        exact ⟨m, y, (ha.entry m y).2 (Or.inl h1), h2⟩
      · exact ⟨n, x, (ha.entry n x).2 (Or.inr ⟨rfl, rfl⟩), rfl, by rw [ha.type, hi]⟩
    · rintro ⟨m, y, h1, h2, h3⟩
      rcases (ha.entry m y).1 h1 with h1 | ⟨rfl, rfl⟩
      · exact Or.inl ((h.ignored i).2 ⟨m, y, h1, h2, h3⟩)
      · rw [ha.type] at h3
        exact Or.inr ⟨h2.symm, Option.some.inj h3⟩
  · intro i
    rw [ha.weak]
    constructor
    · rintro (hi | ⟨rfl, hi⟩)
      · obtain ⟨m, y, h1, h2⟩ := (h.weak i).1 hi
        exact ⟨m, y, (ha.entry m y).2 (Or.inl h1), h2⟩
      · exact ⟨n, x, (ha.entry n x).2 (Or.inr ⟨rfl, rfl⟩), rfl, hi⟩
    · rintro ⟨m, y, h1, h2, h3⟩
      rcases (ha.entry m y).1 h1 with h1 | ⟨rfl, rfl⟩
      · exact Or.inl ((h.weak i).2 ⟨m, y, h1, h2, h3⟩)
      · exact Or.inr ⟨h2.symm, h3⟩
  · intro m i hm
    by_cases e : m = n
    · subst e
      exact ⟨x, (ha.entry m x).2 (Or.inr ⟨rfl, rfl⟩)⟩
    · rw [ha.others m e] at hm
      obtain ⟨y, hy⟩ := h.known m i hm
      exact ⟨y, (ha.entry m y).2 (Or.inl hy)⟩
  · intro m y hy
    rcases (ha.entry m y).1 hy with hy | ⟨rfl, rfl⟩
    · exact h.sound m y hy
    · exact hp

/-- A definition of a lexer block that is not a replacement, if it causes no error. -/
theorem adds_lexeme (type : UnitType) (weak ci cs : Bool) {s : Lang} (hi : TInv s.terminals) {l : Lexeme} (hr : l.replace = false)
    (he : (addLexeme type weak ci cs s l).errors = []) :
    ∃ i, Adds l.name (itemFor l type weak ci cs i) type s (addLexeme type weak ci cs s l) ∧ (l.add = false → get l.name s.terminals.symbolOf = none) := by
  have fields : ∀ (u : Lang) (i : Int), u.defs = s.defs → u.ignored = s.ignored → u.weak = s.weak → u.typeFor = s.typeFor → TInv u.terminals →
      get l.name u.terminals.symbolOf = some i → (∀ m, m ≠ l.name → get m u.terminals.symbolOf = get m s.terminals.symbolOf) →
      (get l.name s.terminals.symbolOf = none ∧ i = s.terminals.max ∨ get l.name s.terminals.symbolOf = some i ∧ get i s.typeFor = some type) →
      ∀ t : Lang, t = (let u := { u with typeFor := put i type u.typeFor }
        let u := if type ≠ .ignore then { u with unused := u.unused.insert i } else u
        let u := u.addDef l.name ⟨(lexText l).1, (lexText l).2, ci, cs, i, some type, weak⟩
        let u := if type = .ignore then { u with ignored := u.ignored.insert i } else u
        if weak then { u with weak := u.weak.insert i } else u) → Adds l.name (itemFor l type weak ci cs i) type s t := by
    intro u i h1 h2 h3 h4 h5 h6 h7 h8 t ht
    have hd : t.defs = (s.addDef l.name (itemFor l type weak ci cs i)).defs := by
      rw [ht]
      simp only [addDef, itemFor]
      split_ifs <;> (dsimp only; rw [h1])
    have hterm : t.terminals = u.terminals := by
      rw [ht]
      simp only [addDef]
      split_ifs <;> rfl
    refine ⟨?_, ?_, rfl, ?_, ?_, ?_, ?_, ?_, ?_, h8⟩
    · intro m y
      rw [← entry_addDef]
      unfold Entry
      rw [hd]
    · intro hk
      rw [hd]
      exact put_keys _ _ _ hk
    · rw [ht]
      simp only [addDef, itemFor]
      split_ifs <;> (dsimp only; rw [h4])
    · intro j
      rw [ht]
      simp only [addDef, itemFor]
      split_ifs <;> simp_all [List.mem_insert_iff, or_comm]
    · intro j
      rw [ht]
      simp only [addDef, itemFor]
      split_ifs <;> simp_all [List.mem_insert_iff, or_comm]
    · rw [hterm]; exact h6
    · rw [hterm]; exact h7
    · rw [hterm]; exact h5
  unfold addLexeme symbolFor at he ⊢
  dsimp only at he ⊢
  cases hadd : l.add with
  | false =>
    simp only [hadd, hr, Bool.not_false, if_true] at he ⊢
    obtain ⟨t1, t2, t3, t4⟩ := hi.addNamed l.name
    by_cases hold : s.terminals.symbolForName l.name ≥ 0
    · exfalso
      rw [if_pos hold] at he
      simp only [addDef, Lang.error] at he
      split_ifs at he <;> simp at he
    · rw [if_neg hold]
      have hneg : ¬ (s.terminals.addNamed l.name).2 < 0 := by rw [t3]; have := hi.pos; omega
      rw [if_neg hneg]
      have hnone : get l.name s.terminals.symbolOf = none := by
        by_contra h
        exact hold ((known_of_symbol hi l.name).2 h)
      exact ⟨_, fields { s with terminals := (s.terminals.addNamed l.name).1 } _ rfl rfl rfl rfl t1 t2 t4 (Or.inl ⟨hnone, t3⟩) _ rfl, fun _ => hnone⟩
  | true =>
    simp only [hadd, Bool.not_true, Bool.false_eq_true, if_false] at he ⊢
    by_cases hold : s.terminals.symbolForName l.name < 0
    · exfalso
      simp [if_pos hold, Lang.error] at he
    · rw [if_neg hold] at he ⊢
      by_cases hty : get (s.terminals.symbolForName l.name) s.typeFor ≠ some type
      · exfalso
        rw [if_pos hty] at he
        simp only [addDef, Lang.error, if_neg hold] at he
        split_ifs at he <;> simp at he
      · rw [if_neg hty] at he ⊢
        dsimp only at he ⊢
        rw [if_neg hold]
        have hk := (known_of_symbol hi l.name).1 (not_lt.1 hold)
        obtain ⟨j, hj⟩ := Option.ne_none_iff_exists'.1 hk
        have hsy : s.terminals.symbolForName l.name = j := by simp [TerminalDict.symbolForName, hj]
        exact ⟨_, fields s _ rfl rfl rfl rfl hi (by rw [hsy]; exact hj) (fun _ _ => rfl) (Or.inr ⟨by rw [hsy]; exact hj, not_not.1 hty⟩) _ rfl, fun h => nomatch h⟩

/-- A terminal of a production is skipped, is known, or gets a definition. -/
theorem implicit_terminal {s : Lang} (hi : TInv s.terminals) (k : TermKind) (src n : String) (a : Attr) :
    s.implicit (.terminal k src n a) = s ∧ ((k, n) ∈ terms (.terminal k src n a) → ∃ i, get n s.terminals.symbolOf = some i) ∨
    (k, n) ∈ terms (.terminal k src n a) ∧ get n s.terminals.symbolOf = none ∧ ∃ i, Adds n (itemOfTerm k n i) .keywords s (s.implicit (.terminal k src n a)) := by
  simp only [implicit, terms]
  by_cases h1 : k = .ident ∧ src ≠ ""
  · rw [if_pos h1, if_pos h1]
    exact Or.inl ⟨rfl, fun h => nomatch h⟩
  · rw [if_neg h1, if_neg h1]
    by_cases h2 : s.terminals.symbolForName n ≥ 0
    · rw [if_pos h2]
      exact Or.inl ⟨rfl, fun _ => Option.ne_none_iff_exists'.1 ((known_of_symbol hi n).1 h2)⟩
    · rw [if_neg h2]
      obtain ⟨t1, t2, t3, t4⟩ := hi.addNamed n
      have hnone : get n s.terminals.symbolOf = none := by
        by_contra h
        exact h2 ((known_of_symbol hi n).2 h)
      refine Or.inr ⟨List.mem_singleton_self _, hnone, (s.terminals.addNamed n).2, ?_, put_keys _ _ _, rfl, rfl, ?_, ?_, t2, t4, t1, Or.inl ⟨hnone, t3⟩⟩
      · exact fun m y => entry_addDef s n (itemOfTerm k n (s.terminals.addNamed n).2) m y
      · intro i
        simp [addDef]
      · intro i
        simp [addDef, itemOfTerm, List.mem_insert_iff, or_comm]

/-! ### What the rest of the stage leaves alone -/

/-- The symbols and their definitions are the same; errors may have been added. -/
structure Keeps (s t : Lang) : Prop where
  terminals : t.terminals = s.terminals
  defs : t.defs = s.defs
  typeFor : t.typeFor = s.typeFor
  ignored : t.ignored = s.ignored
  weak : t.weak = s.weak
  errors : s.errors ≠ [] → t.errors ≠ []

theorem Keeps.refl (s : Lang) : Keeps s s := ⟨rfl, rfl, rfl, rfl, rfl, id⟩

theorem Keeps.trans {s t u : Lang} (h : Keeps s t) (h' : Keeps t u) : Keeps s u :=
  ⟨h'.terminals.trans h.terminals, h'.defs.trans h.defs, h'.typeFor.trans h.typeFor, h'.ignored.trans h.ignored, h'.weak.trans h.weak, fun e => h'.errors (h.errors e)⟩

theorem keeps_foldl {α : Type} (f : Lang → α → Lang) (hf : ∀ s a, Keeps s (f s a)) (l : List α) : ∀ s, Keeps s (l.foldl f s) := by
  induction l with
  | nil => exact fun s => .refl s
  | cons a l ih => exact fun s => (hf s a).trans (ih _)

theorem keeps_error (s : Lang) (e : Err) : Keeps s (s.error e) := ⟨rfl, rfl, rfl, rfl, rfl, fun _ => by simp [Lang.error]⟩

theorem keeps_appendAttr (s : Lang) (r : KeyRule) (a : Attr) : Keeps s (s.appendAttr r a).1 := by
  unfold appendAttr setLast
  split
  · exact .refl s
  · cases r.getLast? with
    | none => exact .refl s
    | some p => dsimp only; split <;> exact ⟨rfl, rfl, rfl, rfl, rfl, id⟩

theorem keeps_know (s : Lang) (x : Item) : Keeps s (s.know x) := ⟨rfl, rfl, rfl, rfl, rfl, id⟩

mutual
theorem keeps_compileItem : ∀ (x : Ebnf) (s : Lang) (r : KeyRule), Keeps s (s.compileItem r x).1
  | .terminal .., s, r => by simp only [compileItem]; exact keeps_appendAttr ..
  | .nonterminal .., s, r => by simp only [compileItem]; refine Keeps.trans ?_ (keeps_appendAttr ..); exact ⟨rfl, rfl, rfl, rfl, rfl, id⟩
  | .paren xs _, s, r => by simp only [compileItem]; exact keeps_compileItems xs s r
  | .optional x _, s, r | .repeatOne x _, s, r | .repeatZero x _, s, r => by
    simp only [compileItem]; exact (keeps_compileItem x s []).trans ((keeps_know _ _).trans (keeps_appendAttr ..))
  | .guard x _, s, r => by
    simp only [compileItem]
    exact (keeps_compileItem x s []).trans ((keeps_appendAttr ..).trans ⟨rfl, rfl, rfl, rfl, rfl, id⟩)
  | .alternative x y _, s, r => by
    simp only [compileItem]
    exact (keeps_compileItem x s []).trans ((keeps_compileItem y _ []).trans ((keeps_know _ _).trans (keeps_appendAttr ..)))

theorem keeps_compileItems : ∀ (xs : List Ebnf) (s : Lang) (r : KeyRule), Keeps s (s.compileItems r xs).1
  | [], s, r => by simp only [compileItems]; exact .refl s
  | x :: xs, s, r => by simp only [compileItems]; exact (keeps_compileItem x s r).trans (keeps_compileItems xs _ _)
end

theorem keeps_addNt (s : Lang) (d : NtDef) : Keeps s (s.addNt d) := by
  unfold Lang.addNt
  generalize s.ids.idForNonterminal d.name = q
  obtain ⟨ids, i⟩ := q
  dsimp only
  refine Keeps.trans ?_ (keeps_foldl (Lang.addProd i) (fun s p => ?_) _ _)
  · refine ⟨?_, ?_, ?_, ?_, ?_, ?_⟩ <;> (simp only [Lang.error]; split_ifs <;> simp)
  · unfold Lang.addProd
    exact (keeps_compileItems p s []).trans ⟨rfl, rfl, rfl, rfl, rfl, id⟩

mutual
theorem keeps_useItem : ∀ (x : Item) (s : Lang), Keeps s (s.useItem x)
  | .terminal n, s => by simp only [useItem]; exact ⟨rfl, rfl, rfl, rfl, rfl, id⟩
  | .ebnf k rs, s => by simp only [useItem]; exact keeps_useRules rs s
  | .empty, s | .eoi, s | .eog, s | .nonterminal _, s | .guard _ _, s => by simp only [useItem]; exact .refl s

theorem keeps_useItems : ∀ (xs : List Item) (s : Lang), Keeps s (s.useItems xs)
  | [], s => by simp only [useItems]; exact .refl s
  | x :: xs, s => by simp only [useItems]; exact (keeps_useItem x s).trans (keeps_useItems xs _)

theorem keeps_useRules : ∀ (rs : List (List Item)) (s : Lang), Keeps s (s.useRules rs)
  | [], s => by simp only [useRules]; exact .refl s
  | r :: rs, s => by simp only [useRules]; exact (keeps_useItems r s).trans (keeps_useRules rs _)
end

theorem keeps_compileBlock (s : Lang) (us : List (Block NtDef)) : Keeps (s.addSymbols us) (s.compileBlock us) := by
  unfold compileBlock checkUndefined useAll
  refine Keeps.trans (keeps_foldl _ (fun s u => ?_) us _) (Keeps.trans (keeps_foldl _ (fun s i => keeps_foldl _ (fun s r => keeps_useItems (items r) s) _ s) _ _) (keeps_foldl _ (fun s i => ?_) _ _))
  · cases u with
    | lexer => exact .refl s
    | grammar ds => exact keeps_foldl _ keeps_addNt ds s
  · split
    · split
      · exact keeps_error ..
      · exact .refl s
    · exact .refl s

theorem keeps_addSymbol (ci cs : Bool) (s : Lang) (l : Lexeme) : Keeps s (addSymbol ci cs s l) := by
  unfold addSymbol
  refine ⟨?_, ?_, ?_, ?_, ?_, ?_⟩ <;> (simp only [addExpr, Lang.error]; split_ifs <;> simp)

theorem DInv.keeps {s t : Lang} (h : DInv P s) (hk : Keeps s t) : DInv P t := by
  have he : ∀ n x, Entry t n x ↔ Entry s n x := by
    intro n x
    unfold Entry
    rw [hk.defs]
  constructor
  · rw [hk.terminals]; exact h.inv
  · rw [hk.defs]; exact h.keys
  · rw [hk.terminals]; exact fun n x hx => h.name n x ((he n x).1 hx)
  · rw [hk.typeFor]; exact fun n x hx => h.type n x ((he n x).1 hx)
  · rw [hk.ignored]; simp only [he]; exact h.ignored
  · rw [hk.weak]; simp only [he]; exact h.weak
  · rw [hk.terminals]; simp only [he]; exact h.known
  · exact fun n x hx => h.sound n x ((he n x).1 hx)

/-! ### All definitions -/

section
variable {WL : Lexeme → UnitType → Bool → Bool → Bool → Prop} {WT : TermKind → String → Prop}

/-- Something about the definitions that further ones do not change. -/
structure Stable (P : String → LexItem → Prop) (WL : Lexeme → UnitType → Bool → Bool → Bool → Prop) (R : Lang → Prop) : Prop where
  lexeme : ∀ s t l ty w ci cs i, DInv P s → WL l ty w ci cs → Adds l.name (itemFor l ty w ci cs i) ty s t → R s → R t
  term : ∀ s t k n i, DInv P s → get n s.terminals.symbolOf = none → Adds n (itemOfTerm k n i) .keywords s t → R s → R t
  keeps : ∀ s t, Keeps s t → R s → R t

theorem stable_true : Stable P WL (fun _ => True) := ⟨fun _ _ _ _ _ _ _ _ _ _ _ _ => trivial, fun _ _ _ _ _ _ _ _ _ => trivial, fun _ _ _ _ => trivial⟩

/-- There was an error, or this holds. -/
def Holds (P : String → LexItem → Prop) (R : Lang → Prop) (s : Lang) : Prop := s.errors ≠ [] ∨ DInv P s ∧ R s

theorem holds_foldl {α : Type} {I : Lang → Prop} (f : Lang → α → Lang) (l : List α) (hf : ∀ a ∈ l, ∀ s, I s → I (f s a)) : ∀ s, I s → I (l.foldl f s) := by
  induction l with
  | nil => exact fun _ h => h
  | cons a l ih => exact fun s h => ih (fun b hb => hf b (List.mem_cons_of_mem _ hb)) _ (hf a (List.mem_cons_self ..) s h)

theorem reached_foldl {α : Type} {I J : Lang → Prop} (f : Lang → α → Lang) {l : List α} {a : α} (ha : a ∈ l) (hI : ∀ a ∈ l, ∀ s, I s → I (f s a))
    (hJ : ∀ a ∈ l, ∀ s, J s → J (f s a)) (h : ∀ s, I s → J (f s a)) : ∀ s, I s → J (l.foldl f s) := by
  obtain ⟨l1, l2, rfl⟩ := List.append_of_mem ha
  intro s hs
  rw [List.foldl_append, List.foldl_cons]
  exact holds_foldl f l2 (fun b hb => hJ b (by simp [hb])) _ (h _ (holds_foldl f l1 (fun b hb => hI b (by simp [hb])) s hs))

theorem grows_errors {s t : Lang} (h : SGrow s t) (he : s.errors ≠ []) : t.errors ≠ [] := by
  obtain ⟨e, h1⟩ := List.exists_mem_of_ne_nil _ he
  exact List.ne_nil_of_mem (h.errors e h1)

variable {R : Lang → Prop} (hs : Stable P WL R)
include hs

theorem holds_keeps {s t : Lang} (hk : Keeps s t) (h : Holds P R s) : Holds P R t := by
  rcases h with h | ⟨h1, h2⟩
  · exact Or.inl (hk.errors h)
  · exact Or.inr ⟨h1.keeps hk, hs.keeps _ _ hk h2⟩

theorem holds_lexeme {l : Lexeme} {t : UnitType} {w ci cs : Bool} (hw : WL l t w ci cs) (hr : l.replace = false) (hp : ∀ i, P l.name (itemFor l t w ci cs i)) (s : Lang)
    (h : Holds P R s) : Holds P R (addLexeme t w ci cs s l) := by
  by_cases he : (addLexeme t w ci cs s l).errors = []
  · rcases h with h | ⟨h1, h2⟩
    · exact absurd he (grows_errors (sgrow_addLexeme t w ci cs s l) h)
    · obtain ⟨i, ha, -⟩ := adds_lexeme t w ci cs h1.inv hr he
      exact Or.inr ⟨h1.adds ha (hp i), hs.lexeme _ _ _ _ _ _ _ _ h1 hw ha h2⟩
  · exact Or.inl he

mutual
theorem holds_implicit : ∀ (x : Ebnf) (_ : ∀ p ∈ terms x, ∀ i, P p.2 (itemOfTerm p.1 p.2 i)) (s : Lang), Holds P R s → Holds P R (s.implicit x)
  | .guard x _, hx, s, h | .repeatZero x _, hx, s, h | .repeatOne x _, hx, s, h | .optional x _, hx, s, h => by
    simp only [implicit]; simp only [terms] at hx; exact holds_implicit x hx s h
  | .alternative x y _, hx, s, h => by
    simp only [implicit]; simp only [terms] at hx
    exact holds_implicit y (fun p hp => hx p (List.mem_append_right _ hp)) _ (holds_implicit x (fun p hp => hx p (List.mem_append_left _ hp)) s h)
  | .paren xs _, hx, s, h => by simp only [implicit]; simp only [terms] at hx; exact holds_implicits xs hx s h
  | .terminal k src n a, hx, s, h => by
    rcases h with h | ⟨h1, h2⟩
    · exact Or.inl (grows_errors (sgrow_implicit _ s) h)
    · rcases implicit_terminal h1.inv k src n a with ⟨e, -⟩ | ⟨hm, hn, i, ha⟩
      · rw [e]; exact Or.inr ⟨h1, h2⟩
      · exact Or.inr ⟨h1.adds ha (hx _ hm i), hs.term _ _ _ _ _ h1 hn ha h2⟩
  | .nonterminal .., _, s, h => by simp only [implicit]; exact h

theorem holds_implicits : ∀ (xs : List Ebnf) (_ : ∀ p ∈ termsAll xs, ∀ i, P p.2 (itemOfTerm p.1 p.2 i)) (s : Lang), Holds P R s → Holds P R (s.implicits xs)
  | [], _, s, h => by simp only [implicits]; exact h
  | x :: xs, hx, s, h => by
    simp only [implicits]; simp only [termsAll] at hx
    exact holds_implicits xs (fun p hp => hx p (List.mem_append_right _ hp)) _ (holds_implicit x (fun p hp => hx p (List.mem_append_left _ hp)) s h)
end

/-- The terminals of a block. -/
def unitTerms : Block NtDef → List (TermKind × String)
  | .grammar ds => ds.flatMap (fun d => d.prods.flatMap termsAll)
  | .lexer .. => []

omit hs in
theorem mem_unitTerms {ds : List NtDef} {p : TermKind × String} : p ∈ unitTerms (.grammar ds) ↔ ∃ d ∈ ds, ∃ q ∈ d.prods, p ∈ termsAll q := by
  simp [unitTerms, List.mem_flatMap]

theorem holds_implicitUnit (u : Block NtDef) (hu : ∀ p ∈ unitTerms u, ∀ i, P p.2 (itemOfTerm p.1 p.2 i)) (s : Lang) (h : Holds P R s) : Holds P R (s.implicitUnit u) := by
  cases u with
  | lexer => exact h
  | grammar ds =>
    exact holds_foldl _ ds (fun d hd s h => holds_foldl _ d.prods (fun q hq s h => holds_implicits hs q (fun p hp => hu p (mem_unitTerms.2 ⟨d, hd, q, hq, hp⟩)) s h) s h) s h

/-- What the definitions of a block have to satisfy. -/
structure Good (P : String → LexItem → Prop) (WL : Lexeme → UnitType → Bool → Bool → Bool → Prop) (us : List (Block NtDef)) : Prop where
  lexeme : ∀ l t w ci cs, Written us l t w ci cs → WL l t w ci cs ∧ l.replace = false ∧ ∀ i, P l.name (itemFor l t w ci cs i)
  term : ∀ u ∈ us, ∀ p ∈ unitTerms u, ∀ i, P p.2 (itemOfTerm p.1 p.2 i)

omit hs in
theorem passes_kind {p : Bool × UnitType} (hp : p ∈ passes) : p.2 ≠ .symbols := by
  revert p
  decide

theorem holds_lexerUnit {us : List (Block NtDef)} (hg : Good P WL us) {p : Bool × UnitType} (hp : p ∈ passes) {u : Block NtDef} (hu : u ∈ us) (s : Lang) (h : Holds P R s) :
    Holds P R (addLexerUnit p.1 p.2 s u) := by
  cases u with
  | grammar => exact h
  | lexer t w ci cs ls =>
    simp only [addLexerUnit]
    split
    · next e =>
      refine holds_foldl (addLexeme t w ci cs) ls (fun l hl s h => ?_) s h
      obtain ⟨h1, h2, h3⟩ := hg.lexeme l t w ci cs ⟨⟨ls, hu, hl⟩, by rw [e.1]; exact passes_kind hp⟩
      exact holds_lexeme hs h1 h2 h3 s h
    · exact h

theorem holds_symbolsUnit (u : Block NtDef) (s : Lang) (h : Holds P R s) : Holds P R (addSymbolsUnit s u) := by
  unfold addSymbolsUnit
  split
  · exact holds_keeps hs (keeps_foldl _ (keeps_addSymbol _ _) _ s) h
  · exact h

theorem holds_addSymbols {us : List (Block NtDef)} (hg : Good P WL us) (s : Lang) (h : Holds P R s) : Holds P R (s.addSymbols us) := by
  unfold Lang.addSymbols
  refine holds_foldl _ us (fun u hu s h => holds_implicitUnit hs u (hg.term u hu) s h) _ (holds_foldl _ _ (fun p hp s h => ?_) _ (holds_foldl _ us (fun u _ s h => holds_symbolsUnit hs u s h) _ h))
  exact holds_foldl _ us (fun u hu s h => holds_lexerUnit hs hg hp hu s h) s h

theorem holds_compileBlock {us : List (Block NtDef)} (hg : Good P WL us) (s : Lang) (h : Holds P R s) : Holds P R (s.compileBlock us) :=
  holds_keeps hs (keeps_compileBlock s us) (holds_addSymbols hs hg s h)

theorem holds_compile {bs : List (List (Block NtDef))} (hg : ∀ us ∈ bs, Good P WL us) : ∀ s : Lang, Holds P R s → Holds P R (s.compile bs) := by
  induction bs with
  | nil => exact fun _ h => h
  | cons us bs ih =>
    exact fun s h => ih (fun us' h' => hg us' (List.mem_cons_of_mem _ h')) _ (holds_compileBlock hs (hg us (List.mem_cons_self ..)) s h)

/-- What one block brings about holds in the end. -/
theorem reached_compile {bs : List (List (Block NtDef))} (hg : ∀ us ∈ bs, Good P WL us) {us : List (Block NtDef)} (hu : us ∈ bs)
    (h : ∀ s, Holds P (fun _ => True) s → Holds P R (s.addSymbols us)) : ∀ s : Lang, Holds P (fun _ => True) s → Holds P R (s.compile bs) := by
  obtain ⟨b1, b2, rfl⟩ := List.append_of_mem hu
  have happ : ∀ (b1 : List (List (Block NtDef))) (s : Lang) (b2 : List (List (Block NtDef))), s.compile (b1 ++ b2) = (s.compile b1).compile b2 := by
    intro b1
    induction b1 with
    | nil => exact fun _ _ => rfl
    | cons us b1 ih => exact fun s b2 => ih _ _
  intro s hs'
  rw [happ]
  refine holds_compile hs (bs := b2) (fun us' h' => hg us' (by simp [h'])) _ (holds_keeps hs (keeps_compileBlock _ us) (h _ ?_))
  exact holds_compile stable_true (bs := b1) (WL := WL) (fun us' h' => hg us' (by simp [h'])) s hs'

/-- The same for one written definition. -/
theorem reached_lexeme {us : List (Block NtDef)} (hg : Good P WL us) {l : Lexeme} {t : UnitType} {w ci cs : Bool} (hw : Written us l t w ci cs)
    (h : ∀ s, DInv P s → ∀ i, Adds l.name (itemFor l t w ci cs i) t s (addLexeme t w ci cs s l) → (l.add = false → get l.name s.terminals.symbolOf = none) →
      R (addLexeme t w ci cs s l)) (s : Lang) (h0 : Holds P (fun _ => True) s) : Holds P R (s.addSymbols us) := by
  obtain ⟨ls, hu, hl⟩ := hw.block
  have hp : (w, t) ∈ passes := by
    have := hw.kind
    revert this
    cases w <;> cases t <;> decide
  unfold Lang.addSymbols
  have hT : Stable P WL (fun _ => True) := stable_true
  refine holds_foldl _ us (fun u hu s h => holds_implicitUnit hs u (hg.term u hu) s h) _ (reached_foldl _ hp
    (fun p hp s h => holds_foldl _ us (fun u hu s h => holds_lexerUnit hT hg hp hu s h) s h) (fun p hp s h => holds_foldl _ us (fun u hu s h => holds_lexerUnit hs hg hp hu s h) s h) ?_ _
    (holds_foldl _ us (fun u _ s h => holds_symbolsUnit hT u s h) _ h0))
  refine reached_foldl _ hu (fun u hu s h => holds_lexerUnit hT hg hp hu s h) (fun u hu s h => holds_lexerUnit hs hg hp hu s h) ?_
  intro s h0
  simp only [addLexerUnit, and_self, if_true]
  have hgl : ∀ l ∈ ls, _ := fun l hl => hg.lexeme l t w ci cs ⟨⟨ls, hu, hl⟩, hw.kind⟩
  refine reached_foldl (addLexeme t w ci cs) hl (fun l hl s h => holds_lexeme hT (hgl l hl).1 (hgl l hl).2.1 (hgl l hl).2.2 s h)
    (fun l hl s h => holds_lexeme hs (hgl l hl).1 (hgl l hl).2.1 (hgl l hl).2.2 s h) ?_ s h0
  intro s h0
  by_cases he : (addLexeme t w ci cs s l).errors = []
  · rcases h0 with h0 | ⟨h1, -⟩
    · exact absurd he (grows_errors (sgrow_addLexeme t w ci cs s l) h0)
    · obtain ⟨i, ha, hn⟩ := adds_lexeme t w ci cs h1.inv (hgl l hl).2.1 he
      exact Or.inr ⟨h1.adds ha ((hgl l hl).2.2 i), h s h1 i ha hn⟩
  · exact Or.inl he

end

/-! ### Terminals that are mentioned have a definition -/

theorem stable_known (n : String) : Stable P WL (fun s => ∃ x, Entry s n x) := by
  refine ⟨?_, ?_, ?_⟩
  · rintro s t l ty w ci cs i - - ha ⟨x, hx⟩
    exact ⟨x, (ha.entry _ _).2 (Or.inl hx)⟩
  · rintro s t k m i - - ha ⟨x, hx⟩
    exact ⟨x, (ha.entry _ _).2 (Or.inl hx)⟩
  · rintro s t hk ⟨x, xs, h1, h2⟩
    exact ⟨x, xs, by rw [hk.defs]; exact h1, h2⟩

section
variable {WL : Lexeme → UnitType → Bool → Bool → Bool → Prop} {k : TermKind} {n : String}

mutual
theorem reached_implicit : ∀ (x : Ebnf) (_ : ∀ p ∈ terms x, ∀ i, P p.2 (itemOfTerm p.1 p.2 i)) (_ : (k, n) ∈ terms x) (s : Lang), Holds P (fun _ => True) s →
    Holds P (fun s => ∃ x, Entry s n x) (s.implicit x)
  | .guard x _, hx, hm, s, h | .repeatZero x _, hx, hm, s, h | .repeatOne x _, hx, hm, s, h | .optional x _, hx, hm, s, h => by
    simp only [implicit]; simp only [terms] at hx hm; exact reached_implicit x hx hm s h
  | .alternative x y _, hx, hm, s, h => by
    simp only [implicit]; simp only [terms] at hx hm
    have hx1 : ∀ p ∈ terms x, ∀ i, P p.2 (itemOfTerm p.1 p.2 i) := fun p hp => hx p (List.mem_append_left _ hp)
    have hx2 : ∀ p ∈ terms y, ∀ i, P p.2 (itemOfTerm p.1 p.2 i) := fun p hp => hx p (List.mem_append_right _ hp)
    rcases List.mem_append.1 hm with hm | hm
    · exact holds_implicit (WL := fun _ _ _ _ _ => True) (stable_known n) y hx2 _ (reached_implicit x hx1 hm s h)
    · exact reached_implicit y hx2 hm _ (holds_implicit (WL := fun _ _ _ _ _ => True) stable_true x hx1 s h)
  | .paren xs _, hx, hm, s, h => by simp only [implicit]; simp only [terms] at hx hm; exact reached_implicits xs hx hm s h
  | .terminal k' src n' a, hx, hm, s, h => by
    have e : (k', n') = (k, n) := by
      simp only [terms] at hm
      split at hm
      · cases hm
      · exact (List.mem_singleton.1 hm).symm
    cases e
    rcases h with h | ⟨h1, -⟩
    · exact Or.inl (grows_errors (sgrow_implicit _ s) h)
    · rcases implicit_terminal h1.inv k src n a with ⟨e, hk⟩ | ⟨hm, hn, i, ha⟩
      · rw [e]
        obtain ⟨i, hi⟩ := hk hm
        exact Or.inr ⟨h1, h1.known n i hi⟩
      · exact Or.inr ⟨h1.adds ha (hx _ hm i), _, (ha.entry _ _).2 (Or.inr ⟨rfl, rfl⟩)⟩
  | .nonterminal .., _, hm, s, h => by simp only [terms] at hm; cases hm

theorem reached_implicits : ∀ (xs : List Ebnf) (_ : ∀ p ∈ termsAll xs, ∀ i, P p.2 (itemOfTerm p.1 p.2 i)) (_ : (k, n) ∈ termsAll xs) (s : Lang), Holds P (fun _ => True) s →
    Holds P (fun s => ∃ x, Entry s n x) (s.implicits xs)
  | [], _, hm, s, h => by simp only [termsAll] at hm; cases hm
  | x :: xs, hx, hm, s, h => by
    simp only [implicits]; simp only [termsAll] at hx hm
    have hx1 : ∀ p ∈ terms x, ∀ i, P p.2 (itemOfTerm p.1 p.2 i) := fun p hp => hx p (List.mem_append_left _ hp)
    have hx2 : ∀ p ∈ termsAll xs, ∀ i, P p.2 (itemOfTerm p.1 p.2 i) := fun p hp => hx p (List.mem_append_right _ hp)
    rcases List.mem_append.1 hm with hm | hm
    · exact holds_implicits (WL := fun _ _ _ _ _ => True) (stable_known n) xs hx2 _ (reached_implicit x hx1 hm s h)
    · exact reached_implicits xs hx2 hm _ (holds_implicit (WL := fun _ _ _ _ _ => True) stable_true x hx1 s h)
end

theorem reached_term {us : List (Block NtDef)} (hg : Good P WL us) {u : Block NtDef} (hu : u ∈ us) (hm : (k, n) ∈ unitTerms u) (s : Lang)
    (h : Holds P (fun _ => True) s) : Holds P (fun s => ∃ x, Entry s n x) (s.addSymbols us) := by
  have hT : Stable P WL (fun _ => True) := stable_true
  have hK : Stable P WL (fun s => ∃ x, Entry s n x) := stable_known n
  unfold Lang.addSymbols
  refine reached_foldl _ hu (fun u hu s h => holds_implicitUnit hT u (hg.term u hu) s h) (fun u hu s h => holds_implicitUnit hK u (hg.term u hu) s h) ?_ _
    (holds_foldl _ _ (fun p hp s h => holds_foldl _ us (fun u hu s h => holds_lexerUnit hT hg hp hu s h) s h) _ (holds_foldl _ us (fun u _ s h => holds_symbolsUnit hT u s h) _ h))
  intro s h
  have hgu := hg.term u hu
  cases u with
  | lexer => cases hm
  | grammar ds =>
    obtain ⟨d, hd, q, hq, hmq⟩ := mem_unitTerms.1 hm
    have hqq : ∀ d ∈ ds, ∀ q ∈ d.prods, ∀ p ∈ termsAll q, ∀ i, P p.2 (itemOfTerm p.1 p.2 i) := fun d hd q hq p hp => hgu p (mem_unitTerms.2 ⟨d, hd, q, hq, hp⟩)
    refine reached_foldl _ hd (fun d hd s h => holds_foldl _ d.prods (fun q hq s h => holds_implicits hT q (hqq d hd q hq) s h) s h)
      (fun d hd s h => holds_foldl _ d.prods (fun q hq s h => holds_implicits hK q (hqq d hd q hq) s h) s h) ?_ s h
    refine reached_foldl _ hq (fun q hq s h => holds_implicits hT q (hqq d hd q hq) s h) (fun q hq s h => holds_implicits hK q (hqq d hd q hq) s h) ?_
    exact reached_implicits q (hqq d hd q hq) hmq

end

/-! ### The theorem -/

theorem written_unitDef {us : List (Block NtSyntax)} {l : Lexeme} {t : UnitType} {w ci cs : Bool} : Written (us.map unitDef) l t w ci cs ↔ Written us l t w ci cs := by
  constructor
  · rintro ⟨⟨ls, h1, h2⟩, h3⟩
    obtain ⟨u, hu, e⟩ := List.mem_map.1 h1
    cases u with
    | grammar => cases e
    | lexer => cases e; exact ⟨⟨ls, hu, h2⟩, h3⟩
  · rintro ⟨⟨ls, h1, h2⟩, h3⟩
    exact ⟨⟨ls, List.mem_map.2 ⟨_, h1, rfl⟩, h2⟩, h3⟩

theorem unitTerms_mentioned {u : Block NtSyntax} {p : TermKind × String} (h : p ∈ unitTerms (unitDef u)) : Mentioned (unitDefs [u]) p.1 p.2 := by
  cases u with
  | lexer => cases h
  | grammar ds =>
    obtain ⟨d, hd, q, hq, hm⟩ := mem_unitTerms.1 h
    obtain ⟨d, hd', rfl⟩ := List.mem_map.1 hd
    obtain ⟨q, hq', rfl⟩ := List.mem_map.1 hq
    rw [terms_simples] at hm
    exact ⟨d, by simpa [unitDefs] using hd', q, hq', hm⟩

/-- Where a definition comes from. -/
def Source (blocks : List (List (Block NtSyntax))) (n : String) (x : LexItem) : Prop :=
  (∃ l t w ci cs, Written blocks.flatten l t w ci cs ∧ l.name = n ∧ x = itemFor l t w ci cs x.symbol) ∨
  ∃ k, Mentioned (defsOf blocks) k n ∧ x = itemOfTerm k n x.symbol

section
variable {blocks : List (List (Block NtSyntax))}

theorem good_blocks (hr : ∀ l t w ci cs, Written blocks.flatten l t w ci cs → l.replace = false) :
    ∀ us ∈ blocks.map (List.map unitDef), Good (Source blocks) (fun l t w ci cs => Written blocks.flatten l t w ci cs) us := by
  intro us hus
  obtain ⟨us, h, rfl⟩ := List.mem_map.1 hus
  have hup : ∀ l t w ci cs, Written us l t w ci cs → Written blocks.flatten l t w ci cs := by
    rintro l t w ci cs ⟨⟨ls, h1, h2⟩, h3⟩
    exact ⟨⟨ls, List.mem_flatten.2 ⟨us, h, h1⟩, h2⟩, h3⟩
  constructor
  · intro l t w ci cs hw
    have hw := hup _ _ _ _ _ (written_unitDef.1 hw)
    exact ⟨hw, hr _ _ _ _ _ hw, fun i => Or.inl ⟨l, t, w, ci, cs, hw, rfl, rfl⟩⟩
  · intro u hu p hp i
    obtain ⟨u, hu', rfl⟩ := List.mem_map.1 hu
    obtain ⟨d, hd, q⟩ := unitTerms_mentioned hp
    refine Or.inr ⟨p.1, ⟨d, ?_, q⟩, rfl⟩
    rw [defsOf_eq]
    refine List.mem_flatMap.2 ⟨us, h, ?_⟩
    simp only [unitDefs, List.flatMap_cons, List.flatMap_nil, List.append_nil] at hd ⊢
    exact List.mem_flatMap.2 ⟨u, hu', hd⟩

theorem start_holds {Q : String → LexItem → Prop} : Holds Q (fun _ => True) Lang.new := by
  have he : ∀ n x, ¬ Entry Lang.new n x := by
    rintro n x ⟨xs, h, -⟩
    cases h
  refine Or.inr ⟨⟨tinv_new, List.nodup_nil, fun n x h => absurd h (he n x), fun n x h => absurd h (he n x), fun i => ⟨(fun h => nomatch h), ?_⟩,
    fun i => ⟨(fun h => nomatch h), ?_⟩, (fun n i h => nomatch h), fun n x h => absurd h (he n x)⟩, trivial⟩
  · rintro ⟨n, x, h, -⟩
    exact absurd h (he n x)
  · rintro ⟨n, x, h, -⟩
    exact absurd h (he n x)

variable (hr : ∀ l t w ci cs, Written blocks.flatten l t w ci cs → l.replace = false) (he : (stage blocks).errors = [])
include hr he

theorem stage_dinv : DInv (Source blocks) (stage blocks) := by
  rcases holds_compile stable_true (good_blocks hr) Lang.new start_holds with h | ⟨h, -⟩
  · exact absurd he h
  · exact h

/-- **C74** (partial). Every definition that is written in a language without replacements, and that compiles without errors, is one of its definitions. -/
theorem written_defined_partial {l : Lexeme} {t : UnitType} {w ci cs : Bool} (hw : Written blocks.flatten l t w ci cs) :
    Entry (stage blocks) l.name (itemFor l t w ci cs ((stage blocks).terminals.symbolForName l.name)) := by
  obtain ⟨⟨ls, h1, h2⟩, h3⟩ := hw
  obtain ⟨us, hus, hu⟩ := List.mem_flatten.1 h1
  have hs : Stable (Source blocks) (fun l t w ci cs => Written blocks.flatten l t w ci cs) (fun s => ∃ i, Entry s l.name (itemFor l t w ci cs i)) := by
    refine ⟨?_, ?_, ?_⟩
    · rintro s t l ty w ci cs i - - ha ⟨j, hx⟩
      exact ⟨j, (ha.entry _ _).2 (Or.inl hx)⟩
    · rintro s t k m i - - ha ⟨j, hx⟩
      exact ⟨j, (ha.entry _ _).2 (Or.inl hx)⟩
    · rintro s t hk ⟨x, xs, h1, h2⟩
      exact ⟨x, xs, by rw [hk.defs]; exact h1, h2⟩
  have hm : us.map unitDef ∈ blocks.map (List.map unitDef) := List.mem_map_of_mem hus
  rcases reached_compile hs (good_blocks hr) hm (reached_lexeme hs (good_blocks hr _ hm) (l := l) (written_unitDef.2 ⟨⟨ls, hu, h2⟩, h3⟩)
    (fun s _ i ha _ => ⟨i, (ha.entry _ _).2 (Or.inr ⟨rfl, rfl⟩)⟩)) Lang.new start_holds with h | ⟨h, i, hi⟩
  · exact absurd he h
  · have := h.name _ _ hi
    have hi' : (stage blocks).terminals.symbolForName l.name = i := by
      show (get l.name (stage blocks).terminals.symbolOf).getD (-1) = i
      rw [show get l.name (stage blocks).terminals.symbolOf = _ from this]
      rfl
    rw [hi']
    exact hi

/-- **C74** (partial). Every terminal of a production has a definition. -/
theorem mentioned_defined_partial {k : TermKind} {n : String} (hm : Mentioned (defsOf blocks) k n) : ∃ x, Entry (stage blocks) n x := by
  obtain ⟨d, hd, q, hq, hp⟩ := hm
  rw [defsOf_eq] at hd
  obtain ⟨us, hus, hd⟩ := List.mem_flatMap.1 hd
  obtain ⟨u, hu, hd⟩ := List.mem_flatMap.1 hd
  have hmem : us.map unitDef ∈ blocks.map (List.map unitDef) := List.mem_map_of_mem hus
  cases u with
  | lexer => cases hd
  | grammar ds =>
    have hut : (k, n) ∈ unitTerms (unitDef (.grammar ds)) :=
      mem_unitTerms.2 ⟨ntDef d, List.mem_map_of_mem hd, simpleDefs q, List.mem_map_of_mem hq, by rw [terms_simples]; exact hp⟩
    rcases reached_compile (stable_known n) (good_blocks hr) hmem (reached_term (good_blocks hr _ hmem) (List.mem_map_of_mem hu) hut) Lang.new start_holds with h | ⟨-, h⟩
    · exact absurd he h
    · exact h

/-- **C74** (partial). Every definition of such a language is written in it, or it is that of a terminal which productions mention; the latter only if no block defines the
name, other than by adding to it. -/
theorem definitions_source_partial {n : String} {x : LexItem} (hx : Entry (stage blocks) n x) :
    (∃ l t w ci cs, Written blocks.flatten l t w ci cs ∧ l.name = n ∧ x = itemFor l t w ci cs x.symbol) ∨
    ∃ k, Mentioned (defsOf blocks) k n ∧ x = itemOfTerm k n x.symbol ∧ ∀ l t w ci cs, Written blocks.flatten l t w ci cs → l.name = n → l.add = true := by
  rcases (stage_dinv hr he).sound n x hx with h | ⟨k, h1, h2⟩
  · exact Or.inl h
  · by_cases hall : ∀ l t w ci cs, Written blocks.flatten l t w ci cs → l.name = n → l.add = true
    · exact Or.inr ⟨k, h1, h2, hall⟩
    · left
      simp only [not_forall] at hall
      obtain ⟨l, t, w, ci, cs, hw, hn, hadd⟩ := hall
      rw [Bool.not_eq_true] at hadd
      obtain ⟨⟨ls, g1, g2⟩, g3⟩ := hw
      obtain ⟨us, hus, hu⟩ := List.mem_flatten.1 g1
      have hm : us.map unitDef ∈ blocks.map (List.map unitDef) := List.mem_map_of_mem hus
      have hs : Stable (Source blocks) (fun l t w ci cs => Written blocks.flatten l t w ci cs) (fun s => get n s.terminals.symbolOf ≠ none ∧ ∀ x, Entry s n x →
          ∃ l t w ci cs, Written blocks.flatten l t w ci cs ∧ l.name = n ∧ x = itemFor l t w ci cs x.symbol) := by
        refine ⟨?_, ?_, ?_⟩
        · rintro s u l ty w ci cs i - hw ha ⟨e1, e2⟩
          constructor
          · by_cases e : n = l.name
            · rw [e, ha.name]; exact Option.some_ne_none _
            · rw [ha.others n e]; exact e1
          · intro y hy
            rcases (ha.entry _ _).1 hy with hy | ⟨rfl, rfl⟩
            · exact e2 y hy
            · exact ⟨l, ty, w, ci, cs, hw, rfl, rfl⟩
        · rintro s u k m i - hn ha ⟨e1, e2⟩
          have e : n ≠ m := by
            rintro rfl
            exact e1 hn
          constructor
          · rw [ha.others n e]; exact e1
          · intro y hy
            rcases (ha.entry _ _).1 hy with hy | ⟨h, -⟩
            · exact e2 y hy
            · exact absurd h e
        · rintro s u hk ⟨e1, e2⟩
          refine ⟨by rw [hk.terminals]; exact e1, fun y hy => e2 y ?_⟩
          obtain ⟨xs, h1, h2⟩ := hy
          exact ⟨xs, by rw [← hk.defs]; exact h1, h2⟩
      have hstep : ∀ s, DInv (Source blocks) s → ∀ i, Adds l.name (itemFor l t w ci cs i) t s (addLexeme t w ci cs s l) →
          (l.add = false → get l.name s.terminals.symbolOf = none) → get n (addLexeme t w ci cs s l).terminals.symbolOf ≠ none ∧
          ∀ x, Entry (addLexeme t w ci cs s l) n x → ∃ l t w ci cs, Written blocks.flatten l t w ci cs ∧ l.name = n ∧ x = itemFor l t w ci cs x.symbol := by
        intro s hd i ha hnone
        subst hn
        refine ⟨by rw [ha.name]; exact Option.some_ne_none _, fun y hy => ?_⟩
        rcases (ha.entry _ _).1 hy with hy | ⟨-, rfl⟩
        · have := hd.name _ _ hy
          rw [hnone hadd] at this
          cases this
        · exact ⟨l, t, w, ci, cs, ⟨⟨ls, g1, g2⟩, g3⟩, rfl, rfl⟩
      rcases reached_compile hs (good_blocks hr) hm (reached_lexeme hs (good_blocks hr _ hm) (l := l) (written_unitDef.2 ⟨⟨ls, hu, g2⟩, g3⟩) hstep) Lang.new start_holds with h | ⟨-, -, h⟩
      · exact absurd he h
      · exact h x hx

/-- **C74** (partial). A definition has the symbol of its name, names have different symbols, and the definitions of a symbol are all of one type. The ignored and the weak symbols
are those with an ignored or a weak definition. -/
theorem definition_symbols_partial :
    (∀ n x, Entry (stage blocks) n x → 0 ≤ x.symbol ∧ (stage blocks).terminals.symbolForName n = x.symbol) ∧
    (∀ n m x y, Entry (stage blocks) n x → Entry (stage blocks) m y → (x.symbol = y.symbol ↔ n = m)) ∧
    (∀ n x y, Entry (stage blocks) n x → Entry (stage blocks) n y → x.type = y.type) ∧
    (∀ n x, Entry (stage blocks) n x → (x.symbol ∈ (stage blocks).ignored ↔ x.type = some .ignore)) ∧
    (∀ n x, Entry (stage blocks) n x → (x.symbol ∈ (stage blocks).weak ↔ ∃ y, Entry (stage blocks) n y ∧ y.weak = true)) ∧
    (∀ x, x ∈ allItems (stage blocks) ↔ ∃ n, Entry (stage blocks) n x) := by
  have h := stage_dinv hr he
  generalize stage blocks = s at h
  have hsame : ∀ n m x y, Entry s n x → Entry s m y → (x.symbol = y.symbol ↔ n = m) := by
    intro n m x y hx hy
    have e1 := h.name n x hx
    have e2 := h.name m y hy
    constructor
    · intro e
      rw [← e] at e2
      exact h.inv.inj n m _ e1 e2
    · rintro rfl
      rw [e1] at e2
      exact Option.some.inj e2
  have htype : ∀ n x y, Entry s n x → Entry s n y → x.type = y.type := by
    intro n x y hx hy
    rw [(h.type n x hx).2, (h.type n y hy).2, (hsame n n x y hx hy).2 rfl]
  refine ⟨fun n x hx => ?_, hsame, htype, fun n x hx => ?_, fun n x hx => ?_, fun x => ?_⟩
  · have e := h.name n x hx
    exact ⟨(h.inv.lt _ _ e).1, by simp [TerminalDict.symbolForName, e]⟩
  · rw [h.ignored]
    constructor
    · rintro ⟨m, y, h1, h2, h3⟩
      have := (hsame m n y x h1 hx).1 h2
      subst this
      rw [← h3]
      exact htype m x y hx h1
    · exact fun ht => ⟨n, x, hx, rfl, ht⟩
  · rw [h.weak]
    constructor
    · rintro ⟨m, y, h1, h2, h3⟩
      have := (hsame m n y x h1 hx).1 h2
      subst this
      exact ⟨y, h1, h3⟩
    · rintro ⟨y, h1, h3⟩
      exact ⟨n, y, h1, ((hsame n n x y hx h1).2 rfl).symm, h3⟩
  · unfold allItems Entry
    rw [List.mem_flatMap]
    constructor
    · rintro ⟨⟨n, xs⟩, h1, h2⟩
      exact ⟨n, xs, Lalr.get_of_mem_nodup h.keys h1, h2⟩
    · rintro ⟨n, xs, h1, h2⟩
      exact ⟨(n, xs), get_mem h1, h2⟩

end

/-! ### Examples -/

namespace DefinitionExample
open Language.Example (t nt)

/-- `lexer { id = /[a-z]+/ }`, `keywords { if }`, `ignore { ws = / +/ }`, `S = if id "=" S | other`. -/
def lang : List (List (Block NtSyntax)) := [[.lexer .lexer false false false [⟨.regex, "id", "/[a-z]+/".toList, false, false⟩],
  .lexer .keywords false false true [⟨.literal, "if", [], false, false⟩], .lexer .ignore false false false [⟨.regex, "ws", "/ +/".toList, false, false⟩],
  .grammar [⟨.assignment, "S", [[t "if", t "id", .terminal .string "" "\"=\"" .blank, nt "S"], [t "other"]]⟩]]]

-- the definitions that come out of the stage: two of them were only mentioned
example : (stage lang).errors = [] ∧ (stage lang).defs = [("if", [⟨false, "if".toList, false, true, 0, some .keywords, false⟩]),
    ("id", [⟨true, "[a-z]+".toList, false, false, 1, some .lexer, false⟩]), ("ws", [⟨true, " +".toList, false, false, 2, some .ignore, false⟩]),
    ("\"=\"", [⟨false, "=".toList, false, false, 3, some .keywords, true⟩]), ("other", [⟨true, "other".toList, false, false, 4, some .keywords, true⟩])] := by
  decide +kernel

theorem lang_plain : ∀ l t w ci cs, Written lang.flatten l t w ci cs → l.replace = false := by
  rintro l t w ci cs ⟨⟨ls, h1, h2⟩, -⟩
  simp only [lang, List.flatten_cons, List.flatten_nil, List.append_nil, List.mem_cons, Block.lexer.injEq, List.not_mem_nil, or_false, reduceCtorEq] at h1
  rcases h1 with ⟨-, -, -, -, rfl⟩ | ⟨-, -, -, -, rfl⟩ | ⟨-, -, -, -, rfl⟩ <;> (rw [List.mem_singleton.1 h2])

-- the theorems apply: the keyword is defined as written, and `"="` is defined because the production mentions it
example : Entry (stage lang) "if" (itemFor ⟨.literal, "if", [], false, false⟩ .keywords false false true ((stage lang).terminals.symbolForName "if")) :=
  written_defined_partial (l := ⟨.literal, "if", [], false, false⟩) lang_plain (by decide +kernel) ⟨⟨_, by simp [lang], List.mem_singleton_self _⟩, by decide⟩

example : ∃ x, Entry (stage lang) "\"=\"" x :=
  mentioned_defined_partial (k := .string) lang_plain (by decide +kernel) ⟨_, List.mem_cons_self .., _, List.mem_cons_self .., by decide⟩

/-- A language that inherits the ignored `ws`, and replaces it with a keyword. -/
def replaced : List (List (Block NtSyntax)) := [[.lexer .ignore false false false [⟨.regex, "ws", "/ +/".toList, false, false⟩], .grammar [⟨.assignment, "S", [[t "id"]]⟩]],
  [.lexer .keywords false false false [⟨.string, "ws", "\"space\"".toList, false, true⟩], .grammar [⟨.addition, "S", [[t "ws"]]⟩]]]

/-- C74 does not hold with replacements: the symbol of a replaced definition stays ignored (language_stage.cpp 264-278, 355-368 only ever add to the sets), even if the new
definition is a keyword that the grammar uses. -/
theorem replaced_ignored_violated : (stage replaced).errors = [] ∧ ∃ x, Entry (stage replaced) "ws" x ∧ x.type = some .keywords ∧ x.symbol ∈ (stage replaced).ignored ∧
    ∀ y, Entry (stage replaced) "ws" y → y = x := by
  have h : get "ws" (stage replaced).defs = some [⟨false, "space".toList, false, false, 0, some .keywords, false⟩] := by decide +kernel
  refine ⟨by decide +kernel, _, ⟨_, h, List.mem_singleton_self _⟩, rfl, by decide +kernel, ?_⟩
  rintro y ⟨ys, h1, h2⟩
  rw [h] at h1
  cases h1
  exact List.mem_singleton.1 h2

end DefinitionExample

end Definitions
end TameParse

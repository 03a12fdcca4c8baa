import Verif.LanguageGrammarProps
/-
C72: the attributes that are written on the items of a production are those of the items of its rule.

Source: /repo/TameParse/Compiler/language_stage.cpp 398-444, 664-840, Compiler/Data/rule_item_data.cpp 35-104, Language/language_parser.cpp 232-424.
-/
namespace TameParse
namespace Attrs
open AssocMap Language Lang

/-- `attributes_for` (rule_item_data.cpp 73-87). -/
def attrOf (s : Lang) (p : Item × Nat) : Attr := if p.2 = 0 then .blank else (get p.2 s.attrs).getD .blank

mutual
/-- What is written on the items of the rule that a list of items becomes. A sequence in parentheses is part of the rule; what is written on the
parentheses is lost. -/
def written : Simple → List Attr
  | .nonterminal _ _ a => [a]
  | .terminal _ _ _ a => [a]
  | .guard c _ _ a => [if c then { a with canClash := true } else a]
  | .star _ a => [a]
  | .plus _ a => [a]
  | .question _ a => [a]
  | .paren xs [] _ => writtens xs
  | .paren _ (_ :: _) a => [a]

def writtens : List Simple → List Attr
  | [] => []
  | x :: xs => written x ++ writtens xs
end

mutual
/-- The same for the definitions. -/
def itemAttrs : Ebnf → List Attr
  | .terminal _ _ _ a => [a]
  | .nonterminal _ _ a => [a]
  | .guard _ a => [a]
  | .alternative _ _ a => [a]
  | .repeatZero _ a => [a]
  | .repeatOne _ a => [a]
  | .optional _ a => [a]
  | .paren xs _ => itemsAttrs xs

def itemsAttrs : List Ebnf → List Attr
  | [] => []
  | x :: xs => itemAttrs x ++ itemsAttrs xs
end

theorem attrs_seqOf (xs : List Ebnf) : itemAttrs (seqOf xs) = itemsAttrs xs := by
  rw [seqOf_eq]
  match xs with
  | [] => simp [itemAttrs, itemsAttrs]
  | [x] => simp [itemsAttrs]
  | x :: y :: xs => simp only [itemAttrs]

mutual
theorem attrs_simple : ∀ x : Simple, itemAttrs (simpleDef x) = written x
  | .nonterminal _ _ _ => by simp only [simpleDef, itemAttrs, written]
  | .terminal _ _ _ _ => by simp only [simpleDef, itemAttrs, written]
  | .guard _ _ _ _ => by simp only [simpleDef, itemAttrs, written]
  | .star _ _ => by simp only [simpleDef, itemAttrs, written]
  | .plus _ _ => by simp only [simpleDef, itemAttrs, written]
  | .question _ _ => by simp only [simpleDef, itemAttrs, written]
  | .paren xs [] _ => by simp only [simpleDef, altDefs, attrs_seqOf, written, attrs_simples xs]
  | .paren _ (_ :: _) _ => by simp only [simpleDef, altDefs, itemAttrs, written]

theorem attrs_simples : ∀ xs : List Simple, itemsAttrs (simpleDefs xs) = writtens xs
  | [] => by simp only [simpleDefs, itemsAttrs, writtens]
  | x :: xs => by simp only [simpleDefs, itemsAttrs, writtens, attrs_simple x, attrs_simples xs]
end

/-! ### Keys -/

/-- The keys that were given out so far. -/
structure Keys (s : Lang) : Prop where
  pos : 0 < s.nextKey
  lt : ∀ k, s.nextKey ≤ k → get k s.attrs = none

/-- Keys that were given out keep their attributes. -/
structure Adds (s t : Lang) : Prop where
  keys : Keys s → Keys t
  next : s.nextKey ≤ t.nextKey
  same : ∀ k, k < s.nextKey → get k t.attrs = get k s.attrs

theorem Adds.refl (s : Lang) : Adds s s := ⟨id, Nat.le_refl _, fun _ _ => rfl⟩

theorem Adds.trans {s t u : Lang} (h : Adds s t) (h' : Adds t u) : Adds s u :=
  ⟨fun k => h'.keys (h.keys k), Nat.le_trans h.next h'.next,
    fun k hk => (h'.same k (Nat.lt_of_lt_of_le hk h.next)).trans (h.same k hk)⟩

theorem Adds.of {s t : Lang} (h1 : t.nextKey = s.nextKey) (h2 : t.attrs = s.attrs) : Adds s t :=
  ⟨fun h => ⟨by rw [h1]; exact h.pos, by rw [h1, h2]; exact h.lt⟩, by rw [h1], fun k _ => by rw [h2]⟩

/-- The keys of a rule were given out. -/
def Below (s : Lang) (r : KeyRule) : Prop := ∀ p ∈ r, p.2 < s.nextKey

theorem Below.mono {s t : Lang} (h : Adds s t) {r : KeyRule} (hr : Below s r) : Below t r := fun p hp => Nat.lt_of_lt_of_le (hr p hp) h.next

theorem Adds.attrOf {s t : Lang} (h : Adds s t) {r : KeyRule} (hr : Below s r) : r.map (attrOf t) = r.map (attrOf s) := by
  refine List.map_congr_left fun p hp => ?_
  unfold Attrs.attrOf
  rw [h.same p.2 (hr p hp)]

/-- What the compilation of an item does to the attributes. -/
def Gives (s : Lang) (r : KeyRule) (t : Lang) (r' : KeyRule) (l : List Attr) : Prop :=
  Keys s → Below s r → Adds s t ∧ Below t r' ∧ r'.map (attrOf t) = r.map (attrOf s) ++ l

theorem gives_append {s t : Lang} {r : KeyRule} {x : Item} {a : Attr} (h : Keys s → Adds s t) : Gives s r (t.appendAttr (push r x) a).1 (t.appendAttr (push r x) a).2 [a] := by
  intro hs hr
  have hst := h hs
  have ht := hst.keys hs
  have hr' := hr.mono hst
  have hp := ht.pos
  rw [← hst.attrOf hr]
  unfold appendAttr
  split
  · next ha =>
    subst ha
    refine ⟨hst, ?_, ?_⟩
    · intro p hp'
      rcases List.mem_append.1 hp' with hp' | hp'
      · exact hr' p hp'
      · rw [List.mem_singleton.1 hp']; exact hp
    · simp [push, Attrs.attrOf]
  · have hl : (push r x).getLast? = some (x, 0) := by simp [push]
    have hd : (push r x).dropLast = r := by simp [push]
    unfold setLast
    rw [hl]
    dsimp only
    rw [if_pos rfl, hd]
    have hadds : Adds t { t with nextKey := t.nextKey + 1, attrs := AssocMap.put t.nextKey a t.attrs } := by
      refine ⟨fun _ => ⟨Nat.succ_pos _, ?_⟩, Nat.le_succ _, ?_⟩
      · intro k hk
        have hk : t.nextKey + 1 ≤ k := hk
        show get k (AssocMap.put t.nextKey a t.attrs) = none
        rw [get_put, if_neg (by omega)]
        exact ht.lt k (by omega)
      · intro k hk
        show get k (AssocMap.put t.nextKey a t.attrs) = _
        rw [get_put, if_neg (by omega)]
    refine ⟨hst.trans hadds, ?_, ?_⟩
    · intro p hp'
      rcases List.mem_append.1 hp' with hp' | hp'
      · exact Nat.lt_succ_of_lt (hr' p hp')
      · rw [List.mem_singleton.1 hp']; exact Nat.lt_succ_self _
    · rw [List.map_append, hadds.attrOf hr']
      simp only [List.map_cons, List.map_nil, Attrs.attrOf, get_put, if_pos, Option.getD_some]
      rw [if_neg (by omega)]

theorem gives_nil {s t : Lang} {r' : KeyRule} {l : List Attr} (h : Gives s [] t r' l) (hs : Keys s) : Adds s t := (h hs (fun _ h => (nomatch h))).1

theorem adds_know (s : Lang) (x : Item) : Adds s (s.know x) := .of rfl rfl

mutual
theorem compileItem_gives : ∀ (x : Ebnf) (s : Lang) (r : KeyRule), Gives s r (s.compileItem r x).1 (s.compileItem r x).2 (itemAttrs x)
  | .terminal k src n a, s, r => by
    simp only [compileItem, itemAttrs]
    exact gives_append fun _ => .refl s
  | .nonterminal src n a, s, r => by
    simp only [compileItem, itemAttrs]
    exact gives_append fun _ => .of rfl rfl
  | .paren xs a, s, r => by
    simp only [compileItem, itemAttrs]
    exact compileItems_gives xs s r
  | .optional x a, s, r => by
    simp only [compileItem, itemAttrs]
    exact gives_append fun hs => (gives_nil (compileItem_gives x s []) hs).trans (adds_know _ _)
  | .repeatOne x a, s, r => by
    simp only [compileItem, itemAttrs]
    exact gives_append fun hs => (gives_nil (compileItem_gives x s []) hs).trans (adds_know _ _)
  | .repeatZero x a, s, r => by
    simp only [compileItem, itemAttrs]
    exact gives_append fun hs => (gives_nil (compileItem_gives x s []) hs).trans (adds_know _ _)
  | .guard x a, s, r => by
    simp only [compileItem, itemAttrs]
    have h := gives_append (s := s) (r := r) (x := .guard (-1) (items (s.compileItem [] x).2)) (a := a) (gives_nil (compileItem_gives x s []))
    intro hs hr
    obtain ⟨h1, h2, h3⟩ := h hs hr
    exact ⟨⟨fun k => ⟨(h1.keys k).pos, (h1.keys k).lt⟩, h1.next, h1.same⟩, h2, h3⟩
  | .alternative x y a, s, r => by
    simp only [compileItem, itemAttrs]
    refine gives_append fun hs => ?_
    have h1 := gives_nil (compileItem_gives x s []) hs
    exact (h1.trans (gives_nil (compileItem_gives y _ []) (h1.keys hs))).trans (adds_know _ _)

theorem compileItems_gives : ∀ (xs : List Ebnf) (s : Lang) (r : KeyRule), Gives s r (s.compileItems r xs).1 (s.compileItems r xs).2 (itemsAttrs xs)
  | [], s, r => by
    simp only [compileItems, itemsAttrs]
    exact fun _ hr => ⟨.refl s, hr, by simp⟩
  | x :: xs, s, r => by
    simp only [compileItems, itemsAttrs]
    intro hs hr
    obtain ⟨h1, h2, h3⟩ := compileItem_gives x s r hs hr
    obtain ⟨g1, g2, g3⟩ := compileItems_gives xs _ _ (h1.keys hs) h2
    exact ⟨h1.trans g1, g2, by rw [g3, h3, List.append_assoc]⟩
end

/-! ### The rules -/

/-- The attributes of the rules are those of the productions. -/
structure AInv (s : Lang) (F : String → List (List Ebnf)) : Prop where
  keys : Keys s
  below : ∀ i, ∀ r ∈ s.rulesFor i, Below s r
  attrs : ∀ n i, get n s.ids.nameIds = some i → (s.rulesFor i).map (List.map (attrOf s)) = (F n).map itemsAttrs

theorem AInv.grow {s t : Lang} {F : String → List (List Ebnf)} (h : AInv s F) (hi : GInv s F) (hg : Grow s t) (ha : Adds s t) : AInv t F := by
  refine ⟨ha.keys h.keys, ?_, ?_⟩
  · intro i r hr
    rw [rulesFor_congr hg.rules] at hr
    exact (h.below i r hr).mono ha
  · intro n i hn
    rw [rulesFor_congr hg.rules]
    by_cases hk : s.ntKnown n
    · obtain ⟨j, hj⟩ := Option.ne_none_iff_exists'.1 hk
      have := hg.names n j hj
      rw [hn] at this
      cases this
      rw [← h.attrs n i hj]
      exact List.map_congr_left fun r hr => ha.attrOf (h.below i r hr)
    · have hF : F n = [] := by
        by_contra hne
        exact hk (hi.known n hne)
      have hr : s.rulesFor i = [] := by
        by_contra hne
        obtain ⟨m, hm⟩ := hi.extra i hne
        have := name_inj (hg.inv hi.ids) hn (hg.names m i hm)
        subst this
        exact hk (by rw [ntKnown, hm]; exact Option.some_ne_none i)
      rw [hF, hr]
      rfl

theorem AInv.put {s : Lang} {F : String → List (List Ebnf)} (h : AInv s F) (hi : GInv s F) {n : String} {i : Nat} (hn : get n s.ids.nameIds = some i)
    {rs : List KeyRule} {ps : List (List Ebnf)} (hb : ∀ r ∈ rs, Below s r) (hr : rs.map (List.map (attrOf s)) = ps.map itemsAttrs) :
    AInv { s with rules := AssocMap.put i rs s.rules } (Function.update F n ps) := by
  have hrf : ∀ j, ({ s with rules := AssocMap.put i rs s.rules } : Lang).rulesFor j = if i = j then rs else s.rulesFor j := by
    intro j
    simp only [rulesFor, get_put]
    split <;> rfl
  refine ⟨⟨h.keys.pos, h.keys.lt⟩, ?_, ?_⟩
  · intro j r hj
    rw [hrf] at hj
    split at hj
    · exact hb r hj
    · exact h.below j r hj
  · intro m j hj
    rw [hrf]
    by_cases he : m = n
    · subst he
      have hij : i = j := Option.some.inj (hn.symm.trans hj)
      rw [Function.update_self, if_pos hij]
      exact hr
    · have hij : i ≠ j := by
        rintro rfl
        exact he (name_inj hi.ids hj hn)
      rw [Function.update_of_ne he, if_neg hij]
      exact h.attrs m j hj

theorem AInv.addProd {s : Lang} {F : String → List (List Ebnf)} (h : AInv s F) (hi : GInv s F) {n : String} {i : Nat} (hn : get n s.ids.nameIds = some i) (p : List Ebnf) :
    AInv (s.addProd i p) (Function.update F n (F n ++ [p])) := by
  obtain ⟨h1, -, -⟩ := compileItems_spec p s []
  obtain ⟨g1, g2, g3⟩ := compileItems_gives p s [] h.keys (fun _ h => (nomatch h))
  unfold Lang.addProd
  generalize s.compileItems [] p = q at h1 g1 g2 g3
  obtain ⟨t, r⟩ := q
  dsimp only at h1 g1 g2 g3 ⊢
  have hg := h.grow hi h1 g1
  have hput := hg.put (hi.grow h1) (h1.names n i hn) (rs := t.rulesFor i ++ [r]) (ps := F n ++ [p])
    (by
      intro r' hr'
      rcases List.mem_append.1 hr' with hr' | hr'
      · exact hg.below i r' hr'
      · rw [List.mem_singleton.1 hr']; exact g2)
    (by
      rw [List.map_append, List.map_append, hg.attrs n i (h1.names n i hn)]
      simp only [List.map_cons, List.map_nil, g3, List.nil_append])
  refine ⟨⟨hput.keys.pos, hput.keys.lt⟩, hput.below, ?_⟩
  intro m j hj
  refine hput.attrs m j ?_
  rw [← hj]
  show get m t.ids.nameIds = get m (t.ids.identifierForRule _).1.nameIds
  unfold GrammarIds.identifierForRule
  split <;> rfl

theorem AInv.addProds {n : String} {i : Nat} (ps : List (List Ebnf)) : ∀ {s : Lang} {F : String → List (List Ebnf)}, AInv s F → GInv s F →
    get n s.ids.nameIds = some i → (∀ p ∈ ps, KnownAll s.termKnown (fun _ => True) p) →
    AInv (ps.foldl (Lang.addProd i) s) (Function.update F n (F n ++ ps)) := by
  induction ps with
  | nil =>
    intro s F h _ _ _
    simp only [List.foldl_nil, List.append_nil, Function.update_eq_self]
    exact h
  | cons p ps ih =>
    intro s F h hi hn hp
    obtain ⟨h1, h2, h3, -⟩ := hi.addProd hn (hp p (List.mem_cons_self ..))
    have g1 := ih (h.addProd hi hn p) h1 h2 (by
      intro q hq
      have : (s.addProd i p).termKnown = s.termKnown := by funext m; simp only [termKnown, h3]
      rw [this]
      exact hp q (List.mem_cons_of_mem _ hq))
    rw [Function.update_self, Function.update_idem, List.append_assoc] at g1
    exact g1

theorem AInv.addNt {s : Lang} {F : String → List (List Ebnf)} (h : AInv s F) (hi : GInv s F) {d : NtDef} (hp : ∀ p ∈ d.prods, KnownAll s.termKnown (fun _ => True) p) :
    AInv (s.addNt d) (defStep F d) := by
  obtain ⟨h1, h2⟩ := grow_nt s d.name
  unfold Lang.addNt
  generalize s.ids.idForNonterminal d.name = q at h1 h2
  obtain ⟨ids, i⟩ := q
  dsimp only at h1 h2 ⊢
  have g0 := hi.grow h1
  have a0 := h.grow hi h1 (.of rfl rfl)
  generalize ht : ({ s with ids := ids } : Lang) = t at h1 g0 a0
  have h2' : get d.name t.ids.nameIds = some i := by rw [← ht]; exact h2
  have e1 : t.terminals = s.terminals := by rw [← ht]
  clear ht h2
  -- the error
  obtain ⟨u, hu, gu, au, u1, u3, u4⟩ : ∃ u, (if d.type = .assignment ∧ (!(t.rulesFor i).isEmpty) = true then t.error (.duplicateNonterminal d.name) else t) = u ∧
      GInv u F ∧ AInv u F ∧ u.terminals = s.terminals ∧ u.ids = t.ids ∧ u.rules = t.rules := by
    refine ⟨_, rfl, ?_⟩
    split
    · exact ⟨g0.error _, ⟨⟨a0.keys.pos, a0.keys.lt⟩, a0.below, a0.attrs⟩, e1, rfl, rfl⟩
    · exact ⟨g0, a0, e1, rfl, rfl⟩
  rw [hu]
  have hun : get d.name u.ids.nameIds = some i := by rw [u3]; exact h2'
  -- the rules that are replaced
  obtain ⟨v, hv, gv, av, v1, v3⟩ : ∃ v, (if d.type = .replace ∧ (!(t.rulesFor i).isEmpty) = true then { u with rules := AssocMap.put i [] u.rules } else u) = v ∧
      GInv v (Function.update F d.name (if d.type = .replace then [] else F d.name)) ∧
      AInv v (Function.update F d.name (if d.type = .replace then [] else F d.name)) ∧ v.terminals = s.terminals ∧ v.ids = u.ids := by
    refine ⟨_, rfl, ?_⟩
    by_cases hr : d.type = .replace
    · by_cases hd : (!(t.rulesFor i).isEmpty) = true
      · rw [if_pos ⟨hr, hd⟩, if_pos hr]
        exact ⟨gu.put hun (by rfl) (by intro p hp; cases hp), au.put gu hun (by intro p hp; cases hp) (by rfl), u1, rfl⟩
      · rw [if_neg (fun h => hd h.2), if_pos hr]
        have hF : F d.name = [] := by
          have he : u.rulesFor i = [] := by
            rw [rulesFor_congr u4]
            simpa using hd
          have := gu.rules d.name i hun
          rw [he] at this
          exact List.map_eq_nil_iff.1 this.symm
        rw [← hF, Function.update_eq_self]
        exact ⟨gu, au, u1, rfl⟩
    · rw [if_neg (fun h => hr h.1), if_neg hr, Function.update_eq_self]
      exact ⟨gu, au, u1, rfl⟩
  rw [hv]
  have w1 := av.addProds d.prods gv (n := d.name) (i := i) (by rw [v3]; exact hun) (by
    intro p hp'
    have : v.termKnown = s.termKnown := by funext m; simp only [termKnown, v1]
    rw [this]
    exact hp p hp')
  rw [Function.update_self, Function.update_idem] at w1
  exact w1

theorem AInv.addNts (ds : List NtDef) : ∀ {s : Lang} {F : String → List (List Ebnf)}, AInv s F → GInv s F →
    (∀ d ∈ ds, ∀ p ∈ d.prods, KnownAll s.termKnown (fun _ => True) p) → AInv (ds.foldl Lang.addNt s) (ds.foldl defStep F) := by
  induction ds with
  | nil => intro s F h _ _; exact h
  | cons d ds ih =>
    intro s F h hi hp
    obtain ⟨h1, h2, -⟩ := hi.addNt (hp d (List.mem_cons_self ..))
    exact ih (h.addNt hi (hp d (List.mem_cons_self ..))) h1 (by
      intro d' hd'
      have : (s.addNt d).termKnown = s.termKnown := by funext m; simp only [termKnown, h2]
      rw [this]
      exact hp d' (List.mem_cons_of_mem _ hd'))

theorem AInv.addUnits (us : List (Block NtDef)) : ∀ {s : Lang} {F : String → List (List Ebnf)}, AInv s F → GInv s F → TermsKnown s us →
    AInv (us.foldl Lang.addUnit s) (defsStep F us) := by
  induction us with
  | nil => intro s F h _ _; exact h
  | cons u us ih =>
    intro s F h hi hk
    cases u with
    | lexer t w ci cs ls => exact ih h hi (fun ds hd => hk ds (List.mem_cons_of_mem _ hd))
    | grammar ds =>
      obtain ⟨h1, h2, -⟩ := hi.addNts ds (hk ds (List.mem_cons_self ..))
      exact ih (s := ds.foldl Lang.addNt s) (h.addNts ds hi (hk ds (List.mem_cons_self ..))) h1 (by
        intro ds' hd'
        have : (ds.foldl Lang.addNt s).termKnown = s.termKnown := by funext m; simp only [termKnown, h2]
        rw [this]
        exact hk ds' (List.mem_cons_of_mem _ hd'))

/-! ### The steps that leave the attributes alone -/

/-- The keys and the attributes are the same. -/
structure Same (s t : Lang) : Prop where
  next : t.nextKey = s.nextKey
  attrs : t.attrs = s.attrs

theorem Same.refl (s : Lang) : Same s s := ⟨rfl, rfl⟩
theorem Same.trans {s t u : Lang} (h : Same s t) (h' : Same t u) : Same s u := ⟨h'.next.trans h.next, h'.attrs.trans h.attrs⟩

theorem same_foldl {α : Type} (f : Lang → α → Lang) (hf : ∀ s a, Same s (f s a)) (l : List α) : ∀ s, Same s (l.foldl f s) := by
  induction l with
  | nil => exact fun s => .refl s
  | cons a l ih => exact fun s => (hf s a).trans (ih _)

theorem same_addSymbol (ci cs : Bool) (s : Lang) (l : Lexeme) : Same s (addSymbol ci cs s l) := by
  unfold addSymbol
  refine ⟨?_, ?_⟩ <;> (simp only [addExpr, Lang.error]; split_ifs <;> simp_all)

theorem same_symbolFor (type : UnitType) (s : Lang) (l : Lexeme) : Same s (symbolFor type s l).1 := by
  unfold symbolFor
  dsimp only
  split
  · split
    · split <;> exact ⟨rfl, rfl⟩
    · split <;> exact ⟨rfl, rfl⟩
  · split
    · exact ⟨rfl, rfl⟩
    · split <;> exact ⟨rfl, rfl⟩

theorem same_addLexeme (type : UnitType) (weak ci cs : Bool) (s : Lang) (l : Lexeme) : Same s (addLexeme type weak ci cs s l) := by
  have h := same_symbolFor type s l
  unfold addLexeme
  generalize symbolFor type s l = q at h ⊢
  obtain ⟨t, i⟩ := q
  dsimp only at h ⊢
  split
  · exact h
  · refine h.trans ⟨?_, ?_⟩ <;> (simp only [addDef]; split_ifs <;> simp_all)

theorem same_addLexerUnit (weak : Bool) (type : UnitType) (s : Lang) (u : Block NtDef) : Same s (addLexerUnit weak type s u) := by
  cases u with
  | grammar ds => exact .refl s
  | lexer t w ci cs ls =>
    simp only [addLexerUnit]
    split
    · exact same_foldl _ (same_addLexeme t w ci cs) ls s
    · exact .refl s

theorem same_addSymbolsUnit (s : Lang) (u : Block NtDef) : Same s (addSymbolsUnit s u) := by
  unfold addSymbolsUnit
  split
  · exact same_foldl _ (same_addSymbol _ _) _ s
  · exact .refl s

mutual
theorem same_implicit : ∀ (x : Ebnf) (s : Lang), Same s (s.implicit x)
  | .guard x _, s | .repeatZero x _, s | .repeatOne x _, s | .optional x _, s => by simp only [implicit]; exact same_implicit x s
  | .alternative x y _, s => by simp only [implicit]; exact (same_implicit x s).trans (same_implicit y _)
  | .paren xs _, s => by simp only [implicit]; exact same_implicits xs s
  | .nonterminal _ _ _, s => by simp only [implicit]; exact .refl s
  | .terminal k src n a, s => by
    simp only [implicit]
    split
    · exact .refl s
    · split
      · exact .refl s
      · exact ⟨rfl, rfl⟩

theorem same_implicits : ∀ (xs : List Ebnf) (s : Lang), Same s (s.implicits xs)
  | [], s => by simp only [implicits]; exact .refl s
  | x :: xs, s => by simp only [implicits]; exact (same_implicit x s).trans (same_implicits xs _)
end

theorem same_implicitUnit (s : Lang) (u : Block NtDef) : Same s (implicitUnit s u) := by
  cases u with
  | lexer t w ci cs ls => exact .refl s
  | grammar ds => exact same_foldl _ (fun s d => same_foldl _ (fun s p => same_implicits p s) d.prods s) ds s

theorem same_addSymbols (s : Lang) (us : List (Block NtDef)) : Same s (s.addSymbols us) :=
  ((same_foldl _ same_addSymbolsUnit us s).trans (same_foldl _ (fun s p => same_foldl _ (same_addLexerUnit p.1 p.2) us s) passes _)).trans
    (same_foldl _ same_implicitUnit us _)

mutual
theorem same_useItem : ∀ (x : Item) (s : Lang), Same s (s.useItem x)
  | .terminal n, s => by simp only [useItem]; exact ⟨rfl, rfl⟩
  | .ebnf _ rs, s => by simp only [useItem]; exact same_useRules rs s
  | .nonterminal _, s | .guard _ _, s | .eoi, s | .eog, s | .empty, s => by simp only [useItem]; exact .refl s

theorem same_useItems : ∀ (xs : List Item) (s : Lang), Same s (s.useItems xs)
  | [], s => by simp only [useItems]; exact .refl s
  | x :: xs, s => by simp only [useItems]; exact (same_useItem x s).trans (same_useItems xs _)

theorem same_useRules : ∀ (rs : List (List Item)) (s : Lang), Same s (s.useRules rs)
  | [], s => by simp only [useRules]; exact .refl s
  | r :: rs, s => by simp only [useRules]; exact (same_useItems r s).trans (same_useRules rs _)
end

theorem same_useAll (s : Lang) : Same s s.useAll :=
  same_foldl _ (fun s i => same_foldl _ (fun s r => same_useItems (items r) s) (s.rulesFor i) s) _ s

theorem same_checkUndefined (s : Lang) : Same s s.checkUndefined := by
  refine same_foldl _ (fun s i => ?_) _ s
  split
  · split
    · exact ⟨rfl, rfl⟩
    · exact .refl s
  · exact .refl s

theorem AInv.same {s t : Lang} {F : String → List (List Ebnf)} (h : AInv s F) (hg : SGrow s t) (hs : Same s t) : AInv t F := by
  have ha : Adds s t := .of hs.next hs.attrs
  refine ⟨ha.keys h.keys, ?_, ?_⟩
  · intro i r hr
    rw [rulesFor_congr hg.rules] at hr
    exact (h.below i r hr).mono ha
  · intro n i hn
    rw [hg.ids] at hn
    rw [rulesFor_congr hg.rules, ← h.attrs n i hn]
    exact List.map_congr_left fun r hr => ha.attrOf (h.below i r hr)

theorem compileBlock_attrs {s : Lang} {F : String → List (List Ebnf)} (h : AInv s F) (hg : GInv s F) (hi : TInv s.terminals) {us : List (Block NtDef)} (ho : OwnBlocks us)
    (hd : NoDup (s.compileBlock us)) : AInv (s.compileBlock us) (defsStep F us) := by
  have g1 := sgrow_addSymbols s us
  have g3 := (sgrow_useAll (us.foldl addUnit (s.addSymbols us))).trans (sgrow_checkUndefined _)
  have hd1 : NoDup (s.addSymbols us) := fun n hn => hd n (g3.errors _ (addUnits_errors us _ _ hn))
  have h1 := (h.same g1 (same_addSymbols s us)).addUnits us (hg.sgrow g1 hi hd1) (addSymbols_known s ho hi hd1)
  exact h1.same g3 ((same_useAll _).trans (same_checkUndefined _))

theorem compile_attrs : ∀ (blocks : List (List (Block NtDef))) (s : Lang), (∀ us ∈ blocks, OwnBlocks us) → ∀ {F : String → List (List Ebnf)}, AInv s F → GInv s F →
    TInv s.terminals → NoDup (s.compile blocks) → AInv (s.compile blocks) (blocks.foldl defsStep F)
  | [], s, _, F, h, _, _, _ => h
  | us :: more, s, ho, F, h, hg, hi, hd => by
    simp only [compile] at hd ⊢
    have hd1 : NoDup (s.compileBlock us) := fun n hn => hd n (compile_errors more _ _ hn)
    have hou := ho us (List.mem_cons_self ..)
    obtain ⟨h1, h2⟩ := compileBlock_spec hg hi hou hd1
    exact compile_attrs more _ (fun us hu => ho us (List.mem_cons_of_mem _ hu)) (compileBlock_attrs h hg hi hou hd1) h1 h2 hd

theorem ainv_new : AInv Lang.new (fun _ => []) := ⟨⟨Nat.one_pos, fun _ _ => rfl⟩, fun _ _ h => (nomatch h), fun _ _ h => (nomatch h)⟩

/-! ### The rules of a nonterminal -/

/-- A choice between sequences of items. -/
def choice (l : List Item) : List (List Item) → List Item
  | [] => l
  | m :: rest => [.ebnf .alternative [l, choice m rest]]

mutual
/-- The items that are written in a production; `f` numbers the terminals and `g` the nonterminals. -/
def itemOf (f g : String → Int) : Simple → List Item
  | .nonterminal _ n _ => [.nonterminal (g n)]
  | .terminal _ _ n _ => [.terminal (f n)]
  | .guard _ xs rest _ => [.guard (-1) (choice (itemsOf f g xs) (altsOf f g rest))]
  | .star x _ => [.ebnf .repeatZero [itemOf f g x]]
  | .plus x _ => [.ebnf .repeating [itemOf f g x]]
  | .question x _ => [.ebnf .optional [itemOf f g x]]
  | .paren xs rest _ => choice (itemsOf f g xs) (altsOf f g rest)

def itemsOf (f g : String → Int) : List Simple → List Item
  | [] => []
  | x :: xs => itemOf f g x ++ itemsOf f g xs

def altsOf (f g : String → Int) : List (List Simple) → List (List Item)
  | [] => []
  | xs :: rest => itemsOf f g xs :: altsOf f g rest
end

theorem tr_choice (N : Names) (rest : List (List Simple)) : ∀ (xs : List Simple) (a : Attr),
    ts N (.paren xs rest a) = choice (tss N xs) (rest.map (tss N)) := by
  induction rest with
  | nil => intro xs a; rw [ts_paren_nil]; rfl
  | cons ys rest ih => intro xs a; rw [ts_paren_cons, ih]; rfl

theorem tr_guard (N : Names) (c : Bool) (xs : List Simple) (rest : List (List Simple)) (a : Attr) :
    ts N (.guard c xs rest a) = [.guard (-1) (ts N (.paren xs rest .blank))] := by
  cases rest with
  | nil => simp only [ts, simpleDef, altDefs, trItem]
  | cons ys rest => simp only [ts, simpleDef, altDefs, trItem]

mutual
theorem itemOf_eq (N : Names) : ∀ x : Simple, trItem N (simpleDef x) = itemOf N.sym N.nt x
  | .nonterminal _ _ _ => by simp only [simpleDef, trItem, itemOf]
  | .terminal _ _ _ _ => by simp only [simpleDef, trItem, itemOf]
  | .guard _ xs rest _ => by
    show ts N _ = _
    rw [tr_guard, tr_choice, altsOf_eq N rest, tss, itemsOf_eq N xs]
    simp only [itemOf]
  | .star x _ => by simp only [simpleDef, trItem, itemOf, itemOf_eq N x]
  | .plus x _ => by simp only [simpleDef, trItem, itemOf, itemOf_eq N x]
  | .question x _ => by simp only [simpleDef, trItem, itemOf, itemOf_eq N x]
  | .paren xs rest a => by
    show ts N _ = _
    rw [tr_choice, altsOf_eq N rest, tss, itemsOf_eq N xs]
    simp only [itemOf]

theorem itemsOf_eq (N : Names) : ∀ xs : List Simple, trItems N (simpleDefs xs) = itemsOf N.sym N.nt xs
  | [] => by simp only [simpleDefs, trItems, itemsOf]
  | x :: xs => by simp only [simpleDefs, trItems, itemsOf, itemOf_eq N x, itemsOf_eq N xs]

theorem altsOf_eq (N : Names) : ∀ rest : List (List Simple), rest.map (tss N) = altsOf N.sym N.nt rest
  | [] => by simp only [List.map_nil, altsOf]
  | xs :: rest => by simp only [List.map_cons, altsOf, tss, itemsOf_eq N xs, altsOf_eq N rest]
end

theorem zip_map {α β γ δ : Type} {f : α → γ} {f' : β → γ} {g : α → δ} {g' : β → δ} : ∀ {l : List α} {m : List β}, l.map f = m.map f' → l.map g = m.map g' →
    (∀ x ∈ l, ∃ y ∈ m, f x = f' y ∧ g x = g' y) ∧ ∀ y ∈ m, ∃ x ∈ l, f x = f' y ∧ g x = g' y
  | [], [], _, _ => ⟨fun _ h => (nomatch h), fun _ h => (nomatch h)⟩
  | x :: l, y :: m, h1, h2 => by
    simp only [List.map_cons, List.cons.injEq] at h1 h2
    obtain ⟨k1, k2⟩ := zip_map h1.2 h2.2
    constructor
    · intro a ha
      rcases List.mem_cons.1 ha with rfl | ha
      · exact ⟨y, List.mem_cons_self .., h1.1, h2.1⟩
      · obtain ⟨b, hb, h⟩ := k1 a ha
        exact ⟨b, List.mem_cons_of_mem _ hb, h⟩
    · intro b hb
      rcases List.mem_cons.1 hb with rfl | hb
      · exact ⟨x, List.mem_cons_self .., h1.1, h2.1⟩
      · obtain ⟨a, ha, h⟩ := k2 b hb
        exact ⟨a, List.mem_cons_of_mem _ ha, h⟩

/-- A rule has the items of a production with what is written on them. -/
def RuleOf (s : Lang) (p : List Simple) (r : KeyRule) : Prop :=
  items r = itemsOf s.terminals.symbolForName (fun m => (s.ids.idForNonterminal m).2) p ∧ r.map (attrOf s) = writtens p

/-- **C72** (partial). The rules of a nonterminal are its productions, and the attributes of the items of a rule are, in this order, those that are written on the
items of the production (except what is written on a sequence in parentheses without alternatives, which is lost). -/
theorem rule_attributes_partial {blocks : List (List (Block NtSyntax))} (hown : ∀ d ∈ defsOf blocks, ∀ p ∈ d.prods, ownAll p = true)
    (hd : ∀ n, Err.duplicateLexer n ∉ (stage blocks).errors) {n : String} (hn : ∃ p, IsProd (defsOf blocks) n p) :
    (∀ r ∈ (stage blocks).rulesFor ((stage blocks).ids.idForNonterminal n).2, ∃ p, IsProd (defsOf blocks) n p ∧ RuleOf (stage blocks) p r) ∧
    ∀ p, IsProd (defsOf blocks) n p → ∃ r ∈ (stage blocks).rulesFor ((stage blocks).ids.idForNonterminal n).2, RuleOf (stage blocks) p r := by
  obtain ⟨hg, -⟩ := stage_inv hown hd
  have ha := compile_attrs (blocks.map (List.map unitDef)) Lang.new (ownBlocks_of hown) ainv_new ginv_new tinv_new hd
  rw [defsSteps_eq] at ha
  have ha : AInv (stage blocks) (((defsOf blocks).map ntDef).foldl defStep (fun _ => [])) := ha
  generalize hF : ((defsOf blocks).map ntDef).foldl defStep (fun _ => []) = F at hg ha
  have hmem : ∀ n q, q ∈ F n ↔ ∃ p, IsProd (defsOf blocks) n p ∧ q = simpleDefs p := by
    intro n q
    rw [← hF]
    exact mem_defSteps _ n q
  generalize stage blocks = s at hg ha
  have hk : s.ntKnown n := by
    obtain ⟨p, hp⟩ := hn
    exact hg.known n (List.ne_nil_of_mem ((hmem n _).2 ⟨p, hp, rfl⟩))
  obtain ⟨i, hi⟩ := Option.ne_none_iff_exists'.1 hk
  have hid : (s.ids.idForNonterminal n).2 = i := by simp only [GrammarIds.idForNonterminal, hi]
  rw [hid]
  obtain ⟨h1, h2⟩ := zip_map (hg.rules n i hi) (ha.attrs n i hi)
  have hrule : ∀ p r, IsProd (defsOf blocks) n p → items r = trItems s.names (simpleDefs p) → r.map (attrOf s) = itemsAttrs (simpleDefs p) → RuleOf s p r := by
    intro p r hp e1 e2
    refine ⟨?_, by rw [e2, attrs_simples]⟩
    rw [e1]
    let M : Names := ⟨s.names.sym, fun m => (s.ids.idForNonterminal m).2⟩
    rw [trItems_congr (N := s.names) (M := M) (T := s.termKnown) (U := s.ntKnown) (fun _ _ => rfl) ?_ _ (hg.closed n _ ((hmem n _).2 ⟨p, hp, rfl⟩))]
    · exact itemsOf_eq M p
    · intro m hm
      obtain ⟨j, hj⟩ := Option.ne_none_iff_exists'.1 hm
      show s.names.nt m = ((s.ids.idForNonterminal m).2 : Int)
      simp only [Lang.names, GrammarIds.idForNonterminal, hj, Option.getD_some]
  constructor
  · intro r hr
    obtain ⟨q, hq, e1, e2⟩ := h1 r hr
    obtain ⟨p, hp, rfl⟩ := (hmem n q).1 hq
    exact ⟨p, hp, hrule p r hp e1 e2⟩
  · intro p hp
    obtain ⟨r, hr, e1, e2⟩ := h2 _ ((hmem n _).2 ⟨p, hp, rfl⟩)
    exact ⟨r, hr, hrule p r hp e1 e2⟩

/-- `rule_item_data::set_attributes` on any rule, also one whose last item has attributes already: the last item gets them, the items stay, and every other key keeps what it had. -/
theorem setLast_attributes (s : Lang) (pre : KeyRule) (x : Item) (k : Nat) (a : Attr) (hk : k ≠ 0 → k < s.nextKey) (h0 : 0 < s.nextKey) :
    ∃ k', (setLast s (pre ++ [(x, k)]) a).2 = pre ++ [(x, k')] ∧ k' ≠ 0 ∧ (k ≠ 0 → k' = k) ∧ get k' (setLast s (pre ++ [(x, k)]) a).1.attrs = some a ∧
      k' < (setLast s (pre ++ [(x, k)]) a).1.nextKey ∧ ∀ j < s.nextKey, j ≠ k → get j (setLast s (pre ++ [(x, k)]) a).1.attrs = get j s.attrs := by
  unfold setLast
  rw [List.getLast?_append_of_ne_nil _ (by simp)]
  simp only [List.getLast?_singleton]
  by_cases hz : k = 0
  · subst hz
    rw [if_pos rfl]
    refine ⟨s.nextKey, by simp, by omega, fun h => absurd rfl h, by rw [get_put, if_pos rfl], Nat.lt_succ_self _, fun j hj _ => ?_⟩
    rw [get_put, if_neg (by omega)]
  · rw [if_neg hz]
    refine ⟨k, rfl, hz, fun _ => rfl, by rw [get_put, if_pos rfl], hk hz, fun j hj hne => ?_⟩
    rw [get_put, if_neg (by omega)]

namespace AttrExample
open Language.Example (t nt)

def named (n : String) : Attr := ⟨n, none, false⟩

/-- `S = a[first] (a b[second])[lost] [=> a]?[clash] (a | b)[choice]` and `S |= b`, where the guard may clash. -/
def prod : List Simple := [.terminal .ident "" "a" (named "first"), .paren [t "a", .terminal .ident "" "b" (named "second")] [] (named "lost"),
  .guard true [t "a"] [] (named "clash"), .paren [t "a"] [[t "b"]] (named "choice")]

def lang : List (List (Block NtSyntax)) := [[.lexer .keywords false false false [⟨.literal, "a", [], false, false⟩, ⟨.literal, "b", [], false, false⟩],
  .grammar [⟨.assignment, "S", [prod, [t "b"]]⟩]]]

example : writtens prod = [named "first", .blank, named "second", ⟨"clash", none, true⟩, named "choice"] := by decide +kernel

theorem lang_prod : IsProd (defsOf lang) "S" prod := ⟨[], _, [], rfl, rfl, List.mem_cons_self .., by simp⟩

/-- The hypotheses hold for this language. -/
example : ∃ r ∈ (stage lang).rulesFor ((stage lang).ids.idForNonterminal "S").2, RuleOf (stage lang) prod r :=
  (rule_attributes_partial (by decide +kernel) (by rw [show (stage lang).errors = [] from by decide +kernel]; simp) ⟨_, lang_prod⟩).2 _ lang_prod

/-- `S = (a b)`, with something written on the parentheses. -/
def parens (a : Attr) : List (List (Block NtSyntax)) :=
  [[.lexer .keywords false false false [⟨.literal, "a", [], false, false⟩, ⟨.literal, "b", [], false, false⟩],
    .grammar [⟨.assignment, "S", [[.paren [t "a", t "b"] [] a]]⟩]]]

/-- **C72**, parentheses: whatever is written on them is lost without an error, also the name `x`, a conflict attribute or the permission to clash. -/
theorem parens_violated : (∀ a, stage (parens a) = stage (parens .blank)) ∧ (stage (parens .blank)).errors = [] ∧
    ∀ p ∈ (stage (parens .blank)).rules, ∀ r ∈ p.2, r.map (attrOf (stage (parens .blank))) = [.blank, .blank] := by
  refine ⟨fun a => ?_, by decide +kernel, by decide +kernel⟩
  unfold stage parens
  simp only [List.map_cons, List.map_nil, unitDef, ntDef, simpleDefs, simpleDef, altDefs]

end AttrExample
end Attrs
end TameParse

import Verif.DefinitionProps
import Verif.CaseStage
/-
C90: the expressions that a language gives names to.
-/
namespace TameParse
namespace NamedExprs
open AssocMap TameParse.Language Lang LexerStage Regex

/-! ### What is written -/

/-- The definitions in the blocks of `lexer-symbols`, in the order in which they are written, with the case options of their blocks. -/
def written {δ : Type} (us : List (Block δ)) : List (Language.Lexeme × Bool × Bool) :=
  us.flatMap fun | .lexer .symbols _ ci cs ls => ls.map (fun l => (l, ci, cs)) | _ => []

/-- Those with a name. -/
def writtenAs {δ : Type} (us : List (Block δ)) (n : String) : List (Language.Lexeme × Bool × Bool) := (written us).filter (fun d => decide (d.1.name = n))

/-- The definition itself. -/
def itemOf (d : Language.Lexeme × Bool × Bool) : LexItem := ⟨(lexText d.1).1, (lexText d.1).2, d.2.1, d.2.2, -1, none, false⟩

/-! ### The rest of the stage leaves the expressions alone -/

def Same (s t : Lang) : Prop := t.exprs = s.exprs

theorem same_foldl {α : Type} (f : Lang → α → Lang) (l : List α) (hf : ∀ a ∈ l, ∀ s, Same s (f s a)) : ∀ s, Same s (l.foldl f s) := by
  induction l with
  | nil => exact fun s => rfl
  | cons a l ih => exact fun s => (ih (fun a ha => hf a (List.mem_cons_of_mem _ ha)) _).trans (hf a List.mem_cons_self s)

theorem same_appendAttr (s : Lang) (r : KeyRule) (a : Attr) : Same s (s.appendAttr r a).1 := by
  unfold appendAttr setLast
  split
  · rfl
  · cases r.getLast? with
    | none => rfl
    | some p => dsimp only; split <;> rfl

mutual
theorem same_compileItem : ∀ (x : Ebnf) (s : Lang) (r : KeyRule), Same s (s.compileItem r x).1
  | .terminal .., s, r => by simp only [compileItem]; exact same_appendAttr ..
  | .nonterminal .., s, r => by simp only [compileItem]; exact same_appendAttr ..
  | .paren xs _, s, r => by simp only [compileItem]; exact same_compileItems xs s r
  | .optional x _, s, r | .repeatOne x _, s, r | .repeatZero x _, s, r => by
    simp only [compileItem]; exact (same_appendAttr ..).trans (same_compileItem x s [])
  | .guard x _, s, r => by
    simp only [compileItem]
    exact (same_appendAttr ..).trans (same_compileItem x s [])
  | .alternative x y _, s, r => by
    simp only [compileItem]
    exact (same_appendAttr ..).trans ((same_compileItem y _ []).trans (same_compileItem x s []))

theorem same_compileItems : ∀ (xs : List Ebnf) (s : Lang) (r : KeyRule), Same s (s.compileItems r xs).1
  | [], s, r => by simp only [compileItems]; rfl
  | x :: xs, s, r => by simp only [compileItems]; exact (same_compileItems xs _ _).trans (same_compileItem x s r)
end

theorem same_addNt (s : Lang) (d : NtDef) : Same s (s.addNt d) := by
  unfold Lang.addNt
  generalize s.ids.idForNonterminal d.name = q
  obtain ⟨ids, i⟩ := q
  dsimp only
  refine Eq.trans (same_foldl (Lang.addProd i) _ (fun p _ s => ?_) _) ?_
  · unfold Lang.addProd
    exact same_compileItems p s []
  · simp only [Lang.error]; split_ifs <;> simp

mutual
theorem same_useItem : ∀ (x : Item) (s : Lang), Same s (s.useItem x)
  | .terminal n, s => by simp only [useItem]; rfl
  | .ebnf k rs, s => by simp only [useItem]; exact same_useRules rs s
  | .empty, s | .eoi, s | .eog, s | .nonterminal _, s | .guard _ _, s => by simp only [useItem]; rfl

theorem same_useItems : ∀ (xs : List Item) (s : Lang), Same s (s.useItems xs)
  | [], s => by simp only [useItems]; rfl
  | x :: xs, s => by simp only [useItems]; exact (same_useItems xs _).trans (same_useItem x s)

theorem same_useRules : ∀ (rs : List (List Item)) (s : Lang), Same s (s.useRules rs)
  | [], s => by simp only [useRules]; rfl
  | r :: rs, s => by simp only [useRules]; exact (same_useRules rs _).trans (same_useItems r s)
end

theorem same_symbolFor (t : UnitType) (s : Lang) (l : Language.Lexeme) : Same s (Lang.symbolFor t s l).1 := by
  unfold Lang.symbolFor Same
  simp only [Lang.error]
  split_ifs <;> rfl

theorem same_addLexeme (t : UnitType) (w ci cs : Bool) (s : Lang) (l : Language.Lexeme) : Same s (addLexeme t w ci cs s l) := by
  have h := same_symbolFor t s l
  unfold addLexeme
  generalize Lang.symbolFor t s l = q at h
  obtain ⟨s', i⟩ := q
  have h : s'.exprs = s.exprs := h
  unfold Same
  rw [← h]
  simp only [addDef]
  split_ifs <;> rfl

mutual
theorem same_implicit : ∀ (x : Ebnf) (s : Lang), Same s (s.implicit x)
  | .guard x _, s | .repeatZero x _, s | .repeatOne x _, s | .optional x _, s => by simp only [implicit]; exact same_implicit x s
  | .alternative x y _, s => by simp only [implicit]; exact (same_implicit y _).trans (same_implicit x s)
  | .paren xs _, s => by simp only [implicit]; exact same_implicits xs s
  | .terminal k src n _, s => by
    simp only [implicit]
    split
    · rfl
    · split <;> rfl
  | .nonterminal .., s => by simp only [implicit]; rfl

theorem same_implicits : ∀ (xs : List Ebnf) (s : Lang), Same s (s.implicits xs)
  | [], s => by simp only [implicits]; rfl
  | x :: xs, s => by simp only [implicits]; exact (same_implicits xs _).trans (same_implicit x s)
end

theorem same_compileBlock (s : Lang) (us : List (Block NtDef)) : Same (us.foldl addSymbolsUnit s) (s.compileBlock us) := by
  unfold compileBlock checkUndefined useAll Lang.addSymbols
  refine Eq.trans (same_foldl _ _ (fun i _ s => ?_) _) (Eq.trans (same_foldl _ _ (fun i _ s => same_foldl _ _ (fun r _ s => same_useItems (items r) s) s) _)
    (Eq.trans (same_foldl _ us (fun u _ s => ?_) _) (Eq.trans (same_foldl _ us (fun u _ s => ?_) _) (same_foldl _ passes (fun p hp s => same_foldl _ us (fun u _ s => ?_) s) _))))
  · split
    · split <;> rfl
    · rfl
  · cases u with
    | lexer => rfl
    | grammar ds => exact same_foldl _ ds (fun d _ s => same_addNt s d) s
  · cases u with
    | lexer => rfl
    | grammar ds => exact same_foldl _ ds (fun d _ s => same_foldl _ d.prods (fun q _ s => same_implicits q s) s) s
  · cases u with
    | lexer t w ci cs ls =>
      simp only [addLexerUnit]
      split
      · exact same_foldl _ ls (fun l _ s => same_addLexeme t w ci cs s l) s
      · rfl
    | grammar ds => rfl

/-! ### One definition -/

theorem get_erase {κ ν : Type} [DecidableEq κ] (k : κ) (m : List (κ × ν)) (x : κ) : get x (Lang.erase k m) = if k = x then none else get x m := by
  induction m with
  | nil => unfold Lang.erase; simp [AssocMap.get]
  | cons p m ih =>
    obtain ⟨a, b⟩ := p
    unfold Lang.erase at ih ⊢
    by_cases h : a = k
    · subst h
      rw [List.filter_cons_of_neg (by simp), ih]
      split
      · rfl
      · next hne => rw [AssocMap.get, if_neg hne]
    · rw [List.filter_cons_of_pos (by simpa using h), AssocMap.get, AssocMap.get, ih]
      split
      · next e => subst e; rw [if_neg (fun e => h e.symm)]
      · rfl

/-- The definitions of a name after one more. -/
theorem addSymbol_get (ci cs : Bool) (s : Lang) (l : Language.Lexeme) (n : String) :
    (get n (Lang.addSymbol ci cs s l).exprs).getD [] =
      if l.name = n then (if l.replace then [] else (get n s.exprs).getD []) ++ [itemOf (l, ci, cs)] else (get n s.exprs).getD [] := by
  have key : ∀ s' : Lang, s'.exprs = s.exprs → (get n ((if l.replace then { s' with exprs := Lang.erase l.name s'.exprs } else s').addExpr l.name (itemOf (l, ci, cs))).exprs).getD [] =
      if l.name = n then (if l.replace then [] else (get n s.exprs).getD []) ++ [itemOf (l, ci, cs)] else (get n s.exprs).getD [] := by
    intro s' hs
    unfold addExpr
    dsimp only
    rw [get_put]
    by_cases hr : l.replace = true
    · rw [if_pos hr]
      dsimp only
      rw [get_erase, get_erase, if_pos rfl, hs]
      split <;> simp
    · rw [if_neg hr, hs]
      split
      · next e => subst e; simp
      · rfl
  unfold Lang.addSymbol
  dsimp only
  refine key _ ?_
  simp only [Lang.error]
  split_ifs <;> rfl

/-! ### All of them -/

/-- What is left of the definitions of a name when each of these is added. -/
def after (old : List LexItem) (ds : List (Language.Lexeme × Bool × Bool)) : List LexItem :=
  ds.foldl (fun o d => (if d.1.replace then [] else o) ++ [itemOf d]) old

theorem units_get (n : String) (us : List (Block NtDef)) : ∀ s : Lang,
    (get n (us.foldl addSymbolsUnit s).exprs).getD [] = after ((get n s.exprs).getD []) (writtenAs us n) := by
  induction us with
  | nil => intro s; rfl
  | cons u us ih =>
    intro s
    rw [List.foldl_cons, ih]
    have hw : writtenAs (u :: us) n = writtenAs [u] n ++ writtenAs us n := by
      simp only [writtenAs, written, List.flatMap_cons, List.flatMap_nil, List.append_nil, List.filter_append]
    rw [hw]
    unfold after
    rw [List.foldl_append]
    congr 1
    have hls : ∀ (ci cs : Bool) (ls : List Language.Lexeme) (s : Lang), (get n (ls.foldl (Lang.addSymbol ci cs) s).exprs).getD [] =
        List.foldl (fun o d => (if d.1.replace then [] else o) ++ [itemOf d]) ((get n s.exprs).getD []) ((ls.map (fun l => (l, ci, cs))).filter (fun d => decide (d.1.name = n))) := by
      intro ci cs ls
      induction ls with
      | nil => intro s; rfl
      | cons l ls ih =>
        intro s
        rw [List.foldl_cons, ih, addSymbol_get, List.map_cons]
        by_cases h : l.name = n
        · rw [if_pos h, List.filter_cons_of_pos (by simpa using h), List.foldl_cons]
        · rw [if_neg h, List.filter_cons_of_neg (by simpa using h)]
    cases u with
    | grammar ds => rfl
    | lexer t w ci cs ls =>
      cases t with
      | symbols =>
        have := hls ci cs ls s
        simpa only [addSymbolsUnit, writtenAs, written, List.flatMap_cons, List.flatMap_nil, List.append_nil] using this
      | _ => rfl

theorem compile_get (n : String) (bs : List (List (Block NtDef))) : ∀ s : Lang,
    (get n (s.compile bs).exprs).getD [] = after ((get n s.exprs).getD []) (writtenAs bs.flatten n) := by
  induction bs with
  | nil => intro s; rfl
  | cons us bs ih =>
    intro s
    have e : (s.compileBlock us).exprs = (us.foldl addSymbolsUnit s).exprs := same_compileBlock s us
    rw [Lang.compile, ih, e, units_get, List.flatten_cons]
    have hw : writtenAs (us ++ bs.flatten) n = writtenAs us n ++ writtenAs bs.flatten n := by
      simp only [writtenAs, written, List.flatMap_append, List.filter_append]
    rw [hw]
    unfold after
    rw [List.foldl_append]

theorem after_plain (ds : List (Language.Lexeme × Bool × Bool)) (h : ∀ d ∈ ds, d.1.replace = false) : ∀ old, after old ds = old ++ ds.map itemOf := by
  induction ds with
  | nil => intro old; simp [after]
  | cons d ds ih =>
    intro old
    have hd := h d List.mem_cons_self
    have := ih (fun x hx => h x (List.mem_cons_of_mem _ hx)) (old ++ [itemOf d])
    simp only [after, List.foldl_cons, hd, Bool.false_eq_true, if_false] at this ⊢
    rw [this]
    simp

theorem written_unitDef (us : List (Block NtSyntax)) : written (us.map unitDef) = written us := by
  induction us with
  | nil => rfl
  | cons u us ih =>
    simp only [written, List.map_cons, List.flatMap_cons] at ih ⊢
    rw [ih]
    congr 1
    cases u with
    | grammar ds => rfl
    | lexer t w ci cs ls => cases t <;> rfl

/-- **C90**. The definitions that a language has under a name are those that are written in its `lexer-symbols` blocks and in those of the languages that it
inherits from, in this order, from the last one on that replaces the earlier ones. -/
theorem named_definitions (blocks : List (List (Block NtSyntax))) (n : String) (pre post : List (Language.Lexeme × Bool × Bool))
    (h : writtenAs blocks.flatten n = pre ++ post) (hfirst : pre = [] ∨ ∃ d l, post = d :: l ∧ d.1.replace = true)
    (hrest : ∀ d ∈ post.tail, d.1.replace = false) : (get n (stage blocks).exprs).getD [] = post.map itemOf := by
  unfold stage
  rw [compile_get]
  have hw : writtenAs (blocks.map (List.map unitDef)).flatten n = writtenAs blocks.flatten n := by
    rw [← List.map_flatten]
    simp only [writtenAs, written_unitDef]
  rw [hw, h]
  have h0 : (get n Lang.new.exprs).getD [] = [] := rfl
  rw [h0]
  cases post with
  | nil =>
    rcases hfirst with rfl | ⟨d, l, h', -⟩
    · rfl
    · cases h'
  | cons d post =>
    have e : after [] (pre ++ d :: post) = after ((if d.1.replace then [] else after [] pre) ++ [itemOf d]) post := by
      simp only [after, List.foldl_append, List.foldl_cons]
    have e' : (if d.1.replace then [] else after [] pre) = [] := by
      rcases hfirst with rfl | ⟨d', l, h1, h2⟩
      · split <;> rfl
      · cases h1
        rw [if_pos h2]
    rw [e, e', after_plain post hrest]
    rfl

/-- The symbols of a text. -/
def codes (w : List Char) : List Int := w.map (fun c => (c.toNat : Int))

theorem nameOf_codes (n : String) : nameOf (codes n.toList) = n := by
  unfold nameOf codes
  rw [List.map_map]
  have : ((fun x : Int => Char.ofNat x.toNat) ∘ fun c : Char => (c.toNat : Int)) = id := by
    funext c
    simp [Char.ofNat_toNat]
  rw [this, List.map_id]
  simp

/-- ... so this is what the lexer stage takes `{name}` for. -/
theorem named_meaning (env : Env) (folds : (SymSet → SymSet) × (SymSet → SymSet)) (blocks : List (List (Block NtSyntax))) (n : String)
    (pre post : List (Language.Lexeme × Bool × Bool)) (h : writtenAs blocks.flatten n = pre ++ post)
    (hfirst : pre = [] ∨ ∃ d l, post = d :: l ∧ d.1.replace = true) (hrest : ∀ d ∈ post.tail, d.1.replace = false) :
    (languageEnv env folds (stage blocks)).named (codes n.toList) = post.map (fun d => ⟨(lexText d.1).1, codes (lexText d.1).2, d.2.1, d.2.2⟩) := by
  show namedIn _ _ = _
  unfold namedIn
  rw [nameOf_codes, named_definitions blocks n pre post h hfirst hrest, List.map_map]
  rfl

end NamedExprs
end TameParse

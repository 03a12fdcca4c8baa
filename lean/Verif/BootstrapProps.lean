import Verif.Bootstrap
/-
C98: the front end of the bootstrapper and the finished one make the same language of a definition that both can read.
-/
namespace TameParse
namespace Bootstrap
open Language (Ebnf TermKind NtDef NtSyntax NtType Block UnitType LexKind Simple Lang KeyRule simpleDef simpleDefs altDefs seqOf seqLoop addChild ntDef unitDef)
open Language.Lang (compileItem compileItems implicit implicits)

/-! ### What the grammar of the bootstrapper can express -/

mutual
/-- Only names are given, and only to symbols and repetitions. -/
def Plain : Simple → Prop
  | .nonterminal s _ a => s = "" ∧ a = named a.name
  | .terminal _ s _ a => s = "" ∧ a = named a.name
  | .guard c f r a => c = false ∧ a = .blank ∧ PlainAll f ∧ PlainAlts r
  | .star x a | .plus x a | .question x a => a = named a.name ∧ Plain x
  | .paren f r a => a = .blank ∧ PlainAll f ∧ PlainAlts r

def PlainAll : List Simple → Prop
  | [] => True
  | x :: xs => Plain x ∧ PlainAll xs

def PlainAlts : List (List Simple) → Prop
  | [] => True
  | xs :: r => PlainAll xs ∧ PlainAlts r
end

/-! ### The trees -/

def leaf (t : Tok) (s : String) : Node := .mk none (some (t, s)) []

def node (n : Nt) (cs : List Node) : Node := .mk (some n) none cs

/-- The tree of `( X )*`, where each round adds a list of nodes. -/
def listOf (rounds : List (List Node)) : Node := rounds.foldl (fun l cs => node .list (l :: cs)) (node .list [])

/-- `( '[' identifier ']' )?` -/
def nameTree (a : Language.Attr) : Node :=
  if a.name = "" then node .list [] else node .list [node .itemName [leaf .openSquare "[", leaf .identifier a.name, leaf .closeSquare "]"]]

def tokOf : TermKind → Tok
  | .ident => .identifier
  | .string => .string
  | .character => .character

def ebnfTree (xs : List Node) : Option Node → Node
  | none => node .ebnfItem [listOf (xs.map ([·]))]
  | some e => node .ebnfItem [listOf (xs.map ([·])), leaf .pipe "|", e]

mutual
/-- The syntax tree of an item as it is written. -/
def tree : Simple → Node
  | .nonterminal _ n a => node .simpleEbnfItem [node .nonterminal [leaf .nonterminal n], nameTree a]
  | .terminal k _ n a => node .simpleEbnfItem [node .terminal [node .basicTerminal [leaf (tokOf k) n]], nameTree a]
  | .guard _ f r _ => node .simpleEbnfItem [node .guard [leaf .openGuard "[=>", ebnfTree (trees f) (treeRest r), leaf .closeSquare "]"]]
  | .star x a => node .simpleEbnfItem [tree x, leaf .star "*", nameTree a]
  | .plus x a => node .simpleEbnfItem [tree x, leaf .plus "+", nameTree a]
  | .question x a => node .simpleEbnfItem [tree x, leaf .question "?", nameTree a]
  | .paren f r _ => node .simpleEbnfItem [leaf .openParen "(", ebnfTree (trees f) (treeRest r), leaf .closeParen ")"]

def trees : List Simple → List Node
  | [] => []
  | x :: xs => tree x :: trees xs

def treeRest : List (List Simple) → Option Node
  | [] => none
  | f :: r => some (ebnfTree (trees f) (treeRest r))
end

def prodTree (p : List Simple) : Node := node .production [listOf ((trees p).map ([·]))]

/-- `nonterminal '=' Production ( '|' Production )*`, with a node for the guard. -/
def ntTree (g : Node) (d : NtSyntax) : Node :=
  node .nonterminalDefinition [g, leaf .nonterminal d.name, leaf .equals "=", prodTree (d.prods.headD []), listOf (d.prods.tail.map fun p => [leaf .pipe "|", prodTree p])]

def lexTok : LexKind → Tok
  | .literal => .identifier
  | .string => .string
  | .character => .character
  | .regex => .regex

def lexemeTree (l : Language.Lexeme) : Node :=
  node .lexemeDefinition [leaf .identifier l.name, leaf .equals "=", leaf .regex (String.ofList l.definition)]

def keywordTree (l : Language.Lexeme) : Node :=
  match l.kind with
  | .literal => node .keywordDefinition [leaf .identifier l.name]
  | k => node .keywordDefinition [leaf .identifier l.name, leaf .equals "=", leaf (lexTok k) (String.ofList l.definition)]

def weakTree (w : Bool) : Node := node .list (if w then [leaf .weak "weak"] else [])

def unitTree (g : Node) : Block NtSyntax → Node
  | .lexer .symbols _ _ _ ls => node .languageDefinition [node .lexerSymbols [leaf .lexerSymbols "lexer-symbols", leaf .openCurly "{", listOf (ls.map ([lexemeTree ·])), leaf .closeCurly "}"]]
  | .lexer .lexer w _ _ ls => node .languageDefinition [node .lexerDefinition [weakTree w, leaf .lexer "lexer", leaf .openCurly "{", listOf (ls.map ([lexemeTree ·])), leaf .closeCurly "}"]]
  | .lexer .ignore _ _ _ ls => node .languageDefinition [node .ignoreDefinition [leaf .ignore "ignore", leaf .openCurly "{", listOf (ls.map ([keywordTree ·])), leaf .closeCurly "}"]]
  | .lexer .keywords w _ _ ls => node .languageDefinition [node .keywordsDefinition [weakTree w, leaf .keywords "keywords", leaf .openCurly "{", listOf (ls.map ([keywordTree ·])), leaf .closeCurly "}"]]
  | .grammar ds => node .languageDefinition [node .grammarDefinition [leaf .grammar "grammar", leaf .openCurly "{", listOf (ds.map ([ntTree g ·])), leaf .closeCurly "}"]]

def plusOf : List (List Node) → Node
  | [] => node .list []
  | cs :: rounds => rounds.foldl (fun l cs => node .list (l :: cs)) (node .list cs)

def topTree (g : Node) : Top NtSyntax → Node
  | .language name us => node .toplevelBlock [node .languageBlock [leaf .language "language", leaf .identifier name, node .list [], leaf .openCurly "{",
      listOf (us.map ([unitTree g ·])), leaf .closeCurly "}"]]
  | .parser name lang starts => node .toplevelBlock [node .parserBlock [leaf .parser "parser", leaf .identifier name, leaf .colon ":", leaf .identifier lang, leaf .openCurly "{",
      plusOf (starts.map fun s => [node .parserStart [leaf .nonterminal s]]), leaf .closeCurly "}"]]

/-- The syntax tree of a file. -/
def fileTree (g : Node) (ts : List (Top NtSyntax)) : Node := node .parserLanguage [listOf (ts.map ([topTree g ·]))]

def PlainNt (d : NtSyntax) : Prop := d.type = .assignment ∧ d.prods ≠ [] ∧ ∀ p ∈ d.prods, PlainAll p

/-- A lexeme of a block of that type: keywords and ignored symbols may be just an identifier, others are regular expressions. -/
def PlainLexeme (t : UnitType) (l : Language.Lexeme) : Prop :=
  l.add = false ∧ l.replace = false ∧ (l.kind = .literal → l.definition = l.name.toList) ∧ (t = .symbols ∨ t = .lexer → l.kind = .regex)

def PlainUnit : Block NtSyntax → Prop
  | .lexer t w ci cs ls => ci = false ∧ cs = false ∧ (t = .symbols ∨ t = .ignore → w = false) ∧ ∀ l ∈ ls, PlainLexeme t l
  | .grammar ds => ∀ d ∈ ds, PlainNt d

def PlainTop : Top NtSyntax → Prop
  | .language _ us => ∀ u ∈ us, PlainUnit u
  | .parser _ _ starts => starts ≠ []

/-! ### What is read -/

def alt (xs : List Ebnf) : Option Ebnf → Ebnf
  | none => .paren xs .blank
  | some y => .alternative (.paren xs .blank) y .blank

mutual
def boot : Simple → Ebnf
  | .nonterminal s n a => .nonterminal s n a
  | .terminal k s n a => .terminal k s n a
  | .guard _ f r a => .guard (alt (boots f) (bootRest r)) a
  | .star x a => .repeatZero (boot x) a
  | .plus x a => .repeatOne (boot x) a
  | .question x a => .optional (boot x) a
  | .paren f r _ => alt (boots f) (bootRest r)

def boots : List Simple → List Ebnf
  | [] => []
  | x :: xs => boot x :: boots xs

def bootRest : List (List Simple) → Option Ebnf
  | [] => none
  | f :: r => some (alt (boots f) (bootRest r))
end

theorem listOf_snoc (rs : List (List Node)) (cs : List Node) : listOf (rs ++ [cs]) = node .list (listOf rs :: cs) := by
  simp [listOf, List.foldl_append]

theorem nameIn_tree (a : Language.Attr) : nameIn (nameTree a) = .ok a.name := by
  unfold nameTree
  split
  · rename_i h; rw [h]; rfl
  · rfl

theorem nameTree_length (a : Language.Attr) : (if (nameTree a).children.length = 1 then a.name else "") = a.name := by
  unfold nameTree
  split
  · rename_i h; rw [h]; rfl
  · rfl

theorem trees_eq (xs : List Simple) : trees xs = xs.map tree := by
  induction xs with
  | nil => rfl
  | cons x xs ih => simp only [trees, ih, List.map_cons]

theorem boots_eq (xs : List Simple) : boots xs = xs.map boot := by
  induction xs with
  | nil => rfl
  | cons x xs ih => simp only [boots, ih, List.map_cons]

theorem plainAll_mem {xs : List Simple} (h : PlainAll xs) : ∀ x ∈ xs, Plain x := by
  induction xs with
  | nil => simp
  | cons x xs ih =>
    simp only [PlainAll] at h
    intro y hy
    rcases List.mem_cons.mp hy with rfl | hy
    · exact h.1
    · exact ih h.2 y hy

theorem getList_listOf (xs : List Simple) (h : ∀ x ∈ xs, getItem (tree x) none = .ok (boot x)) : getList (listOf ((trees xs).map ([·]))) = .ok (boots xs) := by
  rw [trees_eq, boots_eq, List.map_map]
  induction xs using List.reverseRecOn with
  | nil => simp only [List.map_nil, listOf, List.foldl_nil, node]; rw [getList]
  | append_singleton xs x ih =>
    rw [List.map_append, List.map_singleton, listOf_snoc, List.map_append, List.map_singleton]
    change getList (.mk (some .list) none [_, tree x]) = _
    rw [getList]
    rw [ih (fun y hy => h y (List.mem_append_left _ hy)), h x (by simp)]
    rfl

theorem getItem_ebnf (xs : List Simple) (o : Option Node) (q : Option Ebnf) (h : ∀ x ∈ xs, getItem (tree x) none = .ok (boot x))
    (hq : match o, q with | none, none => True | some n, some y => getItem n none = .ok y | _, _ => False) :
    getItem (ebnfTree (trees xs) o) none = .ok (alt (boots xs) q) := by
  match o, q, hq with
  | none, none, _ =>
    simp only [ebnfTree, node, alt]
    rw [getItem]
    simp only [bind, Except.bind]
    rw [getList_listOf xs h]
    rfl
  | some n, some y, hq =>
    simp only [ebnfTree, node, alt]
    rw [getItem]
    simp only [bind, Except.bind]
    rw [getList_listOf xs h]
    simp only []
    rw [hq]
    rfl

theorem tree_lexeme (w : Simple) : (tree w).lexeme = none := by cases w <;> rfl

mutual
theorem getItem_tree : ∀ w : Simple, Plain w → getItem (tree w) none = .ok (boot w)
  | .nonterminal s n a, h => by
    simp only [Plain] at h
    obtain ⟨rfl, h⟩ := h
    simp only [tree, node, boot]
    rw [getItem]
    simp only [bind, Except.bind]
    rw [getItem]
    simp only [nameIn_tree, bind, Except.bind]
    rw [← h]
    rfl
  | .terminal k s n a, h => by
    simp only [Plain] at h
    obtain ⟨rfl, h⟩ := h
    simp only [tree, node, boot]
    rw [getItem]
    simp only [bind, Except.bind]
    rw [getItem]
    simp only [nameIn_tree, bind, Except.bind]
    rw [getItem]
    simp only [nameIn_tree, bind, Except.bind]
    cases k <;> (simp only [child, List.getElem?_cons_zero, matched, leaf, tokOf, kindOf, content, Node.lexeme]; rw [← h])
  | .guard c f r a, h => by
    simp only [Plain] at h
    obtain ⟨rfl, rfl, hf, hr⟩ := h
    simp only [tree, node, boot]
    rw [getItem]
    simp only [bind, Except.bind]
    rw [getItem]
    simp only [bind, Except.bind]
    rw [getItem_ebnf f _ _ (getItem_trees f hf) (getItem_rest r hr)]
    rfl
  | .star x a, h => by
    simp only [Plain] at h
    simp only [tree, node, boot]
    rw [getItem]
    simp only [bind, Except.bind]
    rw [tree_lexeme, getItem_tree x h.2]
    simp only [nameIn_tree, nameTree_length, matched, leaf, Node.lexeme, closureOf]
    rw [← h.1]
  | .plus x a, h => by
    simp only [Plain] at h
    simp only [tree, node, boot]
    rw [getItem]
    simp only [bind, Except.bind]
    rw [tree_lexeme, getItem_tree x h.2]
    simp only [nameIn_tree, nameTree_length, matched, leaf, Node.lexeme, closureOf]
    rw [← h.1]
  | .question x a, h => by
    simp only [Plain] at h
    simp only [tree, node, boot]
    rw [getItem]
    simp only [bind, Except.bind]
    rw [tree_lexeme, getItem_tree x h.2]
    simp only [nameIn_tree, nameTree_length, matched, leaf, Node.lexeme, closureOf]
    rw [← h.1]
  | .paren f r a, h => by
    simp only [Plain] at h
    obtain ⟨rfl, hf, hr⟩ := h
    simp only [tree, node, boot]
    rw [getItem]
    simp only [bind, Except.bind, leaf, Node.lexeme]
    exact getItem_ebnf f _ _ (getItem_trees f hf) (getItem_rest r hr)

theorem getItem_trees : ∀ xs : List Simple, PlainAll xs → ∀ x ∈ xs, getItem (tree x) none = .ok (boot x)
  | [], _, _, hx => by simp at hx
  | y :: ys, h, x, hx => by
    simp only [PlainAll] at h
    exact (List.mem_cons.mp hx).elim (fun e => e ▸ getItem_tree y h.1) (getItem_trees ys h.2 x)

theorem getItem_rest : ∀ r : List (List Simple), PlainAlts r →
    match treeRest r, bootRest r with | none, none => True | some n, some y => getItem n none = .ok y | _, _ => False
  | [], _ => by simp only [treeRest, bootRest]
  | f :: r, h => by
    simp only [PlainAlts] at h
    simp only [treeRest, bootRest]
    exact getItem_ebnf f _ _ (getItem_trees f h.1) (getItem_rest r h.2)
end

/-! ### Both readings compile alike -/

/-- Two items that nobody can tell apart after compiling. -/
def Same (x y : Ebnf) : Prop := (∀ s r, compileItem s r x = compileItem s r y) ∧ ∀ s, implicit s x = implicit s y

def SameAll (xs ys : List Ebnf) : Prop := (∀ s r, compileItems s r xs = compileItems s r ys) ∧ ∀ s, implicits s xs = implicits s ys

theorem compileItems_append (xs ys : List Ebnf) (s : Lang) (r : KeyRule) :
    compileItems s r (xs ++ ys) = compileItems (compileItems s r xs).1 (compileItems s r xs).2 ys := by
  induction xs generalizing s r with
  | nil => simp only [List.nil_append, compileItems]
  | cons x xs ih => simp only [List.cons_append, compileItems, ih]

theorem implicits_append (xs ys : List Ebnf) (s : Lang) : implicits s (xs ++ ys) = implicits (implicits s xs) ys := by
  induction xs generalizing s with
  | nil => simp only [List.nil_append, implicits]
  | cons x xs ih => simp only [List.cons_append, implicits, ih]

theorem seqLoop_paren (xs : List Ebnf) : ∀ ys a, seqLoop (some (.paren ys a)) true xs = some (.paren (ys ++ xs) a) := by
  induction xs with
  | nil => intro ys a; simp [seqLoop]
  | cons x xs ih => intro ys a; simp only [seqLoop, addChild]; rw [ih]; simp

theorem same_seq (xs : List Ebnf) : Same (.paren xs .blank) (seqOf xs) := by
  match xs with
  | [] => exact ⟨fun _ _ => rfl, fun _ => rfl⟩
  | [x] =>
    refine ⟨fun s r => ?_, fun s => ?_⟩
    · simp only [seqOf, seqLoop, Option.getD_some, compileItem, compileItems]
    · simp only [seqOf, seqLoop, Option.getD_some, implicit, implicits]
  | x :: y :: zs =>
    have : seqOf (x :: y :: zs) = .paren (x :: y :: zs) .blank := by
      simp only [seqOf, seqLoop, addChild, List.nil_append]
      rw [seqLoop_paren]
      rfl
    rw [this]
    exact ⟨fun _ _ => rfl, fun _ => rfl⟩

theorem same_paren {xs ys : List Ebnf} (h : SameAll xs ys) : Same (.paren xs .blank) (seqOf ys) := by
  refine ⟨fun s r => ?_, fun s => ?_⟩
  · rw [← (same_seq ys).1, compileItem, compileItem, h.1]
  · rw [← (same_seq ys).2, implicit, implicit, h.2]

/-- The alternatives of the finished front end. -/
def alts (xs : List Ebnf) : Option Ebnf → Ebnf
  | none => seqOf xs
  | some y => .alternative (seqOf xs) y .blank

theorem same_alternative {x y x' y' : Ebnf} (a : Language.Attr) (hx : Same x x') (hy : Same y y') : Same (.alternative x y a) (.alternative x' y' a) := by
  refine ⟨fun s r => ?_, fun s => ?_⟩
  · rw [compileItem, compileItem, hx.1]
    simp only [hy.1]
  · rw [implicit, implicit, hx.2, hy.2]

theorem same_alt {xs ys : List Ebnf} {o q : Option Ebnf} (h : SameAll xs ys) (hq : match o, q with | none, none => True | some x, some y => Same x y | _, _ => False) :
    Same (alt xs o) (alts ys q) := by
  match o, q, hq with
  | none, none, _ => exact same_paren h
  | some x, some y, hq => exact same_alternative _ (same_paren h) hq

mutual
theorem same_boot : ∀ w : Simple, Plain w → Same (boot w) (simpleDef w)
  | .nonterminal _ _ _, _ => by simp only [boot, simpleDef]; exact ⟨fun _ _ => rfl, fun _ => rfl⟩
  | .terminal _ _ _ _, _ => by simp only [boot, simpleDef]; exact ⟨fun _ _ => rfl, fun _ => rfl⟩
  | .guard c f r a, h => by
    simp only [Plain] at h
    obtain ⟨rfl, rfl, hf, hr⟩ := h
    have h' := same_alt (same_boots f hf) (same_rest r hr)
    have e : simpleDef (.guard false f r .blank) = .guard (alts (simpleDefs f) (altDefs r)) .blank := by
      simp only [simpleDef]; cases altDefs r <;> rfl
    rw [e]
    simp only [boot]
    refine ⟨fun s k => ?_, fun s => ?_⟩
    · rw [compileItem, compileItem, h'.1]
    · rw [implicit, implicit, h'.2]
  | .star x a, h => by
    simp only [Plain] at h
    have h' := same_boot x h.2
    simp only [boot, simpleDef]
    refine ⟨fun s k => ?_, fun s => ?_⟩
    · rw [compileItem, compileItem, h'.1]
    · rw [implicit, implicit, h'.2]
  | .plus x a, h => by
    simp only [Plain] at h
    have h' := same_boot x h.2
    simp only [boot, simpleDef]
    refine ⟨fun s k => ?_, fun s => ?_⟩
    · rw [compileItem, compileItem, h'.1]
    · rw [implicit, implicit, h'.2]
  | .question x a, h => by
    simp only [Plain] at h
    have h' := same_boot x h.2
    simp only [boot, simpleDef]
    refine ⟨fun s k => ?_, fun s => ?_⟩
    · rw [compileItem, compileItem, h'.1]
    · rw [implicit, implicit, h'.2]
  | .paren f r a, h => by
    simp only [Plain] at h
    obtain ⟨rfl, hf, hr⟩ := h
    have e : simpleDef (.paren f r .blank) = alts (simpleDefs f) (altDefs r) := by
      simp only [simpleDef]; cases altDefs r <;> rfl
    rw [e]
    simp only [boot]
    exact same_alt (same_boots f hf) (same_rest r hr)

theorem same_boots : ∀ xs : List Simple, PlainAll xs → SameAll (boots xs) (simpleDefs xs)
  | [], _ => by simp only [boots, simpleDefs]; exact ⟨fun _ _ => rfl, fun _ => rfl⟩
  | x :: xs, h => by
    simp only [PlainAll] at h
    simp only [boots, simpleDefs]
    refine ⟨fun s k => ?_, fun s => ?_⟩
    · rw [compileItems, compileItems, (same_boot x h.1).1]
      simp only [(same_boots xs h.2).1]
    · rw [implicits, implicits, (same_boot x h.1).2, (same_boots xs h.2).2]

theorem same_rest : ∀ r : List (List Simple), PlainAlts r →
    match bootRest r, altDefs r with | none, none => True | some x, some y => Same x y | _, _ => False
  | [], _ => by simp only [bootRest, altDefs]
  | f :: r, h => by
    simp only [PlainAlts] at h
    have e : altDefs (f :: r) = some (alts (simpleDefs f) (altDefs r)) := by
      simp only [altDefs]; cases altDefs r <;> rfl
    rw [e]
    simp only [bootRest]
    exact same_alt (same_boots f h.1) (same_rest r h.2)
end

/-! ### Blocks -/

/-- What is read of a nonterminal. -/
def ntBoot (d : NtSyntax) : NtDef := ⟨d.type, d.name, d.prods.map boots⟩

def unitBoot : Block NtSyntax → Block NtDef
  | .lexer t w ci cs ls => .lexer t w ci cs ls
  | .grammar ds => .grammar (ds.map ntBoot)

def topBoot : Top NtSyntax → Top NtDef
  | .language n us => .language n (us.map unitBoot)
  | .parser n l starts => .parser n l starts.reverse

theorem getProduction_tree (p : List Simple) (h : PlainAll p) : getProduction (prodTree p) = .ok (boots p) := by
  simp only [getProduction, prodTree, node, Node.item, if_true, Node.children, child, List.getElem?_cons_zero]
  exact getList_listOf p (getItem_trees p h)

theorem getProductions_tree (ps : List (List Simple)) (h : ∀ p ∈ ps, PlainAll p) :
    getProductions (listOf (ps.map fun p => [leaf .pipe "|", prodTree p])) = .ok (ps.map boots) := by
  induction ps using List.reverseRecOn with
  | nil => simp only [List.map_nil, listOf, List.foldl_nil, node]; rw [getProductions]
  | append_singleton ps p ih =>
    rw [List.map_append, List.map_singleton, listOf_snoc, List.map_append, List.map_singleton]
    simp only [node]
    rw [getProductions, ih (fun y hy => h y (List.mem_append_left _ hy)), getProduction_tree p (h p (by simp))]
    rfl

theorem getGrammar_tree (g : Node) (ds : List NtSyntax) (h : ∀ d ∈ ds, PlainNt d) : getGrammar (listOf (ds.map ([ntTree g ·]))) = .ok (ds.map ntBoot) := by
  induction ds using List.reverseRecOn with
  | nil => simp only [List.map_nil, listOf, List.foldl_nil, node]; rw [getGrammar]
  | append_singleton ds d ih =>
    rw [List.map_append, List.map_singleton, listOf_snoc, List.map_append, List.map_singleton]
    simp only [node]
    rw [getGrammar, ih (fun y hy => h y (List.mem_append_left _ hy))]
    obtain ⟨ht, hne, hp⟩ := h d (by simp)
    obtain ⟨t, name, prods⟩ := d
    cases prods with
    | nil => exact absurd rfl hne
    | cons p ps =>
      simp only [ntTree, node, Node.children, child, bind, Except.bind, List.getElem?_cons_succ, List.getElem?_cons_zero, List.headD_cons, List.tail_cons,
        content, leaf, Node.lexeme]
      rw [getProduction_tree p (hp p (by simp))]
      have := getProductions_tree ps (fun q hq => hp q (by simp [hq]))
      simp only [leaf] at this
      simp only [this]
      simp only at ht
      subst ht
      rfl

theorem getLexeme_lexeme {t : UnitType} (ht : t = .symbols ∨ t = .lexer) (l : Language.Lexeme) (h : PlainLexeme t l) : getLexeme (lexemeTree l) = .ok l := by
  obtain ⟨k, n, d, a, r⟩ := l
  obtain ⟨ha, hr, hl, hk⟩ := h
  replace hk := hk ht
  simp only at ha hr hk
  subst ha hr hk
  simp [getLexeme, lexemeTree, node, Node.item, Node.children, child, bind, Except.bind, content, leaf, Node.lexeme]

theorem getLexeme_keyword {t : UnitType} (l : Language.Lexeme) (h : PlainLexeme t l) : getLexeme (keywordTree l) = .ok l := by
  obtain ⟨k, n, d, a, r⟩ := l
  obtain ⟨ha, hr, hl, hk⟩ := h
  simp only at ha hr hl
  subst ha hr
  cases k <;> simp [getLexeme, keywordTree, node, Node.item, Node.children, child, bind, Except.bind, content, leaf, Node.lexeme, matched, lexTok, lexKindOf]
  exact (hl rfl).symm

theorem getLexer_tree (f : Language.Lexeme → Node) (ls : List Language.Lexeme) (h : ∀ l ∈ ls, getLexeme (f l) = .ok l) :
    getLexer (listOf (ls.map ([f ·]))) = .ok ls := by
  induction ls using List.reverseRecOn with
  | nil => simp only [List.map_nil, listOf, List.foldl_nil, node]; rw [getLexer]
  | append_singleton ls l ih =>
    rw [List.map_append, List.map_singleton, listOf_snoc]
    simp only [node]
    rw [getLexer, ih (fun y hy => h y (List.mem_append_left _ hy)), h l (by simp)]
    rfl

theorem weakTree_children (w : Bool) : (!(weakTree w).children.isEmpty) = w := by cases w <;> rfl

theorem getDefn_tree (g : Node) (u : Block NtSyntax) (h : PlainUnit u) : getDefn (unitTree g u) = .ok (unitBoot u) := by
  match u with
  | .grammar ds =>
    simp only [getDefn, unitTree, node, Node.item, Node.children, child, bind, Except.bind, List.getElem?_cons_succ, List.getElem?_cons_zero, content, leaf, Node.lexeme]
    rw [getGrammar_tree g ds h]
    rfl
  | .lexer t w ci cs ls =>
    obtain ⟨rfl, rfl, hw, hl⟩ := h
    cases t
    all_goals
      simp only [getDefn, unitTree, node, Node.item, Node.children, child, bind, Except.bind, List.getElem?_cons_succ, List.getElem?_cons_zero, content, leaf, Node.lexeme,
        unitBoot]
    · rw [getLexer_tree lexemeTree ls fun l hx => getLexeme_lexeme (.inl rfl) l (hl l hx)]
      rw [hw (.inl rfl)]
    · rw [getLexer_tree keywordTree ls fun l hx => getLexeme_keyword l (hl l hx), ← weakTree_children w]
      cases w <;> rfl
    · rw [getLexer_tree lexemeTree ls fun l hx => getLexeme_lexeme (.inr rfl) l (hl l hx)]
      cases w <;> rfl
    · rw [getLexer_tree keywordTree ls fun l hx => getLexeme_keyword l (hl l hx)]
      rw [hw (.inr rfl)]

theorem getDefns_tree (g : Node) (us : List (Block NtSyntax)) (h : ∀ u ∈ us, PlainUnit u) : getDefns (listOf (us.map ([unitTree g ·]))) = .ok (us.map unitBoot) := by
  induction us using List.reverseRecOn with
  | nil => simp only [List.map_nil, listOf, List.foldl_nil, node]; rw [getDefns]
  | append_singleton us u ih =>
    rw [List.map_append, List.map_singleton, listOf_snoc, List.map_append, List.map_singleton]
    simp only [node]
    rw [getDefns, ih (fun y hy => h y (List.mem_append_left _ hy)), getDefn_tree g u (h u (by simp))]
    rfl

theorem getStarts_tree (starts : List String) (h : starts ≠ []) :
    getStarts (plusOf (starts.map fun s => [node .parserStart [leaf .nonterminal s]])) = .ok starts.reverse := by
  cases starts with
  | nil => exact absurd rfl h
  | cons x xs =>
    simp only [List.map_cons, plusOf]
    induction xs using List.reverseRecOn with
    | nil =>
      simp only [List.map_nil, List.foldl_nil, node]
      rw [getStarts]
      · rfl
      · simp
    | append_singleton xs y ih =>
      rw [List.map_append, List.map_singleton, List.foldl_append, List.foldl_cons, List.foldl_nil]
      have ih := ih (by simp)
      generalize List.foldl (fun l cs => node .list (l :: cs)) (node .list [node .parserStart [leaf .nonterminal x]]) _ = l at ih ⊢
      simp only [node]
      rw [getStarts, ih]
      simp only [bind, Except.bind, Node.children, child, List.getElem?_cons_zero, content, leaf, Node.lexeme]
      simp

theorem getTop_tree (g : Node) (t : Top NtSyntax) (h : PlainTop t) : getTop (topTree g t) = .ok (topBoot t) := by
  match t with
  | .language n us =>
    simp only [getTop, topTree, node, Node.item, if_true, getLanguage, Node.children, child, bind, Except.bind, List.getElem?_cons_succ, List.getElem?_cons_zero, content, leaf,
      Node.lexeme, Option.isNone_some, Bool.or_self, Bool.false_eq_true, if_false, List.length_nil, ne_eq, not_true_eq_false]
    rw [getDefns_tree g us h]
    rfl
  | .parser n l starts =>
    simp only [getTop, topTree, node, Node.item, if_true, getParser, Option.some.injEq, reduceCtorEq, if_false]
    have := getStarts_tree starts h
    simp only [node] at this
    rw [this]
    rfl

theorem getTops_tree (g : Node) (ts : List (Top NtSyntax)) (h : ∀ t ∈ ts, PlainTop t) : getTops (listOf (ts.map ([topTree g ·]))) = .ok (ts.map topBoot) := by
  induction ts using List.reverseRecOn with
  | nil => simp only [List.map_nil, listOf, List.foldl_nil, node]; rw [getTops]
  | append_singleton ts t ih =>
    rw [List.map_append, List.map_singleton, listOf_snoc, List.map_append, List.map_singleton]
    simp only [node]
    rw [getTops, ih (fun y hy => h y (List.mem_append_left _ hy)), getTop_tree g t (h t (by simp))]
    rfl

theorem foldl_same {α β σ : Type} (f : σ → β → σ) (A B : α → β) (us : List α) (h : ∀ u ∈ us, ∀ s, f s (A u) = f s (B u)) (s : σ) :
    (us.map A).foldl f s = (us.map B).foldl f s := by
  induction us generalizing s with
  | nil => rfl
  | cons u us ih =>
    simp only [List.map_cons, List.foldl_cons]
    rw [h u (by simp), ih fun v hv => h v (by simp [hv])]

theorem addNt_same (d : NtSyntax) (h : PlainNt d) (s : Lang) : s.addNt (ntBoot d) = s.addNt (ntDef d) := by
  simp only [Lang.addNt, ntBoot, ntDef]
  refine foldl_same _ _ _ _ (fun p hp s => ?_) _
  simp only [Lang.addProd, (same_boots p (h.2.2 p hp)).1]

theorem compileBlock_same (us : List (Block NtSyntax)) (h : ∀ u ∈ us, PlainUnit u) (s : Lang) :
    s.compileBlock (us.map unitBoot) = s.compileBlock (us.map unitDef) := by
  have lex : ∀ (f : Lang → Block NtDef → Lang), (∀ s ds, f s (.grammar ds) = s) → ∀ s, (us.map unitBoot).foldl f s = (us.map unitDef).foldl f s := by
    intro f hf s
    refine foldl_same _ _ _ _ (fun u _ s => ?_) s
    cases u with
    | lexer => rfl
    | grammar => simp only [unitBoot, unitDef, hf]
  have imp : ∀ s, (us.map unitBoot).foldl Lang.implicitUnit s = (us.map unitDef).foldl Lang.implicitUnit s := by
    intro s
    refine foldl_same _ _ _ _ (fun u hu s => ?_) s
    cases u with
    | lexer => rfl
    | grammar ds =>
      simp only [unitBoot, unitDef, Lang.implicitUnit]
      refine foldl_same _ _ _ _ (fun d hd s => ?_) s
      simp only [ntBoot, ntDef]
      exact foldl_same _ _ _ _ (fun p hp s => (same_boots p ((h _ hu d hd).2.2 p hp)).2 s) s
  have add : ∀ s, (us.map unitBoot).foldl Lang.addUnit s = (us.map unitDef).foldl Lang.addUnit s := by
    intro s
    refine foldl_same _ _ _ _ (fun u hu s => ?_) s
    cases u with
    | lexer => rfl
    | grammar ds =>
      simp only [unitBoot, unitDef, Lang.addUnit]
      exact foldl_same _ _ _ _ (fun d hd s => addNt_same d (h _ hu d hd) s) s
  have sym : s.addSymbols (us.map unitBoot) = s.addSymbols (us.map unitDef) := by
    simp only [Lang.addSymbols]
    rw [imp, lex Lang.addSymbolsUnit (fun _ _ => rfl)]
    simp only [lex (Lang.addLexerUnit _ _) (fun _ _ => rfl)]
  simp only [Lang.compileBlock, sym, add]

/-! ### The trees are what the parser makes -/

theorem fits_star {b : List Sym} (rounds : List (List Node)) (h : ∀ cs ∈ rounds, FitsAll b cs) : Fits (.star b) (listOf rounds) := by
  induction rounds using List.reverseRecOn with
  | nil => exact .starNil b
  | append_singleton rs cs ih =>
    rw [listOf_snoc]
    exact .starCons (.cons (ih fun c hc => h c (List.mem_append_left _ hc)) (h cs (by simp)))

theorem fits_plus {b : List Sym} (rounds : List (List Node)) (hne : rounds ≠ []) (h : ∀ cs ∈ rounds, FitsAll b cs) : Fits (.plus b) (plusOf rounds) := by
  cases rounds with
  | nil => exact absurd rfl hne
  | cons x xs =>
    simp only [plusOf]
    induction xs using List.reverseRecOn with
    | nil => exact .plusOne (h x (by simp))
    | append_singleton rs cs ih =>
      rw [List.foldl_append, List.foldl_cons, List.foldl_nil]
      exact .plusCons (.cons (ih (by simp) fun c hc => h c (by simp at hc ⊢; tauto)) (h cs (by simp)))

theorem fits_leaf (t : Tok) (s : String) : Fits (.t t) (leaf t s) := .t t s

theorem fits_one {s : Sym} {c : Node} (h : Fits s c) : FitsAll [s] [c] := .cons h .nil

theorem fits_name (a : Language.Attr) : Fits (.opt [.n .itemName]) (nameTree a) := by
  unfold nameTree
  split
  · exact .optNil _
  · exact .optSome (fits_one (.n (r := [.t .openSquare, .t .identifier, .t .closeSquare]) (by simp [rules])
      (.cons (fits_leaf _ _) (.cons (fits_leaf _ _) (fits_one (fits_leaf _ _))))))

theorem fits_items (xs : List Simple) (h : ∀ x ∈ xs, Fits (.n .simpleEbnfItem) (tree x)) : Fits (.star [.n .simpleEbnfItem]) (listOf ((trees xs).map ([·]))) := by
  refine fits_star _ fun cs hc => ?_
  rw [trees_eq] at hc
  simp only [List.map_map, List.mem_map] at hc
  obtain ⟨x, hx, rfl⟩ := hc
  exact fits_one (h x hx)

theorem fits_ebnf (xs : List Simple) (o : Option Node) (h : ∀ x ∈ xs, Fits (.n .simpleEbnfItem) (tree x)) (ho : ∀ n, o = some n → Fits (.n .ebnfItem) n) :
    Fits (.n .ebnfItem) (ebnfTree (trees xs) o) := by
  cases o with
  | none => exact .n (r := [.star [.n .simpleEbnfItem]]) (by simp [rules]) (fits_one (fits_items xs h))
  | some n =>
    exact .n (r := [.star [.n .simpleEbnfItem], .t .pipe, .n .ebnfItem]) (by simp [rules])
      (.cons (fits_items xs h) (.cons (fits_leaf _ _) (fits_one (ho n rfl))))

mutual
theorem fits_tree : ∀ w : Simple, Fits (.n .simpleEbnfItem) (tree w)
  | .nonterminal s n a => by
    simp only [tree]
    exact .n (r := [.n .nonterminal, .opt [.n .itemName]]) (by simp [rules])
      (.cons (.n (r := [.t .nonterminal]) (by simp [rules]) (fits_one (fits_leaf _ _))) (fits_one (fits_name a)))
  | .terminal k s n a => by
    simp only [tree]
    refine .n (r := [.n .terminal, .opt [.n .itemName]]) (by simp [rules])
      (.cons (.n (r := [.n .basicTerminal]) (by simp [rules]) (fits_one (.n (r := [.t (tokOf k)]) ?_ (fits_one (fits_leaf _ _))))) (fits_one (fits_name a)))
    cases k <;> simp [rules, tokOf]
  | .guard _ f r _ => by
    simp only [tree]
    exact .n (r := [.n .guard]) (by simp [rules]) (fits_one (.n (r := [.t .openGuard, .n .ebnfItem, .t .closeSquare]) (by simp [rules])
      (.cons (fits_leaf _ _) (.cons (fits_ebnf f _ (fits_trees f) (fits_rest r)) (fits_one (fits_leaf _ _))))))
  | .star x a => by
    simp only [tree]
    exact .n (r := [.n .simpleEbnfItem, .t .star, .opt [.n .itemName]]) (by simp [rules]) (.cons (fits_tree x) (.cons (fits_leaf _ _) (fits_one (fits_name a))))
  | .plus x a => by
    simp only [tree]
    exact .n (r := [.n .simpleEbnfItem, .t .plus, .opt [.n .itemName]]) (by simp [rules]) (.cons (fits_tree x) (.cons (fits_leaf _ _) (fits_one (fits_name a))))
  | .question x a => by
    simp only [tree]
    exact .n (r := [.n .simpleEbnfItem, .t .question, .opt [.n .itemName]]) (by simp [rules]) (.cons (fits_tree x) (.cons (fits_leaf _ _) (fits_one (fits_name a))))
  | .paren f r _ => by
    simp only [tree]
    exact .n (r := [.t .openParen, .n .ebnfItem, .t .closeParen]) (by simp [rules])
      (.cons (fits_leaf _ _) (.cons (fits_ebnf f _ (fits_trees f) (fits_rest r)) (fits_one (fits_leaf _ _))))

theorem fits_trees : ∀ xs : List Simple, ∀ x ∈ xs, Fits (.n .simpleEbnfItem) (tree x)
  | [], _, hx => by simp at hx
  | y :: ys, x, hx => (List.mem_cons.mp hx).elim (fun e => e ▸ fits_tree y) (fits_trees ys x)

theorem fits_rest : ∀ r : List (List Simple), ∀ n, treeRest r = some n → Fits (.n .ebnfItem) n
  | [], n, h => by simp [treeRest] at h
  | f :: r, n, h => by
    simp only [treeRest, Option.some.injEq] at h
    rw [← h]
    exact fits_ebnf f _ (fits_trees f) (fits_rest r)
end

theorem fits_prod (p : List Simple) : Fits (.n .production) (prodTree p) :=
  .n (r := [.star [.n .simpleEbnfItem]]) (by simp [rules]) (fits_one (fits_items p (fits_trees p)))

theorem fits_nt (g : Node) (d : NtSyntax) : Fits (.n .nonterminalDefinition) (ntTree g d) := by
  obtain ⟨i, l, cs⟩ := g
  refine .n (r := [.guard, .t .nonterminal, .t .equals, .n .production, .star [.t .pipe, .n .production]]) (by simp [rules])
    (.cons (.guard i l cs) (.cons (fits_leaf _ _) (.cons (fits_leaf _ _) (.cons (fits_prod _) (fits_one (fits_star _ fun c hc => ?_))))))
  simp only [List.mem_map] at hc
  obtain ⟨p, -, rfl⟩ := hc
  exact .cons (fits_leaf _ _) (fits_one (fits_prod p))

theorem fits_many {α : Type} {n : Nt} (f : α → Node) (xs : List α) (h : ∀ x ∈ xs, Fits (.n n) (f x)) : Fits (.star [.n n]) (listOf (xs.map ([f ·]))) := by
  refine fits_star _ fun cs hc => ?_
  simp only [List.mem_map] at hc
  obtain ⟨x, hx, rfl⟩ := hc
  exact fits_one (h x hx)

theorem fits_lexeme (l : Language.Lexeme) : Fits (.n .lexemeDefinition) (lexemeTree l) :=
  .n (r := [.t .identifier, .t .equals, .t .regex]) (by simp [rules]) (.cons (fits_leaf _ _) (.cons (fits_leaf _ _) (fits_one (fits_leaf _ _))))

theorem fits_keyword (l : Language.Lexeme) : Fits (.n .keywordDefinition) (keywordTree l) := by
  unfold keywordTree
  split
  · exact .n (r := [.t .identifier]) (by simp [rules]) (fits_one (fits_leaf _ _))
  · refine .n (r := [.t .identifier, .t .equals, .t (lexTok l.kind)]) ?_ (.cons (fits_leaf _ _) (.cons (fits_leaf _ _) (fits_one (fits_leaf _ _))))
    cases h : l.kind <;> simp_all [rules, lexTok]

theorem fits_weak (w : Bool) : Fits (.opt [.t .weak]) (weakTree w) := by
  cases w
  · exact .optNil _
  · exact .optSome (fits_one (fits_leaf _ _))

theorem fits_unit (g : Node) (u : Block NtSyntax) : Fits (.n .languageDefinition) (unitTree g u) := by
  match u with
  | .grammar ds =>
    exact .n (r := [.n .grammarDefinition]) (by simp [rules]) (fits_one (.n (r := [.t .grammar, .t .openCurly, .star [.n .nonterminalDefinition], .t .closeCurly])
      (by simp [rules]) (.cons (fits_leaf _ _) (.cons (fits_leaf _ _) (.cons (fits_many _ _ fun d _ => fits_nt g d) (fits_one (fits_leaf _ _)))))))
  | .lexer .symbols w ci cs ls =>
    exact .n (r := [.n .lexerSymbols]) (by simp [rules]) (fits_one (.n (r := [.t .lexerSymbols, .t .openCurly, .star [.n .lexemeDefinition], .t .closeCurly])
      (by simp [rules]) (.cons (fits_leaf _ _) (.cons (fits_leaf _ _) (.cons (fits_many _ _ fun d _ => fits_lexeme d) (fits_one (fits_leaf _ _)))))))
  | .lexer .ignore w ci cs ls =>
    exact .n (r := [.n .ignoreDefinition]) (by simp [rules]) (fits_one (.n (r := [.t .ignore, .t .openCurly, .star [.n .keywordDefinition], .t .closeCurly])
      (by simp [rules]) (.cons (fits_leaf _ _) (.cons (fits_leaf _ _) (.cons (fits_many _ _ fun d _ => fits_keyword d) (fits_one (fits_leaf _ _)))))))
  | .lexer .lexer w ci cs ls =>
    exact .n (r := [.n .lexerDefinition]) (by simp [rules]) (fits_one (.n (r := [.opt [.t .weak], .t .lexer, .t .openCurly, .star [.n .lexemeDefinition], .t .closeCurly])
      (by simp [rules]) (.cons (fits_weak w) (.cons (fits_leaf _ _) (.cons (fits_leaf _ _) (.cons (fits_many _ _ fun d _ => fits_lexeme d) (fits_one (fits_leaf _ _))))))))
  | .lexer .keywords w ci cs ls =>
    exact .n (r := [.n .keywordsDefinition]) (by simp [rules]) (fits_one (.n (r := [.opt [.t .weak], .t .keywords, .t .openCurly, .star [.n .keywordDefinition], .t .closeCurly])
      (by simp [rules]) (.cons (fits_weak w) (.cons (fits_leaf _ _) (.cons (fits_leaf _ _) (.cons (fits_many _ _ fun d _ => fits_keyword d) (fits_one (fits_leaf _ _))))))))

theorem fits_top (g : Node) (t : Top NtSyntax) (h : PlainTop t) : Fits (.n .toplevelBlock) (topTree g t) := by
  match t with
  | .language n us =>
    exact .n (r := [.n .languageBlock]) (by simp [rules]) (fits_one (.n
      (r := [.t .language, .t .identifier, .opt [.n .languageInherits], .t .openCurly, .star [.n .languageDefinition], .t .closeCurly]) (by simp [rules])
      (.cons (fits_leaf _ _) (.cons (fits_leaf _ _) (.cons (.optNil _) (.cons (fits_leaf _ _) (.cons (fits_many _ _ fun u _ => fits_unit g u) (fits_one (fits_leaf _ _)))))))))
  | .parser n l starts =>
    refine .n (r := [.n .parserBlock]) (by simp [rules]) (fits_one (.n
      (r := [.t .parser, .t .identifier, .t .colon, .t .identifier, .t .openCurly, .plus [.n .parserStart], .t .closeCurly]) (by simp [rules])
      (.cons (fits_leaf _ _) (.cons (fits_leaf _ _) (.cons (fits_leaf _ _) (.cons (fits_leaf _ _) (.cons (fits_leaf _ _) (.cons (fits_plus _ ?_ fun cs hc => ?_) (fits_one (fits_leaf _ _))))))))))
    · simpa [PlainTop] using h
    · simp only [List.mem_map] at hc
      obtain ⟨s, -, rfl⟩ := hc
      exact fits_one (.n (r := [.t .nonterminal]) (by simp [rules]) (fits_one (fits_leaf _ _)))

/-- **C98.** The trees that the statements below are about are trees of the grammar of the bootstrapper. -/
theorem trees_fit (g : Node) (ts : List (Top NtSyntax)) (h : ∀ t ∈ ts, PlainTop t) : Fits (.n .parserLanguage) (fileTree g ts) :=
  .n (r := [.star [.n .toplevelBlock]]) (by simp [rules]) (fits_one (fits_many _ _ fun t ht => fits_top g t (h t ht)))

/-! ### The property -/

/-- Blocks that say the same, the second as read: a language is compiled to the same state whatever it inherits, a parser has the same start symbols in some order. -/
inductive Agree : Top NtSyntax → Top NtDef → Prop
  | language (name : String) (us : List (Block NtSyntax)) (vs : List (Block NtDef)) (h : ∀ s : Lang, s.compileBlock vs = s.compileBlock (us.map unitDef)) :
    Agree (.language name us) (.language name vs)
  | parser (name lang : String) (xs ys : List String) (h : ys.Perm xs) : Agree (.parser name lang xs) (.parser name lang ys)

/-- **C98.** A definition that the bootstrapper's grammar can express is read block by block; the language that is made is the one that the finished front end makes
(the same identifiers, rules, symbols and errors). Start symbols keep their order only up to `starts_violated`. -/
theorem reads_partial (g : Node) (ts : List (Top NtSyntax)) (h : ∀ t ∈ ts, PlainTop t) :
    ∃ us, getDefinition (fileTree g ts) = .ok us ∧ List.Forall₂ Agree ts us := by
  refine ⟨ts.map topBoot, ?_, ?_⟩
  · simp only [getDefinition, fileTree, node, Node.item, if_true, Node.children, child, List.getElem?_cons_zero]
    exact getTops_tree g ts h
  · rw [List.forall₂_map_right_iff]
    refine List.forall₂_same.mpr fun t ht => ?_
    match t, h t ht with
    | .language n us, h => exact .language n us _ (compileBlock_same us h)
    | .parser n l starts, _ => exact .parser n l _ _ (List.reverse_perm starts)

/-- **C98, violated.** The start symbols of a parser come out backwards, however many there are. -/
theorem starts_violated (g : Node) (name lang : String) (starts : List String) (h : starts ≠ []) :
    getDefinition (fileTree g [.parser name lang starts]) = .ok [.parser name lang starts.reverse] := by
  simp only [getDefinition, fileTree, node, Node.item, if_true, Node.children, child, List.getElem?_cons_zero]
  exact getTops_tree g [.parser name lang starts] (by simpa [PlainTop] using h)

/-! ### Any tree of the grammar -/

theorem fits_n {k : Nt} {n : Node} (h : Fits (.n k) n) : ∃ r cs, r ∈ rules k ∧ n = .mk (some k) none cs ∧ FitsAll r cs := by
  cases h with
  | n hr hc => exact ⟨_, _, hr, rfl, hc⟩

theorem fits_t {t : Tok} {n : Node} (h : Fits (.t t) n) : ∃ s, n = .mk none (some (t, s)) [] := by
  cases h with
  | t t s => exact ⟨s, rfl⟩

theorem fits_star_inv {b : List Sym} {n : Node} (h : Fits (.star b) n) :
    n = .mk (some .list) none [] ∨ ∃ l cs, n = .mk (some .list) none (l :: cs) ∧ Fits (.star b) l ∧ FitsAll b cs := by
  cases h with
  | starNil => exact .inl rfl
  | starCons h => cases h with | cons h1 h2 => exact .inr ⟨_, _, rfl, h1, h2⟩

theorem fits_plus_inv {b : List Sym} {n : Node} (h : Fits (.plus b) n) :
    ∃ cs, n = .mk (some .list) none cs ∧ (FitsAll b cs ∨ ∃ l ds, cs = l :: ds ∧ Fits (.plus b) l ∧ FitsAll b ds) := by
  cases h with
  | plusOne h => exact ⟨_, rfl, .inl h⟩
  | plusCons h => cases h with | cons h1 h2 => exact ⟨_, rfl, .inr ⟨_, _, rfl, h1, h2⟩⟩

theorem fits_opt_inv {b : List Sym} {n : Node} (h : Fits (.opt b) n) : n = .mk (some .list) none [] ∨ ∃ cs, n = .mk (some .list) none cs ∧ FitsAll b cs := by
  cases h with
  | optNil => exact .inl rfl
  | optSome h => exact .inr ⟨_, rfl, h⟩

theorem fitsAll_cons {s : Sym} {r : List Sym} {cs : List Node} (h : FitsAll (s :: r) cs) : ∃ c ds, cs = c :: ds ∧ Fits s c ∧ FitsAll r ds := by
  cases h with
  | cons h1 h2 => exact ⟨_, _, rfl, h1, h2⟩

theorem fitsAll_nil {cs : List Node} (h : FitsAll [] cs) : cs = [] := by cases h; rfl

theorem name_ok {m : Node} (h : Fits (.opt [.n .itemName]) m) : ∃ s, nameIn m = .ok s := by
  rcases fits_opt_inv h with rfl | ⟨cs, rfl, h'⟩
  · exact ⟨"", rfl⟩
  · obtain ⟨c, ds, rfl, h1, h2⟩ := fitsAll_cons h'
    cases fitsAll_nil h2
    obtain ⟨r, cs, hr, rfl, h⟩ := fits_n h1
    simp only [rules, List.mem_singleton] at hr
    subst hr
    obtain ⟨c0, ds, rfl, h0, h⟩ := fitsAll_cons h
    obtain ⟨c1, ds, rfl, h1, h⟩ := fitsAll_cons h
    obtain ⟨s, rfl⟩ := fits_t h1
    exact ⟨s, rfl⟩

theorem basic_ok {n m : Node} (h : Fits (.n .basicTerminal) n) (hm : Fits (.opt [.n .itemName]) m) : ∃ x, getItem n (some m) = .ok x := by
  obtain ⟨r, cs, hr, rfl, h'⟩ := fits_n h
  simp only [rules, List.mem_cons, List.not_mem_nil, or_false] at hr
  obtain ⟨s, hs⟩ := name_ok hm
  rw [getItem]
  simp only [hs, bind, Except.bind]
  rcases hr with rfl | rfl | rfl
  all_goals
    obtain ⟨c0, ds, rfl, h0, h'⟩ := fitsAll_cons h'
    obtain ⟨t, rfl⟩ := fits_t h0
    simp [child, matched, content, Node.lexeme, kindOf]

theorem items_ok : ∀ (k : Nat) (n : Node), sizeOf n ≤ k →
    (Fits (.n .simpleEbnfItem) n → ∃ x, getItem n none = .ok x) ∧ (Fits (.n .ebnfItem) n → ∃ x, getItem n none = .ok x) ∧
    (Fits (.star [.n .simpleEbnfItem]) n → ∃ xs, getList n = .ok xs) := by
  intro k
  induction k with
  | zero => intro n hn; cases n; simp at hn
  | succ k ih =>
    intro n hn
    refine ⟨fun h => ?_, fun h => ?_, fun h => ?_⟩
    · obtain ⟨r, cs, hr, rfl, h⟩ := fits_n h
      simp only [rules, List.mem_cons, List.not_mem_nil, or_false] at hr
      have closure : ∀ t, (t = Tok.star ∨ t = .plus ∨ t = .question) → FitsAll [.n .simpleEbnfItem, .t t, .opt [.n .itemName]] cs →
          ∃ x, getItem (.mk (some .simpleEbnfItem) none cs) none = .ok x := by
        intro t ht h
        obtain ⟨c0, ds, rfl, h0, h⟩ := fitsAll_cons h
        obtain ⟨c1, ds, rfl, h1, h⟩ := fitsAll_cons h
        obtain ⟨c2, ds, rfl, h2, h⟩ := fitsAll_cons h
        cases fitsAll_nil h
        obtain ⟨s, rfl⟩ := fits_t h1
        obtain ⟨r', cs', -, e, -⟩ := fits_n h0
        have hl : c0.lexeme = none := by rw [e]; rfl
        obtain ⟨x, hx⟩ := (ih c0 (by simp at hn; omega)).1 h0
        obtain ⟨m, hm⟩ := name_ok h2
        rw [getItem]
        simp only [bind, Except.bind]
        simp only [hl, hx, hm]
        simp only [matched, Node.lexeme]
        rcases ht with rfl | rfl | rfl <;> simp [closureOf]
      rcases hr with rfl | rfl | rfl | rfl | rfl | rfl | rfl
      · obtain ⟨c0, ds, rfl, h0, h⟩ := fitsAll_cons h
        obtain ⟨c1, ds, rfl, h1, h⟩ := fitsAll_cons h
        cases fitsAll_nil h
        obtain ⟨r, cs, hr, rfl, h⟩ := fits_n h0
        simp only [rules, List.mem_singleton] at hr
        subst hr
        obtain ⟨d0, ds, rfl, g0, h⟩ := fitsAll_cons h
        obtain ⟨s, rfl⟩ := fits_t g0
        obtain ⟨m, hm⟩ := name_ok h1
        rw [getItem]
        simp only [bind, Except.bind]
        rw [getItem]
        simp only [hm, bind, Except.bind]
        exact ⟨_, rfl⟩
      · obtain ⟨c0, ds, rfl, h0, h⟩ := fitsAll_cons h
        obtain ⟨c1, ds, rfl, h1, h⟩ := fitsAll_cons h
        cases fitsAll_nil h
        obtain ⟨r, cs, hr, rfl, h⟩ := fits_n h0
        simp only [rules, List.mem_singleton] at hr
        subst hr
        obtain ⟨d0, ds, rfl, g0, h⟩ := fitsAll_cons h
        obtain ⟨m, hm⟩ := name_ok h1
        rw [getItem]
        simp only [bind, Except.bind]
        rw [getItem]
        simp only [hm, bind, Except.bind]
        exact basic_ok g0 h1
      · exact closure _ (.inl rfl) h
      · exact closure _ (.inr (.inl rfl)) h
      · exact closure _ (.inr (.inr rfl)) h
      · obtain ⟨c0, ds, rfl, h0, h⟩ := fitsAll_cons h
        obtain ⟨c1, ds, rfl, h1, h⟩ := fitsAll_cons h
        obtain ⟨c2, ds, rfl, h2, h⟩ := fitsAll_cons h
        cases fitsAll_nil h
        obtain ⟨s, rfl⟩ := fits_t h0
        rw [getItem]
        simp only [bind, Except.bind, Node.lexeme]
        exact (ih c1 (by simp at hn; omega)).2.1 h1
      · obtain ⟨c0, ds, rfl, h0, h⟩ := fitsAll_cons h
        cases fitsAll_nil h
        obtain ⟨r, cs, hr, rfl, h⟩ := fits_n h0
        simp only [rules, List.mem_singleton] at hr
        subst hr
        obtain ⟨d0, ds, rfl, g0, h⟩ := fitsAll_cons h
        obtain ⟨d1, ds, rfl, g1, h⟩ := fitsAll_cons h
        obtain ⟨x, hx⟩ := (ih d1 (by simp at hn; omega)).2.1 g1
        rw [getItem]
        simp only [bind, Except.bind]
        rw [getItem]
        simp only [hx, bind, Except.bind]
        exact ⟨_, rfl⟩
    · obtain ⟨r, cs, hr, rfl, h⟩ := fits_n h
      simp only [rules, List.mem_cons, List.not_mem_nil, or_false] at hr
      rw [getItem]
      simp only [bind, Except.bind]
      rcases hr with rfl | rfl
      · obtain ⟨c0, ds, rfl, h0, h⟩ := fitsAll_cons h
        cases fitsAll_nil h
        obtain ⟨xs, hx⟩ := (ih c0 (by simp at hn; omega)).2.2 h0
        simp only [hx]
        exact ⟨_, rfl⟩
      · obtain ⟨c0, ds, rfl, h0, h⟩ := fitsAll_cons h
        obtain ⟨c1, ds, rfl, h1, h⟩ := fitsAll_cons h
        obtain ⟨c2, ds, rfl, h2, h⟩ := fitsAll_cons h
        cases fitsAll_nil h
        obtain ⟨xs, hx⟩ := (ih c0 (by simp at hn; omega)).2.2 h0
        obtain ⟨y, hy⟩ := (ih c2 (by simp at hn; omega)).2.1 h2
        simp only [hx, hy]
        exact ⟨_, rfl⟩
    · rcases fits_star_inv h with rfl | ⟨l, cs, rfl, hl, h⟩
      · exact ⟨[], by rw [getList]⟩
      · obtain ⟨c0, ds, rfl, h0, h⟩ := fitsAll_cons h
        cases fitsAll_nil h
        obtain ⟨xs, hx⟩ := (ih l (by simp at hn; omega)).2.2 hl
        obtain ⟨y, hy⟩ := (ih c0 (by simp at hn; omega)).1 h0
        rw [getList, hx, hy]
        exact ⟨_, rfl⟩

theorem list_ok {n : Node} (h : Fits (.star [.n .simpleEbnfItem]) n) : ∃ xs, getList n = .ok xs := (items_ok (sizeOf n) n (Nat.le_refl _)).2.2 h

theorem production_ok {n : Node} (h : Fits (.n .production) n) : ∃ p, getProduction n = .ok p := by
  obtain ⟨r, cs, hr, rfl, h⟩ := fits_n h
  simp only [rules, List.mem_singleton] at hr
  subst hr
  obtain ⟨c, ds, rfl, h1, h2⟩ := fitsAll_cons h
  obtain ⟨xs, hx⟩ := list_ok h1
  exact ⟨xs, by simp [getProduction, Node.item, Node.children, child, bind, Except.bind, hx]⟩

theorem productions_ok : ∀ (k : Nat) (n : Node), sizeOf n ≤ k → Fits (.star [.t .pipe, .n .production]) n → ∃ ps, getProductions n = .ok ps := by
  intro k
  induction k with
  | zero => intro n hn; cases n; simp at hn
  | succ k ih =>
    intro n hn h
    rcases fits_star_inv h with rfl | ⟨l, cs, rfl, hl, h⟩
    · exact ⟨[], by rw [getProductions]⟩
    · obtain ⟨c0, ds, rfl, h0, h⟩ := fitsAll_cons h
      obtain ⟨c1, ds, rfl, h1, h⟩ := fitsAll_cons h
      cases fitsAll_nil h
      obtain ⟨ps, hp⟩ := ih l (by simp at hn; omega) hl
      obtain ⟨p, hq⟩ := production_ok h1
      rw [getProductions, hp, hq]
      exact ⟨_, rfl⟩

theorem grammar_ok : ∀ (k : Nat) (n : Node), sizeOf n ≤ k → Fits (.star [.n .nonterminalDefinition]) n → ∃ ds, getGrammar n = .ok ds := by
  intro k
  induction k with
  | zero => intro n hn; cases n; simp at hn
  | succ k ih =>
    intro n hn h
    rcases fits_star_inv h with rfl | ⟨l, cs, rfl, hl, h⟩
    · exact ⟨[], by rw [getGrammar]⟩
    · obtain ⟨c0, ds, rfl, h0, h⟩ := fitsAll_cons h
      cases fitsAll_nil h
      obtain ⟨xs, hx⟩ := ih l (by simp at hn; omega) hl
      obtain ⟨r, cs, hr, rfl, h⟩ := fits_n h0
      simp only [rules, List.mem_singleton] at hr
      subst hr
      obtain ⟨d0, ds, rfl, g0, h⟩ := fitsAll_cons h
      obtain ⟨d1, ds, rfl, g1, h⟩ := fitsAll_cons h
      obtain ⟨d2, ds, rfl, g2, h⟩ := fitsAll_cons h
      obtain ⟨d3, ds, rfl, g3, h⟩ := fitsAll_cons h
      obtain ⟨d4, ds, rfl, g4, h⟩ := fitsAll_cons h
      obtain ⟨s, rfl⟩ := fits_t g1
      obtain ⟨p, hp⟩ := production_ok g3
      obtain ⟨ps, hps⟩ := productions_ok _ d4 (Nat.le_refl _) g4
      rw [getGrammar, hx]
      simp [Node.children, child, bind, Except.bind, content, Node.lexeme, hp, hps]

/-- Nothing is used that is not there. -/
def Safe {α : Type} (r : R α) : Prop := r ≠ .error .crash

theorem safe_ok {α : Type} (a : α) : Safe (.ok a : R α) := by simp [Safe]

theorem safe_null {α : Type} : Safe (.error .null : R α) := by simp [Safe]

theorem safe_bind {α β : Type} {r : R α} {f : α → R β} (h : Safe r) (hf : ∀ a, Safe (f a)) : Safe (r >>= f) := by
  cases r with
  | error e => cases e <;> simp_all [Safe, bind, Except.bind]
  | ok a => exact hf a

theorem lexeme_safe {n : Node} (h : Fits (.n .lexemeDefinition) n) : Safe (getLexeme n) := by
  obtain ⟨r, cs, hr, rfl, h⟩ := fits_n h
  simp only [rules, List.mem_cons, List.not_mem_nil, or_false] at hr
  rcases hr with rfl | rfl
  · obtain ⟨d0, ds, rfl, g0, h⟩ := fitsAll_cons h
    obtain ⟨d1, ds, rfl, g1, h⟩ := fitsAll_cons h
    obtain ⟨d2, ds, rfl, g2, h⟩ := fitsAll_cons h
    cases fitsAll_nil h
    obtain ⟨s, rfl⟩ := fits_t g0
    obtain ⟨t, rfl⟩ := fits_t g2
    simp [Safe, getLexeme, Node.item, Node.children, child, bind, Except.bind, content, Node.lexeme]
  · obtain ⟨d0, ds, rfl, g0, h⟩ := fitsAll_cons h
    obtain ⟨d1, ds, rfl, g1, h⟩ := fitsAll_cons h
    obtain ⟨d2, ds, rfl, g2, h⟩ := fitsAll_cons h
    obtain ⟨d3, ds, rfl, g3, h⟩ := fitsAll_cons h
    simp [Safe, getLexeme, Node.item, Node.children, child, bind, Except.bind]

theorem keyword_safe {n : Node} (h : Fits (.n .keywordDefinition) n) : Safe (getLexeme n) := by
  obtain ⟨r, cs, hr, rfl, h⟩ := fits_n h
  simp only [rules, List.mem_cons, List.not_mem_nil, or_false] at hr
  have three : ∀ t, FitsAll [.t .identifier, .t .equals, .t t] cs → Safe (getLexeme (.mk (some .keywordDefinition) none cs)) := by
    intro t h
    obtain ⟨d0, ds, rfl, g0, h⟩ := fitsAll_cons h
    obtain ⟨d1, ds, rfl, g1, h⟩ := fitsAll_cons h
    obtain ⟨d2, ds, rfl, g2, h⟩ := fitsAll_cons h
    cases fitsAll_nil h
    obtain ⟨s, rfl⟩ := fits_t g0
    obtain ⟨u, rfl⟩ := fits_t g2
    cases t <;> simp [Safe, getLexeme, Node.item, Node.children, child, bind, Except.bind, content, Node.lexeme, matched, lexKindOf]
  rcases hr with rfl | rfl | rfl | rfl
  · obtain ⟨d0, ds, rfl, g0, h⟩ := fitsAll_cons h
    cases fitsAll_nil h
    obtain ⟨s, rfl⟩ := fits_t g0
    simp [Safe, getLexeme, Node.item, Node.children, child, bind, Except.bind, content, Node.lexeme]
  · exact three _ h
  · exact three _ h
  · exact three _ h

theorem lexer_safe {d : Nt} (hd : ∀ n, Fits (.n d) n → Safe (getLexeme n)) : ∀ (k : Nat) (n : Node), sizeOf n ≤ k → Fits (.star [.n d]) n → Safe (getLexer n) := by
  intro k
  induction k with
  | zero => intro n hn; cases n; simp at hn
  | succ k ih =>
    intro n hn h
    rcases fits_star_inv h with rfl | ⟨l, cs, rfl, hl, h⟩
    · rw [getLexer]; exact safe_ok _
    · obtain ⟨c0, ds, rfl, h0, h⟩ := fitsAll_cons h
      cases fitsAll_nil h
      rw [getLexer]
      exact safe_bind (ih l (by simp at hn; omega) hl) fun _ => safe_bind (hd c0 h0) fun _ => safe_ok _

theorem defn_safe {n : Node} (h : Fits (.n .languageDefinition) n) : Safe (getDefn n) := by
  obtain ⟨r, cs, hr, rfl, h⟩ := fits_n h
  simp only [rules, List.mem_cons, List.not_mem_nil, or_false] at hr
  rcases hr with rfl | rfl | rfl | rfl | rfl
  all_goals
    obtain ⟨c, ds, rfl, h1, h2⟩ := fitsAll_cons h
    cases fitsAll_nil h2
    obtain ⟨r, cs, hr, rfl, k⟩ := fits_n h1
    simp only [rules, List.mem_singleton] at hr
    subst hr
    obtain ⟨d0, ds, rfl, g0, k0⟩ := fitsAll_cons k
    obtain ⟨d1, ds, rfl, g1, k1⟩ := fitsAll_cons k0
    obtain ⟨d2, ds, rfl, g2, k2⟩ := fitsAll_cons k1
    obtain ⟨d3, ds, rfl, g3, k3⟩ := fitsAll_cons k2
    obtain ⟨s, rfl⟩ := fits_t g1
  · obtain ⟨a, rfl⟩ := fits_t g0
    obtain ⟨b, rfl⟩ := fits_t g3
    simp only [getDefn, Node.item, Node.children, child, bind, Except.bind, List.getElem?_cons_succ, List.getElem?_cons_zero, content, Node.lexeme]
    exact safe_bind (lexer_safe (fun _ => lexeme_safe) _ d2 (Nat.le_refl _) g2) fun _ => safe_ok _
  · obtain ⟨d4, ds, rfl, g4, k4⟩ := fitsAll_cons k3
    obtain ⟨b, rfl⟩ := fits_t g4
    simp only [getDefn, Node.item, Node.children, child, bind, Except.bind, List.getElem?_cons_succ, List.getElem?_cons_zero, content, Node.lexeme]
    exact safe_bind (lexer_safe (fun _ => lexeme_safe) _ d3 (Nat.le_refl _) g3) fun _ => safe_ok _
  · obtain ⟨a, rfl⟩ := fits_t g0
    obtain ⟨b, rfl⟩ := fits_t g3
    simp only [getDefn, Node.item, Node.children, child, bind, Except.bind, List.getElem?_cons_succ, List.getElem?_cons_zero, content, Node.lexeme]
    exact safe_bind (lexer_safe (fun _ => keyword_safe) _ d2 (Nat.le_refl _) g2) fun _ => safe_ok _
  · obtain ⟨d4, ds, rfl, g4, k4⟩ := fitsAll_cons k3
    obtain ⟨b, rfl⟩ := fits_t g4
    simp only [getDefn, Node.item, Node.children, child, bind, Except.bind, List.getElem?_cons_succ, List.getElem?_cons_zero, content, Node.lexeme]
    exact safe_bind (lexer_safe (fun _ => keyword_safe) _ d3 (Nat.le_refl _) g3) fun _ => safe_ok _
  · obtain ⟨a, rfl⟩ := fits_t g0
    obtain ⟨b, rfl⟩ := fits_t g3
    obtain ⟨xs, hx⟩ := grammar_ok _ d2 (Nat.le_refl _) g2
    simp only [getDefn, Node.item, Node.children, child, bind, Except.bind, List.getElem?_cons_succ, List.getElem?_cons_zero, content, Node.lexeme]
    rw [hx]
    exact safe_ok _

theorem defns_safe : ∀ (k : Nat) (n : Node), sizeOf n ≤ k → Fits (.star [.n .languageDefinition]) n → Safe (getDefns n) := by
  intro k
  induction k with
  | zero => intro n hn; cases n; simp at hn
  | succ k ih =>
    intro n hn h
    rcases fits_star_inv h with rfl | ⟨l, cs, rfl, hl, h⟩
    · rw [getDefns]; exact safe_ok _
    · obtain ⟨c0, ds, rfl, h0, h⟩ := fitsAll_cons h
      cases fitsAll_nil h
      rw [getDefns]
      exact safe_bind (ih l (by simp at hn; omega) hl) fun _ => safe_bind (defn_safe h0) fun _ => safe_ok _

theorem start_ok {n : Node} (h : Fits (.n .parserStart) n) : ∃ s, n = .mk (some .parserStart) none [.mk none (some (.nonterminal, s)) []] := by
  obtain ⟨r, cs, hr, rfl, h⟩ := fits_n h
  simp only [rules, List.mem_singleton] at hr
  subst hr
  obtain ⟨c, ds, rfl, h1, h2⟩ := fitsAll_cons h
  cases fitsAll_nil h2
  obtain ⟨s, rfl⟩ := fits_t h1
  exact ⟨s, rfl⟩

theorem starts_safe : ∀ (k : Nat) (n : Node), sizeOf n ≤ k → Fits (.plus [.n .parserStart]) n → Safe (getStarts n) := by
  intro k
  induction k with
  | zero => intro n hn; cases n; simp at hn
  | succ k ih =>
    intro n hn h
    obtain ⟨cs, rfl, h | ⟨l, ds, rfl, hl, h⟩⟩ := fits_plus_inv h
    · obtain ⟨c, ds, rfl, h1, h2⟩ := fitsAll_cons h
      cases fitsAll_nil h2
      obtain ⟨s, rfl⟩ := start_ok h1
      rw [getStarts]
      · exact safe_ok [s]
      · simp
    · obtain ⟨c, ds, rfl, h1, h2⟩ := fitsAll_cons h
      cases fitsAll_nil h2
      obtain ⟨s, rfl⟩ := start_ok h1
      rw [getStarts]
      exact safe_bind (r := getStarts l) (f := fun xs => .ok (s :: xs)) (ih l (by simp at hn; omega) hl) fun _ => safe_ok _

theorem top_safe {n : Node} (h : Fits (.n .toplevelBlock) n) : Safe (getTop n) := by
  obtain ⟨r, cs, hr, rfl, h⟩ := fits_n h
  simp only [rules, List.mem_cons, List.not_mem_nil, or_false] at hr
  rcases hr with rfl | rfl
  · obtain ⟨c, ds, rfl, h1, h2⟩ := fitsAll_cons h
    cases fitsAll_nil h2
    obtain ⟨r, cs, hr, rfl, h⟩ := fits_n h1
    simp only [rules, List.mem_singleton] at hr
    subst hr
    obtain ⟨d0, ds, rfl, g0, h⟩ := fitsAll_cons h
    obtain ⟨d1, ds, rfl, g1, h⟩ := fitsAll_cons h
    obtain ⟨d2, ds, rfl, g2, h⟩ := fitsAll_cons h
    obtain ⟨d3, ds, rfl, g3, h⟩ := fitsAll_cons h
    obtain ⟨d4, ds, rfl, g4, h⟩ := fitsAll_cons h
    obtain ⟨d5, ds, rfl, g5, h⟩ := fitsAll_cons h
    cases fitsAll_nil h
    obtain ⟨a, rfl⟩ := fits_t g0
    obtain ⟨b, rfl⟩ := fits_t g1
    obtain ⟨e, rfl⟩ := fits_t g5
    obtain ⟨i2, l2, cs2⟩ := d2
    cases cs2 with
    | nil => exact safe_bind (r := getDefns d4) (f := fun us => .ok (Top.language b us)) (defns_safe _ d4 (Nat.le_refl _) g4) fun _ => safe_ok _
    | cons c2 cs2 => simp [Safe, getTop, Node.item, getLanguage, Node.children, child, bind, Except.bind, Node.lexeme, content]
  · obtain ⟨c, ds, rfl, h1, h2⟩ := fitsAll_cons h
    cases fitsAll_nil h2
    obtain ⟨r, cs, hr, rfl, h⟩ := fits_n h1
    simp only [rules, List.mem_singleton] at hr
    subst hr
    obtain ⟨d0, ds, rfl, g0, h⟩ := fitsAll_cons h
    obtain ⟨d1, ds, rfl, g1, h⟩ := fitsAll_cons h
    obtain ⟨d2, ds, rfl, g2, h⟩ := fitsAll_cons h
    obtain ⟨d3, ds, rfl, g3, h⟩ := fitsAll_cons h
    obtain ⟨d4, ds, rfl, g4, h⟩ := fitsAll_cons h
    obtain ⟨d5, ds, rfl, g5, h⟩ := fitsAll_cons h
    obtain ⟨d6, ds, rfl, g6, h⟩ := fitsAll_cons h
    cases fitsAll_nil h
    obtain ⟨a, rfl⟩ := fits_t g0
    obtain ⟨b, rfl⟩ := fits_t g1
    obtain ⟨e, rfl⟩ := fits_t g3
    obtain ⟨f, rfl⟩ := fits_t g6
    simp only [getTop, Node.item, getParser, Option.some.injEq, reduceCtorEq, if_false, if_true]
    exact safe_bind (starts_safe _ d5 (Nat.le_refl _) g5) fun _ => safe_bind (safe_ok _) fun _ => safe_bind (safe_ok _) fun _ => safe_bind (safe_ok _) fun _ => safe_ok _

theorem tops_safe : ∀ (k : Nat) (n : Node), sizeOf n ≤ k → Fits (.star [.n .toplevelBlock]) n → Safe (getTops n) := by
  intro k
  induction k with
  | zero => intro n hn; cases n; simp at hn
  | succ k ih =>
    intro n hn h
    rcases fits_star_inv h with rfl | ⟨l, cs, rfl, hl, h⟩
    · rw [getTops]; exact safe_ok _
    · obtain ⟨c0, ds, rfl, h0, h⟩ := fitsAll_cons h
      cases fitsAll_nil h
      rw [getTops]
      exact safe_bind (ih l (by simp at hn; omega) hl) fun _ => safe_bind (top_safe h0) fun _ => safe_ok _

/-- **C98.** Whatever the bootstrapper's grammar accepts, reading the tree uses no child or lexeme that is not there. -/
theorem reads_safe (n : Node) (h : Fits (.n .parserLanguage) n) : getDefinition n ≠ .error .crash := by
  obtain ⟨r, cs, hr, rfl, h⟩ := fits_n h
  simp only [rules, List.mem_singleton] at hr
  subst hr
  obtain ⟨c, ds, rfl, h1, h2⟩ := fitsAll_cons h
  simp only [getDefinition, Node.item, if_true, Node.children, child, List.getElem?_cons_zero]
  exact tops_safe _ c (Nat.le_refl _) h1

/-- **C98, violated.** A language that inherits from another is in the grammar but is not read. -/
theorem inherits_violated (g : Node) (name parent : String) (us : List (Block NtSyntax)) :
    ∃ n, Fits (.n .toplevelBlock) n ∧ n = node .toplevelBlock [node .languageBlock [leaf .language "language", leaf .identifier name,
      node .list [node .languageInherits [leaf .colon ":", leaf .identifier parent]], leaf .openCurly "{", listOf (us.map ([unitTree g ·])), leaf .closeCurly "}"]] ∧
    getDefinition (node .parserLanguage [listOf [[n]]]) = .error .null := by
  refine ⟨_, ?_, rfl, ?_⟩
  · exact .n (r := [.n .languageBlock]) (by simp [rules]) (fits_one (.n
      (r := [.t .language, .t .identifier, .opt [.n .languageInherits], .t .openCurly, .star [.n .languageDefinition], .t .closeCurly]) (by simp [rules])
      (.cons (fits_leaf _ _) (.cons (fits_leaf _ _) (.cons (.optSome (fits_one (.n (r := [.t .colon, .t .identifier]) (by simp [rules])
        (.cons (fits_leaf _ _) (fits_one (fits_leaf _ _)))))) (.cons (fits_leaf _ _) (.cons (fits_many _ _ fun u _ => fits_unit g u) (fits_one (fits_leaf _ _)))))))))
  · simp only [getDefinition, node, Node.item, if_true, Node.children, child, List.getElem?_cons_zero, listOf, List.foldl_cons, List.foldl_nil, bind, Except.bind]
    rw [getTops]
    simp only [bind, Except.bind]
    rw [getTops]
    simp [getTop, Node.item, getLanguage, Node.children, child, bind, Except.bind, leaf, Node.lexeme, content]

/-- **C98, violated.** A definition that refers to a symbol of another language is in the grammar but is not read. -/
theorem reference_violated (name language symbol : String) :
    ∃ n, Fits (.n .lexemeDefinition) n ∧
      n = node .lexemeDefinition [leaf .identifier name, leaf .equals "=", leaf .identifier language, leaf .dot ".", leaf .identifier symbol] ∧ getLexeme n = .error .null := by
  refine ⟨_, ?_, rfl, ?_⟩
  · exact .n (r := [.t .identifier, .t .equals, .t .identifier, .t .dot, .t .identifier]) (by simp [rules])
      (.cons (fits_leaf _ _) (.cons (fits_leaf _ _) (.cons (fits_leaf _ _) (.cons (fits_leaf _ _) (fits_one (fits_leaf _ _))))))
  · simp [getLexeme, node, Node.item, Node.children, child, bind, Except.bind]

/-! ### An example -/

/-- `<A> = ( x <B>[n] | y )* [=> z ]`, which needs parentheses for a sequence of two and of one. -/
def exProd : List Simple :=
  [.star (.paren [.terminal .ident "" "x" .blank, .nonterminal "" "<B>" (named "n")] [[.terminal .ident "" "y" .blank]] .blank) .blank,
   .guard false [.terminal .ident "" "z" .blank] [] .blank]

def exFile : List (Top NtSyntax) :=
  [.language "L" [.lexer .keywords true false false [⟨.literal, "x", ['x'], false, false⟩], .grammar [⟨.assignment, "<A>", [exProd]⟩, ⟨.assignment, "<B>", [[], exProd]⟩]],
   .parser "P" "L" ["<A>", "<B>"]]

theorem exFile_plain : ∀ t ∈ exFile, PlainTop t := by
  simp [exFile, exProd, PlainTop, PlainUnit, PlainLexeme, PlainNt, PlainAll, PlainAlts, Plain, named, Language.Attr.blank]

example : ∃ us, getDefinition (fileTree (leaf .weak "") exFile) = .ok us ∧ List.Forall₂ Agree exFile us := reads_partial _ _ exFile_plain

/-- The two readings are different definitions. -/
example : boots exProd ≠ simpleDefs exProd := by
  simp [exProd, boots, boot, simpleDefs, simpleDef, alt, bootRest, altDefs, seqOf, seqLoop, addChild]

example : Fits (.n .parserLanguage) (fileTree (leaf .weak "") exFile) := trees_fit _ _ exFile_plain

example : getDefinition (fileTree (leaf .weak "") exFile) ≠ .error .crash := reads_safe _ (trees_fit _ _ exFile_plain)

/-- A tree that is not of the grammar is read past its end. -/
example : getDefinition (node .parserLanguage []) = .error .crash := rfl

example : ∃ xs : List String, xs.reverse ≠ xs ∧ getDefinition (fileTree (leaf .weak "") [.parser "P" "L" xs]) = .ok [.parser "P" "L" xs.reverse] :=
  ⟨["<A>", "<B>"], by decide, starts_violated _ _ _ _ (by simp)⟩

example := inherits_violated (leaf .weak "") "L" "K" [.grammar [⟨.assignment, "<A>", [exProd]⟩]]

example := reference_violated "x" "K" "y"

end Bootstrap
end TameParse

import Verif.Language
/-
Model of the front end of the bootstrapper, which reads a definition with a grammar that is built in.

Sources: /repo/TameParse/Language/bootstrap.cpp 201-357 (the grammar), 423-1112 (from the syntax tree to definitions), ContextFree/ebnf_items.cpp 201-321
(the rules of lists and options), Lr/ast_parser.h 82-100 (one node for each symbol of a rule).

Simplifications:
* identifiers of nonterminals and terminals are constructors (the code takes them from the grammar and the terminal dictionary, C28 to C30);
* a node for an EBNF item or a guard has the identifier `list`, which the code cannot tell from others either (bootstrap.cpp 443);
* positions are left out; the name of a language that it inherits from is not kept, since the code gives up there;
* a null pointer or `false` as a result is `null`; using a lexeme that is not there, or a child behind the last one, is `crash`.
-/
namespace TameParse
namespace Bootstrap
open Language (Ebnf TermKind NtDef NtType Block UnitType LexKind)

/-- The nonterminals (bootstrap.cpp 206-228). -/
inductive Nt
  | parserLanguage | toplevelBlock | languageBlock | languageInherits | languageDefinition | lexerSymbols | lexerDefinition | ignoreDefinition | keywordsDefinition
  | keywordDefinition | lexemeDefinition | grammarDefinition | nonterminalDefinition | production | ebnfItem | simpleEbnfItem | guard | nonterminal | terminal
  | basicTerminal | parserBlock | parserStart | itemName | list
deriving DecidableEq

/-- The terminals (bootstrap.cpp 119-154). -/
inductive Tok
  | language | grammar | lexerSymbols | lexer | weak | ignore | keywords | parser | equals | question | plus | star | colon | openParen | closeParen | openCurly | closeCurly
  | dot | pipe | openGuard | openSquare | closeSquare | identifier | nonterminal | regex | string | character
deriving DecidableEq

/-- `astnode` (astnode.h 43-95): a node for a nonterminal has an identifier, one for a terminal has a lexeme. -/
inductive Node
  | mk (item : Option Nt) (lexeme : Option (Tok × String)) (children : List Node)

def Node.item : Node → Option Nt
  | .mk i _ _ => i

def Node.lexeme : Node → Option (Tok × String)
  | .mk _ l _ => l

def Node.children : Node → List Node
  | .mk _ _ cs => cs

/-- Why there is no result. -/
inductive Stop | null | crash
deriving DecidableEq

abbrev R (α : Type) : Type := Except Stop α

/-- `(*node)[i]`. -/
def child (cs : List Node) (i : Nat) : R Node :=
  match cs[i]? with
  | some c => .ok c
  | none => .error .crash

/-- `node->lexeme()->content<wchar_t>()`. -/
def content (n : Node) : R String :=
  match n.lexeme with
  | some l => .ok l.2
  | none => .error .crash

/-- `node->lexeme()->matched()`. -/
def matched (n : Node) : R Tok :=
  match n.lexeme with
  | some l => .ok l.1
  | none => .error .crash

/-- The name in `'[' identifier ']'` (bootstrap.cpp 962-964 and 1021-1023). -/
def nameIn (n : Node) : R String :=
  match n.children with
  | [c] => do content (← child c.children 1)
  | _ => .ok ""

/-- `attributes(name)`. -/
def named (name : String) : Language.Attr := ⟨name, none, false⟩

/-- The kind of a terminal (bootstrap.cpp 1079-1087). -/
def kindOf : Tok → R TermKind
  | .identifier => .ok .ident
  | .string => .ok .string
  | .character => .ok .character
  | _ => .error .null

/-- What is made of an item and the symbol behind it (bootstrap.cpp 1028-1047). -/
def closureOf (x : Ebnf) (name : String) : Tok → R Ebnf
  | .star => .ok (.repeatZero x (named name))
  | .plus => .ok (.repeatOne x (named name))
  | .question => .ok (.optional x (named name))
  | _ => .error .null

mutual
/-- `get_ebnf_item` (bootstrap.cpp 952-1112). -/
def getItem (n : Node) (optionalName : Option Node) : R Ebnf := do
  let name ← (match optionalName with | some m => nameIn m | none => .ok "")
  match n with
  | .mk (some .ebnfItem) _ cs =>
    match cs with
    | [] => .error .crash
    | [l, _, e] => do
      let xs ← getList l
      let y ← getItem e none
      .ok (.alternative (.paren xs (named name)) y (named name))
    | l :: _ => do
      let xs ← getList l
      .ok (.paren xs (named name))
  | .mk (some .simpleEbnfItem) _ cs =>
    match cs with
    | [c] => getItem c none
    | [c, m] => getItem c (some m)
    | [a, b, c] =>
      match a.lexeme with
      | some (.openParen, _) => getItem b none
      | _ => do
        let x ← getItem a none
        let name' ← nameIn c
        closureOf x (if c.children.length = 1 then name' else name) (← matched b)
    | _ => .error .null
  | .mk (some .nonterminal) _ cs => do .ok (.nonterminal "" (← content (← child cs 0)) (named name))
  | .mk (some .terminal) _ cs =>
    match cs with
    | c :: _ => getItem c optionalName
    | [] => .error .crash
  | .mk (some .basicTerminal) _ cs => do
    let t ← child cs 0
    let k ← kindOf (← matched t)
    .ok (.terminal k "" (← content t) (named name))
  | .mk (some .guard) _ cs =>
    match cs with
    | _ :: e :: _ => do .ok (.guard (← getItem e none) (named name))
    | _ => .error .crash
  | _ => .error .null
termination_by sizeOf n

/-- `get_ebnf_list` (bootstrap.cpp 892-920 and 922-950). -/
def getList (n : Node) : R (List Ebnf) :=
  match n with
  | .mk _ _ [] => .ok []
  | .mk _ _ [l, x] => do
    let xs ← getList l
    let y ← getItem x none
    .ok (xs ++ [y])
  | _ => .error .null
termination_by sizeOf n
end

/-- `get_production_definition` (bootstrap.cpp 876-890). -/
def getProduction (n : Node) : R (List Ebnf) :=
  if n.item = some .production then do getList (← child n.children 0) else .error .null

/-- `get_production_list` (bootstrap.cpp 850-874). -/
def getProductions (n : Node) : R (List (List Ebnf)) :=
  match n with
  | .mk _ _ [] => .ok []
  | .mk _ _ [l, _, p] => do
    let ps ← getProductions l
    let q ← getProduction p
    .ok (ps ++ [q])
  | _ => .error .null
termination_by sizeOf n

/-- `get_grammar_block` (bootstrap.cpp 805-848). -/
def getGrammar (n : Node) : R (List NtDef) :=
  match n with
  | .mk _ _ [] => .ok []
  | .mk _ _ [l, d] => do
    let ds ← getGrammar l
    let id ← child d.children 1
    let first ← child d.children 3
    let more ← child d.children 4
    let name ← content id
    let p ← getProduction first
    let ps ← getProductions more
    .ok (ds ++ [⟨.assignment, name, p :: ps⟩])
  | _ => .error .null
termination_by sizeOf n

/-- The kind of a definition behind `=` (bootstrap.cpp 759-767). -/
def lexKindOf : Tok → R LexKind
  | .string => .ok .string
  | .character => .ok .character
  | .regex => .ok .regex
  | _ => .error .null

/-- One definition of a lexer block (bootstrap.cpp 707-802). -/
def getLexeme (d : Node) : R Language.Lexeme :=
  match d.item with
  | some .lexemeDefinition => do
    let id ← child d.children 0
    match d.children with
    | [_, _, r] => do .ok ⟨.regex, ← content id, (← content r).toList, false, false⟩
    | _ => .error .null
  | some .keywordDefinition => do
    let id ← child d.children 0
    match d.children with
    | [_] => do .ok ⟨.literal, ← content id, (← content id).toList, false, false⟩
    | [_, _, r] => do .ok ⟨← lexKindOf (← matched r), ← content id, (← content r).toList, false, false⟩
    | _ => .error .null
  | _ =>
    match d.lexeme with
    | some (.identifier, s) => .ok ⟨.literal, s, s.toList, false, false⟩
    | _ => .error .null

/-- `get_lexer_block` (bootstrap.cpp 679-803). -/
def getLexer (n : Node) : R (List Language.Lexeme) :=
  match n with
  | .mk _ _ [] => .ok []
  | .mk _ _ [d] => do .ok [← getLexeme d]
  | .mk _ _ [l, d] => do
    let ls ← getLexer l
    .ok (ls ++ [← getLexeme d])
  | _ => .error .null
termination_by sizeOf n

/-- `get_language_defn` (bootstrap.cpp 606-677); the lexemes at the ends are used for positions. -/
def getDefn (n : Node) : R (Block NtDef) :=
  match n with
  | .mk (some .languageDefinition) _ [c] =>
    match c.item with
    | some .lexerSymbols => do
      let _ ← content (← child c.children 0)
      let _ ← content (← child c.children 3)
      .ok (.lexer .symbols false false false (← getLexer (← child c.children 2)))
    | some .lexerDefinition => do
      let _ ← content (← child c.children 1)
      let _ ← content (← child c.children 4)
      let w ← child c.children 0
      .ok (.lexer .lexer (!w.children.isEmpty) false false (← getLexer (← child c.children 3)))
    | some .ignoreDefinition => do
      let _ ← content (← child c.children 0)
      let _ ← content (← child c.children 3)
      .ok (.lexer .ignore false false false (← getLexer (← child c.children 2)))
    | some .keywordsDefinition => do
      let _ ← content (← child c.children 1)
      let _ ← content (← child c.children 4)
      let w ← child c.children 0
      .ok (.lexer .keywords (!w.children.isEmpty) false false (← getLexer (← child c.children 3)))
    | some .grammarDefinition => do
      let _ ← content (← child c.children 0)
      let _ ← content (← child c.children 3)
      .ok (.grammar (← getGrammar (← child c.children 2)))
    | _ => .error .null
  | _ => .error .null

/-- `get_language_defn_list` (bootstrap.cpp 574-604). -/
def getDefns (n : Node) : R (List (Block NtDef)) :=
  match n with
  | .mk _ _ [] => .ok []
  | .mk _ _ [l, d] => do
    let us ← getDefns l
    .ok (us ++ [← getDefn d])
  | _ => .error .null
termination_by sizeOf n

/-- A block of a definition file. -/
inductive Top (δ : Type)
  | language (name : String) (units : List (Block δ))
  | parser (name language : String) (start : List String)

/-- `get_language` (bootstrap.cpp 536-572). -/
def getLanguage (n : Node) : R (Top NtDef) :=
  if n.item = some .languageBlock then do
    let keyword ← child n.children 0
    let id ← child n.children 1
    let inherits ← child n.children 2
    let list ← child n.children 4
    let curly ← child n.children 5
    if keyword.lexeme.isNone || id.lexeme.isNone || curly.lexeme.isNone then .error .null
    else do
      let name ← content id
      if inherits.children.length ≠ 0 then .error .null
      else .ok (.language name (← getDefns list))
  else .error .null

/-- The loop over the start symbols (bootstrap.cpp 525-530). -/
def getStarts (n : Node) : R (List String) :=
  match n with
  | .mk _ _ [l, s] => do
    let x ← content (← child s.children 0)
    .ok (x :: (← getStarts l))
  | .mk _ _ cs => do .ok [← content (← child (← child cs 0).children 0)]
termination_by sizeOf n

/-- `get_parser_block` (bootstrap.cpp 510-534). -/
def getParser (n : Node) : R (Top NtDef) :=
  match n with
  | .mk (some .parserBlock) _ [keyword, id, _, language, _, list, curly] => do
    let start ← getStarts list
    let name ← content id
    let lang ← content language
    let _ ← content keyword
    let _ ← content curly
    .ok (.parser name lang start)
  | _ => .error .null

/-- `get_toplevel` (bootstrap.cpp 474-508). -/
def getTop (n : Node) : R (Top NtDef) :=
  match n with
  | .mk (some .toplevelBlock) _ [c] =>
    if c.item = some .languageBlock then getLanguage c
    else if c.item = some .parserBlock then getParser c
    else .error .null
  | _ => .error .null

/-- `get_toplevel_list` (bootstrap.cpp 442-472). -/
def getTops (n : Node) : R (List (Top NtDef)) :=
  match n with
  | .mk _ _ [] => .ok []
  | .mk _ _ [l, t] => do
    let ts ← getTops l
    .ok (ts ++ [← getTop t])
  | _ => .error .null
termination_by sizeOf n

/-- `get_definition` (bootstrap.cpp 423-440). -/
def getDefinition (n : Node) : R (List (Top NtDef)) :=
  if n.item = some .parserLanguage then do getTops (← child n.children 0) else .error .null

/-! ### The grammar -/

/-- A symbol of a rule. -/
inductive Sym
  | t (t : Tok)
  | n (n : Nt)
  | star (body : List Sym)
  | plus (body : List Sym)
  | opt (body : List Sym)
  | guard

/-- The rules (bootstrap.cpp 256-353). -/
def rules : Nt → List (List Sym)
  | .parserLanguage => [[.star [.n .toplevelBlock]]]
  | .toplevelBlock => [[.n .languageBlock], [.n .parserBlock]]
  | .languageBlock => [[.t .language, .t .identifier, .opt [.n .languageInherits], .t .openCurly, .star [.n .languageDefinition], .t .closeCurly]]
  | .languageInherits => [[.t .colon, .t .identifier]]
  | .languageDefinition => [[.n .lexerSymbols], [.n .lexerDefinition], [.n .ignoreDefinition], [.n .keywordsDefinition], [.n .grammarDefinition]]
  | .lexerSymbols => [[.t .lexerSymbols, .t .openCurly, .star [.n .lexemeDefinition], .t .closeCurly]]
  | .lexerDefinition => [[.opt [.t .weak], .t .lexer, .t .openCurly, .star [.n .lexemeDefinition], .t .closeCurly]]
  | .ignoreDefinition => [[.t .ignore, .t .openCurly, .star [.n .keywordDefinition], .t .closeCurly]]
  | .keywordsDefinition => [[.opt [.t .weak], .t .keywords, .t .openCurly, .star [.n .keywordDefinition], .t .closeCurly]]
  | .keywordDefinition => [[.t .identifier], [.t .identifier, .t .equals, .t .string], [.t .identifier, .t .equals, .t .character], [.t .identifier, .t .equals, .t .regex]]
  | .lexemeDefinition => [[.t .identifier, .t .equals, .t .regex], [.t .identifier, .t .equals, .t .identifier, .t .dot, .t .identifier]]
  | .grammarDefinition => [[.t .grammar, .t .openCurly, .star [.n .nonterminalDefinition], .t .closeCurly]]
  | .nonterminalDefinition => [[.guard, .t .nonterminal, .t .equals, .n .production, .star [.t .pipe, .n .production]]]
  | .itemName => [[.t .openSquare, .t .identifier, .t .closeSquare]]
  | .production => [[.star [.n .simpleEbnfItem]]]
  | .ebnfItem => [[.star [.n .simpleEbnfItem]], [.star [.n .simpleEbnfItem], .t .pipe, .n .ebnfItem]]
  | .simpleEbnfItem => [[.n .nonterminal, .opt [.n .itemName]], [.n .terminal, .opt [.n .itemName]], [.n .simpleEbnfItem, .t .star, .opt [.n .itemName]],
      [.n .simpleEbnfItem, .t .plus, .opt [.n .itemName]], [.n .simpleEbnfItem, .t .question, .opt [.n .itemName]], [.t .openParen, .n .ebnfItem, .t .closeParen], [.n .guard]]
  | .nonterminal => [[.t .nonterminal]]
  | .guard => [[.t .openGuard, .n .ebnfItem, .t .closeSquare]]
  | .terminal => [[.n .basicTerminal]]
  | .basicTerminal => [[.t .identifier], [.t .string], [.t .character]]
  | .parserBlock => [[.t .parser, .t .identifier, .t .colon, .t .identifier, .t .openCurly, .plus [.n .parserStart], .t .closeCurly]]
  | .parserStart => [[.t .nonterminal]]
  | .list => []

mutual
/-- The tree is one that the parser makes for the symbol: a list is empty or a list and the body, an option is empty or the body (ebnf_items.cpp 201-215, 251-266, 305-321). A guard leaves a node that the reader never looks at. -/
inductive Fits : Sym → Node → Prop
  | t (t : Tok) (s : String) : Fits (.t t) (.mk none (some (t, s)) [])
  | n {n : Nt} {r : List Sym} {cs : List Node} : r ∈ rules n → FitsAll r cs → Fits (.n n) (.mk (some n) none cs)
  | starNil (b : List Sym) : Fits (.star b) (.mk (some .list) none [])
  | starCons {b : List Sym} {cs : List Node} : FitsAll (.star b :: b) cs → Fits (.star b) (.mk (some .list) none cs)
  | plusOne {b : List Sym} {cs : List Node} : FitsAll b cs → Fits (.plus b) (.mk (some .list) none cs)
  | plusCons {b : List Sym} {cs : List Node} : FitsAll (.plus b :: b) cs → Fits (.plus b) (.mk (some .list) none cs)
  | optNil (b : List Sym) : Fits (.opt b) (.mk (some .list) none [])
  | optSome {b : List Sym} {cs : List Node} : FitsAll b cs → Fits (.opt b) (.mk (some .list) none cs)
  | guard (i : Option Nt) (l : Option (Tok × String)) (cs : List Node) : Fits .guard (.mk i l cs)

/-- The trees of a sequence of symbols. -/
inductive FitsAll : List Sym → List Node → Prop
  | nil : FitsAll [] []
  | cons {s : Sym} {r : List Sym} {c : Node} {cs : List Node} : Fits s c → FitsAll r cs → FitsAll (s :: r) (c :: cs)
end

end Bootstrap
end TameParse

import Verif.Items
/-
Identifiers issued by a grammar, and the terminal dictionary.

Sources: /repo/TameParse/ContextFree/grammar.cpp 44-47, 108-202; /repo/TameParse/ContextFree/terminal_dictionary.cpp 33-86,
terminal_dictionary.h 82-144.

A `std::map` is an association list that holds a key once: assigning to a key replaces its value or appends a new pair. Identifiers are
unbounded naturals and symbols unbounded integers (the code uses `int`). Not modelled: the identifier a `rule` or `item` object keeps for
itself (rule.cpp `identifier`), and `grammar::operator=`.
-/
namespace TameParse

namespace AssocMap
variable {κ ν : Type} [DecidableEq κ]

/-- `m[k] = v`. -/
def put (k : κ) (v : ν) : List (κ × ν) → List (κ × ν)
  | [] => [(k, v)]
  | (a, b) :: m => if a = k then (k, v) :: m else (a, b) :: put k v m

/-- `m.find(k)`. -/
def get (k : κ) : List (κ × ν) → Option ν
  | [] => none
  | (a, b) :: m => if a = k then some b else get k m

theorem get_put (k : κ) (v : ν) (m : List (κ × ν)) (x : κ) : get x (put k v m) = if k = x then some v else get x m := by
  induction m with
  | nil => rfl
  | cons p m ih =>
    obtain ⟨a, b⟩ := p
    by_cases h : a = k
    · subst h
      by_cases hx : a = x <;> simp [put, get, hx]
    · by_cases hx : a = x
      · subst hx
        simp [put, get, h, Ne.symm h]
      · simp [put, get, h, hx, ih]

theorem length_put_new {k : κ} (v : ν) {m : List (κ × ν)} (h : get k m = none) : (put k v m).length = m.length + 1 := by
  induction m with
  | nil => rfl
  | cons p m ih =>
    obtain ⟨a, b⟩ := p
    by_cases ha : a = k
    · simp [get, ha] at h
    · simp only [get, ha, if_false] at h
      simp [put, ha, ih h]

theorem length_put_old {k : κ} (v : ν) {m : List (κ × ν)} (h : get k m ≠ none) : (put k v m).length = m.length := by
  induction m with
  | nil => simp [get] at h
  | cons p m ih =>
    obtain ⟨a, b⟩ := p
    by_cases ha : a = k
    · simp [put, ha]
    · simp only [get, ha, if_false] at h
      simp [put, ha, ih h]

end AssocMap

open AssocMap

/-- The identifier tables of a grammar (grammar.h). -/
structure GrammarIds where
  /-- `m_ItemIdentifiers` -/
  itemIds : List (Item × Nat)
  /-- `m_ItemForIdentifier` -/
  itemFor : List (Nat × Item)
  /-- `m_NameToNonterminal` -/
  nameIds : List (String × Nat)
  /-- `m_NonterminalToName` -/
  nameFor : List (Nat × String)
  /-- `m_RuleIdentifiers` -/
  ruleIds : List (Rule × Nat)
  /-- `m_RuleForIdentifier` -/
  ruleFor : List (Nat × Rule)

namespace GrammarIds

/-- `identifier_for_item` (grammar.cpp 175-188). -/
def identifierForItem (g : GrammarIds) (x : Item) : GrammarIds × Nat :=
  match get x g.itemIds with
  | some i => (g, i)
  | none =>
    let n := g.itemIds.length
    ({ g with itemIds := put x n g.itemIds, itemFor := put n x g.itemFor }, n)

/-- `item_with_identifier` (grammar.cpp 191-202). -/
def itemWithIdentifier (g : GrammarIds) (i : Nat) : Item := (get i g.itemFor).getD .empty

/-- `identifier_for_rule` (grammar.cpp 145-158). -/
def identifierForRule (g : GrammarIds) (r : Rule) : GrammarIds × Nat :=
  match get r g.ruleIds with
  | some i => (g, i)
  | none =>
    let n := g.ruleIds.length
    ({ g with ruleIds := put r n g.ruleIds, ruleFor := put n r g.ruleFor }, n)

/-- `rule_with_identifier` (grammar.cpp 161-172). -/
def ruleWithIdentifier (g : GrammarIds) (i : Nat) : Rule := (get i g.ruleFor).getD ⟨.empty, []⟩

/-- `id_for_nonterminal` (grammar.cpp 108-132): the new item is stored without a look at whether it was there already. -/
def idForNonterminal (g : GrammarIds) (name : String) : GrammarIds × Nat :=
  match get name g.nameIds with
  | some i => (g, i)
  | none =>
    let n := g.itemIds.length
    ({ g with itemIds := put (.nonterminal n) n g.itemIds, itemFor := put n (.nonterminal n) g.itemFor,
              nameIds := put name n g.nameIds, nameFor := put n name g.nameFor }, n)

def blank : GrammarIds := ⟨[], [], [], [], [], []⟩

/-- The constructor (grammar.cpp 44-47): inserting the empty item in an item set gives it an identifier. -/
def new : GrammarIds := (identifierForItem blank .empty).1

/-- A request for an identifier. -/
inductive Request
  | item (x : Item)
  | rule (r : Rule)
  | name (s : String)

def answer (g : GrammarIds) : Request → GrammarIds × Nat
  | .item x => g.identifierForItem x
  | .rule r => g.identifierForRule r
  | .name s => g.idForNonterminal s

/-- The grammar after a history of requests, with the requests and their answers in order. -/
def run : GrammarIds → List Request → GrammarIds × List (Request × Nat)
  | g, [] => (g, [])
  | g, q :: qs =>
    let a := answer g q
    let r := run a.1 qs
    (r.1, (q, a.2) :: r.2)

end GrammarIds

/-- `terminal_dictionary` (terminal_dictionary.h). -/
structure TerminalDict where
  /-- `m_MaxSymbol` -/
  max : Int
  /-- `m_NameToSymbol` -/
  symbolOf : List (String × Int)
  /-- `m_SymbolToName` -/
  nameOf : List (Int × String)
  /-- `m_ParentFor` -/
  parentFor : List (Int × Int)
  /-- `m_ChildrenFor` -/
  childrenFor : List (Int × List Int)

namespace TerminalDict

/-- terminal_dictionary.cpp 33-35 -/
def new : TerminalDict := ⟨0, [], [], [], []⟩

/-- `add_symbol()` (38-43) -/
def addAnonymous (d : TerminalDict) : TerminalDict × Int := ({ d with max := d.max + 1 }, d.max)

/-- `add_symbol(name)` (46-55) -/
def addNamed (d : TerminalDict) (name : String) : TerminalDict × Int :=
  let (d', s) := d.addAnonymous
  ({ d' with symbolOf := put name s d'.symbolOf, nameOf := put s name d'.nameOf }, s)

/-- `add_symbol(name, value)` (58-65) -/
def addAt (d : TerminalDict) (name : String) (value : Int) : TerminalDict :=
  { d with max := if value ≥ d.max then value + 1 else d.max,
           symbolOf := put name value d.symbolOf, nameOf := put value name d.nameOf }

/-- `parent_of` (terminal_dictionary.h 106-110) -/
def parentOf (d : TerminalDict) (s : Int) : Int := (get s d.parentFor).getD s

/-- `children_of` (terminal_dictionary.h 113-118); a set, kept without duplicates in the order of insertion. -/
def childrenOf (d : TerminalDict) (s : Int) : List Int := (get s d.childrenFor).getD []

/-- `split` (71-86) -/
def split (d : TerminalDict) (symbol : Int) : TerminalDict × Int :=
  let parentId := d.parentOf symbol
  let (d', s) := d.addAnonymous
  if parentId ≥ 0 then
    ({ d' with parentFor := put s parentId d'.parentFor,
               childrenFor := put parentId ((d'.childrenOf parentId).insert s) d'.childrenFor }, s)
  else (d', s)

/-- `name_for_symbol` (terminal_dictionary.h 121-135) with a bound on the recursion; `none` when the bound is reached. -/
def nameForSymbol (d : TerminalDict) : Nat → Int → Option String
  | 0, _ => none
  | fuel + 1, s =>
    match get s d.nameOf with
    | some n => some n
    | none => if d.parentOf s ≠ s then d.nameForSymbol fuel (d.parentOf s) else some ""

/-- `symbol_for_name` (terminal_dictionary.h 138-143) -/
def symbolForName (d : TerminalDict) (name : String) : Int := (get name d.symbolOf).getD (-1)

/-- `count_symbols` (terminal_dictionary.h 102) -/
def countSymbols (d : TerminalDict) : Nat := d.nameOf.length

inductive Request
  | anonymous
  | named (name : String)
  | at (name : String) (value : Int)
  | split (symbol : Int)

def answer (d : TerminalDict) : Request → TerminalDict × Int
  | .anonymous => d.addAnonymous
  | .named n => d.addNamed n
  | .at n v => (d.addAt n v, v)
  | .split s => d.split s

/-- The dictionary after a history of requests, with the requests and the symbols they added in order. -/
def run : TerminalDict → List Request → TerminalDict × List (Request × Int)
  | d, [] => (d, [])
  | d, q :: qs =>
    let a := answer d q
    let r := run a.1 qs
    (r.1, (q, a.2) :: r.2)

end TerminalDict

end TameParse

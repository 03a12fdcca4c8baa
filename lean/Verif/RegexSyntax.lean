import Verif.Builder
import Verif.Frag
import Mathlib.Tactic.Tauto
/-
Specification side of the regular expressions: syntax trees, the text they are written as and the language they denote. The theorems
of RegexProps.lean are about the compiler reading the text.
-/
namespace TameParse

/-- The UTF-16 code units of a code point (Unicode standard, section 3.9). -/
def utf16 (x : Int) : List Int :=
  if x < 0x10000 then [x] else [0xd800 + (x - 0x10000) / 1024, 0xdc00 + (x - 0x10000) % 1024]

/-- How a symbol appears in the input of the lexer: as itself, or as UTF-16 if surrogates are generated. -/
def encode (surrogates : Bool) (x : Int) : List Int := if surrogates then utf16 x else [x]

/-- Every run of consecutive code points above 0xffff stays within one high surrogate (a block of 1024). -/
def RunsFit (P : Int → Prop) : Prop :=
  ∀ x y, 0x10000 ≤ x → x ≤ y → (∀ z, x ≤ z → z ≤ y → P z) → y < 0x110000 ∧ x / 1024 = y / 1024

namespace Regex

/-- A hexadecimal digit as a character. -/
def hexChar (upper : Bool) (v : Nat) : Int := if v < 10 then 48 + v else if upper then 55 + v else 87 + v

/-- Ways of writing one symbol. -/
inductive Chr
  | plain (c : Int)                      -- the character itself
  | quoted (c : Int)                     -- \c
  | named (c v : Int)                    -- \a \e \n \r \f \t
  | hex4 (upper : Bool) (v : Nat)        -- \uXXXX
  | hex2 (upper : Bool) (v : Nat)        -- \xXX
  | oct6 (v : Nat)                       -- \oOOOOOO
  | oct3 (v : Nat)                       -- \OOO

namespace Chr

def text : Chr → List Int
  | plain c => [c]
  | quoted c => [92, c]
  | named c _ => [92, c]
  | hex4 u v => [92, 117, hexChar u (v / 4096), hexChar u (v / 256 % 16), hexChar u (v / 16 % 16), hexChar u (v % 16)]
  | hex2 u v => [92, 120, hexChar u (v / 16), hexChar u (v % 16)]
  | oct6 v => [92, 111, 48 + (v / 32768 : Nat), 48 + (v / 4096 % 8 : Nat), 48 + (v / 512 % 8 : Nat), 48 + (v / 64 % 8 : Nat),
      48 + (v / 8 % 8 : Nat), 48 + (v % 8 : Nat)]
  | oct3 v => [92, 48 + (v / 64 : Nat), 48 + (v / 8 % 8 : Nat), 48 + (v % 8 : Nat)]

def val : Chr → Int
  | plain c => c
  | quoted c => c
  | named _ v => v
  | hex4 _ v => v
  | hex2 _ v => v
  | oct6 v => v
  | oct3 v => v

/-- Characters that start an escape with a meaning of its own: digits and `a e n r f t u x o`. -/
def Special (c : Int) : Prop := (48 ≤ c ∧ c ≤ 57) ∨ c ∈ [97, 101, 110, 114, 102, 116, 117, 120, 111]

/-- The symbol can be written this way. A plain character must not be a backslash; where it may occur is said by the users. -/
def Ok : Chr → Prop
  | plain c => c ≠ 92
  | quoted c => ¬ Special c
  | named c v => (c, v) ∈ [((97 : Int), (7 : Int)), (101, 27), (110, 10), (114, 13), (102, 12), (116, 9)]
  | hex4 _ v => v < 65536
  | hex2 _ v => v < 256
  | oct6 v => v < 262144
  | oct3 v => v < 512

/-- Not one of the plain characters in the list. -/
def NotPlain (l : List Int) : Chr → Prop
  | plain c => c ∉ l
  | _ => True

end Chr

/-- Members of a class `[...]`. -/
inductive ClassItem
  | one (c : Chr)
  | span (c d : Chr)

namespace ClassItem

def text : ClassItem → List Int
  | one c => c.text
  | span c d => c.text ++ 45 :: d.text

def Has : ClassItem → Int → Prop
  | one c, x => x = c.val
  | span c d, x => c.val ≤ x ∧ x ≤ d.val

/-- `]`, `-` and `^` must be quoted inside a class. -/
def Ok : ClassItem → Prop
  | one c => c.Ok ∧ c.NotPlain [93, 45, 94]
  | span c d => c.Ok ∧ c.NotPlain [93, 45, 94] ∧ d.Ok ∧ d.NotPlain [93, 45, 94] ∧ c.val ≤ d.val

end ClassItem

/-- Expressions that match one symbol. -/
inductive Atom
  | chr (c : Chr)
  | any
  | cls (neg : Bool) (items : List ClassItem)

namespace Atom

def text : Atom → List Int
  | chr c => c.text
  | any => [46]
  | cls false items => 91 :: items.flatMap ClassItem.text ++ [93]
  | cls true items => 91 :: 94 :: items.flatMap ClassItem.text ++ [93]

/-- The symbols matched. `.` and negated classes match ordinary symbols. -/
def Has : Atom → Int → Prop
  | chr c, x => x = c.val
  | any, x => 0 ≤ x ∧ x < SymSet.maxSymbol
  | cls false items, x => ∃ i ∈ items, i.Has x
  | cls true items, x => 0 ≤ x ∧ x < SymSet.maxSymbol ∧ ¬ ∃ i ∈ items, i.Has x

/-- The characters with a meaning in an expression: `( ) | * + ? . [ {`. -/
def operators : List Int := [40, 41, 124, 42, 43, 63, 46, 91, 123]

/-- Well written, and matches something. -/
def Ok : Atom → Prop
  | chr c => c.Ok ∧ c.NotPlain operators
  | any => True
  | cls neg items => (∀ i ∈ items, i.Ok) ∧ (neg = true → ∀ i ∈ items, ∀ x, i.Has x → 0 ≤ x ∧ x < SymSet.maxSymbol) ∧
      ∃ x, (cls neg items).Has x

end Atom

/-- Regular expressions. `alt` is left associative. `named` is a name that a language defines, with its definitions: `entry` is a regular expression and
`word` a string, each with its case options, and `either` puts them together (it is left associative as well). -/
inductive Re
  | eps
  | atom (a : Atom)
  | grp (r : Re)
  | star (r : Re)
  | plus (r : Re)
  | opt (r : Re)
  | cat (r s : Re)
  | alt (r s : Re)
  | ref (name : List Int) (r : Re)
  | lit (name : List Int) (w : List Int)
  | unicode (name : List Int) (s : SymSet)
  | named (name : List Int) (r : Re)
  | entry (ci cs : Bool) (r : Re)
  | word (ci cs : Bool) (w : List Int)
  | either (r s : Re)

namespace Re

def text : Re → List Int
  | eps => []
  | atom a => a.text
  | grp r => 40 :: r.text ++ [41]
  | star r => r.text ++ [42]
  | plus r => r.text ++ [43]
  | opt r => r.text ++ [63]
  | cat r s => r.text ++ s.text
  | alt r s => r.text ++ 124 :: s.text
  | ref name _ => 123 :: name ++ [125]
  | lit name _ => 123 :: name ++ [125]
  | unicode name _ => 123 :: name ++ [125]
  | named name _ => 123 :: name ++ [125]
  | entry _ _ _ | word _ _ _ | either _ _ => []

/-- The language denoted by an expression, as read by the lexer. -/
def lang (surrogates : Bool) : Re → Language Int
  | eps => 1
  | atom a => {w | ∃ x, a.Has x ∧ w = encode surrogates x}
  | grp r => r.lang surrogates
  | star r => KStar.kstar (r.lang surrogates)
  | plus r => r.lang surrogates * KStar.kstar (r.lang surrogates)
  | opt r => 1 + r.lang surrogates
  | cat r s => r.lang surrogates * s.lang surrogates
  | alt r s => r.lang surrogates + s.lang surrogates
  | ref _ r => r.lang surrogates
  | lit _ w => {w.flatMap (encode surrogates)}
  | unicode _ s => {w | ∃ x, SymSet.Mem x s ∧ w = encode surrogates x}
  | named _ _ | entry _ _ _ | word _ _ _ | either _ _ => 0

def isItem : Re → Bool
  | eps | cat _ _ | alt _ _ | entry _ _ _ | word _ _ _ | either _ _ => false
  | _ => true

def isAlt : Re → Bool
  | alt _ _ => true
  | _ => false

def isSeq : Re → Bool
  | eps | alt _ _ | entry _ _ _ | word _ _ _ | either _ _ => false
  | _ => true

/-- A repetition at the beginning: an edge comes back to the start state. -/
def loopIn : Re → Bool
  | grp r => r.loopIn
  | star _ | plus _ => true
  | opt r => r.loopIn
  | cat r _ => r.loopIn
  | _ => false

/-- A repetition at the end: an edge leaves the final state. -/
def loopOut : Re → Bool
  | grp r => r.loopOut
  | star _ | plus _ => true
  | opt r => r.loopOut
  | cat _ s => s.loopOut
  | ref _ r => r.loopOut
  | named _ r => r.loopOut
  | entry _ _ r => r.loopOut
  | _ => false

/-- Nesting of `{name}`. -/
def depth : Re → Nat
  | grp r | star r | plus r | opt r => r.depth
  | cat r s | alt r s => max r.depth s.depth
  | ref _ r | named _ r => r.depth + 1
  | entry _ _ r => r.depth
  | either r s => max r.depth s.depth
  | _ => 0

/-- Expressions that are well written, refer to what the environment defines, keep their runs of code points above 0xffff
within one high surrogate if surrogates are generated, and do not put repetitions next to each other in the ways the compiler gets wrong:
* under `*` and `?` there is no repetition at the beginning or at the end;
* in a sequence a repetition is not followed by a repetition;
* the alternatives do not begin with a repetition. -/
def Ok (env : Env) (surrogates : Bool) : Re → Prop
  | eps => True
  | atom a => a.Ok ∧ (surrogates = true → RunsFit a.Has)
  | grp r => r.Ok env surrogates ∧ r ≠ eps
  | star r => r.Ok env surrogates ∧ r.isItem = true ∧ r.loopIn = false ∧ r.loopOut = false
  | plus r => r.Ok env surrogates ∧ r.isItem = true
  | opt r => r.Ok env surrogates ∧ r.isItem = true ∧ r.loopIn = false ∧ r.loopOut = false
  | cat r s => r.Ok env surrogates ∧ s.Ok env surrogates ∧ r.isSeq = true ∧ s.isItem = true ∧
      (r.loopOut = false ∨ s.loopIn = false)
  | alt r s => r.Ok env surrogates ∧ s.Ok env surrogates ∧ s.isAlt = false ∧ r.loopIn = false ∧ s.loopIn = false
  | ref name r => r.Ok env surrogates ∧ 125 ∉ name ∧ env.named name = [] ∧ env.exprs name = some r.text
  | lit name w => 125 ∉ name ∧ env.named name = [] ∧ env.exprs name = none ∧ env.literals name = some w ∧ w ≠ [] ∧
      (surrogates = true → ∀ x ∈ w, x < 0x110000)
  | unicode name s => 125 ∉ name ∧ env.named name = [] ∧ env.exprs name = none ∧ env.literals name = none ∧ env.category name = some s ∧
      (∃ x, SymSet.Mem x s) ∧ SymSet.Canon s ∧ (surrogates = true → RunsFit (fun x => SymSet.Mem x s))
  | named _ _ | entry _ _ _ | word _ _ _ | either _ _ => False

/-- How symbols are read: as UTF-16 or not, the set that is used in place of a set of symbols, and the symbols that may stand for one
of them. -/
structure Mode where
  surrogates : Bool
  wide : SymSet → SymSet
  var : Int → Int → Prop
  refl : ∀ x, var x x

/-- The symbols that may stand for one of `P`. -/
def Mode.Var (m : Mode) (P : Int → Prop) (x : Int) : Prop := ∃ y, P y ∧ m.var y x

/-- The set used for the symbols in `P` holds what may stand for them, and keeps its runs above 0xffff within one high surrogate. -/
def Mode.Reads (m : Mode) (P : Int → Prop) : Prop :=
  (∀ s, SymSet.Canon s → (∀ x, SymSet.Mem x s ↔ P x) → SymSet.Canon (m.wide s) ∧ ∀ x, SymSet.Mem x (m.wide s) ↔ m.Var P x) ∧
    (m.surrogates = true → RunsFit (m.Var P))

/-- The language of an expression if other symbols may stand for those that are written. -/
def langM (m : Mode) : Re → Language Int
  | eps => 1
  | atom a => {w | ∃ x, m.Var a.Has x ∧ w = encode m.surrogates x}
  | grp r => r.langM m
  | star r => KStar.kstar (r.langM m)
  | plus r => r.langM m * KStar.kstar (r.langM m)
  | opt r => 1 + r.langM m
  | cat r s => r.langM m * s.langM m
  | alt r s => r.langM m + s.langM m
  | ref _ r => r.langM m
  | lit _ w => {v | ∃ u, List.Forall₂ m.var w u ∧ v = u.flatMap (encode m.surrogates)}
  | unicode _ s => {w | ∃ x, m.Var (fun y => SymSet.Mem y s) x ∧ w = encode m.surrogates x}
  | named _ _ | entry _ _ _ | word _ _ _ | either _ _ => 0

/-- As `Ok`, with a condition on the sets of symbols. -/
def OkP (env : Env) (R : (Int → Prop) → Prop) : Re → Prop
  | eps => True
  | atom a => a.Ok ∧ R a.Has
  | grp r => r.OkP env R ∧ r ≠ eps
  | star r => r.OkP env R ∧ r.isItem = true ∧ r.loopIn = false ∧ r.loopOut = false
  | plus r => r.OkP env R ∧ r.isItem = true
  | opt r => r.OkP env R ∧ r.isItem = true ∧ r.loopIn = false ∧ r.loopOut = false
  | cat r s => r.OkP env R ∧ s.OkP env R ∧ r.isSeq = true ∧ s.isItem = true ∧ (r.loopOut = false ∨ s.loopIn = false)
  | alt r s => r.OkP env R ∧ s.OkP env R ∧ s.isAlt = false ∧ r.loopIn = false ∧ s.loopIn = false
  | ref name r => r.OkP env R ∧ 125 ∉ name ∧ env.named name = [] ∧ env.exprs name = some r.text
  | lit name w => 125 ∉ name ∧ env.named name = [] ∧ env.exprs name = none ∧ env.literals name = some w ∧ w ≠ [] ∧ ∀ x ∈ w, R (fun y => y = x)
  | unicode name s => 125 ∉ name ∧ env.named name = [] ∧ env.exprs name = none ∧ env.literals name = none ∧ env.category name = some s ∧
      (∃ x, SymSet.Mem x s) ∧ SymSet.Canon s ∧ R (fun x => SymSet.Mem x s)
  | named _ _ | entry _ _ _ | word _ _ _ | either _ _ => False

/-- As `Ok`, for a mode. -/
abbrev OkM (env : Env) (m : Mode) (r : Re) : Prop := r.OkP env m.Reads

/-! Names that a language defines -/

/-- The definitions. -/
def entries : Re → List Named
  | entry ci cs r => [⟨true, r.text, ci, cs⟩]
  | word ci cs w => [⟨false, w, ci, cs⟩]
  | either r s => r.entries ++ s.entries
  | _ => []

def isEither : Re → Bool
  | either _ _ => true
  | _ => false

/-- Whether cases are ignored in a definition with these options, `c` telling whether they are around the name. -/
def within (c ci cs : Bool) : Bool := ci || (!cs && c)

/-- The language of an expression with names that the language defines. `c` tells whether cases are ignored; there is a mode for each. -/
def langN (M : Bool → Mode) : Bool → Re → Language Int
  | _, eps => 1
  | c, atom a => {w | ∃ x, (M c).Var a.Has x ∧ w = encode (M c).surrogates x}
  | c, grp r => r.langN M c
  | c, star r => KStar.kstar (r.langN M c)
  | c, plus r => r.langN M c * KStar.kstar (r.langN M c)
  | c, opt r => 1 + r.langN M c
  | c, cat r s => r.langN M c * s.langN M c
  | c, alt r s => r.langN M c + s.langN M c
  | c, ref _ r => r.langN M c
  | c, lit _ w => {v | ∃ u, List.Forall₂ (M c).var w u ∧ v = u.flatMap (encode (M c).surrogates)}
  | c, unicode _ s => {w | ∃ x, (M c).Var (fun y => SymSet.Mem y s) x ∧ w = encode (M c).surrogates x}
  | c, named _ r => r.langN M c
  | c, entry ci cs r => r.langN M (within c ci cs)
  | c, word ci cs w => {v | ∃ u, List.Forall₂ (M (within c ci cs)).var w u ∧ v = u.flatMap (encode (M (within c ci cs)).surrogates)}
  | c, either r s => r.langN M c + s.langN M c

mutual
/-- As `Ok`, with names that the language defines and a condition on the sets of symbols, which may depend on whether cases are ignored. -/
def OkR (env : Env) (R : Bool → (Int → Prop) → Prop) : Bool → Re → Prop
  | _, eps => True
  | c, atom a => a.Ok ∧ R c a.Has
  | c, grp r => r.OkR env R c ∧ r ≠ eps
  | c, star r => r.OkR env R c ∧ r.isItem = true ∧ r.loopIn = false ∧ r.loopOut = false
  | c, plus r => r.OkR env R c ∧ r.isItem = true
  | c, opt r => r.OkR env R c ∧ r.isItem = true ∧ r.loopIn = false ∧ r.loopOut = false
  | c, cat r s => r.OkR env R c ∧ s.OkR env R c ∧ r.isSeq = true ∧ s.isItem = true ∧ (r.loopOut = false ∨ s.loopIn = false)
  | c, alt r s => r.OkR env R c ∧ s.OkR env R c ∧ s.isAlt = false ∧ r.loopIn = false ∧ s.loopIn = false
  | c, ref name r => r.OkR env R c ∧ 125 ∉ name ∧ env.named name = [] ∧ env.exprs name = some r.text
  | c, lit name w => 125 ∉ name ∧ env.named name = [] ∧ env.exprs name = none ∧ env.literals name = some w ∧ w ≠ [] ∧ ∀ x ∈ w, R c (fun y => y = x)
  | c, unicode name s => 125 ∉ name ∧ env.named name = [] ∧ env.exprs name = none ∧ env.literals name = none ∧ env.category name = some s ∧
      (∃ x, SymSet.Mem x s) ∧ SymSet.Canon s ∧ R c (fun x => SymSet.Mem x s)
  | c, named name r => r.OkItems env R c ∧ 125 ∉ name ∧ env.named name = r.entries
  | _, entry _ _ _ => False
  | _, word _ _ _ => False
  | _, either _ _ => False

/-- Definitions that are well written. -/
def OkItems (env : Env) (R : Bool → (Int → Prop) → Prop) : Bool → Re → Prop
  | c, entry ci cs r => r.OkR env R (within c ci cs)
  | c, word ci cs w => w ≠ [] ∧ ∀ x ∈ w, R (within c ci cs) (fun y => y = x)
  | c, either r s => r.OkItems env R c ∧ s.OkItems env R c ∧ s.isEither = false
  | _, eps => False
  | _, atom _ => False
  | _, grp _ => False
  | _, star _ => False
  | _, plus _ => False
  | _, opt _ => False
  | _, cat _ _ => False
  | _, alt _ _ => False
  | _, ref _ _ => False
  | _, lit _ _ => False
  | _, unicode _ _ => False
  | _, named _ _ => False
end

/-- As `OkR`, for two modes. -/
abbrev OkN (env : Env) (M : Bool → Mode) (c : Bool) (r : Re) : Prop := r.OkR env (fun c => (M c).Reads) c

abbrev OkDefs (env : Env) (M : Bool → Mode) (c : Bool) (r : Re) : Prop := r.OkItems env (fun c => (M c).Reads) c

/-- No names that the language defines. -/
def bare : Re → Bool
  | grp r | star r | plus r | opt r | ref _ r => r.bare
  | cat r s | alt r s => r.bare && s.bare
  | named _ _ | entry _ _ _ | word _ _ _ | either _ _ => false
  | _ => true

end Re
end Regex
end TameParse

import Verif.Util
import Verif.Builder
/-
Model of the Unicode names in regular expressions, and of the script that makes the tables of characters.

Sources: /repo/TameParse/Dfa/ndfa_regex.cpp 630-637 (`match_prefix`), 700-895 (`unicode_for_expression`) and 949-971 (the part of `compile_expression` that
collects the characters), /repo/TameParse/Unicode/unicode.pl, /repo/TameParse/Util/unicode.h 40-62.

Simplifications:
* the lines of UnicodeData.txt come split into the fields that the script reads, numbers already read, an empty field as 0 (which is what `hex` makes of it);
* the symbols of an expression are not negative; characters are numbers (`char` holds those above 127 as negative numbers, which equal none of the letters
  that they are compared with);
* the script writes the blocks in the order of a Perl hash; the theorems allow any order.
-/
namespace TameParse
namespace UnicodeData

/-! ### The script -/

/-- Whether a line stands for one character, or for the first or last one of a range (a name that ends in `First>` or `Last>`, Unicode Standard Annex 44, section
4.2.3). The script does not look at the names. -/
inductive Kind
  | single
  | first
  | last
deriving DecidableEq, Repr

/-- A line: the character, its category, and the characters for upper and lower case, or 0 (unicode.pl 14-18, 45-46). -/
structure Line where
  code : Nat
  kind : Kind
  type : Int × Int
  upper : Nat
  lower : Nat

/-- The ranges of a category with one more character (unicode.pl 23-39). The last character of a range is in it. -/
def addRange (rs : List (Nat × Nat)) (x : Nat) : List (Nat × Nat) :=
  match rs.getLast? with
  | none => [(x, x)]
  | some r => if r.2 + 1 = x then rs.dropLast ++ [(r.1, x)] else rs ++ [(x, x)]

/-- `$charRanges` with one more character (unicode.pl 21-42). -/
def addType (m : List ((Int × Int) × List (Nat × Nat))) (t : Int × Int) (x : Nat) : List ((Int × Int) × List (Nat × Nat)) :=
  match m with
  | [] => [(t, addRange [] x)]
  | e :: m => if e.1 = t then (e.1, addRange e.2 x) :: m else e :: addType m t x

/-- `$uppercase` or `$lowercase` with one more character, which is mapped to `y` (unicode.pl 48-65, 67-84). -/
def addMap (ms : List MapEntry) (x y : Nat) : List MapEntry :=
  if y = 0 then ms
  else
    match ms.getLast? with
    | none => [⟨x, x + 1, y⟩]
    | some m =>
      if m.upper = x ∧ (y : Int) - m.mapTo = x - m.lower then ms.dropLast ++ [{ m with upper := (x : Int) + 1 }] else ms ++ [⟨x, x + 1, y⟩]

/-- `$charRanges` after the lines. -/
def ranges (lines : List Line) : List ((Int × Int) × List (Nat × Nat)) := lines.foldl (fun m l => addType m l.type l.code) []

/-- `$uppercase` after the lines. -/
def uppers (lines : List Line) : List MapEntry := lines.foldl (fun m l => addMap m l.code l.upper) []

/-- `$lowercase` after the lines. -/
def lowers (lines : List Line) : List MapEntry := lines.foldl (fun m l => addMap m l.code l.lower) []

/-- `unicode::block` (unicode.h 46-52). -/
structure Block where
  type : Int × Int
  ranges : List Range

/-- The blocks as they are written (unicode.pl 90-114), in some order. -/
def blocks (lines : List Line) : List Block := (ranges lines).map (fun e => ⟨e.1, e.2.map (fun r => ⟨r.1, (r.2 : Int) + 1⟩)⟩)

/-! ### The names -/

/-- `match_prefix` (ndfa_regex.cpp 630-637): the rest of the string. -/
def matchPrefix (p s : List Int) : Option (List Int) := if p.isPrefixOf s then some (s.drop p.length) else none

/-- A word for a main category, its letter, and the words that may follow. -/
structure Group where
  word : List Int
  letter : Int
  modifiers : List (List Int × Int)

/-- The main categories, in the order in which they are tried. -/
def groups : List Group := [
  -- letter: uppercase, lowercase, titlecase, modifier, other (ndfa_regex.cpp 721-747)
  ⟨[108, 101, 116, 116, 101, 114], 76, [
    ([117, 112, 112, 101, 114, 99, 97, 115, 101], 117),
    ([108, 111, 119, 101, 114, 99, 97, 115, 101], 108),
    ([116, 105, 116, 108, 101, 99, 97, 115, 101], 116),
    ([109, 111, 100, 105, 102, 105, 101, 114], 109),
    ([111, 116, 104, 101, 114], 111)]⟩,
  -- mark: nonspacing, spacing, enclosing (ndfa_regex.cpp 748-766)
  ⟨[109, 97, 114, 107], 77, [
    ([110, 111, 110, 115, 112, 97, 99, 105, 110, 103], 110),
    ([115, 112, 97, 99, 105, 110, 103], 99),
    ([101, 110, 99, 108, 111, 115, 105, 110, 103], 101)]⟩,
  -- number: decimal, letter, other (ndfa_regex.cpp 767-785)
  ⟨[110, 117, 109, 98, 101, 114], 78, [
    ([100, 101, 99, 105, 109, 97, 108], 100),
    ([108, 101, 116, 116, 101, 114], 108),
    ([111, 116, 104, 101, 114], 111)]⟩,
  -- punctuation: connector, dash, open, close, initial, final, other (ndfa_regex.cpp 786-820)
  ⟨[112, 117, 110, 99, 116, 117, 97, 116, 105, 111, 110], 80, [
    ([99, 111, 110, 110, 101, 99, 116, 111, 114], 99),
    ([100, 97, 115, 104], 100),
    ([111, 112, 101, 110], 115),
    ([99, 108, 111, 115, 101], 101),
    ([105, 110, 105, 116, 105, 97, 108], 105),
    ([102, 105, 110, 97, 108], 102),
    ([111, 116, 104, 101, 114], 111)]⟩,
  -- symbol: math, currency, modifier, other (ndfa_regex.cpp 821-843)
  ⟨[115, 121, 109, 98, 111, 108], 83, [
    ([109, 97, 116, 104], 109),
    ([99, 117, 114, 114, 101, 110, 99, 121], 99),
    ([109, 111, 100, 105, 102, 105, 101, 114], 107),
    ([111, 116, 104, 101, 114], 111)]⟩,
  -- separator: space, line, paragraph (ndfa_regex.cpp 844-862)
  ⟨[115, 101, 112, 97, 114, 97, 116, 111, 114], 90, [
    ([115, 112, 97, 99, 101], 115),
    ([108, 105, 110, 101], 108),
    ([112, 97, 114, 97, 103, 114, 97, 112, 104], 112)]⟩,
  -- control: control, format, surrogate, private (ndfa_regex.cpp 863-885)
  ⟨[99, 111, 110, 116, 114, 111, 108], 67, [
    ([99, 111, 110, 116, 114, 111, 108], 99),
    ([102, 111, 114, 109, 97, 116], 102),
    ([115, 117, 114, 114, 111, 103, 97, 116, 101], 115),
    ([112, 114, 105, 118, 97, 116, 101], 111)]⟩]

/-- `u-`, `uni-` and `unicode-` (ndfa_regex.cpp 712). -/
def prefixes : List (List Int) := [[117, 45], [117, 110, 105, 45], [117, 110, 105, 99, 111, 100, 101, 45]]

/-- The words after `-`, each tried once (for instance ndfa_regex.cpp 727-746): the letters and what is left of the string. -/
def modify : List (List Int × Int) → List Int → List Int × List Int
  | [], s => ([], s)
  | m :: ms, s =>
    match matchPrefix m.1 s with
    | some rest => (m.2 :: (modify ms rest).1, (modify ms rest).2)
    | none => modify ms s

/-- The main category and its modifiers (for instance ndfa_regex.cpp 721-747). -/
def category (g : Group) (rest : List Int) : List Int × List Int :=
  match matchPrefix [45] rest with
  | some rest => (g.letter :: (modify g.modifiers rest).1, (modify g.modifiers rest).2)
  | none => ([g.letter], rest)

/-- `unicode_for_expression` (ndfa_regex.cpp 700-895). -/
def unicodeForExpression (name : List Int) : List Int :=
  let expr := name.map (fun c => if c > 255 then 46 else c)
  match prefixes.findSome? (fun p => matchPrefix p expr) with
  | none => []
  | some expr =>
    match groups.findSome? (fun g => (matchPrefix g.word expr).map (category g)) with
    | none => []
    | some r => if r.2 = [] then r.1 else []

/-- A block that is used for a category (ndfa_regex.cpp 957-961). -/
def matching (cat : List Int) (t : Int × Int) : Bool :=
  decide (some t.1 = cat[0]?) && (decide (cat.length ≤ 1) || decide (some t.2 = cat[1]?))

/-- The characters of a category (ndfa_regex.cpp 953-967). -/
def categorySet (bs : List Block) (cat : List Int) : SymSet :=
  bs.foldl (fun s b => if matching cat b.type then b.ranges.foldl SymSet.unionRange s else s) []

/-- What `{name}` stands for if it is a Unicode name (ndfa_regex.cpp 949-971). -/
def categoryOf (bs : List Block) (name : List Int) : Option SymSet :=
  if unicodeForExpression name = [] then none else some (categorySet bs (unicodeForExpression name))

end UnicodeData
end TameParse

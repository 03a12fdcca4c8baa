import Verif.SymbolSetProps
/-
Models of the utility classes: string and UTF-8 readers, case conversion of symbol sets and the ordering operators of `container`.

Sources: /repo/TameParse/Util/stringreader.h 64-94, utf8reader.cpp 58-176, unicode.cpp 46-136, container.h 145-162.

Simplifications:
* an `istream` is the list of the bytes that have not been read and the end-of-file flag: reading past the end sets the flag and
  returns -1, which becomes 255 in a byte;
* `wchar_t` values are natural numbers; the bit operations are written as arithmetic on bytes (`b & 0xe0 = 0xc0` is `b / 32 % 8 = 6`);
* `std::upper_bound` on the case table is the first entry whose upper bound is larger (its contract for sorted tables).
-/
namespace TameParse

/-! ### String reader -/

/-- `basic_stringreader` (stringreader.h 65-76). -/
structure StringReader where
  source : List Int
  pos : Nat

namespace StringReader

def new (s : List Int) : StringReader := ⟨s, 0⟩

/-- `get` (stringreader.h 79-89): the character and the new state. -/
def get (r : StringReader) : Int × StringReader :=
  if r.source.length ≤ r.pos then (0, r) else (r.source.getD r.pos 0, { r with pos := r.pos + 1 })

/-- `good` (stringreader.h 92-94). -/
def good (r : StringReader) : Bool := decide (r.pos < r.source.length)

/-- Reading while `good` holds (at most `k` characters). -/
def readAll : Nat → StringReader → List Int × StringReader
  | 0, r => ([], r)
  | k + 1, r =>
    if r.good then
      let (c, r) := r.get
      let (l, r) := readAll k r
      (c :: l, r)
    else ([], r)

/-- `k` calls of `get`. -/
def reads : Nat → StringReader → List Int
  | 0, _ => []
  | k + 1, r => r.get.1 :: reads k r.get.2

end StringReader

/-! ### UTF-8 reader -/

/-- `std::istream`: unread bytes and whether the end has been hit. -/
structure ByteStream where
  rest : List Nat
  eof : Bool

namespace ByteStream

/-- `get()` stored in an unsigned char. -/
def get (s : ByteStream) : Nat × ByteStream :=
  match s.rest with
  | [] => (255, { s with eof := true })
  | b :: rest => (b, { s with rest := rest })

end ByteStream

/-- `utf8reader` (utf8reader.cpp 37-43). -/
structure Utf8 where
  input : ByteStream
  bad : Bool
  pair : Nat

namespace Utf8

def new (bytes : List Nat) : Utf8 := ⟨⟨bytes, false⟩, false, 0⟩

/-- `good` (utf8reader.cpp 174-176). -/
def good (r : Utf8) : Bool := !r.bad && !r.input.eof

/-- Bytes of the form 10xxxxxx. -/
def continuation (b : Nat) : Bool := b / 64 % 4 == 2

/-- `get` (utf8reader.cpp 58-171). The lead byte is classified by the old content of the variable the result is stored in
(lines 98, 114 and 131 say `target` instead of `firstChar`), and line 147 uses the second byte as the fourth one. -/
def get (r : Utf8) (target : Nat) : Nat × Utf8 :=
  if r.pair ≠ 0 then (r.pair, { r with pair := 0 })
  else if r.input.eof || r.bad then (0, r)
  else
    let (b1, s) := r.input.get
    if s.eof then (0, { r with input := s, bad := true })
    else if b1 < 0x80 then (b1, { r with input := s })
    else if target / 32 % 8 = 6 then
      let (b2, s) := s.get
      if s.eof || !continuation b2 then (0, { r with input := s, bad := true })
      else (b1 % 32 * 64 + b2 % 64, { r with input := s })
    else if target / 16 % 16 = 14 then
      let (b2, s) := s.get
      let (b3, s) := s.get
      if s.eof || !continuation b2 || !continuation b3 then (0, { r with input := s, bad := true })
      else (b1 % 16 * 4096 + b2 % 64 * 64 + b3 % 64, { r with input := s })
    else if target / 8 % 32 = 30 then
      let (b2, s) := s.get
      let (b3, s) := s.get
      let (b4, s) := s.get
      if s.eof || !continuation b2 || !continuation b3 || !continuation b4 then (0, { r with input := s, bad := true })
      else
        let ucs4 := b1 % 8 * 262144 + b2 % 64 * 4096 + b3 % 64 * 64 + b2 % 64
        if 0x110000 ≤ ucs4 then (0, { r with input := s, bad := true })
        else
          let v := (ucs4 + 0x100000000 - 0x10000) % 0x100000000
          (0xd800 + v / 1024 % 1024, { r with input := s, pair := 0xdc00 + v % 1024 })
    else (0, { r with input := s, bad := true })

/-- `k` calls of `get` with the same variable, as in a reading loop. -/
def reads : Nat → Utf8 → Nat → List Nat × Utf8
  | 0, r, _ => ([], r)
  | k + 1, r, target =>
    let (c, r) := r.get target
    let (l, r) := reads k r c
    (c :: l, r)

end Utf8

/-- The UTF-8 encoding of a code point (specification). -/
def utf8 (x : Nat) : List Nat :=
  if x < 0x80 then [x]
  else if x < 0x800 then [0xc0 + x / 64, 0x80 + x % 64]
  else if x < 0x10000 then [0xe0 + x / 4096, 0x80 + x / 64 % 64, 0x80 + x % 64]
  else [0xf0 + x / 262144, 0x80 + x / 4096 % 64, 0x80 + x / 64 % 64, 0x80 + x % 64]

/-! ### Case conversion -/

/-- `unicode::map_entry`: the characters from `lower` to `upper` (exclusive) are mapped to those from `mapTo`. -/
structure MapEntry where
  lower : Int
  upper : Int
  mapTo : Int
deriving DecidableEq

namespace CaseMap

/-- The loop of `convert_range` (unicode.cpp 66-107). Both the entries and the range shrink. -/
def convertLoop : Nat → List MapEntry → Int → Int → SymSet → Option SymSet
  | 0, _, _, _, _ => none
  | k + 1, items, lower, upper, result =>
    if lower < upper then
      match items with
      | [] => some (result.unionRange ⟨lower, upper⟩)
      | e :: rest =>
        if lower < e.lower then
          let last := if upper < e.lower then upper else e.lower
          convertLoop k (e :: rest) last upper (result.unionRange ⟨lower, last⟩)
        else
          let initial := e.mapTo + (lower - e.lower)
          let num := if upper - lower < e.upper - e.lower then upper - lower else e.upper - e.lower
          convertLoop k rest (lower + num) upper (result.unionRange ⟨initial, initial + num⟩)
    else some result

/-- `convert_range` (unicode.cpp 52-110). Every entry is used at most twice by the loop. -/
def convertRange (table : List MapEntry) (r : Range) : Option SymSet :=
  convertLoop (2 * table.length + 2) (table.dropWhile (fun e => decide (e.upper ≤ r.lo))) r.lo r.hi []

/-- `to_upper` and `to_lower` (unicode.cpp 113-136). -/
def convert (table : List MapEntry) (s : SymSet) : Option SymSet :=
  s.foldl (fun acc r => acc.bind (fun result => (convertRange table r).map result.union)) (some [])

/-- Specification: what the table maps a character to. -/
def fold (table : List MapEntry) (x : Int) : Int :=
  match table.find? (fun e => decide (e.lower ≤ x) && decide (x < e.upper)) with
  | some e => e.mapTo + (x - e.lower)
  | none => x

/-- Entries are not empty, ordered and disjoint. -/
def Sorted (table : List MapEntry) : Prop :=
  table.Pairwise (fun a b => a.upper ≤ b.lower) ∧ ∀ e ∈ table, e.lower < e.upper

end CaseMap

/-! ### `container` -/

namespace Container

variable {α : Type} (less : α → α → Bool)

/-- `operator<` (container.h 145-147), with `ItemType::compare` as a parameter. -/
def lt (a b : α) : Bool := less a b

/-- `operator>` (container.h 150-152). -/
def gt (a b : α) : Bool := lt less b a

/-- `operator>=` (container.h 155-157): compares the object with itself. -/
def ge (a _b : α) : Bool := !lt less a a

/-- `operator<=` (container.h 160-162): compares the object with itself. -/
def le (a _b : α) : Bool := !gt less a a

end Container
end TameParse

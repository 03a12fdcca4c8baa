import Verif.NdfaProps
/-
Model of `dfa::ndfa::builder` (with the surrogate expansion) and of the regular expression compiler `dfa::ndfa_regex`.

Sources: /repo/TameParse/Dfa/ndfa.h 200-379, ndfa.cpp 200-436, ndfa_regex.cpp 135-499 and 898-975.

Simplifications:
* the case conversions of `util::unicode` are fields of the builder (`none` when the option is off), the unicode categories are a
  parameter of the environment;
* an iterator `pos` into the expression is the list of the characters from `pos` to the end (the empty list is `end`);
* `{name}` compiles another expression: the nesting depth is bounded by a fuel argument, and `none` stands for running out of it
  (in C++ the stack overflows when an expression refers to itself).
-/
namespace TameParse

/-- `surrogate_pair` (ndfa.cpp 204-215). -/
def surrogatePair (c : Int) : Int × Int :=
  (0xd800 + (c / 1024) % 64 + (c / 65536 - 1) * 64, 0xdc00 + c % 1024)

/-- `ndfa::builder` (ndfa.h 202-249). -/
structure Builder where
  n : Ndfa
  cur : Nat
  prev : Nat
  next : Option Nat
  stack : List (Nat × Option Nat)
  surrogates : Bool
  lower : Option (SymSet → SymSet)
  upper : Option (SymSet → SymSet)

namespace Builder

/-- `add_surrogate_transition` (ndfa.cpp 218-263) for a range that does not need clipping. -/
def addSurrogatePairs (n : Ndfa) (r : Range) (cur target : Nat) : Ndfa :=
  let lo := surrogatePair r.lo
  let hi := surrogatePair (r.hi - 1)
  if lo.1 = hi.1 then
    let (n, tmp) := n.addState
    (n.addTransition cur [⟨lo.1, lo.1 + 1⟩] tmp).addTransition tmp [⟨lo.2, hi.2 + 1⟩] target
  else
    let (n, tmp1) := n.addState
    let n := (n.addTransition cur [⟨lo.1, lo.1 + 1⟩] tmp1).addTransition tmp1 [⟨lo.2, 0xdc00⟩] target
    let (n, tmp2) := n.addState
    let n := (n.addTransition cur [⟨hi.1, hi.1 + 1⟩] tmp2).addTransition tmp2 [⟨0xd800, hi.2 + 1⟩] target
    if lo.1 < hi.1 - 1 then
      let (n, tmp3) := n.addState
      (n.addTransition cur [⟨lo.1 + 1, hi.1⟩] tmp3).addTransition tmp3 [⟨0xdc00, 0xe000⟩] target
    else n

/-- `add_surrogate_transition` (ndfa.cpp 218-225): the clipping. -/
def addSurrogateTransition (n : Ndfa) (r : Range) (cur target : Nat) : Ndfa :=
  if 0x110000 ≤ r.lo then n
  else if 0x110000 < r.hi then addSurrogatePairs n ⟨r.lo, 0x110000⟩ cur target
  else addSurrogatePairs n r cur target

/-- The split of a set into its parts below and above 0x10000 (ndfa.cpp 283-304). -/
def splitSurrogates (s : SymSet) : SymSet × SymSet :=
  s.foldl (fun acc r =>
    if r.hi ≤ r.lo then acc
    else if 0x10000 < r.hi then
      if r.lo ≤ 0xffff then (acc.1.unionRange ⟨r.lo, 0x10000⟩, acc.2.unionRange ⟨0x10000, r.hi⟩)
      else (acc.1, acc.2.unionRange r)
    else (acc.1.unionRange r, acc.2)) ([], [])

/-- `push` (ndfa.h 340). -/
def push (b : Builder) : Builder := { b with stack := (b.cur, none) :: b.stack }

/-- Choice of the target state (ndfa.cpp 270-277). -/
def target (b : Builder) : Builder × Nat :=
  match b.next with
  | some q => ({ b with next := none }, q)
  | none => ({ b with n := b.n.addState.1 }, b.n.addState.2)

/-- The last part of `add_with_surrogates` (ndfa.cpp 333-336). -/
def plainTo (b : Builder) (s : SymSet) (q : Nat) : Builder :=
  { b with n := b.n.addTransition b.cur s q, prev := b.cur, cur := q }

/-- `add_with_surrogates` (ndfa.cpp 269-337). The `push` and `pop` around the surrogate transitions set the previous state to the
current one, which is also what the assignment between them does. -/
def addWithSurrogates (b : Builder) (s : SymSet) : Builder :=
  let (b, q) := b.target
  if b.surrogates then
    let (low, high) := splitSurrogates s
    if high ≠ [] then
      let n := if low ≠ [] then b.n.addTransition b.cur low q else b.n
      { b with n := high.foldl (fun n r => addSurrogateTransition n r b.cur q) n, prev := b.cur, cur := q }
    else b.plainTo s q
  else b.plainTo s q

/-- The symbols with those in the other case (ndfa.cpp 342-355). -/
def wide (b : Builder) (s : SymSet) : SymSet :=
  let t := match b.lower with
    | some f => s.union (f s)
    | none => s
  match b.upper with
  | some f => t.union (f s)
  | none => t

/-- `operator>>(symbol_set)` (ndfa.cpp 340-361). -/
def shift (b : Builder) (s : SymSet) : Builder := b.addWithSurrogates (b.wide s)

/-- `operator>>(state)` followed by `>> epsilon()`. -/
def epsilonTo (b : Builder) (q : Nat) : Builder := { b with next := some q }.shift []

/-- `goto_state(newState)` (ndfa.h 321-324). -/
def goto (b : Builder) (q : Nat) : Builder := { b with cur := q, next := none }

/-- `goto_state(newState, previousState)` (ndfa.h 327-331). -/
def gotoFrom (b : Builder) (q p : Nat) : Builder := { b with cur := q, prev := p, next := none }

/-- `pop` (ndfa.cpp 368-387). -/
def pop (b : Builder) : Builder :=
  match b.stack with
  | [] => b
  | (p, f) :: _ =>
    let b := match f with
      | some f => b.epsilonTo f
      | none => b
    { b with prev := p, stack := b.stack.tail }

/-- `begin_or` (ndfa.cpp 390-418). -/
def beginOr (b : Builder) : Builder :=
  let b := if b.stack = [] then { b with stack := [(0, none)] } else b
  match b.stack with
  | [] => b
  | (p, none) :: rest =>
    let previous := b.prev
    let b := b.shift []
    { b with stack := (p, some b.cur) :: rest, prev := previous, cur := p }
  | (p, some f) :: _ => { b with n := b.n.addTransition b.cur [] f, cur := p }

/-- `rejoin` (ndfa.cpp 421-436). The first component is never -1, so nothing is popped. -/
def rejoin (b : Builder) : Builder :=
  match b.stack with
  | (p, some f) :: rest => { b.epsilonTo f with stack := (p, none) :: rest }
  | _ => b

end Builder

/-! ### Regular expressions -/

namespace Regex

/-- Value of a digit for `hex` (ndfa_regex.cpp 400-407). -/
def hexValue (c : Int) : Option Int :=
  if 48 ≤ c ∧ c ≤ 57 then some (c - 48)
  else if 65 ≤ c ∧ c ≤ 70 then some (c - 65 + 10)
  else if 97 ≤ c ∧ c ≤ 102 then some (c - 97 + 10)
  else none

/-- Value of a digit for `oct` (ndfa_regex.cpp 432-435). -/
def octValue (c : Int) : Option Int := if 48 ≤ c ∧ c ≤ 55 then some (c - 48) else none

/-- `hex` and `oct` (ndfa_regex.cpp 389-447): reads up to `k` digits after the current position. -/
def digits (value : Int → Option Int) (base : Int) : Nat → Int → List Int → Int × List Int
  | 0, acc, pos => (acc, pos)
  | k + 1, acc, pos =>
    match pos with
    | _ :: c :: rest =>
      match value c with
      | some v => digits value base k (acc * base + v) (c :: rest)
      | none => (acc, pos)
    | _ => (acc, pos)

/-- `symbol_for_sequence` (ndfa_regex.cpp 455-499): the symbol, and the position of its last character. -/
def symbolFor (pos : List Int) : Int × List Int :=
  match pos with
  | [] => (0, [])
  | c :: rest =>
    if c ≠ 92 then (c, pos)
    else match rest with
      | [] => (92, [])
      | d :: _ =>
        if d = 97 then (0x7, rest)
        else if d = 101 then (0x1b, rest)
        else if d = 110 then (0xa, rest)
        else if d = 114 then (0xd, rest)
        else if d = 102 then (0xc, rest)
        else if d = 116 then (0x9, rest)
        else if d = 117 then digits hexValue 16 4 0 rest
        else if d = 120 then digits hexValue 16 2 0 rest
        else if d = 111 then digits octValue 8 6 0 rest
        else if 48 ≤ d ∧ d ≤ 57 then digits octValue 8 3 0 pos
        else (d, rest)

/-- The loop over the symbols of a class (ndfa_regex.cpp 320-347). The fuel is the number of characters. -/
def classLoop : Nat → List Int → SymSet → SymSet × List Int
  | 0, pos, syms => (syms, pos)
  | k + 1, pos, syms =>
    match pos with
    | [] => (syms, [])
    | c :: _ =>
      if c = 93 then (syms, pos)
      else
        let (initial, pos) := symbolFor pos
        match pos with
        | [] => (syms, [])
        | [_] => (syms, [])
        | _ :: d :: pos' =>
          if d = 45 then
            match pos' with
            | [] => (syms, [])
            | _ =>
              let (final, pos) := symbolFor pos'
              match pos with
              | [] => (syms, [])
              | _ :: pos => classLoop k pos (syms.unionRange ⟨initial, final + 1⟩)
          else classLoop k (d :: pos') (syms.unionRange ⟨initial, initial + 1⟩)

/-- A named expression of a language (`lexer_item`, Compiler/Data/lexer_item.h 39-95), as far as it is used for `{name}`. -/
structure Named where
  regex : Bool
  text : List Int
  ci : Bool
  cs : Bool

/-- What `{name}` refers to: `m_ExpressionMap`, `m_LiteralExpressionMap` and the unicode categories; for the regular expressions of a language
also `lexer_data::get_expressions`, which is empty for a plain `ndfa_regex`, and the tables of the case conversions. -/
structure Env where
  exprs : List Int → Option (List Int)
  literals : List Int → Option (List Int)
  category : List Int → Option SymSet
  named : List Int → List Named := fun _ => []
  folds : (SymSet → SymSet) × (SymSet → SymSet) := (id, id)

/-- `add_literal(builder, literal)` (ndfa_regex.cpp 135-143). -/
def addLiteralTo (b : Builder) (w : List Int) : Builder := w.foldl (fun b c => b.shift [⟨c, c + 1⟩]) b

/-- The builder used for an expression (ndfa_regex.cpp 150-155, 165-170): `get_cons` and `goto_state`. -/
def cons (n : Ndfa) (surrogates : Bool) (fold : Option ((SymSet → SymSet) × (SymSet → SymSet))) (q : Nat) : Builder :=
  ⟨n, q, 0, none, [], surrogates, fold.map (·.1), fold.map (·.2)⟩

/-- `add_literal(initialState, literal)` (ndfa_regex.cpp 146-158): the automaton and the final state. -/
def addLiteral (n : Ndfa) (surrogates : Bool) (fold : Option ((SymSet → SymSet) × (SymSet → SymSet))) (q : Nat) (w : List Int) :
    Ndfa × Nat :=
  if n.states.length ≤ q then (n, q)
  else ((addLiteralTo (cons n surrogates fold q) w).n, (addLiteralTo (cons n surrogates fold q) w).cur)

/-- The case conversions that `set_case_options` turns on. -/
abbrev Case : Type := Option (SymSet → SymSet) × Option (SymSet → SymSet)

/-- `set_case_options` (ndfa.h 297-300). -/
def _root_.TameParse.Builder.setCase (b : Builder) (z : Case) : Builder := { b with lower := z.1, upper := z.2 }

/-- The case options for a named expression, `z` being those around it (lexer_stage.cpp 144-152). -/
def Env.caseFor (env : Env) (z : Case) (i : Named) : Case :=
  if i.ci then (some env.folds.1, some env.folds.2) else if i.cs then (none, none) else z

/-- One of the expressions with a name (lexer_stage.cpp 144-163). -/
def addNamed (env : Env) (sub : List Int → Builder → Option Builder) (z : Case) (i : Named) (b : Builder) : Option Builder :=
  let b := b.setCase (env.caseFor z i)
  if i.regex then sub i.text b else some (addLiteralTo b i.text)

/-- The loop over the expressions with a name (lexer_stage.cpp 136-167) after the first one. -/
def addMore (env : Env) (sub : List Int → Builder → Option Builder) (z : Case) : List Named → Builder → Option Builder
  | [], b => some b
  | i :: l, b => (addNamed env sub z i b.beginOr).bind (addMore env sub z l)

/-- `compile_expression` (ndfa_regex.cpp 922-975; for the regular expressions of a language lexer_stage.cpp 122-175). `sub` is
`add_regex(builder, regex)`. The literal of a plain `ndfa_regex` is compiled by a new builder in the current state. -/
def compileExpression (env : Env) (sub : List Int → Builder → Option Builder) (name : List Int) (b : Builder) : Option Builder :=
  match env.named name with
  | i :: l => do
    let b1 ← addNamed env sub (b.lower, b.upper) i b.push
    let b2 ← addMore env sub (b.lower, b.upper) l b1
    some (b2.setCase (b.lower, b.upper)).pop
  | [] =>
    match env.exprs name with
    | some e => sub e b
    | none =>
      match env.literals name with
      | some w =>
        let l := addLiteralTo { b with prev := 0, next := none, stack := [] } w
        some ({ b with n := l.n }.goto l.cur)
      | none =>
        match env.category name with
        | some s => some (b.shift s)
        | none => some b

/-- `compile` (ndfa_regex.cpp 227-386): the position of the last character read, and the builder. -/
def compile (env : Env) (sub : List Int → Builder → Option Builder) (pos : List Int) (b : Builder) :
    Option (List Int × Builder) :=
  match pos with
  | [] => some ([], b.rejoin)
  | c :: rest =>
    if c = 40 then some (pos, b.push)
    else if c = 41 then some (pos, b.pop)
    else if c = 124 then some (pos, b.beginOr)
    else if c = 42 then
      let p := b.prev
      let q := b.cur
      some (pos, ((((b.goto p).epsilonTo q).goto q).epsilonTo p).gotoFrom q p)
    else if c = 43 then
      let p := b.prev
      let q := b.cur
      some (pos, ((b.goto q).epsilonTo p).gotoFrom q p)
    else if c = 63 then
      let p := b.prev
      let q := b.cur
      some (pos, ((b.goto p).epsilonTo q).gotoFrom q p)
    else if c = 46 then some (pos, b.shift [⟨0, 0x7fffffff⟩])
    else if c = 91 then
      match rest with
      | [] => some ([], b)
      | d :: rest' =>
        if d = 94 then
          match rest' with
          | [] => some ([], b)
          | _ =>
            let r := classLoop rest'.length rest' []
            some (r.2, b.shift r.1.invert)
        else
          let r := classLoop rest.length rest []
          some (r.2, b.shift r.1)
    else if c = 123 then
      match rest with
      | [] => some ([], b)
      | _ => do
        let b ← compileExpression env sub (rest.takeWhile (· ≠ 125)) b.push
        some (rest.dropWhile (· ≠ 125), b.pop)
    else
      let (s, pos) := symbolFor pos
      some (pos, b.shift [⟨s, s + 1⟩])

/-- The `while` loop of `add_regex` and the final `compile` (ndfa_regex.cpp 185-196). The fuel is the number of characters. -/
def compileAll (env : Env) (sub : List Int → Builder → Option Builder) : Nat → List Int → Builder → Option Builder
  | _, [], b => some b.rejoin
  | 0, _ :: _, _ => none
  | k + 1, c :: rest, b => do
    let r ← compile env sub (c :: rest) b
    compileAll env sub k r.1.tail r.2

/-- `add_regex(builder, regex)` (ndfa_regex.cpp 177-200), with a bound on the nesting of `{name}`. -/
def addRegexTo (env : Env) : Nat → List Int → Builder → Option Builder
  | 0, _, _ => none
  | depth + 1, text, b => compileAll env (addRegexTo env depth) text.length text (b.shift [])

/-- `add_regex(initialState, regex)` (ndfa_regex.cpp 161-173): the automaton and the final state. -/
def addRegex (env : Env) (depth : Nat) (n : Ndfa) (surrogates : Bool) (fold : Option ((SymSet → SymSet) × (SymSet → SymSet)))
    (q : Nat) (text : List Int) : Option (Ndfa × Nat) :=
  if n.states.length ≤ q then some (n, q)
  else (addRegexTo env depth text (cons n surrogates fold q)).map (fun b => (b.n, b.cur))

end Regex
end TameParse

/-
The session that parser states share: one stream of tokens, a buffer of tokens that were read but not used by every state, and a
doubly linked list of the states (TameParse/Lr/parser.h 192-226, TameParse/Lr/parser_state.h 37-148).

Objects are numbered; a number is a pointer.  A destroyed state is `none`.  The token source (`m_Actions->read()`) is the list of the
tokens that it returns before it returns NULL.  `int` positions are unbounded integers.  Negative offsets of `look` are not modelled:
nothing calls it with one.
-/
namespace TameParse
namespace Session

variable {τ : Type}

inductive Fault
  /-- undefined behaviour: a dangling pointer, or a range outside a vector -/
  | undefined
  /-- the list of states has a cycle -/
  | endless
deriving DecidableEq, Repr

/-- The members of `state` that matter here (parser.h 239-252). -/
structure St where
  pos : Int
  next : Option Nat
  last : Option Nat
deriving DecidableEq, Repr

/-- `session` (parser.h 192-226), with the states that use it; `freed` once the destructor has run. -/
structure Sess (τ : Type) where
  lookahead : List τ
  eof : Bool
  first : Option Nat
  input : List τ
  states : List (Option St)
  freed : Bool
deriving DecidableEq, Repr

def live (s : Sess τ) (r : Nat) : Except Fault St :=
  match s.states[r]? with
  | some (some x) => .ok x
  | _ => .error .undefined

/-- A new state at the front of the list (parser_state.h 42-47 and 58-63). -/
def link (s : Sess τ) (pos : Int) : Except Fault (Sess τ) :=
  let me := s.states.length
  match s.first with
  | none => .ok { s with states := s.states ++ [some ⟨pos, none, none⟩], first := some me }
  | some n => do
    let y ← live s n
    return { s with states := s.states.set n (some { y with last := some me }) ++ [some ⟨pos, some n, none⟩], first := some me }

/-- `create_parser` (parser.h 725-728) and the constructor (parser_state.h 37-48). -/
def create (input : List τ) : Except Fault (Sess τ) :=
  link ⟨[], false, none, input, [], false⟩ 0

/-- The copy constructor (parser_state.h 53-64). -/
def copy (s : Sess τ) (r : Nat) : Except Fault (Sess τ) := do
  let x ← live s r
  if s.freed then throw .undefined
  link s x.pos

/-- The destructor (parser_state.h 69-83). -/
def destroy (s : Sess τ) (r : Nat) : Except Fault (Sess τ) := do
  let x ← live s r
  if s.freed then throw .undefined
  let s ← match x.last with
    | some l => do
      let y ← live s l
      pure { s with states := s.states.set l (some { y with next := x.next }) }
    | none => pure { s with first := x.next }
  let s ← match x.next with
    | some n => do
      let y ← live s n
      pure { s with states := s.states.set n (some { y with last := x.last }) }
    | none => pure s
  return { s with states := s.states.set r none, freed := s.first.isNone }

/-- The states that a walk along `m_NextState` meets (parser_state.h 91 and 102). -/
def members (states : List (Option St)) : Nat → Option Nat → Except Fault (List Nat)
  | _, none => .ok []
  | 0, some _ => .error .endless
  | k + 1, some r =>
    match states[r]? with
    | some (some x) => (members states k x.next).map (r :: ·)
    | _ => .error .undefined

/-- The smallest position (parser_state.h 90-93). -/
def lowest (states : List (Option St)) (start : Int) (ids : List Nat) : Int :=
  ids.foldl (fun m r =>
    match states[r]? with
    | some (some x) => if x.pos < m then x.pos else m
    | _ => m) start

/-- The new positions (parser_state.h 102-104). -/
def lower (d : Int) (states : List (Option St)) (ids : List Nat) : List (Option St) :=
  ids.foldl (fun st r =>
    match st[r]? with
    | some (some x) => st.set r (some { x with pos := x.pos - d })
    | _ => st) states

/-- `trim_lookahead` (parser_state.h 88-105), called by a state that is at position `pos`. -/
def trim (s : Sess τ) (pos : Int) : Except Fault (Sess τ) := do
  let ids ← members s.states (s.states.length + 1) s.first
  let d := lowest s.states pos ids
  if d = 0 then return s
  if d < 0 ∨ s.lookahead.length < d.toNat then throw .undefined
  return { s with lookahead := s.lookahead.drop d.toNat, states := lower d s.states ids }

/-- `next` (parser_state.h 112-115). -/
def next (s : Sess τ) (r : Nat) : Except Fault (Sess τ) := do
  let x ← live s r
  if s.freed then throw .undefined
  trim { s with states := s.states.set r (some { x with pos := x.pos + 1 }) } (x.pos + 1)

/-- The loop of `look` (parser_state.h 127-146): the token, then the new buffer, source and end of file flag. -/
def fill (pos : Nat) (lookahead : List τ) (eof : Bool) : List τ → Option τ × List τ × List τ × Bool
  | [] =>
    if pos < lookahead.length then (lookahead[pos]?, lookahead, [], eof)
    else if eof then (none, lookahead, [], eof) else (none, lookahead, [], true)
  | t :: input =>
    if pos < lookahead.length then (lookahead[pos]?, lookahead, t :: input, eof)
    else if eof then (none, lookahead, t :: input, eof) else fill pos (lookahead ++ [t]) eof input

/-- `look` (parser_state.h 120-148); `none` is the end of file container. -/
def look (s : Sess τ) (r offset : Nat) : Except Fault (Option τ × Sess τ) := do
  let x ← live s r
  if s.freed then throw .undefined
  if x.pos + offset < 0 then throw .undefined
  let (t, lookahead, input, eof) := fill (x.pos + offset).toNat s.lookahead s.eof s.input
  return (t, { s with lookahead := lookahead, input := input, eof := eof })

inductive Op
  | look (r offset : Nat)
  | next (r : Nat)
  | copy (r : Nat)
  | destroy (r : Nat)
deriving DecidableEq

/-- One operation; the result of `look` is added to the output. -/
def step (p : Sess τ × List (Option τ)) : Op → Except Fault (Sess τ × List (Option τ))
  | .look r k => (look p.1 r k).map (fun q => (q.2, p.2 ++ [q.1]))
  | .next r => (next p.1 r).map (·, p.2)
  | .copy r => (copy p.1 r).map (·, p.2)
  | .destroy r => (destroy p.1 r).map (·, p.2)

def run (input : List τ) (ops : List Op) : Except Fault (Sess τ × List (Option τ)) := do
  let s ← create input
  ops.foldlM step (s, [])

end Session
end TameParse

/-
Model of `parser_stack`: stacks that share storage, with references kept in a linked list and a mark and sweep collector.

Source: /repo/TameParse/Lr/parser_stack.h 66-356.

One storage and all the references to it are modelled: reference objects are numbered in the order of their construction, number 0 being
the one made by the default constructor. Pointers to references are these numbers, a destroyed object is `none`. `depth` is the template
parameter `initial_depth` (64 unless given). The index of an entry is a natural number; `m_PreviousIndex` is -2, -1 or an index.
Using a destroyed reference or freed storage, or reading outside the vector, is the outcome `undefined`; a loop that does not end is the
outcome `endless`. Assignment from a reference to another storage is not modelled (the code says it does not work). The item and state of
an entry that was never pushed are left unspecified by the code and are some default value here.
-/
namespace TameParse
namespace ParserStack

inductive Fault | undefined | endless
deriving DecidableEq

/-- `m_PreviousIndex` (parser_stack.h 86-91). -/
inductive Prev | empty | head | below (i : Nat)
deriving DecidableEq

/-- `entry` (parser_stack.h 81-102). -/
structure Entry (α : Type) where
  prev : Prev
  state : Int
  item : α
deriving DecidableEq

/-- The fields of a reference (parser_stack.h 231-240). -/
structure Ref where
  index : Nat
  last : Option Nat
  next : Option Nat
deriving DecidableEq

/-- `internal_stack` (parser_stack.h 105-118) and the references. -/
structure Heap (α : Type) where
  entries : List (Entry α)
  firstUnused : Nat
  numFree : Int
  root : Option Nat
  refs : List (Option Ref)
  freed : Bool
deriving DecidableEq

variable {α : Type} [Inhabited α]

def blank : Entry α := ⟨.empty, 0, default⟩

/-- A live reference. -/
def live (h : Heap α) (r : Nat) : Except Fault Ref :=
  match h.refs[r]? with
  | some (some x) => .ok x
  | _ => .error .undefined

/-- The loop over the references (parser_stack.h 151-155): their indices in list order. -/
def rootIndices (refs : List (Option Ref)) : Nat → Option Nat → Except Fault (List Nat)
  | _, none => .ok []
  | 0, some _ => .error .endless
  | k + 1, some r =>
    match refs[r]? with
    | some (some x) => (rootIndices refs k x.next).map (x.index :: ·)
    | _ => .error .undefined

/-- The marking loop (parser_stack.h 158-173); the head of the list is the top of the stack. -/
def markLoop (entries : List (Entry α)) : Nat → List Nat → List Bool → Except Fault (List Bool)
  | _, [], marks => .ok marks
  | 0, _ :: _, _ => .error .endless
  | k + 1, next :: waiting, marks =>
    match entries[next]? with
    | none => .error .undefined
    | some e =>
      let marks := marks.set next true
      match e.prev with
      | .below j =>
        match marks[j]? with
        | none => .error .undefined
        | some true => markLoop entries k waiting marks
        | some false => markLoop entries k (j :: waiting) marks
      | _ => markLoop entries k waiting marks

/-- The sweep (parser_stack.h 177-182). -/
def sweep : List (Entry α) → List Bool → List (Entry α)
  | e :: es, m :: ms => (if m then e else { e with prev := .empty }) :: sweep es ms
  | es, _ => es

/-- The number of entries that the sweep counts (parser_stack.h 176-181). -/
def unmarked (marks : List Bool) : Int := (marks.filter (fun m => !m)).length

/-- `collect` (parser_stack.h 143-183). -/
def collect (h : Heap α) : Except Fault (Heap α) := do
  let waiting := (← rootIndices h.refs (h.refs.length + 1) h.root).reverse
  let marks ← markLoop h.entries (waiting.length * (h.entries.length + 1)) waiting (List.replicate h.entries.length false)
  return { h with entries := sweep h.entries marks, numFree := unmarked marks }

/-- `grow_stack` (parser_stack.h 186-194). -/
def growStack (depth : Nat) (h : Heap α) : Heap α :=
  let numNew := if h.entries.length > depth * 8 then depth * 8 else h.entries.length
  { h with entries := h.entries ++ List.replicate numNew blank, numFree := h.numFree + numNew }

/-- The search for a free entry (parser_stack.h 208-211). -/
def findFree (entries : List (Entry α)) : Nat → Nat → Except Fault Nat
  | 0, _ => .error .endless
  | k + 1, i =>
    match entries[i]? with
    | none => .error .undefined
    | some e => if e.prev = .empty then .ok i else findFree entries k (if entries.length ≤ i + 1 then 0 else i + 1)

/-- The entry is made a head (parser_stack.h 219). -/
def setHead (entries : List (Entry α)) (i : Nat) : List (Entry α) :=
  match entries[i]? with
  | some e => entries.set i { e with prev := .head }
  | none => entries

/-- The first part of `get_new` (parser_stack.h 199-206): collect, and grow if that was not enough. -/
def makeRoom (depth : Nat) (h : Heap α) : Except Fault (Heap α) :=
  if h.numFree ≤ 0 then
    (collect h).map (fun (h : Heap α) => if h.numFree < (depth / 2 : Nat) then growStack depth h else h)
  else .ok h

/-- `get_new` (parser_stack.h 198-225). -/
def getNew (depth : Nat) (h : Heap α) : Except Fault (Nat × Heap α) := do
  let h ← makeRoom depth h
  let result ← findFree h.entries (2 * h.entries.length + 1) h.firstUnused
  return (result,
    { h with
      firstUnused := if h.entries.length ≤ result + 1 then 0 else result + 1
      entries := setHead h.entries result
      numFree := h.numFree - 1 })

/-- The default constructor (parser_stack.h 252-258). -/
def create (depth : Nat) : Except Fault (Heap α) := do
  let (i, h) ← getNew depth ⟨List.replicate depth blank, 0, depth, none, [], false⟩
  return { h with refs := [some ⟨i, none, h.root⟩], root := some 0 }

/-- `push` (parser_stack.h 335-345). -/
def push (depth : Nat) (h : Heap α) (r : Nat) (state : Int) (item : α) : Except Fault (Heap α) := do
  let x ← live h r
  if h.freed then throw .undefined
  let (i, h) ← getNew depth h
  return { h with
    entries := h.entries.set i ⟨.below x.index, state, item⟩
    refs := h.refs.set r (some { x with index := i }) }

/-- `pop` (parser_stack.h 350-355). -/
def pop (h : Heap α) (r : Nat) : Except Fault (Bool × Heap α) := do
  let x ← live h r
  if h.freed then throw .undefined
  match h.entries[x.index]? with
  | none => throw .undefined
  | some e =>
    match e.prev with
    | .head => return (false, h)
    | .empty => throw .undefined
    | .below j => return (true, { h with refs := h.refs.set r (some { x with index := j }) })

/-- The copy constructor (parser_stack.h 261-267); the new object gets the next number. -/
def copy (h : Heap α) (r : Nat) : Except Fault (Heap α) := do
  let x ← live h r
  if h.freed then throw .undefined
  return { h with refs := h.refs ++ [some ⟨x.index, none, h.root⟩], root := some h.refs.length }

/-- `operator=` (parser_stack.h 270-275). -/
def assign (h : Heap α) (r s : Nat) : Except Fault (Heap α) := do
  let x ← live h r
  let y ← live h s
  return { h with refs := h.refs.set r (some { x with index := y.index }) }

/-- The destructor (parser_stack.h 278-292). -/
def destroy (h : Heap α) (r : Nat) : Except Fault (Heap α) := do
  let x ← live h r
  if h.freed then throw .undefined
  let h ← match x.next with
    | none => pure h
    | some n => do
      let y ← live h n
      pure { h with refs := h.refs.set n (some { y with last := x.last }) }
  let h ← match x.last with
    | none => pure { h with root := x.next }
    | some l => do
      let y ← live h l
      pure { h with refs := h.refs.set l (some { y with next := x.next }) }
  return { h with refs := h.refs.set r none, freed := h.root.isNone }

/-- The walk of `operator[]` (parser_stack.h 314-318): `k` steps down, stopping at the bottom. -/
def walk (entries : List (Entry α)) : Nat → Nat → Except Fault Nat
  | 0, i => .ok i
  | k + 1, i =>
    match entries[i]? with
    | none => .error .undefined
    | some e =>
      match e.prev with
      | .below j => walk entries k j
      | _ => walk entries k i

/-- `operator[](-k)` (parser_stack.h 313-332); `operator*` and `->` are `k = 0`. -/
def read (h : Heap α) (r k : Nat) : Except Fault (Entry α) := do
  let x ← live h r
  if h.freed then throw .undefined
  let i ← walk h.entries k x.index
  match h.entries[i]? with
  | none => throw .undefined
  | some e => return e

inductive Op (α : Type)
  | push (r : Nat) (state : Int) (item : α)
  | pop (r : Nat)
  | copy (r : Nat)
  | assign (r s : Nat)
  | destroy (r : Nat)
deriving DecidableEq

/-- One operation; the result of `pop` is added to the output. -/
def step (depth : Nat) (p : Heap α × List Bool) : Op α → Except Fault (Heap α × List Bool)
  | .push r s x => (push depth p.1 r s x).map (·, p.2)
  | .pop r => (pop p.1 r).map (fun q => (q.2, p.2 ++ [q.1]))
  | .copy r => (copy p.1 r).map (·, p.2)
  | .assign r s => (assign p.1 r s).map (·, p.2)
  | .destroy r => (destroy p.1 r).map (·, p.2)

/-- A program that starts with one reference. -/
def run (depth : Nat) (ops : List (Op α)) : Except Fault (Heap α × List Bool) := do
  let h ← create depth
  ops.foldlM (step depth) (h, [])

end ParserStack
end TameParse

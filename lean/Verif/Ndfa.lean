import Verif.SymbolMap
/-
Model of `dfa::ndfa`: states, transitions, accept actions, epsilon closure, overlap removal and the subset
construction.

Sources: /repo/TameParse/Dfa/ndfa.{h,cpp}, ndfa_transformations.cpp, state.h, transition.h, accept_action.h.

Simplifications:
* `std::set<int>` and `std::set<transition>` are sorted lists without repetition;
* `m_Accept` (`std::map<int, vector<accept_action*>>`) is a function, an absent entry is the empty list;
* an accept action is its symbol and its eagerness (subclasses of `accept_action` are not modelled);
* reading a state outside the vector is undefined in C++: the model reads no transitions, and every theorem
  assumes the state numbers are in range (`Ndfa.WF`).
-/
namespace TameParse

/-- `accept_action` (accept_action.h). -/
structure Action where
  symbol : Int
  eager : Bool
deriving DecidableEq, Repr

/-- A transition: symbol set identifier and target state (transition.h). -/
abbrev Trans := Nat × Nat

/-- `state::add` (state.h/state.cpp): insertion in a `std::set<transition>` ordered by (symbol set, state). -/
def addTrans : List Trans → Trans → List Trans
  | [], t => [t]
  | u :: r, t =>
    if t.1 < u.1 ∨ (t.1 = u.1 ∧ t.2 < u.2) then t :: u :: r
    else if t = u then u :: r
    else u :: addTrans r t

/-- `ndfa` (ndfa.h): `m_States`, `m_Symbols`, `m_Accept`. -/
structure Ndfa where
  states : List (List Trans)
  syms : SymbolMap
  accept : Nat → List Action

namespace Ndfa

/-- `get_state` (ndfa.h): the transitions of a state. -/
def trans (n : Ndfa) (q : Nat) : List Trans := (n.states[q]?).getD []

/-- `add_transition(oldState, symbols, newState)` (ndfa.cpp 157-167). -/
def addTransition (n : Ndfa) (old : Nat) (s : SymSet) (new : Nat) : Ndfa :=
  if old < n.states.length ∧ new < n.states.length then
    let r := n.syms.identifierFor s
    { n with syms := r.1, states := n.states.set old (addTrans (n.trans old) (r.2, new)) }
  else n

/-- `add_state` (ndfa.cpp 126-133). -/
def addState (n : Ndfa) : Ndfa × Nat := ({ n with states := n.states ++ [[]] }, n.states.length)

/-- `accept(state, action)` (ndfa.cpp 190-193). -/
def addAccept (n : Ndfa) (q : Nat) (a : Action) : Ndfa :=
  { n with accept := fun p => if p = q then n.accept q ++ [a] else n.accept p }

/-! ### Specification: what an automaton does -/

/-- `q --x--> q'` by a transition on a set containing `x`. -/
def SymStep (n : Ndfa) (q : Nat) (x : Int) (q' : Nat) : Prop :=
  ∃ s, (s, q') ∈ n.trans q ∧ SymSet.Mem x (n.syms.get s)

/-- `q --> q'` by a transition on the empty set (epsilon). -/
def EpsStep (n : Ndfa) (q q' : Nat) : Prop := ∃ s, (s, q') ∈ n.trans q ∧ n.syms.get s = []

/-- `q'` is reachable from `q` reading the string. -/
inductive Reach (n : Ndfa) (q : Nat) : List Int → Nat → Prop
  | refl : Reach n q [] q
  | eps {w p p'} : Reach n q w p → EpsStep n p p' → Reach n q w p'
  | sym {w p x p'} : Reach n q w p → SymStep n p x p' → Reach n q (w ++ [x]) p'

/-- State numbers and symbol set identifiers are in range, the symbol map is consistent. -/
structure WF (n : Ndfa) : Prop where
  map : n.syms.Inv
  target : ∀ q t, t ∈ n.trans q → t.2 < n.states.length
  symbol : ∀ q t, t ∈ n.trans q → t.1 < n.syms.count

/-! ### Closure -/

/-- Inner loop of `closure` for one state (ndfa.cpp 459-469): add the new targets of epsilon transitions to the
set and to the set of added states. -/
def closeTrans (eps : Nat) : List Trans → List Nat × List Nat → List Nat × List Nat
  | [], acc => acc
  | t :: r, (states, added) =>
    if t.1 ≠ eps then closeTrans eps r (states, added)
    else if t.2 ∈ states then closeTrans eps r (states, added)
    else closeTrans eps r (insertId states t.2, insertId added t.2)

/-- The `while` loop of `closure` (ndfa.cpp 450-473). `none` when out of fuel. -/
def closeLoop (n : Ndfa) (eps : Nat) : Nat → List Nat → List Nat → Option (List Nat)
  | _, states, [] => some states
  | 0, _, _ :: _ => none
  | fuel + 1, states, q :: new =>
    let r := (q :: new).foldl (fun acc q => closeTrans eps (n.trans q) acc) (states, [])
    closeLoop n eps fuel r.1 r.2

/-- `closure` (ndfa.cpp 440-474). The identifier of epsilon is looked up with `identifier_for_symbols`, which
registers it if needed (so it is never -1). -/
def closure (n : Ndfa) (states : List Nat) : Option (List Nat) :=
  closeLoop n (n.syms.identifierFor []).2 (n.states.length + 1) states states

/-! ### Overlap removal -/

/-- The transitions of one state with the new symbol sets (ndfa_transformations.cpp 218-229). -/
def remapTrans (d : RemappedMap) (ts : List Trans) : List Trans :=
  ts.foldl (fun acc t => (d.newSymbols t.1).foldl (fun acc s => addTrans acc (s, t.2)) acc) []

/-- `to_ndfa_with_unique_symbols` (ndfa_transformations.cpp 196-234). -/
def toUnique (n : Ndfa) : Option Ndfa :=
  (Dedup.deduplicate n.syms).map (fun d => ⟨n.states.map (remapTrans d), d.map, n.accept⟩)

/-! ### Subset construction -/

/-- `statesForSymbol[symbol].insert(state)` (ndfa_transformations.cpp 131). -/
def addTarget : List (Nat × List Nat) → Nat → Nat → List (Nat × List Nat)
  | [], s, q => [(s, [q])]
  | (s', v) :: r, s, q =>
    if s < s' then (s, [q]) :: (s', v) :: r
    else if s' < s then (s', v) :: addTarget r s q
    else (s', insertId v q) :: r

/-- `statesForSymbol` for a set of states (ndfa_transformations.cpp 121-132). -/
def targets (n : Ndfa) (eps : Nat) (set : List Nat) : List (Nat × List Nat) :=
  (set.flatMap n.trans).foldl (fun acc t => if t.1 = eps then acc else addTarget acc t.1 t.2) []

/-- The construction's data: transitions and state set of each new state, accept actions, stack of states to
process. `stateMap` maps a set to the first new state with that set, so it is not stored. -/
structure Subset where
  states : List (List Trans)
  sets : List (List Nat)
  accept : Nat → List Action
  stack : List Nat

/-- `stateMap.find` (ndfa_transformations.cpp 160). -/
def Subset.findSet (c : Subset) (v : List Nat) : Option Nat := c.sets.findIdx? (fun w => w == v)

/-- One new transition from state `next` (ndfa_transformations.cpp 158-180). -/
def addTransTo (next : Nat) (c : Subset) (t : Nat × List Nat) : Subset :=
  let (c, target) := match c.findSet t.2 with
    | some id => (c, id)
    | none =>
      let id := c.states.length
      ({ c with states := c.states ++ [[]], sets := c.sets ++ [t.2], stack := id :: c.stack }, id)
  { c with states := c.states.set next (addTrans ((c.states[next]?).getD []) (t.1, target)) }

/-- Body of the main loop (ndfa_transformations.cpp 110-180), `next` already popped. -/
def processState (n : Ndfa) (eps : Nat) (next : Nat) (c : Subset) : Option Subset := do
  let set := (c.sets[next]?).getD []
  let actions := set.flatMap n.accept
  let c := { c with accept := fun q => if q = next then c.accept q ++ actions else c.accept q }
  if actions.any (·.eager) then return c
  let ts ← (targets n eps set).mapM (fun t => (n.closure t.2).map (fun v => (t.1, v)))
  return ts.foldl (addTransTo next) c

/-- The main loop of `to_dfa` (ndfa_transformations.cpp 108-181). -/
def subsetLoop (n : Ndfa) (eps : Nat) : Nat → Subset → Option Subset
  | fuel, c =>
    match c.stack with
    | [] => some c
    | next :: rest =>
      match fuel with
      | 0 => none
      | fuel + 1 => do
        let c ← processState n eps next { c with stack := rest }
        subsetLoop n eps fuel c

/-- The initial states (ndfa_transformations.cpp 84-106). -/
def initialSubset (n : Ndfa) (initial : List Nat) : Option Subset :=
  initial.foldlM (fun c q => do
    let v ← n.closure [q]
    return { c with states := c.states ++ [[]], sets := c.sets ++ [v], stack := c.states.length :: c.stack })
    ⟨[], [], fun _ => [], []⟩

/-- `to_dfa` (ndfa_transformations.cpp 58-191). The new symbol map is a copy of the old one. The fuel is the number of
subsets plus the number of initial states. With no initial states the result is a fresh automaton. -/
def toDfa (n : Ndfa) (initial : List Nat) : Option Ndfa :=
  if initial = [] then some ⟨[[]], SymbolMap.empty, fun _ => []⟩
  else do
    let eps := (n.syms.identifierFor []).2
    let c ← n.initialSubset initial
    let c ← subsetLoop n eps (2 ^ n.states.length + initial.length) c
    return ⟨c.states, n.syms, c.accept⟩

/-- `verify_is_dfa` (ndfa.cpp 487-513): no epsilon transition and no repeated symbol set in any state. -/
def verifyIsDfa (n : Ndfa) : Bool :=
  n.states.all (fun ts => decide (((n.syms.identifierFor []).2 :: ts.map (·.1)).Nodup))

end Ndfa
end TameParse

import Verif.Lr1TargetProps
import Verif.ErrorExample

/-!
# Instances of C89, and grammars for which the LR(1) resolver gives up a real conflict
-/

namespace TameParse
namespace Sound

open AssocMap Closure Relation Lalr TameParse.Parser ParserTables

namespace Ex
variable (x : Ex)

/-- The states that the LR(1) resolver finds. -/
def sources (s : Nat) (t : Item) : Option (List (List Nat)) :=
  x.mach.bind fun m => x.full.bind fun m' => targetsFor (records x.own m) (spontaneous pLt x.own m).2 m' t x.fuel s

/-- The stage with the LR(1) resolver (lr_parser_stage.cpp 332-334). It leaves a conflict alone if the states are not found; that does not happen below. -/
def lr1Stage : Stage := { x.stage with targets := some fun s t => (x.sources s t).getD [[0], [0]] }

def lr1States : List (List LrAction) := (List.range x.size).map fun s => x.lr1Stage.rewrite s ((x.actions s).getD [])

def lr1Tables : Tables := build x.num insertionSort sortWeaks x.lr1States (some x.lr1Stage.weak.strongToWeak)

end Ex

/-- No conflict is reported with the resolver, one is without it, and the states are found with the fuel given. -/
def Hidden (x : Ex) : Prop :=
  (∃ acts ∈ x.states, Rewriters.findConflicts (fun _ => true) acts ≠ []) ∧ (∀ acts ∈ x.lr1States, Rewriters.findConflicts (fun _ => true) acts = []) ∧
  ∀ s < x.size, ∀ y ∈ x.items, (x.sources s y).isSome = true

instance (x : Ex) : Decidable (Hidden x) := by
  unfold Hidden
  infer_instance

/-- The tokens with these symbols. -/
def toks (w : List Int) : List Tok := w.map fun n => ⟨n, 0⟩

/-- Whether the parser accepts, and how many tokens are left. -/
def outcome (t : Tables) (w : List Int) : Option (Bool × Nat) :=
  match parse t 60 (Parser.start 0 (toks w)) with
  | .ok (b, s) => some (b, s.input.length)
  | _ => none

/-! `S → a A d | b B d | a B e | b A e`, `A → c`, `B → c`: the conflict can be decided, because `A` and `B` go on in different states -/

def apartEx : Ex where
  g := ⟨fun n => if n = 1 then [[.terminal 1, .nonterminal 2, .terminal 3], [.terminal 2, .nonterminal 3, .terminal 3], [.terminal 1, .nonterminal 3, .terminal 4],
    [.terminal 2, .nonterminal 2, .terminal 4]] else if n = 2 ∨ n = 3 then [[.terminal 5]] else []⟩
  items := [.nonterminal 1, .nonterminal 2, .nonterminal 3, .terminal 1, .terminal 2, .terminal 3, .terminal 4, .terminal 5]
  rules := [⟨.empty, [.nonterminal 1]⟩, ⟨.nonterminal 1, [.terminal 1, .nonterminal 2, .terminal 3]⟩, ⟨.nonterminal 1, [.terminal 2, .nonterminal 3, .terminal 3]⟩,
    ⟨.nonterminal 1, [.terminal 1, .nonterminal 3, .terminal 4]⟩, ⟨.nonterminal 1, [.terminal 2, .nonterminal 2, .terminal 4]⟩, ⟨.nonterminal 2, [.terminal 5]⟩,
    ⟨.nonterminal 3, [.terminal 5]⟩]
  start := .nonterminal 1
  fuel := 60

theorem apartEx_ok : apartEx.Ok where
  items := by decide +kernel
  closed := by decide +kernel
  prods := by decide +kernel
  rules := by decide +kernel
  start := by decide +kernel
  first := by decide +kernel
  mach := by decide +kernel
  full := by decide +kernel
  size := by decide +kernel
  actions := by decide +kernel
  ignored := by decide +kernel
  numRules := by decide +kernel
  next := by decide +kernel
  back := by decide +kernel

/-- The resolver gives up the conflict, and the parser accepts the four sentences. -/
example : Hidden apartEx ∧ outcome apartEx.lr1Tables [1, 5, 3] = some (true, 0) ∧ outcome apartEx.lr1Tables [2, 5, 3] = some (true, 0) ∧
    outcome apartEx.lr1Tables [1, 5, 4] = some (true, 0) ∧ outcome apartEx.lr1Tables [2, 5, 4] = some (true, 0) := by decide +kernel

/-- Behind `a` the two reductions are not both right before `d`. -/
example : ∀ m, apartEx.mach = some m → ∀ o₁ o₂,
    ¬ ((Lr1 apartEx.first apartEx.g m (initials [apartEx.start]).states.length 1 (⟨⟨.nonterminal 1, [.terminal 1, .nonterminal 2, .terminal 3]⟩, 1⟩, o₁) ∧
      ReflTransGen (Gen apartEx.first apartEx.g) (⟨⟨.nonterminal 1, [.terminal 1, .nonterminal 2, .terminal 3]⟩, 1⟩, o₁) (⟨⟨.nonterminal 2, [.terminal 5]⟩, 0⟩, some (.terminal 3))) ∧
      Lr1 apartEx.first apartEx.g m (initials [apartEx.start]).states.length 1 (⟨⟨.nonterminal 1, [.terminal 1, .nonterminal 3, .terminal 4]⟩, 1⟩, o₂) ∧
      ReflTransGen (Gen apartEx.first apartEx.g) (⟨⟨.nonterminal 1, [.terminal 1, .nonterminal 3, .terminal 4]⟩, 1⟩, o₂) (⟨⟨.nonterminal 3, [.terminal 5]⟩, 0⟩, some (.terminal 3))) := by
  intro m hm o₁ o₂
  have htr : (apartEx.mach.bind fun m => tr m 1 (.terminal 5)) = some 4 := by decide +kernel
  rw [hm] at htr
  replace htr : tr m 1 (.terminal 5) = some 4 := htr
  obtain ⟨m₀, m', hm₀, hm', hmade⟩ := Ex.made apartEx_ok
  cases hm.symm.trans hm₀
  have hcomp : completeLookaheads pLt apartEx.own apartEx.fuel m = some m' := by
    have : apartEx.full = completeLookaheads pLt apartEx.own apartEx.fuel m := by
      unfold Ex.full
      rw [hm]
      rfl
    rw [← this, hm']
  have hs : apartEx.sources 4 (.terminal 3) = some [[1], [2]] := by decide +kernel
  unfold Ex.sources at hs
  rw [hm, hm'] at hs
  exact resolved_apart_partial hmade.ridInj hmade.univ hmade.closOk hmade.selfOk hmade.starts hm hcomp hs (by decide) (by decide) (by decide) (by decide) (by decide) rfl rfl
    (by simp [walk, htr]) (by simp [walk, htr])

/-! Where a real conflict is given up -/

/-- `S → A x c | B x d`, `A → ε`, `B → ε`. -/
def emptyEx : Ex where
  g := ⟨fun n => if n = 1 then [[.nonterminal 2, .terminal 1, .terminal 2], [.nonterminal 3, .terminal 1, .terminal 3]] else if n = 2 ∨ n = 3 then [[]] else []⟩
  items := [.nonterminal 1, .nonterminal 2, .nonterminal 3, .terminal 1, .terminal 2, .terminal 3]
  rules := [⟨.empty, [.nonterminal 1]⟩, ⟨.nonterminal 1, [.nonterminal 2, .terminal 1, .terminal 2]⟩, ⟨.nonterminal 1, [.nonterminal 3, .terminal 1, .terminal 3]⟩,
    ⟨.nonterminal 2, []⟩, ⟨.nonterminal 3, []⟩]
  start := .nonterminal 1
  fuel := 60

/-- `S → a C x c | a D x d`, `C → A`, `D → B`, `A → e`, `B → e`. -/
def deepEx : Ex where
  g := ⟨fun n => if n = 1 then [[.terminal 4, .nonterminal 4, .terminal 1, .terminal 2], [.terminal 4, .nonterminal 5, .terminal 1, .terminal 3]]
    else if n = 4 then [[.nonterminal 2]] else if n = 5 then [[.nonterminal 3]] else if n = 2 ∨ n = 3 then [[.terminal 5]] else []⟩
  items := [.nonterminal 1, .nonterminal 2, .nonterminal 3, .nonterminal 4, .nonterminal 5, .terminal 1, .terminal 2, .terminal 3, .terminal 4, .terminal 5]
  rules := [⟨.empty, [.nonterminal 1]⟩, ⟨.nonterminal 1, [.terminal 4, .nonterminal 4, .terminal 1, .terminal 2]⟩,
    ⟨.nonterminal 1, [.terminal 4, .nonterminal 5, .terminal 1, .terminal 3]⟩, ⟨.nonterminal 4, [.nonterminal 2]⟩, ⟨.nonterminal 5, [.nonterminal 3]⟩,
    ⟨.nonterminal 2, [.terminal 5]⟩, ⟨.nonterminal 3, [.terminal 5]⟩]
  start := .nonterminal 1
  fuel := 60

/-- `S → a A x c | a e B x d`, `A → e e`, `B → e`. -/
def lengthEx : Ex where
  g := ⟨fun n => if n = 1 then [[.terminal 4, .nonterminal 2, .terminal 1, .terminal 2], [.terminal 4, .terminal 5, .nonterminal 3, .terminal 1, .terminal 3]]
    else if n = 2 then [[.terminal 5, .terminal 5]] else if n = 3 then [[.terminal 5]] else []⟩
  items := [.nonterminal 1, .nonterminal 2, .nonterminal 3, .terminal 1, .terminal 2, .terminal 3, .terminal 4, .terminal 5]
  rules := [⟨.empty, [.nonterminal 1]⟩, ⟨.nonterminal 1, [.terminal 4, .nonterminal 2, .terminal 1, .terminal 2]⟩,
    ⟨.nonterminal 1, [.terminal 4, .terminal 5, .nonterminal 3, .terminal 1, .terminal 3]⟩, ⟨.nonterminal 2, [.terminal 5, .terminal 5]⟩, ⟨.nonterminal 3, [.terminal 5]⟩]
  start := .nonterminal 1
  fuel := 60

theorem emptyEx_ok : emptyEx.Ok where
  items := by decide +kernel
  closed := by decide +kernel
  prods := by decide +kernel
  rules := by decide +kernel
  start := by decide +kernel
  first := by decide +kernel
  mach := by decide +kernel
  full := by decide +kernel
  size := by decide +kernel
  actions := by decide +kernel
  ignored := by decide +kernel
  numRules := by decide +kernel
  next := by decide +kernel
  back := by decide +kernel

theorem deepEx_ok : deepEx.Ok where
  items := by decide +kernel
  closed := by decide +kernel
  prods := by decide +kernel
  rules := by decide +kernel
  start := by decide +kernel
  first := by decide +kernel
  mach := by decide +kernel
  full := by decide +kernel
  size := by decide +kernel
  actions := by decide +kernel
  ignored := by decide +kernel
  numRules := by decide +kernel
  next := by decide +kernel
  back := by decide +kernel

theorem lengthEx_ok : lengthEx.Ok where
  items := by decide +kernel
  closed := by decide +kernel
  prods := by decide +kernel
  rules := by decide +kernel
  start := by decide +kernel
  first := by decide +kernel
  mach := by decide +kernel
  full := by decide +kernel
  size := by decide +kernel
  actions := by decide +kernel
  ignored := by decide +kernel
  numRules := by decide +kernel
  next := by decide +kernel
  back := by decide +kernel

/-- **C89, violated: empty rules.** Only the items that a state was made from are looked at, so that no states at all are found for `A → ε` and `B → ε`. The conflict is given up,
and the parser rejects the sentence `x c`. -/
theorem resolved_empty_violated : emptyEx.Ok ∧ Hidden emptyEx ∧ emptyEx.g.Derives [emptyEx.start] [.terminal 1, .terminal 2] ∧
    outcome emptyEx.lr1Tables [1, 2] = some (false, 1) := by
  refine ⟨emptyEx_ok, by decide +kernel, ?_, by decide +kernel⟩
  exact .head ⟨[], .nonterminal 1, [], [.nonterminal 2, .terminal 1, .terminal 2], rfl, by decide +kernel, rfl⟩
    (.single ⟨[], .nonterminal 2, [.terminal 1, .terminal 2], [], rfl, by decide +kernel, rfl⟩)

/-- **C89, violated: a rule that begins another rule.** The item that makes the lookahead is before `C`, not before `A`, so that no states are found. The conflict is given up, and the
parser rejects the sentence `a e x c`. -/
theorem resolved_deep_violated : deepEx.Ok ∧ Hidden deepEx ∧ deepEx.g.Derives [deepEx.start] [.terminal 4, .terminal 5, .terminal 1, .terminal 2] ∧
    outcome deepEx.lr1Tables [4, 5, 1, 2] = some (false, 1) := by
  refine ⟨deepEx_ok, by decide +kernel, ?_, by decide +kernel⟩
  exact .head ⟨[], .nonterminal 1, [], [.terminal 4, .nonterminal 4, .terminal 1, .terminal 2], rfl, by decide +kernel, rfl⟩
    (.head ⟨[.terminal 4], .nonterminal 4, [.terminal 1, .terminal 2], [.nonterminal 2], rfl, by decide +kernel, rfl⟩
    (.single ⟨[.terminal 4], .nonterminal 2, [.terminal 1, .terminal 2], [.terminal 5], rfl, by decide +kernel, rfl⟩))

/-- **C89, violated: rules of different lengths.** The two rules begin in different states, and these are on the stack at the same time. The conflict is given up, and the parser
rejects the sentence `a e e x d`. -/
theorem resolved_length_violated : lengthEx.Ok ∧ Hidden lengthEx ∧
    lengthEx.g.Derives [lengthEx.start] [.terminal 4, .terminal 5, .terminal 5, .terminal 1, .terminal 3] ∧ outcome lengthEx.lr1Tables [4, 5, 5, 1, 3] = some (false, 1) := by
  refine ⟨lengthEx_ok, by decide +kernel, ?_, by decide +kernel⟩
  exact .head ⟨[], .nonterminal 1, [], [.terminal 4, .terminal 5, .nonterminal 3, .terminal 1, .terminal 3], rfl, by decide +kernel, rfl⟩
    (.single ⟨[.terminal 4, .terminal 5], .nonterminal 3, [.terminal 1, .terminal 3], [.terminal 5], rfl, by decide +kernel, rfl⟩)

end Sound
end TameParse

import Verif.CompleteGrammarProps
import Verif.SoundExample
import Verif.FirstProps

/-!
# Instances of C36

Small grammars from which tables are made by the model, with the FIRST sets that the model computes.
-/

namespace TameParse
namespace Sound

open AssocMap Closure Relation Lalr TameParse.Parser ParserTables

def isGuard : Item → Bool
  | .guard .. => true
  | _ => false

/-- A grammar to make tables from: its items and rules (with the one that accepts), the tokens that are ignored, the
precedence blocks and the weak symbols. -/
structure Ex where
  g : Gram
  items : List Item
  rules : List Rule
  start : Item
  ignored : List Item := []
  fuel : Nat := 100
  precs : List (Rewriters.Prec × (Int → Rule) × (Nat → List Lr0)) := []
  weak : Rewriters.Weak := ⟨[], []⟩

namespace Ex
variable (x : Ex)

/-- The FIRST sets, each computed with an empty cache. -/
def first (y : Item) : List Item := ((x.g.first x.fuel [] y).map (·.2)).getD []

/-- What can be in a FIRST set. -/
def syms : List Item := .empty :: x.items

def clos : LItem → List Item → Set1 := closWith x.first x.g x.items x.syms
def own : LItem → Set1 := selfWith x.first x.g x.items x.syms

def mach : Option Mach := completeStates numRule x.clos x.fuel x.fuel (initials [x.start])

def full : Option Mach := x.mach.bind (completeLookaheads pLt x.own x.fuel)

def stage : Stage := ⟨x.precs, x.weak, fun _ => [], none, x.ignored⟩

def actions (s : Nat) : Option (List LrAction) := x.full.bind fun m => actionsForState x.clos (fun _ => []) x.fuel m s

def size : Nat := (x.full.map (·.states.length)).getD 0

def states : List (List LrAction) := (List.range x.size).map fun s => x.stage.rewrite s ((x.actions s).getD [])

def num : Numbering := ⟨fun y => (numI y : Int), fun r => (numRule r : Int), fun n => (x.rules.find? fun r => (numRule r : Int) = n).getD ⟨.empty, []⟩⟩

def tables : Tables := build x.num insertionSort sortWeaks x.states (some x.stage.weak.strongToWeak)

/-- What has to be checked. -/
structure Ok : Prop where
  items : ∀ y ∈ x.items, y ≠ .empty ∧ y ≠ .eoi ∧ y ≠ .eog ∧ isGuard y = false
  closed : ∀ y ∈ x.items, ∀ r ∈ closRules x.g y, (⟨y, r⟩ : Rule) ∈ x.rules
  prods : ∀ y ∈ x.items, ∀ r ∈ x.g.prods y, ∀ z ∈ r, z ∈ x.items
  rules : ∀ r ∈ x.rules, ∀ y ∈ r.items, y ∈ x.items
  start : (⟨.empty, [x.start]⟩ : Rule) ∈ x.rules
  first : ∀ y ∈ x.items, ∀ b ∈ x.first y, b ∈ x.syms
  mach : x.mach.isSome = true
  full : x.full.isSome = true
  size : x.mach.map (·.states.length) = x.full.map (·.states.length)
  actions : ∀ s < x.size, (x.actions s).isSome = true
  ignored : ∀ i ∈ x.ignored, isTerminal i = true ∧ i ∉ x.items
  strong : ∀ p ∈ x.weak.strongToWeak, ∀ q ∈ x.weak.strongToWeak, ∀ i ∈ p.2, i ∈ q.2 → p.1 = q.1 := by decide +kernel
  weak : ∀ p ∈ x.weak.strongToWeak, ∀ i ∈ p.2, i ∉ x.ignored := by decide +kernel
  numRules : x.tables.numRules ≤ 16777216
  next : ∀ acts ∈ x.states, ∀ a ∈ acts, isReduce a.type = false → 0 ≤ a.next ∧ a.next < 16777216
  back : ∀ acts ∈ x.states, ∀ a ∈ acts, isReduce a.type = true → x.num.ruleWith (x.num.ruleId a.rule) = a.rule

variable {x}

theorem univ (h : x.Ok) : Univ x.first x.g (· ∈ x.items) (· ∈ x.rules) := by
  refine ⟨⟨fun y hy => (h.items y hy).1, ?_, ?_⟩, h.closed, ?_, h.rules⟩
  · intro y hy he
    rcases List.mem_cons.1 (h.first y hy _ he) with he | he
    · cases he
    · exact (h.items _ he).2.1 rfl
  · intro y hy r hr z hz
    exact h.rules _ (h.closed y hy r hr) z hz
  · intro p l hg
    exact absurd (h.items _ hg).2.2.2 (by simp [isGuard])

theorem plain (h : x.Ok) : Plain x.g (· ∈ x.items) := ⟨h.prods, fun _ _ hg => absurd (h.items _ hg).2.2.2 (by simp [isGuard]), fun he => (h.items _ he).1 rfl⟩

theorem bare (hp : x.precs = []) (hw : x.weak.strongToWeak = [] := by rfl) : Bare x.stage := ⟨hp, hw, fun _ _ h => (List.not_mem_nil h).elim, rfl⟩

/-- The tables are those of the grammar. -/
theorem made (h : x.Ok) : ∃ m m', x.mach = some m ∧ x.full = some m' ∧
    Made x.first (fun _ => []) x.g (· ∈ x.items) (· ∈ x.rules) numRule x.clos x.own pLt [x.start] m m' x.stage x.states x.num insertionSort sortWeaks (fun _ => True) := by
  obtain ⟨m, hm⟩ := Option.isSome_iff_exists.1 h.mach
  obtain ⟨m', hm'⟩ := Option.isSome_iff_exists.1 h.full
  have hl : m.states.length = m'.states.length := by
    have := h.size
    rw [hm, hm'] at this
    exact Option.some.inj this
  have hsz : x.size = m.states.length := by
    unfold size
    rw [hm', hl]
    rfl
  have hcomp : completeLookaheads pLt x.own x.fuel m = some m' := by
    have : x.full = completeLookaheads pLt x.own x.fuel m := by
      unfold full
      rw [hm]
      rfl
    rw [← this, hm']
  refine ⟨m, m', hm, hm', ?_⟩
  refine {
    ridInj := numRule_inj
    univ := univ h
    noEoi := fun he => (h.items _ he).2.1 rfl
    noEog := fun he => (h.items _ he).2.2.1 rfl
    starts := by simpa using h.start
    firsts := fun y hy a ha => ((List.mem_cons.1 (h.first y hy a ha)).symm)
    inits := by simp
    closOk := closWith_ok (univ h).proper (fun _ h => h) h.first
    selfOk := selfWith_ok (univ h).proper (fun _ h => h) h.first
    machine := ⟨_, _, hm⟩
    lookaheads := ⟨_, hcomp⟩
    actions := ?_
    length := by unfold states; simpa using hsz
    ignored := h.ignored
    strong := by
      rintro n a b ⟨ws, h1, h2⟩ ⟨ws', h3, h4⟩
      exact Item.terminal.inj (h.strong _ h1 _ h3 _ h2 h4)
    weak := h.weak
    sortOk := insertionSort_isSort
    sortWeakOk := sortWeaks_isSort
    fits := ⟨h.numRules, h.next, h.back⟩
    inj := fun y z _ _ he => numI_inj y z (by simpa [num] using he)
    occEmpty := trivial
    occEoi := trivial
    eog := fun i he => numI_inj i _ (by simpa [num] using he)
    numbered := fun _ _ _ _ => ⟨fun _ => trivial, fun _ => trivial⟩ }
  intro s hs
  obtain ⟨acts, ha⟩ := Option.isSome_iff_exists.1 (h.actions s (hsz ▸ hs))
  refine ⟨x.fuel, acts, ?_, ?_⟩
  · unfold actions at ha
    rw [hm'] at ha
    exact ha
  · unfold states
    rw [List.getElem?_map, List.getElem?_range (hsz ▸ hs)]
    simp [ha]

/-- The parser starts in the state of the start symbol. -/
theorem start_kernel (h : x.Ok) {m : Mach} (hm : x.mach = some m) : 0 < (initials [x.start]).states.length ∧ kern m 0 = [startItem x.start] := by
  obtain ⟨-, -, h0⟩ := completeStates_inv numRule_inj (univ h) (closWith_ok (univ h).proper (fun _ h => h) h.first) (by simpa using h.start) hm
  have hlen : 0 < (initials [x.start]).states.length := by
    simp [initials, addInitial, addState]
  obtain ⟨-, l, hl, hk⟩ := h0 0 hlen
  rw [List.mem_singleton.1 hl] at hk
  exact ⟨hlen, hk⟩

/-- No conflicts are reported, whatever tokens take part in them. -/
theorem no_conflicts {acts : List LrAction} (h : Rewriters.findConflicts (fun _ => true) acts = []) (involved : Item → Bool) :
    Rewriters.findConflicts involved acts = [] := by
  unfold Rewriters.findConflicts at h ⊢
  dsimp only at h ⊢
  rw [List.filter_eq_nil_iff] at h ⊢
  intro t ht hc
  refine h t ht ?_
  simp only [Bool.and_eq_true, Bool.and_true, decide_eq_true_eq] at hc ⊢
  tauto

/-- C36 for such a grammar. -/
theorem decides (h : x.Ok) (hs : x.start ∈ x.items) (hp : x.precs = []) (hw : x.weak.strongToWeak = []) (hf : ∀ y ∈ x.items, x.g.FirstComplete y (x.first y)) (hcon : ∀ acts ∈ x.states, Rewriters.findConflicts (fun _ => true) acts = [])
    (hacc : ∀ acts ∈ x.states, ∀ b ∈ acts, ∀ c ∈ acts, b.type = .accept → c.item = .eoi → c.type ≠ .reduce) (input : List Tok) :
    (∃ fuel s', parse x.tables fuel (Parser.start 0 input) = .ok (true, s')) ↔
      x.g.Derives [x.start] ((input.filter (fun k => decide (.terminal k.sym ∉ x.ignored))).map (fun k => .terminal k.sym)) := by
  obtain ⟨m, m', hm, hm', hmade⟩ := made h
  obtain ⟨h0, hk⟩ := start_kernel h hm
  exact parser_decides_partial (involved := fun _ _ => true) hmade (bare hp hw) (plain h) hf (fun _ _ _ => rfl) (fun s acts hs => hcon acts (List.mem_of_getElem? hs))
    (fun s acts hs => hacc acts (List.mem_of_getElem? hs)) h0 hk hs input

end Ex

/-! A grammar that is not SLR -/

/-- `S → L = R | R`, `L → * R | id`, `R → L`, with an ignored token. -/
def pointerEx : Ex := ⟨pointerGram, pItems, pointerRules, .nonterminal 1, [.terminal 9], 60, [], ⟨[], []⟩⟩

theorem pointerEx_ok : pointerEx.Ok where
  items := by decide +kernel
  closed := by decide +kernel
  prods := by decide +kernel
  rules := by decide +kernel
  start := by decide +kernel
  first := by decide +kernel
  mach := by decide +kernel
  full := by decide +kernel
  size := by decide +kernel
  actions := by decide +kernel
  ignored := by decide +kernel
  numRules := by decide +kernel
  next := by decide +kernel
  back := by decide +kernel

/-- A grammar without rules for the empty string or EBNF items, where the first items of rules have smaller ranks, is in the scope of C32. -/
theorem simple_of_ranks {g : Gram} {U : List Item} {rank : Item → Nat} (hc : ∀ x ∈ U, ∀ r ∈ g.prods x, r ≠ [] ∧ ∀ y ∈ r, y ∈ U)
    (he : ∀ x ∈ U, x ≠ .empty ∧ (match x with | .ebnf .. => false | _ => true) = true)
    (hrank : ∀ x ∈ U, ∀ r ∈ g.prods x, ∀ y ∈ r.head?, rank y < rank x) : g.Simple (· ∈ U) rank := by
  have hnull : ∀ x, g.Nullable x → x ∉ U := by
    intro x hx
    induction hx with
    | mk hr _ ih =>
      intro hxU
      obtain ⟨h1, h2⟩ := hc _ hxU _ hr
      obtain ⟨y, ys, rfl⟩ := List.exists_cons_of_ne_nil h1
      exact ih y (List.mem_cons_self ..) (h2 y (List.mem_cons_self ..))
  have hno : ∀ k rs, .ebnf k rs ∉ U := fun k rs h => by
    have := (he _ h).2
    cases this
  refine ⟨?_, ?_, fun k rs h => absurd h (hno k rs), fun k rs h => absurd h (hno k rs), fun rs h => absurd h (hno _ rs), ?_⟩
  · intro x hx r hr y hy
    cases x with
    | nonterminal n => exact (hc _ hx r hr).2 y hy
    | ebnf k rs => exact absurd hx (hno k rs)
    | _ => cases hr
  · intro n hn pre y post hr hpre
    cases pre with
    | nil => exact hrank _ hn _ hr y (by simp)
    | cons z pre => exact absurd ((hc _ hn _ hr).2 z (by simp)) (hnull z (hpre z (by simp)))
  · intro n hn before r after hr hr'
    have hm : r ∈ g.prods (.nonterminal n) := by
      change r ∈ g.rules n
      rw [hr]
      simp
    obtain ⟨h1, h2⟩ := hc _ hn _ hm
    obtain ⟨y, ys, rfl⟩ := List.exists_cons_of_ne_nil h1
    exact absurd (h2 y (List.mem_cons_self ..)) (hnull y (hr' y (List.mem_cons_self ..)))

def pointerRank : Item → Nat
  | .nonterminal 1 => 3
  | .nonterminal 3 => 2
  | .nonterminal 2 => 1
  | _ => 0

theorem pointerEx_first : ∀ y ∈ pointerEx.items, pointerEx.g.FirstComplete y (pointerEx.first y) := by
  have hs : pointerGram.Simple (· ∈ pItems) pointerRank := simple_of_ranks (by decide +kernel) (by decide +kernel) (by decide +kernel)
  intro y hy
  have hsome : ∀ y ∈ pointerEx.items, (pointerEx.g.first 60 [] y).isSome = true := by decide +kernel
  obtain ⟨⟨c, s⟩, h⟩ := Option.isSome_iff_exists.1 (hsome y hy)
  have := Gram.first_complete_partial _ _ hs 60 [] (by simp) [] c y s rfl hy h
  have he : pointerEx.first y = s := by
    unfold Ex.first
    have h' : pointerEx.g.first pointerEx.fuel [] y = some (c, s) := h
    rw [h']
    rfl
  rw [he]
  exact this

/-- The parser made from `pointerGram` accepts just the sentences, with the ignored token anywhere. -/
theorem pointer_decides (input : List Tok) : (∃ fuel s', parse pointerEx.tables fuel (Parser.start 0 input) = .ok (true, s')) ↔
    pointerGram.Derives [.nonterminal 1] ((input.filter (fun k => decide (.terminal k.sym ∉ [Item.terminal 9]))).map (fun k => .terminal k.sym)) :=
  Ex.decides pointerEx_ok (by decide +kernel) rfl rfl pointerEx_first (by decide +kernel) (by decide +kernel) input

/-! Left recursion -/

/-- `S → A List`, `A → x`, `List → List item | ε`. -/
def leftEx : Ex where
  g := ⟨fun n => if n = 1 then [[.nonterminal 2, .nonterminal 3]] else if n = 2 then [[.terminal 1]] else if n = 3 then [[.nonterminal 3, .terminal 2], []] else []⟩
  items := [.nonterminal 1, .nonterminal 2, .nonterminal 3, .terminal 1, .terminal 2]
  rules := [⟨.empty, [.nonterminal 1]⟩, ⟨.nonterminal 1, [.nonterminal 2, .nonterminal 3]⟩, ⟨.nonterminal 2, [.terminal 1]⟩, ⟨.nonterminal 3, [.nonterminal 3, .terminal 2]⟩,
    ⟨.nonterminal 3, []⟩]
  start := .nonterminal 1
  fuel := 60

theorem leftEx_ok : leftEx.Ok where
  items := by decide +kernel
  closed := by decide +kernel
  prods := by decide +kernel
  rules := by decide +kernel
  start := by decide +kernel
  first := by decide +kernel
  mach := by decide +kernel
  full := by decide +kernel
  size := by decide +kernel
  actions := by decide +kernel
  ignored := by decide +kernel
  numRules := by decide +kernel
  next := by decide +kernel
  back := by decide +kernel

/-- C36 is violated: no conflict is reported for `S → A List`, `A → x`, `List → List item | ε`, and `x item` can be derived, but the parser rejects it. `A → x` is
not reduced before `item`, because `item` is not in the FIRST set of `List`. -/
theorem complete_violated : leftEx.Ok ∧ (∀ involved, ∀ acts ∈ leftEx.states, Rewriters.findConflicts involved acts = []) ∧
    (∀ acts ∈ leftEx.states, ∀ b ∈ acts, ∀ c ∈ acts, b.type = .accept → c.item = .eoi → c.type ≠ .reduce) ∧
    leftEx.g.Derives [leftEx.start] [.terminal 1, .terminal 2] ∧
    ∃ s', parse leftEx.tables 20 (Parser.start 0 [⟨1, 0⟩, ⟨2, 0⟩]) = .ok (false, s') := by
  refine ⟨leftEx_ok, fun involved acts ha => Ex.no_conflicts (?_ : Rewriters.findConflicts (fun _ => true) acts = []) involved, by decide +kernel, ?_, ?_⟩
  · revert acts
    decide +kernel
  · refine ReflTransGen.head (b := [.nonterminal 2, .nonterminal 3]) ⟨[], .nonterminal 1, [], [.nonterminal 2, .nonterminal 3], rfl, by decide +kernel, rfl⟩ ?_
    refine ReflTransGen.head (b := [.terminal 1, .nonterminal 3]) ⟨[], .nonterminal 2, [.nonterminal 3], [.terminal 1], rfl, by decide +kernel, rfl⟩ ?_
    refine ReflTransGen.head (b := [.terminal 1, .nonterminal 3, .terminal 2]) ⟨[.terminal 1], .nonterminal 3, [], [.nonterminal 3, .terminal 2], rfl, by decide +kernel, rfl⟩ ?_
    exact ReflTransGen.single ⟨[.terminal 1], .nonterminal 3, [.terminal 2], [], rfl, by decide +kernel, rfl⟩
  · have h : (match parse leftEx.tables 20 (Parser.start 0 [⟨1, 0⟩, ⟨2, 0⟩]) with | .ok (false, _) => true | _ => false) = true := by decide +kernel
    split at h
    · rename_i s' hs
      exact ⟨s', hs⟩
    · cases h

end Sound
end TameParse

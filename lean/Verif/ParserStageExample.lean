import Verif.ParserStageProps
import Verif.CompleteExample
/-
Instances of C80, and a conflict between two rules that is reported as another kind of conflict.
-/
namespace TameParse
namespace ParserStage
open AssocMap Closure Relation Lalr Tool Sound TameParse.Parser ParserTables

variable {x : Ex}

/-- The conflicts of a grammar. -/
def conflictsOf (x : Ex) : Option (List Conflict) := x.full.bind fun m => allConflicts x.first x.clos x.fuel m x.states

/-- The conflicts, from the sets and actions. -/
theorem found_of {sets : List Set1} {acts : List (List LrAction)} {cs : List Conflict} (h1 : x.full.map (·.states) = some sets) (h2 : x.states = acts)
    (h3 : allConflicts x.first x.clos x.fuel ⟨sets, [], []⟩ acts = some cs) : conflictsOf x = some cs := by
  obtain ⟨m', hm', rfl⟩ := Option.map_eq_some_iff.1 h1
  unfold conflictsOf
  rw [hm', h2]
  exact h3

/-- FIRST sets of small grammars, both ways. -/
theorem firsts_ok {rank : Item → Nat} (hs : x.g.Simple (· ∈ x.items) rank) (h : ∀ y ∈ x.items, (x.g.first x.fuel [] y).isSome = true) :
    (∀ y ∈ x.items, x.g.FirstSound y (x.first y)) ∧ ∀ y ∈ x.items, x.g.FirstComplete y (x.first y) := by
  have he : ∀ y ∈ x.items, ∃ c, x.g.first x.fuel [] y = some (c, x.first y) := by
    intro y hy
    obtain ⟨⟨c, s⟩, h1⟩ := Option.isSome_iff_exists.1 (h y hy)
    refine ⟨c, ?_⟩
    unfold Ex.first
    rw [h1]
    rfl
  constructor
  · intro y hy
    obtain ⟨c, h1⟩ := he y hy
    exact Gram.first_sound_partial _ hs.closed hs.ebnfSound x.fuel [] (by simp) [] c y _ rfl hy h1
  · intro y hy
    obtain ⟨c, h1⟩ := he y hy
    exact Gram.first_complete_partial _ _ hs x.fuel [] (by simp) [] c y _ rfl hy h1

/-! ### The dangling else -/

/-- `S → if S | if S else S | x`. -/
def danglingEx : Ex where
  g := ⟨fun n => if n = 1 then [[.terminal 1, .nonterminal 1], [.terminal 1, .nonterminal 1, .terminal 2, .nonterminal 1], [.terminal 3]] else []⟩
  items := [.nonterminal 1, .terminal 1, .terminal 2, .terminal 3]
  rules := [⟨.empty, [.nonterminal 1]⟩, ⟨.nonterminal 1, [.terminal 1, .nonterminal 1]⟩, ⟨.nonterminal 1, [.terminal 1, .nonterminal 1, .terminal 2, .nonterminal 1]⟩,
    ⟨.nonterminal 1, [.terminal 3]⟩]
  start := .nonterminal 1
  fuel := 60

theorem danglingEx_ok : danglingEx.Ok where
  items := by decide +kernel
  closed := by decide +kernel
  prods := by decide +kernel
  rules := by decide +kernel
  start := by decide +kernel
  first := by decide +kernel
  mach := by decide +kernel
  full := by decide +kernel
  size := by decide +kernel
  actions := by decide +kernel
  ignored := by decide +kernel
  numRules := by decide +kernel
  next := by decide +kernel
  back := by decide +kernel

/-- The sets of items that the builder makes. -/
def danglingSets : List Set1 :=
  [[(⟨⟨.empty, [.nonterminal 1]⟩, 0⟩, [.eoi])], [(⟨⟨.nonterminal 1, [.terminal 1, .nonterminal 1]⟩, 1⟩, [.terminal 2, .eoi]), (⟨⟨.nonterminal 1, [.terminal 1,
  .nonterminal 1, .terminal 2, .nonterminal 1]⟩, 1⟩, [.terminal 2, .eoi])], [(⟨⟨.nonterminal 1, [.terminal 3]⟩, 1⟩, [.terminal 2, .eoi])], [(⟨⟨.empty, [.nonterminal 1]⟩,
  1⟩, [.eoi])], [(⟨⟨.nonterminal 1, [.terminal 1, .nonterminal 1]⟩, 2⟩, [.terminal 2, .eoi]), (⟨⟨.nonterminal 1, [.terminal 1, .nonterminal 1, .terminal 2, .nonterminal
  1]⟩, 2⟩, [.terminal 2, .eoi])], [(⟨⟨.nonterminal 1, [.terminal 1, .nonterminal 1, .terminal 2, .nonterminal 1]⟩, 3⟩, [.terminal 2, .eoi])], [(⟨⟨.nonterminal 1,
  [.terminal 1, .nonterminal 1, .terminal 2, .nonterminal 1]⟩, 4⟩, [.terminal 2, .eoi])]]

/-- The actions of the states. -/
def danglingActs : List (List LrAction) :=
  [[⟨.shift, .terminal 1, 1, ⟨.empty, []⟩⟩, ⟨.shift, .terminal 3, 2, ⟨.empty, []⟩⟩, ⟨.goto, .nonterminal 1, 3, ⟨.empty, []⟩⟩], [⟨.shift, .terminal 1, 1, ⟨.empty, []⟩⟩,
  ⟨.shift, .terminal 3, 2, ⟨.empty, []⟩⟩, ⟨.goto, .nonterminal 1, 4, ⟨.empty, []⟩⟩], [⟨.reduce, .terminal 2, -1, ⟨.nonterminal 1, [.terminal 3]⟩⟩, ⟨.reduce, .eoi, -1,
  ⟨.nonterminal 1, [.terminal 3]⟩⟩], [⟨.accept, .eoi, -1, ⟨.empty, [.nonterminal 1]⟩⟩], [⟨.shift, .terminal 2, 5, ⟨.empty, []⟩⟩, ⟨.reduce, .terminal 2, -1, ⟨.nonterminal
  1, [.terminal 1, .nonterminal 1]⟩⟩, ⟨.reduce, .eoi, -1, ⟨.nonterminal 1, [.terminal 1, .nonterminal 1]⟩⟩], [⟨.shift, .terminal 1, 1, ⟨.empty, []⟩⟩, ⟨.shift, .terminal
  3, 2, ⟨.empty, []⟩⟩, ⟨.goto, .nonterminal 1, 6, ⟨.empty, []⟩⟩], [⟨.reduce, .terminal 2, -1, ⟨.nonterminal 1, [.terminal 1, .nonterminal 1, .terminal 2, .nonterminal
  1]⟩⟩, ⟨.reduce, .eoi, -1, ⟨.nonterminal 1, [.terminal 1, .nonterminal 1, .terminal 2, .nonterminal 1]⟩⟩]]

/-- The conflicts. -/
def danglingFound : List Conflict :=
  [⟨4, .terminal 2, [⟨⟨.nonterminal 1, [.terminal 1, .nonterminal 1, .terminal 2, .nonterminal 1]⟩, 2⟩], [⟨⟨.nonterminal 1, [.terminal 1, .nonterminal 1]⟩, 2⟩]⟩]

theorem dangling_found : conflictsOf danglingEx = some danglingFound :=
  found_of (sets := danglingSets) (acts := danglingActs) (by decide +kernel) (by decide +kernel) (by decide +kernel)

/-- `S → A | B`, `A → x`, `B → x`. -/
def twoEx : Ex where
  g := ⟨fun n => if n = 1 then [[.nonterminal 2], [.nonterminal 3]] else if n = 2 then [[.terminal 1]] else if n = 3 then [[.terminal 1]] else []⟩
  items := [.nonterminal 1, .nonterminal 2, .nonterminal 3, .terminal 1]
  rules := [⟨.empty, [.nonterminal 1]⟩, ⟨.nonterminal 1, [.nonterminal 2]⟩, ⟨.nonterminal 1, [.nonterminal 3]⟩, ⟨.nonterminal 2, [.terminal 1]⟩, ⟨.nonterminal 3, [.terminal 1]⟩]
  start := .nonterminal 1
  fuel := 60

theorem twoEx_ok : twoEx.Ok where
  items := by decide +kernel
  closed := by decide +kernel
  prods := by decide +kernel
  rules := by decide +kernel
  start := by decide +kernel
  first := by decide +kernel
  mach := by decide +kernel
  full := by decide +kernel
  size := by decide +kernel
  actions := by decide +kernel
  ignored := by decide +kernel
  numRules := by decide +kernel
  next := by decide +kernel
  back := by decide +kernel

/-- The sets of items that the builder makes. -/
def twoSets : List Set1 :=
  [[(⟨⟨.empty, [.nonterminal 1]⟩, 0⟩, [.eoi])], [(⟨⟨.nonterminal 2, [.terminal 1]⟩, 1⟩, [.eoi]), (⟨⟨.nonterminal 3, [.terminal 1]⟩, 1⟩, [.eoi])], [(⟨⟨.empty,
  [.nonterminal 1]⟩, 1⟩, [.eoi])], [(⟨⟨.nonterminal 1, [.nonterminal 2]⟩, 1⟩, [.eoi])], [(⟨⟨.nonterminal 1, [.nonterminal 3]⟩, 1⟩, [.eoi])]]

/-- The actions of the states. -/
def twoActs : List (List LrAction) :=
  [[⟨.shift, .terminal 1, 1, ⟨.empty, []⟩⟩, ⟨.goto, .nonterminal 1, 2, ⟨.empty, []⟩⟩, ⟨.goto, .nonterminal 2, 3, ⟨.empty, []⟩⟩, ⟨.goto, .nonterminal 3, 4, ⟨.empty, []⟩⟩],
  [⟨.reduce, .eoi, -1, ⟨.nonterminal 2, [.terminal 1]⟩⟩, ⟨.reduce, .eoi, -1, ⟨.nonterminal 3, [.terminal 1]⟩⟩], [⟨.accept, .eoi, -1, ⟨.empty, [.nonterminal 1]⟩⟩],
  [⟨.reduce, .eoi, -1, ⟨.nonterminal 1, [.nonterminal 2]⟩⟩], [⟨.reduce, .eoi, -1, ⟨.nonterminal 1, [.nonterminal 3]⟩⟩]]

/-- The conflicts. -/
def twoFound : List Conflict :=
  [⟨1, .eoi, [], [⟨⟨.nonterminal 2, [.terminal 1]⟩, 1⟩, ⟨⟨.nonterminal 3, [.terminal 1]⟩, 1⟩]⟩]

theorem two_found : conflictsOf twoEx = some twoFound :=
  found_of (sets := twoSets) (acts := twoActs) (by decide +kernel) (by decide +kernel) (by decide +kernel)

def rank1 : Item → Nat
  | .nonterminal 1 => 3
  | .nonterminal 2 => 1
  | .nonterminal 3 => 1
  | _ => 0

theorem headed_of_filled (hc : ∀ y ∈ x.items, ∀ r ∈ x.g.prods y, r ≠ [] ∧ ∀ z ∈ r, z ∈ x.items) : Headed x.g (· ∈ x.items) := by
  have hnull : ∀ y, x.g.Nullable y → y ∉ x.items := by
    intro y hy
    induction hy with
    | mk hr _ ih =>
      intro hxU
      obtain ⟨h1, h2⟩ := hc _ hxU _ hr
      obtain ⟨z, zs, rfl⟩ := List.exists_cons_of_ne_nil h1
      exact ih z (List.mem_cons_self ..) (h2 z (List.mem_cons_self ..))
  exact fun y hy z l hr hz => hnull z hz ((hc y hy _ hr).2 z (List.mem_cons_self ..))

/-- C80 for a grammar without empty rules. -/
theorem stage_of {cs : List Conflict} (h : x.Ok) (hp : x.precs = []) (hw : x.weak.strongToWeak = []) {rank : Item → Nat} (hs : x.g.Simple (· ∈ x.items) rank)
    (hf : ∀ y ∈ x.items, (x.g.first x.fuel [] y).isSome = true) (hc : ∀ y ∈ x.items, ∀ r ∈ x.g.prods y, r ≠ [] ∧ ∀ z ∈ r, z ∈ x.items) (hcs : conflictsOf x = some cs) (o : Options)
    (contexts : LItem → Nat) (clashes : List Clash) : ∃ m, x.mach = some m ∧ (Loud (compile o contexts (· == "S") (fun _ => (cs, clashes)) ["S"]).reports ↔
      ∃ s < m.states.length, ∃ t, Torn x.first x.g m (initials [x.start]).states.length s t ∧ (o.noConflicts = true ∨ (¬ Shifts m s t ∧ o.allowReduce = false))) := by
  obtain ⟨m, m', hm, hm', hmade⟩ := Ex.made h
  obtain ⟨h1, h2⟩ := firsts_ok hs hf
  unfold conflictsOf at hcs
  rw [hm'] at hcs
  exact ⟨m, hm, stage_error_partial hmade (Ex.bare hp hw) (Ex.plain h) h1 h2 (headed_of_filled hc) hcs o contexts (by simp) (by simp) rfl⟩

/-- How severe the reports are. -/
def severities (cs : List Conflict) (o : Options) : List Sev := (compile o (fun _ => 1) (· == "S") (fun _ => (cs, [])) ["S"]).reports.map (·.sev)

/-- The dangling else is a warning, or an error if there may be no conflicts. -/
example : severities danglingFound ⟨false, false, false⟩ = [.warning, .detail] ∧ severities danglingFound ⟨true, true, false⟩ = [.error, .detail] := by decide +kernel

/-- Two rules for the same token are an error, or a warning if that is allowed. -/
example : severities twoFound ⟨false, false, false⟩ = [.error, .detail] ∧ severities twoFound ⟨true, false, true⟩ = [.warning, .detail, .detail, .detail] := by
  decide +kernel

theorem danglingEx_simple : danglingEx.g.Simple (· ∈ danglingEx.items) rank1 := simple_of_ranks (by decide +kernel) (by decide +kernel) (by decide +kernel)

theorem twoEx_simple : twoEx.g.Simple (· ∈ twoEx.items) rank1 := simple_of_ranks (by decide +kernel) (by decide +kernel) (by decide +kernel)

/-- So the automata have conflicts, of the kinds that they should have. -/
example : (∃ m, danglingEx.mach = some m ∧ ∃ s < m.states.length, ∃ t, Torn danglingEx.first danglingEx.g m (initials [danglingEx.start]).states.length s t) ∧
    (∃ m, danglingEx.mach = some m ∧ ¬ ∃ s < m.states.length, ∃ t, Torn danglingEx.first danglingEx.g m (initials [danglingEx.start]).states.length s t ∧ ¬ Shifts m s t) ∧
    ∃ m, twoEx.mach = some m ∧ ∃ s < m.states.length, ∃ t, Torn twoEx.first twoEx.g m (initials [twoEx.start]).states.length s t ∧ ¬ Shifts m s t := by
  refine ⟨?_, ?_, ?_⟩
  · obtain ⟨m, hm, h⟩ := stage_of danglingEx_ok rfl rfl danglingEx_simple (by decide +kernel) (by decide +kernel) dangling_found ⟨false, true, false⟩ (fun _ => 1) []
    obtain ⟨s, hs, t, ht, -⟩ := h.1 (by decide +kernel)
    exact ⟨m, hm, s, hs, t, ht⟩
  · obtain ⟨m, hm, h⟩ := stage_of danglingEx_ok rfl rfl danglingEx_simple (by decide +kernel) (by decide +kernel) dangling_found ⟨false, false, false⟩ (fun _ => 1) []
    refine ⟨m, hm, fun ⟨s, hs, t, ht, h2⟩ => ?_⟩
    have := h.2 ⟨s, hs, t, ht, .inr ⟨h2, rfl⟩⟩
    revert this
    decide +kernel
  · obtain ⟨m, hm, h⟩ := stage_of twoEx_ok rfl rfl twoEx_simple (by decide +kernel) (by decide +kernel) two_found ⟨false, false, false⟩ (fun _ => 1) []
    obtain ⟨s, hs, t, ht, h2 | ⟨h2, -⟩⟩ := h.1 (by decide +kernel)
    · cases h2
    · exact ⟨m, hm, s, hs, t, ht, h2⟩

/-! ### Two empty rules -/

/-- `S → A a b | B a c`, `A → ε`, `B → ε`. -/
def emptyEx : Ex where
  g := ⟨fun n => if n = 1 then [[.nonterminal 2, .terminal 1, .terminal 2], [.nonterminal 3, .terminal 1, .terminal 3]] else if n = 2 then [[]] else if n = 3 then [[]] else []⟩
  items := [.nonterminal 1, .nonterminal 2, .nonterminal 3, .terminal 1, .terminal 2, .terminal 3]
  rules := [⟨.empty, [.nonterminal 1]⟩, ⟨.nonterminal 1, [.nonterminal 2, .terminal 1, .terminal 2]⟩, ⟨.nonterminal 1, [.nonterminal 3, .terminal 1, .terminal 3]⟩,
    ⟨.nonterminal 2, []⟩, ⟨.nonterminal 3, []⟩]
  start := .nonterminal 1
  fuel := 60

theorem emptyEx_ok : emptyEx.Ok where
  items := by decide +kernel
  closed := by decide +kernel
  prods := by decide +kernel
  rules := by decide +kernel
  start := by decide +kernel
  first := by decide +kernel
  mach := by decide +kernel
  full := by decide +kernel
  size := by decide +kernel
  actions := by decide +kernel
  ignored := by decide +kernel
  numRules := by decide +kernel
  next := by decide +kernel
  back := by decide +kernel

/-- The sets of items that the builder makes. -/
def emptySets : List Set1 :=
  [[(⟨⟨.empty, [.nonterminal 1]⟩, 0⟩, [.eoi])], [(⟨⟨.empty, [.nonterminal 1]⟩, 1⟩, [.eoi])], [(⟨⟨.nonterminal 1, [.nonterminal 2, .terminal 1, .terminal 2]⟩, 1⟩,
  [.eoi])], [(⟨⟨.nonterminal 1, [.nonterminal 3, .terminal 1, .terminal 3]⟩, 1⟩, [.eoi])], [(⟨⟨.nonterminal 1, [.nonterminal 2, .terminal 1, .terminal 2]⟩, 2⟩, [.eoi])],
  [(⟨⟨.nonterminal 1, [.nonterminal 3, .terminal 1, .terminal 3]⟩, 2⟩, [.eoi])], [(⟨⟨.nonterminal 1, [.nonterminal 2, .terminal 1, .terminal 2]⟩, 3⟩, [.eoi])],
  [(⟨⟨.nonterminal 1, [.nonterminal 3, .terminal 1, .terminal 3]⟩, 3⟩, [.eoi])]]

/-- The actions of the states. -/
def emptyActs : List (List LrAction) :=
  [[⟨.goto, .nonterminal 1, 1, ⟨.empty, []⟩⟩, ⟨.goto, .nonterminal 2, 2, ⟨.empty, []⟩⟩, ⟨.goto, .nonterminal 3, 3, ⟨.empty, []⟩⟩, ⟨.reduce, .terminal 1, -1, ⟨.nonterminal
  2, []⟩⟩, ⟨.reduce, .terminal 1, -1, ⟨.nonterminal 3, []⟩⟩], [⟨.accept, .eoi, -1, ⟨.empty, [.nonterminal 1]⟩⟩], [⟨.shift, .terminal 1, 4, ⟨.empty, []⟩⟩], [⟨.shift,
  .terminal 1, 5, ⟨.empty, []⟩⟩], [⟨.shift, .terminal 2, 6, ⟨.empty, []⟩⟩], [⟨.shift, .terminal 3, 7, ⟨.empty, []⟩⟩], [⟨.reduce, .eoi, -1, ⟨.nonterminal 1, [.nonterminal
  2, .terminal 1, .terminal 2]⟩⟩], [⟨.reduce, .eoi, -1, ⟨.nonterminal 1, [.nonterminal 3, .terminal 1, .terminal 3]⟩⟩]]

/-- The conflicts. -/
def emptyFound : List Conflict :=
  [⟨0, .terminal 1, [⟨⟨.empty, [.nonterminal 1]⟩, 0⟩], [⟨⟨.nonterminal 2, []⟩, 0⟩, ⟨⟨.nonterminal 3, []⟩, 0⟩]⟩]

theorem empty_found : conflictsOf emptyEx = some emptyFound :=
  found_of (sets := emptySets) (acts := emptyActs) (by decide +kernel) (by decide +kernel) (by decide +kernel)

/-- C80 is violated: in the first state for `S → A a b | B a c`, `A → ε`, `B → ε` nothing is shifted and two rules can be reduced before `a`. This should be an error unless
such conflicts are allowed, but it is reported as a shift/reduce conflict, with a warning, because `a` is in the FIRST set of `S`. The sentence `a c` is rejected. -/
theorem kind_violated : emptyEx.Ok ∧ ∃ m m' cs, emptyEx.mach = some m ∧ emptyEx.full = some m' ∧ allConflicts emptyEx.first emptyEx.clos emptyEx.fuel m' emptyEx.states = some cs ∧
    (Torn emptyEx.first emptyEx.g m (initials [emptyEx.start]).states.length 0 (.terminal 1) ∧ ¬ Shifts m 0 (.terminal 1)) ∧
    (∀ (o : Options) (contexts : LItem → Nat), o.noConflicts = false → o.allowReduce = false → ¬ Loud (compile o contexts (· == "S") (fun _ => (cs, [])) ["S"]).reports) ∧
    emptyEx.g.Derives [emptyEx.start] [.terminal 1, .terminal 3] ∧ ∃ s', parse emptyEx.tables 20 (Parser.start 0 [⟨1, 0⟩, ⟨3, 0⟩]) = .ok (false, s') := by
  obtain ⟨m, m', hm, hm', hmade⟩ := Ex.made emptyEx_ok
  have h2 : (emptyEx.mach.map fun m => tr m 0 (.terminal 1)) = some none := by decide +kernel
  rw [hm] at h2
  have hcs := empty_found
  unfold conflictsOf at hcs
  rw [hm'] at hcs
  have hex : ∃ c ∈ emptyFound, c.state = 0 ∧ c.token = .terminal 1 := by decide +kernel
  have hall : ∀ c ∈ emptyFound, c.reduces ≠ [] ∧ c.shifts ≠ [] := by decide +kernel
  refine ⟨emptyEx_ok, m, m', emptyFound, hm, hm', hcs, ⟨((conflicts_exact_partial hmade (Ex.bare rfl rfl) (Ex.plain emptyEx_ok) hcs _ _).1 hex).2, ?_⟩, ?_, ?_, ?_⟩
  · rintro ⟨s', hs'⟩
    rw [Option.map_some, hs'] at h2
    cases h2
  · intro o contexts ho ha hl
    rcases (compile_loud _ _ _ _ _).1 hl with h | ⟨s, h3, h4⟩ | ⟨c, h3, h4 | h4 | ⟨h4, -⟩⟩
    · cases h
    · rw [List.mem_singleton.1 h3] at h4
      cases h4
    · exact (hall c h3).1 h4
    · rw [ho] at h4
      cases h4
    · exact (hall c h3).2 h4
  · refine ReflTransGen.head (b := [.nonterminal 3, .terminal 1, .terminal 3]) ⟨[], .nonterminal 1, [], [.nonterminal 3, .terminal 1, .terminal 3], rfl, by decide +kernel, rfl⟩ ?_
    exact ReflTransGen.single ⟨[], .nonterminal 3, [.terminal 1, .terminal 3], [], rfl, by decide +kernel, rfl⟩
  · have h : (match parse emptyEx.tables 20 (Parser.start 0 [⟨1, 0⟩, ⟨3, 0⟩]) with | .ok (false, _) => true | _ => false) = true := by decide +kernel
    split at h
    · rename_i s' hs
      exact ⟨s', hs⟩
    · cases h

end ParserStage
end TameParse

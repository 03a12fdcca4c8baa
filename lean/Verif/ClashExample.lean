import Verif.ClashProps
import Verif.GuardExample
import Mathlib.Data.List.Sort
/-
Instances of C81, and clashing guards that are not reported.
-/
namespace TameParse
namespace ParserStage
open AssocMap Closure Relation Lalr Tool Sound Guards TameParse.Parser ParserTables

/-- No state has an item in its kernel that is before a guard that the state looks at. -/
def quiet (kerns : List (List LItem)) (states : List (List LrAction)) : Bool :=
  (List.range states.length).all fun s => (states.getD s []).all fun a => !(decide (a.type = .guard)) || (kerns.getD s []).all fun i => decide (i.rule.items[i.dot]? ≠ some a.rule.nonterminal)

theorem quiet_none {m : Mach} {states : List (List LrAction)} (h : quiet ((List.range states.length).map (kern m)) states = true) {order : List Item → List Item} (ho : Orders order)
    (canClash : LItem → Bool) : allClashes order canClash m states = [] := by
  unfold allClashes
  rw [List.flatMap_eq_nil_iff]
  intro s hs
  by_contra hne
  obtain ⟨t, g, i, -, ⟨-, a, ha, hty, -, hg⟩, hi, hb, -⟩ := (warning_exact ho).1 hne
  unfold quiet at h
  rw [List.all_eq_true] at h
  have h1 := h s hs
  rw [List.all_eq_true] at h1
  have h2 := h1 a ha
  have hk : ((List.range states.length).map (kern m)).getD s [] = kern m s := by
    rw [List.getD_eq_getElem?_getD, List.getElem?_map, List.getElem?_range (List.mem_range.1 hs)]
    rfl
  rw [hk] at h2
  simp only [Bool.or_eq_true, Bool.not_eq_true', decide_eq_false_iff_not, hty, not_true_eq_false, false_or, List.all_eq_true, decide_eq_true_eq] at h2
  exact h2 i hi (hg ▸ hb)

/-! ### Guards at the beginning of rules -/

/-- `S → [=> a] a c | [=> a b] a b`. -/
def headEx : GEx where
  g := ⟨fun n => if n = 1 then [[.guard 0 [.terminal 1], .terminal 1, .terminal 3], [.guard 0 [.terminal 1, .terminal 2], .terminal 1, .terminal 2]] else []⟩
  items := [.nonterminal 1, .terminal 1, .terminal 2, .terminal 3, .guard 0 [.terminal 1], .guard 0 [.terminal 1, .terminal 2]]
  rules := [⟨.empty, [.nonterminal 1]⟩, ⟨.nonterminal 1, [.guard 0 [.terminal 1], .terminal 1, .terminal 3]⟩,
    ⟨.nonterminal 1, [.guard 0 [.terminal 1, .terminal 2], .terminal 1, .terminal 2]⟩, ⟨.guard 0 [.terminal 1], [.terminal 1]⟩,
    ⟨.guard 0 [.terminal 1, .terminal 2], [.terminal 1, .terminal 2]⟩]
  start := .nonterminal 1
  fuel := 60
  initial := fun y => if y = .guard 0 [.terminal 1] ∨ y = .guard 0 [.terminal 1, .terminal 2] then [.terminal 1] else []

theorem headEx_ok : headEx.Ok where
  items := by decide +kernel
  closed := by decide +kernel
  guards := by
    intro p l h
    simp only [headEx, List.mem_cons, List.not_mem_nil, or_false, reduceCtorEq, false_or, Item.guard.injEq] at h
    rcases h with ⟨rfl, rfl⟩ | ⟨rfl, rfl⟩ <;> decide +kernel
  inits := by decide +kernel
  rules := by decide +kernel
  start := by decide +kernel
  first := by decide +kernel
  mach := by decide +kernel
  full := by decide +kernel
  size := by decide +kernel
  actions := by decide +kernel
  ignored := by decide +kernel
  numRules := by decide +kernel
  next := by decide +kernel
  back := by decide +kernel

/-- C81 is violated: the two guards of `S → [=> a] a c | [=> a b] a b` have to be looked at in the first state when `a` is next. Both match with the input `a b`; the parser follows
the first one and rejects the input. Nothing is reported, because the items before the guards are not in the kernel of the state. -/
theorem head_clash_violated : headEx.Ok ∧ ∃ m m', headEx.mach = some m ∧ headEx.full = some m' ∧
    Needs headEx.first headEx.initial headEx.g m (initials [headEx.start]).states.length 0 (.terminal 1) (.guard 0 [.terminal 1]) ∧
    Needs headEx.first headEx.initial headEx.g m (initials [headEx.start]).states.length 0 (.terminal 1) (.guard 0 [.terminal 1, .terminal 2]) ∧
    (∀ order, Orders order → ∀ canClash, allClashes order canClash m' headEx.states = []) ∧
    headEx.g.Derives [headEx.start] [.guard 0 [.terminal 1, .terminal 2], .terminal 1, .terminal 2] ∧
    ∃ s', parse headEx.tables 40 (Parser.start 0 [⟨1, 0⟩, ⟨2, 0⟩]) = .ok (false, s') := by
  obtain ⟨m, m', hm, hm', hmade⟩ := GEx.made headEx_ok
  have h0 : ∃ acts, headEx.states[0]? = some acts ∧ (∃ a ∈ acts, a.type = .guard ∧ a.item = .terminal 1 ∧ a.rule.nonterminal = .guard 0 [.terminal 1]) ∧
      ∃ a ∈ acts, a.type = .guard ∧ a.item = .terminal 1 ∧ a.rule.nonterminal = .guard 0 [.terminal 1, .terminal 2] := by
    have : (headEx.states[0]?.map fun acts => decide ((∃ a ∈ acts, a.type = .guard ∧ a.item = .terminal 1 ∧ a.rule.nonterminal = .guard 0 [.terminal 1]) ∧
      ∃ a ∈ acts, a.type = .guard ∧ a.item = .terminal 1 ∧ a.rule.nonterminal = .guard 0 [.terminal 1, .terminal 2])) = some true := by decide +kernel
    obtain ⟨acts, h1, h2⟩ := Option.map_eq_some_iff.1 this
    exact ⟨acts, h1, of_decide_eq_true h2⟩
  obtain ⟨acts, hs, h1, h2⟩ := h0
  have hb : Bare headEx.stage := Ex.bare rfl
  refine ⟨headEx_ok, m, m', hm, hm', (guardOn_iff hmade hb hs _ _).1 ⟨rfl, h1⟩, (guardOn_iff hmade hb hs _ _).1 ⟨rfl, h2⟩, ?_, ?_, ?_⟩
  · intro order ho canClash
    have : (headEx.full.map fun m => quiet ((List.range headEx.states.length).map (kern m)) headEx.states) = some true := by decide +kernel
    rw [hm'] at this
    exact quiet_none (Option.some.inj this) ho canClash
  · exact ReflTransGen.single ⟨[], .nonterminal 1, [], [.guard 0 [.terminal 1, .terminal 2], .terminal 1, .terminal 2], rfl, by decide +kernel, rfl⟩
  · have h : (match parse headEx.tables 40 (Parser.start 0 [⟨1, 0⟩, ⟨2, 0⟩]) with | .ok (false, _) => true | _ => false) = true := by decide +kernel
    split at h
    · rename_i s' hs
      exact ⟨s', hs⟩
    · cases h

/-! ### Guards after a token -/

/-- `S → x [=> A] a | x [=> B] b | x [=> C] c`, `A → a | c`, `B → a | b`, `C → b | c`. -/
def threeEx : GEx where
  g := ⟨fun n => if n = 1 then [[.terminal 9, .guard 0 [.nonterminal 2], .terminal 1], [.terminal 9, .guard 0 [.nonterminal 3], .terminal 2], [.terminal 9, .guard 0 [.nonterminal 4], .terminal 3]]
    else if n = 2 then [[.terminal 1], [.terminal 3]] else if n = 3 then [[.terminal 1], [.terminal 2]] else if n = 4 then [[.terminal 2], [.terminal 3]] else []⟩
  items := [.nonterminal 1, .nonterminal 2, .nonterminal 3, .nonterminal 4, .terminal 1, .terminal 2, .terminal 3, .terminal 9, .guard 0 [.nonterminal 2], .guard 0 [.nonterminal 3],
    .guard 0 [.nonterminal 4]]
  rules := [⟨.empty, [.nonterminal 1]⟩, ⟨.nonterminal 1, [.terminal 9, .guard 0 [.nonterminal 2], .terminal 1]⟩, ⟨.nonterminal 1, [.terminal 9, .guard 0 [.nonterminal 3], .terminal 2]⟩,
    ⟨.nonterminal 1, [.terminal 9, .guard 0 [.nonterminal 4], .terminal 3]⟩, ⟨.nonterminal 2, [.terminal 1]⟩, ⟨.nonterminal 2, [.terminal 3]⟩, ⟨.nonterminal 3, [.terminal 1]⟩,
    ⟨.nonterminal 3, [.terminal 2]⟩, ⟨.nonterminal 4, [.terminal 2]⟩, ⟨.nonterminal 4, [.terminal 3]⟩, ⟨.guard 0 [.nonterminal 2], [.nonterminal 2]⟩,
    ⟨.guard 0 [.nonterminal 3], [.nonterminal 3]⟩, ⟨.guard 0 [.nonterminal 4], [.nonterminal 4]⟩]
  start := .nonterminal 1
  fuel := 60
  initial := fun y => if y = .guard 0 [.nonterminal 2] then [.terminal 1, .terminal 3] else if y = .guard 0 [.nonterminal 3] then [.terminal 1, .terminal 2]
    else if y = .guard 0 [.nonterminal 4] then [.terminal 2, .terminal 3] else []

theorem threeEx_ok : threeEx.Ok where
  items := by decide +kernel
  closed := by decide +kernel
  guards := by
    intro p l h
    simp only [threeEx, List.mem_cons, List.not_mem_nil, or_false, reduceCtorEq, false_or, Item.guard.injEq] at h
    rcases h with ⟨rfl, rfl⟩ | ⟨rfl, rfl⟩ | ⟨rfl, rfl⟩ <;> decide +kernel
  inits := by decide +kernel
  rules := by decide +kernel
  start := by decide +kernel
  first := by decide +kernel
  mach := by decide +kernel
  full := by decide +kernel
  size := by decide +kernel
  actions := by decide +kernel
  ignored := by decide +kernel
  numRules := by decide +kernel
  next := by decide +kernel
  back := by decide +kernel

/-- The order of a map of items. -/
def itemOrder (l : List Item) : List Item := l.insertionSort fun a b => Item.cmp a b ≠ .gt

theorem itemOrder_orders : Orders itemOrder := fun _ _ => List.mem_insertionSort _

/-- The items of `threeEx` after `x`. -/
def useA : LItem := ⟨⟨.nonterminal 1, [.terminal 9, .guard 0 [.nonterminal 2], .terminal 1]⟩, 1⟩
@[inherit_doc useA]
def useB : LItem := ⟨⟨.nonterminal 1, [.terminal 9, .guard 0 [.nonterminal 3], .terminal 2]⟩, 1⟩
@[inherit_doc useA]
def useC : LItem := ⟨⟨.nonterminal 1, [.terminal 9, .guard 0 [.nonterminal 4], .terminal 3]⟩, 1⟩

/-- The warnings for the state after `x`, if the items in the list may clash. -/
def threeClashes (may : List LItem) : Option (List Clash) :=
  threeEx.full.bind fun m => threeEx.states[1]?.map fun acts => clashesIn itemOrder (fun i => decide (i ∈ may)) (kern m 1) acts

/-- The warnings name the guards that clash, unless all of them may. -/
example : threeClashes [] = some [⟨.terminal 1, [useA, useB]⟩, ⟨.terminal 2, [useB, useC]⟩] ∧ threeClashes [useA, useB] = some [⟨.terminal 2, [useC, useB]⟩] ∧
    threeClashes [useA, useB, useC] = some [] := by decide +kernel

/-- Not every pair of clashing guards is reported: `[=> A]` and `[=> C]` are both looked at when `c` is next, but as both were named with other guards before, no warning names them
together. -/
theorem pair_clash_violated : threeEx.Ok ∧ ∃ m m' acts, threeEx.mach = some m ∧ threeEx.full = some m' ∧ threeEx.states[1]? = some acts ∧
    Needs threeEx.first threeEx.initial threeEx.g m (initials [threeEx.start]).states.length 1 (.terminal 3) (.guard 0 [.nonterminal 2]) ∧
    Needs threeEx.first threeEx.initial threeEx.g m (initials [threeEx.start]).states.length 1 (.terminal 3) (.guard 0 [.nonterminal 4]) ∧
    (useA ∈ kern m' 1 ∧ BeforeGuard useA (.guard 0 [.nonterminal 2])) ∧ (useC ∈ kern m' 1 ∧ BeforeGuard useC (.guard 0 [.nonterminal 4])) ∧
    ∀ c ∈ clashesIn itemOrder (fun _ => false) (kern m' 1) acts, ¬ (useA ∈ c.items ∧ useC ∈ c.items) := by
  obtain ⟨m, m', hm, hm', hmade⟩ := GEx.made threeEx_ok
  have h0 : (threeEx.states[1]?.map fun acts => decide ((∃ a ∈ acts, a.type = .guard ∧ a.item = .terminal 3 ∧ a.rule.nonterminal = .guard 0 [.nonterminal 2]) ∧
      ∃ a ∈ acts, a.type = .guard ∧ a.item = .terminal 3 ∧ a.rule.nonterminal = .guard 0 [.nonterminal 4])) = some true := by decide +kernel
  obtain ⟨acts, hs, h2⟩ := Option.map_eq_some_iff.1 h0
  obtain ⟨ha, hc⟩ := of_decide_eq_true h2
  have hk : (threeEx.full.map fun m => decide (useA ∈ kern m 1 ∧ useC ∈ kern m 1)) = some true := by decide +kernel
  rw [hm'] at hk
  have hk := of_decide_eq_true (Option.some.inj hk)
  have hcl : threeClashes [] = some [⟨.terminal 1, [useA, useB]⟩, ⟨.terminal 2, [useB, useC]⟩] := by decide +kernel
  unfold threeClashes at hcl
  rw [hm', Option.bind_some, hs, Option.map_some] at hcl
  have hcl := Option.some.inj hcl
  have hb : Bare threeEx.stage := Ex.bare rfl
  refine ⟨threeEx_ok, m, m', acts, hm, hm', hs, (guardOn_iff hmade hb hs _ _).1 ⟨rfl, ha⟩, (guardOn_iff hmade hb hs _ _).1 ⟨rfl, hc⟩, ⟨hk.1, rfl⟩, ⟨hk.2, rfl⟩, ?_⟩
  have hf : (fun i => decide (i ∈ ([] : List LItem))) = fun _ => false := by
    funext i
    simp
  rw [hf] at hcl
  rw [hcl]
  decide +kernel

end ParserStage
end TameParse

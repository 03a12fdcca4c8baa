import Verif.ShowProps
import Verif.ShowGrammar

/-!
# C99: what the text of a grammar says
-/

namespace TameParse
namespace Show

variable {N : Names} {T M : Int → Prop}

/-- Lines: rules and empty lines. -/
def linesText (N : Names) (l : List (Option (Item × List Item))) : Text :=
  l.flatMap fun r => match r with | none => ['\n'] | some r => showRule N r.1 r.2 (-1) ++ ['\n']

/-- The lines of `grammarFrom`. -/
def linesFrom (rules : Nat → List (Item × List Item)) : Nat → Nat → Bool → List (Option (Item × List Item))
  | 0, _, _ => []
  | count + 1, id, added => (if added then [] else [none]) ++ ((rules id).map some ++ linesFrom rules count (id + 1) (rules id).isEmpty)

theorem from_lines (rules : Nat → List (Item × List Item)) : ∀ count id added, grammarFrom N rules count id added = linesText N (linesFrom rules count id added)
  | 0, _, _ => rfl
  | count + 1, id, added => by
    rw [grammarFrom, linesFrom, from_lines rules count]
    cases added <;> simp [linesText, showRules, List.flatMap_map]

theorem from_rules (rules : Nat → List (Item × List Item)) : ∀ count id added, (linesFrom rules count id added).filterMap (·) = (List.range' id count).flatMap rules
  | 0, _, _ => rfl
  | count + 1, id, added => by
    rw [linesFrom, List.range'_succ, List.flatMap_cons, ← from_rules rules count (id + 1) (rules id).isEmpty]
    cases added <;> simp [List.filterMap_map, Function.comp_def]

theorem rule_sep (hN : Clear N T M) {x y : Item × List Item} (hx : Known T M x.1 ∧ KnownAll T M x.2) (hy : Known T M y.1 ∧ KnownAll T M y.2) {r s : Text}
    (h : showRule N x.1 x.2 (-1) ++ '\n' :: r = showRule N y.1 y.2 (-1) ++ '\n' :: s) : x = y ∧ r = s := by
  simp only [showRule, List.append_assoc] at h
  obtain ⟨h1, h2⟩ := item_sep hN _ hx.1 _ hy.1 _ _ (.inr ⟨' ', _, rfl, .inl rfl⟩) (.inr ⟨' ', _, rfl, .inl rfl⟩) h
  have h5 : showItems N (-1) 0 true x.2 ++ '\n' :: r = showItems N (-1) 0 true y.2 ++ '\n' :: s := List.append_cancel_left (as := [' ', '=', ' ']) h2
  obtain ⟨h3, h4, -⟩ := list_sep hN _ hx.2 _ hy.2 _ _ _ _ _ _ (by simp [End]) (by simp [End]) h5
  exact ⟨Prod.ext h1 h3, (List.cons.inj h4).2⟩

theorem rule_head (hN : Clear N T M) {x : Item × List Item} (hx : Known T M x.1) : ∃ c t, showRule N x.1 x.2 (-1) = c :: t ∧ c ≠ '\n' := by
  obtain ⟨c, t, h, h1, -⟩ := head hN x.1 hx
  exact ⟨c, _, by rw [showRule, h]; rfl, h1.2.2.2.2.2.2.1⟩

theorem lines_sep (hN : Clear N T M) : ∀ l l' : List (Option (Item × List Item)), (∀ x, some x ∈ l → Known T M x.1 ∧ KnownAll T M x.2) → (∀ x, some x ∈ l' → Known T M x.1 ∧ KnownAll T M x.2) →
    linesText N l = linesText N l' → l = l'
  | [], [], _, _, _ => rfl
  | [], none :: l', _, _, h => by simp [linesText] at h
  | [], some x :: l', _, _, h => by simp [linesText] at h
  | none :: l, [], _, _, h => by simp [linesText] at h
  | some x :: l, [], _, _, h => by simp [linesText] at h
  | none :: l, none :: l', h1, h2, h => by
    rw [lines_sep hN l l' (fun x hx => h1 x (List.mem_cons_of_mem _ hx)) (fun x hx => h2 x (List.mem_cons_of_mem _ hx)) (by simpa [linesText] using h)]
  | none :: l, some x :: l', h1, h2, h => by
    obtain ⟨c, t, e, hc⟩ := rule_head hN (h2 x (List.mem_cons_self ..)).1
    simp only [linesText, List.flatMap_cons, e, List.cons_append, List.nil_append, List.cons.injEq] at h
    exact absurd h.1.symm hc
  | some x :: l, none :: l', h1, h2, h => by
    obtain ⟨c, t, e, hc⟩ := rule_head hN (h1 x (List.mem_cons_self ..)).1
    simp only [linesText, List.flatMap_cons, e, List.cons_append, List.nil_append, List.cons.injEq] at h
    exact absurd h.1 hc
  | some x :: l, some y :: l', h1, h2, h => by
    simp only [linesText, List.flatMap_cons, List.append_assoc, List.cons_append, List.nil_append] at h
    obtain ⟨e1, e2⟩ := rule_sep hN (h1 x (List.mem_cons_self ..)) (h2 y (List.mem_cons_self ..)) h
    rw [e1, lines_sep hN l l' (fun x hx => h1 x (List.mem_cons_of_mem _ hx)) (fun x hx => h2 x (List.mem_cons_of_mem _ hx)) e2]

/-- The rules of a grammar are for the nonterminals that have them, and over known names. -/
def RulesOk (T M : Int → Prop) (rules : Nat → List (Item × List Item)) (max : Nat) : Prop :=
  ∀ id < max, ∀ x ∈ rules id, x.1 = .nonterminal id ∧ M id ∧ KnownAll T M x.2

theorem mem_lines {rules : Nat → List (Item × List Item)} {x : Item × List Item} : ∀ {count id added}, some x ∈ linesFrom rules count id added → ∃ i, id ≤ i ∧ i < id + count ∧ x ∈ rules i
  | 0, _, _, h => by cases h
  | count + 1, id, added, h => by
    rw [linesFrom, List.mem_append, List.mem_append] at h
    rcases h with h | h | h
    · cases added <;> simp at h
    · obtain ⟨y, h1, h2⟩ := List.mem_map.1 h
      cases h2
      exact ⟨id, by omega, by omega, h1⟩
    · obtain ⟨i, h1, h2, h3⟩ := mem_lines h
      exact ⟨i, by omega, by omega, h3⟩

theorem rules_of {rules : Nat → List (Item × List Item)} {max : Nat} (h : RulesOk T M rules max) (id : Nat) :
    ((List.range max).flatMap rules).filter (fun x => x.1 == .nonterminal id) = if id < max then rules id else [] := by
  induction max with
  | zero => simp
  | succ max ih =>
    rw [List.range_succ, List.flatMap_append, List.filter_append, ih fun i hi => h i (by omega)]
    simp only [List.flatMap_cons, List.flatMap_nil, List.append_nil]
    by_cases he : max = id
    · subst he
      rw [List.filter_eq_self.2 (fun x hx => by simp [(h max (by omega) x hx).1]), if_neg (by omega), if_pos (by omega), List.nil_append]
    · have : (rules max).filter (fun x => x.1 == .nonterminal id) = [] := by
        rw [List.filter_eq_nil_iff]
        intro x hx
        rw [(h max (by omega) x hx).1]
        simp
        omega
      rw [this, List.append_nil]
      by_cases hi : id < max
      · rw [if_pos hi, if_pos (by omega)]
      · rw [if_neg hi, if_neg (by omega)]

/-- The text of a grammar says which rules each nonterminal has, and their order. -/
theorem grammar_text (hN : Clear N T M) {rules rules' : Nat → List (Item × List Item)} {max max' : Nat} (h : RulesOk T M rules max) (h' : RulesOk T M rules' max')
    (he : showGrammar N rules max = showGrammar N rules' max') (id : Nat) : (if id < max then rules id else []) = if id < max' then rules' id else [] := by
  have known : ∀ {rules : Nat → List (Item × List Item)} {max : Nat}, RulesOk T M rules max → ∀ x, some x ∈ linesFrom rules max 0 true → Known T M x.1 ∧ KnownAll T M x.2 := by
    intro rules max h x hx
    obtain ⟨i, -, h1, h2⟩ := mem_lines hx
    obtain ⟨h3, h4, h5⟩ := h i (by omega) x h2
    rw [h3]
    exact ⟨h4, h5⟩
  rw [showGrammar, showGrammar, from_lines, from_lines] at he
  have e := congrArg (List.filterMap (·)) (lines_sep hN _ _ (known h) (known h') he)
  rw [from_rules, from_rules, ← List.range_eq_range', ← List.range_eq_range'] at e
  rw [← rules_of h, ← rules_of h', e]

theorem from_eq (rules : Nat → List (Item × List Item)) : ∀ count id added, grammarFrom N rules count id added = (if added = true ∨ count = 0 then [] else ['\n']) ++
    (List.range' id count).flatMap fun i => showRules N (rules i) ++ if rules i = [] ∨ i + 1 = id + count then [] else ['\n']
  | 0, _, _ => by simp [grammarFrom]
  | count + 1, id, added => by
    rw [grammarFrom, from_eq rules count, List.range'_succ, List.flatMap_cons]
    have e : id + 1 + count = id + (count + 1) := by omega
    have e1 : id + 1 = id + (count + 1) ↔ count = 0 := by omega
    simp only [e, e1, List.isEmpty_iff, Nat.add_one_ne_zero, or_false, List.append_assoc]

/-- It shows the rules of each nonterminal in the order of their identifiers, a line each, with an empty line after the rules of each but the last identifier. -/
theorem grammar_eq (rules : Nat → List (Item × List Item)) (max : Nat) : showGrammar N rules max =
    (List.range max).flatMap fun i => (rules i).flatMap (fun r => showRule N r.1 r.2 (-1) ++ ['\n']) ++ if rules i = [] ∨ i + 1 = max then [] else ['\n'] := by
  rw [showGrammar, from_eq, List.range_eq_range', if_pos (.inl rfl), List.nil_append, Nat.zero_add]
  rfl

namespace Ex

/-- Two nonterminals, and an identifier without rules after them. -/
def rules : Nat → List (Item × List Item)
  | 0 => [(.nonterminal 0, [.nonterminal 0, .terminal 0]), (.nonterminal 0, [])]
  | 1 => [(.nonterminal 1, [item])]
  | _ => []

theorem rules_ok : RulesOk ok ok rules 3 := by
  intro id hid x hx
  match id, hid with
  | 0, _ =>
    simp only [rules, List.mem_cons, List.not_mem_nil, or_false] at hx
    rcases hx with rfl | rfl <;> simp [Known, KnownAll, ok]
  | 1, _ =>
    simp only [rules, List.mem_cons, List.not_mem_nil, or_false] at hx
    subst hx
    exact ⟨rfl, .inr rfl, by simp [item, Known, KnownAll, KnownRules, ok]⟩
  | 2, _ => cases hx

example : String.ofList (showGrammar names rules 2) = "<E> = <E> id\n<E> = \n\n<T> = ( id <T> | \"a b\" )\n" := by decide +kernel
example : String.ofList (showGrammar names rules 3) = "<E> = <E> id\n<E> = \n\n<T> = ( id <T> | \"a b\" )\n\n" := by decide +kernel

example (rules' : Nat → List (Item × List Item)) (h : RulesOk ok ok rules' 2) (he : showGrammar names rules' 2 = showGrammar names rules 3) : rules' 1 = [(.nonterminal 1, [item])] :=
  grammar_text clear h rules_ok he 1

end Ex

end Show
end TameParse

import Verif.ParserTables
import Mathlib.Data.List.Perm.Basic
/-
C34: looking up a symbol in a state visits exactly the actions that the builder produced for it, in the order guards, weak reductions,
shifts, reductions, the rest; and reductions refer to their rule.
C48: a copy answers every query as the original.
-/
namespace TameParse
namespace ParserTables

/-- The contract of `std::sort`. -/
def IsSort {α : Type} (lt : α → α → Bool) (sort : List α → List α) : Prop :=
  ∀ l, (sort l).Perm l ∧ (sort l).Pairwise (fun a b => lt b a = false)

/-! The rule indices -/

theorem findIdx?_getElem? (ids : List Int) (r : Int) (i : Nat) (h : ids.findIdx? (· == r) = some i) : ids[i]? = some r := by
  rw [List.findIdx?_eq_some_iff_getElem] at h
  obtain ⟨hi, h1, -⟩ := h
  rw [List.getElem?_eq_getElem hi]
  simpa using h1

theorem ruleIndex_spec (ids : List Int) (r : Int) :
    ids <+: (ruleIndex ids r).1 ∧ (ruleIndex ids r).1[(ruleIndex ids r).2]? = some r := by
  unfold ruleIndex
  cases h : ids.findIdx? (· == r) with
  | some i => exact ⟨List.prefix_refl _, findIdx?_getElem? ids r i h⟩
  | none => exact ⟨List.prefix_append _ _, by simp⟩

/-- The entry stands for the action, where rules are numbered by `ids`. -/
def Stands (g : Numbering) (ids : List Int) (a : LrAction) (e : TableAction) : Prop :=
  e.type = a.type ∧ e.symbolId = symbolOf g a.item ∧
  (isReduce a.type = false → e.nextState = field24 a.next) ∧
  (isReduce a.type = true → ∃ i : Nat, ids[i]? = some (g.ruleId a.rule) ∧ e.nextState = field24 (i : Int))

theorem getElem?_of_prefix {α : Type} {l m : List α} (h : l <+: m) {i : Nat} {a : α} (hi : l[i]? = some a) : m[i]? = some a := by
  obtain ⟨t, rfl⟩ := h
  rw [List.getElem?_append_left]
  · exact hi
  · by_contra hc
    rw [List.getElem?_eq_none (by omega)] at hi
    cases hi

theorem Stands.mono {g : Numbering} {ids ids' : List Int} {a : LrAction} {e : TableAction} (h : ids <+: ids') (hs : Stands g ids a e) :
    Stands g ids' a e := by
  refine ⟨hs.1, hs.2.1, hs.2.2.1, fun hr => ?_⟩
  obtain ⟨i, h1, h2⟩ := hs.2.2.2 hr
  exact ⟨i, getElem?_of_prefix h h1, h2⟩

theorem encode_spec (g : Numbering) (ids : List Int) (a : LrAction) :
    ids <+: (encode g ids a).1 ∧ Stands g (encode g ids a).1 a (encode g ids a).2 := by
  unfold encode
  by_cases h : isReduce a.type = true
  · rw [if_pos h]
    obtain ⟨h1, h2⟩ := ruleIndex_spec ids (g.ruleId a.rule)
    exact ⟨h1, rfl, rfl, fun hc => (by rw [h] at hc; cases hc), fun _ => ⟨_, h2, rfl⟩⟩
  · rw [if_neg h]
    exact ⟨List.prefix_refl _, rfl, rfl, fun _ => rfl, fun hc => absurd hc h⟩

theorem forall₂_mono {α β : Type} {R S : α → β → Prop} (h : ∀ a b, R a b → S a b) {l : List α} {m : List β} (hl : List.Forall₂ R l m) :
    List.Forall₂ S l m := hl.imp h

theorem fillState_spec (g : Numbering) : ∀ (l : List LrAction) (ids : List Int),
    ids <+: (fillState g ids l).1 ∧
    List.Forall₂ (Stands g (fillState g ids l).1) (l.filter (fun a => isTerminal a.item)) (fillState g ids l).2.1 ∧
    List.Forall₂ (Stands g (fillState g ids l).1) (l.filter (fun a => !isTerminal a.item)) (fillState g ids l).2.2
  | [], ids => ⟨List.prefix_refl _, .nil, .nil⟩
  | a :: l, ids => by
    obtain ⟨e1, e2⟩ := encode_spec g ids a
    obtain ⟨f1, f2, f3⟩ := fillState_spec g l (encode g ids a).1
    by_cases h : isTerminal a.item = true
    · simp only [fillState, h, if_true, List.filter_cons, Bool.not_true]
      exact ⟨e1.trans f1, .cons (e2.mono f1) f2, f3⟩
    · rw [Bool.not_eq_true] at h
      simp only [fillState, h, List.filter_cons, Bool.not_false, if_true]
      exact ⟨e1.trans f1, f2, .cons (e2.mono f1) f3⟩

theorem fillStates_prefix (g : Numbering) (sort : List TableAction → List TableAction) (eog : Int) :
    ∀ (l : List (List LrAction)) (ids : List Int) (s : Nat), ids <+: (fillStates g sort eog ids s l).1
  | [], _, _ => List.prefix_refl _
  | acts :: l, ids, s => (fillState_spec g acts ids).1.trans (fillStates_prefix g sort eog l _ (s + 1))

/-- Each row holds the entries for the actions of its state. -/
theorem fillStates_rows (g : Numbering) (sort : List TableAction → List TableAction) (eog : Int) :
    ∀ (l : List (List LrAction)) (ids : List Int) (s i : Nat) (acts : List LrAction), l[i]? = some acts →
      ∃ ts ns, (fillStates g sort eog ids s l).2.1[i]? = some ⟨sort ts, sort ns⟩ ∧
        List.Forall₂ (Stands g (fillStates g sort eog ids s l).1) (acts.filter (fun a => isTerminal a.item)) ts ∧
        List.Forall₂ (Stands g (fillStates g sort eog ids s l).1) (acts.filter (fun a => !isTerminal a.item)) ns
  | [], _, _, i, acts, h => by simp at h
  | a :: l, ids, s, 0, acts, h => by
    simp only [List.getElem?_cons_zero, Option.some.injEq] at h
    subst h
    obtain ⟨-, f2, f3⟩ := fillState_spec g a ids
    have hp := fillStates_prefix g sort eog l (fillState g ids a).1 (s + 1)
    exact ⟨_, _, rfl, f2.imp (fun _ _ h => h.mono hp), f3.imp (fun _ _ h => h.mono hp)⟩
  | a :: l, ids, s, i + 1, acts, h => by
    simp only [List.getElem?_cons_succ] at h
    exact fillStates_rows g sort eog l (fillState g ids a).1 (s + 1) i acts h

/-! The search -/

theorem sorted_symbols {l : List TableAction} (h : l.Pairwise (fun a b => compareActions b a = false)) :
    l.Pairwise (fun a b => a.symbolId ≤ b.symbolId) := by
  refine h.imp ?_
  intro a b hab
  unfold compareActions at hab
  by_contra hc
  rw [if_pos (by omega)] at hab
  cases hab

theorem drop_takeWhile (s : Int) : ∀ (l : List TableAction) (p : Nat), l.Pairwise (fun a b => a.symbolId ≤ b.symbolId) →
    (∀ i a, i < p → l[i]? = some a → a.symbolId < s) → (∀ i a, p ≤ i → l[i]? = some a → ¬ a.symbolId < s) →
    (l.drop p).takeWhile (fun a => a.symbolId == s) = l.filter (fun a => a.symbolId == s)
  | [], p, _, _, _ => by simp
  | a :: l, 0, hs, _, h2 => by
    have hs' := List.pairwise_cons.1 hs
    have ha := h2 0 a (by omega) rfl
    rw [List.drop_zero, List.takeWhile_cons, List.filter_cons]
    by_cases h : a.symbolId = s
    · have h' : (a.symbolId == s) = true := by simp [h]
      rw [if_pos h', if_pos h']
      have := drop_takeWhile s l 0 hs'.2 (fun i _ hi => absurd hi (by omega)) (fun i b _ hb => h2 (i + 1) b (by omega) (by simpa using hb))
      rw [List.drop_zero] at this
      rw [this]
    · have h' : ¬ (a.symbolId == s) = true := by simp [h]
      rw [if_neg h', if_neg h']
      symm
      rw [List.filter_eq_nil_iff]
      intro b hb
      have := hs'.1 b hb
      simp only [beq_iff_eq]
      omega
  | a :: l, p + 1, hs, h1, h2 => by
    have hs' := List.pairwise_cons.1 hs
    have ha := h1 0 a (by omega) rfl
    have h' : ¬ (a.symbolId == s) = true := by simp only [beq_iff_eq]; omega
    rw [List.drop_succ_cons, List.filter_cons, if_neg h']
    exact drop_takeWhile s l p hs'.2 (fun i b hi hb => h1 (i + 1) b (by omega) (by simpa using hb))
      (fun i b hi hb => h2 (i + 1) b (by omega) (by simpa using hb))

/-- The search and the scan find exactly the entries for the symbol, in table order. -/
theorem findAction_scan (s : Int) (l : List TableAction) (h : l.Pairwise (fun a b => compareActions b a = false)) :
    ∃ p, findAction s l l.length = some p ∧ scan s l l.length p = l.filter (fun a => a.symbolId == s) := by
  have hs := sorted_symbols h
  unfold findAction
  rw [if_pos (Nat.le_refl _)]
  refine ⟨_, rfl, ?_⟩
  obtain ⟨-, -, h3, h4⟩ := lowerBoundPos_spec (fun i => match l[i]? with | some a => decide (a.symbolId < s) | none => false) 0 l.length
    (Nat.zero_le _) (by
      intro i j _ hij hj hp
      have hi : i < l.length := by omega
      simp only [List.getElem?_eq_getElem hi, List.getElem?_eq_getElem hj, decide_eq_true_eq] at *
      rcases Nat.lt_or_ge i j with hlt | hge
      · have := List.pairwise_iff_getElem.1 hs i j hi hj hlt
        omega
      · have : i = j := by omega
        subst this; exact hp)
  unfold scan
  rw [List.take_length]
  refine drop_takeWhile s l _ hs ?_ ?_
  · intro i a hi ha
    have := h3 i (Nat.zero_le _) hi
    simpa [ha] using this
  · intro i a hi ha hc
    have hlt : i < l.length := by
      by_contra hge
      rw [List.getElem?_eq_none (by omega)] at ha
      cases ha
    have := h4 i hi hlt
    simp [ha, hc] at this

/-! C34 -/

/-- What an action means to the parser: its type and either the rule to reduce or the next state. -/
abbrev Meaning := ActType × (Option ReduceRule ⊕ Nat)

/-- What an action of the builder means. -/
def meaning (g : Numbering) (a : LrAction) : Meaning :=
  (a.type, if isReduce a.type then .inl (some ⟨g.ident a.rule.nonterminal, g.ruleId a.rule, a.rule.items.length⟩) else .inr a.next.toNat)

/-- What an entry of the tables means (parser_state.h 160-217: reductions go through `rule`). -/
def entryMeaning (t : Tables) (e : TableAction) : Meaning :=
  (e.type, if isReduce e.type then .inl (rule t e.nextState) else .inr e.nextState)

theorem field24_small (n : Int) (h : 0 ≤ n) (h' : n < 16777216) : field24 n = n.toNat := by
  unfold field24
  rw [Int.emod_eq_of_lt h h']

/-- The builder's actions fit the tables: states and rules can be told apart in 24 bits, and the grammar gives back the rules it has
numbered (C28). -/
structure Fits (g : Numbering) (states : List (List LrAction)) (numRules : Nat) : Prop where
  rules : numRules ≤ 16777216
  next : ∀ acts ∈ states, ∀ a ∈ acts, isReduce a.type = false → 0 ≤ a.next ∧ a.next < 16777216
  back : ∀ acts ∈ states, ∀ a ∈ acts, isReduce a.type = true → g.ruleWith (g.ruleId a.rule) = a.rule

theorem stands_meaning {g : Numbering} {sort : List TableAction → List TableAction} {sortWeak : List (Int × Int) → List (Int × Int)}
    {states : List (List LrAction)} {weak : Option (List (Item × List Item))}
    (hf : Fits g states (build g sort sortWeak states weak).numRules) {acts : List LrAction} (hacts : acts ∈ states) {a : LrAction}
    (ha : a ∈ acts) {e : TableAction} (h : Stands g (fillStates g sort (g.ident .eog) [] 0 states).1 a e) :
    entryMeaning (build g sort sortWeak states weak) e = meaning g a := by
  obtain ⟨h1, h2, h3, h4⟩ := h
  unfold entryMeaning meaning
  rw [h1]
  by_cases hr : isReduce a.type = true
  · rw [if_pos hr, if_pos hr]
    obtain ⟨i, h5, h6⟩ := h4 hr
    have hn := hf.rules
    simp only [build] at hn
    have hi : i < (fillStates g sort (g.ident .eog) [] 0 states).1.length := by
      by_contra hc
      rw [List.getElem?_eq_none (by omega)] at h5
      cases h5
    have h7 : e.nextState = i := by rw [h6, field24_small _ (by omega) (by omega)]; omega
    simp only [rule, build, h7, List.getElem?_map, h5, Option.map_some, hf.back acts hacts a ha hr]
  · rw [if_neg hr, if_neg hr]
    rw [Bool.not_eq_true] at hr
    rw [h3 hr]
    obtain ⟨h5, h6⟩ := hf.next acts hacts a ha hr
    rw [field24_small _ h5 h6]

theorem forall₂_map_filter {g : Numbering} {t : Tables} {ids : List Int} (s : Int) : ∀ {l : List LrAction} {m : List TableAction},
    List.Forall₂ (Stands g ids) l m → (∀ a ∈ l, ∀ e, Stands g ids a e → entryMeaning t e = meaning g a) →
    (m.filter (fun e => e.symbolId == s)).map (entryMeaning t) = (l.filter (fun a => symbolOf g a.item == s)).map (meaning g)
  | _, _, .nil, _ => rfl
  | a :: l, e :: m, .cons h hl, hm => by
    have ih := forall₂_map_filter s hl (fun a ha => hm a (List.mem_cons_of_mem _ ha))
    rw [List.filter_cons, List.filter_cons, h.2.1]
    by_cases hs : (symbolOf g a.item == s) = true
    · rw [if_pos hs, if_pos hs, List.map_cons, List.map_cons, ih, hm a (by simp) e h]
    · rw [if_neg hs, if_neg hs, ih]

theorem pairwise_score {l : List TableAction} (h : l.Pairwise (fun a b => compareActions b a = false)) (s : Int) :
    (l.filter (fun e => e.symbolId == s)).Pairwise (fun a b => score a.type ≤ score b.type) := by
  have h1 : (l.filter (fun e => e.symbolId == s)).Pairwise (fun a b => compareActions b a = false) := h.sublist List.filter_sublist
  rw [List.pairwise_iff_forall_sublist] at *
  intro a b hab
  have h2 := h1 hab
  have ha : a ∈ l.filter (fun e => e.symbolId == s) := hab.subset (by simp)
  have hb : b ∈ l.filter (fun e => e.symbolId == s) := hab.subset (by simp)
  simp only [List.mem_filter, beq_iff_eq] at ha hb
  unfold compareActions at h2
  rw [if_neg (by omega), if_neg (by omega), decide_eq_false_iff_not] at h2
  omega

theorem visit_row {g : Numbering} {sort : List TableAction → List TableAction} (hsort : IsSort compareActions sort) {t : Tables}
    {ids : List Int} {acts : List LrAction} {es : List TableAction} (h : List.Forall₂ (Stands g ids) acts es)
    (hm : ∀ a ∈ acts, ∀ e, Stands g ids a e → entryMeaning t e = meaning g a) (s : Int) :
    ∃ p l, findAction s (sort es) (sort es).length = some p ∧ scan s (sort es) (sort es).length p = l ∧
      (l.map (entryMeaning t)).Perm ((acts.filter (fun a => symbolOf g a.item == s)).map (meaning g)) ∧
      l.Pairwise (fun a b => score a.type ≤ score b.type) := by
  obtain ⟨hp, hw⟩ := hsort es
  obtain ⟨p, h1, h2⟩ := findAction_scan s (sort es) hw
  refine ⟨p, _, h1, h2, ?_, pairwise_score hw s⟩
  rw [← forall₂_map_filter s h hm]
  exact (hp.filter _).map _

/-- C34: for every state and symbol the parser visits, up to the order of actions with the same rank, exactly the actions that the
builder produced for that symbol, ordered by rank; entries of reductions lead to their rule. -/
theorem action_lookup_exact (g : Numbering) (sort : List TableAction → List TableAction) (sortWeak : List (Int × Int) → List (Int × Int))
    (hsort : IsSort compareActions sort) (states : List (List LrAction)) (weak : Option (List (Item × List Item)))
    (hf : Fits g states (build g sort sortWeak states weak).numRules) (state : Nat) (acts : List LrAction)
    (hs : states[state]? = some acts) (symbol : Int) :
    (∃ l, visitTerminal (build g sort sortWeak states weak) state symbol = some l ∧
      (l.map (entryMeaning (build g sort sortWeak states weak))).Perm
        ((acts.filter (fun a => decide (a.item = .terminal symbol))).map (meaning g)) ∧
      l.Pairwise (fun a b => score a.type ≤ score b.type)) ∧
    (∃ l, visitNonterminal (build g sort sortWeak states weak) state symbol = some l ∧
      (l.map (entryMeaning (build g sort sortWeak states weak))).Perm
        ((acts.filter (fun a => !isTerminal a.item && g.ident a.item == symbol)).map (meaning g)) ∧
      l.Pairwise (fun a b => score a.type ≤ score b.type)) := by
  have hacts : acts ∈ states := List.mem_of_getElem? hs
  obtain ⟨ts, ns, h1, h2, h3⟩ := fillStates_rows g sort (g.ident .eog) states [] 0 state acts hs
  constructor
  · obtain ⟨p, l, f1, f2, f3, f4⟩ := visit_row (t := build g sort sortWeak states weak) hsort h2
      (fun a ha e he => stands_meaning hf hacts (List.mem_of_mem_filter ha) he) symbol
    refine ⟨l, ?_, ?_, f4⟩
    · simp [visitTerminal, findTerminal, build, h1, f1, f2]
    · refine f3.trans (List.Perm.of_eq ?_)
      rw [List.filter_filter]
      congr 1
      apply List.filter_congr
      intro a _
      cases a.item with
      | terminal n => simp only [isTerminal, symbolOf, Bool.and_true, Item.terminal.injEq]; rfl
      | _ => simp [isTerminal, symbolOf]
  · obtain ⟨p, l, f1, f2, f3, f4⟩ := visit_row (t := build g sort sortWeak states weak) hsort h3
      (fun a ha e he => stands_meaning hf hacts (List.mem_of_mem_filter ha) he) symbol
    refine ⟨l, ?_, ?_, f4⟩
    · simp [visitNonterminal, findNonterminal, build, h1, f1, f2]
    · refine f3.trans (List.Perm.of_eq ?_)
      rw [List.filter_filter]
      congr 1
      apply List.filter_congr
      intro a _
      cases a.item <;> simp [isTerminal, symbolOf]

/-! The end of guard states -/

theorem fillStates_eog (g : Numbering) (sort : List TableAction → List TableAction) (eog : Int) :
    ∀ (l : List (List LrAction)) (ids : List Int) (s : Nat),
      (fillStates g sort eog ids s l).2.2.Pairwise (· ≤ ·) ∧
      (∀ x ∈ (fillStates g sort eog ids s l).2.2, s ≤ x) ∧
      ∀ x, x ∈ (fillStates g sort eog ids s l).2.2 ↔
        ∃ i acts, l[i]? = some acts ∧ x = s + i ∧ ∃ a ∈ acts, isTerminal a.item = false ∧ g.ident a.item = eog
  | [], _, _ => by simp [fillStates]
  | acts :: l, ids, s => by
    obtain ⟨h1, h2, h3⟩ := fillStates_eog g sort eog l (fillState g ids acts).1 (s + 1)
    obtain ⟨-, -, f3⟩ := fillState_spec g acts ids
    have hmem : ∀ x, x ∈ ((fillState g ids acts).2.2.filter (fun e => e.symbolId == eog)).map (fun _ => s) ↔
        x = s ∧ ∃ a ∈ acts, isTerminal a.item = false ∧ g.ident a.item = eog := by
      intro x
      rw [List.mem_map]
      constructor
      · rintro ⟨e, he, rfl⟩
        refine ⟨rfl, ?_⟩
        rw [List.mem_filter] at he
        obtain ⟨i, hi, rfl⟩ := List.mem_iff_getElem.1 he.1
        have hlen := f3.length_eq
        have := (List.forall₂_iff_get.1 f3).2 i (by omega) hi
        have hm : (acts.filter (fun a => !isTerminal a.item))[i]'(by omega) ∈ acts.filter (fun a => !isTerminal a.item) := List.getElem_mem _
        rw [List.mem_filter] at hm
        refine ⟨_, hm.1, by simpa using hm.2, ?_⟩
        have hs := this.2.1
        simp only [List.get_eq_getElem] at hs
        have he2 := he.2
        simp only [beq_iff_eq] at he2
        rw [he2] at hs
        rw [hs]
        have hnt := hm.2
        revert hnt
        generalize (acts.filter (fun a => !isTerminal a.item))[i] = a
        intro hnt
        cases ha : a.item <;> simp_all [isTerminal, symbolOf]
      · rintro ⟨rfl, a, ha, ht, hi⟩
        have hm : a ∈ acts.filter (fun a => !isTerminal a.item) := by simp [ha, ht]
        obtain ⟨i, hil, rfl⟩ := List.mem_iff_getElem.1 hm
        have hlen := f3.length_eq
        have := (List.forall₂_iff_get.1 f3).2 i hil (by omega)
        refine ⟨(fillState g ids acts).2.2[i]'(by omega), ?_, rfl⟩
        rw [List.mem_filter]
        refine ⟨List.getElem_mem _, ?_⟩
        have hs := this.2.1
        simp only [List.get_eq_getElem] at hs
        rw [beq_iff_eq, hs]
        revert ht hi
        generalize (acts.filter (fun a => !isTerminal a.item))[i] = a
        intro ht hi
        cases ha : a.item <;> simp_all [isTerminal, symbolOf]
    have heq : (fillStates g sort eog ids s (acts :: l)).2.2 =
        ((fillState g ids acts).2.2.filter (fun e => e.symbolId == eog)).map (fun _ => s) ++
          (fillStates g sort eog (fillState g ids acts).1 (s + 1) l).2.2 := rfl
    rw [heq]
    refine ⟨?_, ?_, ?_⟩
    · rw [List.pairwise_append]
      refine ⟨?_, h1, ?_⟩
      · rw [List.pairwise_map]
        exact List.pairwise_of_forall (fun _ _ => Nat.le_refl _)
      · intro x hx y hy
        have := ((hmem x).1 hx).1
        have := h2 y hy
        omega
    · intro x hx
      rcases List.mem_append.1 hx with hx | hx
      · have := ((hmem x).1 hx).1
        omega
      · have := h2 x hx
        omega
    · intro x
      rw [List.mem_append, hmem, h3]
      constructor
      · rintro (⟨rfl, h⟩ | ⟨i, as, h4, rfl, h⟩)
        · exact ⟨0, acts, rfl, rfl, h⟩
        · exact ⟨i + 1, as, by simpa using h4, by omega, h⟩
      · rintro ⟨i, as, h4, rfl, h⟩
        cases i with
        | zero =>
          simp only [List.getElem?_cons_zero, Option.some.injEq] at h4
          subst h4
          exact Or.inl ⟨rfl, h⟩
        | succ i => exact Or.inr ⟨i, as, by simpa using h4, by omega, h⟩

theorem binarySearch_exact (l : List Nat) (h1 : l.Pairwise (· ≤ ·)) (x : Nat) :
    ∃ b, binarySearch l l.length x = some b ∧ (b = true ↔ x ∈ l) := by
  unfold binarySearch
  rw [if_pos (Nat.le_refl _)]
  obtain ⟨-, l2, l3, l4⟩ := lowerBoundPos_spec (below l x) 0 l.length
    (Nat.zero_le _) (by
      intro i j _ hij hj hp
      have hi : i < l.length := by omega
      simp only [below, List.getElem?_eq_getElem hi, List.getElem?_eq_getElem hj, decide_eq_true_eq] at *
      rcases Nat.lt_or_ge i j with hlt | hge
      · have := List.pairwise_iff_getElem.1 h1 i j hi hj hlt
        omega
      · have : i = j := by omega
        subst this; exact hp)
  generalize lowerBoundPos (below l x) 0 l.length = p at *
  by_cases hp : p = l.length
  · simp only [hp, if_true]
    refine ⟨false, rfl, by simp, ?_⟩
    intro hm
    obtain ⟨i, hi, hx⟩ := List.mem_iff_getElem.1 hm
    have := l3 i (Nat.zero_le _) (by omega)
    simp [below, List.getElem?_eq_getElem hi, hx] at this
  · simp only [hp, if_false]
    have hlt : p < l.length := by omega
    rw [List.getElem?_eq_getElem hlt, Option.map_some]
    refine ⟨_, rfl, ?_⟩
    have hge := l4 p (Nat.le_refl _) hlt
    simp only [below, List.getElem?_eq_getElem hlt, decide_eq_false_iff_not] at hge
    simp only [Bool.not_eq_true', decide_eq_false_iff_not]
    constructor
    · intro h
      have : l[p] = x := by omega
      rw [← this]
      exact List.getElem_mem _
    · intro hm hc
      obtain ⟨i, hi, hx⟩ := List.mem_iff_getElem.1 hm
      rcases Nat.lt_or_ge i p with hip | hip
      · have := l3 i (Nat.zero_le _) hip
        simp [below, List.getElem?_eq_getElem hi, hx] at this
      · rcases Nat.lt_or_ge p i with h' | h'
        · have := List.pairwise_iff_getElem.1 h1 p i hlt hi h'
          omega
        · have : i = p := by omega
          subst this
          omega

/-- C34: the states that are reported to have an end of guard action are those with an action for that symbol. -/
theorem end_of_guard_exact (g : Numbering) (sort : List TableAction → List TableAction) (sortWeak : List (Int × Int) → List (Int × Int))
    (states : List (List LrAction)) (weak : Option (List (Item × List Item))) (state : Nat) (acts : List LrAction)
    (hs : states[state]? = some acts) :
    ∃ b, hasEndOfGuard (build g sort sortWeak states weak) state = some b ∧
      (b = true ↔ ∃ a ∈ acts, isTerminal a.item = false ∧ g.ident a.item = g.ident .eog) := by
  obtain ⟨h1, -, h3⟩ := fillStates_eog g sort (g.ident .eog) states [] 0
  have h4 := h3 state
  have h5 : (∃ i acts, states[i]? = some acts ∧ state = 0 + i ∧ ∃ a ∈ acts, isTerminal a.item = false ∧ g.ident a.item = g.ident .eog) ↔
      ∃ a ∈ acts, isTerminal a.item = false ∧ g.ident a.item = g.ident .eog := by
    constructor
    · rintro ⟨i, as, h6, h7, h8⟩
      have : i = state := by omega
      subst this
      rw [hs] at h6
      cases h6
      exact h8
    · intro h
      exact ⟨state, acts, hs, by omega, h⟩
  rw [h5] at h4
  rw [← h4]
  exact binarySearch_exact _ h1 state

/-- The strong symbol that is found is one that the weak symbol was mapped to, and symbols without one stay what they are. -/
theorem strong_for_weak_exact (g : Numbering) (sort : List TableAction → List TableAction) (sortWeak : List (Int × Int) → List (Int × Int))
    (hsort : IsSort (fun a b => decide (a.1 < b.1)) sortWeak) (states : List (List LrAction)) (weak : List (Item × List Item)) (w : Int) :
    ∃ s, strongForWeak (build g sort sortWeak states (some weak)) w = some s ∧
      ((∃ ws, (Item.terminal s, ws) ∈ weak ∧ Item.terminal w ∈ ws) ∨
        (s = w ∧ ∀ s' ws, (Item.terminal s', ws) ∈ weak → Item.terminal w ∉ ws)) := by
  have hmem : ∀ a b, (a, b) ∈ weakTable weak ↔ ∃ ws, (Item.terminal b, ws) ∈ weak ∧ Item.terminal a ∈ ws := by
    intro a b
    unfold weakTable
    rw [List.mem_flatMap]
    constructor
    · rintro ⟨⟨i, ws⟩, h1, h2⟩
      cases i with
      | terminal n =>
        simp only [List.mem_filterMap] at h2
        obtain ⟨x, h3, h4⟩ := h2
        cases x with
        | terminal m =>
          simp only [Option.some.injEq, Prod.mk.injEq] at h4
          obtain ⟨rfl, rfl⟩ := h4
          exact ⟨ws, h1, h3⟩
        | _ => cases h4
      | _ => cases h2
    · rintro ⟨ws, h1, h2⟩
      refine ⟨_, h1, ?_⟩
      simp only [List.mem_filterMap]
      exact ⟨_, h2, rfl⟩
  have hp := (hsort (weakTable weak)).1
  have hlen := hp.length_eq
  by_cases h0 : (weakTable weak).length = 0
  · refine ⟨w, by simp [strongForWeak, strongIn, build, h0], Or.inr ⟨rfl, ?_⟩⟩
    intro s' ws h1 h2
    have := (hmem w s').2 ⟨ws, h1, h2⟩
    rw [List.eq_nil_of_length_eq_zero h0] at this
    cases this
  · have heq : strongForWeak (build g sort sortWeak states (some weak)) w =
        (match (sortWeak (weakTable weak)).find? (fun e => e.1 == w) with | some e => some e.2 | none => some w) := by
      show strongIn (weakTable weak).length (some (sortWeak (weakTable weak))) w = _
      unfold strongIn
      rw [if_neg h0]
      simp only
      rw [if_pos (by omega), List.take_of_length_le (by omega)]
      cases (sortWeak (weakTable weak)).find? (fun e => e.1 == w) <;> rfl
    rw [heq]
    cases hf : (sortWeak (weakTable weak)).find? (fun e => e.1 == w) with
    | none =>
      refine ⟨w, rfl, Or.inr ⟨rfl, ?_⟩⟩
      intro s' ws h1 h2
      have := (hp.mem_iff).2 ((hmem w s').2 ⟨ws, h1, h2⟩)
      have := List.find?_eq_none.1 hf _ this
      simp at this
    | some e =>
      refine ⟨e.2, rfl, Or.inl ?_⟩
      have h1 := List.find?_some hf
      have h2 := hp.mem_iff.1 (List.mem_of_find?_eq_some hf)
      simp only [beq_iff_eq] at h1
      rw [← hmem, ← h1]
      exact h2

/-! C48 -/

/-- The arrays hold at least as much as the counts say. -/
structure WellFormed (t : Tables) : Prop where
  counts : t.numStates ≤ t.counts.length
  terms : t.numStates ≤ t.terminalActions.length
  nonterms : t.numStates ≤ t.nonterminalActions.length
  rowTerms : ∀ s < t.numStates, ∀ c row, t.counts[s]? = some c → t.terminalActions[s]? = some row → c.1 ≤ row.length
  rowNonterms : ∀ s < t.numStates, ∀ c row, t.counts[s]? = some c → t.nonterminalActions[s]? = some row → c.2 ≤ row.length
  rules : t.numRules ≤ t.rules.length
  eog : t.numEndOfGuards ≤ t.endGuardStates.length
  weak : ∀ l, t.weakToStrong = some l → t.numWeakToStrong ≤ l.length

theorem copyRows_get : ∀ (n : Nat) (rows : List (List TableAction)) (counts : List Nat) (s : Nat) (row : List TableAction) (c : Nat),
    s < n → rows[s]? = some row → counts[s]? = some c → (copyRows n rows counts)[s]? = some (row.take c)
  | 0, _, _, _, _, _, h, _, _ => absurd h (by omega)
  | n + 1, [], _, s, _, _, _, h, _ => by simp at h
  | n + 1, _ :: _, [], s, _, _, _, _, h => by simp at h
  | n + 1, r :: rows, k :: counts, 0, row, c, _, h1, h2 => by
    simp only [List.getElem?_cons_zero, Option.some.injEq] at h1 h2
    subst h1; subst h2
    rfl
  | n + 1, r :: rows, k :: counts, s + 1, row, c, h, h1, h2 => by
    simp only [List.getElem?_cons_succ] at h1 h2
    exact copyRows_get n rows counts s row c (by omega) h1 h2

theorem lowerBoundLoop_congr (p q : Nat → Bool) : ∀ fuel first len, (∀ i, i < first + len → p i = q i) →
    lowerBoundLoop p fuel first len = lowerBoundLoop q fuel first len
  | 0, _, _, _ => rfl
  | fuel + 1, first, len, h => by
    simp only [lowerBoundLoop]
    by_cases h0 : len = 0
    · rw [if_pos h0, if_pos h0]
    · rw [if_neg h0, if_neg h0, h (first + len / 2) (by omega),
        lowerBoundLoop_congr p q fuel (first + len / 2 + 1) (len - len / 2 - 1) (fun i hi => h i (by omega)),
        lowerBoundLoop_congr p q fuel first (len / 2) (fun i hi => h i (by omega))]

theorem lowerBoundLoop_le (p : Nat → Bool) : ∀ fuel first len, len ≤ fuel → lowerBoundLoop p fuel first len ≤ first + len
  | 0, first, len, _ => by simp [lowerBoundLoop]
  | fuel + 1, first, len, hl => by
    have h1 := lowerBoundLoop_le p fuel (first + len / 2 + 1) (len - len / 2 - 1)
    have h2 := lowerBoundLoop_le p fuel first (len / 2)
    simp only [lowerBoundLoop]
    split
    · omega
    · split
      · have := h1 (by omega)
        omega
      · have := h2 (by omega)
        omega

theorem findAction_take (s : Int) (row : List TableAction) (c : Nat) (h : c ≤ row.length) :
    findAction s (row.take c) c = findAction s row c := by
  unfold findAction
  rw [if_pos h, if_pos (by rw [List.length_take]; omega)]
  unfold lowerBoundPos
  congr 1
  apply lowerBoundLoop_congr
  intro i hi
  rw [List.getElem?_take_of_lt (by omega)]

theorem binarySearch_take (l : List Nat) (count x : Nat) (h : count ≤ l.length) :
    binarySearch (l.take count) count x = binarySearch l count x := by
  unfold binarySearch
  rw [if_pos h, if_pos (by rw [List.length_take]; omega)]
  have hl : lowerBoundPos (below (l.take count) x) 0 count = lowerBoundPos (below l x) 0 count := by
    apply lowerBoundLoop_congr
    intro i hi
    unfold below
    rw [List.getElem?_take_of_lt (by omega)]
  rw [hl]
  have hle : lowerBoundPos (below l x) 0 count ≤ count := by
    have := lowerBoundLoop_le (below l x) (count - 0) 0 (count - 0) (Nat.le_refl _)
    unfold lowerBoundPos
    omega
  generalize lowerBoundPos (below l x) 0 count = p at *
  by_cases hp : p = count
  · simp [hp]
  · simp only [hp, if_false]
    rw [List.getElem?_take_of_lt (by omega)]

theorem strongIn_take (count : Nat) (table : Option (List (Int × Int))) (w : Int) (h : ∀ l, table = some l → count ≤ l.length) :
    strongIn count (table.map (fun l => l.take count)) w = strongIn count table w := by
  unfold strongIn
  by_cases h0 : count = 0
  · rw [if_pos h0, if_pos h0]
  · rw [if_neg h0, if_neg h0]
    cases table with
    | none => rfl
    | some l =>
      have := h l rfl
      simp only [Option.map_some]
      rw [if_pos this, if_pos (by rw [List.length_take]; omega), List.take_take, Nat.min_self]

/-- C48: a copy gives the same answers: positions found for terminals and other symbols, the actions visited from there, the numbers of
actions, the rules, the end of guard states, the strong symbols, and the numbers of states and rules. -/
theorem copy_exact (t : Tables) (h : WellFormed t) :
    (∀ s < t.numStates, ∀ sym, findTerminal (copy t) s sym = findTerminal t s sym ∧
      findNonterminal (copy t) s sym = findNonterminal t s sym ∧ (findTerminal t s sym).isSome ∧ (findNonterminal t s sym).isSome ∧
      visitTerminal (copy t) s sym = visitTerminal t s sym ∧ visitNonterminal (copy t) s sym = visitNonterminal t s sym ∧
      countActions (copy t) s = countActions t s) ∧
    (∀ r < t.numRules, rule (copy t) r = rule t r) ∧
    (∀ s, hasEndOfGuard (copy t) s = hasEndOfGuard t s) ∧
    (∀ w, strongForWeak (copy t) w = strongForWeak t w) ∧
    (copy t).numStates = t.numStates ∧ (copy t).numRules = t.numRules ∧ (copy t).endOfInput = t.endOfInput ∧
    (copy t).endOfGuard = t.endOfGuard := by
  refine ⟨?_, ?_, ?_, ?_, rfl, rfl, rfl, rfl⟩
  · intro s hs sym
    have := h.counts
    have := h.terms
    have := h.nonterms
    obtain ⟨c, hc⟩ : ∃ c, t.counts[s]? = some c := ⟨_, List.getElem?_eq_getElem (by omega)⟩
    obtain ⟨tr, ht⟩ : ∃ c, t.terminalActions[s]? = some c := ⟨_, List.getElem?_eq_getElem (by omega)⟩
    obtain ⟨nr, hn⟩ : ∃ c, t.nonterminalActions[s]? = some c := ⟨_, List.getElem?_eq_getElem (by omega)⟩
    have h1 := h.rowTerms s hs c tr hc ht
    have h2 := h.rowNonterms s hs c nr hc hn
    have hc' : (copy t).counts[s]? = some c := by
      simp only [copy]
      rw [List.getElem?_take_of_lt hs, hc]
    have ht' : (copy t).terminalActions[s]? = some (tr.take c.1) :=
      copyRows_get _ _ _ _ _ _ hs ht (by simp [hc])
    have hn' : (copy t).nonterminalActions[s]? = some (nr.take c.2) :=
      copyRows_get _ _ _ _ _ _ hs hn (by simp [hc])
    have hf : ∀ k (row : List TableAction), k ≤ row.length → (findAction sym row k).isSome := by
      intro k row hk
      simp [findAction, hk]
    refine ⟨?_, ?_, ?_, ?_, ?_, ?_, ?_⟩
    · simp [findTerminal, hc, ht, hc', ht', findAction_take _ _ _ h1]
    · simp [findNonterminal, hc, hn, hc', hn', findAction_take _ _ _ h2]
    · simp [findTerminal, hc, ht, hf _ _ h1]
    · simp [findNonterminal, hc, hn, hf _ _ h2]
    · simp [visitTerminal, findTerminal, hc, ht, hc', ht', findAction_take _ _ _ h1, scan, List.take_take]
    · simp [visitNonterminal, findNonterminal, hc, hn, hc', hn', findAction_take _ _ _ h2, scan, List.take_take]
    · simp [countActions, hc, hc']
  · intro r hr
    simp only [rule, copy]
    rw [List.getElem?_take_of_lt hr]
  · intro s
    have he := h.eog
    exact binarySearch_take t.endGuardStates t.numEndOfGuards s he
  · intro w
    exact strongIn_take _ _ w h.weak

theorem fillStates_length (g : Numbering) (sort : List TableAction → List TableAction) (eog : Int) :
    ∀ (l : List (List LrAction)) (ids : List Int) (s : Nat), (fillStates g sort eog ids s l).2.1.length = l.length
  | [], _, _ => rfl
  | a :: l, ids, s => by simp [fillStates, fillStates_length g sort eog l]

/-- The tables that the builder makes can be copied. -/
theorem build_wellFormed (g : Numbering) (sort : List TableAction → List TableAction) (sortWeak : List (Int × Int) → List (Int × Int))
    (states : List (List LrAction)) (weak : Option (List (Item × List Item))) (hw : ∀ l, (sortWeak l).length = l.length) :
    WellFormed (build g sort sortWeak states weak) := by
  have hl := fillStates_length g sort (g.ident .eog) states [] 0
  constructor
  · simp [build, hl]
  · simp [build, hl]
  · simp [build, hl]
  · intro s _ c row h1 h2
    simp only [build, List.getElem?_map, Option.map_eq_some_iff] at h1 h2
    obtain ⟨r1, h3, rfl⟩ := h1
    obtain ⟨r2, h4, rfl⟩ := h2
    rw [h3] at h4
    cases h4
    exact Nat.le_refl _
  · intro s _ c row h1 h2
    simp only [build, List.getElem?_map, Option.map_eq_some_iff] at h1 h2
    obtain ⟨r1, h3, rfl⟩ := h1
    obtain ⟨r2, h4, rfl⟩ := h2
    rw [h3] at h4
    cases h4
    exact Nat.le_refl _
  · simp [build]
  · simp [build]
  · intro l h
    cases weak with
    | none => cases h
    | some w =>
      simp only [build, Option.map_some, Option.some.injEq] at h ⊢
      rw [← h, hw]
      exact Nat.le_refl _

/-- C48 for assignment, from another object or from itself. -/
theorem assign_exact (dst src : Tables) : assign false dst src = copy src ∧ assign true src src = src := ⟨rfl, rfl⟩

/-! Examples -/

/-- Insertion into a sorted list. -/
def insertAction (a : TableAction) : List TableAction → List TableAction
  | [] => [a]
  | b :: l => if compareActions b a then b :: insertAction a l else a :: b :: l

/-- Insertion sort. -/
def insertionSort : List TableAction → List TableAction
  | [] => []
  | a :: l => insertAction a (insertionSort l)

theorem compare_trans {a b c : TableAction} (h1 : compareActions b a = false) (h2 : compareActions c b = false) :
    compareActions c a = false := by
  unfold compareActions at *
  by_cases x1 : b.symbolId < a.symbolId
  · rw [if_pos x1] at h1; cases h1
  by_cases x2 : c.symbolId < b.symbolId
  · rw [if_pos x2] at h2; cases h2
  rw [if_neg x1] at h1
  rw [if_neg x2] at h2
  rw [if_neg (by omega)]
  by_cases x3 : c.symbolId > a.symbolId
  · rw [if_pos x3]
  · rw [if_neg (by omega), decide_eq_false_iff_not] at h1 h2
    rw [if_neg x3, decide_eq_false_iff_not]
    omega

theorem compare_asymm {a b : TableAction} (h : compareActions a b = true) : compareActions b a = false := by
  unfold compareActions at *
  by_cases x1 : a.symbolId < b.symbolId
  · rw [if_neg (by omega), if_pos (by omega)]
  · rw [if_neg x1] at h
    by_cases x2 : a.symbolId > b.symbolId
    · rw [if_pos x2] at h; cases h
    · rw [if_neg x2, decide_eq_true_eq] at h
      rw [if_neg (by omega), if_neg (by omega), decide_eq_false_iff_not]
      omega

theorem insertAction_spec (a : TableAction) : ∀ l, (insertAction a l).Perm (a :: l) ∧
    (l.Pairwise (fun a b => compareActions b a = false) → (insertAction a l).Pairwise (fun a b => compareActions b a = false))
  | [] => ⟨List.Perm.refl _, fun _ => by simp [insertAction]⟩
  | b :: l => by
    obtain ⟨h1, h2⟩ := insertAction_spec a l
    unfold insertAction
    by_cases h : compareActions b a = true
    · rw [if_pos h]
      refine ⟨(h1.cons b).trans (List.Perm.swap a b l), fun hs => ?_⟩
      have hs' := List.pairwise_cons.1 hs
      rw [List.pairwise_cons]
      refine ⟨fun x hx => ?_, h2 hs'.2⟩
      rcases List.mem_cons.1 (h1.mem_iff.1 hx) with rfl | hx
      · exact compare_asymm h
      · exact hs'.1 x hx
    · rw [if_neg h]
      refine ⟨List.Perm.refl _, fun hs => ?_⟩
      rw [Bool.not_eq_true] at h
      have hs' := List.pairwise_cons.1 hs
      rw [List.pairwise_cons]
      refine ⟨fun x hx => ?_, hs⟩
      rcases List.mem_cons.1 hx with rfl | hx
      · exact h
      · exact compare_trans h (hs'.1 x hx)

/-- There is a function with the contract of `std::sort`. -/
theorem insertionSort_isSort : IsSort compareActions insertionSort
  | [] => ⟨List.Perm.refl _, List.Pairwise.nil⟩
  | a :: l => by
    obtain ⟨h1, h2⟩ := insertionSort_isSort l
    obtain ⟨h3, h4⟩ := insertAction_spec a (insertionSort l)
    exact ⟨h3.trans (h1.cons a), h4 h2⟩

/-- Numbers the items and rules of the example. -/
def exampleNumbering : Numbering where
  ident
    | .eoi => 100
    | .eog => 101
    | .nonterminal n => n
    | _ => 102
  ruleId r := if r.items.length = 2 then 40 else 41
  ruleWith n := if n = 40 then ⟨.nonterminal 1, [.terminal 7, .nonterminal 1]⟩ else ⟨.nonterminal 1, []⟩

/-- A state with a reduction, a shift and a weak reduction for one terminal, another shift, a goto and a reduction at the end of input. -/
def exampleStates : List (List LrAction) :=
  [[⟨.reduce, .terminal 7, -1, ⟨.nonterminal 1, []⟩⟩, ⟨.shift, .terminal 3, 5, ⟨.empty, []⟩⟩, ⟨.shift, .terminal 7, 2, ⟨.empty, []⟩⟩,
    ⟨.weakreduce, .terminal 7, -1, ⟨.nonterminal 1, [.terminal 7, .nonterminal 1]⟩⟩, ⟨.goto, .nonterminal 1, 4, ⟨.empty, []⟩⟩,
    ⟨.reduce, .eoi, -1, ⟨.nonterminal 1, []⟩⟩]]

def exampleTables : Tables := build exampleNumbering insertionSort id exampleStates none

example : Fits exampleNumbering exampleStates exampleTables.numRules := by
  refine ⟨by decide +kernel, ?_, ?_⟩
  · simp [exampleStates, isReduce]
  · simp [exampleStates, isReduce, exampleNumbering]

example : (visitTerminal exampleTables 0 7).map (fun l => l.map (entryMeaning exampleTables)) =
    some [(.weakreduce, .inl (some ⟨1, 40, 2⟩)), (.shift, .inr 2), (.reduce, .inl (some ⟨1, 41, 0⟩))] := by decide +kernel

example : visitNonterminal exampleTables 0 100 = some [⟨.reduce, 0, 100⟩] := by decide +kernel

example : (visitTerminal (copy exampleTables) 0 7).map (·.length) = some 3 := by decide +kernel

example : WellFormed exampleTables := build_wellFormed _ _ _ _ _ (fun _ => rfl)

/-- Every action of a state is counted. -/
theorem count_exact (g : Numbering) (sort : List TableAction → List TableAction) (sortWeak : List (Int × Int) → List (Int × Int)) (hsort : IsSort compareActions sort)
    (states : List (List LrAction)) (weak : Option (List (Item × List Item))) (s : Nat) (acts : List LrAction) (h : states[s]? = some acts) :
    countActions (build g sort sortWeak states weak) s = some acts.length := by
  obtain ⟨ts, ns, h1, h2, h3⟩ := fillStates_rows g sort (g.ident .eog) states [] 0 s acts h
  have h4 : (build g sort sortWeak states weak).counts[s]? = some ((sort ts).length, (sort ns).length) := by
    simp only [build, List.getElem?_map, h1, Option.map_some]
  unfold countActions
  rw [h4, Option.map_some, (hsort ts).1.length_eq, (hsort ns).1.length_eq, ← List.Forall₂.length_eq h2, ← List.Forall₂.length_eq h3]
  have := List.length_eq_length_filter_add (l := acts) (fun a => isTerminal a.item)
  rw [← this]

end ParserTables
end TameParse

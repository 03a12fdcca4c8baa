import Verif.ParserStageProps
/-
C81: which clashing guards the parser stage warns about.

Source: see `ParserStage`.
-/
namespace TameParse
namespace ParserStage
open AssocMap Closure Relation Lalr Tool Sound TameParse.Parser ParserTables

/-! ### The loop over the tokens -/

/-- Among the actions of a state there is one that looks at a guard when a token is next. -/
def GuardOn (acts : List LrAction) (t g : Item) : Prop := isTerminal t = true ∧ ∃ a ∈ acts, a.type = .guard ∧ a.item = t ∧ a.rule.nonterminal = g

/-- Two guards are looked at when a token is next. -/
def Clashing (acts : List LrAction) (t : Item) : Prop := ∃ g g', g ≠ g' ∧ GuardOn acts t g ∧ GuardOn acts t g'

/-- An item is before a guard. -/
def BeforeGuard (i : LItem) (g : Item) : Prop := i.rule.items[i.dot]? = some g

/-- The order in which the map of tokens is read: nothing is lost. -/
def Orders (order : List Item → List Item) : Prop := ∀ l x, x ∈ order l ↔ x ∈ l

theorem mem_usesOf {kernel : List LItem} {g : Item} {i : LItem} : i ∈ usesOf kernel g ↔ i ∈ kernel ∧ BeforeGuard i g := by
  unfold usesOf BeforeGuard
  rw [List.mem_filter, decide_eq_true_eq]

theorem mem_guardsFor {order : List Item → List Item} (ho : Orders order) {acts : List LrAction} {t : Item} {gs : List Item} (h : (t, gs) ∈ guardsFor order acts) :
    (∀ g, g ∈ gs ↔ GuardOn acts t g) ∧ gs.Nodup ∧ gs ≠ [] := by
  unfold guardsFor at h
  obtain ⟨t', ht, he⟩ := List.mem_map.1 h
  cases he
  rw [ho, Rewriters.mem_foldl_add] at ht
  simp only [List.not_mem_nil, false_or, List.mem_map, List.mem_filter, Bool.and_eq_true, decide_eq_true_eq] at ht
  obtain ⟨a, ⟨h1, h2, h3⟩, rfl⟩ := ht
  have hmem : ∀ g, g ∈ ((((acts.filter fun a => decide (a.type = .guard) && isTerminal a.item).filter fun b => decide (b.item = a.item)).map (·.rule.nonterminal)).foldl Rewriters.add []) ↔
      GuardOn acts a.item g := by
    intro g
    rw [Rewriters.mem_foldl_add]
    simp only [List.not_mem_nil, false_or, List.mem_map, List.mem_filter, Bool.and_eq_true, decide_eq_true_eq]
    constructor
    · rintro ⟨b, ⟨⟨q1, q2, q3⟩, q4⟩, q5⟩
      exact ⟨h3, b, q1, q2, q4, q5⟩
    · rintro ⟨-, b, q1, q2, q4, q5⟩
      exact ⟨b, ⟨⟨q1, q2, q4 ▸ h3⟩, q4⟩, q5⟩
  refine ⟨hmem, nodup_foldl (fun l b hl => Rewriters.nodup_add l _ hl) _ _ List.nodup_nil, fun hn => ?_⟩
  have := (hmem a.rule.nonterminal).2 ⟨h3, a, h1, h2, rfl, rfl⟩
  rw [hn] at this
  cases this

theorem guardsFor_there {order : List Item → List Item} (ho : Orders order) {acts : List LrAction} {t g : Item} (h : GuardOn acts t g) :
    ∃ gs, (t, gs) ∈ guardsFor order acts := by
  obtain ⟨h1, a, h2, h3, rfl, h5⟩ := h
  refine ⟨_, List.mem_map.2 ⟨a.item, ?_, rfl⟩⟩
  rw [ho, Rewriters.mem_foldl_add]
  simp only [List.not_mem_nil, false_or, List.mem_map, List.mem_filter, Bool.and_eq_true, decide_eq_true_eq]
  exact ⟨a, ⟨h2, h3, h1⟩, rfl⟩

theorem many_iff {gs : List Item} (h : gs.Nodup) : ¬ gs.length ≤ 1 ↔ ∃ g ∈ gs, ∃ g' ∈ gs, g ≠ g' := by
  cases gs with
  | nil => simp
  | cons a l =>
    cases l with
    | nil => simp
    | cons b l =>
      refine iff_of_true (by simp) ⟨a, by simp, b, by simp, ?_⟩
      rintro rfl
      simp at h

theorem mem_namedItems {canClash : LItem → Bool} {kernel : List LItem} {gs : List Item} {i : LItem} :
    i ∈ namedItems canClash kernel gs ↔ (i ∈ kernel ∧ ∃ g ∈ gs, BeforeGuard i g) ∧ ∃ j ∈ kernel, canClash j = false ∧ ∃ g ∈ gs, BeforeGuard j g := by
  have hu : ∀ j, j ∈ gs.flatMap (usesOf kernel) ↔ j ∈ kernel ∧ ∃ g ∈ gs, BeforeGuard j g := by
    intro j
    rw [List.mem_flatMap]
    simp only [mem_usesOf]
    constructor
    · rintro ⟨g, h1, h2, h3⟩
      exact ⟨h2, g, h1, h3⟩
    · rintro ⟨h2, g, h1, h3⟩
      exact ⟨g, h1, h2, h3⟩
  unfold namedItems
  dsimp only
  split
  · rename_i hall
    rw [List.all_eq_true] at hall
    refine ⟨fun h => (nomatch h), ?_⟩
    rintro ⟨-, j, h1, h2, h3⟩
    rw [hall j ((hu j).2 ⟨h1, h3⟩)] at h2
    cases h2
  · rename_i hall
    have hex : ∃ j ∈ kernel, canClash j = false ∧ ∃ g ∈ gs, BeforeGuard j g := by
      by_contra hc
      refine hall (List.all_eq_true.2 fun j hj => ?_)
      by_contra hb
      obtain ⟨q1, q2⟩ := (hu j).1 hj
      exact hc ⟨j, q1, by simpa using hb, q2⟩
    rw [List.mem_append, List.mem_filter, List.mem_filter, hu]
    constructor
    · rintro (⟨h, -⟩ | ⟨h, -⟩) <;> exact ⟨h, hex⟩
    · rintro ⟨h, -⟩
      cases hb : canClash i
      · exact .inl ⟨h, rfl⟩
      · exact .inr ⟨h, rfl⟩

theorem clashLoop_cons (canClash : LItem → Bool) (kernel : List LItem) (warned : List Item) (t : Item) (gs : List Item) (l : List (Item × List Item)) :
    clashLoop canClash kernel warned ((t, gs) :: l) =
      if gs.length ≤ 1 then clashLoop canClash kernel warned l
      else if gs.all (decide <| · ∈ warned) then clashLoop canClash kernel warned l
      else (if namedItems canClash kernel gs = [] then [] else [⟨t, namedItems canClash kernel gs⟩]) ++ clashLoop canClash kernel (warned ++ gs) l := by
  rw [clashLoop]
  cases namedItems canClash kernel gs <;> rfl

/-- Only clashes are reported. -/
theorem clashLoop_sound {canClash : LItem → Bool} {kernel : List LItem} {c : Clash} : ∀ {l : List (Item × List Item)} {warned : List Item}, c ∈ clashLoop canClash kernel warned l →
    ∃ gs, (c.token, gs) ∈ l ∧ ¬ gs.length ≤ 1 ∧ c.items = namedItems canClash kernel gs ∧ c.items ≠ []
  | [], _, h => nomatch h
  | (t, gs) :: l, warned, h => by
    rw [clashLoop_cons] at h
    have hrec : ∀ {warned}, c ∈ clashLoop canClash kernel warned l → ∃ gs', (c.token, gs') ∈ (t, gs) :: l ∧ ¬ gs'.length ≤ 1 ∧ c.items = namedItems canClash kernel gs' ∧ c.items ≠ [] := by
      intro warned h
      obtain ⟨gs', h1, h2⟩ := clashLoop_sound h
      exact ⟨gs', List.mem_cons_of_mem _ h1, h2⟩
    split at h
    · exact hrec h
    · rename_i hlen
      split at h
      · exact hrec h
      · rcases List.mem_append.1 h with h | h
        · split at h
          · cases h
          · rename_i hne
            cases List.mem_singleton.1 h
            exact ⟨gs, List.mem_cons_self .., hlen, rfl, hne⟩
        · exact hrec h

/-- Every guard in a clash was either looked at before, or its items are in a report. -/
theorem clashLoop_named {canClash : LItem → Bool} {kernel : List LItem} {t g : Item} {gs : List Item} {i : LItem} (hlen : ¬ gs.length ≤ 1) (hg : g ∈ gs) (hi : i ∈ kernel)
    (hb : BeforeGuard i g) (hc : canClash i = false) : ∀ {l : List (Item × List Item)} {warned : List Item}, (t, gs) ∈ l → g ∈ warned ∨ ∃ c ∈ clashLoop canClash kernel warned l, i ∈ c.items
  | (t', gs') :: l, warned, h => by
    rw [clashLoop_cons]
    have hmem : ∀ {gs' : List Item}, g ∈ gs' → i ∈ namedItems canClash kernel gs' := fun h => mem_namedItems.2 ⟨⟨hi, g, h, hb⟩, i, hi, hc, g, h, hb⟩
    rcases List.mem_cons.1 h with h | h
    · cases h
      rw [if_neg hlen]
      split
      · rename_i hall
        rw [List.all_eq_true] at hall
        exact .inl (of_decide_eq_true (hall g hg))
      · right
        have := hmem hg
        rw [if_neg (fun hn => by rw [hn] at this; cases this)]
        exact ⟨_, List.mem_append_left _ (List.mem_singleton_self _), this⟩
    · split
      · exact clashLoop_named hlen hg hi hb hc h
      · split
        · exact clashLoop_named hlen hg hi hb hc h
        · rcases clashLoop_named hlen hg hi hb hc (warned := warned ++ gs') h with h1 | ⟨c, h1, h2⟩
          · rcases List.mem_append.1 h1 with h1 | h1
            · exact .inl h1
            · have := hmem h1
              right
              rw [if_neg (fun hn => by rw [hn] at this; cases this)]
              exact ⟨_, List.mem_append_left _ (List.mem_singleton_self _), this⟩
          · exact .inr ⟨c, List.mem_append_right _ h1, h2⟩

/-! ### The warnings of a state -/

section
variable {order : List Item → List Item} {canClash : LItem → Bool} {kernel : List LItem} {acts : List LrAction}

/-- **C81**, soundness. A warning is about a token that two guards are looked at for. The items that it names are in the state and before such guards, and there are some that may not clash. -/
theorem warning_sound (ho : Orders order) {c : Clash} (h : c ∈ clashesIn order canClash kernel acts) :
    Clashing acts c.token ∧ (∀ i ∈ c.items, i ∈ kernel ∧ ∃ g, BeforeGuard i g ∧ GuardOn acts c.token g) ∧ ∃ i ∈ c.items, canClash i = false := by
  obtain ⟨gs, h1, h2, h3, h4⟩ := clashLoop_sound h
  obtain ⟨q1, q2, -⟩ := mem_guardsFor ho h1
  obtain ⟨g, hg, g', hg', hne⟩ := (many_iff q2).1 h2
  refine ⟨⟨g, g', hne, (q1 g).1 hg, (q1 g').1 hg'⟩, fun i hi => ?_, ?_⟩
  · rw [h3] at hi
    obtain ⟨⟨r1, g, r2, r3⟩, -⟩ := mem_namedItems.1 hi
    exact ⟨r1, g, r3, (q1 g).1 r2⟩
  · obtain ⟨i, l, hl⟩ := List.exists_cons_of_ne_nil h4
    have hi : i ∈ namedItems canClash kernel gs := by rw [← h3, hl]; exact List.mem_cons_self ..
    obtain ⟨-, j, r1, r2, g, r3, r4⟩ := mem_namedItems.1 hi
    rw [h3]
    exact ⟨j, mem_namedItems.2 ⟨⟨r1, g, r3, r4⟩, j, r1, r2, g, r3, r4⟩, r2⟩

/-- **C81**, completeness (partial: the items of the kernel of a state). Every item before a guard that clashes is named, unless it may clash. -/
theorem warning_named_partial (ho : Orders order) {t g : Item} {i : LItem} (ht : Clashing acts t) (hg : GuardOn acts t g) (hi : i ∈ kernel) (hb : BeforeGuard i g) (hc : canClash i = false) :
    ∃ c ∈ clashesIn order canClash kernel acts, i ∈ c.items := by
  obtain ⟨gs, h1⟩ := guardsFor_there ho hg
  obtain ⟨q1, q2, -⟩ := mem_guardsFor ho h1
  obtain ⟨a, b, hne, ha, hb'⟩ := ht
  rcases clashLoop_named ((many_iff q2).2 ⟨a, (q1 a).2 ha, b, (q1 b).2 hb', hne⟩) ((q1 g).2 hg) hi hb hc h1 (warned := []) with h | h
  · cases h
  · exact h

/-- So a state has warnings just if there is an item in its kernel that may not clash before a guard that does. -/
theorem warning_exact (ho : Orders order) : clashesIn order canClash kernel acts ≠ [] ↔ ∃ t g i, Clashing acts t ∧ GuardOn acts t g ∧ i ∈ kernel ∧ BeforeGuard i g ∧ canClash i = false := by
  constructor
  · intro h
    obtain ⟨c, l, hl⟩ := List.exists_cons_of_ne_nil h
    obtain ⟨h1, h2, i, h3, h4⟩ := warning_sound (c := c) ho (by rw [hl]; exact List.mem_cons_self ..)
    obtain ⟨q1, g, q2, q3⟩ := h2 i h3
    exact ⟨_, g, i, h1, q3, q1, q2, h4⟩
  · rintro ⟨t, g, i, h1, h2, h3, h4, h5⟩ hn
    obtain ⟨c, hc, -⟩ := warning_named_partial ho h1 h2 h3 h4 h5
    rw [hn] at hc
    cases hc

end

/-! ### The automaton -/

section
variable {first initial : Item → List Item} {g : Gram} {okI : Item → Prop} {okR : Rule → Prop} {rid : Rule → Nat} {clos : LItem → List Item → Set1}
  {own : LItem → Set1} {lt : Key → Key → Bool} {languages : List Item} {m m' : Mach} {st : Stage} {states : List (List LrAction)} {num : Numbering}
  {sort : List TableAction → List TableAction} {sortWeak : List (Int × Int) → List (Int × Int)} {occ : Item → Prop}

set_option quotPrecheck false in
local notation "n0" => (Lalr.initials languages).states.length

/-- The automaton has to know in a state whether a guard matches when a token is next: the guard can come next, or after a rule that is reduced, and the token can begin it. -/
def Needs (first initial : Item → List Item) (g : Gram) (m : Mach) (n : Nat) (s : Nat) (t G : Item) : Prop :=
  isTerminal t = true ∧ (∃ p l, G = .guard p l ∧ ∃ k, get (⟨G, l⟩ : Rule) m.guards = some k) ∧ t ∈ initial G ∧
    ((∃ s', tr m s G = some s') ∨ ∃ r : Rule, Lr1c first g m n s (⟨r, r.items.length⟩, some G))

theorem guardOn_iff (h : Made first initial g okI okR rid clos own lt languages m m' st states num sort sortWeak occ) (hb : Bare st) {s : Nat} {acts : List LrAction}
    (hs : states[s]? = some acts) (t G : Item) : GuardOn acts t G ↔ Needs first initial g m n0 s t G := by
  unfold GuardOn Needs
  constructor
  · rintro ⟨ht, a, ha, hty, rfl, rfl⟩
    refine ⟨ht, ?_⟩
    rcases ((h.bare hb hs).2 a).1 ha with ha | ⟨-, ha⟩
    · cases ha with
      | @shift x t h1 =>
        cases x <;> cases hty
      | before h1 hg =>
        obtain ⟨p, l, k, n, rfl, q2, q3, rfl⟩ := hg
        exact ⟨⟨p, l, rfl, k, q2⟩, q3, .inl ⟨_, h1⟩⟩
      | @reduce r b h1 h2 =>
        dsimp only at hty
        cases hn : r.nonterminal <;> rw [hn] at hty <;> cases hty
      | after h1 hg =>
        obtain ⟨p, l, k, n, rfl, q2, q3, rfl⟩ := hg
        exact ⟨⟨p, l, rfl, k, q2⟩, q3, .inr ⟨_, h1⟩⟩
    · rw [ha] at hty
      cases hty
  · rintro ⟨ht, ⟨p, l, rfl, k, hk⟩, hin, hor⟩
    refine ⟨ht, ⟨.guard, t, k, ⟨.guard p l, l⟩⟩, ((h.bare hb hs).2 _).2 (.inl ?_), rfl, rfl, rfl⟩
    have hga : GuardAct initial m (.guard p l) ⟨.guard, t, k, ⟨.guard p l, l⟩⟩ := by
      cases t with
      | terminal n => exact ⟨p, l, k, n, rfl, hk, hin, rfl⟩
      | _ => cases ht
    rcases hor with ⟨s', h1⟩ | ⟨r, h1⟩
    · exact .before h1 hga
    · exact .after h1 hga

/-- **C81** (partial: kernels, no precedences, weak symbols, attributes and LR(1) resolver). The stage warns about a state just if two guards have to be looked at for a token,
and an item of the kernel that may not clash is before one of them. -/
theorem clash_exact_partial (h : Made first initial g okI okR rid clos own lt languages m m' st states num sort sortWeak occ) (hb : Bare st) {order : List Item → List Item} (ho : Orders order)
    {canClash : LItem → Bool} {s : Nat} {acts : List LrAction} (hs : states[s]? = some acts) :
    clashesIn order canClash (kern m s) acts ≠ [] ↔ ∃ t G G' i, G ≠ G' ∧ Needs first initial g m n0 s t G ∧ Needs first initial g m n0 s t G' ∧ i ∈ kern m s ∧ BeforeGuard i G ∧
      canClash i = false := by
  rw [warning_exact ho]
  simp only [← guardOn_iff h hb hs]
  constructor
  · rintro ⟨t, G, i, ⟨a, b, hne, ha, hb'⟩, hG, hi, hbe, hc⟩
    by_cases hGa : G = a
    · subst hGa
      exact ⟨t, G, b, i, hne, hG, hb', hi, hbe, hc⟩
    · exact ⟨t, G, a, i, hGa, hG, ha, hi, hbe, hc⟩
  · rintro ⟨t, G, G', i, hne, h1, h2, hi, hbe, hc⟩
    exact ⟨t, G, i, ⟨G, G', hne, h1, h2⟩, h1, hi, hbe, hc⟩

end
end ParserStage
end TameParse

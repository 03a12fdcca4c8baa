import Verif.ParserStage
import Verif.CompleteGrammarProps
import Verif.ToolProps
import Verif.FilesProps
/-
C80: which conflicts the parser stage reports, how severe they are, and what follows if nothing is reported.

Source: see `ParserStage`.
-/
namespace TameParse
namespace ParserStage
open AssocMap Closure Relation Lalr Tool Sound TameParse.Parser ParserTables

section
variable {first initial : Item → List Item} {g : Gram} {okI : Item → Prop} {okR : Rule → Prop} {rid : Rule → Nat} {clos : LItem → List Item → Set1}
  {own : LItem → Set1} {lt : Key → Key → Bool} {languages : List Item} {m m' : Mach} {st : Stage} {states : List (List LrAction)} {num : Numbering}
  {sort : List TableAction → List TableAction} {sortWeak : List (Int × Int) → List (Int × Int)} {occ : Item → Prop}

set_option quotPrecheck false in
local notation "n0" => (Lalr.initials languages).states.length

/-! ### The items of a conflict -/

/-- The sets of the machine are the LR(1) items of its states. -/
theorem state_exact (h : Made first initial g okI okR rid clos own lt languages m m' st states num sort sortWeak occ) {s : Nat} (hs : s < m.states.length) (e : Elem) :
    In (m'.states.getD s []) e ↔ Lr1 first g m n0 s e := by
  obtain ⟨cf, f, h1⟩ := h.machine
  obtain ⟨f', h2⟩ := h.lookaheads
  obtain ⟨hi, hreach, h0⟩ := completeStates_inv h.ridInj h.univ h.closOk h.starts h1
  obtain ⟨hsame, hk, hla⟩ := lookaheads_exact (lt := lt) h.ridInj h.univ h.closOk h.selfOk h.starts h1 h2
  obtain ⟨i, o⟩ := e
  rw [in_state (by rw [hsame.kern]; exact sorted_nodup (hi.sorted s hs)), hsame.kern, hk s i hs]
  cases o with
  | none => simp
  | some a =>
    constructor
    · rintro ⟨-, h2⟩
      exact (hla s i a).1 (h2 a rfl)
    · intro h2
      refine ⟨lr1_none h2, fun b hb => ?_⟩
      cases hb
      exact (hla s i _).2 h2

theorem kernel_ok (h : Made first initial g okI okR rid clos own lt languages m m' st states num sort sortWeak occ) {s : Nat} (hs : s < m.states.length) :
    ∀ p ∈ m'.states.getD s [], Good okR p.1 := by
  obtain ⟨cf, f, h1⟩ := h.machine
  obtain ⟨f', h2⟩ := h.lookaheads
  obtain ⟨hi, hreach, h0⟩ := completeStates_inv h.ridInj h.univ h.closOk h.starts h1
  obtain ⟨hsame, hk, hla⟩ := lookaheads_exact (lt := lt) h.ridInj h.univ h.closOk h.selfOk h.starts h1 h2
  intro p hp
  have : p.1 ∈ kern m' s := List.mem_map.2 ⟨p, hp, rfl⟩
  rw [hsame.kern] at this
  exact hi.good s hs _ this

/-- `generate_closure` makes the LR(1) items of the closure of a state. -/
theorem closure_exact (h : Made first initial g okI okR rid clos own lt languages m m' st states num sort sortWeak occ) {s : Nat} (hs : s < m.states.length) {fuel : Nat} {c : Set1}
    (hc : generateClosure clos fuel (m'.states.getD s []) = some c) (e : Elem) : In c e ↔ Lr1c first g m n0 s e := by
  rw [generateClosure_exact h.univ.proper h.closOk (fun p hp => h.univ.items _ (kernel_ok h hs p hp).1) hc e]
  unfold Lr1c
  simp only [state_exact h hs]

theorem mem_fst {c : Set1} {i : LItem} : i ∈ c.map Prod.fst ↔ In c (i, none) := by
  constructor
  · intro h
    obtain ⟨⟨j, la⟩, h1, rfl⟩ := List.mem_map.1 h
    exact ⟨la, h1, by simp⟩
  · rintro ⟨la, h1, -⟩
    exact List.mem_map.2 ⟨_, h1, rfl⟩

theorem shifting_iff {t : Item} {i : LItem} : shifting first t i = true ↔ ∃ x, i.rule.items[i.dot]? = some x ∧ t ∈ first x := by
  unfold shifting
  cases i.rule.items[i.dot]? <;> simp

/-- The items that count as shifting a token: those before an item that has the token in its FIRST set. -/
theorem shiftItems_exact (h : Made first initial g okI okR rid clos own lt languages m m' st states num sort sortWeak occ) {s : Nat} (hs : s < m.states.length) {fuel : Nat} {c : Set1}
    (hc : generateClosure clos fuel (m'.states.getD s []) = some c) (t : Item) (i : LItem) :
    i ∈ shiftItems first c t ↔ Lr1c first g m n0 s (i, none) ∧ ∃ x, i.rule.items[i.dot]? = some x ∧ t ∈ first x := by
  unfold shiftItems
  rw [List.mem_filter, mem_fst, closure_exact h hs hc, shifting_iff]

theorem mem_reduceOf {t : Item} {p : LItem × List Item} {i : LItem} :
    i ∈ reduceOf clos t p ↔ i.rule.items.length ≤ i.dot ∧ ((p.1.rule.items.length ≤ p.1.dot ∧ i = p.1 ∧ t ∈ p.2) ∨ (p.1.dot < p.1.rule.items.length ∧ In (clos p.1 p.2) (i, some t))) := by
  unfold reduceOf atEnd
  simp only [decide_eq_true_eq]
  split
  · rename_i hd
    split
    · rename_i ht
      rw [List.mem_singleton]
      constructor
      · rintro rfl
        exact ⟨hd, .inl ⟨hd, rfl, ht⟩⟩
      · rintro ⟨-, ⟨-, h, -⟩ | ⟨h, -⟩⟩
        · exact h
        · omega
    · rename_i ht
      constructor
      · intro h
        cases h
      · rintro ⟨-, ⟨-, -, h⟩ | ⟨h, -⟩⟩
        · exact absurd h ht
        · omega
  · rename_i hd
    rw [List.mem_map]
    constructor
    · rintro ⟨⟨j, la⟩, h1, rfl⟩
      rw [List.mem_filter] at h1
      simp only [Bool.and_eq_true, decide_eq_true_eq] at h1
      exact ⟨h1.2.1, .inr ⟨by omega, la, h1.1, fun a ha => by cases ha; exact h1.2.2⟩⟩
    · rintro ⟨h1, ⟨h2, -⟩ | ⟨-, la, h3, h4⟩⟩
      · omega
      · refine ⟨(i, la), List.mem_filter.2 ⟨h3, ?_⟩, rfl⟩
        simp only [Bool.and_eq_true, decide_eq_true_eq]
        exact ⟨h1, h4 t rfl⟩

/-- The items that count as reduced before a token are those that the automaton reduces. -/
theorem reduceItems_exact (h : Made first initial g okI okR rid clos own lt languages m m' st states num sort sortWeak occ) {s : Nat} (hs : s < m.states.length) (t : Item) (i : LItem) :
    i ∈ reduceItems clos (m'.states.getD s []) t ↔ i.rule.items.length ≤ i.dot ∧ Lr1c first g m n0 s (i, some t) := by
  unfold reduceItems
  rw [Rewriters.mem_foldl_add, List.mem_flatMap]
  simp only [List.not_mem_nil, false_or]
  constructor
  · rintro ⟨p, hp, hi⟩
    obtain ⟨hd, hi⟩ := mem_reduceOf.1 hi
    refine ⟨hd, ?_⟩
    rcases hi with ⟨-, rfl, ht⟩ | ⟨hlt, hin⟩
    · exact ⟨_, (state_exact h hs _).1 ⟨p.2, hp, fun a ha => by cases ha; exact ht⟩, .refl⟩
    · obtain ⟨e0, ho, hg⟩ := (h.closOk p.1 p.2 hlt (h.univ.items _ (kernel_ok h hs p hp).1) _).1 hin
      exact ⟨e0, (state_exact h hs _).1 (in_of hp ho), hg.to_reflTransGen⟩
  · rintro ⟨hd, e0, h1, h2⟩
    obtain ⟨la, h3, h4⟩ := (state_exact h hs e0).2 h1
    refine ⟨(e0.1, la), h3, mem_reduceOf.2 ⟨hd, ?_⟩⟩
    rcases reflTransGen_iff_eq_or_transGen.1 h2 with h2 | h2
    · cases h2
      exact .inl ⟨hd, rfl, h4 t rfl⟩
    · right
      have hlt : e0.1.dot < e0.1.rule.items.length := by
        obtain ⟨e1, hg, -⟩ := TransGen.head'_iff.1 h2
        by_contra hc
        exact no_gen (.inl (List.getElem?_eq_none (by omega))) hg
      exact ⟨hlt, (h.closOk e0.1 la hlt (h.univ.items _ (kernel_ok h hs _ h3).1) _).2 ⟨e0, ⟨rfl, h4⟩, h2⟩⟩

/-! ### The actions have no duplicates -/

theorem nodup_foldl {α β : Type} {f : List α → β → List α} (hf : ∀ l b, l.Nodup → (f l b).Nodup) : ∀ (bs : List β) (l : List α), l.Nodup → (bs.foldl f l).Nodup
  | [], _, h => h
  | b :: bs, l, h => nodup_foldl hf bs _ (hf l b h)

theorem guards_nodup (initial : Item → List Item) (m : Mach) (x : Item) (acts : List LrAction) (h : acts.Nodup) : (addGuardActions initial m x acts).Nodup := by
  unfold addGuardActions
  split
  · split
    · exact h
    · exact nodup_foldl (fun l b hl => Rewriters.nodup_add l _ hl) _ _ h
  · exact h

theorem actionsFor_nodup (initial : Item → List Item) (m : Mach) (transits : List (Item × Nat)) (closure : Set1) : (actionsFor initial m transits closure).Nodup := by
  unfold actionsFor
  refine nodup_foldl (fun l b hl => ?_) _ _ (nodup_foldl (fun l b hl => Rewriters.nodup_add l _ hl) _ _ (nodup_foldl (fun l b hl => guards_nodup initial m _ l hl) _ _ List.nodup_nil))
  unfold reduceActions
  split
  · exact nodup_foldl (fun l b hl => Rewriters.nodup_add _ _ (guards_nodup initial m _ l hl)) _ _ hl
  · exact hl

theorem ignored_nodup (ignored : List Item) (state : Int) (acts : List LrAction) : (Rewriters.rewriteIgnored ignored state acts).Nodup := by
  unfold Rewriters.rewriteIgnored
  have h1 : ∀ (acts : List LrAction) (p : List LrAction × List Item), p.1.Nodup → (acts.foldl (Rewriters.ignoreStep ignored) p).1.Nodup := by
    intro acts
    induction acts with
    | nil => exact fun _ h => h
    | cons a acts ih =>
      intro p hp
      rw [List.foldl_cons]
      refine ih _ ?_
      unfold Rewriters.ignoreStep
      split
      · split <;> exact Rewriters.nodup_add _ _ hp
      · exact Rewriters.nodup_add _ _ hp
      · exact Rewriters.nodup_add _ _ hp
      · exact Rewriters.nodup_add _ _ hp
  refine nodup_foldl (fun l b hl => ?_) _ _ (h1 acts _ List.nodup_nil)
  split
  · exact hl
  · exact Rewriters.nodup_add _ _ hl

theorem states_nodup (h : Made first initial g okI okR rid clos own lt languages m m' st states num sort sortWeak occ) {s : Nat} {acts : List LrAction}
    (hs : states[s]? = some acts) : acts.Nodup := by
  have hlt : s < m.states.length := by
    rw [← h.length]
    exact (List.getElem?_eq_some_iff.1 hs).1
  obtain ⟨_, a, -, h2⟩ := h.actions s hlt
  cases hs.symm.trans h2
  exact ignored_nodup _ _ _

/-! ### Which conflicts there are -/

/-- The tokens that can be read: terminals and the two ends of input. -/
def isToken (t : Item) : Prop := isTerminal t = true ∨ t = .eoi ∨ t = .eog

/-- The automaton can shift a token. -/
def Shifts (m : Mach) (s : Nat) (t : Item) : Prop := ∃ s', tr m s t = some s'

/-- The automaton can reduce a rule before a token. -/
def Reduces (first : Item → List Item) (g : Gram) (m : Mach) (n : Nat) (s : Nat) (t : Item) (r : Rule) : Prop :=
  Lr1c first g m n s (⟨r, r.items.length⟩, some t) ∧ r.nonterminal ≠ .empty ∧ ∀ p l, r.nonterminal ≠ .guard p l

/-- A conflict of the automaton: a token that it can shift and reduce at, or that two rules can be reduced at. -/
inductive Torn (first : Item → List Item) (g : Gram) (m : Mach) (n : Nat) (s : Nat) (t : Item) : Prop
  | shift {r : Rule} : isToken t → Shifts m s t → Reduces first g m n s t r → Torn first g m n s t
  | reduce {r r' : Rule} : isToken t → Reduces first g m n s t r → Reduces first g m n s t r' → r ≠ r' → Torn first g m n s t

theorem Torn.reduces {n s : Nat} {t : Item} (h : Torn first g m n s t) : ∃ r, Reduces first g m n s t r := by
  cases h with
  | shift _ _ h => exact ⟨_, h⟩
  | reduce _ h => exact ⟨_, h⟩

theorem reduceType_iff (x : Item) : reduceType x = .reduce ↔ x ≠ .empty ∧ ∀ p l, x ≠ .guard p l := by
  cases x <;> simp [reduceType]

theorem mem_conflictsIn {s : Nat} {state closure : Set1} {acts : List LrAction} {c : Conflict} :
    c ∈ conflictsIn first clos s state closure acts ↔ c = ⟨s, c.token, shiftItems first closure c.token, reduceItems clos state c.token⟩ ∧
      c.token ∈ Rewriters.findConflicts (fun t => !((shiftItems first closure t).isEmpty && (reduceItems clos state t).isEmpty)) acts := by
  unfold conflictsIn
  rw [List.mem_map]
  constructor
  · rintro ⟨t, h, rfl⟩
    exact ⟨rfl, h⟩
  · rintro ⟨h1, h2⟩
    exact ⟨_, h2, h1.symm⟩

theorem mapM_mem {α β : Type} {f : α → Option β} : ∀ {l : List α} {r : List β}, l.mapM f = some r → ∀ y, y ∈ r ↔ ∃ x ∈ l, f x = some y := by
  intro l r h y
  have := (Files.mapM_some _ _ _).1 h
  clear h
  induction this with
  | nil => simp
  | @cons a b l r hab _ ih =>
    refine List.mem_cons.trans ((or_congr_right ih).trans ?_)
    constructor
    · rintro (rfl | ⟨x, h1, h2⟩)
      · exact ⟨a, List.mem_cons_self .., hab⟩
      · exact ⟨x, List.mem_cons_of_mem _ h1, h2⟩
    · rintro ⟨x, h1, h2⟩
      rcases List.mem_cons.1 h1 with rfl | h1
      · exact .inl (Option.some.inj (h2.symm.trans hab))
      · exact .inr ⟨x, h1, h2⟩

theorem mapM_all {α β : Type} {f : α → Option β} {l : List α} {r : List β} (h : l.mapM f = some r) {x : α} (hx : x ∈ l) : ∃ y, f x = some y := by
  have := (Files.mapM_some _ _ _).1 h
  clear h
  induction this with
  | nil => cases hx
  | @cons a b l r hab _ ih =>
    rcases List.mem_cons.1 hx with rfl | hx
    · exact ⟨b, hab⟩
    · exact ih hx

theorem mem_allConflicts {fuel : Nat} {cs : List Conflict} (h : allConflicts first clos fuel m' states = some cs) (c : Conflict) :
    c ∈ cs ↔ ∃ s acts closure, states[s]? = some acts ∧ generateClosure clos fuel (m'.states.getD s []) = some closure ∧ c ∈ conflictsIn first clos s (m'.states.getD s []) closure acts := by
  unfold allConflicts at h
  obtain ⟨css, hm, rfl⟩ := Option.map_eq_some_iff.1 h
  rw [List.mem_flatten]
  constructor
  · rintro ⟨l, hl, hc⟩
    obtain ⟨s, hs, h2⟩ := (mapM_mem hm l).1 hl
    obtain ⟨closure, h3, rfl⟩ := Option.map_eq_some_iff.1 h2
    have hlt := List.mem_range.1 hs
    refine ⟨s, states[s], closure, List.getElem?_eq_getElem hlt, h3, ?_⟩
    rw [List.getD_eq_getElem?_getD, List.getD_eq_getElem?_getD, List.getElem?_eq_getElem hlt] at hc
    rw [List.getD_eq_getElem?_getD]
    exact hc
  · rintro ⟨s, acts, closure, hs, h3, hc⟩
    have hlt := (List.getElem?_eq_some_iff.1 hs).1
    refine ⟨_, (mapM_mem hm _).2 ⟨s, List.mem_range.2 hlt, Option.map_eq_some_iff.2 ⟨closure, h3, rfl⟩⟩, ?_⟩
    rw [List.getD_eq_getElem?_getD (l := states), hs]
    exact hc

theorem closure_there {fuel : Nat} {cs : List Conflict} (h : allConflicts first clos fuel m' states = some cs) {s : Nat} {acts : List LrAction} (hs : states[s]? = some acts) :
    ∃ closure, generateClosure clos fuel (m'.states.getD s []) = some closure := by
  unfold allConflicts at h
  obtain ⟨css, hm, rfl⟩ := Option.map_eq_some_iff.1 h
  obtain ⟨y, hy⟩ := mapM_all hm (List.mem_range.2 (List.getElem?_eq_some_iff.1 hs).1)
  obtain ⟨c, hc, -⟩ := Option.map_eq_some_iff.1 hy
  exact ⟨c, hc⟩

/-- The actions that can be in conflict, for grammars without guards and rewriters. -/
theorem strong_action (h : Made first initial g okI okR rid clos own lt languages m m' st states num sort sortWeak occ) (hb : Bare st) (hg : Plain g okI) {s : Nat} {acts : List LrAction}
    (hs : states[s]? = some acts) (a : LrAction) : a ∈ acts ∧ Rewriters.strongType a.type = true ↔ isToken a.item ∧
      ((∃ s', tr m s a.item = some s' ∧ a = ⟨.shift, a.item, s', Rewriters.emptyRule⟩) ∨ (Reduces first g m n0 s a.item a.rule ∧ a = ⟨.reduce, a.item, -1, a.rule⟩)) := by
  obtain ⟨_, _, hm⟩ := h.machine
  obtain ⟨_, hm'⟩ := h.lookaheads
  obtain ⟨hi, -, -⟩ := completeStates_inv h.ridInj h.univ h.closOk h.starts hm
  obtain ⟨-, -, -, -, h5, h6, -⟩ := lr0_states_exact h.ridInj h.univ h.closOk h.starts hm
  have htr : ∀ s x s', tr m s x = some s' → okI x := by
    intro s x s' ht
    have hs := (h6 s x s' ht).1
    obtain ⟨-, i, hci, hx⟩ := (h5 s hs x).1 ⟨s', ht⟩
    exact h.univ.items i.rule (clos0_good h.univ (hi.good s hs) hci).1 x (List.mem_of_getElem? hx)
  have hlook : ∀ s e, Lr1c first g m n0 s e → ∀ a, e.2 = some a → Sym okI a := fun s e he =>
    (lr1_sym (lt := lt) h.ridInj h.univ h.closOk h.selfOk h.firsts h.starts hm hm' (h.inRange he) he).2
  rw [(h.bare hb hs).2 a]
  constructor
  · rintro ⟨ha | ⟨-, ha⟩, hty⟩
    · obtain ⟨-, -, hng⟩ := act_types (initial := initial) hg hlook htr h.noEoi ha
      cases ha with
      | before _ hga => obtain ⟨p, l, k, n, -, -, -, h4⟩ := hga; rw [h4] at hng; exact absurd rfl hng
      | after _ hga => obtain ⟨p, l, k, n, -, -, -, h4⟩ := hga; rw [h4] at hng; exact absurd rfl hng
      | @shift x t ht =>
        dsimp only at hty ⊢
        cases x with
        | terminal n => exact ⟨.inl rfl, .inl ⟨t, ht, rfl⟩⟩
        | guard p l => exact absurd (htr _ _ _ ht) (hg.noGuard p l)
        | _ => cases hty
      | @reduce r b he hb =>
        dsimp only at hty ⊢
        have hr : reduceType r.nonterminal = .reduce := by
          cases hn : r.nonterminal <;> rw [hn] at hty <;> first | rfl | cases hty
        refine ⟨?_, .inr ⟨⟨he, (reduceType_iff _).1 hr⟩, by rw [hr]⟩⟩
        rcases hlook _ _ he b rfl with h1 | h1 | h1
        · cases b with
          | terminal n => exact .inl rfl
          | guard p l => exact absurd h1 (hg.noGuard p l)
          | eoi => exact .inr (.inl rfl)
          | eog => exact .inr (.inr rfl)
          | _ => cases hb
        · exact .inr (.inl h1)
        · exact .inr (.inr h1)
    · rw [ha] at hty
      cases hty
  · rintro ⟨htk, ⟨s', h1, h2⟩ | ⟨⟨h1, h3, h4⟩, h2⟩⟩
    · refine ⟨.inl ?_, by rw [h2]; rfl⟩
      have hterm : isTerminal a.item = true := by
        rcases htk with hk | hk | hk
        · exact hk
        · exact absurd (hk ▸ htr _ _ _ h1) h.noEoi
        · exact absurd (hk ▸ htr _ _ _ h1) h.noEog
      have : Act first g initial m n0 s _ := .shift h1
      rw [h2]
      have hty : shiftType a.item = .shift := by
        cases hx : a.item <;> rw [hx] at hterm <;> first | rfl | cases hterm
      rw [hty] at this
      exact this
    · refine ⟨.inl ?_, by rw [h2]; rfl⟩
      have hsym : reduceSymbol a.item = true := by
        rcases htk with hk | hk | hk
        · cases hx : a.item <;> rw [hx] at hk <;> first | rfl | cases hk
        · rw [hk]; rfl
        · rw [hk]; rfl
      have : Act first g initial m n0 s _ := .reduce h1 hsym
      rw [(reduceType_iff _).2 ⟨h3, h4⟩] at this
      rw [h2]
      exact this

/-- Two actions for a token that can be in conflict tear it. -/
theorem torn_of_actions (h : Made first initial g okI okR rid clos own lt languages m m' st states num sort sortWeak occ) (hb : Bare st) (hg : Plain g okI) {s : Nat} {acts : List LrAction}
    (hs : states[s]? = some acts) {a b : LrAction} {t : Item} (ha : a ∈ acts) (hb' : b ∈ acts) (hab : a ≠ b) (hai : a.item = t) (hbi : b.item = t)
    (hat : Rewriters.strongType a.type = true) (hbt : Rewriters.strongType b.type = true) : Torn first g m n0 s t := by
  obtain ⟨htk, ha2⟩ := (strong_action h hb hg hs a).1 ⟨ha, hat⟩
  obtain ⟨-, hb2⟩ := (strong_action h hb hg hs b).1 ⟨hb', hbt⟩
  rw [hai] at htk ha2
  rw [hbi] at hb2
  rcases ha2 with ⟨s1, q1, q2⟩ | ⟨q1, q2⟩
  · rcases hb2 with ⟨s2, r1, r2⟩ | ⟨r1, r2⟩
    · rw [q1] at r1
      cases r1
      exact absurd (q2.trans r2.symm) hab
    · exact .shift htk ⟨_, q1⟩ r1
  · rcases hb2 with ⟨s2, r1, r2⟩ | ⟨r1, r2⟩
    · exact .shift htk ⟨_, r1⟩ q1
    · refine .reduce htk q1 r1 fun he => hab ?_
      rw [q2, r2, he]

/-- **C80**, which conflicts (partial: no guards, precedences, weak symbols, attributes and LR(1) resolver). The conflicts that are found are just those of the LALR automaton. -/
theorem conflicts_exact_partial (h : Made first initial g okI okR rid clos own lt languages m m' st states num sort sortWeak occ) (hb : Bare st) (hg : Plain g okI) {fuel : Nat}
    {cs : List Conflict} (hc : allConflicts first clos fuel m' states = some cs) (s : Nat) (t : Item) :
    (∃ c ∈ cs, c.state = s ∧ c.token = t) ↔ s < m.states.length ∧ Torn first g m n0 s t := by
  have hred : ∀ {s : Nat} {r : Rule}, s < m.states.length → Reduces first g m n0 s t r → (reduceItems clos (m'.states.getD s []) t).isEmpty = false := by
    intro s r hs hr
    have := (reduceItems_exact h hs t ⟨r, r.items.length⟩).2 ⟨Nat.le_refl _, hr.1⟩
    cases hl : reduceItems clos (m'.states.getD s []) t with
    | nil => rw [hl] at this; cases this
    | cons => rfl
  constructor
  · rintro ⟨c, hcm, rfl, rfl⟩
    obtain ⟨s, acts, closure, hs, hcl, hin⟩ := (mem_allConflicts hc c).1 hcm
    obtain ⟨h1, h2⟩ := mem_conflictsIn.1 hin
    have hst : c.state = s := by rw [h1]
    rw [hst]
    refine ⟨(h.bare hb hs).1, ?_⟩
    obtain ⟨⟨a, b, ha, hb', hab, hai, hbi, hat, hbt⟩, -⟩ := (Rewriters.conflicts_reported_partial _ _ (states_nodup h hs) _).1 h2
    exact torn_of_actions h hb hg hs ha hb' hab hai hbi hat hbt
  · rintro ⟨hs, ht⟩
    have hlt : s < states.length := h.length ▸ hs
    obtain ⟨acts, hacts⟩ : ∃ acts, states[s]? = some acts := ⟨_, List.getElem?_eq_getElem hlt⟩
    obtain ⟨closure, hcl⟩ := closure_there hc hacts
    obtain ⟨r0, hr0⟩ := ht.reduces
    have hin : t ∈ Rewriters.findConflicts (fun t => !((shiftItems first closure t).isEmpty && (reduceItems clos (m'.states.getD s []) t).isEmpty)) acts := by
      refine (Rewriters.conflicts_reported_partial _ _ (states_nodup h hacts) _).2 ⟨?_, by rw [hred hs hr0, Bool.and_false]; rfl⟩
      have hshift : ∀ {s'}, isToken t → tr m s t = some s' → (⟨.shift, t, s', Rewriters.emptyRule⟩ : LrAction) ∈ acts := fun htk h' =>
        ((strong_action h hb hg hacts ⟨.shift, t, _, Rewriters.emptyRule⟩).2 ⟨htk, .inl ⟨_, h', rfl⟩⟩).1
      have hreduce : ∀ {r}, isToken t → Reduces first g m n0 s t r → (⟨.reduce, t, -1, r⟩ : LrAction) ∈ acts := fun htk h' =>
        ((strong_action h hb hg hacts ⟨.reduce, t, -1, _⟩).2 ⟨htk, .inr ⟨h', rfl⟩⟩).1
      cases ht with
      | @shift r htk h1 h2 =>
        obtain ⟨s', h1⟩ := h1
        exact ⟨_, _, hshift htk h1, hreduce htk h2, (fun he => by cases he), rfl, rfl, rfl, rfl⟩
      | @reduce r r' htk h1 h2 hne =>
        exact ⟨_, _, hreduce htk h1, hreduce htk h2, (fun he => hne (LrAction.mk.inj he).2.2.2), rfl, rfl, rfl, rfl⟩
    exact ⟨⟨s, t, shiftItems first closure t, reduceItems clos (m'.states.getD s []) t⟩, (mem_allConflicts hc _).2 ⟨s, acts, closure, hacts, hcl, mem_conflictsIn.2 ⟨rfl, hin⟩⟩, rfl, rfl⟩

/-! ### Which kind a conflict has -/

/-- No rule begins with something that can be empty. -/
def Headed (g : Gram) (okI : Item → Prop) : Prop := ∀ x, okI x → ∀ y l, y :: l ∈ g.prods x → ¬ g.Nullable y

/-- An item of the closure of a state is before a symbol. -/
def Before (g : Gram) (kernel : List LItem) (z : Item) : Prop := ∃ j, Clos0 g kernel j ∧ j.rule.items[j.dot]? = some z

theorem before_rule {kernel : List LItem} {z y : Item} {l : List Item} (h : Before g kernel z) (hr : y :: l ∈ closRules g z) : Before g kernel y := by
  obtain ⟨j, ⟨i, hi, hs⟩, hx⟩ := h
  exact ⟨⟨⟨z, y :: l⟩, 0⟩, ⟨i, hi, hs.tail ⟨z, _, hx, hr, rfl⟩⟩, rfl⟩

/-- If no rule begins with something empty, the items before a symbol lead to one before each token that the symbol begins with. -/
theorem before_begins (hg : Plain g okI) (hh : Headed g okI) {kernel : List LItem} {t : Item} (ht : isTerminal t = true) {x : Item} (h : g.Begins t x) (hx : okI x) :
    (Before g kernel x → Before g kernel t) ∧ ∀ z, Before g kernel z → (∀ r ∈ flattenItem x, r ∈ closRules g z) → Before g kernel t := by
  induction h with
  | leaf _ =>
    refine ⟨id, fun z hz hr => before_rule (l := []) hz (hr _ ?_)⟩
    cases t with
    | terminal n => exact List.mem_singleton_self _
    | _ => cases ht
  | @prod x pre y post hr hpre _ ih =>
    have hpre0 : pre = [] := by
      cases pre with
      | nil => rfl
      | cons z pre => exact absurd (hpre z (List.mem_cons_self ..)) (hh x hx z _ hr)
    subst hpre0
    have hy := hg.prods x hx _ hr y (List.mem_cons_self ..)
    obtain ⟨ih1, ih2⟩ := ih hy
    by_cases halt : ∃ rs, x = .ebnf .alternative rs
    · obtain ⟨rs, rfl⟩ := halt
      have hr : y :: post ∈ rs := hr
      have key : ∀ z, Before g kernel z → (∀ r ∈ flattenRules rs, r ∈ closRules g z) → Before g kernel t := by
        intro z hz hsub
        cases post with
        | nil => exact ih2 z hz fun r h => hsub r (flattenRules_mem hr h)
        | cons p post => exact ih1 (before_rule hz (hsub _ (flattenRules_mem hr (List.mem_singleton_self _))))
      exact ⟨fun hz => key _ hz fun r h => h, fun z hz hsub => key z hz fun r h => hsub r h⟩
    · have hcl : y :: post ∈ closRules g x := by
        cases x with
        | ebnf k rs =>
          cases k with
          | alternative => exact absurd ⟨rs, rfl⟩ halt
          | _ => exact hr
        | nonterminal n => exact hr
        | empty => exact absurd hx hg.noEmpty
        | _ => cases hr
      have key : Before g kernel x → Before g kernel t := fun hz => ih1 (before_rule hz hcl)
      refine ⟨key, fun z hz hsub => key (before_rule (l := []) hz (hsub _ ?_))⟩
      cases x with
      | ebnf k rs =>
        cases k with
        | alternative => exact absurd ⟨rs, rfl⟩ halt
        | _ => exact List.mem_singleton_self _
      | _ => exact List.mem_singleton_self _

/-- The items of the LR(0) closure are those of the LR(1) closure. -/
theorem lr1c_of_clos0 (h : Made first initial g okI okR rid clos own lt languages m m' st states num sort sortWeak occ) {s : Nat} (hs : s < m.states.length) {j : LItem}
    (hj : Clos0 g (kern m s) j) : Lr1c first g m n0 s (j, none) := by
  obtain ⟨_, _, h1⟩ := h.machine
  obtain ⟨_, h2⟩ := h.lookaheads
  obtain ⟨-, hk, -⟩ := lookaheads_exact (lt := lt) h.ridInj h.univ h.closOk h.selfOk h.starts h1 h2
  obtain ⟨i, hi, hp⟩ := hj
  have h0 := (hk s i hs).1 hi
  induction hp with
  | refl => exact ⟨_, h0, .refl⟩
  | tail _ hst ih =>
    obtain ⟨x, r, hx, hr, rfl⟩ := hst
    obtain ⟨e0, q1, q2⟩ := ih
    exact ⟨e0, q1, q2.tail (.item hx hr)⟩

/-- **C80**, the kind of a conflict (partial: as `conflicts_exact_partial`, and no rule begins with something that can be empty). A conflict has items to shift just if the
automaton shifts the token. It always has items to reduce. -/
theorem kind_partial (h : Made first initial g okI okR rid clos own lt languages m m' st states num sort sortWeak occ) (hb : Bare st) (hg : Plain g okI)
    (hf : ∀ x, okI x → g.FirstSound x (first x)) (hf' : ∀ x, okI x → g.FirstComplete x (first x)) (hh : Headed g okI) {fuel : Nat} {cs : List Conflict}
    (hc : allConflicts first clos fuel m' states = some cs) {c : Conflict} (hm : c ∈ cs) : (c.shifts ≠ [] ↔ Shifts m c.state c.token) ∧ c.reduces ≠ [] := by
  obtain ⟨_, _, hmach⟩ := h.machine
  obtain ⟨_, hlook⟩ := h.lookaheads
  obtain ⟨hi, -, -⟩ := completeStates_inv h.ridInj h.univ h.closOk h.starts hmach
  obtain ⟨-, -, -, -, h5, h6, -⟩ := lr0_states_exact h.ridInj h.univ h.closOk h.starts hmach
  obtain ⟨hs, ht⟩ := (conflicts_exact_partial h hb hg hc c.state c.token).1 ⟨c, hm, rfl, rfl⟩
  obtain ⟨s, acts, closure, hacts, hcl, hin⟩ := (mem_allConflicts hc c).1 hm
  obtain ⟨h1, -⟩ := mem_conflictsIn.1 hin
  have hst : c.state = s := by rw [h1]
  have hsh : c.shifts = shiftItems first closure c.token := by rw [h1]
  have hre : c.reduces = reduceItems clos (m'.states.getD s []) c.token := by rw [h1]
  rw [hst] at hs ht ⊢
  generalize c.token = t at *
  have htok : isToken t := by
    cases ht with
    | shift h => exact h
    | reduce h => exact h
  have hokOf : ∀ {j : LItem} {x : Item}, Clos0 g (kern m s) j → j.rule.items[j.dot]? = some x → okI x := fun hj hx =>
    h.univ.items _ (clos0_good h.univ (hi.good s hs) hj).1 _ (List.mem_of_getElem? hx)
  constructor
  · rw [hsh]
    constructor
    · intro hne
      obtain ⟨i, l, hl⟩ := List.exists_cons_of_ne_nil hne
      have hmem : i ∈ shiftItems first closure t := by rw [hl]; exact List.mem_cons_self ..
      obtain ⟨q1, x, q2, q3⟩ := (shiftItems_exact h hs hcl t i).1 hmem
      have hj := (h.clos0 q1).1
      have hx := hokOf hj q2
      have hterm : isTerminal t = true := by
        rcases htok with hk | hk | hk
        · exact hk
        · rcases h.firsts x hx _ q3 with q | q
          · exact absurd (hk ▸ q) h.noEoi
          · rw [hk] at q; cases q
        · rcases h.firsts x hx _ q3 with q | q
          · exact absurd (hk ▸ q) h.noEog
          · rw [hk] at q; cases q
      have hleaf : Gram.isLeaf t = true := by
        cases t with
        | terminal n => rfl
        | _ => cases hterm
      have hbeg := ((Gram.firstSound_iff x (first x)).1 (hf x hx)).1 t q3 hleaf
      obtain ⟨j, hj', hx'⟩ := (before_begins hg hh hterm hbeg hx).1 ⟨i, hj, q2⟩
      refine (h5 s hs t).2 ⟨?_, j, hj', hx'⟩
      rintro rfl
      cases hterm
    · intro hsft
      obtain ⟨-, j, hj, hx⟩ := (h5 s hs t).1 hsft
      have hok := hokOf hj hx
      have hleaf : Gram.isLeaf t = true := by
        rcases htok with hk | hk | hk
        · cases t with
          | terminal n => rfl
          | _ => cases hk
        · rw [hk]; rfl
        · rw [hk]; rfl
      have hmem := (shiftItems_exact h hs hcl t j).2 ⟨lr1c_of_clos0 h hs hj, t, hx, ((Gram.firstComplete_iff t (first t)).1 (hf' t hok)).1 t hleaf (.leaf hleaf)⟩
      intro hnil
      rw [hnil] at hmem
      cases hmem
  · obtain ⟨r, hr⟩ := ht.reduces
    rw [hre]
    intro hnil
    have := (reduceItems_exact h hs t ⟨r, r.items.length⟩).2 ⟨Nat.le_refl _, hr.1⟩
    rw [hnil] at this
    cases this

/-! ### Which reports there are -/

theorem loud_cons {r : Report} {l : List Report} : Loud (r :: l) ↔ Severe r ∨ Loud l := by
  unfold Loud
  simp

theorem loud_flatMap {α : Type} {f : α → List Report} {l : List α} : Loud (l.flatMap f) ↔ ∃ x ∈ l, Loud (f x) := by
  unfold Loud
  constructor
  · rintro ⟨r, h, hs⟩
    obtain ⟨x, hx, hr⟩ := List.mem_flatMap.1 h
    exact ⟨x, hx, r, hr, hs⟩
  · rintro ⟨x, hx, r, hr, hs⟩
    exact ⟨r, List.mem_flatMap.2 ⟨x, hx, hr⟩, hs⟩

theorem mild_details {l : List Report} (h : ∀ r ∈ l, r.sev = .detail) : ¬ Loud l := by
  rintro ⟨r, hr, hs⟩
  have := h r hr
  rcases hs with hs | hs | hs <;> rw [hs] at this <;> cases this

theorem context_mild (o : Options) (contexts : LItem → Nat) (i : LItem) : ∀ r ∈ contextReports o contexts i, r.sev = .detail := by
  intro r hr
  unfold contextReports at hr
  split at hr
  · rw [(List.mem_replicate.1 hr).2]
  · cases hr

/-- The reports for a conflict are an error just if conflicts are not allowed, or if nothing is shifted and such conflicts are not allowed (or if nothing is reduced). -/
theorem conflict_loud (o : Options) (contexts : LItem → Nat) (c : Conflict) :
    Loud (conflictReports o contexts c) ↔ c.reduces = [] ∨ o.noConflicts = true ∨ (c.shifts = [] ∧ o.allowReduce = false) := by
  obtain ⟨s, t, sh, re⟩ := c
  unfold conflictReports
  have hsh : Loud (shiftReports o sh) ↔ sh ≠ [] ∧ o.noConflicts = true := by
    cases sh with
    | nil => simp [shiftReports, loud_nil]
    | cons i l =>
      unfold shiftReports
      rw [loud_cons]
      have h1 : ¬ Loud (if o.details = true then l.map fun _ => (⟨.detail, "CONFLICT_SHIFT_REDUCE"⟩ : Report) else []) := by
        refine mild_details fun r hr => ?_
        split at hr
        · obtain ⟨_, -, rfl⟩ := List.mem_map.1 hr
          rfl
        · cases hr
      have h2 : Severe ⟨o.shiftSev, "CONFLICT_SHIFT_REDUCE"⟩ ↔ o.noConflicts = true := by
        unfold Options.shiftSev Severe
        cases o.noConflicts <;> simp
      rw [h2]
      constructor
      · rintro (h | h)
        · exact ⟨by simp, h⟩
        · exact absurd h h1
      · rintro ⟨-, h⟩
        exact .inl h
  have hre : Loud (reduceReports o contexts sh.isEmpty re) ↔ re ≠ [] ∧ sh = [] ∧ (o.noConflicts = true ∨ o.allowReduce = false) := by
    cases re with
    | nil => simp [reduceReports, loud_nil]
    | cons i l =>
      unfold reduceReports
      dsimp only
      rw [List.cons_append, loud_cons]
      have h1 : ¬ Loud (contextReports o contexts i ++ l.flatMap fun j => (⟨.detail, "DETAIL_REDUCE"⟩ : Report) :: contextReports o contexts j) := by
        refine mild_details fun r hr => ?_
        rcases List.mem_append.1 hr with hr | hr
        · exact context_mild o contexts i r hr
        · obtain ⟨j, -, hr⟩ := List.mem_flatMap.1 hr
          rcases List.mem_cons.1 hr with rfl | hr
          · rfl
          · exact context_mild o contexts j r hr
      have h2 : Severe (if sh.isEmpty = true then ⟨o.reduceSev, "CONFLICT_REDUCE_REDUCE"⟩ else ⟨.detail, "DETAIL_REDUCE"⟩) ↔ sh = [] ∧ (o.noConflicts = true ∨ o.allowReduce = false) := by
        cases sh with
        | nil =>
          unfold Options.reduceSev Severe
          cases o.noConflicts <;> cases o.allowReduce <;> simp
        | cons _ _ => simp [Severe]
      rw [h2]
      constructor
      · rintro (h | h)
        · exact ⟨by simp, h⟩
        · exact absurd h h1
      · rintro ⟨-, h⟩
        exact .inl h
  dsimp only
  rw [loud_append, loud_append, hsh, hre]
  have hbug : Loud (if re.isEmpty = true then [(⟨.bug, if sh.isEmpty = true then "BUG_CONFLICT_NO_ACTIONS" else "BUG_CONFLICT_NO_REDUCE"⟩ : Report)] else []) ↔ re = [] := by
    cases re with
    | nil => simp [Loud, Severe]
    | cons _ _ => simp [Loud]
  rw [hbug]
  by_cases hs : sh = [] <;> by_cases hr : re = [] <;> simp [hs, hr]

/-- **C80**, severity. The stage reports an error just if a start symbol is not defined, if there is none, or if one of the conflicts is an error; clashing guards never are. -/
theorem compile_loud (o : Options) (contexts : LItem → Nat) (defined : String → Bool) (build : List String → List Conflict × List Clash) (starts : List String) :
    Loud (compile o contexts defined build starts).reports ↔ starts = [] ∨ (∃ s ∈ starts, defined s = false) ∨
      ∃ c ∈ (build starts).1, c.reduces = [] ∨ o.noConflicts = true ∨ (c.shifts = [] ∧ o.allowReduce = false) := by
  unfold compile
  dsimp only
  have hund : Loud ((starts.filter fun s => !defined s).map fun _ => (⟨.error, "UNDEFINED_NONTERMINAL"⟩ : Report)) ↔ ∃ s ∈ starts, defined s = false := by
    constructor
    · rintro ⟨r, hr, -⟩
      obtain ⟨s, hs, -⟩ := List.mem_map.1 hr
      obtain ⟨h1, h2⟩ := List.mem_filter.1 hs
      exact ⟨s, h1, by simpa using h2⟩
    · rintro ⟨s, h1, h2⟩
      exact ⟨_, List.mem_map.2 ⟨s, List.mem_filter.2 ⟨h1, by simp [h2]⟩, rfl⟩, .inl rfl⟩
  by_cases hall : ∃ s ∈ starts, defined s = false
  · refine iff_of_true ?_ (.inr (.inl hall))
    split
    · exact loud_append.2 (.inl (hund.2 hall))
    · exact loud_append.2 (.inl (loud_append.2 (.inl (hund.2 hall))))
  · have hgood : starts.filter defined = starts := by
      rw [List.filter_eq_self]
      intro s hs
      by_contra hd
      exact hall ⟨s, hs, by simpa using hd⟩
    rw [hgood]
    by_cases hn : starts = []
    · refine iff_of_true ?_ (.inl hn)
      rw [if_pos (by rw [hn]; rfl)]
      exact loud_append.2 (.inr ⟨_, List.mem_singleton_self _, .inl rfl⟩)
    · rw [if_neg (by simpa using hn)]
      dsimp only
      rw [loud_append, loud_append, hund, loud_flatMap, loud_flatMap]
      constructor
      · rintro ((h | ⟨c, h1, h2⟩) | ⟨c, -, h2⟩)
        · exact .inr (.inl h)
        · exact .inr (.inr ⟨c, h1, (conflict_loud o contexts c).1 h2⟩)
        · exfalso
          unfold clashReports at h2
          rcases loud_cons.1 h2 with h2 | h2
          · simp [Severe] at h2
          · exact mild_details (fun r hr => by obtain ⟨_, -, rfl⟩ := List.mem_map.1 hr; rfl) h2
      · rintro (h | h | ⟨c, h1, h2⟩)
        · exact absurd h hn
        · exact absurd h hall
        · exact .inl (.inr ⟨c, h1, (conflict_loud o contexts c).2 h2⟩)

/-- **C80** (partial: as `kind_partial`). For start symbols that are defined, the stage reports an error just if the automaton has a conflict and none are allowed, or if it has to
choose between two rules before a token that it cannot shift and such conflicts are not allowed. -/
theorem stage_error_partial (h : Made first initial g okI okR rid clos own lt languages m m' st states num sort sortWeak occ) (hb : Bare st) (hg : Plain g okI)
    (hf : ∀ x, okI x → g.FirstSound x (first x)) (hf' : ∀ x, okI x → g.FirstComplete x (first x)) (hh : Headed g okI) {fuel : Nat} {cs : List Conflict}
    (hc : allConflicts first clos fuel m' states = some cs) (o : Options) (contexts : LItem → Nat) {defined : String → Bool} {build : List String → List Conflict × List Clash}
    {starts : List String} (hs : starts ≠ []) (hd : ∀ s ∈ starts, defined s = true) (hbuild : (build starts).1 = cs) :
    Loud (compile o contexts defined build starts).reports ↔ ∃ s < m.states.length, ∃ t, Torn first g m n0 s t ∧ (o.noConflicts = true ∨ (¬ Shifts m s t ∧ o.allowReduce = false)) := by
  rw [compile_loud, hbuild]
  constructor
  · rintro (h1 | ⟨s, h1, h2⟩ | ⟨c, h1, h2⟩)
    · exact absurd h1 hs
    · rw [hd s h1] at h2
      cases h2
    · obtain ⟨hk1, hk2⟩ := kind_partial h hb hg hf hf' hh hc h1
      obtain ⟨hlt, htorn⟩ := (conflicts_exact_partial h hb hg hc c.state c.token).1 ⟨c, h1, rfl, rfl⟩
      refine ⟨c.state, hlt, c.token, htorn, ?_⟩
      rcases h2 with h2 | h2 | ⟨h2, h3⟩
      · exact absurd h2 hk2
      · exact .inl h2
      · exact .inr ⟨fun hsft => hk1.2 hsft h2, h3⟩
  · rintro ⟨s, hlt, t, htorn, h2⟩
    obtain ⟨c, h1, rfl, rfl⟩ := (conflicts_exact_partial h hb hg hc s t).2 ⟨hlt, htorn⟩
    refine .inr (.inr ⟨c, h1, .inr ?_⟩)
    rcases h2 with h2 | ⟨h2, h3⟩
    · exact .inl h2
    · refine .inr ⟨?_, h3⟩
      by_contra hne
      exact h2 ((kind_partial h hb hg hf hf' hh hc h1).1.1 hne)

set_option quotPrecheck false in
local notation "T" => ParserTables.build num sort sortWeak states (some st.weak.strongToWeak)

/-- **C80** (partial: as `conflicts_exact_partial`; the end of input is not accepted where a rule is reduced). If no conflicts are allowed and the stage reports no error then the
parser accepts just the sentences. -/
theorem quiet_decides_partial (h : Made first initial g okI okR rid clos own lt languages m m' st states num sort sortWeak occ) (hb : Bare st) (hg : Plain g okI)
    (hf' : ∀ x, okI x → g.FirstComplete x (first x)) {fuel : Nat} {cs : List Conflict} (hc : allConflicts first clos fuel m' states = some cs)
    {o : Options} (ho : o.noConflicts = true) {contexts : LItem → Nat} {defined : String → Bool} {build : List String → List Conflict × List Clash}
    {starts : List String} (hbuild : (build starts).1 = cs) (hq : ¬ Loud (compile o contexts defined build starts).reports)
    (hacc : ∀ (s : Nat) (acts : List LrAction), states[s]? = some acts → ∀ b ∈ acts, ∀ c ∈ acts, b.type = .accept → c.item = .eoi → c.type ≠ .reduce)
    {k0 : Nat} {start : Item} (hk : k0 < n0) (hS : kern m k0 = [startItem start]) (hst : okI start) (input : List Tok) :
    (∃ fuel s', parse T fuel (Parser.start k0 input) = .ok (true, s')) ↔
      g.Derives [start] ((input.filter (fun k => decide (.terminal k.sym ∉ st.ignored))).map (fun k => .terminal k.sym)) := by
  refine parser_decides_partial (involved := fun _ _ => true) h hb hg hf' (fun _ _ _ => rfl) ?_ hacc hk hS hst input
  intro s acts hacts
  rw [List.eq_nil_iff_forall_not_mem]
  intro t ht
  obtain ⟨⟨a, b, ha, hb', hab, hai, hbi, hat, hbt⟩, -⟩ := (Rewriters.conflicts_reported_partial _ _ (states_nodup h hacts) _).1 ht
  have htorn := torn_of_actions h hb hg hacts ha hb' hab hai hbi hat hbt
  obtain ⟨c, h1, -⟩ := (conflicts_exact_partial h hb hg hc s t).2 ⟨(h.bare hb hacts).1, htorn⟩
  exact hq ((compile_loud o contexts defined build starts).2 (.inr (.inr ⟨c, by rw [hbuild]; exact h1, .inr (.inl ho)⟩)))

/-- **C80**, with C78 (partial: as `quiet_decides_partial`). If the tool is told to allow no conflicts and writes a parser, or tests one, then this parser accepts just the sentences. -/
theorem written_decides_partial (h : Made first initial g okI okR rid clos own lt languages m m' st states num sort sortWeak occ) (hb : Bare st) (hg : Plain g okI)
    (hf' : ∀ x, okI x → g.FirstComplete x (first x)) {fuel : Nat} {cs : List Conflict} (hc : allConflicts first clos fuel m' states = some cs)
    {o : Options} (ho : o.noConflicts = true) {contexts : LItem → Nat} {defined : String → Bool} {build : List String → List Conflict × List Clash}
    {opts : Opts} {r : Run} {res : Tool.Result} {kind : String} {target : Target} (hn : ∀ tops, r.data = some tops → Named tops) (hrun : mainRun opts r = .ok res)
    (hout : res.output = some (kind, target)) (hparser : r.parser target.language target.starts = (compile o contexts defined build target.starts).reports)
    (hbuild : (build target.starts).1 = cs)
    (hacc : ∀ (s : Nat) (acts : List LrAction), states[s]? = some acts → ∀ b ∈ acts, ∀ c ∈ acts, b.type = .accept → c.item = .eoi → c.type ≠ .reduce)
    {k0 : Nat} {start : Item} (hk : k0 < n0) (hS : kern m k0 = [startItem start]) (hst : okI start) (input : List Tok) :
    (∃ fuel s', parse T fuel (Parser.start k0 input) = .ok (true, s')) ↔
      g.Derives [start] ((input.filter (fun k => decide (.terminal k.sym ∉ st.ignored))).map (fun k => .terminal k.sym)) := by
  obtain ⟨tops, hready⟩ := (tool_output hn hrun kind target).1 hout
  exact quiet_decides_partial h hb hg hf' hc ho hbuild (hparser ▸ hready.parser) hacc hk hS hst input

end
end ParserStage
end TameParse

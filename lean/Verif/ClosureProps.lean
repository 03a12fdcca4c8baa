import Verif.Closure
import Mathlib.Logic.Relation
import Mathlib.Tactic.Tauto
import Mathlib.Data.Finset.Card
import Mathlib.Data.Finset.Filter
import Mathlib.Data.List.Nodup

/-!
# C56: closures, with the cache, are exactly the LR(1) closures
-/

namespace TameParse
namespace Closure

open AssocMap Relation

/-! The LR(1) closure, stated on its own -/

/-- An element of a set of LR(1) items: an LR(0) item being there, or being there with a lookahead symbol. -/
abbrev Elem := LItem × Option Item

/-- An element is in the set. -/
def In (s : Set1) (e : Elem) : Prop := ∃ la, (e.1, la) ∈ s ∧ ∀ a, e.2 = some a → a ∈ la

/-- All of the items can be empty according to FIRST. -/
def Nullable (first : Item → List Item) (l : List Item) : Prop := ∀ x ∈ l, .empty ∈ first x

/-- A symbol that begins the items according to FIRST. -/
def Begins (first : Item → List Item) (l : List Item) (b : Item) : Prop :=
  ∃ u x v, l = u ++ x :: v ∧ Nullable first u ∧ b ∈ first x ∧ b ≠ .empty

/-- One step of the LR(1) closure: `A → α · X β, a` yields `X → · γ, b` for the symbols `b` that begin `β a`. -/
inductive Gen (first : Item → List Item) (g : Gram) : Elem → Elem → Prop
  | item {i : LItem} {o : Option Item} {x : Item} {r : List Item} (hx : i.rule.items[i.dot]? = some x) (hr : r ∈ closRules g x) :
      Gen first g (i, o) (⟨⟨x, r⟩, 0⟩, none)
  | first {i : LItem} {o : Option Item} {x b : Item} {r : List Item} (hx : i.rule.items[i.dot]? = some x) (hr : r ∈ closRules g x)
      (hb : Begins first (i.rule.items.drop (i.dot + 1)) b) : Gen first g (i, o) (⟨⟨x, r⟩, 0⟩, some b)
  | pass {i : LItem} {x a : Item} {r : List Item} (hx : i.rule.items[i.dot]? = some x) (hr : r ∈ closRules g x)
      (hn : Nullable first (i.rule.items.drop (i.dot + 1))) : Gen first g (i, some a) (⟨⟨x, r⟩, 0⟩, some a)

/-- The elements of an LR(1) item. -/
def Of (i : LItem) (la : List Item) (e : Elem) : Prop := e.1 = i ∧ ∀ a, e.2 = some a → a ∈ la

/-- The elements in the closure of an LR(1) item, without the item itself unless it is generated. -/
def Reach (first : Item → List Item) (g : Gram) (i : LItem) (la : List Item) (e : Elem) : Prop := ∃ e0, Of i la e0 ∧ TransGen (Gen first g) e0 e

/-! Sets -/

theorem in_insert (i : LItem) (la : List Item) : ∀ (s : Set1) (e : Elem), In (insert i la s).1 e ↔ In s e ∨ Of i la e
  | [], e => by
    simp only [insert, In, Of, List.mem_singleton, Prod.mk.injEq, List.not_mem_nil, false_and, exists_false, false_or]
    constructor
    · rintro ⟨l, ⟨h1, rfl⟩, h2⟩; exact ⟨h1, h2⟩
    · rintro ⟨h1, h2⟩; exact ⟨la, ⟨h1, rfl⟩, h2⟩
  | (j, old) :: s, e => by
    have ih := in_insert i la s e
    have hc : ∀ (p : LItem × List Item) (t : Set1), In (p :: t) e ↔ (e.1 = p.1 ∧ ∀ a, e.2 = some a → a ∈ p.2) ∨ In t e := by
      intro p t
      constructor
      · rintro ⟨l, h1, h2⟩
        rcases List.mem_cons.1 h1 with h | h
        · subst h; exact Or.inl ⟨rfl, h2⟩
        · exact Or.inr ⟨l, h, h2⟩
      · rintro (⟨h1, h2⟩ | ⟨l, h1, h2⟩)
        · exact ⟨p.2, by rw [h1]; exact List.mem_cons_self .., h2⟩
        · exact ⟨l, List.mem_cons_of_mem _ h1, h2⟩
    unfold insert
    by_cases hj : j = i
    · subst hj
      rw [if_pos rfl]
      by_cases ha : ∀ a ∈ la, a ∈ old
      · rw [if_pos ha]
        constructor
        · exact Or.inl
        · rintro (h | ⟨h1, h2⟩)
          · exact h
          · exact (hc _ _).2 (Or.inl ⟨h1, fun a h => ha a (h2 a h)⟩)
      · rw [if_neg ha, hc, hc]
        constructor
        · rintro (⟨h1, h2⟩ | h)
          · obtain ⟨e1, o⟩ := e
            cases o with
            | none => exact Or.inl (Or.inl ⟨h1, by simp⟩)
            | some a =>
              rcases List.mem_append.1 (h2 a rfl) with h | h
              · exact Or.inl (Or.inl ⟨h1, fun b hb => by cases hb; exact h⟩)
              · exact Or.inr ⟨h1, fun b hb => by cases hb; exact h⟩
          · exact Or.inl (Or.inr h)
        · rintro ((⟨h1, h2⟩ | h) | ⟨h1, h2⟩)
          · exact Or.inl ⟨h1, fun a h => List.mem_append_left _ (h2 a h)⟩
          · exact Or.inr h
          · exact Or.inl ⟨h1, fun a h => List.mem_append_right _ (h2 a h)⟩
    · rw [if_neg hj]
      show In ((j, old) :: (insert i la s).1) e ↔ _
      rw [hc, hc, ih]
      tauto

theorem insert_unchanged (i : LItem) (la : List Item) : ∀ (s : Set1), (insert i la s).2 = false → (insert i la s).1 = s
  | [], h => by simp [insert] at h
  | (j, old) :: s, h => by
    unfold insert at h ⊢
    by_cases hj : j = i
    · rw [if_pos hj] at h ⊢
      by_cases ha : ∀ a ∈ la, a ∈ old
      · rw [if_pos ha]
      · rw [if_neg ha] at h; cases h
    · rw [if_neg hj] at h ⊢
      show (j, old) :: (insert i la s).1 = _
      rw [insert_unchanged i la s h]

theorem in_substitute (follow : List Item) : ∀ (c s : Set1) (e : Elem), In (substitute follow c s) e ↔
    In s e ∨ (∃ la, (e.1, la) ∈ c ∧ ∀ a, e.2 = some a → a ∈ (if .eoi ∈ la then la.filter (· ≠ .eoi) ++ follow else la))
  | [], s, e => by simp [substitute]
  | (i, la) :: c, s, e => by
    rw [substitute, in_substitute follow c, in_insert, or_assoc]
    refine or_congr_right ?_
    constructor
    · rintro (⟨h1, h2⟩ | ⟨l, h1, h2⟩)
      · exact ⟨la, by rw [h1]; exact List.mem_cons_self .., h2⟩
      · exact ⟨l, List.mem_cons_of_mem _ h1, h2⟩
    · rintro ⟨l, h1, h2⟩
      rcases List.mem_cons.1 h1 with h | h
      · cases h; exact Or.inl ⟨rfl, h2⟩
      · exact Or.inr ⟨l, h, h2⟩

/-- An item is there if one of its elements is. -/
theorem In.none {s : Set1} {i : LItem} {o : Option Item} (h : In s (i, o)) : In s (i, none) := by
  obtain ⟨la, h1, -⟩ := h
  exact ⟨la, h1, by simp⟩

/-- What substitution makes of a set. -/
def Sub (c : Elem → Prop) (follow : List Item) (e : Elem) : Prop :=
  (c e ∧ e.2 ≠ some .eoi) ∨ ∃ b, e.2 = some b ∧ c (e.1, some .eoi) ∧ b ∈ follow

theorem substitute_sub (follow : List Item) (c s : Set1) (e : Elem) : In (substitute follow c s) e ↔ In s e ∨ Sub (In c) follow e := by
  rw [in_substitute]
  refine or_congr_right ?_
  obtain ⟨i, o⟩ := e
  constructor
  · rintro ⟨la, h1, h2⟩
    dsimp only at h1 h2
    cases o with
    | none => exact Or.inl ⟨⟨la, h1, by simp⟩, by simp⟩
    | some a =>
      have h3 := h2 a rfl
      by_cases he : Item.eoi ∈ la
      · rw [if_pos he, List.mem_append, List.mem_filter] at h3
        rcases h3 with ⟨h3, h4⟩ | h3
        · refine Or.inl ⟨⟨la, h1, fun b hb => by cases hb; exact h3⟩, ?_⟩
          intro hc
          cases hc
          simp at h4
        · exact Or.inr ⟨a, rfl, ⟨la, h1, fun b hb => by cases hb; exact he⟩, h3⟩
      · rw [if_neg he] at h3
        refine Or.inl ⟨⟨la, h1, fun b hb => by cases hb; exact h3⟩, ?_⟩
        intro hc
        cases hc
        exact he h3
  · rintro (⟨⟨la, h1, h2⟩, h3⟩ | ⟨b, h1, ⟨la, h2, h3⟩, h4⟩)
    · refine ⟨la, h1, ?_⟩
      intro a ha
      dsimp only at ha
      subst ha
      have h4 := h2 a rfl
      by_cases he : Item.eoi ∈ la
      · rw [if_pos he, List.mem_append, List.mem_filter]
        refine Or.inl ⟨h4, ?_⟩
        rw [decide_eq_true_eq]
        rintro rfl
        exact h3 rfl
      · rw [if_neg he]; exact h4
    · dsimp only at h1
      subst h1
      refine ⟨la, h2, ?_⟩
      intro a ha
      cases ha
      rw [if_pos (h3 .eoi rfl), List.mem_append]
      exact Or.inr h4

/-! Follow sets -/

theorem nullable_nil (first : Item → List Item) : Nullable first [] := fun _ h => nomatch h

theorem mem_followLoop (first : Item → List Item) (la : List Item) (b : Item) : ∀ (l follow : List Item), b ∈ followLoop first la follow l ↔
    (b ∈ follow ∧ (b ≠ .empty)) ∨ (.empty ∈ follow ∧ (Begins first l b ∨ (Nullable first l ∧ b ∈ la)))
  | [], follow => by
    unfold followLoop
    have h0 : ¬ Begins first [] b := by
      rintro ⟨u, x, v, h, -⟩
      cases u <;> cases h
    have h1 : Nullable first [] := fun _ h => by cases h
    by_cases h : Item.empty ∈ follow
    · rw [if_pos h, List.mem_append, List.mem_filter, decide_eq_true_eq]
      tauto
    · rw [if_neg h]
      constructor
      · intro hb
        refine Or.inl ⟨hb, ?_⟩
        rintro rfl
        exact h hb
      · rintro (hb | hb)
        · exact hb.1
        · exact absurd hb.1 h
  | x :: l, follow => by
    have hcons : Begins first (x :: l) b ↔ (b ∈ first x ∧ b ≠ .empty) ∨ (.empty ∈ first x ∧ Begins first l b) := by
      constructor
      · rintro ⟨u, y, v, h1, h2, h3, h4⟩
        cases u with
        | nil => cases h1; exact Or.inl ⟨h3, h4⟩
        | cons z u =>
          cases h1
          exact Or.inr ⟨h2 x (List.mem_cons_self ..), u, y, v, rfl, fun w hw => h2 w (List.mem_cons_of_mem _ hw), h3, h4⟩
      · rintro (⟨h1, h2⟩ | ⟨h1, u, y, v, rfl, h2, h3, h4⟩)
        · exact ⟨[], x, l, rfl, nullable_nil first, h1, h2⟩
        · refine ⟨x :: u, y, v, rfl, ?_, h3, h4⟩
          intro w hw
          rcases List.mem_cons.1 hw with rfl | hw
          · exact h1
          · exact h2 w hw
    have hnull : Nullable first (x :: l) ↔ .empty ∈ first x ∧ Nullable first l := by
      unfold Nullable
      simp
    unfold followLoop
    by_cases h : Item.empty ∈ follow
    · rw [if_pos h, mem_followLoop first la b l, hcons, hnull]
      have e1 : b ∈ follow.filter (fun y => decide (y ≠ .empty)) ++ first x ↔ (b ∈ follow ∧ b ≠ .empty) ∨ b ∈ first x := by
        rw [List.mem_append, List.mem_filter, decide_eq_true_eq]
      have e2 : Item.empty ∈ follow.filter (fun y => decide (y ≠ .empty)) ++ first x ↔ .empty ∈ first x := by
        rw [List.mem_append, List.mem_filter, decide_eq_true_eq]
        tauto
      rw [e1, e2]
      generalize Begins first l b = t, Nullable first l = u, (b ∈ la) = v, (Item.empty ∈ first x) = w at *
      clear e1 e2 hcons hnull
      constructor
      · rintro (⟨⟨h1, h2⟩ | h1, h2⟩ | ⟨h1, h2 | ⟨h2, h3⟩⟩)
        · exact Or.inl ⟨h1, h2⟩
        · exact Or.inr ⟨h, Or.inl (Or.inl ⟨h1, h2⟩)⟩
        · exact Or.inr ⟨h, Or.inl (Or.inr ⟨h1, h2⟩)⟩
        · exact Or.inr ⟨h, Or.inr ⟨⟨h1, h2⟩, h3⟩⟩
      · rintro (⟨h1, h2⟩ | ⟨-, (⟨h1, h2⟩ | ⟨h1, h2⟩) | ⟨⟨h1, h2⟩, h3⟩⟩)
        · exact Or.inl ⟨Or.inl ⟨h1, h2⟩, h2⟩
        · exact Or.inl ⟨Or.inr h1, h2⟩
        · exact Or.inr ⟨h1, Or.inl h2⟩
        · exact Or.inr ⟨h1, Or.inr ⟨h2, h3⟩⟩
    · rw [if_neg h]
      constructor
      · intro hb
        refine Or.inl ⟨hb, ?_⟩
        rintro rfl
        exact h hb
      · rintro (hb | hb)
        · exact hb.1
        · exact absurd hb.1 h

/-- `fill_follow`: the symbols that begin the rest of the rule followed by the lookahead. -/
theorem mem_fillFollow (first : Item → List Item) (i : LItem) (la : List Item) (b : Item) : b ∈ fillFollow first i la ↔
    Begins first (i.rule.items.drop (i.dot + 1)) b ∨ (Nullable first (i.rule.items.drop (i.dot + 1)) ∧ b ∈ la) := by
  unfold fillFollow
  cases h : i.rule.items.drop (i.dot + 1) with
  | nil =>
    constructor
    · intro hb; exact Or.inr ⟨nullable_nil first, hb⟩
    · rintro (⟨u, x, v, h, -⟩ | hb)
      · cases u <;> cases h
      · exact hb.2
  | cons x l =>
    dsimp only
    rw [mem_followLoop]
    constructor
    · rintro (⟨h1, h2⟩ | ⟨h1, h2 | ⟨h2, h3⟩⟩)
      · exact Or.inl ⟨[], x, l, rfl, nullable_nil first, h1, h2⟩
      · obtain ⟨u, y, v, rfl, h3, h4, h5⟩ := h2
        refine Or.inl ⟨x :: u, y, v, rfl, ?_, h4, h5⟩
        intro w hw
        rcases List.mem_cons.1 hw with rfl | hw
        · exact h1
        · exact h3 w hw
      · refine Or.inr ⟨?_, h3⟩
        intro w hw
        rcases List.mem_cons.1 hw with rfl | hw
        · exact h1
        · exact h2 w hw
    · rintro (⟨u, y, v, h1, h2, h3, h4⟩ | ⟨h1, h2⟩)
      · cases u with
        | nil => cases h1; exact Or.inl ⟨h3, h4⟩
        | cons z u =>
          cases h1
          exact Or.inr ⟨h2 x (List.mem_cons_self ..), Or.inl ⟨u, y, v, rfl, fun w hw => h2 w (List.mem_cons_of_mem _ hw), h3, h4⟩⟩
      · exact Or.inr ⟨h1 x (List.mem_cons_self ..), Or.inr ⟨fun w hw => h1 w (List.mem_cons_of_mem _ hw), h2⟩⟩

/-! Steps -/

section
variable {first : Item → List Item} {g : Gram}

/-- The elements generated from an LR(1) item in one step. -/
theorem gen_iff {i : LItem} {la : List Item} {x : Item} (hx : i.rule.items[i.dot]? = some x) (e : Elem) :
    (∃ e0, Of i la e0 ∧ Gen first g e0 e) ↔ ∃ r ∈ closRules g x, Of ⟨⟨x, r⟩, 0⟩ (fillFollow first i la) e := by
  constructor
  · rintro ⟨⟨j, o⟩, ⟨h1, h2⟩, hg⟩
    dsimp only at h1 h2
    subst h1
    cases hg with
    | item hx' hr =>
      rw [hx] at hx'
      cases hx'
      exact ⟨_, hr, rfl, by simp⟩
    | first hx' hr hb =>
      rw [hx] at hx'
      cases hx'
      exact ⟨_, hr, rfl, fun a ha => by cases ha; exact (mem_fillFollow ..).2 (Or.inl hb)⟩
    | pass hx' hr hn =>
      rw [hx] at hx'
      cases hx'
      exact ⟨_, hr, rfl, fun a ha => by cases ha; exact (mem_fillFollow ..).2 (Or.inr ⟨hn, h2 _ rfl⟩)⟩
  · rintro ⟨r, hr, h1, h2⟩
    obtain ⟨j, o⟩ := e
    dsimp only at h1 h2
    subst h1
    cases o with
    | none => exact ⟨(i, none), ⟨rfl, by simp⟩, .item hx hr⟩
    | some b =>
      rcases (mem_fillFollow ..).1 (h2 b rfl) with hb | ⟨hn, hb⟩
      · exact ⟨(i, none), ⟨rfl, by simp⟩, .first hx hr hb⟩
      · exact ⟨(i, some b), ⟨rfl, fun a ha => by cases ha; exact hb⟩, .pass hx hr hn⟩

/-- What is generated from an element only needs the item, except for what is passed on. -/
theorem gen_cases {i : LItem} {o : Option Item} {e : Elem} (h : Gen first g (i, o) e) :
    Gen first g (i, none) e ∨ ∃ a, o = some a ∧ e.2 = some a ∧ ∀ b, Gen first g (i, some b) (e.1, some b) := by
  cases h with
  | item hx hr => exact Or.inl (.item hx hr)
  | first hx hr hb => exact Or.inl (.first hx hr hb)
  | pass hx hr hn => exact Or.inr ⟨_, rfl, rfl, fun b => .pass hx hr hn⟩

/-- Where an item is generated it is generated without its lookahead. -/
theorem gen_none {i : LItem} {o : Option Item} {e : Elem} (h : Gen first g (i, o) e) : Gen first g (i, none) (e.1, none) := by
  cases h with
  | item hx hr => exact .item hx hr
  | first hx hr hb => exact .item hx hr
  | pass hx hr hn => exact .item hx hr

theorem gen_weaken {i : LItem} {o : Option Item} {e : Elem} (h : Gen first g (i, none) e) : Gen first g (i, o) e := by
  cases h with
  | item hx hr => exact .item hx hr
  | first hx hr hb => exact .first hx hr hb

theorem reach_trans {i j : LItem} {la la' : List Item} {e : Elem} (h : ∀ e0, Of j la' e0 → Reach first g i la e0) (hr : Reach first g j la' e) :
    Reach first g i la e := by
  obtain ⟨e0, h1, h2⟩ := hr
  obtain ⟨e1, h3, h4⟩ := h e0 h1
  exact ⟨e1, h3, h4.trans h2⟩

/-- Nothing is generated from an item at the end of its rule or before a terminal. -/
theorem no_gen {i : LItem} {o : Option Item} {e : Elem} (h : i.rule.items[i.dot]? = none ∨ ∃ n, i.rule.items[i.dot]? = some (.terminal n))
    (hg : Gen first g (i, o) e) : False := by
  have : ∀ x r, i.rule.items[i.dot]? = some x → r ∈ closRules g x → False := by
    intro x r hx hr
    rcases h with h | ⟨n, h⟩
    · rw [h] at hx; cases hx
    · rw [h] at hx; cases hx; cases hr
  cases hg with
  | item hx hr => exact this _ _ hx hr
  | first hx hr hb => exact this _ _ hx hr
  | pass hx hr hn => exact this _ _ hx hr

end

/-! The cache -/

section
variable (first : Item → List Item) (g : Gram)

/-- Items that do not use the empty item or the end of input, in their own rules or in those of their items. -/
structure Proper (okI : Item → Prop) : Prop where
  empty : ∀ x, okI x → x ≠ .empty
  eoi : ∀ x, okI x → .eoi ∉ first x
  rules : ∀ x, okI x → ∀ r ∈ closRules g x, ∀ y ∈ r, okI y

/-- The sets in the cache are closures of the fake items, or empty. -/
def CacheOk (c : List (Item × Set1)) : Prop := ∀ x s, get x c = some s → s ≠ [] → ∀ e, In s e ↔ Reach first g (fake x) [.eoi] e

/-- What `cache_closure` does to the set: it adds what is generated from the item, only things from the closure, and whatever it adds
is closed. -/
structure Post (i : LItem) (la : List Item) (st st' : State) : Prop where
  cache : CacheOk first g st'.cache
  mono : ∀ e, In st.set e → In st'.set e
  direct : ∀ e0 e, Of i la e0 → Gen first g e0 e → In st'.set e
  sound : ∀ e, In st'.set e → In st.set e ∨ Reach first g i la e
  closed : ∀ e, In st'.set e → ¬ In st.set e → ∀ e', Gen first g e e' → In st'.set e'

/-- What `insert_closure_item` does to the set. -/
structure IPost (i : LItem) (la : List Item) (st st' : State) : Prop where
  cache : CacheOk first g st'.cache
  mono : ∀ e, In st.set e → In st'.set e
  here : ∀ e, Of i la e → In st'.set e
  sound : ∀ e, In st'.set e → In st.set e ∨ Of i la e ∨ Reach first g i la e
  closed : ∀ e, In st'.set e → ¬ In st.set e → ∀ e', Gen first g e e' → In st'.set e'

/-- A function that may be used for `cache_closure`. -/
def RecOk (okI : Item → Prop) (rec : LItem → List Item → State → Option State) : Prop :=
  ∀ i la st st', (∀ y ∈ i.rule.items, okI y) → CacheOk first g st.cache → rec i la st = some st' → Post first g i la st st'

end

section
variable {first : Item → List Item} {g : Gram} {okI : Item → Prop}

theorem insertClosureItem_post {rec : LItem → List Item → State → Option State} (hrec : RecOk first g okI rec) {r : Rule} {la : List Item}
    {st st' : State} (hok : ∀ y ∈ r.items, okI y) (hc : CacheOk first g st.cache) (h : insertClosureItem rec ⟨r, 0⟩ la st = some st') :
    IPost first g ⟨r, 0⟩ la st st' := by
  have hmono : ∀ e, In st.set e → In (insert ⟨r, 0⟩ la st.set).1 e := fun e he => (in_insert ..).2 (Or.inl he)
  have hhere : ∀ e, Of ⟨r, 0⟩ la e → In (insert ⟨r, 0⟩ la st.set).1 e := fun e he => (in_insert ..).2 (Or.inr he)
  have hsound : ∀ e, In (insert ⟨r, 0⟩ la st.set).1 e → In st.set e ∨ Of ⟨r, 0⟩ la e := fun e he => (in_insert ..).1 he
  have plain : (r.items[0]? = none ∨ ∃ n, r.items[0]? = some (.terminal n)) →
      IPost first g ⟨r, 0⟩ la st { st with set := (insert ⟨r, 0⟩ la st.set).1 } := by
    intro hend
    refine ⟨hc, hmono, hhere, fun e he => ?_, fun e he hn e' hg => ?_⟩
    · rcases hsound e he with h | h
      · exact Or.inl h
      · exact Or.inr (Or.inl h)
    · rcases hsound e he with h | ⟨h1, -⟩
      · exact absurd h hn
      · obtain ⟨i, o⟩ := e
        dsimp only at h1
        subst h1
        exact (no_gen hend hg).elim
  have general : (if (insert ⟨r, 0⟩ la st.set).2 then rec ⟨r, 0⟩ la { st with set := (insert ⟨r, 0⟩ la st.set).1 }
      else some { st with set := (insert ⟨r, 0⟩ la st.set).1 }) = some st' → IPost first g ⟨r, 0⟩ la st st' := by
    intro h
    by_cases hch : (insert ⟨r, 0⟩ la st.set).2 = true
    · rw [if_pos hch] at h
      have hp := hrec _ _ { st with set := (insert ⟨r, 0⟩ la st.set).1 } _ hok hc h
      refine ⟨hp.cache, fun e he => hp.mono e (hmono e he), fun e he => hp.mono e (hhere e he), fun e he => ?_, fun e he hn e' hg => ?_⟩
      · rcases hp.sound e he with h | h
        · rcases hsound e h with h | h
          · exact Or.inl h
          · exact Or.inr (Or.inl h)
        · exact Or.inr (Or.inr h)
      · by_cases h1 : In (insert ⟨r, 0⟩ la st.set).1 e
        · rcases hsound e h1 with h | h
          · exact absurd h hn
          · exact hp.direct e e' h hg
        · exact hp.closed e he h1 e' hg
    · rw [if_neg hch] at h
      cases h
      rw [Bool.not_eq_true] at hch
      have hsame := insert_unchanged _ _ _ hch
      refine ⟨hc, hmono, hhere, fun e he => ?_, fun e he hn => ?_⟩
      · rcases hsound e he with h | h
        · exact Or.inl h
        · exact Or.inr (Or.inl h)
      · dsimp only at he
        rw [hsame] at he
        exact absurd he hn
  unfold insertClosureItem at h
  obtain ⟨nt, items⟩ := r
  cases items with
  | nil => cases h; exact plain (Or.inl rfl)
  | cons x l =>
    cases x with
    | terminal n => cases h; exact plain (Or.inr ⟨n, rfl⟩)
    | empty => exact general h
    | eoi => exact general h
    | eog => exact general h
    | nonterminal n => exact general h
    | guard p q => exact general h
    | ebnf k q => exact general h

theorem addRules_post {rec : LItem → List Item → State → Option State} (hrec : RecOk first g okI rec) {x : Item} {follow : List Item} :
    ∀ (rs : List (List Item)) (st st' : State), (∀ r ∈ rs, ∀ y ∈ r, okI y) → CacheOk first g st.cache → addRules rec x follow rs st = some st' →
      CacheOk first g st'.cache ∧ (∀ e, In st.set e → In st'.set e) ∧ (∀ r ∈ rs, ∀ e, Of ⟨⟨x, r⟩, 0⟩ follow e → In st'.set e) ∧
      (∀ e, In st'.set e → In st.set e ∨ ∃ r ∈ rs, Of ⟨⟨x, r⟩, 0⟩ follow e ∨ Reach first g ⟨⟨x, r⟩, 0⟩ follow e) ∧
      (∀ e, In st'.set e → ¬ In st.set e → ∀ e', Gen first g e e' → In st'.set e')
  | [], st, st', _, hc, h => by
    cases h
    exact ⟨hc, fun _ h => h, fun _ h => (List.not_mem_nil h).elim, fun _ h => Or.inl h, fun _ h hn => absurd h hn⟩
  | r :: rs, st, st', hok, hc, h => by
    unfold addRules at h
    cases h1 : insertClosureItem rec ⟨⟨x, r⟩, 0⟩ follow st with
    | none => rw [h1] at h; cases h
    | some st1 =>
      rw [h1] at h
      have p1 := insertClosureItem_post hrec (hok r (List.mem_cons_self ..)) hc h1
      obtain ⟨q1, q2, q3, q4, q5⟩ := addRules_post hrec rs st1 st' (fun r hr => hok r (List.mem_cons_of_mem _ hr)) p1.cache h
      refine ⟨q1, fun e he => q2 e (p1.mono e he), ?_, ?_, ?_⟩
      · intro r' hr' e he
        rcases List.mem_cons.1 hr' with rfl | hr'
        · exact q2 e (p1.here e he)
        · exact q3 r' hr' e he
      · intro e he
        rcases q4 e he with h | ⟨r', hr', h⟩
        · rcases p1.sound e h with h | h
          · exact Or.inl h
          · exact Or.inr ⟨r, List.mem_cons_self .., h⟩
        · exact Or.inr ⟨r', List.mem_cons_of_mem _ hr', h⟩
      · intro e he hn e' hg
        by_cases h2 : In st1.set e
        · exact q2 e' (p1.closed e h2 hn e' hg)
        · exact q5 e he h2 e' hg

theorem closureItem_post (hp : Proper first g okI) {rec : LItem → List Item → State → Option State} (hrec : RecOk first g okI rec) {x : Item}
    {i : LItem} {la : List Item} {st st' : State} (hx : i.rule.items[i.dot]? = some x) (hok : okI x) (hc : CacheOk first g st.cache)
    (h : closureItem first rec g x i la st = some st') : Post first g i la st st' := by
  have h' : addRules rec x (fillFollow first i la) (closRules g x) st = some st' := by
    have := hp.empty x hok
    cases x with
    | empty => exact absurd rfl this
    | _ => exact h
  obtain ⟨q1, q2, q3, q4, q5⟩ := addRules_post hrec _ _ _ (hp.rules x hok) hc h'
  refine ⟨q1, q2, ?_, ?_, q5⟩
  · intro e0 e h0 hg
    obtain ⟨r, hr, h⟩ := (gen_iff hx e).1 ⟨e0, h0, hg⟩
    exact q3 r hr e h
  · intro e he
    rcases q4 e he with h | ⟨r, hr, h⟩
    · exact Or.inl h
    · have step : ∀ e1, Of ⟨⟨x, r⟩, 0⟩ (fillFollow first i la) e1 → Reach first g i la e1 := by
        intro e1 h1
        obtain ⟨e0, h0, hg⟩ := (gen_iff hx e1).2 ⟨r, hr, h1⟩
        exact ⟨e0, h0, TransGen.single hg⟩
      rcases h with h | h
      · exact Or.inr (step e h)
      · exact Or.inr (reach_trans step h)

/-- The rules of generated items have proper items. -/
theorem reach_ok (hp : Proper first g okI) {e e' : Elem} (hok : ∀ y ∈ e.1.rule.items, okI y) (h : TransGen (Gen first g) e e') :
    ∀ y ∈ e'.1.rule.items, okI y := by
  have step : ∀ {e e' : Elem}, (∀ y ∈ e.1.rule.items, okI y) → Gen first g e e' → ∀ y ∈ e'.1.rule.items, okI y := by
    intro e e' he hg
    cases hg with
    | item hx hr => exact hp.rules _ (he _ (List.mem_of_getElem? hx)) _ hr
    | first hx hr hb => exact hp.rules _ (he _ (List.mem_of_getElem? hx)) _ hr
    | pass hx hr hn => exact hp.rules _ (he _ (List.mem_of_getElem? hx)) _ hr
  induction h with
  | single hg => exact step hok hg
  | tail _ hg ih => exact step ih hg

/-- A proper rule does not generate the end of input. -/
theorem not_begins_eoi (hp : Proper first g okI) {l : List Item} (hok : ∀ y ∈ l, okI y) : ¬ Begins first l .eoi := by
  rintro ⟨u, x, v, rfl, -, h, -⟩
  exact hp.eoi x (hok x (by simp)) h

/-- Substituting the follow set into the closure of the fake item gives the closure of an item. -/
theorem sub_post (hp : Proper first g okI) {i : LItem} {la : List Item} {x : Item} (hx : i.rule.items[i.dot]? = some x)
    (hok : ∀ y ∈ i.rule.items, okI y) {c : Elem → Prop} (hc : ∀ e, c e ↔ Reach first g (fake x) [.eoi] e) {st : State} {st' : State}
    (hcache : CacheOk first g st'.cache) (hset : ∀ e, In st'.set e ↔ In st.set e ∨ Sub c (fillFollow first i la) e) : Post first g i la st st' := by
  have hfx : (fake x).rule.items[(fake x).dot]? = some x := rfl
  have hokf : ∀ y ∈ (fake x).rule.items, okI y := by
    intro y hy
    rw [List.mem_singleton.1 hy]
    exact hok x (List.mem_of_getElem? hx)
  have hcok : ∀ e, c e → ∀ y ∈ e.1.rule.items, okI y := by
    intro e he
    obtain ⟨⟨j, o⟩, ⟨h0, -⟩, h⟩ := (hc e).1 he
    dsimp only at h0
    subst h0
    exact reach_ok hp hokf h
  have hcgen : ∀ e e', c e → Gen first g e e' → c e' := by
    intro e e' he hg
    obtain ⟨e0, h0, h⟩ := (hc e).1 he
    exact (hc e').2 ⟨e0, h0, h.tail hg⟩
  have hcdir : ∀ r ∈ closRules g x, c (⟨⟨x, r⟩, 0⟩, none) ∧ c (⟨⟨x, r⟩, 0⟩, some .eoi) := by
    intro r hr
    constructor
    · exact (hc _).2 ⟨(fake x, none), ⟨rfl, by simp⟩, TransGen.single (.item hfx hr)⟩
    · exact (hc _).2 ⟨(fake x, some .eoi), ⟨rfl, by simp⟩, TransGen.single (.pass hfx hr (nullable_nil _))⟩
  have hcnone : ∀ j o, c (j, o) → c (j, none) := by
    intro j o h
    obtain ⟨e0, ⟨h0, h0'⟩, h⟩ := (hc _).1 h
    obtain ⟨j0, o0⟩ := e0
    cases h with
    | single hg => exact (hc _).2 ⟨(j0, none), ⟨h0, by simp⟩, TransGen.single (gen_none hg)⟩
    | @tail b _ hb hg => exact (hc _).2 ⟨(j0, o0), ⟨h0, h0'⟩, hb.tail (gen_weaken (gen_none (i := b.1) (o := b.2) hg))⟩
  -- what the closure of the fake item is a part of
  have hreach : ∀ e0 e, Of (fake x) [.eoi] e0 → TransGen (Gen first g) e0 e → TransGen (Gen first g) (i, none) (e.1, none) ∧
      (∀ b, e.2 = some b → b ≠ .eoi → TransGen (Gen first g) (i, none) e) ∧
      (e.2 = some .eoi → ∀ b ∈ fillFollow first i la, Reach first g i la (e.1, some b)) := by
    rintro ⟨j0, o0⟩ e ⟨h0, h0'⟩ h
    dsimp only at h0 h0'
    subst h0
    induction h with
    | @single e hg =>
      obtain ⟨r, hr, h1, h2⟩ := (gen_iff (la := [.eoi]) hfx e).1 ⟨(fake x, o0), ⟨rfl, h0'⟩, hg⟩
      have hff : ∀ b, b ∈ fillFollow first (fake x) [.eoi] → b = .eoi := by
        intro b hb
        rcases (mem_fillFollow ..).1 hb with ⟨u, y, v, h, -⟩ | ⟨-, h⟩
        · cases u <;> cases h
        · exact List.mem_singleton.1 h
      refine ⟨?_, ?_, ?_⟩
      · rw [h1]; exact TransGen.single (.item hx hr)
      · intro b hb hn
        exact absurd (hff b (h2 b hb)) hn
      · intro _ b hb
        obtain ⟨e0, h3, h4⟩ := (gen_iff (g := g) (la := la) hx (e.1, some b)).2 ⟨r, hr, h1, fun a ha => by cases ha; exact hb⟩
        exact ⟨e0, h3, TransGen.single h4⟩
    | @tail e e' hb hg ih =>
      obtain ⟨ih1, ih2, ih3⟩ := ih
      obtain ⟨j, o⟩ := e
      have hoke : ∀ y ∈ j.rule.items, okI y := hcok (j, o) ((hc _).2 ⟨_, ⟨rfl, h0'⟩, hb⟩)
      refine ⟨ih1.tail (gen_none hg), ?_, ?_⟩
      · intro b hb' hn
        rcases gen_cases hg with h | ⟨a, rfl, h2, -⟩
        · exact ih1.tail h
        · rw [hb'] at h2
          cases h2
          exact (ih2 b rfl hn).tail hg
      · intro he b hb'
        rcases gen_cases hg with h | ⟨a, rfl, h2, h3⟩
        · obtain ⟨j', o'⟩ := e'
          dsimp only at he
          subst he
          cases h with
          | first hx' hr hb'' => exact absurd hb'' (not_begins_eoi hp (fun y hy => hoke y (List.mem_of_mem_drop hy)))
        · rw [he] at h2
          cases h2
          obtain ⟨e1, h4, h5⟩ := ih3 rfl b hb'
          exact ⟨e1, h4, h5.tail (h3 b)⟩
  refine ⟨hcache, fun e he => (hset e).2 (Or.inl he), ?_, ?_, ?_⟩
  · intro e0 e h0 hg
    obtain ⟨r, hr, h1, h2⟩ := (gen_iff hx e).1 ⟨e0, h0, hg⟩
    obtain ⟨j, o⟩ := e
    dsimp only at h1 h2
    subst h1
    refine (hset _).2 (Or.inr ?_)
    cases o with
    | none => exact Or.inl ⟨(hcdir r hr).1, by simp⟩
    | some b => exact Or.inr ⟨b, rfl, (hcdir r hr).2, h2 b rfl⟩
  · intro e he
    rcases (hset e).1 he with h | ⟨h1, h2⟩ | ⟨b, h1, h2, h3⟩
    · exact Or.inl h
    · obtain ⟨e0, h0, h⟩ := (hc e).1 h1
      obtain ⟨j, o⟩ := e
      obtain ⟨q1, q2, -⟩ := hreach e0 _ h0 h
      cases o with
      | none => exact Or.inr ⟨(i, none), ⟨rfl, by simp⟩, q1⟩
      | some b => exact Or.inr ⟨(i, none), ⟨rfl, by simp⟩, q2 b rfl (fun hb => h2 (by rw [hb]))⟩
    · obtain ⟨e0, h0, h⟩ := (hc _).1 h2
      obtain ⟨j, o⟩ := e
      dsimp only at h1
      subst h1
      exact Or.inr ((hreach e0 _ h0 h).2.2 rfl b h3)
  · intro e he hn e' hg
    refine (hset e').2 (Or.inr ?_)
    rcases (hset e).1 he with h | h
    · exact absurd h hn
    obtain ⟨j, o⟩ := e
    have hj : c (j, none) := by
      rcases h with ⟨h1, -⟩ | ⟨b, -, h1, -⟩
      · exact hcnone _ _ h1
      · exact hcnone _ _ h1
    have hokj := hcok _ hj
    have plain : Gen first g (j, none) e' → Sub c (fillFollow first i la) e' := by
      intro hg'
      refine Or.inl ⟨hcgen _ _ hj hg', ?_⟩
      intro he'
      obtain ⟨j', o'⟩ := e'
      dsimp only at he'
      subst he'
      cases hg' with
      | first hx' hr hb => exact not_begins_eoi hp (fun y hy => hokj y (List.mem_of_mem_drop hy)) hb
    rcases gen_cases hg with h1 | ⟨a, rfl, h2, h3⟩
    · exact plain h1
    · rcases h with ⟨h4, h5⟩ | ⟨b, h4, h5, h6⟩
      · refine Or.inl ⟨hcgen _ _ h4 hg, ?_⟩
        rw [h2]
        exact h5
      · cases h4
        exact Or.inr ⟨a, h2, hcgen _ _ h5 (h3 .eoi), h6⟩

/-- The closure of the fake item is what the cache gets. -/
theorem fake_exact {x : Item} {c : List (Item × Set1)} {r : State} (h : Post first g (fake x) [.eoi] ⟨c, []⟩ r) (e : Elem) :
    In r.set e ↔ Reach first g (fake x) [.eoi] e := by
  have hno : ∀ e, ¬ In [] e := by
    rintro e ⟨la, h, -⟩
    cases h
  constructor
  · intro he
    rcases h.sound e he with h | h
    · exact absurd h (hno e)
    · exact h
  · rintro ⟨e0, h0, ht⟩
    induction ht with
    | single hg => exact h.direct e0 _ h0 hg
    | tail _ hg ih => exact h.closed _ ih (hno _) _ hg

theorem cacheClosure_post (hp : Proper first g okI) (caching : List Item → LItem → Bool) : ∀ (fuel : Nat) (flags : List Item),
    RecOk first g okI (cacheClosure first caching g fuel flags)
  | 0, _ => by
    intro i la st st' _ _ h
    cases h
  | fuel + 1, flags => by
    intro i la st st' hok hc h
    unfold cacheClosure at h
    cases hx : i.rule.items[i.dot]? with
    | none => rw [hx] at h; cases h
    | some x =>
      rw [hx] at h
      have hokx := hok x (List.mem_of_getElem? hx)
      dsimp only at h
      by_cases hr : caching flags i = true
      · rw [if_pos hr] at h
        exact closureItem_post hp (cacheClosure_post hp caching fuel flags) hx hokx hc h
      · rw [if_neg hr] at h
        by_cases he : ((get x st.cache).getD []).isEmpty = true
        · rw [if_pos he] at h
          cases h1 : closureItem first (cacheClosure first caching g fuel (x :: flags)) g x (fake x) [.eoi] ⟨st.cache, []⟩ with
          | none => rw [h1] at h; cases h
          | some r =>
            rw [h1] at h
            cases h
            have p := closureItem_post hp (cacheClosure_post hp caching fuel (x :: flags)) (i := fake x) (st := ⟨st.cache, []⟩) rfl hokx hc h1
            have hex := fake_exact p
            refine sub_post hp hx hok hex ?_ (fun e => substitute_sub _ _ _ e)
            intro y s hy hs e
            dsimp only at hy
            rw [get_put] at hy
            by_cases hxy : x = y
            · rw [if_pos hxy] at hy
              cases hy
              subst hxy
              exact hex e
            · rw [if_neg hxy] at hy
              exact p.cache y s hy hs e
        · rw [if_neg he] at h
          cases h
          cases hg : get x st.cache with
          | none => rw [hg] at he; exact absurd rfl he
          | some s =>
            have hs : s ≠ [] := by
              rintro rfl
              rw [hg] at he
              exact he rfl
            refine sub_post hp hx hok (hc x s hg hs) hc (fun e => ?_)
            exact substitute_sub _ _ _ e

/-- C56: whichever flags are found set, if `cache_closure` returns then it has added exactly the LR(1) closure of the item, and the sets
in the cache are right. -/
theorem closure_exact (hp : Proper first g okI) (caching : List Item → LItem → Bool) (fuel : Nat) (flags : List Item) (i : LItem)
    (la : List Item) (cache : List (Item × Set1)) (st' : State) (hok : ∀ y ∈ i.rule.items, okI y) (hc : CacheOk first g cache)
    (h : cacheClosure first caching g fuel flags i la ⟨cache, []⟩ = some st') :
    (∀ e, In st'.set e ↔ Reach first g i la e) ∧ CacheOk first g st'.cache := by
  have p := cacheClosure_post hp caching fuel flags i la _ _ hok hc h
  have hno : ∀ e, ¬ In [] e := by
    rintro e ⟨la, h, -⟩
    cases h
  refine ⟨fun e => ⟨fun he => ?_, ?_⟩, p.cache⟩
  · rcases p.sound e he with h | h
    · exact absurd h (hno e)
    · exact h
  · rintro ⟨e0, h0, ht⟩
    induction ht with
    | single hg => exact p.direct e0 _ h0 hg
    | tail _ hg ih => exact p.closed _ ih (hno _) _ hg

end

/-! Termination -/

/-- One entry for each LR(0) item. -/
def Keys (s : Set1) : Prop := (s.map Prod.fst).Nodup

theorem insert_fst (i : LItem) (la : List Item) : ∀ s : Set1, ((insert i la s).1.map Prod.fst = s.map Prod.fst) ∨
    (i ∉ s.map Prod.fst ∧ (insert i la s).1.map Prod.fst = s.map Prod.fst ++ [i])
  | [] => Or.inr ⟨by simp, rfl⟩
  | (j, old) :: s => by
    unfold insert
    by_cases hj : j = i
    · rw [if_pos hj]
      split <;> exact Or.inl rfl
    · rw [if_neg hj]
      rcases insert_fst i la s with h | ⟨h1, h2⟩
      · exact Or.inl (by rw [List.map_cons, List.map_cons, h])
      · refine Or.inr ⟨?_, by rw [List.map_cons, List.map_cons, h2, List.cons_append]⟩
        rw [List.map_cons, List.mem_cons]
        rintro (h | h)
        · exact hj h.symm
        · exact h1 h

theorem insert_keys {s : Set1} (h : Keys s) (i : LItem) (la : List Item) : Keys (insert i la s).1 := by
  unfold Keys at *
  rcases insert_fst i la s with h1 | ⟨h1, h2⟩
  · rw [h1]; exact h
  · rw [h2, List.nodup_append]
    refine ⟨h, by simp, ?_⟩
    rintro a ha b hb rfl
    rw [List.mem_singleton.1 hb] at ha
    exact h1 ha

theorem substitute_keys (follow : List Item) : ∀ (c s : Set1), Keys s → Keys (substitute follow c s)
  | [], _, h => h
  | (_, _) :: c, _, h => substitute_keys follow c _ (insert_keys h _ _)

/-- A change is a new element. -/
theorem insert_changed (i : LItem) (la : List Item) : ∀ s : Set1, Keys s → (insert i la s).2 = true → ∃ e, Of i la e ∧ ¬ In s e
  | [], _, _ => ⟨(i, none), ⟨rfl, by simp⟩, by rintro ⟨_, h, -⟩; cases h⟩
  | (j, old) :: s, hk, h => by
    obtain ⟨hk1, hk2⟩ := List.nodup_cons.1 hk
    unfold insert at h
    by_cases hj : j = i
    · rw [if_pos hj] at h
      by_cases ha : ∀ a ∈ la, a ∈ old
      · rw [if_pos ha] at h; cases h
      · obtain ⟨a, h1, h2⟩ : ∃ a, a ∈ la ∧ a ∉ old := by
          by_contra hne
          exact ha fun a h1 => by
            by_contra h2
            exact hne ⟨a, h1, h2⟩
        refine ⟨(i, some a), ⟨rfl, fun b hb => by cases hb; exact h1⟩, ?_⟩
        rintro ⟨l, h3, h4⟩
        rcases List.mem_cons.1 h3 with h5 | h5
        · cases h5
          exact h2 (h4 a rfl)
        · refine hk1 ?_
          rw [show (j, old).1 = i from hj]
          exact List.mem_map.2 ⟨_, h5, rfl⟩
    · rw [if_neg hj] at h
      obtain ⟨e, h1, h2⟩ := insert_changed i la s hk2 h
      refine ⟨e, h1, ?_⟩
      rintro ⟨l, h3, h4⟩
      rcases List.mem_cons.1 h3 with h5 | h5
      · refine hj ?_
        rw [← h1.1]
        exact (congrArg Prod.fst h5).symm
      · exact h2 ⟨l, h5, h4⟩

/-- A function for `cache_closure` that leaves one entry for each LR(0) item. -/
def RecKeys (rec : LItem → List Item → State → Option State) : Prop := ∀ i la st st', Keys st.set → rec i la st = some st' → Keys st'.set

theorem insertClosureItem_keys {rec : LItem → List Item → State → Option State} (hrec : RecKeys rec) {i : LItem} {la : List Item}
    {st st' : State} (hk : Keys st.set) (h : insertClosureItem rec i la st = some st') : Keys st'.set := by
  have hk' := insert_keys hk i la
  unfold insertClosureItem at h
  dsimp only at h
  split at h
  · cases h; exact hk'
  · cases h; exact hk'
  · split at h
    · exact hrec _ _ _ _ hk' h
    · cases h; exact hk'

theorem addRules_keys {rec : LItem → List Item → State → Option State} (hrec : RecKeys rec) {x : Item} {follow : List Item} :
    ∀ (rs : List (List Item)) (st st' : State), Keys st.set → addRules rec x follow rs st = some st' → Keys st'.set
  | [], _, _, hk, h => by cases h; exact hk
  | r :: rs, st, st', hk, h => by
    unfold addRules at h
    cases h1 : insertClosureItem rec ⟨⟨x, r⟩, 0⟩ follow st with
    | none => rw [h1] at h; cases h
    | some st1 =>
      rw [h1] at h
      exact addRules_keys hrec rs st1 st' (insertClosureItem_keys hrec hk h1) h

theorem closureItem_keys (first : Item → List Item) {rec : LItem → List Item → State → Option State} (hrec : RecKeys rec) {g : Gram} {x : Item}
    {i : LItem} {la : List Item} {st st' : State} (hk : Keys st.set) (h : closureItem first rec g x i la st = some st') : Keys st'.set := by
  cases x with
  | empty => cases h; exact insert_keys hk _ _
  | _ => exact addRules_keys hrec _ _ _ hk h

theorem cacheClosure_keys (first : Item → List Item) (caching : List Item → LItem → Bool) (g : Gram) : ∀ (fuel : Nat) (flags : List Item),
    RecKeys (cacheClosure first caching g fuel flags)
  | 0, _ => by intro _ _ _ _ _ h; cases h
  | fuel + 1, flags => by
    intro i la st st' hk h
    unfold cacheClosure at h
    split at h
    · cases h
    · split at h
      · exact closureItem_keys first (cacheClosure_keys first caching g fuel flags) hk h
      · split at h
        · split at h
          · cases h
          · cases h; exact substitute_keys _ _ _ hk
        · cases h; exact substitute_keys _ _ _ hk

section
variable {first : Item → List Item} {g : Gram} {okI : Item → Prop}

/-- The elements that can be added. -/
def space (g : Gram) (U Sy : List Item) : Finset Elem :=
  ((U.flatMap fun x => (closRules g x).map fun r => (⟨⟨x, r⟩, 0⟩ : LItem)).flatMap fun i => (none :: Sy.map some).map fun o => (i, o)).toFinset

theorem mem_space {U Sy : List Item} {x : Item} {r : List Item} (hx : x ∈ U) (hr : r ∈ closRules g x) {la : List Item} (hl : ∀ a ∈ la, a ∈ Sy)
    {e : Elem} (he : Of ⟨⟨x, r⟩, 0⟩ la e) : e ∈ space g U Sy := by
  obtain ⟨j, o⟩ := e
  obtain ⟨h1, h2⟩ := he
  dsimp only at h1 h2
  subst h1
  unfold space
  rw [List.mem_toFinset, List.mem_flatMap]
  refine ⟨_, List.mem_flatMap.2 ⟨x, hx, List.mem_map.2 ⟨r, hr, rfl⟩⟩, List.mem_map.2 ⟨o, ?_, rfl⟩⟩
  cases o with
  | none => exact List.mem_cons_self ..
  | some a => exact List.mem_cons_of_mem _ (List.mem_map.2 ⟨a, hl a (h2 a rfl), rfl⟩)

noncomputable instance (s : Set1) : DecidablePred (In s) := fun _ => Classical.propDecidable _

/-- The elements that are missing. -/
noncomputable def missing (V : Finset Elem) (s : Set1) : Nat := (V.filter fun e => ¬ In s e).card

theorem missing_le (V : Finset Elem) (s : Set1) : missing V s ≤ V.card := Finset.card_filter_le ..

theorem missing_mono {V : Finset Elem} {s t : Set1} (h : ∀ e, In s e → In t e) : missing V t ≤ missing V s := by
  refine Finset.card_le_card ?_
  intro e he
  rw [Finset.mem_filter] at he ⊢
  exact ⟨he.1, fun hs => he.2 (h e hs)⟩

theorem missing_lt {V : Finset Elem} {s t : Set1} (h : ∀ e, In s e → In t e) {e : Elem} (hV : e ∈ V) (h1 : ¬ In s e) (h2 : In t e) :
    missing V t < missing V s := by
  refine Finset.card_lt_card ((Finset.ssubset_iff_of_subset ?_).2 ⟨e, ?_, ?_⟩)
  · intro e he
    rw [Finset.mem_filter] at he ⊢
    exact ⟨he.1, fun hs => he.2 (h e hs)⟩
  · rw [Finset.mem_filter]
    exact ⟨hV, h1⟩
  · rw [Finset.mem_filter]
    exact fun h3 => h3.2 h2

/-- Following symbols are in FIRST of something, or lookahead symbols. -/
theorem fillFollow_mem {Sy : List Item} (hfirst : ∀ x, okI x → ∀ b ∈ first x, b ∈ Sy) {i : LItem} {la : List Item}
    (hok : ∀ y ∈ i.rule.items, okI y) (hl : ∀ a ∈ la, a ∈ Sy) : ∀ a ∈ fillFollow first i la, a ∈ Sy := by
  intro a ha
  rcases (mem_fillFollow ..).1 ha with ⟨u, x, v, h, -, hb, -⟩ | ⟨-, h⟩
  · refine hfirst x (hok x (List.mem_of_mem_drop (i := i.dot + 1) ?_)) a hb
    rw [h]
    simp
  · exact hl a h

/-- The loop over the rules ends if the recursive calls with fewer elements missing end. -/
theorem addRules_total {V : Finset Elem} {U Sy : List Item} (hV : V = space g U Sy) {M : Nat} {rec : LItem → List Item → State → Option State} (hrec : RecOk first g okI rec) (hkeys : RecKeys rec)
    {x : Item} (hx : x ∈ U) {follow : List Item} (hl : ∀ a ∈ follow, a ∈ Sy) (htotal : ∀ r ∈ closRules g x, ∀ st : State, r ≠ [] → (∀ y ∈ r, okI y) → CacheOk first g st.cache →
      Keys st.set → missing V st.set < M → ∃ st', rec ⟨⟨x, r⟩, 0⟩ follow st = some st') :
    ∀ (rs : List (List Item)) (st : State), (∀ r ∈ rs, r ∈ closRules g x) → (∀ r ∈ rs, ∀ y ∈ r, okI y) → CacheOk first g st.cache → Keys st.set →
      missing V st.set ≤ M → ∃ st', addRules rec x follow rs st = some st'
  | [], st, _, _, _, _, _ => ⟨st, rfl⟩
  | r :: rs, st, hrs, hok, hc, hk, hm => by
    have hr := hrs r (List.mem_cons_self ..)
    obtain ⟨st1, h1⟩ : ∃ st1, insertClosureItem rec ⟨⟨x, r⟩, 0⟩ follow st = some st1 := by
      have general : r ≠ [] → ∃ st1, (if (insert ⟨⟨x, r⟩, 0⟩ follow st.set).2 then
          rec ⟨⟨x, r⟩, 0⟩ follow { st with set := (insert ⟨⟨x, r⟩, 0⟩ follow st.set).1 }
          else some { st with set := (insert ⟨⟨x, r⟩, 0⟩ follow st.set).1 }) = some st1 := by
        intro hne
        by_cases hch : (insert ⟨⟨x, r⟩, 0⟩ follow st.set).2 = true
        · rw [if_pos hch]
          obtain ⟨e, he, hn⟩ := insert_changed _ _ _ hk hch
          refine htotal r hr _ hne (hok r (List.mem_cons_self ..)) hc (insert_keys hk _ _) (Nat.lt_of_lt_of_le ?_ hm)
          refine missing_lt (fun e he => (in_insert ..).2 (Or.inl he)) (e := e) ?_ hn ((in_insert ..).2 (Or.inr he))
          rw [hV]
          exact mem_space hx hr hl he
        · rw [if_neg hch]
          exact ⟨_, rfl⟩
      unfold insertClosureItem
      cases r with
      | nil => exact ⟨_, rfl⟩
      | cons y l =>
        cases y with
        | terminal n => exact ⟨_, rfl⟩
        | empty => exact general (by simp)
        | eoi => exact general (by simp)
        | eog => exact general (by simp)
        | nonterminal n => exact general (by simp)
        | guard p q => exact general (by simp)
        | ebnf k q => exact general (by simp)
    have p1 := insertClosureItem_post hrec (hok r (List.mem_cons_self ..)) hc h1
    obtain ⟨st', h2⟩ := addRules_total hV hrec hkeys hx hl htotal rs st1 (fun r hr => hrs r (List.mem_cons_of_mem _ hr))
      (fun r hr => hok r (List.mem_cons_of_mem _ hr)) p1.cache (insertClosureItem_keys hkeys hk h1) (Nat.le_trans (missing_mono p1.mono) hm)
    refine ⟨st', ?_⟩
    unfold addRules
    rw [h1]
    exact h2

/-- The flag as it is set when equal items are one object. -/
def shared (flags : List Item) (i : LItem) : Bool :=
  match i.rule.items[i.dot]? with
  | none => false
  | some x => decide (x ∈ flags)

theorem cacheClosure_total (hp : Proper first g okI) {U Sy : List Item} (hU : ∀ x, okI x → x ∈ U) (hfirst : ∀ x, okI x → ∀ b ∈ first x, b ∈ Sy)
    (heoi : .eoi ∈ Sy) {V : Finset Elem} (hV : V = space g U Sy) : ∀ (m : Nat) (flags : List Item) (i : LItem) (la : List Item) (st : State),
    (U.length - flags.length) * (V.card + 1) + missing V st.set ≤ m → flags.Nodup → (∀ x ∈ flags, x ∈ U) → i.dot < i.rule.items.length →
    (∀ y ∈ i.rule.items, okI y) → (∀ a ∈ la, a ∈ Sy) → CacheOk first g st.cache → Keys st.set →
    ∃ st', cacheClosure first shared g (m + 1) flags i la st = some st' := by
  intro m
  induction m using Nat.strong_induction_on with
  | _ m ih =>
    intro flags i la st hm hnd hsub hdot hok hla hc hk
    obtain ⟨x, hx⟩ : ∃ x, i.rule.items[i.dot]? = some x := ⟨_, List.getElem?_eq_getElem hdot⟩
    have hokx := hok x (List.mem_of_getElem? hx)
    have hxU := hU x hokx
    have key : ∀ (flags' : List Item) (j : LItem) (la' : List Item) (st0 : State), flags'.Nodup → (∀ y ∈ flags', y ∈ U) →
        (∀ y ∈ j.rule.items, okI y) → (∀ a ∈ la', a ∈ Sy) → CacheOk first g st0.cache → Keys st0.set →
        (U.length - flags'.length) * (V.card + 1) + missing V st0.set ≤ m →
        ∃ st', closureItem first (cacheClosure first shared g m flags') g x j la' st0 = some st' := by
      intro flags' j la' st0 hnd' hsub' hok' hla' hc' hk' hm'
      have hne := hp.empty x hokx
      have : ∃ st', addRules (cacheClosure first shared g m flags') x (fillFollow first j la') (closRules g x) st0 = some st' := by
        refine addRules_total (M := m - (U.length - flags'.length) * (V.card + 1)) hV (cacheClosure_post hp _ _ _) (cacheClosure_keys _ _ _ _ _) hxU
          (fillFollow_mem hfirst hok' hla') ?_ _ _ (fun _ h => h) (hp.rules x hokx) hc' hk' (by omega)
        intro r hr st1 hrne hokr hc1 hk1 hm1
        have hm0 : m = (m - 1) + 1 := by omega
        rw [hm0]
        refine ih (m - 1) (by omega) flags' _ _ st1 (by omega) hnd' hsub' ?_ hokr (fillFollow_mem hfirst hok' hla') hc1 hk1
        cases r with
        | nil => exact absurd rfl hrne
        | cons => simp
      cases x with
      | empty => exact absurd rfl hne
      | _ => exact this
    unfold cacheClosure
    rw [hx]
    dsimp only
    by_cases hf : x ∈ flags
    · rw [if_pos (by unfold shared; rw [hx]; exact decide_eq_true hf)]
      exact key flags i la st hnd hsub hok hla hc hk hm
    · rw [if_neg (by unfold shared; rw [hx]; simpa using hf)]
      by_cases he : ((get x st.cache).getD []).isEmpty = true
      · rw [if_pos he]
        have hlen : flags.length < U.length := by
          have hnd2 : (x :: flags).Nodup := List.nodup_cons.2 ⟨hf, hnd⟩
          have := (hnd2.subperm (l₂ := U) (fun y hy => by
            rcases List.mem_cons.1 hy with rfl | hy
            · exact hxU
            · exact hsub y hy)).length_le
          rw [List.length_cons] at this
          omega
        obtain ⟨r, hr⟩ := key (x :: flags) (fake x) [.eoi] ⟨st.cache, []⟩ (List.nodup_cons.2 ⟨hf, hnd⟩)
          (fun y hy => by
            rcases List.mem_cons.1 hy with rfl | hy
            · exact hxU
            · exact hsub y hy)
          (fun y hy => by rw [List.mem_singleton.1 hy]; exact hokx)
          (fun a ha => by rw [List.mem_singleton.1 ha]; exact heoi) hc List.nodup_nil (by
            dsimp only
            have := missing_le V []
            obtain ⟨k, hk⟩ : ∃ k, U.length - flags.length = k + 1 := ⟨U.length - flags.length - 1, by omega⟩
            have hk2 : U.length - (x :: flags).length = k := by rw [List.length_cons]; omega
            rw [hk, Nat.add_mul] at hm
            rw [hk2]
            omega)
        rw [hr]
        exact ⟨_, rfl⟩
      · rw [if_neg he]
        exact ⟨_, rfl⟩

/-- C56: `cache_closure` returns for every item of a finite grammar, with exactly the closure (`closure_exact`). -/
theorem closure_terminates (hp : Proper first g okI) {U Sy : List Item} (hU : ∀ x, okI x → x ∈ U) (hfirst : ∀ x, okI x → ∀ b ∈ first x, b ∈ Sy)
    {i : LItem} (hdot : i.dot < i.rule.items.length) (hok : ∀ y ∈ i.rule.items, okI y) (la : List Item) {cache : List (Item × Set1)}
    (hc : CacheOk first g cache) : ∃ fuel st', cacheClosure first shared g fuel [] i la ⟨cache, []⟩ = some st' :=
  ⟨_, cacheClosure_total (Sy := .eoi :: la ++ Sy) hp hU (fun x hx b hb => List.mem_append_right _ (hfirst x hx b hb)) (by simp) rfl _ [] i la ⟨cache, []⟩ (Nat.le_refl _)
    List.nodup_nil (fun _ h => (List.not_mem_nil h).elim) hdot hok (fun a ha => by simp [ha]) hc List.nodup_nil⟩

end

/-! Examples -/

/-- `A → A y | B B`, `B → x | ε`. -/
def exGram : Gram := ⟨fun n => if n = 1 then [[.nonterminal 1, .terminal 2], [.nonterminal 2, .nonterminal 2]]
  else if n = 2 then [[.terminal 1], []] else []⟩

def exFirst : Item → List Item
  | .nonterminal 1 => [.nonterminal 1, .nonterminal 2, .terminal 1, .terminal 2, .empty]
  | .nonterminal 2 => [.nonterminal 2, .terminal 1, .empty]
  | x => [x]

/-- The items of the example. -/
def exOk (x : Item) : Prop := x = .nonterminal 1 ∨ x = .nonterminal 2 ∨ x = .terminal 1 ∨ x = .terminal 2

example : Proper exFirst exGram exOk := by
  refine ⟨?_, ?_, ?_⟩
  · rintro x (rfl | rfl | rfl | rfl) <;> decide
  · rintro x (rfl | rfl | rfl | rfl) <;> decide
  · rintro x (rfl | rfl | rfl | rfl) r hr y hy
    · simp only [closRules, exGram, if_true, List.mem_cons, List.not_mem_nil, or_false] at hr
      rcases hr with rfl | rfl <;> simp only [List.mem_cons, List.not_mem_nil, or_false] at hy <;> rcases hy with rfl | rfl <;> simp [exOk]
    · have hr : r ∈ [[Item.terminal 1], []] := hr
      rcases List.mem_cons.1 hr with rfl | hr
      · rw [List.mem_singleton.1 hy]; simp [exOk]
      · rw [List.mem_singleton.1 hr] at hy; cases hy
    · cases hr
    · cases hr

/-- The closure of `S → · A y, z`: `B → · x` gets the lookaheads of both places in `B B`. -/
example : (cacheClosure exFirst shared exGram 20 [] ⟨⟨.nonterminal 0, [.nonterminal 1, .terminal 2]⟩, 0⟩ [.terminal 3] ⟨[], []⟩).map
    (fun st => st.set.map fun p => (p.1.rule.items, p.2.eraseDups)) = some
    [([.nonterminal 1, .terminal 2], [.terminal 2]), ([.nonterminal 2, .nonterminal 2], [.terminal 2]),
      ([.terminal 1], [.nonterminal 2, .terminal 1, .terminal 2]), ([], [.nonterminal 2, .terminal 1, .terminal 2])] := by
  decide +kernel

/-- A rule with an explicit empty item: the closure of `A → · ε x` should have `A → ε · x` and nothing else; with the cache it has the item
`$ → ε ·` of the fake rule, with the lookahead of whatever follows, and `A → ε · x` is missing. -/
theorem closure_empty_violated : ∃ (i : LItem) (la : List Item) (st : State),
    closureItem exFirst (fun _ _ _ => none) exGram .empty i la ⟨[], []⟩ = some ⟨[], [(⟨i.rule, 1⟩, la)]⟩ ∧
    cacheClosure exFirst shared exGram 1 [] i la ⟨[], []⟩ = some st ∧
    (∀ la', (⟨i.rule, 1⟩, la') ∉ st.set) ∧ (⟨⟨.eoi, [.empty]⟩, 1⟩, [.terminal 1]) ∈ st.set := by
  refine ⟨⟨⟨.nonterminal 0, [.empty, .terminal 1]⟩, 0⟩, [.terminal 3], ⟨[(.empty, [(⟨⟨.eoi, [.empty]⟩, 1⟩, [.eoi])])], [(⟨⟨.eoi, [.empty]⟩, 1⟩, [.terminal 1])]⟩,
    by rfl, by rfl, ?_, by simp⟩
  intro la' h
  rw [List.mem_singleton] at h
  cases h

end Closure
end TameParse

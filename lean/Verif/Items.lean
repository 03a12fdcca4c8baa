import Mathlib.Order.Compare
import Mathlib.Tactic.SplitIfs
/-
Grammar items and their ordering.

Sources: /repo/TameParse/ContextFree/item.h 128-180 (kinds), item.cpp 49-104 (comparison), ebnf_items.cpp 87-151, guard.cpp 111-166,
rule.cpp 78-134.

An EBNF item holds the right-hand sides of its rules; their nonterminal is the item itself. A rule outside items is a pair of a
nonterminal (any item) and a right-hand side. The code orders items by calling `<` both ways; here this is one three-way comparison
(`cmp_swap` shows that the two calls agree). Not modelled: the keys attached to the items of a rule (they do not take part in
comparisons), items of kind `other` (there are none), and the pointer shortcuts `&compareTo == this`.
-/
namespace TameParse

inductive EbnfKind | optional | repeating | repeatZero | alternative
deriving DecidableEq

inductive Item
  | empty
  | eoi
  | eog
  | terminal (n : Int)
  | nonterminal (n : Int)
  | guard (priority : Int) (rule : List Item)
  | ebnf (kind : EbnfKind) (rules : List (List Item))

def EbnfKind.num : EbnfKind → Nat
  | .optional => 0x100
  | .repeating => 0x101
  | .repeatZero => 0x102
  | .alternative => 0x103

namespace Item

/-- `type` (the order of the enumeration in item.h). -/
def kind : Item → Nat
  | empty => 0
  | eoi => 1
  | eog => 2
  | terminal _ => 3
  | nonterminal _ => 4
  | guard _ _ => 5
  | ebnf k _ => k.num

/- `item::compare` (item.cpp 66-104) with `ebnf::operator<` (ebnf_items.cpp 123-151), `guard::operator<` (guard.cpp 141-166) and
`rule::compare_items` (rule.cpp 78-93). -/
mutual
def cmp : Item → Item → Ordering
  | empty, b => compare 0 b.kind
  | eoi, b => compare 1 b.kind
  | eog, b => compare 2 b.kind
  | terminal n, b => (compare 3 b.kind).then (match b with | terminal m => compare n m | _ => .eq)
  | nonterminal n, b => (compare 4 b.kind).then (match b with | nonterminal m => compare n m | _ => .eq)
  | guard p r, b => (compare 5 b.kind).then
      (match b with | guard q s => (compare p q).then ((compare r.length s.length).then (cmpItems r s)) | _ => .eq)
  | ebnf k rs, b => (compare k.num b.kind).then
      (match b with | ebnf _ ss => (compare rs.length ss.length).then (cmpRules rs ss) | _ => .eq)

def cmpItems : List Item → List Item → Ordering
  | a :: r, b :: s => (cmp a b).then (cmpItems r s)
  | [], _ => .eq
  | _ :: _, [] => .eq

def cmpRules : List (List Item) → List (List Item) → Ordering
  | r :: rs, s :: ss => ((compare r.length s.length).then (cmpItems r s)).then (cmpRules rs ss)
  | [], _ => .eq
  | _ :: _, [] => .eq
end

theorem then_eq (a b : Ordering) : a.then b = .eq ↔ a = .eq ∧ b = .eq := by cases a <;> cases b <;> decide

theorem then_lt (a b : Ordering) : a.then b = .lt ↔ a = .lt ∨ a = .eq ∧ b = .lt := by cases a <;> cases b <;> decide

theorem then_swap (a b : Ordering) : (a.then b).swap = a.swap.then b.swap := by cases a <;> rfl

theorem icmp_eq (a b : Int) : compare a b = .eq ↔ a = b := by
  show compareOfLessAndEq a b = _ ↔ _
  unfold compareOfLessAndEq
  split_ifs <;> simp <;> omega

theorem icmp_lt (a b : Int) : compare a b = .lt ↔ a < b := by
  show compareOfLessAndEq a b = _ ↔ _
  unfold compareOfLessAndEq
  split_ifs <;> simp <;> omega

theorem icmp_swap (a b : Int) : (compare a b).swap = compare b a := by
  rcases Int.lt_trichotomy a b with h | h | h
  · rw [(icmp_lt a b).2 h]
    show _ = compareOfLessAndEq b a
    unfold compareOfLessAndEq
    split_ifs <;> first | rfl | omega
  · rw [(icmp_eq a b).2 h, (icmp_eq b a).2 h.symm]; rfl
  · rw [(icmp_lt b a).2 h]
    show (compareOfLessAndEq a b).swap = _
    unfold compareOfLessAndEq
    split_ifs <;> first | rfl | omega

theorem ncmp_swap (a b : Nat) : (compare a b).swap = compare b a := Nat.compare_swap a b

theorem kind_num_inj {k l : EbnfKind} (h : k.num = l.num) : k = l := by
  cases k <;> cases l <;> simp_all [EbnfKind.num]

theorem num_ge (k : EbnfKind) : 0x100 ≤ k.num := by cases k <;> decide

mutual
theorem cmp_refl : ∀ a : Item, cmp a a = .eq
  | empty | eoi | eog => by simp [cmp, kind]
  | terminal n | nonterminal n => by simp [cmp, kind]
  | guard p r => by simp [cmp, cmpItems_refl r, kind]
  | ebnf k rs => by simp [cmp, cmpRules_refl rs, kind]

theorem cmpItems_refl : ∀ r : List Item, cmpItems r r = .eq
  | [] => by simp [cmpItems]
  | a :: r => by simp [cmpItems, cmp_refl a, cmpItems_refl r]

theorem cmpRules_refl : ∀ rs : List (List Item), cmpRules rs rs = .eq
  | [] => by simp [cmpRules]
  | r :: rs => by simp [cmpRules, cmpItems_refl r, cmpRules_refl rs]
end

/-- Smaller kinds come first. -/
theorem cmp_kind {a b : Item} (h : a.kind ≠ b.kind) : cmp a b = compare a.kind b.kind := by
  have key : ∀ {x y : Nat} (o : Ordering), x ≠ y → (compare x y).then o = compare x y := by
    intro x y o hxy
    rcases Nat.lt_or_gt_of_ne hxy with h | h
    · rw [Nat.compare_eq_lt.2 h]; rfl
    · rw [Nat.compare_eq_gt.2 h]; rfl
  cases a <;> simp only [kind, cmp] at h ⊢
  all_goals exact key _ h

theorem cmp_terminal (n m : Int) : cmp (terminal n) (terminal m) = compare n m := by simp [cmp, kind]
theorem cmp_nonterminal (n m : Int) : cmp (nonterminal n) (nonterminal m) = compare n m := by simp [cmp, kind]
theorem cmp_guard (p q : Int) (r s : List Item) :
    cmp (guard p r) (guard q s) = (compare p q).then ((compare r.length s.length).then (cmpItems r s)) := by simp [cmp, kind]
theorem cmp_ebnf (k : EbnfKind) (rs ss : List (List Item)) :
    cmp (ebnf k rs) (ebnf k ss) = (compare rs.length ss.length).then (cmpRules rs ss) := by simp [cmp, kind]

theorem cmp_eq_kind {a b : Item} (h : cmp a b = .eq) : a.kind = b.kind := by
  by_contra hk
  rw [cmp_kind hk, Nat.compare_eq_eq] at h
  exact hk h

mutual
theorem cmp_eq : ∀ a b : Item, cmp a b = .eq → a = b
  | empty, b, h => by
    have hk := cmp_eq_kind h
    cases b with
    | empty => rfl
    | ebnf k rs => have := num_ge k; simp only [kind] at hk; omega
    | _ => cases hk
  | eoi, b, h => by
    have hk := cmp_eq_kind h
    cases b with
    | eoi => rfl
    | ebnf k rs => have := num_ge k; simp only [kind] at hk; omega
    | _ => cases hk
  | eog, b, h => by
    have hk := cmp_eq_kind h
    cases b with
    | eog => rfl
    | ebnf k rs => have := num_ge k; simp only [kind] at hk; omega
    | _ => cases hk
  | terminal n, b, h => by
    have hk := cmp_eq_kind h
    cases b with
    | terminal m => rw [cmp_terminal, icmp_eq] at h; rw [h]
    | ebnf k rs => have := num_ge k; simp only [kind] at hk; omega
    | _ => cases hk
  | nonterminal n, b, h => by
    have hk := cmp_eq_kind h
    cases b with
    | nonterminal m => rw [cmp_nonterminal, icmp_eq] at h; rw [h]
    | ebnf k rs => have := num_ge k; simp only [kind] at hk; omega
    | _ => cases hk
  | guard p r, b, h => by
    have hk := cmp_eq_kind h
    cases b with
    | guard q s =>
      simp only [cmp_guard, then_eq, icmp_eq, Nat.compare_eq_eq] at h
      rw [h.1, cmpItems_eq r s h.2.1 h.2.2]
    | ebnf k rs => have := num_ge k; simp only [kind] at hk; omega
    | _ => cases hk
  | ebnf k rs, b, h => by
    have hk := cmp_eq_kind h
    cases b with
    | ebnf l ss =>
      simp only [kind] at hk
      have := kind_num_inj hk
      subst this
      simp only [cmp_ebnf, then_eq, Nat.compare_eq_eq] at h
      rw [cmpRules_eq rs ss h.1 h.2]
    | _ => have := num_ge k; simp only [kind] at hk; omega

theorem cmpItems_eq : ∀ r s : List Item, r.length = s.length → cmpItems r s = .eq → r = s
  | [], [], _, _ => rfl
  | a :: r, b :: s, hl, h => by
    simp only [cmpItems, then_eq] at h
    rw [cmp_eq a b h.1, cmpItems_eq r s (by simpa using hl) h.2]

theorem cmpRules_eq : ∀ r s : List (List Item), r.length = s.length → cmpRules r s = .eq → r = s
  | [], [], _, _ => rfl
  | a :: r, b :: s, hl, h => by
    simp only [cmpRules, then_eq, Nat.compare_eq_eq] at h
    rw [cmpItems_eq a b h.1.1 h.1.2, cmpRules_eq r s (by simpa using hl) h.2]
end

/-- Items the code treats as equal are equal. -/
theorem cmp_eq_iff (a b : Item) : cmp a b = .eq ↔ a = b := ⟨cmp_eq a b, fun h => by rw [h]; exact cmp_refl b⟩

instance : DecidableEq Item := fun a b => decidable_of_iff _ (cmp_eq_iff a b)

mutual
theorem cmp_swap : ∀ a b : Item, (cmp a b).swap = cmp b a
  | a, b => by
    by_cases hk : a.kind = b.kind
    · cases a with
      | terminal n => cases b with
        | terminal m => rw [cmp_terminal, cmp_terminal, icmp_swap]
        | ebnf k rs => have := num_ge k; simp only [kind] at hk; omega
        | _ => cases hk
      | nonterminal n => cases b with
        | nonterminal m => rw [cmp_nonterminal, cmp_nonterminal, icmp_swap]
        | ebnf k rs => have := num_ge k; simp only [kind] at hk; omega
        | _ => cases hk
      | guard p r => cases b with
        | guard q s => simp only [cmp_guard, then_swap, icmp_swap, ncmp_swap, cmpItems_swap r s]
        | ebnf k rs => have := num_ge k; simp only [kind] at hk; omega
        | _ => cases hk
      | ebnf k rs => cases b with
        | ebnf l ss =>
          simp only [kind] at hk
          have := kind_num_inj hk
          subst this
          simp only [cmp_ebnf, then_swap, ncmp_swap, cmpRules_swap rs ss]
        | _ => have := num_ge k; simp only [kind] at hk; omega
      | empty => cases b with
        | empty => simp [cmp, kind]
        | ebnf k rs => have := num_ge k; simp only [kind] at hk; omega
        | _ => cases hk
      | eoi => cases b with
        | eoi => simp [cmp, kind]
        | ebnf k rs => have := num_ge k; simp only [kind] at hk; omega
        | _ => cases hk
      | eog => cases b with
        | eog => simp [cmp, kind]
        | ebnf k rs => have := num_ge k; simp only [kind] at hk; omega
        | _ => cases hk
    · rw [cmp_kind hk, cmp_kind (Ne.symm hk), ncmp_swap]

theorem cmpItems_swap : ∀ r s : List Item, (cmpItems r s).swap = cmpItems s r
  | [], [] => by simp [cmpItems]
  | [], _ :: _ => by simp [cmpItems]
  | _ :: _, [] => by simp [cmpItems]
  | a :: r, b :: s => by simp only [cmpItems, then_swap, cmp_swap a b, cmpItems_swap r s]

theorem cmpRules_swap : ∀ r s : List (List Item), (cmpRules r s).swap = cmpRules s r
  | [], [] => by simp [cmpRules]
  | [], _ :: _ => by simp [cmpRules]
  | _ :: _, [] => by simp [cmpRules]
  | a :: r, b :: s => by simp only [cmpRules, then_swap, ncmp_swap, cmpItems_swap a b, cmpRules_swap r s]
end

theorem cmp_lt_kind {a b : Item} (h : cmp a b = .lt) : a.kind ≤ b.kind := by
  by_contra hk
  rw [cmp_kind (by omega), Nat.compare_eq_lt] at h
  omega

mutual
theorem cmp_trans : ∀ a b c : Item, cmp a b = .lt → cmp b c = .lt → cmp a c = .lt
  | a, b, c, h1, h2 => by
    have k1 := cmp_lt_kind h1
    have k2 := cmp_lt_kind h2
    by_cases hk : a.kind < c.kind
    · rw [cmp_kind (by omega), Nat.compare_eq_lt]; exact hk
    have e1 : a.kind = b.kind := by omega
    have e2 : b.kind = c.kind := by omega
    clear k1 k2 hk
    cases a with
    | terminal n => cases b with
      | terminal m => cases c with
        | terminal l => rw [cmp_terminal, icmp_lt] at *; omega
        | ebnf k rs => have := num_ge k; simp only [kind] at e2; omega
        | _ => cases e2
      | ebnf k rs => have := num_ge k; simp only [kind] at e1; omega
      | _ => cases e1
    | nonterminal n => cases b with
      | nonterminal m => cases c with
        | nonterminal l => rw [cmp_nonterminal, icmp_lt] at *; omega
        | ebnf k rs => have := num_ge k; simp only [kind] at e2; omega
        | _ => cases e2
      | ebnf k rs => have := num_ge k; simp only [kind] at e1; omega
      | _ => cases e1
    | guard p r => cases b with
      | guard q s => cases c with
        | guard t u =>
          simp only [cmp_guard, then_lt, icmp_lt, Nat.compare_eq_lt, icmp_eq, Nat.compare_eq_eq] at h1 h2 ⊢
          rcases h1 with h1 | ⟨h1, h1' | ⟨h1', h1''⟩⟩ <;> rcases h2 with h2 | ⟨h2, h2' | ⟨h2', h2''⟩⟩
          · exact .inl (by omega)
          · exact .inl (by omega)
          · exact .inl (by omega)
          · exact .inl (by omega)
          · exact .inr ⟨by omega, .inl (by omega)⟩
          · exact .inr ⟨by omega, .inl (by omega)⟩
          · exact .inl (by omega)
          · exact .inr ⟨by omega, .inl (by omega)⟩
          · exact .inr ⟨by omega, .inr ⟨by omega, cmpItems_trans r s u h1' h2' h1'' h2''⟩⟩
        | ebnf k rs => have := num_ge k; simp only [kind] at e2; omega
        | _ => cases e2
      | ebnf k rs => have := num_ge k; simp only [kind] at e1; omega
      | _ => cases e1
    | ebnf k rs => cases b with
      | ebnf l ss => cases c with
        | ebnf m ts =>
          simp only [kind] at e1 e2
          have i1 := kind_num_inj e1
          have i2 := kind_num_inj e2
          subst i1
          subst i2
          simp only [cmp_ebnf, then_lt, Nat.compare_eq_lt, Nat.compare_eq_eq] at h1 h2 ⊢
          rcases h1 with h1' | ⟨h1', h1''⟩ <;> rcases h2 with h2' | ⟨h2', h2''⟩
          · exact .inl (by omega)
          · exact .inl (by omega)
          · exact .inl (by omega)
          · exact .inr ⟨by omega, cmpRules_trans rs ss ts h1' h2' h1'' h2''⟩
        | _ => have := num_ge l; simp only [kind] at e2; omega
      | _ => have := num_ge k; simp only [kind] at e1; omega
    | empty => simp only [cmp, Nat.compare_eq_lt] at h1; rw [← e1] at h1; exact absurd h1 (by decide)
    | eoi => simp only [cmp, Nat.compare_eq_lt] at h1; rw [← e1] at h1; exact absurd h1 (by decide)
    | eog => simp only [cmp, Nat.compare_eq_lt] at h1; rw [← e1] at h1; exact absurd h1 (by decide)

theorem cmpItems_trans : ∀ r s t : List Item, r.length = s.length → s.length = t.length → cmpItems r s = .lt → cmpItems s t = .lt →
    cmpItems r t = .lt
  | [], _, _, _, _, h1, _ => by simp [cmpItems] at h1
  | _ :: _, [], _, hl, _, _, _ => by simp at hl
  | _ :: _, _ :: _, [], _, hl, _, _ => by simp at hl
  | a :: r, b :: s, c :: t, hl, hm, h1, h2 => by
    simp only [cmpItems, then_lt] at h1 h2 ⊢
    rcases h1 with h1 | ⟨h1, h1'⟩ <;> rcases h2 with h2 | ⟨h2, h2'⟩
    · exact .inl (cmp_trans a b c h1 h2)
    · rw [cmp_eq_iff] at h2; subst h2; exact .inl h1
    · rw [cmp_eq_iff] at h1; subst h1; exact .inl h2
    · refine .inr ⟨?_, cmpItems_trans r s t (by simpa using hl) (by simpa using hm) h1' h2'⟩
      rw [cmp_eq_iff] at h1 h2 ⊢; rw [h1, h2]

theorem cmpRules_trans : ∀ r s t : List (List Item), r.length = s.length → s.length = t.length → cmpRules r s = .lt → cmpRules s t = .lt →
    cmpRules r t = .lt
  | [], _, _, _, _, h1, _ => by simp [cmpRules] at h1
  | _ :: _, [], _, hl, _, _, _ => by simp at hl
  | _ :: _, _ :: _, [], _, hl, _, _ => by simp at hl
  | a :: r, b :: s, c :: t, hl, hm, h1, h2 => by
    simp only [cmpRules, then_lt, then_eq, Nat.compare_eq_lt, Nat.compare_eq_eq] at h1 h2 ⊢
    rcases h1 with (h1 | ⟨h1, h1'⟩) | ⟨⟨h1, h1'⟩, h1''⟩ <;> rcases h2 with (h2 | ⟨h2, h2'⟩) | ⟨⟨h2, h2'⟩, h2''⟩
    · exact .inl (.inl (by omega))
    · exact .inl (.inl (by omega))
    · exact .inl (.inl (by omega))
    · exact .inl (.inl (by omega))
    · exact .inl (.inr ⟨by omega, cmpItems_trans a b c h1 h2 h1' h2'⟩)
    · have := cmpItems_eq b c h2 h2'
      subst this
      exact .inl (.inr ⟨h1, h1'⟩)
    · exact .inl (.inl (by omega))
    · have := cmpItems_eq a b h1 h1'
      subst this
      exact .inl (.inr ⟨h2, h2'⟩)
    · have e1 := cmpItems_eq a b h1 h1'
      have e2 := cmpItems_eq b c h2 h2'
      subst e1 e2
      exact .inr ⟨⟨rfl, cmpItems_refl a⟩, cmpRules_trans r s t (by simpa using hl) (by simpa using hm) h1'' h2''⟩
end

end Item

/-- A rule: the item it defines and its right-hand side (rule.h). -/
structure Rule where
  nonterminal : Item
  items : List Item
deriving DecidableEq

/-- `rule::operator<` (rule.cpp 96-112). -/
def Rule.cmp (a b : Rule) : Ordering :=
  (compare a.items.length b.items.length).then ((Item.cmp a.nonterminal b.nonterminal).then (Item.cmpItems a.items b.items))

theorem Rule.cmp_eq_iff (a b : Rule) : Rule.cmp a b = .eq ↔ a = b := by
  simp only [Rule.cmp, Item.then_eq, Nat.compare_eq_eq, Item.cmp_eq_iff]
  constructor
  · rintro ⟨h1, h2, h3⟩
    cases a; cases b
    simp only at h1 h2 h3
    rw [h2, Item.cmpItems_eq _ _ h1 h3]
  · rintro rfl
    exact ⟨rfl, rfl, Item.cmpItems_refl _⟩

example : Item.cmp (.ebnf .optional [[.terminal 3, .nonterminal 1]]) (.ebnf .optional [[.terminal 3, .nonterminal 2]]) = .lt ∧
    (Item.ebnf .optional [[.terminal 3]]) ≠ .ebnf .repeating [[.terminal 3]] := by decide

end TameParse

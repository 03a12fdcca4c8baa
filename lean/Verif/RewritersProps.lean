import Verif.Rewriters
import Mathlib.Data.List.Nodup
import Mathlib.Tactic.Tauto
/-
C43: weak symbols: violated for weak symbols that have only reductions; the rest is proved.
C44: ignored symbols.
C45: precedence.
C46: conflicts: violated (accepting actions do not count); the rest is proved.
C47: the LR(1) rewriter only weakens.
-/
namespace TameParse
namespace Rewriters

open ParserTables (isTerminal)

section
variable {α : Type} [DecidableEq α]

theorem mem_add (l : List α) (a b : α) : b ∈ add l a ↔ b ∈ l ∨ b = a := by
  unfold add
  split
  · rename_i h
    constructor
    · exact Or.inl
    · rintro (h1 | rfl)
      · exact h1
      · exact h
  · simp

theorem nodup_add (l : List α) (a : α) (h : l.Nodup) : (add l a).Nodup := by
  unfold add
  split
  · exact h
  · rename_i hn
    rw [List.nodup_append]
    exact ⟨h, by simp, fun x hx y hy => by rw [List.mem_singleton] at hy; subst hy; rintro rfl; exact hn hx⟩

theorem mem_foldl_add : ∀ (m l : List α) (b : α), b ∈ m.foldl add l ↔ b ∈ l ∨ b ∈ m
  | [], l, b => by simp
  | a :: m, l, b => by
    rw [List.foldl_cons, mem_foldl_add m, mem_add, List.mem_cons]
    tauto

theorem nodup_foldl_add : ∀ (m l : List α), l.Nodup → (m.foldl add l).Nodup
  | [], _, h => h
  | a :: m, l, h => nodup_foldl_add m _ (nodup_add l a h)

end

/-- An action made weak. -/
def weaken (a : LrAction) : LrAction := { a with type := .weakreduce }

/-! C44 -/

theorem ignore_fold (ignored : List Item) : ∀ (actions : List LrAction) (p : List LrAction × List Item),
    (∀ a, a ∈ (actions.foldl (ignoreStep ignored) p).1 ↔ a ∈ p.1 ∨ (a ∈ actions ∧ ¬ (a.type = .reduce ∧ a.item ∈ ignored)) ∨
      ∃ b ∈ actions, b.type = .reduce ∧ b.item ∈ ignored ∧ a = weaken b) ∧
    (∀ i, i ∈ (actions.foldl (ignoreStep ignored) p).2 ↔ i ∈ p.2 ∨
      ∃ b ∈ actions, b.item = i ∧ ((b.type = .shift ∧ i ∈ ignored) ∨ b.type = .ignore))
  | [], p => by simp
  | a :: actions, p => by
    obtain ⟨h1, h2⟩ := ignore_fold ignored actions (ignoreStep ignored p a)
    rw [List.foldl_cons]
    have hs : (∀ b, b ∈ (ignoreStep ignored p a).1 ↔ b ∈ p.1 ∨ (b = a ∧ ¬ (a.type = .reduce ∧ a.item ∈ ignored)) ∨
        (a.type = .reduce ∧ a.item ∈ ignored ∧ b = weaken a)) ∧
        (∀ i, i ∈ (ignoreStep ignored p a).2 ↔ i ∈ p.2 ∨ (a.item = i ∧ ((a.type = .shift ∧ i ∈ ignored) ∨ a.type = .ignore))) := by
      cases ht : a.type <;> by_cases hi : a.item ∈ ignored <;> simp only [ignoreStep, ht, hi, if_true, if_false] <;>
        refine ⟨fun b => ?_, fun i => ?_⟩ <;> try rw [mem_add] <;> simp [weaken]
      all_goals (try tauto)
      · constructor
        · rintro (h | rfl)
          · exact Or.inl h
          · exact Or.inr ⟨rfl, hi⟩
        · rintro (h | ⟨rfl, h⟩)
          · exact Or.inl h
          · exact Or.inr rfl
      · constructor
        · exact Or.inl
        · rintro (h | ⟨rfl, ⟨-, h⟩ | h⟩)
          · exact h
          · exact absurd h hi
          · cases h
    refine ⟨fun b => ?_, fun i => ?_⟩
    · rw [h1, hs.1]
      constructor
      · rintro ((h | ⟨rfl, h⟩ | ⟨h, h', h''⟩) | ⟨h, h'⟩ | ⟨c, hc, h⟩)
        · exact Or.inl h
        · exact Or.inr (Or.inl ⟨List.mem_cons_self, h⟩)
        · exact Or.inr (Or.inr ⟨a, List.mem_cons_self, h, h', h''⟩)
        · exact Or.inr (Or.inl ⟨List.mem_cons_of_mem _ h, h'⟩)
        · exact Or.inr (Or.inr ⟨c, List.mem_cons_of_mem _ hc, h⟩)
      · rintro (h | ⟨h, h'⟩ | ⟨c, hc, h⟩)
        · exact Or.inl (Or.inl h)
        · rcases List.mem_cons.1 h with rfl | h
          · exact Or.inl (Or.inr (Or.inl ⟨rfl, h'⟩))
          · exact Or.inr (Or.inl ⟨h, h'⟩)
        · rcases List.mem_cons.1 hc with rfl | hc
          · exact Or.inl (Or.inr (Or.inr h))
          · exact Or.inr (Or.inr ⟨c, hc, h⟩)
    · rw [h2, hs.2]
      constructor
      · rintro ((h | h) | ⟨c, hc, h⟩)
        · exact Or.inl h
        · exact Or.inr ⟨a, List.mem_cons_self, h⟩
        · exact Or.inr ⟨c, List.mem_cons_of_mem _ hc, h⟩
      · rintro (h | ⟨c, hc, h⟩)
        · exact Or.inl (Or.inl h)
        · rcases List.mem_cons.1 hc with rfl | hc
          · exact Or.inl (Or.inr h)
          · exact Or.inr ⟨c, hc, h⟩

theorem foldl_add_if {α β : Type} [DecidableEq α] (c : β → Bool) (f : β → α) : ∀ (m : List β) (l : List α) (b : α),
    b ∈ m.foldl (fun l i => if c i then l else add l (f i)) l ↔ b ∈ l ∨ ∃ i ∈ m, c i = false ∧ b = f i
  | [], l, b => by simp
  | i :: m, l, b => by
    rw [List.foldl_cons, foldl_add_if c f m]
    cases h : c i
    · rw [if_neg (by simp), mem_add]
      simp only [List.mem_cons]
      constructor
      · rintro ((h1 | h1) | ⟨j, h1, h2⟩)
        · exact Or.inl h1
        · exact Or.inr ⟨i, Or.inl rfl, h, h1⟩
        · exact Or.inr ⟨j, Or.inr h1, h2⟩
      · rintro (h1 | ⟨j, rfl | h1, h2⟩)
        · exact Or.inl (Or.inl h1)
        · exact Or.inl (Or.inr h2.2)
        · exact Or.inr ⟨j, h1, h2⟩
    · rw [if_pos rfl]
      simp only [List.mem_cons]
      constructor
      · rintro (h1 | ⟨j, h1, h2⟩)
        · exact Or.inl h1
        · exact Or.inr ⟨j, Or.inr h1, h2⟩
      · rintro (h1 | ⟨j, rfl | h1, h2⟩)
        · exact Or.inl h1
        · rw [h] at h2; cases h2.1
        · exact Or.inr ⟨j, h1, h2⟩

/-- C44. After rewriting there are: the actions that are not reductions on ignored symbols, unchanged; those reductions, made weak; and
an ignore action, staying in the state, for each ignored symbol that has neither a shift nor an ignore action in the state. -/
theorem ignored_rewrite_exact (ignored : List Item) (state : Int) (actions : List LrAction) (a : LrAction) :
    a ∈ rewriteIgnored ignored state actions ↔
      (a ∈ actions ∧ ¬ (a.type = .reduce ∧ a.item ∈ ignored)) ∨
      (∃ b ∈ actions, b.type = .reduce ∧ b.item ∈ ignored ∧ a = weaken b) ∨
      (a = ⟨.ignore, a.item, state, emptyRule⟩ ∧ a.item ∈ ignored ∧ ∀ b ∈ actions, b.item = a.item → b.type ≠ .shift ∧ b.type ≠ .ignore) := by
  obtain ⟨h1, h2⟩ := ignore_fold ignored actions ([], [])
  have h3 := foldl_add_if (fun i => decide (i ∈ (actions.foldl (ignoreStep ignored) ([], [])).2)) (fun i => (⟨.ignore, i, state, emptyRule⟩ : LrAction))
    ignored (actions.foldl (ignoreStep ignored) ([], [])).1 a
  simp only [decide_eq_true_eq, decide_eq_false_iff_not] at h3
  unfold rewriteIgnored
  refine h3.trans ?_
  rw [h1]
  constructor
  · rintro ((h | h | h) | ⟨i, hi, hn, rfl⟩)
    · cases h
    · exact Or.inl h
    · exact Or.inr (Or.inl h)
    · refine Or.inr (Or.inr ⟨rfl, hi, ?_⟩)
      intro b hb hbi
      rw [h2] at hn
      exact ⟨fun hc => hn (Or.inr ⟨b, hb, hbi, Or.inl ⟨hc, hi⟩⟩), fun hc => hn (Or.inr ⟨b, hb, hbi, Or.inr hc⟩)⟩
  · rintro (h | h | ⟨h, hi, hn⟩)
    · exact Or.inl (Or.inr (Or.inl h))
    · exact Or.inl (Or.inr (Or.inr h))
    · refine Or.inr ⟨a.item, hi, ?_, h⟩
      rw [h2]
      rintro (hc | ⟨b, hb, hbi, ⟨hc, -⟩ | hc⟩)
      · cases hc
      · exact (hn b hb hbi).1 hc
      · exact (hn b hb hbi).2 hc

/-- C44, in the words of the property: an ignored symbol that is not shifted in the state can always be ignored there. -/
theorem ignored_has_action (ignored : List Item) (state : Int) (actions : List LrAction) (i : Item) (hi : i ∈ ignored)
    (hs : ∀ a ∈ actions, a.item = i → a.type ≠ .shift) :
    ∃ a ∈ rewriteIgnored ignored state actions, a.item = i ∧ a.type = .ignore := by
  by_cases h : ∃ b ∈ actions, b.item = i ∧ b.type = .ignore
  · obtain ⟨b, hb, h1, h2⟩ := h
    refine ⟨b, (ignored_rewrite_exact ..).2 (Or.inl ⟨hb, ?_⟩), h1, h2⟩
    rw [h2]
    rintro ⟨hc, -⟩
    cases hc
  · refine ⟨⟨.ignore, i, state, emptyRule⟩, (ignored_rewrite_exact ..).2 (Or.inr (Or.inr ⟨rfl, hi, ?_⟩)), rfl, rfl⟩
    intro b hb hbi
    exact ⟨hs b hb hbi, fun hc => h ⟨b, hb, hbi, hc⟩⟩

example : rewriteIgnored [.terminal 9, .terminal 8] 4 [⟨.shift, .terminal 1, 5, emptyRule⟩, ⟨.reduce, .terminal 9, -1, ⟨.nonterminal 0, []⟩⟩] =
    [⟨.shift, .terminal 1, 5, emptyRule⟩, ⟨.weakreduce, .terminal 9, -1, ⟨.nonterminal 0, []⟩⟩, ⟨.ignore, .terminal 9, 4, emptyRule⟩,
      ⟨.ignore, .terminal 8, 4, emptyRule⟩] := by decide

/-! C45 -/

/-- The terminal that gives a rule its precedence: the only one in the rule that has a precedence. -/
def Operator (p : Prec) (r : Rule) (t : Item) : Prop :=
  ∃ a b, r.items = a ++ t :: b ∧ isTerminal t = true ∧ p.precedence t [] ≠ none ∧ ∀ u ∈ a ++ b, isTerminal u = true → p.precedence u [] = none

theorem precItem_some (p : Prec) : ∀ (l : List Item) (f : Item), precItem p l (some f) = some f ∧ (∀ u ∈ l, isTerminal u = true → p.precedence u [] = none) ∨
    precItem p l (some f) = none ∧ ¬ (∀ u ∈ l, isTerminal u = true → p.precedence u [] = none)
  | [], f => by simp [precItem]
  | i :: l, f => by
    have ih := precItem_some p l f
    simp only [precItem]
    by_cases ht : isTerminal i = true
    · by_cases hp : p.precedence i [] = none
      · simp only [ht, Bool.not_true, Bool.false_eq_true, if_false, hp, if_true, List.mem_cons, forall_eq_or_imp]
        simpa using ih
      · right
        simp [ht, hp]
    · simp only [ht, Bool.not_false, if_true, List.mem_cons, forall_eq_or_imp]
      simpa [ht] using ih

theorem precItem_spec (p : Prec) (nt : Item) : ∀ (l : List Item) (t : Item), precItem p l none = some t ↔ Operator p ⟨nt, l⟩ t
  | [], t => by simp [precItem, Operator]
  | i :: l, t => by
    have ih := precItem_spec p nt l t
    simp only [precItem]
    have hskip : ¬ (isTerminal i = true ∧ p.precedence i [] ≠ none) → (Operator p ⟨nt, l⟩ t ↔ Operator p ⟨nt, i :: l⟩ t) := by
      intro hn
      constructor
      · rintro ⟨a, b, h1, h2, h3, h4⟩
        refine ⟨i :: a, b, by simp at h1 ⊢; exact h1, h2, h3, ?_⟩
        intro u hu hut
        rcases List.mem_cons.1 hu with rfl | hu
        · by_contra hc; exact hn ⟨hut, hc⟩
        · exact h4 u hu hut
      · rintro ⟨a, b, h1, h2, h3, h4⟩
        cases a with
        | nil =>
          simp at h1
          exact absurd ⟨h1.1 ▸ h2, h1.1 ▸ h3⟩ hn
        | cons c a =>
          simp at h1
          exact ⟨a, b, h1.2, h2, h3, fun u hu => h4 u (List.mem_cons_of_mem _ hu)⟩
    by_cases ht : isTerminal i = true
    · by_cases hp : p.precedence i [] = none
      · rw [if_neg (by simp [ht]), if_pos hp, ih]
        exact hskip (fun h => h.2 hp)
      · rw [if_neg (by simp [ht]), if_neg hp, if_neg (by simp)]
        have key : Operator p ⟨nt, i :: l⟩ t ↔ t = i ∧ ∀ u ∈ l, isTerminal u = true → p.precedence u [] = none := by
          constructor
          · rintro ⟨a, b, h1, h2, h3, h4⟩
            cases a with
            | nil =>
              simp at h1
              refine ⟨h1.1.symm, ?_⟩
              rw [h1.2]
              exact h4
            | cons c a =>
              simp at h1
              exact absurd (h4 c (by simp) (h1.1 ▸ ht)) (h1.1 ▸ hp)
          · rintro ⟨rfl, h⟩
            exact ⟨[], l, rfl, ht, hp, h⟩
        rw [key]
        rcases precItem_some p l i with ⟨h1, h2⟩ | ⟨h1, h2⟩
        · rw [h1]
          simp only [Option.some.injEq]
          exact ⟨fun h => ⟨h.symm, h2⟩, fun h => h.1.symm⟩
        · rw [h1]
          constructor
          · intro h; cases h
          · intro h; exact absurd h.2 h2
    · rw [if_pos (by simp [ht]), ih]
      exact hskip (fun h => ht h.1)

/-- Which actions precedence removes: `t` has exactly one shift and one reduce action, both have a precedence, and `a` is the one that
loses: the one with the lower precedence, or with equal precedences the shift for left and the reduce for right associativity. -/
def Loses (p : Prec) (ruleWith : Int → Rule) (items : List Lr0) (actions : List LrAction) (t : Item) (a : LrAction) : Prop :=
  ∃ (shift reduce : LrAction) (op : Item) (sp rp : Int),
    (∀ b, (b ∈ actions ∧ b.item = t ∧ b.type = .shift) ↔ b = shift) ∧
    (∀ b, (b ∈ actions ∧ b.item = t ∧ b.type = .reduce) ↔ b = reduce) ∧
    Operator p reduce.rule op ∧
    p.precedence t (shiftItems ruleWith items t) = some sp ∧
    p.precedence op [] = some rp ∧
    ((a = shift ∧ (sp < rp ∨ (sp = rp ∧ p.associativity op [] = .left))) ∨
      (a = reduce ∧ (sp > rp ∨ (sp = rp ∧ p.associativity op [] = .right))))

theorem filter_singleton {α : Type} (q : α → Bool) (s : α) : ∀ (l : List α), l.Nodup → (l.filter q = [s] ↔ ∀ b, (b ∈ l ∧ q b = true) ↔ b = s) := by
  intro l hn
  constructor
  · intro h b
    have : b ∈ l.filter q ↔ b ∈ [s] := by rw [h]
    rw [List.mem_filter, List.mem_singleton] at this
    exact this
  · intro h
    have hn' : (l.filter q).Nodup := hn.filter q
    have hm : ∀ b, b ∈ l.filter q ↔ b = s := by
      intro b; rw [List.mem_filter]; exact h b
    generalize l.filter q = m at hn' hm
    cases m with
    | nil => exact absurd ((hm s).2 rfl) (by simp)
    | cons x m =>
      have hx := (hm x).1 List.mem_cons_self
      subst hx
      cases m with
      | nil => rfl
      | cons y m =>
        have hy := (hm y).1 (by simp)
        subst hy
        simp at hn'

theorem precStep_mem (p : Prec) (ruleWith : Int → Rule) (items : List Lr0) (all actions : List LrAction) (hall : all.Nodup) (t : Item) (a : LrAction) :
    a ∈ precStep p ruleWith items all actions t ↔ a ∈ actions ∧ ¬ Loses p ruleWith items all t a := by
  have hs : ∀ s, (all.filter (fun a => decide (a.item = t))).filter (fun a => decide (a.type = .shift)) = [s] ↔
      ∀ b, (b ∈ all ∧ b.item = t ∧ b.type = .shift) ↔ b = s := by
    intro s
    rw [filter_singleton _ s _ (hall.filter _)]
    simp only [List.mem_filter, decide_eq_true_eq, and_assoc]
  have hr : ∀ s, (all.filter (fun a => decide (a.item = t))).filter (fun a => decide (a.type = .reduce)) = [s] ↔
      ∀ b, (b ∈ all ∧ b.item = t ∧ b.type = .reduce) ↔ b = s := by
    intro s
    rw [filter_singleton _ s _ (hall.filter _)]
    simp only [List.mem_filter, decide_eq_true_eq, and_assoc]
  have nolose : (∀ shift reduce op sp rp, ¬ ((∀ b, (b ∈ all ∧ b.item = t ∧ b.type = .shift) ↔ b = shift) ∧
      (∀ b, (b ∈ all ∧ b.item = t ∧ b.type = .reduce) ↔ b = reduce) ∧ Operator p reduce.rule op ∧
      p.precedence t (shiftItems ruleWith items t) = some sp ∧ p.precedence op [] = some rp)) →
      (a ∈ actions ↔ a ∈ actions ∧ ¬ Loses p ruleWith items all t a) := by
    intro hno
    refine ⟨fun h => ⟨h, ?_⟩, fun h => h.1⟩
    rintro ⟨s, r, op, sp, rp, h1, h2, h3, h4, h5, -⟩
    exact hno s r op sp rp ⟨h1, h2, h3, h4, h5⟩
  simp only [precStep]
  split
  · rename_i shift reduce h1 h2
    rw [hs] at h1
    rw [hr] at h2
    have hop : ∀ op, precItem p reduce.rule.items none = some op ↔ Operator p reduce.rule op :=
      fun op => precItem_spec p reduce.rule.nonterminal reduce.rule.items op
    split
    · rename_i sp rp h3 h4
      unfold rulePrecedence at h4
      split at h4
      · cases h4
      · rename_i op h5
        have h6 := (hop op).1 h5
        have hassoc : ruleAssociativity p reduce.rule = p.associativity op [] := by
          unfold ruleAssociativity
          rw [h5]
        rw [hassoc]
        have hL : Loses p ruleWith items all t a ↔ ((a = shift ∧ (sp < rp ∨ (sp = rp ∧ p.associativity op [] = .left))) ∨
            (a = reduce ∧ (sp > rp ∨ (sp = rp ∧ p.associativity op [] = .right)))) := by
          constructor
          · rintro ⟨s, r, op', sp', rp', g1, g2, g3, g4, g5, g6⟩
            have e1 : s = shift := (h1 s).1 ((g1 s).2 rfl)
            have e2 : r = reduce := (h2 r).1 ((g2 r).2 rfl)
            subst e1 e2
            have e3 : op = op' := by
              have := (hop op').2 g3
              rw [h5] at this
              exact Option.some.inj this
            subst e3
            rw [h3] at g4
            rw [h4] at g5
            cases g4
            cases g5
            exact g6
          · intro h
            exact ⟨shift, reduce, op, sp, rp, h1, h2, h6, h3, h4, h⟩
        rw [hL]
        by_cases c1 : sp < rp
        · rw [if_pos c1, List.mem_filter, decide_eq_true_eq]
          refine and_congr_right (fun _ => ?_)
          constructor
          · rintro h (⟨h', -⟩ | ⟨-, h' | h'⟩)
            · exact h h'
            · omega
            · omega
          · intro h h'
            exact h (Or.inl ⟨h', Or.inl c1⟩)
        · rw [if_neg c1]
          by_cases c2 : sp > rp
          · rw [if_pos c2, List.mem_filter, decide_eq_true_eq]
            refine and_congr_right (fun _ => ?_)
            constructor
            · rintro h (⟨-, h' | h'⟩ | ⟨h', -⟩)
              · omega
              · omega
              · exact h h'
            · intro h h'
              exact h (Or.inr ⟨h', Or.inl c2⟩)
          · rw [if_neg c2]
            have c3 : sp = rp := by omega
            by_cases c4 : p.associativity op [] = .right
            · rw [if_pos c4, List.mem_filter, decide_eq_true_eq]
              refine and_congr_right (fun _ => ?_)
              constructor
              · rintro h (⟨-, h' | ⟨-, h'⟩⟩ | ⟨h', -⟩)
                · omega
                · rw [c4] at h'; cases h'
                · exact h h'
              · intro h h'
                exact h (Or.inr ⟨h', Or.inr ⟨c3, c4⟩⟩)
            · rw [if_neg c4]
              by_cases c5 : p.associativity op [] = .left
              · rw [if_pos c5, List.mem_filter, decide_eq_true_eq]
                refine and_congr_right (fun _ => ?_)
                constructor
                · rintro h (⟨h', -⟩ | ⟨-, h' | ⟨-, h'⟩⟩)
                  · exact h h'
                  · omega
                  · exact c4 h'
                · intro h h'
                  exact h (Or.inl ⟨h', Or.inr ⟨c3, c5⟩⟩)
              · rw [if_neg c5]
                refine ⟨fun h => ⟨h, ?_⟩, fun h => h.1⟩
                rintro (⟨-, h' | ⟨-, h'⟩⟩ | ⟨-, h' | ⟨-, h'⟩⟩)
                · omega
                · exact c5 h'
                · omega
                · exact c4 h'
    · rename_i hno
      refine nolose ?_
      rintro s r op sp rp ⟨g1, g2, g3, g4, g5⟩
      have e2 : r = reduce := (h2 r).1 ((g2 r).2 rfl)
      subst e2
      refine hno sp rp g4 ?_
      unfold rulePrecedence
      rw [(hop op).2 g3]
      exact g5
  · rename_i hno
    refine nolose ?_
    rintro s r op sp rp ⟨g1, g2, -⟩
    exact hno s r ((hs s).2 g1) ((hr r).2 g2)

/-- C45. The precedence rewriter removes exactly the losing actions of the shift/reduce pairs on terminals; it adds and changes nothing. -/
theorem precedence_exact (p : Prec) (ruleWith : Int → Rule) (items : List Lr0) (actions : List LrAction) (hn : actions.Nodup) (a : LrAction) :
    a ∈ rewritePrecedence p ruleWith items actions ↔ a ∈ actions ∧ ∀ t, isTerminal t = true → ¬ Loses p ruleWith items actions t a := by
  have hfold : ∀ (ts : List Item) (acts : List LrAction), a ∈ ts.foldl (precStep p ruleWith items actions) acts ↔
      a ∈ acts ∧ ∀ t ∈ ts, ¬ Loses p ruleWith items actions t a := by
    intro ts
    induction ts with
    | nil => intro acts; simp
    | cons t ts ih =>
      intro acts
      rw [List.foldl_cons, ih, precStep_mem _ _ _ _ _ hn]
      simp only [List.mem_cons, forall_eq_or_imp, and_assoc]
  unfold rewritePrecedence
  rw [hfold]
  refine and_congr_right (fun _ => ?_)
  constructor
  · intro h t ht hl
    have hl' := hl
    obtain ⟨s, r, op, sp, rp, g1, -⟩ := hl'
    have hs := (g1 s).2 rfl
    refine h t ?_ hl
    rw [mem_foldl_add]
    refine Or.inr (List.mem_map.2 ⟨s, List.mem_filter.2 ⟨hs.1, ?_⟩, hs.2.1⟩)
    rw [hs.2.1]
    exact ht
  · intro h t ht
    rw [mem_foldl_add] at ht
    rcases ht with ht | ht
    · cases ht
    · obtain ⟨b, hb, rfl⟩ := List.mem_map.1 ht
      exact h _ (List.mem_filter.1 hb).2

/-- `+` (1) is left associative with precedence 1, `*` (2) left with 2, `^` (3) right with 3, `=` (4) has precedence 0 and none. -/
def arith : Prec where
  precedence i _ := if i = .terminal 1 then some 1 else if i = .terminal 2 then some 2 else if i = .terminal 3 then some 3
    else if i = .terminal 4 then some 0 else none
  associativity i _ := if i = .terminal 3 then .right else if i = .terminal 4 then .nonassociative else .left

/-- The actions after `E op E`. -/
def afterOp (op : Int) : List LrAction :=
  [1, 2, 3, 4].flatMap (fun t => [⟨.shift, .terminal t, 10 + t, emptyRule⟩,
    ⟨.reduce, .terminal t, -1, ⟨.nonterminal 0, [.nonterminal 0, .terminal op, .nonterminal 0]⟩⟩])

example : ((rewritePrecedence arith (fun _ => emptyRule) [] (afterOp 1)).map (fun a => (a.item, a.type))) =
    [(.terminal 1, .reduce), (.terminal 2, .shift), (.terminal 3, .shift), (.terminal 4, .reduce)] := by decide
example : ((rewritePrecedence arith (fun _ => emptyRule) [] (afterOp 3)).map (fun a => (a.item, a.type))) =
    [(.terminal 1, .reduce), (.terminal 2, .reduce), (.terminal 3, .shift), (.terminal 4, .reduce)] := by decide
example : ((rewritePrecedence arith (fun _ => emptyRule) [] (afterOp 4)).map (fun a => (a.item, a.type))) =
    [(.terminal 1, .shift), (.terminal 2, .shift), (.terminal 3, .shift), (.terminal 4, .shift), (.terminal 4, .reduce)] := by decide

/-! C47 -/

theorem mem_weaken_fold (all : List LrAction) (hall : ∀ a ∈ all, a.type = .reduce) : ∀ (l actions : List LrAction), (∀ a ∈ l, a ∈ all) →
    ∀ b, b ∈ l.foldl (fun l a => add (l.filter (· ≠ a)) { a with type := .weakreduce }) actions ↔
      (b ∈ actions ∧ b ∉ l) ∨ ∃ c ∈ l, b = weaken c
  | [], actions, _, b => by simp
  | a :: l, actions, h, b => by
    rw [List.foldl_cons, mem_weaken_fold all hall l _ (fun x hx => h x (List.mem_cons_of_mem _ hx)), mem_add, List.mem_filter, decide_eq_true_eq]
    have hw : ∀ c ∈ l, weaken a ≠ c := by
      intro c hc he
      have := hall c (h c (List.mem_cons_of_mem _ hc))
      rw [← he] at this
      cases this
    constructor
    · rintro (⟨⟨h1, h2⟩ | h1, h3⟩ | ⟨c, hc, h1⟩)
      · exact Or.inl ⟨h1, fun h4 => (List.mem_cons.1 h4).elim h2 h3⟩
      · exact Or.inr ⟨a, List.mem_cons_self, h1⟩
      · exact Or.inr ⟨c, List.mem_cons_of_mem _ hc, h1⟩
    · rintro (⟨h1, h2⟩ | ⟨c, hc, h1⟩)
      · rw [List.mem_cons, not_or] at h2
        exact Or.inl ⟨Or.inl ⟨h1, h2.1⟩, h2.2⟩
      · rcases List.mem_cons.1 hc with rfl | hc
        · subst h1
          exact Or.inl ⟨Or.inr rfl, fun hc => hw _ hc rfl⟩
        · exact Or.inr ⟨c, hc, h1⟩

/-- The reductions of a terminal that become weak: all but the first, if the targets of the items are disjoint. -/
def Weakened (targets : Item → List (List Nat)) (actions : List LrAction) (t : Item) (a : LrAction) : Prop :=
  resolvable (targets t) [] = true ∧ a ∈ (actions.filter (fun a => decide (a.item = t) && decide (a.type = .reduce))).tail

theorem lr1Step_mem (targets : Item → List (List Nat)) (all actions : List LrAction) (t : Item) (b : LrAction) :
    b ∈ lr1Step targets all actions t ↔ (b ∈ actions ∧ ¬ Weakened targets all t b) ∨ ∃ c, Weakened targets all t c ∧ b = weaken c := by
  unfold lr1Step Weakened
  have hred : ∀ a ∈ all.filter (fun a => decide (a.item = t) && decide (a.type = .reduce)), a.type = .reduce := by
    intro a ha
    have := (List.mem_filter.1 ha).2
    simp at this
    exact this.2
  generalize all.filter (fun a => decide (a.item = t) && decide (a.type = .reduce)) = l at hred
  cases l with
  | nil => simp
  | cons x l =>
    cases l with
    | nil => simp
    | cons y l =>
      simp only [List.tail_cons]
      by_cases hr : resolvable (targets t) [] = true
      · rw [if_pos hr, mem_weaken_fold (x :: y :: l) hred (y :: l) actions (fun a ha => List.mem_cons_of_mem _ ha)]
        simp only [hr, true_and]
      · rw [if_neg hr]
        simp [hr]

theorem weakened_item {targets : Item → List (List Nat)} {actions : List LrAction} {t : Item} {a : LrAction} (h : Weakened targets actions t a) :
    a ∈ actions ∧ a.item = t ∧ a.type = .reduce := by
  have := List.mem_filter.1 (List.mem_of_mem_tail h.2)
  simp at this
  exact this

/-- What the LR(1) rewriter does: the reductions on terminals after the first become weak, where the targets are disjoint. -/
theorem lr1_exact (targets : Item → List (List Nat)) (actions : List LrAction) (b : LrAction) :
    b ∈ rewriteLr1 targets actions ↔ (b ∈ actions ∧ ∀ t, isTerminal t = true → ¬ Weakened targets actions t b) ∨
      ∃ t c, isTerminal t = true ∧ Weakened targets actions t c ∧ b = weaken c := by
  have hfold : ∀ (ts : List Item) (acts : List LrAction), b ∈ ts.foldl (lr1Step targets actions) acts ↔
      (b ∈ acts ∧ ∀ t ∈ ts, ¬ Weakened targets actions t b) ∨ ∃ t ∈ ts, ∃ c, Weakened targets actions t c ∧ b = weaken c := by
    intro ts
    induction ts with
    | nil => intro acts; simp
    | cons t ts ih =>
      intro acts
      rw [List.foldl_cons, ih, lr1Step_mem]
      have hne : ∀ c t', b = weaken c → ¬ Weakened targets actions t' b := by
        rintro c t' rfl hw
        have := (weakened_item hw).2.2
        cases this
      simp only [List.mem_cons, forall_eq_or_imp, exists_eq_or_imp]
      constructor
      · rintro (⟨⟨h1, h2⟩ | ⟨c, h1, h2⟩, h3⟩ | h)
        · exact Or.inl ⟨h1, h2, h3⟩
        · exact Or.inr (Or.inl ⟨c, h1, h2⟩)
        · exact Or.inr (Or.inr h)
      · rintro (⟨h1, h2, h3⟩ | ⟨c, h1, h2⟩ | h)
        · exact Or.inl ⟨Or.inl ⟨h1, h2⟩, h3⟩
        · exact Or.inl ⟨Or.inr ⟨c, h1, h2⟩, fun t' _ => hne c t' h2⟩
        · exact Or.inr h
  unfold rewriteLr1
  rw [hfold]
  have hkey : ∀ t c, isTerminal t = true → Weakened targets actions t c →
      t ∈ (((actions.filter (fun a => isTerminal a.item && decide (a.type = .reduce))).map (·.item)).foldl add []) := by
    intro t c ht hw
    obtain ⟨h1, h2, h3⟩ := weakened_item hw
    rw [mem_foldl_add]
    refine Or.inr (List.mem_map.2 ⟨c, List.mem_filter.2 ⟨h1, ?_⟩, h2⟩)
    rw [h2, ht, h3]
    rfl
  have hterm : ∀ t ∈ (((actions.filter (fun a => isTerminal a.item && decide (a.type = .reduce))).map (·.item)).foldl add []),
      isTerminal t = true := by
    intro t ht
    rw [mem_foldl_add] at ht
    rcases ht with ht | ht
    · cases ht
    · obtain ⟨a, ha, rfl⟩ := List.mem_map.1 ht
      have := (List.mem_filter.1 ha).2
      simp at this
      exact this.1
  constructor
  · rintro (⟨h1, h2⟩ | ⟨t, ht, c, h⟩)
    · exact Or.inl ⟨h1, fun t ht hw => h2 t (hkey t b ht hw) hw⟩
    · exact Or.inr ⟨t, c, hterm t ht, h⟩
  · rintro (⟨h1, h2⟩ | ⟨t, c, ht, h⟩)
    · exact Or.inl ⟨h1, fun t ht hw => h2 t (hterm t ht) hw⟩
    · exact Or.inr ⟨t, hkey t c ht h.1, c, h⟩

/-- C47. Each action is kept, or is a strong reduction and its weak form is there. -/
theorem lr1_keeps (targets : Item → List (List Nat)) (actions : List LrAction) (a : LrAction) (ha : a ∈ actions) :
    a ∈ rewriteLr1 targets actions ∨ (a.type = .reduce ∧ weaken a ∈ rewriteLr1 targets actions) := by
  by_cases h : ∃ t, isTerminal t = true ∧ Weakened targets actions t a
  · obtain ⟨t, ht, hw⟩ := h
    exact Or.inr ⟨(weakened_item hw).2.2, (lr1_exact ..).2 (Or.inr ⟨t, a, ht, hw, rfl⟩)⟩
  · exact Or.inl ((lr1_exact ..).2 (Or.inl ⟨ha, fun t ht hw => h ⟨t, ht, hw⟩⟩))

/-- C47. Nothing else is there afterwards. -/
theorem lr1_adds_nothing (targets : Item → List (List Nat)) (actions : List LrAction) (a : LrAction) (ha : a ∈ rewriteLr1 targets actions) :
    a ∈ actions ∨ ∃ b ∈ actions, b.type = .reduce ∧ a = weaken b := by
  rcases (lr1_exact ..).1 ha with h | ⟨t, c, -, hw, rfl⟩
  · exact Or.inl h.1
  · exact Or.inr ⟨c, (weakened_item hw).1, (weakened_item hw).2.2, rfl⟩

/-- C47. A symbol that had a strong reduction still has one. -/
theorem lr1_one_strong (targets : Item → List (List Nat)) (actions : List LrAction) (hn : actions.Nodup) (a : LrAction) (ha : a ∈ actions)
    (hr : a.type = .reduce) : ∃ b ∈ rewriteLr1 targets actions, b.type = .reduce ∧ b.item = a.item := by
  have hmem : a ∈ actions.filter (fun b => decide (b.item = a.item) && decide (b.type = .reduce)) :=
    List.mem_filter.2 ⟨ha, by simp [hr]⟩
  have hnd : (actions.filter (fun b => decide (b.item = a.item) && decide (b.type = .reduce))).Nodup := hn.filter _
  cases hl : actions.filter (fun b => decide (b.item = a.item) && decide (b.type = .reduce)) with
  | nil => rw [hl] at hmem; cases hmem
  | cons x l =>
    have hx : x ∈ actions.filter (fun b => decide (b.item = a.item) && decide (b.type = .reduce)) := by rw [hl]; exact List.mem_cons_self
    have hx' := List.mem_filter.1 hx
    simp at hx'
    refine ⟨x, (lr1_exact ..).2 (Or.inl ⟨hx'.1, ?_⟩), hx'.2.2, hx'.2.1⟩
    intro t _ hw
    have hit := (weakened_item hw).2.1
    have : t = a.item := hit.symm.trans hx'.2.1
    subst this
    have h2 := hw.2
    rw [hl] at h2 hnd
    exact (List.nodup_cons.1 hnd).1 h2

/-- Where reductions are weakened, the items reduce to different states. -/
theorem lr1_targets_disjoint : ∀ (l : List (List Nat)) (used : List Nat), resolvable l used = true →
    (∀ s ∈ l, ∀ n ∈ s, n ∉ used) ∧ l.Pairwise (fun s t => ∀ n ∈ s, n ∉ t)
  | [], _, _ => by simp
  | s :: l, used, h => by
    simp only [resolvable] at h
    split at h
    · cases h
    · rename_i hs
      obtain ⟨h1, h2⟩ := lr1_targets_disjoint l (used ++ s) h
      simp only [List.any_eq_true, decide_eq_true_eq, not_exists, not_and] at hs
      refine ⟨?_, List.pairwise_cons.2 ⟨?_, h2⟩⟩
      · intro t ht n hn
        rcases List.mem_cons.1 ht with rfl | ht
        · exact hs n hn
        · exact fun hc => h1 t ht n hn (List.mem_append_left _ hc)
      · intro t ht n hn hc
        exact h1 t ht n hc (List.mem_append_right _ hn)

/-- Two reductions on `x`, reached from different states. -/
def rr : List LrAction :=
  [⟨.reduce, .terminal 7, -1, ⟨.nonterminal 1, [.terminal 3]⟩⟩, ⟨.reduce, .terminal 7, -1, ⟨.nonterminal 2, [.terminal 3]⟩⟩]

example : (rewriteLr1 (fun _ => [[4], [5]]) rr).map (·.type) = [.reduce, .weakreduce] := by decide
example : (rewriteLr1 (fun _ => [[4], [5, 4]]) rr).map (·.type) = [.reduce, .reduce] := by decide

/-! C43 -/

/-- The actions that are kept as they are. -/
def keepsType : ActType → Bool
  | .shift | .shiftstrong | .ignore | .accept | .guard => true
  | _ => false

def isReduceType : ActType → Bool
  | .reduce | .weakreduce => true
  | _ => false

theorem bump_keys (c : List (Item × Int)) (i j : Item) (d : Int) :
    (bump c i d).any (fun q => q.1 == j) = true ↔ c.any (fun q => q.1 == j) = true ∨ i = j := by
  unfold bump
  by_cases h : c.any (fun p => p.1 == i) = true
  · rw [if_pos h]
    simp only [List.any_map, List.any_eq_true, Function.comp, beq_iff_eq] at h ⊢
    constructor
    · rintro ⟨q, hq, he⟩
      by_cases hi : q.1 = i
      · rw [if_pos hi] at he
        exact Or.inl ⟨q, hq, he⟩
      · rw [if_neg hi] at he
        exact Or.inl ⟨q, hq, he⟩
    · rintro (⟨q, hq, he⟩ | rfl)
      · refine ⟨q, hq, ?_⟩
        by_cases hi : q.1 = i
        · rw [if_pos hi]; exact he
        · rw [if_neg hi]; exact he
      · obtain ⟨q, hq, he⟩ := h
        refine ⟨q, hq, ?_⟩
        rw [if_pos he]
        exact he
  · rw [if_neg h]
    simp only [List.any_append, List.any_cons, List.any_nil, Bool.or_false, Bool.or_eq_true, beq_iff_eq]

/-- Making the counts: each is the number of actions, and the keys are the symbols of the actions. -/
theorem counts_spec : ∀ (l done : List LrAction) (c : List (Item × Int)),
    (∀ q ∈ c, q.2 = ((done.countP (fun a => decide (a.item = q.1)) : Nat) : Int)) →
    (∀ j, c.any (fun q => q.1 == j) = true ↔ ∃ a ∈ done, a.item = j) →
    (∀ q ∈ l.foldl (fun c a => bump c a.item 1) c, q.2 = (((done ++ l).countP (fun a => decide (a.item = q.1)) : Nat) : Int)) ∧
    (∀ j, (l.foldl (fun c a => bump c a.item 1) c).any (fun q => q.1 == j) = true ↔ ∃ a ∈ done ++ l, a.item = j)
  | [], done, c, h1, h2 => by
    rw [List.append_nil]
    exact ⟨h1, h2⟩
  | a :: l, done, c, h1, h2 => by
    have := counts_spec l (done ++ [a]) (bump c a.item 1) ?_ ?_
    · rw [List.append_assoc, List.singleton_append] at this
      exact this
    · intro q hq
      rw [List.countP_append, List.countP_singleton]
      unfold bump at hq
      by_cases h : c.any (fun p => p.1 == a.item) = true
      · rw [if_pos h, List.mem_map] at hq
        obtain ⟨q', hq', rfl⟩ := hq
        by_cases hi : q'.1 = a.item
        · simp only [if_pos hi]
          rw [h1 q' hq', hi]
          simp
        · simp only [if_neg hi]
          rw [h1 q' hq']
          have : ¬ a.item = q'.1 := fun h => hi h.symm
          simp [this]
      · rw [if_neg h, List.mem_append] at hq
        rcases hq with hq | hq
        · have : ¬ a.item = q.1 := by
            intro he
            refine h (List.any_eq_true.2 ⟨q, hq, ?_⟩)
            rw [beq_iff_eq]
            exact he.symm
          rw [h1 q hq]
          simp [this]
        · rw [List.mem_singleton] at hq
          subst hq
          have h0 : done.countP (fun b => decide (b.item = a.item)) = 0 := by
            rw [List.countP_eq_zero]
            intro b hb
            rw [decide_eq_true_eq]
            intro he
            exact h ((h2 a.item).2 ⟨b, hb, he⟩)
          simp [h0]
    · intro j
      rw [bump_keys, h2]
      simp only [List.mem_append, List.mem_singleton]
      constructor
      · rintro (⟨b, hb, he⟩ | he)
        · exact ⟨b, Or.inl hb, he⟩
        · exact ⟨a, Or.inr rfl, he⟩
      · rintro ⟨b, hb | rfl, he⟩
        · exact Or.inl ⟨b, hb, he⟩
        · exact Or.inr he

/-- The loop over the weak actions never removes a key: a count is never below the number of actions still to come. -/
theorem weak_fold : ∀ (l : List LrAction) (p : List LrAction × List (Item × Int)),
    (∀ q ∈ p.2, ((l.countP (fun a => decide (a.item = q.1)) : Nat) : Int) ≤ q.2) →
    (∀ j, (l.foldl weakStep p).2.any (fun q => q.1 == j) = p.2.any (fun q => q.1 == j)) ∧
    (∀ b, b ∈ (l.foldl weakStep p).1 ↔ b ∈ p.1 ∨ (b ∈ l ∧ keepsType b.type = true) ∨ ∃ a ∈ l, isReduceType a.type = true ∧ b = weaken a)
  | [], p, _ => by simp
  | a :: l, p, h => by
    have hcount : ∀ q ∈ p.2, ((l.countP (fun a => decide (a.item = q.1)) : Nat) : Int) ≤ q.2 := by
      intro q hq
      have := h q hq
      rw [List.countP_cons] at this
      omega
    have hstep : (∀ q ∈ (weakStep p a).2, ((l.countP (fun a => decide (a.item = q.1)) : Nat) : Int) ≤ q.2) ∧
        (∀ j, (weakStep p a).2.any (fun q => q.1 == j) = p.2.any (fun q => q.1 == j)) ∧
        (∀ b, b ∈ (weakStep p a).1 ↔ b ∈ p.1 ∨ (b = a ∧ keepsType b.type = true) ∨ (isReduceType a.type = true ∧ b = weaken a)) := by
      have hkeep : keepsType a.type = true → isReduceType a.type = false → ∀ b, b ∈ add p.1 a ↔
          b ∈ p.1 ∨ (b = a ∧ keepsType b.type = true) ∨ (isReduceType a.type = true ∧ b = weaken a) := by
        intro h1 h2 b
        rw [mem_add, h2]
        constructor
        · rintro (h | rfl)
          · exact Or.inl h
          · exact Or.inr (Or.inl ⟨rfl, h1⟩)
        · rintro (h | ⟨h, -⟩ | ⟨h, -⟩)
          · exact Or.inl h
          · exact Or.inr h
          · cases h
      have hred : isReduceType a.type = true → keepsType a.type = false → ∀ b, b ∈ add p.1 { a with type := .weakreduce } ↔
          b ∈ p.1 ∨ (b = a ∧ keepsType b.type = true) ∨ (isReduceType a.type = true ∧ b = weaken a) := by
        intro h1 h2 b
        rw [mem_add, h1]
        constructor
        · rintro (h | h)
          · exact Or.inl h
          · exact Or.inr (Or.inr ⟨rfl, h⟩)
        · rintro (h | ⟨he, h⟩ | ⟨-, h⟩)
          · exact Or.inl h
          · rw [he, h2] at h; cases h
          · exact Or.inr h
      have hcounts : (∀ q ∈ (if p.2.any (fun q => q.1 == a.item) then (bump p.2 a.item (-1)).filter (fun q => !(q.1 == a.item && decide (q.2 < 0))) else p.2),
          ((l.countP (fun a => decide (a.item = q.1)) : Nat) : Int) ≤ q.2) ∧
          (∀ j, (if p.2.any (fun q => q.1 == a.item) then (bump p.2 a.item (-1)).filter (fun q => !(q.1 == a.item && decide (q.2 < 0))) else p.2).any
            (fun q => q.1 == j) = p.2.any (fun q => q.1 == j)) := by
        by_cases ha : p.2.any (fun q => q.1 == a.item) = true
        · rw [if_pos ha]
          have hle : ∀ q ∈ bump p.2 a.item (-1), ((l.countP (fun a => decide (a.item = q.1)) : Nat) : Int) ≤ q.2 := by
            intro q hq
            unfold bump at hq
            rw [if_pos ha, List.mem_map] at hq
            obtain ⟨q', hq', rfl⟩ := hq
            have h1 := h q' hq'
            rw [List.countP_cons] at h1
            by_cases hi : q'.1 = a.item
            · rw [if_pos hi]
              have h2 : a.item = q'.1 := hi.symm
              rw [if_pos (by rw [decide_eq_true_eq]; exact h2)] at h1
              dsimp only
              omega
            · rw [if_neg hi]
              omega
          have hf : (bump p.2 a.item (-1)).filter (fun q => !(q.1 == a.item && decide (q.2 < 0))) = bump p.2 a.item (-1) := by
            rw [List.filter_eq_self]
            intro q hq
            have := hle q hq
            have h3 : ¬ q.2 < 0 := by omega
            simp [h3]
          rw [hf]
          refine ⟨hle, fun j => ?_⟩
          rw [Bool.eq_iff_iff, bump_keys]
          constructor
          · rintro (h | rfl)
            · exact h
            · exact ha
          · exact Or.inl
        · rw [if_neg ha]
          exact ⟨hcount, fun _ => rfl⟩
      have cases3 : (keepsType a.type = true ∧ isReduceType a.type = false ∧ weakStep p a = (add p.1 a, p.2)) ∨
          (isReduceType a.type = true ∧ keepsType a.type = false ∧ weakStep p a = (add p.1 { a with type := .weakreduce },
            if p.2.any (fun q => q.1 == a.item) then (bump p.2 a.item (-1)).filter (fun q => !(q.1 == a.item && decide (q.2 < 0))) else p.2)) ∨
          (isReduceType a.type = false ∧ keepsType a.type = false ∧ weakStep p a = p) := by
        unfold weakStep
        cases a.type <;> simp [keepsType, isReduceType]
      rcases cases3 with ⟨h1, h2, h3⟩ | ⟨h1, h2, h3⟩ | ⟨h1, h2, h3⟩
      · rw [h3]
        exact ⟨hcount, fun _ => rfl, hkeep h1 h2⟩
      · rw [h3]
        exact ⟨hcounts.1, hcounts.2, hred h1 h2⟩
      · rw [h3]
        refine ⟨hcount, fun _ => rfl, fun b => ?_⟩
        constructor
        · exact Or.inl
        · rintro (h | ⟨he, h⟩ | ⟨h, -⟩)
          · exact h
          · rw [he, h2] at h; cases h
          · rw [h1] at h; cases h
    obtain ⟨s1, s2, s3⟩ := hstep
    obtain ⟨r1, r2⟩ := weak_fold l (weakStep p a) s1
    rw [List.foldl_cons]
    refine ⟨fun j => (r1 j).trans (s2 j), fun b => ?_⟩
    rw [r2, s3]
    simp only [List.mem_cons]
    constructor
    · rintro ((h | ⟨h1, h2⟩ | h) | ⟨h1, h2⟩ | ⟨c, h1, h2⟩)
      · exact Or.inl h
      · exact Or.inr (Or.inl ⟨Or.inl h1, h2⟩)
      · exact Or.inr (Or.inr ⟨a, Or.inl rfl, h⟩)
      · exact Or.inr (Or.inl ⟨Or.inr h1, h2⟩)
      · exact Or.inr (Or.inr ⟨c, Or.inr h1, h2⟩)
    · rintro (h | ⟨h1 | h1, h2⟩ | ⟨c, rfl | h1, h2⟩)
      · exact Or.inl (Or.inl h)
      · exact Or.inl (Or.inr (Or.inl ⟨h1, h2⟩))
      · exact Or.inr (Or.inl ⟨h1, h2⟩)
      · exact Or.inl (Or.inr (Or.inr h2))
      · exact Or.inr (Or.inr ⟨c, h1, h2⟩)

theorem strong_fold (w : Weak) (counts : List (Item × Int)) : ∀ (l : List LrAction) (acts : List LrAction) (b : LrAction),
    b ∈ l.foldl (strongStep w counts) acts ↔ b ∈ acts ∨ ∃ a ∈ l, ∃ ws, w.find a.item = some ws ∧ ∃ i ∈ ws, isTerminal i = true ∧
      counts.any (fun q => q.1 == i) = false ∧ b = asWeak a i
  | [], acts, b => by simp
  | a :: l, acts, b => by
    rw [List.foldl_cons, strong_fold w counts l]
    have hstep : b ∈ strongStep w counts acts a ↔ b ∈ acts ∨ ∃ ws, w.find a.item = some ws ∧ ∃ i ∈ ws, isTerminal i = true ∧
        counts.any (fun q => q.1 == i) = false ∧ b = asWeak a i := by
      unfold strongStep
      cases hf : w.find a.item with
      | none => simp
      | some ws =>
        simp only [Option.some.injEq, exists_eq_left']
        have : (fun (l : List LrAction) i => if (!isTerminal i) = true then l else if counts.any (fun q => q.1 == i) = true then l else add l (asWeak a i)) =
            (fun l i => if (!isTerminal i || counts.any (fun q => q.1 == i)) = true then l else add l (asWeak a i)) := by
          funext l i
          cases isTerminal i <;> cases counts.any (fun q => q.1 == i) <;> rfl
        rw [this, foldl_add_if (fun i => !isTerminal i || counts.any (fun q => q.1 == i)) (asWeak a)]
        simp only [Bool.or_eq_false_iff, Bool.not_eq_false', and_assoc]
    rw [hstep]
    simp only [List.mem_cons, exists_eq_or_imp, or_assoc]

/-- What the weak symbol rewriter does to a state with a strong symbol that has weak equivalents. -/
theorem weak_rewrite_exact (w : Weak) (actions : List LrAction) (hs : haveStrong w actions = true) (b : LrAction) :
    b ∈ rewriteWeak w actions ↔
      (b ∈ actions ∧ (isTerminal b.item = false ∨ b.item ∉ w.weakSymbols ∨ keepsType b.type = true)) ∨
      (∃ a ∈ actions, isTerminal a.item = true ∧ a.item ∈ w.weakSymbols ∧ isReduceType a.type = true ∧ b = weaken a) ∨
      (∃ a ∈ actions, isTerminal a.item = true ∧ a.item ∉ w.weakSymbols ∧ ∃ ws, w.find a.item = some ws ∧ ∃ i ∈ ws, isTerminal i = true ∧
        (∀ c ∈ actions, c.item = i → i ∈ w.weakSymbols → c.type = .guard) ∧ b = asWeak a i) := by
  have hkeep : ∀ a, sortAction w a ≠ .weak ↔ (isTerminal a.item = false ∨ a.item ∉ w.weakSymbols ∨ a.type = .guard) := by
    intro a
    unfold sortAction
    cases h1 : isTerminal a.item with
    | false => simp
    | true =>
      by_cases h2 : a.item ∈ w.weakSymbols
      · by_cases h3 : a.type = .guard
        · simp [h2, h3]
        · simp [h2, h3]
      · simp [h2]
  have hweak : ∀ a, sortAction w a = .weak ↔ (isTerminal a.item = true ∧ a.item ∈ w.weakSymbols ∧ a.type ≠ .guard) := by
    intro a
    have := not_congr (hkeep a)
    rw [Decidable.not_not] at this
    rw [this]
    simp only [not_or, Bool.not_eq_false, Decidable.not_not, ne_eq]
  have hstrong : ∀ a, sortAction w a = .strong ↔ (isTerminal a.item = true ∧ a.item ∉ w.weakSymbols) := by
    intro a
    unfold sortAction
    cases h1 : isTerminal a.item with
    | false => simp
    | true =>
      by_cases h2 : a.item ∈ w.weakSymbols
      · by_cases h3 : a.type = .guard
        · simp [h2, h3]
        · simp [h2, h3]
      · simp [h2]
  obtain ⟨c1, c2⟩ := counts_spec (actions.filter (fun a => sortAction w a = .weak)) [] [] (by simp) (by simp)
  rw [List.nil_append] at c1 c2
  unfold rewriteWeak
  rw [hs]
  simp only [Bool.not_true, Bool.false_eq_true, if_false]
  obtain ⟨f1, f2⟩ := weak_fold (actions.filter (fun a => sortAction w a = .weak)).reverse
    ((actions.filter (fun a => sortAction w a ≠ .weak)).foldl add [],
      (actions.filter (fun a => sortAction w a = .weak)).foldl (fun c a => bump c a.item 1) []) (by
        intro q hq
        rw [c1 q hq, List.countP_reverse])
  revert f1 f2
  generalize List.foldl weakStep _ _ = X
  intro f1 f2
  rw [strong_fold, f2]
  have hc : ∀ i, isTerminal i = true → (X.2.any (fun q => q.1 == i) = false ↔
      ∀ c ∈ actions, c.item = i → i ∈ w.weakSymbols → c.type = .guard) := by
    intro i hi
    rw [f1, ← Bool.not_eq_true, c2]
    simp only [List.mem_filter, decide_eq_true_eq, hweak, not_exists, not_and]
    constructor
    · intro h c hc he hw
      by_contra hg
      exact h c ⟨hc, by rw [he]; exact hi, by rw [he]; exact hw, hg⟩ he
    · rintro h c ⟨hc, h1, h2, h3⟩ he
      exact h3 (h c hc he (by rw [← he]; exact h2))
  rw [mem_foldl_add]
  simp only [List.not_mem_nil, false_or, List.mem_filter, List.mem_reverse, decide_eq_true_eq, hweak, hkeep, hstrong]
  constructor
  · rintro ((⟨h1, h2⟩ | ⟨⟨h1, h2⟩, h3⟩ | ⟨a, ⟨h1, h2, h3, -⟩, h4, h5⟩) | ⟨a, ⟨h1, h2, h3⟩, ws, h4, i, h5, h6, h7, h8⟩)
    · refine Or.inl ⟨h1, ?_⟩
      rcases h2 with h2 | h2 | h2
      · exact Or.inl h2
      · exact Or.inr (Or.inl h2)
      · exact Or.inr (Or.inr (by rw [h2]; rfl))
    · exact Or.inl ⟨h1, Or.inr (Or.inr h3)⟩
    · exact Or.inr (Or.inl ⟨a, h1, h2, h3, h4, h5⟩)
    · exact Or.inr (Or.inr ⟨a, h1, h2, h3, ws, h4, i, h5, h6, (hc i h6).1 h7, h8⟩)
  · rintro (⟨h1, h2⟩ | ⟨a, h1, h2, h3, h4, h5⟩ | ⟨a, h1, h2, h3, ws, h4, i, h5, h6, h7, h8⟩)
    · by_cases h3 : isTerminal b.item = false ∨ b.item ∉ w.weakSymbols ∨ b.type = .guard
      · exact Or.inl (Or.inl ⟨h1, h3⟩)
      · simp only [not_or, Bool.not_eq_false, Decidable.not_not] at h3
        refine Or.inl (Or.inr (Or.inl ⟨⟨h1, h3.1, h3.2.1, h3.2.2⟩, ?_⟩))
        rcases h2 with h2 | h2 | h2
        · rw [h3.1] at h2; cases h2
        · exact absurd h3.2.1 h2
        · exact h2
    · refine Or.inl (Or.inr (Or.inr ⟨a, ⟨h1, h2, h3, ?_⟩, h4, h5⟩))
      intro hg
      rw [hg] at h4
      cases h4
    · exact Or.inr ⟨a, ⟨h1, h2, h3⟩, ws, h4, i, h5, h6, (hc i h6).2 h7, h8⟩

/-- A state without a strong symbol that has weak equivalents is left as it is. -/
theorem weak_rewrite_none (w : Weak) (actions : List LrAction) (hs : haveStrong w actions = false) : rewriteWeak w actions = actions := by
  unfold rewriteWeak
  rw [hs]
  rfl

/-- Strong symbol 1 with weak equivalents 2 and 3. -/
def keywords : Weak := (Weak.mk [] []).addSymbols (.terminal 1) [.terminal 2, .terminal 3]

/-- The state can shift 1 or reduce on 2. -/
def idOrKeyword : List LrAction :=
  [⟨.shift, .terminal 1, 5, emptyRule⟩, ⟨.reduce, .terminal 2, -1, ⟨.nonterminal 1, [.terminal 4]⟩⟩]

example : rewriteWeak keywords idOrKeyword =
    [⟨.shift, .terminal 1, 5, emptyRule⟩, ⟨.weakreduce, .terminal 2, -1, ⟨.nonterminal 1, [.terminal 4]⟩⟩,
      ⟨.shiftstrong, .terminal 3, 5, emptyRule⟩] := by decide

/-- C43, the part that holds: the actions on strong symbols and non-terminals stay, the reductions on weak symbols become weak, and a
weak symbol without any action but guards receives the actions of its strong equivalent. Missing: the weak symbols that have
reductions (`weak_gets_strong_violated`). -/
theorem weak_rewrite_partial (w : Weak) (actions : List LrAction) (hs : haveStrong w actions = true) :
    (∀ a, (isTerminal a.item = false ∨ a.item ∉ w.weakSymbols) → a ∈ actions → a ∈ rewriteWeak w actions) ∧
    (∀ a ∈ actions, isTerminal a.item = true → a.item ∈ w.weakSymbols → a.type = .reduce →
      a ∉ rewriteWeak w actions ∧ weaken a ∈ rewriteWeak w actions) ∧
    (∀ a ∈ actions, isTerminal a.item = true → a.item ∉ w.weakSymbols → ∀ ws, w.find a.item = some ws → ∀ i ∈ ws, isTerminal i = true →
      i ∈ w.weakSymbols → (∀ c ∈ actions, c.item = i → c.type = .guard) →
        { a with item := i, type := if a.type = .shift then .shiftstrong else a.type } ∈ rewriteWeak w actions) := by
  refine ⟨?_, ?_, ?_⟩
  · intro a h ha
    refine (weak_rewrite_exact w actions hs a).2 (Or.inl ⟨ha, ?_⟩)
    rcases h with h | h
    · exact Or.inl h
    · exact Or.inr (Or.inl h)
  · intro a ha h1 h2 h3
    constructor
    · intro h
      rcases (weak_rewrite_exact w actions hs a).1 h with ⟨-, h⟩ | ⟨c, -, -, -, -, h⟩ | ⟨c, -, -, -, ws, -, i, -, -, h, h'⟩
      · rcases h with h | h | h
        · rw [h1] at h; cases h
        · exact h h2
        · rw [h3] at h; cases h
      · rw [h] at h3; cases h3
      · have hi : a.item = i := by rw [h']; rfl
        have := h a ha hi (by rw [← hi]; exact h2)
        rw [h3] at this
        cases this
    · exact (weak_rewrite_exact w actions hs _).2 (Or.inr (Or.inl ⟨a, ha, h1, h2, by rw [h3]; rfl, rfl⟩))
  · intro a ha h1 h2 ws h3 i h4 h5 _ h6
    exact (weak_rewrite_exact w actions hs _).2 (Or.inr (Or.inr ⟨a, ha, h1, h2, ws, h3, i, h4, h5, fun c hc he _ => h6 c hc he, rfl⟩))

/-- The symbols that are added are those of the strong symbol's own actions, and only where the weak symbol had no action. -/
theorem weak_adds_only (w : Weak) (actions : List LrAction) (hs : haveStrong w actions = true) (b : LrAction) (hb : b ∈ rewriteWeak w actions)
    (hn : ∀ a ∈ actions, b ≠ a ∧ b ≠ weaken a) :
    (∀ c ∈ actions, c.item = b.item → b.item ∈ w.weakSymbols → c.type = .guard) ∧
    ∃ a ∈ actions, a.item ∉ w.weakSymbols ∧ (∃ ws, w.find a.item = some ws ∧ b.item ∈ ws) ∧ b.next = a.next ∧ b.rule = a.rule := by
  rcases (weak_rewrite_exact w actions hs b).1 hb with ⟨h, -⟩ | ⟨a, h, -, -, -, h'⟩ | ⟨a, h1, -, h3, ws, h4, i, h5, -, h6, rfl⟩
  · exact absurd rfl (hn b h).1
  · exact absurd h' (hn a h).2
  · exact ⟨h6, a, h1, h3, ⟨ws, h4, h5⟩, rfl, rfl⟩

/-- C43 does not hold as stated: the test `found->second < 0` (weak_symbols.cpp 286) is never true, so a weak symbol with nothing but
a reduction does not receive the shift of its strong equivalent. -/
theorem weak_gets_strong_violated :
    ¬ ∀ (w : Weak) (actions : List LrAction), haveStrong w actions = true →
      ∀ a ∈ actions, a.type = .shift → a.item ∉ w.weakSymbols → ∀ ws, w.find a.item = some ws → ∀ i ∈ ws, isTerminal i = true →
        (∀ c ∈ actions, c.item = i → c.type = .reduce) → ∃ b ∈ rewriteWeak w actions, b.item = i ∧ b.type = .shiftstrong := by
  intro h
  obtain ⟨b, hb, hi, ht⟩ := h keywords idOrKeyword (by decide) ⟨.shift, .terminal 1, 5, emptyRule⟩ (by decide) rfl (by decide)
    [.terminal 2, .terminal 3] (by decide) (.terminal 2) (by decide) rfl (by decide)
  revert hb hi ht
  have : rewriteWeak keywords idOrKeyword =
    [⟨.shift, .terminal 1, 5, emptyRule⟩, ⟨.weakreduce, .terminal 2, -1, ⟨.nonterminal 1, [.terminal 4]⟩⟩,
      ⟨.shiftstrong, .terminal 3, 5, emptyRule⟩] := by decide
  rw [this]
  intro hb
  simp only [List.mem_cons, List.not_mem_nil, or_false] at hb
  rcases hb with rfl | rfl | rfl
  · intro h; cases h
  · intro _ h; cases h
  · intro h; cases h

/-! C46 -/

/-- Two different elements with a property. -/
theorem two_le_filter {α : Type} (q : α → Bool) (l : List α) (hn : l.Nodup) :
    2 ≤ (l.filter q).length ↔ ∃ a b, a ∈ l ∧ b ∈ l ∧ a ≠ b ∧ q a = true ∧ q b = true := by
  have hn' : (l.filter q).Nodup := hn.filter q
  constructor
  · intro h
    cases hl : l.filter q with
    | nil => rw [hl] at h; simp at h
    | cons x m =>
      cases m with
      | nil => rw [hl] at h; simp at h
      | cons y m =>
        rw [hl] at hn'
        have hx := List.mem_filter.1 (show x ∈ l.filter q by rw [hl]; simp)
        have hy := List.mem_filter.1 (show y ∈ l.filter q by rw [hl]; simp)
        refine ⟨x, y, hx.1, hy.1, ?_, hx.2, hy.2⟩
        rintro rfl
        simp at hn'
  · rintro ⟨a, b, ha, hb, hab, qa, qb⟩
    have h1 : a ∈ l.filter q := List.mem_filter.2 ⟨ha, qa⟩
    have h2 : b ∈ l.filter q := List.mem_filter.2 ⟨hb, qb⟩
    generalize l.filter q = m at h1 h2
    match m with
    | [] => cases h1
    | [x] =>
      rw [List.mem_singleton] at h1 h2
      exact absurd (h1.trans h2.symm) hab
    | x :: y :: m => simp

theorem length_sub_filter {α : Type} (q : α → Bool) : ∀ (l : List α), l.length - (l.filter q).length = (l.filter (fun a => !q a)).length
  | [] => rfl
  | a :: l => by
    have h := length_sub_filter q l
    have hle := List.length_filter_le q l
    cases hq : q a with
    | true => simp [hq]; omega
    | false => simp [hq]; omega

/-- The actions that count as deterministic choices: shifts, strong reductions and diversions. -/
def strongType : ActType → Bool
  | .shift | .shiftstrong | .reduce | .divert => true
  | _ => false

/-- C46, the part that holds: a conflict is reported for exactly those symbols that have two different shifts or strong reductions.
Missing: accept actions (`accept_conflict_unreported_violated`), and the items of the report: a conflict whose items can't be found
is dropped. -/
theorem conflicts_reported_partial (involved : Item → Bool) (actions : List LrAction) (hn : actions.Nodup) (t : Item) :
    t ∈ findConflicts involved actions ↔ (∃ a b, a ∈ actions ∧ b ∈ actions ∧ a ≠ b ∧ a.item = t ∧ b.item = t ∧
      strongType a.type = true ∧ strongType b.type = true) ∧ involved t = true := by
  have hst : ∀ ty, strongType ty = (counted ty && !isWeak ty) := by
    intro ty; cases ty <;> rfl
  unfold findConflicts
  simp only [List.mem_filter, Bool.and_eq_true, decide_eq_true_eq]
  rw [mem_foldl_add]
  rw [length_sub_filter]
  simp only [List.not_mem_nil, false_or, List.mem_map, List.filter_filter]
  rw [two_le_filter _ _ hn, two_le_filter _ _ hn]
  constructor
  · rintro ⟨-, ⟨-, a, b, ha, hb, hab, h1, h2⟩, h3⟩
    simp only [Bool.and_eq_true, decide_eq_true_eq] at h1 h2
    refine ⟨⟨a, b, ha, hb, hab, h1.2.1, h2.2.1, ?_, ?_⟩, h3⟩
    · rw [hst, h1.2.2, h1.1]; rfl
    · rw [hst, h2.2.2, h2.1]; rfl
  · rintro ⟨⟨a, b, ha, hb, hab, h1, h2, h3, h4⟩, h5⟩
    rw [hst, Bool.and_eq_true] at h3 h4
    refine ⟨⟨a, List.mem_filter.2 ⟨ha, h3.1⟩, h1⟩, ⟨⟨a, b, ha, hb, hab, ?_, ?_⟩, a, b, ha, hb, hab, ?_, ?_⟩, h5⟩
    · rw [h3.1]; simp [h1]
    · rw [h4.1]; simp [h2]
    · rw [h3.1, h3.2]; simp [h1]
    · rw [h4.1, h4.2]; simp [h2]

/-- The state after `S` of `S → S | a`: it can accept or reduce `S → S` at the end of the input. -/
def acceptOrReduce : List LrAction :=
  [⟨.accept, .eoi, -1, ⟨.empty, [.nonterminal 0]⟩⟩, ⟨.reduce, .eoi, -1, ⟨.nonterminal 0, [.nonterminal 0]⟩⟩]

/-- C46 does not hold as stated: an accept and a reduction on the same symbol are not reported. -/
theorem accept_conflict_unreported_violated :
    ¬ ∀ (involved : Item → Bool) (actions : List LrAction), actions.Nodup → ∀ a ∈ actions, ∀ b ∈ actions, a ≠ b → a.item = b.item →
      (a.type = .accept ∨ strongType a.type = true) → strongType b.type = true → involved a.item = true →
        a.item ∈ findConflicts involved actions := by
  intro h
  have := h (fun _ => true) acceptOrReduce (by decide) ⟨.accept, .eoi, -1, ⟨.empty, [.nonterminal 0]⟩⟩ (by decide)
    ⟨.reduce, .eoi, -1, ⟨.nonterminal 0, [.nonterminal 0]⟩⟩ (by decide) (by decide) rfl (Or.inl rfl) rfl rfl
  revert this
  decide

example : findConflicts (fun _ => true) (afterOp 1) = [.terminal 1, .terminal 2, .terminal 3, .terminal 4] := by decide
example : findConflicts (fun _ => true) (rewritePrecedence arith (fun _ => emptyRule) [] (afterOp 4)) = [.terminal 4] := by decide
example : findConflicts (fun _ => true) (rewriteLr1 (fun _ => [[4], [5]]) rr) = [] := by decide

end Rewriters
end TameParse

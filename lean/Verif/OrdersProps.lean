import Verif.Orders
import Mathlib.Data.List.Pairwise
/-
C97: the comparison operators are orders.
-/
namespace TameParse
namespace Orders

/-- What sorted sets need of a comparison for which different values are different. -/
structure StrictTotal {α : Type} (lt : α → α → Bool) : Prop where
  irrefl : ∀ a, lt a a = false
  trans : ∀ a b c, lt a b = true → lt b c = true → lt a c = true
  connected : ∀ a b, lt a b = false → lt b a = false → a = b

theorem StrictTotal.asymm {α : Type} {lt : α → α → Bool} (h : StrictTotal lt) {a b : α} (hab : lt a b = true) : lt b a = false := by
  cases hb : lt b a with
  | false => rfl
  | true => rw [← h.irrefl a, h.trans a b a hab hb]

theorem ilt_total : StrictTotal ilt := by
  refine ⟨fun a => ?_, fun a b c => ?_, fun a b => ?_⟩ <;> simp only [ilt, decide_eq_true_eq, decide_eq_false_iff_not] <;> omega

theorem ptr_total {α : Type} {lt : α → α → Bool} (h : StrictTotal lt) : StrictTotal (ptrLt lt) := by
  refine ⟨fun a => ?_, fun a b c h1 h2 => ?_, fun a b h1 h2 => ?_⟩
  · cases a with
    | none => rfl
    | some a => exact h.irrefl a
  · cases a <;> cases b <;> cases c <;> simp only [ptrLt] at h1 h2 ⊢ <;> first | exact h.trans _ _ _ h1 h2 | rfl | exact absurd h1 Bool.false_ne_true | exact absurd h2 Bool.false_ne_true
  · cases a <;> cases b <;> simp only [ptrLt] at h1 h2
    · rfl
    · cases h1
    · cases h2
    · rw [h.connected _ _ h1 h2]

/-- Comparing by one thing and then by another. -/
def chain {α β : Type} (lt : α → α → Bool) (lt' : β → β → Bool) (a b : α × β) : Bool :=
  if lt a.1 b.1 then true else if lt b.1 a.1 then false else lt' a.2 b.2

theorem chain_iff {α β : Type} {lt : α → α → Bool} {lt' : β → β → Bool} (h : StrictTotal lt) (a b : α × β) :
    chain lt lt' a b = true ↔ lt a.1 b.1 = true ∨ a.1 = b.1 ∧ lt' a.2 b.2 = true := by
  unfold chain
  cases h1 : lt a.1 b.1 with
  | true => simp
  | false =>
    cases h2 : lt b.1 a.1 with
    | true =>
      simp only [Bool.false_eq_true, if_false, if_true, false_or, false_iff, not_and]
      intro e
      rw [e, h.irrefl] at h2
      cases h2
    | false => simp [h.connected _ _ h1 h2]

theorem chain_total {α β : Type} {lt : α → α → Bool} {lt' : β → β → Bool} (h : StrictTotal lt) (h' : StrictTotal lt') : StrictTotal (chain lt lt') := by
  refine ⟨fun a => ?_, fun a b c h1 h2 => ?_, fun a b h1 h2 => ?_⟩
  · simp [chain, h.irrefl, h'.irrefl]
  · rw [chain_iff h] at h1 h2 ⊢
    rcases h1 with h1 | ⟨h1, h1'⟩ <;> rcases h2 with h2 | ⟨h2, h2'⟩
    · exact Or.inl (h.trans _ _ _ h1 h2)
    · exact Or.inl (h2 ▸ h1)
    · exact Or.inl (h1 ▸ h2)
    · exact Or.inr ⟨h1.trans h2, h'.trans _ _ _ h1' h2'⟩
  · have n1 := mt (chain_iff (lt' := lt') h a b).2 (by simp [h1])
    have n2 := mt (chain_iff (lt' := lt') h b a).2 (by simp [h2])
    push Not at n1 n2
    have e : a.1 = b.1 := h.connected _ _ (by simpa using n1.1) (by simpa using n2.1)
    exact Prod.ext e (h'.connected _ _ (by simpa using n1.2 e) (by simpa using n2.2 e.symm))

theorem pull_total {α β : Type} {lt : β → β → Bool} (h : StrictTotal lt) (f : α → β) (hf : ∀ a b, f a = f b → a = b) : StrictTotal (fun a b => lt (f a) (f b)) :=
  ⟨fun _ => h.irrefl _, fun _ _ _ => h.trans _ _ _, fun _ _ h1 h2 => hf _ _ (h.connected _ _ h1 h2)⟩

theorem lex_cons {α : Type} {lt : α → α → Bool} (h : StrictTotal lt) (a b : α) (as bs : List α) :
    lexLt lt (a :: as) (b :: bs) = true ↔ lt a b = true ∨ a = b ∧ lexLt lt as bs = true := by
  have := chain_iff (lt' := lexLt lt) h (a, as) (b, bs)
  simpa [chain, lexLt] using this

theorem lex_total {α : Type} {lt : α → α → Bool} (h : StrictTotal lt) : StrictTotal (lexLt lt) := by
  refine ⟨fun a => ?_, fun a => ?_, fun a => ?_⟩
  · induction a with
    | nil => rfl
    | cons a as ih => simp [lexLt, h.irrefl, ih]
  · induction a with
    | nil =>
      intro b c h1 h2
      cases b with
      | nil => simp [lexLt] at h1
      | cons => cases c with
        | nil => simp [lexLt] at h2
        | cons => rfl
    | cons a as ih =>
      intro b c h1 h2
      cases b with
      | nil => simp [lexLt] at h1
      | cons b bs => cases c with
        | nil => simp [lexLt] at h2
        | cons c cs =>
          rw [lex_cons h] at h1 h2 ⊢
          rcases h1 with h1 | ⟨h1, h1'⟩ <;> rcases h2 with h2 | ⟨h2, h2'⟩
          · exact Or.inl (h.trans _ _ _ h1 h2)
          · exact Or.inl (h2 ▸ h1)
          · exact Or.inl (h1 ▸ h2)
          · exact Or.inr ⟨h1.trans h2, ih _ _ h1' h2'⟩
  · induction a with
    | nil =>
      intro b h1 h2
      cases b with
      | nil => rfl
      | cons => simp [lexLt] at h1
    | cons a as ih =>
      intro b h1 h2
      cases b with
      | nil => simp [lexLt] at h2
      | cons b bs =>
        have n1 := mt (lex_cons h a b as bs).2 (by simp [h1])
        have n2 := mt (lex_cons h b a bs as).2 (by simp [h2])
        push Not at n1 n2
        have e : a = b := h.connected _ _ (by simpa using n1.1) (by simpa using n2.1)
        rw [e, ih bs (by simpa using n1.2 e) (by simpa using n2.2 e.symm)]

theorem nlt_total : StrictTotal (fun a b : Nat => decide (a < b)) := by
  refine ⟨fun a => ?_, fun a b c => ?_, fun a b => ?_⟩ <;> simp only [decide_eq_true_eq, decide_eq_false_iff_not] <;> omega

theorem stateLoop_lex {α : Type} (lt : α → α → Bool) : ∀ a b : List α, a.length = b.length → stateLoop lt a b = lexLt lt a b
  | [], [], _ => rfl
  | [], _ :: _, h => by cases h
  | _ :: _, [], h => by cases h
  | a :: as, b :: bs, h => by simp [stateLoop, lexLt, stateLoop_lex lt as bs (by simpa using h)]

theorem stateLt_eq {α : Type} (lt : α → α → Bool) (a b : List α) :
    stateLt lt a b = chain (fun a b : Nat => decide (a < b)) (lexLt lt) (a.length, a) (b.length, b) := by
  unfold stateLt chain
  by_cases h1 : a.length < b.length
  · simp [h1]
  · by_cases h2 : a.length > b.length
    · simp [h1, h2]
    · simp [h1, h2, stateLoop_lex lt a b (by omega)]

/-- States are ordered if their items are. -/
theorem state_order {α : Type} {lt : α → α → Bool} (h : StrictTotal lt) : StrictTotal (stateLt lt) := by
  rw [show stateLt lt = fun a b => chain (fun a b : Nat => decide (a < b)) (lexLt lt) (a.length, a) (b.length, b) from funext fun a => funext fun b => stateLt_eq lt a b]
  exact pull_total (chain_total nlt_total (lex_total h)) (fun a : List α => (a.length, a)) (fun a b e => by simpa using (Prod.mk.inj e).2)

theorem stateEqLoop_iff {α : Type} {lt : α → α → Bool} (h : StrictTotal lt) : ∀ a b : List α, a.length = b.length → (stateEqLoop lt a b = true ↔ a = b)
  | [], [], _ => by simp [stateEqLoop]
  | [], _ :: _, h => by cases h
  | _ :: _, [], h => by cases h
  | a :: as, b :: bs, hl => by
    rw [stateEqLoop]
    by_cases e : a = b
    · subst e
      simp [h.irrefl, stateEqLoop_iff h as bs (by simpa using hl)]
    · have : (lt a b || lt b a) = true := by
        cases h1 : lt a b with
        | true => rfl
        | false => cases h2 : lt b a with
          | true => rfl
          | false => exact absurd (h.connected _ _ h1 h2) e
      simp [this, e]

/-- States are equal exactly if they have the same items in the same order. -/
theorem state_eq_exact {α : Type} {lt : α → α → Bool} (h : StrictTotal lt) (a b : List α) : stateEq lt a b = true ↔ a = b := by
  unfold stateEq
  by_cases hl : a.length = b.length
  · simp [hl, stateEqLoop_iff h a b hl]
  · simp only [ne_eq, hl, not_false_eq_true, if_true, Bool.false_eq_true, false_iff]
    rintro rfl
    exact hl rfl

/-- So those whose items were added in ascending order are equal exactly if they have the same items. -/
theorem state_items_partial {α : Type} {lt : α → α → Bool} (h : StrictTotal lt) (a b : List α) (ha : a.Pairwise (fun x y => lt x y = true)) (hb : b.Pairwise (fun x y => lt x y = true)) :
    stateEq lt a b = true ↔ ∀ x, x ∈ a ↔ x ∈ b := by
  rw [state_eq_exact h]
  constructor
  · rintro rfl x
    rfl
  · intro hm
    induction a generalizing b with
    | nil => cases b with
      | nil => rfl
      | cons y b => exact absurd ((hm y).2 (by simp)) (by simp)
    | cons x a ih => cases b with
      | nil => exact absurd ((hm x).1 (by simp)) (by simp)
      | cons y b =>
        rw [List.pairwise_cons] at ha hb
        have e : x = y := by
          rcases List.mem_cons.1 ((hm x).1 (by simp)) with e | e
          · exact e
          · rcases List.mem_cons.1 ((hm y).2 (by simp)) with e' | e'
            · exact e'.symm
            · have := h.asymm (hb.1 x e)
              rw [ha.1 y e'] at this
              cases this
        subst e
        rw [ih b ha.2 hb.2]
        intro z
        constructor
        · intro hz
          rcases List.mem_cons.1 ((hm z).1 (by simp [hz])) with e | e
          · subst e
            have := ha.1 z hz
            rw [h.irrefl] at this
            cases this
          · exact e
        · intro hz
          rcases List.mem_cons.1 ((hm z).2 (by simp [hz])) with e | e
          · subst e
            have := hb.1 z hz
            rw [h.irrefl] at this
            cases this
          · exact e

/-- The order in which items were added makes a difference otherwise. -/
theorem state_items_violated : ∃ a b : List Lr0, (∀ x, x ∈ a ↔ x ∈ b) ∧ stateEq Lr0.lt a b = false :=
  ⟨[⟨0, 0⟩, ⟨1, 0⟩], [⟨1, 0⟩, ⟨0, 0⟩], fun x => by simp [or_comm], by decide⟩

theorem range_order : StrictTotal Range.lt := by
  rw [show Range.lt = fun a b => chain ilt ilt (a.lower, a.upper) (b.lower, b.upper) from funext fun a => funext fun b => by simp [Range.lt, chain, ilt]]
  exact pull_total (chain_total ilt_total ilt_total) (fun a : Range => (a.lower, a.upper)) (fun a b e => by cases a; cases b; simpa using e)

theorem range_le (a b : Range) : a.le b = !b.lt a := by
  unfold Range.le Range.lt
  split_ifs with h1 h2
  · have : ¬ a.lower < b.lower := by omega
    have : ¬ a.lower = b.lower := by omega
    simp_all
  · simp [h2]
  · have e : a.lower = b.lower := by omega
    by_cases h : a.upper ≤ b.upper
    · simp [e, h, Int.not_lt.2 h]
    · simp [e, h, Int.not_le.1 h]

theorem transition_order : StrictTotal Transition.lt := by
  rw [show Transition.lt = fun a b => chain ilt ilt (a.symbolSet, a.newState) (b.symbolSet, b.newState) from funext fun a => funext fun b => by simp [Transition.lt, chain, ilt]]
  exact pull_total (chain_total ilt_total ilt_total) (fun a : Transition => (a.symbolSet, a.newState)) (fun a b e => by cases a; cases b; simpa using e)

/-- Of two transitions each can be at most the other, and one is not greater than the other although the other is less than it. -/
theorem transition_le_violated : ∃ a b : Transition, a.le b = true ∧ b.le a = true ∧ a ≠ b ∧ a.lt b = true ∧ b.gt a = false :=
  ⟨⟨1, 2⟩, ⟨2, 1⟩, by decide⟩

theorem pos_total : StrictTotal Pos.lt := by
  rw [show Pos.lt = fun a b => chain ilt (chain ilt ilt) (a.line, a.column, a.offset) (b.line, b.column, b.offset) from funext fun a => funext fun b => by simp [Pos.lt, chain, ilt]]
  exact pull_total (chain_total ilt_total (chain_total ilt_total ilt_total)) (fun a : Pos => (a.line, a.column, a.offset)) (fun a b e => by
    cases a; cases b
    simp only [Prod.mk.injEq, Int.natCast_inj] at e
    obtain ⟨rfl, rfl, rfl⟩ := e
    rfl)

theorem lexeme_order : StrictTotal Lexeme.lt := by
  rw [show Lexeme.lt = fun a b => chain ilt (chain (lexLt ilt) Pos.lt) (a.matched, a.symbols, a.position) (b.matched, b.symbols, b.position) from
    funext fun a => funext fun b => by simp [Lexeme.lt, chain, ilt]]
  exact pull_total (chain_total ilt_total (chain_total (lex_total ilt_total) pos_total)) (fun a : Lexeme => (a.matched, a.symbols, a.position)) (fun a b e => by
    cases a; cases b; simpa using e)

theorem item_order : StrictTotal itemLt := by
  refine ⟨fun a => by simp [itemLt, Item.cmp_refl], fun a b c h1 h2 => ?_, fun a b h1 h2 => ?_⟩
  · simp only [itemLt, beq_iff_eq] at h1 h2 ⊢
    exact Item.cmp_trans a b c h1 h2
  · simp only [itemLt, beq_eq_false_iff_ne] at h1 h2
    apply (Item.cmp_eq_iff a b).1
    have := Item.cmp_swap a b
    cases h : Item.cmp a b with
    | lt => exact absurd h h1
    | eq => rfl
    | gt => rw [h] at this; exact absurd this.symm h2

theorem cmpItems_loop : ∀ r s : List Item, (Item.cmpItems r s == .lt) = stateLoop itemLt r s
  | [], _ => by simp [Item.cmpItems, stateLoop]
  | _ :: _, [] => by simp [Item.cmpItems, stateLoop]
  | a :: r, b :: s => by
    rw [Item.cmpItems, stateLoop, ← cmpItems_loop r s]
    have := Item.cmp_swap a b
    unfold itemLt
    rw [← this]
    cases Item.cmp a b <;> simp [Ordering.then, Ordering.swap]

theorem rule_order : StrictTotal ruleLt := by
  rw [show ruleLt = fun a b => chain (fun a b : Nat => decide (a < b)) (chain itemLt (lexLt itemLt)) (a.items.length, a.nonterminal, a.items) (b.items.length, b.nonterminal, b.items) from
    funext fun a => funext fun b => ?_]
  · exact pull_total (chain_total nlt_total (chain_total item_order (lex_total item_order))) (fun a : Rule => (a.items.length, a.nonterminal, a.items)) (fun a b e => by
      cases a; cases b
      simp only [Prod.mk.injEq] at e
      rw [e.2.1, e.2.2])
  · unfold ruleLt Rule.cmp chain
    rcases Nat.lt_trichotomy a.items.length b.items.length with h | h | h
    · rw [Nat.compare_eq_lt.2 h]
      simp [h, Ordering.then]
    · rw [Nat.compare_eq_eq.2 h]
      have := Item.cmp_swap a.nonterminal b.nonterminal
      simp only [h, Nat.lt_irrefl, decide_false, Bool.false_eq_true, if_false, ← stateLoop_lex itemLt _ _ h, ← cmpItems_loop]
      unfold itemLt
      rw [← this]
      cases Item.cmp a.nonterminal b.nonterminal <;> simp [Ordering.then, Ordering.swap]
    · rw [Nat.compare_eq_gt.2 h]
      simp [h, Ordering.then, Nat.not_lt.2 (Nat.le_of_lt h)]

theorem lr0_order : StrictTotal Lr0.lt := by
  rw [show Lr0.lt = fun a b => chain ilt ilt (a.offset, a.rule) (b.offset, b.rule) from funext fun a => funext fun b => by simp [Lr0.lt, chain, ilt]]
  exact pull_total (chain_total ilt_total ilt_total) (fun a : Lr0 => (a.offset, a.rule)) (fun a b e => by
    cases a; cases b
    simp only [Prod.mk.injEq] at e
    rw [e.1, e.2])

theorem lr0_eq (a b : Lr0) : a.eq b = true ↔ a = b := by
  cases a; cases b
  simp only [Lr0.eq, Lr0.mk.injEq]
  split_ifs with h <;> simp_all

theorem lr1_loop : ∀ a b : List Item, Lr1.loop a b = stateLoop itemLt a b
  | [], _ => by simp [Lr1.loop, stateLoop]
  | _ :: _, [] => by simp [Lr1.loop, stateLoop]
  | a :: as, b :: bs => by
    rw [Lr1.loop, stateLoop, lr1_loop as bs]
    by_cases e : a = b
    · subst e
      simp [item_order.irrefl]
    · cases h1 : itemLt a b with
      | true => rfl
      | false => cases h2 : itemLt b a with
        | true => simp [e]
        | false => exact absurd (item_order.connected _ _ h1 h2) e

theorem lr1_order : StrictTotal Lr1.lt := by
  rw [show Lr1.lt = fun a b => chain Lr0.lt (stateLt itemLt) (a.core, a.lookahead) (b.core, b.lookahead) from funext fun a => funext fun b => ?_]
  · exact pull_total (chain_total lr0_order (state_order item_order)) (fun a : Lr1 => (a.core, a.lookahead)) (fun a b e => by cases a; cases b; simpa using e)
  · unfold Lr1.lt chain stateLt
    by_cases e : a.core = b.core
    · have : a.core.eq b.core = true := (lr0_eq _ _).2 e
      simp only [e, lr0_order.irrefl, (lr0_eq b.core b.core).2 rfl, lr1_loop, Bool.false_eq_true, if_false, Bool.not_true, gt_iff_lt]
    · have : a.core.eq b.core = false := by simpa using mt (lr0_eq _ _).1 e
      cases h1 : Lr0.lt b.core a.core with
      | true => simp [lr0_order.asymm h1]
      | false => cases h2 : Lr0.lt a.core b.core with
        | true => simp [this]
        | false => exact absurd (lr0_order.connected _ _ h2 h1) e

theorem lr1_eqLoop : ∀ a b : List Item, a.length = b.length → (Lr1.eqLoop a b = true ↔ a = b)
  | [], [], _ => by simp [Lr1.eqLoop]
  | [], _ :: _, h => by cases h
  | _ :: _, [], h => by cases h
  | a :: as, b :: bs, h => by
    rw [Lr1.eqLoop]
    have := lr1_eqLoop as bs (by simpa using h)
    by_cases e : a = b <;> simp [e, this]

theorem lr1_eq (a b : Lr1) : a.eq b = true ↔ a = b := by
  obtain ⟨c, l⟩ := a
  obtain ⟨d, m⟩ := b
  have h1 := lr0_eq c d
  simp only [Lr1.eq, Lr1.mk.injEq]
  by_cases hl : l.length = m.length
  · have h2 := lr1_eqLoop l m hl
    by_cases e : c = d
    · subst e
      simp [hl, h1.2 rfl, h2]
    · have : c.eq d = false := by simpa using mt h1.1 e
      simp [hl, this, e]
  · simp only [ne_eq, hl, not_false_eq_true, if_true, Bool.false_eq_true, false_iff, not_and]
    rintro - rfl
    exact hl rfl

theorem lr1_le (a b : Lr1) : a.le b = !b.lt a ∧ a.ge b = !a.lt b := by
  unfold Lr1.le Lr1.ge
  by_cases e : a = b
  · subst e
    simp [lr1_order.irrefl, (lr1_eq a a).2 rfl]
  · have : a.eq b = false := by simpa using mt (lr1_eq a b).1 e
    cases h1 : a.lt b with
    | true => simp [lr1_order.asymm h1, this]
    | false => cases h2 : b.lt a with
      | true => simp [this]
      | false => exact absurd (lr1_order.connected _ _ h1 h2) e

/-- Every LR(1) item is greater than itself. -/
theorem lr1_gt_violated (a : Lr1) : a.gt a = true := by
  rw [Lr1.gt, lr1_order.irrefl]
  rfl

theorem action_order : StrictTotal Action.lt := by
  rw [show Action.lt = fun a b => chain (ptrLt itemLt) (chain ilt (chain ilt (ptrLt ruleLt))) (a.item, a.type, a.nextState, a.rule) (b.item, b.type, b.nextState, b.rule) from
    funext fun a => funext fun b => by simp [Action.lt, chain, ilt]]
  exact pull_total (chain_total (ptr_total item_order) (chain_total ilt_total (chain_total ilt_total (ptr_total rule_order)))) (fun a : Action => (a.item, a.type, a.nextState, a.rule))
    (fun a b e => by
      cases a; cases b
      simp only [Prod.mk.injEq] at e
      obtain ⟨rfl, rfl, rfl, rfl⟩ := e
      rfl)

theorem itemId_order : StrictTotal ItemId.lt := by
  rw [show ItemId.lt = fun a b => chain ilt ilt (a.state, a.item) (b.state, b.item) from funext fun a => funext fun b => ?_]
  · exact pull_total (chain_total ilt_total ilt_total) (fun a : ItemId => (a.state, a.item)) (fun a b e => by cases a; cases b; simpa using e)
  · unfold ItemId.lt chain ilt
    rcases Int.lt_trichotomy a.state b.state with h | h | h
    · simp [h]
    · simp [h]
    · have h1 : ¬ a.state < b.state := by omega
      have h2 : a.state ≠ b.state := by omega
      simp [h, h1, h2]

theorem pair_chain {α β : Type} (lt : α → α → Bool) (lt' : β → β → Bool) : pairLt lt lt' = chain lt lt' := by
  funext a b
  unfold pairLt chain
  cases h1 : lt a.1 b.1 <;> cases lt b.1 a.1 <;> simp

theorem conflict_order : StrictTotal Conflict.lt := by
  have hr := lex_total (chain_total (ptr_total lr0_order) (lex_total itemId_order))
  rw [← pair_chain] at hr
  rw [show Conflict.lt = fun a b => chain ilt (chain (ptrLt itemLt) (chain (lexLt (ptrLt Lr0.lt)) (lexLt (pairLt (ptrLt Lr0.lt) (lexLt ItemId.lt)))))
    (a.state, a.token, a.shift, a.reduce) (b.state, b.token, b.shift, b.reduce) from funext fun a => funext fun b => by simp [Conflict.lt, chain, ilt]]
  exact pull_total (chain_total ilt_total (chain_total (ptr_total item_order) (chain_total (lex_total (ptr_total lr0_order)) hr))) (fun a : Conflict => (a.state, a.token, a.shift, a.reduce))
    (fun a b e => by
      cases a; cases b
      simp only [Prod.mk.injEq] at e
      obtain ⟨rfl, rfl, rfl, rfl⟩ := e
      rfl)

/-- The accept actions of a language are ordered. -/
theorem accept_order : StrictTotal (fun a b : Int × Language.UnitType × Bool => (WeakLexer.Accept.lang a.1 a.2.1 a.2.2).less (.lang b.1 b.2.1 b.2.2)) := by
  have hb : StrictTotal (fun a b : Bool => !a && b) := by
    refine ⟨fun a => ?_, fun a b c => ?_, fun a b => ?_⟩
    · cases a <;> rfl
    · cases a <;> cases b <;> cases c <;> simp
    · cases a <;> cases b <;> simp
  have hn : StrictTotal (fun a b : Nat => decide (b < a)) := by
    refine ⟨fun a => ?_, fun a b c => ?_, fun a b => ?_⟩ <;> simp only [decide_eq_true_eq, decide_eq_false_iff_not] <;> omega
  have hi : StrictTotal (fun a b : Int => decide (b < a)) := by
    refine ⟨fun a => ?_, fun a b c => ?_, fun a b => ?_⟩ <;> simp only [decide_eq_true_eq, decide_eq_false_iff_not] <;> omega
  have key := pull_total (chain_total hb (chain_total hn hi)) (fun a : Int × Language.UnitType × Bool => (a.2.2, WeakLexer.rank a.2.1, a.1)) (fun a b e => by
    obtain ⟨s, t, w⟩ := a
    obtain ⟨s', t', w'⟩ := b
    simp only [Prod.mk.injEq] at e
    obtain ⟨e1, e2, e3⟩ := e
    have : t = t' := by cases t <;> cases t' <;> simp_all [WeakLexer.rank]
    rw [e1, e3, this])
  refine (congrArg StrictTotal (funext fun a => funext fun b => ?_)).mpr key
  obtain ⟨s, t, w⟩ := a
  obtain ⟨s', t', w'⟩ := b
  cases w <;> cases w' <;> simp [WeakLexer.Accept.less, chain]

/-- An accept action of a language and another one can each be less important than the other. -/
theorem accept_violated : ∃ a b : WeakLexer.Accept, a.less b = true ∧ b.less a = true := ⟨.plain 5, .lang 3 .lexer false, by decide⟩

/-- Otherwise two accept actions of a language are equal exactly if neither is less important. -/
theorem accept_eq_partial (s s' : Int) (t t' : Language.UnitType) (w : Bool) : acceptEq (.lang s t w) (.lang s' t' w) = true ↔
    (WeakLexer.Accept.lang s t w).less (.lang s' t' w) = false ∧ (WeakLexer.Accept.lang s' t' w).less (.lang s t w) = false := by
  have ho := accept_order
  constructor
  · intro h
    obtain ⟨rfl, rfl⟩ : s = s' ∧ t = t' := by
      simp only [acceptEq] at h
      split at h
      · cases h
      · rename_i hs
        exact ⟨by simpa using hs, by simpa using h⟩
    exact ⟨ho.irrefl (s, t, w), ho.irrefl (s, t, w)⟩
  · rintro ⟨h1, h2⟩
    have := ho.connected (s, t, w) (s', t', w) h1 h2
    simp only [Prod.mk.injEq, and_true] at this
    obtain ⟨rfl, rfl⟩ := this
    simp [acceptEq]

/-- Two accept actions can be equal although one is less important. -/
theorem accept_eq_violated (s : Int) (t : Language.UnitType) : acceptEq (.lang s t false) (.lang s t true) = true ∧ (WeakLexer.Accept.lang s t false).less (.lang s t true) = true := by
  simp [acceptEq, WeakLexer.Accept.less]

/-- The two nodes that a parser makes for a terminal and for a nonterminal are each less than the other. -/
theorem node_violated (l : Lexeme) (i : Int) (hi : 0 ≤ i) (cs ds : List Node) :
    (Node.mk (-1) (some l) cs).lt (.mk i none ds) = true ∧ (Node.mk i none ds).lt (.mk (-1) (some l) cs) = true := by
  have : (-1 : Int) < i := by omega
  simp [Node.lt, ptrLt, this]

mutual
/-- No node has a lexeme. -/
def Bare : Node → Prop
  | .mk _ l cs => l = none ∧ BareAll cs

/-- No node of the trees has a lexeme. -/
def BareAll : List Node → Prop
  | [] => True
  | c :: cs => Bare c ∧ BareAll cs
end

theorem bareAll_mem : ∀ {cs : List Node}, BareAll cs → ∀ c ∈ cs, Bare c
  | _ :: _, h, c, hc => by
    rcases List.mem_cons.1 hc with rfl | hc
    · exact h.1
    · exact bareAll_mem h.2 c hc

theorem node_loop : ∀ cs ds : List Node, Node.loop cs ds = stateLoop Node.lt cs ds
  | [], _ => by simp [Node.loop, stateLoop]
  | _ :: _, [] => by simp [Node.loop, stateLoop]
  | c :: cs, d :: ds => by rw [Node.loop, stateLoop, node_loop cs ds]

/-- The order for a part of the values. -/
structure StrictTotalOn {α : Type} (P : α → Prop) (lt : α → α → Bool) : Prop where
  irrefl : ∀ a, P a → lt a a = false
  trans : ∀ a b c, P a → P b → P c → lt a b = true → lt b c = true → lt a c = true
  connected : ∀ a b, P a → P b → lt a b = false → lt b a = false → a = b

theorem on_total {α : Type} {P : α → Prop} {lt : α → α → Bool} : StrictTotalOn P lt ↔ StrictTotal (fun a b : {x // P x} => lt a.1 b.1) := by
  constructor
  · rintro ⟨h1, h2, h3⟩
    exact ⟨fun a => h1 a.1 a.2, fun a b c => h2 a.1 b.1 c.1 a.2 b.2 c.2, fun a b x y => Subtype.ext (h3 a.1 b.1 a.2 b.2 x y)⟩
  · rintro ⟨h1, h2, h3⟩
    exact ⟨fun a ha => h1 ⟨a, ha⟩, fun a b c ha hb hc => h2 ⟨a, ha⟩ ⟨b, hb⟩ ⟨c, hc⟩, fun a b ha hb x y => Subtype.mk.inj (h3 ⟨a, ha⟩ ⟨b, hb⟩ x y)⟩

theorem stateLt_attach {α : Type} {P : α → Prop} {lt : α → α → Bool} : ∀ a b : List {x // P x}, stateLoop lt (a.map (·.1)) (b.map (·.1)) = stateLoop (fun x y : {x // P x} => lt x.1 y.1) a b
  | [], _ => by simp [stateLoop]
  | _ :: _, [] => by simp [stateLoop]
  | a :: as, b :: bs => by rw [List.map_cons, List.map_cons, stateLoop, stateLoop, stateLt_attach as bs]

theorem state_on {α : Type} {P : α → Prop} {lt : α → α → Bool} (h : StrictTotalOn P lt) : StrictTotalOn (fun l : List α => ∀ x ∈ l, P x) (stateLt lt) := by
  have key := state_order (on_total.1 h)
  have lift : ∀ l : List α, (∀ x ∈ l, P x) → ∃ m : List {x // P x}, m.map (·.1) = l := fun l hl => ⟨l.attach.map (fun x => ⟨x.1, hl x.1 x.2⟩), by simp⟩
  have same : ∀ a b : List {x // P x}, stateLt lt (a.map (·.1)) (b.map (·.1)) = stateLt (fun x y : {x // P x} => lt x.1 y.1) a b := fun a b => by
    rw [stateLt, stateLt, stateLt_attach, List.length_map, List.length_map]
  refine ⟨fun a ha => ?_, fun a b c ha hb hc => ?_, fun a b ha hb => ?_⟩
  · obtain ⟨a, rfl⟩ := lift a ha
    rw [same]
    exact key.irrefl a
  · obtain ⟨a, rfl⟩ := lift a ha
    obtain ⟨b, rfl⟩ := lift b hb
    obtain ⟨c, rfl⟩ := lift c hc
    simp only [same]
    exact key.trans a b c
  · obtain ⟨a, rfl⟩ := lift a ha
    obtain ⟨b, rfl⟩ := lift b hb
    simp only [same]
    intro h1 h2
    rw [key.connected a b h1 h2]

theorem node_lt_bare (i j : Int) (cs ds : List Node) : (Node.mk i none cs).lt (.mk j none ds) = chain ilt (stateLt Node.lt) (i, cs) (j, ds) := by
  rw [Node.lt, chain, stateLt, node_loop]
  simp [ptrLt, ilt]

/-- Trees without lexemes are ordered. -/
theorem node_order_partial : StrictTotalOn Bare Node.lt := by
  have key : ∀ n : Nat, StrictTotalOn (fun x => Bare x ∧ sizeOf x < n) Node.lt := by
    intro n
    induction n with
    | zero => exact ⟨fun a h => absurd h.2 (by omega), fun a b c h => absurd h.2 (by omega), fun a b h => absurd h.2 (by omega)⟩
    | succ n ih =>
      have hs := state_on ih
      have hc := chain_total ilt_total (on_total.1 hs)
      have kids : ∀ {i cs}, Bare (Node.mk i none cs) → sizeOf (Node.mk i none cs) < n + 1 → ∀ x ∈ cs, Bare x ∧ sizeOf x < n := by
        intro i cs h1 h2 x hx
        refine ⟨bareAll_mem h1.2 x hx, ?_⟩
        have := List.sizeOf_lt_of_mem hx
        simp only [Node.mk.sizeOf_spec] at h2
        omega
      have same : ∀ i j cs ds (h1 : ∀ x ∈ cs, Bare x ∧ sizeOf x < n) (h2 : ∀ x ∈ ds, Bare x ∧ sizeOf x < n), (Node.mk i none cs).lt (.mk j none ds) =
          chain ilt (fun a b : {l : List Node // ∀ x ∈ l, Bare x ∧ sizeOf x < n} => stateLt Node.lt a.1 b.1) (i, ⟨cs, h1⟩) (j, ⟨ds, h2⟩) := fun i j cs ds _ _ => node_lt_bare i j cs ds
      refine ⟨?_, ?_, ?_⟩
      · rintro ⟨i, l, cs⟩ ⟨⟨rfl, h1⟩, h2⟩
        have k := kids ⟨rfl, h1⟩ h2
        rw [same i i cs cs k k]
        exact hc.irrefl _
      · rintro ⟨i, l, cs⟩ ⟨j, l', ds⟩ ⟨k, l'', es⟩ ⟨⟨rfl, h1⟩, h2⟩ ⟨⟨rfl, h3⟩, h4⟩ ⟨⟨rfl, h5⟩, h6⟩
        have k1 := kids ⟨rfl, h1⟩ h2
        have k2 := kids ⟨rfl, h3⟩ h4
        have k3 := kids ⟨rfl, h5⟩ h6
        rw [same i j cs ds k1 k2, same j k ds es k2 k3, same i k cs es k1 k3]
        exact hc.trans _ _ _
      · rintro ⟨i, l, cs⟩ ⟨j, l', ds⟩ ⟨⟨rfl, h1⟩, h2⟩ ⟨⟨rfl, h3⟩, h4⟩
        have k1 := kids ⟨rfl, h1⟩ h2
        have k2 := kids ⟨rfl, h3⟩ h4
        rw [same i j cs ds k1 k2, same j i ds cs k2 k1]
        intro x y
        have := hc.connected _ _ x y
        simp only [Prod.mk.injEq, Subtype.mk.injEq] at this
        rw [this.1, this.2]
  refine ⟨fun a ha => (key (sizeOf a + 1)).irrefl a ⟨ha, by omega⟩, fun a b c ha hb hc => (key (sizeOf a + sizeOf b + sizeOf c + 1)).trans a b c ⟨ha, by omega⟩ ⟨hb, by omega⟩ ⟨hc, by omega⟩,
    fun a b ha hb => (key (sizeOf a + sizeOf b + 1)).connected a b ⟨ha, by omega⟩ ⟨hb, by omega⟩⟩

/-- Values whose order depends on their last members. -/
example : Conflict.lt ⟨3, some (.terminal 4), [some ⟨1, 2⟩], [(some ⟨0, 1⟩, [⟨5, 0⟩])]⟩ ⟨3, some (.terminal 4), [some ⟨1, 2⟩], [(some ⟨0, 1⟩, [⟨5, 0⟩, ⟨6, 0⟩])]⟩ = true ∧
    Lr1.lt ⟨⟨7, 1⟩, [.eoi, .terminal 2]⟩ ⟨⟨7, 1⟩, [.eoi, .terminal 3]⟩ = true ∧ Lexeme.lt ⟨2, [97, 98], ⟨0, 0, 0⟩⟩ ⟨2, [97, 98, 99], ⟨0, 0, 0⟩⟩ = true := by decide

end Orders
end TameParse

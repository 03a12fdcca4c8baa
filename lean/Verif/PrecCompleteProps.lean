import Verif.PrecGrammarProps
import Verif.FuelProps

/-!
# C64: the parser makes the tree that the precedences say
-/

namespace TameParse
namespace Sound

open AssocMap Closure Relation Lalr TameParse.Parser ParserTables

/-- The rule of an operator. -/
def opRule (E : Item) (n : Int) : Rule := ⟨E, [E, .terminal n, E]⟩

/-- The token is an operator of the block. -/
def IsOp (p : Rewriters.Prec) (n : Int) : Prop := p.precedence (.terminal n) [] ≠ none

/-- The expressions of a language are made with binary operators: the rules of `E` are those `E → E op E` for operators, and rules that begin and
end with tokens that are not operators. Operators are nowhere else, and the other rules that have themselves at the ends have them at one end only. -/
structure OpGram (first : Item → List Item) (g : Gram) (okI : Item → Prop) (p : Rewriters.Prec) (E : Item) : Prop where
  okE : okI E
  rules : ∀ r ∈ closRules g E, (∃ n, r = [E, .terminal n, E] ∧ IsOp p n) ∨
    ((∃ a β, r = .terminal a :: β) ∧ (∃ γ z, r = γ ++ [.terminal z]) ∧ ∀ n, .terminal n ∈ r → ¬ IsOp p n)
  others : ∀ x, okI x → ∀ r ∈ closRules g x, ∀ n, .terminal n ∈ r → IsOp p n → x = E
  both : ∀ x, okI x → x ≠ E → ∀ n β α, x :: .terminal n :: β ∈ closRules g x → α ++ [x] ∈ closRules g x → False
  starts : ∀ x, okI x → ∀ n, IsOp p n → .terminal n ∈ first x → x = .terminal n
  notNull : .empty ∉ first E ∧ ∀ n, okI (.terminal n) → .empty ∉ first (.terminal n)
  level : ∀ n k a, p.precedence (.terminal n) [] = some a → p.precedence (.terminal k) [] = some a →
    p.associativity (.terminal n) [] = p.associativity (.terminal k) []
  assoc : ∀ n, IsOp p n → p.associativity (.terminal n) [] = .left ∨ p.associativity (.terminal n) [] = .right

/-- `a n b k c` is `(a n b) k c`. -/
def Bef (p : Rewriters.Prec) (n k : Int) : Prop :=
  ∃ a b, p.precedence (.terminal n) [] = some a ∧ p.precedence (.terminal k) [] = some b ∧ (b < a ∨ b = a ∧ p.associativity (.terminal n) [] = .left)

/-- `a n b k c` is `a n (b k c)`. -/
def Aft (p : Rewriters.Prec) (n k : Int) : Prop :=
  ∃ a b, p.precedence (.terminal n) [] = some a ∧ p.precedence (.terminal k) [] = some b ∧ (a < b ∨ b = a ∧ p.associativity (.terminal n) [] = .right)

section
variable {first : Item → List Item} {g : Gram} {okI : Item → Prop} {num : Numbering} {m : Mach} {n0 : Nat} {p : Rewriters.Prec} {E : Item}

theorem OpGram.notTerminal (hO : OpGram first g okI p E) {n : Int} (h : [E, .terminal n, E] ∈ closRules g E) : isTerminal E = false := by
  cases E with
  | terminal k => cases h
  | _ => rfl

theorem operator_op {n : Int} {op : Item} (hE : isTerminal E = false) : Rewriters.Operator p (opRule E n) op ↔ op = .terminal n ∧ IsOp p n := by
  constructor
  · rintro ⟨a, b, h1, h2, h3, h4⟩
    have hmem : op ∈ [E, .terminal n, E] := by
      have : op ∈ (opRule E n).items := by rw [h1]; simp
      exact this
    simp only [List.mem_cons, List.not_mem_nil, or_false] at hmem
    have hop : op = .terminal n := by
      rcases hmem with h | h | h
      · rw [h, hE] at h2; cases h2
      · exact h
      · rw [h, hE] at h2; cases h2
    subst hop
    exact ⟨rfl, h3⟩
  · rintro ⟨rfl, h⟩
    refine ⟨[E], [E], rfl, rfl, h, ?_⟩
    intro u hu hut
    have : u = E := by simpa using hu
    rw [this, hE] at hut
    cases hut

theorem before_op {n k : Int} (hE : isTerminal E = false) : Before p (opRule E n) (.terminal k) ↔ Bef p n k := by
  constructor
  · rintro ⟨op, a, b, h1, h2, h3, h4⟩
    obtain ⟨rfl, -⟩ := (operator_op hE).1 h1
    exact ⟨a, b, h2, h3, h4⟩
  · rintro ⟨a, b, h2, h3, h4⟩
    exact ⟨_, a, b, (operator_op hE).2 ⟨rfl, by rw [IsOp, h2]; simp⟩, h2, h3, h4⟩

theorem after_op {n k : Int} (hE : isTerminal E = false) : After p (opRule E n) (.terminal k) ↔ Aft p n k := by
  constructor
  · rintro ⟨op, a, b, h1, h2, h3, h4⟩
    obtain ⟨rfl, -⟩ := (operator_op hE).1 h1
    exact ⟨a, b, h2, h3, h4⟩
  · rintro ⟨a, b, h2, h3, h4⟩
    exact ⟨_, a, b, (operator_op hE).2 ⟨rfl, by rw [IsOp, h2]; simp⟩, h2, h3, h4⟩

theorem bef_aft {n k : Int} (h : Bef p n k) (h' : Aft p n k) : False := by
  obtain ⟨a, b, h1, h2, h3⟩ := h
  obtain ⟨a', b', h1', h2', h3'⟩ := h'
  rw [h1] at h1'
  rw [h2] at h2'
  cases h1'
  cases h2'
  rcases h3 with h3 | ⟨h3, h4⟩
  · rcases h3' with h3' | ⟨h3', -⟩ <;> omega
  · rcases h3' with h3' | ⟨-, h4'⟩
    · omega
    · rw [h4] at h4'; cases h4'

theorem OpGram.total (hO : OpGram first g okI p E) {n k : Int} (hn : IsOp p n) (hk : IsOp p k) : Bef p n k ∨ Aft p n k := by
  obtain ⟨a, ha⟩ := Option.ne_none_iff_exists'.1 hn
  obtain ⟨b, hb⟩ := Option.ne_none_iff_exists'.1 hk
  rcases lt_trichotomy b a with h | h | h
  · exact Or.inl ⟨a, b, ha, hb, Or.inl h⟩
  · rcases hO.assoc n hn with h' | h'
    · exact Or.inl ⟨a, b, ha, hb, Or.inr ⟨h, h'⟩⟩
    · exact Or.inr ⟨a, b, ha, hb, Or.inr ⟨h, h'⟩⟩
  · exact Or.inr ⟨a, b, ha, hb, Or.inl h⟩

/-- If `c` comes before the operand of `o`, and that begins with an operand of `o'`. -/
theorem OpGram.aft_trans (hO : OpGram first g okI p E) {c o o' : Int} (h : Aft p c o) (h' : Bef p o' o) : Aft p c o' := by
  obtain ⟨a, b, h1, h2, h3⟩ := h
  obtain ⟨a', b', h1', h2', h3'⟩ := h'
  rw [h2] at h2'
  cases h2'
  refine ⟨a, a', h1, h1', ?_⟩
  rcases h3 with h3 | ⟨h3, h4⟩
  · rcases h3' with h3' | ⟨h3', -⟩ <;> (left; omega)
  · rcases h3' with h3' | ⟨h3', h4'⟩
    · left; omega
    · exfalso
      have : p.associativity (.terminal c) [] = p.associativity (.terminal o') [] := hO.level c o' a h1 (by rw [h1']; congr 1; omega)
      rw [h4, h4'] at this
      cases this

theorem OpGram.bef_trans (_hO : OpGram first g okI p E) {b o o' : Int} (h : Bef p o b) (h' : Aft p o o') : Bef p o' b := by
  obtain ⟨a, c, h1, h2, h3⟩ := h
  obtain ⟨a', c', h1', h2', h3'⟩ := h'
  rw [h1] at h1'
  cases h1'
  refine ⟨c', c, h2', h2, ?_⟩
  rcases h3 with h3 | ⟨h3, h4⟩
  · rcases h3' with h3' | ⟨h3', -⟩ <;> (left; omega)
  · rcases h3' with h3' | ⟨h3', h4'⟩
    · left; omega
    · rw [h4] at h4'
      cases h4'

/-! Spines -/

/-- The operators on the left edge of a tree. -/
inductive LSpine (g : Gram) (num : Numbering) (E : Item) (n : Int) : Tree → Prop
  | root {us : List Tree} (hn : (opRule E n).items ∈ closRules g E) : LSpine g num E n (.node (num.ident E) (num.ruleId (opRule E n)) us)
  | left {k : Int} {us : List Tree} {l : Tree} (hk : (opRule E k).items ∈ closRules g E) (hl : us.getLast? = some l) (h : LSpine g num E n l) :
      LSpine g num E n (.node (num.ident E) (num.ruleId (opRule E k)) us)

/-- The operators on the right edge of a tree. -/
inductive RSpine (g : Gram) (num : Numbering) (E : Item) (n : Int) : Tree → Prop
  | root {us : List Tree} (hn : (opRule E n).items ∈ closRules g E) : RSpine g num E n (.node (num.ident E) (num.ruleId (opRule E n)) us)
  | right {k : Int} {us : List Tree} {l : Tree} (hk : (opRule E k).items ∈ closRules g E) (hl : us.head? = some l) (h : RSpine g num E n l) :
      RSpine g num E n (.node (num.ident E) (num.ruleId (opRule E k)) us)

theorem respects_right (hE : isTerminal E = false) (hO : OpGram first g okI p E) {o b : Int} {τ : Tree} (hr : Respects g num p τ) (h : RSpine g num E o τ)
    (hb : ∀ k us, (opRule E k).items ∈ closRules g E → τ = .node (num.ident E) (num.ruleId (opRule E k)) us → Bef p k b) : Bef p o b := by
  induction h with
  | root hn => exact hb _ _ hn rfl
  | @right k us l hk hl _ ih =>
    cases hr with
    | node hus hle hri =>
      have hlm : l ∈ us := List.mem_of_mem_head? hl
      refine ih (hus l hlm) ?_
      intro k' us' hk' he
      have h1 := hri E k' [E] [E, .terminal k] us' rfl hk' hk (by rw [hl, he]; rfl)
      exact hO.bef_trans (hb _ _ hk rfl) ((after_op hE).1 h1)

theorem respects_left (hE : isTerminal E = false) (hO : OpGram first g okI p E) {o c : Int} {τ : Tree} (hr : Respects g num p τ) (h : LSpine g num E o τ)
    (hb : ∀ k us, (opRule E k).items ∈ closRules g E → τ = .node (num.ident E) (num.ruleId (opRule E k)) us → Aft p c k) : Aft p c o := by
  induction h with
  | root hn => exact hb _ _ hn rfl
  | @left k us l hk hl _ ih =>
    cases hr with
    | node hus hle hri =>
      have hlm : l ∈ us := List.mem_of_getLast? hl
      refine ih (hus l hlm) ?_
      intro k' us' hk' he
      have h1 := hle E k [E] [E, .terminal k'] us' rfl hk hk' (by rw [hl, he]; rfl)
      exact hO.aft_trans (hb _ _ hk rfl) ((before_op hE).1 h1)

/-! The automaton of such a language -/

/-- Tables that do what the automaton says unless the precedences are against it. -/
structure Picks (first : Item → List Item) (g : Gram) (okI : Item → Prop) (num : Numbering) (m : Mach) (n0 : Nat) (p : Rewriters.Prec) (t : Tables) : Prop where
  ok : ∀ s e, Lr1c first g m n0 s e → ∀ x ∈ e.1.rule.items, okI x
  rules : ∀ s i, Clos0 g (kern m s) i → (i.rule.items ∈ closRules g i.rule.nonterminal ∧ okI i.rule.nonterminal) ∨
    (i.rule.nonterminal = .empty ∧ ∃ l, i.rule.items = [l] ∧ isTerminal l = false)
  clos0 : ∀ s e, Lr1c first g m n0 s e → Clos0 g (kern m s) e.1
  comes : ∀ s, ∀ i ∈ kern m s, i.dot ≠ 0 → ∃ s0 x, tr m s0 x = some s
  goto0 : ∀ s x s', tr m s x = some s' → ∀ j ∈ kern m s', Goto0 g (kern m s) x j
  step : ∀ s e x, Lr1c first g m n0 s e → e.1.rule.items[e.1.dot]? = some x → ∃ s', tr m s x = some s'
  shift : ∀ s n s', tr m s (.terminal n) = some s' → (∀ r : Rule, Lr1c first g m n0 s (⟨r, r.items.length⟩, some (.terminal n)) → ¬ Before p r (.terminal n)) →
    ∃ e, FirstEntry t s (.terminal n) e ∧ e.type = .shift ∧ e.nextState = s'
  reduce : ∀ s r b, Lr1c first g m n0 s (⟨r, r.items.length⟩, some b) → closRules g r.nonterminal ≠ [] → (∃ n, b = .terminal n) ∨ b = .eoi → (∀ n, b = .terminal n → ¬ After p r b) →
    ∃ e, FirstEntry t s b e ∧ e.type = .reduce ∧ rule t e.nextState = some ⟨num.ident r.nonterminal, num.ruleId r, r.items.length⟩
  accept : ∀ s r, Lr1c first g m n0 s (⟨r, r.items.length⟩, some .eoi) → r.nonterminal = .empty → ∃ e, FirstEntry t s .eoi e ∧ e.type = .accept
  goto : ∀ s x s', tr m s x = some s' → closRules g x ≠ [] → gotoFor t s (num.ident x) = .ok (some s')

theorem entry_shift {t : Tables} {s s' : Nat} {τ : Tree} {st : List (Nat × Tree)} {k : Tok} {rest : List Tok}
    (h : ∃ e, FirstEntry t s (.terminal k.sym) e ∧ e.type = .shift ∧ e.nextState = s') :
    Goes t ⟨(s, τ) :: st, k :: rest⟩ ⟨(s', .leaf (some k)) :: (s, τ) :: st, rest⟩ := by
  intro fuel
  obtain ⟨e, ⟨h1, -⟩, h2, h3⟩ := h
  obtain ⟨l, h1⟩ := h1 _ rfl
  simp [process, standard, orUb, bind, Except.bind, h1, processActions, h2, perform, next, h3, pure, Except.pure]

theorem entry_reduce {t : Tables} {s s' : Nat} {τ : Tree} {st q : List (Nat × Tree)} {top : Nat} {τ' : Tree} {l : List (Nat × Tree)} {r : Rule} {rest : List Tok}
    (h : ∃ e, FirstEntry t top (lookahead rest) e ∧ e.type = .reduce ∧ rule t e.nextState = some ⟨num.ident r.nonterminal, num.ruleId r, r.items.length⟩)
    (hgo : gotoFor t s (num.ident r.nonterminal) = .ok (some s')) (hl : q.length = r.items.length) (hq : q ++ (s, τ) :: st = (top, τ') :: l) :
    Goes t ⟨q ++ (s, τ) :: st, rest⟩ ⟨(s', .node (num.ident r.nonterminal) (num.ruleId r) (q.map (·.2))) :: (s, τ) :: st, rest⟩ := by
  intro fuel
  obtain ⟨e, ⟨h1, h1'⟩, h2, h3⟩ := h
  have hpop := popItems_all q (s, τ) st []
  rw [hl, List.nil_append] at hpop
  have hcur : (standard t).current ⟨q ++ (s, τ) :: st, rest⟩ = .ok top := by
    rw [hq]
    rfl
  have hred : (standard t).reduce ⟨num.ident r.nonterminal, num.ruleId r, r.items.length⟩ ⟨q ++ (s, τ) :: st, rest⟩ =
      .ok ⟨(s', .node (num.ident r.nonterminal) (num.ruleId r) (q.map (·.2))) :: (s, τ) :: st, rest⟩ := by
    simp [standard, hpop, bind, Except.bind, orUb, hgo, pure, Except.pure]
  unfold process
  rw [hcur]
  cases rest with
  | nil =>
    obtain ⟨l', h1'⟩ := h1' rfl
    simp [bind, Except.bind, h1', processActions, h2, perform, h3, orUb, hred, pure, Except.pure]
  | cons k rest =>
    obtain ⟨l', h1⟩ := h1 k.sym rfl
    simp [bind, Except.bind, h1, processActions, h2, perform, h3, orUb, hred, pure, Except.pure]

section
variable {t : Tables} (hP : Picks first g okI num m n0 p t) (hO : OpGram first g okI p E) (hE : isTerminal E = false)
include hP hO hE

omit hP in
/-- An operator is only in its rule. -/
theorem op_in_rule {x : Item} (hx : okI x) {r : List Item} (hr : r ∈ closRules g x) {n : Int} (hn : .terminal n ∈ r) (hop : IsOp p n) :
    x = E ∧ r = [E, .terminal n, E] := by
  have hxE := hO.others x hx r hr n hn hop
  subst hxE
  refine ⟨rfl, ?_⟩
  rcases hO.rules r hr with ⟨k, rfl, -⟩ | ⟨-, -, h⟩
  · simp only [List.mem_cons, List.not_mem_nil, or_false] at hn
    rcases hn with h | h | h
    · rw [← h] at hE; cases hE
    · rw [h]
    · rw [← h] at hE; cases hE
  · exact absurd hop (h n hn)

/-- The state after an operator. -/
theorem state_after_op {s : Nat} {o : Int} (ho : IsOp p o) (hk : (⟨opRule E o, 2⟩ : LItem) ∈ kern m s)
    {i : LItem} (hi : Clos0 g (kern m s) i) : i = ⟨opRule E o, 2⟩ ∨ (i.dot = 0 ∧ i.rule.nonterminal = E ∧ i.rule.items ∈ closRules g E) := by
  obtain ⟨s0, x, ht⟩ := hP.comes s _ hk (by simp)
  obtain ⟨⟨r', d'⟩, hc1, hx, heq⟩ := hP.goto0 _ _ _ ht _ hk
  have e1 : opRule E o = r' := congrArg LItem.rule heq
  have e2 : 2 = d' + 1 := congrArg LItem.dot heq
  have e3 : d' = 1 := by omega
  subst e1 e3
  have e4 : x = .terminal o := by simpa [opRule] using hx.symm
  subst e4
  have hkern : ∀ j ∈ kern m s, j = ⟨opRule E o, 2⟩ := by
    intro j hj
    obtain ⟨⟨r, d⟩, hc2, hx2, rfl⟩ := hP.goto0 _ _ _ ht _ hj
    dsimp only at hx2 ⊢
    have hmem : Item.terminal o ∈ r.items := List.mem_of_getElem? hx2
    rcases hP.rules _ _ hc2 with ⟨h1, h2⟩ | ⟨-, l, h1, h2⟩
    · obtain ⟨q1, q2⟩ := op_in_rule hO hE h2 h1 hmem ho
      obtain ⟨rn, ri⟩ := r
      dsimp only at q1 q2 hx2
      subst q1 q2
      have hd : d = 1 := by
        match d, hx2 with
        | 0, h => simp at h; rw [h] at hE; cases hE
        | 1, _ => rfl
        | 2, h => simp at h; rw [h] at hE; cases hE
        | d + 3, h => simp at h
      rw [hd]
      rfl
    · dsimp only at h1
      rw [h1, List.mem_singleton] at hmem
      rw [← hmem] at h2
      cases h2
  obtain ⟨i0, h1, h2⟩ := hi
  rw [hkern i0 h1] at h2
  clear h1
  induction h2 with
  | refl => exact Or.inl rfl
  | tail _ hst ih =>
    obtain ⟨y, r, hy, hr, rfl⟩ := hst
    right
    have hyE : y = E := by
      rcases ih with h | ⟨h1, h2, h3⟩
      · rw [h] at hy
        simpa [opRule] using hy.symm
      · rw [h1] at hy
        rcases hO.rules _ h3 with ⟨k, hk, -⟩ | ⟨⟨a, β, hk⟩, -⟩
        · rw [hk] at hy
          simpa using hy.symm
        · rw [hk] at hy
          have : y = .terminal a := by simpa using hy.symm
          rw [this] at hr
          cases hr
    subst hyE
    exact ⟨rfl, rfl, hr⟩

/-- An operator follows expressions only. -/
theorem op_follows {s : Nat} {i : LItem} {n : Int} (h : Lr1c first g m n0 s (i, some (.terminal n))) (hn : IsOp p n) :
    i.rule.nonterminal = E ∧ i.rule.items ∈ closRules g E := by
  have hgen : ∀ {s : Nat} {e e' : Elem}, Lr1c first g m n0 s e → ReflTransGen (Gen first g) e e' →
      (∀ n, e.2 = some (.terminal n) → IsOp p n → e.1.rule.nonterminal = E ∧ e.1.rule.items ∈ closRules g E) →
      ∀ n, e'.2 = some (.terminal n) → IsOp p n → e'.1.rule.nonterminal = E ∧ e'.1.rule.items ∈ closRules g E := by
    intro s e e' hc h h0
    induction h with
    | refl => exact h0
    | @tail e1 e2 hp hs ih =>
      have hl1 : Lr1c first g m n0 s e1 := by
        obtain ⟨e0, c1, c2⟩ := hc
        exact ⟨e0, c1, c2.trans hp⟩
      have hok := hP.ok _ _ hl1
      intro n hn hop
      cases hs with
      | item hx hr => cases hn
      | @first i o x r b hx hr hb =>
        cases hn
        obtain ⟨u, y, v, hu, hnull, hy, -⟩ := hb
        have hyok : okI y := hok y (List.mem_of_mem_drop (hu ▸ (by simp : y ∈ u ++ y :: v)))
        have hyn := hO.starts y hyok n hop hy
        subst hyn
        have hmem : Item.terminal n ∈ i.rule.items := List.mem_of_mem_drop (hu ▸ (by simp : Item.terminal n ∈ u ++ Item.terminal n :: v))
        rcases hP.rules _ _ (hP.clos0 _ _ hl1) with ⟨h1, h2⟩ | ⟨-, l, h1, h2⟩
        swap
        · dsimp only at h1
          rw [h1, List.mem_singleton] at hmem
          rw [← hmem] at h2
          cases h2
        obtain ⟨q1, q2⟩ := op_in_rule hO hE h2 h1 hmem hop
        have hxE : x = E := by
          have hxm := List.mem_of_getElem? hx
          dsimp only at q2 hxm
          rw [q2] at hxm
          simp only [List.mem_cons, List.not_mem_nil, or_false] at hxm
          rcases hxm with h | h | h
          · exact h
          · rw [h] at hr; cases hr
          · exact h
        subst hxE
        exact ⟨rfl, hr⟩
      | @pass i x o r hx hr hnull =>
        obtain ⟨q1, q2⟩ := ih n hn hop
        dsimp only at q1 q2 hx hnull
        rcases hO.rules _ q2 with ⟨k, hk, -⟩ | ⟨-, ⟨γ, z, hk⟩, -⟩
        · rw [hk] at hx
          have hxm := List.mem_of_getElem? hx
          simp only [List.mem_cons, List.not_mem_nil, or_false] at hxm
          have hxE : x = E := by
            rcases hxm with h | h | h
            · exact h
            · rw [h] at hr; cases hr
            · exact h
          subst hxE
          exact ⟨rfl, hr⟩
        · exfalso
          have hlt := (List.getElem?_eq_some_iff.1 hx).1
          by_cases hend : i.dot = γ.length
          · rw [hk, hend] at hx
            have : x = .terminal z := by simpa using hx.symm
            rw [this] at hr
            cases hr
          · have hz : Item.terminal z ∈ i.rule.items.drop (i.dot + 1) := by
              rw [hk] at hlt ⊢
              simp only [List.length_append, List.length_singleton] at hlt
              rw [List.drop_append_of_le_length (by omega)]
              simp
            exact (hO.notNull.2 z (hok _ (List.mem_of_mem_drop hz))) (hnull _ hz)
  obtain ⟨e0, h1, h2⟩ := h
  refine hgen ⟨e0, h1, .refl⟩ h2 ?_ n rfl hn
  clear h2
  induction h1 with
  | start hk hl ho =>
    intro n hn _
    cases ho _ hn
  | guard hk ho =>
    intro n hn _
    cases ho _ hn
  | goto hs hc hx ht ih =>
    intro n hn hop
    have h3 := hgen ⟨_, hs, .refl⟩ hc ih n hn hop
    exact h3

/-! The parser follows a tree that is as the precedences say -/

omit hP hO hE in
theorem goto_kernel (hP : Picks first g okI num m n0 p t) {s s' : Nat} {x : Item} (ht : tr m s x = some s') {i : LItem} (hi : Clos0 g (kern m s') i)
    (hd : i.dot ≠ 0) : ∃ d, i.dot = d + 1 ∧ i.rule.items[d]? = some x ∧ Clos0 g (kern m s) ⟨i.rule, d⟩ := by
  rcases clos0_dot hi with h | h
  · obtain ⟨j, h1, h2, rfl⟩ := hP.goto0 _ _ _ ht _ h
    exact ⟨j.dot, rfl, h2, h1⟩
  · exact absurd h.1 hd

omit hP hO hE in
theorem forest_token {n : Int} {ts : List Tree} {w : List Tok} (h : Forest g num [.terminal n] ts w) : ∃ k : Tok, k.sym = n ∧ ts = [.leaf (some k)] ∧ w = [k] := by
  generalize hx : [Item.terminal n] = xs at h
  cases h with
  | nil => cases hx
  | token h =>
    cases hx
    generalize hn : ([] : List Item) = e at h
    cases h with
    | nil => exact ⟨_, rfl, rfl, rfl⟩
    | _ => cases hn
  | guard => cases hx
  | node hr hc h =>
    cases hx
    cases hr

omit hP hO hE in
theorem forest_one {x : Item} (hx : isTerminal x = false) (hg : ∀ p l, x ≠ .guard p l) {ts : List Tree} {w : List Tok} (h : Forest g num [x] ts w) :
    ∃ r us, r ∈ closRules g x ∧ ts = [.node (num.ident x) (num.ruleId ⟨x, r⟩) us.reverse] ∧ Forest g num r us w := by
  generalize hy : [x] = xs at h
  cases h with
  | nil => cases hy
  | token h => cases hy; cases hx
  | guard => cases hy; exact absurd rfl (hg _ _)
  | node hr hc h =>
    cases hy
    generalize hn : ([] : List Item) = e at h
    cases h with
    | nil => rw [List.append_nil]; exact ⟨_, _, hr, rfl, hc⟩
    | _ => cases hn

omit hP hO in
theorem forest_op (hg : ∀ p l, E ≠ .guard p l) {n : Int} {us : List Tree} {v : List Tok} (h : Forest g num [E, .terminal n, E] us v) :
    ∃ l k r w1 w2, us = [l, .leaf (some k), r] ∧ k.sym = n ∧ v = w1 ++ k :: w2 ∧ Forest g num [E] [l] w1 ∧ Forest g num [E] [r] w2 := by
  obtain ⟨t1, t2, v1, v2, rfl, rfl, h1, h2⟩ := Forest.split (xs := [E]) h
  obtain ⟨t3, t4, v3, v4, rfl, rfl, h3, h4⟩ := Forest.split (xs := [.terminal n]) h2
  obtain ⟨k, hk, rfl, rfl⟩ := forest_token h3
  obtain ⟨_, _, -, e1, -⟩ := forest_one hE hg h1
  obtain ⟨_, _, -, e2, -⟩ := forest_one hE hg h4
  subst e1 e2
  exact ⟨_, k, _, _, _, rfl, hk, rfl, h1, h4⟩

/-- The parser makes the tree of an item, in a state where the operators around it allow that. -/
def Runs (first : Item → List Item) (g : Gram) (okI : Item → Prop) (num : Numbering) (m : Mach) (n0 : Nat) (p : Rewriters.Prec) (E : Item) (t : Tables) (x : Item) (τ : Tree)
    (w : List Tok) : Prop :=
  ∀ (s s' : Nat) (τ0 : Tree) (st : List (Nat × Tree)) (rest : List Tok), okI x → tr m s x = some s' →
    (∀ γ ∈ closRules g x, Lr1c first g m n0 s (⟨⟨x, γ⟩, 0⟩, some (lookahead rest))) →
    (∀ o k, IsOp p o → (⟨opRule E o, 2⟩ : LItem) ∈ kern m s → LSpine g num E k τ → Aft p o k) →
    (∀ o k, RSpine g num E o τ → lookahead rest = .terminal k → IsOp p k → Bef p o k) →
    ReflTransGen (Goes t) ⟨(s, τ0) :: st, w ++ rest⟩ ⟨(s', τ) :: (s, τ0) :: st, rest⟩

omit hP hO hE in
theorem itemNext {i : LItem} {x : Item} {xs : List Item} (h : i.rule.items.drop i.dot = x :: xs) :
    i.rule.items[i.dot]? = some x ∧ (adv i).rule.items.drop (adv i).dot = xs ∧ (adv i).dot ≤ (adv i).rule.items.length := by
  have h1 : i.rule.items[i.dot]? = some x := by
    have := congrArg List.head? h
    rwa [List.head?_drop] at this
  refine ⟨h1, ?_, ?_⟩
  · have h2 := congrArg List.tail h
    rw [List.tail_drop] at h2
    exact h2
  · have := (List.getElem?_eq_some_iff.1 h1).1
    exact this

omit hO hE in
theorem shift_plain {s s' : Nat} {n : Int} (hn : ¬ IsOp p n) (ht : tr m s (.terminal n) = some s') :
    ∃ e, FirstEntry t s (.terminal n) e ∧ e.type = .shift ∧ e.nextState = s' := by
  refine hP.shift s n s' ht ?_
  rintro r - ⟨op, a, b, -, -, h, -⟩
  exact hn (by rw [IsOp, h]; simp)

/-- The parts of a rule without an operator. -/
theorem list_run (hg : Plain g okI) (hf : ∀ x, okI x → g.FirstComplete x (first x)) {xs : List Item} {ts : List Tree} {w : List Tok} (h : Forest g num xs ts w)
    (hr : ∀ τ ∈ ts, ∀ x v, isTerminal x = false → Forest g num [x] [τ] v → Runs first g okI num m n0 p E t x τ v) :
    ∀ {i : LItem} {s : Nat} {τ : Tree} {st : List (Nat × Tree)} {rest : List Tok},
    (∀ n, .terminal n ∈ i.rule.items → ¬ IsOp p n) →
    Lr1c first g m n0 s (i, some (lookahead rest)) → i.dot ≤ i.rule.items.length → i.rule.items.drop i.dot = xs →
    ∃ q top τ' l, q ++ (s, τ) :: st = (top, τ') :: l ∧ q.map (·.2) = ts.reverse ∧ q.length = xs.length ∧
      Lr1c first g m n0 top (⟨i.rule, i.rule.items.length⟩, some (lookahead rest)) ∧
      ReflTransGen (Goes t) ⟨(s, τ) :: st, w ++ rest⟩ ⟨q ++ (s, τ) :: st, rest⟩ := by
  induction h with
  | nil =>
    intro i s τ st rest hno hi hle hxs
    have : i.dot = i.rule.items.length := by
      have := List.drop_eq_nil_iff.1 hxs
      omega
    refine ⟨[], s, τ, st, rfl, rfl, rfl, ?_, .refl⟩
    rw [← this]
    exact hi
  | @token k xs ts w _ ih =>
    intro i s τ st rest hno hi hle hxs
    obtain ⟨h1, h2, h3⟩ := itemNext hxs
    obtain ⟨s', hs'⟩ := hP.step _ _ _ hi h1
    obtain ⟨q, top, τ', l, e1, e2, e3, e4, e5⟩ := ih (fun τ hτ => hr τ (List.mem_cons_of_mem _ hτ)) (i := adv i) (τ := .leaf (some k)) (st := (s, τ) :: st) hno
      (lr1c_advance hi h1 hs') h3 h2
    refine ⟨q ++ [(s', .leaf (some k))], top, τ', l, by simpa using e1, by simp [e2], by simp [e3], e4, ?_⟩
    refine ReflTransGen.head (entry_shift (rest := w ++ rest) (shift_plain hP (hno _ (List.mem_of_getElem? h1)) hs')) ?_
    simpa using e5
  | guard _ _ =>
    intro i s τ st rest hno hi hle hxs
    obtain ⟨h1, -, -⟩ := itemNext hxs
    exact absurd (hP.ok _ _ hi _ (List.mem_of_getElem? h1)) (hg.noGuard _ _)
  | @node x r us v xs ts w hrx hc hfo _ ih =>
    intro i s τ st rest hno hi hle hxs
    obtain ⟨h1, h2, h3⟩ := itemNext hxs
    obtain ⟨s', hs'⟩ := hP.step _ _ _ hi h1
    have hox : okI x := hP.ok _ _ hi x (List.mem_of_getElem? h1)
    have hok : ∀ y ∈ xs, okI y := fun y hy => hP.ok _ _ hi y (List.mem_of_mem_drop (hxs ▸ List.mem_cons_of_mem _ hy))
    have hdrop : i.rule.items.drop (i.dot + 1) = xs := h2
    have hxt : isTerminal x = false := by
      cases x <;> first | rfl | (exact absurd hrx (by simp [closRules]))
    obtain ⟨b1, b2⟩ := forest_begins hg hfo hok hf
    have hitem : ∀ γ ∈ closRules g x, Lr1c first g m n0 s (⟨⟨x, γ⟩, 0⟩, some (lookahead (w ++ rest))) := by
      intro γ hγ
      obtain ⟨e0, c1, c2⟩ := hi
      refine ⟨e0, c1, c2.tail ?_⟩
      cases w with
      | nil => exact .pass h1 hγ (hdrop ▸ b1 rfl)
      | cons k w => exact .first h1 hγ (hdrop ▸ b2 k w rfl)
    have hrule := hP.rules _ _ (hP.clos0 _ _ hi)
    have e5 := hr _ (List.mem_cons_self ..) x v hxt (by simpa using Forest.node hrx hc .nil) s s' τ st (w ++ rest) hox hs' hitem (by
      intro o k ho hk hl
      exfalso
      rcases state_after_op hP hO hE ho hk (hP.clos0 _ _ hi) with h | ⟨q1, q2, q3⟩
      · dsimp only at h
        subst h
        exact hno o (by simp [opRule]) ho
      · dsimp only at q1 q2 q3
        rcases hO.rules _ q3 with ⟨k', hk', hop⟩ | ⟨⟨a, β, ha⟩, -⟩
        · exact hno k' (by rw [hk']; simp) hop
        · rw [q1, ha] at h1
          have : x = .terminal a := by simpa using h1.symm
          rw [this] at hxt
          cases hxt) (by
      intro o k hsp hlk hop
      exfalso
      cases w with
      | cons k' w =>
        obtain ⟨u, y, z, hu, hnu, hy, -⟩ := b2 k' w rfl
        have hk : Item.terminal k'.sym = .terminal k := hlk
        cases hk
        have hym : y ∈ xs := by rw [hu]; simp
        have := hO.starts y (hok y hym) k'.sym hop hy
        subst this
        exact hno _ (List.mem_of_mem_drop (hxs ▸ List.mem_cons_of_mem _ hym)) hop
      | nil =>
        have hlk' : lookahead rest = .terminal k := hlk
        rw [hlk'] at hi
        obtain ⟨q1, q2⟩ := op_follows hP hO hE hi hop
        rcases hO.rules _ q2 with ⟨k', hk', hop'⟩ | ⟨-, ⟨γ, z, hk⟩, -⟩
        · exact hno k' (by rw [hk']; simp) hop'
        · have hlt := (List.getElem?_eq_some_iff.1 h1).1
          by_cases hend : i.dot = γ.length
          · rw [hk, hend] at h1
            have : x = .terminal z := by simpa using h1.symm
            rw [this] at hxt
            cases hxt
          · have hz : Item.terminal z ∈ i.rule.items.drop (i.dot + 1) := by
              rw [hk] at hlt ⊢
              simp only [List.length_append, List.length_singleton] at hlt
              rw [List.drop_append_of_le_length (by omega)]
              simp
            rw [hdrop] at hz
            exact hO.notNull.2 z (hok _ hz) (b1 rfl _ hz))
    obtain ⟨q', top', τ'', l', f1, f2, f3, f4, f5⟩ := ih (fun τ hτ => hr τ (List.mem_cons_of_mem _ hτ)) (i := adv i)
      (τ := .node (num.ident x) (num.ruleId ⟨x, r⟩) us.reverse) (st := (s, τ) :: st) hno (lr1c_advance hi h1 hs') h3 h2
    refine ⟨q' ++ [(s', .node (num.ident x) (num.ruleId ⟨x, r⟩) us.reverse)], top', τ'', l', by simpa using f1, by simp [f2], by simp [f3], f4, ?_⟩
    rw [List.append_assoc]
    refine e5.trans ?_
    simpa using f5

/-- The parser makes the trees that are as the precedences say. -/
theorem tree_run (hg : Plain g okI) (hf : ∀ x, okI x → g.FirstComplete x (first x))
    (hft : ∀ n, okI (.terminal n) → .terminal n ∈ first (.terminal n)) : ∀ (τ : Tree), Respects g num p τ → ∀ (x : Item) (w : List Tok), isTerminal x = false → Forest g num [x] [τ] w →
    Runs first g okI num m n0 p E t x τ w := by
  intro τ
  induction hsz : sizeOf τ using Nat.strong_induction_on generalizing τ with
  | _ sz IH =>
  intro hresp x w hxt hfo s s' τ0 st rest hox hs' hitem hL hR
  have hxg : ∀ p l, x ≠ .guard p l := fun p l h => hg.noGuard p l (h ▸ hox)
  obtain ⟨r, us, hr, hτ, hc⟩ := forest_one hxt hxg hfo
  obtain ⟨rfl⟩ : τ = _ := (List.cons.inj hτ).1
  have hsub : ∀ u ∈ us, Respects g num p u ∧ sizeOf u < sz := by
    intro u hu
    have hu' : u ∈ us.reverse := List.mem_reverse.2 hu
    constructor
    · cases hresp with
      | node hus _ _ => exact hus u hu'
    · have := List.sizeOf_lt_of_mem hu'
      rw [← hsz, Tree.node.sizeOf_spec]
      omega
  have hi := hitem r hr
  have hgo := hP.goto s x s' hs' (List.ne_nil_of_mem hr)
  have hla : (∃ n, lookahead rest = .terminal n) ∨ lookahead rest = .eoi := by cases rest <;> simp [lookahead]
  by_cases hop : ∃ n, .terminal n ∈ r ∧ IsOp p n
  · obtain ⟨n, hn, hop⟩ := hop
    obtain ⟨rfl, rfl⟩ := op_in_rule hO hE hox hr hn hop
    obtain ⟨l, k, r', w1, w2, rfl, rfl, rfl, hl, hr'⟩ := forest_op hE hxg hc
    have hokr := flatten_ok hg hox hr
    have hokn : okI (.terminal k.sym) := hokr _ (by simp)
    -- the left operand
    have hi1 : ∀ γ ∈ closRules g x, Lr1c first g m n0 s (⟨⟨x, γ⟩, 0⟩, some (.terminal k.sym)) := by
      intro γ hγ
      obtain ⟨e0, c1, c2⟩ := hi
      exact ⟨e0, c1, c2.tail (.first (i := ⟨⟨x, [x, .terminal k.sym, x]⟩, 0⟩) rfl hγ ⟨[], _, [x], rfl, fun _ h => (by cases h), hft _ hokn, by simp⟩)⟩
    have run1 := IH _ (hsub l (by simp)).2 l rfl (hsub l (by simp)).1 x w1 hxt hl s s' τ0 st (k :: (w2 ++ rest)) hox hs' hi1
      (fun o j ho hk hsp => hL o j ho hk (.left hr (by simp) hsp)) (by
      intro o j hsp hj hopj
      have hj' : k.sym = j := by cases hj; rfl
      subst hj'
      refine respects_right hE hO (hsub l (by simp)).1 hsp ?_
      rintro k' us' hk' rfl
      cases hresp with
      | node _ hle _ => exact (before_op hE).1 (hle x k.sym [x] [x, .terminal k'] us' rfl hr hk' (by simp [opRule])))
    -- the operator
    have hi2 : Lr1c first g m n0 s' (⟨opRule x k.sym, 1⟩, some (lookahead rest)) := lr1c_advance hi rfl hs'
    obtain ⟨s2, hs2⟩ := hP.step _ _ (.terminal k.sym) hi2 rfl
    have hshift := hP.shift s' k.sym s2 hs2 (by
      intro q hq hbef
      obtain ⟨q1, q2⟩ := op_follows hP hO hE hq hop
      dsimp only at q1 q2
      have hq0 : q.items ≠ [] := by
        rcases hO.rules _ q2 with ⟨j, hj, -⟩ | ⟨⟨a, β, ha⟩, -⟩
        · rw [hj]; simp
        · rw [ha]; simp
      obtain ⟨d, d1, d2, d3⟩ := goto_kernel hP hs' (hP.clos0 _ _ hq) (by simpa using hq0)
      dsimp only at d1 d2 d3
      rcases hO.rules _ q2 with ⟨j, hj, hopj⟩ | ⟨-, ⟨γ, z, hz⟩, -⟩
      · have hqe : q = opRule x j := by
          obtain ⟨qn, qi⟩ := q
          dsimp only at q1 hj
          rw [q1, hj]
          rfl
        subst hqe
        have hd : d = 2 := by
          simp only [opRule, List.length_cons, List.length_nil] at d1
          omega
        subst hd
        have hkern : (⟨opRule x j, 2⟩ : LItem) ∈ kern m s := by
          rcases clos0_dot d3 with h | h
          · exact h
          · exact absurd h.1 (by simp)
        exact bef_aft ((before_op hE).1 hbef) (hL j k.sym hopj hkern (.root hr))
      · rw [hz] at d1 d2
        have hd : d = γ.length := by simp at d1; omega
        subst hd
        have : x = .terminal z := by simpa using d2.symm
        rw [this] at hxt
        cases hxt)
    have run2 := entry_shift (τ := l) (st := (s, τ0) :: st) (k := k) (rest := w2 ++ rest) hshift
    -- the right operand
    have hi3 : Lr1c first g m n0 s2 (⟨opRule x k.sym, 2⟩, some (lookahead rest)) := lr1c_advance hi2 rfl hs2
    obtain ⟨s3, hs3⟩ := hP.step _ _ x hi3 rfl
    have hi4 : ∀ γ ∈ closRules g x, Lr1c first g m n0 s2 (⟨⟨x, γ⟩, 0⟩, some (lookahead rest)) := by
      intro γ hγ
      obtain ⟨e0, c1, c2⟩ := hi3
      exact ⟨e0, c1, c2.tail (.pass (i := ⟨opRule x k.sym, 2⟩) rfl hγ (fun _ h => (by cases h)))⟩
    have run3 := IH _ (hsub r' (by simp)).2 r' rfl (hsub r' (by simp)).1 x w2 hxt hr' s2 s3 (.leaf (some k)) ((s', l) :: (s, τ0) :: st) rest hox hs3 hi4 (by
      intro o j ho hk hsp
      obtain ⟨d, d1, d2, -⟩ := goto_kernel hP hs2 ⟨_, hk, .refl⟩ (by simp)
      have hd : d = 1 := by
        dsimp only at d1
        omega
      subst hd
      have ho' : o = k.sym := by simpa [opRule] using d2
      subst ho'
      refine respects_left hE hO (hsub r' (by simp)).1 hsp ?_
      rintro k' us' hk' rfl
      cases hresp with
      | node _ _ hri => exact (after_op hE).1 (hri x k' [x] [x, .terminal k.sym] us' rfl hk' hr (by simp [opRule])))
      (fun o j hsp => hR o j (.right hr (by simp) hsp))
    -- the reduction
    have hi5 : Lr1c first g m n0 s3 (⟨opRule x k.sym, 3⟩, some (lookahead rest)) := lr1c_advance hi3 rfl hs3
    have hred := hP.reduce s3 (opRule x k.sym) _ hi5 (List.ne_nil_of_mem hr) hla (by
      intro j hj haft
      rw [hj] at haft
      have haft := (after_op hE).1 haft
      have hopj : IsOp p j := by
        obtain ⟨_, b, -, hb, -⟩ := haft
        rw [IsOp, hb]
        simp
      exact bef_aft (hR k.sym j (.root hr) hj hopj) haft)
    have run4 := entry_reduce (num := num) (s := s) (s' := s') (τ := τ0) (st := st) (q := [(s3, r'), (s2, .leaf (some k)), (s', l)]) (top := s3) (τ' := r')
      (l := (s2, .leaf (some k)) :: (s', l) :: (s, τ0) :: st) hred hgo rfl rfl
    have e : w1 ++ k :: w2 ++ rest = w1 ++ k :: (w2 ++ rest) := by simp
    rw [e]
    exact (run1.trans (.head run2 run3)).tail run4
  · have hno : ∀ n, .terminal n ∈ r → ¬ IsOp p n := fun n h1 h2 => hop ⟨n, h1, h2⟩
    obtain ⟨q, top, τ', l, e1, e2, e3, e4, e5⟩ := list_run hP hO hE hg hf hc (fun u hu y v hyt hfu => IH _ (hsub u hu).2 u rfl (hsub u hu).1 y v hyt hfu)
      (i := ⟨⟨x, r⟩, 0⟩) (τ := τ0) (st := st) hno hi (Nat.zero_le _) rfl
    have hred := hP.reduce top ⟨x, r⟩ _ e4 (List.ne_nil_of_mem hr) hla (by
      rintro j - ⟨op, a, b, ⟨u, v, hu, ht, hp, -⟩, -⟩
      dsimp only at hu
      cases op with
      | terminal n => exact hno n (by rw [hu]; simp) hp
      | _ => cases ht)
    have run := entry_reduce (num := num) (r := ⟨x, r⟩) hred hgo e3 e1
    rw [e2] at run
    exact e5.tail run

/-- The parser accepts an input with a tree that is as the precedences say, and makes that tree. -/
theorem respecting_accepted (hg : Plain g okI) (hf : ∀ x, okI x → g.FirstComplete x (first x))
    (hft : ∀ n, okI (.terminal n) → .terminal n ∈ first (.terminal n)) {k0 : Nat} {start : Item} (hk : k0 < n0) (hS : kern m k0 = [startItem start])
    (hst : isTerminal start = false) {τ : Tree} {input : List Tok} (h : Forest g num [start] [τ] input) (hr : Respects g num p τ) :
    ∃ fuel st, parse t fuel (Parser.start k0 input) = .ok (true, ⟨[(st, τ), (k0, .nothing)], []⟩) := by
  have h0 : Lr1c first g m n0 k0 (startItem start, some (lookahead [])) := ⟨_, .start hk hS (fun a ha => (Option.some.inj ha).symm), .refl⟩
  have hok : okI start := hP.ok _ _ h0 start (by simp [startItem])
  obtain ⟨s', hs'⟩ := hP.step _ _ start h0 rfl
  have run := tree_run hP hO hE hg hf hft τ hr start input hst h k0 s' .nothing [] [] hok hs' (by
    intro γ hγ
    obtain ⟨e0, c1, c2⟩ := h0
    exact ⟨e0, c1, c2.tail (.pass (i := startItem start) rfl hγ (fun _ h => (by cases h)))⟩) (by
    intro o j _ hk2
    rw [hS, List.mem_singleton] at hk2
    cases hk2) (by
    intro o j _ hj
    cases hj)
  obtain ⟨e, ⟨-, h1⟩, h2⟩ := hP.accept s' ⟨.empty, [start]⟩ (lr1c_advance h0 rfl hs') rfl
  obtain ⟨l', h1⟩ := h1 rfl
  rw [List.append_nil] at run
  obtain ⟨f, hp⟩ := parse_goes run (r := (true, ⟨[(s', τ), (k0, .nothing)], []⟩)) (fuel := 1) (by
    simp [parse, process, standard, orUb, bind, Except.bind, h1, processActions, h2, pure, Except.pure])
  exact ⟨f, s', hp⟩

end

/-! Every sentence has a tree that is as the precedences say -/

section
variable (hO : OpGram first g okI p E) (hE : isTerminal E = false) (hg : Plain g okI)
  (hid : ∀ r r' : Rule, r.items ∈ closRules g r.nonterminal → r'.items ∈ closRules g r'.nonterminal → num.ruleId r = num.ruleId r' → r = r')
include hO hE hg hid

omit hg in
theorem respects_other {x : Item} {r : List Item} (hx : okI x) (hr : r ∈ closRules g x) (hno : ∀ n, .terminal n ∈ r → ¬ IsOp p n) {us : List Tree}
    (hus : ∀ u ∈ us, Respects g num p u) : Respects g num p (.node (num.ident x) (num.ruleId ⟨x, r⟩) us) := by
  have key : ∀ y n β α, r ∈ closRules g y → y = x → y :: .terminal n :: β ∈ closRules g y → α ++ [y] ∈ closRules g y → (r = y :: .terminal n :: β ∨ r = α ++ [y]) → False := by
    rintro y n β α - rfl h1 h2 h3
    by_cases hy : y = E
    · subst hy
      rcases hO.rules _ hr with ⟨k, hk, hop⟩ | ⟨⟨a, γ, h4⟩, ⟨γ', z, h5⟩, -⟩
      · exact hno k (by rw [hk]; simp) hop
      · rcases h3 with h3 | h3
        · rw [h4] at h3
          have := (List.cons.inj h3).1
          rw [← this] at hE
          cases hE
        · rw [h5] at h3
          have := congrArg List.getLast? h3
          simp only [List.getLast?_append, List.getLast?_singleton, Option.some_or, Option.some.injEq] at this
          rw [← this] at hE
          cases hE
    · exact hO.both y hx hy n β α h1 h2
  refine .node hus ?_ ?_
  · intro y n β α vs h1 h2 h3 _
    have := hid ⟨x, r⟩ _ hr h2 h1
    cases this
    exact absurd (key _ _ _ _ hr rfl h2 h3 (Or.inl rfl)) id
  · intro y n β α vs h1 h2 h3 _
    have := hid ⟨x, r⟩ _ hr h3 h1
    cases this
    exact absurd (key _ _ _ _ hr rfl h2 h3 (Or.inr rfl)) id

omit hO hE hg hid in
theorem append_cases3 {α : Type} {l : List α} {e a b c : α} (h : l ++ [e] = [a, b, c]) : l = [a, b] ∧ e = c := by
  have h' : l ++ [e] = [a, b] ++ [c] := h
  obtain ⟨h1, h2⟩ := List.append_inj' h' rfl
  exact ⟨h1, by simpa using h2⟩

omit hg in
theorem respects_op {n : Int} (hn : (opRule E n).items ∈ closRules g E) {l mid r : Tree} (hl : Respects g num p l) (hm : Respects g num p mid) (hr : Respects g num p r)
    (hl' : ∀ k us, (opRule E k).items ∈ closRules g E → l = .node (num.ident E) (num.ruleId (opRule E k)) us → Bef p k n)
    (hr' : ∀ k us, (opRule E k).items ∈ closRules g E → r = .node (num.ident E) (num.ruleId (opRule E k)) us → Aft p n k) :
    Respects g num p (.node (num.ident E) (num.ruleId (opRule E n)) [r, mid, l]) := by
  have hends : ∀ α, α ++ [E] ∈ closRules g E → ∃ k, α = [E, .terminal k] := by
    intro α hα
    rcases hO.rules _ hα with ⟨k, hk, -⟩ | ⟨-, ⟨γ, z, hz⟩, -⟩
    · exact ⟨k, (append_cases3 hk).1⟩
    · have := congrArg List.getLast? hz
      simp only [List.getLast?_append, List.getLast?_singleton, Option.some_or, Option.some.injEq] at this
      rw [this] at hE
      cases hE
  have hbegins : ∀ k β, E :: .terminal k :: β ∈ closRules g E → β = [E] := by
    intro k β hβ
    rcases hO.rules _ hβ with ⟨k, hk, -⟩ | ⟨⟨a, γ, hz⟩, -⟩
    · injection hk with h1 h2
      injection h2
    · have := (List.cons.inj hz).1
      rw [this] at hE
      cases hE
  refine .node ?_ ?_ ?_
  · intro u hu
    simp only [List.mem_cons, List.not_mem_nil, or_false] at hu
    rcases hu with rfl | rfl | rfl
    · exact hr
    · exact hm
    · exact hl
  · intro y k β α vs h1 h2 h3 h4
    have := hid (opRule E n) _ hn h2 h1
    cases this
    obtain ⟨j, rfl⟩ := hends α h3
    refine (before_op hE).2 (hl' j vs h3 ?_)
    simpa [opRule] using h4
  · intro y k β α vs h1 h2 h3 h4
    have := hid (opRule E n) _ hn h3 h1
    have hy : E = y := congrArg Rule.nonterminal this
    subst hy
    have h5 : [E, .terminal n, E] = α ++ [E] := congrArg Rule.items this
    obtain ⟨rfl, -⟩ := append_cases3 h5.symm
    obtain rfl := hbegins _ _ h2
    refine (after_op hE).2 (hr' k vs h2 ?_)
    simpa [opRule] using h4

/-- The tree is not that of an operator. -/
def Primary (g : Gram) (num : Numbering) (E : Item) (τ : Tree) : Prop :=
  ∀ k us, (opRule E k).items ∈ closRules g E → τ ≠ .node (num.ident E) (num.ruleId (opRule E k)) us

theorem expression_cases {τ : Tree} {w : List Tok} (h : Forest g num [E] [τ] w) : Primary g num E τ ∨
    ∃ n l k r w1 w2, (opRule E n).items ∈ closRules g E ∧ IsOp p n ∧ τ = .node (num.ident E) (num.ruleId (opRule E n)) [r, .leaf (some k), l] ∧ k.sym = n ∧
      w = w1 ++ k :: w2 ∧ Forest g num [E] [l] w1 ∧ Forest g num [E] [r] w2 := by
  have hEg : ∀ p l, E ≠ .guard p l := fun p l h => hg.noGuard p l (h ▸ hO.okE)
  obtain ⟨r, us, hr, hτ, hc⟩ := forest_one hE hEg h
  obtain ⟨rfl⟩ : τ = _ := (List.cons.inj hτ).1
  rcases hO.rules _ hr with ⟨n, rfl, hop⟩ | ⟨-, -, hno⟩
  · right
    obtain ⟨l, k, r', w1, w2, rfl, hk, rfl, h1, h2⟩ := forest_op hE hEg hc
    exact ⟨n, l, k, r', w1, w2, hr, hop, rfl, hk, rfl, h1, h2⟩
  · left
    intro k us' hk he
    have h1 : num.ruleId ⟨E, r⟩ = num.ruleId (opRule E k) := by injection he
    have := hid ⟨E, r⟩ (opRule E k) hr hk h1
    have hri : r = [E, .terminal k, E] := congrArg Rule.items this
    rcases hO.rules _ hk with ⟨k', hk', hop⟩ | ⟨⟨a, γ, hz⟩, -⟩
    · have : k = k' := by simpa [opRule] using hk'
      subst this
      exact hno k (by rw [hri]; simp) hop
    · have := (List.cons.inj hz).1
      rw [this] at hE
      cases hE

omit hO hid hg hE in
theorem forest_join {n : Int} {l r : Tree} {w1 w2 : List Tok} {k : Tok} (hn : (opRule E n).items ∈ closRules g E) (hk : k.sym = n) (hl : Forest g num [E] [l] w1)
    (hr : Forest g num [E] [r] w2) : Forest g num [E] [.node (num.ident E) (num.ruleId (opRule E n)) [r, .leaf (some k), l]] (w1 ++ k :: w2) := by
  subst hk
  have h1 := hl.append (Forest.token (k := k) hr)
  simpa [opRule] using Forest.node (num := num) hn h1 .nil

/-- A tree with one more operator and operand at its end. -/
theorem insert_exists {n : Int} (hn : (opRule E n).items ∈ closRules g E) (hop : IsOp p n) {k : Tok} (hk : k.sym = n) {π : Tree} {v : List Tok}
    (hπ : Forest g num [E] [π] v) (hπr : Respects g num p π) (hπp : Primary g num E π) : ∀ (τ : Tree) (w : List Tok), Respects g num p τ → Forest g num [E] [τ] w →
    ∃ τ', Forest g num [E] [τ'] (w ++ k :: v) ∧ Respects g num p τ' ∧
      ∀ j us, (opRule E j).items ∈ closRules g E → τ' = .node (num.ident E) (num.ruleId (opRule E j)) us → j = n ∨ ∃ us', τ = .node (num.ident E) (num.ruleId (opRule E j)) us' := by
  intro τ
  induction hsz : sizeOf τ using Nat.strong_induction_on generalizing τ with
  | _ sz IH =>
  intro w hr hf
  have hroot : ∀ {j : Int} {us us' : List Tree} {i : Int}, (opRule E j).items ∈ closRules g E → (opRule E i).items ∈ closRules g E →
      Tree.node (num.ident E) (num.ruleId (opRule E j)) us = .node (num.ident E) (num.ruleId (opRule E i)) us' → j = i := by
    intro j us us' i hj hi he
    have h1 : num.ruleId (opRule E j) = num.ruleId (opRule E i) := by injection he
    have h2 := congrArg Rule.items (hid _ _ hj hi h1)
    simpa [opRule] using h2
  -- at the root
  have htop : (∀ j us, (opRule E j).items ∈ closRules g E → τ = .node (num.ident E) (num.ruleId (opRule E j)) us → Bef p j n) → ∃ τ', Forest g num [E] [τ'] (w ++ k :: v) ∧ Respects g num p τ' ∧
      ∀ j us, (opRule E j).items ∈ closRules g E → τ' = .node (num.ident E) (num.ruleId (opRule E j)) us → j = n ∨ ∃ us', τ = .node (num.ident E) (num.ruleId (opRule E j)) us' := by
    intro hb
    refine ⟨_, forest_join hn hk hf hπ, respects_op hO hE hid hn hr .leaf hπr hb ?_, ?_⟩
    · intro j us hj he
      exact absurd he (hπp j us hj)
    · intro j us hj he
      exact Or.inl (hroot hn hj he).symm
  rcases expression_cases hO hE hg hid hf with hp | ⟨a, l, ka, r, w1, w2, ha, hopa, rfl, hka, rfl, hl, hr2⟩
  · exact htop (fun j us hj he => absurd he (hp j us hj))
  · rcases hO.total hopa hop with hb | hb
    · refine htop (fun j us hj he => ?_)
      rw [← hroot ha hj he]
      exact hb
    · obtain ⟨hus, hle, hri⟩ : (∀ u ∈ [r, Tree.leaf (some ka), l], Respects g num p u) ∧
          (∀ j us, (opRule E j).items ∈ closRules g E → l = .node (num.ident E) (num.ruleId (opRule E j)) us → Bef p j a) ∧
          (∀ j us, (opRule E j).items ∈ closRules g E → r = .node (num.ident E) (num.ruleId (opRule E j)) us → Aft p a j) := by
        cases hr with
        | node hus hle hri =>
          refine ⟨hus, ?_, ?_⟩
          · rintro j us hj rfl
            exact (before_op hE).1 (hle E a [E] [E, .terminal j] us rfl ha hj rfl)
          · rintro j us hj rfl
            exact (after_op hE).1 (hri E j [E] [E, .terminal a] us rfl hj ha rfl)
      have hlt : sizeOf r < sz := by
        rw [← hsz, Tree.node.sizeOf_spec]
        simp only [List.cons.sizeOf_spec]
        omega
      obtain ⟨r', f1, f2, f3⟩ := IH _ hlt r rfl w2 (hus r (by simp)) hr2
      refine ⟨_, by simpa using forest_join ha hka hl f1, respects_op hO hE hid ha (hus l (by simp)) .leaf f2 hle ?_, ?_⟩
      · intro j us hj he
        rcases f3 j us hj he with rfl | ⟨us', h⟩
        · exact hb
        · exact hri j us' hj h
      · intro j us hj he
        rw [hroot ha hj he] at *
        exact Or.inr ⟨_, rfl⟩

/-- Two trees and an operator. -/
theorem join_exists : ∀ (τ2 : Tree) (w2 : List Tok), Respects g num p τ2 → Forest g num [E] [τ2] w2 → ∀ (n : Int) (k : Tok) (τ1 : Tree) (w1 : List Tok),
    (opRule E n).items ∈ closRules g E → IsOp p n → k.sym = n → Respects g num p τ1 → Forest g num [E] [τ1] w1 →
    ∃ τ, Forest g num [E] [τ] (w1 ++ k :: w2) ∧ Respects g num p τ := by
  intro τ2
  induction hsz : sizeOf τ2 using Nat.strong_induction_on generalizing τ2 with
  | _ sz IH =>
  intro w2 hr2 hf2 n k τ1 w1 hn hop hk hr1 hf1
  rcases expression_cases hO hE hg hid hf2 with hp | ⟨a, l, ka, r, v1, v2, ha, hopa, rfl, hka, rfl, hl, hr⟩
  · obtain ⟨τ, h1, h2, -⟩ := insert_exists hO hE hg hid hn hop hk hf2 hr2 hp τ1 w1 hr1 hf1
    exact ⟨τ, h1, h2⟩
  · have hus : ∀ u ∈ [r, Tree.leaf (some ka), l], Respects g num p u := by
      cases hr2 with
      | node hus _ _ => exact hus
    have hlt : sizeOf r < sz ∧ sizeOf l < sz := by
      rw [← hsz, Tree.node.sizeOf_spec]
      simp only [List.cons.sizeOf_spec]
      omega
    obtain ⟨τ, h1, h2⟩ := IH _ hlt.2 l rfl v1 (hus l (by simp)) hl n k τ1 w1 hn hop hk hr1 hf1
    obtain ⟨τ', h3, h4⟩ := IH _ hlt.1 r rfl v2 (hus r (by simp)) hr a ka τ _ ha hopa hka h2 h1
    exact ⟨τ', by simpa using h3, h4⟩

theorem respecting_exists {xs : List Item} {ts : List Tree} {w : List Tok} (h : Forest g num xs ts w) (hx : ∀ x ∈ xs, okI x) :
    ∃ ts', Forest g num xs ts' w ∧ ∀ τ ∈ ts', Respects g num p τ := by
  induction h with
  | nil => exact ⟨[], .nil, fun _ h => (by cases h)⟩
  | token _ ih =>
    obtain ⟨ts', h1, h2⟩ := ih (fun x h => hx x (List.mem_cons_of_mem _ h))
    refine ⟨_, .token h1, ?_⟩
    intro τ hτ
    rcases List.mem_cons.1 hτ with rfl | hτ
    · exact .leaf
    · exact h2 τ hτ
  | guard _ _ => exact absurd (hx _ (List.mem_cons_self ..)) (hg.noGuard _ _)
  | @node x r us v xs ts w hr hc hfo ihc ih =>
    have hox := hx x (List.mem_cons_self ..)
    obtain ⟨ts', h1, h2⟩ := ih (fun x h => hx x (List.mem_cons_of_mem _ h))
    obtain ⟨us', h3, h4⟩ := ihc (flatten_ok hg hox hr)
    have hone : ∃ τ, Forest g num [x] [τ] v ∧ Respects g num p τ := by
      by_cases hop : ∃ n, .terminal n ∈ r ∧ IsOp p n
      · obtain ⟨n, hn, hop⟩ := hop
        obtain ⟨rfl, rfl⟩ := op_in_rule hO hE hox hr hn hop
        obtain ⟨l, k, r', w1, w2, rfl, hk, rfl, hl, hr'⟩ := forest_op hE (fun p l h => hg.noGuard p l (h ▸ hox)) h3
        exact join_exists hO hE hg hid r' w2 (h4 _ (by simp)) hr' n k l w1 hr hop hk (h4 _ (by simp)) hl
      · refine ⟨_, by simpa using Forest.node (num := num) hr h3 .nil, respects_other hO hE hid hox hr (fun n h1 h2 => hop ⟨n, h1, h2⟩) ?_⟩
        intro u hu
        exact h4 u (List.mem_reverse.1 hu)
    obtain ⟨τ, h5, h6⟩ := hone
    refine ⟨[τ] ++ ts', h5.append h1, ?_⟩
    intro u hu
    rcases List.mem_cons.1 hu with rfl | hu
    · exact h6
    · exact h2 u hu

end
end
end Sound
end TameParse

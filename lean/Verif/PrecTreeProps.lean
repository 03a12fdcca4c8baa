import Verif.CompleteGrammarProps

/-!
# C64: precedences decide the trees
-/

namespace TameParse
namespace Sound

open AssocMap Closure Relation Lalr TameParse.Parser ParserTables

/-! What the precedences say -/

/-- The rule goes before the symbol: its operator is the only symbol of the rule that has a precedence, and it has a higher one than the
symbol, or the same one and is left associative. -/
def Before (p : Rewriters.Prec) (r : Rule) (t : Item) : Prop :=
  ∃ op a b, Rewriters.Operator p r op ∧ p.precedence op [] = some a ∧ p.precedence t [] = some b ∧ (b < a ∨ b = a ∧ p.associativity op [] = .left)

/-- The symbol goes before the rule: it has a higher precedence than the operator of the rule, or the same one and the operator is right
associative. -/
def After (p : Rewriters.Prec) (r : Rule) (t : Item) : Prop :=
  ∃ op a b, Rewriters.Operator p r op ∧ p.precedence op [] = some a ∧ p.precedence t [] = some b ∧ (a < b ∨ b = a ∧ p.associativity op [] = .right)

/-- The tree is as the precedences say. A rule `E → … E` is the first part of a rule `E → E t …` only if it goes before `t`, and the second
is the last part of the first only if `t` goes before it. (Trees have their parts last first.) -/
inductive Respects (g : Gram) (num : Numbering) (p : Rewriters.Prec) : Tree → Prop
  | nothing : Respects g num p .nothing
  | leaf {k : Option Tok} : Respects g num p (.leaf k)
  | node {nt rl : Int} {us : List Tree} (hus : ∀ u ∈ us, Respects g num p u)
      (hl : ∀ E n β α vs, rl = num.ruleId ⟨E, E :: .terminal n :: β⟩ → E :: .terminal n :: β ∈ closRules g E → α ++ [E] ∈ closRules g E →
        us.getLast? = some (.node (num.ident E) (num.ruleId ⟨E, α ++ [E]⟩) vs) → Before p ⟨E, α ++ [E]⟩ (.terminal n))
      (hr : ∀ E n β α vs, rl = num.ruleId ⟨E, α ++ [E]⟩ → E :: .terminal n :: β ∈ closRules g E → α ++ [E] ∈ closRules g E →
        us.head? = some (.node (num.ident E) (num.ruleId ⟨E, E :: .terminal n :: β⟩) vs) → After p ⟨E, α ++ [E]⟩ (.terminal n)) :
      Respects g num p (.node nt rl us)

/-! Tables with precedences -/

/-- Tables whose actions are some of those of the automaton, where `A` are the actions of a state. -/
structure Chosen (first : Item → List Item) (g : Gram) (num : Numbering) (m : Mach) (n0 : Nat) (p : Rewriters.Prec) (ig : Int → Prop)
    (A : Nat → LrAction → Prop) (t : Tables) : Prop where
  term : ∀ s n l, entriesFor t true s n = .ok l → ∀ e ∈ l, ∃ a, A s a ∧ a.item = .terminal n ∧ entryMeaning t e = meaning num a
  eoi : ∀ s l, entriesFor t false s t.endOfInput = .ok l → ∀ e ∈ l, ∃ a, A s a ∧ a.item = .eoi ∧ entryMeaning t e = meaning num a
  kinds : ∀ s a n, A s a → a.item = .terminal n →
    (a.type = .shift ∧ tr m s (.terminal n) = some a.next.toNat ∧ ¬ ig n) ∨
    (a.type = .reduce ∧ Lr1c first g m n0 s (⟨a.rule, a.rule.items.length⟩, some a.item) ∧ closRules g a.rule.nonterminal ≠ [] ∧ ¬ ig n) ∨ (a.type = .ignore ∧ ig n)
  atEnd : ∀ s a, A s a → a.item = .eoi →
    (a.type = .reduce ∧ Lr1c first g m n0 s (⟨a.rule, a.rule.items.length⟩, some a.item) ∧ closRules g a.rule.nonterminal ≠ []) ∨ a.type = .accept
  goto : ∀ s x s', tr m s x = some s' → closRules g x ≠ [] → gotoFor t s (num.ident x) = .ok (some s')
  shifts : ∀ s a n r, A s a → a.item = .terminal n → a.type = .shift → Lr1c first g m n0 s (⟨r, r.items.length⟩, some (.terminal n)) →
    closRules g r.nonterminal ≠ [] → After p r (.terminal n)
  reduces : ∀ s a n, A s a → a.item = .terminal n → a.type = .reduce → (∃ s', tr m s (.terminal n) = some s') → Before p a.rule (.terminal n)

/-- What the parser may do in one step. -/
inductive Move (m : Mach) (num : Numbering) (ig : Int → Prop) (A : Nat → LrAction → Prop) (t : Tables) : PState → PState → Prop
  | shift {top : Nat} {τ : Tree} {st : List (Nat × Tree)} {k : Tok} {rest : List Tok} {a : LrAction} (ha : A top a) (hi : a.item = .terminal k.sym)
      (hty : a.type = .shift) : Move m num ig A t ⟨(top, τ) :: st, k :: rest⟩ ⟨(a.next.toNat, .leaf (some k)) :: (top, τ) :: st, rest⟩
  | ignore {st : List (Nat × Tree)} {k : Tok} {rest : List Tok} (hk : ig k.sym) : Move m num ig A t ⟨st, k :: rest⟩ ⟨st, rest⟩
  | reduce {top : Nat} {τ : Tree} {st : List (Nat × Tree)} {input : List Tok} {a : LrAction} {s' : PState} (ha : A top a) (hi : a.item = lookahead input)
      (hty : a.type = .reduce)
      (h : (standard t).reduce ⟨num.ident a.rule.nonterminal, num.ruleId a.rule, a.rule.items.length⟩ ⟨(top, τ) :: st, input⟩ = .ok s') :
      Move m num ig A t ⟨(top, τ) :: st, input⟩ s'

section
variable {first : Item → List Item} {g : Gram} {okI : Item → Prop} {num : Numbering} {m : Mach} {n0 : Nat} {p : Rewriters.Prec} {ig : Int → Prop}
  {A : Nat → LrAction → Prop} {t : Tables} {k0 : Nat} {start : Item}

theorem process_move (hA : Chosen first g num m n0 p ig A t) {fuel : Nat} {s s' : PState} {res : Result} (h : process t fuel s = .ok (res, s')) :
    (res = .more → Move m num ig A t s s') ∧ (res = .accept → s' = s) := by
  obtain ⟨stack, input⟩ := s
  unfold process at h
  obtain ⟨top, htop, h⟩ := bind_ok h
  have htop' := orUb_ok htop
  cases stack with
  | nil => cases htop'
  | cons e st =>
    obtain ⟨top', τ⟩ := e
    have he : top' = top := by simpa using htop'
    subst he
    have hred : ∀ (la : Option Tok) (e : TableAction) (a : LrAction) (r : Bool × PState), entryMeaning t e = meaning num a → a.type = .reduce → A top' a → a.item = lookahead input →
        perform (standard t) t la e ⟨(top', τ) :: st, input⟩ = .ok r → r.1 = false ∧ Move m num ig A t ⟨(top', τ) :: st, input⟩ r.2 := by
      intro la e a r hm hty ha hi hp
      obtain ⟨e1, e2⟩ := entry_rule hm (by rw [hty]; rfl)
      unfold perform at hp
      rw [e1, hty] at hp
      dsimp only at hp
      obtain ⟨r', hr', hp⟩ := bind_ok hp
      obtain ⟨s1, hs1, hp⟩ := bind_ok hp
      cases hp
      have := orUb_ok hr'
      rw [e2] at this
      cases this
      exact ⟨rfl, .reduce ha hi hty hs1⟩
    cases input with
    | nil =>
      dsimp only [List.head?_nil] at h
      obtain ⟨l, hl, h⟩ := bind_ok h
      cases l with
      | nil => cases h; exact ⟨(nomatch ·), (nomatch ·)⟩
      | cons e l =>
        obtain ⟨a, ha, hi, hm⟩ := hA.eoi _ _ hl e (List.mem_cons_self ..)
        have hty' : e.type = a.type := congrArg Prod.fst hm
        unfold processActions at h
        rcases hA.atEnd _ _ ha hi with ⟨hty, -⟩ | hty
        · rw [hty', hty, if_neg (by decide), if_neg (by decide), if_neg (by decide)] at h
          obtain ⟨r, hr, h⟩ := bind_ok h
          obtain ⟨r1, r2⟩ := hred _ e a r hm hty ha hi hr
          rw [r1] at h
          cases h
          exact ⟨fun _ => r2, (nomatch ·)⟩
        · rw [hty', hty, if_neg (by decide), if_neg (by decide), if_pos rfl] at h
          cases h
          exact ⟨(nomatch ·), fun _ => rfl⟩
    | cons k rest =>
      dsimp only [List.head?_cons] at h
      obtain ⟨l, hl, h⟩ := bind_ok h
      cases l with
      | nil => cases h; exact ⟨(nomatch ·), (nomatch ·)⟩
      | cons e l =>
        obtain ⟨a, ha, hi, hm⟩ := hA.term _ _ _ hl e (List.mem_cons_self ..)
        have hty' : e.type = a.type := congrArg Prod.fst hm
        unfold processActions at h
        rcases hA.kinds _ _ _ ha hi with ⟨hty, -⟩ | ⟨hty, -⟩ | ⟨hty, hk⟩
        · rw [hty', hty, if_neg (by decide), if_neg (by decide), if_neg (by decide)] at h
          obtain ⟨r, hr, h⟩ := bind_ok h
          obtain ⟨-, e2⟩ := entry_next hm (by rw [hty]; rfl)
          unfold perform at hr
          rw [hty', hty] at hr
          cases hr
          simp only [if_true] at h
          obtain ⟨s1, hs1, h⟩ := bind_ok h
          cases h
          refine ⟨fun _ => ?_, (nomatch ·)⟩
          have hs1' : s' = ⟨(e.nextState, .leaf (some k)) :: (top', τ) :: st, rest⟩ := by
            simpa [next, standard] using hs1.symm
          rw [hs1', e2]
          exact .shift ha hi hty
        · rw [hty', hty, if_neg (by decide), if_neg (by decide), if_neg (by decide)] at h
          obtain ⟨r, hr, h⟩ := bind_ok h
          obtain ⟨r1, r2⟩ := hred _ e a r hm hty ha hi hr
          rw [r1] at h
          cases h
          exact ⟨fun _ => r2, (nomatch ·)⟩
        · rw [hty', hty, if_neg (by decide), if_neg (by decide), if_neg (by decide)] at h
          obtain ⟨r, hr, h⟩ := bind_ok h
          unfold perform at hr
          rw [hty', hty] at hr
          cases hr
          simp only [if_true] at h
          obtain ⟨s1, hs1, h⟩ := bind_ok h
          cases h
          refine ⟨fun _ => ?_, (nomatch ·)⟩
          have hs1' : s' = ⟨(top', τ) :: st, rest⟩ := by
            simpa [next, standard] using hs1.symm
          rw [hs1']
          exact .ignore hk

/-! The stack -/

/-- A shift of the symbol from the state is right: it goes before every rule that could be reduced instead. -/
def ShiftOk (g : Gram) (m : Mach) (p : Rewriters.Prec) (s : Nat) (n : Int) : Prop :=
  ∀ E β α, Clos0 g (kern m s) ⟨⟨E, α ++ [E]⟩, (α ++ [E]).length⟩ → E :: .terminal n :: β ∈ closRules g E → α ++ [E] ∈ closRules g E → After p ⟨E, α ++ [E]⟩ (.terminal n)

/-- The rule of the tree goes before the symbol. -/
def RedOk (g : Gram) (num : Numbering) (p : Rewriters.Prec) (τ : Tree) (n : Int) : Prop :=
  ∀ E β α vs, τ = .node (num.ident E) (num.ruleId ⟨E, α ++ [E]⟩) vs → E :: .terminal n :: β ∈ closRules g E → α ++ [E] ∈ closRules g E → Before p ⟨E, α ++ [E]⟩ (.terminal n)

/-- One entry of the stack on another one. -/
structure Entry (g : Gram) (num : Numbering) (m : Mach) (p : Rewriters.Prec) (e : Nat × Tree) (x : Item) (e' : Nat × Tree) : Prop where
  tr : tr m e.1 x = some e'.1
  resp : Respects g num p e'.2
  leaf : ∀ n, x = .terminal n → ShiftOk g m p e.1 n ∧ RedOk g num p e.2 n ∧ ∃ k, e'.2 = .leaf k
  node : isTerminal x = false → ∃ r us, r ∈ closRules g x ∧ e'.2 = .node (num.ident x) (num.ruleId ⟨x, r⟩) us ∧
    ∀ n β, r = x :: .terminal n :: β → ShiftOk g m p e'.1 n

/-- The entries on top of an entry, for the given items. -/
inductive Seg (g : Gram) (num : Numbering) (m : Mach) (p : Rewriters.Prec) : Nat × Tree → List Item → List (Nat × Tree) → Prop
  | nil {e : Nat × Tree} : Seg g num m p e [] []
  | cons {e e' : Nat × Tree} {x : Item} {xs : List Item} {q : List (Nat × Tree)} (h : Entry g num m p e x e') (hs : Seg g num m p e' xs q) :
      Seg g num m p e (x :: xs) (q ++ [e'])

/-- The whole stack. -/
inductive PStack (g : Gram) (num : Numbering) (m : Mach) (p : Rewriters.Prec) (k0 : Nat) : List (Nat × Tree) → Prop
  | base : PStack g num m p k0 [(k0, .nothing)]
  | push {e e' : Nat × Tree} {x : Item} {st : List (Nat × Tree)} (h : PStack g num m p k0 (e :: st)) (he : Entry g num m p e x e') : PStack g num m p k0 (e' :: e :: st)

theorem Seg.snoc {e : Nat × Tree} {xs : List Item} {q : List (Nat × Tree)} (h : Seg g num m p e xs q) {x : Item} {e' : Nat × Tree}
    (he : Entry g num m p (q.head?.getD e) x e') : Seg g num m p e (xs ++ [x]) (e' :: q) := by
  induction h with
  | nil => exact .cons he .nil
  | @cons e e1 y ys q h hs ih =>
    have : Seg g num m p e1 (ys ++ [x]) (e' :: q) := by
      refine ih ?_
      cases q with
      | nil => exact he
      | cons a q => exact he
    exact .cons h this

/-- A path of the automaton. -/
inductive Passage (m : Mach) : Nat → List Item → Nat → Prop
  | nil {s : Nat} : Passage m s [] s
  | cons {s s1 s2 : Nat} {x : Item} {xs : List Item} (h : tr m s x = some s1) (hs : Passage m s1 xs s2) : Passage m s (x :: xs) s2

theorem Seg.passage {e : Nat × Tree} {xs : List Item} {q : List (Nat × Tree)} (h : Seg g num m p e xs q) : Passage m e.1 xs (q.head?.getD e).1 := by
  induction h with
  | nil => exact .nil
  | @cons e e1 y ys q h hs ih =>
    refine .cons h.tr ?_
    cases q with
    | nil => exact ih
    | cons a q => exact ih

theorem Passage.advance {s s' : Nat} {xs : List Item} (h : Passage m s xs s') : ∀ {i : LItem} {o : Option Item} {ys : List Item}, Lr1c first g m n0 s (i, o) →
    i.rule.items.drop i.dot = xs ++ ys → Lr1c first g m n0 s' (⟨i.rule, i.dot + xs.length⟩, o) := by
  induction h with
  | nil => intro i o ys hi _; exact hi
  | @cons s s1 s2 x xs ht _ ih =>
    intro i o ys hi hd
    have h1 : i.rule.items[i.dot]? = some x := by
      have := congrArg List.head? hd
      rwa [List.head?_drop] at this
    have h2 : i.rule.items.drop (i.dot + 1) = xs ++ ys := by
      have := congrArg List.tail hd
      rwa [List.tail_drop] at this
    have h3 := ih (i := adv i) (lr1c_advance hi h1 ht) h2
    have h4 : i.dot + (x :: xs).length = (adv i).dot + xs.length := by
      simp only [adv, List.length_cons]
      omega
    rw [h4]
    exact h3

theorem pstack_range (ha : Auto g m k0 start) {e : Nat × Tree} {st : List (Nat × Tree)} (h : PStack g num m p k0 (e :: st)) : e.1 < m.states.length := by
  cases h with
  | base => exact ha.first
  | push _ he => exact ha.range _ _ _ he.tr

theorem pstack_base (ha : Auto g m k0 start) {e : Nat × Tree} {st : List (Nat × Tree)} (h : PStack g num m p k0 (e :: st)) {i : LItem} (hi : i ∈ kern m e.1)
    (hd : i.dot = 0) : i = startItem start := by
  cases h with
  | base =>
    rw [ha.init] at hi
    exact List.mem_singleton.1 hi
  | push _ he =>
    obtain ⟨j, -, -, rfl⟩ := ha.goto _ _ _ he.tr i hi
    cases hd

/-- The top of the stack has the items of a rule that has been read so far. -/
theorem pstack_pop (ha : Auto g m k0 start) {r : Rule} : ∀ (d : Nat), d ≤ r.items.length → ∀ (e : Nat × Tree) (st : List (Nat × Tree)), PStack g num m p k0 (e :: st) →
    Clos0 g (kern m e.1) ⟨r, d⟩ → ∃ q e0 st0, e :: st = q ++ e0 :: st0 ∧ PStack g num m p k0 (e0 :: st0) ∧ Seg g num m p e0 (r.items.take d) q ∧ Clos0 g (kern m e0.1) ⟨r, 0⟩
  | 0, _, e, st, hv, hc => ⟨[], e, st, rfl, hv, by simpa using Seg.nil, hc⟩
  | d + 1, hd, e, st, hv, hc => by
    rcases clos0_dot hc with hk | ⟨hz, -⟩
    · cases hv with
      | base =>
        rw [ha.init] at hk
        have := congrArg LItem.dot (List.mem_singleton.1 hk)
        cases this
      | @push e1 _ x st1 hv1 he =>
        obtain ⟨⟨r', d'⟩, hc1, hx, heq⟩ := ha.goto _ _ _ he.tr _ hk
        dsimp only at hx heq
        have e1' : r = r' := congrArg LItem.rule heq
        have e2 : d + 1 = d' + 1 := congrArg LItem.dot heq
        have e3 : d = d' := by omega
        subst e1' e3
        obtain ⟨q, e0, st0, p1, p2, p3, p4⟩ := pstack_pop ha d (by omega) e1 st1 hv1 hc1
        refine ⟨e :: q, e0, st0, by rw [p1]; rfl, p2, ?_, p4⟩
        rw [List.take_add_one, hx]
        refine p3.snoc ?_
        cases q with
        | nil =>
          have : e1 = e0 := (List.cons.inj p1).1
          rw [← this]
          exact he
        | cons a q =>
          have : e1 = a := (List.cons.inj p1).1
          rw [this] at he
          exact he
    · cases hz

/-- What is needed of the automaton and the numbers of the rules. -/
structure Env (first : Item → List Item) (g : Gram) (num : Numbering) (m : Mach) (n0 : Nat) (k0 : Nat) (start : Item) : Prop where
  auto : Auto g m k0 start
  lr1 : ∀ s < m.states.length, ∀ i, Clos0 g (kern m s) i → Lr1c first g m n0 s (i, none)
  clos0 : ∀ s e, Lr1c first g m n0 s e → s < m.states.length ∧ Clos0 g (kern m s) e.1
  firsts : ∀ s < m.states.length, ∀ i, Clos0 g (kern m s) i → ∀ n, .terminal n ∈ i.rule.items → .terminal n ∈ first (.terminal n)
  rules : ∀ r r', r.items ∈ closRules g r.nonterminal → r'.items ∈ closRules g r'.nonterminal → num.ruleId r = num.ruleId r' → r = r'

theorem lr1c_gen {s : Nat} {e e' : Elem} (h : Lr1c first g m n0 s e) (hg : Gen first g e e') : Lr1c first g m n0 s e' := by
  obtain ⟨e0, h1, h2⟩ := h
  exact ⟨e0, h1, h2.tail hg⟩

theorem shift_ok (hE : Env first g num m n0 k0 start) (hA : Chosen first g num m n0 p ig A t) {e : Nat × Tree} {st : List (Nat × Tree)}
    (hv : PStack g num m p k0 (e :: st)) {a : LrAction} {n : Int} (ha : A e.1 a) (hi : a.item = .terminal n) (hty : a.type = .shift) : ShiftOk g m p e.1 n := by
  intro E β α hc hr1 hr2
  obtain ⟨q, e0, st0, p1, p2, p3, p4⟩ := pstack_pop hE.auto (r := ⟨E, α ++ [E]⟩) _ (Nat.le_refl _) e st hv hc
  rw [List.take_length] at p3
  have hj : ∃ j, Clos0 g (kern m e0.1) j ∧ j.rule.items[j.dot]? = some E := by
    rcases clos0_dot p4 with hk | ⟨-, -, hj⟩
    · have := congrArg (fun i : LItem => i.rule.nonterminal) (pstack_base hE.auto p2 hk rfl)
      have hE0 : E = .empty := this
      rw [hE0] at hr1
      cases hr1
    · exact hj
  obtain ⟨j, hj, hx⟩ := hj
  have h1 := lr1c_gen (hE.lr1 _ (pstack_range hE.auto p2) _ hj) (.item hx hr1)
  have h2 : Lr1c first g m n0 e0.1 (⟨⟨E, α ++ [E]⟩, 0⟩, some (.terminal n)) :=
    lr1c_gen h1 (.first rfl hr2 ⟨[], .terminal n, β, rfl, fun x h => (nomatch h), hE.firsts _ (hE.clos0 _ _ h1).1 _ (hE.clos0 _ _ h1).2 n (by simp), by simp⟩)
  have h3 := p3.passage.advance (ys := []) h2 (by simp)
  have h4 : q.head?.getD e0 = e := by
    cases q with
    | nil => exact ((List.cons.inj p1).1).symm
    | cons b q => exact ((List.cons.inj p1).1).symm
  rw [h4, Nat.zero_add] at h3
  exact hA.shifts _ _ _ _ ha hi hty h3 (List.ne_nil_of_mem hr2)

theorem red_ok (hE : Env first g num m n0 k0 start) (hA : Chosen first g num m n0 p ig A t) {e : Nat × Tree} {st : List (Nat × Tree)}
    (hv : PStack g num m p k0 (e :: st)) {a : LrAction} {n : Int} (ha : A e.1 a) (hi : a.item = .terminal n) (hty : a.type = .reduce)
    {E : Item} {α β : List Item} (hr : a.rule = ⟨E, α ++ [E]⟩) (hr1 : E :: .terminal n :: β ∈ closRules g E) : Before p ⟨E, α ++ [E]⟩ (.terminal n) := by
  have hend : Lr1c first g m n0 e.1 (⟨a.rule, a.rule.items.length⟩, some a.item) := by
    rcases hA.kinds _ _ _ ha hi with ⟨h, -⟩ | ⟨-, h, -⟩ | ⟨h, -⟩
    · rw [hty] at h; cases h
    · exact h
    · rw [hty] at h; cases h
  have hc := (hE.clos0 _ _ hend).2
  have htr : ∃ s', tr m e.1 (.terminal n) = some s' := by
    rw [hr] at hc
    rcases clos0_dot hc with hk | ⟨hz, -⟩
    · cases hv with
      | base =>
        rw [hE.auto.init] at hk
        have := congrArg LItem.dot (List.mem_singleton.1 hk)
        simp [startItem] at this
      | @push e1 _ x st1 hv1 he =>
        obtain ⟨⟨r', d'⟩, hc1, hx, heq⟩ := hE.auto.goto _ _ _ he.tr _ hk
        dsimp only at hx heq
        have e1' : _ = r' := congrArg LItem.rule heq
        have e2 : (α ++ [E]).length = d' + 1 := congrArg LItem.dot heq
        subst e1'
        have e3 : d' = α.length := by simpa using e2.symm
        have e4 : x = E := by
          rw [e3] at hx
          simpa using hx.symm
        subst e4
        have h1 := lr1c_gen (hE.lr1 _ (pstack_range hE.auto hv1) _ hc1) (.item hx hr1)
        have h2 := lr1c_advance h1 rfl he.tr
        obtain ⟨h3, h4⟩ := hE.clos0 _ _ h2
        exact hE.auto.step _ h3 _ (.terminal n) h4 rfl (by simp)
    · simp at hz
  rw [← hr]
  exact hA.reduces _ _ _ ha hi hty htr

theorem Seg.resp {e : Nat × Tree} {xs : List Item} {q : List (Nat × Tree)} (h : Seg g num m p e xs q) : ∀ a ∈ q, Respects g num p a.2 := by
  induction h with
  | nil => intro a h; cases h
  | cons h hs ih =>
    intro a ha
    rcases List.mem_append.1 ha with ha | ha
    · exact ih a ha
    · rw [List.mem_singleton.1 ha]; exact h.resp

theorem Seg.two {e : Nat × Tree} {x y : Item} {xs : List Item} {q : List (Nat × Tree)} (h : Seg g num m p e (x :: y :: xs) q) :
    ∃ q' e1 e2, q = q' ++ [e1] ∧ Entry g num m p e x e1 ∧ Entry g num m p e1 y e2 := by
  cases h with
  | cons h hs =>
    cases hs with
    | cons h' hs' => exact ⟨_, _, _, rfl, h, h'⟩

theorem Seg.length {e : Nat × Tree} {xs : List Item} {q : List (Nat × Tree)} (h : Seg g num m p e xs q) : q.length = xs.length := by
  induction h with
  | nil => rfl
  | cons _ _ ih => simp [ih]

/-- The next token that is not ignored. -/
def NextTok (ig : Int → Prop) (input : List Tok) (k : Tok) : Prop := ∃ u rest, input = u ++ k :: rest ∧ (∀ x ∈ u, ig x.sym) ∧ ¬ ig k.sym

/-- What holds of the parser. -/
def PInv (g : Gram) (num : Numbering) (m : Mach) (p : Rewriters.Prec) (k0 : Nat) (ig : Int → Prop) (s : PState) : Prop :=
  PStack g num m p k0 s.stack ∧ ∀ e st, s.stack = e :: st → ∀ k, NextTok ig s.input k → RedOk g num p e.2 k.sym

/-- A reduction. -/
theorem reduce_entry (hE : Env first g num m n0 k0 start) (hA : Chosen first g num m n0 p ig A t) {e : Nat × Tree} {st : List (Nat × Tree)} {input : List Tok}
    (hv : PStack g num m p k0 (e :: st)) {r : Rule} (hc : Clos0 g (kern m e.1) ⟨r, r.items.length⟩) (hne : closRules g r.nonterminal ≠ []) {s' : PState}
    (h : (standard t).reduce ⟨num.ident r.nonterminal, num.ruleId r, r.items.length⟩ ⟨e :: st, input⟩ = .ok s') :
    ∃ s2 us e0 st0, s' = ⟨(s2, .node (num.ident r.nonterminal) (num.ruleId r) us) :: e0 :: st0, input⟩ ∧ r.items ∈ closRules g r.nonterminal ∧
      PStack g num m p k0 ((s2, .node (num.ident r.nonterminal) (num.ruleId r) us) :: e0 :: st0) := by
  obtain ⟨q, e0, st0, p1, p2, p3, p4⟩ := pstack_pop hE.auto (r := r) _ (Nat.le_refl _) e st hv hc
  rw [List.take_length] at p3
  have hgen : r.items ∈ closRules g r.nonterminal ∧ ∃ j, Clos0 g (kern m e0.1) j ∧ j.rule.items[j.dot]? = some r.nonterminal := by
    rcases clos0_dot p4 with hk | ⟨-, hr, hj⟩
    · have := congrArg (fun i : LItem => i.rule.nonterminal) (pstack_base hE.auto p2 hk rfl)
      have hE0 : r.nonterminal = .empty := this
      rw [hE0] at hne
      exact absurd rfl hne
    · exact ⟨hr, hj⟩
  obtain ⟨hr, j, hj, hx⟩ := hgen
  obtain ⟨s2, hs2⟩ := hE.auto.step e0.1 (pstack_range hE.auto p2) j _ hj hx (fun hn => hne (by rw [hn]; rfl))
  have hgo := hA.goto _ _ _ hs2 hne
  have hpop := popItems_all q e0 st0 []
  rw [p3.length, List.nil_append] at hpop
  have hred : (standard t).reduce ⟨num.ident r.nonterminal, num.ruleId r, r.items.length⟩ ⟨e :: st, input⟩ =
      .ok ⟨(s2, .node (num.ident r.nonterminal) (num.ruleId r) (q.map (·.2))) :: e0 :: st0, input⟩ := by
    rw [p1]
    simp [standard, hpop, bind, Except.bind, orUb, hgo, pure, Except.pure]
  rw [hred] at h
  cases h
  refine ⟨s2, q.map (·.2), e0, st0, rfl, hr, .push p2 (x := r.nonterminal) ⟨hs2, ?_, ?_, ?_⟩⟩
  · refine .node ?_ ?_ ?_
    · intro u hu
      obtain ⟨a, ha, rfl⟩ := List.mem_map.1 hu
      exact p3.resp a ha
    · intro E n β α vs hid hr1 hr2 hlast
      have : r = ⟨E, E :: .terminal n :: β⟩ := hE.rules _ _ hr hr1 hid
      subst this
      obtain ⟨q', e1, e2, rfl, f1, f2⟩ := p3.two
      have hl : e1.2 = .node (num.ident E) (num.ruleId ⟨E, α ++ [E]⟩) vs := by simpa using hlast
      exact (f2.leaf n rfl).2.1 E β α vs hl hr1 hr2
    · intro E n β α vs hid hr1 hr2 hhead
      have : r = ⟨E, α ++ [E]⟩ := hE.rules _ _ hr hr2 hid
      subst this
      have hq : ∃ q', q = e :: q' := by
        cases q with
        | nil =>
          have := p3.length
          simp at this
        | cons b q => exact ⟨q, by rw [(List.cons.inj p1).1]⟩
      obtain ⟨q', rfl⟩ := hq
      have hhead' : e.2 = .node (num.ident E) (num.ruleId ⟨E, E :: .terminal n :: β⟩) vs := by simpa using hhead
      have hsh : ShiftOk g m p e.1 n := by
        cases hv with
        | base => cases hhead'
        | @push e1 _ x st1 hv1 he =>
          by_cases hx : isTerminal x = true
          · cases x with
            | terminal k =>
              obtain ⟨-, -, k', hk'⟩ := he.leaf k rfl
              rw [hk'] at hhead'
              cases hhead'
            | _ => cases hx
          · obtain ⟨r', us, g1, g2, g3⟩ := he.node (by simpa using hx)
            rw [g2] at hhead'
            have hid' : num.ruleId ⟨x, r'⟩ = num.ruleId ⟨E, E :: .terminal n :: β⟩ := by injection hhead'
            have hrr := hE.rules ⟨x, r'⟩ ⟨E, E :: .terminal n :: β⟩ g1 hr1 hid'
            cases hrr
            exact g3 n β rfl
      exact hsh E β α hc hr1 hr2
  · intro n hn
    rw [hn] at hne
    exact absurd rfl hne
  · intro _
    refine ⟨r.items, _, hr, rfl, ?_⟩
    intro n β hrn
    rw [hrn] at p3
    obtain ⟨q', e1, e2, -, f1, f2⟩ := p3.two
    have : s2 = e1.1 := by
      have := f1.tr
      rw [hs2] at this
      exact Option.some.inj this
    rw [this]
    exact (f2.leaf n rfl).1

theorem move_inv (hE : Env first g num m n0 k0 start) (hA : Chosen first g num m n0 p ig A t) {s s' : PState} (hi : PInv g num m p k0 ig s) (h : Move m num ig A t s s') :
    PInv g num m p k0 ig s' := by
  obtain ⟨hv, hn⟩ := hi
  cases h with
  | @shift top τ st k rest a ha hit hty =>
    obtain ⟨htr, hnk⟩ : tr m top (.terminal k.sym) = some a.next.toNat ∧ ¬ ig k.sym := by
      rcases hA.kinds _ _ _ ha hit with ⟨-, h⟩ | ⟨h, -⟩ | ⟨h, -⟩
      · exact h
      · rw [hty] at h; cases h
      · rw [hty] at h; cases h
    refine ⟨.push hv (x := .terminal k.sym) ⟨htr, .leaf, ?_, fun h => (nomatch h)⟩, ?_⟩
    · intro n hk
      cases hk
      exact ⟨shift_ok hE hA hv ha hit hty, hn _ _ rfl k ⟨[], rest, rfl, fun x h => (nomatch h), hnk⟩, _, rfl⟩
    · intro e st' he k' _ E β α vs hτ
      cases he
      cases hτ
  | @ignore st k rest hk =>
    refine ⟨hv, ?_⟩
    rintro e st' he k' ⟨u, rest', rfl, h2, h3⟩
    refine hn e st' he k' ⟨k :: u, rest', rfl, ?_, h3⟩
    intro x hx
    rcases List.mem_cons.1 hx with rfl | hx
    · exact hk
    · exact h2 x hx
  | @reduce top τ st input a s' ha hit hty h =>
    have hend : Lr1c first g m n0 top (⟨a.rule, a.rule.items.length⟩, some a.item) ∧ closRules g a.rule.nonterminal ≠ [] ∧
        ∀ k rest, input = k :: rest → ¬ ig k.sym := by
      cases input with
      | nil =>
        rcases hA.atEnd _ _ ha hit with ⟨-, h1, h2⟩ | h
        · exact ⟨h1, h2, fun k rest h => (nomatch h)⟩
        · rw [hty] at h; cases h
      | cons k rest =>
        rcases hA.kinds _ _ _ ha hit with ⟨h, -⟩ | ⟨-, h1, h2, h3⟩ | ⟨h, -⟩
        · rw [hty] at h; cases h
        · refine ⟨h1, h2, ?_⟩
          intro k' rest' he
          cases he
          exact h3
        · rw [hty] at h; cases h
    obtain ⟨h1, h2, h3⟩ := hend
    obtain ⟨s2, us, e0, st0, rfl, hr, hp⟩ := reduce_entry hE hA hv (hE.clos0 _ _ h1).2 h2 h
    refine ⟨hp, ?_⟩
    rintro e st' he k ⟨u, rest, hin, hu, hk⟩ E β α vs hτ hr1 hr2
    cases he
    dsimp only at hτ hin
    have hid : num.ruleId a.rule = num.ruleId ⟨E, α ++ [E]⟩ := by injection hτ
    have hrr := hE.rules _ ⟨E, α ++ [E]⟩ hr hr2 hid
    cases u with
    | nil =>
      rw [hin] at hit
      exact red_ok hE hA hv ha hit hty hrr hr1
    | cons k' u =>
      exact absurd (hu k' (List.mem_cons_self ..)) (h3 k' _ hin)

/-- C64, for tables: the tree that the parser makes is as the precedences say. -/
theorem parse_respects (hE : Env first g num m n0 k0 start) (hA : Chosen first g num m n0 p ig A t) : ∀ {fuel : Nat} {s s' : PState} {b : Bool}, PInv g num m p k0 ig s →
    parse t fuel s = .ok (b, s') → b = true → ∀ e ∈ s'.stack, Respects g num p e.2 := by
  have hall : ∀ {st : List (Nat × Tree)}, PStack g num m p k0 st → ∀ e ∈ st, Respects g num p e.2 := by
    intro st h
    induction h with
    | base => intro e he; rw [List.mem_singleton.1 he]; exact .nothing
    | push _ he ih =>
      intro a ha
      rcases List.mem_cons.1 ha with rfl | ha
      · exact he.resp
      · exact ih a ha
  intro fuel
  induction fuel with
  | zero => intro s s' b _ h; cases h
  | succ fuel ih =>
    intro s s' b hi h hb
    unfold parse at h
    obtain ⟨⟨res, s1⟩, hr, h⟩ := bind_ok h
    obtain ⟨h1, h2⟩ := process_move hA hr
    cases res with
    | more => exact ih (move_inv hE hA hi (h1 rfl)) h hb
    | accept =>
      cases h
      have := h2 rfl
      dsimp only at this ⊢
      rw [this]
      exact hall hi.1
    | reject => cases h; cases hb

end
end Sound
end TameParse

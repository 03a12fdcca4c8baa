import Verif.ActionProps
import Verif.IgnoreProps

/-!
# C35: what is accepted is in the language, and the tree is a derivation tree
-/

namespace TameParse
namespace Sound

open AssocMap Closure Relation Lalr TameParse.Parser ParserTables

/-! Derivation trees -/

/-- The trees derive the tokens from the items, in order: tokens are leaves, guards are leaves that stand for no token, and the node of an item
is labelled with a rule for it and has the trees for the items of the rule, the last one first. -/
inductive Forest (g : Gram) (num : Numbering) : List Item → List Tree → List Tok → Prop
  | nil : Forest g num [] [] []
  | token {k : Tok} {xs : List Item} {ts : List Tree} {w : List Tok} (h : Forest g num xs ts w) :
      Forest g num (.terminal k.sym :: xs) (.leaf (some k) :: ts) (k :: w)
  | guard {p : Int} {l : List Item} {la : Option Tok} {xs : List Item} {ts : List Tree} {w : List Tok} (h : Forest g num xs ts w) :
      Forest g num (.guard p l :: xs) (.leaf la :: ts) w
  | node {x : Item} {r : List Item} {us : List Tree} {v : List Tok} {xs : List Item} {ts : List Tree} {w : List Tok} (hr : r ∈ closRules g x)
      (hc : Forest g num r us v) (h : Forest g num xs ts w) : Forest g num (x :: xs) (.node (num.ident x) (num.ruleId ⟨x, r⟩) us.reverse :: ts) (v ++ w)

/-- The tokens that the parser has put in the tree are those of the input in order, without those that are ignored; weak symbols may have
been replaced by strong ones. -/
inductive Read (ig : Int → Prop) (strong : Int → Int → Prop) : List Tok → List Tok → Prop
  | nil : Read ig strong [] []
  | keep {k : Tok} {u w : List Tok} (h : Read ig strong u w) : Read ig strong (k :: u) (k :: w)
  | strong {k : Tok} {n : Int} {u w : List Tok} (hn : strong k.sym n) (h : Read ig strong u w) : Read ig strong (k :: u) ({ k with sym := n } :: w)
  | skip {k : Tok} {u w : List Tok} (hk : ig k.sym) (h : Read ig strong u w) : Read ig strong (k :: u) w

section
variable {g : Gram} {num : Numbering} {ig : Int → Prop} {strong : Int → Int → Prop}

theorem Forest.append {xs ys : List Item} {ts us : List Tree} {w v : List Tok} (h : Forest g num xs ts w) (h' : Forest g num ys us v) :
    Forest g num (xs ++ ys) (ts ++ us) (w ++ v) := by
  induction h with
  | nil => exact h'
  | token _ ih => exact .token ih
  | guard _ ih => exact .guard ih
  | node hr hc _ _ ih =>
    rw [List.append_assoc]
    exact .node hr hc ih

theorem Read.append {u u' w w' : List Tok} (h : Read ig strong u w) (h' : Read ig strong u' w') : Read ig strong (u ++ u') (w ++ w') := by
  induction h with
  | nil => exact h'
  | keep _ ih => exact .keep ih
  | strong hn _ ih => exact .strong hn ih
  | skip hk _ ih => exact .skip hk ih

/-! Trees and derivations -/

theorem derives_context {u v : List Item} (h : g.Derives u v) (a b : List Item) : g.Derives (a ++ u ++ b) (a ++ v ++ b) := by
  unfold Gram.Derives at *
  induction h with
  | refl => exact .refl
  | tail _ hs ih =>
    obtain ⟨a', x, b', r, h1, h2, h3⟩ := hs
    refine ih.tail ⟨a ++ a', x, b' ++ b, r, ?_, h2, ?_⟩
    · rw [h1]; simp
    · rw [h3]; simp

theorem derives_prod {x : Item} {r : List Item} (h : r ∈ g.prods x) : g.Derives [x] r := .single ⟨[], x, [], r, rfl, h, by simp⟩

mutual
theorem flattenItem_derives (g : Gram) : ∀ (x : Item) (r : List Item), r ∈ flattenItem x → g.Derives [x] r
  | .ebnf .alternative rs, r, h => by
    unfold flattenItem at h
    obtain ⟨r', h1, h2⟩ := flattenRules_derives g rs r h
    exact ReflTransGen.trans (derives_prod h1) h2
  | .ebnf .optional rs, r, h => by rw [List.mem_singleton.1 h]; exact .refl
  | .ebnf .repeating rs, r, h => by rw [List.mem_singleton.1 h]; exact .refl
  | .ebnf .repeatZero rs, r, h => by rw [List.mem_singleton.1 h]; exact .refl
  | .empty, r, h => by rw [List.mem_singleton.1 h]; exact .refl
  | .eoi, r, h => by rw [List.mem_singleton.1 h]; exact .refl
  | .eog, r, h => by rw [List.mem_singleton.1 h]; exact .refl
  | .terminal n, r, h => by rw [List.mem_singleton.1 h]; exact .refl
  | .nonterminal n, r, h => by rw [List.mem_singleton.1 h]; exact .refl
  | .guard p l, r, h => by rw [List.mem_singleton.1 h]; exact .refl

theorem flattenRule_derives (g : Gram) : ∀ (l r : List Item), r ∈ flattenRule l → g.Derives l r
  | [x], r, h => flattenItem_derives g x r h
  | [], r, h => by rw [List.mem_singleton.1 h]; exact .refl
  | x :: y :: l, r, h => by rw [List.mem_singleton.1 h]; exact .refl

theorem flattenRules_derives (g : Gram) : ∀ (rs : List (List Item)) (r : List Item), r ∈ flattenRules rs → ∃ r' ∈ rs, g.Derives r' r
  | [], r, h => by cases h
  | r0 :: rs, r, h => by
    unfold flattenRules at h
    rcases List.mem_append.1 h with h | h
    · exact ⟨r0, List.mem_cons_self .., flattenRule_derives g r0 r h⟩
    · obtain ⟨r', h1, h2⟩ := flattenRules_derives g rs r h
      exact ⟨r', List.mem_cons_of_mem _ h1, h2⟩
end

/-- The rules of the closure are derivations. -/
theorem closRules_derives {x : Item} {r : List Item} (h : r ∈ closRules g x) : g.Derives [x] r := by
  cases x with
  | nonterminal n => exact derives_prod h
  | ebnf k rs =>
    cases k with
    | alternative =>
      obtain ⟨r', h1, h2⟩ := flattenRules_derives g rs r h
      exact ReflTransGen.trans (derives_prod h1) h2
    | _ => exact derives_prod h
  | _ => cases h

/-- A tree is a derivation: the sentence has the tokens of the tree, and some guards. -/
theorem Forest.derives {xs : List Item} {ts : List Tree} {w : List Tok} (h : Forest g num xs ts w) : ∃ v, g.Derives xs v ∧
    (∀ y ∈ v, isTerminal y = true ∨ ∃ p l, y = .guard p l) ∧ v.filter isTerminal = w.map (fun k => .terminal k.sym) := by
  induction h with
  | nil => exact ⟨[], .refl, by simp, rfl⟩
  | @token k xs ts w _ ih =>
    obtain ⟨v, h1, h2, h3⟩ := ih
    refine ⟨.terminal k.sym :: v, by simpa using derives_context h1 [.terminal k.sym] [], ?_, ?_⟩
    · intro y hy
      rcases List.mem_cons.1 hy with rfl | hy
      · exact Or.inl rfl
      · exact h2 y hy
    · rw [List.filter_cons_of_pos rfl, h3]
      rfl
  | @guard p l la xs ts w _ ih =>
    obtain ⟨v, h1, h2, h3⟩ := ih
    refine ⟨.guard p l :: v, by simpa using derives_context h1 [.guard p l] [], ?_, ?_⟩
    · intro y hy
      rcases List.mem_cons.1 hy with rfl | hy
      · exact Or.inr ⟨p, l, rfl⟩
      · exact h2 y hy
    · rw [List.filter_cons_of_neg (by simp [isTerminal]), h3]
  | @node x r us v xs ts w hr _ _ ih1 ih2 =>
    obtain ⟨v1, h1, h2, h3⟩ := ih1
    obtain ⟨v2, h4, h5, h6⟩ := ih2
    refine ⟨v1 ++ v2, ?_, ?_, ?_⟩
    · have a1 := derives_context (ReflTransGen.trans (closRules_derives hr) h1) [] xs
      have a2 := derives_context h4 v1 []
      simp only [List.nil_append, List.append_nil, List.singleton_append] at a1 a2
      exact ReflTransGen.trans a1 a2
    · intro y hy
      rcases List.mem_append.1 hy with hy | hy
      · exact h2 y hy
      · exact h5 y hy
    · rw [List.filter_append, h3, h6, List.map_append]

end

/-! The automaton -/

/-- What the parser relies on, for the initial state `k0` of the language `start`. -/
structure Auto (g : Gram) (m : Mach) (k0 : Nat) (start : Item) : Prop where
  init : kern m k0 = [startItem start]
  first : k0 < m.states.length
  range : ∀ s x t, tr m s x = some t → t < m.states.length
  goto : ∀ s x t, tr m s x = some t → ∀ j ∈ kern m t, Goto0 g (kern m s) x j
  step : ∀ s < m.states.length, ∀ i x, Clos0 g (kern m s) i → i.rule.items[i.dot]? = some x → x ≠ .empty → ∃ t, tr m s x = some t

/-- The actions that make sense in a state. -/
inductive Allowed (g : Gram) (m : Mach) (ig : Int → Prop) (strong : Int → Int → Prop) (s : Nat) : LrAction → Prop
  | shift {n : Int} {t : Nat} {r : Rule} (h : tr m s (.terminal n) = some t) : Allowed g m ig strong s ⟨.shift, .terminal n, t, r⟩
  | guarded {p : Int} {l : List Item} {t : Nat} {r : Rule} (h : tr m s (.guard p l) = some t) : Allowed g m ig strong s ⟨.shift, .guard p l, t, r⟩
  | strong {n n' : Int} {t : Nat} {r : Rule} (hn : strong n n') (h : tr m s (.terminal n') = some t) : Allowed g m ig strong s ⟨.shiftstrong, .terminal n, t, r⟩
  | ignore {n k : Int} {r : Rule} (h : ig n) : Allowed g m ig strong s ⟨.ignore, .terminal n, k, r⟩
  | goto {x : Item} {t : Nat} {r : Rule} (h : tr m s x = some t) (h1 : isTerminal x = false) (h2 : ∀ p l, x ≠ .guard p l) (h3 : x ≠ .eoi) (h4 : x ≠ .empty) :
      Allowed g m ig strong s ⟨.goto, x, t, r⟩
  | reduce {ty : ActType} {a : Item} {k : Int} {r : Rule} (ht : ty = .reduce ∨ ty = .weakreduce) (h : Clos0 g (kern m s) ⟨r, r.items.length⟩)
      (h1 : r.nonterminal ≠ .empty) (h2 : ∀ p l, r.nonterminal ≠ .guard p l) (ha : a ≠ .empty) : Allowed g m ig strong s ⟨ty, a, k, r⟩
  | accept {k : Int} {r : Rule} (h : Clos0 g (kern m s) ⟨r, r.items.length⟩) (h1 : r.nonterminal = .empty) : Allowed g m ig strong s ⟨.accept, .eoi, k, r⟩
  | done {k : Int} {r : Rule} {p : Int} {l : List Item} (h1 : r.nonterminal = .guard p l)
      (h : Clos0 g (kern m s) ⟨r, r.items.length⟩) : Allowed g m ig strong s ⟨.accept, .eog, k, r⟩
  | guard {n : Int} {k : Nat} {r : Rule} {p : Int} {l : List Item} (hk : k < m.states.length) (h : kern m k = [⟨⟨.guard p l, l⟩, 0⟩]) :
      Allowed g m ig strong s ⟨.guard, .terminal n, k, r⟩

/-- The items that an action is about have numbers. -/
def Numbered (occ : Item → Prop) (a : LrAction) : Prop := (isTerminal a.item = false → occ a.item) ∧ (a.type = .accept → occ a.rule.nonterminal)

/-- Tables with such actions; `occ` are the items whose numbers are told apart. -/
structure Tab (g : Gram) (num : Numbering) (m : Mach) (occ : Item → Prop) (ig : Int → Prop) (strong : Int → Int → Prop) (t : Tables) : Prop where
  inj : ∀ x y, occ x → occ y → num.ident x = num.ident y → x = y
  occEmpty : occ .empty
  occEoi : occ .eoi
  eoi : t.endOfInput = num.ident .eoi
  weak : ∀ n n', strong n n' → strongForWeak t n = some n'
  term : ∀ s n l, entriesFor t true s n = .ok l → ∀ e ∈ l, ∃ a, Allowed g m ig strong s a ∧ Numbered occ a ∧ a.item = .terminal n ∧
    entryMeaning t e = meaning num a
  nonterm : ∀ s n l, entriesFor t false s n = .ok l → ∀ e ∈ l, ∃ a, Allowed g m ig strong s a ∧ Numbered occ a ∧
    isTerminal a.item = false ∧ num.ident a.item = n ∧
    entryMeaning t e = meaning num a
  goto : ∀ s x s', tr m s x = some s' → isTerminal x = false → (∀ p l, x ≠ .guard p l) → gotoFor t s (num.ident x) = .ok (some s')

/-! The stack -/

/-- The stack is a path of the automaton from the initial state, and its items derive the tokens. -/
inductive VStack (g : Gram) (num : Numbering) (m : Mach) (k0 : Nat) : List (Nat × Tree) → List Tok → Prop
  | base : VStack g num m k0 [(k0, .nothing)] []
  | push {s s' : Nat} {τ τ' : Tree} {x : Item} {st : List (Nat × Tree)} {w w' : List Tok} (h : VStack g num m k0 ((s, τ) :: st) w)
      (ht : tr m s x = some s') (hf : Forest g num [x] [τ'] w') : VStack g num m k0 ((s', τ') :: (s, τ) :: st) (w ++ w')

section
variable {g : Gram} {num : Numbering} {m : Mach} {k0 : Nat} {start : Item} {occ : Item → Prop} {ig : Int → Prop} {strong : Int → Int → Prop} {t : Tables}

theorem clos0_dot {K : List LItem} {i : LItem} (h : Clos0 g K i) :
    i ∈ K ∨ (i.dot = 0 ∧ i.rule.items ∈ closRules g i.rule.nonterminal ∧ ∃ j, Clos0 g K j ∧ j.rule.items[j.dot]? = some i.rule.nonterminal) := by
  obtain ⟨i0, h1, h2⟩ := h
  rcases ReflTransGen.cases_tail h2 with h | ⟨j, hj, x, r, hx, hr, rfl⟩
  · rw [h]; exact Or.inl h1
  · exact Or.inr ⟨rfl, hr, j, ⟨i0, h1, hj⟩, hx⟩

theorem vstack_range (ha : Auto g m k0 start) {s : Nat} {τ : Tree} {st : List (Nat × Tree)} {w : List Tok} (h : VStack g num m k0 ((s, τ) :: st) w) :
    s < m.states.length := by
  cases h with
  | base => exact ha.first
  | push _ ht _ => exact ha.range _ _ _ ht

theorem vstack_base (ha : Auto g m k0 start) {s : Nat} {τ : Tree} {st : List (Nat × Tree)} {w : List Tok} (h : VStack g num m k0 ((s, τ) :: st) w)
    {i : LItem} (hi : i ∈ kern m s) (hd : i.dot = 0) : i = startItem start ∧ s = k0 ∧ τ = .nothing ∧ st = [] ∧ w = [] := by
  cases h with
  | base =>
    rw [ha.init] at hi
    exact ⟨List.mem_singleton.1 hi, rfl, rfl, rfl, rfl⟩
  | push _ ht _ =>
    obtain ⟨j, -, -, rfl⟩ := ha.goto _ _ _ ht i hi
    cases hd

/-- The top of the stack has the items of a rule that has been read so far. -/
theorem vstack_pop (ha : Auto g m k0 start) {r : Rule} : ∀ (d : Nat), d ≤ r.items.length → ∀ (s : Nat) (τ : Tree) (st : List (Nat × Tree)) (w : List Tok)
    (acc : List Tree), VStack g num m k0 ((s, τ) :: st) w → Clos0 g (kern m s) ⟨r, d⟩ →
    ∃ items s' τ' st' w1 w2, popItems d ((s, τ) :: st) acc = .ok (acc ++ items, (s', τ') :: st') ∧ VStack g num m k0 ((s', τ') :: st') w1 ∧ w = w1 ++ w2 ∧
      Forest g num (r.items.take d) items.reverse w2 ∧ Clos0 g (kern m s') ⟨r, 0⟩
  | 0, _, s, τ, st, w, acc, hv, hc => ⟨[], s, τ, st, w, [], by simp [popItems], hv, by simp, by simpa using Forest.nil, hc⟩
  | d + 1, hd, s, τ, st, w, acc, hv, hc => by
    rcases clos0_dot hc with hk | ⟨hz, -⟩
    · cases hv with
      | base =>
        rw [ha.init] at hk
        have := congrArg LItem.dot (List.mem_singleton.1 hk)
        cases this
      | @push s1 _ τ1 _ x st1 w1 w1' hv1 ht hf =>
        obtain ⟨⟨r', d'⟩, hc1, hx, he⟩ := ha.goto _ _ _ ht _ hk
        dsimp only at hx he
        have e1 : r = r' := congrArg LItem.rule he
        have e2 : d + 1 = d' + 1 := congrArg LItem.dot he
        have e3 : d = d' := by omega
        subst e1 e3
        obtain ⟨items, s', τ', st', v1, v2, p1, p2, p3, p4, p5⟩ := vstack_pop ha d (by omega) s1 τ1 st1 w1 (acc ++ [τ]) hv1 hc1
        refine ⟨τ :: items, s', τ', st', v1, v2 ++ w1', ?_, p2, ?_, ?_, p5⟩
        · show popItems d ((s1, τ1) :: st1) (acc ++ [τ]) = _
          rw [p1, List.append_assoc]
          rfl
        · rw [p3, List.append_assoc]
        · rw [List.take_add_one, hx, List.reverse_cons]
          exact p4.append hf
    · cases hz

/-- The parser's state: what has been read of the input, and what it has become. -/
def Inv (g : Gram) (num : Numbering) (m : Mach) (k0 : Nat) (ig : Int → Prop) (strong : Int → Int → Prop) (input : List Tok) (s : PState) : Prop :=
  ∃ used w, used ++ s.input = input ∧ Read ig strong used w ∧ VStack g num m k0 s.stack w

theorem vstack_cons {st : List (Nat × Tree)} {w : List Tok} (h : VStack g num m k0 st w) : ∃ s τ l, st = (s, τ) :: l := by
  cases h with
  | base => exact ⟨_, _, _, rfl⟩
  | push => exact ⟨_, _, _, rfl⟩

theorem reduce_inv (ha : Auto g m k0 start) (ht : Tab g num m occ ig strong t) {input : List Tok} {s s' : PState} (hi : Inv g num m k0 ig strong input s) {st : Nat}
    (hst : (standard t).current s = .ok st) {r : Rule} (hc : Clos0 g (kern m st) ⟨r, r.items.length⟩) (h1 : r.nonterminal ≠ .empty)
    (h2 : ∀ p l, r.nonterminal ≠ .guard p l) (h : (standard t).reduce ⟨num.ident r.nonterminal, num.ruleId r, r.items.length⟩ s = .ok s') :
    Inv g num m k0 ig strong input s' ∧ s'.input = s.input := by
  obtain ⟨used, w, u1, u2, u3⟩ := hi
  obtain ⟨top, τ, l, hl⟩ := vstack_cons u3
  have hcur : top = st := by
    have := orUb_ok hst
    rw [hl] at this
    simpa using this
  subst hcur
  rw [hl] at u3
  obtain ⟨items, s1, τ1, l1, w1, w2, p1, p2, p3, p4, p5⟩ := vstack_pop ha r.items.length (Nat.le_refl _) top τ l w [] u3 hc
  rw [List.take_length] at p4
  have hgen : r.items ∈ closRules g r.nonterminal ∧ ∃ j, Clos0 g (kern m s1) j ∧ j.rule.items[j.dot]? = some r.nonterminal := by
    rcases clos0_dot p5 with hk | ⟨-, hr, hj⟩
    · obtain ⟨he, -⟩ := vstack_base ha p2 hk rfl
      exact absurd (congrArg (fun i : LItem => i.rule.nonterminal) he) h1
    · exact ⟨hr, hj⟩
  obtain ⟨hr, j, hj, hx⟩ := hgen
  obtain ⟨s2, hs2⟩ := ha.step s1 (vstack_range ha p2) j _ hj hx h1
  have hterm : isTerminal r.nonterminal = false := by
    cases hn : r.nonterminal with
    | terminal n => rw [hn] at hr; cases hr
    | _ => rfl
  have hgo := ht.goto s1 _ s2 hs2 hterm h2
  have hred : (standard t).reduce ⟨num.ident r.nonterminal, num.ruleId r, r.items.length⟩ s =
      .ok { s with stack := (s2, .node (num.ident r.nonterminal) (num.ruleId r) items) :: (s1, τ1) :: l1 } := by
    simp only [standard]
    rw [hl, p1]
    simp only [bind, Except.bind, List.nil_append, List.head?_cons, orUb, hgo]
    rfl
  rw [hred] at h
  cases h
  refine ⟨⟨used, w, u1, u2, ?_⟩, rfl⟩
  rw [p3]
  have hnode := Forest.node (num := num) hr p4 Forest.nil
  rw [List.reverse_reverse, List.append_nil] at hnode
  exact .push p2 hs2 hnode

theorem entry_next {e : TableAction} {a : LrAction} (h : entryMeaning t e = meaning num a) (ha : isReduce a.type = false) :
    e.type = a.type ∧ e.nextState = a.next.toNat := by
  have h1 : e.type = a.type := congrArg Prod.fst h
  refine ⟨h1, ?_⟩
  have h2 := congrArg Prod.snd h
  simp only [entryMeaning, meaning, h1, ha, Bool.false_eq_true, if_false] at h2
  exact Sum.inr.inj h2

theorem entry_rule {e : TableAction} {a : LrAction} (h : entryMeaning t e = meaning num a) (ha : isReduce a.type = true) :
    e.type = a.type ∧ rule t e.nextState = some ⟨num.ident a.rule.nonterminal, num.ruleId a.rule, a.rule.items.length⟩ := by
  have h1 : e.type = a.type := congrArg Prod.fst h
  refine ⟨h1, ?_⟩
  have h2 := congrArg Prod.snd h
  simp only [entryMeaning, meaning, h1, ha, if_true] at h2
  exact Sum.inl.inj h2

/-- Reductions, performed. -/
theorem perform_reduce (ha : Auto g m k0 start) (ht : Tab g num m occ ig strong t) {input : List Tok} {s : PState} (hi : Inv g num m k0 ig strong input s) {st : Nat}
    (hst : (standard t).current s = .ok st) {ty : ActType} (hty : ty = .reduce ∨ ty = .weakreduce) {a : Item} {k : Int} {r : Rule} {e : TableAction}
    (he : entryMeaning t e = meaning num ⟨ty, a, k, r⟩) (hc : Clos0 g (kern m st) ⟨r, r.items.length⟩) (h1 : r.nonterminal ≠ .empty)
    (h2 : ∀ p l, r.nonterminal ≠ .guard p l) {la : Option Tok} {res : Bool × PState} (h : perform (standard t) t la e s = .ok res) :
    res.1 = false ∧ Inv g num m k0 ig strong input res.2 ∧ res.2.input = s.input := by
  have hty' : e.type = .reduce ∨ e.type = .weakreduce := by
    rw [show e.type = ty from congrArg Prod.fst he]; exact hty
  obtain ⟨-, hrule⟩ := entry_rule he (by rcases hty with h | h <;> rw [h] <;> rfl)
  have hp : perform (standard t) t la e s = (do let r ← orUb (rule t e.nextState); return (false, ← (standard t).reduce r s)) := by
    unfold perform
    rcases hty' with h | h <;> rw [h]
  rw [hp, hrule] at h
  obtain ⟨r', hr', h⟩ := bind_ok h
  cases hr'
  obtain ⟨s', hs', h⟩ := bind_ok h
  cases h
  obtain ⟨i1, i2⟩ := reduce_inv ha ht hi hst hc h1 h2 hs'
  exact ⟨rfl, i1, i2⟩

/-! Guards -/

/-- The symbol of a guard that has been found. -/
def GuardSym (num : Numbering) (occ : Item → Prop) (sym : Int) : Prop := sym = num.ident .empty ∨ ∃ p l, occ (.guard p l) ∧ sym = num.ident (.guard p l)

theorem guardChoice_mem {σ : Type} {d : Delegate σ} {fuel : Nat} {sym : Int} {s : σ} : ∀ {l : List TableAction} {a : TableAction},
    guardChoice d t fuel sym s l = .ok (some a) → a ∈ l
  | [], a, h => by cases h
  | b :: l, a, h => by
    unfold guardChoice at h
    by_cases hw : b.type = .weakreduce
    · rw [if_pos hw] at h
      obtain ⟨q, -, h⟩ := bind_ok h
      cases q with
      | true => cases h; exact List.mem_cons_self ..
      | false => exact List.mem_cons_of_mem _ (guardChoice_mem h)
    · rw [if_neg hw] at h
      by_cases hg : b.type = .guard
      · rw [if_pos hg] at h; exact List.mem_cons_of_mem _ (guardChoice_mem h)
      · rw [if_neg hg] at h; cases h; exact List.mem_cons_self ..

theorem guardPerform_inv (ha : Auto g m k0 start) (ht : Tab g num m occ ig strong t) {input : List Tok} {sym : Int} (hsym : GuardSym num occ sym) {la : Option Tok} :
    ∀ (fuel : Nat) (s s' : PState), Inv g num m k0 ig strong input s → guardPerform (standard t) t la sym fuel s = .ok s' →
      Inv g num m k0 ig strong input s' := by
  intro fuel
  induction fuel with
  | zero => intro s s' _ h; cases h
  | succ fuel ih =>
    intro s s' hi h
    unfold guardPerform at h
    obtain ⟨st, hst, h⟩ := bind_ok h
    obtain ⟨acts, hacts, h⟩ := bind_ok h
    obtain ⟨ch, hch, h⟩ := bind_ok h
    cases ch with
    | none => cases h; exact hi
    | some e =>
      obtain ⟨res, hres, h⟩ := bind_ok h
      obtain ⟨a, hall, hnum, hnt, hid, hmean⟩ := ht.nonterm st sym acts hacts e (guardChoice_mem hch)
      have hitem : a.item = .empty ∨ ∃ p l, a.item = .guard p l := by
        rcases hsym with h | ⟨p, l, ho, h⟩
        · exact Or.inl (ht.inj _ _ (hnum.1 hnt) ht.occEmpty (by rw [hid, h]))
        · exact Or.inr ⟨p, l, ht.inj _ _ (hnum.1 hnt) ho (by rw [hid, h])⟩
      cases hall with
      | shift => cases hnt
      | strong => cases hnt
      | ignore => cases hnt
      | guard => cases hnt
      | goto h1 h2 h3 h4 h5 =>
        rcases hitem with h | ⟨p, l, h⟩
        · exact absurd h h5
        · exact absurd h (h3 p l)
      | accept => rcases hitem with h | ⟨p, l, h⟩ <;> cases h
      | done => rcases hitem with h | ⟨p, l, h⟩ <;> cases h
      | reduce hty hc h1 h2 hna =>
        obtain ⟨r1, r2, -⟩ := perform_reduce ha ht hi hst hty hmean hc h1 h2 hres
        rw [r1] at h
        exact ih _ _ r2 h
      | @guarded p l k r htr =>
        obtain ⟨e1, e2⟩ := entry_next hmean rfl
        dsimp only at e1 e2
        unfold perform at hres
        rw [e1] at hres
        cases hres
        cases h
        obtain ⟨used, w, u1, u2, u3⟩ := hi
        obtain ⟨top, τ, l', hl⟩ := vstack_cons u3
        have hcur : top = st := by
          have := orUb_ok hst
          rw [hl] at this
          simpa using this
        subst hcur
        refine ⟨used, w, u1, u2, ?_⟩
        show VStack g num m k0 ((e.nextState, .leaf la) :: s.stack) w
        rw [hl] at u3 ⊢
        have hpush := VStack.push u3 htr (Forest.guard (num := num) (la := la) Forest.nil)
        rw [List.append_nil] at hpush
        rw [e2]
        exact hpush

theorem processGuard_inv (ha : Auto g m k0 start) (ht : Tab g num m occ ig strong t) {input : List Tok} {sym : Int} (hsym : GuardSym num occ sym) {la : Option Tok}
    {fuel : Nat} {s s' : PState} (hi : Inv g num m k0 ig strong input s) (h : processGuard (standard t) t fuel la sym s = .ok (some s')) :
    Inv g num m k0 ig strong input s' := by
  unfold processGuard at h
  obtain ⟨st, -, h⟩ := bind_ok h
  obtain ⟨acts, -, h⟩ := bind_ok h
  obtain ⟨q, -, h⟩ := bind_ok h
  cases q with
  | false => cases h
  | true =>
    obtain ⟨s1, h1, h⟩ := bind_ok h
    cases h
    exact guardPerform_inv ha ht hsym _ _ _ hi h1

theorem tryActions_accepted {fuel : Nat} {under : List Nat} {la : Option Tok} {nested : Nat → Nat → M Int} {stack : List Nat} {offset : Nat} {gs : Int} :
    ∀ {l : List TableAction}, tryActions t fuel under la nested stack offset l = .ok (.accepted gs) →
      ∃ e ∈ l, e.type = .accept ∧ ∃ r, rule t e.nextState = some r ∧ gs = r.identifier
  | [], h => by cases h
  | e :: l, h => by
    unfold tryActions at h
    obtain ⟨q, -, h⟩ := bind_ok h
    have next : tryActions t fuel under la nested stack offset l = .ok (.accepted gs) →
        ∃ e' ∈ e :: l, e'.type = .accept ∧ ∃ r, rule t e'.nextState = some r ∧ gs = r.identifier := fun h => by
      obtain ⟨e', h1, h2⟩ := tryActions_accepted h
      exact ⟨e', List.mem_cons_of_mem _ h1, h2⟩
    cases q with
    | true => exact next h
    | false =>
      rw [if_neg (by simp)] at h
      by_cases h1 : e.type = .accept
      · rw [if_pos h1] at h
        obtain ⟨r, hr, h⟩ := bind_ok h
        cases h
        exact ⟨e, List.mem_cons_self .., h1, r, orUb_ok hr, rfl⟩
      · rw [if_neg h1] at h
        by_cases h2 : e.type = .guard
        · rw [if_pos h2] at h
          obtain ⟨gg, -, h⟩ := bind_ok h
          by_cases h3 : gg < 0
          · rw [if_pos h3] at h; exact next h
          · rw [if_neg h3] at h
            obtain ⟨o, -, h⟩ := bind_ok h
            cases o with
            | none => exact next h
            | some s => cases h
        · rw [if_neg h2] at h
          obtain ⟨r, -, h⟩ := bind_ok h
          cases h

/-- What `check_guard` finds is the symbol of a guard. -/
theorem checkLoop_sym (ht : Tab g num m occ ig strong t) {under : List Nat} {input : List Tok} : ∀ (fuel : Nat) (stack : List Nat) (offset : Nat) (gs : Int),
    checkLoop t under input fuel stack offset = .ok gs → gs < 0 ∨ GuardSym num occ gs := by
  intro fuel
  induction fuel with
  | zero => intro stack offset gs h; cases h
  | succ fuel ih =>
    intro stack offset gs h
    unfold checkLoop at h
    obtain ⟨state, -, h⟩ := bind_ok h
    obtain ⟨eog, -, h⟩ := bind_ok h
    obtain ⟨acts, hacts, h⟩ := bind_ok h
    obtain ⟨tried, htried, h⟩ := bind_ok h
    cases tried with
    | failed => cases h; exact Or.inl (by decide)
    | performed s o => exact ih _ _ _ h
    | accepted gs' =>
      cases h
      right
      obtain ⟨e, he, hty, r, hr, rfl⟩ := tryActions_accepted htried
      have hall : ∃ s a, Allowed g m ig strong s a ∧ Numbered occ a ∧ entryMeaning t e = meaning num a := by
        unfold guardActs at hacts
        split at hacts
        · obtain ⟨a, h1, h0, -, -, h2⟩ := ht.nonterm _ _ _ hacts e he
          exact ⟨_, a, h1, h0, h2⟩
        · split at hacts
          · obtain ⟨a, h1, h0, -, h2⟩ := ht.term _ _ _ hacts e he
            exact ⟨_, a, h1, h0, h2⟩
          · obtain ⟨a, h1, h0, -, -, h2⟩ := ht.nonterm _ _ _ hacts e he
            exact ⟨_, a, h1, h0, h2⟩
      obtain ⟨s, a, h1, h0, h2⟩ := hall
      have hat : a.type = .accept := by rw [← hty]; exact (congrArg Prod.fst h2).symm
      obtain ⟨-, h3⟩ := entry_rule h2 (by rw [hat]; rfl)
      rw [hr] at h3
      cases h3
      cases h1 with
      | accept _ h1 => left; dsimp only; rw [h1]
      | @done k r p l h1 => right; exact ⟨p, l, by have := h0.2 hat; rwa [h1] at this, by dsimp only; rw [h1]⟩
      | reduce hty' => rcases hty' with h | h <;> rw [h] at hat <;> cases hat
      | _ => cases hat

/-! The parser -/

/-- The input has been accepted. -/
def Accepted (g : Gram) (num : Numbering) (ig : Int → Prop) (strong : Int → Int → Prop) (k0 : Nat) (start : Item) (input : List Tok) (s : PState) : Prop :=
  ∃ st τ w, s.stack = [(st, τ), (k0, .nothing)] ∧ s.input = [] ∧ Read ig strong input w ∧ Forest g num [start] [τ] w

/-- What a step of the parser leads to. -/
def Good (g : Gram) (num : Numbering) (m : Mach) (ig : Int → Prop) (strong : Int → Int → Prop) (k0 : Nat) (start : Item) (input : List Tok)
    (r : Result × PState) : Prop :=
  match r.1 with
  | .more => Inv g num m k0 ig strong input r.2
  | .reject => True
  | .accept => Accepted g num ig strong k0 start input r.2

theorem accept_inv (ha : Auto g m k0 start) {input : List Tok} {s : PState} (hin : s.input = []) (hi : Inv g num m k0 ig strong input s) {st : Nat}
    (hst : (standard t).current s = .ok st) {r : Rule} (hc : Clos0 g (kern m st) ⟨r, r.items.length⟩) (h1 : r.nonterminal = .empty) :
    Accepted g num ig strong k0 start input s := by
  obtain ⟨used, w, u1, u2, u3⟩ := hi
  rw [hin, List.append_nil] at u1
  subst u1
  obtain ⟨top, τ, l, hl⟩ := vstack_cons u3
  have hcur : top = st := by
    have := orUb_ok hst
    rw [hl] at this
    simpa using this
  subst hcur
  rw [hl] at u3
  obtain ⟨items, s1, τ1, l1, w1, w2, -, p2, -, -, p5⟩ := vstack_pop ha r.items.length (Nat.le_refl _) top τ l w [] u3 hc
  have hr : (⟨r, 0⟩ : LItem) = startItem start := by
    rcases clos0_dot p5 with hk | ⟨-, hr, -⟩
    · exact (vstack_base ha p2 hk rfl).1
    · dsimp only at hr
      rw [h1] at hr
      cases hr
  have hr' : r = ⟨.empty, [start]⟩ := congrArg LItem.rule hr
  subst hr'
  rcases clos0_dot hc with hk | ⟨hz, -⟩
  · cases u3 with
    | base =>
      rw [ha.init] at hk
      have := congrArg LItem.dot (List.mem_singleton.1 hk)
      cases this
    | @push s2 _ τ2 _ x st2 w2 w2' hv ht hf =>
      obtain ⟨⟨r', d'⟩, hc1, hx, he⟩ := ha.goto _ _ _ ht _ hk
      have e1 : _ = r' := congrArg LItem.rule he
      have e2 : 1 = d' + 1 := congrArg LItem.dot he
      have e3 : d' = 0 := by omega
      subst e1 e3
      have e4 : start = x := by simpa using hx
      subst e4
      rcases clos0_dot hc1 with hk1 | ⟨-, hr, -⟩
      · obtain ⟨-, rfl, rfl, rfl, rfl⟩ := vstack_base ha hv hk1 rfl
        exact ⟨top, τ, [] ++ w2', hl, hin, u2, by simpa using hf⟩
      · cases hr
  · cases hz

theorem processActions_inv (ha : Auto g m k0 start) (ht : Tab g num m occ ig strong t) {input : List Tok} {fuel : Nat} {s : PState} (hi : Inv g num m k0 ig strong input s)
    {st : Nat} (hst : (standard t).current s = .ok st) {la : Option Tok} (hla : la = s.input.head?) {sym : Int} {term : Bool} {r : Result × PState} :
    ∀ (l : List TableAction), (∀ e ∈ l, ∃ a, Allowed g m ig strong st a ∧ (match la with | some k => a.item = .terminal k.sym | none => a.item = .eoi) ∧
      entryMeaning t e = meaning num a) → processActions t fuel la sym term s l = .ok r → Good g num m ig strong k0 start input r := by
  intro l
  induction l with
  | nil =>
    intro _ h
    cases h
    trivial
  | cons e l ih =>
    intro hall h
    have ih' := ih (fun e' he' => hall e' (List.mem_cons_of_mem _ he'))
    obtain ⟨a, hal, hitem, hmean⟩ := hall e (List.mem_cons_self ..)
    have hty : e.type = a.type := congrArg Prod.fst hmean
    unfold processActions at h
    -- the next symbol has been read
    have hread : ∀ {s' : PState} {res : Result × PState} {k : Tok} {w' : List Tok}, la = some k → s'.input = s.input →
        (∀ used w, Read ig strong used w → VStack g num m k0 s.stack w → ∃ w', Read ig strong (used ++ [k]) w' ∧ VStack g num m k0 s'.stack w') →
        next s' = .ok res.2 → Inv g num m k0 ig strong input res.2 := by
      intro s' res k w' hk hs' hstep hnext
      obtain ⟨used, w, u1, u2, u3⟩ := hi
      obtain ⟨w', h1, h2⟩ := hstep used w u2 u3
      rw [hk] at hla
      cases hin : s.input with
      | nil => rw [hin] at hla; cases hla
      | cons k' rest =>
        rw [hin] at hla
        cases hla
        unfold next at hnext
        rw [hs', hin] at hnext
        have hr := Except.ok.inj hnext
        rw [← hr]
        exact ⟨used ++ [k], w', by rw [← u1, hin]; simp, h1, h2⟩
    have htop : ∀ {w : List Tok}, VStack g num m k0 s.stack w → ∃ τ l, s.stack = (st, τ) :: l := by
      intro w hv
      obtain ⟨top, τ, l', hl⟩ := vstack_cons hv
      have := orUb_ok hst
      rw [hl] at this
      exact ⟨τ, l', by rw [hl]; simp at this; rw [this]⟩
    cases hal with
    | @shift n k rr htr =>
      obtain ⟨e1, e2⟩ := entry_next hmean rfl
      dsimp only at e1 e2
      rw [if_neg (by rw [e1]; simp), if_neg (by rw [e1]; simp), if_neg (by rw [e1]; simp)] at h
      obtain ⟨res, hres, h⟩ := bind_ok h
      unfold perform at hres
      rw [e1] at hres
      cases hres
      obtain ⟨s2, hs2, h⟩ := bind_ok h
      cases h
      cases la with
      | none => cases hitem
      | some tok =>
        have hn : n = tok.sym := by simpa using hitem
        subst hn
        refine hread (s' := (standard t).shift (some tok) e.nextState s) (res := (.more, s2)) (w' := []) rfl rfl ?_ hs2
        intro used w u2 u3
        obtain ⟨τ, l', hl⟩ := htop u3
        refine ⟨w ++ [tok], u2.append (.keep .nil), ?_⟩
        show VStack g num m k0 ((e.nextState, .leaf (some tok)) :: s.stack) _
        rw [hl] at u3 ⊢
        rw [e2]
        exact .push u3 htr (.token .nil)
    | @strong n n' k rr hn htr =>
      obtain ⟨e1, e2⟩ := entry_next hmean rfl
      dsimp only at e1 e2
      rw [if_neg (by rw [e1]; simp), if_neg (by rw [e1]; simp), if_neg (by rw [e1]; simp)] at h
      obtain ⟨res, hres, h⟩ := bind_ok h
      unfold perform at hres
      rw [e1] at hres
      cases la with
      | none => cases hitem
      | some tok =>
        have hns : n = tok.sym := by simpa using hitem
        subst hns
        obtain ⟨tok', htok, hres⟩ := bind_ok hres
        cases htok
        obtain ⟨sn, hsn, hres⟩ := bind_ok hres
        have hsn' := orUb_ok hsn
        rw [ht.weak _ _ hn] at hsn'
        cases hsn'
        cases hres
        obtain ⟨s2, hs2, h⟩ := bind_ok h
        cases h
        refine hread (s' := (standard t).shift (some { tok with sym := n' }) e.nextState s) (res := (.more, s2)) (w' := []) rfl rfl ?_ hs2
        intro used w u2 u3
        obtain ⟨τ, l', hl⟩ := htop u3
        refine ⟨w ++ [{ tok with sym := n' }], u2.append (.strong hn .nil), ?_⟩
        show VStack g num m k0 ((e.nextState, .leaf (some { tok with sym := n' })) :: s.stack) _
        rw [hl] at u3 ⊢
        rw [e2]
        exact .push u3 htr (Forest.token (k := { tok with sym := n' }) .nil)
    | @ignore n k rr hn =>
      obtain ⟨e1, e2⟩ := entry_next hmean rfl
      dsimp only at e1 e2
      rw [if_neg (by rw [e1]; simp), if_neg (by rw [e1]; simp), if_neg (by rw [e1]; simp)] at h
      obtain ⟨res, hres, h⟩ := bind_ok h
      unfold perform at hres
      rw [e1] at hres
      cases hres
      obtain ⟨s2, hs2, h⟩ := bind_ok h
      cases h
      cases la with
      | none => cases hitem
      | some tok =>
        have hns : n = tok.sym := by simpa using hitem
        subst hns
        refine hread (s' := s) (res := (.more, s2)) (w' := []) rfl rfl ?_ hs2
        intro used w u2 u3
        exact ⟨w, by simpa using u2.append (Read.skip hn .nil), u3⟩
    | guarded htr => cases la <;> cases hitem
    | goto htr h1 h2 h3 h4 =>
      cases la with
      | none => exact absurd hitem h3
      | some tok =>
        dsimp only at hitem
        rw [hitem] at h1
        cases h1
    | reduce hty' hc h1 h2 hna =>
      have key : ∀ res, perform (standard t) t la e s = .ok res → res.1 = false ∧ Inv g num m k0 ig strong input res.2 ∧ res.2.input = s.input :=
        fun res hres => perform_reduce ha ht hi hst hty' hmean hc h1 h2 hres
      dsimp only at hty
      rcases hty' with hw | hw
      · rw [hw] at hty
        rw [if_neg (by rw [hty]; simp), if_neg (by rw [hty]; simp), if_neg (by rw [hty]; simp)] at h
        obtain ⟨res, hres, h⟩ := bind_ok h
        obtain ⟨r1, r2, -⟩ := key res hres
        rw [r1] at h
        cases h
        exact r2
      · rw [hw] at hty
        rw [if_pos hty] at h
        obtain ⟨q, -, h⟩ := bind_ok h
        cases q with
        | true =>
          obtain ⟨res, hres, h⟩ := bind_ok h
          obtain ⟨r1, r2, -⟩ := key res hres
          cases h
          exact r2
        | false => exact ih' h
    | accept hc h1 =>
      dsimp only at hty
      rw [if_neg (by rw [hty]; simp), if_neg (by rw [hty]; simp), if_pos hty] at h
      cases h
      cases la with
      | some tok => cases hitem
      | none =>
        have hin : s.input = [] := by
          cases hin : s.input with
          | nil => rfl
          | cons k rest => rw [hin] at hla; cases hla
        exact accept_inv (t := t) ha hin hi hst hc h1
    | done => cases la <;> cases hitem
    | guard =>
      dsimp only at hty
      rw [if_neg (by rw [hty]; simp), if_pos hty] at h
      obtain ⟨gs, hgs, h⟩ := bind_ok h
      by_cases hneg : gs < 0
      · rw [if_pos hneg] at h
        exact ih' h
      · rw [if_neg hneg] at h
        obtain ⟨o, ho, h⟩ := bind_ok h
        cases o with
        | none => exact ih' h
        | some s' =>
          cases h
          rcases checkLoop_sym ht _ _ _ _ hgs with hlt | hsym
          · exact absurd hlt hneg
          · exact processGuard_inv ha ht hsym hi ho

theorem process_inv (ha : Auto g m k0 start) (ht : Tab g num m occ ig strong t) {input : List Tok} {fuel : Nat} {s : PState} (hi : Inv g num m k0 ig strong input s)
    {r : Result × PState} (h : process t fuel s = .ok r) : Good g num m ig strong k0 start input r := by
  unfold process at h
  obtain ⟨st, hst, h⟩ := bind_ok h
  cases hin : s.input.head? with
  | some tok =>
    rw [hin] at h
    obtain ⟨l, hl, h⟩ := bind_ok h
    exact processActions_inv ha ht hi hst (la := some tok) hin.symm l (fun e he => (ht.term _ _ _ hl e he).imp fun a h => ⟨h.1, h.2.2⟩) h
  | none =>
    rw [hin] at h
    obtain ⟨l, hl, h⟩ := bind_ok h
    refine processActions_inv ha ht hi hst (la := none) hin.symm l (fun e he => ?_) h
    obtain ⟨a, h1, h0, h2, h3, h4⟩ := ht.nonterm _ _ _ hl e he
    exact ⟨a, h1, ht.inj _ _ (h0.1 h2) ht.occEoi (by rw [h3, ht.eoi]), h4⟩

theorem parse_inv (ha : Auto g m k0 start) (ht : Tab g num m occ ig strong t) {input : List Tok} : ∀ (fuel : Nat) (s s' : PState),
    Inv g num m k0 ig strong input s → parse t fuel s = .ok (true, s') → Accepted g num ig strong k0 start input s' := by
  intro fuel
  induction fuel with
  | zero => intro s s' _ h; cases h
  | succ fuel ih =>
    intro s s' hi h
    unfold parse at h
    obtain ⟨⟨r1, r2⟩, hr, h⟩ := bind_ok h
    have hg := process_inv ha ht hi hr
    cases r1 with
    | more => exact ih _ _ hg h
    | reject => cases h
    | accept => cases h; exact hg

/-- Soundness of the parser on tables for an automaton. -/
theorem parse_sound (ha : Auto g m k0 start) (ht : Tab g num m occ ig strong t) {input : List Tok} {fuel : Nat} {s' : PState}
    (h : parse t fuel (Parser.start k0 input) = .ok (true, s')) : Accepted g num ig strong k0 start input s' :=
  parse_inv ha ht fuel _ _ ⟨[], [], rfl, .nil, .base⟩ h

end
end Sound
end TameParse

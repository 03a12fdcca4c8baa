import Verif.SoundProps

/-!
# C36: parsers accept the sentences of their grammar
-/

namespace TameParse
namespace Sound

open AssocMap Closure Relation Lalr TameParse.Parser ParserTables

/-- The item that stands for what comes next. -/
def lookahead : List Tok → Item
  | [] => .eoi
  | k :: _ => .terminal k.sym

/-- The first action that is found for the lookahead `b`. -/
def FirstEntry (t : Tables) (s : Nat) (b : Item) (e : TableAction) : Prop :=
  (∀ n, b = .terminal n → ∃ l, entriesFor t true s n = .ok (e :: l)) ∧ (b = .eoi → ∃ l, entriesFor t false s t.endOfInput = .ok (e :: l))

/-- The items that occur in a grammar without guards and explicit empty items. -/
structure Plain (g : Gram) (okI : Item → Prop) : Prop where
  prods : ∀ x, okI x → ∀ r ∈ g.prods x, ∀ y ∈ r, okI y
  noGuard : ∀ p l, ¬ okI (.guard p l)
  noEmpty : ¬ okI .empty

/-- Tables in which every action of the automaton comes first for its symbol. -/
structure Det (first : Item → List Item) (g : Gram) (okI : Item → Prop) (num : Numbering) (m : Mach) (n0 : Nat) (t : Tables) : Prop where
  ok : ∀ s e, Lr1c first g m n0 s e → ∀ x ∈ e.1.rule.items, okI x
  step : ∀ s e x, Lr1c first g m n0 s e → e.1.rule.items[e.1.dot]? = some x → ∃ s', tr m s x = some s'
  shift : ∀ s n s', tr m s (.terminal n) = some s' → ∃ e, FirstEntry t s (.terminal n) e ∧ e.type = .shift ∧ e.nextState = s'
  reduce : ∀ s r b, Lr1c first g m n0 s (⟨r, r.items.length⟩, some b) → closRules g r.nonterminal ≠ [] → (∃ n, b = .terminal n) ∨ b = .eoi →
    ∃ e, FirstEntry t s b e ∧ e.type = .reduce ∧
    rule t e.nextState = some ⟨num.ident r.nonterminal, num.ruleId r, r.items.length⟩
  accept : ∀ s r, Lr1c first g m n0 s (⟨r, r.items.length⟩, some .eoi) → r.nonterminal = .empty → ∃ e, FirstEntry t s .eoi e ∧ e.type = .accept
  goto : ∀ s x s', tr m s x = some s' → closRules g x ≠ [] → gotoFor t s (num.ident x) = .ok (some s')

/-- The parser goes on from one state to the other. -/
def Goes (t : Tables) (s s' : PState) : Prop := ∀ fuel, process t fuel s = .ok (.more, s')

section
variable {first : Item → List Item} {g : Gram} {okI : Item → Prop} {num : Numbering} {m : Mach} {n0 : Nat} {t : Tables}

theorem popItems_all : ∀ (q : List (Nat × Tree)) (e : Nat × Tree) (st : List (Nat × Tree)) (acc : List Tree),
    popItems q.length (q ++ e :: st) acc = .ok (acc ++ q.map (·.2), e :: st)
  | [], e, st, acc => by simp [popItems]
  | a :: q, e, st, acc => by
    have h : popStack (a :: q ++ e :: st) = q ++ e :: st := by
      cases q with
      | nil => rfl
      | cons b q => rfl
    rw [List.length_cons, popItems, h, List.cons_append, List.head?_cons]
    simp only [orUb, bind, Except.bind]
    rw [popItems_all q]
    simp

theorem goes_shift (hd : Det first g okI num m n0 t) {s s' : Nat} {τ : Tree} {st : List (Nat × Tree)} {k : Tok} {rest : List Tok}
    (h : tr m s (.terminal k.sym) = some s') : Goes t ⟨(s, τ) :: st, k :: rest⟩ ⟨(s', .leaf (some k)) :: (s, τ) :: st, rest⟩ := by
  intro fuel
  obtain ⟨e, ⟨h1, -⟩, h2, h3⟩ := hd.shift s _ s' h
  obtain ⟨l, h1⟩ := h1 _ rfl
  simp [process, standard, orUb, bind, Except.bind, h1, processActions, h2, perform, next, h3, pure, Except.pure]

theorem goes_reduce (hd : Det first g okI num m n0 t) {s s' : Nat} {τ : Tree} {st q : List (Nat × Tree)} {top : Nat} {τ' : Tree} {l : List (Nat × Tree)} {r : Rule} {rest : List Tok}
    (h : Lr1c first g m n0 top (⟨r, r.items.length⟩, some (lookahead rest))) (hr : r.items ∈ closRules g r.nonterminal) (hl : q.length = r.items.length)
    (hq : q ++ (s, τ) :: st = (top, τ') :: l) (hg : tr m s r.nonterminal = some s') :
    Goes t ⟨q ++ (s, τ) :: st, rest⟩ ⟨(s', .node (num.ident r.nonterminal) (num.ruleId r) (q.map (·.2))) :: (s, τ) :: st, rest⟩ := by
  intro fuel
  obtain ⟨e, ⟨h1, h1'⟩, h2, h3⟩ := hd.reduce top r _ h (List.ne_nil_of_mem hr) (by cases rest <;> simp [lookahead])
  have hgo := hd.goto s _ s' hg (List.ne_nil_of_mem hr)
  have hpop := popItems_all q (s, τ) st []
  rw [hl, List.nil_append] at hpop
  have hcur : (standard t).current ⟨q ++ (s, τ) :: st, rest⟩ = .ok top := by
    rw [hq]
    rfl
  have hred : (standard t).reduce ⟨num.ident r.nonterminal, num.ruleId r, r.items.length⟩ ⟨q ++ (s, τ) :: st, rest⟩ =
      .ok ⟨(s', .node (num.ident r.nonterminal) (num.ruleId r) (q.map (·.2))) :: (s, τ) :: st, rest⟩ := by
    simp [standard, hpop, bind, Except.bind, orUb, hgo, pure, Except.pure]
  unfold process
  rw [hcur]
  cases rest with
  | nil =>
    obtain ⟨l', h1'⟩ := h1' rfl
    simp [bind, Except.bind, h1', processActions, h2, perform, h3, orUb, hred, pure, Except.pure]
  | cons k rest =>
    obtain ⟨l', h1⟩ := h1 k.sym rfl
    simp [bind, Except.bind, h1, processActions, h2, perform, h3, orUb, hred, pure, Except.pure]

theorem lr1c_advance {s s' : Nat} {i : LItem} {o : Option Item} {x : Item} (h : Lr1c first g m n0 s (i, o)) (hx : i.rule.items[i.dot]? = some x)
    (ht : tr m s x = some s') : Lr1c first g m n0 s' (adv i, o) := by
  obtain ⟨e0, h1, h2⟩ := h
  exact ⟨_, .goto h1 h2 hx ht, .refl⟩

/-! Trees -/

theorem flatten_ok (hg : Plain g okI) {x : Item} (hx : okI x) {r : List Item} (hr : r ∈ closRules g x) : ∀ y ∈ r, okI y := by
  have key : ∀ (u v : List Item), g.Derives u v → (∀ y ∈ u, okI y) → ∀ y ∈ v, okI y := by
    intro u v h
    unfold Gram.Derives at h
    induction h with
    | refl => exact fun h => h
    | tail _ hs ih =>
      intro hu y hy
      obtain ⟨a, z, b, q, rfl, h2, rfl⟩ := hs
      have := ih hu
      rcases List.mem_append.1 hy with hy | hy
      · rcases List.mem_append.1 hy with hy | hy
        · exact this y (List.mem_append_left _ hy)
        · exact hg.prods z (this z (List.mem_append_right _ (List.mem_cons_self ..))) q h2 y hy
      · exact this y (List.mem_append_right _ (List.mem_cons_of_mem _ hy))
  exact key _ _ (closRules_derives hr) (by simpa using hx)

/-- Without guards the sentence of a tree consists of its tokens. -/
theorem Forest.plain (hg : Plain g okI) {xs : List Item} {ts : List Tree} {w : List Tok} (h : Forest g num xs ts w) (hx : ∀ x ∈ xs, okI x) :
    g.Derives xs (w.map (fun k => .terminal k.sym)) := by
  induction h with
  | nil => exact .refl
  | @token k xs ts w _ ih =>
    have := derives_context (ih (fun x h => hx x (List.mem_cons_of_mem _ h))) [.terminal k.sym] []
    simpa using this
  | guard _ _ => exact absurd (hx _ (List.mem_cons_self ..)) (hg.noGuard _ _)
  | @node x r us v xs ts w hr _ _ ihc ih =>
    have h1 := derives_context (ReflTransGen.trans (closRules_derives hr) (ihc (flatten_ok hg (hx x (List.mem_cons_self ..)) hr))) [] xs
    have h2 := derives_context (ih (fun x h => hx x (List.mem_cons_of_mem _ h))) (v.map (fun k => .terminal k.sym)) []
    rw [List.map_append]
    refine ReflTransGen.trans (b := v.map (fun k => .terminal k.sym) ++ xs) ?_ ?_
    · simpa [Gram.Derives] using h1
    · simpa [Gram.Derives] using h2

theorem Forest.split {xs ys : List Item} {ts : List Tree} {w : List Tok} (h : Forest g num (xs ++ ys) ts w) :
    ∃ ts1 ts2 w1 w2, ts = ts1 ++ ts2 ∧ w = w1 ++ w2 ∧ Forest g num xs ts1 w1 ∧ Forest g num ys ts2 w2 := by
  generalize hz : xs ++ ys = zs at h
  induction h generalizing xs with
  | nil =>
    obtain ⟨rfl, rfl⟩ := List.append_eq_nil_iff.1 hz
    exact ⟨[], [], [], [], rfl, rfl, .nil, .nil⟩
  | @token k zs ts w h ih =>
    cases xs with
    | nil => rw [List.nil_append] at hz; subst hz; exact ⟨[], _, [], _, rfl, rfl, .nil, .token h⟩
    | cons x xs =>
      rw [List.cons_append] at hz
      obtain ⟨rfl, hz'⟩ := List.cons.inj hz
      obtain ⟨t1, t2, w1, w2, rfl, rfl, a, b⟩ := ih hz'
      exact ⟨_ :: t1, t2, k :: w1, w2, rfl, rfl, .token a, b⟩
  | @guard p l la zs ts w h ih =>
    cases xs with
    | nil => rw [List.nil_append] at hz; subst hz; exact ⟨[], _, [], _, rfl, rfl, .nil, .guard h⟩
    | cons x xs =>
      rw [List.cons_append] at hz
      obtain ⟨rfl, hz'⟩ := List.cons.inj hz
      obtain ⟨t1, t2, w1, w2, rfl, rfl, a, b⟩ := ih hz'
      exact ⟨_ :: t1, t2, w1, w2, rfl, rfl, .guard a, b⟩
  | @node x' r us v zs ts w hr hc h _ ih =>
    cases xs with
    | nil => rw [List.nil_append] at hz; subst hz; exact ⟨[], _, [], _, rfl, rfl, .nil, .node hr hc h⟩
    | cons x xs =>
      rw [List.cons_append] at hz
      obtain ⟨rfl, hz'⟩ := List.cons.inj hz
      obtain ⟨t1, t2, w1, w2, rfl, rfl, a, b⟩ := ih hz'
      exact ⟨_ :: t1, t2, v ++ w1, w2, rfl, by simp, .node hr hc a, b⟩

theorem forest_node {xs : List Item} {us : List Tree} {v : List Tok} (h : Forest g num xs us v) {rs : List (List Item)}
    (hx : xs = [.ebnf .alternative rs]) : ∃ r' ∈ flattenRules rs, ∃ us', Forest g num r' us' v := by
  cases h with
  | nil => cases hx
  | token => cases hx
  | guard => cases hx
  | node hr hc h =>
    obtain ⟨rfl, rfl⟩ := List.cons.inj hx
    generalize hn : ([] : List Item) = e at h
    cases h with
    | nil => rw [List.append_nil]; exact ⟨_, hr, _, hc⟩
    | _ => cases hn

theorem flattenRule_forest {r : List Item} {us : List Tree} {v : List Tok} (h : Forest g num r us v) : ∃ r' ∈ flattenRule r, ∃ us', Forest g num r' us' v := by
  match r, h with
  | [], h => exact ⟨[], by simp [flattenRule], us, h⟩
  | x :: y :: l, h => exact ⟨_, by simp [flattenRule], us, h⟩
  | [x], h =>
    by_cases hx : ∃ rs, x = .ebnf .alternative rs
    · obtain ⟨rs, rfl⟩ := hx
      unfold flattenRule flattenItem
      exact forest_node h rfl
    · refine ⟨[x], ?_, us, h⟩
      unfold flattenRule flattenItem
      split
      · exact absurd ⟨_, rfl⟩ hx
      · exact List.mem_singleton.2 rfl

theorem flattenRules_mem : ∀ {rs : List (List Item)} {r r' : List Item}, r ∈ rs → r' ∈ flattenRule r → r' ∈ flattenRules rs
  | [], _, _, h, _ => by cases h
  | r0 :: rs, r, r', h, h' => by
    unfold flattenRules
    rcases List.mem_cons.1 h with rfl | h
    · exact List.mem_append_left _ h'
    · exact List.mem_append_right _ (flattenRules_mem h h')

/-- A sentence has a tree. -/
theorem forest_of_derives (hg : Plain g okI) {xs v : List Item} (h : g.Derives xs v) (hx : ∀ x ∈ xs, okI x) {w : List Tok}
    (hw : v = w.map (fun k => .terminal k.sym)) : ∃ ts, Forest g num xs ts w := by
  unfold Gram.Derives at h
  induction h using ReflTransGen.head_induction_on with
  | refl =>
    subst hw
    clear hx
    induction w with
    | nil => exact ⟨[], .nil⟩
    | cons k w ih =>
      obtain ⟨ts, h⟩ := ih
      exact ⟨_, .token h⟩
  | head hs _ ih =>
    obtain ⟨a, x, b, r, rfl, h2, rfl⟩ := hs
    have hox : okI x := hx x (List.mem_append_right _ (List.mem_cons_self ..))
    obtain ⟨ts, hf⟩ := ih (fun y hy => by
      rcases List.mem_append.1 hy with hy | hy
      · rcases List.mem_append.1 hy with hy | hy
        · exact hx y (List.mem_append_left _ hy)
        · exact hg.prods x hox r h2 y hy
      · exact hx y (List.mem_append_right _ (List.mem_cons_of_mem _ hy)))
    obtain ⟨t12, t3, w12, w3, rfl, rfl, hf, f3⟩ := hf.split
    obtain ⟨t1, t2, w1, w2, rfl, rfl, f1, f2⟩ := hf.split
    have hnode : ∃ r' ∈ closRules g x, ∃ us, Forest g num r' us w2 := by
      cases x with
      | nonterminal n => exact ⟨r, h2, _, f2⟩
      | ebnf k rs =>
        cases k with
        | alternative =>
          obtain ⟨r', q1, q2⟩ := flattenRule_forest f2
          exact ⟨r', flattenRules_mem h2 q1, q2⟩
        | _ => exact ⟨r, h2, _, f2⟩
      | empty => exact absurd hox hg.noEmpty
      | _ => cases h2
    obtain ⟨r', q1, us, q2⟩ := hnode
    have := f1.append (.node q1 q2 f3)
    rw [← List.append_assoc] at this
    exact ⟨_, this⟩

/-- What comes after a symbol, if there is something that begins with a token, is one of the symbols the code looks for. -/
theorem forest_begins (hg : Plain g okI) {xs : List Item} {ts : List Tree} {w : List Tok} (h : Forest g num xs ts w) (hx : ∀ x ∈ xs, okI x)
    (hf : ∀ x, okI x → g.FirstComplete x (first x)) : (w = [] → Nullable first xs) ∧ ∀ k w', w = k :: w' → Begins first xs (.terminal k.sym) := by
  induction h with
  | nil => exact ⟨fun _ x h => (by cases h), fun k w' h => (by cases h)⟩
  | @token k xs ts w _ ih =>
    refine ⟨fun h => (by cases h), ?_⟩
    intro k' w' h
    cases h
    exact ⟨[], _, xs, rfl, fun x h => (by cases h), (hf _ (hx _ (List.mem_cons_self ..))).1 _ [] rfl .refl, by simp⟩
  | guard _ _ => exact absurd (hx _ (List.mem_cons_self ..)) (hg.noGuard _ _)
  | @node x r us v xs ts w hr hc hfo ihc ih =>
    have hox := hx x (List.mem_cons_self ..)
    have hd : g.Derives [x] (v.map (fun k => .terminal k.sym)) := by
      have := Forest.plain hg (xs := [x]) (Forest.node (num := num) hr hc .nil) (by simpa using hox)
      simpa using this
    obtain ⟨ih1, ih2⟩ := ih (fun x h => hx x (List.mem_cons_of_mem _ h))
    constructor
    · intro h
      obtain ⟨rfl, rfl⟩ := List.append_eq_nil_iff.1 h
      intro y hy
      rcases List.mem_cons.1 hy with rfl | hy
      · exact (hf _ hox).2 hd
      · exact ih1 rfl y hy
    · intro k w' h
      cases v with
      | nil =>
        obtain ⟨u, y, z, e1, e2, e3, e4⟩ := ih2 k w' h
        refine ⟨x :: u, y, z, by rw [e1]; rfl, ?_, e3, e4⟩
        intro y' hy
        rcases List.mem_cons.1 hy with rfl | hy
        · exact (hf _ hox).2 hd
        · exact e2 y' hy
      | cons k' v =>
        rw [List.cons_append] at h
        cases h
        exact ⟨[], x, xs, rfl, fun x h => (by cases h), (hf _ hox).1 _ _ rfl hd, by simp⟩

/-! The parser follows a tree -/

/-- Steps of a parser that follow the automaton: shifts, and reductions of completed items before a token of their lookahead. -/
structure Walk (first : Item → List Item) (g : Gram) (okI : Item → Prop) (num : Numbering) (m : Mach) (n0 : Nat) (R : PState → PState → Prop) : Prop where
  ok : ∀ s e, Lr1c first g m n0 s e → ∀ x ∈ e.1.rule.items, okI x
  step : ∀ s e x, Lr1c first g m n0 s e → e.1.rule.items[e.1.dot]? = some x → ∃ s', tr m s x = some s'
  shift : ∀ {s s' : Nat} {τ : Tree} {st : List (Nat × Tree)} {k : Tok} {rest : List Tok}, tr m s (.terminal k.sym) = some s' →
    R ⟨(s, τ) :: st, k :: rest⟩ ⟨(s', .leaf (some k)) :: (s, τ) :: st, rest⟩
  reduce : ∀ {s s' : Nat} {τ : Tree} {st q : List (Nat × Tree)} {top : Nat} {τ' : Tree} {l : List (Nat × Tree)} {r : Rule} {rest : List Tok},
    Lr1c first g m n0 top (⟨r, r.items.length⟩, some (lookahead rest)) → r.items ∈ closRules g r.nonterminal → q.length = r.items.length →
    q ++ (s, τ) :: st = (top, τ') :: l → tr m s r.nonterminal = some s' →
    R ⟨q ++ (s, τ) :: st, rest⟩ ⟨(s', .node (num.ident r.nonterminal) (num.ruleId r) (q.map (·.2))) :: (s, τ) :: st, rest⟩

theorem Det.walk (hd : Det first g okI num m n0 t) : Walk first g okI num m n0 (Goes t) :=
  ⟨hd.ok, hd.step, goes_shift hd, goes_reduce hd⟩

/-- With an item of the current state and a tree for what is left of it, the parser reads the tokens of the tree and makes the tree. -/
theorem forest_walk {R : PState → PState → Prop} (hd : Walk first g okI num m n0 R) (hg : Plain g okI) (hf : ∀ x, okI x → g.FirstComplete x (first x)) {xs : List Item} {ts : List Tree}
    {w : List Tok} (h : Forest g num xs ts w) : ∀ {i : LItem} {s : Nat} {τ : Tree} {st : List (Nat × Tree)} {rest : List Tok},
    Lr1c first g m n0 s (i, some (lookahead rest)) → i.dot ≤ i.rule.items.length → i.rule.items.drop i.dot = xs →
    ∃ q top τ' l, q ++ (s, τ) :: st = (top, τ') :: l ∧ q.map (·.2) = ts.reverse ∧ q.length = xs.length ∧
      Lr1c first g m n0 top (⟨i.rule, i.rule.items.length⟩, some (lookahead rest)) ∧
      ReflTransGen R ⟨(s, τ) :: st, w ++ rest⟩ ⟨q ++ (s, τ) :: st, rest⟩ := by
  have hnext : ∀ {i : LItem} {x : Item} {xs : List Item}, i.rule.items.drop i.dot = x :: xs →
      i.rule.items[i.dot]? = some x ∧ (adv i).rule.items.drop (adv i).dot = xs ∧ (adv i).dot ≤ (adv i).rule.items.length := by
    intro i x xs h
    have h1 : i.rule.items[i.dot]? = some x := by
      have := congrArg List.head? h
      rwa [List.head?_drop] at this
    refine ⟨h1, ?_, ?_⟩
    · have h2 := congrArg List.tail h
      rw [List.tail_drop] at h2
      exact h2
    · have := (List.getElem?_eq_some_iff.1 h1).1
      exact this
  induction h with
  | nil =>
    intro i s τ st rest hi hle hxs
    have : i.dot = i.rule.items.length := by
      have := List.drop_eq_nil_iff.1 hxs
      omega
    refine ⟨[], s, τ, st, rfl, rfl, rfl, ?_, .refl⟩
    rw [← this]
    exact hi
  | @token k xs ts w _ ih =>
    intro i s τ st rest hi hle hxs
    obtain ⟨h1, h2, h3⟩ := hnext hxs
    obtain ⟨s', hs'⟩ := hd.step _ _ _ hi h1
    obtain ⟨q, top, τ', l, e1, e2, e3, e4, e5⟩ := ih (τ := .leaf (some k)) (st := (s, τ) :: st) (lr1c_advance hi h1 hs') h3 h2
    refine ⟨q ++ [(s', .leaf (some k))], top, τ', l, by simpa using e1, by simp [e2], by simp [e3], e4, ?_⟩
    refine ReflTransGen.head (hd.shift (rest := w ++ rest) hs') ?_
    simpa using e5
  | guard _ _ =>
    intro i s τ st rest hi hle hxs
    obtain ⟨h1, -, -⟩ := hnext hxs
    exact absurd (hd.ok _ _ hi _ (List.mem_of_getElem? h1)) (hg.noGuard _ _)
  | @node x r us v xs ts w hr hc hfo ihc ih =>
    intro i s τ st rest hi hle hxs
    obtain ⟨h1, h2, h3⟩ := hnext hxs
    obtain ⟨s', hs'⟩ := hd.step _ _ _ hi h1
    have hok : ∀ y ∈ xs, okI y := fun y hy => hd.ok _ _ hi y (List.mem_of_mem_drop (hxs ▸ List.mem_cons_of_mem _ hy))
    have hdrop : i.rule.items.drop (i.dot + 1) = xs := h2
    -- the item of the rule is in the state, with the symbol that follows as its lookahead
    have hitem : Lr1c first g m n0 s (⟨⟨x, r⟩, 0⟩, some (lookahead (w ++ rest))) := by
      obtain ⟨b1, b2⟩ := forest_begins hg hfo hok hf
      obtain ⟨e0, c1, c2⟩ := hi
      refine ⟨e0, c1, c2.tail ?_⟩
      cases w with
      | nil => exact .pass h1 hr (hdrop ▸ b1 rfl)
      | cons k w => exact .first h1 hr (hdrop ▸ b2 k w rfl)
    obtain ⟨q, top, τ', l, e1, e2, e3, e4, e5⟩ := ihc (τ := τ) (st := st) hitem (Nat.zero_le _) rfl
    obtain ⟨q', top', τ'', l', f1, f2, f3, f4, f5⟩ := ih (τ := .node (num.ident x) (num.ruleId ⟨x, r⟩) us.reverse) (st := (s, τ) :: st) (lr1c_advance hi h1 hs') h3 h2
    refine ⟨q' ++ [(s', .node (num.ident x) (num.ruleId ⟨x, r⟩) us.reverse)], top', τ'', l', by simpa using f1, by simp [f2], by simp [f3], f4, ?_⟩
    have hred := hd.reduce (r := ⟨x, r⟩) e4 hr e3 e1 hs'
    rw [e2] at hred
    rw [List.append_assoc]
    refine e5.trans (.head hred ?_)
    simpa using f5

theorem parse_goes {s s' : PState} (h : ReflTransGen (Goes t) s s') {r : Bool × PState} {fuel : Nat} (h' : parse t fuel s' = .ok r) : ∃ fuel, parse t fuel s = .ok r := by
  induction h using ReflTransGen.head_induction_on with
  | refl => exact ⟨fuel, h'⟩
  | head hs _ ih =>
    obtain ⟨f, ih⟩ := ih
    refine ⟨f + 1, ?_⟩
    unfold parse
    rw [hs f]
    exact ih

/-- C36, for tables: the parser accepts every input that has a tree, and makes the tree. -/
theorem parse_complete (hd : Det first g okI num m n0 t) (hg : Plain g okI) (hf : ∀ x, okI x → g.FirstComplete x (first x)) {k0 : Nat} {start : Item}
    (hk : k0 < n0) (hS : kern m k0 = [startItem start]) {τ : Tree} {input : List Tok} (h : Forest g num [start] [τ] input) :
    ∃ fuel st, parse t fuel (Parser.start k0 input) = .ok (true, ⟨[(st, τ), (k0, .nothing)], []⟩) := by
  have h0 : Lr1c first g m n0 k0 (startItem start, some (lookahead [])) := ⟨_, .start hk hS (fun a ha => (Option.some.inj ha).symm), .refl⟩
  obtain ⟨q, top, τ', l, e1, e2, e3, e4, e5⟩ := forest_walk hd.walk hg hf h (τ := .nothing) (st := []) h0 (Nat.zero_le _) rfl
  obtain ⟨e, ⟨-, h1⟩, h2⟩ := hd.accept top _ e4 rfl
  obtain ⟨l', h1⟩ := h1 rfl
  rw [List.append_nil] at e5
  match q, e2, e3 with
  | [(s', σ)], e2, _ =>
    have hσ : σ = τ := by simpa using e2
    have hs : s' = top := by cases e1; rfl
    subst hσ hs
    obtain ⟨f, hp⟩ := parse_goes e5 (r := (true, ⟨[(s', σ), (k0, .nothing)], []⟩)) (fuel := 1) (by
      simp [parse, process, standard, orUb, bind, Except.bind, h1, processActions, h2, pure, Except.pure])
    exact ⟨f, s', hp⟩

end
end Sound
end TameParse

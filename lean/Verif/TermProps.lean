import Verif.CompleteProps
import Verif.FirstProps
import Mathlib.Data.Fintype.Sets
import Mathlib.Data.Fintype.EquivFin
import Mathlib.Order.RelClasses
import Mathlib.Data.Fintype.Card
import Mathlib.Order.WellFounded

/-!
# C37: the parser comes to an end
-/

namespace TameParse
namespace Sound

open AssocMap Closure Relation Lalr TameParse.Parser ParserTables

/-- The symbols that the parser looks up: tokens, and the end of the input. -/
def La (a : Item) : Prop := (∃ n, a = .terminal n) ∨ a = .eoi

/-- A reduction with lookahead `a`: what it does to the states on the stack. -/
def Red (t : Tables) (a : Item) (σ σ' : List Nat) : Prop := ∃ top l e r s1 l1 s', σ = top :: l ∧ FirstEntry t top a e ∧ e.type = .reduce ∧
  rule t e.nextState = some r ∧ σ.drop r.length = s1 :: l1 ∧ gotoFor t s1 r.identifier = .ok (some s') ∧ σ' = s' :: s1 :: l1

/-- There are only finitely many reductions. -/
def Stops (t : Tables) (a : Item) (σ : List Nat) : Prop := Acc (fun y x => Red t a x y) σ

/-- Items that derive the empty string. -/
inductive Eps (g : Gram) : List Item → Prop
  | nil : Eps g []
  | node {x : Item} {r xs : List Item} (hr : r ∈ closRules g x) (hc : Eps g r) (h : Eps g xs) : Eps g (x :: xs)

/-- Items that derive something that begins with the token `n`. -/
inductive Beg (g : Gram) (n : Int) : List Item → Prop
  | here {xs : List Item} : Beg g n (.terminal n :: xs)
  | down {x : Item} {r xs : List Item} (hr : r ∈ closRules g x) (hc : Beg g n r) : Beg g n (x :: xs)
  | skip {x : Item} {r xs : List Item} (hr : r ∈ closRules g x) (hc : Eps g r) (h : Beg g n xs) : Beg g n (x :: xs)

/-- The stack after the automaton has read some items. -/
inductive Along (m : Mach) : List Nat → List Item → List Nat → Prop
  | nil {σ : List Nat} : Along m σ [] σ
  | cons {s s' : Nat} {l : List Nat} {x : Item} {xs : List Item} {σ' : List Nat} (ht : tr m s x = some s') (h : Along m (s' :: s :: l) xs σ') :
      Along m (s :: l) (x :: xs) σ'

/-- A stack of states with the items between them. -/
inductive Path (m : Mach) : List Nat → List Item → Prop
  | one {s : Nat} : Path m [s] []
  | push {s s' : Nat} {l : List Nat} {x : Item} {xs : List Item} (h : Path m (s :: l) xs) (ht : tr m s x = some s') : Path m (s' :: s :: l) (x :: xs)

/-- Tables with just the actions of the automaton. -/
structure Exact (first : Item → List Item) (g : Gram) (okI : Item → Prop) (num : Numbering) (m : Mach) (n0 : Nat) (t : Tables) : Prop
    extends Det first g okI num m n0 t where
  back : ∀ s b e, La b → FirstEntry t s b e → e.type = .reduce → ∃ r : Rule, Lr1c first g m n0 s (⟨r, r.items.length⟩, some b) ∧
    r.items ∈ closRules g r.nonterminal ∧ rule t e.nextState = some ⟨num.ident r.nonterminal, num.ruleId r, r.items.length⟩
  clos0 : ∀ s e, Lr1c first g m n0 s e → Clos0 g (kern m s) e.1
  goto0 : ∀ s x s', tr m s x = some s' → ∀ j ∈ kern m s', Goto0 g (kern m s) x j
  kern0 : ∀ s, ∀ i ∈ kern m s, i.dot = 0 → closRules g i.rule.nonterminal = []
  step0 : ∀ s i x, Clos0 g (kern m s) i → i.rule.items[i.dot]? = some x → closRules g x ≠ [] → ∃ s', tr m s x = some s'

section
variable {first : Item → List Item} {g : Gram} {okI : Item → Prop} {num : Numbering} {m : Mach} {n0 : Nat} {t : Tables} {a : Item}

theorem firstEntry_unique (ha : La a) {s : Nat} {e e' : TableAction} (h : FirstEntry t s a e) (h' : FirstEntry t s a e') : e = e' := by
  rcases ha with ⟨n, rfl⟩ | rfl
  · obtain ⟨l, h⟩ := h.1 n rfl
    obtain ⟨l', h'⟩ := h'.1 n rfl
    rw [h] at h'
    cases h'
    rfl
  · obtain ⟨l, h⟩ := h.2 rfl
    obtain ⟨l', h'⟩ := h'.2 rfl
    rw [h] at h'
    cases h'
    rfl

theorem red_fun (ha : La a) {σ σ1 σ2 : List Nat} (h1 : Red t a σ σ1) (h2 : Red t a σ σ2) : σ1 = σ2 := by
  obtain ⟨top, l, e, r, s1, l1, s', rfl, f1, f2, f3, f4, f5, rfl⟩ := h1
  obtain ⟨top', l', e', r', s1', l1', s'', k0, k1, k2, k3, k4, k5, rfl⟩ := h2
  cases k0
  have := firstEntry_unique ha f1 k1
  subst this
  rw [f3] at k3
  cases k3
  rw [f4] at k4
  cases k4
  rw [f5] at k5
  cases k5
  rfl

theorem red_append {σ σ' : List Nat} (h : Red t a σ σ') (k : List Nat) : Red t a (σ ++ k) (σ' ++ k) := by
  obtain ⟨top, l, e, r, s1, l1, s', rfl, f1, f2, f3, f4, f5, rfl⟩ := h
  refine ⟨top, l ++ k, e, r, s1, l1 ++ k, s', rfl, f1, f2, f3, ?_, f5, rfl⟩
  have hlen : r.length ≤ (top :: l).length := by
    by_contra hc
    rw [List.drop_eq_nil_of_le (by omega)] at f4
    cases f4
  rw [List.drop_append_of_le_length hlen, f4]
  rfl

theorem stops_back (ha : La a) {σ σ' : List Nat} (h : ReflTransGen (Red t a) σ σ') (hs : Stops t a σ') : Stops t a σ := by
  induction h using ReflTransGen.head_induction_on with
  | refl => exact hs
  | head h _ ih => exact Acc.intro _ fun y hy => by rw [red_fun ha hy h]; exact ih

theorem stops_prefix {σ k : List Nat} (h : Stops t a (σ ++ k)) : Stops t a σ := by
  generalize he : σ ++ k = κ at h
  unfold Stops at h
  induction h generalizing σ with
  | intro κ _ ih =>
    subst he
    exact Acc.intro _ fun y hy => ih _ (red_append hy k) rfl

theorem stops_irrefl {σ : List Nat} (h : Stops t a σ) : ¬ TransGen (Red t a) σ σ := by
  intro hc
  have h2 : Acc (TransGen (fun y x => Red t a x y)) σ := Acc.transGen h
  refine (h2.recOn (motive := fun x _ => TransGen (Red t a) x x → False) ?_) hc
  intro x _ ih hx
  exact ih x (transGen_swap.1 hx) hx

/-! Items that derive the empty string -/

theorem Eps.append {u v : List Item} (h : Eps g u) (h' : Eps g v) : Eps g (u ++ v) := by
  induction h with
  | nil => exact h'
  | node hr hc _ _ ih => exact .node hr hc ih

theorem Eps.split {u v : List Item} (h : Eps g (u ++ v)) : Eps g u ∧ Eps g v := by
  induction u with
  | nil => exact ⟨.nil, h⟩
  | cons x u ih =>
    cases h with
    | node hr hc h => exact ⟨.node hr hc (ih h).1, (ih h).2⟩

theorem Eps.reverse {u : List Item} (h : Eps g u) : Eps g u.reverse := by
  induction h with
  | nil => exact .nil
  | node hr hc _ _ ih =>
    rw [List.reverse_cons]
    exact ih.append (.node hr hc .nil)

theorem eps_forest {u : List Item} (h : Eps g u) : ∃ ts, Forest g num u ts [] := by
  induction h with
  | nil => exact ⟨[], .nil⟩
  | node hr _ _ ihc ih =>
    obtain ⟨us, hc⟩ := ihc
    obtain ⟨ts, h⟩ := ih
    exact ⟨_, .node hr hc h⟩

theorem forest_eps (hg : Plain g okI) {u : List Item} {ts : List Tree} {w : List Tok} (h : Forest g num u ts w) (hu : ∀ x ∈ u, okI x) (hw : w = []) : Eps g u := by
  induction h with
  | nil => exact .nil
  | token => cases hw
  | guard _ _ => exact absurd (hu _ (List.mem_cons_self ..)) (hg.noGuard _ _)
  | node hr _ _ ihc ih =>
    obtain ⟨h1, h2⟩ := List.append_eq_nil_iff.1 hw
    exact .node hr (ihc (flatten_ok hg (hu _ (List.mem_cons_self ..)) hr) h1) (ih (fun x hx => hu x (List.mem_cons_of_mem _ hx)) h2)

theorem eps_nullable (hg : Plain g okI) (hf : ∀ x, okI x → g.FirstComplete x (first x)) {u : List Item} (h : Eps g u) (hu : ∀ x ∈ u, okI x) : Nullable first u := by
  obtain ⟨ts, h⟩ := eps_forest (num := ⟨fun _ => 0, fun _ => 0, fun _ => ⟨.empty, []⟩⟩) h
  exact (forest_begins hg h hu hf).1 rfl

theorem derives_eps (hg : Plain g okI) {u : List Item} (h : g.Derives u []) (hu : ∀ x ∈ u, okI x) : Eps g u := by
  obtain ⟨ts, h⟩ := forest_of_derives (num := ⟨fun _ => 0, fun _ => 0, fun _ => ⟨.empty, []⟩⟩) hg h hu (w := []) rfl
  exact forest_eps hg h hu rfl

theorem nullable_eps (hg : Plain g okI) (hs : ∀ x, okI x → g.FirstSound x (first x)) {u : List Item} (h : Nullable first u) (hu : ∀ x ∈ u, okI x) : Eps g u := by
  induction u with
  | nil => exact .nil
  | cons x u ih =>
    have h1 : Eps g [x] := derives_eps hg ((hs x (hu x (List.mem_cons_self ..))).2 (h x (List.mem_cons_self ..))) (by simpa using hu x (List.mem_cons_self ..))
    have h2 := ih (fun y hy => h y (List.mem_cons_of_mem _ hy)) (fun y hy => hu y (List.mem_cons_of_mem _ hy))
    exact h1.append h2

/-! Items that derive something that begins with a token -/

theorem Beg.left {n : Int} {u : List Item} (h : Beg g n u) (v : List Item) : Beg g n (u ++ v) := by
  induction h with
  | here => exact .here
  | down hr hc _ => exact .down hr hc
  | skip hr hc _ ih => exact .skip hr hc ih

theorem Beg.right {n : Int} {u v : List Item} (hu : Eps g u) (h : Beg g n v) : Beg g n (u ++ v) := by
  induction hu with
  | nil => exact h
  | node hr hc _ _ ih => exact .skip hr hc ih

theorem Beg.split {n : Int} {u v : List Item} (h : Beg g n (u ++ v)) : Beg g n u ∨ (Eps g u ∧ Beg g n v) := by
  induction u with
  | nil => exact Or.inr ⟨.nil, h⟩
  | cons x u ih =>
    rw [List.cons_append] at h
    generalize hz : x :: (u ++ v) = z at h
    cases h with
    | here => cases hz; exact Or.inl .here
    | down hr hc => cases hz; exact Or.inl (.down hr hc)
    | skip hr hc h =>
      cases hz
      rcases ih h with h | ⟨h1, h2⟩
      · exact Or.inl (.skip hr hc h)
      · exact Or.inr ⟨.node hr hc h1, h2⟩

mutual
theorem flattenItem_beg {n : Int} : ∀ (x : Item), Beg g n [x] → ∃ r ∈ flattenItem x, Beg g n r
  | .ebnf .alternative rs, h => by
    unfold flattenItem
    generalize hz : [Item.ebnf .alternative rs] = z at h
    cases h with
    | here => cases hz
    | down hr hc => cases hz; exact ⟨_, hr, hc⟩
    | skip hr hc h => cases hz; cases h
  | .ebnf .optional rs, h => ⟨_, List.mem_singleton.2 rfl, h⟩
  | .ebnf .repeating rs, h => ⟨_, List.mem_singleton.2 rfl, h⟩
  | .ebnf .repeatZero rs, h => ⟨_, List.mem_singleton.2 rfl, h⟩
  | .empty, h => ⟨_, List.mem_singleton.2 rfl, h⟩
  | .eoi, h => ⟨_, List.mem_singleton.2 rfl, h⟩
  | .eog, h => ⟨_, List.mem_singleton.2 rfl, h⟩
  | .terminal n, h => ⟨_, List.mem_singleton.2 rfl, h⟩
  | .nonterminal n, h => ⟨_, List.mem_singleton.2 rfl, h⟩
  | .guard p l, h => ⟨_, List.mem_singleton.2 rfl, h⟩
end

theorem flattenRule_beg {n : Int} {r : List Item} (h : Beg g n r) : ∃ r' ∈ flattenRule r, Beg g n r' := by
  match r, h with
  | [], h => exact ⟨[], by simp [flattenRule], h⟩
  | x :: y :: l, h => exact ⟨_, by simp [flattenRule], h⟩
  | [x], h => exact flattenItem_beg x h

theorem derives_beg (hg : Plain g okI) {xs v : List Item} (h : g.Derives xs v) (hx : ∀ x ∈ xs, okI x) {n : Int} {rest : List Item}
    (hv : v = .terminal n :: rest) : Beg g n xs := by
  unfold Gram.Derives at h
  induction h using ReflTransGen.head_induction_on with
  | refl => subst hv; exact .here
  | head hs _ ih =>
    obtain ⟨a, x, b, r, rfl, h2, rfl⟩ := hs
    have hox : okI x := hx x (List.mem_append_right _ (List.mem_cons_self ..))
    have hor : ∀ y ∈ r, okI y := hg.prods x hox r h2
    have := ih (fun y hy => by
      rcases List.mem_append.1 hy with hy | hy
      · rcases List.mem_append.1 hy with hy | hy
        · exact hx y (List.mem_append_left _ hy)
        · exact hor y hy
      · exact hx y (List.mem_append_right _ (List.mem_cons_of_mem _ hy)))
    rw [List.append_assoc] at this
    rcases this.split with h1 | ⟨h1, h3⟩
    · exact h1.left _
    · refine Beg.right h1 ?_
      rcases h3.split with h3 | ⟨h3, h4⟩
      · have : ∃ r' ∈ closRules g x, Beg g n r' := by
          cases x with
          | nonterminal n => exact ⟨r, h2, h3⟩
          | ebnf k rs =>
            cases k with
            | alternative =>
              obtain ⟨r', q1, q2⟩ := flattenRule_beg h3
              exact ⟨r', flattenRules_mem h2 q1, q2⟩
            | _ => exact ⟨r, h2, h3⟩
          | empty => exact absurd hox hg.noEmpty
          | _ => cases h2
        obtain ⟨r', q1, q2⟩ := this
        exact .down q1 q2
      · have h5 : Eps g [x] := derives_eps hg (by
          have : g.Derives r [] := by
            obtain ⟨ts, hfo⟩ := eps_forest (num := ⟨fun _ => 0, fun _ => 0, fun _ => ⟨.empty, []⟩⟩) h3
            simpa using hfo.plain hg hor
          exact ReflTransGen.trans (derives_prod h2) this) (by simpa using hox)
        exact Beg.right h5 h4

theorem beg_derives (hg : Plain g okI) {n : Int} {xs : List Item} (h : Beg g n xs) (hx : ∀ x ∈ xs, okI x) : ∃ rest, g.Derives xs (.terminal n :: rest) := by
  induction h with
  | here => exact ⟨_, .refl⟩
  | @down x r xs hr _ ih =>
    obtain ⟨rest, ih⟩ := ih (flatten_ok hg (hx _ (List.mem_cons_self ..)) hr)
    have := derives_context (ReflTransGen.trans (closRules_derives hr) ih) [] xs
    exact ⟨rest ++ xs, by simpa [Gram.Derives] using this⟩
  | @skip x r xs hr hc _ ih =>
    obtain ⟨rest, ih⟩ := ih (fun y hy => hx y (List.mem_cons_of_mem _ hy))
    obtain ⟨ts, hfo⟩ := eps_forest (num := ⟨fun _ => 0, fun _ => 0, fun _ => ⟨.empty, []⟩⟩) (Eps.node hr hc .nil)
    have := derives_context (hfo.plain hg (by simpa using hx x (List.mem_cons_self ..))) [] xs
    exact ⟨rest, ReflTransGen.trans (by simpa [Gram.Derives] using this) ih⟩

theorem beg_begins (hg : Plain g okI) (hf : ∀ x, okI x → g.FirstComplete x (first x)) {n : Int} {xs : List Item} (h : Beg g n xs) (hx : ∀ x ∈ xs, okI x) :
    Begins first xs (.terminal n) := by
  induction h with
  | @here xs => exact ⟨[], _, xs, rfl, fun x h => (by cases h), (hf _ (hx _ (List.mem_cons_self ..))).1 _ [] rfl .refl, by simp⟩
  | @down x r xs hr hc _ =>
    have hox := hx x (List.mem_cons_self ..)
    obtain ⟨rest, hd⟩ := beg_derives hg (Beg.down (xs := []) hr hc) (by simpa using hox)
    exact ⟨[], x, xs, rfl, fun x h => (by cases h), (hf _ hox).1 _ _ rfl hd, by simp⟩
  | @skip x r xs hr hc _ ih =>
    obtain ⟨u, y, z, e1, e2, e3, e4⟩ := ih (fun y hy => hx y (List.mem_cons_of_mem _ hy))
    refine ⟨x :: u, y, z, by rw [e1]; rfl, ?_, e3, e4⟩
    intro y' hy
    rcases List.mem_cons.1 hy with rfl | hy
    · exact eps_nullable hg hf (Eps.node hr hc .nil) (by simpa using hx y' (List.mem_cons_self ..)) y' (List.mem_cons_self ..)
    · exact e2 y' hy

theorem begins_beg (hg : Plain g okI) (hs : ∀ x, okI x → g.FirstSound x (first x)) {n : Int} {xs : List Item} (h : Begins first xs (.terminal n)) (hx : ∀ x ∈ xs, okI x) :
    Beg g n xs := by
  obtain ⟨u, y, z, rfl, h1, h2, -⟩ := h
  have hy : okI y := hx y (by simp)
  refine Beg.right (nullable_eps hg hs h1 fun x hx' => hx x (List.mem_append_left _ hx')) ?_
  obtain ⟨rest, hd⟩ := (hs y hy).1 _ h2 rfl
  exact Beg.left (derives_beg hg hd (by simpa using hy) rfl) z

/-! Runs -/

theorem item_next {i : LItem} {x : Item} {xs : List Item} (h : i.rule.items.drop i.dot = x :: xs) :
    i.rule.items[i.dot]? = some x ∧ (adv i).rule.items.drop (adv i).dot = xs ∧ (adv i).dot ≤ (adv i).rule.items.length := by
  have h1 : i.rule.items[i.dot]? = some x := by
    have := congrArg List.head? h
    rwa [List.head?_drop] at this
  refine ⟨h1, ?_, ?_⟩
  · have h2 := congrArg List.tail h
    rw [List.tail_drop] at h2
    exact h2
  · have := (List.getElem?_eq_some_iff.1 h1).1
    exact this

theorem along_fun {σ σ1 σ2 : List Nat} {xs : List Item} (h1 : Along m σ xs σ1) (h2 : Along m σ xs σ2) : σ1 = σ2 := by
  induction h1 with
  | nil => cases h2; rfl
  | cons ht _ ih =>
    cases h2 with
    | cons ht' h' =>
      rw [ht] at ht'
      cases ht'
      exact ih h'

theorem along_item {o : Option Item} : ∀ {xs : List Item} {i : LItem} {s : Nat} {l σ' : List Nat}, Along m (s :: l) xs σ' → Lr1c first g m n0 s (i, o) →
    i.dot ≤ i.rule.items.length → i.rule.items.drop i.dot = xs →
    ∃ top l', σ' = top :: l' ∧ Lr1c first g m n0 top (⟨i.rule, i.rule.items.length⟩, o) ∧ σ'.drop xs.length = s :: l
  | [], i, s, l, σ', h, hi, hle, hx => by
    cases h
    have : i.dot = i.rule.items.length := by
      have := List.drop_eq_nil_iff.1 hx
      omega
    exact ⟨s, l, rfl, by rw [← this]; exact hi, rfl⟩
  | x :: xs, i, s, l, σ', h, hi, hle, hx => by
    obtain ⟨h1, h2, h3⟩ := item_next hx
    cases h with
    | cons ht h =>
      obtain ⟨top, l', e1, e2, e3⟩ := along_item h (lr1c_advance hi h1 ht) h3 h2
      refine ⟨top, l', e1, e2, ?_⟩
      rw [List.length_cons, ← List.tail_drop, e3]
      rfl

theorem red_step (hd : Det first g okI num m n0 t) (ha : La a) {r : Rule} {top : Nat} {l' : List Nat} {σ l : List Nat} {s s' : Nat}
    (h : Lr1c first g m n0 top (⟨r, r.items.length⟩, some a)) (hr : r.items ∈ closRules g r.nonterminal) (hσ : σ = top :: l')
    (hl : σ.drop r.items.length = s :: l) (hg : tr m s r.nonterminal = some s') : Red t a σ (s' :: s :: l) := by
  obtain ⟨e, h1, h2, h3⟩ := hd.reduce top r _ h (List.ne_nil_of_mem hr) ha
  exact ⟨top, l', e, _, s, l, s', hσ, h1, h2, h3, hl, hd.goto s _ s' hg (List.ne_nil_of_mem hr), rfl⟩

/-- Items that derive the empty string are read by reductions. -/
theorem eps_run (hd : Det first g okI num m n0 t) (hg : Plain g okI) (hf : ∀ x, okI x → g.FirstComplete x (first x)) (ha : La a) {xs : List Item} (h : Eps g xs) :
    ∀ {i : LItem} {s : Nat} {l : List Nat}, Lr1c first g m n0 s (i, some a) → i.dot ≤ i.rule.items.length → i.rule.items.drop i.dot = xs →
    ∃ σ', Along m (s :: l) xs σ' ∧ ReflTransGen (Red t a) (s :: l) σ' := by
  induction h with
  | nil => intro i s l hi hle hx; exact ⟨_, .nil, .refl⟩
  | @node x r xs hr hc h ihc ih =>
    intro i s l hi hle hx
    obtain ⟨h1, h2, h3⟩ := item_next hx
    obtain ⟨s', hs'⟩ := hd.step _ _ _ hi h1
    have hok : ∀ y ∈ xs, okI y := fun y hy => hd.ok _ _ hi y (List.mem_of_mem_drop (hx ▸ List.mem_cons_of_mem _ hy))
    have hdrop : i.rule.items.drop (i.dot + 1) = xs := h2
    have hitem : Lr1c first g m n0 s (⟨⟨x, r⟩, 0⟩, some a) := by
      obtain ⟨e0, c1, c2⟩ := hi
      exact ⟨e0, c1, c2.tail (.pass h1 hr (hdrop ▸ eps_nullable hg hf h hok))⟩
    obtain ⟨σ1, e1, e2⟩ := ihc (l := l) hitem (Nat.zero_le _) rfl
    obtain ⟨top, l', f1, f2, f3⟩ := along_item e1 hitem (Nat.zero_le _) rfl
    obtain ⟨σ2, k1, k2⟩ := ih (l := s :: l) (lr1c_advance hi h1 hs') h3 h2
    exact ⟨σ2, .cons hs' k1, e2.trans (.head (red_step hd ha f2 hr f1 f3 hs') k2)⟩

theorem no_red (ha : La a) {s : Nat} {l σ' : List Nat} {e : TableAction} (h : FirstEntry t s a e) (he : e.type ≠ .reduce) : ¬ Red t a (s :: l) σ' := by
  rintro ⟨top, l', e', r, s1, l1, s', f0, f1, f2, -⟩
  cases f0
  rw [firstEntry_unique ha h f1] at he
  exact he f2

/-- If the lookahead begins what is left of an item then it is shifted after some reductions. -/
theorem begins_run (hd : Det first g okI num m n0 t) (hg : Plain g okI) (hf : ∀ x, okI x → g.FirstComplete x (first x)) {n : Int} {xs : List Item} (h : Beg g n xs) :
    ∀ {i : LItem} {o : Option Item} {s : Nat} {l : List Nat}, Lr1c first g m n0 s (i, o) → i.rule.items.drop i.dot = xs → Stops t (.terminal n) (s :: l) := by
  have ha : La (.terminal n) := Or.inl ⟨n, rfl⟩
  induction h with
  | here =>
    intro i o s l hi hx
    obtain ⟨h1, -, -⟩ := item_next hx
    obtain ⟨s', hs'⟩ := hd.step _ _ _ hi h1
    obtain ⟨e, k1, k2, -⟩ := hd.shift s n s' hs'
    exact Acc.intro _ fun y hy => absurd hy (no_red ha k1 (by rw [k2]; simp))
  | @down x r xs hr hc ih =>
    intro i o s l hi hx
    obtain ⟨h1, -, -⟩ := item_next hx
    have hitem : Lr1c first g m n0 s (⟨⟨x, r⟩, 0⟩, none) := by
      obtain ⟨e0, c1, c2⟩ := hi
      exact ⟨e0, c1, c2.tail (.item h1 hr)⟩
    exact ih hitem rfl
  | @skip x r xs hr hc h ih =>
    intro i o s l hi hx
    obtain ⟨h1, h2, h3⟩ := item_next hx
    obtain ⟨s', hs'⟩ := hd.step _ _ _ hi h1
    have hok : ∀ y ∈ xs, okI y := fun y hy => hd.ok _ _ hi y (List.mem_of_mem_drop (hx ▸ List.mem_cons_of_mem _ hy))
    have hdrop : i.rule.items.drop (i.dot + 1) = xs := h2
    have hitem : Lr1c first g m n0 s (⟨⟨x, r⟩, 0⟩, some (.terminal n)) := by
      obtain ⟨e0, c1, c2⟩ := hi
      exact ⟨e0, c1, c2.tail (.first h1 hr (hdrop ▸ beg_begins hg hf h hok))⟩
    obtain ⟨σ1, e1, e2⟩ := eps_run hd hg hf ha hc (l := l) hitem (Nat.zero_le _) rfl
    obtain ⟨top, l', f1, f2, f3⟩ := along_item e1 hitem (Nat.zero_le _) rfl
    exact stops_back ha (e2.tail (red_step hd ha f2 hr f1 f3 hs')) (ih (lr1c_advance hi h1 hs') h2)

/-! Contexts -/

/-- Under `s` on the stack is something from which the parser comes to an end once it has read what is left of the item. -/
def Context (t : Tables) (m : Mach) (l : List Nat) (s : Nat) (e : Elem) : Prop :=
  ∀ a, e.2 = some a → La a → ∀ σ', Along m (s :: l) (e.1.rule.items.drop e.1.dot) σ' → Stops t a σ'

theorem good_gen (hd : Det first g okI num m n0 t) (hg : Plain g okI) (hf : ∀ x, okI x → g.FirstComplete x (first x))
    (hs : ∀ x, okI x → g.FirstSound x (first x)) (hne : ¬ okI .eoi) {s : Nat} {l : List Nat} {e e' : Elem} (he : Lr1c first g m n0 s e) (hG : Context t m l s e) (h : Gen first g e e') :
    Context t m l s e' := by
  have he' : Lr1c first g m n0 s e' := by
    obtain ⟨e0, c1, c2⟩ := he
    exact ⟨e0, c1, c2.tail h⟩
  cases h with
  | item hx hr => intro a h; cases h
  | @first i o x b r hx hr hb =>
    intro a h ha σ' hal
    cases h
    obtain ⟨top, l', f1, f2, f3⟩ := along_item hal he' (Nat.zero_le _) rfl
    obtain ⟨s', hs'⟩ := hd.step _ _ _ he hx
    refine stops_back ha (.single (red_step hd ha f2 hr f1 f3 hs')) ?_
    rcases ha with ⟨n, rfl⟩ | rfl
    · refine begins_run hd hg hf (begins_beg hg hs hb ?_) (lr1c_advance he hx hs') rfl
      exact fun y hy => hd.ok _ _ he y (List.mem_of_mem_drop hy)
    · obtain ⟨u, y, z, k1, k2, k3, -⟩ := hb
      have hy : okI y := hd.ok _ _ he y (List.mem_of_mem_drop (show y ∈ i.rule.items.drop (i.dot + 1) by rw [k1]; simp))
      obtain ⟨rest, hder⟩ := (hs y hy).1 _ k3 rfl
      -- the end of the input is not in any rule
      have key : ∀ (u v : List Item), g.Derives u v → (∀ z ∈ u, okI z) → ∀ z ∈ v, okI z := by
        intro u v h
        unfold Gram.Derives at h
        induction h with
        | refl => exact fun h => h
        | tail _ hst ih =>
          intro hu z hz
          obtain ⟨a, w, b, q, rfl, h2, rfl⟩ := hst
          have := ih hu
          rcases List.mem_append.1 hz with hz | hz
          · rcases List.mem_append.1 hz with hz | hz
            · exact this z (List.mem_append_left _ hz)
            · exact hg.prods w (this w (List.mem_append_right _ (List.mem_cons_self ..))) q h2 z hz
          · exact this z (List.mem_append_right _ (List.mem_cons_of_mem _ hz))
      exact absurd (key _ _ hder (by simpa using hy) .eoi (List.mem_cons_self ..)) hne
  | @pass i x a r hx hr hn =>
    intro a' h ha σ' hal
    cases h
    obtain ⟨top, l', f1, f2, f3⟩ := along_item hal he' (Nat.zero_le _) rfl
    obtain ⟨s', hs'⟩ := hd.step _ _ _ he hx
    refine stops_back ha (.single (red_step hd ha f2 hr f1 f3 hs')) ?_
    have hlt := (List.getElem?_eq_some_iff.1 hx).1
    have hok : ∀ y ∈ i.rule.items.drop (i.dot + 1), okI y := fun y hy => hd.ok _ _ he y (List.mem_of_mem_drop hy)
    obtain ⟨σ2, k1, k2⟩ := eps_run hd hg hf ha (nullable_eps hg hs hn hok) (l := s :: l) (i := adv i) (lr1c_advance he hx hs') hlt rfl
    refine stops_back ha k2 (hG a rfl ha σ2 ?_)
    rw [List.drop_eq_getElem_cons hlt]
    have hx' : i.rule.items[i.dot] = x := by
      rw [List.getElem?_eq_getElem hlt] at hx
      exact Option.some.inj hx
    rw [hx']
    exact .cons hs' k1

theorem lr1_good (hd : Det first g okI num m n0 t) (hg : Plain g okI) (hf : ∀ x, okI x → g.FirstComplete x (first x))
    (hs : ∀ x, okI x → g.FirstSound x (first x)) (hne : ¬ okI .eoi) {s : Nat} {e : Elem} (he : Lr1 first g m n0 s e) : ∃ l, Context t m l s e := by
  have hmany : ∀ {s l e e'}, Lr1 first g m n0 s e → Context t m l s e → ReflTransGen (Gen first g) e e' → Context t m l s e' := by
    intro s l e e' h1 h2 h3
    induction h3 with
    | refl => exact h2
    | tail h4 h5 ih => exact good_gen hd hg hf hs hne ⟨e, h1, h4⟩ ih h5
  induction he with
  | @start k S o hk hl ho =>
    refine ⟨[], ?_⟩
    intro a h ha σ' hal
    have := ho a h
    subst this
    have hitem : Lr1c first g m n0 k (startItem S, some .eoi) := ⟨_, .start hk hl (fun a ha => (Option.some.inj ha).symm), .refl⟩
    obtain ⟨top, l', f1, f2, f3⟩ := along_item hal hitem (Nat.zero_le _) rfl
    obtain ⟨e, k1, k2⟩ := hd.accept top _ f2 rfl
    rw [f1]
    exact Acc.intro _ fun y hy => absurd hy (no_red ha k1 (by rw [k2]; simp))
  | @guard k p l o hk ho =>
    refine ⟨[], ?_⟩
    intro a h ha σ' hal
    have := ho a h
    subst this
    rcases ha with ⟨n, h⟩ | h <;> cases h
  | @goto s s' x e i o hs1 hc hx ht ih =>
    obtain ⟨l, hl⟩ := ih
    refine ⟨s :: l, ?_⟩
    have := hmany hs1 hl hc
    intro a h ha σ' hal
    refine this a h ha σ' ?_
    have hlt := (List.getElem?_eq_some_iff.1 hx).1
    rw [List.drop_eq_getElem_cons hlt]
    have hx' : i.rule.items[i.dot] = x := by
      rw [List.getElem?_eq_getElem hlt] at hx
      exact Option.some.inj hx
    rw [hx']
    exact .cons ht hal

theorem lr1c_good (hd : Det first g okI num m n0 t) (hg : Plain g okI) (hf : ∀ x, okI x → g.FirstComplete x (first x))
    (hs : ∀ x, okI x → g.FirstSound x (first x)) (hne : ¬ okI .eoi) {s : Nat} {e : Elem} (he : Lr1c first g m n0 s e) : ∃ l, Context t m l s e := by
  obtain ⟨e0, h1, h2⟩ := he
  obtain ⟨l, hl⟩ := lr1_good hd hg hf hs hne h1
  refine ⟨l, ?_⟩
  induction h2 with
  | refl => exact hl
  | tail h4 h5 ih => exact good_gen hd hg hf hs hne ⟨e0, h1, h4⟩ ih h5

/-! Cycles -/

theorem lr1c_back {s d : Nat} {r : Rule} {o : Option Item} (h : Lr1c first g m n0 s (⟨r, d + 1⟩, o)) : ∃ s', Lr1c first g m n0 s' (⟨r, d⟩, o) := by
  obtain ⟨e0, h1, h2⟩ := h
  rcases ReflTransGen.cases_tail h2 with h | ⟨e, -, h⟩
  · subst h
    generalize he : ((⟨r, d + 1⟩, o) : Elem) = e at h1
    cases h1 with
    | start => cases he
    | guard => cases he
    | @goto s0 _ x e0 i o' h3 h4 h5 h6 =>
      obtain ⟨r', d'⟩ := i
      cases he
      exact ⟨s0, e0, h3, h4⟩
  · cases h

theorem lr1c_zero {r : Rule} {o : Option Item} : ∀ {d s : Nat}, Lr1c first g m n0 s (⟨r, d⟩, o) → ∃ s', Lr1c first g m n0 s' (⟨r, 0⟩, o)
  | 0, s, h => ⟨s, h⟩
  | d + 1, s, h => by
    obtain ⟨s', h⟩ := lr1c_back h
    exact lr1c_zero h

theorem lr1c_source {s d : Nat} {r : Rule} {o : Option Item} (h : Lr1c first g m n0 s (⟨r, d⟩, o)) (hr : closRules g r.nonterminal ≠ []) :
    ∃ s' i o', Lr1c first g m n0 s' (i, o') ∧ i.rule.items[i.dot]? = some r.nonterminal := by
  obtain ⟨s', e0, h1, h2⟩ := lr1c_zero h
  rcases ReflTransGen.cases_tail h2 with h | ⟨e, h3, h⟩
  · subst h
    generalize he : ((⟨r, 0⟩, o) : Elem) = e at h1
    cases h1 with
    | start => cases he; exact absurd rfl hr
    | guard => cases he; exact absurd rfl hr
    | goto => cases he
  · cases h with
    | item hx _ => exact ⟨s', _, _, ⟨e0, h1, h3⟩, hx⟩
    | first hx _ _ => exact ⟨s', _, _, ⟨e0, h1, h3⟩, hx⟩
    | pass hx _ _ => exact ⟨s', _, _, ⟨e0, h1, h3⟩, hx⟩

/-- With lookahead `a` an `X` can become an `X'`. -/
def Up (first : Item → List Item) (g : Gram) (m : Mach) (n0 : Nat) (a : Item) (X X' : Item) : Prop :=
  ∃ β s, X :: β ∈ closRules g X' ∧ Eps g β ∧ Lr1c first g m n0 s (⟨⟨X', X :: β⟩, (X :: β).length⟩, some a)

/-- In the state `p` there is an item that waits for an `X` and nothing else before the lookahead. -/
def Wanted (first : Item → List Item) (g : Gram) (m : Mach) (n0 : Nat) (t : Tables) (a : Item) (l : List Nat) (p : Nat) (X : Item) : Prop :=
  ∃ i, Lr1c first g m n0 p (i, some a) ∧ i.rule.items[i.dot]? = some X ∧ Eps g (i.rule.items.drop (i.dot + 1)) ∧ Context t m l p (i, some a)

section
variable (hd : Det first g okI num m n0 t) (hg : Plain g okI) (hf : ∀ x, okI x → g.FirstComplete x (first x)) (hs : ∀ x, okI x → g.FirstSound x (first x))
  (hne : ¬ okI .eoi) (ha : La a)
include hd hg hf ha

theorem wanted_stops {l : List Nat} {p : Nat} {X : Item} (h : Wanted first g m n0 t a l p X) {sx : Nat} (hsx : tr m p X = some sx) : Stops t a (sx :: p :: l) := by
  obtain ⟨i, h1, h2, h3, h4⟩ := h
  have hlt := (List.getElem?_eq_some_iff.1 h2).1
  obtain ⟨σ', k1, k2⟩ := eps_run hd hg hf ha h3 (l := p :: l) (i := adv i) (lr1c_advance h1 h2 hsx) hlt rfl
  refine stops_back ha k2 (h4 a rfl ha σ' ?_)
  rw [List.drop_eq_getElem_cons hlt]
  have hx' : i.rule.items[i.dot] = X := by
    rw [List.getElem?_eq_getElem hlt] at h2
    exact Option.some.inj h2
  rw [hx']
  exact .cons hsx k1

include hs hne

theorem wanted_up {l : List Nat} {p : Nat} {X Y : Item} (h : Wanted first g m n0 t a l p Y) (hu : Up first g m n0 a X Y) :
    Wanted first g m n0 t a l p X ∧ ∃ sx sy, tr m p X = some sx ∧ tr m p Y = some sy ∧ TransGen (Red t a) (sx :: p :: l) (sy :: p :: l) := by
  obtain ⟨i, h1, h2, h3, h4⟩ := h
  obtain ⟨β, -, u1, u2, -⟩ := hu
  have hok : ∀ y ∈ i.rule.items.drop (i.dot + 1), okI y := fun y hy => hd.ok _ _ h1 y (List.mem_of_mem_drop hy)
  have hgen : Gen first g (i, some a) (⟨⟨Y, X :: β⟩, 0⟩, some a) := .pass h2 u1 (eps_nullable hg hf h3 hok)
  have hc : Lr1c first g m n0 p (⟨⟨Y, X :: β⟩, 0⟩, some a) := by
    obtain ⟨e0, c1, c2⟩ := h1
    exact ⟨e0, c1, c2.tail hgen⟩
  refine ⟨⟨_, hc, rfl, u2, good_gen hd hg hf hs hne h1 h4 hgen⟩, ?_⟩
  obtain ⟨sx, hsx⟩ := hd.step p _ X hc rfl
  obtain ⟨sy, hsy⟩ := hd.step _ _ _ h1 h2
  refine ⟨sx, sy, hsx, hsy, ?_⟩
  obtain ⟨σ', k1, k2⟩ := eps_run hd hg hf ha u2 (l := p :: l) (i := adv ⟨⟨Y, X :: β⟩, 0⟩) (lr1c_advance hc rfl hsx) (by simp [adv]) rfl
  obtain ⟨top, l', f1, f2, f3⟩ := along_item (Along.cons hsx k1) hc (Nat.zero_le _) rfl
  exact TransGen.tail' k2 (red_step hd ha f2 u1 f1 f3 hsy)

theorem wanted_chain {l : List Nat} {p : Nat} {X Y : Item} (hu : TransGen (Up first g m n0 a) X Y) : Wanted first g m n0 t a l p Y →
    Wanted first g m n0 t a l p X ∧ ∃ sx sy, tr m p X = some sx ∧ tr m p Y = some sy ∧ TransGen (Red t a) (sx :: p :: l) (sy :: p :: l) := by
  induction hu with
  | single h => exact fun hw => wanted_up hd hg hf hs hne ha hw h
  | tail _ h ih =>
    intro hw
    obtain ⟨w1, sx, sy, q1, q2, q3⟩ := wanted_up hd hg hf hs hne ha hw h
    obtain ⟨w2, sx', sy', r1, r2, r3⟩ := ih w1
    rw [q1] at r2
    cases r2
    exact ⟨w2, sx', sy, r1, q2, r3.trans q3⟩

/-- No symbol becomes itself. -/
theorem no_cycle (X : Item) : ¬ TransGen (Up first g m n0 a) X X := by
  intro h
  obtain ⟨Z, h1, h2⟩ : ∃ Z, ReflTransGen (Up first g m n0 a) X Z ∧ Up first g m n0 a Z X := TransGen.tail'_iff.1 h
  have hz : TransGen (Up first g m n0 a) Z Z := TransGen.head' h2 h1
  obtain ⟨β, s, u1, u2, u3⟩ := h2
  obtain ⟨p, hp⟩ := lr1c_zero u3
  obtain ⟨l, hl⟩ := lr1c_good hd hg hf hs hne hp
  have hw : Wanted first g m n0 t a l p Z := ⟨_, hp, rfl, u2, hl⟩
  obtain ⟨-, sx, sy, q1, q2, q3⟩ := wanted_chain hd hg hf hs hne ha hz hw
  rw [q1] at q2
  cases q2
  exact stops_irrefl (wanted_stops hd hg hf ha hw q1) q3

end

theorem acc_of_finite {R : Item → Item → Prop} {U : List Item} (hU : ∀ x y, R x y → y ∈ U) (hirr : ∀ x, ¬ TransGen R x x) (x : Item) : Acc (fun y x => R x y) x := by
  let r : {y // y ∈ U} → {y // y ∈ U} → Prop := fun b a => TransGen R a.1 b.1
  have : IsTrans _ r := ⟨fun a b c h1 h2 => TransGen.trans h2 h1⟩
  have : Std.Irrefl r := ⟨fun a h => hirr a.1 h⟩
  have : Finite {y // y ∈ U} := @Finite.of_fintype _ (List.Subtype.fintype U)
  have hw : WellFounded r := Finite.wellFounded_of_trans_of_irrefl r
  have key : ∀ z : {y // y ∈ U}, Acc (fun y x => R x y) z.1 := by
    intro z
    induction z using hw.induction with
    | _ z ih => exact Acc.intro _ fun y hy => ih ⟨y, hU _ _ hy⟩ (.single hy)
  exact Acc.intro _ fun y hy => key ⟨y, hU _ _ hy⟩

/-! Paths -/

theorem path_length {σ : List Nat} {xs : List Item} (h : Path m σ xs) : σ.length = xs.length + 1 := by
  induction h with
  | one => rfl
  | push _ _ ih => simp [ih]

theorem path_append {v : List Nat} {q : Nat} {l : List Nat} {xs ys : List Item} (h : Path m (v ++ [q]) xs) (h' : Path m (q :: l) ys) : Path m (v ++ q :: l) (xs ++ ys) := by
  induction v generalizing xs with
  | nil =>
    cases h
    exact h'
  | cons s v ih =>
    cases v with
    | nil =>
      cases h with
      | push h ht =>
        cases h
        exact .push h' ht
    | cons s' v =>
      cases h with
      | push h ht => exact .push (ih h) ht

theorem path_pop (he : Exact first g okI num m n0 t) {r : Rule} : ∀ (d : Nat), d ≤ r.items.length → ∀ {s : Nat} {l : List Nat} {xs : List Item}, Path m (s :: l) xs →
    d ≤ xs.length → Clos0 g (kern m s) ⟨r, d⟩ → xs.take d = (r.items.take d).reverse ∧
    ∃ s1 l1, (s :: l).drop d = s1 :: l1 ∧ Path m (s1 :: l1) (xs.drop d) ∧ Clos0 g (kern m s1) ⟨r, 0⟩
  | 0, _, s, l, xs, hp, _, hc => ⟨by simp, s, l, rfl, hp, hc⟩
  | d + 1, hd, s, l, xs, hp, hle, hc => by
    rcases clos0_dot hc with hk | ⟨hz, -⟩
    · cases hp with
      | one => cases hle
      | @push s0 _ l0 x xs hp ht =>
        obtain ⟨⟨r', d'⟩, hc1, hx, hadv⟩ := he.goto0 _ _ _ ht _ hk
        dsimp only at hx hadv
        have e1 : r = r' := congrArg LItem.rule hadv
        have e2 : d + 1 = d' + 1 := congrArg LItem.dot hadv
        have e3 : d = d' := by omega
        subst e1 e3
        obtain ⟨k1, s1, l1, k2, k3, k4⟩ := path_pop he d (by omega) hp (by simpa using hle) hc1
        refine ⟨?_, s1, l1, k2, k3, k4⟩
        rw [List.take_succ_cons, k1, List.take_add_one, hx]
        simp
    · cases hz

theorem red_path (he : Exact first g okI num m n0 t) (ha : La a) {σ σ' : List Nat} {xs : List Item} (hp : Path m σ xs) (h : Red t a σ σ') :
    ∃ (r : Rule) (top : Nat) (l : List Nat) (s1 : Nat) (l1 : List Nat) (s' : Nat), r.items ∈ closRules g r.nonterminal ∧ σ = top :: l ∧
      Lr1c first g m n0 top (⟨r, r.items.length⟩, some a) ∧ r.items.length ≤ xs.length ∧ σ.drop r.items.length = s1 :: l1 ∧
      xs.take r.items.length = r.items.reverse ∧ Path m (s1 :: l1) (xs.drop r.items.length) ∧ tr m s1 r.nonterminal = some s' ∧ σ' = s' :: s1 :: l1 := by
  obtain ⟨top, l, e, R, s1, l1, s', rfl, f1, f2, f3, f4, f5, rfl⟩ := h
  obtain ⟨r, b1, b2, b3⟩ := he.back top a e ha f1 f2
  rw [f3] at b3
  cases b3
  dsimp only at f4 f5
  have hlen := path_length hp
  have hle : r.items.length ≤ xs.length := by
    by_contra hc
    rw [List.drop_eq_nil_of_le (by omega)] at f4
    cases f4
  obtain ⟨k1, s2, l2, k2, k3, k4⟩ := path_pop he r.items.length (Nat.le_refl _) hp hle (he.clos0 _ _ b1)
  rw [f4] at k2
  cases k2
  rw [List.take_length] at k1
  have hgo : ∃ s2, tr m s1 r.nonterminal = some s2 := by
    rcases clos0_dot k4 with hk | ⟨-, -, j, hj, hx⟩
    · exact absurd (he.kern0 _ _ hk rfl) (List.ne_nil_of_mem b2)
    · exact he.step0 s1 j _ hj hx (List.ne_nil_of_mem b2)
  obtain ⟨s2, hs2⟩ := hgo
  have := he.goto s1 _ s2 hs2 (List.ne_nil_of_mem b2)
  rw [this] at f5
  cases f5
  exact ⟨r, top, l, s1, l1, s', b2, rfl, b1, hle, f4, k1, k3, hs2, rfl⟩

section
variable (he : Exact first g okI num m n0 t) (hg : Plain g okI) (hf : ∀ x, okI x → g.FirstComplete x (first x)) (hs : ∀ x, okI x → g.FirstSound x (first x))
  (hne : ¬ okI .eoi) (ha : La a)
include he hg hf hs hne ha

theorem single_stops (p : Nat) : Stops t a [p] := by
  by_cases h : ∃ y, Red t a [p] y
  · obtain ⟨y, h⟩ := h
    obtain ⟨r, top, l, s1, l1, s', b1, b2, b3, b4, -⟩ := red_path he ha .one h
    cases b2
    obtain ⟨l, hl⟩ := lr1c_good he.toDet hg hf hs hne b3
    refine stops_prefix (k := l) (hl a rfl ha _ ?_)
    rw [List.drop_length]
    exact .nil
  · exact Acc.intro _ fun y hy => absurd ⟨y, hy⟩ h

/-- The reductions come to an end on every stack. -/
theorem path_stops {U : List Item} (hU : ∀ x, okI x → x ∈ U) : ∀ (n : Nat) (σ : List Nat) (xs : List Item), Path m σ xs → σ.length ≤ n → Stops t a σ := by
  intro n
  induction n with
  | zero =>
    intro σ xs hp hle
    have := path_length hp
    omega
  | succ n ihn =>
    intro σ xs hp hle
    cases hp with
    | one => exact single_stops he hg hf hs hne ha _
    | @push p q l X zs hp ht =>
      have hup : ∀ X Y, Up first g m n0 a X Y → Y ∈ U := by
        rintro X Y ⟨β, s, u1, -, u3⟩
        obtain ⟨s', i, o', c1, c2⟩ := lr1c_source u3 (List.ne_nil_of_mem u1)
        exact hU _ (he.ok _ _ c1 _ (List.mem_of_getElem? c2))
      have hacc := acc_of_finite hup (no_cycle he.toDet hg hf hs hne ha) X
      induction hacc generalizing q with
      | intro X _ ihX =>
        have inner : ∀ κ, Stops t a κ → ∀ v xs, κ = v ++ [q] → Path m (v ++ [q]) xs → Eps g xs → Stops t a (v ++ q :: p :: l) := by
          intro κ hκ
          unfold Stops at hκ
          induction hκ with
          | intro κ _ ihκ =>
            rintro v xs rfl hv hE
            refine Acc.intro _ fun y hy => ?_
            have hfull := path_append hv (.push hp ht)
            have hlv : v.length = xs.length := by
              have := path_length hv
              simpa using this
            obtain ⟨r, top, l0, s1, l1, s', b1, b2, b3, b4, b5, b6, b7, b8, rfl⟩ := red_path he ha hfull hy
            rcases Nat.lt_trichotomy r.items.length (xs.length + 1) with hlt | heq | hgt
            · -- above `q`
              have hd1 : (v ++ q :: p :: l).drop r.items.length = v.drop r.items.length ++ [q] ++ p :: l := by
                rw [List.drop_append_of_le_length (by omega)]
                simp
              obtain ⟨s2, l2, hd2⟩ : ∃ s2 l2, v.drop r.items.length ++ [q] = s2 :: l2 := by
                cases v.drop r.items.length with
                | nil => exact ⟨_, _, rfl⟩
                | cons a b => exact ⟨_, _, rfl⟩
              rw [hd1, hd2, List.cons_append] at b5
              obtain ⟨rfl, rfl⟩ := List.cons.inj b5
              have htop : ∃ l3, v ++ [q] = top :: l3 := by
                cases v with
                | nil => cases b2; exact ⟨_, rfl⟩
                | cons a b => cases b2; exact ⟨_, rfl⟩
              obtain ⟨l3, htop⟩ := htop
              have hred : Red t a (v ++ [q]) (s' :: s2 :: l2) := by
                refine red_step he.toDet ha b3 b1 htop ?_ b8
                rw [List.drop_append_of_le_length (by omega), hd2]
              have htake : xs.take r.items.length = r.items.reverse := by
                rw [← b6, List.take_append_of_le_length (by omega)]
              have hEr : Eps g r.items := by
                have := hE
                rw [← List.take_append_drop r.items.length xs] at this
                have h1 := this.split.1
                rw [htake] at h1
                simpa using h1.reverse
              have hEd : Eps g (xs.drop r.items.length) := by
                have := hE
                rw [← List.take_append_drop r.items.length xs] at this
                exact this.split.2
              have hv' : s' :: s2 :: l2 = (s' :: v.drop r.items.length) ++ [q] := by
                rw [List.cons_append, hd2]
              have hpop : Path m (s2 :: l2) (xs.drop r.items.length) := by
                obtain ⟨-, s3, l3', k2, k3, -⟩ := path_pop he r.items.length (Nat.le_refl _) (htop ▸ hv) (by omega) (he.clos0 _ _ b3)
                rw [← htop, List.drop_append_of_le_length (by omega), hd2] at k2
                cases k2
                exact k3
              have := ihκ _ hred (s' :: v.drop r.items.length) (r.nonterminal :: xs.drop r.items.length) hv' (hv' ▸ .push hpop b8) (.node b1 hEr hEd)
              have e : (s' :: v.drop r.items.length) ++ q :: p :: l = s' :: s2 :: (l2 ++ p :: l) := by
                have := congrArg (· ++ p :: l) hv'
                simpa using this.symm
              rw [e] at this
              exact this
            · -- `q` itself
              have hitems : r.items = X :: xs.reverse := by
                rw [heq, show xs ++ X :: zs = (xs ++ [X]) ++ zs by simp, List.take_left' (by simp)] at b6
                have := congrArg List.reverse b6
                simpa using this.symm
              have hb5 : s1 = p ∧ l1 = l := by
                rw [heq, show v ++ q :: p :: l = (v ++ [q]) ++ p :: l by simp, List.drop_left' (by simp [hlv])] at b5
                cases b5
                exact ⟨rfl, rfl⟩
              obtain ⟨rfl, rfl⟩ := hb5
              refine ihX r.nonterminal ⟨xs.reverse, top, hitems ▸ b1, hE.reverse, ?_⟩ b8 (by simpa using hle)
              obtain ⟨N, its⟩ := r
              dsimp only at hitems
              subst hitems
              exact b3
            · -- further down
              refine ihn _ _ (.push b7 b8) ?_
              have h1 : (v ++ q :: p :: l).length - r.items.length = l1.length + 1 := by
                rw [← List.length_drop, b5]
                rfl
              simp only [List.length_append, List.length_cons] at h1 hle ⊢
              omega
        exact inner [q] (single_stops he hg hf hs hne ha q) [] [] rfl .one .nil

end

end
end Sound
end TameParse

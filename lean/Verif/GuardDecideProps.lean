import Verif.GuardExactProps

/-!
# C83: the language of a parser with guards
-/

namespace TameParse
namespace Guards

open AssocMap Closure Relation Lalr TameParse.Parser ParserTables Sound

/-- The symbols and guards that the items are read as. -/
inductive Yields (g : Gram) : List Item → List Item → Prop
  | nil : Yields g [] []
  | token {n : Int} {xs ys : List Item} (h : Yields g xs ys) : Yields g (.terminal n :: xs) (.terminal n :: ys)
  | guard {p : Int} {l xs ys : List Item} (h : Yields g xs ys) : Yields g (.guard p l :: xs) (.guard p l :: ys)
  | node {x : Item} {r us xs ys : List Item} (hr : r ∈ closRules g x) (hc : Yields g r us) (h : Yields g xs ys) : Yields g (x :: xs) (us ++ ys)

section
variable {first : Item → List Item} {g : Gram} {okI : Item → Prop} {t : Tables}

theorem Yields.derives {xs ys : List Item} (h : Yields g xs ys) : g.Derives xs ys := by
  induction h with
  | nil => exact .refl
  | @token n xs ys _ ih => simpa using derives_context ih [.terminal n] []
  | @guard p l xs ys _ ih => simpa using derives_context ih [.guard p l] []
  | @node x r us xs ys hr _ _ ihc ih =>
    have h1 := derives_context (ReflTransGen.trans (closRules_derives hr) ihc) [] xs
    have h2 := derives_context ih us []
    refine ReflTransGen.trans (b := us ++ xs) ?_ ?_
    · simpa [Gram.Derives] using h1
    · simpa [Gram.Derives] using h2

/-- The symbols are there in the input, and the guards hold where they stand. -/
inductive Follows (g : Gram) : List Item → List Tok → List Tok → Prop
  | nil {w : List Tok} : Follows g [] w w
  | token {k : Tok} {ys : List Item} {w v : List Tok} (h : Follows g ys w v) : Follows g (.terminal k.sym :: ys) (k :: w) v
  | guard {p : Int} {l ys : List Item} {w v : List Tok} (hg : Begun g [] l w) (h : Follows g ys w v) : Follows g (.guard p l :: ys) w v

theorem Follows.append {ys zs : List Item} {w m v : List Tok} (h : Follows g ys w m) (h' : Follows g zs m v) : Follows g (ys ++ zs) w v := by
  induction h with
  | nil => exact h'
  | token _ ih => exact .token (ih h')
  | guard hg _ ih => exact .guard hg (ih h')

theorem Follows.split {ys : List Item} {v : List Tok} : ∀ (us : List Item) {w : List Tok}, Follows g (us ++ ys) w v → ∃ m, Follows g us w m ∧ Follows g ys m v
  | [], w, h => ⟨w, .nil, h⟩
  | u :: us, w, h => by
    rw [List.cons_append] at h
    cases h with
    | token h => obtain ⟨m, a, b⟩ := Follows.split us h; exact ⟨m, .token a, b⟩
    | guard hb h => obtain ⟨m, a, b⟩ := Follows.split us h; exact ⟨m, .guard hb a, b⟩

theorem Follows.subset {ys : List Item} {w v : List Tok} (h : Follows g ys w v) : ∀ k ∈ v, k ∈ w := by
  induction h with
  | nil => exact fun _ h => h
  | token _ ih => exact fun k h => List.mem_cons_of_mem _ (ih k h)
  | guard _ _ ih => exact ih

theorem yields_leaf {xs ys : List Item} (h : Yields g xs ys) : ∀ y ∈ ys, Gram.isLeaf y = true ∧ y ≠ .empty := by
  induction h with
  | nil => exact fun _ h => (by cases h)
  | token _ ih =>
    intro y hy
    rcases List.mem_cons.1 hy with rfl | hy
    · exact ⟨rfl, by simp⟩
    · exact ih y hy
  | guard _ ih =>
    intro y hy
    rcases List.mem_cons.1 hy with rfl | hy
    · exact ⟨rfl, by simp⟩
    · exact ih y hy
  | node _ _ _ ih1 ih2 =>
    intro y hy
    rcases List.mem_append.1 hy with hy | hy
    · exact ih1 y hy
    · exact ih2 y hy

/-- What comes after a symbol is one of the symbols the code looks for. -/
theorem yields_begins {xs ys : List Item} (h : Yields g xs ys) (hx : ∀ x ∈ xs, okI x) (hf : ∀ x, okI x → g.FirstComplete x (first x)) :
    (ys = [] → Nullable first xs) ∧ ∀ y ys', ys = y :: ys' → Closure.Begins first xs y := by
  induction h with
  | nil => exact ⟨fun _ x h => (by cases h), fun y ys' h => (by cases h)⟩
  | @token n xs ys _ _ =>
    refine ⟨fun h => (by cases h), ?_⟩
    intro y ys' h
    cases h
    exact ⟨[], _, xs, rfl, fun x h => (by cases h), (hf _ (hx _ (List.mem_cons_self ..))).1 _ [] rfl .refl, by simp⟩
  | @guard p l xs ys _ _ =>
    refine ⟨fun h => (by cases h), ?_⟩
    intro y ys' h
    cases h
    exact ⟨[], _, xs, rfl, fun x h => (by cases h), (hf _ (hx _ (List.mem_cons_self ..))).1 _ [] rfl .refl, by simp⟩
  | @node x r us xs ys hr hc hfo _ ih =>
    have hox := hx x (List.mem_cons_self ..)
    have hd : g.Derives [x] us := ReflTransGen.trans (closRules_derives hr) hc.derives
    obtain ⟨ih1, ih2⟩ := ih (fun x h => hx x (List.mem_cons_of_mem _ h))
    constructor
    · intro h
      obtain ⟨rfl, rfl⟩ := List.append_eq_nil_iff.1 h
      intro y hy
      rcases List.mem_cons.1 hy with rfl | hy
      · exact (hf _ hox).2 hd
      · exact ih1 rfl y hy
    · intro y ys' h
      cases us with
      | nil =>
        obtain ⟨u, z, v, e1, e2, e3, e4⟩ := ih2 y ys' h
        refine ⟨x :: u, z, v, by rw [e1]; rfl, ?_, e3, e4⟩
        intro y' hy
        rcases List.mem_cons.1 hy with rfl | hy
        · exact (hf _ hox).2 hd
        · exact e2 y' hy
      | cons u us =>
        rw [List.cons_append] at h
        cases h
        obtain ⟨l1, l2⟩ := yields_leaf hc y (List.mem_cons_self ..)
        exact ⟨[], x, xs, rfl, fun x h => (by cases h), (hf _ hox).1 _ _ l1 hd, l2⟩

/-! Processing a guard that holds -/

/-- Reductions and then the shift of a guard's symbol, on the states of the stack. -/
inductive GuardRun (t : Tables) (sym : Int) : List Nat → List Nat → Prop
  | shift {s : Nat} {st : List Nat} {e : TableAction} {l : List TableAction} (h : entriesFor t false s sym = .ok (e :: l)) (he : e.type = .shift) :
      GuardRun t sym (s :: st) (e.nextState :: s :: st)
  | reduce {s : Nat} {st : List Nat} {e : TableAction} {l : List TableAction} {r : ReduceRule} {stack out : List Nat}
      (h : entriesFor t false s sym = .ok (e :: l)) (he : e.type = .reduce) (hr : rule t e.nextState = some r) (hs : ReducesTo t r (s :: st) stack)
      (hrun : GuardRun t sym stack out) : GuardRun t sym (s :: st) out

theorem guardRun_shifts {sym : Int} {stack out : List Nat} (h : GuardRun t sym stack out) : ∃ s st acts, stack = s :: st ∧ entriesFor t false s sym = .ok acts ∧
    Shifts t false sym acts stack := by
  induction h with
  | shift h he => exact ⟨_, _, _, rfl, h, .shift (Or.inl he)⟩
  | reduce h he hr hs _ ih =>
    obtain ⟨s', st', acts, rfl, h2, h3⟩ := ih
    exact ⟨_, _, _, rfl, h, .reduce (Or.inl he) hr hs h2 h3⟩

theorem popItems_pops : ∀ (n : Nat) (l : List (Nat × Tree)) (acc : List Tree) (p : List Tree × List (Nat × Tree)), popItems n l acc = .ok p →
    p.2.map (·.1) = pops n (l.map (·.1))
  | 0, l, acc, p, h => by cases h; cases l <;> rfl
  | n + 1, l, acc, p, h => by
    unfold popItems at h
    obtain ⟨e, he, h⟩ := bind_ok h
    have := popItems_pops n _ _ _ h
    rw [this]
    match l with
    | [] => rw [pops_short _ _ (by simp [popStack]), pops_short _ _ (by simp)]; rfl
    | [a] => rw [pops_short _ _ (by simp [popStack]), pops_short _ _ (by simp)]; rfl
    | a :: b :: l => rfl

theorem standard_reduces {r : ReduceRule} {ps ps' : PState} (h : (standard t).reduce r ps = .ok ps') :
    ReducesTo t r (ps.stack.map (·.1)) (ps'.stack.map (·.1)) ∧ ps'.input = ps.input := by
  obtain ⟨p, hp, h⟩ := bind_ok h
  obtain ⟨top, htop, h⟩ := bind_ok h
  obtain ⟨go, hgo, h⟩ := bind_ok h
  have htop := orUb_ok htop
  have hq := popItems_pops _ _ _ _ hp
  obtain ⟨items, l⟩ := p
  cases l with
  | nil => cases htop
  | cons a l =>
    cases htop
    cases go with
    | none =>
      cases h
      exact ⟨⟨top.1, _, hq.symm, Or.inr ⟨hgo, rfl⟩⟩, rfl⟩
    | some g =>
      cases h
      exact ⟨⟨top.1, _, hq.symm, Or.inl ⟨g, hgo, rfl⟩⟩, rfl⟩

theorem guardPossible_run {sym : Int} {ps : PState} {out : List Nat} {s : Nat} {st : List Nat} (hs : ps.stack.map (·.1) = s :: st)
    (h : GuardRun t sym (ps.stack.map (·.1)) out) {acts : List TableAction} (ha : entriesFor t false s sym = .ok acts) {fuel : Nat} {b : Bool}
    (hp : guardPossible (standard t) t fuel sym ps acts = .ok b) : b = true := by
  rw [hs] at h
  cases h with
  | shift h he =>
    rw [ha] at h
    cases h
    unfold guardPossible at hp
    rw [if_neg (by rw [he]; simp), if_pos (Or.inl he)] at hp
    cases hp
    rfl
  | reduce h he hr hto hrun =>
    rw [ha] at h
    cases h
    unfold guardPossible at hp
    rw [if_pos (Or.inl he)] at hp
    obtain ⟨c, hc, hp⟩ := bind_ok hp
    have hu : ps.stack.map (·.1) ≠ [] := by rw [hs]; simp
    have : c = true := by
      unfold canReduceAct at hc
      rw [if_neg (by rw [he]; simp)] at hc
      obtain ⟨p, hp, hc⟩ := bind_ok hc
      obtain ⟨r', hr', hto'⟩ := fakeReduce_virt (under := ps.stack.map (·.1)) hu (Or.inl he) hp
      obtain ⟨s', rest, acts', h1, h2, h3⟩ := can_reduce_partial t fuel false _ _ _ _ hu c hc
      rw [hr] at hr'
      cases hr'
      have hv : virt 0 ((standard t).pushed ps) (ps.stack.map (·.1)) = s :: st := by rw [virt_zero, hs]; rfl
      have h1' : virt p.1 p.2 (ps.stack.map (·.1)) = s' :: rest := h1
      rw [hv, h1'] at hto'
      have := hto.unique hto'
      subst this
      obtain ⟨s2, st2, acts2, e1, e2, e3⟩ := guardRun_shifts hrun
      cases e1
      rw [h2] at e2
      cases e2
      exact h3.2 e3
    subst this
    cases hp
    rfl

theorem guardPerform_run {sym : Int} {la : Option Tok} : ∀ (fuel : Nat) (ps ps' : PState) (out : List Nat), GuardRun t sym (ps.stack.map (·.1)) out →
    guardPerform (standard t) t la sym fuel ps = .ok ps' → ps'.stack.map (·.1) = out ∧ ps'.input = ps.input
  | 0, _, _, _, _, h => by cases h
  | fuel + 1, ps, ps', out, hrun, h => by
    unfold guardPerform at h
    obtain ⟨s, hs, h⟩ := bind_ok h
    have hs := orUb_ok hs
    obtain ⟨acts, ha, h⟩ := bind_ok h
    obtain ⟨c, hc, h⟩ := bind_ok h
    generalize hst : ps.stack.map (·.1) = stack at hrun
    have hhead : stack.head? = some s := by rw [← hst, List.head?_map]; exact hs
    cases hrun with
    | shift h1 he =>
      cases hhead
      rw [ha] at h1
      cases h1
      unfold guardChoice at hc
      rw [if_neg (by rw [he]; simp), if_neg (by rw [he]; simp)] at hc
      cases hc
      obtain ⟨r, hr, h⟩ := bind_ok h
      unfold perform at hr
      rw [he] at hr
      cases hr
      cases h
      exact ⟨by simp [standard, hst], rfl⟩
    | reduce h1 he hr hto hrun =>
      cases hhead
      rw [ha] at h1
      cases h1
      unfold guardChoice at hc
      rw [if_neg (by rw [he]; simp), if_neg (by rw [he]; simp)] at hc
      cases hc
      obtain ⟨r, hpr, h⟩ := bind_ok h
      unfold perform at hpr
      rw [he] at hpr
      simp only [bind, Except.bind, hr, orUb] at hpr
      cases hd : (standard t).reduce _ ps with
      | error x => rw [hd] at hpr; cases hpr
      | ok ps1 =>
        rw [hd] at hpr
        cases hpr
        obtain ⟨q1, q2⟩ := standard_reduces hd
        rw [hst] at q1
        have := hto.unique q1
        subst this
        obtain ⟨q3, q4⟩ := guardPerform_run fuel ps1 ps' out hrun h
        exact ⟨q3, q4.trans q2⟩

/-! Acceptance -/

/-- The parser accepts from here on, if it ends. -/
def Acc (t : Tables) (stack : List Nat) (w : List Tok) : Prop :=
  ∀ (st : List (Nat × Tree)) (fuel : Nat) (b : Bool) (s' : PState), st.map (·.1) = stack → parse t fuel ⟨st, w⟩ = .ok (b, s') → b = true

theorem acc_token {s : Nat} {st : List Nat} {k : Tok} {w : List Tok} {L : List TableAction} (hent : entriesFor t true s k.sym = .ok L)
    (h : ∀ (ps : PState) (fuel : Nat) (r : Result × PState), ps.stack.map (·.1) = s :: st → ps.input = k :: w → processActions t fuel (some k) k.sym true ps L = .ok r →
      r.1 = .more ∧ Acc t (r.2.stack.map (·.1)) r.2.input) : Acc t (s :: st) (k :: w) := by
  intro stk fuel b s' hst hp
  cases fuel with
  | zero => cases hp
  | succ fuel =>
    unfold parse at hp
    obtain ⟨r, hr, hp⟩ := bind_ok hp
    unfold process at hr
    obtain ⟨cur, hcur, hr⟩ := bind_ok hr
    have hcur := orUb_ok hcur
    have : cur = s := by
      have h2 : (stk.map (·.1)).head? = some cur := by rw [List.head?_map]; exact hcur
      rw [hst] at h2
      cases h2
      rfl
    subst this
    simp only [List.head?_cons, hent] at hr
    obtain ⟨h1, h2⟩ := h _ _ _ hst rfl hr
    obtain ⟨r1, r2⟩ := r
    cases h1
    exact h2 _ _ _ _ rfl hp

theorem acc_end {s : Nat} {st : List Nat} {L : List TableAction} (hent : entriesFor t false s t.endOfInput = .ok L)
    (h : ∀ (ps : PState) (fuel : Nat) (r : Result × PState), ps.stack.map (·.1) = s :: st → ps.input = [] → processActions t fuel none t.endOfInput false ps L = .ok r →
      r.1 = .accept ∨ (r.1 = .more ∧ Acc t (r.2.stack.map (·.1)) r.2.input)) : Acc t (s :: st) [] := by
  intro stk fuel b s' hst hp
  cases fuel with
  | zero => cases hp
  | succ fuel =>
    unfold parse at hp
    obtain ⟨r, hr, hp⟩ := bind_ok hp
    unfold process at hr
    obtain ⟨cur, hcur, hr⟩ := bind_ok hr
    have hcur := orUb_ok hcur
    have : cur = s := by
      have h2 : (stk.map (·.1)).head? = some cur := by rw [List.head?_map]; exact hcur
      rw [hst] at h2
      cases h2
      rfl
    subst this
    simp only [List.head?_nil, hent] at hr
    rcases h _ _ _ hst rfl hr with h1 | ⟨h1, h2⟩
    · obtain ⟨r1, r2⟩ := r
      cases h1
      cases hp
      rfl
    · obtain ⟨r1, r2⟩ := r
      cases h1
      exact h2 _ _ _ _ rfl hp

/-- A reduction. -/
theorem reduces_more {la : Option Tok} {sym : Int} {term : Bool} {ps : PState} {e : TableAction} {L : List TableAction} {fuel : Nat} {r : Result × PState} {rr : ReduceRule}
    (he : e.type = .reduce) (hr : rule t e.nextState = some rr) {stack' : List Nat} (hto : ReducesTo t rr (ps.stack.map (·.1)) stack')
    (h : processActions t fuel la sym term ps (e :: L) = .ok r) : r.1 = .more ∧ r.2.stack.map (·.1) = stack' ∧ r.2.input = ps.input := by
  unfold processActions at h
  rw [if_neg (by rw [he]; simp), if_neg (by rw [he]; simp), if_neg (by rw [he]; simp)] at h
  obtain ⟨p, hp, h⟩ := bind_ok h
  unfold perform at hp
  rw [he] at hp
  simp only [bind, Except.bind, hr, orUb] at hp
  cases hd : (standard t).reduce rr ps with
  | error x => rw [hd] at hp; cases hp
  | ok ps1 =>
    rw [hd] at hp
    cases hp
    cases h
    obtain ⟨q1, q2⟩ := standard_reduces hd
    exact ⟨rfl, (hto.unique q1).symm, q2⟩

/-- What an entry for a guard answers is negative. -/
def Fails (t : Tables) (e : TableAction) (w : List Tok) : Prop :=
  ∀ (under : List Nat) (fuel : Nat) (r : Int), under ≠ [] → checkLoop t under w fuel [e.nextState] 0 = .ok r → r < 0

/-- Guards that do not hold, and then a shift. -/
theorem shifts_more {k : Tok} {w : List Tok} {ps : PState} {e : TableAction} {L : List TableAction} {fuel : Nat} {r : Result × PState} (hne : ps.stack.map (·.1) ≠ [])
    (hin : ps.input = k :: w) (he : e.type = .shift) : ∀ (gs : List TableAction), (∀ a ∈ gs, a.type = .guard ∧ Fails t a (k :: w)) →
    processActions t fuel (some k) k.sym true ps (gs ++ e :: L) = .ok r → r.1 = .more ∧ r.2.stack.map (·.1) = e.nextState :: ps.stack.map (·.1) ∧ r.2.input = w
  | [], _, h => by
    rw [List.nil_append] at h
    unfold processActions at h
    rw [if_neg (by rw [he]; simp), if_neg (by rw [he]; simp), if_neg (by rw [he]; simp)] at h
    obtain ⟨p, hp, h⟩ := bind_ok h
    unfold perform at hp
    rw [he] at hp
    cases hp
    simp only [if_true] at h
    obtain ⟨n, hn, h⟩ := bind_ok h
    unfold next at hn
    simp only [standard, hin] at hn
    cases hn
    cases h
    exact ⟨rfl, rfl, rfl⟩
  | a :: gs, ha, h => by
    rw [List.cons_append] at h
    obtain ⟨h1, h2⟩ := ha a (List.mem_cons_self ..)
    unfold processActions at h
    rw [if_neg (by rw [h1]; simp), if_pos h1] at h
    obtain ⟨x, hx, h⟩ := bind_ok h
    rw [hin] at hx
    rw [if_pos (h2 _ _ _ hne hx)] at h
    exact shifts_more hne hin he gs (fun a h => ha a (List.mem_cons_of_mem _ h)) h

/-- A guard that holds and comes first. -/
theorem guard_more {k : Tok} {w : List Tok} {ps : PState} {e : TableAction} {L : List TableAction} {fuel : Nat} {r : Result × PState} {s : Nat} {st out : List Nat} {sym : Int}
    (hst : ps.stack.map (·.1) = s :: st) (hin : ps.input = k :: w) (he : e.type = .guard) (hsym : 0 ≤ sym)
    (hc : ∀ (under : List Nat) (fuel : Nat) (r : Int), under ≠ [] → checkLoop t under (k :: w) fuel [e.nextState] 0 = .ok r → r = sym)
    (hrun : GuardRun t sym (s :: st) out) (h : processActions t fuel (some k) k.sym true ps (e :: L) = .ok r) :
    r.1 = .more ∧ r.2.stack.map (·.1) = out ∧ r.2.input = k :: w := by
  unfold processActions at h
  rw [if_neg (by rw [he]; simp), if_pos he] at h
  obtain ⟨x, hx, h⟩ := bind_ok h
  rw [hin] at hx
  have hxs := hc _ _ _ (by rw [hst]; simp) hx
  subst hxs
  rw [if_neg (by omega)] at h
  obtain ⟨o, ho, h⟩ := bind_ok h
  unfold processGuard at ho
  obtain ⟨cur, hcur, ho⟩ := bind_ok ho
  have hcur := orUb_ok hcur
  obtain ⟨acts, hacts, ho⟩ := bind_ok ho
  obtain ⟨b, hb, ho⟩ := bind_ok ho
  have : cur = s := by
    have h2 : (ps.stack.map (·.1)).head? = some cur := by rw [List.head?_map]; exact hcur
    rw [hst] at h2
    cases h2
    rfl
  subst this
  have hb' := guardPossible_run hst (by rw [hst]; exact hrun) hacts hb
  subst hb'
  simp only [if_true] at ho
  obtain ⟨ps', hps, ho⟩ := bind_ok ho
  cases ho
  cases h
  obtain ⟨q1, q2⟩ := guardPerform_run _ _ _ _ (by rw [hst]; exact hrun) hps
  exact ⟨rfl, q1, q2.trans hin⟩

/-! Following a reading -/

/-- What comes next, with the end of the input at the end. -/
def front : List Item → Item
  | [] => .eoi
  | x :: _ => x

/-- Tables in which the action that a reading asks for is the one that is performed. -/
structure GuardedDet (first : Item → List Item) (g : Gram) (okI : Item → Prop) (okK : Tok → Prop) (num : Numbering) (m : Mach) (n0 : Nat) (t : Tables) : Prop where
  ok : ∀ s e, Lr1c first g m n0 s e → ∀ x ∈ e.1.rule.items, okI x
  step : ∀ s e x, Lr1c first g m n0 s e → e.1.rule.items[e.1.dot]? = some x → ∃ s', tr m s x = some s'
  shift : ∀ s n s', tr m s (.terminal n) = some s' → ∃ gs e l, entriesFor t true s n = .ok (gs ++ e :: l) ∧ e.type = .shift ∧ e.nextState = s' ∧
    ∀ a ∈ gs, a.type = .guard ∧ ∀ i o, Lr1c first g m n0 s (i, o) → i.rule.items[i.dot]? = some (.terminal n) → ∀ ys w, Yields g (i.rule.items.drop i.dot) ys →
      (∃ v, Follows g ys w v) → (∀ k ∈ w, okK k) → Fails t a w
  reduce : ∀ s r n, Lr1c first g m n0 s (⟨r, r.items.length⟩, some (.terminal n)) → closRules g r.nonterminal ≠ [] →
    ∃ e l, entriesFor t true s n = .ok (e :: l) ∧ e.type = .reduce ∧ rule t e.nextState = some ⟨num.ident r.nonterminal, num.ruleId r, r.items.length⟩
  reduceEnd : ∀ s r, Lr1c first g m n0 s (⟨r, r.items.length⟩, some .eoi) → closRules g r.nonterminal ≠ [] →
    ∃ e l, entriesFor t false s t.endOfInput = .ok (e :: l) ∧ e.type = .reduce ∧ rule t e.nextState = some ⟨num.ident r.nonterminal, num.ruleId r, r.items.length⟩
  reduceGuard : ∀ s r p l, Lr1c first g m n0 s (⟨r, r.items.length⟩, some (.guard p l)) → closRules g r.nonterminal ≠ [] →
    ∃ e l', entriesFor t false s (num.ident (.guard p l)) = .ok (e :: l') ∧ e.type = .reduce ∧
      rule t e.nextState = some ⟨num.ident r.nonterminal, num.ruleId r, r.items.length⟩
  shiftGuard : ∀ s p l s', tr m s (.guard p l) = some s' → ∃ e l', entriesFor t false s (num.ident (.guard p l)) = .ok (e :: l') ∧ e.type = .shift ∧ e.nextState = s'
  guard : ∀ s p l, ((∃ s', tr m s (.guard p l) = some s') ∨ ∃ r, Lr1c first g m n0 s (⟨r, r.items.length⟩, some (.guard p l))) →
    (∃ s s', tr m s (.guard p l) = some s') → ∀ w, Begun g [] l w → (∀ k ∈ w, okK k) →
    ∃ k w' e l', w = k :: w' ∧ entriesFor t true s k.sym = .ok (e :: l') ∧ e.type = .guard ∧
      ∀ (under : List Nat) (fuel : Nat) (r : Int), under ≠ [] → checkLoop t under w fuel [e.nextState] 0 = .ok r → r = num.ident (.guard p l)
  pos : ∀ x, 0 ≤ num.ident x
  accept : ∀ s r, Lr1c first g m n0 s (⟨r, r.items.length⟩, some .eoi) → r.nonterminal = .empty → ∃ e l, entriesFor t false s t.endOfInput = .ok (e :: l) ∧ e.type = .accept
  goto : ∀ s x s', tr m s x = some s' → closRules g x ≠ [] → gotoFor t s (num.ident x) = .ok (some s')

/-- The parser accepts; and if a guard comes next then its symbol is shifted, after reductions. -/
def OnTheWay (num : Numbering) (m : Mach) (t : Tables) (stack : List Nat) (zs : List Item) (w : List Tok) : Prop :=
  Acc t stack w ∧ ∀ p l zs', zs = .guard p l :: zs' → (∃ s s', tr m s (.guard p l) = some s') ∧
    ∃ out, GuardRun t (num.ident (.guard p l)) stack out ∧ Acc t out w

variable {num : Numbering} {m : Mach} {n0 : Nat} {okK : Tok → Prop}

theorem acc_guard (hd : GuardedDet first g okI okK num m n0 t) {s : Nat} {st out : List Nat} {w : List Tok} {p : Int} {l : List Item}
    (hg : (∃ s', tr m s (.guard p l) = some s') ∨ ∃ r, Lr1c first g m n0 s (⟨r, r.items.length⟩, some (.guard p l))) (hin : ∃ s s', tr m s (.guard p l) = some s')
    (hw : Begun g [] l w) (hz : ∀ k ∈ w, okK k) (hrun : GuardRun t (num.ident (.guard p l)) (s :: st) out) (hacc : Acc t out w) : Acc t (s :: st) w := by
  obtain ⟨k, w', e, l', rfl, h1, h2, h3⟩ := hd.guard s p l hg hin w hw hz
  refine acc_token h1 ?_
  intro ps fuel r hst hin hp
  obtain ⟨q1, q2, q3⟩ := guard_more hst hin h2 (hd.pos _) h3 hrun hp
  rw [q2, q3]
  exact ⟨q1, hacc⟩

/-- With an item of the current state and a reading of what is left of it, the parser accepts if it does so after this reading. -/
theorem yields_walk (hd : GuardedDet first g okI okK num m n0 t) (hf : ∀ x, okI x → g.FirstComplete x (first x)) {xs ys : List Item} (h : Yields g xs ys) :
    ∀ {i : LItem} {s : Nat} {st : List Nat} {zs : List Item} {w w' : List Tok}, Lr1c first g m n0 s (i, some (front zs)) → i.dot ≤ i.rule.items.length →
    i.rule.items.drop i.dot = xs → Follows g ys w w' → Follows g zs w' [] → (∀ k ∈ w, okK k) →
    ∃ q top l, q ++ s :: st = top :: l ∧ q.length = xs.length ∧ Lr1c first g m n0 top (⟨i.rule, i.rule.items.length⟩, some (front zs)) ∧
      (OnTheWay num m t (q ++ s :: st) zs w' → OnTheWay num m t (s :: st) (ys ++ zs) w) := by
  have hnext : ∀ {i : LItem} {x : Item} {xs : List Item}, i.rule.items.drop i.dot = x :: xs →
      i.rule.items[i.dot]? = some x ∧ (adv i).rule.items.drop (adv i).dot = xs ∧ (adv i).dot ≤ (adv i).rule.items.length := by
    intro i x xs h
    have h1 : i.rule.items[i.dot]? = some x := by
      have := congrArg List.head? h
      rwa [List.head?_drop] at this
    refine ⟨h1, ?_, ?_⟩
    · have h2 := congrArg List.tail h
      rw [List.tail_drop] at h2
      exact h2
    · have := (List.getElem?_eq_some_iff.1 h1).1
      exact this
  induction h with
  | nil =>
    intro i s st zs w w' hi hle hxs hw hz hall
    have : i.dot = i.rule.items.length := by
      have := List.drop_eq_nil_iff.1 hxs
      omega
    cases hw
    refine ⟨[], s, st, rfl, rfl, ?_, fun h => h⟩
    rw [← this]
    exact hi
  | @token n xs ys hy ih =>
    intro i s st zs w w' hi hle hxs hw hz hall
    have hw0 := hw
    obtain ⟨h1, h2, h3⟩ := hnext hxs
    obtain ⟨s', hs'⟩ := hd.step _ _ _ hi h1
    cases hw with
    | @token k _ w1 _ hw =>
    obtain ⟨q, top, l, e1, e3, e4, e5⟩ := ih (st := s :: st) (lr1c_advance hi h1 hs') h3 h2 hw hz (fun k h => hall k (List.mem_cons_of_mem _ h))
    refine ⟨q ++ [s'], top, l, by simpa using e1, by simp [e3], e4, fun hr => ⟨?_, fun p l zs' hc => (by cases hc)⟩⟩
    have hr' := (e5 (by simpa using hr)).1
    obtain ⟨gs, e, L, a1, a2, a3, a4⟩ := hd.shift s _ s' hs'
    refine acc_token a1 ?_
    intro ps fuel r hst hin hp
    obtain ⟨b1, b2, b3⟩ := shifts_more (by rw [hst]; simp) hin a2 gs
      (fun a ha => ⟨(a4 a ha).1, (a4 a ha).2 i _ hi h1 _ _ (hxs ▸ Yields.token hy) ⟨_, hw0⟩ hall⟩) hp
    rw [b2, b3, hst, a3]
    exact ⟨b1, hr'⟩
  | @guard p l xs ys hy ih =>
    intro i s st zs w w' hi hle hxs hw hz hall
    obtain ⟨h1, h2, h3⟩ := hnext hxs
    obtain ⟨s', hs'⟩ := hd.step _ _ _ hi h1
    cases hw with
    | guard hb hw =>
    obtain ⟨q, top, l', e1, e3, e4, e5⟩ := ih (st := s :: st) (lr1c_advance hi h1 hs') h3 h2 hw hz hall
    refine ⟨q ++ [s'], top, l', by simpa using e1, by simp [e3], e4, fun hr => ?_⟩
    have hr' := (e5 (by simpa using hr)).1
    obtain ⟨e, L, a1, a2, a3⟩ := hd.shiftGuard s p l s' hs'
    have hrun : GuardRun t (num.ident (.guard p l)) (s :: st) (s' :: s :: st) := by
      rw [← a3]
      exact .shift a1 a2
    refine ⟨acc_guard hd (Or.inl ⟨s', hs'⟩) ⟨_, _, hs'⟩ hb hall hrun hr', ?_⟩
    intro p' l'' zs' hc
    cases hc
    exact ⟨⟨_, _, hs'⟩, _, hrun, hr'⟩
  | @node x r us xs ys hr hc hfo ihc ih =>
    intro i s st zs w w' hi hle hxs hw hz hall
    obtain ⟨h1, h2, h3⟩ := hnext hxs
    obtain ⟨s', hs'⟩ := hd.step _ _ _ hi h1
    have hok : ∀ y ∈ xs, okI y := fun y hy => hd.ok _ _ hi y (List.mem_of_mem_drop (hxs ▸ List.mem_cons_of_mem _ hy))
    have hdrop : i.rule.items.drop (i.dot + 1) = xs := h2
    obtain ⟨w1, hw1, hw2⟩ := Follows.split us hw
    have hyz := hw2.append hz
    have hall' : ∀ k ∈ w1, okK k := fun k hk => hall k (hw1.subset k hk)
    have hitem : Lr1c first g m n0 s (⟨⟨x, r⟩, 0⟩, some (front (ys ++ zs))) := by
      obtain ⟨b1, b2⟩ := yields_begins hfo hok hf
      obtain ⟨e0, c1, c2⟩ := hi
      refine ⟨e0, c1, c2.tail ?_⟩
      cases ys with
      | nil => exact .pass h1 hr (hdrop ▸ b1 rfl)
      | cons y ys => exact .first h1 hr (hdrop ▸ b2 y ys rfl)
    obtain ⟨q, top, l, e1, e3, e4, e5⟩ := ihc (st := st) (zs := ys ++ zs) hitem (Nat.zero_le _) rfl hw1 hyz hall
    obtain ⟨q', top', l', f1, f3, f4, f5⟩ := ih (st := s :: st) (zs := zs) (lr1c_advance hi h1 hs') h3 h2 hw2 hz hall'
    refine ⟨q' ++ [s'], top', l', by simpa using f1, by simp [f3], f4, fun hre => ?_⟩
    rw [List.append_assoc]
    refine e5 ?_
    have hw' := f5 (by simpa using hre)
    have hgo := hd.goto s x s' hs' (List.ne_nil_of_mem hr)
    have hto : ReducesTo t ⟨num.ident x, num.ruleId ⟨x, r⟩, r.length⟩ (top :: l) (s' :: s :: st) := by
      rw [← e1]
      have := pops_append q s st
      rw [e3] at this
      exact ⟨s, st, this, Or.inl ⟨s', hgo, rfl⟩⟩
    rw [e1]
    generalize ys ++ zs = zs' at e4 hw' hyz
    cases hyz with
    | nil =>
      obtain ⟨e, L, a1, a2, a3⟩ := hd.reduceEnd top _ e4 (List.ne_nil_of_mem hr)
      refine ⟨acc_end a1 ?_, fun p l zs' hc => (by cases hc)⟩
      intro ps fuel rr hst hin hp
      obtain ⟨b1, b2, b3⟩ := reduces_more a2 a3 (by rw [hst]; exact hto) hp
      rw [b2, b3, hin]
      exact Or.inr ⟨b1, hw'.1⟩
    | token _ =>
      obtain ⟨e, L, a1, a2, a3⟩ := hd.reduce top _ _ e4 (List.ne_nil_of_mem hr)
      refine ⟨acc_token a1 ?_, fun p l zs' hc => (by cases hc)⟩
      intro ps fuel rr hst hin hp
      obtain ⟨b1, b2, b3⟩ := reduces_more a2 a3 (by rw [hst]; exact hto) hp
      rw [b2, b3, hin]
      exact ⟨b1, hw'.1⟩
    | @guard p lg ys2 _ _ hb _ =>
      obtain ⟨e, L, a1, a2, a3⟩ := hd.reduceGuard top _ _ _ e4 (List.ne_nil_of_mem hr)
      obtain ⟨o0, out, o1, o2⟩ := hw'.2 p lg ys2 rfl
      have hrun : GuardRun t (num.ident (.guard p lg)) (top :: l) out := .reduce a1 a2 a3 hto o1
      refine ⟨acc_guard hd (Or.inr ⟨_, e4⟩) o0 hb hall' hrun o2, ?_⟩
      intro p' l' zs' hc
      cases hc
      exact ⟨o0, out, hrun, o2⟩

/-- An input that can be read with all guards holding is accepted, if the parser ends. -/
theorem guarded_complete (hd : GuardedDet first g okI okK num m n0 t) (hf : ∀ x, okI x → g.FirstComplete x (first x)) {k0 : Nat} {start : Item} (hk : k0 < n0)
    (hS : kern m k0 = [startItem start]) {ys : List Item} (h : Yields g [start] ys) {w : List Tok} (hw : Follows g ys w []) (hall : ∀ k ∈ w, okK k) {fuel : Nat} {b : Bool} {s' : PState}
    (hp : parse t fuel (Parser.start k0 w) = .ok (b, s')) : b = true := by
  have h0 : Lr1c first g m n0 k0 (startItem start, some (front [])) := ⟨_, .start hk hS (fun a ha => (Option.some.inj ha).symm), .refl⟩
  obtain ⟨q, top, l, e1, e3, e4, e5⟩ := yields_walk hd hf h (st := []) (zs := []) h0 (Nat.zero_le _) rfl hw .nil hall
  obtain ⟨e, L, a1, a2⟩ := hd.accept top _ e4 rfl
  have hacc : Acc t (q ++ [k0]) [] := by
    rw [e1]
    refine acc_end a1 ?_
    intro ps fuel r hst hin hp
    unfold processActions at hp
    rw [if_neg (by rw [a2]; simp), if_neg (by rw [a2]; simp), if_pos a2] at hp
    cases hp
    exact Or.inl rfl
  have := e5 ⟨hacc, fun p l zs' hc => (by cases hc)⟩
  exact this.1 _ _ _ _ rfl hp

end
section
variable {first initial : Item → List Item} {g : Gram} {okI : Item → Prop} {okR : Rule → Prop} {rid : Rule → Nat} {clos : LItem → List Item → Set1}
  {own : LItem → Set1} {lt : Key → Key → Bool} {languages : List Item} {m m' : Mach} {st : Stage} {states : List (List LrAction)} {num : Numbering}
  {sort : List TableAction → List TableAction} {sortWeak : List (Int × Int) → List (Int × Int)} {occ : Item → Prop}

/-- The tables. -/
local notation "T" => build num sort sortWeak states (some st.weak.strongToWeak)
set_option quotPrecheck false in
local notation "n0" => (Lalr.initials languages).states.length

/-- Without ignored tokens. -/
theorem begun_iff {ignored l : List Item} {w : List Tok} (h : ∀ k ∈ w, Item.terminal k.sym ∉ ignored) : Begun g ignored l w ↔ Begun g [] l w := by
  have : ∀ u v : List Tok, w = u ++ v → (u.filter fun k => decide (.terminal k.sym ∉ ignored)) = u.filter fun k => decide (Item.terminal k.sym ∉ ([] : List Item)) := by
    intro u v huv
    refine List.filter_congr fun k hk => ?_
    have := h k (by rw [huv]; exact List.mem_append_left _ hk)
    simp [this]
  constructor
  · rintro ⟨u, v, h1, h2⟩
    exact ⟨u, v, h1, this u v h1 ▸ h2⟩
  · rintro ⟨u, v, h1, h2⟩
    exact ⟨u, v, h1, (this u v h1).symm ▸ h2⟩

/-- The conditions under which a parser with guards decides its language: no guards inside guards, every guard reads something and begins with one of the tokens
that it is looked for at, one action for each symbol in the states of guards, at most one guard and one other action for each symbol elsewhere; and where a guard competes with
a shift it does not hold before any input that the shift is right for. -/
structure Clear (first initial : Item → List Item) (g : Gram) (okI okB : Item → Prop) (m : Mach) (states : List (List LrAction)) : Prop where
  first : ∀ x, okI x → g.FirstComplete x (first x)
  inside : Plain g okB
  sub : ∀ x, okB x → okI x
  body : ∀ p l, okI (.guard p l) → ∀ x ∈ l, okB x
  initial : ∀ p l, okI (.guard p l) → ∀ n v, g.Derives l (.terminal n :: v) → .terminal n ∈ initial (.guard p l)
  notEmpty : ∀ p l, okI (.guard p l) → ¬ g.Derives l []
  guards : ∀ p l k, AssocMap.get ⟨.guard p l, l⟩ m.guards = some k → ∀ (s : Nat) (acts : List LrAction), ReflTransGen (Edge m) k s → states[s]? = some acts →
    ∀ b ∈ acts, ∀ c ∈ acts, b.item = c.item → isTerminal b.item = true ∨ b.item = .eog → b = c
  one : ∀ (s : Nat) (acts : List LrAction), states[s]? = some acts → ∀ b ∈ acts, ∀ c ∈ acts, b.item = c.item →
    (isTerminal b.item = true ∨ b.item = .eoi ∨ ∃ p l, b.item = .guard p l) → (b.type = .guard ↔ c.type = .guard) → b = c ∨ (b.type = .accept ∧ c.type = .accept)
  compete : ∀ (s : Nat) (acts : List LrAction), states[s]? = some acts → ∀ b ∈ acts, b.type = .guard → ∀ c ∈ acts, c.item = b.item → c.type ≠ .guard →
    c.type = .shift ∧ ∀ i, Clos0 g (kern m s) i → i.rule.items[i.dot]? = some b.item → ∀ ys w, Yields g (i.rule.items.drop i.dot) ys → (∃ v, Follows g ys w v) →
      ¬ Begun g [] b.rule.items w

theorem made_guarded (h : Made first initial g okI okR rid clos own lt languages m m' st states num sort sortWeak occ) (hb : Bare st) (hpos : ∀ i, 0 ≤ num.ident i)
    {okB : Item → Prop} (hc : Clear first initial g okI okB m states) :
    GuardedDet first g okI (fun k => .terminal k.sym ∉ st.ignored) num m n0 T := by
  obtain ⟨_, _, h1⟩ := h.machine
  obtain ⟨_, h2⟩ := h.lookaheads
  obtain ⟨hi, -, -⟩ := completeStates_inv h.ridInj h.univ h.closOk h.starts h1
  obtain ⟨-, -, -, -, h5, h6, h7⟩ := lr0_states_exact h.ridInj h.univ h.closOk h.starts h1
  have hred : ∀ r : Rule, closRules g r.nonterminal ≠ [] → reduceType r.nonterminal = .reduce := by
    intro r hne
    cases hn : r.nonterminal <;> first | rfl | (rw [hn] at hne; exact absurd rfl hne)
  have htype : ∀ (e : TableAction) (c : LrAction), entryMeaning T e = meaning num c → e.type = c.type := fun e c h => congrArg Prod.fst h
  have htr : ∀ s x s', tr m s x = some s' → okI x := by
    intro s x s' ht
    have hs := (h6 s _ _ ht).1
    obtain ⟨-, i, hci, hx⟩ := (h5 s hs x).1 ⟨s', ht⟩
    exact h.univ.items i.rule (clos0_good h.univ (hi.good s hs) hci).1 x (List.mem_of_getElem? hx)
  -- the entries for a token
  have hterm : ∀ s n, s < m.states.length → ∃ acts L, states[s]? = some acts ∧ entriesFor T true s n = .ok L ∧
      (∀ a ∈ acts, a.item = .terminal n → ∃ e ∈ L, entryMeaning T e = meaning num a) ∧
      (∀ e ∈ L, ∃ a ∈ acts, a.item = .terminal n ∧ entryMeaning T e = meaning num a) ∧ L.Pairwise (fun a b => score a.type ≤ score b.type) := by
    intro s n hlt
    obtain ⟨acts, -, hst⟩ := h.exact hlt
    obtain ⟨⟨L, k1, k2, k3⟩, -⟩ := action_lookup_exact num sort sortWeak h.sortOk states (some st.weak.strongToWeak) h.fits s _ hst n
    refine ⟨_, L, hst, entriesFor_terminal k1, ?_, ?_, k3⟩
    · intro a ha hn
      obtain ⟨e, e1, e2⟩ := List.mem_map.1 (k2.mem_iff.2 (List.mem_map.2 ⟨a, List.mem_filter.2 ⟨ha, by simp [hn]⟩, rfl⟩))
      exact ⟨e, e1, e2⟩
    · intro e he
      obtain ⟨c, c1, c2⟩ := List.mem_map.1 (k2.mem_iff.1 (List.mem_map.2 ⟨e, he, rfl⟩))
      obtain ⟨c3, c4⟩ := List.mem_filter.1 c1
      exact ⟨c, c3, by simpa using c4, c2.symm⟩
  -- what a guard action is
  have hguard : ∀ s a, Act first g initial m n0 s a → a.type = .guard → ∃ (p : Int) (l : List Item) (k : Nat) (n : Int),
      a = ⟨.guard, .terminal n, k, ⟨.guard p l, l⟩⟩ ∧ get ⟨.guard p l, l⟩ m.guards = some k ∧ okI (.guard p l) := by
    intro s a ha hty
    cases ha with
    | @shift x t ht => cases x <;> cases hty
    | @reduce r b hl _ => cases hr : r.nonterminal <;> (simp only [hr] at hty; cases hty)
    | @before x t _ ht hg =>
      obtain ⟨p, l, k, n, rfl, e2, -, rfl⟩ := hg
      exact ⟨p, l, k, n, rfl, e2, htr _ _ _ ht⟩
    | @after r b _ hl hg =>
      obtain ⟨p, l, k, n, rfl, e2, -, rfl⟩ := hg
      rcases (lr1_sym h.ridInj h.univ h.closOk h.selfOk h.firsts h.starts h1 h2 (h.inRange hl) hl).2 _ rfl with h | h | h
      · exact ⟨p, l, k, n, rfl, e2, h⟩
      · cases h
      · cases h
  -- the first entry for another symbol
  have hnonterm : ∀ s a, s < m.states.length → Act first g initial m n0 s a → isTerminal a.item = false → (a.item = .eoi ∨ ∃ p l, a.item = .guard p l) → a.type ≠ .guard →
      ∃ e L c, entriesFor T false s (num.ident a.item) = .ok (e :: L) ∧ entryMeaning T e = meaning num c ∧ (a = c ∨ (a.type = .accept ∧ c.type = .accept)) := by
    intro s a hlt ha hn hsym hty
    obtain ⟨acts, -, hst⟩ := h.exact hlt
    have hmem := ((h.bare hb hst).2 a).2 (Or.inl ha)
    obtain ⟨-, L, k1, k2, -⟩ := action_lookup_exact num sort sortWeak h.sortOk states (some st.weak.strongToWeak) h.fits s _ hst (num.ident a.item)
    have k3 := entriesFor_nonterminal k1
    have k4 := k2.mem_iff.2 (List.mem_map.2 ⟨a, List.mem_filter.2 ⟨hmem, by simp [hn]⟩, rfl⟩)
    cases L with
    | nil => cases k4
    | cons e L =>
      obtain ⟨c, c1, c2⟩ := List.mem_map.1 (k2.mem_iff.1 (List.mem_map.2 ⟨e, List.mem_cons_self .., rfl⟩))
      obtain ⟨c3, c4⟩ := List.mem_filter.1 c1
      simp only [Bool.and_eq_true, Bool.not_eq_true', beq_iff_eq] at c4
      have hnum := h.numbered _ (List.mem_of_getElem? hst)
      have c5 : c.item = a.item := h.inj _ _ ((hnum _ c3).1 c4.1) ((hnum _ hmem).1 hn) c4.2
      refine ⟨e, L, c, k3, c2.symm, hc.one s _ hst a hmem c c3 c5.symm (Or.inr hsym) ⟨fun h => absurd h hty, fun hct => ?_⟩⟩
      rcases ((h.bare hb hst).2 c).1 c3 with hc' | ⟨-, hc'⟩
      · obtain ⟨p, l, k, n, rfl, -, -⟩ := hguard s c hc' hct
        rw [← c5] at hn
        cases hn
      · rw [hc'] at hct
        cases hct
  have hact : ∀ s acts a, states[s]? = some acts → a ∈ acts → a.type = .guard → Act first g initial m n0 s a := by
    intro s acts a hst ha hty
    rcases ((h.bare hb hst).2 a).1 ha with ha' | ⟨-, ha'⟩
    · exact ha'
    · rw [ha'] at hty
      cases hty
  have hcheck : ∀ (p : Int) (l : List Item) (k : Nat), get ⟨.guard p l, l⟩ m.guards = some k → okI (.guard p l) → ∀ (under : List Nat) (fuel : Nat) (r : Int) (w : List Tok), under ≠ [] →
      (∀ k ∈ w, Item.terminal k.sym ∉ st.ignored) → checkLoop T under w fuel [k] 0 = .ok r →
      (r = num.ident (.guard p l) ∧ Begun g [] l w) ∨ (r < 0 ∧ ¬ Begun g [] l w) := by
    intro p l k hk hgu under fuel r w hu hw hcl
    have := guard_check_exact_partial h hb hpos hk hc.inside (hc.body p l hgu) (fun x hx => hc.first x (hc.sub x hx)) (hc.guards p l k hk) hu hcl
    rw [List.drop_zero, begun_iff hw] at this
    exact this
  constructor
  · intro s e he
    exact h.univ.items _ (h.clos0 he).2
  · intro s e x he hx
    have hok := h.univ.items _ (h.clos0 he).2 x (List.mem_of_getElem? hx)
    exact (h5 s (h.inRange he) x).2 ⟨h.univ.proper.empty x hok, e.1, (h.clos0 he).1, hx⟩
  · intro s n s' ht
    obtain ⟨acts, L, a1, a2, a3, a4, -⟩ := hterm s n (h6 s _ _ ht).1
    have hmem := ((h.bare hb a1).2 _).2 (Or.inl (.shift ht))
    obtain ⟨e0, b1, b2⟩ := a3 _ hmem rfl
    obtain ⟨gs, e, l, hL, hgs, he⟩ : ∃ gs e l, L = gs ++ e :: l ∧ (∀ a ∈ gs, a.type = .guard) ∧ e.type ≠ .guard := by
      have hne : e0.type ≠ .guard := by
        rw [(entry_next b2 rfl).1]
        simp [shiftType]
      clear a2 a3 a4 b2
      induction L with
      | nil => cases b1
      | cons a L ih =>
        by_cases ha : a.type = .guard
        · rcases List.mem_cons.1 b1 with rfl | b1
          · exact absurd ha hne
          · obtain ⟨gs, e, l, rfl, q2, q3⟩ := ih b1
            refine ⟨a :: gs, e, l, rfl, ?_, q3⟩
            intro b hb
            rcases List.mem_cons.1 hb with rfl | hb
            · exact ha
            · exact q2 b hb
        · exact ⟨[], a, L, rfl, fun _ h => (by cases h), ha⟩
    subst hL
    obtain ⟨c, c1, c2, c3⟩ := a4 e (by simp)
    have hct : c.type ≠ .guard := by
      rw [← htype e c c3]
      exact he
    have hcs : c = ⟨shiftType (.terminal n), .terminal n, s', Rewriters.emptyRule⟩ := by
      rcases hc.one s acts a1 c c1 _ hmem c2 (Or.inl (by rw [c2]; rfl)) (by simp [hct, shiftType]) with h | ⟨-, h⟩
      · exact h
      · cases h
    subst hcs
    obtain ⟨r1, r2⟩ := entry_next c3 rfl
    refine ⟨gs, e, l, a2, r1, by rw [r2]; rfl, ?_⟩
    intro a ha
    refine ⟨hgs a ha, ?_⟩
    intro i o hio hdot ys w hy hfo hall under fuel r hu hcl
    obtain ⟨d, d1, d2, d3⟩ := a4 a (by simp [ha])
    have hdt : d.type = .guard := by
      rw [← htype a d d3]
      exact hgs a ha
    obtain ⟨p, lg, k, n', rfl, hk, hgu⟩ := hguard s d (hact s acts d a1 d1 hdt) hdt
    obtain ⟨-, q2⟩ := entry_next d3 rfl
    rw [q2] at hcl
    have hno := (hc.compete s acts a1 _ d1 rfl _ c1 (by rw [d2]) (by simp [shiftType])).2 i (h.clos0 hio).1 (by rw [hdot, d2]) ys w hy hfo
    rcases hcheck p lg k hk hgu under fuel r w hu hall hcl with ⟨-, h⟩ | ⟨h, -⟩
    · exact absurd h hno
    · exact h
  · intro s r n he hne
    obtain ⟨acts, L, a1, a2, a3, a4, -⟩ := hterm s n (h.inRange he)
    have hmem := ((h.bare hb a1).2 ⟨reduceType r.nonterminal, .terminal n, -1, r⟩).2 (Or.inl (.reduce he rfl))
    obtain ⟨e0, b1, b2⟩ := a3 _ hmem rfl
    cases L with
    | nil => cases b1
    | cons e L =>
      obtain ⟨c, c1, c2, c3⟩ := a4 e (by simp)
      have hct : c.type ≠ .guard := by
        intro hct
        have := (hc.compete s acts a1 c c1 hct _ hmem c2.symm (by simp [hred r hne])).1
        simp [hred r hne] at this
      rcases hc.one s acts a1 c c1 _ hmem c2 (Or.inl (by rw [c2]; rfl)) (by simp [hct, hred r hne]) with h | ⟨-, h⟩
      · subst h
        obtain ⟨r1, r2⟩ := entry_rule c3 (by simp [hred r hne, isReduce])
        exact ⟨e, L, a2, r1.trans (hred r hne), r2⟩
      · rw [hred r hne] at h
        cases h
  · intro s r he hne
    obtain ⟨e, L, c, q1, q2, q3⟩ := hnonterm s ⟨reduceType r.nonterminal, .eoi, -1, r⟩ (h.inRange he) (.reduce he rfl) rfl (Or.inl rfl) (by simp [hred r hne])
    rcases q3 with rfl | ⟨q3, -⟩
    · obtain ⟨r1, r2⟩ := entry_rule q2 (by simp [hred r hne, isReduce])
      exact ⟨e, L, q1, r1.trans (hred r hne), r2⟩
    · rw [hred r hne] at q3
      cases q3
  · intro s r p l he hne
    obtain ⟨e, L, c, q1, q2, q3⟩ := hnonterm s ⟨reduceType r.nonterminal, .guard p l, -1, r⟩ (h.inRange he) (.reduce he rfl) rfl (Or.inr ⟨p, l, rfl⟩) (by simp [hred r hne])
    rcases q3 with rfl | ⟨q3, -⟩
    · obtain ⟨r1, r2⟩ := entry_rule q2 (by simp [hred r hne, isReduce])
      exact ⟨e, L, q1, r1.trans (hred r hne), r2⟩
    · rw [hred r hne] at q3
      cases q3
  · intro s p l s' ht
    obtain ⟨e, L, c, q1, q2, q3⟩ := hnonterm s _ (h6 s _ _ ht).1 (.shift ht) rfl (Or.inr ⟨p, l, rfl⟩) (by simp [shiftType])
    rcases q3 with rfl | ⟨q3, -⟩
    · obtain ⟨r1, r2⟩ := entry_next q2 rfl
      exact ⟨e, L, q1, r1, by rw [r2]; rfl⟩
    · cases q3
  · rintro s p l hg ⟨s1, s2, ht⟩ w hw hall
    obtain ⟨-, i, hi1, hi2⟩ := (h5 s1 (h6 s1 _ _ ht).1 (.guard p l)).1 ⟨s2, ht⟩
    have hgu : okI (.guard p l) := htr _ _ _ ht
    obtain ⟨k, -, hk, -⟩ := h7 s1 (h6 s1 _ _ ht).1 i p l hi1 hi2
    obtain ⟨u, v, huv, hd⟩ := hw
    have hall' := hall
    cases u with
    | nil => exact absurd hd (hc.notEmpty p l hgu)
    | cons tok u =>
      subst huv
      have hd' : g.Derives l (.terminal tok.sym :: (u.filter fun k => decide (Item.terminal k.sym ∉ ([] : List Item))).map fun k => .terminal k.sym) := by
        simpa using hd
      have hin := hc.initial p l hgu _ _ hd'
      have hga : GuardAct initial m (.guard p l) ⟨.guard, .terminal tok.sym, k, ⟨.guard p l, l⟩⟩ := ⟨p, l, k, tok.sym, rfl, hk, hin, rfl⟩
      have hA : Act first g initial m n0 s ⟨.guard, .terminal tok.sym, k, ⟨.guard p l, l⟩⟩ ∧ s < m.states.length := by
        rcases hg with ⟨s', hs'⟩ | ⟨r, hr⟩
        · exact ⟨.before hs' hga, (h6 s _ _ hs').1⟩
        · exact ⟨.after hr hga, h.inRange hr⟩
      obtain ⟨acts, L, a1, a2, a3, a4, a5⟩ := hterm s tok.sym hA.2
      have hmem := ((h.bare hb a1).2 _).2 (Or.inl hA.1)
      obtain ⟨e0, b1, b2⟩ := a3 _ hmem rfl
      have hty0 := (entry_next b2 rfl).1
      cases L with
      | nil => cases b1
      | cons e L =>
        have hty : e.type = .guard := by
          rcases List.mem_cons.1 b1 with rfl | b1
          · exact hty0
          · have := (List.pairwise_cons.1 a5).1 e0 b1
            rw [hty0] at this
            cases het : e.type <;> simp [het, score] at this
            rfl
        obtain ⟨c, c1, c2, c3⟩ := a4 e (by simp)
        have hct : c.type = .guard := by
          rw [← htype e c c3]
          exact hty
        rcases hc.one s acts a1 c c1 _ hmem c2 (Or.inl (by rw [c2]; rfl)) (by simp [hct]) with h | ⟨h, -⟩
        · subst h
          obtain ⟨-, r2⟩ := entry_next c3 rfl
          refine ⟨tok, u ++ v, e, L, rfl, a2, hty, ?_⟩
          intro under fuel r hu hcl
          rw [r2] at hcl
          rcases hcheck p l k hk hgu under fuel r _ hu hall hcl with ⟨h, -⟩ | ⟨-, h⟩
          · exact h
          · exact absurd ⟨tok :: u, v, rfl, hd⟩ h
        · rw [hct] at h
          cases h
  · exact hpos
  · intro s r he hem
    have hty : reduceType r.nonterminal = .accept := by rw [hem]; rfl
    obtain ⟨e, L, c, q1, q2, q3⟩ := hnonterm s ⟨reduceType r.nonterminal, .eoi, -1, r⟩ (h.inRange he) (.reduce he rfl) rfl (Or.inl rfl) (by simp [hty])
    refine ⟨e, L, q1, ?_⟩
    have : e.type = c.type := congrArg Prod.fst q2
    rw [this]
    rcases q3 with rfl | ⟨-, q3⟩
    · exact hty
    · exact q3
  · intro s x s' ht hx
    refine h.tab.goto s x s' ht ?_ ?_
    · cases x <;> first | rfl | (exact absurd rfl hx)
    · rintro p l rfl
      exact hx rfl

theorem Reads.mono {ig : Int → Prop} {strong strong' : Int → Int → Prop} (hs : ∀ a b, strong a b → strong' a b) {xs : List Item} {ts : List Tree} {w v : List Tok}
    (h : Reads g num ig strong xs ts w v) : Reads g num ig strong' xs ts w v := by
  induction h with
  | nil => exact .nil
  | skip hk _ ih => exact .skip hk ih
  | token _ ih => exact .token ih
  | strong hn _ ih => exact .strong (hs _ _ hn) ih
  | guard _ _ ih1 ih2 => exact .guard ih1 ih2
  | node hr _ _ ih1 ih2 => exact .node hr ih1 ih2

/-- A reading, without the ignored tokens. -/
theorem reads_follows (h : Made first initial g okI okR rid clos own lt languages m m' st states num sort sortWeak occ) (hb : Bare st) {okB : Item → Prop}
    (hc : Clear first initial g okI okB m states) {xs : List Item} {ts : List Tree} {w v : List Tok}
    (hr : Reads g num (fun n => .terminal n ∈ st.ignored) (StrongOf st.weak) xs ts w v) (hx : ∀ x ∈ xs, okI x) :
    ∃ ys, Yields g xs ys ∧ Follows g ys (w.filter fun k => decide (.terminal k.sym ∉ st.ignored)) (v.filter fun k => decide (.terminal k.sym ∉ st.ignored)) := by
  induction hr with
  | nil => exact ⟨[], .nil, .nil⟩
  | @skip k xs ts w v hk _ ih =>
    obtain ⟨ys, h1, h2⟩ := ih hx
    exact ⟨ys, h1, by rw [List.filter_cons, if_neg (by simpa using hk)]; exact h2⟩
  | @token k xs ts w v _ ih =>
    obtain ⟨ys, h1, h2⟩ := ih (fun x hm => hx x (List.mem_cons_of_mem _ hm))
    have hk : Item.terminal k.sym ∉ st.ignored := fun hi => (h.ignored _ hi).2 (hx _ (List.mem_cons_self ..))
    exact ⟨_, .token h1, by rw [List.filter_cons, if_pos (by simpa using hk)]; exact .token h2⟩
  | strong hn _ _ =>
    obtain ⟨ws, hn, -⟩ := hn
    rw [hb.weak] at hn
    cases hn
  | @guard p l la us xs ts w v v' hg _ _ ih =>
    obtain ⟨ys, h1, h2⟩ := ih (fun x hm => hx x (List.mem_cons_of_mem _ hm))
    have hgu := hx _ (List.mem_cons_self ..)
    obtain ⟨u, w', rfl, hread, hfo⟩ := hg.forest
    have hd := derives_of_read h hb (h.univ.items _ (h.univ.guard p l hgu)) hc.inside (hc.body p l hgu) hread hfo
    refine ⟨_, .guard h1, .guard ⟨_, _, List.filter_append .., ?_⟩ h2⟩
    simpa using hd
  | node hr _ _ ih1 ih2 =>
    obtain ⟨us, h1, h2⟩ := ih1 (h.univ.items _ (h.univ.clos _ (hx _ (List.mem_cons_self ..)) _ hr))
    obtain ⟨ys, h3, h4⟩ := ih2 (fun x hm => hx x (List.mem_cons_of_mem _ hm))
    exact ⟨_, .node hr h1 h3, h2.append h4⟩

/-- C83 (partial: languages without rewriters and under the conditions `Clear`; and only if the parser ends, see C42). The parser accepts just the inputs that are, without
the ignored tokens, sentences of the start symbol in which every guard holds where it stands. -/
theorem guarded_words_partial (h : Made first initial g okI okR rid clos own lt languages m m' st states num sort sortWeak occ) (hb : Bare st) (hpos : ∀ i, 0 ≤ num.ident i)
    {okB : Item → Prop} (hc : Clear first initial g okI okB m states) {k0 : Nat} {start : Item} (hk : k0 < n0) (hS : kern m k0 = [startItem start]) (hst : okI start)
    {input : List Tok} {fuel : Nat} {b : Bool} {s' : PState} (hp : parse T fuel (Parser.start k0 input) = .ok (b, s')) :
    b = true ↔ ∃ ys, Yields g [start] ys ∧ Follows g ys (input.filter fun k => decide (.terminal k.sym ∉ st.ignored)) [] := by
  constructor
  · rintro rfl
    obtain ⟨_, τ, -, -, hr⟩ := parser_guards h hk hS hp
    exact reads_follows h hb hc hr (by simpa using hst)
  · rintro ⟨ys, h1, h2⟩
    have hends := (h.ignore k0 input (input.filter fun k => decide (.terminal k.sym ∉ st.ignored)) (by rw [List.filter_filter]; simp) _).1 (.result hp)
    generalize hgen : some (b, s'.stack) = res at hends
    cases hends with
    | undefined _ => cases hgen
    | result hp' =>
      obtain ⟨rfl, -⟩ := Prod.mk.inj (Option.some.inj hgen)
      refine guarded_complete (made_guarded h hb hpos hc) hc.first hk hS h1 h2 ?_ hp'
      intro k hk
      simpa using (List.mem_filter.1 hk).2

/-- C83 with the trees of C70 (partial in the same way): the parser accepts just the inputs that can be read as the start symbol with every guard holding where it
stands. -/
theorem guards_decide_partial (h : Made first initial g okI okR rid clos own lt languages m m' st states num sort sortWeak occ) (hb : Bare st) (hpos : ∀ i, 0 ≤ num.ident i)
    {okB : Item → Prop} (hc : Clear first initial g okI okB m states) {k0 : Nat} {start : Item} (hk : k0 < n0) (hS : kern m k0 = [startItem start]) (hst : okI start)
    {input : List Tok} {fuel : Nat} {b : Bool} {s' : PState} (hp : parse T fuel (Parser.start k0 input) = .ok (b, s')) :
    b = true ↔ ∃ τ, Reads g num (fun n => .terminal n ∈ st.ignored) (fun _ _ => False) [start] [τ] input [] := by
  have hstrong : ∀ a c, StrongOf st.weak a c → False := by
    rintro a c ⟨ws, hn, -⟩
    rw [hb.weak] at hn
    cases hn
  constructor
  · rintro rfl
    obtain ⟨_, τ, -, -, hr⟩ := parser_guards h hk hS hp
    exact ⟨τ, hr.mono hstrong⟩
  · rintro ⟨τ, hr⟩
    exact (guarded_words_partial h hb hpos hc hk hS hst hp).2 (reads_follows h hb hc (hr.mono (strong' := StrongOf st.weak) (fun _ _ h => h.elim)) (by simpa using hst))

end
end Guards
end TameParse

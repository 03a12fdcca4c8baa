import Verif.CompleteGrammarProps
import Verif.CanReduceProps
import Verif.FuelProps

/-!
# C76: parsers with weak symbols
-/

namespace TameParse
namespace Sound

open AssocMap Closure Relation Lalr TameParse.Parser ParserTables

/-! ### can_reduce on the way to a shift -/

/-- The first actions for a symbol lead to a shift of it or to accepting. -/
inductive CanRun (t : Tables) (term : Bool) (sym : Int) : List Nat → Prop
  | done {s : Nat} {rest : List Nat} {e : TableAction} {l : List TableAction} : entriesFor t term s sym = .ok (e :: l) →
      e.type = .shift ∨ e.type = .shiftstrong ∨ e.type = .accept → CanRun t term sym (s :: rest)
  | step {s : Nat} {rest : List Nat} {e : TableAction} {l : List TableAction} {r : ReduceRule} {s1 g : Nat} {rest1 : List Nat} :
      entriesFor t term s sym = .ok (e :: l) → e.type = .reduce ∨ e.type = .weakreduce → rule t e.nextState = some r →
      pops r.length (s :: rest) = s1 :: rest1 → gotoFor t s1 r.identifier = .ok (some g) → CanRun t term sym (g :: s1 :: rest1) → CanRun t term sym (s :: rest)

theorem entry_row {t : Tables} {term : Bool} {s : Nat} {sym : Int} {e : TableAction} {l : List TableAction} (h : entriesFor t term s sym = .ok (e :: l)) :
    ∃ row j, rowOf t term s = .ok row ∧ findSym t term s sym = .ok j ∧ row[j]? = some e ∧ e.symbolId = sym := by
  unfold entriesFor at h
  obtain ⟨row, h1, h⟩ := bind_ok h
  obtain ⟨j, h2, h⟩ := bind_ok h
  have h : (row.drop j).takeWhile (fun a => a.symbolId == sym) = e :: l := Except.ok.inj h
  refine ⟨row, j, h1, h2, ?_⟩
  rw [← List.head?_drop]
  cases hd : row.drop j with
  | nil => rw [hd] at h; cases h
  | cons a q =>
    rw [hd, List.takeWhile_cons] at h
    split at h
    · rename_i ha
      cases h
      exact ⟨rfl, by simpa using ha⟩
    · cases h

theorem fakeReduce_of {t : Tables} {under : List Nat} (hu : under ≠ []) {e : TableAction} (ht : e.type = .reduce ∨ e.type = .weakreduce) {popped : Nat} {pushed : List Nat}
    {r : ReduceRule} (hr : rule t e.nextState = some r) {s1 g : Nat} {rest1 : List Nat} (hp : pops r.length (virt popped pushed under) = s1 :: rest1)
    (hg : gotoFor t s1 r.identifier = .ok (some g)) : ∃ p, fakeReduce t e popped pushed under = .ok p ∧ virt p.1 p.2 under = g :: s1 :: rest1 := by
  have hv := fakePop_virt under hu r.length popped pushed
  rw [hp] at hv
  refine ⟨((fakePop r.length popped pushed).1, g :: (fakePop r.length popped pushed).2), ?_, ?_⟩
  · have htop : topOf (fakePop r.length popped pushed).1 (fakePop r.length popped pushed).2 under = .ok s1 := by
      rw [topOf_virt, hv]
      rfl
    unfold fakeReduce
    rcases ht with ht | ht <;> rw [ht] <;> dsimp only <;> rw [hr] <;> simp only [orUb, bind, Except.bind, htop, hg, pure, Except.pure]
  · show g :: virt _ _ under = _
    rw [hv]

theorem canLoop_run {t : Tables} {term : Bool} {sym : Int} {stack : List Nat} (h : CanRun t term sym stack) {under : List Nat} (hu : under ≠ []) :
    ∃ f0, ∀ (popped : Nat) (pushed : List Nat), virt popped pushed under = stack → ∀ s rest j outer, stack = s :: rest → findSym t term s sym = .ok j →
      canLoop t term sym under f0 outer s j popped pushed = .ok true := by
  induction h with
  | @done s rest e l h1 h2 =>
    refine ⟨1, fun popped pushed _ s' rest' j outer he hj => ?_⟩
    obtain ⟨rfl, rfl⟩ := List.cons.inj he
    obtain ⟨row, j', q1, q2, q3, q4⟩ := entry_row h1
    rw [q2] at hj
    cases hj
    have hlt := (List.getElem?_eq_some_iff.1 q3).1
    unfold canLoop
    rw [q1]
    simp only [bind, Except.bind]
    rw [if_neg (by rintro ⟨-, h⟩; omega), q3]
    simp only [orUb]
    rw [if_neg (by rw [q4]; simp)]
    rcases h2 with h2 | h2 | h2 <;> rw [h2] <;> rfl
  | @step s rest e l r s1 g rest1 h1 h2 h3 h4 h5 h6 ih =>
    obtain ⟨f0, ih⟩ := ih
    refine ⟨f0 + 1, fun popped pushed hv s' rest' j outer he hj => ?_⟩
    obtain ⟨rfl, rfl⟩ := List.cons.inj he
    obtain ⟨row, j', q1, q2, q3, q4⟩ := entry_row h1
    rw [q2] at hj
    cases hj
    obtain ⟨p, p1, p2⟩ := fakeReduce_of hu h2 h3 (hv ▸ h4) h5
    have hlt := (List.getElem?_eq_some_iff.1 q3).1
    have htop : topOf p.1 p.2 under = .ok g := by
      rw [topOf_virt, p2]
      rfl
    have hfind : ∃ j2, findSym t term g sym = .ok j2 := by
      cases h6 with
      | done k => obtain ⟨_, j2, -, q, -⟩ := entry_row k; exact ⟨j2, q⟩
      | step k => obtain ⟨_, j2, -, q, -⟩ := entry_row k; exact ⟨j2, q⟩
    obtain ⟨j2, hj2⟩ := hfind
    unfold canLoop
    rw [q1]
    simp only [bind, Except.bind]
    rw [if_neg (by rintro ⟨-, h⟩; omega), q3]
    simp only [orUb]
    rw [if_neg (by rw [q4]; simp)]
    rcases h2 with h2 | h2 <;> rw [h2] <;> simp only [p1, htop, hj2, ih _ _ p2 g (s1 :: rest1) j2 _ rfl hj2, if_pos]
    rfl

/-- A weak reduction that leads to a shift is performed. -/
theorem canReduceAct_run {t : Tables} {term : Bool} {sym : Int} {under : List Nat} {e : TableAction} (ht : e.type = .weakreduce) {r : ReduceRule}
    (hr : rule t e.nextState = some r) {s1 g : Nat} {rest1 : List Nat} (hu : under ≠ []) (hp : pops r.length under = s1 :: rest1) (hg : gotoFor t s1 r.identifier = .ok (some g))
    (h : CanRun t term sym (g :: s1 :: rest1)) : ∃ f0, canReduceAct t f0 term sym e [] under = .ok true := by
  have hv : virt 0 [] under = under := by simp [virt]
  obtain ⟨p, p1, p2⟩ := fakeReduce_of (popped := 0) (pushed := []) hu (.inr ht) hr (by rw [hv]; exact hp) hg
  obtain ⟨f0, hf⟩ := canLoop_run h hu
  have htop : topOf p.1 p.2 under = .ok g := by
    rw [topOf_virt, p2]
    rfl
  have hfind : ∃ j2, findSym t term g sym = .ok j2 := by
    cases h with
    | done k => obtain ⟨_, j2, -, q, -⟩ := entry_row k; exact ⟨j2, q⟩
    | step k => obtain ⟨_, j2, -, q, -⟩ := entry_row k; exact ⟨j2, q⟩
  obtain ⟨j2, hj2⟩ := hfind
  refine ⟨f0, ?_⟩
  unfold canReduceAct canReduce
  rw [if_neg (by rw [ht]; simp), p1]
  simp only [bind, Except.bind, htop, hj2]
  exact hf _ _ p2 g _ j2 g rfl hj2

/-! ### AutoRuns in which weak reductions are checked -/

/-- What a token is looked up as. -/
def termOf : List Tok → Bool
  | [] => false
  | _ :: _ => true

def symOf (t : Tables) : List Tok → Int
  | [] => t.endOfInput
  | k :: _ => k.sym

/-- Steps with the first action for the lookahead. Whether a weak reduction is passed over is not looked at. -/
inductive Moves (t : Tables) : PState → PState → Prop
  | shift {s : Nat} {st : List (Nat × Tree)} {τ : Tree} {k : Tok} {rest : List Tok} {e : TableAction} : FirstEntry t s (.terminal k.sym) e → e.type = .shift →
      Moves t ⟨(s, τ) :: st, k :: rest⟩ ⟨(e.nextState, .leaf (some k)) :: (s, τ) :: st, rest⟩
  | strong {s : Nat} {st : List (Nat × Tree)} {τ : Tree} {k k' : Tok} {rest : List Tok} {e : TableAction} : FirstEntry t s (.terminal k.sym) e → e.type = .shiftstrong →
      strongForWeak t k.sym = some k'.sym → k'.text = k.text →
      Moves t ⟨(s, τ) :: st, k :: rest⟩ ⟨(e.nextState, .leaf (some k')) :: (s, τ) :: st, rest⟩
  | reduce {s s' : Nat} {τ : Tree} {st q : List (Nat × Tree)} {top : Nat} {τ' : Tree} {l : List (Nat × Tree)} {r : ReduceRule} {rest : List Tok} {e : TableAction} :
      FirstEntry t top (lookahead rest) e → e.type = .reduce ∨ e.type = .weakreduce → rule t e.nextState = some r → q.length = r.length →
      q ++ (s, τ) :: st = (top, τ') :: l → gotoFor t s r.identifier = .ok (some s') →
      Moves t ⟨q ++ (s, τ) :: st, rest⟩ ⟨(s', .node r.identifier r.ruleId (q.map (·.2))) :: (s, τ) :: st, rest⟩

theorem pops_all : ∀ (q : List Nat) (e : Nat) (st : List Nat), pops q.length (q ++ e :: st) = e :: st
  | [], e, st => rfl
  | [a], e, st => rfl
  | a :: b :: q, e, st => by
    rw [List.length_cons]
    show pops (b :: q).length (b :: q ++ e :: st) = _
    exact pops_all (b :: q) e st

theorem FirstEntry.found {t : Tables} {s : Nat} {rest : List Tok} {e : TableAction} (h : FirstEntry t s (lookahead rest) e) :
    ∃ l, entriesFor t (termOf rest) s (symOf t rest) = .ok (e :: l) := by
  cases rest with
  | nil => exact h.2 rfl
  | cons k rest => exact h.1 k.sym rfl

/-- The state leads to acceptance, and so does a lookup of its first token in `can_reduce`. -/
theorem moves_accepted {t : Tables} {s fin : PState} (h : ReflTransGen (Moves t) s fin) {top : Nat} {l : List (Nat × Tree)} {τ : Tree} (hst : fin.stack = (top, τ) :: l)
    {e : TableAction} (he : FirstEntry t top (lookahead fin.input) e) (ht : e.type = .accept) :
    (∃ fuel, parse t fuel s = .ok (true, fin)) ∧ CanRun t (termOf s.input) (symOf t s.input) (s.stack.map (·.1)) := by
  induction h using ReflTransGen.head_induction_on with
  | refl =>
    obtain ⟨l', h1⟩ := he.found
    refine ⟨⟨1, ?_⟩, ?_⟩
    · obtain ⟨stack, input⟩ := fin
      dsimp only at hst h1
      subst hst
      cases input with
      | nil =>
        simp only [termOf, symOf] at h1
        simp [parse, process, standard, orUb, bind, Except.bind, h1, processActions, ht, pure, Except.pure]
      | cons k rest =>
        simp only [termOf, symOf] at h1
        simp [parse, process, standard, orUb, bind, Except.bind, h1, processActions, ht, pure, Except.pure]
    · rw [hst]
      exact .done h1 (.inr (.inr ht))
  | @head a b hs _ ih =>
    obtain ⟨⟨fuel, hp⟩, hc⟩ := ih
    have hrest : ∀ {f : Nat}, process t f a = .ok (.more, b) → ∃ fuel, parse t fuel a = .ok (true, fin) := by
      intro f hf
      refine ⟨max f fuel + 1, ?_⟩
      have h1 := (process_mono t a (Nat.le_max_left f fuel)).ok hf
      have h2 := (parse_mono t _ _ b (Nat.le_max_right f fuel)).ok hp
      unfold parse
      rw [h1]
      exact h2
    cases hs with
    | @shift s st τ k rest e h1 h2 =>
      obtain ⟨l', h3⟩ := h1.1 _ rfl
      refine ⟨hrest (f := 0) ?_, .done h3 (.inl h2)⟩
      simp [process, standard, orUb, bind, Except.bind, h3, processActions, h2, perform, next, pure, Except.pure]
    | @strong s st τ k k' rest e h1 h2 h4 h5 =>
      obtain ⟨l', h3⟩ := h1.1 _ rfl
      refine ⟨hrest (f := 0) ?_, .done h3 (.inr (.inl h2))⟩
      obtain ⟨k1, k2⟩ := k
      obtain ⟨k1', k2'⟩ := k'
      dsimp only at h3 h4 h5
      subst h5
      simp [process, standard, orUb, bind, Except.bind, h3, processActions, h2, perform, next, h4, pure, Except.pure]
    | @reduce s s' τ st q top' τ' l' r rest e h1 h2 h3 h4 h5 h6 =>
      obtain ⟨l2, h7⟩ := h1.found
      have hmap : (q ++ (s, τ) :: st).map (·.1) = top' :: l'.map (·.1) := by rw [h5]; rfl
      have hpops : pops r.length (top' :: l'.map (·.1)) = s :: st.map (·.1) := by
        rw [← hmap, ← h4, ← List.length_map (f := fun x : Nat × Tree => x.1), List.map_append, List.map_cons]
        exact pops_all _ _ _
      have hcan : CanRun t (termOf rest) (symOf t rest) (s' :: s :: st.map (·.1)) := hc
      refine ⟨?_, ?_⟩
      · have hpop := popItems_all q (s, τ) st []
        rw [h4, List.nil_append] at hpop
        have hcur : (standard t).current ⟨q ++ (s, τ) :: st, rest⟩ = .ok top' := by
          rw [h5]
          rfl
        have hred : (standard t).reduce r ⟨q ++ (s, τ) :: st, rest⟩ = .ok ⟨(s', .node r.identifier r.ruleId (q.map (·.2))) :: (s, τ) :: st, rest⟩ := by
          simp [standard, hpop, bind, Except.bind, orUb, h6, pure, Except.pure]
        rcases h2 with h2 | h2
        · refine hrest (f := 0) ?_
          unfold process
          rw [hcur]
          cases rest with
          | nil =>
            simp only [termOf, symOf] at h7
            simp [bind, Except.bind, h7, processActions, h2, perform, h3, orUb, hred, pure, Except.pure]
          | cons k rest =>
            simp only [termOf, symOf] at h7
            simp [bind, Except.bind, h7, processActions, h2, perform, h3, orUb, hred, pure, Except.pure]
        · obtain ⟨f0, hf⟩ := canReduceAct_run (under := (q ++ (s, τ) :: st).map (·.1)) h2 h3 (by simp) (by rw [hmap]; exact hpops) h6 hcan
          refine hrest (f := f0) ?_
          unfold process
          rw [hcur]
          cases rest with
          | nil =>
            simp only [termOf, symOf] at h7 hf
            simp only [bind, Except.bind, List.head?_nil, h7, processActions, h2, if_true, hf, perform, h3, orUb, hred, pure, Except.pure]
          | cons k rest =>
            simp only [termOf, symOf] at h7 hf
            simp only [bind, Except.bind, List.head?_cons, h7, processActions, h2, if_true, hf, perform, h3, orUb, hred, pure, Except.pure]
      · show CanRun t (termOf rest) (symOf t rest) ((q ++ (s, τ) :: st).map (·.1))
        rw [hmap]
        exact .step h7 h2 h3 hpops h6 hcan

/-! ### Tables with weak symbols -/

/-- Tables in which every action of the automaton comes first for the tokens that may stand for its symbol in the state (`stands s k k'`: in the state `s` the
token `k` of the input stands for `k'`). -/
structure WeakDet (first : Item → List Item) (g : Gram) (okI : Item → Prop) (num : Numbering) (m : Mach) (n0 : Nat) (t : Tables) (stands : Nat → Tok → Tok → Prop) : Prop where
  ok : ∀ s e, Lr1c first g m n0 s e → ∀ x ∈ e.1.rule.items, okI x
  step : ∀ s e x, Lr1c first g m n0 s e → e.1.rule.items[e.1.dot]? = some x → ∃ s', tr m s x = some s'
  shift : ∀ s k k' s', stands s k k' → tr m s (.terminal k'.sym) = some s' → ∃ e, FirstEntry t s (.terminal k.sym) e ∧ e.nextState = s' ∧
    (e.type = .shift ∧ k' = k ∨ e.type = .shiftstrong ∧ strongForWeak t k.sym = some k'.sym ∧ k'.text = k.text)
  reduce : ∀ s r b b', Lr1c first g m n0 s (⟨r, r.items.length⟩, some b') → closRules g r.nonterminal ≠ [] →
    (b = .eoi ∧ b' = .eoi ∨ ∃ k k', stands s k k' ∧ b = .terminal k.sym ∧ b' = .terminal k'.sym) → ∃ e, FirstEntry t s b e ∧ (e.type = .reduce ∨ e.type = .weakreduce) ∧
    rule t e.nextState = some ⟨num.ident r.nonterminal, num.ruleId r, r.items.length⟩
  accept : ∀ s r, Lr1c first g m n0 s (⟨r, r.items.length⟩, some .eoi) → r.nonterminal = .empty → ∃ e, FirstEntry t s .eoi e ∧ e.type = .accept
  goto : ∀ s x s', tr m s x = some s' → closRules g x ≠ [] → gotoFor t s (num.ident x) = .ok (some s')

section
variable {first : Item → List Item} {g : Gram} {okI : Item → Prop} {num : Numbering} {m : Mach} {n0 : Nat} {t : Tables} {stands : Nat → Tok → Tok → Prop}

/-- A step of the automaton itself: a shift along a transition, or the reduction of a rule with the next token in its lookahead. -/
inductive AutoRuns (first : Item → List Item) (g : Gram) (num : Numbering) (m : Mach) (n0 : Nat) : PState → PState → Prop
  | shift {s s' : Nat} {τ : Tree} {st : List (Nat × Tree)} {k : Tok} {rest : List Tok} : tr m s (.terminal k.sym) = some s' →
      AutoRuns first g num m n0 ⟨(s, τ) :: st, k :: rest⟩ ⟨(s', .leaf (some k)) :: (s, τ) :: st, rest⟩
  | reduce {s s' : Nat} {τ : Tree} {st q : List (Nat × Tree)} {top : Nat} {τ' : Tree} {l : List (Nat × Tree)} {r : Rule} {rest : List Tok} :
      Lr1c first g m n0 top (⟨r, r.items.length⟩, some (lookahead rest)) → r.items ∈ closRules g r.nonterminal → q.length = r.items.length →
      q ++ (s, τ) :: st = (top, τ') :: l → tr m s r.nonterminal = some s' →
      AutoRuns first g num m n0 ⟨q ++ (s, τ) :: st, rest⟩ ⟨(s', .node (num.ident r.nonterminal) (num.ruleId r) (q.map (·.2))) :: (s, τ) :: st, rest⟩

/-- In every state that the automaton comes to, the next token of the input stands for the next token of the reading. -/
def Clear (first : Item → List Item) (g : Gram) (num : Numbering) (m : Mach) (n0 : Nat) (stands : Nat → Tok → Tok → Prop) (a : PState) (w : List Tok) : Prop :=
  ∀ u k v, w = u ++ k :: v → ∀ s τ l k' rest, rest.length = v.length → ReflTransGen (AutoRuns first g num m n0) a ⟨(s, τ) :: l, k' :: rest⟩ →
    ∀ x, AutoRuns first g num m n0 ⟨(s, τ) :: l, k' :: rest⟩ x → stands s k k'

theorem runs_moves (hd : WeakDet first g okI num m n0 t stands) {a b : PState} (h : ReflTransGen (AutoRuns first g num m n0) a b) : ∀ w, w.length = a.input.length →
    Clear first g num m n0 stands a w → ∃ w', w'.length = b.input.length ∧ ReflTransGen (Moves t) ⟨a.stack, w⟩ ⟨b.stack, w'⟩ := by
  induction h using ReflTransGen.head_induction_on with
  | refl => exact fun w hw _ => ⟨w, hw, .refl⟩
  | head hs _ ih =>
    intro w hw hc
    cases hs with
    | @shift s s' τ st k' rest htr =>
      cases w with
      | nil => cases hw
      | cons k w =>
        have hw : w.length = rest.length := Nat.succ.inj hw
        have hst := hc [] k w rfl s τ st k' rest hw.symm .refl _ (.shift htr)
        obtain ⟨w2, h3, h4⟩ := ih w hw (fun u k1 v e s1 τ1 l1 k1' rest1 e1 hr => hc (k :: u) k1 v (by rw [e]; rfl) s1 τ1 l1 k1' rest1 e1 (.head (.shift htr) hr))
        refine ⟨w2, h3, .head ?_ h4⟩
        obtain ⟨e, e1, rfl, ⟨e3, rfl⟩ | ⟨e3, e4, e5⟩⟩ := hd.shift s k k' s' hst htr
        · exact .shift e1 e3
        · exact .strong e1 e3 e4 e5
    | @reduce s s' τ st q top τ' l r rest h1 h2 h3 h4 h5 =>
      obtain ⟨w2, h6, h7⟩ := ih w hw (fun u k1 v e s1 τ1 l1 k1' rest1 e1 hr => hc u k1 v e s1 τ1 l1 k1' rest1 e1 (.head (.reduce h1 h2 h3 h4 h5) hr))
      refine ⟨w2, h6, .head ?_ h7⟩
      obtain ⟨e, e1, e2, e3⟩ := hd.reduce top r (lookahead w) _ h1 (List.ne_nil_of_mem h2) (by
        cases w with
        | nil =>
          cases rest with
          | nil => exact .inl ⟨rfl, rfl⟩
          | cons _ _ => cases hw
        | cons k w =>
          cases rest with
          | nil => cases hw
          | cons k' rest => exact .inr ⟨k, k', hc [] k w rfl top τ' l k' rest (Nat.succ.inj hw).symm (by rw [h4]) _ (by rw [← h4]; exact .reduce h1 h2 h3 h4 h5), rfl, rfl⟩)
      exact .reduce e1 e2 e3 h3 h4 (hd.goto s _ s' h5 (List.ne_nil_of_mem h2))

/-- For tables: the parser accepts every input that can be read as one that has a tree, and makes the tree. -/
theorem parse_weak_complete (hd : WeakDet first g okI num m n0 t stands) (hg : Plain g okI) (hf : ∀ x, okI x → g.FirstComplete x (first x)) {k0 : Nat} {start : Item}
    (hk : k0 < n0) (hS : kern m k0 = [startItem start]) {τ : Tree} {input reading : List Tok} (hl : input.length = reading.length)
    (hr : Clear first g num m n0 stands (Parser.start k0 reading) input)
    (h : Forest g num [start] [τ] reading) : ∃ fuel st, parse t fuel (Parser.start k0 input) = .ok (true, ⟨[(st, τ), (k0, .nothing)], []⟩) := by
  have h0 : Lr1c first g m n0 k0 (startItem start, some (lookahead [])) := ⟨_, .start hk hS (fun a ha => (Option.some.inj ha).symm), .refl⟩
  obtain ⟨q, top, τ', l, e1, e2, e3, e4, e5⟩ := forest_walk (R := AutoRuns first g num m n0) ⟨hd.ok, hd.step, fun h => .shift h, fun h1 h2 h3 h4 h5 => .reduce h1 h2 h3 h4 h5⟩
    hg hf h (τ := .nothing) (st := []) h0 (Nat.zero_le _) rfl
  obtain ⟨e, h1, h2⟩ := hd.accept top _ e4 rfl
  rw [List.append_nil] at e5
  obtain ⟨w', hw, hm⟩ := runs_moves hd e5 input hl hr
  have hw : w' = [] := List.length_eq_zero_iff.1 hw
  subst hw
  match q, e2, e3 with
  | [(s', σ)], e2, _ =>
    have hσ : σ = τ := by simpa using e2
    have hs : s' = top := by cases e1; rfl
    subst hσ hs
    obtain ⟨⟨fuel, hp⟩, -⟩ := moves_accepted hm (top := s') (τ := σ) (l := [(k0, .nothing)]) rfl h1 h2
    exact ⟨fuel, s', hp⟩

theorem runs_suffix {a b : PState} (h : ReflTransGen (AutoRuns first g num m n0) a b) : b.input <:+ a.input := by
  induction h with
  | refl => exact List.suffix_refl _
  | tail _ hs ih =>
    cases hs with
    | shift => exact (List.suffix_cons _ _).trans ih
    | reduce => exact ih

end

/-! ### The tables of a language with weak symbols -/

/-- A language without precedences, conflict attributes and LR(1) resolver. -/
structure Soft (st : Stage) : Prop where
  precs : st.precs = []
  attributes : ∀ s, ∀ p ∈ st.attributes s, p.2 = none
  targets : st.targets = none

/-- The weak symbols are terminal symbols, and none is the strong symbol for another. -/
structure WeakOk (w : Rewriters.Weak) : Prop where
  keys : (w.strongToWeak.map (·.1)).Nodup
  strong : ∀ p ∈ w.strongToWeak, p.1 ∉ w.weakSymbols
  weak : ∀ p ∈ w.strongToWeak, ∀ i ∈ p.2, i ∈ w.weakSymbols

theorem soft_rewrite {st : Stage} (h : Soft st) (s : Nat) (acts : List LrAction) :
    st.rewrite s acts = Rewriters.rewriteIgnored st.ignored s (Rewriters.rewriteWeak st.weak acts) := by
  unfold Stage.rewrite Stage.applyLr1
  rw [h.precs, h.targets]
  simp only [List.foldl_nil, attributes_none (h.attributes s)]

theorem WeakOk.find {w : Rewriters.Weak} (h : WeakOk w) {n n' : Int} (hs : StrongOf w n n') : ∃ ws, w.find (.terminal n') = some ws ∧ Item.terminal n ∈ ws := by
  obtain ⟨ws, h1, h2⟩ := hs
  refine ⟨ws, ?_, h2⟩
  have hk := h.keys
  unfold Rewriters.Weak.find
  generalize w.strongToWeak = l at h1 hk
  induction l with
  | nil => cases h1
  | cons p l ih =>
    rw [List.map_cons, List.nodup_cons] at hk
    rw [List.find?_cons]
    rcases List.mem_cons.1 h1 with rfl | h1
    · simp
    · have : (p.1 == Item.terminal n') = false := by
        rw [beq_eq_false_iff_ne]
        intro hp
        exact hk.1 (hp ▸ List.mem_map.2 ⟨_, h1, rfl⟩)
      rw [this]
      exact ih h1 hk.2

theorem forall_at {α β : Type} {R : α → β → Prop} {k : α} {k' : β} {v : List α} {v' : List β} : ∀ {u : List α} {u' : List β}, u.length = u'.length →
    List.Forall₂ R (u ++ k :: v) (u' ++ k' :: v') → R k k'
  | [], [], _, h => by cases h; assumption
  | _ :: _, _ :: _, hl, h => by
    cases h with
    | cons _ h => exact forall_at (Nat.succ.inj hl) h

section
variable {first initial : Item → List Item} {g : Gram} {okI : Item → Prop} {okR : Rule → Prop} {rid : Rule → Nat} {clos : LItem → List Item → Set1}
  {own : LItem → Set1} {lt : Key → Key → Bool} {languages : List Item} {m m' : Mach} {st : Stage} {states : List (List LrAction)} {num : Numbering}
  {sort : List TableAction → List TableAction} {sortWeak : List (Int × Int) → List (Int × Int)} {occ : Item → Prop}

local notation "T" => build num sort sortWeak states (some st.weak.strongToWeak)
set_option quotPrecheck false in
local notation "n0" => (Lalr.initials languages).states.length

/-- The state has no action for the symbol. -/
def Lacks (first : Item → List Item) (g : Gram) (initial : Item → List Item) (m : Mach) (n : Nat) (s : Nat) (i : Int) : Prop :=
  ∀ a, Act first g initial m n s a → a.item ≠ .terminal i

/-- What a token may be read as: itself or, if it is weak, its strong symbol with the same text. -/
def Loose (w : Rewriters.Weak) (k k' : Tok) : Prop := k' = k ∨ StrongOf w k.sym k'.sym ∧ k'.text = k.text

/-- A token stands for itself. A weak token also stands for its strong symbol, in states that have no action for the weak one. -/
def StandsIn (lacks : Nat → Int → Prop) (w : Rewriters.Weak) (s : Nat) (k k' : Tok) : Prop :=
  k' = k ∨ StrongOf w k.sym k'.sym ∧ k'.text = k.text ∧ lacks s k.sym

/-- What an action of the tables comes from: the automaton, a weakened reduction of it, the copy of the action for a strong symbol, an ignored symbol. -/
inductive From (first initial : Item → List Item) (g : Gram) (m : Mach) (n : Nat) (st : Stage) (s : Nat) (b : LrAction) : Prop
  | own : Act first g initial m n s b → From first initial g m n st s b
  | weak {a : LrAction} : Act first g initial m n s a → a.type = .reduce → a.item ∈ st.weak.weakSymbols → b = Rewriters.weaken a → From first initial g m n st s b
  | copy {a : LrAction} {i j : Int} : Act first g initial m n s a → a.item = .terminal j → StrongOf st.weak i j → b = Rewriters.asWeak a (.terminal i) →
      (∀ c, Act first g initial m n s c → c.item ≠ .terminal i) → From first initial g m n st s b
  | ignore : b.item ∈ st.ignored → b = ⟨.ignore, b.item, s, Rewriters.emptyRule⟩ → From first initial g m n st s b

theorem Made.plainTypes (h : Made first initial g okI okR rid clos own lt languages m m' st states num sort sortWeak occ) (hg : Plain g okI) {s : Nat} {b : LrAction} (hact : Act first g initial m n0 s b) :
    (isTerminal b.item = true → (b.type = .shift ∨ b.type = .reduce) ∧ Involved first g m n0 s b.item) ∧
    (b.item = .eoi → (b.type = .reduce ∨ b.type = .accept) ∧ Involved first g m n0 s b.item) ∧ b.type ≠ .guard := by
  obtain ⟨_, _, hm⟩ := h.machine
  obtain ⟨_, hm'⟩ := h.lookaheads
  obtain ⟨hi, -, -⟩ := completeStates_inv h.ridInj h.univ h.closOk h.starts hm
  obtain ⟨-, -, -, -, h5, h6, -⟩ := lr0_states_exact h.ridInj h.univ h.closOk h.starts hm
  have htr : ∀ s x s', tr m s x = some s' → okI x := by
    intro s x s' ht
    have hs := (h6 s x s' ht).1
    obtain ⟨-, i, hci, hx⟩ := (h5 s hs x).1 ⟨s', ht⟩
    exact h.univ.items i.rule (clos0_good h.univ (hi.good s hs) hci).1 x (List.mem_of_getElem? hx)
  have hlook : ∀ s e, Lr1c first g m n0 s e → ∀ a, e.2 = some a → Sym okI a := fun s e he =>
    (lr1_sym (lt := lt) h.ridInj h.univ h.closOk h.selfOk h.firsts h.starts hm hm' (h.inRange he) he).2
  exact act_types (initial := initial) (s := s) (b := b) hg hlook htr h.noEoi hact

theorem Made.notIgnored (h : Made first initial g okI okR rid clos own lt languages m m' st states num sort sortWeak occ) {s : Nat} (hs : s < m.states.length) {a : LrAction} (hact : Act first g initial m n0 s a) : a.item ∉ st.ignored := by
  obtain ⟨_, _, hm⟩ := h.machine
  obtain ⟨_, hm'⟩ := h.lookaheads
  intro him
  rcases act_sym h.ridInj h.univ h.closOk h.selfOk h.firsts h.inits h.starts hm hm' hs hact with h3 | h3 | h3
  · exact (h.ignored _ him).2 h3
  · have := (h.ignored _ him).1
    rw [h3] at this
    cases this
  · have := (h.ignored _ him).1
    rw [h3] at this
    cases this

section
variable (h : Made first initial g okI okR rid clos own lt languages m m' st states num sort sortWeak occ) (hb : Soft st) (hw : WeakOk st.weak) (hg : Plain g okI)
include h hb hw hg

theorem Made.softOrigin {s : Nat} {acts : List LrAction} (hs : states[s]? = some acts) : s < m.states.length ∧
    (∀ b ∈ acts, From first initial g m n0 st s b) ∧
    (∀ a, Act first g initial m n0 s a → a ∈ acts ∨ a.type = .reduce ∧ a.item ∈ st.weak.weakSymbols ∧ Rewriters.weaken a ∈ acts) ∧
    (∀ a i j, Act first g initial m n0 s a → a.item = .terminal j → StrongOf st.weak i j → (∀ c, Act first g initial m n0 s c → c.item ≠ .terminal i) →
      Rewriters.asWeak a (.terminal i) ∈ acts) := by
  have hlt : s < m.states.length := by
    rw [← h.length]
    by_contra hc
    rw [List.getElem?_eq_none (by omega)] at hs
    cases hs
  obtain ⟨acts', h1, h2⟩ := h.exact hlt
  rw [h2] at hs
  cases hs
  rw [soft_rewrite hb]
  have hno : ∀ a, Act first g initial m n0 s a → a.item ∉ st.ignored := fun a ha => h.notIgnored hlt ha
  -- the weak symbols
  have hweak : (∀ b ∈ Rewriters.rewriteWeak st.weak acts', From first initial g m n0 st s b ∧ b.item ∉ st.ignored) ∧
      (∀ a, Act first g initial m n0 s a → a ∈ Rewriters.rewriteWeak st.weak acts' ∨ a.type = .reduce ∧ a.item ∈ st.weak.weakSymbols ∧
        Rewriters.weaken a ∈ Rewriters.rewriteWeak st.weak acts') ∧
      (∀ a i j, Act first g initial m n0 s a → a.item = .terminal j → StrongOf st.weak i j → (∀ c, Act first g initial m n0 s c → c.item ≠ .terminal i) →
        Rewriters.asWeak a (.terminal i) ∈ Rewriters.rewriteWeak st.weak acts') := by
    cases hh : Rewriters.haveStrong st.weak acts' with
    | false =>
      rw [Rewriters.weak_rewrite_none _ _ hh]
      refine ⟨fun b hb => ⟨.own ((h1 b).1 hb), hno b ((h1 b).1 hb)⟩, fun a ha => .inl ((h1 a).2 ha), ?_⟩
      intro a i j ha haj hij _
      exfalso
      obtain ⟨ws, e1, e2⟩ := hw.find hij
      have : Rewriters.haveStrong st.weak acts' = true := by
        unfold Rewriters.haveStrong
        rw [List.any_eq_true]
        refine ⟨a, (h1 a).2 ha, ?_⟩
        rw [haj, e1]
        cases ws with
        | nil => cases e2
        | cons _ _ => rfl
      rw [hh] at this
      cases this
    | true =>
      have hex := Rewriters.weak_rewrite_exact st.weak acts' hh
      refine ⟨?_, ?_, ?_⟩
      · intro b hb'
        rcases (hex b).1 hb' with ⟨e1, -⟩ | ⟨a, e1, e2, e3, e4, rfl⟩ | ⟨a, e1, e2, e3, ws, e4, i, e5, e6, e7, rfl⟩
        · exact ⟨.own ((h1 b).1 e1), hno b ((h1 b).1 e1)⟩
        · have ha := (h1 a).1 e1
          refine ⟨.weak ha ?_ e3 rfl, hno a ha⟩
          rcases ((h.plainTypes hg ha).1 e2).1 with h | h
          · rw [h] at e4; cases e4
          · exact h
        · have ha := (h1 a).1 e1
          have hmem := find_mem e4
          cases hai : a.item <;> rw [hai] at e2 <;> try cases e2
          cases hi : i <;> rw [hi] at e6 <;> try cases e6
          rename_i j n
          subst hi
          refine ⟨.copy ha hai ⟨ws, hai ▸ hmem, e5⟩ rfl ?_, h.weak _ hmem _ e5⟩
          intro c hc hci
          exact (h.plainTypes hg hc).2.2 (e7 c ((h1 c).2 hc) hci (hw.weak _ hmem _ e5))
      · intro a ha
        obtain ⟨t1, t2, t3⟩ := h.plainTypes hg ha
        cases hti : isTerminal a.item with
        | false => exact .inl ((hex a).2 (.inl ⟨(h1 a).2 ha, .inl hti⟩))
        | true =>
          by_cases hwk : a.item ∈ st.weak.weakSymbols
          · rcases (t1 hti).1 with ht | ht
            · exact .inl ((hex a).2 (.inl ⟨(h1 a).2 ha, .inr (.inr (by rw [ht]; rfl))⟩))
            · exact .inr ⟨ht, hwk, (hex _).2 (.inr (.inl ⟨a, (h1 a).2 ha, hti, hwk, by rw [ht]; rfl, rfl⟩))⟩
          · exact .inl ((hex a).2 (.inl ⟨(h1 a).2 ha, .inr (.inl hwk)⟩))
      · intro a i j ha haj hij hnone
        obtain ⟨ws, e1, e2⟩ := hw.find hij
        refine (hex _).2 (.inr (.inr ⟨a, (h1 a).2 ha, by rw [haj]; rfl, ?_, ws, by rw [haj]; exact e1, .terminal i, e2, rfl, ?_, rfl⟩))
        · rw [haj]
          exact hw.strong _ (find_mem e1)
        · intro c hc hci
          exact absurd hci (hnone c ((h1 c).1 hc))
  obtain ⟨w1, w2, w3⟩ := hweak
  have hig := Rewriters.ignored_rewrite_exact st.ignored s (Rewriters.rewriteWeak st.weak acts')
  refine ⟨hlt, ?_, ?_, ?_⟩
  · intro b hb'
    rcases (hig b).1 hb' with ⟨e1, -⟩ | ⟨c, e1, -, e2, -⟩ | ⟨e1, e2, -⟩
    · exact (w1 b e1).1
    · exact absurd e2 (w1 c e1).2
    · exact .ignore e2 e1
  · intro a ha
    rcases w2 a ha with e | ⟨e1, e2, e3⟩
    · exact .inl ((hig a).2 (.inl ⟨e, fun hc => (w1 _ e).2 hc.2⟩))
    · exact .inr ⟨e1, e2, (hig _).2 (.inl ⟨e3, fun hc => (w1 _ e3).2 hc.2⟩)⟩
  · intro a i j ha haj hij hnone
    have e := w3 a i j ha haj hij hnone
    exact (hig _).2 (.inl ⟨e, fun hc => (w1 _ e).2 hc.2⟩)

/-- Without reported conflicts there is one action for each token, if a weak reduction is always the only one for its token. -/
theorem Made.softSingle {involved : Nat → Item → Bool} (hinv : ∀ s t, Involved first g m n0 s t → involved s t = true)
    (hcon : ∀ (s : Nat) (acts : List LrAction), states[s]? = some acts → Rewriters.findConflicts (involved s) acts = [])
    (hacc : ∀ (s : Nat) (acts : List LrAction), states[s]? = some acts → ∀ b ∈ acts, ∀ c ∈ acts, b.type = .accept → c.item = .eoi → c.type ≠ .reduce)
    (hwk : ∀ (s : Nat) (acts : List LrAction), states[s]? = some acts → ∀ b ∈ acts, ∀ c ∈ acts, b.type = .weakreduce → c.item = b.item → c = b)
    {s : Nat} {acts : List LrAction} (hs : states[s]? = some acts) {b c : LrAction} (hbm : b ∈ acts) (hcm : c ∈ acts) (hbc : b.item = c.item)
    (hbi : isTerminal b.item = true ∨ b.item = .eoi) : b = c ∨ (b.type = .accept ∧ c.type = .accept) := by
  obtain ⟨hlt, o1, o2, o3⟩ := h.softOrigin hb hw hg hs
  have hown : ∀ b c, Act first g initial m n0 s b → Act first g initial m n0 s c → b ∈ acts → c ∈ acts → b.item = c.item → isTerminal b.item = true ∨ b.item = .eoi →
      b = c ∨ (b.type = .accept ∧ c.type = .accept) := by
    intro b c hb1 hc1 hbm hcm hbc hbi
    obtain ⟨b1, b2, b3⟩ := h.plainTypes hg hb1
    obtain ⟨c1, c2, c3⟩ := h.plainTypes hg hc1
    by_contra hne
    rw [not_or] at hne
    have hbt : b.type ≠ .weakreduce := by
      rcases hbi with hbi | hbi
      · rcases (b1 hbi).1 with h | h <;> rw [h] <;> simp
      · rcases (b2 hbi).1 with h | h <;> rw [h] <;> simp
    have hall : ∀ a ∈ acts, a.item = b.item → Rewriters.counted a.type = true → Rewriters.isWeak a.type = false := by
      intro a ha hai hct
      have hnw : a.type ≠ .weakreduce := by
        intro hw'
        have := hwk s acts hs a ha b hbm hw' hai.symm
        rw [this] at hbt
        exact hbt hw'
      rcases o1 a ha with ha' | ⟨-, -, -, rfl⟩ | ⟨-, -, -, rfl, hn⟩ | ⟨h5, h6⟩
      · obtain ⟨a1, a2, -⟩ := h.plainTypes hg ha'
        rcases hbi with hbi | hbi
        · rcases (a1 (hai ▸ hbi)).1 with h | h <;> rw [h] <;> rfl
        · rcases (a2 (hai.trans hbi)).1 with h | h <;> rw [h] <;> rfl
      · exact absurd rfl hnw
      · exact absurd hai.symm (hn b hb1)
      · exact absurd (hai ▸ h5) (h.notIgnored hlt hb1)
    have hfin : Rewriters.counted b.type = true → Rewriters.counted c.type = true → Involved first g m n0 s b.item → False := by
      intro k1 k2 k3
      have := conflict_found (involved := involved s) hbm hcm hne.1 hbc hall k1 k2 (hinv s _ k3)
      rw [hcon s acts hs] at this
      cases this
    rcases hbi with hbi | hbi
    · obtain ⟨b1, b4⟩ := b1 hbi
      obtain ⟨c1, -⟩ := c1 (hbc ▸ hbi)
      refine hfin ?_ ?_ b4
      · rcases b1 with h | h <;> rw [h] <;> rfl
      · rcases c1 with h | h <;> rw [h] <;> rfl
    · obtain ⟨b2, b4⟩ := b2 hbi
      obtain ⟨c2, -⟩ := c2 (hbc ▸ hbi)
      rcases b2 with b2 | b2
      · rcases c2 with c2 | c2
        · exact hfin (by rw [b2]; rfl) (by rw [c2]; rfl) b4
        · exact hacc s acts hs c hcm b hbm c2 hbi b2
      · rcases c2 with c2 | c2
        · exact hacc s acts hs b hbm c hcm b2 (hbc ▸ hbi) c2
        · exact hne.2 ⟨b2, c2⟩
  rcases o1 b hbm with hb1 | ⟨-, -, -, rfl⟩ | @⟨a, i, j, ha, haj, hij, rfl, hn⟩ | ⟨h5, h6⟩
  · rcases o1 c hcm with hc1 | ⟨-, -, -, rfl⟩ | ⟨-, -, -, rfl, hn⟩ | ⟨h5, h6⟩
    · exact hown b c hb1 hc1 hbm hcm hbc hbi
    · exact .inl (hwk s acts hs _ hcm b hbm rfl hbc)
    · exact absurd hbc (hn b hb1)
    · exact absurd (hbc ▸ h5) (h.notIgnored hlt hb1)
  · exact .inl (hwk s acts hs _ hbm c hcm rfl hbc.symm).symm
  · rcases o1 c hcm with hc1 | ⟨hc1, -, -, rfl⟩ | @⟨a', i', j', ha', haj', hij', rfl, hn'⟩ | ⟨h5, h6⟩
    · exact absurd hbc.symm (hn c hc1)
    · rename_i a1
      exact absurd (show a1.item = .terminal i from hbc.symm) (hn a1 hc1)
    · have hii : i = i' := Item.terminal.inj hbc
      subst hii
      have hjj := h.strong _ _ _ hij hij'
      subst hjj
      obtain ⟨ws, e1, -⟩ := hw.find hij
      have hns := hw.strong _ (find_mem e1)
      have hin : ∀ x, Act first g initial m n0 s x → x.item = .terminal j → x ∈ acts := by
        intro x hx hxj
        rcases o2 x hx with h | ⟨-, h, -⟩
        · exact h
        · rw [hxj] at h
          exact absurd h hns
      rcases hown a a' ha ha' (hin a ha haj) (hin a' ha' haj') (haj.trans haj'.symm) (.inl (by rw [haj]; rfl)) with h | ⟨h1, -⟩
      · rw [h]; exact .inl rfl
      · rcases ((h.plainTypes hg ha).1 (by rw [haj]; rfl)).1 with h | h <;> rw [h] at h1 <;> cases h1
    · obtain ⟨ws, e1, e2⟩ := hw.find hij
      exact absurd (show Item.terminal i ∈ st.ignored from (show Item.terminal i = c.item from hbc) ▸ h5) (h.weak _ (find_mem e1) _ e2)
  · rcases o1 c hcm with hc1 | ⟨hc1, -, -, rfl⟩ | @⟨a', i', j', ha', haj', hij', rfl, hn'⟩ | ⟨h5', h6'⟩
    · exact absurd (hbc ▸ h5) (h.notIgnored hlt hc1)
    · exact absurd (hbc ▸ h5) (h.notIgnored hlt hc1)
    · obtain ⟨ws, e1, e2⟩ := hw.find hij'
      exact absurd (show Item.terminal i' ∈ st.ignored from (show b.item = Item.terminal i' from hbc) ▸ h5) (h.weak _ (find_mem e1) _ e2)
    · left
      rw [h6, h6', hbc]

/-- The tables of a parser with weak symbols for which no conflicts are reported. -/
theorem Made.weakDet {involved : Nat → Item → Bool} (hinv : ∀ s t, Involved first g m n0 s t → involved s t = true)
    (hcon : ∀ (s : Nat) (acts : List LrAction), states[s]? = some acts → Rewriters.findConflicts (involved s) acts = [])
    (hacc : ∀ (s : Nat) (acts : List LrAction), states[s]? = some acts → ∀ b ∈ acts, ∀ c ∈ acts, b.type = .accept → c.item = .eoi → c.type ≠ .reduce)
    (hwk : ∀ (s : Nat) (acts : List LrAction), states[s]? = some acts → ∀ b ∈ acts, ∀ c ∈ acts, b.type = .weakreduce → c.item = b.item → c = b) :
    WeakDet first g okI num m n0 T (StandsIn (Lacks first g initial m n0) st.weak) := by
  obtain ⟨_, _, h1⟩ := h.machine
  obtain ⟨_, h2⟩ := h.lookaheads
  obtain ⟨-, -, -, -, h5, h6, -⟩ := lr0_states_exact h.ridInj h.univ h.closOk h.starts h1
  -- the entry for an action that is there
  have hent : ∀ s acts, states[s]? = some acts → ∀ a ∈ acts, isTerminal a.item = true ∨ a.item = .eoi →
      ∃ e c, FirstEntry T s a.item e ∧ entryMeaning T e = meaning num c ∧ (a = c ∨ (a.type = .accept ∧ c.type = .accept)) := by
    intro s acts hst a hmem hi
    obtain ⟨e, c, q1, q2, q3, q4⟩ := h.firstEntry hst hmem hi
    exact ⟨e, c, q1, q4, h.softSingle hb hw hg hinv hcon hacc hwk hst hmem q2 q3.symm hi⟩
  constructor
  · intro s e he
    exact h.univ.items _ (h.clos0 he).2
  · intro s e x he hx
    have hok := h.univ.items _ (h.clos0 he).2 x (List.mem_of_getElem? hx)
    exact (h5 s (h.inRange he) x).2 ⟨h.univ.proper.empty x hok, e.1, (h.clos0 he).1, hx⟩
  · intro s k k' s' hk ht
    have hact : Act first g initial m n0 s ⟨.shift, .terminal k'.sym, s', Rewriters.emptyRule⟩ := .shift ht
    obtain ⟨acts, -, hst⟩ := h.exact (h6 s _ _ ht).1
    obtain ⟨-, -, o2, o3⟩ := h.softOrigin hb hw hg hst
    rcases hk with rfl | ⟨k1, k2, k3⟩
    · rcases o2 _ hact with hm | ⟨hm, -⟩
      · obtain ⟨e, c, q1, q2, q3⟩ := hent s _ hst _ hm (.inl rfl)
        rcases q3 with rfl | ⟨q3, -⟩
        · obtain ⟨r1, r2⟩ := entry_next q2 rfl
          exact ⟨e, q1, by rw [r2]; rfl, .inl ⟨r1, rfl⟩⟩
        · cases q3
      · cases hm
    · have hm := o3 _ k.sym k'.sym hact rfl k1 k3
      obtain ⟨e, c, q1, q2, q3⟩ := hent s _ hst _ hm (.inl rfl)
      rcases q3 with rfl | ⟨q3, -⟩
      · obtain ⟨r1, r2⟩ := entry_next q2 rfl
        exact ⟨e, q1, by rw [r2]; rfl, .inr ⟨r1, h.tab.weak _ _ k1, k2⟩⟩
      · cases q3
  · intro s r b b' he hne hbb
    have hty : reduceType r.nonterminal = .reduce := by
      cases hn : r.nonterminal <;> first | rfl | (rw [hn] at hne; exact absurd rfl hne)
    obtain ⟨acts, -, hst⟩ := h.exact (h.inRange he)
    obtain ⟨-, -, o2, o3⟩ := h.softOrigin hb hw hg hst
    -- the action for the symbol itself
    have hself : ∀ b : Item, reduceSymbol b = true → isTerminal b = true ∨ b = .eoi → Lr1c first g m n0 s (⟨r, r.items.length⟩, some b) →
        ∃ e, FirstEntry T s b e ∧ (e.type = .reduce ∨ e.type = .weakreduce) ∧ rule T e.nextState = some ⟨num.ident r.nonterminal, num.ruleId r, r.items.length⟩ := by
      intro b hb1 hb2 he
      rcases o2 _ (.reduce he hb1) with hm | ⟨-, -, hm⟩
      · obtain ⟨e, c, q1, q2, q3⟩ := hent s _ hst _ hm hb2
        rcases q3 with rfl | ⟨q3, -⟩
        · obtain ⟨r1, r2⟩ := entry_rule q2 (by simp [hty, isReduce])
          exact ⟨e, q1, .inl (r1.trans hty), r2⟩
        · rw [hty] at q3; cases q3
      · obtain ⟨e, c, q1, q2, q3⟩ := hent s _ hst _ hm hb2
        rcases q3 with rfl | ⟨q3, -⟩
        · obtain ⟨r1, r2⟩ := entry_rule q2 rfl
          exact ⟨e, q1, .inr r1, r2⟩
        · cases q3
    rcases hbb with ⟨rfl, rfl⟩ | ⟨k, k', hk, rfl, rfl⟩
    · exact hself .eoi rfl (.inr rfl) he
    · rcases hk with rfl | ⟨k1, k2, k3⟩
      · exact hself (.terminal k'.sym) rfl (.inl rfl) he
      · have hact : Act first g initial m n0 s ⟨reduceType r.nonterminal, .terminal k'.sym, -1, r⟩ := .reduce he rfl
        have hm := o3 _ k.sym k'.sym hact rfl k1 k3
        obtain ⟨e, c, q1, q2, q3⟩ := hent s _ hst _ hm (.inl rfl)
        have hty' : (Rewriters.asWeak ⟨reduceType r.nonterminal, .terminal k'.sym, -1, r⟩ (.terminal k.sym)).type = .reduce := by
          simp [Rewriters.asWeak, hty]
        rcases q3 with rfl | ⟨q3, -⟩
        · obtain ⟨r1, r2⟩ := entry_rule q2 (by rw [hty']; rfl)
          exact ⟨e, q1, .inl (r1.trans hty'), r2⟩
        · rw [hty'] at q3; cases q3
  · intro s r he hem
    have hty : reduceType r.nonterminal = .accept := by rw [hem]; rfl
    obtain ⟨acts, -, hst⟩ := h.exact (h.inRange he)
    obtain ⟨-, -, o2, -⟩ := h.softOrigin hb hw hg hst
    rcases o2 _ (.reduce he rfl) with hm | ⟨hm, -⟩
    · obtain ⟨e, c, q1, q2, q3⟩ := hent s _ hst _ hm (.inr rfl)
      refine ⟨e, q1, ?_⟩
      have : e.type = c.type := congrArg Prod.fst q2
      rw [this]
      rcases q3 with rfl | ⟨-, q3⟩
      · exact hty
      · exact q3
    · rw [show (LrAction.mk (reduceType r.nonterminal) Item.eoi (-1) r).type = reduceType r.nonterminal from rfl, hty] at hm
      cases hm
  · intro s x s' ht hx
    refine h.tab.goto s x s' ht ?_ ?_
    · cases x <;> first | rfl | (exact absurd rfl hx)
    · rintro p l rfl
      exact hx rfl

/-- C76 (partial: as C36, and weak reductions are the only actions for their tokens, which is not checked). If no conflicts are reported then the parser accepts
every input that can be read as a sentence, with ignored tokens anywhere, where weak tokens may be read as their strong symbols as long as the states in which they are
the next token have no actions for the weak symbols themselves. The tree has the tokens as they are read. -/
theorem weak_parser_complete_partial (hf : ∀ x, okI x → g.FirstComplete x (first x)) {involved : Nat → Item → Bool}
    (hinv : ∀ s t, Involved first g m n0 s t → involved s t = true)
    (hcon : ∀ (s : Nat) (acts : List LrAction), states[s]? = some acts → Rewriters.findConflicts (involved s) acts = [])
    (hacc : ∀ (s : Nat) (acts : List LrAction), states[s]? = some acts → ∀ b ∈ acts, ∀ c ∈ acts, b.type = .accept → c.item = .eoi → c.type ≠ .reduce)
    (hwk : ∀ (s : Nat) (acts : List LrAction), states[s]? = some acts → ∀ b ∈ acts, ∀ c ∈ acts, b.type = .weakreduce → c.item = b.item → c = b)
    {k0 : Nat} {start : Item} (hk : k0 < n0) (hS : kern m k0 = [startItem start]) (hst : okI start) {input reading : List Tok}
    (hread : List.Forall₂ (Loose st.weak) (input.filter (fun k => decide (.terminal k.sym ∉ st.ignored))) reading)
    (hclear : ∀ u k v u' k' v', input.filter (fun k => decide (.terminal k.sym ∉ st.ignored)) = u ++ k :: v → reading = u' ++ k' :: v' → v.length = v'.length → k' ≠ k →
      ∀ s τ l, ReflTransGen (AutoRuns first g num m n0) (Parser.start k0 reading) ⟨(s, τ) :: l, k' :: v'⟩ →
        ∀ x, AutoRuns first g num m n0 ⟨(s, τ) :: l, k' :: v'⟩ x → Lacks first g initial m n0 s k.sym)
    (hd : g.Derives [start] (reading.map (fun k => .terminal k.sym))) :
    ∃ fuel s τ rest, parse T fuel (Parser.start k0 input) = .ok (true, ⟨[(s, τ), (k0, .nothing)], rest⟩) ∧ Forest g num [start] [τ] reading := by
  have hdet := h.weakDet hb hw hg hinv hcon hacc hwk
  obtain ⟨ts, hfo⟩ := forest_of_derives (num := num) hg hd (by simpa using hst) rfl
  have hlen : ∃ τ, ts = [τ] := by
    generalize hx : [start] = xs at hfo
    have hl : ts.length = xs.length := by
      clear hx hd hread hclear
      induction hfo with
      | nil => rfl
      | token _ ih => simp [ih]
      | guard _ ih => simp [ih]
      | node _ _ _ _ ih => simp [ih]
    rw [← hx] at hl
    exact List.length_eq_one_iff.1 hl
  obtain ⟨τ, rfl⟩ := hlen
  have hcl : Clear first g num m n0 (StandsIn (Lacks first g initial m n0) st.weak) (Parser.start k0 reading) (input.filter (fun k => decide (.terminal k.sym ∉ st.ignored))) := by
    intro u k v hu s τ l k' rest hl hr x hx
    obtain ⟨u', hu'⟩ := runs_suffix hr
    have hu' : reading = u' ++ k' :: rest := hu'.symm
    have hlo : Loose st.weak k k' := by
      rw [hu, hu'] at hread
      have hlen := hread.length_eq
      have : u.length = u'.length := by
        simp only [List.length_append, List.length_cons] at hlen
        omega
      exact forall_at this hread
    by_cases hkk : k' = k
    · exact .inl hkk
    · rcases hlo with h1 | ⟨h1, h2⟩
      · exact .inl h1
      · exact .inr ⟨h1, h2, hclear u k v u' k' rest hu hu' hl.symm hkk s τ l hr x hx⟩
  obtain ⟨fuel, s, hp⟩ := parse_weak_complete hdet hg hf hk hS hread.length_eq hcl hfo
  have hends : Ends T k0 (input.filter (fun k => decide (.terminal k.sym ∉ st.ignored))) (some (true, [(s, τ), (k0, .nothing)])) := .result hp
  have := (h.ignore k0 input _ (by simp) _).2 hends
  generalize hr : some (true, [(s, τ), (k0, Tree.nothing)]) = r at this
  cases this with
  | undefined => cases hr
  | @result f b s' hp' =>
    obtain ⟨stk, rest⟩ := s'
    cases hr
    exact ⟨f, s, τ, rest, hp', hfo⟩

/-- The sentences themselves, with weak tokens read as such, are always accepted. -/
theorem weak_parser_sentences_partial (hf : ∀ x, okI x → g.FirstComplete x (first x)) {involved : Nat → Item → Bool}
    (hinv : ∀ s t, Involved first g m n0 s t → involved s t = true)
    (hcon : ∀ (s : Nat) (acts : List LrAction), states[s]? = some acts → Rewriters.findConflicts (involved s) acts = [])
    (hacc : ∀ (s : Nat) (acts : List LrAction), states[s]? = some acts → ∀ b ∈ acts, ∀ c ∈ acts, b.type = .accept → c.item = .eoi → c.type ≠ .reduce)
    (hwk : ∀ (s : Nat) (acts : List LrAction), states[s]? = some acts → ∀ b ∈ acts, ∀ c ∈ acts, b.type = .weakreduce → c.item = b.item → c = b)
    {k0 : Nat} {start : Item} (hk : k0 < n0) (hS : kern m k0 = [startItem start]) (hst : okI start) {input : List Tok}
    (hd : g.Derives [start] ((input.filter (fun k => decide (.terminal k.sym ∉ st.ignored))).map (fun k => .terminal k.sym))) :
    ∃ fuel s τ rest, parse T fuel (Parser.start k0 input) = .ok (true, ⟨[(s, τ), (k0, .nothing)], rest⟩) ∧
      Forest g num [start] [τ] (input.filter (fun k => decide (.terminal k.sym ∉ st.ignored))) := by
  refine weak_parser_complete_partial h hb hw hg hf hinv hcon hacc hwk hk hS hst ?_ ?_ hd
  · exact List.forall₂_same.2 (fun _ _ => .inl rfl)
  · intro u k v u' k' v' hu hu' hl hne
    rw [hu] at hu'
    have hlen := congrArg List.length hu'
    simp only [List.length_append, List.length_cons] at hlen
    have := (List.append_inj hu' (by omega)).2
    cases this
    exact absurd rfl hne

/-- With C35: if no state has actions both for a weak symbol and for its strong symbol then the parser accepts just what can be read as a sentence. -/
theorem weak_parser_decides_partial (hf : ∀ x, okI x → g.FirstComplete x (first x)) {involved : Nat → Item → Bool}
    (hinv : ∀ s t, Involved first g m n0 s t → involved s t = true)
    (hcon : ∀ (s : Nat) (acts : List LrAction), states[s]? = some acts → Rewriters.findConflicts (involved s) acts = [])
    (hacc : ∀ (s : Nat) (acts : List LrAction), states[s]? = some acts → ∀ b ∈ acts, ∀ c ∈ acts, b.type = .accept → c.item = .eoi → c.type ≠ .reduce)
    (hwk : ∀ (s : Nat) (acts : List LrAction), states[s]? = some acts → ∀ b ∈ acts, ∀ c ∈ acts, b.type = .weakreduce → c.item = b.item → c = b)
    (hapart : ∀ i j, StrongOf st.weak i j → ∀ s a, Act first g initial m n0 s a → a.item = .terminal j → Lacks first g initial m n0 s i)
    {k0 : Nat} {start : Item} (hk : k0 < n0) (hS : kern m k0 = [startItem start]) (hst : okI start) (input : List Tok) :
    (∃ fuel s', parse T fuel (Parser.start k0 input) = .ok (true, s')) ↔
      ∃ reading, List.Forall₂ (Loose st.weak) (input.filter (fun k => decide (.terminal k.sym ∉ st.ignored))) reading ∧
        g.Derives [start] (reading.map (fun k => .terminal k.sym)) := by
  constructor
  · rintro ⟨fuel, s', hp⟩
    obtain ⟨-, τ, w, -, -, hr, hfo⟩ := h.sound hk hS hp
    have hxs : ∀ x ∈ [start], okI x := by simpa using hst
    -- no ignored token is in the tree
    have hok : ∀ k ∈ w, okI (.terminal k.sym) := by
      clear hr hp
      generalize [start] = xs at hfo hxs
      generalize [τ] = ts at hfo
      induction hfo with
      | nil => exact fun _ h => by cases h
      | token _ ih =>
        intro k hk
        rcases List.mem_cons.1 hk with rfl | hk
        · exact hxs _ (List.mem_cons_self ..)
        · exact ih (fun x hx => hxs x (List.mem_cons_of_mem _ hx)) k hk
      | guard _ ih => exact ih (fun x hx => hxs x (List.mem_cons_of_mem _ hx))
      | node hr _ _ ih1 ih2 =>
        intro k hk
        rcases List.mem_append.1 hk with hk | hk
        · exact ih1 (flatten_ok hg (hxs _ (List.mem_cons_self ..)) hr) k hk
        · exact ih2 (fun x hx => hxs x (List.mem_cons_of_mem _ hx)) k hk
    refine ⟨w, ?_, hfo.plain hg hxs⟩
    clear hfo hp
    induction hr with
    | nil => exact .nil
    | @keep k u w _ ih =>
      have hk : Item.terminal k.sym ∉ st.ignored := fun hc => (h.ignored _ hc).2 (hok k (List.mem_cons_self ..))
      rw [List.filter_cons, if_pos (by simpa using hk)]
      exact .cons (.inl rfl) (ih (fun k hk => hok k (List.mem_cons_of_mem _ hk)))
    | @strong k n u w hn _ ih =>
      have hk : Item.terminal k.sym ∉ st.ignored := by
        obtain ⟨ws, h1, h2⟩ := hn
        exact h.weak _ h1 _ h2
      rw [List.filter_cons, if_pos (by simpa using hk)]
      exact .cons (.inr ⟨hn, rfl⟩) (ih (fun k hk => hok k (List.mem_cons_of_mem _ hk)))
    | @skip k u w hk _ ih =>
      rw [List.filter_cons, if_neg (by simpa using hk)]
      exact ih hok
  · rintro ⟨reading, hread, hd⟩
    obtain ⟨fuel, s, τ, rest, hp, -⟩ := weak_parser_complete_partial h hb hw hg hf hinv hcon hacc hwk hk hS hst hread (by
      intro u k v u' k' v' hu hu' hl hne s τ l hr x hx
      have hlo : Loose st.weak k k' := by
        rw [hu, hu'] at hread
        refine forall_at ?_ hread
        have := hread.length_eq
        simp only [List.length_append, List.length_cons] at this
        omega
      rcases hlo with h1 | ⟨h1, -⟩
      · exact absurd h1 hne
      · have hact : ∃ a, Act first g initial m n0 s a ∧ a.item = .terminal k'.sym := by
          generalize hy : (⟨(s, τ) :: l, k' :: v'⟩ : PState) = y at hx
          cases hx with
          | shift ht => cases hy; exact ⟨_, .shift ht, rfl⟩
          | @reduce _ _ _ _ _ _ _ _ r _ h1 _ _ h4 =>
            rw [h4] at hy
            cases hy
            exact ⟨_, .reduce h1 rfl, rfl⟩
        obtain ⟨a, h2, h3⟩ := hact
        exact hapart _ _ h1 s a h2 h3) hd
    exact ⟨fuel, _, hp⟩

end
end
end Sound
end TameParse

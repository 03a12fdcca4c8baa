import Verif.RegexLemmas
/-
What reading an expression does to the automaton: induction over the syntax tree.
-/
namespace TameParse
open SymSet (Mem Canon)

theorem both_assoc (E F G : Edges) : both (both E F) G = both E (both F G) := by
  funext a l b; simp only [both, or_assoc]

theorem both_empty (E : Edges) : both E (fun _ _ _ => False) = E := by
  funext a l b; simp [both]

namespace Builder

/-- A builder between two operations. -/
structure Good (b : Builder) : Prop where
  wf : b.n.WF
  cur : b.cur < b.n.states.length
  next : b.next = none
  nil : b.wide [] = []

/-- `b'` is `b` with more states and the edges `E`. -/
structure Adds (b b' : Builder) (E : Edges) : Prop where
  good : b'.Good
  len : b.n.states.length ≤ b'.n.states.length
  edges : b'.n.edges = both b.n.edges E
  accept : b'.n.accept = b.n.accept
  surrogates : b'.surrogates = b.surrogates
  wide : b'.wide = b.wide

theorem Adds.trans {b b' b'' : Builder} {E F : Edges} (h : Adds b b' E) (g : Adds b' b'' F) : Adds b b'' (both E F) :=
  ⟨g.good, Nat.le_trans h.len g.len, by rw [g.edges, h.edges, both_assoc], by rw [g.accept, h.accept],
    by rw [g.surrogates, h.surrogates], by rw [g.wide, h.wide]⟩

/-- The current state, the previous state and the stack do not matter for the automaton. -/
theorem Adds.move {b b' : Builder} {E : Edges} (h : Adds b b' E) (c p : Nat) (st : List (Nat × Option Nat))
    (hc : c < b'.n.states.length) : Adds b { b' with cur := c, prev := p, stack := st } E :=
  ⟨⟨h.good.wf, hc, h.good.next, h.good.nil⟩, h.len, h.edges, h.accept, h.surrogates, h.wide⟩

theorem adds_refl {b : Builder} (h : b.Good) : Adds b b (fun _ _ _ => False) :=
  ⟨h, Nat.le_refl _, (both_empty _).symm, rfl, rfl, rfl⟩

/-- Nothing to expand: the set is used as it is. -/
theorem split_low (s : SymSet) (h : ∀ r ∈ s, r.hi ≤ 65536) : (splitSurrogates s).2 = [] := by
  have key : ∀ s : SymSet, (∀ r ∈ s, r.hi ≤ 65536) → ∀ acc : SymSet × SymSet, acc.2 = [] →
      (s.foldl (fun acc r =>
        if r.hi ≤ r.lo then acc
        else if 0x10000 < r.hi then
          if r.lo ≤ 0xffff then (acc.1.unionRange ⟨r.lo, 0x10000⟩, acc.2.unionRange ⟨0x10000, r.hi⟩)
          else (acc.1, acc.2.unionRange r)
        else (acc.1.unionRange r, acc.2)) acc).2 = [] := by
    intro s
    induction s with
    | nil => intro _ acc ha; exact ha
    | cons r s ih =>
      intro hs acc ha
      rw [List.foldl_cons]
      refine ih (fun r hr => hs r (by simp [hr])) _ ?_
      have := hs r (by simp)
      by_cases h1 : r.hi ≤ r.lo
      · rw [if_pos h1]; exact ha
      · rw [if_neg h1, if_neg (by omega)]; exact ha
  exact key s h ([], []) rfl

/-- The set does not need surrogates. -/
def Fits (b : Builder) (s : SymSet) : Prop := b.surrogates = true → ∀ r ∈ s, r.hi ≤ 65536

theorem addWith_eq (b : Builder) (s : SymSet) (hs : b.Fits s) : b.addWithSurrogates s = b.target.1.plainTo s b.target.2 := by
  simp only [addWithSurrogates]
  have ht : b.target.1.surrogates = b.surrogates := by
    simp only [target]; cases b.next <;> rfl
  by_cases h : b.surrogates = true
  · rw [ht, if_pos h]
    have := split_low s (hs h)
    rw [if_neg (by simp [this])]
  · rw [ht, if_neg h]

theorem fits_nil (b : Builder) : b.Fits [] := by intro _ r hr; simp at hr

theorem shift_eq {b : Builder} (h : b.wide [] = []) : b.shift [] = b.target.1.plainTo [] b.target.2 := by
  simp only [shift, h]
  exact addWith_eq b [] (fits_nil b)

/-- An epsilon transition to a new state. -/
theorem shift_spec {b : Builder} (h : b.Good) :
    Adds b (b.shift []) (setEdge b.cur [] b.n.states.length) ∧ (b.shift []).cur = b.n.states.length ∧ (b.shift []).prev = b.cur ∧
    (b.shift []).stack = b.stack ∧ (b.shift []).n.states.length = b.n.states.length + 1 := by
  rw [shift_eq h.nil]
  have ht : b.target = ({ b with n := b.n.addState.1 }, b.n.states.length) := by
    simp only [target, h.next]; rfl
  rw [ht]
  have hl := Ndfa.addState_length b.n
  obtain ⟨h1, h2, h3, h4⟩ := Ndfa.addTransition_spec (Ndfa.addState_wf h.wf) b.cur b.n.states.length []
    (by have := h.cur; omega) (by omega)
  refine ⟨⟨⟨h1, ?_, h.next, h.nil⟩, ?_, ?_, h3, rfl, rfl⟩, rfl, rfl, rfl, ?_⟩
  · show b.n.states.length < _
    simp only [plainTo]; rw [h2, hl]; omega
  · simp only [plainTo]; rw [h2, hl]; omega
  · simp only [plainTo]; rw [h4, Ndfa.addState_edges]
  · simp only [plainTo]; rw [h2, hl]

/-- An epsilon transition to an existing state. -/
theorem epsilonTo_spec {b : Builder} (h : b.Good) (q : Nat) (hq : q < b.n.states.length) :
    Adds b (b.epsilonTo q) (epsEdge b.cur q) ∧ (b.epsilonTo q).cur = q ∧ (b.epsilonTo q).prev = b.cur ∧
    (b.epsilonTo q).stack = b.stack ∧ (b.epsilonTo q).n.states.length = b.n.states.length := by
  have e : b.epsilonTo q = ({ b with next := none } : Builder).plainTo [] q := by
    simp only [epsilonTo]
    rw [shift_eq (b := { b with next := some q }) h.nil]
    rfl
  rw [e]
  obtain ⟨h1, h2, h3, h4⟩ := Ndfa.addTransition_spec h.wf b.cur q [] h.cur hq
  refine ⟨⟨⟨h1, ?_, rfl, h.nil⟩, ?_, ?_, h3, rfl, rfl⟩, rfl, rfl, rfl, h2⟩
  · simp only [plainTo]; rw [h2]; exact hq
  · simp only [plainTo]; rw [h2]
  · simp only [plainTo]; rw [h4, Ndfa.setEdge_nil]

end Builder

namespace Regex
open Builder

/-- Steps of the compiler. -/
inductive Run (env : Env) (sub : List Int → Builder → Option Builder) : List Int → Builder → List Int → Builder → Prop
  | refl (pos b) : Run env sub pos b pos b
  | step {pos b pos' b' pos'' b''} : pos ≠ [] → compile env sub pos b = some (pos', b') → pos'.tail.length < pos.length →
      Run env sub pos'.tail b' pos'' b'' → Run env sub pos b pos'' b''

theorem Run.trans {env sub p b p' b' p'' b''} (h : Run env sub p b p' b') (g : Run env sub p' b' p'' b'') :
    Run env sub p b p'' b'' := by
  induction h with
  | refl => exact g
  | step h1 h2 h3 _ ih => exact .step h1 h2 h3 (ih g)

theorem Run.one {env sub pos b l rest b'} (hne : pos ≠ []) (h : compile env sub pos b = some (l :: rest, b'))
    (hl : rest.length < pos.length) : Run env sub pos b rest b' :=
  .step hne h hl (.refl _ _)

theorem compileAll_of_run {env sub pos b b'} (h : Run env sub pos b [] b') :
    ∀ k, pos.length ≤ k → compileAll env sub k pos b = some b'.rejoin := by
  generalize hq : ([] : List Int) = q at h
  induction h with
  | refl pos b => subst hq; intro k _; cases k <;> rfl
  | @step pos b pos' b1 pos'' b2 h1 h2 h3 _ ih =>
    intro k hk
    cases pos with
    | nil => exact absurd rfl h1
    | cons c rest =>
      cases k with
      | zero => simp at hk
      | succ k =>
        have : compileAll env sub (k + 1) (c :: rest) b = (compile env sub (c :: rest) b).bind
            (fun r => compileAll env sub k r.1.tail r.2) := rfl
        rw [this, h2]
        exact ih hq k (by simp only [List.length_cons] at hk h3; omega)

/-- The stack as `begin_or` sees it. -/
def norm : List (Nat × Option Nat) → List (Nat × Option Nat)
  | [] => [(0, none)]
  | st => st

/-- Part of a set of alternatives starting at `p` has been read. `isAlt` tells whether `|` has been seen. -/
inductive Pending (b0 b : Builder) (p : Nat) (S : List (Nat × Option Nat)) (L : Language Int) (i o : Bool) : Bool → Prop
  | first (E : Edges) : norm b.stack = (p, none) :: S → Adds b0 b E →
      Frag E p b.cur b0.n.states.length b.n.states.length L i o → Pending b0 b p S L i o false
  | more (E F : Edges) (f mid : Nat) (M₁ M₂ : Language Int) (o' : Bool) : b.stack = (p, some f) :: S → Adds b0 b (both E F) →
      Frag E p f b0.n.states.length mid M₁ false false → f ≠ p →
      Frag F p b.cur mid b.n.states.length M₂ false o' → L = M₁ + M₂ → Pending b0 b p S L i o true

/-- The end of the alternatives. -/
theorem rejoin_spec {b0 b : Builder} {p : Nat} {S : List (Nat × Option Nat)} {L : Language Int} {i o isAlt : Bool}
    (h : Pending b0 b p S L i o isAlt) (hne : isAlt = false → b.cur ≠ p) :
    ∃ E, norm b.rejoin.stack = (p, none) :: S ∧ Adds b0 b.rejoin E ∧ b.rejoin.cur ≠ p ∧
      Frag E p b.rejoin.cur b0.n.states.length b.rejoin.n.states.length L (i && !isAlt) (o && !isAlt) := by
  cases h with
  | first E h1 h2 h3 =>
    have e : b.rejoin = b := by
      simp only [rejoin]
      cases hs : b.stack with
      | nil => rfl
      | cons x y =>
        rw [hs] at h1
        obtain ⟨rfl, rfl⟩ := List.cons.inj h1
        rfl
    rw [e]
    exact ⟨E, h1, h2, hne rfl, by simpa using h3⟩
  | more E F f mid M₁ M₂ o' h1 h2 h3 h4 h5 h6 =>
    have hf : f < b.n.states.length := by
      have := h3.fin.resolve_left h4
      have := h5.le
      omega
    obtain ⟨g1, g2, g3, g4, g5⟩ := epsilonTo_spec h2.good f hf
    have e : b.rejoin = { b.epsilonTo f with stack := (p, none) :: S } := by
      simp only [rejoin, h1]
    have e1 : b.rejoin.cur = f := by rw [e]; exact g2
    have e2 : b.rejoin.n = (b.epsilonTo f).n := by rw [e]
    refine ⟨both (both E F) (epsEdge b.cur f), by rw [e]; rfl, ?_, by rw [e1]; exact h4, ?_⟩
    · rw [e]
      have := (h2.trans g1).move (b.epsilonTo f).cur (b.epsilonTo f).prev ((p, none) :: S) (by rw [g2, g5]; exact hf)
      exact this
    · rw [e1, e2, g5, h6]
      have := h3.alt h4 h5
      simpa using this

/-- The closing bracket. -/
theorem pop_spec {b0 b : Builder} {p : Nat} {S : List (Nat × Option Nat)} {L : Language Int} {i o isAlt : Bool}
    (hst : b.stack ≠ []) (h : Pending b0 b p S L i o isAlt) (hne : isAlt = false → b.cur ≠ p) :
    ∃ E, b.pop.stack = S ∧ b.pop.prev = p ∧ Adds b0 b.pop E ∧ b.pop.cur ≠ p ∧
      Frag E p b.pop.cur b0.n.states.length b.pop.n.states.length L (i && !isAlt) (o && !isAlt) := by
  cases h with
  | first E h1 h2 h3 =>
    have h1' : b.stack = (p, none) :: S := by
      cases hs : b.stack with
      | nil => exact absurd hs hst
      | cons x y => rw [hs] at h1; exact h1
    have e : b.pop = { b with cur := b.cur, prev := p, stack := S } := by
      simp only [pop, h1', List.tail_cons]
    rw [e]
    exact ⟨E, rfl, rfl, h2.move _ _ _ h2.good.cur, hne rfl, by simpa using h3⟩
  | more E F f mid M₁ M₂ o' h1 h2 h3 h4 h5 h6 =>
    have hf : f < b.n.states.length := by
      have := h3.fin.resolve_left h4
      have := h5.le
      omega
    obtain ⟨g1, g2, g3, g4, g5⟩ := epsilonTo_spec h2.good f hf
    have e : b.pop = { b.epsilonTo f with cur := (b.epsilonTo f).cur, prev := p, stack := S } := by
      simp only [pop, h1]
      rw [g4, h1]
      rfl
    have e1 : b.pop.cur = f := by rw [e]; exact g2
    have e2 : b.pop.n = (b.epsilonTo f).n := by rw [e]
    refine ⟨both (both E F) (epsEdge b.cur f), by rw [e], by rw [e], ?_, by rw [e1]; exact h4, ?_⟩
    · rw [e]
      exact (h2.trans g1).move _ _ _ (by rw [g2, g5]; exact hf)
    · rw [e1, e2, g5, h6]
      have := h3.alt h4 h5
      simpa using this

/-- `|`: the branch read so far is joined to the others, the next one starts at `p`. -/
theorem beginOr_spec {b0 b : Builder} {p : Nat} {S : List (Nat × Option Nat)} {L : Language Int} {o isAlt : Bool}
    (hp : p < b0.n.states.length) (h : Pending b0 b p S L false o isAlt) :
    ∃ E f, b.beginOr.stack = (p, some f) :: S ∧ b.beginOr.cur = p ∧ Adds b0 b.beginOr E ∧ f ≠ p ∧
      Frag E p f b0.n.states.length b.beginOr.n.states.length L false false := by
  cases h with
  | first E h1 h2 h3 =>
    obtain ⟨g1, g2, g3, g4, g5⟩ := shift_spec h2.good
    have h1' : (if b.stack = [] then { b with stack := [(0, none)] } else b) = { b with stack := (p, none) :: S } := by
      cases hs : b.stack with
      | nil =>
        rw [hs] at h1
        rw [if_pos rfl, ← h1]; rfl
      | cons x y =>
        rw [hs] at h1
        rw [if_neg (by simp), ← h1]
        show b = { b with stack := x :: y }
        rw [← hs]
    have sh : ∀ st, (({ b with stack := st } : Builder)).shift [] = { b.shift [] with stack := st } := by
      intro st
      rw [shift_eq (b := { b with stack := st }) h2.good.nil, shift_eq h2.good.nil]
      simp only [target, h2.good.next, plainTo]
    have e : b.beginOr = { b.shift [] with stack := (p, some (b.shift []).cur) :: S, prev := b.prev, cur := p } := by
      simp only [beginOr]
      rw [h1']
      dsimp only
      rw [sh ((p, none) :: S)]
    refine ⟨both E (epsEdge b.cur b.n.states.length), b.n.states.length, ?_, by rw [e], ?_, ?_, ?_⟩
    · rw [e, g2]
    · rw [e]
      rw [Ndfa.setEdge_nil] at g1
      exact (h2.trans g1).move _ _ _ (by rw [g5]; have := h2.len; omega)
    · have := h2.len; omega
    · have : b.beginOr.n = (b.shift []).n := by rw [e]
      rw [this, g5]
      exact h3.close
  | more E F f mid M₁ M₂ o' h1 h2 h3 h4 h5 h6 =>
    have hf : f < b.n.states.length := by
      have := h3.fin.resolve_left h4
      have := h5.le
      omega
    obtain ⟨k1, k2, k3, k4⟩ := Ndfa.addTransition_spec h2.good.wf b.cur f [] h2.good.cur hf
    have e : b.beginOr = { b with n := b.n.addTransition b.cur [] f, cur := p } := by
      simp only [beginOr]
      rw [if_neg (by rw [h1]; simp)]
      simp only [h1]
    rw [e]
    refine ⟨both (both E F) (epsEdge b.cur f), f, h1, rfl, ⟨⟨k1, ?_, h2.good.next, h2.good.nil⟩, ?_, ?_, ?_, ?_, ?_⟩, h4, ?_⟩
    · show p < (b.n.addTransition b.cur [] f).states.length
      rw [k2]; have := h2.len; omega
    · show _ ≤ (b.n.addTransition b.cur [] f).states.length
      rw [k2]; exact h2.len
    · show (b.n.addTransition b.cur [] f).edges = _
      rw [k4, h2.edges, Ndfa.setEdge_nil, both_assoc]
    · show (b.n.addTransition b.cur [] f).accept = _
      rw [k3, h2.accept]
    · exact h2.surrogates
    · exact h2.wide
    · show Frag _ p f _ (b.n.addTransition b.cur [] f).states.length L false false
      rw [k2, h6]
      exact h3.alt h4 h5

end Regex
end TameParse

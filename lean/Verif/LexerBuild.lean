import Verif.RegexProps
/-
Building a lexer from a list of expressions (C55).

Source: /repo/TameParse/Dfa/lexer.cpp 101-107, ndfa_regex.h 101-106.
-/
namespace TameParse
namespace Regex
open SymSet (Mem Canon)

/-- `lexer::add_symbol` (lexer.cpp 101-107). -/
def addSymbol (env : Env) (d : Nat) (n : Ndfa) (sr : Bool) (text : List Int) (symbol : Int) : Option Ndfa :=
  (addRegex env d n sr none 0 text).map (fun r => r.1.addAccept r.2 ⟨symbol, false⟩)

/-- A sequence of calls of `add_symbol`. -/
def addSymbols (env : Env) (d : Nat) (sr : Bool) : List (List Int × Int) → Ndfa → Option Ndfa
  | [], n => some n
  | (text, symbol) :: rest, n => (addSymbol env d n sr text symbol).bind (addSymbols env d sr rest)

theorem reach_congr {n m : Ndfa} (h : n.states = m.states) (h' : n.syms = m.syms) (q : Nat) (w : List Int) (p : Nat) :
    Ndfa.Reach n q w p ↔ Ndfa.Reach m q w p := by
  have e : n.edges = m.edges := by
    funext a l b
    cases l <;> simp only [Ndfa.edges, Ndfa.EpsStep, Ndfa.SymStep, Ndfa.trans, h, h']
  rw [Ndfa.reach_iff_path, Ndfa.reach_iff_path, e]

/-- An automaton in which only the empty string leads back to state 0, and that accepts exactly the strings of some expressions. -/
structure Lexes (sr : Bool) (n : Ndfa) (rules : List (Re × Int)) : Prop where
  wf : n.WF
  start : 0 < n.states.length
  loop : ∀ u, Ndfa.Reach n 0 u 0 → u = []
  bound : ∀ q, n.states.length ≤ q → n.accept q = []
  eager : ∀ q, ∀ a ∈ n.accept q, a.eager = false
  accepts : ∀ w s, (∃ p a, Ndfa.Reach n 0 w p ∧ a ∈ n.accept p ∧ a.symbol = s) ↔ ∃ r, (r, s) ∈ rules ∧ w ∈ r.lang sr

theorem lexes_new (sr : Bool) : Lexes sr Ndfa.new [] := by
  refine ⟨Ndfa.built_wf .new, by decide, ?_, fun _ _ => rfl, fun q a h => (nomatch h), ?_⟩
  · intro u hu
    have hnew : ∀ u p, Ndfa.Reach Ndfa.new 0 u p → u = [] := by
      intro u p hu
      induction hu with
      | refl => rfl
      | @eps w p p' _ e ih => exact ih
      | @sym w p x p' _ e _ =>
        obtain ⟨s, hs, _⟩ := e
        simp only [Ndfa.new, Ndfa.trans] at hs
        cases p with
        | zero => simp at hs
        | succ p => simp at hs
    exact hnew u 0 hu
  · intro w s
    constructor
    · rintro ⟨p, a, _, h, _⟩; exact nomatch h
    · rintro ⟨r, h, _⟩; exact nomatch h

theorem lexes_add (env : Env) (d : Nat) (sr : Bool) (n : Ndfa) (rules : List (Re × Int)) (h : Lexes sr n rules) (r : Re) (s : Int)
    (hok : r.Ok env sr) (hd : r.depth < d) : ∃ n', addSymbol env d n sr r.text s = some n' ∧ Lexes sr n' (rules ++ [(r, s)]) := by
  obtain ⟨m, f, h1, h2, h3, h4, h5, h6, h7⟩ := regex_language_partial env d n h.wf sr 0 h.start r hok hd (fun _ => rfl)
  refine ⟨m.addAccept f ⟨s, false⟩, by simp only [addSymbol, h1]; rfl, ?_⟩
  have hr : ∀ q w p, Ndfa.Reach (m.addAccept f ⟨s, false⟩) q w p ↔ Ndfa.Reach m q w p := 
    fun q w p => reach_congr (n := m.addAccept f ⟨s, false⟩) (m := m) rfl rfl q w p
  have hlen : (m.addAccept f ⟨s, false⟩).states.length = m.states.length := rfl
  have hacc : ∀ p, (m.addAccept f ⟨s, false⟩).accept p = if p = f then [⟨s, false⟩] else n.accept p := by
    intro p
    simp only [Ndfa.addAccept, h3]
    by_cases hp : p = f
    · rw [if_pos hp, if_pos hp, h.bound f h4]; rfl
    · rw [if_neg hp, if_neg hp]
  refine ⟨⟨h2.map, h2.target, h2.symbol⟩, by rw [hlen]; have := h.start; omega, ?_, ?_, ?_, ?_⟩
  · intro u hu
    exact h.loop u ((h7 0 u 0 h.start h.start).1 ((hr _ _ _).1 hu))
  · intro q hq
    rw [hlen] at hq
    rw [hacc, if_neg (by omega)]
    exact h.bound q (by omega)
  · intro q a ha
    rw [hacc] at ha
    by_cases hq : q = f
    · rw [if_pos hq] at ha
      rw [List.mem_singleton.1 ha]
    · rw [if_neg hq] at ha
      exact h.eager q a ha
  · intro w t
    have hold := h.accepts w t
    simp only [hr, hacc]
    constructor
    · rintro ⟨p, a, hp, ha, rfl⟩
      by_cases hpf : p = f
      · subst hpf
        rw [if_pos rfl] at ha
        rw [List.mem_singleton.1 ha]
        obtain ⟨u, v, hu, hv, rfl⟩ := (h6 0 w h.start).1 hp
        rw [h.loop u hu]
        exact ⟨r, by simp, hv⟩
      · rw [if_neg hpf] at ha
        have hlt : p < n.states.length := by
          by_contra hno
          rw [h.bound p (by omega)] at ha
          exact nomatch ha
        obtain ⟨r', h8, h9⟩ := hold.1 ⟨p, a, (h7 0 w p h.start hlt).1 hp, ha, rfl⟩
        exact ⟨r', by simp [h8], h9⟩
    · rintro ⟨r', h8, h9⟩
      rw [List.mem_append, List.mem_singleton] at h8
      rcases h8 with h8 | h8
      · obtain ⟨p, a, hp, ha, he⟩ := hold.2 ⟨r', h8, h9⟩
        have hlt : p < n.states.length := by
          by_contra hno
          rw [h.bound p (by omega)] at ha
          exact nomatch ha
        refine ⟨p, a, (h7 0 w p h.start hlt).2 hp, ?_, he⟩
        rw [if_neg (by omega)]
        exact ha
      · obtain ⟨rfl, rfl⟩ := Prod.mk.inj h8
        refine ⟨f, ⟨t, false⟩, (h6 0 w h.start).2 ⟨[], w, .refl, h9, rfl⟩, ?_, rfl⟩
        rw [if_pos rfl]
        simp

/-- C55: the automaton of a lexer built from any list of expressions that avoid the defects of C20 accepts a string with a symbol
exactly when one of the expressions with this symbol denotes it. -/
theorem lexer_language_partial (env : Env) (d : Nat) (sr : Bool) (rules : List (Re × Int)) (hok : ∀ r ∈ rules, r.1.Ok env sr)
    (hd : ∀ r ∈ rules, r.1.depth < d) :
    ∃ n, addSymbols env d sr (rules.map (fun r => (r.1.text, r.2))) Ndfa.new = some n ∧ Lexes sr n rules := by
  have key : ∀ (rules done : List (Re × Int)) (n : Ndfa), Lexes sr n done → (∀ r ∈ rules, r.1.Ok env sr) → (∀ r ∈ rules, r.1.depth < d) →
      ∃ n', addSymbols env d sr (rules.map (fun r => (r.1.text, r.2))) n = some n' ∧ Lexes sr n' (done ++ rules) := by
    intro rules
    induction rules with
    | nil =>
      intro done n h _ _
      exact ⟨n, rfl, by rw [List.append_nil]; exact h⟩
    | cons r rules ih =>
      intro done n h h1 h2
      obtain ⟨n1, g1, g2⟩ := lexes_add env d sr n done h r.1 r.2 (h1 r (by simp)) (h2 r (by simp))
      obtain ⟨n2, k1, k2⟩ := ih (done ++ [(r.1, r.2)]) n1 g2 (fun r hr => h1 r (by simp [hr])) (fun r hr => h2 r (by simp [hr]))
      refine ⟨n2, ?_, ?_⟩
      · simp only [List.map_cons, addSymbols, g1]
        exact k1
      · have e : done ++ [(r.1, r.2)] ++ rules = done ++ r :: rules := by simp
        rw [e] at k2
        exact k2
  have := key rules [] Ndfa.new (lexes_new sr) hok hd
  simpa using this

/-- `ls` splits `input` by longest match in the languages of the rules; ties go to the smallest symbol; a character at which no rule
matches is tagged -1. -/
inductive SplitsBy (sr : Bool) (rules : List (Re × Int)) : List Int → List Lexeme → Prop
  | nil : SplitsBy sr rules [] []
  | token {l : Lexeme} {rest ls} (r : Re) : l.content ≠ [] → (r, l.matched) ∈ rules → l.content ∈ r.lang sr →
      (∀ r' s, (r', s) ∈ rules → l.content ∈ r'.lang sr → l.matched ≤ s) →
      (∀ w, w <+: l.content ++ rest → l.content.length < w.length → ∀ r' s, (r', s) ∈ rules → w ∉ r'.lang sr) → SplitsBy sr rules rest ls →
      SplitsBy sr rules (l.content ++ rest) (l :: ls)
  | error {l : Lexeme} {x rest ls} : l.content = [x] → l.matched = -1 →
      (∀ w, w <+: x :: rest → w ≠ [] → ∀ r' s, (r', s) ∈ rules → w ∉ r'.lang sr) → SplitsBy sr rules rest ls → SplitsBy sr rules (x :: rest) (l :: ls)

/-- A smallest symbol exists among those of finitely many rules. -/
theorem least_rule (sr : Bool) (rules : List (Re × Int)) (w : List Int) (h : ∃ r s, (r, s) ∈ rules ∧ w ∈ r.lang sr) :
    ∃ r s, (r, s) ∈ rules ∧ w ∈ r.lang sr ∧ ∀ r' s', (r', s') ∈ rules → w ∈ r'.lang sr → s ≤ s' := by
  induction rules with
  | nil => obtain ⟨r, s, h, _⟩ := h; exact nomatch h
  | cons x rules ih =>
    obtain ⟨rx, sx⟩ := x
    by_cases h1 : ∃ r s, (r, s) ∈ rules ∧ w ∈ r.lang sr
    · obtain ⟨r, s, g1, g2, g3⟩ := ih h1
      by_cases h2 : w ∈ rx.lang sr ∧ sx < s
      · refine ⟨rx, sx, by simp, h2.1, ?_⟩
        intro r' s' h' hw
        rcases List.mem_cons.1 h' with h' | h'
        · obtain ⟨rfl, rfl⟩ := Prod.mk.inj h'; omega
        · have := g3 r' s' h' hw; omega
      · refine ⟨r, s, by simp [g1], g2, ?_⟩
        intro r' s' h' hw
        rcases List.mem_cons.1 h' with h' | h'
        · obtain ⟨rfl, rfl⟩ := Prod.mk.inj h'
          by_contra hno
          exact h2 ⟨hw, by omega⟩
        · exact g3 r' s' h' hw
    · obtain ⟨r, s, g1, g2⟩ := h
      rcases List.mem_cons.1 g1 with g1 | g1
      · obtain ⟨rfl, rfl⟩ := Prod.mk.inj g1
        refine ⟨r, s, by simp, g2, ?_⟩
        intro r' s' h' hw
        rcases List.mem_cons.1 h' with h' | h'
        · obtain ⟨rfl, rfl⟩ := Prod.mk.inj h'; omega
        · exact absurd ⟨r', s', h', hw⟩ h1
      · exact absurd ⟨r, s, g1, g2⟩ h1

theorem acceptsAs_iff {sr : Bool} {n : Ndfa} {rules : List (Re × Int)} (h : Lexes sr n rules) (w : List Int) (s : Int) :
    n.AcceptsAs w s ↔ (∃ r, (r, s) ∈ rules ∧ w ∈ r.lang sr) ∧ ∀ r' s', (r', s') ∈ rules → w ∈ r'.lang sr → s ≤ s' := by
  simp only [Ndfa.AcceptsAs]
  rw [h.accepts w s]
  refine and_congr_right (fun _ => ?_)
  constructor
  · intro g r' s' h1 h2
    obtain ⟨p, a, hp, ha, rfl⟩ := (h.accepts w s').2 ⟨r', h1, h2⟩
    exact g p a hp ha
  · intro g p a hp ha
    obtain ⟨r', h1, h2⟩ := (h.accepts w a.symbol).1 ⟨p, a, hp, ha, rfl⟩
    exact g r' _ h1 h2

theorem splitsBy_of {sr : Bool} {n : Ndfa} {rules : List (Re × Int)} (h : Lexes sr n rules) {input : List Int} {ls : List Lexeme}
    (g : Ndfa.Splits n input ls) : SplitsBy sr rules input ls := by
  have hno : ∀ w, (∀ s, ¬ n.AcceptsAs w s) → ∀ r' s, (r', s) ∈ rules → w ∉ r'.lang sr := by
    intro w hw r' s h1 h2
    obtain ⟨r, t, k1, k2, k3⟩ := least_rule sr rules w ⟨r', s, h1, h2⟩
    exact hw t ((acceptsAs_iff h w t).2 ⟨⟨r, k1, k2⟩, k3⟩)
  induction g with
  | nil => exact .nil
  | token h1 h2 h3 _ ih =>
    obtain ⟨⟨r, k1, k2⟩, k3⟩ := (acceptsAs_iff h _ _).1 h2
    exact .token r h1 k1 k2 k3 (fun w hw hl => hno w (h3 w hw hl)) ih
  | error h1 h2 h3 _ ih => exact .error h1 h2 (fun w hw hl => hno w (h3 w hw hl)) ih

/-- The whole way from expressions to lexemes: the tables compiled from the expressions split every input of symbols below 0x10000 by
longest match in the languages denoted. The conditions on the automaton are those of C54: outside them the code is wrong. -/
theorem lexer_end_to_end_partial (env : Env) (d : Nat) (sr : Bool) (rules : List (Re × Int)) (hok : ∀ r ∈ rules, r.1.Ok env sr)
    (hd : ∀ r ∈ rules, r.1.depth < d) (hs : ∀ r ∈ rules, 0 ≤ r.2) (n : Ndfa)
    (hn : addSymbols env d sr (rules.map (fun r => (r.1.text, r.2))) Ndfa.new = some n) (hc : ∀ s ∈ n.syms.syms, Canon s)
    (hsafe : Dedup.SafeOrder [] ((Dedup.visited n.syms.ids).map (·.1)))
    (hspoil : ∀ u, n.toUnique = some u → ∀ r ∈ u.syms.ranges, ∀ r' ∈ u.syms.ranges, ¬ Node.Spoils 65536 r.1 r'.1)
    (sort : List Trans → List Trans) (hsort : Ndfa.IsSort sort) (compact : Bool) :
    ∃ m, Ndfa.compileLexer sort compact n = some m ∧ ∀ input : List Int, (∀ x ∈ input, 0 ≤ x ∧ x < 65536) →
      ∃ ls st' st'', LexMachine.LexRun m (LexStream.new input 0) ls st' ∧ m.next st' = some (none, st'') ∧ SplitsBy sr rules input ls := by
  obtain ⟨n', h1, h2⟩ := lexer_language_partial env d sr rules hok hd
  rw [hn] at h1
  have := Option.some.inj h1
  subst this
  -- every accepting state of the automaton is reachable or irrelevant: the symbols come from the rules
  have hsym : ∀ q, ∀ a ∈ n.accept q, 0 ≤ a.symbol := by
    have key : ∀ (rules : List (Re × Int)) (m : Ndfa), (∀ r ∈ rules, 0 ≤ r.2) → (∀ q, ∀ a ∈ m.accept q, 0 ≤ a.symbol) → m.WF → 0 < m.states.length →
        (∀ r ∈ rules, r.1.Ok env sr) → (∀ r ∈ rules, r.1.depth < d) →
        ∀ n, addSymbols env d sr (rules.map (fun r => (r.1.text, r.2))) m = some n → ∀ q, ∀ a ∈ n.accept q, 0 ≤ a.symbol := by
      intro rules
      induction rules with
      | nil =>
        intro m _ hm _ _ _ _ n hn
        have := Option.some.inj hn
        subst this
        exact hm
      | cons r rules ih =>
        intro m hr hm hwf hlen hok hd n hn
        obtain ⟨m', f, k1, k2, k3, k4, k5, _, _⟩ := regex_language_partial env d m hwf sr 0 hlen r.1 (hok r (by simp)) (hd r (by simp)) (fun _ => rfl)
        simp only [List.map_cons, addSymbols, addSymbol, k1, Option.map_some, Option.bind_some] at hn
        refine ih (m'.addAccept f ⟨r.2, false⟩) (fun r' hr' => hr r' (by simp [hr'])) ?_ ⟨k2.map, k2.target, k2.symbol⟩
          (by show 0 < m'.states.length; omega) (fun r' hr' => hok r' (by simp [hr'])) (fun r' hr' => hd r' (by simp [hr'])) n hn
        intro q a ha
        simp only [Ndfa.addAccept, k3] at ha
        by_cases hq : q = f
        · rw [if_pos hq, List.mem_append, List.mem_singleton] at ha
          rcases ha with ha | ha
          · exact hm f a ha
          · rw [ha]; exact hr r (by simp)
        · rw [if_neg hq] at ha
          exact hm q a ha
    exact key rules Ndfa.new hs (fun q a ha => nomatch ha) (Ndfa.built_wf .new) (by decide) hok hd n hn
  obtain ⟨m, m1, m2⟩ := Ndfa.compiled_lexer_splits_partial n h2.wf h2.start hc hsafe hspoil h2.eager hsym sort hsort compact
  refine ⟨m, m1, fun input hin => ?_⟩
  obtain ⟨ls, st', st'', g1, g2, g3⟩ := m2 input hin
  exact ⟨ls, st', st'', g1, g2, splitsBy_of h2 g3⟩

/-! ### Example: `if`, `[a-z]+`, `[0-9]+` and a space -/

def smallRules : List (Re × Int) := [(.cat (ch 105) (ch 102), 0), (.plus letter, 1), (.plus digit, 2), (ch 32, 3)]

def smallLexer : Ndfa := (addSymbols noDefs 1 true (smallRules.map (fun r => (r.1.text, r.2))) Ndfa.new).getD Ndfa.new

theorem small_ok (sr : Bool) : ∀ r ∈ smallRules, r.1.Ok noDefs sr := by
  intro r hr
  simp only [smallRules, List.mem_cons, List.not_mem_nil, or_false] at hr
  rcases hr with rfl | rfl | rfl | rfl
  · exact ⟨ch_ok 105 (by decide) (by decide) (by decide) sr, ch_ok 102 (by decide) (by decide) (by decide) sr, rfl, rfl, .inl rfl⟩
  · exact ⟨letter_ok sr, rfl⟩
  · exact ⟨digit_ok sr, rfl⟩
  · exact ch_ok 32 (by decide) (by decide) (by decide) sr

-- the conditions of the theorem hold
example : (∀ r ∈ smallRules, r.1.Ok noDefs true) ∧ (∀ r ∈ smallRules, r.1.depth < 1) ∧ (∀ r ∈ smallRules, 0 ≤ r.2) ∧
    addSymbols noDefs 1 true (smallRules.map (fun r => (r.1.text, r.2))) Ndfa.new = some smallLexer ∧
    (∀ s ∈ smallLexer.syms.syms, Canon s) ∧ Dedup.SafeOrder [] ((Dedup.visited smallLexer.syms.ids).map (·.1)) ∧
    (∀ u, smallLexer.toUnique = some u → ∀ r ∈ u.syms.ranges, ∀ r' ∈ u.syms.ranges, ¬ Node.Spoils 65536 r.1 r'.1) := by
  refine ⟨small_ok true, by decide, by decide, rfl, ?_, ?_, ?_⟩
  · have e : smallLexer.syms.syms = [[], [⟨105, 106⟩], [⟨102, 103⟩], [⟨97, 123⟩], [⟨48, 58⟩], [⟨32, 33⟩]] := by decide +kernel
    rw [e]
    intro s hs
    simp only [List.mem_cons, List.not_mem_nil, or_false] at hs
    rcases hs with rfl | rfl | rfl | rfl | rfl | rfl <;> simp [SymSet.Canon]
  · have e : (Dedup.visited smallLexer.syms.ids).map (·.1) = [⟨32, 33⟩, ⟨48, 58⟩, ⟨97, 123⟩, ⟨102, 103⟩, ⟨105, 106⟩] := by decide +kernel
    rw [e]
    exact ⟨.inl (by simp), .inl (by simp [Range.Mem]; omega), .inl (by simp [Range.Mem]; constructor <;> intros <;> omega), .inr (.inl (by simp)), .inr (.inl (by simp)), trivial⟩
  · intro u hu
    have : smallLexer.toUnique.map (fun u => u.syms.ranges.map (·.1)) = some [⟨32, 33⟩, ⟨48, 58⟩, ⟨97, 102⟩, ⟨103, 105⟩, ⟨106, 123⟩, ⟨102, 103⟩, ⟨105, 106⟩] := by
      decide +kernel
    rw [hu] at this
    have this : u.syms.ranges.map (·.1) = _ := Option.some.inj this
    intro r hr r' hr'
    have h1 := List.mem_map_of_mem (f := (·.1)) hr
    have h2 := List.mem_map_of_mem (f := (·.1)) hr'
    rw [this] at h1 h2
    simp only [List.mem_cons, List.not_mem_nil, or_false] at h1 h2
    rcases h1 with h1 | h1 | h1 | h1 | h1 | h1 | h1 <;> rcases h2 with h2 | h2 | h2 | h2 | h2 | h2 | h2 <;> rw [h1, h2] <;> simp [Node.Spoils]

end Regex
end TameParse

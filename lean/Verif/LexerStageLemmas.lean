import Verif.LexerStage
import Verif.WeakLexerProps
/-
The lexer of a language definition (C69): which strings the automaton of the lexer stage accepts, and how the lexer splits its input.
-/
namespace TameParse
namespace LexerStage
open TameParse.Language WeakLexer Regex Builder
open SymSet (Mem Canon)

/-! ### Numbers for accept actions -/

/-- The symbols that have numbers. -/
def InRange : Accept → Prop
  | .plain s => 0 ≤ s
  | .lang s _ _ => 0 ≤ s ∧ s < base

theorem decode_code {a : Accept} (h : InRange a) : decode (code a) = a := by
  cases a with
  | plain s =>
    have h : 0 ≤ s := h
    have e : code (.plain s) = 8 * base + s := rfl
    generalize code (.plain s) = c at e
    subst e
    unfold decode
    rw [if_pos (by omega)]
    congr 1; omega
  | lang s t w =>
    obtain ⟨h1, h2⟩ := h
    have e : code (.lang s t w) = (if w then 0 else 4 * base) + ((rank t : Int) - 1) * base + s := rfl
    generalize code (.lang s t w) = c at e
    have hb : base = 2147483648 := rfl
    rw [hb] at e h2
    unfold decode
    rw [hb]
    have hc : c < 8 * 2147483648 := by cases t <;> cases w <;> simp only [rank, Bool.false_eq_true, if_false, if_true] at e <;> omega
    have h3 : c % 2147483648 = s := by cases t <;> cases w <;> simp only [rank, Bool.false_eq_true, if_false, if_true] at e <;> omega
    have h4 : c / 2147483648 % 4 = (rank t : Int) - 1 := by
      cases t <;> cases w <;> simp only [rank, Bool.false_eq_true, if_false, if_true] at e ⊢ <;> omega
    have h5 : decide (c < 4 * 2147483648) = w := by
      cases t <;> cases w <;> simp only [rank, Bool.false_eq_true, if_false, if_true] at e <;>
        simp only [decide_eq_true_eq, decide_eq_false_iff_not] <;> omega
    rw [if_neg (by omega), h3, h4, h5]
    congr 1
    cases t <;> rfl

theorem code_inj {a b : Accept} (ha : InRange a) (hb : InRange b) (h : code a = code b) : a = b := by
  rw [← decode_code ha, ← decode_code hb, h]

/-! ### Strings that lead to a state -/

/-- The strings that lead from state 0 to the state are those of the language. -/
def Mark (n : Ndfa) (q : Nat) (L : _root_.Language Int) : Prop := q < n.states.length ∧ ∀ w, Ndfa.Reach n 0 w q ↔ w ∈ L

/-- No edge leaves the state. -/
def Stuck (n : Ndfa) (q : Nat) : Prop := ∀ l b, ¬ n.edges q l b

/-- An automaton in which only the empty string leads back to state 0, and that accepts exactly the strings of some languages. -/
structure Base (n : Ndfa) (rules : List (_root_.Language Int × Int)) : Prop where
  wf : n.WF
  start : 0 < n.states.length
  loop : ∀ u, Ndfa.Reach n 0 u 0 → u = []
  bound : ∀ q, n.states.length ≤ q → n.accept q = []
  eager : ∀ q, ∀ a ∈ n.accept q, a.eager = false
  accepts : ∀ w s, (∃ p a, Ndfa.Reach n 0 w p ∧ a ∈ n.accept p ∧ a.symbol = s) ↔ ∃ L, (L, s) ∈ rules ∧ w ∈ L

theorem base_new : Base Ndfa.new [] := by
  have h := lexes_new false
  exact ⟨h.wf, h.start, h.loop, h.bound, h.eager, fun w s => by
    constructor
    · rintro ⟨p, a, _, h, _⟩; exact nomatch h
    · rintro ⟨r, h, _⟩; exact nomatch h⟩

theorem Base.zero {n : Ndfa} {rules : List (_root_.Language Int × Int)} (h : Base n rules) : Mark n 0 1 := by
  refine ⟨h.start, fun w => ?_⟩
  rw [_root_.Language.mem_one]
  exact ⟨h.loop w, fun e => e ▸ .refl⟩

/-- A fragment is added. -/
theorem Base.extend {n : Ndfa} {rules : List (_root_.Language Int × Int)} (h : Base n rules) {n' : Ndfa} {E : Edges} {p c : Nat}
    {Lp L : _root_.Language Int} {o : Bool} (hwf : n'.WF) (he : n'.edges = both n.edges E) (ha : n'.accept = n.accept) (hp : Mark n p Lp)
    (hf : Frag E p c n.states.length n'.states.length L false o) (hc : c ≠ p) :
    Base n' rules ∧ (Mark n' c (Lp * L) ∧ n.states.length ≤ c ∧ n'.accept c = []) ∧ (∀ q M, Mark n q M → Mark n' q M) ∧
      ∀ q, q < n.states.length → q ≠ p → Stuck n q → Stuck n' q := by
  obtain ⟨k1, k2⟩ := reach_of_frag h.wf he hf hc
  have hcl := hf.fin.resolve_left hc
  have hle := hf.le
  have hlt : ∀ q a, a ∈ n.accept q → q < n.states.length := by
    intro q a hq
    by_contra hno
    rw [h.bound q (by omega)] at hq
    exact nomatch hq
  have h0 := h.start
  refine ⟨⟨hwf, by omega, fun u hu => h.loop u ((k1 0 u 0 h0 h0).1 hu), fun q hq => by rw [ha]; exact h.bound q (by omega),
    by rw [ha]; exact h.eager, fun w s => ?_⟩, ⟨⟨hcl.2, fun w => ?_⟩, hcl.1, by rw [ha]; exact h.bound c hcl.1⟩, ?_, ?_⟩
  · rw [← h.accepts w s, ha]
    constructor
    · rintro ⟨q, a, h1, h2, h3⟩; exact ⟨q, a, (k1 0 w q h0 (hlt q a h2)).1 h1, h2, h3⟩
    · rintro ⟨q, a, h1, h2, h3⟩; exact ⟨q, a, (k1 0 w q h0 (hlt q a h2)).2 h1, h2, h3⟩
  · rw [k2 0 w h0, _root_.Language.mem_mul]
    constructor
    · rintro ⟨u, v, h1, h2, rfl⟩; exact ⟨u, (hp.2 u).1 h1, v, h2, rfl⟩
    · rintro ⟨u, h1, v, h2, rfl⟩; exact ⟨u, v, (hp.2 u).2 h1, h2, rfl⟩
  · rintro q M ⟨h1, h2⟩
    exact ⟨by omega, fun w => (k1 0 w q h0 h1).trans (h2 w)⟩
  · intro q hq hqp hs l b hb
    rw [he] at hb
    rcases hb with hb | hb
    · exact hs l b hb
    · rcases hf.src q l b hb with e | e
      · exact hqp e
      · omega

/-- An epsilon edge to a state that no edge leaves. -/
theorem Base.join {n : Ndfa} {rules : List (_root_.Language Int × Int)} (h : Base n rules) {n' : Ndfa} {c f : Nat}
    {Lc Lf : _root_.Language Int} (hwf : n'.WF) (hl : n'.states.length = n.states.length) (he : n'.edges = both n.edges (epsEdge c f))
    (ha : n'.accept = n.accept) (hc : Mark n c Lc) (hf : Mark n f Lf) (hs : Stuck n f) (hf0 : f ≠ 0) (hcf : c ≠ f) (hfa : n.accept f = []) :
    Base n' rules ∧ Mark n' f (Lf + Lc) ∧ Stuck n' f := by
  have key : ∀ w q, Ndfa.Reach n' 0 w q ↔ Ndfa.Reach n 0 w q ∨ (q = f ∧ Ndfa.Reach n 0 w c) := by
    intro w q
    constructor
    · intro hr
      induction hr with
      | refl => exact .inl .refl
      | @eps w p p' _ e ih =>
        have e : n'.edges p none p' := e
        rw [he] at e
        rcases ih with ih | ⟨rfl, ih⟩
        · rcases e with e | ⟨rfl, rfl, _⟩
          · exact .inl (.eps ih e)
          · exact .inr ⟨rfl, ih⟩
        · rcases e with e | ⟨rfl, _, _⟩
          · exact absurd e (hs none p')
          · exact absurd rfl hcf
      | @sym w p x p' _ e ih =>
        have e : n'.edges p (some x) p' := e
        rw [he] at e
        rcases ih with ih | ⟨rfl, ih⟩
        · rcases e with e | ⟨_, _, e⟩
          · exact .inl (.sym ih e)
          · exact nomatch e
        · rcases e with e | ⟨_, _, e⟩
          · exact absurd e (hs _ p')
          · exact nomatch e
    · have hmono : ∀ w q, Ndfa.Reach n 0 w q → Ndfa.Reach n' 0 w q := by
        intro w q
        rw [Ndfa.reach_iff_path, Ndfa.reach_iff_path, he]
        exact Path.mono (fun _ _ _ e => .inl e)
      rintro (hr | ⟨rfl, hr⟩)
      · exact hmono w q hr
      · refine .eps (hmono w c hr) ?_
        show n'.edges c none q
        rw [he]
        exact .inr ⟨rfl, rfl, rfl⟩
  refine ⟨⟨hwf, by rw [hl]; exact h.start, fun u hu => ?_, fun q hq => by rw [ha]; exact h.bound q (by omega), by rw [ha]; exact h.eager,
    fun w s => ?_⟩, ⟨by rw [hl]; exact hf.1, fun w => ?_⟩, ?_⟩
  · rcases (key u 0).1 hu with hr | ⟨e, _⟩
    · exact h.loop u hr
    · exact absurd e.symm hf0
  · rw [← h.accepts w s, ha]
    constructor
    · rintro ⟨q, a, h1, h2, h3⟩
      rcases (key w q).1 h1 with hr | ⟨rfl, _⟩
      · exact ⟨q, a, hr, h2, h3⟩
      · rw [hfa] at h2; exact nomatch h2
    · rintro ⟨q, a, h1, h2, h3⟩
      exact ⟨q, a, (key w q).2 (.inl h1), h2, h3⟩
  · rw [key, _root_.Language.mem_add, hf.2, hc.2]
    simp
  · intro l b hb
    rw [he] at hb
    rcases hb with hb | ⟨e, _, _⟩
    · exact hs l b hb
    · exact hcf e.symm

/-- An accept action for a state without one. -/
theorem Base.accept {n : Ndfa} {rules : List (_root_.Language Int × Int)} (h : Base n rules) {c : Nat} {L : _root_.Language Int}
    (hc : Mark n c L) (ha : n.accept c = []) (s : Int) :
    Base (n.addAccept c ⟨s, false⟩) (rules ++ [(L, s)]) ∧ (∀ q M, Mark n q M → Mark (n.addAccept c ⟨s, false⟩) q M) ∧
      (∀ q, Stuck n q → Stuck (n.addAccept c ⟨s, false⟩) q) ∧ ∀ q, q ≠ c → (n.addAccept c ⟨s, false⟩).accept q = n.accept q := by
  have hr : ∀ q w p, Ndfa.Reach (n.addAccept c ⟨s, false⟩) q w p ↔ Ndfa.Reach n q w p :=
    fun q w p => reach_congr (n := n.addAccept c ⟨s, false⟩) (m := n) rfl rfl q w p
  have hacc : ∀ p, (n.addAccept c ⟨s, false⟩).accept p = if p = c then [⟨s, false⟩] else n.accept p := by
    intro p
    simp only [Ndfa.addAccept, ha, List.nil_append]
  refine ⟨⟨⟨h.wf.map, h.wf.target, h.wf.symbol⟩, h.start, fun u hu => h.loop u ((hr _ _ _).1 hu), ?_, ?_, ?_⟩,
    fun q M hm => ⟨hm.1, fun w => (hr _ _ _).trans (hm.2 w)⟩, ?_, fun q hq => by rw [hacc, if_neg hq]⟩
  · intro q hq
    have hq : n.states.length ≤ q := hq
    have := hc.1
    rw [hacc, if_neg (by omega)]
    exact h.bound q hq
  · intro q a ha
    rw [hacc] at ha
    split at ha
    · rw [List.mem_singleton.1 ha]
    · exact h.eager q a ha
  · intro w t
    simp only [hr, hacc, List.mem_append, List.mem_singleton]
    constructor
    · rintro ⟨p, a, h1, h2, rfl⟩
      split at h2
      · next e =>
        subst e
        rw [List.mem_singleton.1 h2]
        exact ⟨L, .inr rfl, (hc.2 w).1 h1⟩
      · obtain ⟨M, g1, g2⟩ := (h.accepts w a.symbol).1 ⟨p, a, h1, h2, rfl⟩
        exact ⟨M, .inl g1, g2⟩
    · rintro ⟨M, g1 | g1, g2⟩
      · obtain ⟨p, a, h1, h2, h3⟩ := (h.accepts w t).2 ⟨M, g1, g2⟩
        refine ⟨p, a, h1, ?_, h3⟩
        have : p ≠ c := by rintro rfl; rw [ha] at h2; exact nomatch h2
        rw [if_neg this]
        exact h2
      · obtain ⟨rfl, rfl⟩ := Prod.mk.inj g1
        exact ⟨c, ⟨t, false⟩, (hc.2 w).2 g2, by rw [if_pos rfl]; simp, rfl⟩
  · intro q hs l b hb
    refine hs l b ?_
    cases l <;> exact hb

end LexerStage
end TameParse

import Verif.RegexInduct
import Verif.Pipeline
/-
Properties of the regular expression compiler.

C20  the automaton of an expression accepts the strings it denotes (violated for repetitions next to each other)
C21  literals
C22  code points above 0xffff (violated for ranges with more than one high surrogate)
-/
namespace TameParse
open SymSet (Mem Canon)

namespace Regex
open Builder

/-- Symbols are read as they are written. -/
def plain (sr : Bool) : Re.Mode := ⟨sr, fun s => s, fun y x => y = x, fun _ => rfl⟩

theorem plain_var (sr : Bool) (P : Int → Prop) : (plain sr).Var P = P := by
  funext x
  exact propext ⟨fun ⟨_, h, e⟩ => (show _ = x from e) ▸ h, fun h => ⟨x, h, rfl⟩⟩

theorem plain_reads {sr : Bool} {P : Int → Prop} (h : sr = true → RunsFit P) : (plain sr).Reads P := by
  refine ⟨fun s h1 h2 => ⟨h1, fun x => ?_⟩, fun hs => ?_⟩
  · rw [plain_var]; exact h2 x
  · rw [plain_var]; exact h hs

theorem single_fits {x : Int} (h : x < 0x110000) : RunsFit (fun y => y = x) := by
  intro y z _ hyz hall
  have h1 := hall y (by omega) hyz
  have h2 := hall z hyz (by omega)
  exact ⟨by omega, by rw [h1, h2]⟩

theorem plain_ok {env : Env} {sr : Bool} : ∀ {r : Re}, r.Ok env sr → r.OkM env (plain sr)
  | .eps, _ => trivial
  | .atom _, h => ⟨h.1, plain_reads h.2⟩
  | .grp _, h => ⟨plain_ok h.1, h.2⟩
  | .star _, h => ⟨plain_ok h.1, h.2⟩
  | .plus _, h => ⟨plain_ok h.1, h.2⟩
  | .opt _, h => ⟨plain_ok h.1, h.2⟩
  | .cat _ _, h => ⟨plain_ok h.1, plain_ok h.2.1, h.2.2⟩
  | .alt _ _, h => ⟨plain_ok h.1, plain_ok h.2.1, h.2.2⟩
  | .ref _ _, h => ⟨plain_ok h.1, h.2⟩
  | .lit _ _, h => ⟨h.1, h.2.1, h.2.2.1, h.2.2.2.1, h.2.2.2.2.1, fun x hx => plain_reads (fun hs => single_fits (h.2.2.2.2.2 hs x hx))⟩
  | .unicode _ _, h => ⟨h.1, h.2.1, h.2.2.1, h.2.2.2.1, h.2.2.2.2.1, h.2.2.2.2.2.1, h.2.2.2.2.2.2.1, plain_reads h.2.2.2.2.2.2.2⟩

theorem forall₂_eq {w u : List Int} : List.Forall₂ (fun y x : Int => y = x) w u ↔ w = u := by
  have := List.forall₂_eq_eq_eq (α := Int)
  rw [show (fun y x : Int => y = x) = (· = ·) from rfl, this]

theorem plain_lang (sr : Bool) : ∀ r : Re, r.langM (plain sr) = r.lang sr
  | .eps => rfl
  | .atom _ => by rw [Re.langM, Re.lang, plain_var]; rfl
  | .grp r => plain_lang sr r
  | .star r => by rw [Re.langM, Re.lang, plain_lang sr r]
  | .plus r => by rw [Re.langM, Re.lang, plain_lang sr r]
  | .opt r => by rw [Re.langM, Re.lang, plain_lang sr r]
  | .cat r s => by rw [Re.langM, Re.lang, plain_lang sr r, plain_lang sr s]
  | .alt r s => by rw [Re.langM, Re.lang, plain_lang sr r, plain_lang sr s]
  | .ref _ r => plain_lang sr r
  | .lit _ w => by
    apply Language.ext
    intro v
    constructor
    · rintro ⟨u, hu, rfl⟩
      rw [forall₂_eq.1 hu]
      exact Set.mem_singleton _
    · intro hv
      exact ⟨w, forall₂_eq.2 rfl, Set.mem_singleton_iff.1 hv⟩
  | .unicode _ _ => by rw [Re.langM, Re.lang, plain_var]; rfl
  | .named _ _ | .entry _ _ _ | .word _ _ _ | .either _ _ => rfl

theorem okP_bare {env : Env} {R : (Int → Prop) → Prop} : ∀ {r : Re}, r.OkP env R → r.bare = true
  | .eps, _ | .atom _, _ | .lit _ _, _ | .unicode _ _, _ => rfl
  | .grp r, h => okP_bare (r := r) h.1
  | .star r, h => okP_bare (r := r) h.1
  | .plus r, h => okP_bare (r := r) h.1
  | .opt r, h => okP_bare (r := r) h.1
  | .ref _ r, h => okP_bare (r := r) h.1
  | .cat _ _, h | .alt _ _, h => by simp only [Re.bare, okP_bare h.1, okP_bare h.2.1, Bool.and_self]

theorem okN_of_okP {env : Env} {m : Re.Mode} (c : Bool) : ∀ {r : Re}, r.OkM env m → r.OkN env (fun _ => m) c
  | .eps, _ => trivial
  | .atom _, h => h
  | .grp _, h => ⟨okN_of_okP c h.1, h.2⟩
  | .star _, h => ⟨okN_of_okP c h.1, h.2⟩
  | .plus _, h => ⟨okN_of_okP c h.1, h.2⟩
  | .opt _, h => ⟨okN_of_okP c h.1, h.2⟩
  | .cat _ _, h => ⟨okN_of_okP c h.1, okN_of_okP c h.2.1, h.2.2⟩
  | .alt _ _, h => ⟨okN_of_okP c h.1, okN_of_okP c h.2.1, h.2.2⟩
  | .ref _ _, h => ⟨okN_of_okP c h.1, h.2⟩
  | .lit _ _, h => h
  | .unicode _ _, h => h

theorem langN_bare (m : Re.Mode) (c : Bool) (r : Re) (h : r.bare = true) : r.langN (fun _ => m) c = r.langM m := by
  induction r with
  | eps | atom _ | lit _ _ | unicode _ _ => rfl
  | grp r ih => exact ih h
  | ref _ r ih => exact ih h
  | star r ih | plus r ih | opt r ih => simp only [Re.langN, Re.langM, ih h]
  | cat r s ihr ihs | alt r s ihr ihs =>
    simp only [Re.bare, Bool.and_eq_true] at h
    simp only [Re.langN, Re.langM, ihr h.1, ihs h.2]
  | named _ _ _ | entry _ _ _ _ | word _ _ _ | either _ _ _ _ => cases h

/-- What a pair of case conversions makes of a set of symbols. -/
def widen (fold : Option ((SymSet → SymSet) × (SymSet → SymSet))) : SymSet → SymSet := (cons Ndfa.new false fold 0).wide

theorem cons_good {n : Ndfa} (h : n.WF) (sr : Bool) {fold : Option ((SymSet → SymSet) × (SymSet → SymSet))} (hf : widen fold [] = [])
    (q : Nat) (hq : q < n.states.length) : (cons n sr fold q).Good :=
  ⟨h, hq, rfl, hf⟩

/-- An expression adds a fragment for its language behind the initial state. -/
theorem addRegexTo_frag (env : Env) (d : Nat) (n : Ndfa) (h : n.WF) (M : Bool → Re.Mode) (c : Bool) (fold : Option ((SymSet → SymSet) × (SymSet → SymSet)))
    (hw : (M c).wide = widen fold) (hf : widen fold [] = []) (q : Nat) (hq : q < n.states.length) (r : Re) (hM : r.bare = true ∨ Cases env M) (hok : r.OkN env M c) (hd : r.depth < d) (hq0 : r.isAlt = true → q = 0) :
    ∃ b E o, addRegexTo env d r.text (cons n (M c).surrogates fold q) = some b ∧ Adds (cons n (M c).surrogates fold q) b E ∧ b.cur ≠ q ∧
      Frag E q b.cur n.states.length b.n.states.length (r.langN M c) false o := by
  obtain ⟨d, rfl⟩ : ∃ k, d = k + 1 := ⟨d - 1, by omega⟩
  have hg := cons_good h (M c).surrogates hf q hq
  obtain ⟨q1, q2, q3, q4, q5⟩ := shift_spec hg
  have fr := Frag.edge q n.states.length [] hq
  rw [edge_lang_nil] at fr
  have hne : ((cons n (M c).surrogates fold q).shift []).cur ≠ q := by
    rw [q2]; show n.states.length ≠ q; omega
  have hfr : Frag (setEdge q [] n.states.length) q ((cons n (M c).surrogates fold q).shift []).cur n.states.length
      ((cons n (M c).surrogates fold q).shift []).n.states.length 1 false false := by
    rw [q2, q5]; exact fr
  have hm : ((cons n (M c).surrogates fold q).shift []).In (M c) := q1.inMode ⟨rfl, hw⟩
  have hfin : ∀ b', Run env (addRegexTo env d) r.text ((cons n (M c).surrogates fold q).shift []) [] b' →
      addRegexTo env (d + 1) r.text (cons n (M c).surrogates fold q) = some b'.rejoin := by
    intro b' hb
    show compileAll env (addRegexTo env d) r.text.length r.text ((cons n (M c).surrogates fold q).shift []) = _
    exact compileAll_of_run hb _ (Nat.le_refl _)
  have hst : ((cons n (M c).surrogates fold q).shift []).stack = [] := q4
  by_cases hal : r.isAlt = true
  · have := hq0 hal
    subst this
    obtain ⟨b', g1, g2, g3, g4⟩ := (stmts env M r hM c).alt hok d (by omega) (cons n (M c).surrogates fold 0) _ [] 0 [] _ q1 hfr
      (by rw [hst]; rfl) (fun hc => absurd hc hne) hm hok
    rw [List.append_nil] at g1
    obtain ⟨E, k1, k2, k3, k4⟩ := rejoin_spec g2 (fun hh => by rw [hal] at hh; cases hh)
    refine ⟨_, E, r.loopOut && !r.isAlt, hfin b' g1, k2, k3, ?_⟩
    have hdec : decide (((cons n (M c).surrogates fold 0).shift []).cur = 0) = false := decide_eq_false hne
    rw [hdec, Bool.and_false, Bool.false_and] at k4
    exact k4
  · by_cases hse : r.isSeq = true
    · obtain ⟨b', E, g1, g2, g3, g4, g5, _⟩ := (stmts env M r hM c).seq d (by omega) _ [] q1.good hm hse hok
      rw [List.append_nil] at g1
      have hrj : b'.rejoin = b' := by
        simp only [rejoin]
        rw [g3, hst]
      refine ⟨_, both (setEdge q [] n.states.length) E, r.loopOut, hfin b' g1, ?_, ?_, ?_⟩
      · rw [hrj]; exact q1.trans g2
      · rw [hrj]
        have := g4.fin.resolve_left g5
        have := q1.len
        have e : (cons n (M c).surrogates fold q).n.states.length = n.states.length := rfl
        omega
      · rw [hrj]
        have := hfr.cat g4 hne g5 (.inl rfl)
        rw [one_mul] at this
        exact this
    · have : r = .eps := by
        cases r with
        | eps => rfl
        | entry _ _ _ | word _ _ _ | either _ _ => exact hok.elim
        | alt _ _ => exact absurd rfl hal
        | _ => exact absurd rfl hse
      subst this
      have hrj : ((cons n (M c).surrogates fold q).shift []).rejoin = (cons n (M c).surrogates fold q).shift [] := by
        simp only [rejoin]
        rw [hst]
      refine ⟨_, setEdge q [] n.states.length, false, hfin _ (.refl _ _), ?_, ?_, ?_⟩
      · rw [hrj]; exact q1
      · rw [hrj]; exact hne
      · rw [hrj]; exact hfr

/-- From a fragment to the strings that reach its end. -/
theorem reach_of_frag {n n' : Ndfa} {E : Edges} {q c : Nat} {L : Language Int} {o : Bool} (h : n.WF)
    (he : n'.edges = both n.edges E) (hf : Frag E q c n.states.length n'.states.length L false o) (hc : c ≠ q) :
    (∀ a w b, a < n.states.length → b < n.states.length → (Ndfa.Reach n' a w b ↔ Ndfa.Reach n a w b)) ∧
    (∀ a w, a < n.states.length → (Ndfa.Reach n' a w c ↔ ∃ u v, Ndfa.Reach n a u q ∧ v ∈ L ∧ w = u ++ v)) := by
  obtain ⟨h1, h2⟩ := hf.attach hc (G := n.edges) (fun a l b e => Ndfa.edges_lt h a l b e)
  simp only [Ndfa.reach_iff_path, he]
  exact ⟨h1, h2⟩

/-- C90: C20 with names that the language defines and cases that are ignored in some definitions: there is a mode for symbols that are read as they are
and one for those whose case is ignored, and `c` says which one is used around the expression. -/
theorem regex_named (env : Env) (d : Nat) (n : Ndfa) (h : n.WF) (M : Bool → Re.Mode) (c : Bool) (fold : Option ((SymSet → SymSet) × (SymSet → SymSet)))
    (hw : (M c).wide = widen fold) (hf : widen fold [] = []) (q : Nat) (hq : q < n.states.length) (r : Re)
    (hM : r.bare = true ∨ Cases env M) (hok : r.OkN env M c) (hd : r.depth < d) (hq0 : r.isAlt = true → q = 0) :
    ∃ n' f, addRegex env d n (M c).surrogates fold q r.text = some (n', f) ∧ n'.WF ∧ n'.accept = n.accept ∧
      n.states.length ≤ f ∧ f < n'.states.length ∧
      (∀ a w, a < n.states.length → (Ndfa.Reach n' a w f ↔ ∃ u v, Ndfa.Reach n a u q ∧ v ∈ r.langN M c ∧ w = u ++ v)) ∧
      (∀ a w b, a < n.states.length → b < n.states.length → (Ndfa.Reach n' a w b ↔ Ndfa.Reach n a w b)) := by
  obtain ⟨b, E, o, h1, h2, h3, h4⟩ := addRegexTo_frag env d n h M c fold hw hf q hq r hM hok hd hq0
  obtain ⟨k1, k2⟩ := reach_of_frag h h2.edges h4 h3
  have := h4.fin.resolve_left h3
  refine ⟨b.n, b.cur, ?_, h2.good.wf, h2.accept, this.1, this.2, k2, k1⟩
  simp only [addRegex]
  rw [if_neg (by omega), h1]
  rfl

/-- C20 with other symbols that may stand for those of the expression (see C88). -/
theorem regex_mode (env : Env) (d : Nat) (n : Ndfa) (h : n.WF) (m : Re.Mode) (fold : Option ((SymSet → SymSet) × (SymSet → SymSet)))
    (hw : m.wide = widen fold) (hf : widen fold [] = []) (q : Nat) (hq : q < n.states.length) (r : Re)
    (hok : r.OkM env m) (hd : r.depth < d) (hq0 : r.isAlt = true → q = 0) :
    ∃ n' f, addRegex env d n m.surrogates fold q r.text = some (n', f) ∧ n'.WF ∧ n'.accept = n.accept ∧
      n.states.length ≤ f ∧ f < n'.states.length ∧
      (∀ a w, a < n.states.length → (Ndfa.Reach n' a w f ↔ ∃ u v, Ndfa.Reach n a u q ∧ v ∈ r.langM m ∧ w = u ++ v)) ∧
      (∀ a w b, a < n.states.length → b < n.states.length → (Ndfa.Reach n' a w b ↔ Ndfa.Reach n a w b)) := by
  have := regex_named env d n h (fun _ => m) false fold hw hf q hq r (.inl (okP_bare hok)) (okN_of_okP false hok) hd hq0
  rw [langN_bare m false _ (okP_bare hok)] at this
  exact this

/-- C20 for the expressions that avoid the known defects: the new final state is reached exactly by a string that leads to the
initial state followed by a string the expression denotes; the rest of the automaton behaves as before. Missing: the expressions
excluded by `Re.Ok` (see below), and alternatives on the top level in another state than 0. Case-insensitive matching is C88. -/
theorem regex_language_partial (env : Env) (d : Nat) (n : Ndfa) (h : n.WF) (sr : Bool) (q : Nat) (hq : q < n.states.length) (r : Re)
    (hok : r.Ok env sr) (hd : r.depth < d) (hq0 : r.isAlt = true → q = 0) :
    ∃ n' f, addRegex env d n sr none q r.text = some (n', f) ∧ n'.WF ∧ n'.accept = n.accept ∧
      n.states.length ≤ f ∧ f < n'.states.length ∧
      (∀ a w, a < n.states.length → (Ndfa.Reach n' a w f ↔ ∃ u v, Ndfa.Reach n a u q ∧ v ∈ r.lang sr ∧ w = u ++ v)) ∧
      (∀ a w b, a < n.states.length → b < n.states.length → (Ndfa.Reach n' a w b ↔ Ndfa.Reach n a w b)) := by
  have := regex_mode env d n h (plain sr) none rfl rfl q hq r (plain_ok hok) hd hq0
  rw [plain_lang] at this
  exact this

/-- A new automaton: exactly the strings denoted. -/
theorem regex_alone_partial (env : Env) (d : Nat) (sr : Bool) (r : Re) (hok : r.Ok env sr) (hd : r.depth < d) :
    ∃ n f, addRegex env d Ndfa.new sr none 0 r.text = some (n, f) ∧ ∀ w, Ndfa.Reach n 0 w f ↔ w ∈ r.lang sr := by
  obtain ⟨n, f, h1, h2, h3, h4, h5, h6, h7⟩ := regex_language_partial env d Ndfa.new (Ndfa.built_wf .new) sr 0 (by decide) r hok hd (fun _ => rfl)
  refine ⟨n, f, h1, fun w => ?_⟩
  rw [h6 0 w (by decide)]
  have hnew : ∀ u p, Ndfa.Reach Ndfa.new 0 u p → u = [] := by
    intro u p hu
    induction hu with
    | refl => rfl
    | @eps w p p' _ e ih => exact ih
    | @sym w p x p' _ e _ =>
      obtain ⟨s, hs, _⟩ := e
      simp only [Ndfa.new, Ndfa.trans] at hs
      cases p with
      | zero => simp at hs
      | succ p => simp at hs
  constructor
  · rintro ⟨u, v, hu, hv, rfl⟩
    rw [hnew u 0 hu]
    exact hv
  · intro hw
    exact ⟨[], w, .refl, hw, rfl⟩

/-- C21: a literal is accepted exactly, also with code points that need surrogates. -/
theorem literal_language (n : Ndfa) (h : n.WF) (sr : Bool) (q : Nat) (hq : q < n.states.length) (w : List Int) (hw : w ≠ [])
    (hs : sr = true → ∀ x ∈ w, x < 0x110000) (n' : Ndfa) (f : Nat) (he : addLiteral n sr none q w = (n', f)) :
    n'.WF ∧ n'.accept = n.accept ∧ n.states.length ≤ f ∧ f < n'.states.length ∧
      (∀ a v, a < n.states.length → (Ndfa.Reach n' a v f ↔ ∃ u, Ndfa.Reach n a u q ∧ v = u ++ w.flatMap (encode sr))) ∧
      (∀ a v b, a < n.states.length → b < n.states.length → (Ndfa.Reach n' a v b ↔ Ndfa.Reach n a v b)) := by
  obtain ⟨E, h1, h2, h3, h4⟩ := literal_spec (plain sr) w (cons n sr none q) (cons_good h sr rfl q hq) ⟨rfl, rfl⟩
    (fun x hx => plain_reads (fun hsr => single_fits (hs hsr x hx)))
  simp only [addLiteral] at he
  rw [if_neg (by omega)] at he
  obtain ⟨rfl, rfl⟩ := Prod.mk.inj he
  have hne := h3 hw
  obtain ⟨k1, k2⟩ := reach_of_frag h h1.edges h4 hne
  have := h4.fin.resolve_left hne
  refine ⟨h1.good.wf, h1.accept, this.1, this.2, fun a v ha => ?_, k1⟩
  rw [k2 a v ha]
  constructor
  · rintro ⟨u, x, hu, hx, rfl⟩
    obtain ⟨y, hy, rfl⟩ := hx
    exact ⟨u, hu, by rw [forall₂_eq.1 hy]; rfl⟩
  · rintro ⟨u, hu, rfl⟩
    exact ⟨u, _, hu, ⟨w, forall₂_eq.2 rfl, rfl⟩, rfl⟩

/-- The empty literal needs no new state. -/
theorem literal_empty (n : Ndfa) (sr : Bool) (q : Nat) : addLiteral n sr none q [] = (n, q) := by
  simp only [addLiteral]
  split <;> rfl

/-! ### Examples for C20 and C21 -/

/-- No definitions. -/
def noDefs : Env := { exprs := fun _ => none, literals := fun _ => none, category := fun _ => none }

/-- A plain character. -/
def ch (c : Int) : Re := .atom (.chr (.plain c))

/-- `[a-z]` -/
def letter : Re := .atom (.cls false [.span (.plain 97) (.plain 122)])

/-- `[0-9]` -/
def digit : Re := .atom (.cls false [.span (.plain 48) (.plain 57)])

theorem span_fits (a b : Int) (h : b < 65536) (sr : Bool) :
    sr = true → RunsFit (Atom.cls false [.span (.plain a) (.plain b)]).Has := by
  intro _ x y h1 h2 h3
  exfalso
  have := h3 x (by omega) h2
  simp only [Atom.Has, ClassItem.Has, Chr.val, List.mem_singleton, exists_eq_left] at this
  omega

/-- `([a-z]+(_[a-z]|[0-9]))?x`, with repetitions, alternatives and an option. -/
def sample : Re := .cat (.opt (.grp (.cat (.cat (ch 122) (.plus letter)) (.grp (.alt (.cat (ch 95) letter) digit))))) (ch 120)

example : sample.text = "(z[a-z]+(_[a-z]|[0-9]))?x".toList.map (fun c => (c.toNat : Int)) := by decide

theorem letter_ok (sr : Bool) : letter.Ok noDefs sr := by
  refine ⟨⟨?_, by simp, 97, _, List.mem_singleton.2 rfl, by simp [ClassItem.Has, Chr.val]⟩, span_fits 97 122 (by decide) sr⟩
  intro i hi
  rw [List.mem_singleton] at hi
  rw [hi]
  simp [ClassItem.Ok, Chr.Ok, Chr.NotPlain, Chr.val]

theorem digit_ok (sr : Bool) : digit.Ok noDefs sr := by
  refine ⟨⟨?_, by simp, 48, _, List.mem_singleton.2 rfl, by simp [ClassItem.Has, Chr.val]⟩, span_fits 48 57 (by decide) sr⟩
  intro i hi
  rw [List.mem_singleton] at hi
  rw [hi]
  simp [ClassItem.Ok, Chr.Ok, Chr.NotPlain, Chr.val]

theorem ch_ok (c : Int) (h1 : c ≠ 92) (h2 : c ∉ Atom.operators) (h3 : c < 65536) (sr : Bool) : (ch c).Ok noDefs sr := by
  refine ⟨⟨h1, h2⟩, ?_⟩
  intro _ x y g1 g2 g3
  have := g3 x (by omega) g2
  simp only [Atom.Has, Chr.val] at this
  omega

/-- The hypotheses of `regex_language_partial` hold for it. -/
theorem sample_ok (sr : Bool) : sample.Ok noDefs sr ∧ sample.depth < 1 ∧ (sample.isAlt = true → (0 : Nat) = 0) := by
  have hl := letter_ok sr
  have hd := digit_ok sr
  have h122 := ch_ok 122 (by decide) (by decide) (by decide) sr
  have h95 := ch_ok 95 (by decide) (by decide) (by decide) sr
  have h120 := ch_ok 120 (by decide) (by decide) (by decide) sr
  refine ⟨⟨⟨⟨⟨⟨h122, ⟨hl, rfl⟩, rfl, rfl, .inl rfl⟩, ⟨⟨⟨h95, hl, rfl, rfl, .inl rfl⟩, hd, rfl, rfl, rfl⟩, fun h => nomatch h⟩, rfl, rfl, .inr rfl⟩, ?_⟩, rfl,
    rfl, rfl⟩, h120, rfl, rfl, .inl rfl⟩, by decide, fun _ => rfl⟩
  exact fun h => nomatch h

/-- So the automaton of the sample accepts "x". -/
example : ∃ n f, addRegex noDefs 1 Ndfa.new true none 0 sample.text = some (n, f) ∧ Ndfa.Reach n 0 [120] f := by
  obtain ⟨n, f, h1, h2⟩ := regex_alone_partial noDefs 1 true sample (sample_ok true).1 (by decide)
  refine ⟨n, f, h1, (h2 _).2 ?_⟩
  refine ⟨[], .inl rfl, [120], ⟨120, rfl, by decide⟩, rfl⟩

/-- The literal "if" followed by U+1F600, read as UTF-16. -/
example : [105, 102, 0x1f600].flatMap (encode true) = [105, 102, 0xd83d, 0xde00] := by decide

/-! ### C20: the defects -/

/-- Checks a path through an automaton: a list of labels and states. -/
def follows (n : Ndfa) : Nat → List (Option Int × Nat) → Bool
  | _, [] => true
  | q, (l, q') :: rest =>
    (n.trans q).any (fun t => t.2 == q' && (match l with
      | none => (n.syms.get t.1).isEmpty
      | some x => (n.syms.get t.1).any (fun r => decide (r.lo ≤ x) && decide (x < r.hi)))) && follows n q' rest

theorem follows_reach (n : Ndfa) : ∀ (path : List (Option Int × Nat)) (q : Nat), follows n q path = true →
    Ndfa.Reach n q (path.filterMap (·.1)) ((path.map (·.2)).getLastD q) := by
  intro path
  induction path with
  | nil => intro q _; exact .refl
  | cons e path ih =>
    obtain ⟨l, q'⟩ := e
    intro q h
    simp only [follows, Bool.and_eq_true, List.any_eq_true] at h
    obtain ⟨⟨t, ht, h1, h2⟩, h3⟩ := h
    have g := (Ndfa.reach_iff_path _ _ _ _).1 (ih q' h3)
    rw [Ndfa.reach_iff_path]
    have hq : t.2 = q' := by simpa using h1
    have hl : ((((l, q') :: path).map (·.2)).getLastD q) = (path.map (·.2)).getLastD q' := by
      rw [List.map_cons, List.getLastD_cons]
    rw [hl]
    have ht' : (t.1, q') ∈ n.trans q := by rw [← hq]; exact ht
    cases l with
    | none => exact .cons (l := none) ⟨t.1, ht', by simpa using h2⟩ g
    | some x =>
      simp only [List.any_eq_true, Bool.and_eq_true, decide_eq_true_eq] at h2
      obtain ⟨r, hr, h4, h5⟩ := h2
      exact .cons (l := some x) ⟨t.1, ht', r, hr, h4, h5⟩ g

theorem mem_ch_star {sr : Bool} {c : Int} (hc : c < 65536) {w : List Int} (h : w ∈ KStar.kstar ((ch c).lang sr)) : ∀ x ∈ w, x = c := by
  rw [Language.mem_kstar] at h
  obtain ⟨ls, rfl, hl⟩ := h
  intro x hx
  obtain ⟨l, h1, h2⟩ := List.mem_flatten.1 hx
  obtain ⟨y, hy, rfl⟩ := hl l h1
  have hy : y = c := hy
  subst hy
  have : encode sr y = [y] := by
    simp only [encode]; split
    · exact utf16_low hc
    · rfl
  rw [this] at h2
  simpa using h2

/-- The automaton of an expression added to a new automaton. -/
def alone (r : Re) : Ndfa × Nat := (addRegex noDefs 1 Ndfa.new true none 0 r.text).getD (Ndfa.new, 0)

/-- C20 is violated: the automaton of `a*b*` accepts "ba". -/
theorem star_star_violated : addRegex noDefs 1 Ndfa.new true none 0 (Re.cat (.star (ch 97)) (.star (ch 98))).text =
      some (alone (.cat (.star (ch 97)) (.star (ch 98)))) ∧
    Ndfa.Reach (alone (.cat (.star (ch 97)) (.star (ch 98)))).1 0 [98, 97] (alone (.cat (.star (ch 97)) (.star (ch 98)))).2 ∧
    [98, 97] ∉ (Re.cat (.star (ch 97)) (.star (ch 98))).lang true := by
  refine ⟨rfl, follows_reach _ [(none, 1), (none, 2), (some 98, 3), (none, 2), (none, 1), (some 97, 2), (none, 3)] 0 (by decide +kernel), ?_⟩
  rintro ⟨u, hu, v, hv, e⟩
  have h1 := mem_ch_star (by decide) hu
  have h2 := mem_ch_star (by decide) hv
  have e : u ++ v = [98, 97] := e
  rcases u with _ | ⟨x, u⟩
  · have := h2 97 (by rw [List.nil_append] at e; rw [e]; simp)
    omega
  · have hx := h1 x (by simp)
    simp only [List.cons_append, List.cons.injEq] at e
    omega

/-- ... that of `(ab*)?` accepts "b" ... -/
theorem option_star_violated : addRegex noDefs 1 Ndfa.new true none 0 (Re.opt (.grp (.cat (ch 97) (.star (ch 98))))).text =
      some (alone (.opt (.grp (.cat (ch 97) (.star (ch 98)))))) ∧
    Ndfa.Reach (alone (.opt (.grp (.cat (ch 97) (.star (ch 98)))))).1 0 [98] (alone (.opt (.grp (.cat (ch 97) (.star (ch 98)))))).2 ∧
    [98] ∉ (Re.opt (.grp (.cat (ch 97) (.star (ch 98))))).lang true := by
  refine ⟨rfl, follows_reach _ [(none, 1), (none, 3), (none, 2), (some 98, 3)] 0 (by decide +kernel), ?_⟩
  rintro (h | ⟨u, ⟨x, hx, rfl⟩, v, hv, e⟩)
  · exact absurd (Language.mem_one _ |>.1 h) (by simp)
  · have hx : x = 97 := hx
    subst hx
    have e : [97] ++ v = [98] := e
    simp at e

/-- ... and that of `(a|b*)` accepts "ba". -/
theorem alternative_star_violated : addRegex noDefs 1 Ndfa.new true none 0 (Re.grp (.alt (ch 97) (.star (ch 98)))).text =
      some (alone (.grp (.alt (ch 97) (.star (ch 98))))) ∧
    Ndfa.Reach (alone (.grp (.alt (ch 97) (.star (ch 98))))).1 0 [98, 97] (alone (.grp (.alt (ch 97) (.star (ch 98))))).2 ∧
    [98, 97] ∉ (Re.grp (.alt (ch 97) (.star (ch 98)))).lang true := by
  refine ⟨rfl, follows_reach _ [(none, 1), (some 98, 4), (none, 1), (some 97, 2), (none, 3)] 0 (by decide +kernel), ?_⟩
  rintro (⟨x, hx, e⟩ | h)
  · have hx : x = 97 := hx
    subst hx
    have e : [98, 97] = [(97 : Int)] := e
    simp at e
  · have := mem_ch_star (by decide) h 97 (by simp)
    omega

/-- The empty class `[]` has no symbols, but its automaton accepts the empty string. -/
theorem empty_class_violated : addRegex noDefs 1 Ndfa.new true none 0 (Re.atom (.cls false [])).text = some (alone (.atom (.cls false []))) ∧
    Ndfa.Reach (alone (.atom (.cls false []))).1 0 [] (alone (.atom (.cls false []))).2 ∧
    [] ∉ (Re.atom (.cls false [])).lang true := by
  refine ⟨rfl, follows_reach _ [(none, 1), (none, 2)] 0 (by decide +kernel), ?_⟩
  rintro ⟨x, ⟨i, hi, _⟩, _⟩
  simp at hi

/-- A lexer with a second start state 1, entered by "c". -/
def twoStates : Ndfa := Ndfa.new.addState.1.addTransition 0 [⟨99, 100⟩] 1

/-- ... with `a|b` added in state 1. -/
def altInOne : Ndfa × Nat := (addRegex noDefs 1 twoStates true none 1 (Re.alt (ch 97) (ch 98)).text).getD (Ndfa.new, 0)

/-- Alternatives on the top level of an expression added in state 1: the second one is added in state 0 instead, so "b" is accepted
from state 0 although it does not lead to state 1 first. -/
theorem alternative_start_violated :
    addRegex noDefs 1 twoStates true none 1 (Re.alt (ch 97) (ch 98)).text = some altInOne ∧ Ndfa.Reach altInOne.1 0 [98] altInOne.2 ∧
    ¬ ∃ u v, Ndfa.Reach twoStates 0 u 1 ∧ v ∈ (Re.alt (ch 97) (ch 98)).lang true ∧ [98] = u ++ v := by
  refine ⟨rfl, follows_reach _ [(some 98, 5), (none, 4)] 0 (by decide +kernel), ?_⟩
  have key : ∀ u p, Ndfa.Reach twoStates 0 u p → p = 1 → 99 ∈ u := by
    intro u p hu
    induction hu with
    | refl => intro h; omega
    | @eps w p p' _ e ih =>
      obtain ⟨s, hs, h1⟩ := e
      intro _
      rcases p with _ | _ | p
      · have : twoStates.trans 0 = [(0, 1)] := by decide +kernel
        rw [this] at hs
        simp only [List.mem_singleton, Prod.mk.injEq] at hs
        rw [hs.1] at h1
        exact absurd h1 (by decide +kernel)
      · have : twoStates.trans 1 = [] := by decide +kernel
        rw [this] at hs; simp at hs
      · have : twoStates.trans (p + 2) = [] := rfl
        rw [this] at hs; simp at hs
    | @sym w p x p' _ e ih =>
      obtain ⟨s, hs, h1⟩ := e
      intro _
      rcases p with _ | _ | p
      · have : twoStates.trans 0 = [(0, 1)] := by decide +kernel
        rw [this] at hs
        simp only [List.mem_singleton, Prod.mk.injEq] at hs
        rw [hs.1] at h1
        have e : twoStates.syms.get 0 = [⟨99, 100⟩] := by decide +kernel
        rw [e, mem_single] at h1
        have : x = 99 := by omega
        simp [this]
      · have : twoStates.trans 1 = [] := by decide +kernel
        rw [this] at hs; simp at hs
      · have : twoStates.trans (p + 2) = [] := rfl
        rw [this] at hs; simp at hs
  rintro ⟨u, v, hu, _, e⟩
  have := key u 1 hu rfl
  have h98 : (99 : Int) ∈ ([98] : List Int) := by rw [e]; simp [this]
  simp at h98

/-- A definition that refers to itself is followed without end, whatever the depth. -/
theorem self_reference_violated (env : Env) (h0 : env.named [120] = []) (h : env.exprs [120] = some [123, 120, 125]) (d : Nat) (b : Builder) :
    addRegexTo env d [123, 120, 125] b = none := by
  induction d generalizing b with
  | zero => rfl
  | succ d ih =>
    show compileAll env (addRegexTo env d) 3 [123, 120, 125] (b.shift []) = none
    have hc : compile env (addRegexTo env d) [123, 120, 125] (b.shift []) = none := by
      have e : compile env (addRegexTo env d) [123, 120, 125] (b.shift []) =
          (compileExpression env (addRegexTo env d) [120] (b.shift []).push).bind (fun b' => some ([125], b'.pop)) := rfl
      rw [e]
      simp only [compileExpression, h0, h, ih]
      rfl
    have e : compileAll env (addRegexTo env d) 3 [123, 120, 125] (b.shift []) =
        (compile env (addRegexTo env d) [123, 120, 125] (b.shift [])).bind (fun r => compileAll env (addRegexTo env d) 2 r.1.tail r.2) := rfl
    rw [e, hc]
    rfl

/-- The same for a name that the language defines. -/
theorem named_self_reference_violated (env : Env) (ci cs : Bool) (l : List Named)
    (h : env.named [120] = ⟨true, [123, 120, 125], ci, cs⟩ :: l) (d : Nat) (b : Builder) :
    addRegexTo env d [123, 120, 125] b = none := by
  induction d generalizing b with
  | zero => rfl
  | succ d ih =>
    show compileAll env (addRegexTo env d) 3 [123, 120, 125] (b.shift []) = none
    have hc : compile env (addRegexTo env d) [123, 120, 125] (b.shift []) = none := by
      have e : compile env (addRegexTo env d) [123, 120, 125] (b.shift []) =
          (compileExpression env (addRegexTo env d) [120] (b.shift []).push).bind (fun b' => some ([125], b'.pop)) := rfl
      rw [e]
      simp only [compileExpression, h, addNamed, ih]
      rfl
    have e : compileAll env (addRegexTo env d) 3 [123, 120, 125] (b.shift []) =
        (compile env (addRegexTo env d) [123, 120, 125] (b.shift [])).bind (fun r => compileAll env (addRegexTo env d) 2 r.1.tail r.2) := rfl
    rw [e, hc]
    rfl

/-! ### C22 -/

/-- A new state reached from `p` on the symbols of one range (`add_with_surrogates` for a range above 0xffff). -/
def onRange (n : Ndfa) (p : Nat) (r : Range) : Ndfa := addSurrogateTransition n.addState.1 r p n.states.length

/-- C22 for a range within one high surrogate: the new state is reached exactly by the UTF-16 encodings. Missing: the other ranges,
for which it is false. -/
theorem surrogates_exact_partial (n : Ndfa) (h : n.WF) (p : Nat) (hp : p < n.states.length) (r : Range) (h1 : 0x10000 ≤ r.lo)
    (h2 : r.lo < r.hi) (h3 : r.hi ≤ 0x110000) (h4 : r.lo / 1024 = (r.hi - 1) / 1024) (a : Nat) (w : List Int)
    (ha : a < n.states.length) :
    Ndfa.Reach (onRange n p r) a w n.states.length ↔ ∃ u x, Ndfa.Reach n a u p ∧ r.lo ≤ x ∧ x < r.hi ∧ w = u ++ utf16 x := by
  have hl := Ndfa.addState_length n
  have g0 : Grown n n.addState.1 p n.states.length n.states.length 0 (fun _ _ _ => False) :=
    ⟨nadds_state h, by rw [hl]; exact Frag.unreached _ _ hp⟩
  obtain ⟨E, g⟩ := addSurrogate_one g0 (by omega) r h1 h2 h3 h4
  rw [zero_add] at g
  unfold onRange
  rw [(reach_of_frag h g.adds.edges g.frag (by omega)).2 a w ha]
  constructor
  · rintro ⟨u, v, hu, ⟨x, hx, rfl⟩, rfl⟩
    exact ⟨u, x, hu, hx.1, hx.2, rfl⟩
  · rintro ⟨u, x, hu, hx1, hx2, rfl⟩
    exact ⟨u, _, hu, ⟨x, ⟨hx1, hx2⟩, rfl⟩, rfl⟩

/-- What happens for any other range above 0xffff: nothing is accepted after the first high surrogate, and after the last one the
second unit may be anything from 0xd800. -/
theorem surrogates_several (n : Ndfa) (h : n.WF) (p : Nat) (hp : p < n.states.length) (r : Range) (h1 : 0x10000 ≤ r.lo)
    (h2 : r.lo < r.hi) (h3 : r.hi ≤ 0x110000) (h4 : r.lo / 1024 ≠ (r.hi - 1) / 1024) (a : Nat) (w : List Int)
    (ha : a < n.states.length) :
    Ndfa.Reach (onRange n p r) a w n.states.length ↔ ∃ u x y, Ndfa.Reach n a u p ∧ w = u ++ [x, y] ∧
      ((x = 0xd800 + (r.hi - 1 - 0x10000) / 1024 ∧ 0xd800 ≤ y ∧ y ≤ 0xdc00 + (r.hi - 1 - 0x10000) % 1024) ∨
        (0xd800 + (r.lo - 0x10000) / 1024 < x ∧ x < 0xd800 + (r.hi - 1 - 0x10000) / 1024 ∧ 0xdc00 ≤ y ∧ y < 0xe000)) := by
  have hl := Ndfa.addState_length n
  have g0 : Grown n n.addState.1 p n.states.length n.states.length 0 (fun _ _ _ => False) :=
    ⟨nadds_state h, by rw [hl]; exact Frag.unreached _ _ hp⟩
  obtain ⟨E, g⟩ := addSurrogate_many g0 (by omega) r h1 h2 h3 h4
  rw [zero_add] at g
  unfold onRange
  rw [(reach_of_frag h g.adds.edges g.frag (by omega)).2 a w ha]
  constructor
  · rintro ⟨u, v, hu, (⟨y, hy1, hy2, rfl⟩ | ⟨x, y, hx1, hx2, hy1, hy2, rfl⟩), rfl⟩
    · exact ⟨u, _, y, hu, rfl, .inl ⟨rfl, hy1, hy2⟩⟩
    · exact ⟨u, x, y, hu, rfl, .inr ⟨hx1, hx2, hy1, hy2⟩⟩
  · rintro ⟨u, x, y, hu, rfl, (⟨rfl, hy1, hy2⟩ | ⟨hx1, hx2, hy1, hy2⟩)⟩
    · exact ⟨u, _, hu, .inl ⟨y, hy1, hy2, rfl⟩, rfl⟩
    · exact ⟨u, _, hu, .inr ⟨x, y, hx1, hx2, hy1, hy2, rfl⟩, rfl⟩

/-- C22 is violated by every range with more than one high surrogate: the first code point is not accepted, and a pair that is not
the encoding of anything is. -/
theorem surrogates_violated (n : Ndfa) (h : n.WF) (p : Nat) (hp : p < n.states.length) (hloop : ∀ u, Ndfa.Reach n p u p → u = [])
    (r : Range) (h1 : 0x10000 ≤ r.lo) (h2 : r.lo < r.hi) (h3 : r.hi ≤ 0x110000) (h4 : r.lo / 1024 ≠ (r.hi - 1) / 1024) :
    ¬ Ndfa.Reach (onRange n p r) p (utf16 r.lo) n.states.length ∧
    ∃ w, Ndfa.Reach (onRange n p r) p w n.states.length ∧ ∀ x, w ≠ utf16 x := by
  constructor
  · rw [surrogates_several n h p hp r h1 h2 h3 h4 p _ hp]
    rintro ⟨u, x, y, hu, e, hxy⟩
    rw [hloop u hu, utf16_high h1] at e
    simp only [List.nil_append, List.cons.injEq, and_true] at e
    omega
  · refine ⟨[0xd800 + (r.hi - 1 - 0x10000) / 1024, 0xd800], ?_, ?_⟩
    · rw [surrogates_several n h p hp r h1 h2 h3 h4 p _ hp]
      exact ⟨[], _, _, .refl, rfl, .inl ⟨rfl, by omega, by omega⟩⟩
    · intro x e
      simp only [utf16] at e
      split at e
      · simp at e
      · simp only [List.cons.injEq, and_true] at e
        omega

/-- Beyond the last code point nothing is read: a range that only begins there leads nowhere, and of any other only the code points
count. -/
theorem surrogates_clipped (n : Ndfa) (h : n.WF) (p : Nat) (hp : p < n.states.length) (r : Range) :
    (0x110000 ≤ r.lo → ∀ a w, a < n.states.length → ¬ Ndfa.Reach (onRange n p r) a w n.states.length) ∧
    (r.lo < 0x110000 → 0x110000 < r.hi → ∀ a b w,
      (Ndfa.Reach (onRange n p r) a w b ↔ Ndfa.Reach (onRange n p ⟨r.lo, 0x110000⟩) a w b)) := by
  constructor
  · intro h1 a w ha
    have hl := Ndfa.addState_length n
    have g0 : Grown n n.addState.1 p n.states.length n.states.length 0 (fun _ _ _ => False) :=
      ⟨nadds_state h, by rw [hl]; exact Frag.unreached _ _ hp⟩
    have e : onRange n p r = n.addState.1 := by
      unfold onRange addSurrogateTransition
      rw [if_pos h1]
    rw [e, (reach_of_frag h g0.adds.edges g0.frag (by omega)).2 a w ha]
    rintro ⟨u, v, _, hv, _⟩
    exact hv
  · intro h1 h2 a b w
    have e : onRange n p r = onRange n p ⟨r.lo, 0x110000⟩ := by
      unfold onRange addSurrogateTransition
      rw [if_neg (by omega), if_pos h2, if_neg (by dsimp only; omega), if_neg (by dsimp only; omega)]
    rw [e]

/-- For instance [0x10300, 0x10401) (Old Italic to Deseret) has two high surrogates. -/
example : Ndfa.new.WF ∧ 0 < Ndfa.new.states.length ∧ (0x10300 : Int) / 1024 ≠ (0x10401 - 1) / 1024 :=
  ⟨Ndfa.built_wf .new, by decide, by decide⟩

/-- [0x1f600, 0x1f650) (emoticons) has one. -/
example : (0x1f600 : Int) / 1024 = (0x1f650 - 1) / 1024 ∧ utf16 0x1f600 = [0xd83d, 0xde00] := by decide

end Regex
end TameParse

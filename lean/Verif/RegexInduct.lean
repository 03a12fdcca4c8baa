import Verif.Surrogates
/-
Reading a well written expression adds a fragment for its language.
-/
namespace TameParse
open SymSet (Mem Canon)

theorem empty_both (E : Edges) : both (fun _ _ _ => False) E = E := by
  funext a l b; simp [both]

namespace Builder

theorem goto_good {b : Builder} (h : b.Good) (q : Nat) (hq : q < b.n.states.length) : (b.goto q).Good :=
  ⟨h.wf, hq, rfl, h.nil⟩

theorem gotoFrom_adds {b b' : Builder} {E : Edges} (h : Adds b b' E) (q p : Nat) (hq : q < b'.n.states.length) :
    Adds b (b'.gotoFrom q p) E :=
  ⟨⟨h.good.wf, hq, rfl, h.good.nil⟩, h.len, h.edges, h.accept, h.surrogates, h.wide⟩

/-- Only the automaton and the flags of the first builder matter. -/
theorem Adds.of_same {b b1 b' : Builder} {E : Edges} (h : Adds b1 b' E) (hn : b1.n = b.n) (hs : b1.surrogates = b.surrogates)
    (hw : b1.wide = b.wide) : Adds b b' E :=
  ⟨h.good, by rw [← hn]; exact h.len, by rw [← hn]; exact h.edges, by rw [← hn]; exact h.accept, by rw [← hs]; exact h.surrogates,
    by rw [← hw]; exact h.wide⟩

/-- The builder reads symbols in this way. -/
def In (b : Builder) (m : Regex.Re.Mode) : Prop := m.surrogates = b.surrogates ∧ m.wide = b.wide

theorem Adds.inMode {b b' : Builder} {E : Edges} (h : Adds b b' E) {m : Regex.Re.Mode} (hm : b.In m) : b'.In m :=
  ⟨by rw [h.surrogates]; exact hm.1, by rw [h.wide]; exact hm.2⟩

/-- A transition to a new state on a set. -/
theorem shift_frag {b : Builder} (h : b.Good) {m : Regex.Re.Mode} (hm : b.In m) (s : SymSet) (hs : Canon s) (P : Int → Prop)
    (hP : ∀ x, Mem x s ↔ P x) (hne : ∃ x, P x) (hr : m.Reads P) :
    ∃ E, Adds b (b.shift s) E ∧ (b.shift s).cur ≠ b.cur ∧ (b.shift s).prev = b.cur ∧ (b.shift s).stack = b.stack ∧
      Frag E b.cur (b.shift s).cur b.n.states.length (b.shift s).n.states.length
        {w | ∃ x, m.Var P x ∧ w = encode m.surrogates x} false false := by
  obtain ⟨h1, h2⟩ := hr.1 s hs hP
  rw [hm.2] at h1 h2
  have hw : b.wide s ≠ [] := by
    obtain ⟨x, hx⟩ := hne
    intro e
    have := (h2 x).2 ⟨x, hx, m.refl x⟩
    rw [e] at this
    exact SymSet.mem_nil x this
  obtain ⟨E, g1, g2, g3, g4, fr⟩ := addWith_frag h (b.wide s) hw h1.2 (fun hsr => by
    simp only [h2]
    exact hr.2 (by rw [hm.1]; exact hsr))
  refine ⟨E, g1, g2, g3, g4, ?_⟩
  simp only [encLang, h2] at fr
  rw [hm.1]
  exact fr

end Builder

namespace Regex
open Builder

theorem edge_lang_nil : @Eq (Language Int) {w | (([] : SymSet) = [] ∧ w = []) ∨ ∃ x, Mem x ([] : SymSet) ∧ w = [x]} 1 := by
  apply Language.ext
  intro w
  rw [Language.mem_one]
  constructor
  · rintro (⟨_, h⟩ | ⟨x, h, _⟩)
    · exact h
    · exact absurd h (SymSet.mem_nil x)
  · intro h; exact .inl ⟨rfl, h⟩

theorem edge_lang (s : SymSet) (hs : s ≠ []) :
    ({w | (s = [] ∧ w = []) ∨ ∃ x, Mem x s ∧ w = [x]} : Language Int) = {w | ∃ x, Mem x s ∧ w = [x]} := by
  ext w
  constructor
  · rintro (⟨h, _⟩ | h)
    · exact absurd h hs
    · exact h
  · intro h; exact .inr h

/-- Reading a string symbol by symbol. -/
theorem literal_spec (m : Re.Mode) : ∀ (w : List Int) (b : Builder), b.Good → b.In m → (∀ x ∈ w, m.Reads (fun y => y = x)) →
    ∃ E, Adds b (addLiteralTo b w) E ∧ (addLiteralTo b w).stack = b.stack ∧ (w ≠ [] → (addLiteralTo b w).cur ≠ b.cur) ∧
      Frag E b.cur (addLiteralTo b w).cur b.n.states.length (addLiteralTo b w).n.states.length
        {v | ∃ u, List.Forall₂ m.var w u ∧ v = u.flatMap (encode m.surrogates)} false false := by
  intro w
  induction w with
  | nil =>
    intro b h _ _
    refine ⟨_, adds_refl h, rfl, by simp, ?_⟩
    have := Frag.empty b.cur b.n.states.length h.cur
    refine (congrArg (fun L => Frag _ _ _ _ _ L false false) ?_).mp this
    apply Language.ext
    intro v
    rw [Language.mem_one]
    constructor
    · rintro rfl
      exact ⟨[], .nil, rfl⟩
    · rintro ⟨u, hu, rfl⟩
      cases hu
      rfl
  | cons x w ih =>
    intro b h hm hx
    have hmem : ∀ y, Mem y ([⟨x, x + 1⟩] : SymSet) ↔ y = x := by
      intro y; rw [mem_single]; omega
    have hcan : Canon ([⟨x, x + 1⟩] : SymSet) := by
      refine ⟨?_, ?_⟩
      · simp
      · intro r hr; rw [List.mem_singleton] at hr; rw [hr]; simp only; omega
    obtain ⟨F, g1, g2, g3, g4, fr⟩ := shift_frag h hm [⟨x, x + 1⟩] hcan _ hmem ⟨x, rfl⟩ (hx x (by simp))
    obtain ⟨E, k1, k2, k3, k4⟩ := ih (b.shift [⟨x, x + 1⟩]) g1.good (g1.inMode hm) (fun y hy => hx y (by simp [hy]))
    have e : addLiteralTo b (x :: w) = addLiteralTo (b.shift [⟨x, x + 1⟩]) w := rfl
    rw [e]
    have hcur := h.cur
    cases w with
    | nil =>
      refine ⟨_, g1, g4, fun _ => g2, ?_⟩
      refine (congrArg (fun L => Frag _ _ _ _ _ L false false) ?_).mp fr
      apply Language.ext
      intro v
      constructor
      · rintro ⟨y, ⟨z, rfl, hz⟩, rfl⟩
        exact ⟨[y], .cons hz .nil, by simp⟩
      · rintro ⟨u, hu, rfl⟩
        cases hu with
        | cons h1 h2 =>
          cases h2
          exact ⟨_, ⟨x, rfl, h1⟩, by simp⟩
    | cons y w =>
      have hne := k3 (by simp)
      have hc := fr.cat k4 g2 hne (.inl rfl)
      refine ⟨_, g1.trans k1, by rw [k2, g4], ?_, ?_⟩
      · intro _
        have := k4.fin.resolve_left hne
        have := g1.len
        omega
      · refine (congrArg (fun L => Frag _ _ _ _ _ L false false) ?_).mp hc
        apply Language.ext
        intro v
        constructor
        · rintro ⟨a, ⟨z, ⟨x', rfl, hz⟩, rfl⟩, c, ⟨u, hu, rfl⟩, rfl⟩
          exact ⟨z :: u, .cons hz hu, rfl⟩
        · rintro ⟨u, hu, rfl⟩
          cases hu with
          | cons h1 h2 => exact ⟨_, ⟨_, ⟨x, rfl, h1⟩, rfl⟩, _, ⟨_, h2, rfl⟩, rfl⟩

/-- `{name}` is read up to the closing brace. -/
theorem compile_brace (env : Env) (sub : List Int → Builder → Option Builder) (name rest : List Int) (h : 125 ∉ name) (b b' : Builder)
    (hb : compileExpression env sub name b.push = some b') :
    compile env sub (123 :: name ++ [125] ++ rest) b = some (125 :: rest, b'.pop) := by
  have e : (123 :: name ++ [125] ++ rest : List Int) = 123 :: (name ++ 125 :: rest) := by simp
  rw [e]
  have hall : ∀ x ∈ name, (decide (x ≠ 125)) = true := by
    intro x hx
    rw [decide_eq_true_eq]
    rintro rfl; exact h hx
  have h1 : (name ++ 125 :: rest).takeWhile (· ≠ 125) = name := by
    rw [SymSet.takeWhile_append_all _ _ _ hall]
    simp
  have h2 : (name ++ 125 :: rest).dropWhile (· ≠ 125) = 125 :: rest := by
    rw [List.dropWhile_append]
    have : name.dropWhile (· ≠ 125) = [] := by
      clear h hb e h1
      induction name with
      | nil => rfl
      | cons x y ih =>
        rw [List.dropWhile_cons, if_pos (hall x (by simp))]
        exact ih (fun z hz => hall z (by simp [hz]))
    rw [this]
    simp
  have hne : ∃ x y, name ++ 125 :: rest = x :: y := by
    cases name with
    | nil => exact ⟨_, _, rfl⟩
    | cons x y => exact ⟨_, _, rfl⟩
  obtain ⟨x, y, hxy⟩ := hne
  rw [hxy] at h1 h2 ⊢
  simp only [compile]
  rw [if_neg (by decide), if_neg (by decide), if_neg (by decide), if_neg (by decide), if_neg (by decide), if_neg (by decide),
    if_neg (by decide), if_neg (by decide), if_pos trivial]
  rw [h1, h2, hb]
  rfl

/-- Reading a sequence. -/
def SeqStmt (env : Env) (M : Bool → Re.Mode) (c : Bool) (r : Re) : Prop :=
  ∀ d, r.depth ≤ d → ∀ (b : Builder) (rest : List Int), b.Good → b.In (M c) → r.isSeq = true → r.OkN env M c →
    ∃ b' E, Run env (addRegexTo env d) (r.text ++ rest) b rest b' ∧ Adds b b' E ∧ b'.stack = b.stack ∧
      Frag E b.cur b'.cur b.n.states.length b'.n.states.length (r.langN M c) r.loopIn r.loopOut ∧ b'.cur ≠ b.cur ∧
      (r.isItem = true → b'.prev = b.cur)

/-- Reading alternatives that start at `p`; the first one may start after an epsilon edge. -/
def AltStmt (env : Env) (M : Bool → Re.Mode) (c : Bool) (r : Re) : Prop :=
  ∀ d, r.depth ≤ d → ∀ (b0 b : Builder) (rest : List Int) (p : Nat) (S : List (Nat × Option Nat)) (E0 : Edges), Adds b0 b E0 →
    Frag E0 p b.cur b0.n.states.length b.n.states.length 1 false false → norm b.stack = (p, none) :: S →
    (b.cur = p → E0 = (fun _ _ _ => False) ∧ b.n.states.length = b0.n.states.length) → b.In (M c) → r.OkN env M c →
    ∃ b', Run env (addRegexTo env d) (r.text ++ rest) b rest b' ∧
      Pending b0 b' p S (r.langN M c) (r.loopIn && decide (b.cur = p)) r.loopOut r.isAlt ∧ (b'.stack = [] → b.stack = []) ∧
      (r.isAlt = false → (b.cur ≠ p ∨ r ≠ .eps) → b'.cur ≠ p)

/-- Reading alternatives that start at `p` while an or is under way: `K` are the alternatives before. -/
def MoreStmt (env : Env) (M : Bool → Re.Mode) (c : Bool) (r : Re) : Prop :=
  ∀ d, r.depth ≤ d → ∀ (b0 b : Builder) (rest : List Int) (p f mid : Nat) (S : List (Nat × Option Nat)) (E F : Edges) (K : Language Int),
    b.stack = (p, some f) :: S → Adds b0 b (both E F) → Frag E p f b0.n.states.length mid K false false → f ≠ p →
    Frag F p b.cur mid b.n.states.length 1 false false → b.cur ≠ p → p < b0.n.states.length → b.In (M c) → r.OkN env M c →
    ∃ b', Run env (addRegexTo env d) (r.text ++ rest) b rest b' ∧ Pending b0 b' p S (K + r.langN M c) false false true

/-- Reading the first of the definitions with a name. -/
def FirstStmt (env : Env) (M : Bool → Re.Mode) (c : Bool) (r : Re) : Prop :=
  ∀ d, r.depth ≤ d → ∀ (b : Builder), b.Good → b.In (M c) → r.OkDefs env M c →
    ∃ i l b1 b' a, r.entries = i :: l ∧ addNamed env (addRegexTo env (d + 1)) (b.lower, b.upper) i b.push = some b1 ∧
      addMore env (addRegexTo env (d + 1)) (b.lower, b.upper) l b1 = some b' ∧
      Pending b (b'.setCase (b.lower, b.upper)) b.cur b.stack (r.langN M c) false r.loopOut a ∧ (a = false → b'.cur ≠ b.cur) ∧ b'.stack ≠ [] ∧
      b'.wide [] = []

/-- Reading another one of the definitions with a name. -/
def NextStmt (env : Env) (M : Bool → Re.Mode) (c : Bool) (r : Re) : Prop :=
  ∀ d, r.depth ≤ d → ∀ (b0 b1 : Builder) (p : Nat) (S : List (Nat × Option Nat)) (K : Language Int) (o a : Bool), b0.In (M c) → p < b0.n.states.length →
    Pending b0 (b1.setCase (b0.lower, b0.upper)) p S K false o a → b1.wide [] = [] → r.isEither = false → r.OkDefs env M c →
    ∃ b' a', addMore env (addRegexTo env (d + 1)) (b0.lower, b0.upper) r.entries b1 = some b' ∧
      Pending b0 (b'.setCase (b0.lower, b0.upper)) p S (K + r.langN M c) false false a' ∧ (a' = false → b'.cur ≠ p) ∧ b'.stack ≠ [] ∧ b'.wide [] = []

/-- The modes are those of the case options. -/
structure Cases (env : Env) (M : Bool → Re.Mode) : Prop where
  surrogates : (M true).surrogates = (M false).surrogates
  plain : ∀ b : Builder, (b.setCase (none, none)).wide = (M false).wide
  folded : ∀ b : Builder, (b.setCase (some env.folds.1, some env.folds.2)).wide = (M true).wide
  nil : (M false).wide [] = [] ∧ (M true).wide [] = []

/-- All of these. -/
structure Stmts (env : Env) (M : Bool → Re.Mode) (c : Bool) (r : Re) : Prop where
  seq : SeqStmt env M c r
  alt : r.OkN env M c → AltStmt env M c r
  more : r.OkN env M c → MoreStmt env M c r
  first : FirstStmt env M c r
  next : NextStmt env M c r

theorem alt_of_seq (env : Env) (M : Bool → Re.Mode) (c : Bool) (r : Re) (h : SeqStmt env M c r) (hs : r.isSeq = true) : AltStmt env M c r := by
  intro d hd b0 b rest p S E0 h1 h2 h3 h4 hm hok
  obtain ⟨b', E, g1, g2, g3, g4, g5, _⟩ := h d hd b rest h1.good hm hs hok
  have hne : r ≠ .eps := by rintro rfl; simp [Re.isSeq] at hs
  have hal : r.isAlt = false := by cases r <;> first | rfl | simp [Re.isSeq] at hs
  have hp := h2.start
  refine ⟨b', g1, ?_, by rw [g3]; exact id, ?_⟩
  · rw [hal]
    by_cases hc : b.cur = p
    · obtain ⟨rfl, hlen⟩ := h4 hc
      refine .first E (by rw [g3]; exact h3) ?_ ?_
      · have := h1.trans g2
        rw [empty_both] at this
        exact this
      · rw [← hc, ← hlen]
        simpa using g4
    · refine .first (both E0 E) (by rw [g3]; exact h3) (h1.trans g2) ?_
      have := h2.cat g4 hc g5 (.inl rfl)
      rw [one_mul] at this
      simpa [hc] using this
  · intro _ _
    by_cases hc : b.cur = p
    · rw [← hc]; exact g5
    · have := g4.fin.resolve_left g5
      have := h1.len
      omega

theorem alt_eps (env : Env) (M : Bool → Re.Mode) (c : Bool) : AltStmt env M c .eps := by
  intro d _ b0 b rest p S E0 h1 h2 h3 h4 _ _
  refine ⟨b, by simpa [Re.text] using Run.refl rest b, ?_, id, ?_⟩
  · refine .first E0 h3 h1 ?_
    simpa [Re.loopIn, Re.loopOut, Re.langN] using h2
  · rintro _ (h | h)
    · exact h
    · exact absurd rfl h

theorem alt_alt (env : Env) (M : Bool → Re.Mode) (c : Bool) (r s : Re) (hr : AltStmt env M c r) (hs : SeqStmt env M c s) (hse : s.isSeq = true ∨ s = .eps) :
    AltStmt env M c (.alt r s) := by
  intro d hd b0 b rest p S E0 h1 h2 h3 h4 hm hok
  obtain ⟨ok1, ok2, ok3, ok4, ok5⟩ := hok
  simp only [Re.depth] at hd
  have hp := h2.start
  obtain ⟨b1, g1, g2, g3, _⟩ := hr d (by omega) b0 b (124 :: s.text ++ rest) p S E0 h1 h2 h3 h4 hm ok1
  rw [ok4, Bool.false_and] at g2
  obtain ⟨E, f, k1, k2, k3, k4, k5⟩ := beginOr_spec hp g2
  have hstep : Run env (addRegexTo env d) (124 :: s.text ++ rest) b1 (s.text ++ rest) b1.beginOr :=
    .one (l := 124) (by simp) rfl (by simp)
  have hplen : p < b1.beginOr.n.states.length := by have := k3.len; omega
  have htext : (Re.alt r s).text ++ rest = r.text ++ (124 :: s.text ++ rest) := by simp [Re.text]
  rw [htext]
  rcases hse with hse | rfl
  · obtain ⟨b', F, q1, q2, q3, q4, q5, _⟩ := hs d (by omega) b1.beginOr rest k3.good
      ⟨by rw [k3.surrogates, ← h1.surrogates]; exact hm.1, by rw [k3.wide, ← h1.wide]; exact hm.2⟩ hse ok2
    refine ⟨b', (g1.trans hstep).trans q1, ?_, ?_, by simp [Re.isAlt]⟩
    · refine .more E F f b1.beginOr.n.states.length (r.langN M c) (s.langN M c) s.loopOut (by rw [q3, k1]) (k3.trans q2) k5 k4 ?_ rfl
      rw [k2, ok5] at q4
      exact q4
    · rw [q3, k1]; simp
  · refine ⟨b1.beginOr, by simpa [Re.text] using g1.trans hstep, ?_, ?_, by simp [Re.isAlt]⟩
    · refine .more E (fun _ _ _ => False) f b1.beginOr.n.states.length (r.langN M c) 1 false k1 (by rw [both_empty]; exact k3) k5 k4 ?_ rfl
      rw [k2]
      exact Frag.empty p _ hplen
    · rw [k1]; simp

theorem more_of_seq (env : Env) (M : Bool → Re.Mode) (c : Bool) (r : Re) (h : SeqStmt env M c r) (hs : r.isSeq = true) : MoreStmt env M c r := by
  intro d hd b0 b rest p f mid S E F K h1 h2 h3 h4 h5 h6 hp hm hok
  obtain ⟨b', G, g1, g2, g3, g4, g5, _⟩ := h d hd b rest h2.good hm hs hok
  refine ⟨b', g1, .more E (both F G) f mid K _ r.loopOut (by rw [g3]; exact h1) ?_ h3 h4 ?_ rfl⟩
  · rw [← both_assoc]
    exact h2.trans g2
  · have := h5.cat g4 h6 g5 (.inl rfl)
    rw [one_mul] at this
    exact this

theorem more_eps (env : Env) (M : Bool → Re.Mode) (c : Bool) : MoreStmt env M c .eps := by
  intro d _ b0 b rest p f mid S E F K h1 h2 h3 h4 h5 _ _ _ _
  exact ⟨b, by simpa [Re.text] using Run.refl rest b, .more E F f mid K 1 false h1 h2 h3 h4 h5 rfl⟩

theorem more_alt (env : Env) (M : Bool → Re.Mode) (c : Bool) (r s : Re) (hr : MoreStmt env M c r) (hs : SeqStmt env M c s) (hse : s.isSeq = true ∨ s = .eps) :
    MoreStmt env M c (.alt r s) := by
  intro d hd b0 b rest p f mid S E F K h1 h2 h3 h4 h5 h6 hp hm hok
  obtain ⟨ok1, ok2, ok3, ok4, ok5⟩ := hok
  simp only [Re.depth] at hd
  obtain ⟨b1, g1, g2⟩ := hr d (by omega) b0 b (124 :: s.text ++ rest) p f mid S E F K h1 h2 h3 h4 h5 h6 hp hm ok1
  obtain ⟨E', f', k1, k2, k3, k4, k5⟩ := beginOr_spec hp g2
  have hstep : Run env (addRegexTo env d) (124 :: s.text ++ rest) b1 (s.text ++ rest) b1.beginOr :=
    .one (l := 124) (by simp) rfl (by simp)
  have hplen : p < b1.beginOr.n.states.length := by have := k3.len; omega
  have htext : (Re.alt r s).text ++ rest = r.text ++ (124 :: s.text ++ rest) := by simp [Re.text]
  rw [htext]
  have hL : K + (Re.alt r s).langN M c = K + r.langN M c + s.langN M c := by rw [Re.langN, add_assoc]
  rcases hse with hse | rfl
  · obtain ⟨b', G, q1, q2, q3, q4, q5, _⟩ := hs d (by omega) b1.beginOr rest k3.good
      ⟨by rw [k3.surrogates, ← h2.surrogates]; exact hm.1, by rw [k3.wide, ← h2.wide]; exact hm.2⟩ hse ok2
    refine ⟨b', (g1.trans hstep).trans q1, ?_⟩
    refine .more E' G f' b1.beginOr.n.states.length (K + r.langN M c) (s.langN M c) s.loopOut (by rw [q3, k1]) (k3.trans q2) k5 k4 ?_ hL
    rw [k2, ok5] at q4
    exact q4
  · refine ⟨b1.beginOr, by simpa [Re.text] using g1.trans hstep, ?_⟩
    refine .more E' (fun _ _ _ => False) f' b1.beginOr.n.states.length (K + r.langN M c) 1 false k1 (by rw [both_empty]; exact k3) k5 k4 ?_ hL
    rw [k2]
    exact Frag.empty p _ hplen

/-! Case options -/

theorem setCase_self (b : Builder) : b.setCase (b.lower, b.upper) = b := rfl

theorem adds_setCase {b b' : Builder} {E : Edges} (h : Adds b b' E) (z : Case) (hz : (b.setCase z).wide [] = []) :
    Adds (b.setCase z) (b'.setCase z) E :=
  ⟨⟨h.good.wf, h.good.cur, h.good.next, hz⟩, h.len, h.edges, h.accept, h.surrogates, rfl⟩

theorem pending_setCase {b0 b : Builder} {p : Nat} {S : List (Nat × Option Nat)} {L : Language Int} {i o a : Bool} (h : Pending b0 b p S L i o a) (z : Case)
    (hz : (b0.setCase z).wide [] = []) : Pending (b0.setCase z) (b.setCase z) p S L i o a := by
  cases h with
  | first E h1 h2 h3 => exact .first E h1 (adds_setCase h2 z hz) h3
  | more E F f mid M₁ M₂ o' h1 h2 h3 h4 h5 h6 => exact .more E F f mid M₁ M₂ o' h1 (adds_setCase h2 z hz) h3 h4 h5 h6

theorem shift_setCase {b : Builder} (h : b.wide [] = []) (z : Case) (hz : (b.setCase z).wide [] = []) : (b.setCase z).shift [] = (b.shift []).setCase z := by
  rw [shift_eq h, shift_eq hz]
  simp only [target, setCase]
  cases b.next <;> rfl

theorem beginOr_setCase {b : Builder} (h : b.wide [] = []) (z : Case) (hz : (b.setCase z).wide [] = []) : (b.setCase z).beginOr = b.beginOr.setCase z := by
  have key : ∀ x : Builder, x.wide [] = [] → (x.setCase z).wide [] = [] →
      (match (x.setCase z).stack with
        | [] => x.setCase z
        | (p, none) :: rest => { (x.setCase z).shift [] with stack := (p, some ((x.setCase z).shift []).cur) :: rest, prev := (x.setCase z).prev, cur := p }
        | (p, some f) :: _ => { x.setCase z with n := (x.setCase z).n.addTransition (x.setCase z).cur [] f, cur := p }) =
      (match x.stack with
        | [] => x
        | (p, none) :: rest => { x.shift [] with stack := (p, some (x.shift []).cur) :: rest, prev := x.prev, cur := p }
        | (p, some f) :: _ => { x with n := x.n.addTransition x.cur [] f, cur := p } : Builder).setCase z := by
    intro x hx hxz
    obtain ⟨n, cur, prev, next, stack, sr, lo, up⟩ := x
    cases stack with
    | nil => rfl
    | cons y l =>
      obtain ⟨p, f⟩ := y
      cases f with
      | none => dsimp only [setCase] at hxz ⊢; rw [show (⟨n, cur, prev, next, (p, none) :: l, sr, z.1, z.2⟩ : Builder) = setCase ⟨n, cur, prev, next, (p, none) :: l, sr, lo, up⟩ z from rfl, shift_setCase hx z hxz]; rfl
      | some f => rfl
  unfold beginOr
  by_cases hs : b.stack = []
  · have hs' : (b.setCase z).stack = [] := hs
    rw [if_pos hs, if_pos hs']
    exact key { b with stack := [(0, none)] } h hz
  · have hs' : (b.setCase z).stack ≠ [] := hs
    rw [if_neg hs, if_neg hs']
    exact key b h hz

theorem caseFor_in {env : Env} {M : Bool → Re.Mode} (hM : Cases env M) {c : Bool} {b : Builder} (hb : b.In (M c)) (hn : b.wide [] = []) (i : Named) :
    (b.setCase (env.caseFor (b.lower, b.upper) i)).In (M (Re.within c i.ci i.cs)) ∧ (b.setCase (env.caseFor (b.lower, b.upper) i)).wide [] = [] := by
  have hs : ∀ c', (M c').surrogates = b.surrogates := by
    intro c'
    have h1 := hb.1
    have h2 := hM.surrogates
    cases c <;> cases c' <;> simp_all
  unfold Env.caseFor Re.within
  cases i.ci with
  | true => exact ⟨⟨hs _, (hM.folded b).symm⟩, by rw [if_pos rfl, hM.folded b]; exact hM.nil.2⟩
  | false =>
    cases i.cs with
    | true => exact ⟨⟨hs _, (hM.plain b).symm⟩, by rw [if_neg (by simp), if_pos rfl, hM.plain b]; exact hM.nil.1⟩
    | false => exact ⟨⟨hs _, by show (M _).wide = b.wide; simpa using hb.2⟩, hn⟩

theorem rejoin_stack {b : Builder} (h : b.stack ≠ []) : b.rejoin.stack ≠ [] := by
  intro hr
  simp only [rejoin] at hr
  cases hs : b.stack with
  | nil => exact h hs
  | cons x y =>
    rw [hs] at hr
    obtain ⟨x1, x2⟩ := x
    cases x2 with
    | none => dsimp only at hr; rw [hs] at hr; simp at hr
    | some f => simp at hr

theorem rejoin_wide (b : Builder) (h : b.Good) (hq : ∀ p f S, b.stack = (p, some f) :: S → f < b.n.states.length) : b.rejoin.wide [] = [] := by
  simp only [rejoin]
  cases hs : b.stack with
  | nil => exact h.nil
  | cons x y =>
    obtain ⟨x1, x2⟩ := x
    cases x2 with
    | none => exact h.nil
    | some f => exact (epsilonTo_spec h f (hq _ _ _ hs)).1.good.nil

theorem addMore_append (env : Env) (sub : List Int → Builder → Option Builder) (z : Case) : ∀ (l l' : List Named) (b : Builder),
    addMore env sub z (l ++ l') b = (addMore env sub z l b).bind (addMore env sub z l') := by
  intro l l'
  induction l with
  | nil => intro b; rfl
  | cons i l ih =>
    intro b
    simp only [List.cons_append, addMore]
    cases addNamed env sub z i b.beginOr with
    | none => rfl
    | some b1 => exact ih b1

/-- What is not a definition. -/
theorem no_defs {env : Env} {M : Bool → Re.Mode} {c : Bool} {r : Re} (hs : SeqStmt env M c r) (ha : r.OkN env M c → AltStmt env M c r)
    (hm : r.OkN env M c → MoreStmt env M c r) (h : ¬ r.OkDefs env M c) : Stmts env M c r :=
  ⟨hs, ha, hm, fun _ _ _ _ _ hd => absurd hd h, fun _ _ _ _ _ _ _ _ _ _ _ _ _ _ hd => absurd hd h⟩

theorem of_seq {env : Env} {M : Bool → Re.Mode} {c : Bool} {r : Re} (hs : SeqStmt env M c r) (hse : r.isSeq = true) (h : ¬ r.OkDefs env M c) : Stmts env M c r :=
  no_defs hs (fun _ => alt_of_seq env M c _ hs hse) (fun _ => more_of_seq env M c _ hs hse) h

theorem not_seq {env : Env} {M : Bool → Re.Mode} {c : Bool} {r : Re} (h : r.isSeq = false) : SeqStmt env M c r :=
  fun _ _ _ _ _ _ hs => by rw [h] at hs; cases hs

theorem stmts (env : Env) (M : Bool → Re.Mode) (r : Re) (hM : r.bare = true ∨ Cases env M) : ∀ c, Stmts env M c r := by
  induction r with
  | eps => exact fun c => no_defs (not_seq rfl) (fun _ => alt_eps env M c) (fun _ => more_eps env M c) id
  | atom a =>
    intro c
    have hseq : SeqStmt env M c (.atom a) := by
      intro d _ b rest hb hm _ hok
      obtain ⟨h1, h2, h3⟩ := atom_set a hok.1
      obtain ⟨l, hc⟩ := compile_atom env (addRegexTo env d) a hok.1 rest b
      have hex : ∃ x, a.Has x := by
        cases hse : a.set with
        | nil => exact absurd hse h2
        | cons q t => exact ⟨q.lo, (h3 _).1 ⟨q, by rw [hse]; simp, by omega, h1.2 q (by rw [hse]; simp)⟩⟩
      obtain ⟨E, g1, g2, g3, g4, fr⟩ := shift_frag hb hm a.set h1 _ h3 hex hok.2
      have hne : a.text ≠ [] := by
        cases a with
        | chr c => cases c <;> simp [Atom.text, Chr.text]
        | any => simp [Atom.text]
        | cls neg items => cases neg <;> simp [Atom.text]
      refine ⟨b.shift a.set, _, .one (by simp [Re.text, hne]) hc ?_, g1, g4, ?_, g2, fun _ => g3⟩
      · have := List.length_pos_iff.2 hne
        simp only [Re.text, List.length_append]; omega
      · exact fr
    exact of_seq hseq rfl id
  | grp r ih =>
    intro c
    have hseq : SeqStmt env M c (.grp r) := by
      intro d hd b rest hb hm _ hok
      have ha := (ih hM c).alt hok.1
      have hpush : Adds b b.push (fun _ _ _ => False) := (adds_refl hb).move _ _ _ hb.cur
      obtain ⟨b1, g1, g2, g3, g4⟩ := ha d hd b b.push (41 :: rest) b.cur b.stack _ hpush
        (Frag.empty b.cur b.n.states.length hb.cur) rfl (fun _ => ⟨rfl, rfl⟩) hm hok.1
      have hst : b1.stack ≠ [] := by
        intro h; have := g3 h; simp [push] at this
      obtain ⟨E, k1, k2, k3, k4, k5⟩ := pop_spec hst g2 (fun h => g4 h (.inr hok.2))
      refine ⟨b1.pop, E, ?_, k3, k1, ?_, k4, fun _ => k2⟩
      · have e : (Re.grp r).text ++ rest = 40 :: (r.text ++ 41 :: rest) := by simp [Re.text]
        rw [e]
        refine (Run.one (l := 40) (by simp) rfl (by simp)).trans (g1.trans (Run.one (l := 41) (by simp) rfl (by simp)))
      · have e1 : (r.loopIn && decide (b.push.cur = b.cur) && !r.isAlt) = (Re.grp r).loopIn := by
          have : b.push.cur = b.cur := rfl
          rw [this]
          cases r <;> simp [Re.loopIn, Re.isAlt]
        have e2 : (r.loopOut && !r.isAlt) = (Re.grp r).loopOut := by
          cases r <;> simp [Re.loopOut, Re.isAlt]
        rw [e1, e2] at k5
        exact k5
    exact of_seq hseq rfl id
  | star r ih =>
    intro c
    have hseq : SeqStmt env M c (.star r) := by
      intro d hd b rest hb hm _ hok
      obtain ⟨ok1, ok2, ok3, ok4⟩ := hok
      obtain ⟨b1, E, g1, g2, g3, g4, g5, g6⟩ := (ih hM c).seq d hd b (42 :: rest) hb hm (by cases r <;> simp_all [Re.isItem, Re.isSeq]) ok1
      have hprev := g6 ok2
      have hp : b.cur < b1.n.states.length := Nat.lt_of_lt_of_le hb.cur g2.len
      obtain ⟨q1, q2, q3, q4, q5⟩ := epsilonTo_spec (goto_good g2.good b.cur hp) b1.cur g2.good.cur
      obtain ⟨s1, s2, s3, s4, s5⟩ := epsilonTo_spec (goto_good q1.good b1.cur (by rw [q5]; exact g2.good.cur)) b.cur
        (by show _ < ((b1.goto b.cur).epsilonTo b1.cur).n.states.length; rw [q5]; exact hp)
      have hlen : ((((b1.goto b.cur).epsilonTo b1.cur).goto b1.cur).epsilonTo b.cur).n.states.length = b1.n.states.length := by
        rw [s5]; exact q5
      have hadds := (g2.trans (q1.of_same (b := b1) rfl rfl rfl)).trans
        (s1.of_same (b := ((b1.goto b.cur).epsilonTo b1.cur)) rfl rfl rfl)
      refine ⟨((((b1.goto b.cur).epsilonTo b1.cur).goto b1.cur).epsilonTo b.cur).gotoFrom b1.cur b.cur, _,
        ?_, gotoFrom_adds hadds b1.cur b.cur (by rw [hlen]; exact g2.good.cur), ?_, ?_, g5, fun _ => rfl⟩
      · have e : (Re.star r).text ++ rest = r.text ++ 42 :: rest := by simp [Re.text]
        rw [e]
        refine g1.trans (Run.one (l := 42) (by simp) ?_ (by simp))
        rw [← hprev]
        rfl
      · show ((((b1.goto b.cur).epsilonTo b1.cur).goto b1.cur).epsilonTo b.cur).stack = _
        rw [s4]; show ((b1.goto b.cur).epsilonTo b1.cur).stack = _; rw [q4]; exact g3
      · rw [ok3, ok4] at g4
        have := g4.star g5
        show Frag _ b.cur b1.cur _ ((((b1.goto b.cur).epsilonTo b1.cur).goto b1.cur).epsilonTo b.cur).n.states.length _ _ _
        rw [hlen]
        exact this
    exact of_seq hseq rfl id
  | plus r ih =>
    intro c
    have hseq : SeqStmt env M c (.plus r) := by
      intro d hd b rest hb hm _ hok
      obtain ⟨ok1, ok2⟩ := hok
      obtain ⟨b1, E, g1, g2, g3, g4, g5, g6⟩ := (ih hM c).seq d hd b (43 :: rest) hb hm (by cases r <;> simp_all [Re.isItem, Re.isSeq]) ok1
      have hprev := g6 ok2
      have hp : b.cur < b1.n.states.length := Nat.lt_of_lt_of_le hb.cur g2.len
      obtain ⟨s1, s2, s3, s4, s5⟩ := epsilonTo_spec (goto_good g2.good b1.cur g2.good.cur) b.cur hp
      have hadds := g2.trans (s1.of_same (b := b1) rfl rfl rfl)
      refine ⟨((b1.goto b1.cur).epsilonTo b.cur).gotoFrom b1.cur b.cur, _,
        ?_, gotoFrom_adds hadds b1.cur b.cur (by rw [s5]; exact g2.good.cur), ?_, ?_, g5, fun _ => rfl⟩
      · have e : (Re.plus r).text ++ rest = r.text ++ 43 :: rest := by simp [Re.text]
        rw [e]
        refine g1.trans (Run.one (l := 43) (by simp) ?_ (by simp))
        rw [← hprev]
        rfl
      · show ((b1.goto b1.cur).epsilonTo b.cur).stack = _
        rw [s4]; exact g3
      · have := g4.plus
        show Frag _ b.cur b1.cur _ ((b1.goto b1.cur).epsilonTo b.cur).n.states.length _ _ _
        rw [s5]
        exact this
    exact of_seq hseq rfl id
  | opt r ih =>
    intro c
    have hseq : SeqStmt env M c (.opt r) := by
      intro d hd b rest hb hm _ hok
      obtain ⟨ok1, ok2, ok3, ok4⟩ := hok
      obtain ⟨b1, E, g1, g2, g3, g4, g5, g6⟩ := (ih hM c).seq d hd b (63 :: rest) hb hm (by cases r <;> simp_all [Re.isItem, Re.isSeq]) ok1
      have hprev := g6 ok2
      have hp : b.cur < b1.n.states.length := Nat.lt_of_lt_of_le hb.cur g2.len
      obtain ⟨s1, s2, s3, s4, s5⟩ := epsilonTo_spec (goto_good g2.good b.cur hp) b1.cur g2.good.cur
      have hadds := g2.trans (s1.of_same (b := b1) rfl rfl rfl)
      refine ⟨((b1.goto b.cur).epsilonTo b1.cur).gotoFrom b1.cur b.cur, _,
        ?_, gotoFrom_adds hadds b1.cur b.cur (by rw [s5]; exact g2.good.cur), ?_, ?_, g5, fun _ => rfl⟩
      · have e : (Re.opt r).text ++ rest = r.text ++ 63 :: rest := by simp [Re.text]
        rw [e]
        refine g1.trans (Run.one (l := 63) (by simp) ?_ (by simp))
        rw [← hprev]
        rfl
      · show ((b1.goto b.cur).epsilonTo b1.cur).stack = _
        rw [s4]; exact g3
      · rw [ok3, ok4] at g4
        have := g4.opt g5
        show Frag _ b.cur b1.cur _ ((b1.goto b.cur).epsilonTo b1.cur).n.states.length _ (Re.opt r).loopIn (Re.opt r).loopOut
        rw [s5, Re.loopIn, Re.loopOut, ok3, ok4]
        exact this
    exact of_seq hseq rfl id
  | cat r s ihr ihs =>
    intro c
    have hseq : SeqStmt env M c (.cat r s) := by
      intro d hd b rest hb hm _ hok
      obtain ⟨ok1, ok2, ok3, ok4, ok5⟩ := hok
      simp only [Re.depth] at hd
      obtain ⟨b1, E, g1, g2, g3, g4, g5, _⟩ := (ihr (hM.imp_left fun h => (Bool.and_eq_true _ _ ▸ h : _ ∧ _).1) c).seq d (by omega) b (s.text ++ rest) hb hm ok3 ok1
      obtain ⟨b2, F, k1, k2, k3, k4, k5, _⟩ := (ihs (hM.imp_left fun h => (Bool.and_eq_true _ _ ▸ h : _ ∧ _).2) c).seq d (by omega) b1 rest g2.good (g2.inMode hm) (by cases s <;> simp_all [Re.isItem, Re.isSeq])
        ok2
      refine ⟨b2, _, ?_, g2.trans k2, by rw [k3, g3], g4.cat k4 g5 k5 ok5, ?_, by simp [Re.isItem]⟩
      · have e : (Re.cat r s).text ++ rest = r.text ++ (s.text ++ rest) := by simp [Re.text]
        rw [e]; exact g1.trans k1
      · have := k4.fin.resolve_left k5
        have := g2.len
        have := hb.cur
        omega
    exact of_seq hseq rfl id
  | alt r s ihr ihs =>
    intro c
    have hse : (Re.alt r s).OkN env M c → s.isSeq = true ∨ s = .eps := by
      intro hok
      have h1 := hok.2.2.1
      have h2 := hok.2.1
      cases s <;> first | (left; rfl) | (right; rfl) | exact h2.elim | cases h1
    refine no_defs (not_seq rfl) (fun hok => ?_) (fun hok => ?_) id
    · exact alt_alt env M c r s ((ihr (hM.imp_left fun h => (Bool.and_eq_true _ _ ▸ h : _ ∧ _).1) c).alt hok.1) (ihs (hM.imp_left fun h => (Bool.and_eq_true _ _ ▸ h : _ ∧ _).2) c).seq (hse hok)
    · exact more_alt env M c r s ((ihr (hM.imp_left fun h => (Bool.and_eq_true _ _ ▸ h : _ ∧ _).1) c).more hok.1) (ihs (hM.imp_left fun h => (Bool.and_eq_true _ _ ▸ h : _ ∧ _).2) c).seq (hse hok)
  | ref name r ih =>
    intro c
    have hseq : SeqStmt env M c (.ref name r) := by
      intro d hd b rest hb hm _ hok
      obtain ⟨ok1, ok2, ok0, ok3⟩ := hok
      simp only [Re.depth] at hd
      obtain ⟨d, rfl⟩ : ∃ d', d = d' + 1 := ⟨d - 1, by omega⟩
      have ha := (ih hM c).alt ok1
      have hpush : Adds b b.push (fun _ _ _ => False) := (adds_refl hb).move _ _ _ hb.cur
      obtain ⟨q1, q2, q3, q4, q5⟩ := shift_spec hpush.good
      have hcur := hb.cur
      have hadds : Adds b (b.push.shift []) (setEdge b.cur [] b.n.states.length) := q1.of_same rfl rfl rfl
      have fr := Frag.edge b.cur b.n.states.length [] hb.cur
      rw [edge_lang_nil] at fr
      have hc0 : (b.push.shift []).cur ≠ b.cur := by
        rw [q2]; show b.n.states.length ≠ _; omega
      obtain ⟨b1, g1, g2, g3, g4⟩ := ha d (by omega) b (b.push.shift []) [] b.cur b.stack _ hadds
        (by rw [q2, q5]; exact fr) (by rw [q4]; rfl) (fun h => absurd h hc0) (hadds.inMode hm) ok1
      have hne : r.isAlt = false → b1.cur ≠ b.cur := fun h => g4 h (.inl hc0)
      obtain ⟨E, k1, k2, k3, k4⟩ := rejoin_spec g2 hne
      have hst : b1.rejoin.stack ≠ [] := by
        intro h
        simp only [rejoin] at h
        cases hs : b1.stack with
        | nil =>
          have := g3 hs
          rw [q4] at this
          simp [push] at this
        | cons x y =>
          rw [hs] at h
          obtain ⟨x1, x2⟩ := x
          cases x2 with
          | none => dsimp only at h; rw [hs] at h; simp at h
          | some f => simp at h
      have hdec : decide ((b.push.shift []).cur = b.cur) = false := decide_eq_false hc0
      rw [hdec, Bool.and_false, Bool.false_and] at k4
      obtain ⟨F, m1, m2, m3, m4, m5⟩ := pop_spec hst (Pending.first E k1 k2 k4) (fun _ => k3)
      rw [List.append_nil] at g1
      have hsub : addRegexTo env (d + 1) r.text b.push = some b1.rejoin := by
        show compileAll env (addRegexTo env d) r.text.length r.text (b.push.shift []) = _
        exact compileAll_of_run g1 _ (Nat.le_refl _)
      have hce : compileExpression env (addRegexTo env (d + 1)) name b.push = some b1.rejoin := by
        simp only [compileExpression, ok0, ok3]
        exact hsub
      refine ⟨b1.rejoin.pop, F, .one (by simp [Re.text]) (compile_brace env _ name rest ok2 b _ hce) (by simp [Re.text]; omega),
        m3, m1, ?_, m4, fun _ => m2⟩
      have e2 : (r.loopOut && !r.isAlt && !false) = (Re.ref name r).loopOut := by
        cases r <;> simp [Re.loopOut, Re.isAlt]
      rw [e2] at m5
      exact m5
    exact of_seq hseq rfl id
  | lit name w =>
    intro c
    have hseq : SeqStmt env M c (.lit name w) := by
      intro d hd b rest hb hm _ hok
      obtain ⟨ok1, ok0, ok2, ok3, ok4, ok5⟩ := hok
      have hg : ({ b.push with prev := 0, next := none, stack := [] } : Builder).Good := ⟨hb.wf, hb.cur, rfl, hb.nil⟩
      obtain ⟨E, g1, _, g3, g4⟩ := literal_spec (M c) w _ hg hm ok5
      have hne := g3 ok4
      have hce : compileExpression env (addRegexTo env d) name b.push = some
          (({ b.push with n := (addLiteralTo { b.push with prev := 0, next := none, stack := [] } w).n } : Builder).goto
            (addLiteralTo { b.push with prev := 0, next := none, stack := [] } w).cur) := by
        simp only [compileExpression, ok0, ok2, ok3]
      have hadds : Adds b (({ b.push with n := (addLiteralTo { b.push with prev := 0, next := none, stack := [] } w).n } : Builder).goto
            (addLiteralTo { b.push with prev := 0, next := none, stack := [] } w).cur) E :=
        ⟨⟨g1.good.wf, g1.good.cur, rfl, hb.nil⟩, g1.len, g1.edges, g1.accept, rfl, rfl⟩
      obtain ⟨F, m1, m2, m3, m4, m5⟩ := pop_spec (b := (({ b.push with n := (addLiteralTo { b.push with prev := 0, next := none, stack := [] } w).n } : Builder).goto
            (addLiteralTo { b.push with prev := 0, next := none, stack := [] } w).cur)) (by simp [push, goto])
        (Pending.first (p := b.cur) (S := b.stack) (L := {v | ∃ u, List.Forall₂ (M c).var w u ∧ v = u.flatMap (encode (M c).surrogates)}) (i := false) (o := false) E rfl hadds g4) (fun _ => hne)
      refine ⟨_, F, .one (by simp [Re.text]) (compile_brace env _ name rest ok1 b _ hce) (by simp [Re.text]; omega), m3, m1, ?_, m4,
        fun _ => m2⟩
      exact m5
    exact of_seq hseq rfl id
  | unicode name s =>
    intro c
    have hseq : SeqStmt env M c (.unicode name s) := by
      intro d hd b rest hb hm _ hok
      obtain ⟨ok1, ok0, ok2, ok3, ok4, ok5, ok6, ok7⟩ := hok
      have hpush : Adds b b.push (fun _ _ _ => False) := (adds_refl hb).move _ _ _ hb.cur
      obtain ⟨E, q1, q2, q3, q4, fr⟩ := shift_frag hpush.good (m := M c) hm s ok6 _ (fun x => Iff.rfl) ok5 ok7
      have hadds : Adds b (b.push.shift s) E := q1.of_same rfl rfl rfl
      have hce : compileExpression env (addRegexTo env d) name b.push = some (b.push.shift s) := by
        simp only [compileExpression, ok0, ok2, ok3, ok4]
      obtain ⟨F, m1, m2, m3, m4, m5⟩ := pop_spec (b := b.push.shift s) (by rw [q4]; simp [push])
        (Pending.first (p := b.cur) (S := b.stack) (i := false) (o := false) _ (by rw [q4]; rfl) hadds fr) (fun _ => q2)
      refine ⟨_, F, .one (by simp [Re.text]) (compile_brace env _ name rest ok1 b _ hce) (by simp [Re.text]; omega), m3, m1, ?_, m4,
        fun _ => m2⟩
      exact m5
    exact of_seq hseq rfl id
  | named name r ih =>
    intro c
    have hMc : Cases env M := hM.resolve_left (by simp [Re.bare])
    have hseq : SeqStmt env M c (.named name r) := by
      intro d hd b rest hb hm _ hok
      obtain ⟨ok1, ok2, ok3⟩ := hok
      simp only [Re.depth] at hd
      obtain ⟨d, rfl⟩ : ∃ d', d = d' + 1 := ⟨d - 1, by omega⟩
      have hpush : Adds b b.push (fun _ _ _ => False) := (adds_refl hb).move _ _ _ hb.cur
      obtain ⟨i, l, b1, b', a, e1, e2, e3, e4, e5, e6, -⟩ := (ih (.inr hMc) c).first d (by omega) b.push hpush.good hm ok1
      obtain ⟨E, k1, k2, k3, k4, k5⟩ := pop_spec (b := b'.setCase (b.push.lower, b.push.upper)) e6 e4 e5
      have hce : compileExpression env (addRegexTo env (d + 1)) name b.push = some (b'.setCase (b.push.lower, b.push.upper)).pop := by
        simp only [compileExpression, ok3, e1]
        rw [e2]
        simp only [Option.bind_eq_bind, Option.bind_some]
        rw [e3]
        rfl
      have k5' : Frag E b.cur (b'.setCase (b.push.lower, b.push.upper)).pop.cur b.n.states.length (b'.setCase (b.push.lower, b.push.upper)).pop.n.states.length
          (r.langN M c) false r.loopOut :=
        ⟨k5.src, k5.dst, k5.start, k5.le, k5.fin, fun _ => k5.noIn (by simp), fun ho => k5.noOut (by simp [ho]), k5.lang⟩
      obtain ⟨F, m1, m2, m3, m4, m5⟩ := pop_spec (b := (b'.setCase (b.push.lower, b.push.upper)).pop) (b0 := b) (p := b.cur) (S := b.stack) (by rw [k1]; simp [push])
        (Pending.first (i := false) (o := r.loopOut) E (by rw [k1]; rfl) (k3.of_same rfl rfl rfl) k5') (fun _ => k4)
      refine ⟨_, F, .one (by simp [Re.text]) (compile_brace env _ name rest ok2 b _ hce) (by simp [Re.text]; omega), m3, m1, ?_, m4, fun _ => m2⟩
      simpa [Re.loopOut, Re.loopIn, Re.langN] using m5
    exact of_seq hseq rfl id
  | entry ci cs r ih =>
    intro c
    have hMc : Cases env M := hM.resolve_left (by simp [Re.bare])
    refine ⟨not_seq rfl, fun h => h.elim, fun h => h.elim, ?_, ?_⟩
    · intro d hd b hb hm hok
      simp only [Re.depth] at hd
      obtain ⟨hin, hnil⟩ := caseFor_in hMc hm hb.nil ⟨true, r.text, ci, cs⟩
      generalize hy : env.caseFor (b.lower, b.upper) ⟨true, r.text, ci, cs⟩ = y at hin hnil
      have hbY : (b.setCase y).Good := ⟨hb.wf, hb.cur, hb.next, hnil⟩
      have hpush : Adds (b.setCase y) (b.setCase y).push (fun _ _ _ => False) := (adds_refl hbY).move _ _ _ hbY.cur
      obtain ⟨q1, q2, q3, q4, q5⟩ := shift_spec hpush.good
      have hcur := hb.cur
      have hadds : Adds (b.setCase y) ((b.setCase y).push.shift []) (setEdge b.cur [] b.n.states.length) := q1.of_same rfl rfl rfl
      have fr := Frag.edge b.cur b.n.states.length [] hb.cur
      rw [edge_lang_nil] at fr
      have hc0 : ((b.setCase y).push.shift []).cur ≠ b.cur := by
        rw [q2]; show b.n.states.length ≠ _; omega
      obtain ⟨b1, g1, g2, g3, g4⟩ := (ih (.inr hMc) (Re.within c ci cs)).alt hok d hd (b.setCase y) ((b.setCase y).push.shift []) [] b.cur b.stack _ hadds
        (by rw [q2, q5]; exact fr) (by rw [q4]; rfl) (fun h => absurd h hc0) (hadds.inMode hin) hok
      have hne : r.isAlt = false → b1.cur ≠ b.cur := fun h => g4 h (.inl hc0)
      obtain ⟨E, k1, k2, k3, k4⟩ := rejoin_spec g2 hne
      have hst : b1.rejoin.stack ≠ [] := rejoin_stack (fun h => by
        have := g3 h
        rw [q4] at this
        simp [push] at this)
      have hdec : decide (((b.setCase y).push.shift []).cur = b.cur) = false := decide_eq_false hc0
      rw [hdec, Bool.and_false, Bool.false_and] at k4
      rw [List.append_nil] at g1
      refine ⟨_, [], b1.rejoin, b1.rejoin, false, rfl, ?_, rfl, ?_, fun _ => k3, hst, k2.good.nil⟩
      · simp only [addNamed]
        rw [hy, if_pos trivial]
        exact compileAll_of_run g1 _ (Nat.le_refl _)
      · have k4' : Frag E b.cur b1.rejoin.cur (b.setCase y).n.states.length b1.rejoin.n.states.length (r.langN M (Re.within c ci cs)) false r.loopOut :=
          ⟨k4.src, k4.dst, k4.start, k4.le, k4.fin, fun _ => k4.noIn rfl, fun ho => k4.noOut (by simp [ho]), k4.lang⟩
        have := pending_setCase (Pending.first (i := false) (o := r.loopOut) E k1 k2 k4') (b.lower, b.upper) hb.nil
        exact this
    · intro d hd b0 b1 p S K o a hm hp hpen hw _ hok
      simp only [Re.depth] at hd
      have hgood : (b1.setCase (b0.lower, b0.upper)).wide [] = [] ∧ b0.wide [] = [] := by
        cases hpen with
        | first E h1 h2 h3 => exact ⟨h2.good.nil, by rw [← h2.wide]; exact h2.good.nil⟩
        | more E F f mid M₁ M₂ o' h1 h2 h3 h4 h5 h6 => exact ⟨h2.good.nil, by rw [← h2.wide]; exact h2.good.nil⟩
      obtain ⟨E, f, k1, k2, k3, k4, k5⟩ := beginOr_spec hp hpen
      rw [beginOr_setCase hw _ hgood.1] at k1 k2 k3 k5
      obtain ⟨hin, hnil⟩ := caseFor_in hMc hm hgood.2 ⟨true, r.text, ci, cs⟩
      generalize hy : env.caseFor (b0.lower, b0.upper) ⟨true, r.text, ci, cs⟩ = y at hin hnil
      have k3' : Adds (b0.setCase y) (b1.beginOr.setCase y) E := adds_setCase k3 y hnil
      have k2' : (b1.beginOr.setCase y).cur = p := k2
      obtain ⟨q1, q2, q3, q4, q5⟩ := shift_spec k3'.good
      have hplen : p < b1.beginOr.n.states.length := by have := k3.len; exact Nat.lt_of_lt_of_le hp this
      have fr := Frag.edge p b1.beginOr.n.states.length [] hplen
      rw [edge_lang_nil] at fr
      have hc0 : ((b1.beginOr.setCase y).shift []).cur ≠ p := by
        rw [q2]; show b1.beginOr.n.states.length ≠ _; omega
      have hadds := k3'.trans q1
      obtain ⟨b', g1, g2⟩ := (ih (.inr hMc) (Re.within c ci cs)).more hok d hd (b0.setCase y) ((b1.beginOr.setCase y).shift []) [] p f b1.beginOr.n.states.length S E _ K
        (by rw [q4]; exact k1) hadds k5 k4 (by rw [q2, q5, k2']; exact fr) hc0 hp (hadds.inMode hin) hok
      obtain ⟨G, m1, m2, m3, m4⟩ := rejoin_spec g2 (by simp)
      rw [List.append_nil] at g1
      have hst : b'.rejoin.stack ≠ [] := rejoin_stack (by
        cases g2 with
        | more E F f mid M₁ M₂ o' h1 h2 h3 h4 h5 h6 => rw [h1]; simp)
      refine ⟨b'.rejoin, false, ?_, ?_, fun _ => m3, hst, m2.good.nil⟩
      · simp only [Re.entries, addMore, addNamed]
        rw [hy, if_pos trivial]
        have : addRegexTo env (d + 1) r.text (b1.beginOr.setCase y) = some b'.rejoin := compileAll_of_run g1 _ (Nat.le_refl _)
        rw [this]
        rfl
      · exact pending_setCase (Pending.first (i := false) (o := false) G m1 m2 (by simpa [Re.langN] using m4)) (b0.lower, b0.upper) hgood.2
  | word ci cs w =>
    intro c
    have hMc : Cases env M := hM.resolve_left (by simp [Re.bare])
    refine ⟨not_seq rfl, fun h => h.elim, fun h => h.elim, ?_, ?_⟩
    · intro d hd b hb hm hok
      obtain ⟨ok1, ok2⟩ := hok
      obtain ⟨hin, hnil⟩ := caseFor_in hMc hm hb.nil ⟨false, w, ci, cs⟩
      generalize hy : env.caseFor (b.lower, b.upper) ⟨false, w, ci, cs⟩ = y at hin hnil
      have hbY : (b.setCase y).Good := ⟨hb.wf, hb.cur, hb.next, hnil⟩
      have hpush : Adds (b.setCase y) (b.setCase y).push (fun _ _ _ => False) := (adds_refl hbY).move _ _ _ hbY.cur
      obtain ⟨E, g1, g2, g3, g4⟩ := literal_spec (M (Re.within c ci cs)) w (b.setCase y).push hpush.good hin ok2
      have g1' : Adds (b.setCase y) (addLiteralTo (b.setCase y).push w) E := g1.of_same rfl rfl rfl
      refine ⟨_, [], addLiteralTo (b.setCase y).push w, _, false, rfl, ?_, rfl, ?_, fun _ => g3 ok1, by rw [g2]; simp [push], g1.good.nil⟩
      · simp only [addNamed]
        rw [hy]
        rfl
      · exact pending_setCase (Pending.first (i := false) (o := false) E (by rw [g2]; rfl) g1' g4) (b.lower, b.upper) hb.nil
    · intro d hd b0 b1 p S K o a hm hp hpen hw _ hok
      obtain ⟨ok1, ok2⟩ := hok
      have hgood : (b1.setCase (b0.lower, b0.upper)).wide [] = [] ∧ b0.wide [] = [] := by
        cases hpen with
        | first E h1 h2 h3 => exact ⟨h2.good.nil, by rw [← h2.wide]; exact h2.good.nil⟩
        | more E F f mid M₁ M₂ o' h1 h2 h3 h4 h5 h6 => exact ⟨h2.good.nil, by rw [← h2.wide]; exact h2.good.nil⟩
      obtain ⟨E, f, k1, k2, k3, k4, k5⟩ := beginOr_spec hp hpen
      rw [beginOr_setCase hw _ hgood.1] at k1 k2 k3 k5
      obtain ⟨hin, hnil⟩ := caseFor_in hMc hm hgood.2 ⟨false, w, ci, cs⟩
      generalize hy : env.caseFor (b0.lower, b0.upper) ⟨false, w, ci, cs⟩ = y at hin hnil
      have k3' : Adds (b0.setCase y) (b1.beginOr.setCase y) E := adds_setCase k3 y hnil
      have k2' : (b1.beginOr.setCase y).cur = p := k2
      obtain ⟨F, g1, g2, g3, g4⟩ := literal_spec (M (Re.within c ci cs)) w (b1.beginOr.setCase y) k3'.good (k3'.inMode hin) ok2
      rw [k2'] at g4
      have hstk : (addLiteralTo (b1.beginOr.setCase y) w).stack = (p, some f) :: S := by rw [g2]; exact k1
      refine ⟨addLiteralTo (b1.beginOr.setCase y) w, true, ?_, ?_, by simp, by rw [hstk]; simp, g1.good.nil⟩
      · simp only [Re.entries, addMore, addNamed]
        rw [hy]
        rfl
      · exact pending_setCase (Pending.more (i := false) (o := false) E F f _ K _ false hstk (k3'.trans g1) k5 k4 g4 rfl) (b0.lower, b0.upper) hgood.2
  | either r s ihr ihs =>
    intro c
    have hMc : Cases env M := hM.resolve_left (by simp [Re.bare])
    refine ⟨not_seq rfl, fun h => h.elim, fun h => h.elim, ?_, fun _ _ _ _ _ _ _ _ _ _ _ _ _ h => by cases h⟩
    intro d hd b hb hm hok
    obtain ⟨ok1, ok2, ok3⟩ := hok
    simp only [Re.depth] at hd
    obtain ⟨i, l, b1, b', a, e1, e2, e3, e4, e5, e6, e7⟩ := (ihr (.inr hMc) c).first d (by omega) b hb hm ok1
    obtain ⟨b'', a', f1, f2, f3, f4, f5⟩ := (ihs (.inr hMc) c).next d (by omega) b b' b.cur b.stack _ _ a hm hb.cur e4 e7 ok3 ok2
    refine ⟨i, l ++ s.entries, b1, b'', a', by simp [Re.entries, e1], e2, ?_, f2, f3, f4, f5⟩
    rw [addMore_append, e3]
    exact f1

end Regex
end TameParse

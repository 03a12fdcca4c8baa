import Verif.LexerStageLemmas
import Verif.CaseProps
/-
The automaton of the lexer stage (C69).
-/
namespace TameParse
namespace LexerStage
open TameParse.Language WeakLexer Regex Builder
open SymSet (Mem Canon)

/-! ### An expression or a literal between `push` and `pop` -/

theorem group_regex (env : Env) (d : Nat) (M : Bool → Re.Mode) (c : Bool) (b : Builder) (hb : b.Good) (hm : b.In (M c)) (r : Re)
    (hM : r.bare = true ∨ Cases env M) (hok : r.OkN env M c) (hd : r.depth < d) :
    ∃ b1 F o, addRegexTo env d r.text b.push = some b1 ∧ Adds b b1.pop F ∧ b1.pop.stack = b.stack ∧ b1.pop.cur ≠ b.cur ∧
      Frag F b.cur b1.pop.cur b.n.states.length b1.pop.n.states.length (r.langN M c) false o := by
  obtain ⟨d, rfl⟩ : ∃ d', d = d' + 1 := ⟨d - 1, by omega⟩
  have hpush : Adds b b.push (fun _ _ _ => False) := (adds_refl hb).move _ _ _ hb.cur
  obtain ⟨q1, q2, q3, q4, q5⟩ := shift_spec hpush.good
  have hcur := hb.cur
  have hadds : Adds b (b.push.shift []) (setEdge b.cur [] b.n.states.length) := q1.of_same rfl rfl rfl
  have fr := Frag.edge b.cur b.n.states.length [] hb.cur
  rw [edge_lang_nil] at fr
  have hc0 : (b.push.shift []).cur ≠ b.cur := by
    rw [q2]; show b.n.states.length ≠ _; omega
  obtain ⟨b1, g1, g2, g3, g4⟩ := (stmts env M r hM c).alt hok d (by omega) b (b.push.shift []) [] b.cur b.stack _ hadds
    (by rw [q2, q5]; exact fr) (by rw [q4]; rfl) (fun h => absurd h hc0) (hadds.inMode hm) hok
  obtain ⟨E, k1, k2, k3, k4⟩ := rejoin_spec g2 (fun h => g4 h (.inl hc0))
  have hst : b1.rejoin.stack ≠ [] := rejoin_stack (fun h => by
    have := g3 h
    rw [q4] at this
    simp [push] at this)
  have hdec : decide ((b.push.shift []).cur = b.cur) = false := decide_eq_false hc0
  rw [hdec, Bool.and_false, Bool.false_and] at k4
  obtain ⟨F, m1, m2, m3, m4, m5⟩ := pop_spec hst (Pending.first E k1 k2 k4) (fun _ => k3)
  rw [List.append_nil] at g1
  have hsub : addRegexTo env (d + 1) r.text b.push = some b1.rejoin := by
    show compileAll env (addRegexTo env d) r.text.length r.text (b.push.shift []) = _
    exact compileAll_of_run g1 _ (Nat.le_refl _)
  exact ⟨b1.rejoin, F, _, hsub, m3, m1, m4, m5⟩

theorem group_literal (m : Re.Mode) (b : Builder) (hb : b.Good) (hm : b.In m) (w : List Int) (hw : w ≠ []) (hs : ∀ x ∈ w, m.Reads (fun y => y = x)) :
    ∃ F o, Adds b (addLiteralTo b.push w).pop F ∧ (addLiteralTo b.push w).pop.stack = b.stack ∧ (addLiteralTo b.push w).pop.cur ≠ b.cur ∧
      Frag F b.cur (addLiteralTo b.push w).pop.cur b.n.states.length (addLiteralTo b.push w).pop.n.states.length
        {v | ∃ u, List.Forall₂ m.var w u ∧ v = u.flatMap (encode m.surrogates)} false o := by
  have hpush : Adds b b.push (fun _ _ _ => False) := (adds_refl hb).move _ _ _ hb.cur
  obtain ⟨E, g1, g2, g3, g4⟩ := literal_spec m w b.push hpush.good (hpush.inMode hm) hs
  have hadds : Adds b (addLiteralTo b.push w) E := g1.of_same rfl rfl rfl
  obtain ⟨F, m1, m2, m3, m4, m5⟩ := pop_spec (b := addLiteralTo b.push w) (by rw [g2]; simp [push])
    (Pending.first (p := b.cur) (S := b.stack) (L := {v | ∃ u, List.Forall₂ m.var w u ∧ v = u.flatMap (encode m.surrogates)}) (i := false) (o := false) E (by rw [g2]; rfl) hadds g4)
    (fun _ => g3 hw)
  exact ⟨F, _, m3, m1, m4, m5⟩

/-! ### What a definition means -/

/-- The strings of a definition, in UTF-16 units or not. The expressions are those for which C20 and C88 hold; literals are not empty. If the case does not
matter, these are the strings that are the same up to the case according to the two tables. `named` is for expressions with names that the language
defines (C90). -/
inductive Denotes (env : Env) (depth : Nat) (folds : (SymSet → SymSet) × (SymSet → SymSet)) (sr : Bool) (i : LexItem) : _root_.Language Int → Prop
  | regex (r : Re) : i.regex = true → i.ci = false → textOf i = r.text → r.Ok env sr → r.depth < depth → Denotes env depth folds sr i (r.lang sr)
  | literal : i.regex = false → i.ci = false → textOf i ≠ [] → Denotes env depth folds sr i {(textOf i).flatMap (encode sr)}
  | regexFold (low up : List MapEntry) (r : Re) : i.regex = true → i.ci = true → some folds = Regex.tables low up → CaseMap.Sorted low →
      CaseMap.Sorted up → textOf i = r.text → r.OkP env (FoldsWell sr low up) → r.depth < depth →
      Denotes env depth folds sr i {w | ∃ u ∈ r.lang false, ∃ v, List.Forall₂ (Similar low up) u v ∧ w = v.flatMap (encode sr)}
  | literalFold (low up : List MapEntry) : i.regex = false → i.ci = true → some folds = Regex.tables low up → CaseMap.Sorted low →
      CaseMap.Sorted up → textOf i ≠ [] → (sr = true → ∀ x ∈ textOf i, RunsFit (Similar low up x)) →
      Denotes env depth folds sr i {w | ∃ v, List.Forall₂ (Similar low up) (textOf i) v ∧ w = v.flatMap (encode sr)}
  | named (low up : List MapEntry) (r : Re) : i.regex = true → some folds = Regex.tables low up → env.folds = folds → CaseMap.Sorted low →
      CaseMap.Sorted up → textOf i = r.text → r.OkR env (SetsWell sr low up) i.ci → r.depth < depth →
      Denotes env depth folds sr i (r.langN (modes sr low up) i.ci)

theorem textOf_lt (i : LexItem) : ∀ x ∈ textOf i, x < 0x110000 := by
  intro x hx
  simp only [textOf, List.mem_map] at hx
  obtain ⟨c, _, rfl⟩ := hx
  have := c.valid
  have h2 : c.toNat < 0x110000 := by
    rcases this with h | ⟨_, h⟩
    · have : c.toNat < 0xd800 := h
      omega
    · exact h
  omega

section
variable (env : Env) (depth : Nat) (folds : (SymSet → SymSet) × (SymSet → SymSet)) (used : List Int)

theorem whole_one (table : List MapEntry) (x : Int) : Whole table (fun y => y = x) := by
  intro e he y h1 h2 _ h4
  have a := h4 y (by omega) (by omega)
  have b := h4 e.upper (by omega) (by omega)
  omega

/-- How the definition is read. -/
theorem denotes_mode {i : LexItem} {sr : Bool} {L : _root_.Language Int} (h : Denotes env depth folds sr i L) :
    ∃ (M : Bool → Re.Mode) (c : Bool), (M c).surrogates = sr ∧ (M c).wide = widen (if i.ci then some folds else none) ∧ widen (if i.ci then some folds else none) [] = [] ∧
      ((∃ r : Re, i.regex = true ∧ textOf i = r.text ∧ (r.bare = true ∨ Cases env M) ∧ r.OkN env M c ∧ r.depth < depth ∧ L = r.langN M c) ∨
       (i.regex = false ∧ textOf i ≠ [] ∧ (∀ x ∈ textOf i, (M c).Reads (fun y => y = x)) ∧
        L = {v | ∃ u, List.Forall₂ (M c).var (textOf i) u ∧ v = u.flatMap (encode (M c).surrogates)})) := by
  cases h with
  | regex r h1 h2 h3 h4 h5 =>
    rw [h2]
    exact ⟨fun _ => plain sr, false, rfl, rfl, rfl, .inl ⟨r, h1, h3, .inl (okP_bare (plain_ok h4)), okN_of_okP false (plain_ok h4), h5,
      by rw [langN_bare _ _ _ (okP_bare (plain_ok h4)), plain_lang]⟩⟩
  | literal h1 h2 h3 =>
    rw [h2]
    refine ⟨fun _ => plain sr, false, rfl, rfl, rfl, .inr ⟨h1, h3, fun x hx => plain_reads (fun _ => single_fits (textOf_lt i x hx)), ?_⟩⟩
    apply _root_.Language.ext
    intro v
    constructor
    · intro hv
      exact ⟨textOf i, forall₂_eq.2 rfl, hv⟩
    · rintro ⟨u, hu, rfl⟩
      rw [← forall₂_eq.1 hu]
      exact Set.mem_singleton _
  | regexFold low up r h1 h2 ht hl hu h3 h4 h5 =>
    rw [h2, if_pos rfl, ht]
    have h4' : r.OkM env (insensitive sr low up) := okP_mono (fun P hP => reads_tables hl hu hP.1 hP.2.1 hP.2.2) h4
    exact ⟨fun _ => insensitive sr low up, false, rfl, rfl, rfl, .inl ⟨r, h1, h3, .inl (okP_bare h4'), okN_of_okP false h4', h5,
      by rw [langN_bare _ _ _ (okP_bare h4'), langM_eq]; rfl⟩⟩
  | literalFold low up h1 h2 ht hl hu h3 h4 =>
    rw [h2, if_pos rfl, ht]
    refine ⟨fun _ => insensitive sr low up, false, rfl, rfl, rfl, .inr ⟨h1, h3, fun x hx => reads_tables hl hu (whole_one _ _) (whole_one _ _) (fun hsr => ?_), rfl⟩⟩
    have := h4 hsr x hx
    simpa using this
  | named low up r h1 ht hf hl hu h3 h4 h5 =>
    refine ⟨modes sr low up, i.ci, by cases i.ci <;> rfl, ?_, ?_, .inl ⟨r, h1, h3, .inr (modes_cases sr (by rw [hf, ht])), ?_, h5, rfl⟩⟩
    · rw [ht]; cases i.ci <;> rfl
    · rw [ht]; cases i.ci <;> rfl
    · exact ((okR_mono (fun c P hP => modes_reads hl hu hP) r) i.ci).1 h4

theorem addTo_spec {i : LexItem} {b : Builder} (hb : b.Good) {M : Bool → Re.Mode} {c : Bool} (hm : b.In (M c)) {L : _root_.Language Int}
    (h : (∃ r : Re, i.regex = true ∧ textOf i = r.text ∧ (r.bare = true ∨ Cases env M) ∧ r.OkN env M c ∧ r.depth < depth ∧ L = r.langN M c) ∨
       (i.regex = false ∧ textOf i ≠ [] ∧ (∀ x ∈ textOf i, (M c).Reads (fun y => y = x)) ∧
        L = {v | ∃ u, List.Forall₂ (M c).var (textOf i) u ∧ v = u.flatMap (encode (M c).surrogates)})) :
    ∃ b1 F o, addTo env depth i b.push = some b1 ∧ Adds b b1.pop F ∧ b1.pop.stack = b.stack ∧ b1.pop.cur ≠ b.cur ∧
      Frag F b.cur b1.pop.cur b.n.states.length b1.pop.n.states.length L false o := by
  rcases h with ⟨r, h1, h3, hM, h4, h5, rfl⟩ | ⟨h1, h3, h4, rfl⟩
  · simp only [addTo, h1, if_true, h3]
    exact group_regex env depth M c b hb hm r hM h4 h5
  · simp only [addTo, h1, Bool.false_eq_true, if_false]
    obtain ⟨F, o, g1, g2, g3, g4⟩ := group_literal (M c) b hb hm (textOf i) h3 h4
    exact ⟨_, F, o, rfl, g1, g2, g3, g4⟩

theorem addNew_spec {i : LexItem} {n : Ndfa} (hn : n.WF) (h0 : 0 < n.states.length) {L : _root_.Language Int} (h : Denotes env depth folds true i L) :
    ∃ n' c E o, addNew env depth folds i n = some (n', c) ∧ n'.WF ∧ n'.edges = both n.edges E ∧ n'.accept = n.accept ∧ c ≠ 0 ∧
      Frag E 0 c n.states.length n'.states.length L false o := by
  obtain ⟨M, c, m1, m2, m3, h⟩ := denotes_mode env depth folds h
  rcases h with ⟨r, h1, h3, hM, h4, h5, rfl⟩ | ⟨h1, h3, h4, rfl⟩
  · obtain ⟨b, E, o, g1, g2, g3, g4⟩ := addRegexTo_frag env depth n hn M c _ m2 m3 0 h0 r hM h4 h5 (fun _ => rfl)
    refine ⟨b.n, b.cur, E, o, ?_, g2.good.wf, g2.edges, g2.accept, g3, g4⟩
    simp only [addNew, h1, if_true, h3, addRegex]
    rw [m1] at g1
    rw [if_neg (by omega), g1]
    rfl
  · obtain ⟨E, g1, g2, g3, g4⟩ := literal_spec (M c) (textOf i) (cons n true (if i.ci then some folds else none) 0) (cons_good hn true m3 0 h0) ⟨m1, m2⟩ h4
    refine ⟨_, _, E, _, ?_, g1.good.wf, g1.edges, g1.accept, g3 h3, g4⟩
    simp only [addNew, h1, Bool.false_eq_true, if_false, addLiteral]
    rw [if_neg (by omega)]

/-! ### The builder of the ignored definitions -/

/-- What has been read of the ignored definitions: nothing, one, or several that meet in the state `f`. -/
inductive Held (n : Ndfa) (st : List (Nat × Option Nat)) (c : Nat) : Bool → _root_.Language Int → Prop
  | start : st = [(0, none)] → c = 0 → Held n st c true 0
  | one {L} : st = [(0, none)] → c ≠ 0 → Mark n c L → n.accept c = [] → Held n st c false L
  | many {L M} (f : Nat) : st = [(0, some f)] → f ≠ 0 → Mark n f L → n.accept f = [] → Stuck n f → c ≠ 0 → c ≠ f → Mark n c M →
      n.accept c = [] → Held n st c false (L + M)

theorem Held.keep {n n' : Ndfa} {st : List (Nat × Option Nat)} {c : Nat} {first : Bool} {L : _root_.Language Int} (h : Held n st c first L)
    (hm : ∀ q M, Mark n q M → Mark n' q M) (hs : ∀ q, q < n.states.length → q ≠ 0 → Stuck n q → Stuck n' q)
    (ha : ∀ q, q < n.states.length → n.accept q = [] → n'.accept q = []) : Held n' st c first L := by
  cases h with
  | start h1 h2 => exact .start h1 h2
  | one h1 h2 h3 h4 => exact .one h1 h2 (hm _ _ h3) (ha _ h3.1 h4)
  | many f h1 h2 h3 h4 h5 h6 h7 h8 h9 =>
    exact .many f h1 h2 (hm _ _ h3) (ha _ h3.1 h4) (hs _ h3.1 h2 h5) h6 h7 (hm _ _ h8) (ha _ h8.1 h9)

/-- The alternatives so far meet in `f`, the next one starts in state 0. -/
theorem beginOr_held {rules : List (_root_.Language Int × Int)} {b : Builder} (h : Base b.n rules) (hb : b.Good) {L : _root_.Language Int}
    (hh : Held b.n b.stack b.cur false L) :
    ∃ f, Base b.beginOr.n rules ∧ b.beginOr.Good ∧ b.beginOr.cur = 0 ∧ b.beginOr.stack = [(0, some f)] ∧ f ≠ 0 ∧ Mark b.beginOr.n f L ∧
      b.beginOr.n.accept f = [] ∧ Stuck b.beginOr.n f ∧ b.beginOr.surrogates = b.surrogates := by
  cases hh with
  | one h1 h2 h3 h4 =>
    obtain ⟨g1, g2, g3, g4, g5⟩ := shift_spec hb
    have e : b.beginOr = { b.shift [] with stack := [(0, some (b.shift []).cur)], prev := b.prev, cur := 0 } := by
      simp only [beginOr]
      rw [if_neg (by rw [h1]; simp)]
      simp only [h1]
    have fr := Frag.edge b.cur b.n.states.length [] hb.cur
    rw [edge_lang_nil] at fr
    have hne : b.n.states.length ≠ b.cur := by have := hb.cur; omega
    rw [← g5] at fr
    obtain ⟨k1, ⟨k2, k3, k4⟩, k5, k6⟩ := h.extend g1.good.wf g1.edges g1.accept h3 fr hne
    rw [mul_one] at k2
    have en : b.beginOr.n = (b.shift []).n := by rw [e]
    refine ⟨b.n.states.length, by rw [en]; exact k1, ?_, by rw [e], by rw [e, g2], ?_, by rw [en]; exact k2, by rw [en]; exact k4, ?_,
      by rw [e]; exact g1.surrogates⟩
    · rw [e]
      exact ⟨g1.good.wf, k1.start, g1.good.next, g1.good.nil⟩
    · have := h.start; omega
    · rw [en]
      intro l x hx
      rw [g1.edges] at hx
      rcases hx with hx | hx
      · have := (Ndfa.edges_lt h.wf _ _ _ hx).1
        omega
      · exact hne hx.1
  | @many L M f h1 h2 h3 h4 h5 h6 h7 h8 h9 =>
    obtain ⟨k1, k2, k3, k4⟩ := Ndfa.addTransition_spec hb.wf b.cur f [] hb.cur h3.1
    have e : b.beginOr = { b with n := b.n.addTransition b.cur [] f, cur := 0 } := by
      simp only [beginOr]
      rw [if_neg (by rw [h1]; simp)]
      simp only [h1]
    rw [Ndfa.setEdge_nil] at k4
    obtain ⟨m1, m2, m3⟩ := h.join k1 k2 k4 k3 h8 h3 h5 h2 h7 h4
    rw [e]
    exact ⟨f, m1, ⟨k1, m1.start, hb.next, hb.nil⟩, rfl, h1, h2, m2, by rw [k3]; exact h4, m3, rfl⟩

/-- The builder between two definitions. -/
structure Plain (b : Builder) : Prop where
  next : b.next = none
  nil : b.wide [] = []
  surrogates : b.surrogates = false

/-- The state between two definitions. -/
structure Inv (s : St) (rules : List (_root_.Language Int × Int)) (L : _root_.Language Int) : Prop where
  base : Base s.n rules
  plain : Plain s.ignore
  held : Held s.n s.ignore.stack s.ignore.cur s.first L

theorem Held.cur_lt {n : Ndfa} {st : List (Nat × Option Nat)} {c : Nat} {first : Bool} {L : _root_.Language Int} (h : Held n st c first L)
    (h0 : 0 < n.states.length) : c < n.states.length := by
  cases h with
  | start _ h => omega
  | one _ _ h _ => exact h.1
  | many _ _ _ _ _ _ _ _ h _ => exact h.1

theorem inv_start : Inv St.start [] 0 :=
  ⟨base_new, ⟨rfl, rfl, rfl⟩, .start rfl rfl⟩

/-- The builder with other case functions. -/
def fold (b : Builder) (i : LexItem) : Builder :=
  { b with lower := if i.ci then some folds.1 else none, upper := if i.ci then some folds.2 else none }

theorem push_fold (b : Builder) (i : LexItem) :
    { b.push with lower := if i.ci then some folds.1 else none, upper := if i.ci then some folds.2 else none } = (fold folds b i).push := rfl

theorem fold_wide (b : Builder) (i : LexItem) : (fold folds b i).wide = widen (if i.ci then some folds else none) := by
  funext s
  cases h : i.ci <;> simp [fold, h, widen, wide, cons]

/-- An ignored definition that the grammar does not use. -/
theorem addItem_bland {s : St} {rules : List (_root_.Language Int × Int)} {L M : _root_.Language Int} (h : Inv s rules L) {i : LexItem}
    (hb : bland used i = true) (hd : Denotes env depth folds false i M) :
    ∃ s', addItem env depth folds used s i = some s' ∧ Inv s' rules (L + M) ∧ s'.first = false ∧ s'.ignoreSymbol = (symbolOf used s.ignoreSymbol i).2 := by
  have ht : i.type = some .ignore := by
    simp only [bland, Bool.and_eq_true, decide_eq_true_eq] at hb
    exact hb.1
  obtain ⟨m, c, m1, m2, m3, hd⟩ := denotes_mode env depth folds hd
  have hg : ({ s.ignore with n := s.n } : Builder).Good :=
    ⟨h.base.wf, h.held.cur_lt h.base.start, h.plain.next, h.plain.nil⟩
  unfold addItem
  rw [ht]
  dsimp only
  rw [if_pos hb]
  simp only [bind]
  have hh := h.held
  generalize hbb : ({ s.ignore with n := s.n } : Builder) = b at hg
  have e1 : s.ignore.stack = b.stack := by rw [← hbb]
  have e2 : s.ignore.cur = b.cur := by rw [← hbb]
  have e3 : s.n = b.n := by rw [← hbb]
  have hsr : b.surrogates = false := by rw [← hbb]; exact h.plain.surrogates
  have hbase := h.base
  rw [e1, e2, e3] at hh
  rw [e3] at hbase
  cases hf : s.first with
  | true =>
    rw [hf] at hh
    rw [if_pos rfl]
    have hc : (fold folds b i).Good := ⟨hg.wf, hg.cur, hg.next, by rw [fold_wide]; exact m3⟩
    cases hh with
    | start h1 h2 =>
      obtain ⟨b1, F, o, g1, g2, g3, g4, g5⟩ := addTo_spec env depth hc ⟨by rw [m1]; exact hsr.symm, by rw [fold_wide]; exact m2⟩ hd
      rw [push_fold, g1]
      rw [show (fold folds b i).cur = 0 from h2] at g4 g5
      obtain ⟨k1, ⟨k2, k3, k4⟩, k5, k6⟩ := hbase.extend g2.good.wf g2.edges g2.accept hbase.zero g5 g4
      refine ⟨_, rfl, ⟨k1, ⟨g2.good.next, g2.good.nil, by rw [g2.surrogates]; exact hsr⟩, ?_⟩, rfl, rfl⟩
      rw [one_mul] at k2
      rw [zero_add]
      exact .one (g3.trans h1) g4 k2 k4
  | false =>
    rw [hf] at hh
    rw [if_neg Bool.false_ne_true]
    obtain ⟨f, p1, p2, p3, p4, p5, p6, p7, p8, p9⟩ := beginOr_held hbase hg hh
    have hc : (fold folds b.beginOr i).Good := ⟨p2.wf, p2.cur, p2.next, by rw [fold_wide]; exact m3⟩
    obtain ⟨b1, F, o, g1, g2, g3, g4, g5⟩ := addTo_spec env depth hc ⟨by rw [m1]; exact (p9.trans hsr).symm, by rw [fold_wide]; exact m2⟩ hd
    rw [push_fold, g1]
    rw [show (fold folds b.beginOr i).cur = 0 from p3] at g4 g5
    obtain ⟨k1, ⟨k2, k3, k4⟩, k5, k6⟩ := p1.extend g2.good.wf g2.edges g2.accept p1.zero g5 g4
    refine ⟨_, rfl, ⟨k1, ⟨g2.good.next, g2.good.nil, by rw [g2.surrogates]; exact p9.trans hsr⟩, ?_⟩, rfl, rfl⟩
    rw [one_mul] at k2
    have := p6.1
    exact .many f (g3.trans p4) p5 (k5 _ _ p6) ((congrFun g2.accept f).trans p7) (k6 f p6.1 p5 p8) g4 (show b1.pop.cur ≠ f by omega) k2 k4

/-- Another definition. -/
theorem addItem_new {s : St} {rules : List (_root_.Language Int × Int)} {L M : _root_.Language Int} (h : Inv s rules L) {i : LexItem}
    {t : UnitType} (ht : i.type = some t) (hb : bland used i = false) (hd : Denotes env depth folds true i M) :
    ∃ s', addItem env depth folds used s i = some s' ∧
      Inv s' (rules ++ [(M, code (.lang (symbolOf used s.ignoreSymbol i).1 t i.weak))]) L ∧ s'.first = s.first ∧
      s'.ignoreSymbol = (symbolOf used s.ignoreSymbol i).2 := by
  obtain ⟨n', c, E, o, g1, g2, g3, g4, g5, g6⟩ := addNew_spec env depth folds h.base.wf h.base.start hd
  obtain ⟨k1, ⟨k2, k3, k4⟩, k5, k6⟩ := h.base.extend g2 g3 g4 h.base.zero g6 g5
  rw [one_mul] at k2
  unfold addItem
  rw [ht]
  dsimp only
  rw [if_neg (by rw [hb]; simp)]
  simp only [bind, g1, Option.bind_some]
  obtain ⟨a1, a2, a3, a4⟩ := k1.accept k2 k4 (code (.lang (symbolOf used s.ignoreSymbol i).1 t i.weak))
  refine ⟨_, rfl, ⟨a1, h.plain, ?_⟩, rfl, rfl⟩
  refine h.held.keep (fun q M hm => a2 _ _ (k5 _ _ hm)) (fun q hq hq0 hs => a3 q (k6 q hq hq0 hs)) (fun q hq ha => ?_)
  show (n'.addAccept c _).accept q = []
  rw [a4 q (by omega), g4]
  exact ha

/-- The end of the ignored definitions. -/
theorem finish_base {s : St} {rules : List (_root_.Language Int × Int)} {L : _root_.Language Int} (h : Inv s rules L) (hf : s.first = false) :
    Base (finish s) (rules ++ [(L, code (.lang (s.ignoreSymbol.getD (-1)) .ignore false))]) := by
  unfold finish
  rw [if_neg (by rw [hf]; simp)]
  have hh := h.held
  have hg : ({ s.ignore with n := s.n } : Builder).Good :=
    ⟨h.base.wf, h.held.cur_lt h.base.start, h.plain.next, h.plain.nil⟩
  have hbase := h.base
  dsimp only
  generalize hbb : ({ s.ignore with n := s.n } : Builder) = b at hg
  have e1 : s.ignore.stack = b.stack := by rw [← hbb]
  have e2 : s.ignore.cur = b.cur := by rw [← hbb]
  have e3 : s.n = b.n := by rw [← hbb]
  rw [e1, e2, e3] at hh
  rw [e3] at hbase
  rw [hf] at hh
  cases hh with
  | one h1 h2 h3 h4 =>
    have e : b.pop.n = b.n ∧ b.pop.cur = b.cur := by simp only [pop, h1, and_self]
    rw [e.1, e.2]
    exact (hbase.accept h3 h4 _).1
  | @many L M f h1 h2 h3 h4 h5 h6 h7 h8 h9 =>
    obtain ⟨g1, g2, g3, g4, g5⟩ := epsilonTo_spec hg f h3.1
    have e : b.pop.n = (b.epsilonTo f).n ∧ b.pop.cur = (b.epsilonTo f).cur := by simp only [pop, h1, and_self]
    rw [e.1, e.2, g2]
    obtain ⟨m1, m2, m3⟩ := hbase.join g1.good.wf g5 g1.edges g1.accept h8 h3 h5 h2 h7 h4
    exact (m1.accept m2 (by rw [g1.accept]; exact h4) _).1

/-! ### All definitions -/

/-- The text is one of a definition for which the lexer reports this action. -/
def Says (lang : LexItem → _root_.Language Int) (first : Option Int) (items : List LexItem) (w : List Int) (a : Accept) : Prop :=
  ∃ i s t, (i, s) ∈ symbolsOf used first items ∧ i.type = some t ∧ w ∈ lang i ∧ a = .lang s t (i.weak && !bland used i)

theorem bland_type {i : LexItem} (h : bland used i = true) : i.type = some .ignore := by
  simp only [bland, Bool.and_eq_true, decide_eq_true_eq] at h
  exact h.1

theorem symbolOf_bland {i : LexItem} (h : bland used i = true) (first : Option Int) :
    (symbolOf used first i).2 = some (symbolOf used first i).1 ∧ ∀ s, first = some s → (symbolOf used first i).1 = s := by
  simp only [bland, Bool.and_eq_true, decide_eq_true_eq, Bool.not_eq_true', decide_eq_false_iff_not] at h
  simp only [symbolOf, h]
  cases first <;> simp

theorem symbolOf_new {i : LexItem} (h : bland used i = false) (first : Option Int) : symbolOf used first i = (i.symbol, first) := by
  simp only [bland, Bool.and_eq_false_iff, decide_eq_false_iff_not, Bool.not_eq_false', decide_eq_true_eq] at h
  simp only [symbolOf]
  rw [if_neg]
  rintro ⟨h1, h2⟩
  rcases h with h | h
  · exact h h1
  · exact h2 h

/-- The rules of the definitions: those that are accepted by themselves, and those of the ignored ones. -/
theorem addItems_spec (lang : LexItem → _root_.Language Int) : ∀ (items : List LexItem) (s : St) (rules : List (_root_.Language Int × Int))
    (L : _root_.Language Int), Inv s rules L → (s.first = true ↔ s.ignoreSymbol = none) →
    (∀ i ∈ items, i.type ≠ none → Denotes env depth folds (!bland used i) i (lang i)) →
    ∃ s' rules' L', addItems env depth folds used items s = some s' ∧ Inv s' rules' L' ∧ (s'.first = true ↔ s'.ignoreSymbol = none) ∧
      (∀ x, s.ignoreSymbol = some x → s'.ignoreSymbol = some x) ∧
      (∀ w k, ((∃ M, (M, k) ∈ rules' ∧ w ∈ M) ∨ (w ∈ L' ∧ ∃ x, s'.ignoreSymbol = some x ∧ k = code (.lang x .ignore false))) ↔
        ((∃ M, (M, k) ∈ rules ∧ w ∈ M) ∨ (w ∈ L ∧ ∃ x, s'.ignoreSymbol = some x ∧ k = code (.lang x .ignore false))) ∨
          ∃ a, Says used lang s.ignoreSymbol items w a ∧ k = code a) := by
  intro items
  induction items with
  | nil =>
    intro s rules L h hf _
    refine ⟨s, rules, L, rfl, h, hf, fun x hx => hx, fun w k => ?_⟩
    constructor
    · exact Or.inl
    · rintro (g | ⟨a, ⟨i, s, t, g, _⟩, _⟩)
      · exact g
      · exact nomatch g
  | cons i items ih =>
    intro s rules L h hf hd
    have hd' : ∀ i ∈ items, i.type ≠ none → Denotes env depth folds (!bland used i) i (lang i) := fun j hj => hd j (List.mem_cons_of_mem _ hj)
    cases ht : i.type with
    | none =>
      have e : addItem env depth folds used s i = some s := by unfold addItem; rw [ht]
      have hbl : bland used i = false := by simp [bland, ht]
      obtain ⟨s', rules', L', g1, g2, g3, g4, g6⟩ := ih s rules L h hf hd'
      refine ⟨s', rules', L', by simp only [addItems, e, Option.bind_some]; exact g1, g2, g3, g4, fun w k => ?_⟩
      rw [g6 w k]
      refine or_congr_right ?_
      simp only [Says, symbolsOf, symbolOf_new used hbl]
      constructor
      · rintro ⟨a, ⟨j, x, t, k1, k2⟩, k3⟩; exact ⟨a, ⟨j, x, t, List.mem_cons_of_mem _ k1, k2⟩, k3⟩
      · rintro ⟨a, ⟨j, x, t, k1, k2, k2'⟩, k3⟩
        rcases List.mem_cons.1 k1 with k1 | k1
        · obtain ⟨rfl, rfl⟩ := Prod.mk.inj k1
          rw [ht] at k2; exact nomatch k2
        · exact ⟨a, ⟨j, x, t, k1, k2, k2'⟩, k3⟩
    | some t =>
      have hdi := hd i (List.mem_cons_self ..) (by rw [ht]; simp)
      cases hbl : bland used i with
      | true =>
        rw [hbl] at hdi
        obtain ⟨s1, p1, p2, p3, p4⟩ := addItem_bland env depth folds used h hbl hdi
        obtain ⟨q1, q2⟩ := symbolOf_bland used hbl s.ignoreSymbol
        obtain ⟨s', rules', L', g1, g2, g3, g4, g6⟩ := ih s1 rules _ p2 (by rw [p3, p4, q1]; simp) hd'
        have hs' : s'.ignoreSymbol = some (symbolOf used s.ignoreSymbol i).1 := g4 _ (by rw [p4, q1])
        refine ⟨s', rules', L', by simp only [addItems, p1, Option.bind_some]; exact g1, g2, g3, ?_, fun w k => ?_⟩
        · intro x hx
          rw [hs', q2 x hx]
        · rw [g6 w k, p4]
          have ht' : t = .ignore := by
            have := bland_type used hbl
            rw [ht] at this
            exact Option.some.inj this
          subst ht'
          simp only [Says, symbolsOf, hs', Option.some.injEq]
          constructor
          · rintro ((k1 | ⟨k1, x, rfl, rfl⟩) | ⟨a, ⟨j, x, t', k1, k2⟩, k3⟩)
            · exact .inl (.inl k1)
            · rcases (_root_.Language.mem_add ..).1 k1 with k1 | k1
              · exact .inl (.inr ⟨k1, _, rfl, rfl⟩)
              · exact .inr ⟨_, ⟨i, _, .ignore, List.mem_cons_self .., ht, k1, rfl⟩, by rw [hbl]; simp⟩
            · exact .inr ⟨a, ⟨j, x, t', List.mem_cons_of_mem _ k1, k2⟩, k3⟩
          · rintro ((k1 | ⟨k1, x, rfl, rfl⟩) | ⟨a, ⟨j, x, t', k1, k2, k2', rfl⟩, k3⟩)
            · exact .inl (.inl k1)
            · exact .inl (.inr ⟨(_root_.Language.mem_add ..).2 (.inl k1), _, rfl, rfl⟩)
            · rcases List.mem_cons.1 k1 with k1 | k1
              · obtain ⟨rfl, rfl⟩ := Prod.mk.inj k1
                rw [ht] at k2
                have := Option.some.inj k2
                subst this
                rw [hbl] at k3
                exact .inl (.inr ⟨(_root_.Language.mem_add ..).2 (.inr k2'), _, rfl, by simpa using k3⟩)
              · exact .inr ⟨_, ⟨j, x, t', k1, k2, k2', rfl⟩, k3⟩
      | false =>
        rw [hbl] at hdi
        obtain ⟨s1, p1, p2, p3, p4⟩ := addItem_new env depth folds used h ht hbl hdi
        have q1 := symbolOf_new used hbl s.ignoreSymbol
        rw [q1] at p2 p4
        obtain ⟨s', rules', L', g1, g2, g3, g4, g6⟩ := ih s1 _ _ p2 (by rw [p3, p4]; exact hf) hd'
        rw [p4] at g4 g6
        refine ⟨s', rules', L', by simp only [addItems, p1, Option.bind_some]; exact g1, g2, g3, g4, fun w k => ?_⟩
        rw [g6 w k]
        simp only [Says, symbolsOf, q1, List.mem_append, List.mem_singleton]
        constructor
        · rintro ((⟨M, k1 | k1, k1'⟩ | k1) | ⟨a, ⟨j, x, t', k1, k2⟩, k3⟩)
          · exact .inl (.inl ⟨M, k1, k1'⟩)
          · obtain ⟨rfl, rfl⟩ := Prod.mk.inj k1
            exact .inr ⟨_, ⟨i, _, t, List.mem_cons_self .., ht, k1', rfl⟩, by rw [hbl]; simp⟩
          · exact .inl (.inr k1)
          · exact .inr ⟨a, ⟨j, x, t', List.mem_cons_of_mem _ k1, k2⟩, k3⟩
        · rintro ((⟨M, k1, k1'⟩ | k1) | ⟨a, ⟨j, x, t', k1, k2, k2', rfl⟩, k3⟩)
          · exact .inl (.inl ⟨M, .inl k1, k1'⟩)
          · exact .inl (.inr k1)
          · rcases List.mem_cons.1 k1 with k1 | k1
            · obtain ⟨rfl, rfl⟩ := Prod.mk.inj k1
              rw [ht] at k2
              have := Option.some.inj k2
              subst this
              rw [hbl] at k3
              exact .inl (.inl ⟨_, .inr (by rw [k3]; simp), k2'⟩)
            · exact .inr ⟨_, ⟨j, x, t', k1, k2, k2', rfl⟩, k3⟩

/-- **C69**, the automaton. It accepts a text with the action of a symbol exactly if a definition with this symbol means the text. -/
theorem automaton_language (lang : LexItem → _root_.Language Int) (items : List LexItem)
    (hd : ∀ i ∈ items, i.type ≠ none → Denotes env depth folds (!bland used i) i (lang i)) :
    ∃ n, automaton env depth folds used items = some n ∧ n.WF ∧ 0 < n.states.length ∧ (∀ q, ∀ a ∈ n.accept q, a.eager = false) ∧
      ∀ w k, (∃ p a, Ndfa.Reach n 0 w p ∧ a ∈ n.accept p ∧ a.symbol = k) ↔ ∃ a, Says used lang none items w a ∧ k = code a := by
  obtain ⟨s', rules', L', g1, g2, g3, g4, g6⟩ := addItems_spec env depth folds used lang items St.start [] 0 inv_start (by simp [St.start]) hd
  have hrules : ∀ w k, ((∃ M, (M, k) ∈ rules' ∧ w ∈ M) ∨ (w ∈ L' ∧ ∃ x, s'.ignoreSymbol = some x ∧ k = code (.lang x .ignore false))) ↔
      ∃ a, Says used lang none items w a ∧ k = code a := by
    intro w k
    rw [g6 w k]
    constructor
    · rintro ((⟨M, h, _⟩ | ⟨h, _⟩) | h)
      · exact nomatch h
      · exact absurd h (_root_.Language.notMem_zero w)
      · exact h
    · exact Or.inr
  have hfin : ∃ rules, Base (finish s') rules ∧ ∀ w k, (∃ M, (M, k) ∈ rules ∧ w ∈ M) ↔ ∃ a, Says used lang none items w a ∧ k = code a := by
    cases hf : s'.first with
    | true =>
      have e : finish s' = s'.n := by unfold finish; rw [if_pos hf]
      refine ⟨rules', by rw [e]; exact g2.base, fun w k => ?_⟩
      rw [← hrules w k]
      have := g3.1 hf
      constructor
      · exact Or.inl
      · rintro (h | ⟨_, x, h, _⟩)
        · exact h
        · rw [this] at h; exact nomatch h
    | false =>
      have hb := finish_base g2 hf
      refine ⟨_, hb, fun w k => ?_⟩
      rw [← hrules w k]
      obtain ⟨x, hx⟩ : ∃ x, s'.ignoreSymbol = some x := by
        cases h : s'.ignoreSymbol with
        | none => rw [g3.2 h] at hf; exact nomatch hf
        | some x => exact ⟨x, rfl⟩
      simp only [hx, Option.getD_some, List.mem_append, List.mem_singleton, Option.some.injEq]
      constructor
      · rintro ⟨M, h | h, h'⟩
        · exact .inl ⟨M, h, h'⟩
        · obtain ⟨rfl, rfl⟩ := Prod.mk.inj h
          exact .inr ⟨h', x, rfl, rfl⟩
      · rintro (⟨M, h, h'⟩ | ⟨h, _, rfl, rfl⟩)
        · exact ⟨M, .inl h, h'⟩
        · exact ⟨L', .inr rfl, h⟩
  obtain ⟨rules, hb, hr⟩ := hfin
  refine ⟨finish s', by simp only [automaton, g1, Option.map_some], hb.wf, hb.start, hb.eager, fun w k => ?_⟩
  rw [hb.accepts w k]
  exact hr w k

end
end LexerStage
end TameParse

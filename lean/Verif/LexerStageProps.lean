import Verif.LexerStageAutomaton
/-
The lexer of a language definition (C69): from the automaton to the tables.
-/
namespace TameParse
namespace LexerStage
open TameParse.Language WeakLexer Regex
open SymSet (Mem Canon)
open Ndfa (Reach)

/-! ### Splitting by what the tables accept -/

/-- The lexemes that the lexer returns one after another, if nobody sets its initial state in between. -/
inductive _root_.TameParse.LexMachine.PlainRun (m : LexMachine) : LexStream → List Lexeme → LexStream → Prop
  | nil (st) : PlainRun m st [] st
  | cons {st st' st'' : LexStream} {l ls} : m.next st = some (some l, st') → PlainRun m st' ls st'' → PlainRun m st (l :: ls) st''

theorem _root_.TameParse.LexMachine.PlainRun.lexRun {m : LexMachine} {st st' : LexStream} {ls : List Lexeme} (h : m.PlainRun st ls st') : m.LexRun st ls st' := by
  induction h with
  | nil => exact .nil _
  | cons h _ ih => exact .cons none h ih

/-- `ls` splits `input`: each lexeme is the longest prefix of what follows that is accepted, or one character tagged -1 if none is. -/
inductive SplitsAs (P : List Int → Int → Prop) : List Int → List Lexeme → Prop
  | nil : SplitsAs P [] []
  | token {l : Lexeme} {rest ls} : l.content ≠ [] → P l.content l.matched →
      (∀ w, w <+: l.content ++ rest → l.content.length < w.length → ∀ s, ¬ P w s) → SplitsAs P rest ls →
      SplitsAs P (l.content ++ rest) (l :: ls)
  | error {l : Lexeme} {x rest ls} : l.content = [x] → l.matched = -1 →
      (∀ w, w <+: x :: rest → w ≠ [] → ∀ s, ¬ P w s) → SplitsAs P rest ls → SplitsAs P (x :: rest) (l :: ls)

theorem splitsAs_of_accepts (m : LexMachine) (m2 : m.newline = 0) (P : List Int → Int → Prop)
    (m3 : ∀ w, (∀ x ∈ w, (0 : Int) ≤ x ∧ x < 65536) → ∀ s, m.Accepts 0 w s ↔ P w s) (input : List Int) (hin : ∀ x ∈ input, 0 ≤ x ∧ x < 65536) :
    ∃ ls st' st'', LexMachine.PlainRun m (LexStream.new input 0) ls st' ∧ m.next st' = some (none, st'') ∧ SplitsAs P input ls := by
  have key : ∀ k (st : LexStream), st.rest.length ≤ k → st.initial = 0 → (∀ x ∈ st.rest, 0 ≤ x ∧ x < 65536) →
      ∃ ls st' st'', LexMachine.PlainRun m st ls st' ∧ m.next st' = some (none, st'') ∧ SplitsAs P st.rest ls := by
    intro k
    induction k with
    | zero =>
      intro st hk hi hx
      have hr : st.rest = [] := List.length_eq_zero_iff.1 (by omega)
      obtain ⟨r, st', h1, _, h3⟩ := LexMachine.next_spec m st (fun hm => by
        have : st.rest = st.buffer ++ st.stream := rfl
        rw [hr] at this
        rw [(List.append_eq_nil_iff.1 this.symm).2] at hm
        simp at hm)
      rcases h3 with ⟨rfl, _⟩ | ⟨l, _, h4, h5, _⟩
      · exact ⟨[], st, st', .nil st, h1, by rw [hr]; exact .nil⟩
      · rw [hr] at h4
        exact absurd (List.append_eq_nil_iff.1 h4).1 h5
    | succ k ih =>
      intro st hk hi hx
      obtain ⟨r, st', h1, h2, h3⟩ := LexMachine.next_spec m st (fun hm => by
        have := hx endOfInput (by simp [LexStream.rest, hm])
        simp only [endOfInput] at this
        omega)
      rcases h3 with ⟨rfl, hr, _⟩ | ⟨l, rfl, h4, h5, _, _, h8, h9⟩
      · exact ⟨[], st, st', .nil st, h1, by rw [hr]; exact .nil⟩
      · have hl : st'.rest.length ≤ k := by
          have := congrArg List.length h4
          rw [List.length_append] at this
          have := List.length_pos_iff.2 h5
          omega
        rw [if_neg (by rw [m2]; simp)] at h9
        obtain ⟨ls, st1, st2, i1, i2, i3⟩ := ih st' hl h9 (fun x hm => hx x (by rw [← h4]; simp [hm]))
        refine ⟨l :: ls, st1, st2, .cons h1 i1, i2, ?_⟩
        have hw : ∀ w, w <+: st.rest → ∀ x ∈ w, 0 ≤ x ∧ x < 65536 := fun w hp x hxw => hx x (hp.subset hxw)
        rw [hi] at h8
        rcases h8 with ⟨_, g2, g3, g4⟩ | ⟨g1, g2, g3⟩
        · rw [← h4]
          refine .token h5 ((m3 _ (hw _ g2) _).1 g3) ?_ i3
          intro w hp hlen s hs
          rw [h4] at hp
          exact g4 w hp hlen s ((m3 w (hw w hp) s).2 hs)
        · obtain ⟨x, hxx⟩ := List.length_eq_one_iff.1 g2
          rw [hxx, List.singleton_append] at h4
          rw [← h4]
          refine .error hxx g1 ?_ i3
          intro w hp hne s hs
          rw [h4] at hp
          exact g3 w s hne hp ((m3 w (hw w hp) s).2 hs)
  exact key _ (LexStream.new input 0) (Nat.le_refl _) rfl hin

/-! ### Deterministic automata -/

/-- What the tables need of a deterministic automaton. -/
structure Fine (d : Ndfa) : Prop where
  wf : d.WF
  ordered : d.Ordered
  verify : d.verifyIsDfa = true
  perm : d.syms.ids.Perm d.syms.syms.zipIdx
  canon : ∀ i, Canon (d.syms.get i)
  disjoint : ∀ i j x, Mem x (d.syms.get i) → Mem x (d.syms.get j) → i = j
  start : 0 < d.states.length

theorem get_canon {m : SymbolMap} (h : ∀ s ∈ m.syms, Canon s) (i : Nat) : Canon (m.get i) := by
  simp only [SymbolMap.get]
  cases hs : m.syms[i]? with
  | none => exact (by simp [Canon])
  | some s => exact h s (List.mem_of_getElem? hs)

theorem canon_get {m : SymbolMap} (h : ∀ i, Canon (m.get i)) : ∀ s ∈ m.syms, Canon s := by
  intro s hs
  obtain ⟨i, hi, e⟩ := List.mem_iff_getElem.1 hs
  have := h i
  simp only [SymbolMap.get, List.getElem?_eq_getElem hi] at this
  rw [← e]; exact this

theorem deterministic_spec (n : Ndfa) (h : n.WF) (h0 : 0 < n.states.length) (hc : ∀ s ∈ n.syms.syms, Canon s)
    (hsafe : Dedup.SafeOrder [] ((Dedup.visited n.syms.ids).map (·.1))) (heager : ∀ q, ∀ a ∈ n.accept q, a.eager = false) :
    ∃ d, deterministic n = some d ∧ Fine d ∧ ∀ w,
      (∀ q, Reach d 0 w q → ∀ a, a ∈ d.accept q ↔ ∃ p, Reach n 0 w p ∧ a ∈ n.accept p) ∧ ((∃ q, Reach d 0 w q) ↔ ∃ p, Reach n 0 w p) := by
  obtain ⟨u, u1, u2, u3, u4, u5, u6, u7⟩ := Ndfa.unique_symbols_preserve_automaton_partial n h hc hsafe
  obtain ⟨d, d1, d2, d3, d4, d5, d6⟩ := Ndfa.subset_construction_correct u u2 [0] (by simp) (by simp; omega) u6
  have hds := Ndfa.toDfa_syms u d [0] (by simp) d1
  have hperm : d.syms.ids.Perm d.syms.syms.zipIdx := by
    rw [hds]
    cases hr : Dedup.deduplicate n.syms with
    | none => simp [Ndfa.toUnique, hr] at u1
    | some r =>
      simp only [Ndfa.toUnique, hr] at u1
      have := Option.some.inj u1
      rw [← this]
      exact Ndfa.deduplicate_perm n.syms r hr
  have hlen : 0 < d.states.length := by
    by_contra hno
    have hd0 : d.states = [] := List.length_eq_zero_iff.1 (by omega)
    have this : u.toDfa [0] = some d := d1
    simp only [Ndfa.toDfa] at this
    rw [if_neg (by simp)] at this
    rw [Option.bind_eq_bind, Option.bind_eq_some_iff] at this
    obtain ⟨c0, k1, k2⟩ := this
    rw [Option.bind_eq_some_iff] at k2
    obtain ⟨c, k2, k3⟩ := k2
    have k3 := Option.some.inj k3
    obtain ⟨c0', i1, i2, i3, i4, i5⟩ := Ndfa.initialSubset_spec u u2 [0] (by simp; omega)
    rw [k1] at i1
    have := Option.some.inj i1
    subst this
    obtain ⟨c', l1, l2, l3, ext, l4⟩ := Ndfa.subsetLoop_spec u u2 c0.sets (2 ^ u.states.length + [0].length) c0 i2 (by simp only [List.length_cons, List.length_nil] at *; omega)
    rw [k2] at l1
    have := Option.some.inj l1
    subst this
    obtain ⟨v, hv1, _⟩ := i5 0 0 rfl
    have hlen2 := l2.len
    have hcs : c.states = [] := by rw [← hd0, ← k3]
    rw [hcs, l4] at hlen2
    have := (List.getElem?_eq_some_iff.1 hv1).1
    rw [List.length_append, List.length_nil] at hlen2
    omega
  refine ⟨d, by simp only [deterministic, u1, Option.bind_some, d1], ⟨d2, Ndfa.toDfa_ordered u d [0] d1, d5, hperm, by rw [hds]; exact u7,
    by rw [hds]; exact u6, hlen⟩, fun w => ?_⟩
  obtain ⟨e1, e2⟩ := d6 0 0 rfl w
  have hrn : ∀ p, Reach u 0 w p ↔ Reach n 0 w p := fun p => u5 0 w p
  have hall : ∀ v x t, w = v ++ x :: t → ∀ p a, Reach u 0 v p → a ∈ u.accept p → a.eager = false := by
    intro v x t _ p a _ ha
    rw [u3] at ha
    exact heager p a ha
  constructor
  · intro q hr a
    obtain ⟨_, g2⟩ := e1 q hr
    rw [g2 a]
    constructor
    · rintro ⟨p, p1, p2⟩; exact ⟨p, (hrn p).1 p1, by rw [← u3]; exact p2⟩
    · rintro ⟨p, p1, p2⟩; exact ⟨p, (hrn p).2 p1, by rw [u3]; exact p2⟩
  · constructor
    · intro hq
      obtain ⟨⟨p, hp⟩, _⟩ := e2.1 hq
      exact ⟨p, (hrn p).1 hp⟩
    · rintro ⟨p, hp⟩
      exact e2.2 ⟨⟨p, (hrn p).2 hp⟩, hall⟩

/-- The states that a string leads to have the same accept actions in both automata. -/
def Alike (d e : Ndfa) : Prop := ∀ w l, (∃ q, Reach d 0 w q ∧ d.accept q = l) ↔ ∃ q, Reach e 0 w q ∧ e.accept q = l

/-- The condition under which minimisation is right (C11): the first accepting state other than 0 differs from every other non-accepting state in the
symbol sets that it has transitions for. -/
def CompactOk (d : Ndfa) : Prop :=
  ∃ a, a < d.states.length ∧ a ≠ 0 ∧ d.accept a ≠ [] ∧ (∀ p < a, p ≠ 0 → d.accept p = []) ∧
    ∀ q < d.states.length, q ≠ 0 → d.accept q = [] → ∃ s, ¬ ((∃ p, (s, p) ∈ d.trans a) ↔ (∃ p, (s, p) ∈ d.trans q))

theorem merged_perm (n : Ndfa) : n.toMerged.syms.ids.Perm n.toMerged.syms.syms.zipIdx := by
  show ((List.range (Ndfa.mergeClasses n).num).foldl (fun map c => (map.identifierFor (Ndfa.classUnion n (Ndfa.mergeClasses n) c)).1) SymbolMap.empty).ids.Perm _
  have key : ∀ (l : List Nat) (m : SymbolMap), m.ids.Perm m.syms.zipIdx →
      (l.foldl (fun map c => (map.identifierFor (Ndfa.classUnion n (Ndfa.mergeClasses n) c)).1) m).ids.Perm
      (l.foldl (fun map c => (map.identifierFor (Ndfa.classUnion n (Ndfa.mergeClasses n) c)).1) m).syms.zipIdx := by
    intro l
    induction l with
    | nil => intro m h; exact h
    | cons c l ih => intro m h; exact ih _ (Ndfa.identifierFor_perm _ _ h)
  exact key _ SymbolMap.empty (.refl _)

theorem reach_of_steps {d e : Ndfa} (h1 : ∀ q x q', Ndfa.SymStep e q x q' ↔ Ndfa.SymStep d q x q') (h2 : ∀ p p', ¬ Ndfa.EpsStep e p p')
    (h3 : ∀ p p', ¬ Ndfa.EpsStep d p p') (q : Nat) (w : List Int) (p : Nat) : Reach e q w p ↔ Reach d q w p := by
  have he : e.edges = d.edges := by
    funext a l b
    cases l with
    | none => exact propext ⟨fun h => absurd h (h2 _ _), fun h => absurd h (h3 _ _)⟩
    | some x => exact propext (h1 a x b)
  rw [Ndfa.reach_iff_path, Ndfa.reach_iff_path, he]

theorem merged_alike {d : Ndfa} (h : Fine d) : Fine d.toMerged ∧ Alike d d.toMerged := by
  obtain ⟨m1, m2, m3, m4, m5, m6, m7, m8, m9, _⟩ := Ndfa.merged_symbols_preserve_dfa d h.wf h.ordered h.verify (canon_get h.canon) h.disjoint
  refine ⟨⟨m1, m2, m3, merged_perm d, get_canon m9, m8, by rw [m4]; exact h.start⟩, fun w l => ?_⟩
  simp only [m5, reach_of_steps m6 m7 (Ndfa.noEps_of_verify d h.wf h.verify)]

theorem compact_alike {d : Ndfa} (h : Fine d) (hc : CompactOk d) : ∃ e, d.toCompact [0] = some e ∧ Fine e ∧ Alike d e := by
  obtain ⟨a, a1, a2, a3, a4, a5⟩ := hc
  obtain ⟨e, e1, e2, e3, e4, e5, e6, e7, e8⟩ := Ndfa.compact_dfa_preserves_language_partial d h.wf h.ordered h.verify [0] (by simp)
    (by intro q hq; rw [List.mem_singleton.1 hq]; exact h.start) a a1 (by simpa using a2) a3 (fun p hp hp0 => a4 p hp (by simpa using hp0))
    (fun q hq hq0 => a5 q hq (by simpa using hq0))
  refine ⟨e, e1, ⟨e2, e3, e4, by rw [e5]; exact h.perm, by rw [e5]; exact h.canon, by rw [e5]; exact h.disjoint, e7⟩, fun w l => ?_⟩
  obtain ⟨k1, k2⟩ := e8 0 0 rfl w
  constructor
  · rintro ⟨q, hq, rfl⟩
    obtain ⟨i, i1, i2⟩ := k1 q hq
    exact ⟨i, i1, i2⟩
  · rintro ⟨i, hi, rfl⟩
    obtain ⟨q, q1, q2⟩ := k2 i hi
    exact ⟨q, q1, q2.symm⟩

theorem final_alike {d : Ndfa} (h : Fine d) (o : Options) (hc : o.compact = true → CompactOk d) :
    ∃ e, finalAutomaton o d = some e ∧ Fine e ∧ Alike d e := by
  have h1 : ∃ e, (if o.compact then d.toCompact [0] else some d) = some e ∧ Fine e ∧ Alike d e := by
    cases ho : o.compact with
    | true => rw [if_pos rfl]; exact compact_alike h (hc ho)
    | false => rw [if_neg Bool.false_ne_true]; exact ⟨d, rfl, h, fun w l => .rfl⟩
  obtain ⟨e, e1, e2, e3⟩ := h1
  simp only [finalAutomaton, e1, Option.map_some]
  cases ho : o.merge with
  | true =>
    obtain ⟨g1, g2⟩ := merged_alike e2
    exact ⟨_, by rw [if_pos rfl], g1, fun w l => (e3 w l).trans (g2 w l)⟩
  | false => exact ⟨_, by rw [if_neg Bool.false_ne_true], e2, e3⟩

/-- The tables accept what the automaton accepts. -/
theorem tables_spec {d : Ndfa} (h : Fine d) (hspoil : ∀ r ∈ d.syms.ranges, ∀ r' ∈ d.syms.ranges, ¬ Node.Spoils 65536 r.1 r'.1) :
    ∃ m, tables d = some m ∧ m.newline = 0 ∧ ∀ w, (∀ x ∈ w, (0 : Int) ≤ x ∧ x < 65536) → ∀ s,
      m.Accepts 0 w s ↔ ∃ q, Reach d 0 w q ∧ reported (d.accept q) = s ∧ 0 ≤ s := by
  have hsort : ∃ sort : List Trans → List Trans, Ndfa.IsSort sort := by
    exact ⟨fun l => l.mergeSort (fun a b => decide (a.1 ≤ b.1)),
      ⟨fun l => List.mergeSort_perm l _, fun l => by
        have := List.pairwise_mergeSort (le := fun (a b : Trans) => decide (a.1 ≤ b.1)) (by simp; omega) (by simp; omega) l
        simpa using this⟩⟩
  obtain ⟨sort, hsort⟩ := hsort
  obtain ⟨⟨m, a1, a2, a3, a4⟩, _⟩ := Ndfa.lexer_of_dfa d h.wf h.ordered h.verify h.perm h.canon h.disjoint hspoil sort hsort
  have hnoeps := Ndfa.noEps_of_verify d h.wf h.verify
  refine ⟨{ m with accept := fun q => if q < d.states.length then reported (d.accept q) else -1 }, by simp only [tables, a1, Option.map_some], a2, fun w hw s => ?_⟩
  have hstates : ∀ q, Reach d 0 w q → q < d.states.length := by
    intro q hr
    cases hr with
    | refl => exact h.start
    | eps _ e => exact absurd e (hnoeps _ _)
    | sym _ e =>
      obtain ⟨s, h1, _⟩ := e
      exact h.wf.target _ _ h1
  have hrr := Ndfa.runs_iff_reach d { m with accept := fun q => if q < d.states.length then reported (d.accept q) else -1 } hnoeps a3 w hw 0
  constructor
  · rintro ⟨q, h1, h2, h3⟩
    have hr := (hrr q).1 h1
    have h2 : (if q < d.states.length then reported (d.accept q) else -1) = s := h2
    rw [if_pos (hstates q hr)] at h2
    exact ⟨q, hr, h2, h3⟩
  · rintro ⟨q, hr, h2, h3⟩
    refine ⟨q, (hrr q).2 hr, ?_, h3⟩
    show (if q < d.states.length then reported (d.accept q) else -1) = s
    rw [if_pos (hstates q hr)]
    exact h2

/-! ### The reported symbol -/

/-- The text has this action, and every other action for it has a lower priority. -/
def Best (S : List Int → Accept → Prop) (w : List Int) (a : Accept) : Prop := S w a ∧ ∀ b, S w b → b = a ∨ Before a b

theorem reported_iff {S : Accept → Prop} (hS : ∀ b, S b → InRange b ∧ IsLang b) {l : List Action} (h1 : ∀ a ∈ l, ∃ b, S b ∧ a.symbol = code b)
    (h2 : ∀ b, S b → ∃ a ∈ l, a.symbol = code b) (s : Int) :
    (reported l = s ∧ 0 ≤ s) ↔ ∃ a, (S a ∧ ∀ b, S b → b = a ∨ Before a b) ∧ a.symbol = s := by
  have hm : ∀ b, b ∈ l.map (fun a => decode a.symbol) ↔ S b := by
    intro b
    rw [List.mem_map]
    constructor
    · rintro ⟨a, ha, rfl⟩
      obtain ⟨b, hb, e⟩ := h1 a ha
      rw [e, decode_code (hS b hb).1]
      exact hb
    · intro hb
      obtain ⟨a, ha, e⟩ := h2 b hb
      exact ⟨a, ha, by rw [e, decode_code (hS b hb).1]⟩
  have hlang : ∀ b ∈ l.map (fun a => decode a.symbol), IsLang b := fun b hb => (hS b ((hm b).1 hb)).2
  have hnn : ∀ b, S b → 0 ≤ b.symbol := by
    intro b hb
    obtain ⟨h3, h4⟩ := hS b hb
    cases b with
    | plain => exact h4.elim
    | lang s t w => exact h3.1
  unfold reported
  constructor
  · rintro ⟨e, hs⟩
    cases hh : highest (l.map (fun a => decode a.symbol)) with
    | none =>
      rw [hh] at e
      simp only at e
      omega
    | some a =>
      rw [hh] at e
      obtain ⟨k1, k2⟩ := (highest_iff hlang).1 hh
      exact ⟨a, ⟨(hm a).1 k1, fun b hb => k2 b ((hm b).2 hb)⟩, e⟩
  · rintro ⟨a, ⟨k1, k2⟩, rfl⟩
    rw [(highest_iff hlang).2 ⟨(hm a).2 k1, fun b hb => k2 b ((hm b).1 hb)⟩]
    exact ⟨rfl, hnn a k1⟩

/-! ### C69 -/

theorem withWeak_same {d : Ndfa} {weak : List Int} {dict : TerminalDict} (h : (addSymbols (lists d) weak dict).1.accept = lists d) {q : Nat}
    (hq : q < d.states.length) : (withWeak weak dict d).accept q = (d.accept q).map (fun a => ⟨code (decode a.symbol), false⟩) := by
  simp only [withWeak, h]
  simp only [lists]
  rw [List.getD_eq_getElem?_getD, List.getElem?_map, List.getElem?_range hq]
  simp only [Option.map_some, Option.getD_some, List.map_map]
  rfl

/-- The conditions on the automaton of the definitions under which the later stages are right: those of C07 (symbol sets), C61 (no weak symbol is split),
C11 (minimisation) and C13 (translation table). -/
structure Suitable (o : Options) (weak : List Int) (dict : TerminalDict) (n : Ndfa) : Prop where
  canon : ∀ s ∈ n.syms.syms, Canon s
  safe : Dedup.SafeOrder [] ((Dedup.visited n.syms.ids).map (·.1))
  unsplit : ∀ d, deterministic n = some d → (addSymbols (lists d) weak dict).1.accept = lists d
  compact : o.compact = true → ∀ d, deterministic n = some d → CompactOk (withWeak weak dict d)
  spoil : ∀ d e, deterministic n = some d → finalAutomaton o (withWeak weak dict d) = some e →
    ∀ r ∈ e.syms.ranges, ∀ r' ∈ e.syms.ranges, ¬ Node.Spoils 65536 r.1 r'.1

section
variable (env : Env) (depth : Nat) (folds : (SymSet → SymSet) × (SymSet → SymSet)) (used : List Int)

theorem says_range {lang : LexItem → _root_.Language Int} {items : List LexItem} (hr : ∀ i ∈ items, 0 ≤ i.symbol ∧ i.symbol < base) {w : List Int}
    {a : Accept} (h : Says used lang none items w a) : InRange a ∧ IsLang a := by
  obtain ⟨i, s, t, h1, h2, h3, rfl⟩ := h
  have key : ∀ (l : List LexItem) (first : Option Int), (∀ i ∈ l, 0 ≤ i.symbol ∧ i.symbol < base) → (∀ x, first = some x → 0 ≤ x ∧ x < base) →
      ∀ p ∈ symbolsOf used first l, 0 ≤ p.2 ∧ p.2 < base := by
    intro l
    induction l with
    | nil => intro first _ _ p hp; exact nomatch hp
    | cons i l ih =>
      intro first hl hf p hp
      have hi := hl i (List.mem_cons_self ..)
      have hboth : (0 ≤ (symbolOf used first i).1 ∧ (symbolOf used first i).1 < base) ∧
          ∀ x, (symbolOf used first i).2 = some x → 0 ≤ x ∧ x < base := by
        cases hb : bland used i with
        | false => rw [symbolOf_new used hb]; exact ⟨hi, hf⟩
        | true =>
          have hs : (symbolOf used first i).1 = i.symbol ∨ first = some (symbolOf used first i).1 := by
            simp only [symbolOf]
            split
            · cases first <;> simp
            · exact .inl rfl
          obtain ⟨k1, k2⟩ := symbolOf_bland used hb first
          have k3 : 0 ≤ (symbolOf used first i).1 ∧ (symbolOf used first i).1 < base := by
            rcases hs with hs | hs
            · rw [hs]; exact hi
            · exact hf _ hs
          refine ⟨k3, fun x hx => ?_⟩
          rw [k1] at hx
          rw [← Option.some.inj hx]; exact k3
      rcases List.mem_cons.1 hp with rfl | hp
      · exact hboth.1
      · exact ih _ (fun j hj => hl j (List.mem_cons_of_mem _ hj)) hboth.2 p hp
  exact ⟨key items none hr (by simp) _ h1, trivial⟩

/-- **C69**, for one text: the tables of the lexer accept a text with the symbol of the most important definition that means it. -/
theorem language_lexer_accepts_partial (lang : LexItem → _root_.Language Int) (items : List LexItem)
    (hd : ∀ i ∈ items, i.type ≠ none → Denotes env depth folds (!bland used i) i (lang i)) (hr : ∀ i ∈ items, 0 ≤ i.symbol ∧ i.symbol < base)
    (o : Options) (weak : List Int) (dict : TerminalDict) (n : Ndfa) (hn : automaton env depth folds used items = some n)
    (hs : Suitable o weak dict n) :
    ∃ m, compile env depth folds used weak dict o items = some m ∧ m.newline = 0 ∧ ∀ w, (∀ x ∈ w, (0 : Int) ≤ x ∧ x < 65536) → ∀ s,
      (m.Accepts 0 w s ↔ ∃ a, Best (Says used lang none items) w a ∧ a.symbol = s) ∧
      ((∃ a, Says used lang none items w a) → ∃ s, m.Accepts 0 w s) := by
  obtain ⟨n', a1, a2, a3, a4, a5⟩ := automaton_language env depth folds used lang items hd
  rw [hn] at a1
  have := Option.some.inj a1
  subst this
  obtain ⟨d, d1, d2, d3⟩ := deterministic_spec n a2 a3 hs.canon hs.safe a4
  have hsame := fun q hq => withWeak_same (q := q) (hs.unsplit d d1) hq
  have hfine : Fine (withWeak weak dict d) := ⟨⟨d2.wf.map, d2.wf.target, d2.wf.symbol⟩, d2.ordered, d2.verify, d2.perm, d2.canon, d2.disjoint, d2.start⟩
  obtain ⟨e, e1, e2, e3⟩ := final_alike hfine o (fun ho => hs.compact ho d d1)
  obtain ⟨m, m1, m2, m3⟩ := tables_spec e2 (hs.spoil d e d1 e1)
  refine ⟨m, ?_, m2, fun w hw s => ?_⟩
  · simp only [compile, hn, d1, e1, m1, bind, Option.bind_some]
  have hreach : ∀ q, Reach (withWeak weak dict d) 0 w q ↔ Reach d 0 w q := fun q => reach_congr (n := withWeak weak dict d) (m := d) rfl rfl 0 w q
  have hnoeps := Ndfa.noEps_of_verify d d2.wf d2.verify
  have hlt : ∀ q, Reach d 0 w q → q < d.states.length := by
    intro q hr
    cases hr with
    | refl => exact d2.start
    | eps _ e => exact absurd e (hnoeps _ _)
    | sym _ e =>
      obtain ⟨s, h1, _⟩ := e
      exact d2.wf.target _ _ h1
  have hrep : ∀ q, Reach d 0 w q → ∀ s, (reported ((withWeak weak dict d).accept q) = s ∧ 0 ≤ s) ↔
      ∃ a, Best (Says used lang none items) w a ∧ a.symbol = s := by
    intro q hq s
    refine reported_iff (S := Says used lang none items w) (fun b hb => says_range used hr hb) ?_ ?_ s
    · intro a ha
      rw [hsame q (hlt q hq), List.mem_map] at ha
      obtain ⟨a', ha', rfl⟩ := ha
      obtain ⟨p, p1, p2⟩ := ((d3 w).1 q hq a').1 ha'
      obtain ⟨b, b1, b2⟩ := (a5 w a'.symbol).1 ⟨p, a', p1, p2, rfl⟩
      refine ⟨b, b1, ?_⟩
      show code (decode a'.symbol) = code b
      rw [b2, decode_code (says_range used hr b1).1]
    · intro b hb
      obtain ⟨p, a', p1, p2, p3⟩ := (a5 w (code b)).2 ⟨b, hb, rfl⟩
      refine ⟨⟨code (decode a'.symbol), false⟩, ?_, ?_⟩
      · rw [hsame q (hlt q hq), List.mem_map]
        exact ⟨a', ((d3 w).1 q hq a').2 ⟨p, p1, p2⟩, rfl⟩
      · show code (decode a'.symbol) = code b
        rw [p3, decode_code (says_range used hr hb).1]
  have hacc : ∀ s, m.Accepts 0 w s ↔ ∃ q, Reach d 0 w q ∧ reported ((withWeak weak dict d).accept q) = s ∧ 0 ≤ s := by
    intro s
    rw [m3 w hw s]
    constructor
    · rintro ⟨q, h1, h2, h3⟩
      obtain ⟨q', k1, k2⟩ := (e3 w (e.accept q)).2 ⟨q, h1, rfl⟩
      exact ⟨q', (hreach q').1 k1, by rw [k2]; exact h2, h3⟩
    · rintro ⟨q, h1, h2, h3⟩
      obtain ⟨q', k1, k2⟩ := (e3 w ((withWeak weak dict d).accept q)).1 ⟨q, (hreach q).2 h1, rfl⟩
      exact ⟨q', k1, by rw [k2]; exact h2, h3⟩
  have hexists : ∀ b, Says used lang none items w b → ∃ q, Reach d 0 w q := by
    intro b hb
    obtain ⟨p, a', p1, p2, p3⟩ := (a5 w (code b)).2 ⟨b, hb, rfl⟩
    exact (d3 w).2.2 ⟨p, p1⟩
  constructor
  · rw [hacc s]
    constructor
    · rintro ⟨q, h1, h2⟩; exact (hrep q h1 s).1 h2
    · rintro ⟨a, h1, h2⟩
      obtain ⟨q, hq⟩ := hexists a h1.1
      exact ⟨q, hq, (hrep q hq s).2 ⟨a, h1, h2⟩⟩
  · rintro ⟨b, hb⟩
    obtain ⟨q, hq⟩ := hexists b hb
    -- the list of the state is not empty, so one of its actions is reported
    have hne : (withWeak weak dict d).accept q ≠ [] := by
      obtain ⟨p, a', p1, p2, p3⟩ := (a5 w (code b)).2 ⟨b, hb, rfl⟩
      rw [hsame q (hlt q hq)]
      have := ((d3 w).1 q hq a').2 ⟨p, p1, p2⟩
      intro h0
      rw [List.map_eq_nil_iff] at h0
      rw [h0] at this
      exact nomatch this
    have hl : ∀ a ∈ ((withWeak weak dict d).accept q).map (fun a => decode a.symbol), IsLang a ∧ 0 ≤ a.symbol := by
      intro a ha
      rw [List.mem_map] at ha
      obtain ⟨x, hx, rfl⟩ := ha
      rw [hsame q (hlt q hq), List.mem_map] at hx
      obtain ⟨a', ha', rfl⟩ := hx
      obtain ⟨p, p1, p2⟩ := ((d3 w).1 q hq a').1 ha'
      obtain ⟨b', b1, b2⟩ := (a5 w a'.symbol).1 ⟨p, a', p1, p2, rfl⟩
      obtain ⟨r1, r2⟩ := says_range used hr b1
      show IsLang (decode (code (decode a'.symbol))) ∧ 0 ≤ (decode (code (decode a'.symbol))).symbol
      rw [b2, decode_code r1, decode_code r1]
      refine ⟨r2, ?_⟩
      cases b' with
      | plain => exact r2.elim
      | lang s t w => exact r1.1
    obtain ⟨a, k1, k2, _⟩ := accept_priority (l := ((withWeak weak dict d).accept q).map (fun a => decode a.symbol))
      (by rw [Ne, List.map_eq_nil_iff]; exact hne) (fun a ha => (hl a ha).1)
    refine ⟨a.symbol, (hacc _).2 ⟨q, hq, ?_, (hl a k2).2⟩⟩
    unfold reported
    rw [k1]

/-- How a language splits an input: each lexeme is the longest prefix of what follows that some definition means, with the symbol of the most important
such definition; a character at which no definition matches is tagged -1. -/
inductive Lexed (S : List Int → Accept → Prop) : List Int → List Lexeme → Prop
  | nil : Lexed S [] []
  | token {l : Lexeme} {rest ls} (a : Accept) : l.content ≠ [] → Best S l.content a → l.matched = a.symbol →
      (∀ w, w <+: l.content ++ rest → l.content.length < w.length → ∀ b, ¬ S w b) → Lexed S rest ls →
      Lexed S (l.content ++ rest) (l :: ls)
  | error {l : Lexeme} {x rest ls} : l.content = [x] → l.matched = -1 →
      (∀ w, w <+: x :: rest → w ≠ [] → ∀ b, ¬ S w b) → Lexed S rest ls → Lexed S (x :: rest) (l :: ls)

/-- **C69**. The lexer compiled from the definitions of a language splits every input of UTF-16 units into the longest texts that the definitions mean,
and reports each with the symbol of the most important definition. Missing: the
expressions excluded by C20, C88 and C90, split weak symbols, and the automata on which the stages are wrong (`Suitable`). -/
theorem language_lexer_partial (lang : LexItem → _root_.Language Int) (items : List LexItem)
    (hd : ∀ i ∈ items, i.type ≠ none → Denotes env depth folds (!bland used i) i (lang i)) (hr : ∀ i ∈ items, 0 ≤ i.symbol ∧ i.symbol < base)
    (o : Options) (weak : List Int) (dict : TerminalDict) (n : Ndfa) (hn : automaton env depth folds used items = some n)
    (hs : Suitable o weak dict n) :
    ∃ m, compile env depth folds used weak dict o items = some m ∧ ∀ input : List Int, (∀ x ∈ input, 0 ≤ x ∧ x < 65536) →
      ∃ ls st' st'', LexMachine.PlainRun m (LexStream.new input 0) ls st' ∧ m.next st' = some (none, st'') ∧
        Lexed (Says used lang none items) input ls := by
  obtain ⟨m, m1, m2, m3⟩ := language_lexer_accepts_partial env depth folds used lang items hd hr o weak dict n hn hs
  refine ⟨m, m1, fun input hin => ?_⟩
  obtain ⟨ls, st', st'', g1, g2, g3⟩ := splitsAs_of_accepts m m2 (fun w s => m.Accepts 0 w s) (fun w _ s => .rfl) input hin
  refine ⟨ls, st', st'', g1, g2, ?_⟩
  clear g1 g2
  have hpre : ∀ (u v w : List Int), (∀ x ∈ u ++ v, (0 : Int) ≤ x ∧ x < 65536) → w <+: u ++ v → ∀ x ∈ w, (0 : Int) ≤ x ∧ x < 65536 :=
    fun u v w h hw x hx => h x (hw.subset hx)
  induction g3 with
  | nil => exact .nil
  | @token l rest ls h1 h2 h3 _ ih =>
    have hl := hpre l.content rest l.content hin (List.prefix_append ..)
    obtain ⟨a, k1, k2⟩ := ((m3 l.content hl l.matched).1).1 h2
    refine .token a h1 k1 k2.symm (fun w hw hlen b hb => ?_) (ih (fun x hx => hin x (by simp [hx])))
    obtain ⟨s, hs⟩ := (m3 w (hpre _ _ w hin hw) 0).2 ⟨b, hb⟩
    exact h3 w hw hlen s hs
  | @error l x rest ls h1 h2 h3 _ ih =>
    refine .error h1 h2 (fun w hw hne b hb => ?_) (ih (fun y hy => hin y (by simp [hy])))
    obtain ⟨s, hs⟩ := (m3 w (hpre [x] rest w hin hw) 0).2 ⟨b, hb⟩
    exact h3 w hw hne s hs

/-- **C69**, the warning. If the stage warns that a symbol can never be generated, no text is lexed with it. -/
theorem unused_sound (lang : LexItem → _root_.Language Int) (items : List LexItem)
    (hd : ∀ i ∈ items, i.type ≠ none → Denotes env depth folds (!bland used i) i (lang i)) (hr : ∀ i ∈ items, 0 ≤ i.symbol ∧ i.symbol < base)
    (n d : Ndfa) (hn : automaton env depth folds used items = some n) (hcanon : ∀ s ∈ n.syms.syms, Canon s)
    (hsafe : Dedup.SafeOrder [] ((Dedup.visited n.syms.ids).map (·.1))) (hdet : deterministic n = some d) (count : Nat) (ignored : List Int)
    (t : Int) (ht : t ∈ unused count ignored d) (w : List Int) (a : Accept) (h : Best (Says used lang none items) w a) : a.symbol ≠ t := by
  rintro rfl
  obtain ⟨n', a1, a2, a3, a4, a5⟩ := automaton_language env depth folds used lang items hd
  rw [hn] at a1
  have := Option.some.inj a1
  subst this
  obtain ⟨d', d1, d2, d3⟩ := deterministic_spec n a2 a3 hcanon hsafe a4
  rw [hdet] at d1
  have := Option.some.inj d1
  subst this
  obtain ⟨p, a', p1, p2, p3⟩ := (a5 w (code a)).2 ⟨a, h.1, rfl⟩
  obtain ⟨q, hq⟩ := (d3 w).2.2 ⟨p, p1⟩
  have hmem := ((d3 w).1 q hq a').2 ⟨p, p1, p2⟩
  have hnoeps := Ndfa.noEps_of_verify d d2.wf d2.verify
  have hlt : q < d.states.length := by
    cases hq with
    | refl => exact d2.start
    | eps _ e => exact absurd e (hnoeps _ _)
    | sym _ e =>
      obtain ⟨s, h1, _⟩ := e
      exact d2.wf.target _ _ h1
  have hrep := (reported_iff (S := Says used lang none items w) (fun b hb => says_range used hr hb) (l := d.accept q)
    (fun x hx => by
      obtain ⟨p, p1, p2⟩ := ((d3 w).1 q hq x).1 hx
      exact (a5 w x.symbol).1 ⟨p, x, p1, p2, rfl⟩)
    (fun b hb => by
      obtain ⟨p, x, p1, p2, p3⟩ := (a5 w (code b)).2 ⟨b, hb, rfl⟩
      exact ⟨x, ((d3 w).1 q hq x).2 ⟨p, p1, p2⟩, p3⟩) a.symbol).2 ⟨a, h, rfl⟩
  simp only [unused, List.mem_filter, Bool.and_eq_true, Bool.not_eq_true', List.any_eq_false, List.mem_range] at ht
  exact ht.2.2 q hlt (by
    simp only [decide_eq_true_eq]
    exact ⟨List.ne_nil_of_mem hmem, hrep.1⟩)

end

/-- No ranges spoil each other (C13) if the characters are below 255. -/
theorem final_below {d e : Ndfa} {o : Options} (hc : ∀ s ∈ d.syms.syms, Canon s) (hb : ∀ s ∈ d.syms.syms, ∀ x, Mem x s → x < 255)
    (he : finalAutomaton o d = some e) : ∀ r ∈ e.syms.ranges, ∀ r' ∈ e.syms.ranges, ¬ Node.Spoils 65536 r.1 r'.1 := by
  have key : ∀ s ∈ e.syms.syms, Canon s ∧ ∀ x, Mem x s → x < 255 := by
    simp only [finalAutomaton, Option.map_eq_some_iff] at he
    obtain ⟨c, h1, rfl⟩ := he
    have h2 : c.syms = d.syms := by
      cases ho : o.compact with
      | false => rw [ho, if_neg Bool.false_ne_true] at h1; rw [← Option.some.inj h1]
      | true =>
        rw [ho, if_pos rfl] at h1
        unfold Ndfa.toCompact at h1
        simp only [bind, Option.bind_eq_some_iff, pure, Option.some.injEq] at h1
        obtain ⟨x, _, rfl⟩ := h1
        rfl
    have hc' : ∀ s ∈ c.syms.syms, Canon s := by rw [h2]; exact hc
    have hb' : ∀ i x, Mem x (c.syms.get i) → x < 255 := by
      intro i x hx
      rw [h2] at hx
      simp only [SymbolMap.get] at hx
      cases hg : d.syms.syms[i]? with
      | none => rw [hg] at hx; exact absurd hx (by simp [SymSet.Mem])
      | some v => rw [hg] at hx; exact hb v (List.mem_of_getElem? hg) x hx
    cases ho : o.merge with
    | false =>
      rw [if_neg Bool.false_ne_true, h2]
      exact fun s hs => ⟨hc s hs, hb s hs⟩
    | true =>
      rw [if_pos rfl]
      have step : ∀ (l : List Nat) (m : SymbolMap), (∀ s ∈ m.syms, Canon s ∧ ∀ x, Mem x s → x < 255) →
          ∀ s ∈ (l.foldl (fun map k => (map.identifierFor (Ndfa.classUnion c (Ndfa.mergeClasses c) k)).1) m).syms,
            Canon s ∧ ∀ x, Mem x s → x < 255 := by
        intro l
        induction l with
        | nil => intro m h; exact h
        | cons k l ih =>
          intro m h
          refine ih _ ?_
          simp only [SymbolMap.identifierFor]
          split
          · exact h
          · intro s hs
            rcases List.mem_append.1 hs with hs | hs
            · exact h s hs
            · rw [List.mem_singleton] at hs
              subst hs
              obtain ⟨u1, u2⟩ := Ndfa.classUnion_spec c (Ndfa.mergeClasses c) k hc'
              refine ⟨u1, fun x hx => ?_⟩
              obtain ⟨i, _, _, hi⟩ := (u2 x).1 hx
              exact hb' i x hi
      exact step _ SymbolMap.empty (fun s hs => nomatch hs)
  intro r hr r' hr' hsp
  obtain ⟨i, _, hi⟩ := SymbolMap.mem_ranges.1 hr'
  simp only [SymbolMap.get] at hi
  cases hg : e.syms.syms[i]? with
  | none => rw [hg] at hi; exact nomatch hi
  | some v =>
    rw [hg] at hi
    obtain ⟨k1, k2⟩ := key v (List.mem_of_getElem? hg)
    have hne := k1.2 _ hi
    have := k2 (r'.1.hi - 1) ⟨r'.1, hi, by simp only [Range.Mem]; omega⟩
    obtain ⟨_, _, _, h4⟩ := hsp
    omega

/-! ### Example -/

def noFolds : (SymSet → SymSet) × (SymSet → SymSet) := (id, id)

def noDict : TerminalDict := ⟨0, [], [], [], []⟩

/-- The keyword `if`, names, and two ignored definitions that share the symbol 2. -/
def exItems : List LexItem :=
  [⟨false, ['i', 'f'], false, true, 0, some .keywords, false⟩, ⟨true, ['[', 'a', '-', 'z', ']', '+'], false, true, 1, some .lexer, false⟩,
   ⟨false, [' '], false, true, 2, some .ignore, false⟩, ⟨false, ['\n'], false, true, 3, some .ignore, false⟩]

def exLang (i : LexItem) : _root_.Language Int :=
  if i.regex then (Re.plus letter).lang true else {(textOf i).flatMap (encode (!bland [0, 1] i))}

def exAutomaton : Ndfa := (automaton noDefs 1 noFolds [0, 1] exItems).getD Ndfa.new

def exDfa : Ndfa := (deterministic exAutomaton).getD Ndfa.new

def exFinal (o : Options) : Ndfa := (finalAutomaton o (withWeak [] noDict exDfa)).getD Ndfa.new

-- with every choice of the options the conditions of the theorem hold
theorem ex_suitable (o : Options) : (∀ i ∈ exItems, i.type ≠ none → Denotes noDefs 1 noFolds (!bland [0, 1] i) i (exLang i)) ∧
    (∀ i ∈ exItems, 0 ≤ i.symbol ∧ i.symbol < base) ∧ automaton noDefs 1 noFolds [0, 1] exItems = some exAutomaton ∧
    Suitable o [] noDict exAutomaton := by
  have hdet : deterministic exAutomaton = some exDfa := by
    have h : (deterministic exAutomaton).isSome = true := by decide +kernel
    unfold exDfa
    cases h2 : deterministic exAutomaton with
    | none => rw [h2] at h; exact nomatch h
    | some x => rfl
  refine ⟨?_, by decide, ?_, ?_, ?_, ?_, ?_, ?_⟩
  · intro i hi _
    simp only [exItems, List.mem_cons, List.not_mem_nil, or_false] at hi
    rcases hi with rfl | rfl | rfl | rfl
    · exact .literal rfl rfl (by decide)
    · exact .regex (.plus letter) rfl rfl (by decide) ⟨letter_ok true, rfl⟩ (by decide)
    · exact .literal rfl rfl (by decide)
    · exact .literal rfl rfl (by decide)
  · have h : (automaton noDefs 1 noFolds [0, 1] exItems).isSome = true := by decide +kernel
    unfold exAutomaton
    cases h2 : automaton noDefs 1 noFolds [0, 1] exItems with
    | none => rw [h2] at h; exact nomatch h
    | some x => rfl
  · have e : exAutomaton.syms.syms = [[⟨105, 106⟩], [⟨102, 103⟩], [], [⟨97, 123⟩], [⟨32, 33⟩], [⟨10, 11⟩]] := by decide +kernel
    rw [e]
    intro s hs
    simp only [List.mem_cons, List.not_mem_nil, or_false] at hs
    rcases hs with rfl | rfl | rfl | rfl | rfl | rfl <;> simp [SymSet.Canon]
  · have e : (Dedup.visited exAutomaton.syms.ids).map (·.1) = [⟨10, 11⟩, ⟨32, 33⟩, ⟨97, 123⟩, ⟨102, 103⟩, ⟨105, 106⟩] := by decide +kernel
    rw [e]
    exact ⟨.inl (by simp), .inl (by simp [Range.Mem]; omega), .inl (by simp [Range.Mem]; constructor <;> intros <;> omega), .inr (.inl (by simp)), .inr (.inl (by simp)), trivial⟩
  · intro d hd
    rw [hdet] at hd
    have := Option.some.inj hd
    subst this
    decide +kernel
  · intro _ d hd
    rw [hdet] at hd
    have := Option.some.inj hd
    subst this
    have hlen : (withWeak [] noDict exDfa).states.length = 6 := by decide +kernel
    have hacc : ∀ q < 6, q ≠ 0 → (withWeak [] noDict exDfa).accept q ≠ [] := by decide +kernel
    refine ⟨1, by rw [hlen]; decide, by decide, hacc 1 (by decide) (by decide), fun p h1 h2 => by omega, fun q h1 h2 h3 => ?_⟩
    rw [hlen] at h1
    exact absurd h3 (hacc q h1 h2)
  · intro d e hd he
    rw [hdet] at hd
    have := Option.some.inj hd
    subst this
    have es : (withWeak [] noDict exDfa).syms.syms = [[], [⟨10, 11⟩], [⟨32, 33⟩], [⟨97, 102⟩, ⟨103, 105⟩, ⟨106, 123⟩], [⟨102, 103⟩], [⟨105, 106⟩]] := by
      decide +kernel
    refine final_below ?_ ?_ he
    · rw [es]
      intro s hs
      simp only [List.mem_cons, List.not_mem_nil, or_false] at hs
      rcases hs with rfl | rfl | rfl | rfl | rfl | rfl <;> simp [SymSet.Canon]
    · rw [es]
      intro s hs x hx
      simp only [List.mem_cons, List.not_mem_nil, or_false] at hs
      rcases hs with rfl | rfl | rfl | rfl | rfl | rfl <;> simp [SymSet.Mem, Range.Mem] at hx <;> omega

-- `if` is the keyword although it is a name as well
example : Best (Says [0, 1] exLang none exItems) [105, 102] (.lang 0 .keywords false) := by
  refine ⟨⟨⟨false, ['i', 'f'], false, true, 0, some .keywords, false⟩, 0, .keywords, by decide, rfl, ?_, rfl⟩, ?_⟩
  · show ([105, 102] : List Int) = _
    decide
  · rintro b ⟨i, s, t, h1, h2, h3, rfl⟩
    simp only [show symbolsOf [0, 1] none exItems = [(⟨false, ['i', 'f'], false, true, 0, some .keywords, false⟩, 0),
      (⟨true, ['[', 'a', '-', 'z', ']', '+'], false, true, 1, some .lexer, false⟩, 1), (⟨false, [' '], false, true, 2, some .ignore, false⟩, 2),
      (⟨false, ['\n'], false, true, 3, some .ignore, false⟩, 2)] by decide, List.mem_cons, List.not_mem_nil, or_false, Prod.mk.injEq] at h1
    rcases h1 with ⟨rfl, rfl⟩ | ⟨rfl, rfl⟩ | ⟨rfl, rfl⟩ | ⟨rfl, rfl⟩
    · rw [← Option.some.inj h2]
      exact .inl rfl
    · rw [← Option.some.inj h2]
      exact .inr (.inr ⟨rfl, .inl (by decide)⟩)
    · exact absurd (show ([105, 102] : List Int) = _ from h3) (by decide)
    · exact absurd (show ([105, 102] : List Int) = _ from h3) (by decide)

/-- C69 does not hold for ignored definitions with characters above U+FFFF: the builder for the definitions that the grammar does not use does not make
surrogates (ndfa.h 242), so no text of UTF-16 units is ignored. The same definition is recognised if the grammar uses its symbol. -/
theorem ignored_surrogates_violated (env : Env) (depth : Nat) (folds : (SymSet → SymSet) × (SymSet → SymSet)) (used : List Int) (i : LexItem)
    (hlit : i.regex = false) (hci : i.ci = false) (ht : i.type = some .ignore) (hc : ∃ c ∈ i.definition, 0x10000 ≤ c.toNat) :
    ∃ n, automaton env depth folds used [i] = some n ∧
      (i.symbol ∉ used → ∀ w : List Int, (∀ x ∈ w, x < 65536) → ∀ p, Reach n 0 w p → n.accept p = []) ∧
      (i.symbol ∈ used → ∃ p, Reach n 0 ((textOf i).flatMap (encode true)) p ∧ n.accept p ≠ []) := by
  obtain ⟨c, c1, c2⟩ := hc
  have hmem : (c.toNat : Int) ∈ textOf i := List.mem_map.2 ⟨c, c1, rfl⟩
  obtain ⟨n, n1, n2, n3, n4, n5⟩ := automaton_language env depth folds used (fun i => {(textOf i).flatMap (encode (!bland used i))}) [i]
    (by
      intro j hj _
      rw [List.mem_singleton] at hj
      subst hj
      exact .literal hlit hci (List.ne_nil_of_mem hmem))
  refine ⟨n, n1, fun hu w hw p hp => ?_, fun hu => ?_⟩
  · have hb : bland used i = true := by simp [bland, ht, hu]
    rcases hl : n.accept p with _ | ⟨a, l⟩
    · rfl
    · exfalso
      obtain ⟨b, ⟨j, s, t, h1, h2, h3, h4⟩, _⟩ := (n5 w a.symbol).1 ⟨p, a, hp, by rw [hl]; exact List.mem_cons_self .., rfl⟩
      simp only [symbolsOf, List.mem_cons, List.not_mem_nil, or_false, Prod.mk.injEq] at h1
      obtain ⟨rfl, -⟩ := h1
      have h3 : w = (textOf j).flatMap (encode (!bland used j)) := h3
      have : (c.toNat : Int) ∈ w := by
        rw [h3, hb]
        exact List.mem_flatMap.2 ⟨_, hmem, by simp [encode]⟩
      have := hw _ this
      omega
  · have hb : bland used i = false := by simp [bland, hu]
    obtain ⟨p, a, h1, h2, -⟩ := (n5 ((textOf i).flatMap (encode true)) (code (.lang i.symbol .ignore i.weak))).2
      ⟨_, ⟨i, i.symbol, .ignore, by simp [symbolsOf, symbolOf_new used hb], ht, by show _ = _; rw [hb]; rfl, by rw [hb]; simp⟩, rfl⟩
    exact ⟨p, h1, List.ne_nil_of_mem h2⟩

-- U+1F600 is the pair D83D DE00
example : ([0x1F600] : List Int).flatMap (encode true) = [0xD83D, 0xDE00] := by decide

end LexerStage
end TameParse

import Verif.LexerProps
import Verif.StateMachineProps
import Verif.SymbolTableProps
/-
C54: the lexer compiled from an automaton (`lexer::compile`) against the automaton.

Sources: /repo/TameParse/Dfa/lexer.cpp 110-131 (`compile`), basic_lexer.h 180-191 (constructor of `dfa_lexer_base`),
state_machine.h 195-290 (`state_machine`), symbol_translator.h 56-65.
-/
namespace TameParse
namespace Ndfa
open SymSet (Mem)

/-- The ranges added by the constructor of `symbol_translator`: the sets in the order of the map (symbol_translator.h 58-64). -/
def mapRanges (m : SymbolMap) : List (Range × Int) := m.ids.flatMap (fun p => p.1.map (fun r => (r, (p.2 : Int))))

/-- `set_for_symbol` of a `symbol_translator<wchar_t>` (symbol_translator.h 73-75), `none` for `symbol_set::null`. -/
def wcharTranslate (m : SymbolMap) (x : Int) : Option Nat :=
  let v := Node.lookup 1 256 (Node.build 1 256 0 (mapRanges m)) x
  if v = -1 then none else some v.toNat

/-- `dfa_lexer<wchar_t, state_machine_flat_table>` (basic_lexer.h 180-191 and 360-369). `run_unsafe` is `run` without the test of
the state, which only differs for states outside the table. -/
def flatLexer (d : Ndfa) : Option LexMachine := do
  let rows ← d.states.mapM (flatFill d.syms.count)
  return ⟨fun q x => (smRun rows flatGet (wcharTranslate d.syms) q x).getD none,
    fun q => if q < d.states.length then fillAccept (d.accept q) else -1, 0⟩

/-- `dfa_lexer<wchar_t, state_machine_compact_table<> >`. -/
def compactLexer (sort : List Trans → List Trans) (d : Ndfa) : LexMachine :=
  ⟨fun q x => (smRun (d.states.map (compactFill sort)) compactGet (wcharTranslate d.syms) q x).getD none,
    fun q => if q < d.states.length then fillAccept (d.accept q) else -1, 0⟩

/-- `lexer::compile` (lexer.cpp 110-131). -/
def compileLexer (sort : List Trans → List Trans) (compact : Bool) (n : Ndfa) : Option LexMachine := do
  let u ← n.toUnique
  let d ← u.toDfa [0]
  if compact then return compactLexer sort d else flatLexer d

/-! ### Lemmas -/

theorem toDfa_ordered (n d : Ndfa) (initial : List Nat) (h : n.toDfa initial = some d) : d.Ordered := by
  simp only [toDfa] at h
  split at h
  · have := Option.some.inj h
    subst this
    intro row hr
    simp at hr
    subst hr
    exact List.Pairwise.nil
  · rw [Option.bind_eq_bind, Option.bind_eq_some_iff] at h
    obtain ⟨c0, h1, h⟩ := h
    rw [Option.bind_eq_some_iff] at h
    obtain ⟨c, h2, h⟩ := h
    have := Option.some.inj h
    subst this
    exact subsetLoop_sorted n _ _ _ _ (initialSubset_sorted n initial c0 h1) h2

theorem toDfa_syms (n d : Ndfa) (initial : List Nat) (hne : initial ≠ []) (h : n.toDfa initial = some d) : d.syms = n.syms := by
  simp only [toDfa, if_neg hne] at h
  rw [Option.bind_eq_bind, Option.bind_eq_some_iff] at h
  obtain ⟨c0, h1, h⟩ := h
  rw [Option.bind_eq_some_iff] at h
  obtain ⟨c, h2, h⟩ := h
  have := Option.some.inj h
  subst this
  rfl

theorem insertKey_perm (ids : List (SymSet × Nat)) (p : SymSet × Nat) : (SymbolMap.insertKey ids p).Perm (p :: ids) := by
  induction ids with
  | nil => exact .refl _
  | cons q t ih =>
    simp only [SymbolMap.insertKey]
    split
    · exact .refl _
    · exact (ih.cons q).trans (.swap p q t)

theorem identifierFor_perm (m : SymbolMap) (s : SymSet) (h : m.ids.Perm m.syms.zipIdx) :
    (m.identifierFor s).1.ids.Perm (m.identifierFor s).1.syms.zipIdx := by
  simp only [SymbolMap.identifierFor]
  cases SymbolMap.lookup m.ids s with
  | some i => exact h
  | none =>
    simp only
    refine (insertKey_perm _ _).trans ?_
    rw [List.zipIdx_append]
    refine (h.cons _).trans ?_
    simpa using (List.perm_append_comm (l₁ := [(s, m.syms.length)]) (l₂ := m.syms.zipIdx))

theorem deduplicate_perm (m : SymbolMap) (d : RemappedMap) (hd : Dedup.deduplicate m = some d) : d.map.ids.Perm d.map.syms.zipIdx := by
  have hstep : ∀ (l : List (List Nat × SymSet)) (r : RemappedMap), r.map.ids.Perm r.map.syms.zipIdx →
      (l.foldl (fun acc p => acc.identifierFor p.2 p.1) r).map.ids.Perm
        (l.foldl (fun acc p => acc.identifierFor p.2 p.1) r).map.syms.zipIdx := by
    intro l
    induction l with
    | nil => intro r h; exact h
    | cons p l ih => intro r h; exact ih _ (identifierFor_perm r.map p.2 h)
  simp only [Dedup.deduplicate, Option.bind_eq_bind, Option.bind_eq_some_iff] at hd
  obtain ⟨sets, _, hd⟩ := hd
  have hd := Option.some.inj hd
  subst hd
  apply hstep
  cases m.find [] with
  | none => exact .refl _
  | some eps => exact identifierFor_perm _ _ (.refl _)

theorem mapRanges_perm (m : SymbolMap) (h : m.ids.Perm m.syms.zipIdx) : (mapRanges m).Perm m.ranges :=
  h.flatMap_right _

/-- The lexers compute the transitions of the automaton, for symbols the translator handles. -/
theorem lexer_of_dfa (d : Ndfa) (h : d.WF) (ho : d.Ordered) (hv : d.verifyIsDfa = true) (hperm : d.syms.ids.Perm d.syms.syms.zipIdx)
    (hcanon : ∀ i, SymSet.Canon (d.syms.get i)) (hdis : ∀ i j x, Mem x (d.syms.get i) → Mem x (d.syms.get j) → i = j)
    (hspoil : ∀ r ∈ d.syms.ranges, ∀ r' ∈ d.syms.ranges, ¬ Node.Spoils 65536 r.1 r'.1)
    (sort : List Trans → List Trans) (hsort : IsSort sort) :
    (∃ m, flatLexer d = some m ∧ m.newline = 0 ∧ (∀ q x, 0 ≤ x → x < 65536 → ∀ q', m.run q x = some q' ↔ SymStep d q x q') ∧
      ∀ q, q < d.states.length → m.accept q = fillAccept (d.accept q)) ∧
    ((compactLexer sort d).newline = 0 ∧ (∀ q x, 0 ≤ x → x < 65536 → ∀ q', (compactLexer sort d).run q x = some q' ↔ SymStep d q x q') ∧
      ∀ q, q < d.states.length → (compactLexer sort d).accept q = fillAccept (d.accept q)) := by
  classical
  have hcan : ∀ s ∈ d.syms.syms, SymSet.Canon s := by
    intro s hs
    obtain ⟨i, hi, e⟩ := List.mem_iff_getElem.1 hs
    have := hcanon i
    simp only [SymbolMap.get, List.getElem?_eq_getElem hi] at this
    rw [← e]; exact this
  have hrs := mapRanges_perm d.syms hperm
  have htrans : ∀ x, 0 ≤ x → x < 65536 → ∀ s, wcharTranslate d.syms x = some s ↔ Mem x (d.syms.get s) := by
    intro x h0 hx s
    obtain ⟨t1, t2⟩ := SymbolMap.symbol_translator_correct_partial d.syms hcan hdis (mapRanges d.syms) hrs 1 256 (by omega) (by omega)
      (fun r hr r' hr' => hspoil r (hrs.mem_iff.1 hr) r' (hrs.mem_iff.1 hr')) x h0 (by omega)
    simp only [wcharTranslate]
    by_cases hn : Node.lookup 1 256 (Node.build 1 256 0 (mapRanges d.syms)) x = -1
    · rw [if_pos hn]
      constructor
      · simp
      · intro hm; exact absurd hm (t2.1 hn s)
    · rw [if_neg hn, ← t1 s]
      have : ∃ i : Nat, Node.lookup 1 256 (Node.build 1 256 0 (mapRanges d.syms)) x = i := by
        by_contra hno
        exact hn (t2.2 (fun i hi => hno ⟨i, (t1 i).2 hi⟩))
      obtain ⟨i, hi⟩ := this
      rw [hi]
      simp
  -- an exact translator that agrees with the table
  let exact' : Int → Option Nat := fun x => if h : ∃ s, Mem x (d.syms.get s) then some h.choose else none
  have hex : ∀ x s, exact' x = some s ↔ Mem x (d.syms.get s) := by
    intro x s
    by_cases hh : ∃ s, Mem x (d.syms.get s)
    · simp only [exact', dif_pos hh, Option.some.injEq]
      constructor
      · intro e; rw [← e]; exact hh.choose_spec
      · intro hm; exact hdis _ _ x hh.choose_spec hm
    · simp only [exact', dif_neg hh]
      constructor
      · simp
      · intro hm; exact absurd ⟨s, hm⟩ hh
  have hagree : ∀ x, 0 ≤ x → x < 65536 → wcharTranslate d.syms x = exact' x := by
    intro x h0 hx
    apply Option.ext
    intro s
    exact (htrans x h0 hx s).trans (hex x s).symm
  obtain ⟨⟨rows, r1, r2⟩, r3⟩ := state_machine_runs_dfa d h ho hv sort hsort exact' hex
  have hsm : ∀ {row : Type} (rows : List row) (get : row → Nat → Option (Option Nat)) q x, 0 ≤ x → x < 65536 →
      smRun rows get (wcharTranslate d.syms) q x = smRun rows get exact' q x := by
    intro row rows get q x h0 hx
    simp only [smRun, hagree x h0 hx]
  constructor
  · refine ⟨_, by simp only [flatLexer, r1]; rfl, rfl, ?_, fun q hq => by simp only [if_pos hq]⟩
    intro q x h0 hx q'
    obtain ⟨r, e1, e2⟩ := r2 q x
    simp only [hsm rows flatGet q x h0 hx, e1]
    exact e2 q'
  · refine ⟨rfl, ?_, fun q hq => by simp only [compactLexer, if_pos hq]⟩
    intro q x h0 hx q'
    obtain ⟨r, e1, e2⟩ := r3 q x
    simp only [compactLexer, hsm _ compactGet q x h0 hx, e1]
    exact e2 q'

theorem runs_iff_reach (d : Ndfa) (m : LexMachine) (hnoeps : ∀ p p', ¬ EpsStep d p p')
    (hrun : ∀ q x, 0 ≤ x → x < 65536 → ∀ q', m.run q x = some q' ↔ SymStep d q x q') (w : List Int) (hw : ∀ x ∈ w, 0 ≤ x ∧ x < 65536) (q q' : Nat) :
    m.runs q w = some q' ↔ Reach d q w q' := by
  have : ∀ n (w : List Int), w.length = n → (∀ x ∈ w, 0 ≤ x ∧ x < 65536) → ∀ q', m.runs q w = some q' ↔ Reach d q w q' := by
    intro n
    induction n with
    | zero =>
      intro w hl _ q'
      rw [List.length_eq_zero_iff.1 hl]
      simp only [LexMachine.runs, Option.some.injEq]
      constructor
      · rintro rfl; exact .refl
      · intro hr
        generalize hw : ([] : List Int) = w at hr
        induction hr with
        | refl => rfl
        | eps _ h _ => exact absurd h (hnoeps _ _)
        | sym _ _ _ => simp at hw
    | succ n ih =>
      intro w hl hx q'
      rcases List.eq_nil_or_concat w with rfl | ⟨v, x, rfl⟩
      · simp at hl
      · rw [List.concat_eq_append] at hl hx ⊢
        have hv := ih v (by simpa using hl) (fun y hy => hx y (by simp [hy]))
        obtain ⟨x0, x1⟩ := hx x (by simp)
        rw [LexMachine.runs_append]
        constructor
        · intro e
          rw [Option.bind_eq_some_iff] at e
          obtain ⟨p, e1, e2⟩ := e
          simp only [LexMachine.runs] at e2
          cases hp : m.run p x with
          | none => rw [hp] at e2; simp at e2
          | some p' =>
            rw [hp] at e2
            simp only [Option.some.injEq] at e2
            subst e2
            exact .sym ((hv p).1 e1) ((hrun p x x0 x1 _).1 hp)
        · intro hr
          generalize hw : v ++ [x] = w' at hr
          cases hr with
          | refl => simp at hw
          | eps _ h => exact absurd h (hnoeps _ _)
          | @sym u p y p' h1 h2 =>
            have := List.append_inj' hw rfl
            obtain ⟨rfl, e⟩ := this
            simp only [List.cons.injEq, and_true] at e
            subst e
            rw [(hv p).2 h1]
            simp only [Option.bind_some, LexMachine.runs, (hrun p x x0 x1 _).2 h2]
  exact this _ w rfl hw q'

/-- C54: under the conditions in which overlap removal (C06) and the translation table (C13) are right, the lexer compiled from an
automaton without eager actions accepts a string of symbols below 0x10000 exactly when the automaton does, with the smallest symbol
of the actions of all states reached. Missing: the conditions, without which the code is wrong (C06, C13). -/
theorem compiled_lexer_correct_partial (n : Ndfa) (h : n.WF) (h0 : 0 < n.states.length) (hc : ∀ s ∈ n.syms.syms, SymSet.Canon s)
    (hsafe : Dedup.SafeOrder [] ((Dedup.visited n.syms.ids).map (·.1)))
    (hspoil : ∀ u, n.toUnique = some u → ∀ r ∈ u.syms.ranges, ∀ r' ∈ u.syms.ranges, ¬ Node.Spoils 65536 r.1 r'.1)
    (heager : ∀ q, ∀ a ∈ n.accept q, a.eager = false) (hsym : ∀ q, ∀ a ∈ n.accept q, 0 ≤ a.symbol)
    (sort : List Trans → List Trans) (hsort : IsSort sort) (compact : Bool) :
    ∃ m, compileLexer sort compact n = some m ∧ m.newline = 0 ∧
      ∀ w, (∀ x ∈ w, (0 : Int) ≤ x ∧ x < 65536) → ∀ s, m.Accepts 0 w s ↔
        (∃ p a, Reach n 0 w p ∧ a ∈ n.accept p ∧ a.symbol = s) ∧ ∀ p a, Reach n 0 w p → a ∈ n.accept p → s ≤ a.symbol := by
  obtain ⟨u, u1, u2, u3, u4, u5, u6, u7⟩ := unique_symbols_preserve_automaton_partial n h hc hsafe
  obtain ⟨d, d1, d2, d3, d4, d5, d6⟩ := subset_construction_correct u u2 [0] (by simp) (by simp; omega) u6
  have hds := toDfa_syms u d [0] (by simp) d1
  have hperm : d.syms.ids.Perm d.syms.syms.zipIdx := by
    rw [hds]
    cases hr : Dedup.deduplicate n.syms with
    | none => simp [toUnique, hr] at u1
    | some r =>
      simp only [toUnique, hr] at u1
      have := Option.some.inj u1
      rw [← this]
      exact deduplicate_perm n.syms r hr
  obtain ⟨⟨m1, a1, a2, a3, a4⟩, b2, b3, b4⟩ := lexer_of_dfa d d2 (toDfa_ordered u d [0] d1) d5 hperm (by rw [hds]; exact u7)
    (by rw [hds]; exact u6) (by rw [hds]; exact hspoil u u1) sort hsort
  have key : ∀ m : LexMachine, (∀ q x, 0 ≤ x → x < 65536 → ∀ q', m.run q x = some q' ↔ SymStep d q x q') →
      (∀ q, q < d.states.length → m.accept q = fillAccept (d.accept q)) →
      ∀ w, (∀ x ∈ w, (0 : Int) ≤ x ∧ x < 65536) → ∀ s, m.Accepts 0 w s ↔
        (∃ p a, Reach n 0 w p ∧ a ∈ n.accept p ∧ a.symbol = s) ∧ ∀ p a, Reach n 0 w p → a ∈ n.accept p → s ≤ a.symbol := by
    intro m hrun hacc w hw s
    obtain ⟨e1, e2⟩ := d6 0 0 rfl w
    have hstates : ∀ q, Reach d 0 w q → q < d.states.length := by
      intro q hr
      have hlen : 0 < d.states.length := by
        obtain ⟨q, hq⟩ := (d6 0 0 rfl []).2.2 ⟨⟨0, .refl⟩, by simp⟩
        by_contra hno
        have hd0 : d.states = [] := List.length_eq_zero_iff.1 (by omega)
        have : u.toDfa [0] = some d := d1
        simp only [toDfa] at this
        rw [if_neg (by simp)] at this
        rw [Option.bind_eq_bind, Option.bind_eq_some_iff] at this
        obtain ⟨c0, k1, k2⟩ := this
        rw [Option.bind_eq_some_iff] at k2
        obtain ⟨c, k2, k3⟩ := k2
        have k3 := Option.some.inj k3
        obtain ⟨c0', i1, i2, i3, i4, i5⟩ := initialSubset_spec u u2 [0] (by simp; omega)
        rw [k1] at i1
        have := Option.some.inj i1
        subst this
        obtain ⟨c', l1, l2, l3, ext, l4⟩ := subsetLoop_spec u u2 c0.sets (2 ^ u.states.length + [0].length) c0 i2 (by simp only [List.length_cons, List.length_nil] at *; omega)
        rw [k2] at l1
        have := Option.some.inj l1
        subst this
        obtain ⟨v, hv1, _⟩ := i5 0 0 rfl
        have hlen2 := l2.len
        have hcs : c.states = [] := by rw [← hd0, ← k3]
        rw [hcs, l4] at hlen2
        have := (List.getElem?_eq_some_iff.1 hv1).1
        rw [List.length_append, List.length_nil] at hlen2
        omega
      induction hr with
      | refl => exact hlen
      | eps _ h _ => exact absurd h (d3 _ _)
      | sym _ h _ =>
        obtain ⟨s, h1, _⟩ := h
        exact d2.target _ _ h1
    have hrr := runs_iff_reach d m d3 hrun w hw 0
    have hrn : ∀ p, Reach u 0 w p ↔ Reach n 0 w p := fun p => u5 0 w p
    have hall : ∀ v x t, w = v ++ x :: t → ∀ p a, Reach u 0 v p → a ∈ u.accept p → a.eager = false := by
      intro v x t _ p a _ ha
      rw [u3] at ha
      exact heager p a ha
    constructor
    · rintro ⟨q, h1, h2, h3⟩
      have hr := (hrr q).1 h1
      rw [hacc q (hstates q hr)] at h2
      obtain ⟨_, g2⟩ := e1 q hr
      rcases LexMachine.accept_priority (d.accept q) with ⟨_, k2⟩ | ⟨a, k1, k2, k3⟩
      · omega
      · rw [h2] at k2 k3
        constructor
        · obtain ⟨p, p1, p2⟩ := (g2 a).1 k1
          rw [u3] at p2
          exact ⟨p, a, (hrn p).1 p1, p2, k2⟩
        · intro p b p1 p2
          exact k3 b ((g2 b).2 ⟨p, (hrn p).2 p1, by rw [u3]; exact p2⟩)
    · rintro ⟨⟨p, a, p1, p2, rfl⟩, hmin⟩
      obtain ⟨q, hq⟩ := e2.2 ⟨⟨p, (hrn p).2 p1⟩, hall⟩
      obtain ⟨_, g2⟩ := e1 q hq
      refine ⟨q, (hrr q).2 hq, ?_, hsym p a p2⟩
      rw [hacc q (hstates q hq)]
      have ha : a ∈ d.accept q := (g2 a).2 ⟨p, (hrn p).2 p1, by rw [u3]; exact p2⟩
      rcases LexMachine.accept_priority (d.accept q) with ⟨k1, _⟩ | ⟨b, k1, k2, k3⟩
      · rw [k1] at ha; simp at ha
      · obtain ⟨p', p1', p2'⟩ := (g2 b).1 k1
        rw [u3] at p2'
        have := hmin p' b ((hrn p').1 p1') p2'
        have := k3 a ha
        omega
  cases compact with
  | true =>
    refine ⟨compactLexer sort d, ?_, b2, key _ b3 b4⟩
    simp [compileLexer, u1, d1]
  | false =>
    refine ⟨m1, ?_, a2, key _ a3 a4⟩
    simp [compileLexer, u1, d1, a1]

/-- The automaton accepts the string, and `s` is the smallest symbol it accepts it with. -/
def AcceptsAs (n : Ndfa) (w : List Int) (s : Int) : Prop :=
  (∃ p a, Reach n 0 w p ∧ a ∈ n.accept p ∧ a.symbol = s) ∧ ∀ p a, Reach n 0 w p → a ∈ n.accept p → s ≤ a.symbol

/-- `ls` splits `input`: each lexeme is the longest prefix of what follows that the automaton accepts, or one character tagged -1
if it accepts none. -/
inductive Splits (n : Ndfa) : List Int → List Lexeme → Prop
  | nil : Splits n [] []
  | token {l : Lexeme} {rest ls} : l.content ≠ [] → n.AcceptsAs l.content l.matched →
      (∀ w, w <+: l.content ++ rest → l.content.length < w.length → ∀ s, ¬ n.AcceptsAs w s) → Splits n rest ls →
      Splits n (l.content ++ rest) (l :: ls)
  | error {l : Lexeme} {x rest ls} : l.content = [x] → l.matched = -1 →
      (∀ w, w <+: x :: rest → w ≠ [] → ∀ s, ¬ n.AcceptsAs w s) → Splits n rest ls → Splits n (x :: rest) (l :: ls)

/-- C54 for whole inputs: the compiled lexer reads every input of symbols below 0x10000 to the end, and the lexemes split the input
by longest match in the language of the automaton. -/
theorem compiled_lexer_splits_partial (n : Ndfa) (h : n.WF) (h0 : 0 < n.states.length) (hc : ∀ s ∈ n.syms.syms, SymSet.Canon s)
    (hsafe : Dedup.SafeOrder [] ((Dedup.visited n.syms.ids).map (·.1)))
    (hspoil : ∀ u, n.toUnique = some u → ∀ r ∈ u.syms.ranges, ∀ r' ∈ u.syms.ranges, ¬ Node.Spoils 65536 r.1 r'.1)
    (heager : ∀ q, ∀ a ∈ n.accept q, a.eager = false) (hsym : ∀ q, ∀ a ∈ n.accept q, 0 ≤ a.symbol)
    (sort : List Trans → List Trans) (hsort : IsSort sort) (compact : Bool) :
    ∃ m, compileLexer sort compact n = some m ∧ ∀ input : List Int, (∀ x ∈ input, 0 ≤ x ∧ x < 65536) →
      ∃ ls st' st'', LexMachine.LexRun m (LexStream.new input 0) ls st' ∧ m.next st' = some (none, st'') ∧ Splits n input ls := by
  obtain ⟨m, m1, m2, m3⟩ := compiled_lexer_correct_partial n h h0 hc hsafe hspoil heager hsym sort hsort compact
  refine ⟨m, m1, fun input hin => ?_⟩
  have key : ∀ k (st : LexStream), st.rest.length ≤ k → st.initial = 0 → (∀ x ∈ st.rest, 0 ≤ x ∧ x < 65536) →
      ∃ ls st' st'', LexMachine.LexRun m st ls st' ∧ m.next st' = some (none, st'') ∧ Splits n st.rest ls := by
    intro k
    induction k with
    | zero =>
      intro st hk hi hx
      have hr : st.rest = [] := List.length_eq_zero_iff.1 (by omega)
      obtain ⟨r, st', h1, _, h3⟩ := LexMachine.next_spec m st (fun hm => by
        have : st.rest = st.buffer ++ st.stream := rfl
        rw [hr] at this
        rw [(List.append_eq_nil_iff.1 this.symm).2] at hm
        simp at hm)
      rcases h3 with ⟨rfl, _⟩ | ⟨l, _, h4, h5, _⟩
      · exact ⟨[], st, st', .nil st, h1, by rw [hr]; exact .nil⟩
      · rw [hr] at h4
        exact absurd (List.append_eq_nil_iff.1 h4).1 h5
    | succ k ih =>
      intro st hk hi hx
      obtain ⟨r, st', h1, h2, h3⟩ := LexMachine.next_spec m st (fun hm => by
        have := hx endOfInput (by simp [LexStream.rest, hm])
        simp only [endOfInput] at this
        omega)
      rcases h3 with ⟨rfl, hr, _⟩ | ⟨l, rfl, h4, h5, _, _, h8, h9⟩
      · exact ⟨[], st, st', .nil st, h1, by rw [hr]; exact .nil⟩
      · have hl : st'.rest.length ≤ k := by
          have := congrArg List.length h4
          rw [List.length_append] at this
          have := List.length_pos_iff.2 h5
          omega
        rw [if_neg (by rw [m2]; simp)] at h9
        obtain ⟨ls, st1, st2, i1, i2, i3⟩ := ih st' hl h9 (fun x hm => hx x (by rw [← h4]; simp [hm]))
        refine ⟨l :: ls, st1, st2, .cons none h1 i1, i2, ?_⟩
        have hw : ∀ w, w <+: st.rest → ∀ x ∈ w, 0 ≤ x ∧ x < 65536 := fun w hp x hxw => hx x (hp.subset hxw)
        rw [hi] at h8
        rcases h8 with ⟨_, g2, g3, g4⟩ | ⟨g1, g2, g3⟩
        · rw [← h4]
          refine .token h5 ((m3 _ (hw _ g2) _).1 g3) ?_ i3
          intro w hp hlen s hs
          rw [h4] at hp
          exact g4 w hp hlen s ((m3 w (hw w hp) s).2 hs)
        · obtain ⟨x, hxx⟩ := List.length_eq_one_iff.1 g2
          rw [hxx, List.singleton_append] at h4
          rw [← h4]
          refine .error hxx g1 ?_ i3
          intro w hp hne s hs
          rw [h4] at hp
          exact g3 w s hne hp ((m3 w (hw w hp) s).2 hs)
  exact key _ (LexStream.new input 0) (Nat.le_refl _) rfl hin

/-- The keyword `if` (symbol 0) and identifiers `[a-z]+` (symbol 1): states 1, 2 for the keyword and 3 for identifiers. -/
def ifOrName : Ndfa :=
  (((((((((new.addState.1).addState.1).addState.1).addTransition 0 [⟨105, 106⟩] 1).addTransition 1 [⟨102, 103⟩] 2).addTransition 0
    [⟨97, 123⟩] 3).addTransition 3 [⟨97, 123⟩] 3).addAccept 2 ⟨0, false⟩).addAccept 3 ⟨1, false⟩)

-- it meets the conditions
example : ifOrName.WF ∧ 0 < ifOrName.states.length ∧ (∀ s ∈ ifOrName.syms.syms, SymSet.Canon s) ∧
    Dedup.SafeOrder [] ((Dedup.visited ifOrName.syms.ids).map (·.1)) ∧
    (∀ u, ifOrName.toUnique = some u → ∀ r ∈ u.syms.ranges, ∀ r' ∈ u.syms.ranges, ¬ Node.Spoils 65536 r.1 r'.1) ∧
    (∀ q, ∀ a ∈ ifOrName.accept q, a.eager = false) ∧ (∀ q, ∀ a ∈ ifOrName.accept q, 0 ≤ a.symbol) := by
  have hacc : ∀ q, ∀ a ∈ ifOrName.accept q, a = ⟨0, false⟩ ∨ a = ⟨1, false⟩ := by
    intro q a ha
    have : ifOrName.accept q = if q = 3 then (if (3 : Nat) = 2 then [] else []) ++ [⟨1, false⟩] else if q = 2 then [] ++ [⟨0, false⟩] else [] := rfl
    rw [this] at ha
    split at ha
    · simp at ha; exact .inr ha
    · split at ha
      · simp at ha; exact .inl ha
      · simp at ha
  refine ⟨built_wf (.accept _ _ (.accept _ _ (.trans _ _ _ (.trans _ _ _ (.trans _ _ _ (.trans _ _ _ (.state (.state (.state .new))))))))), by decide,
    ?_, ?_, ?_, ?_, ?_⟩
  · intro s hs
    have hs : s ∈ ([[⟨105, 106⟩], [⟨102, 103⟩], [⟨97, 123⟩]] : List SymSet) := hs
    simp only [List.mem_cons, List.not_mem_nil, or_false] at hs
    rcases hs with rfl | rfl | rfl <;> simp [SymSet.Canon]
  · show Dedup.SafeOrder [] [⟨97, 123⟩, ⟨102, 103⟩, ⟨105, 106⟩]
    exact ⟨.inl (by simp), .inr (.inl (by simp)), .inr (.inl (by simp)), trivial⟩
  · intro u hu
    have : ifOrName.toUnique.map (fun u => u.syms.ranges) = some [(⟨97, 102⟩, 0), (⟨103, 105⟩, 0), (⟨106, 123⟩, 0), (⟨102, 103⟩, 1), (⟨105, 106⟩, 2)] := by
      decide +kernel
    rw [hu] at this
    have this : u.syms.ranges = _ := Option.some.inj this
    rw [this]
    simp [Node.Spoils]
  · intro q a ha; rcases hacc q a ha with rfl | rfl <;> rfl
  · intro q a ha; rcases hacc q a ha with rfl | rfl <;> decide

end Ndfa
end TameParse

import Verif.SubsetLemmas
import Verif.SymbolMapProps
/-
Properties C07 (overlap removal preserves an automaton), C08 (epsilon closure), C09 (subset construction).
-/
namespace TameParse
namespace Ndfa
open SymSet (Mem)

/-! ## Automata built with the public operations are well formed -/

/-- `ndfa()` (ndfa.cpp 67-74): one state, nothing else. -/
def new : Ndfa := ⟨[[]], SymbolMap.empty, fun _ => []⟩

/-- Automata that can be built with `add_state`, `add_transition` and `accept`. -/
inductive Built : Ndfa → Prop
  | new : Built new
  | state {n} : Built n → Built n.addState.1
  | trans {n} (q s q') : Built n → Built (n.addTransition q s q')
  | accept {n} (q a) : Built n → Built (n.addAccept q a)

theorem built_wf {n : Ndfa} (h : Built n) : n.WF := by
  induction h with
  | new =>
    have ht : ∀ q, new.trans q = [] := by
      intro q; cases q with
      | zero => rfl
      | succ q => rfl
    exact ⟨SymbolMap.inv_empty, by simp [ht], by simp [ht]⟩
  | @state n _ ih =>
    have ht : ∀ q, n.addState.1.trans q = n.trans q := by
      intro q
      simp only [trans, addState]
      by_cases hq : q < n.states.length
      · rw [List.getElem?_append_left hq]
      · have : n.states[q]? = none := List.getElem?_eq_none (by omega)
        rw [List.getElem?_append_right (by omega), this]
        cases hx : q - n.states.length with
        | zero => simp
        | succ k => simp
    refine ⟨ih.map, fun q t hqt => ?_, fun q t hqt => ?_⟩
    · rw [ht] at hqt
      have := ih.target q t hqt
      simp only [addState, List.length_append, List.length_singleton]; omega
    · rw [ht] at hqt; exact ih.symbol q t hqt
  | @trans n q s q' _ ih =>
    simp only [addTransition]
    split
    · rename_i hr
      obtain ⟨h1, h2, ⟨l, h3, _⟩, _⟩ := SymbolMap.identifierFor_spec n.syms s ih.map
      have hmem : ∀ p t, t ∈ Ndfa.trans ⟨n.states.set q (addTrans (n.trans q) ((n.syms.identifierFor s).2, q')),
          (n.syms.identifierFor s).1, n.accept⟩ p →
          t ∈ n.trans p ∨ t = ((n.syms.identifierFor s).2, q') := by
        intro p t ht
        simp only [trans] at ht
        by_cases hp : p = q
        · subst hp
          rw [List.getElem?_set_self hr.1] at ht
          simp only [Option.getD_some] at ht
          rcases mem_addTrans.1 ht with h | h
          · exact .inr h
          · exact .inl h
        · rw [List.getElem?_set_ne (Ne.symm hp)] at ht
          exact .inl ht
      refine ⟨h1, fun p t ht => ?_, fun p t ht => ?_⟩
      · simp only [List.length_set]
        rcases hmem p t ht with h | h
        · exact ih.target p t h
        · rw [h]; exact hr.2
      · simp only [SymbolMap.count, h3, List.length_append]
        rcases hmem p t ht with h | h
        · have := ih.symbol p t h; simp only [SymbolMap.count] at this; omega
        · rw [h]
          have := (List.getElem?_eq_some_iff.1 h2).1
          rw [h3, List.length_append] at this; exact this
    · exact ih
  | accept q a _ ih => exact ⟨ih.map, ih.target, ih.symbol⟩

/-! ## C08 -/

/-- C08. Closure terminates on any set of states of any automaton and returns exactly the states reachable by empty
transitions, as a set (sorted, no repetition). -/
theorem closure_exact (n : Ndfa) (h : n.WF) (S : List Nat) (hS : S.Pairwise (· < ·)) (hb : ∀ q ∈ S, q < n.states.length) :
    ∃ out, n.closure S = some out ∧ out.Pairwise (· < ·) ∧ ∀ q, q ∈ out ↔ ∃ p ∈ S, Reach n p [] q := by
  obtain ⟨out, h1, h2, h3⟩ := closure_spec n h S hS hb
  refine ⟨out, h1, h2, fun q => ?_⟩
  rw [h3]
  simp only [reach_nil_iff]

/-- Three states in an epsilon cycle, and an ordinary transition to a fourth. -/
def cyclic : Ndfa :=
  ((((((new.addState.1).addState.1).addState.1).addTransition 0 [] 1).addTransition 1 [] 2).addTransition 2 [] 0).addTransition 1
    [⟨97, 98⟩] 3

example : Built cyclic := .trans _ _ _ (.trans _ _ _ (.trans _ _ _ (.trans _ _ _ (.state (.state (.state .new))))))
example : cyclic.closure [1] = some [0, 1, 2] := by rfl

/-! ## C07 -/

theorem mem_remapTrans (d : RemappedMap) (ts : List Trans) (s q : Nat) :
    (s, q) ∈ remapTrans d ts ↔ ∃ t ∈ ts, t.2 = q ∧ s ∈ d.newSymbols t.1 := by
  have inner : ∀ (l : List Nat) (acc : List Trans) (p : Nat), (s, q) ∈ l.foldl (fun acc s => addTrans acc (s, p)) acc ↔
      (s, q) ∈ acc ∨ (p = q ∧ s ∈ l) := by
    intro l
    induction l with
    | nil => intro acc p; simp
    | cons a l ih =>
      intro acc p
      rw [List.foldl_cons, ih, mem_addTrans]
      simp only [Prod.mk.injEq, List.mem_cons]
      constructor
      · rintro ((⟨h1, h2⟩ | h) | h)
        · exact .inr ⟨h2.symm, .inl h1⟩
        · exact .inl h
        · exact .inr ⟨h.1, .inr h.2⟩
      · rintro (h | ⟨h1, h2 | h2⟩)
        · exact .inl (.inr h)
        · exact .inl (.inl ⟨h2, h1.symm⟩)
        · exact .inr ⟨h1, h2⟩
  have outer : ∀ (l : List Trans) (acc : List Trans),
      (s, q) ∈ l.foldl (fun acc t => (d.newSymbols t.1).foldl (fun acc s => addTrans acc (s, t.2)) acc) acc ↔
      (s, q) ∈ acc ∨ ∃ t ∈ l, t.2 = q ∧ s ∈ d.newSymbols t.1 := by
    intro l
    induction l with
    | nil => intro acc; simp
    | cons t l ih =>
      intro acc
      rw [List.foldl_cons, ih, inner]
      simp only [List.mem_cons, exists_eq_or_imp, or_assoc]
  have := outer ts []
  simpa [remapTrans] using this

theorem deduplicate_inv (m : SymbolMap) (d : RemappedMap) (hd : Dedup.deduplicate m = some d) : d.map.Inv := by
  simp only [Dedup.deduplicate, Option.bind_eq_bind, Option.bind_eq_some_iff] at hd
  obtain ⟨sets, _, hd⟩ := hd
  have hd := Option.some.inj hd
  subst hd
  cases hf : m.find [] with
  | none => exact (RemappedMap.fill_fold _ [] _ RemappedMap.fill_empty).inv
  | some eps => exact (RemappedMap.fill_fold _ _ _ (RemappedMap.fill_step RemappedMap.fill_empty ([eps], []))).inv

theorem reach_congr (n u : Ndfa) (he : ∀ p p', EpsStep u p p' ↔ EpsStep n p p')
    (hs : ∀ p x p', SymStep u p x p' ↔ SymStep n p x p') (q : Nat) (w : List Int) (p : Nat) :
    Reach u q w p ↔ Reach n q w p := by
  constructor
  · intro h
    induction h with
    | refl => exact .refl
    | eps _ h ih => exact .eps ih ((he _ _).1 h)
    | sym _ h ih => exact .sym ih ((hs _ _ _).1 h)
  · intro h
    induction h with
    | refl => exact .refl
    | eps _ h ih => exact .eps ih ((he _ _).2 h)
    | sym _ h ih => exact .sym ih ((hs _ _ _).2 h)

theorem toUnique_of_split (n : Ndfa) (h : n.WF) (d : RemappedMap) (hinv : d.map.Inv) (hd : SplitsWithoutLoss n.syms d) :
    let u : Ndfa := ⟨n.states.map (remapTrans d), d.map, n.accept⟩
    (∀ q w p, Reach u q w p ↔ Reach n q w p) ∧ u.WF := by
  intro u
  have ht : ∀ q, u.trans q = remapTrans d (n.trans q) := by
    intro q
    simp only [u, trans, List.getElem?_map]
    cases n.states[q]? with
    | none => rfl
    | some _ => rfl
  refine ⟨fun q w p => reach_congr n u ?_ ?_ q w p, ?_⟩
  · intro p p'
    constructor
    · rintro ⟨s, h1, h2⟩
      rw [ht, mem_remapTrans] at h1
      obtain ⟨t, h3, h4, h5⟩ := h1
      refine ⟨t.1, by rw [← h4]; exact h3, (hd.epsilon t.1 (h.symbol p t h3) s h5).1 h2⟩
    · rintro ⟨s, h1, h2⟩
      obtain ⟨k, h3, h4⟩ := hd.epsilon_kept s (h.symbol p _ h1) h2
      exact ⟨k, by rw [ht, mem_remapTrans]; exact ⟨_, h1, rfl, h3⟩, h4⟩
  · intro p x p'
    constructor
    · rintro ⟨s, h1, h2⟩
      rw [ht, mem_remapTrans] at h1
      obtain ⟨t, h3, h4, h5⟩ := h1
      exact ⟨t.1, by rw [← h4]; exact h3, hd.subset t.1 (h.symbol p t h3) s h5 x h2⟩
    · rintro ⟨s, h1, h2⟩
      obtain ⟨k, h3, h4⟩ := (hd.exact s (h.symbol p _ h1) x).1 h2
      exact ⟨k, by rw [ht, mem_remapTrans]; exact ⟨_, h1, rfl, h3⟩, h4⟩
  · refine ⟨hinv, fun q t hqt => ?_, fun q t hqt => ?_⟩
    · rw [ht] at hqt
      obtain ⟨t', h1, h2, _⟩ := (mem_remapTrans d _ t.1 t.2).1 hqt
      simp only [u, List.length_map, ← h2]; exact h.target q t' h1
    · rw [ht] at hqt
      obtain ⟨t', _, _, h3⟩ := (mem_remapTrans d _ t.1 t.2).1 hqt
      exact hd.valid _ _ h3

/-- C07, the part that holds: when overlap removal splits the symbol sets correctly (`SafeOrder`, see C06), the rewritten
automaton has the same accept actions, reaches exactly the same states on every string, and its symbol sets do not
overlap. Missing: the automata whose symbol sets break that condition. -/
theorem unique_symbols_preserve_automaton_partial (n : Ndfa) (h : n.WF) (hc : ∀ s ∈ n.syms.syms, SymSet.Canon s)
    (hsafe : Dedup.SafeOrder [] ((Dedup.visited n.syms.ids).map (·.1))) :
    ∃ u, n.toUnique = some u ∧ u.WF ∧ u.accept = n.accept ∧ u.states.length = n.states.length ∧
      (∀ q w p, Reach u q w p ↔ Reach n q w p) ∧
      (∀ i j x, Mem x (u.syms.get i) → Mem x (u.syms.get j) → i = j) ∧ ∀ i, SymSet.Canon (u.syms.get i) := by
  obtain ⟨d, h1, h2⟩ := deduplicate_splits_without_loss_partial n.syms h.map hc hsafe
  have hinv : d.map.Inv := deduplicate_inv n.syms d h1
  obtain ⟨h3, h4⟩ := toUnique_of_split n h d hinv h2
  exact ⟨_, by simp [toUnique, h1], h4, rfl, by simp, h3, h2.disjoint, h2.canon⟩

/-- One state with three character classes, `[a-e]`, `[k-t]` and `[d-gx-z]`, leading to three states. -/
def classes : Ndfa :=
  ((((((new.addState.1).addState.1).addState.1).addTransition 0 [⟨97, 102⟩] 1).addTransition 0 [⟨107, 117⟩] 2).addTransition 0
    [⟨100, 104⟩, ⟨120, 123⟩] 3)

/-- C07 as stated does not hold: in the rewritten automaton `h` leads to states 2 and 3, in the original nowhere. -/
theorem unique_symbols_preserve_automaton_violated :
    Built classes ∧ ∃ u, classes.toUnique = some u ∧ Reach u 0 [104] 3 ∧ Reach u 0 [104] 2 ∧
      ∀ p, ¬ Reach classes 0 [104] p := by
  refine ⟨.trans _ _ _ (.trans _ _ _ (.trans _ _ _ (.state (.state (.state .new))))), ?_⟩
  have ht : classes.toUnique = some ⟨[[(0, 1), (1, 1), (1, 3), (2, 3), (3, 2), (4, 2), (4, 3)], [], [], []],
    ⟨[([⟨97, 100⟩], 0), ([⟨100, 102⟩], 1), ([⟨104, 117⟩], 3), ([⟨107, 104⟩], 4), ([⟨102, 107⟩, ⟨120, 123⟩], 2)],
     [[⟨97, 100⟩], [⟨100, 102⟩], [⟨102, 107⟩, ⟨120, 123⟩], [⟨104, 117⟩], [⟨107, 104⟩]]⟩, fun _ => []⟩ := by rfl
  refine ⟨_, ht, ?_, ?_, ?_⟩
  · exact Reach.sym (w := []) .refl ⟨2, by simp [trans], ⟨102, 107⟩, by simp [SymbolMap.get], by simp [Range.Mem]⟩
  · exact Reach.sym (w := []) .refl ⟨3, by simp [trans], ⟨104, 117⟩, by simp [SymbolMap.get], by simp [Range.Mem]⟩
  · have htr : ∀ q, classes.trans q = if q = 0 then [(0, 1), (1, 2), (2, 3)] else [] := by
      intro q
      match q with
      | 0 => rfl
      | 1 => rfl
      | 2 => rfl
      | 3 => rfl
      | q + 4 => rfl
    have hsy : classes.syms.syms = [[⟨97, 102⟩], [⟨107, 117⟩], [⟨100, 104⟩, ⟨120, 123⟩]] := by rfl
    have hstep : ∀ p p', ¬ SymStep classes p 104 p' := by
      rintro p p' ⟨s, h1, r, h2, h3⟩
      rw [htr] at h1
      split at h1
      · simp only [List.mem_cons, Prod.mk.injEq, List.not_mem_nil, or_false] at h1
        simp only [Range.Mem] at h3
        rcases h1 with ⟨rfl, _⟩ | ⟨rfl, _⟩ | ⟨rfl, _⟩ <;>
          simp [SymbolMap.get, hsy] at h2
        · subst h2; simp at h3
        · subst h2; simp at h3
        · rcases h2 with rfl | rfl <;> simp at h3
      · simp at h1
    intro p hp
    obtain ⟨p1, p2, _, h2, _⟩ := (reach_snoc_iff classes 0 [] 104 p).1 hp
    exact hstep p1 p2 h2

-- an automaton with overlapping classes that satisfies the condition
example : let n := ((((new.addState.1).addTransition 0 [⟨97, 123⟩] 0).addTransition 0 [⟨105, 106⟩] 1).addTransition 0 [] 1)
    Built n ∧ (∀ s ∈ n.syms.syms, SymSet.Canon s) ∧ Dedup.SafeOrder [] ((Dedup.visited n.syms.ids).map (·.1)) := by
  refine ⟨.trans _ _ _ (.trans _ _ _ (.trans _ _ _ (.state .new))), ?_, ?_⟩
  · intro s hs
    have hs : s ∈ ([[⟨97, 123⟩], [⟨105, 106⟩], []] : List SymSet) := hs
    simp only [List.mem_cons, List.not_mem_nil, or_false] at hs
    rcases hs with rfl | rfl | rfl <;> simp [SymSet.Canon]
  · show Dedup.SafeOrder [] [⟨97, 123⟩, ⟨105, 106⟩]
    exact ⟨.inl (by simp), .inr (.inl (by simp)), trivial⟩

/-! ## C09 -/

/-- All transition lists are sorted. -/
def AllSorted (c : Subset) : Prop := ∀ ts ∈ c.states, ts.Pairwise TransLt

theorem addTransTo_sorted (next : Nat) (c : Subset) (t : Nat × List Nat) (h : AllSorted c) :
    AllSorted (addTransTo next c t) := by
  have key : ∀ (l : List (List Trans)) (u : Trans), (∀ ts ∈ l, ts.Pairwise TransLt) →
      ∀ ts ∈ l.set next (addTrans ((l[next]?).getD []) u), ts.Pairwise TransLt := by
    intro l u hl ts hts
    rcases List.mem_or_eq_of_mem_set hts with h | h
    · exact hl ts h
    · rw [h]
      apply sorted_addTrans
      cases hx : l[next]? with
      | none => simp
      | some v => exact hl v (List.mem_of_getElem? hx)
  intro ts hts
  simp only [addTransTo] at hts
  split at hts
  · exact key _ _ h ts hts
  · refine key _ _ ?_ ts hts
    intro ts' h'
    rcases List.mem_append.1 h' with h' | h'
    · exact h ts' h'
    · simp at h'; simp [h']

theorem processState_sorted (n : Ndfa) (eps next : Nat) (c c' : Subset) (h : AllSorted c)
    (hp : processState n eps next c = some c') : AllSorted c' := by
  simp only [processState] at hp
  split at hp
  · have := Option.some.inj hp; subst this; exact h
  · rw [Option.bind_eq_bind, Option.bind_eq_some_iff] at hp
    obtain ⟨ts, _, hp⟩ := hp
    have := Option.some.inj hp; subst this
    have : ∀ (ts : List (Nat × List Nat)) (c : Subset), AllSorted c → AllSorted (ts.foldl (addTransTo next) c) := by
      intro ts
      induction ts with
      | nil => intro c h; exact h
      | cons t ts ih => intro c h; exact ih _ (addTransTo_sorted next c t h)
    exact this ts _ h

theorem subsetLoop_sorted (n : Ndfa) (eps : Nat) : ∀ fuel (c c' : Subset), AllSorted c →
    subsetLoop n eps fuel c = some c' → AllSorted c' := by
  intro fuel
  induction fuel with
  | zero =>
    intro c c' h hl
    unfold subsetLoop at hl
    split at hl
    · have := Option.some.inj hl; subst this; exact h
    · simp at hl
  | succ f ih =>
    intro c c' h hl
    unfold subsetLoop at hl
    split at hl
    · have := Option.some.inj hl; subst this; exact h
    · rw [Option.bind_eq_bind, Option.bind_eq_some_iff] at hl
      obtain ⟨c1, h1, h2⟩ := hl
      refine ih c1 c' (processState_sorted n eps _ _ c1 ?_ h1) h2
      exact fun ts hts => h ts hts

theorem initialSubset_sorted (n : Ndfa) (initial : List Nat) (c : Subset) (hi : n.initialSubset initial = some c) :
    AllSorted c := by
  have : ∀ (l : List Nat) (c0 c : Subset), AllSorted c0 → l.foldlM (fun c q => do
    let v ← n.closure [q]
    return { c with states := c.states ++ [[]], sets := c.sets ++ [v], stack := c.states.length :: c.stack }) c0 = some c →
      AllSorted c := by
    intro l
    induction l with
    | nil => intro c0 c h hl; have := Option.some.inj hl; subst this; exact h
    | cons q l ih =>
      intro c0 c h hl
      rw [List.foldlM_cons, Option.bind_eq_bind, Option.bind_eq_some_iff] at hl
      obtain ⟨c1, h1, h2⟩ := hl
      refine ih c1 c ?_ h2
      rw [Option.bind_eq_bind, Option.bind_eq_some_iff] at h1
      obtain ⟨v, _, h1⟩ := h1
      have := Option.some.inj h1; subst this
      intro ts' h'
      rcases List.mem_append.1 h' with h' | h'
      · exact h ts' h'
      · simp at h'; simp [h']
  exact this initial _ c (by intro ts h; simp at h) hi

/-- C09. For an automaton without overlapping symbol sets and any initial states, the subset construction terminates and
returns an automaton that is deterministic (no empty transitions, at most one successor per state and symbol) in which, from
the `k`-th initial state and on every string `w`:
a reached state has exactly the accept actions of the original states reachable on `w` (there is at least one);
some state is reached if and only if some original state is reachable on `w` and no proper prefix of `w` reaches an eager
action. -/
theorem subset_construction_correct (n : Ndfa) (h : n.WF) (initial : List Nat) (hne : initial ≠ [])
    (hi : ∀ q ∈ initial, q < n.states.length)
    (hdis : ∀ i j x, Mem x (n.syms.get i) → Mem x (n.syms.get j) → i = j) :
    ∃ d, n.toDfa initial = some d ∧ d.WF ∧
      (∀ p p', ¬ EpsStep d p p') ∧ (∀ p x p₁ p₂, SymStep d p x p₁ → SymStep d p x p₂ → p₁ = p₂) ∧
      d.verifyIsDfa = true ∧
      ∀ (k : Nat) q0, initial[k]? = some q0 → ∀ w,
        (∀ q, Reach d k w q → (∃ p, Reach n q0 w p) ∧
          ∀ a, a ∈ d.accept q ↔ ∃ p, Reach n q0 w p ∧ a ∈ n.accept p) ∧
        ((∃ q, Reach d k w q) ↔ (∃ p, Reach n q0 w p) ∧
          ∀ v x t, w = v ++ x :: t → ∀ p a, Reach n q0 v p → a ∈ n.accept p → a.eager = false) := by
  obtain ⟨c0, i1, i2, i3, i4, i5⟩ := initialSubset_spec n h initial hi
  obtain ⟨c, l1, l2, l3, ext, l4⟩ := subsetLoop_spec n h c0.sets (2 ^ n.states.length + initial.length) c0 i2 (by omega)
  have hlen := l2.len
  refine ⟨⟨c.states, n.syms, c.accept⟩, ?_, ?_⟩
  · simp only [toDfa, if_neg hne, i1]
    show ((subsetLoop n (n.syms.identifierFor []).2 (2 ^ n.states.length + initial.length) c0).bind fun c => _) = _
    rw [l1]; rfl
  generalize hdd : (⟨c.states, n.syms, c.accept⟩ : Ndfa) = d
  have hds : d.syms = n.syms := by rw [← hdd]
  have htr : ∀ q, d.trans q = c.trans q := by intro q; rw [← hdd]; rfl
  have hacc : d.accept = c.accept := by rw [← hdd]
  have hlend : d.states.length = c.sets.length := by rw [← hdd]; exact hlen
  -- every state is done
  have hdone : ∀ q set, c.sets[q]? = some set → DoneState n c q set := fun q set hq => l2.done q set hq (by simp [l3])
  have hget : ∀ q, q < c.sets.length → ∃ set, c.sets[q]? = some set := fun q hq => ⟨_, List.getElem?_eq_getElem hq⟩
  have hout : ∀ q u, u ∈ c.trans q → q < c.sets.length := by
    intro q u hu
    by_cases hq : q < c.sets.length
    · exact hq
    · have : c.states[q]? = none := List.getElem?_eq_none (by omega)
      simp [Subset.trans, this] at hu
  have hsym : ∀ q u, u ∈ c.trans q → u.1 < n.syms.count ∧ u.1 ≠ (n.syms.identifierFor []).2 := by
    intro q u hu
    obtain ⟨set, hs⟩ := hget q (hout q u hu)
    obtain ⟨g1, ⟨p, _, p', g2⟩, _⟩ := (hdone q set hs).sound u hu
    exact ⟨h.symbol p (u.1, p') g2, g1⟩
  have hnoeps : ∀ p p', ¬ EpsStep d p p' := by
    rintro p p' ⟨s, h1, h2⟩
    rw [htr] at h1
    rw [hds] at h2
    have := hsym p _ h1
    exact this.2 ((eps_iff n h.map this.1).2 h2)
  refine ⟨⟨by rw [hds]; exact h.map, ?_, ?_⟩, hnoeps, ?_, ?_, ?_⟩
  · intro q u hu
    rw [htr] at hu
    obtain ⟨set, hs⟩ := hget q (hout q u hu)
    obtain ⟨_, _, v, g3, _⟩ := (hdone q set hs).sound u hu
    rw [hlend]; exact (List.getElem?_eq_some_iff.1 g3).1
  · intro q u hu
    rw [htr] at hu
    rw [hds]; exact (hsym q u hu).1
  · rintro p x p1 p2 ⟨s1, h1, h2⟩ ⟨s2, h3, h4⟩
    rw [hds] at h2 h4
    have := hdis s1 s2 x h2 h4
    subst this
    rw [htr] at h1 h3
    obtain ⟨set, hs⟩ := hget p (hout p _ h1)
    exact (hdone p set hs).func _ _ _ h1 h3
  · simp only [verifyIsDfa, List.all_eq_true, decide_eq_true_eq, hds]
    intro ts hts
    rw [← hdd] at hts
    obtain ⟨q, hq, hqe⟩ := List.mem_iff_getElem.1 hts
    have hq : q < c.states.length := hq
    have hqe : c.trans q = ts := by
      simp only [Subset.trans, List.getElem?_eq_getElem hq]; exact hqe
    rw [List.nodup_cons]
    constructor
    · intro hm
      obtain ⟨u, hu, hue⟩ := List.mem_map.1 hm
      rw [← hqe] at hu
      exact (hsym q u hu).2 hue
    · obtain ⟨set, hs⟩ := hget q (by omega)
      have hf := (hdone q set hs).func
      rw [hqe] at hf
      have hsort := subsetLoop_sorted n _ _ _ _ (initialSubset_sorted n initial c0 i1) l1 ts hts
      rw [List.nodup_iff_pairwise_ne, List.pairwise_map]
      refine hsort.imp_of_mem ?_
      intro a b ha hb hab e
      have := hf a.1 a.2 b.2 ha (by rw [e]; exact hb)
      simp only [TransLt] at hab
      omega
  · intro k q0 hk
    -- the simulation
    have hsim : ∀ w q, Reach d k w q → ∃ set, c.sets[q]? = some set ∧ (∀ p, p ∈ set ↔ Reach n q0 w p) ∧ set ≠ [] ∧
        ∀ v x t, w = v ++ x :: t → ∀ p a, Reach n q0 v p → a ∈ n.accept p → a.eager = false := by
      intro w q hr
      induction hr with
      | refl =>
        obtain ⟨v, hv1, hv2⟩ := i5 k q0 hk
        refine ⟨v, ?_, ?_, ?_, ?_⟩
        · rw [l4, List.getElem?_append_left (List.getElem?_eq_some_iff.1 hv1).1]; exact hv1
        · intro p; rw [hv2, reach_nil_iff]
        · intro e; have := (hv2 q0).2 (.refl _); rw [e] at this; simp at this
        · intro v x t e; simp at e
      | eps _ hs _ => exact absurd hs (hnoeps _ _)
      | @sym w p x p' _ hs ih =>
        obtain ⟨set, hset, hmem, _, heag⟩ := ih
        obtain ⟨s, h1, h2⟩ := hs
        rw [htr] at h1
        rw [hds] at h2
        have hd := hdone p set hset
        obtain ⟨g1, ⟨r, hr, r', hrr⟩, v, g3, g4⟩ := hd.sound _ h1
        refine ⟨v, g3, ?_, ?_, ?_⟩
        · intro r2
          rw [g4, reach_snoc_iff]
          constructor
          · rintro ⟨a, ha, a', haa, he⟩
            exact ⟨a, a', (hmem a).1 ha, ⟨s, haa, h2⟩, he⟩
          · rintro ⟨a, a', ha, ⟨s', haa, hx⟩, he⟩
            have := hdis s' s x hx h2
            subst this
            exact ⟨a, (hmem a).2 ha, a', haa, he⟩
        · intro e
          have := (g4 r').2 ⟨r, hr, r', hrr, .refl _⟩
          rw [e] at this; simp at this
        · intro v' y t e a act ha hact
          -- either a proper prefix of w, or w itself
          rcases List.eq_nil_or_concat t with rfl | ⟨t', z, rfl⟩
          · have := List.append_inj' e rfl
            obtain ⟨rfl, _⟩ := this
            cases hea : act.eager with
            | false => rfl
            | true =>
              have := hd.eager (by
                rw [List.any_eq_true]
                exact ⟨act, List.mem_flatMap.2 ⟨a, (hmem a).2 ha, hact⟩, hea⟩)
              rw [this] at h1; simp at h1
          · rw [List.concat_eq_append] at e
            have e' : w ++ [x] = (v' ++ y :: t') ++ [z] := by rw [e]; simp
            have := List.append_inj' e' rfl
            exact heag v' y t' this.1 a act ha hact
    intro w
    refine ⟨?_, ?_⟩
    · intro q hr
      obtain ⟨set, h1, h2, h3, _⟩ := hsim w q hr
      obtain ⟨p, hp⟩ := List.exists_mem_of_ne_nil set h3
      refine ⟨⟨p, (h2 p).1 hp⟩, fun a => ?_⟩
      rw [hacc, (hdone q set h1).accept, List.mem_flatMap]
      constructor
      · rintro ⟨p, hp, ha⟩; exact ⟨p, (h2 p).1 hp, ha⟩
      · rintro ⟨p, hp, ha⟩; exact ⟨p, (h2 p).2 hp, ha⟩
    · constructor
      · rintro ⟨q, hr⟩
        obtain ⟨set, h1, h2, h3, h4⟩ := hsim w q hr
        obtain ⟨p, hp⟩ := List.exists_mem_of_ne_nil set h3
        exact ⟨⟨p, (h2 p).1 hp⟩, h4⟩
      · rintro ⟨⟨p, hp⟩, heag⟩
        -- by induction on the string
        have : ∀ (w : List Int) (p : Nat), Reach n q0 w p →
            (∀ v x t, w = v ++ x :: t → ∀ p a, Reach n q0 v p → a ∈ n.accept p → a.eager = false) → ∃ q, Reach d k w q := by
          intro w
          induction hw : w.length generalizing w with
          | zero =>
            intro p _ _
            have : w = [] := List.length_eq_zero_iff.1 hw
            subst this
            exact ⟨k, .refl⟩
          | succ m ih =>
            intro p hp heag
            rcases List.eq_nil_or_concat w with rfl | ⟨w', x, rfl⟩
            · simp at hw
            · rw [List.concat_eq_append] at *
              simp only [List.length_append, List.length_singleton] at hw
              obtain ⟨a, a', ha, ⟨s, haa, hx⟩, _⟩ := (reach_snoc_iff n q0 w' x p).1 hp
              obtain ⟨q, hq⟩ := ih w' (by omega) a ha (fun v y t e p' act hp' hact =>
                heag v y (t ++ [x]) (by rw [e]; simp) p' act hp' hact)
              obtain ⟨set, h1, h2, _, _⟩ := hsim w' q hq
              have hd := hdone q set h1
              have hnoe : (set.flatMap n.accept).any (·.eager) = false := by
                rw [List.any_eq_false]
                intro act hact
                obtain ⟨b, hb, hba⟩ := List.mem_flatMap.1 hact
                rw [heag w' x [] rfl b act ((h2 b).1 hb) hba]; simp
              have hse : s ≠ (n.syms.identifierFor []).2 := by
                intro e
                have := (eps_iff n h.map (h.symbol a _ haa)).1 e
                rw [this] at hx
                exact Dedup.ne_nil_of_mem hx rfl
              obtain ⟨id, hid⟩ := hd.complete hnoe a ((h2 a).2 ha) s a' haa hse
              exact ⟨id, .sym hq ⟨s, by rw [htr]; exact hid, by rw [hds]; exact hx⟩⟩
        exact this w p hp heag

/-- `(a|b)*a` with action 1 and an alternative `b` with eager action 2, nondeterministic on `a` and with an empty
transition. -/
def sample : Ndfa :=
  (((((((((new.addState.1).addState.1).addState.1).addTransition 0 [] 1).addTransition 1 [⟨97, 98⟩] 1).addTransition 1
    [⟨98, 99⟩] 1).addTransition 1 [⟨97, 98⟩] 2).addTransition 0 [⟨98, 99⟩] 3).addAccept 2 ⟨1, false⟩).addAccept 3 ⟨2, true⟩

example : Built sample ∧ (∀ i j x, Mem x (sample.syms.get i) → Mem x (sample.syms.get j) → i = j) := by
  refine ⟨.accept _ _ (.accept _ _ (.trans _ _ _ (.trans _ _ _ (.trans _ _ _ (.trans _ _ _ (.trans _ _ _
    (.state (.state (.state .new))))))))), ?_⟩
  have hs : sample.syms.syms = [[], [⟨97, 98⟩], [⟨98, 99⟩]] := by rfl
  have hx : ∀ i x, Mem x (sample.syms.get i) → (i = 1 ∧ x = 97) ∨ (i = 2 ∧ x = 98) := by
    rintro i x ⟨r, h1, h2⟩
    simp only [SymbolMap.get, hs] at h1
    match i with
    | 0 => simp at h1
    | 1 => simp at h1; subst h1; simp only [Range.Mem] at h2; exact .inl ⟨rfl, by omega⟩
    | 2 => simp at h1; subst h1; simp only [Range.Mem] at h2; exact .inr ⟨rfl, by omega⟩
    | i + 3 => simp at h1
  intro i j x h1 h2
  have := hx i x h1
  have := hx j x h2
  omega

example : (sample.toDfa [0, 2]).map (fun d => (d.states, d.accept 3)) =
    some ([[(1, 2), (2, 3)], [], [(1, 2), (2, 4)], [], [(1, 2), (2, 4)]], [⟨2, true⟩]) := by rfl

end Ndfa
end TameParse

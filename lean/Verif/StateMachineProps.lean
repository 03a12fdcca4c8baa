import Verif.StateMachine
/-
Properties C10 (merging symbol sets), C12 (state machine tables) and C53 (tables of generated lexers).
-/
namespace TameParse
namespace Ndfa
open SymSet (Mem)

/-- The rows of an automaton are kept in the order of `std::set<transition>`. -/
def Ordered (n : Ndfa) : Prop := ∀ row ∈ n.states, row.Pairwise TransLt

theorem det_of_verify (n : Ndfa) (ho : n.Ordered) (hv : n.verifyIsDfa = true) : ∀ row ∈ n.states, DetRow row := by
  intro row hrow
  simp only [verifyIsDfa, List.all_eq_true, decide_eq_true_eq] at hv
  have h1 := (List.nodup_cons.1 (hv row hrow)).2
  rw [List.nodup_iff_pairwise_ne, List.pairwise_map] at h1
  exact ((ho row hrow).and h1).imp (fun h => by simp only [TransLt] at h; omega)

theorem mem_row_of_trans {n : Ndfa} {q : Nat} {t : Trans} (h : t ∈ n.trans q) : n.trans q ∈ n.states := by
  simp only [trans] at *
  cases hx : n.states[q]? with
  | none => simp [hx] at h
  | some r => simpa using List.mem_of_getElem? hx

theorem noEps_of_verify (n : Ndfa) (h : n.WF) (hv : n.verifyIsDfa = true) : ∀ p p', ¬ EpsStep n p p' := by
  rintro p p' ⟨s, h1, h2⟩
  simp only [verifyIsDfa, List.all_eq_true, decide_eq_true_eq] at hv
  have h3 := (List.nodup_cons.1 (hv _ (mem_row_of_trans h1))).1
  have : s = (n.syms.identifierFor []).2 := (eps_iff n h.map (h.symbol p _ h1)).2 h2
  exact h3 (by rw [← this]; exact List.mem_map_of_mem h1)

/-- C10. Merging the symbol sets of a deterministic automaton keeps the states, the accept actions and, for every state and
symbol, the successors; the result is again deterministic, with disjoint symbol sets, and has no more symbol sets (one if
there were none). -/
theorem merged_symbols_preserve_dfa (n : Ndfa) (h : n.WF) (ho : n.Ordered) (hv : n.verifyIsDfa = true)
    (hc : ∀ s ∈ n.syms.syms, SymSet.Canon s)
    (hdis : ∀ i j x, Mem x (n.syms.get i) → Mem x (n.syms.get j) → i = j) :
    let u := n.toMerged
    u.WF ∧ u.Ordered ∧ u.verifyIsDfa = true ∧ u.states.length = n.states.length ∧ u.accept = n.accept ∧
      (∀ q x q', SymStep u q x q' ↔ SymStep n q x q') ∧ (∀ p p', ¬ EpsStep u p p') ∧
      (∀ i j x, Mem x (u.syms.get i) → Mem x (u.syms.get j) → i = j) ∧ (∀ s ∈ u.syms.syms, SymSet.Canon s) ∧
      u.syms.count ≤ max 1 n.syms.count := by
  intro u
  have hdet := det_of_verify n ho hv
  have hnoeps := noEps_of_verify n h hv
  have hrowk : ∀ row ∈ n.states, ∀ t ∈ row, t.1 < n.syms.count := by
    intro row hrow t ht
    obtain ⟨q, hq, hqe⟩ := List.mem_iff_getElem.1 hrow
    refine h.symbol q t ?_
    simp only [trans, List.getElem?_eq_getElem hq]
    rw [hqe]; exact ht
  have hm := mergeClasses_inv n hdet hrowk
  generalize hmc : mergeClasses n = m at hm
  have hunion := classUnion_spec n m (hc := hc)
  have hget : ∀ s, SymSet.Canon (n.syms.get s) := by
    intro s
    simp only [SymbolMap.get]
    cases h : n.syms.syms[s]? with
    | none => exact SymSet.canon_nil
    | some v => exact hc v (List.mem_of_getElem? h)
  have hnonempty : ∀ S : SymSet, SymSet.Canon S → S ≠ [] → ∃ x, Mem x S := by
    intro S hS hne
    obtain ⟨r, hr⟩ := List.exists_mem_of_ne_nil S hne
    exact ⟨r.lo, r, hr, by simp only [Range.Mem]; have := hS.2 r hr; omega⟩
  -- classes have different unions
  have hinj : ∀ i < m.num, ∀ j < m.num, classUnion n m i = classUnion n m j → i = j := by
    intro i hi j hj e
    by_cases hk : n.syms.count = 0
    · have := hm.small hk; omega
    · by_cases hne : classUnion n m i = []
      · have hall : ∀ c, classUnion n m c = [] → ∀ s < n.syms.count, m.cls s = c → n.syms.syms[s]? = some [] := by
          intro c hcu s hs hsc
          have hs' : n.syms.syms[s]? = some (n.syms.get s) := by
            simp only [SymbolMap.get]
            rw [List.getElem?_eq_getElem (by exact hs)]; rfl
          by_cases hg : n.syms.get s = []
          · rw [hs', hg]
          · obtain ⟨x, hx⟩ := hnonempty _ (hget s) hg
            have := ((hunion c).2 x).2 ⟨s, hs, hsc, hx⟩
            rw [hcu] at this
            exact absurd this (SymSet.mem_nil x)
        obtain ⟨s1, h1, h2⟩ := hm.inhabited (by omega) i hi
        obtain ⟨s2, h3, h4⟩ := hm.inhabited (by omega) j hj
        have := SymbolMap.syms_inj n.syms h.map (hall i hne s1 h1 h2) (hall j (e ▸ hne) s2 h3 h4)
        rw [← h2, ← h4, this]
      · obtain ⟨x, hx⟩ := hnonempty _ (hunion i).1 hne
        obtain ⟨s1, _, h2, h3⟩ := ((hunion i).2 x).1 hx
        rw [e] at hx
        obtain ⟨s2, _, h5, h6⟩ := ((hunion j).2 x).1 hx
        have := hdis s1 s2 x h3 h6
        rw [← h2, ← h5, this]
  obtain ⟨hinv, hsyms⟩ := register_distinct (classUnion n m) m.num hinj
  have hus : u.syms.syms = (List.range m.num).map (classUnion n m) := by
    simp only [u, toMerged, hmc]; exact hsyms
  have huinv : u.syms.Inv := by simp only [u, toMerged, hmc]; exact hinv
  have hcount : u.syms.count = m.num := by simp [SymbolMap.count, hus]
  have hclass : ∀ c < m.num, u.syms.get c = classUnion n m c := by
    intro c hcn; simp [SymbolMap.get, hus, hcn]
  have hclass' : ∀ c x, Mem x (u.syms.get c) → c < m.num := by
    intro c x hx
    by_cases hcn : c < m.num
    · exact hcn
    · have : u.syms.get c = [] := by simp [SymbolMap.get, hus, hcn]
      rw [this] at hx; exact absurd hx (SymSet.mem_nil x)
  have hstates : u.states = n.states.map (fun row => row.foldl (fun acc t => addTrans acc (m.cls t.1, t.2)) []) := by
    simp only [u, toMerged, hmc]
  have hmemrow : ∀ (row : List Trans) (t : Trans), t ∈ row.foldl (fun acc t => addTrans acc (m.cls t.1, t.2)) [] ↔
      ∃ v ∈ row, t = (m.cls v.1, v.2) := by
    intro row t
    have : ∀ (row acc : List Trans), t ∈ row.foldl (fun acc t => addTrans acc (m.cls t.1, t.2)) acc ↔
        t ∈ acc ∨ ∃ v ∈ row, t = (m.cls v.1, v.2) := by
      intro row
      induction row with
      | nil => intro acc; simp
      | cons v row ih =>
        intro acc
        rw [List.foldl_cons, ih, mem_addTrans]
        simp only [List.mem_cons, exists_eq_or_imp]
        constructor
        · rintro ((h | h) | h)
          · exact .inr (.inl h)
          · exact .inl h
          · exact .inr (.inr h)
        · rintro (h | h | h)
          · exact .inl (.inr h)
          · exact .inl (.inl h)
          · exact .inr h
    simpa using this row []
  have htrans : ∀ q t, t ∈ u.trans q ↔ ∃ v ∈ n.trans q, t = (m.cls v.1, v.2) := by
    intro q t
    simp only [trans, hstates, List.getElem?_map]
    cases n.states[q]? with
    | none => simp
    | some row => exact hmemrow row t
  have hstep : ∀ q x q', SymStep u q x q' ↔ SymStep n q x q' := by
    intro q x q'
    constructor
    · rintro ⟨c, h1, h2⟩
      obtain ⟨v, hv1, hv2⟩ := (htrans q _).1 h1
      obtain ⟨hc1, hc2⟩ := Prod.mk.inj hv2
      have hvk := h.symbol q v hv1
      rw [hclass c (hclass' c x h2)] at h2
      obtain ⟨s, h3, h4, h5⟩ := ((hunion c).2 x).1 h2
      refine ⟨s, ?_, h5⟩
      have hr := mem_row_of_trans hv1
      have := hm.uniform _ hr s h3 v.1 hvk (by rw [h4, hc1])
      rw [(rowTarget_some (hdet _ hr)).2 hv1] at this
      rw [hc2]
      exact (rowTarget_some (hdet _ hr)).1 this
    · rintro ⟨s, h1, h2⟩
      have hs := h.symbol q _ h1
      have hlt := hm.lt s hs
      exact ⟨m.cls s, (htrans q _).2 ⟨_, h1, rfl⟩, by rw [hclass _ hlt]; exact ((hunion _).2 x).2 ⟨s, hs, rfl, h2⟩⟩
  have hne : ∀ p p', ¬ EpsStep u p p' := by
    rintro p p' ⟨c, h1, h2⟩
    obtain ⟨v, hv1, hv2⟩ := (htrans p _).1 h1
    obtain ⟨hc1, hc2⟩ := Prod.mk.inj hv2
    have hvk := h.symbol p v hv1
    have hlt := hm.lt v.1 hvk
    rw [hc1, hclass _ hlt] at h2
    refine hnoeps p v.2 ⟨v.1, hv1, ?_⟩
    by_cases hg : n.syms.get v.1 = []
    · exact hg
    · obtain ⟨x, hx⟩ := hnonempty _ (hget v.1) hg
      have := ((hunion (m.cls v.1)).2 x).2 ⟨v.1, hvk, rfl, hx⟩
      rw [h2] at this
      exact absurd this (SymSet.mem_nil x)
  have hord : u.Ordered := by
    intro row hrow
    rw [hstates] at hrow
    obtain ⟨r, _, rfl⟩ := List.mem_map.1 hrow
    have : ∀ (r acc : List Trans), acc.Pairwise TransLt → (r.foldl (fun acc t => addTrans acc (m.cls t.1, t.2)) acc).Pairwise TransLt := by
      intro r
      induction r with
      | nil => intro acc h; exact h
      | cons v r ih => intro acc h; exact ih _ (sorted_addTrans h)
    exact this r [] (by simp)
  have hwf : u.WF := by
    refine ⟨huinv, fun q t ht => ?_, fun q t ht => ?_⟩
    · obtain ⟨v, hv1, rfl⟩ := (htrans q t).1 ht
      rw [hstates, List.length_map]
      exact h.target q v hv1
    · obtain ⟨v, hv1, rfl⟩ := (htrans q t).1 ht
      rw [hcount]; exact hm.lt v.1 (h.symbol q v hv1)
  refine ⟨hwf, hord, ?_, by rw [hstates, List.length_map], rfl, hstep, hne, ?_, ?_, ?_⟩
  · simp only [verifyIsDfa, List.all_eq_true, decide_eq_true_eq]
    intro row hrow
    have hsort := hord row hrow
    rw [hstates] at hrow
    obtain ⟨r, hr, rfl⟩ := List.mem_map.1 hrow
    obtain ⟨q, hq, hqe⟩ := List.mem_iff_getElem.1 hr
    have hqt : n.trans q = r := by simp only [trans, List.getElem?_eq_getElem hq]; exact hqe
    rw [List.nodup_cons]
    constructor
    · intro hmem
      obtain ⟨t, ht, hte⟩ := List.mem_map.1 hmem
      have hut : t ∈ u.trans q := by rw [htrans, hqt]; exact (hmemrow r t).1 ht
      have := hwf.symbol q t hut
      refine hne q t.2 ⟨t.1, hut, (eps_iff u huinv this).1 hte⟩
    · rw [List.nodup_iff_pairwise_ne, List.pairwise_map]
      refine hsort.imp_of_mem ?_
      intro a b ha hb hab e
      obtain ⟨v, hv1, rfl⟩ := (hmemrow r a).1 ha
      obtain ⟨w, hw1, rfl⟩ := (hmemrow r b).1 hb
      have := hm.uniform r hr v.1 (hrowk r hr v hv1) w.1 (hrowk r hr w hw1) e
      rw [(rowTarget_some (hdet r hr)).2 hv1, (rowTarget_some (hdet r hr)).2 hw1] at this
      have := Option.some.inj this
      simp only [TransLt] at hab e
      omega
  · intro i j x hi hj
    have h1 := hclass' i x hi
    have h2 := hclass' j x hj
    rw [hclass i h1] at hi
    rw [hclass j h2] at hj
    obtain ⟨s1, _, e1, m1⟩ := ((hunion i).2 x).1 hi
    obtain ⟨s2, _, e2, m2⟩ := ((hunion j).2 x).1 hj
    have := hdis s1 s2 x m1 m2
    rw [← e1, ← e2, this]
  · intro S hS
    rw [hus] at hS
    obtain ⟨c, _, rfl⟩ := List.mem_map.1 hS
    exact (hunion c).1
  · rw [hcount]
    by_cases hk : n.syms.count = 0
    · have := hm.small hk; omega
    · -- an injection from classes to symbol sets
      have hch : ∀ c : Nat, ∃ s, c < m.num → s < n.syms.count ∧ m.cls s = c := by
        intro c
        by_cases hcn : c < m.num
        · obtain ⟨s, h1, h2⟩ := hm.inhabited (by omega) c hcn
          exact ⟨s, fun _ => ⟨h1, h2⟩⟩
        · exact ⟨0, fun h => absurd h hcn⟩
      have hnd : ((List.range m.num).map (fun c => (hch c).choose)).Nodup := by
        rw [List.nodup_iff_pairwise_ne, List.pairwise_map]
        refine (List.pairwise_lt_range (n := m.num)).imp_of_mem ?_
        intro a b ha hb hab e
        have h1 := (hch a).choose_spec (List.mem_range.1 ha)
        have h2 := (hch b).choose_spec (List.mem_range.1 hb)
        rw [e] at h1
        omega
      have hsub : ((List.range m.num).map (fun c => (hch c).choose)) ⊆ List.range n.syms.count := by
        intro s hs
        obtain ⟨c, hc1, rfl⟩ := List.mem_map.1 hs
        exact List.mem_range.2 ((hch c).choose_spec (List.mem_range.1 hc1)).1
      have := (hnd.subperm hsub).length_le
      simp only [List.length_map, List.length_range] at this
      omega

/-- Two states; `a`, `b` and `d` lead to state 1, `c` back to state 0. -/
def mergeable : Ndfa :=
  ((((new.addState.1).addTransition 0 [⟨97, 98⟩] 1).addTransition 0 [⟨98, 99⟩] 1).addTransition 0 [⟨99, 100⟩] 0).addTransition 0
    [⟨100, 101⟩] 1

example : mergeable.toMerged.states = [[(0, 1), (1, 0)], []] ∧
    mergeable.toMerged.syms.syms = [[⟨97, 99⟩, ⟨100, 101⟩], [⟨99, 100⟩]] := by constructor <;> rfl

example : Built mergeable ∧ mergeable.Ordered ∧ mergeable.verifyIsDfa = true ∧ (∀ s ∈ mergeable.syms.syms, SymSet.Canon s) ∧
    (∀ i j x, Mem x (mergeable.syms.get i) → Mem x (mergeable.syms.get j) → i = j) := by
  have hs : mergeable.syms.syms = [[⟨97, 98⟩], [⟨98, 99⟩], [⟨99, 100⟩], [⟨100, 101⟩]] := by rfl
  have hst : mergeable.states = [[(0, 1), (1, 1), (2, 0), (3, 1)], []] := by rfl
  refine ⟨.trans _ _ _ (.trans _ _ _ (.trans _ _ _ (.trans _ _ _ (.state .new)))), ?_, by rfl, ?_, ?_⟩
  · intro row hrow
    rw [hst] at hrow
    simp only [List.mem_cons, List.not_mem_nil, or_false] at hrow
    rcases hrow with rfl | rfl <;> simp [TransLt]
  · intro s h
    rw [hs] at h
    simp only [List.mem_cons, List.not_mem_nil, or_false] at h
    rcases h with rfl | rfl | rfl | rfl <;> simp [SymSet.Canon]
  · have hx : ∀ i x, Mem x (mergeable.syms.get i) → i < 4 ∧ x = 97 + i := by
      rintro i x ⟨r, h1, h2⟩
      simp only [SymbolMap.get, hs] at h1
      match i with
      | 0 => simp at h1; subst h1; simp only [Range.Mem] at h2; omega
      | 1 => simp at h1; subst h1; simp only [Range.Mem] at h2; omega
      | 2 => simp at h1; subst h1; simp only [Range.Mem] at h2; omega
      | 3 => simp at h1; subst h1; simp only [Range.Mem] at h2; omega
      | i + 4 => simp at h1
    intro i j x h1 h2
    have := hx i x h1
    have := hx j x h2
    omega

/-- `a` and `b` lead to states 1 and 2, `c` only to state 2. -/
def ambiguous : Ndfa :=
  (((((new.addState.1.addState.1).addTransition 0 [⟨97, 98⟩] 1).addTransition 0 [⟨97, 98⟩] 2).addTransition 0
    [⟨98, 99⟩] 1).addTransition 0 [⟨98, 99⟩] 2).addTransition 0 [⟨99, 100⟩] 2

/-- The pass is documented for nondeterministic automata too ("Creates a new NDFA (DFA if this is a DFA)"). There it is
wrong: `a` and `b` lead to states 1 and 2, `c` only to state 2, and in the result `c` leads to state 1 as well. -/
theorem merged_symbols_nondeterministic_violated :
    ∃ n, Built n ∧ n.Ordered ∧ (∀ i j x, Mem x (n.syms.get i) → Mem x (n.syms.get j) → i = j) ∧
      SymStep n.toMerged 0 99 1 ∧ ¬ SymStep n 0 99 1 := by
  have hs : ambiguous.syms.syms = [[⟨97, 98⟩], [⟨98, 99⟩], [⟨99, 100⟩]] := by rfl
  have hst : ambiguous.states = [[(0, 1), (0, 2), (1, 1), (1, 2), (2, 2)], [], []] := by rfl
  have hx : ∀ i x, Mem x (ambiguous.syms.get i) → i < 3 ∧ x = 97 + i := by
    rintro i x ⟨r, h1, h2⟩
    simp only [SymbolMap.get, hs] at h1
    match i with
    | 0 => simp at h1; subst h1; simp only [Range.Mem] at h2; omega
    | 1 => simp at h1; subst h1; simp only [Range.Mem] at h2; omega
    | 2 => simp at h1; subst h1; simp only [Range.Mem] at h2; omega
    | i + 3 => simp at h1
  refine ⟨ambiguous, .trans _ _ _ (.trans _ _ _ (.trans _ _ _ (.trans _ _ _ (.trans _ _ _ (.state (.state .new)))))), ?_, ?_, ?_, ?_⟩
  · intro row hrow
    rw [hst] at hrow
    simp only [List.mem_cons, List.not_mem_nil, or_false] at hrow
    rcases hrow with rfl | rfl | rfl <;> simp [TransLt]
  · intro i j x h1 h2
    have := hx i x h1
    have := hx j x h2
    omega
  · have h1 : ambiguous.toMerged.trans 0 = [(1, 1), (1, 2), (2, 1), (2, 2)] := by rfl
    have h2 : ambiguous.toMerged.syms.get 2 = [⟨98, 100⟩] := by rfl
    exact ⟨2, by rw [h1]; simp, by rw [h2]; exact ⟨_, List.mem_singleton.2 rfl, by simp [Range.Mem]⟩⟩
  · rintro ⟨s, h1, h2⟩
    have := hx s 99 h2
    have hs2 : s = 2 := by omega
    subst hs2
    have h3 : ambiguous.trans 0 = [(0, 1), (0, 2), (1, 1), (1, 2), (2, 2)] := by rfl
    rw [h3] at h1
    simp at h1

/-! ## C12 -/

/-- What a row should answer for a symbol set: the target of its transition, or "no transition". -/
def RowAnswers (row : List Trans) (s : Nat) (ans : Option (Option Nat)) : Prop :=
  (∃ q, (s, q) ∈ row ∧ ans = some (some q)) ∨ ((∀ q, (s, q) ∉ row) ∧ ans = some none)

theorem rowAnswers_iff {row : List Trans} (h : DetRow row) (s : Nat) : RowAnswers row s (some (rowTarget row s)) := by
  cases hr : rowTarget row s with
  | some q => exact .inl ⟨q, (rowTarget_some h).1 hr, rfl⟩
  | none =>
    refine .inr ⟨fun q hq => ?_, rfl⟩
    rw [(rowTarget_some h).2 hq] at hr
    simp at hr

/-- C12. For every state of a deterministic automaton and every symbol set, both kinds of row answer with the automaton's
transition; filling never writes outside the row and looking up never reads outside it. -/
theorem state_machine_rows_agree (n : Ndfa) (h : n.WF) (ho : n.Ordered) (hv : n.verifyIsDfa = true) (sort : List Trans → List Trans)
    (hsort : IsSort sort) (q s : Nat) (hs : s < n.syms.count) :
    (∃ m, flatFill n.syms.count (n.trans q) = some m ∧ RowAnswers (n.trans q) s (flatGet m s)) ∧
    RowAnswers (n.trans q) s (compactGet (compactFill sort (n.trans q)) s) := by
  have hdet : DetRow (n.trans q) := by
    by_cases hq : n.trans q = []
    · rw [hq]; simp [DetRow]
    · obtain ⟨t, ht⟩ := List.exists_mem_of_ne_nil _ hq
      exact det_of_verify n ho hv _ (mem_row_of_trans ht)
  constructor
  · obtain ⟨m, h1, h2, h3⟩ := flatFill_spec (n.trans q) hdet (List.replicate n.syms.count none)
      (fun t ht => by rw [List.length_replicate]; exact h.symbol q t ht)
    refine ⟨m, h1, ?_⟩
    have := h3 s
    rw [List.length_replicate, if_pos hs] at this
    have hr := rowAnswers_iff hdet s
    simp only [flatGet, this]
    cases hrt : rowTarget (n.trans q) s with
    | some p => rw [hrt] at hr; exact hr
    | none => rw [hrt] at hr; simpa [hs] using hr
  · have := entrySearch_spec [] (n.trans q) [] hdet s
    simp only [compactGet, compactFill, sort_det sort hsort _ hdet]
    simp only [List.nil_append, List.append_nil, List.length_nil, Nat.zero_add] at this
    rw [this]
    exact rowAnswers_iff hdet s

/-- C12 for symbols: with an exact translator, running the machine (either kind of row) from any state on any symbol gives
the automaton's successor. -/
theorem state_machine_runs_dfa (n : Ndfa) (h : n.WF) (ho : n.Ordered) (hv : n.verifyIsDfa = true) (sort : List Trans → List Trans)
    (hsort : IsSort sort) (translate : Int → Option Nat) (ht : ∀ x s, translate x = some s ↔ Mem x (n.syms.get s)) :
    (∃ rows, n.states.mapM (flatFill n.syms.count) = some rows ∧ ∀ q x, ∃ r, smRun rows flatGet translate q x = some r ∧
      ∀ q', r = some q' ↔ SymStep n q x q') ∧
    ∀ q x, ∃ r, smRun (n.states.map (compactFill sort)) compactGet translate q x = some r ∧ ∀ q', r = some q' ↔ SymStep n q x q' := by
  have hsym : ∀ x s, translate x = some s → s < n.syms.count := by
    intro x s hx
    have hmem := (ht x s).1 hx
    by_cases hs : s < n.syms.count
    · exact hs
    · have : n.syms.get s = [] := by
        simp only [SymbolMap.get, SymbolMap.count] at *
        rw [List.getElem?_eq_none (by omega)]; rfl
      rw [this] at hmem
      exact absurd hmem (SymSet.mem_nil x)
  have hans : ∀ q x s a, translate x = some s → RowAnswers (n.trans q) s a → ∃ r, a = some r ∧ ∀ q', r = some q' ↔ SymStep n q x q' := by
    intro q x s a hx ha
    rcases ha with ⟨p, hp, rfl⟩ | ⟨hp, rfl⟩
    · refine ⟨some p, rfl, fun q' => ?_⟩
      constructor
      · intro e; have := Option.some.inj e; subst this; exact ⟨s, hp, (ht x s).1 hx⟩
      · rintro ⟨s', h1, h2⟩
        have := (ht x s').2 h2
        rw [hx] at this
        have := Option.some.inj this
        subst this
        have hdet := det_of_verify n ho hv _ (mem_row_of_trans hp)
        have e1 := (rowTarget_some hdet).2 hp
        have e2 := (rowTarget_some hdet).2 h1
        rw [← e1, e2]
    · refine ⟨none, rfl, fun q' => ?_⟩
      constructor
      · simp
      · rintro ⟨s', h1, h2⟩
        have := (ht x s').2 h2
        rw [hx] at this
        have := Option.some.inj this
        subst this
        exact absurd h1 (hp q')
  have hnone : ∀ q x, n.states.length ≤ q ∨ translate x = none → ∀ q', (none : Option Nat) = some q' ↔ SymStep n q x q' := by
    intro q x hor q'
    constructor
    · simp
    · rintro ⟨s, h1, h2⟩
      rcases hor with hq | hx
      · have : n.trans q = [] := by simp [trans, List.getElem?_eq_none hq]
        rw [this] at h1; simp at h1
      · rw [(ht x s).2 h2] at hx; simp at hx
  constructor
  · have hm : ∀ (l : List (List Trans)), (∀ r ∈ l, ∃ m, flatFill n.syms.count r = some m) →
        ∃ rows, l.mapM (flatFill n.syms.count) = some rows ∧ rows.length = l.length ∧
          ∀ (k : Nat) r, l[k]? = some r → ∃ m, rows[k]? = some m ∧ flatFill n.syms.count r = some m := by
      intro l
      induction l with
      | nil => intro _; exact ⟨[], rfl, rfl, by simp⟩
      | cons r l ih =>
        intro hl
        obtain ⟨m, hm⟩ := hl r (by simp)
        obtain ⟨rows, h1, h2, h3⟩ := ih (fun r hr => hl r (by simp [hr]))
        refine ⟨m :: rows, by rw [List.mapM_cons, hm, h1]; rfl, by simp [h2], fun k r' hk => ?_⟩
        cases k with
        | zero => simp at hk; subst hk; exact ⟨m, by simp, hm⟩
        | succ k => simp at hk; simpa using h3 k r' hk
    have hall : ∀ r ∈ n.states, ∃ m, flatFill n.syms.count r = some m := by
      intro r hr
      obtain ⟨q, hq, hqe⟩ := List.mem_iff_getElem.1 hr
      have hqt : n.trans q = r := by simp only [trans, List.getElem?_eq_getElem hq]; exact hqe
      obtain ⟨m, h1, _⟩ := flatFill_spec r (det_of_verify n ho hv r hr) (List.replicate n.syms.count none)
        (fun t ht => by rw [List.length_replicate]; exact h.symbol q t (by rw [hqt]; exact ht))
      exact ⟨m, h1⟩
    obtain ⟨rows, h1, h2, h3⟩ := hm n.states hall
    refine ⟨rows, h1, fun q x => ?_⟩
    simp only [smRun]
    by_cases hq : q < n.states.length
    · obtain ⟨m, hm1, hm2⟩ := h3 q _ (List.getElem?_eq_getElem hq)
      rw [hm1]
      cases hx : translate x with
      | none => exact ⟨none, rfl, hnone q x (.inr hx)⟩
      | some s =>
        obtain ⟨⟨m', e1, e2⟩, _⟩ := state_machine_rows_agree n h ho hv sort hsort q s (hsym x s hx)
        have hqt : n.trans q = n.states[q] := by simp only [trans, List.getElem?_eq_getElem hq]; rfl
        rw [hqt, hm2] at e1
        have := Option.some.inj e1
        subst this
        exact hans q x s _ hx e2
    · rw [List.getElem?_eq_none (by omega)]
      exact ⟨none, rfl, hnone q x (.inl (by omega))⟩
  · intro q x
    simp only [smRun, List.getElem?_map]
    by_cases hq : q < n.states.length
    · rw [List.getElem?_eq_getElem hq]
      simp only [Option.map_some]
      cases hx : translate x with
      | none => exact ⟨none, rfl, hnone q x (.inr hx)⟩
      | some s =>
        obtain ⟨_, e2⟩ := state_machine_rows_agree n h ho hv sort hsort q s (hsym x s hx)
        have hqt : n.trans q = n.states[q] := by simp only [trans, List.getElem?_eq_getElem hq]; rfl
        rw [hqt] at e2
        exact hans q x s _ hx (by rw [hqt]; exact e2)
    · rw [List.getElem?_eq_none (by omega)]
      exact ⟨none, rfl, hnone q x (.inl (by omega))⟩

-- `mergeable` above meets the hypotheses; a sorting function exists
example : IsSort (fun l => l.mergeSort (fun a b => decide (a.1 ≤ b.1))) :=
  ⟨fun l => List.mergeSort_perm l _, fun l => by
    have := List.pairwise_mergeSort (le := fun a b : Trans => decide (a.1 ≤ b.1)) (by simp; omega) (by simp; omega) l
    simpa using this⟩

/-! ## C53 -/

theorem offsetLoop_row (q : Nat) : ∀ (row : List Trans) (l : List Nat) (pos : Nat) (rest : List (Nat × Trans)), q + 1 ≤ l.length →
    offsetLoop l pos (row.map (fun t => (q, t)) ++ rest) = offsetLoop l (pos + row.length) rest := by
  intro row
  induction row with
  | nil => intro l pos rest _; rfl
  | cons t row ih =>
    intro l pos rest hl
    have : padOffsets l q pos = l := by
      have : q + 1 - l.length = 0 := by omega
      simp [padOffsets, this]
    rw [List.map_cons, List.cons_append, offsetLoop, this, ih l (pos + 1) rest hl, List.length_cons]
    congr 1
    omega

/-- Start of a row in the concatenation of all rows. -/
def rowStart (rows : List (List Trans)) (q : Nat) : Nat := ((rows.take q).map List.length).sum

theorem rowStart_succ (rows : List (List Trans)) (q : Nat) (h : q < rows.length) :
    rowStart rows (q + 1) = rowStart rows q + rows[q].length := by
  simp only [rowStart]
  rw [List.take_succ_eq_append_getElem h, List.map_append, List.sum_append]
  simp

theorem offsetLoop_spec (rows : List (List Trans)) : ∀ (len q : Nat) (l : List Nat), q + len = rows.length →
    (∀ (i v : Nat), l[i]? = some v → v = rowStart rows i) →
    (∀ i, l.length ≤ i → i ≤ q → rowStart rows i = rowStart rows q) →
    (∀ i, i < l.length ↔ i = 0 ∨ ∃ j, i ≤ j ∧ j < q ∧ ∃ t, t ∈ (rows[j]?).getD []) →
    let r := (offsetLoop l (rowStart rows q) (lexerTransitions q (rows.drop q))).1
    (∀ (i v : Nat), r[i]? = some v → v = rowStart rows i) ∧
    (∀ i, i < r.length ↔ i = 0 ∨ ∃ j, i ≤ j ∧ j < rows.length ∧ ∃ t, t ∈ (rows[j]?).getD []) := by
  intro len
  induction len with
  | zero =>
    intro q l hq h1 h2 h3
    have : rows.drop q = [] := List.drop_eq_nil_of_le (by omega)
    rw [this]
    simp only [lexerTransitions, offsetLoop]
    exact ⟨h1, by have : q = rows.length := by omega
                  rw [← this]; exact h3⟩
  | succ len ih =>
    intro q l hq h1 h2 h3
    have hql : q < rows.length := by omega
    rw [List.drop_eq_getElem_cons hql]
    simp only [lexerTransitions]
    have hrq : rows[q]? = some rows[q] := List.getElem?_eq_getElem hql
    have hsucc := rowStart_succ rows q hql
    by_cases hrow : rows[q] = []
    · rw [hrow] at hsucc ⊢
      simp only [List.map_nil, List.nil_append]
      simp only [List.length_nil, Nat.add_zero] at hsucc
      rw [← hsucc]
      refine ih (q + 1) l (by omega) h1 ?_ ?_
      · intro i hi hi'
        by_cases e : i = q + 1
        · rw [e]
        · rw [h2 i hi (by omega), hsucc]
      · intro i
        rw [h3]
        constructor
        · rintro (h | ⟨j, hj1, hj2, hj3⟩)
          · exact .inl h
          · exact .inr ⟨j, hj1, by omega, hj3⟩
        · rintro (h | ⟨j, hj1, hj2, hj3⟩)
          · exact .inl h
          · refine .inr ⟨j, hj1, ?_, hj3⟩
            by_cases e : j = q
            · subst e; rw [hrq, hrow] at hj3; simp at hj3
            · omega
    · obtain ⟨t, row, hr⟩ := List.exists_cons_of_ne_nil hrow
      have hlen : l.length ≤ q + 1 := by
        by_cases hl : l.length ≤ q + 1
        · exact hl
        · rcases (h3 (q + 1)).1 (by omega) with h | ⟨j, hj1, hj2, _⟩
          · omega
          · omega
      have hpad : (padOffsets l q (rowStart rows q)).length = q + 1 := by simp [padOffsets]; omega
      rw [hr, List.map_cons, List.cons_append, offsetLoop, offsetLoop_row q row _ _ _ (by omega)]
      have : rowStart rows q + 1 + row.length = rowStart rows (q + 1) := by
        rw [hsucc, hr, List.length_cons]; omega
      rw [this]
      refine ih (q + 1) _ (by omega) ?_ ?_ ?_
      · intro i v hiv
        simp only [padOffsets] at hiv
        by_cases hi : i < l.length
        · rw [List.getElem?_append_left hi] at hiv; exact h1 i v hiv
        · rw [List.getElem?_append_right (by omega)] at hiv
          obtain ⟨hlt, e⟩ := List.getElem?_eq_some_iff.1 hiv
          simp only [List.getElem_replicate] at e
          simp only [List.length_replicate] at hlt
          rw [h2 i (by omega) (by omega), e]
      · intro i hi hi'
        rw [hpad] at hi
        have : i = q + 1 := by omega
        rw [this]
      · intro i
        rw [hpad]
        constructor
        · intro hi
          exact .inr ⟨q, by omega, by omega, t, by rw [hrq, hr]; simp⟩
        · rintro (h | ⟨j, hj1, hj2, _⟩) <;> omega

theorem lexerTransitions_entries (rows : List (List Trans)) : ∀ q, (lexerTransitions q rows).map (·.2) = rows.flatten := by
  induction rows with
  | nil => intro q; rfl
  | cons r rows ih =>
    intro q
    rw [lexerTransitions, List.map_append, ih, List.flatten_cons]
    congr 1
    simp [Function.comp_def]

theorem genTable_starts (rows : List (List Trans)) :
    (∀ (i v : Nat), (genTable rows).starts[i]? = some v → v = rowStart rows i) ∧
    (∀ i, i < (genTable rows).starts.length ↔ i = 0 ∨ ∃ j, i ≤ j ∧ j < rows.length ∧ ∃ t, t ∈ (rows[j]?).getD []) := by
  have h := offsetLoop_spec rows rows.length 0 [0] (by omega) (by
      intro i v hv
      cases i with
      | zero => simp at hv; subst hv; simp [rowStart]
      | succ i => simp at hv) (by
      intro i h1 h2; have : i = 0 := by omega
      rw [this]) (by
      intro i
      constructor
      · intro h; left; simpa using h
      · rintro (h | ⟨j, _, h2, _⟩)
        · rw [h]; simp
        · omega)
  have h0 : rowStart rows 0 = 0 := by simp [rowStart]
  rw [h0, List.drop_zero] at h
  simp only [genTable, List.dropLast_concat]
  exact h

/-- C53, the part that holds: for a state before the last one that has transitions, the generated tables answer with the
automaton's transition. Missing: the last state with transitions and the states after it. -/
theorem generated_tables_agree_partial (rows : List (List Trans)) (q s : Nat) (hdet : DetRow ((rows[q]?).getD []))
    (hlater : ∃ j, q < j ∧ j < rows.length ∧ (rows[j]?).getD [] ≠ []) :
    RowAnswers ((rows[q]?).getD []) s ((genTable rows).get q s) := by
  obtain ⟨j, hj1, hj2, hj3⟩ := hlater
  obtain ⟨t, ht⟩ := List.exists_mem_of_ne_nil _ hj3
  obtain ⟨h1, h2⟩ := genTable_starts rows
  have hl1 : q < (genTable rows).starts.length := (h2 q).2 (.inr ⟨j, by omega, hj2, t, ht⟩)
  have hl2 : q + 1 < (genTable rows).starts.length := (h2 (q + 1)).2 (.inr ⟨j, by omega, hj2, t, ht⟩)
  have hq : q < rows.length := by omega
  have hrq : rows[q]? = some rows[q] := List.getElem?_eq_getElem hq
  have hsucc := rowStart_succ rows q hq
  have ha := h1 q _ (List.getElem?_eq_getElem hl1)
  have hb := h1 (q + 1) _ (List.getElem?_eq_getElem hl2)
  have hent : (genTable rows).entries = (rows.take q).flatten ++ rows[q] ++ (rows.drop (q + 1)).flatten := by
    have : (genTable rows).entries = rows.flatten := lexerTransitions_entries rows 0
    rw [this]
    have e : rows = rows.take q ++ rows[q] :: rows.drop (q + 1) := by
      rw [← List.drop_eq_getElem_cons hq, List.take_append_drop]
    conv => lhs; rw [e]
    rw [List.flatten_append, List.flatten_cons, List.append_assoc]
  have hpre : (rows.take q).flatten.length = rowStart rows q := by rw [List.length_flatten]; rfl
  rw [hrq] at hdet ⊢
  simp only [Option.getD_some] at *
  have hget : (genTable rows).get q s = some (rowTarget rows[q] s) := by
    simp only [GenTable.get, List.getElem?_eq_getElem hl1, List.getElem?_eq_getElem hl2, ha, hb]
    split
    · rename_i e
      have : rows[q] = [] := List.length_eq_zero_iff.1 (by omega)
      rw [this]; rfl
    · rw [hent, hsucc, ← hpre]
      exact entrySearch_spec _ _ _ hdet s
  rw [hget]
  exact rowAnswers_iff hdet s

/-- C53 fails for every generated lexer: the end of the last state with transitions is not in the table, so looking up
any symbol set in that state, or in a state after it, reads outside the table. -/
theorem generated_tables_agree_violated (rows : List (List Trans)) (q s : Nat)
    (hlast : ∀ j, q < j → j < rows.length → (rows[j]?).getD [] = []) : (genTable rows).get q s = none := by
  obtain ⟨_, h2⟩ := genTable_starts rows
  have hl2 : ¬ q + 1 < (genTable rows).starts.length := by
    rw [h2]
    rintro (h | ⟨j, h3, h4, t, h5⟩)
    · omega
    · rw [hlast j (by omega) h4] at h5; simp at h5
  simp only [GenTable.get]
  rw [List.getElem?_eq_none (by omega : (genTable rows).starts.length ≤ q + 1)]
  split
  · simp at *
  · rfl

-- a lexer for "ab": two states with transitions and a final one without. States 1 and 2 read outside the table.
example : (genTable [[(0, 1)], [(1, 2)], []]).get 0 0 = some (some 1) ∧ (genTable [[(0, 1)], [(1, 2)], []]).get 1 1 = none := by
  constructor <;> rfl

end Ndfa
end TameParse

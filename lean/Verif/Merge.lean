import Verif.NdfaProps
/-
Model of `ndfa::to_ndfa_with_merged_symbols`.

Source: /repo/TameParse/Dfa/ndfa_transformations.cpp 464-630.

Simplifications: `symbolForSymbol` is a function (it is only read for registered symbol sets); `uniqueSymbols[c]` always
holds exactly the symbol sets `s` with `symbolForSymbol[s] = c` (lines 540-542 and 560-562 move them together) so only its
size is stored.
-/
namespace TameParse
namespace Ndfa
open SymSet (Mem)

/-- `symbolForSymbol`, the size of `uniqueSymbols`, and `stateForSet` (`none`: no entry, `some none`: -1). -/
structure Merge where
  cls : Nat → Nat
  num : Nat
  target : Nat → Option (Option Nat)

/-- Symbol sets moved to the new class when `s`, of class `c`, leads to `q` (ndfa_transformations.cpp 527-564). `rest` are the
transitions from `transit` on, `row` all the transitions of the state, `k` the number of symbol sets. -/
def moved (k : Nat) (row rest : List Trans) (m : Merge) (c : Nat) : Option Nat → List Nat
  | some q => (rest.filter (fun t => t.2 == q && m.cls t.1 == c)).map (·.1)
  | none => (List.range k).filter (fun s => !(row.map (·.1)).contains s && m.cls s == c)

/-- Body of the loop for one symbol set and target state (ndfa_transformations.cpp 498-565). -/
def mergeStep (k : Nat) (row rest : List Trans) (s : Nat) (q : Option Nat) (m : Merge) : Merge :=
  let c := m.cls s
  match m.target c with
  | none => { m with target := fun c' => if c' = c then some q else m.target c' }
  | some v =>
    if v = q then m
    else
      let mv := moved k row rest m c q
      { m with cls := fun s' => if s' ∈ mv then m.num else m.cls s', num := m.num + 1 }

/-- The iterations for one symbol set (ndfa_transformations.cpp 497-580): the transition pointer moves on while it is
on this symbol set. -/
def mergeSym (k : Nat) (row : List Trans) (s : Nat) : List Trans → Merge → List Trans × Merge
  | [], m => ([], mergeStep k row [] s none m)
  | t :: ts, m =>
    if t.1 = s then
      let m' := mergeStep k row (t :: ts) s (some t.2) m
      match ts with
      | [] => ([], m')
      | u :: us => if u.1 = s then mergeSym k row s (u :: us) m' else (u :: us, m')
    else (t :: ts, mergeStep k row (t :: ts) s none m)

/-- The loop over the symbol sets for one state (ndfa_transformations.cpp 491-580). -/
def mergeRow (k : Nat) (row : List Trans) : List Nat → List Trans → Merge → Merge
  | [], _, m => m
  | s :: ss, ts, m =>
    let r := mergeSym k row s ts m
    mergeRow k row ss r.1 r.2

/-- The loop over the states (ndfa_transformations.cpp 466-581). -/
def mergeClasses (n : Ndfa) : Merge :=
  n.states.foldl (fun m row => mergeRow n.syms.count row (List.range n.syms.count) row { m with target := fun _ => none })
    ⟨fun _ => 0, 1, fun _ => none⟩

/-- Union of the symbol sets of a class (ndfa_transformations.cpp 589-595). -/
def classUnion (n : Ndfa) (m : Merge) (c : Nat) : SymSet :=
  ((List.range n.syms.count).filter (fun s => m.cls s == c)).foldl (fun acc s => SymSet.union acc (n.syms.get s)) []

/-- `to_ndfa_with_merged_symbols` (ndfa_transformations.cpp 464-630). -/
def toMerged (n : Ndfa) : Ndfa :=
  let m := mergeClasses n
  ⟨n.states.map (fun row => row.foldl (fun acc t => addTrans acc (m.cls t.1, t.2)) []),
   (List.range m.num).foldl (fun map c => (map.identifierFor (classUnion n m c)).1) SymbolMap.empty,
   n.accept⟩

/-! ## Lemmas -/

/-- Where a row of a deterministic automaton goes. -/
def rowTarget (row : List Trans) (s : Nat) : Option Nat := (row.find? (fun t => t.1 == s)).map (·.2)

/-- Rows of a deterministic automaton: strictly increasing symbol sets. -/
def DetRow (row : List Trans) : Prop := row.Pairwise (fun a b => a.1 < b.1)

theorem rowTarget_some {row : List Trans} (h : DetRow row) {s q : Nat} : rowTarget row s = some q ↔ (s, q) ∈ row := by
  induction row with
  | nil => simp [rowTarget]
  | cons t r ih =>
    unfold DetRow at h
    rw [List.pairwise_cons] at h
    have ih := ih h.2
    simp only [rowTarget, List.find?_cons] at *
    by_cases hs : t.1 = s
    · subst hs
      simp only [beq_self_eq_true, Option.map_some, Option.some.injEq, List.mem_cons]
      constructor
      · intro e; left; rw [← e]
      · rintro (e | e)
        · rw [← e]
        · have := h.1 _ e; simp at this
    · have : (t.1 == s) = false := by simpa using hs
      simp only [this, ih, List.mem_cons]
      constructor
      · exact .inr
      · rintro (e | e)
        · rw [← e] at hs; simp at hs
        · exact e

theorem rowTarget_none {row : List Trans} {s : Nat} : rowTarget row s = none ↔ s ∉ row.map (·.1) := by
  simp only [rowTarget, Option.map_eq_none_iff, List.find?_eq_none, List.mem_map, not_exists, not_and]
  constructor
  · intro h t ht e; exact absurd (by simpa using e) (h t ht)
  · intro h t ht e; exact h t ht (by simpa using e)

/-- State of the walk over one row: symbol sets below `i` have been visited. -/
structure MergeInv (k : Nat) (row : List Trans) (cls0 : Nat → Nat) (i : Nat) (m : Merge) : Prop where
  seen : ∀ c v, m.target c = some v → (∀ s < i, m.cls s = c → rowTarget row s = v) ∧ ∃ s < i, m.cls s = c
  fresh : ∀ c, m.target c = none → ∀ s < i, m.cls s = c → ∀ s' < k, m.cls s' = c → rowTarget row s' = rowTarget row s
  lt : ∀ s < k, m.cls s < m.num
  refines : ∀ s < k, ∀ s' < k, m.cls s = m.cls s' → cls0 s = cls0 s'
  inhabited : 0 < k → ∀ c < m.num, ∃ s < k, m.cls s = c

theorem mem_moved {k : Nat} {row rest : List Trans} {i : Nat} {m : Merge} {c : Nat} {q : Option Nat} (hrow : DetRow row)
    (hk : ∀ t ∈ row, t.1 < k) (hrest : rest = row.filter (fun t => decide (i ≤ t.1)))
    (hq : ∀ s < i, m.cls s = c → rowTarget row s ≠ q) (s : Nat) :
    s ∈ moved k row rest m c q ↔ s < k ∧ m.cls s = c ∧ rowTarget row s = q := by
  cases q with
  | some q =>
    simp only [moved, List.mem_map, List.mem_filter, Bool.and_eq_true, beq_iff_eq, hrest, decide_eq_true_eq]
    constructor
    · rintro ⟨t, ⟨⟨h1, h2⟩, h3, h4⟩, rfl⟩
      exact ⟨hk t h1, h4, (rowTarget_some hrow).2 (by rw [← h3]; exact h1)⟩
    · rintro ⟨h1, h2, h3⟩
      refine ⟨(s, q), ⟨⟨(rowTarget_some hrow).1 h3, ?_⟩, rfl, h2⟩, rfl⟩
      by_cases hs : s < i
      · exact absurd h3 (hq s hs h2)
      · show i ≤ s; omega
  | none =>
    simp only [moved, List.mem_filter, List.mem_range, Bool.and_eq_true, Bool.not_eq_true', beq_iff_eq, rowTarget_none]
    constructor
    · rintro ⟨h1, h2, h3⟩
      exact ⟨h1, h3, by simpa using h2⟩
    · rintro ⟨h1, h2, h3⟩
      exact ⟨h1, by simpa using h3, h2⟩

theorem mergeStep_inv {k : Nat} {row rest : List Trans} {cls0 : Nat → Nat} {i : Nat} {m : Merge} (hrow : DetRow row)
    (hk : ∀ t ∈ row, t.1 < k) (hrest : rest = row.filter (fun t => decide (i ≤ t.1))) (hi : i < k)
    (h : MergeInv k row cls0 i m) : MergeInv k row cls0 (i + 1) (mergeStep k row rest i (rowTarget row i) m) := by
  simp only [mergeStep]
  cases ht : m.target (m.cls i) with
  | none =>
    refine ⟨fun c v hc => ?_, fun c hc s hs hsc s' hs' hsc' => ?_, h.lt, h.refines, h.inhabited⟩
    · simp only at hc
      split at hc
      · rename_i e
        subst e
        have := Option.some.inj hc
        subst this
        refine ⟨fun s hs hsc => ?_, i, by omega, rfl⟩
        by_cases hsi : s = i
        · rw [hsi]
        · exact (h.fresh _ ht s (by omega) hsc i hi rfl).symm
      · rename_i e
        obtain ⟨h1, s, h2, h3⟩ := h.seen c v hc
        refine ⟨fun s hs hsc => ?_, s, by omega, h3⟩
        by_cases hsi : s = i
        · rw [hsi] at hsc; exact absurd hsc.symm e
        · exact h1 s (by omega) hsc
    · simp only at hc
      split at hc
      · simp at hc
      · rename_i e
        by_cases hsi : s = i
        · rw [hsi] at hsc; exact absurd hsc.symm e
        · exact h.fresh c hc s (by omega) hsc s' hs' hsc'
  | some v =>
    obtain ⟨g1, s0, g2, g3⟩ := h.seen _ v ht
    dsimp only
    split
    · rename_i hv
      subst hv
      refine ⟨fun c v hc => ?_, fun c hc s hs hsc s' hs' hsc' => ?_, h.lt, h.refines, h.inhabited⟩
      · obtain ⟨h1, s, h2, h3⟩ := h.seen c v hc
        refine ⟨fun s hs hsc => ?_, s, by omega, h3⟩
        by_cases hsi : s = i
        · subst hsi; rw [hsc] at ht; rw [hc] at ht; exact (Option.some.inj ht).symm
        · exact h1 s (by omega) hsc
      · by_cases hsi : s = i
        · subst hsi; rw [hsc] at ht; rw [hc] at ht; simp at ht
        · exact h.fresh c hc s (by omega) hsc s' hs' hsc'
    · rename_i hv
      have hmv := mem_moved (c := m.cls i) (q := rowTarget row i) (m := m) hrow hk hrest
        (fun s hs hsc e => hv ((g1 s hs hsc).symm.trans e))
      simp only [hmv]
      have hcls : ∀ s < k, (if s < k ∧ m.cls s = m.cls i ∧ rowTarget row s = rowTarget row i then m.num else m.cls s) = m.num ↔
          (m.cls s = m.cls i ∧ rowTarget row s = rowTarget row i) := by
        intro s hs
        have := h.lt s hs
        split
        · rename_i e; exact ⟨fun _ => e.2, fun _ => rfl⟩
        · rename_i e
          constructor
          · intro e'; omega
          · intro e'; exact absurd ⟨hs, e'⟩ e
      have hold : ∀ s c, c ≠ m.num →
          ((if s < k ∧ m.cls s = m.cls i ∧ rowTarget row s = rowTarget row i then m.num else m.cls s) = c ↔
          (m.cls s = c ∧ ¬ (s < k ∧ m.cls s = m.cls i ∧ rowTarget row s = rowTarget row i))) := by
        intro s c hc
        split
        · rename_i e; exact ⟨fun h => absurd h.symm hc, fun h => absurd e h.2⟩
        · rename_i e; exact ⟨fun h => ⟨h, e⟩, fun h => h.1⟩
      refine ⟨fun c v' hc => ?_, fun c hc s hs hsc s' hs' hsc' => ?_, fun s hs => ?_, fun s hs s' hs' e => ?_, fun h0 c hc => ?_⟩
      · obtain ⟨h1, s, h2, h3⟩ := h.seen c v' hc
        have hlt := h.lt s (by omega)
        have hcn : c ≠ m.num := by omega
        refine ⟨fun s hs hsc => ?_, s, by omega, ?_⟩
        · rw [hold s c hcn] at hsc
          by_cases hsi : s = i
          · subst hsi; exact absurd ⟨hi, rfl, rfl⟩ hsc.2
          · exact h1 s (by omega) hsc.1
        · rw [hold s c hcn]
          refine ⟨h3, ?_⟩
          rintro ⟨_, e1, e2⟩
          have := g1 s h2 e1
          exact hv (this.symm.trans e2)
      · by_cases hcn : c = m.num
        · subst hcn
          rw [hcls s (by omega)] at hsc
          rw [hcls s' hs'] at hsc'
          rw [hsc.2, hsc'.2]
        · rw [hold s c hcn] at hsc
          rw [hold s' c hcn] at hsc'
          by_cases hsi : s = i
          · subst hsi; exact absurd ⟨hi, rfl, rfl⟩ hsc.2
          · exact h.fresh c hc s (by omega) hsc.1 s' hs' hsc'.1
      · have := h.lt s hs
        simp only
        split <;> omega
      · by_cases hn : (if s' < k ∧ m.cls s' = m.cls i ∧ rowTarget row s' = rowTarget row i then m.num else m.cls s') = m.num
        · have e := e.trans hn
          rw [hcls s hs] at e
          rw [hcls s' hs'] at hn
          exact h.refines s hs s' hs' (e.1.trans hn.1.symm)
        · have e1 := (hold s _ hn).1 e
          have e2 := (hold s' _ hn).1 rfl
          exact h.refines s hs s' hs' (e1.1.trans e2.1.symm)
      · by_cases hcn : c = m.num
        · subst hcn; exact ⟨i, hi, (hcls i hi).2 ⟨rfl, rfl⟩⟩
        · by_cases hci : c = m.cls i
          · refine ⟨s0, by omega, ?_⟩
            rw [hold s0 c hcn]
            refine ⟨by rw [g3, hci], ?_⟩
            rintro ⟨_, _, e2⟩
            exact hv ((g1 s0 g2 g3).symm.trans e2)
          · obtain ⟨s, h1, h2⟩ := h.inhabited h0 c (by simp only at hc; omega)
            refine ⟨s, h1, ?_⟩
            rw [hold s c hcn]
            exact ⟨h2, fun e => hci (h2.symm.trans e.2.1)⟩

theorem filter_ge_eq {row : List Trans} (hrow : DetRow row) (i : Nat) {t : Trans} {ts : List Trans}
    (h : row.filter (fun t => decide (i ≤ t.1)) = t :: ts) :
    (t.1 = i → ts = row.filter (fun t => decide (i + 1 ≤ t.1)) ∧ rowTarget row i = some t.2) ∧
    (t.1 ≠ i → t :: ts = row.filter (fun t => decide (i + 1 ≤ t.1)) ∧ rowTarget row i = none) := by
  have hmem : ∀ u, u ∈ t :: ts ↔ u ∈ row ∧ i ≤ u.1 := by intro u; rw [← h]; simp
  have hdet : DetRow (t :: ts) := by rw [← h]; exact hrow.filter _
  unfold DetRow at hdet
  rw [List.pairwise_cons] at hdet
  have hti := (hmem t).1 (by simp)
  have hff : row.filter (fun t => decide (i + 1 ≤ t.1)) = (t :: ts).filter (fun t => decide (i + 1 ≤ t.1)) := by
    rw [← h, List.filter_filter]
    apply List.filter_congr
    intro a _
    by_cases h1 : i + 1 ≤ a.1
    · have : i ≤ a.1 := by omega
      simp [h1, this]
    · simp [h1]
  have hts : ts.filter (fun t => decide (i + 1 ≤ t.1)) = ts := by
    rw [List.filter_eq_self]
    intro a ha
    have := hdet.1 a ha
    simp; omega
  constructor
  · intro e
    refine ⟨?_, (rowTarget_some hrow).2 (by rw [← e]; exact hti.1)⟩
    rw [hff, List.filter_cons]
    have : decide (i + 1 ≤ t.1) = false := by simp; omega
    simp only [this, hts]; simp
  · intro e
    refine ⟨?_, ?_⟩
    · rw [hff, List.filter_cons]
      have : decide (i + 1 ≤ t.1) = true := by simp; omega
      simp only [this, hts]; simp
    · rw [rowTarget_none]
      intro hm
      obtain ⟨u, hu, hue⟩ := List.mem_map.1 hm
      have := (hmem u).2 ⟨hu, by omega⟩
      rcases List.mem_cons.1 this with e' | e'
      · rw [e'] at hue; exact e hue
      · have := hdet.1 u e'; omega

theorem mergeSym_inv {k : Nat} {row ts : List Trans} {cls0 : Nat → Nat} {i : Nat} {m : Merge} (hrow : DetRow row)
    (hk : ∀ t ∈ row, t.1 < k) (hts : ts = row.filter (fun t => decide (i ≤ t.1))) (hi : i < k)
    (h : MergeInv k row cls0 i m) :
    (mergeSym k row i ts m).1 = row.filter (fun t => decide (i + 1 ≤ t.1)) ∧
    MergeInv k row cls0 (i + 1) (mergeSym k row i ts m).2 := by
  have hstep := mergeStep_inv hrow hk hts hi h
  match ts, hts with
  | [], hts =>
    have hnone : rowTarget row i = none := by
      rw [rowTarget_none]
      intro hm
      obtain ⟨u, hu, hue⟩ := List.mem_map.1 hm
      have : u ∈ row.filter (fun t => decide (i ≤ t.1)) := by simp [hu, hue]
      rw [← hts] at this; simp at this
    rw [hnone] at hstep
    refine ⟨?_, hstep⟩
    simp only [mergeSym]
    symm
    rw [List.filter_eq_nil_iff]
    intro u hu hc
    have : u ∈ row.filter (fun t => decide (i ≤ t.1)) := by
      simp only [List.mem_filter, hu, true_and, decide_eq_true_eq] at *; omega
    rw [← hts] at this; simp at this
  | t :: ts, hts =>
    obtain ⟨g1, g2⟩ := filter_ge_eq hrow i hts.symm
    rw [mergeSym.eq_def]
    by_cases e : t.1 = i
    · obtain ⟨h1, h2⟩ := g1 e
      rw [h2] at hstep
      simp only [if_pos e]
      match ts, h1 with
      | [], h1 => exact ⟨h1, hstep⟩
      | u :: us, h1 =>
        have : u ∈ row.filter (fun t => decide (i + 1 ≤ t.1)) := by rw [← h1]; simp
        simp only [List.mem_filter, decide_eq_true_eq] at this
        have hne : u.1 ≠ i := by omega
        simp only [if_neg hne]
        exact ⟨h1, hstep⟩
    · obtain ⟨h1, h2⟩ := g2 e
      rw [h2] at hstep
      simp only [if_neg e]
      exact ⟨h1, hstep⟩

theorem mergeRow_inv {k : Nat} {row : List Trans} {cls0 : Nat → Nat} (hrow : DetRow row)
    (hk : ∀ t ∈ row, t.1 < k) : ∀ (len i : Nat) (ts : List Trans) (m : Merge), i + len = k →
    ts = row.filter (fun t => decide (i ≤ t.1)) → MergeInv k row cls0 i m →
    MergeInv k row cls0 k (mergeRow k row (List.range' i len) ts m) := by
  intro len
  induction len with
  | zero => intro i ts m hlen _ h; have : i = k := by omega
            subst this; exact h
  | succ len ih =>
    intro i ts m hlen hts h
    rw [List.range'_succ]
    simp only [mergeRow]
    obtain ⟨h1, h2⟩ := mergeSym_inv hrow hk hts (by omega) h
    exact ih (i + 1) _ _ (by omega) h1 h2

/-- What the partition satisfies after some rows. -/
structure ClassInv (k : Nat) (rows : List (List Trans)) (m : Merge) : Prop where
  uniform : ∀ row ∈ rows, ∀ s < k, ∀ s' < k, m.cls s = m.cls s' → rowTarget row s = rowTarget row s'
  lt : ∀ s < k, m.cls s < m.num
  inhabited : 0 < k → ∀ c < m.num, ∃ s < k, m.cls s = c
  small : k = 0 → m.num = 1

theorem mergeSym_num {row : List Trans} {k : Nat} : k = 0 → ∀ (m : Merge) (ts : List Trans), (mergeRow k row (List.range k) ts m).num = m.num := by
  rintro rfl m ts; rfl

theorem mergeClasses_inv (n : Ndfa) (hdet : ∀ row ∈ n.states, DetRow row) (hk : ∀ row ∈ n.states, ∀ t ∈ row, t.1 < n.syms.count) :
    ClassInv n.syms.count n.states (mergeClasses n) := by
  have key : ∀ (rest done : List (List Trans)) (m : Merge), (∀ row ∈ rest, DetRow row) → (∀ row ∈ rest, ∀ t ∈ row, t.1 < n.syms.count) →
      ClassInv n.syms.count done m → ClassInv n.syms.count (done ++ rest)
      (rest.foldl (fun m row => mergeRow n.syms.count row (List.range n.syms.count) row { m with target := fun _ => none }) m) := by
    intro rest
    induction rest with
    | nil => intro done m _ _ h; simpa using h
    | cons row rest ih =>
      intro done m hd hk h
      have := ih (done ++ [row]) (mergeRow n.syms.count row (List.range n.syms.count) row { m with target := fun _ => none })
        (fun r hr => hd r (by simp [hr])) (fun r hr => hk r (by simp [hr])) ?_
      · simpa using this
      · have hinv := mergeRow_inv (cls0 := m.cls) (hd row (by simp)) (hk row (by simp)) n.syms.count 0 row
          { m with target := fun _ => none } (by omega) (by symm; simp) ⟨by simp, by simp, h.lt, by simp, h.inhabited⟩
        rw [← List.range_eq_range'] at hinv
        refine ⟨?_, hinv.lt, hinv.inhabited, fun h0 => by rw [mergeSym_num h0]; exact h.small h0⟩
        intro r hr s hs s' hs' e
        rcases List.mem_append.1 hr with hr | hr
        · exact h.uniform r hr s hs s' hs' (hinv.refines s hs s' hs' e)
        · simp only [List.mem_singleton] at hr
          subst hr
          generalize hM : mergeRow n.syms.count r (List.range n.syms.count) r { m with target := fun _ => none } = M at *
          cases ht : M.target (M.cls s) with
          | none => exact (hinv.fresh _ ht s hs rfl s' hs' e.symm).symm
          | some v =>
            obtain ⟨h1, _⟩ := hinv.seen _ v ht
            rw [h1 s hs rfl, h1 s' hs' e.symm]
  have := key n.states [] ⟨fun _ => 0, 1, fun _ => none⟩ hdet hk ⟨by simp, by simp, fun h0 c hc => ⟨0, h0, by simp only at *; omega⟩, fun _ => rfl⟩
  simpa [mergeClasses] using this

theorem classUnion_spec (n : Ndfa) (m : Merge) (c : Nat) (hc : ∀ s ∈ n.syms.syms, SymSet.Canon s) :
    SymSet.Canon (classUnion n m c) ∧ ∀ x, Mem x (classUnion n m c) ↔ ∃ s < n.syms.count, m.cls s = c ∧ Mem x (n.syms.get s) := by
  have hget : ∀ s, SymSet.Canon (n.syms.get s) := by
    intro s
    simp only [SymbolMap.get]
    cases h : n.syms.syms[s]? with
    | none => exact SymSet.canon_nil
    | some v => exact hc v (List.mem_of_getElem? h)
  have key : ∀ (l : List Nat) (acc : SymSet), SymSet.Canon acc →
      SymSet.Canon (l.foldl (fun acc s => SymSet.union acc (n.syms.get s)) acc) ∧
      ∀ x, Mem x (l.foldl (fun acc s => SymSet.union acc (n.syms.get s)) acc) ↔ Mem x acc ∨ ∃ s ∈ l, Mem x (n.syms.get s) := by
    intro l
    induction l with
    | nil => intro acc h; exact ⟨h, by simp⟩
    | cons s l ih =>
      intro acc h
      obtain ⟨h1, h2⟩ := SymSet.union_spec acc (n.syms.get s) h (hget s).2
      obtain ⟨h3, h4⟩ := ih _ h1
      refine ⟨h3, fun x => ?_⟩
      rw [List.foldl_cons, h4, h2]
      simp [or_assoc]
  obtain ⟨h1, h2⟩ := key ((List.range n.syms.count).filter (fun s => m.cls s == c)) [] SymSet.canon_nil
  refine ⟨h1, fun x => ?_⟩
  rw [classUnion, h2]
  simp [SymSet.mem_nil, and_assoc]

/-- Registering distinct sets numbers them from 0. -/
theorem register_distinct (f : Nat → SymSet) : ∀ (k : Nat), (∀ i < k, ∀ j < k, f i = f j → i = j) →
    ((List.range k).foldl (fun map c => (map.identifierFor (f c)).1) SymbolMap.empty).Inv ∧
    ((List.range k).foldl (fun map c => (map.identifierFor (f c)).1) SymbolMap.empty).syms = (List.range k).map f := by
  intro k
  induction k with
  | zero => intro _; exact ⟨SymbolMap.inv_empty, rfl⟩
  | succ k ih =>
    intro h
    obtain ⟨h1, h2⟩ := ih (fun i hi j hj => h i (by omega) j (by omega))
    rw [List.range_succ, List.foldl_append, List.map_append]
    generalize (List.range k).foldl (fun map c => (map.identifierFor (f c)).1) SymbolMap.empty = M at *
    obtain ⟨g1, g2, g3, g4⟩ := SymbolMap.identifierFor_spec M (f k) h1
    refine ⟨g1, ?_⟩
    rcases g4 with g4 | ⟨g4, _, _⟩
    · exfalso
      rw [g4] at g2
      have := List.mem_of_getElem? g2
      rw [h2, List.mem_map] at this
      obtain ⟨i, hi, e⟩ := this
      have hi := List.mem_range.1 hi
      have := h i (by omega) k (by omega) e
      omega
    · simp only [List.foldl_cons, List.foldl_nil]
      rw [g4, h2]; rfl

end Ndfa
end TameParse

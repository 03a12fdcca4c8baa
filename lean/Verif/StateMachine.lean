import Verif.Merge
import Verif.Search
/-
Model of the state machine tables.

Sources: /repo/TameParse/Dfa/state_machine.h (rows 47-182, `state_machine` 195-291, `state_machine_tables` 296-378),
/repo/TameParse/Compiler/output_stage.cpp 192-208 and /repo/TameParse/Compiler/OutputStages/cplusplus.cpp 470-576 (the tables
written into generated lexers).

An access outside an array is the outcome `none`; inside, `some none` is the value -1 ("no transition").
-/
namespace TameParse
namespace Ndfa
open SymSet (Mem)

/-- `state_machine_flat_table::fill` (state_machine.h 62-75). -/
def flatFill (maxSet : Nat) (row : List Trans) : Option (List (Option Nat)) :=
  row.foldlM (fun (m : List (Option Nat)) t => if t.1 < m.length then some (m.set t.1 (some t.2)) else none)
    (List.replicate maxSet none)

/-- `state_machine_flat_table::operator[]` (state_machine.h 83-85). -/
def flatGet (m : List (Option Nat)) (s : Nat) : Option (Option Nat) := m[s]?

/-- `std::lower_bound` with `compare_entries` between two positions of an array of entries, and the two tests after it
(state_machine.h 163-176 and 342-353). -/
def entrySearch (a : List Trans) (first last s : Nat) : Option (Option Nat) :=
  let p := lowerBoundPos (fun i => decide (((a[i]?).getD (0, 0)).1 < s)) first last
  if p = last then some none
  else match a[p]? with
    | none => none
    | some e => if e.1 ≠ s then some none else some (some e.2)

/-- `state_machine_compact_table::fill` (state_machine.h 137-153) with `sort` standing for `std::sort`. -/
def compactFill (sort : List Trans → List Trans) (row : List Trans) : List Trans := sort row

/-- `state_machine_compact_table::operator[]` (state_machine.h 163-176). -/
def compactGet (m : List Trans) (s : Nat) : Option (Option Nat) := entrySearch m 0 m.length s

/-- `std::sort` with `compare_entries`: a permutation with non-decreasing symbol sets. -/
structure IsSort (sort : List Trans → List Trans) : Prop where
  perm : ∀ l, (sort l).Perm l
  sorted : ∀ l, (sort l).Pairwise (fun a b => a.1 ≤ b.1)

/-- `state_machine::run` (state_machine.h 265-290) over rows looked up with `get`, with `translate` the symbol
translator (`none` for `symbol_set::null`). -/
def smRun {row : Type} (rows : List row) (get : row → Nat → Option (Option Nat)) (translate : Int → Option Nat) (q : Nat) (x : Int) :
    Option (Option Nat) :=
  match rows[q]? with
  | none => some none
  | some r =>
    match translate x with
    | none => some none
    | some s => get r s

/-- The list of transitions that the output stage goes through (output_stage.cpp 192-208). -/
def lexerTransitions : Nat → List (List Trans) → List (Nat × Trans)
  | _, [] => []
  | q, row :: rest => row.map (fun t => (q, t)) ++ lexerTransitions (q + 1) rest

/-- Append `pos` until the list has more than `q` elements (cplusplus.cpp 496-498). -/
def padOffsets (l : List Nat) (q pos : Nat) : List Nat := l ++ List.replicate (q + 1 - l.length) pos

/-- The loop that fills `stateToEntryOffset` (cplusplus.cpp 482-519). Offsets are only added when the state changes; as
the transitions are ordered by state, adding them for every transition is the same. -/
def offsetLoop : List Nat → Nat → List (Nat × Trans) → List Nat × Nat
  | l, pos, [] => (l, pos)
  | l, pos, (q, _) :: rest => offsetLoop (padOffsets l q pos) (pos + 1) rest

/-- The tables written into a generated lexer: the entries, and the start of each state. The last element of
`stateToEntryOffset`, which marks the end of the last state, is pushed (cplusplus.cpp 523) but not written (529). -/
structure GenTable where
  entries : List Trans
  starts : List Nat

def genTable (rows : List (List Trans)) : GenTable :=
  let ts := lexerTransitions 0 rows
  let r := offsetLoop [0] 0 ts
  ⟨ts.map (·.2), (r.1 ++ [r.2]).dropLast⟩

/-- `state_machine_tables::run_unsafe_set` (state_machine.h 334-353). -/
def GenTable.get (g : GenTable) (q s : Nat) : Option (Option Nat) :=
  match g.starts[q]?, g.starts[q + 1]? with
  | some a, some b => if b = a then some none else entrySearch g.entries a b s
  | _, _ => none

/-! ## Lemmas -/

theorem flatFill_spec (row : List Trans) (hrow : DetRow row) : ∀ (m : List (Option Nat)), (∀ t ∈ row, t.1 < m.length) →
    ∃ m', row.foldlM (fun (m : List (Option Nat)) t => if t.1 < m.length then some (m.set t.1 (some t.2)) else none) m = some m' ∧
      m'.length = m.length ∧ ∀ s, m'[s]? = if s < m.length then
        (match rowTarget row s with | some q => some (some q) | none => m[s]?) else none := by
  induction row with
  | nil =>
    intro m _
    refine ⟨m, rfl, rfl, fun s => ?_⟩
    simp only [rowTarget, List.find?_nil, Option.map_none]
    split
    · rfl
    · rw [List.getElem?_eq_none (by omega)]
  | cons t r ih =>
    intro m hm
    have hr : DetRow r := List.Pairwise.of_cons hrow
    rw [List.foldlM_cons]
    have ht := hm t (by simp)
    simp only [if_pos ht]
    obtain ⟨m', h1, h2, h3⟩ := ih hr (m.set t.1 (some t.2)) (fun u hu => by rw [List.length_set]; exact hm u (by simp [hu]))
    refine ⟨m', h1, by rw [h2, List.length_set], fun s => ?_⟩
    rw [h3, List.length_set]
    by_cases hs : s < m.length
    · simp only [if_pos hs]
      by_cases e : t.1 = s
      · subst e
        have hn : rowTarget r t.1 = none := by
          rw [rowTarget_none]
          intro hmem
          obtain ⟨u, hu, hue⟩ := List.mem_map.1 hmem
          have := (List.pairwise_cons.1 hrow).1 u hu
          omega
        have hc : rowTarget (t :: r) t.1 = some t.2 := by simp [rowTarget]
        rw [hn, hc]
        simp [List.getElem?_set_self hs]
      · have hc : rowTarget (t :: r) s = rowTarget r s := by
          have : (t.1 == s) = false := by simpa using e
          simp [rowTarget, this]
        rw [hc, List.getElem?_set_ne e]
    · simp only [if_neg hs]

theorem entrySearch_spec (pre mid post : List Trans) (hmid : DetRow mid) (s : Nat) :
    entrySearch (pre ++ mid ++ post) pre.length (pre.length + mid.length) s = some (rowTarget mid s) := by
  have hget : ∀ i, pre.length ≤ i → i < pre.length + mid.length → (pre ++ mid ++ post)[i]? = mid[i - pre.length]? := by
    intro i h1 h2
    rw [List.append_assoc, List.getElem?_append_right h1, List.getElem?_append_left (by omega)]
  have hlt : ∀ (i j : Nat) (a b : Trans), i < j → mid[i]? = some a → mid[j]? = some b → a.1 < b.1 := by
    intro i j a b hij ha hb
    obtain ⟨hi, rfl⟩ := List.getElem?_eq_some_iff.1 ha
    obtain ⟨hj, rfl⟩ := List.getElem?_eq_some_iff.1 hb
    exact (List.pairwise_iff_getElem.1 hmid) i j hi hj hij
  obtain ⟨h1, h2, h3, h4⟩ := lowerBoundPos_spec (fun i => decide (((((pre ++ mid ++ post)[i]?).getD (0, 0)).1 < s)))
    pre.length (pre.length + mid.length) (by omega) (by
      intro i j hi hij hj hp
      by_cases e : i = j
      · rw [e]; exact hp
      · simp only [decide_eq_true_eq] at *
        rw [hget j (by omega) hj] at hp
        rw [hget i hi (by omega)]
        have hj' : j - pre.length < mid.length := by omega
        have hi' : i - pre.length < mid.length := by omega
        rw [List.getElem?_eq_getElem hj'] at hp
        rw [List.getElem?_eq_getElem hi']
        have := hlt (i - pre.length) (j - pre.length) _ _ (by omega) (List.getElem?_eq_getElem hi') (List.getElem?_eq_getElem hj')
        simp only [Option.getD_some] at *
        omega)
  simp only [entrySearch]
  generalize hp : lowerBoundPos (fun i => decide (((((pre ++ mid ++ post)[i]?).getD (0, 0)).1 < s))) pre.length
    (pre.length + mid.length) = p at *
  have habs : ∀ k (hk : k < mid.length), pre.length + k < p → mid[k].1 < s := by
    intro k hk hkp
    have := h3 (pre.length + k) (by omega) hkp
    rw [hget _ (by omega) (by omega)] at this
    simpa [List.getElem?_eq_getElem hk] using this
  have habs2 : ∀ k (hk : k < mid.length), p ≤ pre.length + k → s ≤ mid[k].1 := by
    intro k hk hkp
    have := h4 (pre.length + k) hkp (by omega)
    rw [hget _ (by omega) (by omega)] at this
    simpa [List.getElem?_eq_getElem hk] using this
  by_cases he : p = pre.length + mid.length
  · rw [if_pos he]
    congr 1
    symm
    rw [rowTarget_none]
    intro hm
    obtain ⟨t, ht, hts⟩ := List.mem_map.1 hm
    obtain ⟨k, hk, hkt⟩ := List.mem_iff_getElem.1 ht
    have := habs k hk (by omega)
    rw [hkt] at this; omega
  · rw [if_neg he]
    have hk : p - pre.length < mid.length := by omega
    rw [hget p h1 (by omega), List.getElem?_eq_getElem hk]
    have hge := habs2 (p - pre.length) hk (by omega)
    simp only
    by_cases hs : mid[p - pre.length].1 = s
    · have hne : ¬ (mid[p - pre.length].1 ≠ s) := by simpa using hs
      rw [if_neg hne]
      congr 1
      symm
      rw [rowTarget_some hmid]
      have := List.getElem_mem hk
      rw [← hs]; exact this
    · rw [if_pos hs]
      congr 1
      symm
      rw [rowTarget_none]
      intro hm
      obtain ⟨t, ht, hts⟩ := List.mem_map.1 hm
      obtain ⟨k, hk', hkt⟩ := List.mem_iff_getElem.1 ht
      by_cases hkp : pre.length + k < p
      · have := habs k hk' hkp
        rw [hkt] at this; omega
      · have h5 : p - pre.length < k ∨ p - pre.length = k := by omega
        rcases h5 with h5 | h5
        · have := hlt _ _ _ _ h5 (List.getElem?_eq_getElem hk) (List.getElem?_eq_getElem hk')
          rw [hkt] at this; omega
        · subst h5; rw [hkt] at hs; exact hs hts

theorem sort_det (sort : List Trans → List Trans) (hs : IsSort sort) (row : List Trans) (h : DetRow row) : sort row = row := by
  have hp := hs.perm row
  have hso := hs.sorted row
  have hdet : DetRow (sort row) := by
    unfold DetRow
    have hnd : (row.map (·.1)).Nodup := by
      rw [List.nodup_iff_pairwise_ne, List.pairwise_map]
      exact h.imp (fun hlt => by omega)
    have hnd' : ((sort row).map (·.1)).Nodup := (hp.map (·.1)).nodup_iff.2 hnd
    rw [List.nodup_iff_pairwise_ne, List.pairwise_map] at hnd'
    exact (hso.and hnd').imp (fun hlt => by omega)
  refine List.Perm.eq_of_pairwise (le := fun a b : Trans => a.1 < b.1) ?_ hdet h hp
  intro a b _ _ h1 h2
  omega

end Ndfa
end TameParse

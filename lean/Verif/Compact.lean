import Verif.StateMachineProps
/-
Model of `ndfa::to_compact_dfa` (DFA minimisation).

Source: /repo/TameParse/Dfa/ndfa_transformations.cpp 242-457.

Notes:
* `stateForActions` (279) is searched (321) but never written, so the search always fails and the accept actions (and the
  `firstAction` argument) have no influence on the partition; they are left out.
* `oldToNew` is a function; every state is entered before the first read (the map holds the initial states when the loop
  at 282 tests it, so the test is membership in `initial`).
-/
namespace TameParse
namespace Ndfa
open SymSet (Mem)

/-- `newStates` and `oldToNew`. -/
structure Compact where
  sets : List (List Nat)
  cls : Nat → Nat

/-- The initial states, each alone (ndfa_transformations.cpp 263-271). -/
def compactInitial (initial : List Nat) : Compact :=
  initial.foldl (fun c q => ⟨c.sets ++ [[q]], fun p => if p = q then c.sets.length else c.cls p⟩) ⟨[], fun _ => 0⟩

/-- Put a state in a set. -/
def Compact.put (c : Compact) (i q : Nat) : Compact :=
  ⟨c.sets.modify i (fun S => insertId S q), fun p => if p = q then i else c.cls p⟩

/-- One state of the first partition (ndfa_transformations.cpp 282-337). Note `targetState = size()-1` before
`push_back` (326-327). -/
def compactPlace (n : Ndfa) (initial : List Nat) (nonAccepting : Nat) (c : Compact) (q : Nat) : Compact :=
  if q ∈ initial then c
  else if n.accept q = [] then c.put nonAccepting q
  else ({ c with sets := c.sets ++ [[]] } : Compact).put (c.sets.length - 1) q

/-- The first partition (ndfa_transformations.cpp 258-337). -/
def compactStart (n : Ndfa) (initial : List Nat) : Compact :=
  let c := compactInitial initial
  (List.range n.states.length).foldl (compactPlace n initial c.sets.length) { c with sets := c.sets ++ [[]] }

/-- `targetStateForSymbol` (ndfa_transformations.cpp 352-359): the last transition with a symbol set wins. -/
def templateMap (row : List Trans) (cls : Nat → Nat) (s : Nat) : Option Nat :=
  (row.reverse.find? (fun t => t.1 == s)).map (fun t => cls t.2)

/-- The test `different` (ndfa_transformations.cpp 369-389). -/
def isDifferent (row : List Trans) (cls : Nat → Nat) (num : Nat) (tmap : Nat → Option Nat) : Bool :=
  decide (row.length ≠ num) || row.any (fun t => decide (tmap t.1 ≠ some (cls t.2)))

/-- One state compared with the template (ndfa_transformations.cpp 366-406): partition, `splitStateId`, `toRemove`. -/
def splitStep (n : Ndfa) (num : Nat) (tmap : Nat → Option Nat) (acc : Compact × Option Nat × List Nat) (q : Nat) :
    Compact × Option Nat × List Nat :=
  if isDifferent (n.trans q) acc.1.cls num tmap then
    match acc.2.1 with
    | none => (({ acc.1 with sets := acc.1.sets ++ [[]] } : Compact).put (acc.1.sets.length - 1) q, some (acc.1.sets.length - 1),
        acc.2.2 ++ [q])
    | some s => (acc.1.put s q, some s, acc.2.2 ++ [q])
  else acc

/-- Body of the loop over the new states (ndfa_transformations.cpp 347-412); the flag says whether something changed. -/
def splitSet (n : Ndfa) (c : Compact) (i : Nat) : Compact × Bool :=
  match (c.sets[i]?).getD [] with
  | [] => (c, false)
  | t :: others =>
    if others = [] then (c, false)
    else
      let r := others.foldl (splitStep n (n.trans t).length (templateMap (n.trans t) c.cls)) (c, none, [])
      ({ r.1 with sets := r.1.sets.modify i (fun S => S.filter (fun q => !r.2.2.contains q)) }, r.2.1.isSome)

/-- One pass (ndfa_transformations.cpp 346-413). The bound `newStates.size()` is read again in every iteration. -/
def splitPass (n : Ndfa) : Nat → Nat → Compact → Bool → Option (Compact × Bool)
  | fuel, i, c, changed =>
    if i < c.sets.length then
      match fuel with
      | 0 => none
      | fuel + 1 =>
        let r := splitSet n c i
        splitPass n fuel (i + 1) r.1 (changed || r.2)
    else some (c, changed)

/-- The loop `while (changed)` (ndfa_transformations.cpp 340-414). -/
def splitLoop (n : Ndfa) (passFuel : Nat) : Nat → Compact → Option Compact
  | 0, _ => none
  | fuel + 1, c => do
    let r ← splitPass n passFuel 0 c false
    if r.2 then splitLoop n passFuel fuel r.1 else return r.1

/-- The state made from a set (ndfa_transformations.cpp 427-440). -/
def compactRow (n : Ndfa) (cls : Nat → Nat) (S : List Nat) : List Trans :=
  match S with
  | [] => []
  | t :: _ => (n.trans t).foldl (fun acc u => addTrans acc (u.1, cls u.2)) []

/-- `to_compact_dfa` (ndfa_transformations.cpp 242-457). Empty sets are skipped, so a state's position in the vector is its
number only if no empty set comes before it (425-428). -/
def toCompact (n : Ndfa) (initial : List Nat) : Option Ndfa := do
  let c ← splitLoop n (2 * n.states.length + initial.length + 3) (n.states.length + 2) (compactStart n initial)
  return ⟨(c.sets.filter (fun S => !S.isEmpty)).map (compactRow n c.cls), n.syms,
    fun i => match (c.sets[i]?).getD [] with
      | [] => []
      | t :: _ => n.accept t⟩

/-! ## Lemmas -/

/-- The partition is `body` followed by one empty set. `G` tells which states may share a set with another. -/
structure CInv (n : Ndfa) (initial : List Nat) (G : Nat → Prop) (body : List (List Nat)) (cls : Nat → Nat) : Prop where
  ok : ∀ S ∈ body, SetOk S
  mem : ∀ (i : Nat) S, body[i]? = some S → ∀ q, q ∈ S ↔ q < n.states.length ∧ cls q = i
  ne : ∀ S ∈ body, S ≠ []
  lt : ∀ q < n.states.length, cls q < body.length
  init : ∀ (k : Nat) q, initial[k]? = some q → body[k]? = some [q]
  group : ∀ q < n.states.length, ∀ q' < n.states.length, cls q = cls q' → q ≠ q' → G q ∧ G q'

theorem CInv.length_le {n initial G body cls} (h : CInv n initial G body cls) : body.length ≤ n.states.length := by
  have hh : ∀ i, i < body.length → ∃ q, q < n.states.length ∧ cls q = i := by
    intro i hi
    obtain ⟨q, hq⟩ := List.exists_mem_of_ne_nil _ (h.ne _ (List.getElem_mem hi))
    exact ⟨q, (h.mem i _ (List.getElem?_eq_getElem hi) q).1 hq⟩
  have hh' : ∀ i, ∃ q, i < body.length → q < n.states.length ∧ cls q = i := by
    intro i
    by_cases hi : i < body.length
    · obtain ⟨q, hq⟩ := hh i hi; exact ⟨q, fun _ => hq⟩
    · exact ⟨0, fun h => absurd h hi⟩
  have hnd : ((List.range body.length).map (fun i => (hh' i).choose)).Nodup := by
    rw [List.nodup_iff_pairwise_ne, List.pairwise_map]
    refine (List.pairwise_lt_range (n := body.length)).imp_of_mem ?_
    intro a b ha hb hab e
    have h1 := (hh' a).choose_spec (List.mem_range.1 ha)
    have h2 := (hh' b).choose_spec (List.mem_range.1 hb)
    rw [e] at h1
    omega
  have hsub : ((List.range body.length).map (fun i => (hh' i).choose)) ⊆ List.range n.states.length := by
    intro s hs
    obtain ⟨c, hc1, rfl⟩ := List.mem_map.1 hs
    exact List.mem_range.2 ((hh' c).choose_spec (List.mem_range.1 hc1)).1
  have := (hnd.subperm hsub).length_le
  simpa using this

theorem modify_mid {α : Type} (f : α → α) (body : List α) (x : α) (rest : List α) :
    (body ++ x :: rest).modify body.length f = body ++ f x :: rest := by
  induction body with
  | nil => rfl
  | cons b t ih => simpa using ih

/-- The comparison loop on a partition that ends with an empty set. -/
theorem splitFold_spec (n : Ndfa) (num : Nat) (tmap : Nat → Option Nat) (body : List (List Nat)) (cls : Nat → Nat) :
    ∀ (others : List Nat),
    let r := others.foldl (splitStep n num tmap) (⟨body ++ [[]], cls⟩, none, [])
    (r = (⟨body ++ [[]], cls⟩, none, []) ∧ ∀ q ∈ others, isDifferent (n.trans q) cls num tmap = false) ∨
    ∃ S, S ≠ [] ∧ SetOk S ∧ (∀ q ∈ S, q ∈ others) ∧ (∀ q, q ∈ r.2.2 ↔ q ∈ S) ∧ r.2.1 = some body.length ∧
      r.1.sets = body ++ [S, []] ∧ r.1.cls = fun q => if q ∈ S then body.length else cls q := by
  intro others
  have key : ∀ (rest done : List Nat) (acc : Compact × Option Nat × List Nat),
      ((acc = (⟨body ++ [[]], cls⟩, none, []) ∧ ∀ q ∈ done, isDifferent (n.trans q) cls num tmap = false) ∨
      ∃ S, S ≠ [] ∧ SetOk S ∧ (∀ q ∈ S, q ∈ done) ∧ (∀ q, q ∈ acc.2.2 ↔ q ∈ S) ∧ acc.2.1 = some body.length ∧
        acc.1.sets = body ++ [S, []] ∧ acc.1.cls = fun q => if q ∈ S then body.length else cls q) →
      let r := rest.foldl (splitStep n num tmap) acc
      ((r = (⟨body ++ [[]], cls⟩, none, []) ∧ ∀ q ∈ done ++ rest, isDifferent (n.trans q) cls num tmap = false) ∨
      ∃ S, S ≠ [] ∧ SetOk S ∧ (∀ q ∈ S, q ∈ done ++ rest) ∧ (∀ q, q ∈ r.2.2 ↔ q ∈ S) ∧ r.2.1 = some body.length ∧
        r.1.sets = body ++ [S, []] ∧ r.1.cls = fun q => if q ∈ S then body.length else cls q) := by
    intro rest
    induction rest with
    | nil => intro done acc h; simpa using h
    | cons q rest ih =>
      intro done acc h
      have := ih (done ++ [q]) (splitStep n num tmap acc q) ?_
      · simpa using this
      · rcases h with ⟨rfl, h2⟩ | ⟨S, h1, h2, h3, h4, h5, h6, h7⟩
        · simp only [splitStep]
          cases hd : isDifferent (n.trans q) cls num tmap with
          | false =>
            left
            refine ⟨by simp, fun p hp => ?_⟩
            rcases List.mem_append.1 hp with hp | hp
            · exact h2 p hp
            · simp only [List.mem_singleton] at hp; rw [hp]; exact hd
          | true =>
            right
            refine ⟨[q], by simp, by simp [SetOk], by simp, by simp, by simp, ?_, ?_⟩
            · simp [Compact.put, modify_mid, insertId]
            · simp only [if_true, Compact.put, List.mem_singleton]
              funext p; simp
        · obtain ⟨c, sp, rm⟩ := acc
          simp only at h4 h5 h6 h7
          subst h5
          simp only [splitStep]
          split
          · right
            refine ⟨insertId S q, ?_, setOk_insertId h2, ?_, ?_, rfl, ?_, ?_⟩
            · intro e; have := mem_insertId.2 (.inl rfl : q = q ∨ q ∈ S); rw [e] at this; simp at this
            · intro p hp
              rcases mem_insertId.1 hp with rfl | hp
              · simp
              · exact List.mem_append_left _ (h3 p hp)
            · intro p
              rw [mem_insertId, List.mem_append, h4, List.mem_singleton]
              exact Or.comm
            · simp [Compact.put, h6, modify_mid]
            · simp only [Compact.put, h7]
              funext p
              simp only [mem_insertId]
              by_cases e : p = q
              · simp [e]
              · simp [e]
          · right
            exact ⟨S, h1, h2, fun p hp => List.mem_append_left _ (h3 p hp), h4, rfl, h6, h7⟩
  have := key others [] (⟨body ++ [[]], cls⟩, none, []) (.inl ⟨rfl, by simp⟩)
  simpa using this

/-- All the states of set `i` look like its first state. -/
def UniformAt (n : Ndfa) (c : Compact) (i : Nat) : Prop :=
  match (c.sets[i]?).getD [] with
  | [] => True
  | t :: others => ∀ q ∈ others, isDifferent (n.trans q) c.cls (n.trans t).length (templateMap (n.trans t) c.cls) = false

theorem splitSet_spec (n : Ndfa) (initial : List Nat) (G : Nat → Prop) (body : List (List Nat)) (cls : Nat → Nat)
    (h : CInv n initial G body cls) (i : Nat) :
    (splitSet n ⟨body ++ [[]], cls⟩ i = (⟨body ++ [[]], cls⟩, false) ∧ UniformAt n ⟨body ++ [[]], cls⟩ i) ∨
    ∃ body' cls', splitSet n ⟨body ++ [[]], cls⟩ i = (⟨body' ++ [[]], cls'⟩, true) ∧ CInv n initial G body' cls' ∧
      body'.length = body.length + 1 := by
  by_cases hi : i < body.length
  · have hget : (body ++ [[]])[i]? = some body[i] := by
      rw [List.getElem?_append_left hi, List.getElem?_eq_getElem hi]
    have hbi : body[i]? = some body[i] := List.getElem?_eq_getElem hi
    generalize hS : body[i] = S at hget hbi
    simp only [splitSet, UniformAt, hget, Option.getD_some]
    match S, hget, hbi, hS with
    | [], _, _, _ => exact .inl ⟨rfl, trivial⟩
    | t :: others, hget, hbi, hS =>
      by_cases ho : others = []
      · subst ho; left; simp
      · simp only [if_neg ho]
        have hmemS := h.mem i _ hbi
        have hok := h.ok _ (List.mem_of_getElem? hbi)
        unfold SetOk at hok
        rw [List.pairwise_cons] at hok
        have hsp := splitFold_spec n (n.trans t).length (templateMap (n.trans t) cls) body cls others
        simp only at hsp
        generalize hr : others.foldl (splitStep n (n.trans t).length (templateMap (n.trans t) cls)) (⟨body ++ [[]], cls⟩, none, []) = r at hsp
        rcases hsp with ⟨rfl, h2⟩ | ⟨S, h1, h2, h3, h4, h5, h6, h7⟩
        · left
          refine ⟨?_, h2⟩
          have hid : (body ++ [[]]).modify i (fun S => S.filter (fun q => !([] : List Nat).contains q)) = body ++ [[]] := by
            apply List.ext_getElem?
            intro j
            rw [List.getElem?_modify]
            split
            · cases (body ++ [[]])[j]? <;> simp
            · cases (body ++ [[]])[j]? <;> simp
          simp only [hid]; rfl
        · right
          obtain ⟨c, sp, rm⟩ := r
          simp only at h4 h5 h6 h7
          subst h5
          refine ⟨body.set i ((t :: others).filter (fun q => !rm.contains q)) ++ [S],
            fun q => if q ∈ S then body.length else cls q, ?_, ?_, by simp⟩
          · simp only [h6, h7, Option.isSome_some, Prod.mk.injEq, and_true]
            congr 1
            apply List.ext_getElem?
            intro j
            rw [List.getElem?_modify]
            by_cases hji : i = j
            · subst hji
              simp only [if_true, List.append_assoc]
              rw [List.getElem?_append_left hi, hbi, List.getElem?_append_left (by simpa using hi),
                List.getElem?_set_self hi]
              rfl
            · simp only [if_neg hji, List.append_assoc]
              by_cases hj : j < body.length
              · rw [List.getElem?_append_left hj, List.getElem?_append_left (by simpa using hj), List.getElem?_set_ne hji]
                simp
              · rw [List.getElem?_append_right (by omega), List.getElem?_append_right (by simp; omega)]
                simp
          · have hSlt : ∀ q ∈ S, q < n.states.length ∧ cls q = i := fun q hq => (hmemS q).1 (by simp [h3 q hq])
            have htS : t ∉ S := by
              intro ht
              have := hok.1 t (h3 t ht)
              omega
            have hnew : ∀ (j : Nat) T, (body.set i ((t :: others).filter (fun q => !rm.contains q)) ++ [S])[j]? = some T →
                (j = i ∧ T = (t :: others).filter (fun q => !rm.contains q)) ∨ (j = body.length ∧ T = S) ∨
                (j ≠ i ∧ j < body.length ∧ body[j]? = some T) := by
              intro j T hj
              by_cases hjl : j < body.length
              · rw [List.getElem?_append_left (by simpa using hjl)] at hj
                by_cases hji : i = j
                · subst hji
                  rw [List.getElem?_set_self hi] at hj
                  exact .inl ⟨rfl, (Option.some.inj hj).symm⟩
                · rw [List.getElem?_set_ne hji] at hj
                  exact .inr (.inr ⟨fun e => hji e.symm, hjl, hj⟩)
              · rw [List.getElem?_append_right (by simp; omega)] at hj
                simp only [List.length_set] at hj
                have hj0 : j - body.length = 0 := by
                  by_cases h0 : j - body.length = 0
                  · exact h0
                  · rw [List.getElem?_eq_none (by simp; omega)] at hj; simp at hj
                rw [hj0] at hj
                exact .inr (.inl ⟨by omega, by simpa using hj.symm⟩)
            refine ⟨?_, ?_, ?_, ?_, ?_, ?_⟩
            · intro T hT
              obtain ⟨j, hj, rfl⟩ := List.mem_iff_getElem.1 hT
              rcases hnew j _ (List.getElem?_eq_getElem hj) with ⟨_, e⟩ | ⟨_, e⟩ | ⟨_, _, e⟩
              · rw [e]; exact List.Pairwise.filter _ (by rw [List.pairwise_cons]; exact hok)
              · rw [e]; exact h2
              · exact h.ok _ (List.mem_of_getElem? e)
            · intro j T hj q
              rcases hnew j T hj with ⟨rfl, rfl⟩ | ⟨rfl, rfl⟩ | ⟨hji, hjl, e⟩
              · rw [List.mem_filter, hmemS]
                simp only [Bool.not_eq_true', List.contains_iff_mem, ← Bool.not_eq_true, h4]
                by_cases hqS : q ∈ S
                · simp only [hqS, not_true_eq_false, and_false, if_true, false_iff]; omega
                · simp [hqS]
              · by_cases hqS : q ∈ T
                · simp [hqS, (hSlt q hqS).1]
                · simp only [hqS, if_false, false_iff]
                  rintro ⟨hq, e⟩
                  have := h.lt q hq
                  omega
              · rw [h.mem j T e]
                by_cases hqS : q ∈ S
                · simp only [hqS, if_true]
                  have := hSlt q hqS
                  constructor
                  · rintro ⟨_, e⟩; omega
                  · rintro ⟨_, e⟩; omega
                · simp [hqS]
            · intro T hT
              obtain ⟨j, hj, rfl⟩ := List.mem_iff_getElem.1 hT
              rcases hnew j _ (List.getElem?_eq_getElem hj) with ⟨_, e⟩ | ⟨_, e⟩ | ⟨_, _, e⟩
              · rw [e]
                intro e'
                have : t ∈ (t :: others).filter (fun q => !rm.contains q) := by
                  rw [List.mem_filter]
                  refine ⟨by simp, ?_⟩
                  simp only [Bool.not_eq_true', ← Bool.not_eq_true, List.contains_iff_mem, h4]; exact htS
                rw [e'] at this; simp at this
              · rw [e]; exact h1
              · exact h.ne _ (List.mem_of_getElem? e)
            · intro q hq
              simp only [List.length_append, List.length_set, List.length_singleton]
              have := h.lt q hq
              split <;> omega
            · intro k q hk
              have hbk := h.init k q hk
              have hkl := (List.getElem?_eq_some_iff.1 hbk).1
              rw [List.getElem?_append_left (by simpa using hkl)]
              by_cases hki : i = k
              · subst hki
                rw [hbi] at hbk
                have := Option.some.inj hbk
                simp only [List.cons.injEq] at this
                exact absurd this.2 ho
              · rw [List.getElem?_set_ne hki]; exact hbk
            · intro q hq q' hq' e hne
              by_cases h1 : q ∈ S <;> by_cases h2 : q' ∈ S
              · exact h.group q hq q' hq' ((hSlt q h1).2.trans (hSlt q' h2).2.symm) hne
              · simp only [h1, h2, if_true, if_false] at e
                have := h.lt q' hq'; omega
              · simp only [h1, h2, if_true, if_false] at e
                have := h.lt q hq; omega
              · simp only [h1, h2, if_false] at e
                exact h.group q hq q' hq' e hne
  · left
    have : ((body ++ [[]])[i]?).getD ([] : List Nat) = [] := by
      rw [List.getElem?_append_right (by omega)]
      cases hx : ([[]] : List (List Nat))[i - body.length]? with
      | none => rfl
      | some v =>
        have := List.mem_of_getElem? hx
        simp at this; simp [this]
    simp only [splitSet, UniformAt, this]
    simp

theorem splitPass_spec (n : Ndfa) (initial : List Nat) (G : Nat → Prop) : ∀ (fuel i : Nat) (body : List (List Nat)) (cls : Nat → Nat)
    (changed : Bool), CInv n initial G body cls → n.states.length + 1 ≤ fuel + i →
    ∃ body' cls' changed', splitPass n fuel i ⟨body ++ [[]], cls⟩ changed = some (⟨body' ++ [[]], cls'⟩, changed') ∧
      CInv n initial G body' cls' ∧ body.length ≤ body'.length ∧
      (changed' = false → changed = false ∧ body' = body ∧ cls' = cls ∧ ∀ j, i ≤ j → UniformAt n ⟨body ++ [[]], cls⟩ j) ∧
      (changed' = true → changed = true ∨ body.length < body'.length) := by
  intro fuel
  induction fuel with
  | zero =>
    intro i body cls changed h hf
    have hl := h.length_le
    unfold splitPass
    have : ¬ i < (body ++ [[]]).length := by simp; omega
    simp only [if_neg this]
    refine ⟨body, cls, changed, rfl, h, Nat.le_refl _, fun e => ⟨e, rfl, rfl, fun j hj => ?_⟩, fun e => .inl e⟩
    have : (body ++ [[]])[j]? = none := List.getElem?_eq_none (by simp; omega)
    simp [UniformAt, this]
  | succ f ih =>
    intro i body cls changed h hf
    have hl := h.length_le
    unfold splitPass
    by_cases hi : i < (body ++ [[]]).length
    · simp only [if_pos hi]
      rcases splitSet_spec n initial G body cls h i with ⟨e, hu⟩ | ⟨body', cls', e, h', hlen⟩
      · rw [e]
        simp only [Bool.or_false]
        obtain ⟨b2, c2, ch2, h1, h2, h3, h4, h5⟩ := ih (i + 1) body cls changed h (by omega)
        refine ⟨b2, c2, ch2, h1, h2, h3, fun e2 => ?_, h5⟩
        obtain ⟨g1, g2, g3, g4⟩ := h4 e2
        refine ⟨g1, g2, g3, fun j hj => ?_⟩
        by_cases hji : j = i
        · rw [hji]; exact hu
        · exact g4 j (by omega)
      · rw [e]
        simp only [Bool.or_true]
        obtain ⟨b2, c2, ch2, h1, h2, h3, h4, h5⟩ := ih (i + 1) body' cls' true h' (by omega)
        refine ⟨b2, c2, ch2, h1, h2, by omega, fun e2 => ?_, fun _ => .inr (by omega)⟩
        have := (h4 e2).1
        simp at this
    · simp only [if_neg hi]
      refine ⟨body, cls, changed, rfl, h, Nat.le_refl _, fun e => ⟨e, rfl, rfl, fun j hj => ?_⟩, fun e => .inl e⟩
      have : (body ++ [[]])[j]? = none := List.getElem?_eq_none (by omega)
      simp [UniformAt, this]

theorem splitLoop_spec (n : Ndfa) (initial : List Nat) (G : Nat → Prop) (pf : Nat) (hpf : n.states.length + 1 ≤ pf) :
    ∀ (fuel : Nat) (body : List (List Nat)) (cls : Nat → Nat), CInv n initial G body cls → n.states.length + 1 ≤ fuel + body.length →
    1 ≤ fuel →
    ∃ body' cls', splitLoop n pf fuel ⟨body ++ [[]], cls⟩ = some ⟨body' ++ [[]], cls'⟩ ∧ CInv n initial G body' cls' ∧
      ∀ j, UniformAt n ⟨body' ++ [[]], cls'⟩ j := by
  intro fuel
  induction fuel with
  | zero => intro _ _ _ _ h; omega
  | succ f ih =>
    intro body cls h hf _
    have hl := h.length_le
    obtain ⟨b2, c2, ch2, h1, h2, h3, h4, h5⟩ := splitPass_spec n initial G pf 0 body cls false h (by omega)
    simp only [splitLoop, h1, Option.bind_eq_bind, Option.bind_some]
    cases ch2 with
    | false =>
      obtain ⟨_, rfl, rfl, g4⟩ := h4 rfl
      exact ⟨b2, c2, by simp, h2, fun j => g4 j (by omega)⟩
    | true =>
      rcases h5 rfl with e | e
      · simp at e
      · have hl2 := h2.length_le
        simp only [if_true]
        exact ih b2 c2 h2 (by omega) (by omega)

theorem templateMap_det {row : List Trans} (h : DetRow row) (cls : Nat → Nat) (s : Nat) :
    templateMap row cls s = (rowTarget row s).map cls := by
  simp only [templateMap, rowTarget, Option.map_map]
  have hfind : row.reverse.find? (fun t => t.1 == s) = row.find? (fun t => t.1 == s) := by
    cases h1 : row.find? (fun t => t.1 == s) with
    | none =>
      rw [List.find?_eq_none] at *
      intro t ht; exact h1 t (List.mem_reverse.1 ht)
    | some t =>
      cases h2 : row.reverse.find? (fun t => t.1 == s) with
      | none =>
        rw [List.find?_eq_none] at h2
        have := h2 t (List.mem_reverse.2 (List.mem_of_find?_eq_some h1))
        have h3 := List.find?_some h1
        exact absurd h3 this
      | some u =>
        have m1 := List.mem_of_find?_eq_some h1
        have m2 := List.mem_reverse.1 (List.mem_of_find?_eq_some h2)
        have e1 : t.1 = s := by simpa using List.find?_some h1
        have e2 : u.1 = s := by simpa using List.find?_some h2
        have r1 := (rowTarget_some h).2 (by rw [← e1]; exact m1 : (s, t.2) ∈ row)
        have r2 := (rowTarget_some h).2 (by rw [← e2]; exact m2 : (s, u.2) ∈ row)
        rw [r1] at r2
        have := Option.some.inj r2
        congr 1
        ext <;> omega
  rw [hfind]
  rfl

/-- Rows that are not "different" have the same symbol sets and equivalent targets. -/
theorem same_of_not_different {row trow : List Trans} (h : DetRow row) (ht : DetRow trow) (cls : Nat → Nat)
    (hd : isDifferent row cls trow.length (templateMap trow cls) = false) (s : Nat) :
    (rowTarget row s).map cls = (rowTarget trow s).map cls := by
  simp only [isDifferent, Bool.or_eq_false_iff, decide_eq_false_iff_not, Decidable.not_not, List.any_eq_false,
    decide_eq_true_eq] at hd
  obtain ⟨hlen, hall⟩ := hd
  have himp : ∀ s q, rowTarget row s = some q → (rowTarget trow s).map cls = some (cls q) := by
    intro s q hq
    have := hall (s, q) ((rowTarget_some h).1 hq)
    rw [← templateMap_det ht]; exact this
  cases hr : rowTarget row s with
  | some q => rw [himp s q hr]; rfl
  | none =>
    cases htr : rowTarget trow s with
    | none => rfl
    | some p =>
      exfalso
      -- the symbols of `row` are among those of `trow` without `s`
      have hnd : (row.map (·.1)).Nodup := by
        rw [List.nodup_iff_pairwise_ne, List.pairwise_map]; exact h.imp (fun hlt => by omega)
      have hsub : (s :: row.map (·.1)) ⊆ trow.map (·.1) := by
        intro x hx
        rcases List.mem_cons.1 hx with rfl | hx
        · exact List.mem_map.2 ⟨_, (rowTarget_some ht).1 htr, rfl⟩
        · obtain ⟨t, ht1, rfl⟩ := List.mem_map.1 hx
          have := himp t.1 t.2 ((rowTarget_some h).2 ht1)
          cases htt : rowTarget trow t.1 with
          | none => rw [htt] at this; simp at this
          | some p' => exact List.mem_map.2 ⟨_, (rowTarget_some ht).1 htt, rfl⟩
      have hnd2 : (s :: row.map (·.1)).Nodup := List.nodup_cons.2 ⟨rowTarget_none.1 hr, hnd⟩
      have := (hnd2.subperm hsub).length_le
      simp at this
      omega

end Ndfa
end TameParse

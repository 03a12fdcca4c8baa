import Verif.SubsetCount
/- Helper lemmas for the subset construction. -/
namespace TameParse
namespace Ndfa

/-! ### Reachability -/

theorem Reach.epsReach {n : Ndfa} {q : Nat} {w : List Int} {p p' : Nat} (h : Reach n q w p) (he : EpsReach n p p') :
    Reach n q w p' := by
  induction he with
  | refl => exact h
  | step _ hs ih => exact .eps ih hs

theorem reach_nil_iff (n : Ndfa) (q p : Nat) : Reach n q [] p ↔ EpsReach n q p := by
  constructor
  · intro h
    generalize hw : ([] : List Int) = w at h
    induction h with
    | refl => exact .refl _
    | eps _ hs ih => exact .step (ih hw) hs
    | sym _ _ _ => simp at hw
  · intro h; exact Reach.epsReach .refl h

theorem reach_snoc_iff (n : Ndfa) (q : Nat) (w : List Int) (x : Int) (r : Nat) :
    Reach n q (w ++ [x]) r ↔ ∃ p p', Reach n q w p ∧ SymStep n p x p' ∧ EpsReach n p' r := by
  constructor
  · intro h
    generalize hw : w ++ [x] = v at h
    induction h with
    | refl => simp at hw
    | eps _ hs ih =>
      obtain ⟨p, p', h1, h2, h3⟩ := ih hw
      exact ⟨p, p', h1, h2, .step h3 hs⟩
    | sym h1 h2 _ =>
      have := List.append_inj' hw rfl
      obtain ⟨rfl, h3⟩ := this
      simp only [List.cons.injEq, and_true] at h3
      subst h3
      exact ⟨_, _, h1, h2, .refl _⟩
  · rintro ⟨p, p', h1, h2, h3⟩
    exact (Reach.sym h1 h2).epsReach h3

/-! ### Targets -/

theorem mem_addTarget_keys (l : List (Nat × List Nat)) (s q : Nat) (k : Nat) :
    k ∈ (addTarget l s q).map (·.1) ↔ k = s ∨ k ∈ l.map (·.1) := by
  induction l with
  | nil => simp [addTarget]
  | cons a r ih =>
    obtain ⟨s', v⟩ := a
    simp only [addTarget]
    split
    · simp
    · split
      · simp only [List.map_cons, List.mem_cons, ih]
        constructor
        · rintro (h | h | h) <;> simp [h]
        · rintro (h | h | h) <;> simp [h]
      · have : s = s' := by omega
        subst this; simp

structure TargetsInv (l : List Trans) (eps : Nat) (acc : List (Nat × List Nat)) : Prop where
  sorted : (acc.map (·.1)).Pairwise (· < ·)
  ok : ∀ a ∈ acc, SetOk a.2
  mem : ∀ a ∈ acc, ∀ q, q ∈ a.2 ↔ (a.1, q) ∈ l
  keys : ∀ s, s ∈ acc.map (·.1) ↔ s ≠ eps ∧ ∃ q, (s, q) ∈ l

theorem addTarget_sorted (l : List (Nat × List Nat)) (s q : Nat) (h : (l.map (·.1)).Pairwise (· < ·)) :
    ((addTarget l s q).map (·.1)).Pairwise (· < ·) := by
  induction l with
  | nil => simp [addTarget]
  | cons a r ih =>
    obtain ⟨s', v⟩ := a
    simp only [List.map_cons, List.pairwise_cons] at h
    simp only [addTarget]
    split
    · rename_i hlt
      simp only [List.map_cons, List.pairwise_cons, List.mem_cons]
      refine ⟨?_, h⟩
      rintro b (rfl | hb)
      · exact hlt
      · have := h.1 b hb; omega
    · split
      · rename_i h1 h2
        simp only [List.map_cons, List.pairwise_cons]
        refine ⟨?_, ih h.2⟩
        intro b hb
        rw [mem_addTarget_keys] at hb
        rcases hb with rfl | hb
        · exact h2
        · exact h.1 b hb
      · simp only [List.map_cons, List.pairwise_cons]; exact h

theorem mem_addTarget (l : List (Nat × List Nat)) (s q : Nat) (h : (l.map (·.1)).Pairwise (· < ·))
    (a : Nat × List Nat) :
    a ∈ addTarget l s q ↔ (a.1 ≠ s ∧ a ∈ l) ∨
      (a.1 = s ∧ ((∃ v, (s, v) ∈ l ∧ a.2 = insertId v q) ∨ (s ∉ l.map (·.1) ∧ a.2 = [q]))) := by
  induction l with
  | nil => obtain ⟨b, c⟩ := a; simp [addTarget]
  | cons a' r ih =>
    obtain ⟨s', v⟩ := a'
    obtain ⟨b, c⟩ := a
    simp only [List.map_cons, List.pairwise_cons] at h
    have ih := ih h.2
    simp only [addTarget]
    split
    · rename_i hlt
      have h5 : s ∉ r.map (·.1) := fun hm => by have := h.1 s hm; omega
      have h6 : ¬ (s = s' ∨ s ∈ r.map (·.1)) := by
        rintro (h | h)
        · omega
        · exact h5 h
      simp only [List.mem_cons, Prod.mk.injEq, List.map_cons]
      constructor
      · rintro (⟨rfl, rfl⟩ | ⟨rfl, rfl⟩ | hm)
        · exact .inr ⟨rfl, .inr ⟨h6, rfl⟩⟩
        · exact .inl ⟨by omega, .inl ⟨rfl, rfl⟩⟩
        · exact .inl ⟨fun e => h5 (e ▸ List.mem_map_of_mem hm), .inr hm⟩
      · rintro (⟨h1, h2 | h2⟩ | ⟨h1, ⟨v', h2 | h2, h3⟩ | ⟨h2, h3⟩⟩)
        · exact .inr (.inl h2)
        · exact .inr (.inr h2)
        · omega
        · exact absurd (List.mem_map_of_mem h2) h5
        · exact .inl ⟨h1, h3⟩
    · split
      · rename_i h1 h2
        simp only [List.mem_cons, ih, Prod.mk.injEq, List.map_cons]
        constructor
        · rintro (⟨rfl, rfl⟩ | ⟨h3, h4⟩ | ⟨h3, ⟨v', h4, h5⟩ | ⟨h4, h5⟩⟩)
          · exact .inl ⟨by omega, .inl ⟨rfl, rfl⟩⟩
          · exact .inl ⟨h3, .inr h4⟩
          · exact .inr ⟨h3, .inl ⟨v', .inr h4, h5⟩⟩
          · refine .inr ⟨h3, .inr ⟨?_, h5⟩⟩
            rintro (h6 | h6)
            · omega
            · exact h4 h6
        · rintro (⟨h3, h4 | h4⟩ | ⟨h3, ⟨v', h4 | h4, h5⟩ | ⟨h4, h5⟩⟩)
          · exact .inl h4
          · exact .inr (.inl ⟨h3, h4⟩)
          · omega
          · exact .inr (.inr ⟨h3, .inl ⟨v', h4, h5⟩⟩)
          · exact .inr (.inr ⟨h3, .inr ⟨fun h6 => h4 (.inr h6), h5⟩⟩)
      · have hs : s = s' := by omega
        subst hs
        have h5 : s ∉ r.map (·.1) := fun hm => by have := h.1 s hm; omega
        simp only [List.mem_cons, Prod.mk.injEq, List.map_cons]
        constructor
        · rintro (⟨rfl, rfl⟩ | hm)
          · exact .inr ⟨rfl, .inl ⟨v, .inl ⟨trivial, rfl⟩, rfl⟩⟩
          · exact .inl ⟨fun e => h5 (e ▸ List.mem_map_of_mem hm), .inr hm⟩
        · rintro (⟨h1, h2 | h2⟩ | ⟨h1, ⟨v', h2 | h2, h3⟩ | ⟨h2, h3⟩⟩)
          · exact absurd h2.1 h1
          · exact .inr h2
          · exact .inl ⟨h1, by rw [h3, h2.2]⟩
          · exact absurd (List.mem_map_of_mem h2) h5
          · simp at h2

theorem targetsInv_step {l : List Trans} {eps : Nat} {acc : List (Nat × List Nat)} (h : TargetsInv l eps acc) (t : Trans) :
    TargetsInv (l ++ [t]) eps (if t.1 = eps then acc else addTarget acc t.1 t.2) := by
  obtain ⟨s, q⟩ := t
  by_cases he : s = eps
  · simp only [if_pos he]
    have hne : ∀ a ∈ acc, a.1 ≠ s := by
      intro a ha
      have := (h.keys a.1).1 (List.mem_map_of_mem ha)
      rw [he]; exact this.1
    refine ⟨h.sorted, h.ok, fun a ha q' => ?_, fun s' => ?_⟩
    · rw [h.mem a ha]
      simp only [List.mem_append, List.mem_singleton, Prod.mk.injEq]
      constructor
      · exact .inl
      · rintro (h' | h')
        · exact h'
        · exact absurd h'.1 (hne a ha)
    · rw [h.keys]
      simp only [List.mem_append, List.mem_singleton, Prod.mk.injEq]
      constructor
      · rintro ⟨h1, q', h2⟩; exact ⟨h1, q', .inl h2⟩
      · rintro ⟨h1, q', h2 | h2⟩
        · exact ⟨h1, q', h2⟩
        · exact absurd (h2.1.trans he) h1
  · simp only [if_neg he]
    have hm := mem_addTarget acc s q h.sorted
    refine ⟨addTarget_sorted _ _ _ h.sorted, fun a ha => ?_, fun a ha q' => ?_, fun s' => ?_⟩
    · rcases (hm a).1 ha with ⟨_, h2⟩ | ⟨_, ⟨v, h2, h3⟩ | ⟨_, h3⟩⟩
      · exact h.ok a h2
      · rw [h3]; exact setOk_insertId (h.ok _ h2)
      · rw [h3]; simp [SetOk]
    · rcases (hm a).1 ha with ⟨h1, h2⟩ | ⟨h1, ⟨v, h2, h3⟩ | ⟨h2, h3⟩⟩
      · rw [h.mem a h2]
        simp only [List.mem_append, List.mem_singleton, Prod.mk.injEq]
        constructor
        · exact .inl
        · rintro (h' | h')
          · exact h'
          · exact absurd h'.1 h1
      · rw [h3, mem_insertId, h.mem _ h2]
        simp only [List.mem_append, List.mem_singleton, Prod.mk.injEq, h1, true_and]
        constructor
        · rintro (h' | h')
          · exact .inr h'
          · exact .inl h'
        · rintro (h' | h')
          · exact .inr h'
          · exact .inl h'
      · rw [h3]
        simp only [List.mem_append, List.mem_singleton, Prod.mk.injEq, h1, true_and]
        constructor
        · exact .inr
        · rintro (h' | h')
          · exact absurd ((h.keys s).2 ⟨he, q', h'⟩) h2
          · exact h'
    · rw [mem_addTarget_keys, h.keys]
      simp only [List.mem_append, List.mem_singleton, Prod.mk.injEq]
      constructor
      · rintro (rfl | ⟨h1, q', h2⟩)
        · exact ⟨he, q, .inr ⟨rfl, rfl⟩⟩
        · exact ⟨h1, q', .inl h2⟩
      · rintro ⟨h1, q', h2 | h2⟩
        · exact .inr ⟨h1, q', h2⟩
        · exact .inl h2.1

theorem targets_spec (n : Ndfa) (eps : Nat) (set : List Nat) : TargetsInv (set.flatMap n.trans) eps (targets n eps set) := by
  have : ∀ (rest l : List Trans) (acc : List (Nat × List Nat)), TargetsInv l eps acc →
      TargetsInv (l ++ rest) eps (rest.foldl (fun acc t => if t.1 = eps then acc else addTarget acc t.1 t.2) acc) := by
    intro rest
    induction rest with
    | nil => intro l acc h; simpa using h
    | cons t rest ih =>
      intro l acc h
      have := ih (l ++ [t]) _ (targetsInv_step h t)
      simpa using this
  have := this (set.flatMap n.trans) [] [] ⟨by simp, by simp, by simp, by simp⟩
  simpa [targets] using this

/-! ### Adding transitions to the new automaton -/

/-- Transitions of a new state. -/
def Subset.trans (c : Subset) (q : Nat) : List Trans := (c.states[q]?).getD []

theorem addTransTo_spec (next : Nat) (c : Subset) (s : Nat) (v : List Nat) (hl : c.states.length = c.sets.length)
    (hn : next < c.sets.length) :
    let c' := addTransTo next c (s, v)
    ∃ ext, c'.sets = c.sets ++ ext ∧ (ext = [] ∨ (ext = [v] ∧ v ∉ c.sets)) ∧ c'.states.length = c'.sets.length ∧
      c'.accept = c.accept ∧ c'.stack = (if ext = [] then c.stack else c.sets.length :: c.stack) ∧
      (∃ id, c'.sets[id]? = some v ∧ ∀ u, u ∈ c'.trans next ↔ u = (s, id) ∨ u ∈ c.trans next) ∧
      ∀ q, q ≠ next → c'.trans q = c.trans q := by
  intro c'
  cases hf : c.findSet v with
  | some id =>
    have hc' : c' = { c with states := c.states.set next (addTrans ((c.states[next]?).getD []) (s, id)) } := by
      show addTransTo next c (s, v) = _
      simp [addTransTo, hf]
    have hid : c.sets[id]? = some v := by
      simp only [Subset.findSet, List.findIdx?_eq_some_iff_getElem] at hf
      obtain ⟨h1, h2, _⟩ := hf
      rw [List.getElem?_eq_getElem h1]
      simpa using h2
    refine ⟨[], by simp [hc'], .inl rfl, by simp [hc', hl], by simp [hc'], by simp [hc'], ⟨id, by simp [hc', hid], ?_⟩, ?_⟩
    · intro u
      have : c'.trans next = addTrans (c.trans next) (s, id) := by
        simp [hc', Subset.trans, hl, hn]
      rw [this, mem_addTrans]
    · intro q hq
      simp [hc', Subset.trans, List.getElem?_set_ne (Ne.symm hq)]
  | none =>
    have hv : v ∉ c.sets := by
      intro hv
      simp only [Subset.findSet, List.findIdx?_eq_none_iff] at hf
      have := hf v hv
      simp at this
    have hc' : c' = { c with
        states := (c.states ++ [[]]).set next (addTrans (((c.states ++ [[]])[next]?).getD []) (s, c.states.length)),
        sets := c.sets ++ [v], stack := c.states.length :: c.stack } := by
      show addTransTo next c (s, v) = _
      simp [addTransTo, hf]
    have hn' : next < c.states.length := by omega
    refine ⟨[v], by simp [hc'], .inr ⟨rfl, hv⟩, by simp [hc', hl], by simp [hc'], by simp [hc', hl],
      ⟨c.states.length, by simp [hc', hl], ?_⟩, ?_⟩
    · intro u
      have : c'.trans next = addTrans (c.trans next) (s, c.states.length) := by
        have h1 : next < (c.states ++ [[]]).length := by simp; omega
        simp only [hc', Subset.trans, List.getElem?_set_self h1, Option.getD_some, List.getElem?_append_left hn']
      rw [this, mem_addTrans]
    · intro q hq
      simp only [hc', Subset.trans, List.getElem?_set_ne (Ne.symm hq)]
      by_cases hql : q < c.states.length
      · rw [List.getElem?_append_left hql]
      · have h1 : c.states[q]? = none := List.getElem?_eq_none (by omega)
        rw [List.getElem?_append_right (by omega), h1]
        cases hx : q - c.states.length with
        | zero => simp
        | succ k => simp

/-- At most one transition per symbol set. -/
def Functional (l : List Trans) : Prop := ∀ s i j, (s, i) ∈ l → (s, j) ∈ l → i = j

theorem addFold_spec (next : Nat) : ∀ (ts : List (Nat × List Nat)) (c : Subset), c.states.length = c.sets.length →
    next < c.sets.length → (∀ q ∈ c.stack, q < c.sets.length) → c.stack.Nodup →
    let c' := ts.foldl (addTransTo next) c
    ∃ ext, c'.sets = c.sets ++ ext ∧ (∀ v ∈ ext, ∃ s, (s, v) ∈ ts) ∧ ext.Nodup ∧ (∀ v ∈ ext, v ∉ c.sets) ∧
      c'.states.length = c'.sets.length ∧ c'.accept = c.accept ∧
      (∀ q, q ∈ c'.stack ↔ q ∈ c.stack ∨ (c.sets.length ≤ q ∧ q < c'.sets.length)) ∧ c'.stack.Nodup ∧
      c'.stack.length = c.stack.length + ext.length ∧
      (∀ u, u ∈ c'.trans next → u ∈ c.trans next ∨ ∃ v, (u.1, v) ∈ ts ∧ c'.sets[u.2]? = some v) ∧
      (∀ s v, (s, v) ∈ ts → ∃ id, (s, id) ∈ c'.trans next) ∧
      (∀ u, u ∈ c.trans next → u ∈ c'.trans next) ∧
      (Functional (c.trans next) → (∀ u ∈ c.trans next, u.1 ∉ ts.map (·.1)) → (ts.map (·.1)).Nodup →
        Functional (c'.trans next)) ∧
      ∀ q, q ≠ next → c'.trans q = c.trans q := by
  intro ts
  induction ts with
  | nil =>
    intro c hl hn hs hnd
    exact ⟨[], by simp, by simp, by simp, by simp, hl, rfl, by intro q; simp, hnd, by simp,
      fun u hu => .inl hu, by simp, fun u hu => hu, fun h _ _ => h, fun _ _ => rfl⟩
  | cons t ts ih =>
    intro c hl hn hs hnd
    obtain ⟨s, v⟩ := t
    obtain ⟨e1, a1, a2, a3, a4, a5, ⟨id, a6, a7⟩, a8⟩ := addTransTo_spec next c s v hl hn
    simp only [List.foldl_cons]
    generalize hc1 : addTransTo next c (s, v) = c1 at *
    have hlen1 : c1.sets.length = c.sets.length + e1.length := by rw [a1]; simp
    have hs1 : ∀ q, q ∈ c1.stack ↔ q ∈ c.stack ∨ (c.sets.length ≤ q ∧ q < c1.sets.length) := by
      intro q
      rw [a5, hlen1]
      rcases a2 with h | ⟨h, _⟩
      · subst h; simp
      · subst h; simp only [List.cons_ne_nil, if_false, List.mem_cons, List.length_singleton]
        constructor
        · rintro (h | h)
          · exact .inr (by omega)
          · exact .inl h
        · rintro (h | h)
          · exact .inr h
          · exact .inl (by omega)
    have hnd1 : c1.stack.Nodup := by
      rw [a5]
      split
      · exact hnd
      · rw [List.nodup_cons]
        exact ⟨fun h => by have := hs _ h; omega, hnd⟩
    obtain ⟨e2, b1, b2, b3, b4, b5, b6, b7, b8, b9, b10, b11, b12, b13, b14⟩ := ih c1 a3 (by omega)
      (by intro q hq; rcases (hs1 q).1 hq with h | h
          · have := hs q h; omega
          · exact h.2) hnd1
    have hlen2 : (List.foldl (addTransTo next) c1 ts).sets.length = c1.sets.length + e2.length := by rw [b1]; simp
    have hkeep : ∀ (i : Nat) w, c1.sets[i]? = some w → (List.foldl (addTransTo next) c1 ts).sets[i]? = some w := by
      intro i w hi
      rw [b1, List.getElem?_append_left (List.getElem?_eq_some_iff.1 hi).1]; exact hi
    refine ⟨e1 ++ e2, by rw [b1, a1]; simp, ?_, ?_, ?_, b5, by rw [b6, a4], ?_, b8, ?_, ?_, ?_, ?_, ?_, ?_⟩
    · intro w hw
      rcases List.mem_append.1 hw with hw | hw
      · rcases a2 with h | ⟨h, _⟩
        · subst h; simp at hw
        · subst h; simp only [List.mem_singleton] at hw; exact ⟨s, by simp [hw]⟩
      · obtain ⟨s', h⟩ := b2 w hw; exact ⟨s', by simp [h]⟩
    · rw [List.nodup_append]
      refine ⟨?_, b3, ?_⟩
      · rcases a2 with h | ⟨h, _⟩ <;> subst h <;> simp
      · intro x hx y hy hxy
        subst hxy
        exact b4 x hy (by rw [a1]; simp [hx])
    · intro w hw
      rcases List.mem_append.1 hw with hw | hw
      · rcases a2 with h | ⟨h, h'⟩
        · subst h; simp at hw
        · subst h; simp only [List.mem_singleton] at hw; subst hw; exact h'
      · intro hc; exact b4 w hw (by rw [a1]; simp [hc])
    · intro q
      rw [b7, hs1]
      constructor
      · rintro ((h | h) | h)
        · exact .inl h
        · exact .inr (by omega)
        · exact .inr (by omega)
      · rintro (h | h)
        · exact .inl (.inl h)
        · by_cases hq : q < c1.sets.length
          · exact .inl (.inr ⟨h.1, hq⟩)
          · exact .inr (by omega)
    · rw [b9, a5]
      rcases a2 with h | ⟨h, _⟩
      · subst h; simp
      · subst h; simp; omega
    · intro u hu
      rcases b10 u hu with h | ⟨w, h1, h2⟩
      · rcases (a7 u).1 h with h | h
        · subst h; exact .inr ⟨v, by simp, hkeep _ _ a6⟩
        · exact .inl h
      · exact .inr ⟨w, by simp [h1], h2⟩
    · intro s' v' h
      rcases List.mem_cons.1 h with h | h
      · simp only [Prod.mk.injEq] at h
        obtain ⟨rfl, rfl⟩ := h
        exact ⟨id, b12 _ ((a7 _).2 (.inl rfl))⟩
      · exact b11 s' v' h
    · intro u hu; exact b12 u ((a7 u).2 (.inr hu))
    · intro hf hd hk
      simp only [List.map_cons, List.nodup_cons] at hk
      apply b13
      · intro s' i j hi hj
        rcases (a7 _).1 hi with hi | hi <;> rcases (a7 _).1 hj with hj | hj
        · simp only [Prod.mk.injEq] at hi hj; omega
        · simp only [Prod.mk.injEq] at hi
          have := hd _ hj
          simp [hi.1] at this
        · simp only [Prod.mk.injEq] at hj
          have := hd _ hi
          simp [hj.1] at this
        · exact hf s' i j hi hj
      · intro u hu
        rcases (a7 u).1 hu with h | h
        · subst h; exact hk.1
        · intro hm; exact hd u h (by simp only [List.map_cons, List.mem_cons]; exact .inr hm)
      · exact hk.2
    · intro q hq
      rw [b14 q hq, a8 q hq]

/-! ### The main loop -/

/-- State `q` of the new automaton has been processed: its actions and transitions are those of its set. -/
structure DoneState (n : Ndfa) (c : Subset) (q : Nat) (set : List Nat) : Prop where
  accept : c.accept q = set.flatMap n.accept
  eager : (set.flatMap n.accept).any (·.eager) = true → c.trans q = []
  sound : ∀ u ∈ c.trans q, u.1 ≠ (n.syms.identifierFor []).2 ∧ (∃ p ∈ set, ∃ p', (u.1, p') ∈ n.trans p) ∧
    ∃ v, c.sets[u.2]? = some v ∧ ∀ r, r ∈ v ↔ ∃ p ∈ set, ∃ p', (u.1, p') ∈ n.trans p ∧ EpsReach n p' r
  complete : (set.flatMap n.accept).any (·.eager) = false → ∀ p ∈ set, ∀ s p', (s, p') ∈ n.trans p →
    s ≠ (n.syms.identifierFor []).2 → ∃ id, (s, id) ∈ c.trans q
  func : Functional (c.trans q)

structure LoopInv (n : Ndfa) (init : List (List Nat)) (c : Subset) : Prop where
  len : c.states.length = c.sets.length
  valid : ∀ v ∈ c.sets, SetOk v ∧ (∀ q ∈ v, q < n.states.length) ∧ ∀ q ∈ v, ∀ p, EpsReach n q p → p ∈ v
  stackLt : ∀ q ∈ c.stack, q < c.sets.length
  stackNodup : c.stack.Nodup
  pending : ∀ q ∈ c.stack, c.trans q = [] ∧ c.accept q = []
  done : ∀ q set, c.sets[q]? = some set → q ∉ c.stack → DoneState n c q set
  news : ∃ ext, c.sets = init ++ ext ∧ ext.Nodup
  fresh : ∀ q, c.sets.length ≤ q → c.accept q = []

theorem mapM_closure (n : Ndfa) (h : n.WF) (l : List (Nat × List Nat)) (hok : ∀ a ∈ l, SetOk a.2)
    (hb : ∀ a ∈ l, ∀ q ∈ a.2, q < n.states.length) :
    ∃ out, l.mapM (fun t => (n.closure t.2).map (fun v => (t.1, v))) = some out ∧ out.map (·.1) = l.map (·.1) ∧
      (∀ b ∈ out, ∃ a ∈ l, a.1 = b.1 ∧ SetOk b.2 ∧ ∀ r, r ∈ b.2 ↔ ∃ p ∈ a.2, EpsReach n p r) := by
  induction l with
  | nil => exact ⟨[], rfl, rfl, by simp⟩
  | cons a l ih =>
    obtain ⟨out, h1, h2, h3⟩ := ih (fun b hb' => hok b (by simp [hb'])) (fun b hb' => hb b (by simp [hb']))
    obtain ⟨v, g1, g2, g3⟩ := closure_spec n h a.2 (hok a (by simp)) (hb a (by simp))
    refine ⟨(a.1, v) :: out, ?_, by simp [h2], ?_⟩
    · rw [List.mapM_cons, g1, h1]; rfl
    · intro b hb'
      rcases List.mem_cons.1 hb' with rfl | hb'
      · exact ⟨a, by simp, rfl, g2, g3⟩
      · obtain ⟨a', h4, h5⟩ := h3 b hb'
        exact ⟨a', by simp [h4], h5⟩

theorem processState_spec (n : Ndfa) (h : n.WF) (init : List (List Nat)) (c : Subset) (next : Nat) (rest : List Nat)
    (hc : LoopInv n init c) (hst : c.stack = next :: rest) :
    ∃ c', processState n (n.syms.identifierFor []).2 next { c with stack := rest } = some c' ∧ LoopInv n init c' ∧
      c'.stack.length + c.sets.length = rest.length + c'.sets.length ∧ (∃ ext, c'.sets = c.sets ++ ext) := by
  have hnext : next < c.sets.length := hc.stackLt next (by simp [hst])
  have hset : c.sets[next]? = some c.sets[next] := List.getElem?_eq_getElem hnext
  generalize hS : c.sets[next] = set at hset
  have hSv := hc.valid set (by rw [← hS]; exact List.getElem_mem hnext)
  have hnd : next ∉ rest ∧ rest.Nodup := by have := hc.stackNodup; rw [hst, List.nodup_cons] at this; exact this
  have hpend := hc.pending next (by simp [hst])
  -- the state after recording the actions
  let c1 : Subset := ⟨c.states, c.sets, fun q => if q = next then c.accept q ++ set.flatMap n.accept else c.accept q, rest⟩
  have hc1acc : c1.accept next = set.flatMap n.accept := by simp [c1, hpend.2]
  have hother : ∀ q, q ≠ next → c1.accept q = c.accept q := by intro q hq; simp [c1, hq]
  have hproc : processState n (n.syms.identifierFor []).2 next { c with stack := rest } =
      (if (set.flatMap n.accept).any (·.eager) then some c1
       else ((targets n (n.syms.identifierFor []).2 set).mapM
          (fun t => (n.closure t.2).map (fun v => (t.1, v)))).bind (fun ts => some (ts.foldl (addTransTo next) c1))) := by
    simp only [processState, hset, Option.getD_some]
    split <;> rfl
  rw [hproc]
  by_cases he : (set.flatMap n.accept).any (·.eager) = true
  · rw [if_pos he]
    refine ⟨c1, rfl, ?_, by simp [c1], [], by simp [c1]⟩
    refine ⟨hc.len, hc.valid, ?_, hnd.2, ?_, ?_, hc.news, ?_⟩
    · intro q hq; exact hc.stackLt q (by rw [hst]; exact List.mem_cons_of_mem _ hq)
    · intro q hq
      have hqn : q ≠ next := fun e => hnd.1 (e ▸ hq)
      have := hc.pending q (by rw [hst]; exact List.mem_cons_of_mem _ hq)
      exact ⟨this.1, by rw [hother q hqn]; exact this.2⟩
    · intro q set' hq hqs
      by_cases hqn : q = next
      · subst hqn
        have hq : c.sets[q]? = some set' := hq
        rw [hset] at hq
        cases hq
        have ht : c1.trans q = [] := hpend.1
        refine ⟨hc1acc, fun _ => ht, by simp [ht], ?_, by simp [ht, Functional]⟩
        intro hne; rw [he] at hne; cases hne
      · have := hc.done q set' hq (by rw [hst]; simp only [List.mem_cons, not_or]; exact ⟨hqn, hqs⟩)
        exact ⟨by rw [hother q hqn]; exact this.accept, this.eager, this.sound, this.complete, this.func⟩
    · intro q hq
      have hql : c.sets.length ≤ q := hq
      rw [hother q (by omega)]; exact hc.fresh q hql
  · rw [if_neg he]
    simp only [Bool.not_eq_true] at he
    have ht := targets_spec n (n.syms.identifierFor []).2 set
    obtain ⟨ts, m1, m2, m3⟩ := mapM_closure n h (targets n (n.syms.identifierFor []).2 set) ht.ok (by
      intro a ha q hq
      have := (ht.mem a ha q).1 hq
      obtain ⟨p, _, hp⟩ := List.mem_flatMap.1 this
      exact h.target p _ hp)
    rw [m1]
    simp only [Option.bind_some]
    obtain ⟨ext, b1, b2, b3, b4, b5, b6, b7, b8, b9, b10, b11, b12, b13, b14⟩ := addFold_spec next ts c1 hc.len hnext
      (fun q hq => hc.stackLt q (by rw [hst]; exact List.mem_cons_of_mem _ hq)) hnd.2
    generalize hc' : List.foldl (addTransTo next) c1 ts = c' at *
    have hc1s : c1.sets = c.sets := rfl
    have hc1t : ∀ q, c1.trans q = c.trans q := fun _ => rfl
    have hlen' : c'.sets.length = c.sets.length + ext.length := by rw [b1, hc1s]; simp
    -- meaning of the entries of ts
    have hts : ∀ s v, (s, v) ∈ ts → s ≠ (n.syms.identifierFor []).2 ∧ SetOk v ∧ (∃ p ∈ set, ∃ p', (s, p') ∈ n.trans p) ∧
        ∀ r, r ∈ v ↔ ∃ p ∈ set, ∃ p', (s, p') ∈ n.trans p ∧ EpsReach n p' r := by
      intro s v hsv
      obtain ⟨a, ha, hs, hok, hr⟩ := m3 _ hsv
      simp only at hs hok hr
      have hk := (ht.keys a.1).1 (List.mem_map_of_mem ha)
      rw [hs] at hk
      refine ⟨hk.1, hok, ?_, fun r => ?_⟩
      · obtain ⟨q, hq⟩ := hk.2
        obtain ⟨p, hp, hpq⟩ := List.mem_flatMap.1 hq
        exact ⟨p, hp, q, hpq⟩
      · rw [hr]
        constructor
        · rintro ⟨p', hp', her⟩
          have := (ht.mem a ha p').1 hp'
          rw [hs] at this
          obtain ⟨p, hp, hpp⟩ := List.mem_flatMap.1 this
          exact ⟨p, hp, p', hpp, her⟩
        · rintro ⟨p, hp, p', hpp, her⟩
          exact ⟨p', (ht.mem a ha p').2 (by rw [hs]; exact List.mem_flatMap.2 ⟨p, hp, hpp⟩), her⟩
    refine ⟨c', rfl, ?_, ?_, ext, by rw [b1]⟩
    · refine ⟨b5, ?_, ?_, b8, ?_, ?_, ?_, ?_⟩
      · intro v hv
        rw [b1] at hv
        rcases List.mem_append.1 hv with hv | hv
        · exact hc.valid v hv
        · obtain ⟨s, hs⟩ := b2 v hv
          obtain ⟨_, h2, _, h3⟩ := hts s v hs
          refine ⟨h2, ?_, ?_⟩
          · intro r hr
            obtain ⟨p, _, p', hp', her⟩ := (h3 r).1 hr
            exact epsReach_lt h her (h.target _ _ hp')
          · intro r hr r' hrr'
            obtain ⟨p, hp, p', hp', her⟩ := (h3 r).1 hr
            exact (h3 r').2 ⟨p, hp, p', hp', her.trans hrr'⟩
      · intro q hq
        rcases (b7 q).1 hq with h' | h'
        · have := hc.stackLt q (by rw [hst]; exact List.mem_cons_of_mem _ h'); omega
        · exact h'.2
      · intro q hq
        have hqn : q ≠ next := by
          rintro rfl
          rcases (b7 q).1 hq with h' | h'
          · exact hnd.1 h'
          · rw [hc1s] at h'; omega
        rw [b14 q hqn, b6, hother q hqn, hc1t]
        rcases (b7 q).1 hq with h' | h'
        · exact hc.pending q (by rw [hst]; exact List.mem_cons_of_mem _ h')
        · refine ⟨?_, hc.fresh q h'.1⟩
          have : c.states[q]? = none := List.getElem?_eq_none (by rw [hc.len]; exact h'.1)
          simp [Subset.trans, this]
      · intro q set' hq hqs
        have hkeep : ∀ (i : Nat) w, c.sets[i]? = some w → c'.sets[i]? = some w := by
          intro i w hi
          rw [b1, List.getElem?_append_left (List.getElem?_eq_some_iff.1 hi).1]; exact hi
        by_cases hqn : q = next
        · subst hqn
          rw [hkeep q set hset] at hq
          cases hq
          refine ⟨by rw [b6]; exact hc1acc, (by intro hx; rw [he] at hx; exact absurd hx (by decide)), ?_, ?_, ?_⟩
          · intro u hu
            rcases b10 u hu with h' | ⟨v, hv1, hv2⟩
            · rw [hc1t, hpend.1] at h'; simp at h'
            · obtain ⟨g1, _, g2, g3⟩ := hts u.1 v hv1
              exact ⟨g1, g2, v, hv2, g3⟩
          · intro _ p hp s p' hpp hse
            have hk : s ∈ (targets n (n.syms.identifierFor []).2 set).map (·.1) :=
              (ht.keys s).2 ⟨hse, p', List.mem_flatMap.2 ⟨p, hp, hpp⟩⟩
            rw [← m2] at hk
            obtain ⟨⟨s', v⟩, hv, hve⟩ := List.mem_map.1 hk
            simp only at hve
            subst hve
            exact b11 s' v hv
          · apply b13
            · rw [hc1t, hpend.1]; simp [Functional]
            · rw [hc1t, hpend.1]; simp
            · rw [m2]
              exact ht.sorted.imp (fun h => by omega)
        · have hql : q < c.sets.length := by
            by_cases hql : q < c.sets.length
            · exact hql
            · have h1 := (List.getElem?_eq_some_iff.1 hq).1
              exact absurd ((b7 q).2 (.inr ⟨by rw [hc1s]; omega, h1⟩)) hqs
          have hq' : c.sets[q]? = some set' := by
            rw [b1, List.getElem?_append_left (by rw [hc1s]; exact hql)] at hq; exact hq
          have hqst : q ∉ c.stack := by
            rw [hst]; simp only [List.mem_cons, not_or]
            exact ⟨hqn, fun h' => hqs ((b7 q).2 (.inl h'))⟩
          have hd := hc.done q set' hq' hqst
          refine ⟨by rw [b6, hother q hqn]; exact hd.accept, ?_, ?_, ?_, ?_⟩
          · rw [b14 q hqn]; exact hd.eager
          · rw [b14 q hqn]
            intro u hu
            obtain ⟨g1, g2, v, g3, g4⟩ := hd.sound u hu
            exact ⟨g1, g2, v, hkeep _ _ g3, g4⟩
          · rw [b14 q hqn]; exact hd.complete
          · rw [b14 q hqn]; exact hd.func
      · obtain ⟨e, he1, he2⟩ := hc.news
        refine ⟨e ++ ext, by rw [b1, hc1s, he1]; simp, ?_⟩
        rw [List.nodup_append]
        refine ⟨he2, b3, ?_⟩
        intro x hx y hy hxy
        subst hxy
        exact b4 x hy (by rw [hc1s, he1]; simp [hx])
      · intro q hq
        rw [b6, hother q (by omega)]
        exact hc.fresh q (by omega)
    · rw [b9, hlen']; simp only [c1]; omega

theorem subsetLoop_spec (n : Ndfa) (h : n.WF) (init : List (List Nat)) : ∀ (fuel : Nat) (c : Subset), LoopInv n init c →
    init.length + 2 ^ n.states.length + c.stack.length ≤ fuel + c.sets.length →
    ∃ c', subsetLoop n (n.syms.identifierFor []).2 fuel c = some c' ∧ LoopInv n init c' ∧ c'.stack = [] ∧
      ∃ ext, c'.sets = c.sets ++ ext := by
  intro fuel
  induction fuel with
  | zero =>
    intro c hc hf
    cases hst : c.stack with
    | nil => exact ⟨c, by simp [subsetLoop, hst], hc, hst, [], by simp⟩
    | cons next rest =>
      exfalso
      obtain ⟨e, he1, he2⟩ := hc.news
      have hcnt := subset_count e n.states.length he2
        (fun l hl => (hc.valid l (by rw [he1]; simp [hl])).1) (fun l hl => (hc.valid l (by rw [he1]; simp [hl])).2.1)
      have : c.sets.length = init.length + e.length := by rw [he1]; simp
      rw [hst] at hf
      simp only [List.length_cons] at hf
      omega
  | succ fuel ih =>
    intro c hc hf
    cases hst : c.stack with
    | nil => exact ⟨c, by unfold subsetLoop; simp [hst], hc, hst, [], by simp⟩
    | cons next rest =>
      obtain ⟨c1, h1, h2, h3, e1, h4⟩ := processState_spec n h init c next rest hc hst
      obtain ⟨c', h5, h6, h7, e2, h8⟩ := ih c1 h2 (by
        rw [hst] at hf
        simp only [List.length_cons] at hf
        omega)
      refine ⟨c', ?_, h6, h7, e1 ++ e2, by rw [h8, h4]; simp⟩
      unfold subsetLoop
      simp only [hst, h1]
      exact h5

theorem initialSubset_spec (n : Ndfa) (h : n.WF) (initial : List Nat) (hi : ∀ q ∈ initial, q < n.states.length) :
    ∃ c, n.initialSubset initial = some c ∧ LoopInv n c.sets c ∧ c.sets.length = initial.length ∧
      c.stack.length = initial.length ∧
      ∀ (k : Nat) q, initial[k]? = some q → ∃ v, c.sets[k]? = some v ∧ ∀ r, r ∈ v ↔ EpsReach n q r := by
  have key : ∀ (rest done : List Nat) (c : Subset), (∀ q ∈ rest, q < n.states.length) →
      c.states.length = c.sets.length → c.states = List.replicate c.sets.length [] → (∀ q, c.accept q = []) →
      (∀ v ∈ c.sets, SetOk v ∧ (∀ q ∈ v, q < n.states.length) ∧ ∀ q ∈ v, ∀ p, EpsReach n q p → p ∈ v) →
      (∀ q, q ∈ c.stack ↔ q < c.sets.length) → c.stack.Nodup → c.sets.length = done.length →
      c.stack.length = done.length →
      (∀ (k : Nat) q, done[k]? = some q → ∃ v, c.sets[k]? = some v ∧ ∀ r, r ∈ v ↔ EpsReach n q r) →
      ∃ c', rest.foldlM (fun c q => do
          let v ← n.closure [q]
          return { c with states := c.states ++ [[]], sets := c.sets ++ [v], stack := c.states.length :: c.stack })
          c = some c' ∧
        LoopInv n c'.sets c' ∧ c'.sets.length = (done ++ rest).length ∧ c'.stack.length = (done ++ rest).length ∧
        ∀ (k : Nat) q, (done ++ rest)[k]? = some q → ∃ v, c'.sets[k]? = some v ∧ ∀ r, r ∈ v ↔ EpsReach n q r := by
    intro rest
    induction rest with
    | nil =>
      intro done c _ h1 h2 h3 h4 h5 h6 h7 h8 h9
      refine ⟨c, rfl, ?_, by simpa using h7, by simpa using h8, by simpa using h9⟩
      refine ⟨h1, h4, fun q hq => (h5 q).1 hq, h6, ?_, ?_, ⟨[], by simp, by simp⟩, fun q _ => h3 q⟩
      · intro q hq
        refine ⟨?_, h3 q⟩
        simp only [Subset.trans, h2]
        rw [List.getElem?_replicate]
        split <;> rfl
      · intro q set hq hqs
        exact absurd ((h5 q).2 (List.getElem?_eq_some_iff.1 hq).1) hqs
    | cons q rest ih =>
      intro done c hr h1 h2 h3 h4 h5 h6 h7 h8 h9
      have hq := hr q (by simp)
      obtain ⟨v, g1, g2, g3⟩ := closure_spec n h [q] (by simp [SetOk]) (by simpa using hq)
      have g3' : ∀ r, r ∈ v ↔ EpsReach n q r := by intro r; rw [g3]; simp
      let c1 : Subset := { c with states := c.states ++ [[]], sets := c.sets ++ [v], stack := c.states.length :: c.stack }
      obtain ⟨c', f1, f2, f3, f4, f5⟩ := ih (done ++ [q]) c1 (fun a ha => hr a (by simp [ha])) (by simp [c1, h1])
        (by simp only [c1, List.length_append, List.length_singleton]; rw [List.replicate_succ', ← h2]) h3
        (by
          intro w hw
          rcases List.mem_append.1 hw with hw | hw
          · exact h4 w hw
          · simp only [List.mem_singleton] at hw
            subst hw
            refine ⟨g2, fun r hr => epsReach_lt h ((g3' r).1 hr) hq, fun r hr p hrp => (g3' p).2 (((g3' r).1 hr).trans hrp)⟩)
        (by intro p; simp only [c1, List.mem_cons, List.length_append, List.length_singleton, h5]; omega)
        (by
          simp only [c1, List.nodup_cons]
          exact ⟨fun hh => by have := (h5 _).1 hh; omega, h6⟩)
        (by simp [c1, h7]) (by simp [c1, h8])
        (by
          intro k p hk
          by_cases hkl : k < done.length
          · rw [List.getElem?_append_left hkl] at hk
            obtain ⟨w, hw1, hw2⟩ := h9 k p hk
            exact ⟨w, by simp only [c1]; rw [List.getElem?_append_left (List.getElem?_eq_some_iff.1 hw1).1]; exact hw1, hw2⟩
          · have hke : k = done.length := by
              have := (List.getElem?_eq_some_iff.1 hk).1; simp at this; omega
            subst hke
            simp only [List.getElem?_concat_length, Option.some.injEq] at hk
            subst hk
            exact ⟨v, by simp only [c1, ← h7]; simp, g3'⟩)
      refine ⟨c', ?_, f2, by simpa using f3, by simpa using f4, by simpa using f5⟩
      rw [List.foldlM_cons, g1]
      exact f1
  have := key initial [] ⟨[], [], fun _ => [], []⟩ hi rfl rfl (fun _ => rfl) (by simp) (by simp) (by simp) rfl rfl (by simp)
  simpa [initialSubset] using this

end Ndfa
end TameParse

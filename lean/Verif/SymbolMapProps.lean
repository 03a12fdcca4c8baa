import Verif.SymbolMapLemmas
/-
Properties C05 (symbol_map identifiers) and C06 (deduplicate).
-/
namespace TameParse
open SymSet (Mem Canon)

/-! ## C05 -/

/-- A symbol map after registering the sets of `l` in turn. -/
def SymbolMap.registerAll (m : SymbolMap) (l : List SymSet) : SymbolMap :=
  l.foldl (fun m s => (m.identifierFor s).1) m

theorem SymbolMap.registerAll_spec (l : List SymSet) (m : SymbolMap) (h : m.Inv) :
    (m.registerAll l).Inv ∧ ∃ t, (m.registerAll l).syms = m.syms ++ t := by
  induction l generalizing m with
  | nil => exact ⟨h, [], by simp [registerAll]⟩
  | cons s l ih =>
    obtain ⟨h1, _, ⟨t, h3, _⟩, _⟩ := identifierFor_spec m s h
    obtain ⟨h5, t', h6⟩ := ih _ h1
    exact ⟨h5, t ++ t', by
      show (((m.identifierFor s).1).registerAll l).syms = _
      rw [h6, h3]; simp⟩

/-- C05. Register any sets `before`, then `s`, then any sets `after`. The identifier `i` issued for `s` is what
every later request for `s` returns (without changing the map), looking `i` up gives `s`, another set never has
identifier `i`, identifiers are consecutive from zero, and a set that was never registered has none. -/
theorem symbol_map_identifiers_stable (before after : List SymSet) (s : SymSet) :
    let m0 := SymbolMap.empty.registerAll before
    let i := (m0.identifierFor s).2
    let m := (m0.identifierFor s).1.registerAll after
    m.identifierFor s = (m, i) ∧ m.find s = some i ∧ m.get i = s ∧
    (∀ t, t ≠ s → m.find t ≠ some i ∧ (m.identifierFor t).2 ≠ i) ∧
    (∀ j, j < m.count ↔ ∃ t, m.find t = some j) ∧
    (∀ t, (∃ j, m.find t = some j) ↔ t ∈ before ++ s :: after) := by
  intro m0 i m
  have h0 : m0.Inv := (SymbolMap.registerAll_spec before _ SymbolMap.inv_empty).1
  obtain ⟨h1, h2, _, _⟩ := SymbolMap.identifierFor_spec m0 s h0
  obtain ⟨h3, t, h4⟩ := SymbolMap.registerAll_spec after _ h1
  have hm : m.Inv := h3
  have hi : m.syms[i]? = some s := by
    show (((m0.identifierFor s).1).registerAll after).syms[i]? = some s
    rw [h4, List.getElem?_append_left]
    · exact h2
    · exact (List.getElem?_eq_some_iff.1 h2).1
  have hf : m.find s = some i := (SymbolMap.find_iff m hm s i).2 hi
  have hsyms : ∀ (l : List SymSet) (m : SymbolMap), m.Inv →
      ∀ t, t ∈ (m.registerAll l).syms ↔ t ∈ m.syms ∨ t ∈ l := by
    intro l
    induction l with
    | nil => intro m _ t; simp [SymbolMap.registerAll]
    | cons a l ih =>
      intro m hm t
      obtain ⟨g1, g2, _, g4⟩ := SymbolMap.identifierFor_spec m a hm
      have := ih _ g1 t
      show t ∈ (((m.identifierFor a).1).registerAll l).syms ↔ _
      rw [this]
      rcases g4 with g4 | ⟨g4, _, _⟩
      · have ha : a ∈ m.syms := by rw [g4] at g2; exact List.mem_of_getElem? g2
        rw [g4]
        simp only [List.mem_cons]
        constructor
        · rintro (h | h)
          · exact .inl h
          · exact .inr (.inr h)
        · rintro (h | rfl | h)
          · exact .inl h
          · exact .inl ha
          · exact .inr h
      · rw [g4]; simp [or_assoc]
  refine ⟨?_, hf, ?_, ?_, ?_, ?_⟩
  · have : SymbolMap.lookup m.ids s = some i := hf
    simp only [SymbolMap.identifierFor, this]
  · simp [SymbolMap.get, hi]
  · intro t ht
    constructor
    · intro h
      have := (SymbolMap.find_iff m hm t i).1 h
      rw [hi] at this
      exact ht (Option.some.inj this).symm
    · intro h
      obtain ⟨_, g2, ⟨l, g3, _⟩, _⟩ := SymbolMap.identifierFor_spec m t hm
      rw [h, g3, List.getElem?_append_left (List.getElem?_eq_some_iff.1 hi).1, hi] at g2
      exact ht (Option.some.inj g2).symm
  · intro j
    simp only [SymbolMap.find_iff m hm, SymbolMap.count]
    constructor
    · intro h; exact ⟨m.syms[j], List.getElem?_eq_getElem h⟩
    · rintro ⟨t, h⟩; exact (List.getElem?_eq_some_iff.1 h).1
  · intro t
    simp only [SymbolMap.find_iff m hm]
    have h6 := hsyms after _ h1 t
    have h7 := hsyms before _ SymbolMap.inv_empty
    have h8 : t ∈ (m0.identifierFor s).1.syms ↔ t ∈ m0.syms ∨ t = s := by
      have := hsyms [s] m0 h0 t
      simpa [SymbolMap.registerAll] using this
    have h9 : t ∈ m.syms ↔ t ∈ before ++ s :: after := by
      show t ∈ (((m0.identifierFor s).1).registerAll after).syms ↔ _
      rw [h6, h8, h7]; simp [SymbolMap.empty, or_assoc]
    rw [← h9]
    constructor
    · rintro ⟨j, h⟩; exact List.mem_of_getElem? h
    · intro h
      obtain ⟨j, hj, he⟩ := List.mem_iff_getElem.1 h
      exact ⟨j, by rw [List.getElem?_eq_getElem hj, he]⟩

-- two different sets and a repeated one
example : let m := SymbolMap.empty.registerAll [[⟨1, 3⟩], [⟨0, 9⟩], [⟨1, 3⟩]]
    m.find [⟨1, 3⟩] = some 0 ∧ m.find [⟨0, 9⟩] = some 1 ∧ m.count = 2 := by decide

/-! ## C06 -/

/-- What "split without loss" means for a source map and the result of `deduplicate`. -/
structure SplitsWithoutLoss (m : SymbolMap) (d : RemappedMap) : Prop where
  /-- no symbol is in two new sets -/
  disjoint : ∀ i j x, Mem x (d.map.get i) → Mem x (d.map.get j) → i = j
  /-- an old set is the union of the new sets listed for it -/
  exact : ∀ o, o < m.count → ∀ x, Mem x (m.get o) ↔ ∃ n ∈ d.newSymbols o, Mem x (d.map.get n)
  /-- the new sets listed for an old set are subsets of it -/
  subset : ∀ o, o < m.count → ∀ n ∈ d.newSymbols o, ∀ x, Mem x (d.map.get n) → Mem x (m.get o)
  /-- the listed identifiers are valid, and new sets are in canonical form -/
  valid : ∀ o, ∀ n ∈ d.newSymbols o, n < d.map.count
  canon : ∀ n, Canon (d.map.get n)
  /-- the empty set (epsilon) is mapped to itself only, and nothing else is mapped to it -/
  epsilon : ∀ o, o < m.count → ∀ n ∈ d.newSymbols o, (d.map.get n = [] ↔ m.get o = [])
  epsilon_kept : ∀ o, o < m.count → m.get o = [] → ∃ n ∈ d.newSymbols o, d.map.get n = []

/-- C06 as stated does not hold. With the classes `[a-e]`, `[k-t]` and `[d-gx-z]`, the third one also matches
`h`, and so does the second: `add_set` fills the gap up to the next existing range even when the range being added
ends before it (remapped_symbol_map.cpp 131-145). -/
theorem deduplicate_splits_without_loss_violated :
    ∃ m d, m = SymbolMap.empty.registerAll [[⟨97, 102⟩], [⟨107, 117⟩], [⟨100, 104⟩, ⟨120, 123⟩]] ∧
      Dedup.deduplicate m = some d ∧
      (∃ n ∈ d.newSymbols 2, Mem 104 (d.map.get n)) ∧ (∃ n ∈ d.newSymbols 1, Mem 104 (d.map.get n)) ∧
      ¬ Mem 104 (m.get 2) ∧ ¬ Mem 104 (m.get 1) ∧ ¬ SplitsWithoutLoss m d := by
  refine ⟨_, ⟨⟨[([⟨97, 100⟩], 0), ([⟨100, 102⟩], 1), ([⟨104, 117⟩], 3), ([⟨107, 104⟩], 4),
    ([⟨102, 107⟩, ⟨120, 123⟩], 2)], [[⟨97, 100⟩], [⟨100, 102⟩], [⟨102, 107⟩, ⟨120, 123⟩], [⟨104, 117⟩], [⟨107, 104⟩]]⟩,
    [(0, [0, 1]), (2, [1, 2, 4]), (1, [3, 4])]⟩, rfl, by rfl, ?_, ?_, ?_, ?_, ?_⟩
  · exact ⟨2, by decide, ⟨102, 107⟩, by decide, by simp [Range.Mem]⟩
  · exact ⟨3, by decide, ⟨104, 117⟩, by decide, by simp [Range.Mem]⟩
  · rintro ⟨r, h1, h2, h3⟩
    have h1 : r ∈ [(⟨100, 104⟩ : Range), ⟨120, 123⟩] := h1
    simp at h1; rcases h1 with rfl | rfl <;> simp_all
  · rintro ⟨r, h1, h2, h3⟩
    have h1 : r ∈ [(⟨107, 117⟩ : Range)] := h1
    simp at h1; subst h1; simp_all
  · intro h
    have := h.disjoint 2 3 104 ⟨⟨102, 107⟩, by decide, by simp [Range.Mem]⟩ ⟨⟨104, 117⟩, by decide, by simp [Range.Mem]⟩
    cases this

/-- C06, the part that holds: if no range ends in a gap between ranges visited earlier after meeting one of them
(`Dedup.SafeOrder`), overlap removal terminates and splits the sets without loss.
Missing: maps that break this condition, for which the code is wrong (theorem above). -/
theorem deduplicate_splits_without_loss_partial (m : SymbolMap) (hm : m.Inv) (hc : ∀ s ∈ m.syms, Canon s)
    (hsafe : Dedup.SafeOrder [] ((Dedup.visited m.ids).map (·.1))) :
    ∃ d, Dedup.deduplicate m = some d ∧ SplitsWithoutLoss m d := by
  have hids : ∀ s ∈ m.ids.map (·.1), Canon s := by
    intro s hs
    obtain ⟨⟨s', i⟩, h1, rfl⟩ := List.mem_map.1 hs
    exact hc _ (List.mem_of_getElem? ((hm.1 s' i).1 h1))
  obtain ⟨sets, h1, hg, hh⟩ := Dedup.collect_spec m hids hsafe
  have hcomb := Dedup.combine_spec sets (fun e he => hg.1.2 e he)
  let R0 : List (List Nat × SymSet) := match m.find [] with
    | some eps => [([eps], [])]
    | none => []
  have hR0 : RemappedMap.FillInv R0 (match m.find [] with
    | some eps => RemappedMap.empty.identifierFor [] [eps]
    | none => RemappedMap.empty) := by
    cases hf : m.find [] with
    | none => simp only [R0, hf]; exact RemappedMap.fill_empty
    | some eps =>
      simp only [R0, hf]
      exact RemappedMap.fill_step RemappedMap.fill_empty ([eps], [])
  have hfill := RemappedMap.fill_fold (Dedup.combine sets) R0 _ hR0
  refine ⟨_, by simp only [Dedup.deduplicate, h1]; rfl, ?_⟩
  generalize hd : (Dedup.combine sets).foldl _ _ = d at hfill
  -- facts about the registered pairs
  have hR0e : ∀ p ∈ R0, p.2 = [] ∧ ∃ o, p.1 = [o] ∧ m.syms[o]? = some [] := by
    intro p hp
    cases hf : m.find [] with
    | none => simp [R0, hf] at hp
    | some eps =>
      simp only [R0, hf, List.mem_singleton] at hp
      subst hp
      exact ⟨rfl, eps, rfl, (SymbolMap.find_iff m hm [] eps).1 hf⟩
  have hget : ∀ (n : Nat) (s : SymSet), d.map.syms[n]? = some s → d.map.get n = s := by
    intro n s h; simp [SymbolMap.get, h]
  have hget' : ∀ n, d.map.get n ≠ [] → ∃ p ∈ Dedup.combine sets, d.map.syms[n]? = some p.2 := by
    intro n hn
    cases hs : d.map.syms[n]? with
    | none => simp [SymbolMap.get, hs] at hn
    | some s =>
      obtain ⟨p, hp, he⟩ := (hfill.syms s).1 (List.mem_of_getElem? hs)
      rcases List.mem_append.1 hp with hp | hp
      · rw [hget n s hs, ← he, (hR0e p hp).1] at hn
        exact absurd rfl hn
      · exact ⟨p, hp, by rw [he]⟩
  -- a symbol determines the pair
  have huniq : ∀ p ∈ Dedup.combine sets, ∀ q ∈ Dedup.combine sets, ∀ x, Mem x p.2 → Mem x q.2 → p = q := by
    intro p hp q hq x hpx hqx
    obtain ⟨e, he, hek, hex⟩ := (hcomb.mem p hp x).1 hpx
    obtain ⟨f, hf, hfk, hfx⟩ := (hcomb.mem q hq x).1 hqx
    have hef : e = f := by
      by_cases hne : e = f
      · exact hne
      · exfalso
        obtain ⟨i, hi, hei⟩ := List.mem_iff_getElem.1 he
        obtain ⟨j, hj, hfj⟩ := List.mem_iff_getElem.1 hf
        have hpw := List.pairwise_iff_getElem.1 hg.1.1
        have hx1 := hex.1; have hx2 := hex.2; have hx3 := hfx.1; have hx4 := hfx.2
        rcases Nat.lt_trichotomy i j with h | h | h
        · have := hpw i j hi hj h; rw [hei, hfj] at this; omega
        · subst h; exact hne (hei.symm.trans hfj)
        · have := hpw j i hj hi h; rw [hei, hfj] at this; omega
    have hkey : p.1 = q.1 := by rw [← hek, ← hfk, hef]
    obtain ⟨i, hi, hpi⟩ := List.mem_iff_getElem.1 hp
    obtain ⟨j, hj, hqj⟩ := List.mem_iff_getElem.1 hq
    have hnd := hcomb.nodup
    have := (List.nodup_iff_pairwise_ne.1 hnd)
    have hpw := List.pairwise_iff_getElem.1 this
    rcases Nat.lt_trichotomy i j with h | h | h
    · exact absurd (by rw [List.getElem_map, List.getElem_map, hpi, hqj, hkey]) (hpw i j (by simpa using hi) (by simpa using hj) h)
    · subst h; exact hpi.symm.trans hqj
    · exact absurd (by rw [List.getElem_map, List.getElem_map, hpi, hqj, hkey]) (hpw j i (by simpa using hj) (by simpa using hi) h)
  have hmem_get : ∀ (o : Nat) x, Mem x (m.get o) ↔ ∃ s, (s, o) ∈ m.ids ∧ Mem x s := by
    intro o x
    constructor
    · intro h
      cases hs : m.syms[o]? with
      | none => simp [SymbolMap.get, hs, Mem] at h
      | some s => exact ⟨s, (hm.1 s o).2 hs, by simpa [SymbolMap.get, hs] using h⟩
    · rintro ⟨s, h1, h2⟩
      simpa [SymbolMap.get, (hm.1 s o).1 h1] using h2
  have hsub : ∀ o, ∀ n ∈ d.newSymbols o, ∀ x, Mem x (d.map.get n) → Mem x (m.get o) := by
    intro o n hn x hx
    obtain ⟨p, hp, hop, hnp⟩ := (hfill.news o n).1 hn
    rw [hget n _ hnp] at hx
    rcases List.mem_append.1 hp with hp | hp
    · rw [(hR0e p hp).1] at hx
      exact absurd rfl (Dedup.ne_nil_of_mem hx)
    · obtain ⟨e, he, hek, hex⟩ := (hcomb.mem p hp x).1 hx
      exact (hmem_get o x).2 ((hh x o).1 ⟨e, he, hex, by rw [hek]; exact hop⟩)
  have heps : ∀ o, o < m.count → ∀ n ∈ d.newSymbols o, (d.map.get n = [] ↔ m.get o = []) := by
    intro o ho n hn
    obtain ⟨p, hp, hop, hnp⟩ := (hfill.news o n).1 hn
    rw [hget n _ hnp]
    rcases List.mem_append.1 hp with hp | hp
    · obtain ⟨h1, o', h2, h3⟩ := hR0e p hp
      rw [h2] at hop
      simp only [List.mem_singleton] at hop
      subst hop
      simp [h1, SymbolMap.get, h3]
    · have hne := hcomb.ne p hp
      constructor
      · intro h; exact absurd h hne
      · intro h
        exfalso
        obtain ⟨r, t, hrt⟩ := List.exists_cons_of_ne_nil hne
        have hc' := (hcomb.canon p hp).2 r (by simp [hrt])
        have hx : Mem r.lo p.2 := ⟨r, by simp [hrt], by exact ⟨by omega, hc'⟩⟩
        have := hsub o n hn r.lo (by rw [hget n _ hnp]; exact hx)
        rw [h] at this
        exact Dedup.ne_nil_of_mem this rfl
  refine ⟨?_, ?_, fun o _ => hsub o, ?_, ?_, heps, ?_⟩
  · intro i j x hi hj
    obtain ⟨p, hp, hip⟩ := hget' i (Dedup.ne_nil_of_mem hi)
    obtain ⟨q, hq, hjq⟩ := hget' j (Dedup.ne_nil_of_mem hj)
    rw [hget i _ hip] at hi
    rw [hget j _ hjq] at hj
    have := huniq p hp q hq x hi hj
    subst this
    exact SymbolMap.syms_inj _ hfill.inv hip hjq
  · intro o ho x
    constructor
    · intro hx
      obtain ⟨e, he, hex, heo⟩ := (hh x o).2 ((hmem_get o x).1 hx)
      obtain ⟨p, hp, hpe⟩ := hcomb.all e he
      have hxp : Mem x p.2 := (hcomb.mem p hp x).2 ⟨e, he, hpe.symm, hex⟩
      have hps : p.2 ∈ d.map.syms := (hfill.syms _).2 ⟨p, by simp [hp], rfl⟩
      obtain ⟨n, hn, hne⟩ := List.mem_iff_getElem.1 hps
      have hn' : d.map.syms[n]? = some p.2 := by rw [List.getElem?_eq_getElem hn, hne]
      exact ⟨n, (hfill.news o n).2 ⟨p, by simp [hp], by rw [hpe]; exact heo, hn'⟩, by rw [hget n _ hn']; exact hxp⟩
    · rintro ⟨n, hn, hx⟩
      exact hsub o n hn x hx
  · intro o n hn
    obtain ⟨p, _, _, hnp⟩ := (hfill.news o n).1 hn
    exact (List.getElem?_eq_some_iff.1 hnp).1
  · intro n
    by_cases hn : d.map.get n = []
    · rw [hn]; exact SymSet.canon_nil
    · obtain ⟨p, hp, hip⟩ := hget' n hn
      rw [hget n _ hip]; exact hcomb.canon p hp
  · intro o ho hoe
    have hs : m.syms[o]? = some [] := by
      simp only [SymbolMap.get, List.getElem?_eq_getElem ho, Option.getD_some] at hoe
      rw [List.getElem?_eq_getElem ho, hoe]
    have hf := (SymbolMap.find_iff m hm [] o).2 hs
    have hmem0 : (([o], []) : List Nat × SymSet) ∈ R0 := by simp [R0, hf]
    have hps : [] ∈ d.map.syms := (hfill.syms _).2 ⟨([o], []), by simp [hmem0], rfl⟩
    obtain ⟨n, hn, hne⟩ := List.mem_iff_getElem.1 hps
    have hn' : d.map.syms[n]? = some [] := by rw [List.getElem?_eq_getElem hn, hne]
    exact ⟨n, (hfill.news o n).2 ⟨([o], []), by simp [hmem0], by simp, hn'⟩, hget n _ hn'⟩

-- three overlapping classes and epsilon
example : let m := SymbolMap.empty.registerAll [[], [⟨97, 102⟩], [⟨100, 110⟩], [⟨50, 60⟩, ⟨99, 105⟩]]
    m.Inv ∧ (∀ s ∈ m.syms, Canon s) ∧ Dedup.SafeOrder [] ((Dedup.visited m.ids).map (·.1)) := by
  refine ⟨(SymbolMap.registerAll_spec _ _ SymbolMap.inv_empty).1, ?_, ?_⟩
  · intro s hs
    have hs : s ∈ ([[], [⟨97, 102⟩], [⟨100, 110⟩], [⟨50, 60⟩, ⟨99, 105⟩]] : List SymSet) := hs
    simp only [List.mem_cons, List.not_mem_nil, or_false] at hs
    rcases hs with rfl | rfl | rfl | rfl <;> simp [Canon]
  · show Dedup.SafeOrder [] [⟨97, 102⟩, ⟨100, 110⟩, ⟨50, 60⟩, ⟨99, 105⟩]
    refine ⟨.inl (by simp), .inr (.inl (by simp)), .inl ?_, .inr (.inr ⟨⟨100, 110⟩, by simp, by decide, by decide⟩), trivial⟩
    intro t ht x h1 h2
    simp only [List.mem_cons, List.not_mem_nil, or_false] at ht
    simp only [Range.Mem] at h1 h2
    rcases ht with rfl | rfl <;> simp only at h1 <;> omega

/-! A natural case in which the condition always holds: sets of at most one range. -/

theorem SymbolMap.insertKey_sorted (ids : List (SymSet × Nat)) (p : SymSet × Nat)
    (h : ids.Pairwise (fun a b => SymSet.lt a.1 b.1 = true)) (hn : ∀ i, (p.1, i) ∉ ids) :
    (insertKey ids p).Pairwise (fun a b => SymSet.lt a.1 b.1 = true) := by
  induction ids with
  | nil => simp [insertKey]
  | cons q t ih =>
    rw [List.pairwise_cons] at h
    simp only [insertKey]
    split
    · rename_i hlt
      rw [List.pairwise_cons, List.pairwise_cons]
      refine ⟨?_, h⟩
      intro a ha
      rcases List.mem_cons.1 ha with rfl | ha
      · exact hlt
      · exact SymSet.lt_trans hlt (h.1 a ha)
    · rename_i hlt
      rw [List.pairwise_cons]
      refine ⟨?_, ih h.2 (fun i hi => hn i (by simp [hi]))⟩
      intro a ha
      rcases mem_insertKey.1 ha with rfl | ha
      · have hne : q.1 ≠ a.1 := fun e => hn q.2 (by rw [← e]; simp)
        rcases SymSet.lt_total hne with h | h
        · exact h
        · exact absurd h hlt
      · exact h.1 a ha

theorem SymbolMap.registerAll_sorted (l : List SymSet) (m : SymbolMap) (h : m.Inv)
    (hs : m.ids.Pairwise (fun a b => SymSet.lt a.1 b.1 = true)) :
    (m.registerAll l).ids.Pairwise (fun a b => SymSet.lt a.1 b.1 = true) := by
  induction l generalizing m with
  | nil => exact hs
  | cons s l ih =>
    have h1 := (identifierFor_spec m s h).1
    refine ih _ h1 ?_
    simp only [identifierFor]
    cases hl : lookup m.ids s with
    | some i => exact hs
    | none => exact insertKey_sorted _ _ hs (lookup_none hl)

theorem SymbolMap.registerAll_syms (l : List SymSet) (m : SymbolMap) (h : m.Inv) :
    ∀ t ∈ (m.registerAll l).syms, t ∈ m.syms ∨ t ∈ l := by
  induction l generalizing m with
  | nil => intro t ht; exact .inl ht
  | cons s l ih =>
    intro t ht
    obtain ⟨h1, _, _, h4⟩ := identifierFor_spec m s h
    rcases ih _ h1 t ht with h | h
    · rcases h4 with h4 | ⟨h4, _, _⟩
      · rw [h4] at h; exact .inl h
      · rw [h4] at h
        rcases List.mem_append.1 h with h | h
        · exact .inl h
        · exact .inr (by simp only [List.mem_singleton] at h; simp [h])
    · exact .inr (by simp [h])

/-- C06 for symbol maps whose sets are single ranges (or empty): no further condition is needed. -/
theorem deduplicate_single_ranges_partial (l : List SymSet) (hl : ∀ s ∈ l, Canon s ∧ s.length ≤ 1) :
    ∃ d, Dedup.deduplicate (SymbolMap.empty.registerAll l) = some d ∧
      SplitsWithoutLoss (SymbolMap.empty.registerAll l) d := by
  have hinv := (SymbolMap.registerAll_spec l _ SymbolMap.inv_empty).1
  have hsorted := SymbolMap.registerAll_sorted l _ SymbolMap.inv_empty (by simp [SymbolMap.empty])
  have hsyms : ∀ s ∈ (SymbolMap.empty.registerAll l).syms, Canon s ∧ s.length ≤ 1 := by
    intro s hs
    rcases SymbolMap.registerAll_syms l _ SymbolMap.inv_empty s hs with h | h
    · simp [SymbolMap.empty] at h
    · exact hl s h
  refine deduplicate_splits_without_loss_partial _ hinv (fun s hs => (hsyms s hs).1) ?_
  generalize hm : SymbolMap.empty.registerAll l = m at *
  have hone : ∀ p ∈ m.ids, Canon p.1 ∧ p.1.length ≤ 1 :=
    fun p hp => hsyms p.1 (List.mem_of_getElem? ((hinv.1 p.1 p.2).1 hp))
  have key : ∀ (ids : List (SymSet × Nat)) (earlier : List Range),
      ids.Pairwise (fun a b => SymSet.lt a.1 b.1 = true) → (∀ p ∈ ids, Canon p.1 ∧ p.1.length ≤ 1) →
      (∀ p ∈ ids, ∀ r ∈ p.1, ∀ t ∈ earlier, t.lo ≤ r.lo) →
      Dedup.SafeOrder earlier ((Dedup.visited ids).map (·.1)) := by
    intro ids
    induction ids with
    | nil => intro earlier _ _ _; trivial
    | cons p ids ih =>
      intro earlier hs ho he
      obtain ⟨s, i⟩ := p
      rw [List.pairwise_cons] at hs
      have hs1 := ho (s, i) (by simp)
      have hv : Dedup.visited ((s, i) :: ids) = s.map (fun r => (r, i)) ++ Dedup.visited ids := rfl
      match s, hs1, hv with
      | [], _, hv =>
        rw [hv]
        exact ih earlier hs.2 (fun p hp => ho p (by simp [hp])) (fun p hp => he p (by simp [hp]))
      | [r], hs1, hv =>
        rw [hv]
        have hr := hs1.1.2 r (by simp)
        refine ⟨.inr (.inl fun t ht => ?_), ?_⟩
        · have := he ([r], i) (by simp) r (by simp) t ht; simp only; omega
        · refine ih (r :: earlier) hs.2 (fun p hp => ho p (by simp [hp])) ?_
          intro p hp q hq t ht
          rcases List.mem_cons.1 ht with rfl | ht
          · have hlt := hs.1 p hp
            have hp1 := ho p (by simp [hp])
            obtain ⟨ps, pi⟩ := p
            match ps, hp1, hq, hlt with
            | [q'], _, hq, hlt =>
              simp only [List.mem_singleton] at hq
              subst hq
              simp only [SymSet.lt, List.length_singleton, Nat.lt_irrefl, if_false, SymSet.ltLoop] at hlt
              split at hlt
              · cases hlt
              · simp only [Range.lt] at hlt
                split at hlt
                · omega
                · split at hlt
                  · cases hlt
                  · omega
          · exact he p (by simp [hp]) q hq t ht
  exact key m.ids [] hsorted hone (by simp)

example : ∀ s ∈ ([[⟨97, 102⟩], [⟨107, 117⟩], [⟨100, 110⟩], []] : List SymSet), Canon s ∧ s.length ≤ 1 := by
  intro s hs
  simp only [List.mem_cons, List.not_mem_nil, or_false] at hs
  rcases hs with rfl | rfl | rfl | rfl <;> simp [Canon]

end TameParse

import Verif.WeakLexerProps
/-
What weak symbols fall back to (C61).
-/
namespace TameParse
namespace WeakLexer
open AssocMap Language Sound

/-! ### The loop over the actions of a state -/

theorem mem_insertSorted (x : Int) (l : List Int) (y : Int) : y ∈ insertSorted x l ↔ y = x ∨ y ∈ l := by
  induction l with
  | nil => simp [insertSorted]
  | cons z l ih =>
    unfold insertSorted
    split
    · simp
    · split
      · next h => subst h; simp
      · simp only [List.mem_cons, ih]
        tauto

/-- What the loop finds: the least symbol that is not weak, and the weak symbols. -/
theorem scan_spec (weak : List Int) (l : List Accept) : (∀ w, w ∈ (scan weak l).2 ↔ w ∈ weak ∧ ∃ a ∈ l, a.symbol = w) ∧
    ((scan weak l).1 = none32 ∨ ∃ a ∈ l, a.symbol ∉ weak ∧ a.symbol = (scan weak l).1) ∧ (scan weak l).1 ≤ none32 ∧
    ∀ a ∈ l, a.symbol ∉ weak → (scan weak l).1 ≤ a.symbol := by
  induction l using List.reverseRecOn with
  | nil =>
    have e : scan weak [] = (none32, []) := rfl
    rw [e]
    exact ⟨by simp, Or.inl rfl, Int.le_refl _, by simp⟩
  | append_singleton l b ih =>
    have e : scan weak (l ++ [b]) = if b.symbol ∈ weak then ((scan weak l).1, insertSorted b.symbol (scan weak l).2)
        else if b.symbol < (scan weak l).1 then (b.symbol, (scan weak l).2) else scan weak l := by
      unfold scan
      rw [List.foldl_append]
      rfl
    rw [e]
    obtain ⟨h1, h2, h3, h4⟩ := ih
    have hl : ∀ a ∈ l, a ∈ l ++ [b] := fun a ha => List.mem_append_left _ ha
    by_cases hb : b.symbol ∈ weak
    · rw [if_pos hb]
      refine ⟨?_, ?_, h3, ?_⟩
      · intro w
        simp only [mem_insertSorted, h1, List.mem_append, List.mem_singleton]
        constructor
        · rintro (rfl | ⟨hw, a, ha, e⟩)
          · exact ⟨hb, b, Or.inr rfl, rfl⟩
          · exact ⟨hw, a, Or.inl ha, e⟩
        · rintro ⟨hw, a, ha | rfl, e'⟩
          · exact Or.inr ⟨hw, a, ha, e'⟩
          · exact Or.inl e'.symm
      · rcases h2 with h2 | ⟨a, ha, h⟩
        · exact Or.inl h2
        · exact Or.inr ⟨a, hl a ha, h⟩
      · intro a ha hna
        rcases List.mem_append.1 ha with ha | ha
        · exact h4 a ha hna
        · rw [List.mem_singleton.1 ha] at hna; exact absurd hb hna
    · rw [if_neg hb]
      have hw : ∀ w, w ∈ (scan weak l).2 ↔ w ∈ weak ∧ ∃ a ∈ l ++ [b], a.symbol = w := by
        intro w
        rw [h1]
        constructor
        · rintro ⟨hw, a, ha, e⟩; exact ⟨hw, a, hl a ha, e⟩
        · rintro ⟨hw, a, ha, e⟩
          rcases List.mem_append.1 ha with ha | ha
          · exact ⟨hw, a, ha, e⟩
          · rw [List.mem_singleton.1 ha] at e; rw [e] at hb; exact absurd hw hb
      split
      · next hlt =>
        refine ⟨hw, Or.inr ⟨b, by simp, hb, rfl⟩, by show b.symbol ≤ none32; omega, ?_⟩
        intro a ha hna
        rcases List.mem_append.1 ha with ha | ha
        · have := h4 a ha hna; show b.symbol ≤ a.symbol; omega
        · rw [List.mem_singleton.1 ha]
      · next hlt =>
        refine ⟨hw, ?_, h3, ?_⟩
        · rcases h2 with h2 | ⟨a, ha, h⟩
          · exact Or.inl h2
          · exact Or.inr ⟨a, hl a ha, h⟩
        · intro a ha hna
          rcases List.mem_append.1 ha with ha | ha
          · exact h4 a ha hna
          · rw [List.mem_singleton.1 ha]; omega

/-! ### The loop over the states -/

/-- The accept action list of a state is done: its symbol is mapped to the strongest symbol. -/
def Done (weak : List Int) (l : List Accept) (s : Split) (l' : List Accept) : Prop :=
  (l' = l ∧ ∀ w ∈ (scan weak l).2, get w s.strong = some (scan weak l).1) ∨
  ∃ n w, l' = [.plain n] ∧ get n s.strong = some (scan weak l).1 ∧ w ∈ (scan weak l).2 ∧ s.terminals.parentOf n = w

/-- The invariant of the loops. -/
structure SInv (weak : List Int) (d : TerminalDict) (s : Split) : Prop where
  max : d.max ≤ s.terminals.max
  keys : ∀ n x, get n s.strong = some x → n ∈ weak ∨ (d.max ≤ n ∧ n < s.terminals.max)
  parent : ∀ n, n < d.max ∨ s.terminals.max ≤ n → s.terminals.parentOf n = n
  nodup : (s.strong.map Prod.fst).Nodup

/-- What later steps keep. -/
structure SGrow (s t : Split) : Prop where
  strong : ∀ n x, get n s.strong = some x → get n t.strong = some x
  parent : ∀ n, n < s.terminals.max → t.terminals.parentOf n = s.terminals.parentOf n
  max : s.terminals.max ≤ t.terminals.max

theorem SGrow.refl (s : Split) : SGrow s s := ⟨fun _ _ h => h, fun _ _ => rfl, Int.le_refl _⟩

theorem SGrow.trans {s t u : Split} (h : SGrow s t) (h' : SGrow t u) : SGrow s u :=
  ⟨fun n x e => h'.strong n x (h.strong n x e), fun n hn => (h'.parent n (by have := h.max; omega)).trans (h.parent n hn), Int.le_trans h.max h'.max⟩

theorem nodup_put {κ ν : Type} [DecidableEq κ] (k : κ) (v : ν) (m : List (κ × ν)) (h : (m.map Prod.fst).Nodup) : ((put k v m).map Prod.fst).Nodup := by
  have key : ∀ (m : List (κ × ν)) (x : κ), x ∈ (put k v m).map Prod.fst → x = k ∨ x ∈ m.map Prod.fst := by
    intro m x hx
    obtain ⟨p, hp, rfl⟩ := List.mem_map.1 hx
    rcases mem_put hp with rfl | hp
    · exact Or.inl rfl
    · exact Or.inr (List.mem_map.2 ⟨p, hp, rfl⟩)
  induction m with
  | nil => simp [put]
  | cons p m ih =>
    obtain ⟨a, b⟩ := p
    rw [List.map_cons, List.nodup_cons] at h
    unfold put
    split
    · next e => subst e; rw [List.map_cons, List.nodup_cons]; exact h
    · next e =>
      rw [List.map_cons, List.nodup_cons]
      refine ⟨fun hc => ?_, ih h.2⟩
      rcases key m a hc with rfl | hc
      · exact e rfl
      · exact h.1 hc

theorem get_of_mem {κ ν : Type} [DecidableEq κ] {k : κ} {v : ν} {m : List (κ × ν)} (h : (m.map Prod.fst).Nodup) (hm : (k, v) ∈ m) : get k m = some v := by
  induction m with
  | nil => cases hm
  | cons p m ih =>
    obtain ⟨a, b⟩ := p
    rw [List.map_cons, List.nodup_cons] at h
    simp only [AssocMap.get]
    rcases List.mem_cons.1 hm with e | hm
    · cases e; rw [if_pos rfl]
    · rw [if_neg, ih h.2 hm]
      rintro rfl
      exact h.1 (List.mem_map.2 ⟨_, hm, rfl⟩)

section
variable {weak : List Int} {d : TerminalDict}

theorem parentOf_split (t : TerminalDict) (w : Int) : (t.split w).2 = t.max ∧ (t.split w).1.max = t.max + 1 ∧ (∀ n, n ≠ t.max → (t.split w).1.parentOf n = t.parentOf n) ∧
    (0 ≤ t.parentOf w → (t.split w).1.parentOf t.max = t.parentOf w) := by
  unfold TerminalDict.split TerminalDict.addAnonymous
  dsimp only
  split
  · next h =>
    refine ⟨rfl, rfl, ?_, ?_⟩
    · intro n hn
      simp only [TerminalDict.parentOf, get_put]
      rw [if_neg (Ne.symm hn)]
    · intro _
      simp only [TerminalDict.parentOf, get_put, if_true, Option.getD_some]
  · next h => exact ⟨rfl, rfl, fun _ _ => rfl, fun h' => absurd h' h⟩

/-- One weak symbol of a state. -/
theorem useWeak_spec (hw0 : ∀ w ∈ weak, 0 ≤ w ∧ w < d.max) {s : Split} (hs : SInv weak d s) {q : Nat} {st w : Int} (hw : w ∈ weak) :
    SInv weak d (useWeak q st s w) ∧ SGrow s (useWeak q st s w) ∧
    (((useWeak q st s w).accept = s.accept ∧ get w (useWeak q st s w).strong = some st) ∨
      ∃ n, (useWeak q st s w).accept = s.accept.set q [.plain n] ∧ get n (useWeak q st s w).strong = some st ∧ n < (useWeak q st s w).terminals.max ∧
        (useWeak q st s w).terminals.parentOf n = w) := by
  obtain ⟨hp0, hp1⟩ := hw0 w hw
  have hmax := hs.max
  unfold useWeak
  cases hg : get w s.strong with
  | none =>
    dsimp only
    refine ⟨⟨hs.max, ?_, hs.parent, nodup_put _ _ _ hs.nodup⟩, ⟨?_, fun _ _ => rfl, Int.le_refl _⟩, Or.inl ⟨rfl, by rw [get_put, if_pos rfl]⟩⟩
    · intro n x hn
      rw [get_put] at hn
      split at hn
      · next e => exact Or.inl (e ▸ hw)
      · exact hs.keys n x hn
    · intro n x hn
      rw [get_put, if_neg]
      · exact hn
      · rintro rfl; rw [hg] at hn; cases hn
  | some y =>
    dsimp only
    split
    · next hne =>
      obtain ⟨h1, h2, h3, h4⟩ := parentOf_split s.terminals w
      have hpw := hs.parent w (Or.inl hp1)
      rw [hpw] at h4
      have h4 := h4 hp0
      generalize s.terminals.split w = r at h1 h2 h3 h4
      obtain ⟨d', n⟩ := r
      dsimp only at h1 h2 h3 h4 ⊢
      subst h1
      have hfresh : get s.terminals.max s.strong = none := by
        cases hf : get s.terminals.max s.strong with
        | none => rfl
        | some z =>
          rcases hs.keys _ z hf with h | h
          · have := (hw0 _ h).2; omega
          · omega
      refine ⟨⟨by show d.max ≤ d'.max; omega, ?_, ?_, nodup_put _ _ _ hs.nodup⟩, ⟨?_, ?_, by show s.terminals.max ≤ d'.max; omega⟩,
        Or.inr ⟨_, rfl, by rw [get_put, if_pos rfl], by show s.terminals.max < d'.max; omega, h4⟩⟩
      · intro m x hm
        rw [get_put] at hm
        show m ∈ weak ∨ (d.max ≤ m ∧ m < d'.max)
        split at hm
        · next e => subst e; right; omega
        · rcases hs.keys m x hm with h | h
          · exact Or.inl h
          · right; omega
      · intro m hm
        have hm' : m < d.max ∨ d'.max ≤ m := hm
        rw [show TerminalDict.parentOf _ m = d'.parentOf m from rfl, h3 m (by omega)]
        exact hs.parent m (by omega)
      · intro m x hm
        rw [get_put, if_neg]
        · exact hm
        · rintro rfl; rw [hfresh] at hm; cases hm
      · intro m hm
        exact h3 m (by omega)
    · next hne =>
      rw [not_not] at hne
      subst hne
      exact ⟨hs, .refl s, Or.inl ⟨rfl, hg⟩⟩

/-- One state. -/
theorem splitState_spec (hw0 : ∀ w ∈ weak, 0 ≤ w ∧ w < d.max) {s : Split} (hs : SInv weak d s) {q : Nat} (hq : q < s.accept.length) :
    SInv weak d (splitState weak s q) ∧ SGrow s (splitState weak s q) ∧ (splitState weak s q).accept.length = s.accept.length ∧
    (∀ p, p ≠ q → (splitState weak s q).accept[p]? = s.accept[p]?) ∧
    ((scan weak (s.accept.getD q [])).1 = none32 → (splitState weak s q).accept[q]? = s.accept[q]?) ∧
    ((scan weak (s.accept.getD q [])).1 ≠ none32 → ∃ l', (splitState weak s q).accept[q]? = some l' ∧ Done weak (s.accept.getD q []) (splitState weak s q) l' ∧
      (∀ n, l' = [.plain n] → l' ≠ s.accept.getD q [] → n < (splitState weak s q).terminals.max)) := by
  unfold splitState
  dsimp only
  have hsq : s.accept[q]? = some (s.accept.getD q []) := by
    rw [List.getD_eq_getElem?_getD, List.getElem?_eq_getElem hq]; rfl
  generalize hl : s.accept.getD q [] = l at hsq
  split
  · next h => exact ⟨hs, .refl s, rfl, fun _ _ => rfl, fun _ => rfl, fun h' => absurd h h'⟩
  · next hne =>
    have hws : ∀ w ∈ (scan weak l).2, w ∈ weak := fun w hw => ((scan_spec weak l).1 w |>.1 hw).1
    suffices H : ∀ (ws pre : List Int) (t : Split), (∀ w ∈ ws, w ∈ (scan weak l).2) → (∀ w ∈ pre, w ∈ (scan weak l).2) → SInv weak d t → SGrow s t → t.accept.length = s.accept.length →
        (∀ p, p ≠ q → t.accept[p]? = s.accept[p]?) →
        ((t.accept[q]? = some l ∧ ∀ w ∈ pre, get w t.strong = some (scan weak l).1) ∨
          ∃ n w, t.accept[q]? = some [.plain n] ∧ get n t.strong = some (scan weak l).1 ∧ w ∈ (scan weak l).2 ∧ t.terminals.parentOf n = w ∧ n < t.terminals.max) →
        let u := ws.foldl (useWeak q (scan weak l).1) t
        SInv weak d u ∧ SGrow s u ∧ u.accept.length = s.accept.length ∧ (∀ p, p ≠ q → u.accept[p]? = s.accept[p]?) ∧
        ((u.accept[q]? = some l ∧ ∀ w ∈ pre ++ ws, get w u.strong = some (scan weak l).1) ∨
          ∃ n w, u.accept[q]? = some [.plain n] ∧ get n u.strong = some (scan weak l).1 ∧ w ∈ (scan weak l).2 ∧ u.terminals.parentOf n = w ∧ n < u.terminals.max) by
      obtain ⟨h1, h2, h3, h4, h5⟩ := H (scan weak l).2 [] s (fun _ h => h) (by simp) hs (.refl s) rfl (fun _ _ => rfl) (Or.inl ⟨hsq, by simp⟩)
      refine ⟨h1, h2, h3, h4, fun h => absurd h hne, fun _ => ?_⟩
      rcases h5 with ⟨h5, h6⟩ | ⟨n, w, h5, h6, h7, h8, h9⟩
      · exact ⟨l, h5, Or.inl ⟨rfl, h6⟩, fun _ _ h => absurd rfl h⟩
      · exact ⟨_, h5, Or.inr ⟨n, w, rfl, h6, h7, h8⟩, fun m hm _ => by cases hm; exact h9⟩
    intro ws
    induction ws with
    | nil =>
      intro pre t _ _ ht hg hlen hoth hc
      rw [List.append_nil]
      exact ⟨ht, hg, hlen, hoth, hc⟩
    | cons w ws ih =>
      intro pre t hm hpre ht hg hlen hoth hc
      have hwm := hm w (List.mem_cons_self ..)
      obtain ⟨h1, h2, h3⟩ := useWeak_spec hw0 ht (q := q) (st := (scan weak l).1) (hws w hwm)
      rw [List.foldl_cons]
      have hqt : q < t.accept.length := by omega
      have := ih (pre ++ [w]) (useWeak q (scan weak l).1 t w) (fun x hx => hm x (List.mem_cons_of_mem _ hx)) (by
          intro x hx
          rcases List.mem_append.1 hx with hx | hx
          · exact hpre x hx
          · rw [List.mem_singleton.1 hx]; exact hwm) h1 (hg.trans h2)
        (by rcases h3 with ⟨e, -⟩ | ⟨n, e, -⟩
            · rw [e, hlen]
            · rw [e, List.length_set, hlen])
        (by intro p hp
            rcases h3 with ⟨e, -⟩ | ⟨n, e, -⟩
            · rw [e]; exact hoth p hp
            · rw [e, List.getElem?_set_ne (Ne.symm hp)]; exact hoth p hp)
        (by rcases h3 with ⟨e, h4⟩ | ⟨n, e, h4, h5, h6⟩
            · rw [e]
              rcases hc with ⟨c1, c2⟩ | ⟨n, w', c1, c2, c3, c4, c5⟩
              · refine Or.inl ⟨c1, fun x hx => ?_⟩
                rcases List.mem_append.1 hx with hx | hx
                · exact h2.strong x _ (c2 x hx)
                · rw [List.mem_singleton.1 hx]; exact h4
              · exact Or.inr ⟨n, w', c1, h2.strong n _ c2, c3, by rw [h2.parent n c5, c4], by have := h2.max; omega⟩
            · exact Or.inr ⟨n, w, by rw [e, List.getElem?_set_self hqt], h4, hwm, h6, h5⟩)
      rw [List.append_assoc] at this
      exact this

/-- All states. -/
theorem splitStates_spec {accept : List (List Accept)} (hw0 : ∀ w ∈ weak, 0 ≤ w ∧ w < d.max) (hd : ∀ n, d.parentOf n = n) :
    SInv weak d (splitStates weak ⟨accept, d, []⟩) ∧ (splitStates weak ⟨accept, d, []⟩).accept.length = accept.length ∧
    ∀ (q : Nat) (l : List Accept), accept[q]? = some l →
      ((scan weak l).1 = none32 → (splitStates weak ⟨accept, d, []⟩).accept[q]? = some l) ∧
      ((scan weak l).1 ≠ none32 → ∃ l', (splitStates weak ⟨accept, d, []⟩).accept[q]? = some l' ∧ Done weak l (splitStates weak ⟨accept, d, []⟩) l') := by
  have h0 : SInv weak d ⟨accept, d, []⟩ := ⟨Int.le_refl _, fun _ _ h => (nomatch h), fun n _ => hd n, List.nodup_nil⟩
  have H : ∀ k, k ≤ accept.length → let s := (List.range k).foldl (splitState weak) ⟨accept, d, []⟩
      SInv weak d s ∧ s.accept.length = accept.length ∧ (∀ q, k ≤ q → s.accept[q]? = accept[q]?) ∧
      ∀ q, q < k → ∀ l, accept[q]? = some l → ((scan weak l).1 = none32 → s.accept[q]? = some l) ∧
        ((scan weak l).1 ≠ none32 → ∃ l', s.accept[q]? = some l' ∧ Done weak l s l' ∧ (∀ n, l' = [.plain n] → l' ≠ l → n < s.terminals.max)) := by
    intro k
    induction k with
    | zero => intro _; exact ⟨h0, rfl, fun _ _ => rfl, fun q hq => absurd hq (by omega)⟩
    | succ k ih =>
      intro hk
      obtain ⟨h1, h2, h3, h4⟩ := ih (by omega)
      rw [List.range_succ, List.foldl_append]
      simp only [List.foldl_cons, List.foldl_nil]
      generalize (List.range k).foldl (splitState weak) ⟨accept, d, []⟩ = s at h1 h2 h3 h4
      obtain ⟨g1, g2, g3, g4, g5, g6⟩ := splitState_spec hw0 h1 (q := k) (by omega)
      have hk' : ∀ l, accept[k]? = some l → s.accept.getD k [] = l := by
        intro l hl
        rw [List.getD_eq_getElem?_getD, h3 k (Nat.le_refl _), hl]; rfl
      refine ⟨g1, g3.trans h2, fun q hq => by rw [g4 q (by omega)]; exact h3 q (by omega), ?_⟩
      intro q hq l hl
      by_cases hqk : q = k
      · subst hqk
        rw [hk' l hl] at g5 g6
        exact ⟨fun h => by rw [g5 h, h3 q (Nat.le_refl _), hl], g6⟩
      · obtain ⟨a1, a2⟩ := h4 q (by omega) l hl
        rw [g4 q hqk]
        refine ⟨a1, fun h => ?_⟩
        obtain ⟨l', b1, b2, b3⟩ := a2 h
        refine ⟨l', b1, ?_, fun n hn hne => by have := b3 n hn hne; have := g2.max; omega⟩
        rcases b2 with ⟨c1, c2⟩ | ⟨n, w, c1, c2, c3, c4⟩
        · exact Or.inl ⟨c1, fun w hw => g2.strong w _ (c2 w hw)⟩
        · by_cases hll : l' = l
          · -- the state already had a plain action for the split symbol
            have hlt : n < s.terminals.max := by
              rcases h1.keys n _ c2 with h | h
              · have := (hw0 n h).2; have := h1.max; omega
              · exact h.2
            exact Or.inr ⟨n, w, c1, g2.strong n _ c2, c3, by rw [g2.parent n hlt, c4]⟩
          · exact Or.inr ⟨n, w, c1, g2.strong n _ c2, c3, by rw [g2.parent n (b3 n c1 hll), c4]⟩
  obtain ⟨h1, h2, -, h4⟩ := H accept.length (Nat.le_refl _)
  refine ⟨h1, h2, fun q l hl => ?_⟩
  have hq : q < accept.length := by
    by_contra hc
    rw [List.getElem?_eq_none (by omega)] at hl
    cases hl
  obtain ⟨a1, a2⟩ := h4 q hq l hl
  refine ⟨a1, fun h => ?_⟩
  obtain ⟨l', b1, b2, -⟩ := a2 h
  exact ⟨l', b1, b2⟩

end

/-! ### The map of strong symbols -/

theorem addPair_spec (ps : List (Int × Int)) (m : List (Item × List Item)) :
    (∀ k ws, (k, ws) ∈ ps.foldl addPair m → ∀ x ∈ ws, (∃ ws', (k, ws') ∈ m ∧ x ∈ ws') ∨ ∃ n s, (n, s) ∈ ps ∧ k = .terminal s ∧ x = .terminal n) ∧
    (∀ k ws, get k m = some ws → ∃ ws', get k (ps.foldl addPair m) = some ws' ∧ ∀ x ∈ ws, x ∈ ws') ∧
    (∀ n s, (n, s) ∈ ps → ∃ ws', get (.terminal s) (ps.foldl addPair m) = some ws' ∧ .terminal n ∈ ws') := by
  induction ps generalizing m with
  | nil => exact ⟨fun k ws h x hx => Or.inl ⟨ws, h, hx⟩, fun k ws h => ⟨ws, h, fun _ h => h⟩, by simp⟩
  | cons p ps ih =>
    obtain ⟨n, s⟩ := p
    obtain ⟨h1, h2, h3⟩ := ih (addPair m (n, s))
    have hadd : ∀ (l : List Item) (x y : Item), y ∈ Rewriters.add l x ↔ y ∈ l ∨ y = x := by
      intro l x y
      unfold Rewriters.add
      split
      · constructor
        · exact Or.inl
        · rintro (h | rfl) <;> assumption
      · simp
    have hget : ∀ k ws, get k m = some ws → ∃ ws', get k (addPair m (n, s)) = some ws' ∧ ∀ x ∈ ws, x ∈ ws' := by
      intro k ws hk
      unfold addPair
      cases hs : get (Item.terminal s) m with
      | none =>
        dsimp only
        rw [get_put, if_neg]
        · exact ⟨ws, hk, fun _ h => h⟩
        · rintro rfl; rw [hs] at hk; cases hk
      | some vs =>
        dsimp only
        rw [get_put]
        split
        · next e =>
          subst e
          rw [hs] at hk
          cases hk
          exact ⟨_, rfl, fun x hx => (hadd _ _ _).2 (Or.inl hx)⟩
        · exact ⟨ws, hk, fun _ h => h⟩
    have hnew : ∃ ws', get (.terminal s) (addPair m (n, s)) = some ws' ∧ .terminal n ∈ ws' := by
      unfold addPair
      cases hs : get (Item.terminal s) m with
      | none => dsimp only; rw [get_put, if_pos rfl]; exact ⟨_, rfl, List.mem_singleton_self _⟩
      | some vs => dsimp only; rw [get_put, if_pos rfl]; exact ⟨_, rfl, (hadd _ _ _).2 (Or.inr rfl)⟩
    have hback : ∀ k ws, (k, ws) ∈ addPair m (n, s) → ∀ x ∈ ws, (∃ ws', (k, ws') ∈ m ∧ x ∈ ws') ∨ (k = .terminal s ∧ x = .terminal n) := by
      intro k ws hk x hx
      unfold addPair at hk
      cases hs : get (Item.terminal s) m with
      | none =>
        rw [hs] at hk
        rcases mem_put hk with e | hk
        · cases e
          exact Or.inr ⟨rfl, List.mem_singleton.1 hx⟩
        · exact Or.inl ⟨ws, hk, hx⟩
      | some vs =>
        rw [hs] at hk
        rcases mem_put hk with e | hk
        · cases e
          rcases (hadd _ _ _).1 hx with hx | hx
          · exact Or.inl ⟨vs, get_mem hs, hx⟩
          · exact Or.inr ⟨rfl, hx⟩
        · exact Or.inl ⟨ws, hk, hx⟩
    rw [List.foldl_cons]
    refine ⟨?_, ?_, ?_⟩
    · intro k ws hk x hx
      rcases h1 k ws hk x hx with ⟨ws', hk', hx'⟩ | ⟨n', s', hm, e⟩
      · rcases hback k ws' hk' x hx' with h | ⟨e1, e2⟩
        · exact Or.inl h
        · exact Or.inr ⟨n, s, List.mem_cons_self .., e1, e2⟩
      · exact Or.inr ⟨n', s', List.mem_cons_of_mem _ hm, e⟩
    · intro k ws hk
      obtain ⟨ws1, g1, g2⟩ := hget k ws hk
      obtain ⟨ws2, g3, g4⟩ := h2 k ws1 g1
      exact ⟨ws2, g3, fun x hx => g4 x (g2 x hx)⟩
    · intro n' s' hm
      rcases List.mem_cons.1 hm with e | hm
      · cases e
        obtain ⟨ws1, g1, g2⟩ := hnew
        obtain ⟨ws2, g3, g4⟩ := h2 _ ws1 g1
        exact ⟨ws2, g3, g4 _ g2⟩
      · exact h3 n' s' hm

theorem strongOf_iff {accept : List (List Accept)} {weak : List Int} {d : TerminalDict} (hne : weak ≠ [])
    (hs : ((splitStates weak ⟨accept, d, []⟩).strong.map Prod.fst).Nodup) (n a : Int) :
    StrongOf (addSymbols accept weak d).2 n a ↔ get n (splitStates weak ⟨accept, d, []⟩).strong = some a := by
  unfold addSymbols
  rw [if_neg hne]
  obtain ⟨h1, -, h3⟩ := addPair_spec (splitStates weak ⟨accept, d, []⟩).strong []
  constructor
  · rintro ⟨ws, hk, hx⟩
    rcases h1 _ ws hk _ hx with ⟨_, h, -⟩ | ⟨n', s', hm, e1, e2⟩
    · cases h
    · cases e1
      cases e2
      exact get_of_mem hs hm
  · intro hg
    obtain ⟨ws, h4, h5⟩ := h3 n a (get_mem hg)
    exact ⟨ws, get_mem h4, h5⟩

/-! ### The theorems -/

/-- What a DFA for a language looks like: the accept actions come from definitions with symbols of the dictionary, and `weak` are the weak symbols. -/
structure Fits (accept : List (List Accept)) (weak : List Int) (d : TerminalDict) : Prop where
  actions : ∀ l ∈ accept, ∀ a ∈ l, ∃ s t w, a = .lang s t w ∧ (w = true ↔ s ∈ weak) ∧ s < none32
  symbols : ∀ w ∈ weak, 0 ≤ w ∧ w < d.max
  whole : ∀ n, d.parentOf n = n

def Accept.isWeak : Accept → Bool
  | .lang _ _ w => w
  | .plain _ => false

/-- The strong symbols of a state are numbered by their kind (see `symbol_order`). -/
def Agree (l : List Accept) : Prop := ∀ s t s' t', .lang s t false ∈ l → .lang s' t' false ∈ l → s < s' → rank t ≤ rank t'

theorem strongest {weak : List Int} {l : List Accept} (hl : ∀ a ∈ l, ∃ s t w, a = .lang s t w ∧ (w = true ↔ s ∈ weak) ∧ s < none32) (ha : Agree l) {a : Accept}
    (h : highest (l.filter (fun a => !a.isWeak)) = some a) : (scan weak l).1 = a.symbol ∧ (scan weak l).1 ≠ none32 := by
  have hlang : ∀ b ∈ l.filter (fun a => !a.isWeak), IsLang b := by
    intro b hb
    obtain ⟨s, t, w, rfl, -⟩ := hl b (List.mem_filter.1 hb).1
    trivial
  obtain ⟨h1, h2⟩ := (highest_iff hlang).1 h
  obtain ⟨hal, haw⟩ := List.mem_filter.1 h1
  obtain ⟨s, t, w, rfl, hw, hlt⟩ := hl a hal
  have hwf : w = false := by simpa [Accept.isWeak] using haw
  subst hwf
  have hsw : s ∉ weak := fun hc => absurd (hw.2 hc) (by simp)
  obtain ⟨-, s2, s3, s4⟩ := scan_spec weak l
  have hle := s4 _ hal hsw
  rw [show (Accept.lang s t false).symbol = s from rfl] at hle ⊢
  rcases s2 with s2 | ⟨b, hb, hbw, hbs⟩
  · omega
  · obtain ⟨s', t', w', rfl, hw', hlt'⟩ := hl b hb
    have hbs' : s' = (scan weak l).1 := hbs
    have hwf' : w' = false := by
      cases w' with
      | false => rfl
      | true => exact absurd (hw'.1 rfl) hbw
    subst hwf'
    rcases h2 _ (List.mem_filter.2 ⟨hb, rfl⟩) with e | e
    · cases e; omega
    · unfold Before at e
      rcases e with ⟨e, -⟩ | ⟨-, e⟩
      · cases e
      · by_cases hss : s' < s
        · have := ha s' t' s t hb hal hss
          rcases e with e | ⟨rfl, e⟩ <;> omega
        · omega

/-- **C61** (partial). A text that matches weak and strong symbols is reported as one of the weak symbols, or as a symbol that was split from it, and this symbol
falls back to the strong symbol that the lexer would have reported without the weak ones. The numbers of the strong symbols must follow their kinds,
as they do in a language that inherits from no other. -/
theorem weak_fallback_partial {accept : List (List Accept)} {weak : List Int} {d : TerminalDict} (hf : Fits accept weak d) {q : Nat} {l : List Accept}
    (hq : accept[q]? = some l) (ha : Agree l) {a b : Accept} (hs : highest (l.filter (fun a => !a.isWeak)) = some a) (hb : b ∈ l) (hbw : b.isWeak = true) :
    ∃ l' x, (addSymbols accept weak d).1.accept[q]? = some l' ∧ highest l' = some x ∧ StrongOf (addSymbols accept weak d).2 x.symbol a.symbol ∧
      ∃ c ∈ l, c.isWeak = true ∧ (addSymbols accept weak d).1.terminals.parentOf x.symbol = c.symbol := by
  have hl := hf.actions l (List.mem_of_getElem? hq)
  obtain ⟨sb, tb, wb, rfl, hwb, -⟩ := hl b hb
  have hwbt : wb = true := hbw
  have hsb := hwb.1 hwbt
  have hne : weak ≠ [] := List.ne_nil_of_mem hsb
  obtain ⟨e1, e2⟩ := strongest hl ha hs
  obtain ⟨i1, -, i3⟩ := splitStates_spec (accept := accept) hf.symbols hf.whole
  obtain ⟨l', j1, j2⟩ := (i3 q l hq).2 e2
  have hfst : (addSymbols accept weak d).1 = splitStates weak ⟨accept, d, []⟩ := by unfold addSymbols; rw [if_neg hne]
  rw [hfst]
  obtain ⟨s1, -, -, -⟩ := scan_spec weak l
  have hc : ∀ w ∈ (scan weak l).2, ∃ c ∈ l, c.isWeak = true ∧ c.symbol = w := by
    intro w hw
    obtain ⟨hww, c, hc, e⟩ := (s1 w).1 hw
    obtain ⟨sc, tc, wc, rfl, hwc, -⟩ := hl c hc
    exact ⟨_, hc, hwc.2 (by rw [show sc = w from e]; exact hww), e⟩
  rcases j2 with ⟨rfl, k⟩ | ⟨n, w, rfl, k1, k2, k3⟩
  · -- nothing was split: the highest action is weak
    have hlang : ∀ b ∈ l', IsLang b := by
      intro b hb
      obtain ⟨s, t, w, rfl, -⟩ := hl b hb
      trivial
    obtain ⟨x, x1, x2, x3⟩ := accept_priority (List.ne_nil_of_mem hb) hlang
    obtain ⟨sx, tx, wx, rfl, hwx, -⟩ := hl x x2
    have hwxt : wx = true := by
      rcases x3 _ hb with e | ⟨e, -⟩
      · cases e; exact hwbt
      · unfold Before at e
        rcases e with ⟨e, -⟩ | ⟨e, -⟩
        · exact e
        · rw [e]; exact hwbt
    have hsx : sx ∈ (scan weak l').2 := (s1 sx).2 ⟨hwx.1 hwxt, _, x2, rfl⟩
    refine ⟨l', _, j1, x1, ?_, _, x2, hwxt, ?_⟩
    · rw [strongOf_iff hne i1.nodup, ← e1]
      exact k sx hsx
    · exact i1.parent sx (Or.inl (hf.symbols sx (hwx.1 hwxt)).2)
  · refine ⟨_, .plain n, j1, (by simp [highest]), ?_, ?_⟩
    · rw [strongOf_iff hne i1.nodup, ← e1]
      exact k1
    · obtain ⟨c, c1, c2, c3⟩ := hc w k2
      exact ⟨c, c1, c2, by rw [c3]; exact k3⟩

/-- A weak symbol has one strong symbol (the condition `strong` that the theorems about parsers ask for). -/
theorem strong_unique {accept : List (List Accept)} {weak : List Int} {d : TerminalDict} (hf : Fits accept weak d) {n a b : Int}
    (ha : StrongOf (addSymbols accept weak d).2 n a) (hb : StrongOf (addSymbols accept weak d).2 n b) : a = b := by
  by_cases hne : weak = []
  · obtain ⟨ws, h, -⟩ := ha
    unfold addSymbols at h
    rw [if_pos hne] at h
    cases h
  · obtain ⟨i1, -, -⟩ := splitStates_spec (accept := accept) hf.symbols hf.whole
    rw [strongOf_iff hne i1.nodup] at ha hb
    rw [ha] at hb
    exact Option.some.inj hb

/-- The weak symbols of the states have one partner each. -/
def OnePartner (accept : List (List Accept)) (weak : List Int) : Prop :=
  ∀ l ∈ accept, ∀ l' ∈ accept, ∀ w ∈ (scan weak l).2, w ∈ (scan weak l').2 → (scan weak l).1 ≠ none32 → (scan weak l').1 ≠ none32 → (scan weak l).1 = (scan weak l').1

/-- If every weak symbol has one partner, no symbol is split: the lexer keeps reporting the symbols of the language. -/
theorem no_split {accept : List (List Accept)} {weak : List Int} {d : TerminalDict} (ho : OnePartner accept weak) :
    (addSymbols accept weak d).1.accept = accept ∧ (addSymbols accept weak d).1.terminals = d := by
  unfold addSymbols
  split
  · exact ⟨rfl, rfl⟩
  · show (splitStates weak ⟨accept, d, []⟩).accept = accept ∧ (splitStates weak ⟨accept, d, []⟩).terminals = d
    let P : Split → Prop := fun s => s.accept = accept ∧ s.terminals = d ∧
      ∀ n x, get n s.strong = some x → ∃ l ∈ accept, n ∈ (scan weak l).2 ∧ (scan weak l).1 = x ∧ x ≠ none32
    have inner : ∀ (l : List Accept), l ∈ accept → (scan weak l).1 ≠ none32 → ∀ (q : Nat) (ws : List Int) (s : Split), (∀ w ∈ ws, w ∈ (scan weak l).2) → P s →
        P (ws.foldl (useWeak q (scan weak l).1) s) := by
      intro l hl hne q ws
      induction ws with
      | nil => intro s _ h; exact h
      | cons w ws ih =>
        intro s hw hs
        rw [List.foldl_cons]
        refine ih _ (fun x hx => hw x (List.mem_cons_of_mem _ hx)) ?_
        obtain ⟨h1, h2, h3⟩ := hs
        have hwl := hw w (List.mem_cons_self ..)
        unfold useWeak
        cases hg : get w s.strong with
        | none =>
          refine ⟨h1, h2, fun n x hn => ?_⟩
          dsimp only at hn
          rw [get_put] at hn
          split at hn
          · next e => cases hn; subst e; exact ⟨l, hl, hwl, rfl, hne⟩
          · exact h3 n x hn
        | some y =>
          dsimp only
          obtain ⟨l', hl', hw', rfl, hy⟩ := h3 w y hg
          rw [if_neg (by rw [not_not]; exact ho l' hl' l hl w hw' hwl hy hne)]
          exact ⟨h1, h2, h3⟩
    have outer : ∀ k, k ≤ accept.length → P ((List.range k).foldl (splitState weak) ⟨accept, d, []⟩) := by
      intro k
      induction k with
      | zero => intro _; exact ⟨rfl, rfl, fun _ _ h => (nomatch h)⟩
      | succ k ih =>
        intro hk
        have hs := ih (by omega)
        rw [List.range_succ, List.foldl_append, List.foldl_cons, List.foldl_nil]
        generalize (List.range k).foldl (splitState weak) ⟨accept, d, []⟩ = s at hs
        unfold splitState
        dsimp only
        rw [hs.1]
        have hm : accept.getD k [] ∈ accept := by
          rw [List.getD_eq_getElem?_getD, List.getElem?_eq_getElem (by omega)]
          exact List.getElem_mem _
        split
        · exact hs
        · next hne => exact inner _ hm hne _ _ _ (fun _ h => h) hs
    have := outer accept.length (Nat.le_refl _)
    exact ⟨this.1, this.2.1⟩

namespace Example

/-- `base`: an identifier. -/
def base : List (Block NtDef) := [.lexer .lexer false false false [⟨.regex, "id", "/[a-z]+/".toList, false, false⟩]]

/-- The child of `base`: the keyword `if`, and a weak symbol for the same text. -/
def child : List (Block NtDef) :=
  [.lexer .keywords false false false [⟨.literal, "if", [], false, false⟩], .lexer .keywords true false false [⟨.regex, "kw", "/if/".toList, false, false⟩]]

def lang : Lang := Lang.new.compile [base, child]

/-- The action for a definition (lexer_stage.cpp 361,379). -/
def actionOf (i : LexItem) : Accept := .lang i.symbol (i.type.getD .lexer) i.weak

/-- The state for the text `if`, which all three definitions match. -/
def ifState : List Accept := (allItems lang).map actionOf

theorem ifState_eq : ifState = [.lang 0 .lexer false, .lang 1 .keywords true, .lang 2 .keywords false] := by decide +kernel

/-- **C61**, against the claim of weak_symbols.cpp 117-118: without the weak symbol the lexer would report the keyword `if`, but the weak symbol
falls back to the identifier. -/
theorem weak_fallback_violated : highest ifState = some (.lang 1 .keywords true) ∧ highest (ifState.filter (fun a => !a.isWeak)) = some (.lang 2 .keywords false) ∧
    lang.terminals.symbolForName "if" = 2 ∧ lang.terminals.symbolForName "id" = 0 ∧
    StrongOf (addSymbols [ifState] [1] lang.terminals).2 1 0 ∧ ¬ StrongOf (addSymbols [ifState] [1] lang.terminals).2 1 2 := by
  have e : (addSymbols [ifState] [1] lang.terminals).2.strongToWeak = [(.terminal 0, [.terminal 1])] := by decide +kernel
  refine ⟨by decide +kernel, by decide +kernel, by decide +kernel, by decide +kernel, ⟨_, by rw [e]; exact List.mem_singleton_self _, List.mem_singleton_self _⟩, ?_⟩
  rintro ⟨ws, h, -⟩
  rw [e] at h
  cases List.mem_singleton.1 h

/-- A weak symbol `k` that shares some texts with the keyword `i1` and others with `i2`. -/
def two : List (List Accept) := [[.lang 0 .keywords true, .lang 1 .lexer false], [.lang 0 .keywords true, .lang 2 .lexer false]]

def dict : TerminalDict := (((TerminalDict.addNamed ⟨0, [], [], [], []⟩ "k").1.addNamed "i1").1.addNamed "i2").1

theorem two_fits : Fits two [0] dict := by
  refine ⟨?_, ?_, fun n => by
    show (AssocMap.get n dict.parentFor).getD n = n
    rw [show dict.parentFor = [] from by decide +kernel]
    rfl⟩
  · intro l hl a ha
    simp only [two, List.mem_cons, List.not_mem_nil, or_false] at hl
    rcases hl with rfl | rfl <;>
    · simp only [List.mem_cons, List.not_mem_nil, or_false] at ha
      rcases ha with rfl | rfl <;> exact ⟨_, _, _, rfl, by decide, by decide⟩
  · intro w hw
    rw [List.mem_singleton.1 hw]
    exact ⟨Int.le_refl _, by decide +kernel⟩

/-- `weak_fallback_partial` for the second state: the symbol that is reported is split from `k`, and falls back to `i2`. -/
example : ∃ l' x, (addSymbols two [0] dict).1.accept[1]? = some l' ∧ highest l' = some x ∧ StrongOf (addSymbols two [0] dict).2 x.symbol 2 ∧
    ∃ c ∈ [Accept.lang 0 .keywords true, .lang 2 .lexer false], c.isWeak = true ∧ (addSymbols two [0] dict).1.terminals.parentOf x.symbol = c.symbol :=
  weak_fallback_partial (a := .lang 2 .lexer false) two_fits (q := 1) rfl (by
    intro s t s' t' h h' _
    simp only [List.mem_cons, List.not_mem_nil, or_false, reduceCtorEq, Accept.lang.injEq, Bool.false_eq_true, and_false, false_or] at h h'
    rw [h.2.1, h'.2.1]) (by decide +kernel) (List.mem_cons_self ..) rfl

/-- **C61**, split symbols: for a text that matches `k` and `i2` the lexer reports the new symbol 3. It is split from `k` and has no name of its own, and where the
grammar only expects `k` a parser has no action for it, so that this text is rejected. The text that matches `k` and `i1` is accepted there. -/
theorem split_symbol_violated :
    (addSymbols two [0] dict).1.accept.map highest = [some (.lang 0 .keywords true), some (.plain 3)] ∧ (addSymbols two [0] dict).1.terminals.parentOf 3 = 0 ∧
    (∀ i : Item, i ∈ (addSymbols two [0] dict).2.weakSymbols → i = .terminal 0) ∧
    (∀ (next : Int) (r : Rule), ∀ a ∈ Rewriters.rewriteWeak (addSymbols two [0] dict).2 [⟨.shift, .terminal 0, next, r⟩], a.item ≠ .terminal 3) := by
  have e : (addSymbols two [0] dict).2.strongToWeak = [(.terminal 1, [.terminal 0]), (.terminal 2, [.terminal 3])] := by decide +kernel
  have e' : (addSymbols two [0] dict).2.weakSymbols = [.terminal 0] := by decide +kernel
  refine ⟨by decide +kernel, by decide +kernel, ?_, ?_⟩
  · intro i hi
    rw [e'] at hi
    exact List.mem_singleton.1 hi
  · intro next r a ha
    rw [Rewriters.rewriteWeak, if_pos] at ha
    · rw [List.mem_singleton.1 ha]
      simp
    · simp [Rewriters.haveStrong, Rewriters.Weak.find, e]

/-- With one partner for each weak symbol nothing is split. -/
example : (addSymbols [ifState] [1] lang.terminals).1.accept = [ifState] ∧ (addSymbols [ifState] [1] lang.terminals).1.terminals = lang.terminals :=
  no_split (by
    intro l hl l' hl' w _ _ _ _
    rw [List.mem_singleton.1 hl, List.mem_singleton.1 hl'])

end Example

end WeakLexer
end TameParse

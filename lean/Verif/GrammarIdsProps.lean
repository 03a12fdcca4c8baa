import Verif.GrammarIds
import Mathlib.Data.List.Induction
/-
C28-C30: identifiers issued by a grammar and symbols issued by a terminal dictionary.
-/
namespace TameParse
open AssocMap

namespace GrammarIds

/-- What holds of the rule tables after any history. -/
structure RuleInv (g : GrammarIds) (L : List (Request × Nat)) : Prop where
  lt : ∀ r i, get r g.ruleIds = some i → i < g.ruleIds.length
  back : ∀ r i, get r g.ruleIds = some i → get i g.ruleFor = some r
  log : ∀ r i, (Request.rule r, i) ∈ L → get r g.ruleIds = some i

/-- What holds of the item and name tables after a history that registers no nonterminal of its own number. -/
structure ItemInv (g : GrammarIds) (L : List (Request × Nat)) : Prop where
  lt : ∀ x i, get x g.itemIds = some i → i < g.itemIds.length
  back : ∀ x i, get x g.itemIds = some i → get i g.itemFor = some x
  non : ∀ n i, get (.nonterminal n) g.itemIds = some i → n < (g.itemIds.length : Int)
  names : ∀ s i, get s g.nameIds = some i → get (.nonterminal i) g.itemIds = some i ∧ get i g.nameFor = some s
  logItem : ∀ x i, (Request.item x, i) ∈ L → get x g.itemIds = some i
  logName : ∀ s i, (Request.name s, i) ∈ L → get s g.nameIds = some i
  pos : 0 < g.itemIds.length

theorem run_append (g : GrammarIds) (xs ys : List Request) :
    run g (xs ++ ys) = ((run (run g xs).1 ys).1, (run g xs).2 ++ (run (run g xs).1 ys).2) := by
  induction xs generalizing g with
  | nil => simp [run]
  | cons x xs ih => simp [run, ih]

theorem ruleInv_step {g L} (h : RuleInv g L) (q : Request) : RuleInv (answer g q).1 (L ++ [(q, (answer g q).2)]) := by
  cases q with
  | item x =>
    have e1 : (answer g (.item x)).1.ruleIds = g.ruleIds ∧ (answer g (.item x)).1.ruleFor = g.ruleFor := by
      simp only [answer, identifierForItem]; split <;> exact ⟨rfl, rfl⟩
    refine ⟨?_, ?_, ?_⟩
    · rw [e1.1]; exact h.lt
    · rw [e1.1, e1.2]; exact h.back
    · rw [e1.1]; intro r i hm; exact h.log r i (by simpa using hm)
  | name x =>
    have e1 : (answer g (.name x)).1.ruleIds = g.ruleIds ∧ (answer g (.name x)).1.ruleFor = g.ruleFor := by
      simp only [answer, idForNonterminal]; split <;> exact ⟨rfl, rfl⟩
    refine ⟨?_, ?_, ?_⟩
    · rw [e1.1]; exact h.lt
    · rw [e1.1, e1.2]; exact h.back
    · rw [e1.1]; intro r i hm; exact h.log r i (by simpa using hm)
  | rule x =>
    simp only [answer, identifierForRule]
    cases hx : get x g.ruleIds with
    | some i =>
      refine ⟨h.lt, h.back, ?_⟩
      intro r j hm
      simp only [List.mem_append, List.mem_singleton, Prod.mk.injEq, Request.rule.injEq] at hm
      rcases hm with hm | ⟨rfl, rfl⟩
      · exact h.log r j hm
      · exact hx
    | none =>
      dsimp only
      have hl := length_put_new (g.ruleIds.length) hx
      refine ⟨?_, ?_, ?_⟩
      · intro r i hr
        simp only [get_put] at hr
        rw [hl]
        split at hr
        · cases hr; omega
        · have := h.lt r i hr; omega
      · intro r i hr
        simp only [get_put] at hr ⊢
        split at hr
        · rename_i he; cases hr; rw [if_pos rfl, he]
        · have := h.lt r i hr
          rw [if_neg (by omega)]; exact h.back r i hr
      · intro r i hm
        simp only [List.mem_append, List.mem_singleton, Prod.mk.injEq, Request.rule.injEq] at hm
        simp only [get_put]
        rcases hm with hm | ⟨rfl, rfl⟩
        · have := h.log r i hm
          rw [if_neg]; · exact this
          rintro rfl; rw [hx] at this; cases this
        · rw [if_pos rfl]

theorem ruleInv_run (qs : List Request) : ∀ {g L}, RuleInv g L → RuleInv (run g qs).1 (L ++ (run g qs).2) := by
  induction qs with
  | nil => intro g L h; simpa [run] using h
  | cons q qs ih =>
    intro g L h
    have := ih (ruleInv_step h q)
    simpa [run] using this

/-- C28 for rules, every history: a rule keeps its identifier, different rules have different ones, and each identifier leads back to the
rule. -/
theorem rule_ids_exact (qs : List Request) (r s : Rule) (i j : Nat) (hr : (Request.rule r, i) ∈ (run new qs).2)
    (hs : (Request.rule s, j) ∈ (run new qs).2) : (i = j ↔ r = s) ∧ (run new qs).1.ruleWithIdentifier i = r := by
  have h0 : RuleInv new [] := ⟨(by intro r i h; cases h), (by intro r i h; cases h), (by simp)⟩
  have h := ruleInv_run qs h0
  rw [List.nil_append] at h
  have h1 := h.log r i hr
  have h2 := h.log s j hs
  refine ⟨⟨?_, ?_⟩, ?_⟩
  · rintro rfl
    have := (h.back r i h1).symm.trans (h.back s i h2)
    exact Option.some.inj this
  · rintro rfl
    exact Option.some.inj (h1.symm.trans h2)
  · simp [ruleWithIdentifier, h.back r i h1]

/-- Explicitly registered nonterminals have numbers that were issued before. (The grammar's constructor issues 0.) -/
def Issued (qs : List Request) : Prop :=
  ∀ pre n post, qs = pre ++ .item (.nonterminal n) :: post →
    n ≤ 0 ∨ ∃ q i, (q, i) ∈ (run new pre).2 ∧ (∀ r, q ≠ .rule r) ∧ n = (i : Int)

theorem itemInv_step {g L} (h : ItemInv g L) (q : Request)
    (hq : ∀ n, q = .item (.nonterminal n) → n < (g.itemIds.length : Int)) : ItemInv (answer g q).1 (L ++ [(q, (answer g q).2)]) := by
  cases q with
  | rule x =>
    have e1 : (answer g (.rule x)).1.itemIds = g.itemIds ∧ (answer g (.rule x)).1.itemFor = g.itemFor ∧
        (answer g (.rule x)).1.nameIds = g.nameIds ∧ (answer g (.rule x)).1.nameFor = g.nameFor := by
      simp only [answer, identifierForRule]; split <;> exact ⟨rfl, rfl, rfl, rfl⟩
    obtain ⟨e1, e2, e3, e4⟩ := e1
    refine ⟨?_, ?_, ?_, ?_, ?_, ?_, ?_⟩ <;> (try rw [e1]) <;> try rw [e2]
    · exact h.lt
    · exact h.back
    · exact h.non
    · rw [e3, e4]; exact h.names
    · intro r i hm; exact h.logItem r i (by simpa using hm)
    · rw [e3]; intro r i hm; exact h.logName r i (by simpa using hm)
    · exact h.pos
  | item x =>
    simp only [answer, identifierForItem]
    cases hx : get x g.itemIds with
    | some i =>
      refine ⟨h.lt, h.back, h.non, h.names, ?_, ?_, h.pos⟩
      · intro r j hm
        simp only [List.mem_append, List.mem_singleton, Prod.mk.injEq, Request.item.injEq] at hm
        rcases hm with hm | ⟨rfl, rfl⟩
        · exact h.logItem r j hm
        · exact hx
      · intro r j hm; exact h.logName r j (by simpa using hm)
    | none =>
      dsimp only
      have hl := length_put_new (g.itemIds.length) hx
      refine ⟨?_, ?_, ?_, ?_, ?_, ?_, ?_⟩
      · intro r i hr
        simp only [get_put] at hr
        dsimp only
        rw [hl]
        split at hr
        · cases hr; omega
        · have := h.lt r i hr; omega
      · intro r i hr
        simp only [get_put] at hr ⊢
        split at hr
        · rename_i he; cases hr; rw [if_pos rfl, he]
        · have := h.lt r i hr
          rw [if_neg (by omega)]; exact h.back r i hr
      · intro n i hr
        simp only [get_put] at hr
        dsimp only
        rw [hl]
        split at hr
        · rename_i he
          have := hq n (by rw [he]); omega
        · have := h.non n i hr; omega
      · intro s i hs
        have := h.names s i hs
        refine ⟨?_, this.2⟩
        simp only [get_put]
        rw [if_neg]; · exact this.1
        rintro rfl; rw [hx] at this; cases this.1
      · intro r i hm
        simp only [List.mem_append, List.mem_singleton, Prod.mk.injEq, Request.item.injEq] at hm
        simp only [get_put]
        rcases hm with hm | ⟨rfl, rfl⟩
        · have := h.logItem r i hm
          rw [if_neg]; · exact this
          rintro rfl; rw [hx] at this; cases this
        · rw [if_pos rfl]
      · intro r j hm; exact h.logName r j (by simpa using hm)
      · dsimp only; omega
  | name x =>
    simp only [answer, idForNonterminal]
    cases hx : get x g.nameIds with
    | some i =>
      refine ⟨h.lt, h.back, h.non, h.names, ?_, ?_, h.pos⟩
      · intro r j hm; exact h.logItem r j (by simpa using hm)
      · intro r j hm
        simp only [List.mem_append, List.mem_singleton, Prod.mk.injEq, Request.name.injEq] at hm
        rcases hm with hm | ⟨rfl, rfl⟩
        · exact h.logName r j hm
        · exact hx
    | none =>
      dsimp only
      have hnew : get (Item.nonterminal (g.itemIds.length : Int)) g.itemIds = none := by
        by_contra hne
        obtain ⟨i, hi⟩ := Option.ne_none_iff_exists'.1 hne
        have := h.non _ i hi
        omega
      have hl := length_put_new (g.itemIds.length) hnew
      refine ⟨?_, ?_, ?_, ?_, ?_, ?_, ?_⟩
      · intro r i hr
        simp only [get_put] at hr
        dsimp only
        rw [hl]
        split at hr
        · cases hr; omega
        · have := h.lt r i hr; omega
      · intro r i hr
        simp only [get_put] at hr ⊢
        split at hr
        · rename_i he; cases hr; rw [if_pos rfl, he]
        · have := h.lt r i hr
          rw [if_neg (by omega)]; exact h.back r i hr
      · intro n i hr
        simp only [get_put] at hr
        dsimp only
        rw [hl]
        split at hr
        · rename_i he; cases he; omega
        · have := h.non n i hr; omega
      · intro s i hs
        simp only [get_put] at hs ⊢
        split at hs
        · rename_i he
          cases hs
          rw [if_pos rfl, if_pos rfl, he]; exact ⟨rfl, rfl⟩
        · have := h.names s i hs
          have hlt := h.lt _ i this.1
          rw [if_neg, if_neg (by omega)]; · exact this
          intro he; injection he with he; omega
      · intro r i hm
        have := h.logItem r i (by simpa using hm)
        simp only [get_put]
        rw [if_neg]; · exact this
        rintro rfl; rw [hnew] at this; cases this
      · intro s i hm
        simp only [List.mem_append, List.mem_singleton, Prod.mk.injEq, Request.name.injEq] at hm
        simp only [get_put]
        rcases hm with hm | ⟨rfl, rfl⟩
        · have := h.logName s i hm
          rw [if_neg]; · exact this
          rintro rfl; rw [hx] at this; cases this
        · rw [if_pos rfl]
      · dsimp only; omega

theorem itemInv_new : ItemInv new [] := by
  refine ⟨?_, ?_, ?_, ?_, by simp, by simp, by decide⟩
  · intro x i h
    simp only [new, identifierForItem, blank, AssocMap.get, put] at h ⊢
    split at h
    · cases h; decide
    · cases h
  · intro x i h
    simp only [new, identifierForItem, blank, AssocMap.get, put] at h ⊢
    split at h
    · rename_i he; cases h; subst he; rfl
    · cases h
  · intro n i h
    simp only [new, identifierForItem, blank, AssocMap.get, put] at h
    split at h
    · rename_i he; cases he
    · cases h
  · intro s i h
    cases h

theorem itemInv_run (qs : List Request) (hq : Issued qs) : ItemInv (run new qs).1 (run new qs).2 := by
  induction qs using List.reverseRecOn with
  | nil => exact itemInv_new
  | append_singleton qs q ih =>
    have hI : Issued qs := by
      intro pre n post he
      exact hq pre n (post ++ [q]) (by rw [he]; simp)
    have h := ih hI
    rw [run_append]
    refine itemInv_step h q ?_
    rintro n rfl
    rcases hq qs n [] rfl with h0 | ⟨q, i, hm, hr, rfl⟩
    · have := h.pos; omega
    · cases q with
      | rule r => exact absurd rfl (hr r)
      | item x => have := h.lt _ i (h.logItem x i hm); omega
      | name s => have := h.lt _ i (h.names s i (h.logName s i hm)).1; omega

/-- C28 for items (partial: the nonterminals registered by number have numbers that were issued before). An item keeps its identifier,
different items have different ones, and each identifier leads back to the item. -/
theorem item_ids_partial (qs : List Request) (hq : Issued qs) (x y : Item) (i j : Nat) (hx : (Request.item x, i) ∈ (run new qs).2)
    (hy : (Request.item y, j) ∈ (run new qs).2) : (i = j ↔ x = y) ∧ (run new qs).1.itemWithIdentifier i = x := by
  have h := itemInv_run qs hq
  have h1 := h.logItem x i hx
  have h2 := h.logItem y j hy
  refine ⟨⟨?_, ?_⟩, ?_⟩
  · rintro rfl
    exact Option.some.inj ((h.back x i h1).symm.trans (h.back y i h2))
  · rintro rfl
    exact Option.some.inj (h1.symm.trans h2)
  · simp [itemWithIdentifier, h.back x i h1]

/-- C29 (partial, as above): different names get different identifiers and a name keeps its identifier; the identifier leads back to the
nonterminal with this number, and asking for that nonterminal's identifier gives the number. No other item has it. -/
theorem nonterminal_ids_partial (qs : List Request) (hq : Issued qs) (s : String) (i : Nat)
    (hs : (Request.name s, i) ∈ (run new qs).2) :
    (∀ t j, (Request.name t, j) ∈ (run new qs).2 → (i = j ↔ s = t)) ∧
    (run new qs).1.itemWithIdentifier i = .nonterminal i ∧
    ((run new qs).1.identifierForItem (.nonterminal i)).2 = i ∧
    (∀ x, (Request.item x, i) ∈ (run new qs).2 → x = .nonterminal i) := by
  have h := itemInv_run qs hq
  have h1 := h.logName s i hs
  obtain ⟨h2, h3⟩ := h.names s i h1
  refine ⟨?_, ?_, ?_, ?_⟩
  · intro t j ht
    have h4 := h.logName t j ht
    constructor
    · rintro rfl
      exact Option.some.inj (h3.symm.trans (h.names t i h4).2)
    · rintro rfl
      exact Option.some.inj (h1.symm.trans h4)
  · simp [itemWithIdentifier, h.back _ i h2]
  · simp [identifierForItem, h2]
  · intro x hx
    exact Option.some.inj ((h.back x i (h.logItem x i hx)).symm.trans (h.back _ i h2))

/-- C29 and C28 are violated: after a nonterminal is registered under the number the next name will get, two names share an identifier,
and the identifier of the item changes. -/
theorem nonterminal_ids_violated : ∃ qs : List Request,
    (∃ s t i, s ≠ t ∧ (Request.name s, i) ∈ (run new qs).2 ∧ (Request.name t, i) ∈ (run new qs).2) ∧
    (∃ x i j, i ≠ j ∧ (Request.item x, i) ∈ (run new qs).2 ∧ (Request.item x, j) ∈ (run new qs).2) := by
  refine ⟨[.item (.nonterminal 2), .name "A", .name "B", .item (.nonterminal 2)], ⟨"A", "B", 2, by decide, ?_, ?_⟩,
    .nonterminal 2, 1, 2, by decide, ?_, ?_⟩
  all_goals
    rw [show (run new [.item (.nonterminal 2), .name "A", .name "B", .item (.nonterminal 2)]).2 =
      [(.item (.nonterminal 2), 1), (.name "A", 2), (.name "B", 2), (.item (.nonterminal 2), 2)] by rfl]
    simp

example : ((run new [.name "A", .item (.terminal 4), .name "B", .item (.nonterminal 1), .item (.terminal 4), .name "A"]).2).map (·.2)
    = [1, 2, 3, 1, 2, 1] := by rfl

end GrammarIds

namespace TerminalDict

/-- What holds of a dictionary whose names and values were fresh and whose split symbols had been added. -/
structure Inv (d : TerminalDict) (L : List (Request × Int)) : Prop where
  lt : ∀ q s, (q, s) ∈ L → s < d.max
  nonneg : 0 ≤ d.max
  name : ∀ n s, get n d.symbolOf = some s ↔ get s d.nameOf = some n
  logName : ∀ n s, (Request.named n, s) ∈ L → get n d.symbolOf = some s
  logAt : ∀ n v s, (Request.at n v, s) ∈ L → s = v ∧ get n d.symbolOf = some s
  symName : ∀ n s, get n d.symbolOf = some s → (Request.named n, s) ∈ L ∨ (Request.at n s, s) ∈ L
  parent : ∀ s p, get s d.parentFor = some p → s ∈ L.map (·.2) ∧ p ∈ L.map (·.2) ∧ p ≠ s ∧ 0 ≤ p ∧ get p d.parentFor = none ∧
    get s d.nameOf = none
  children : ∀ s p, get s d.parentFor = some p ↔ s ∈ d.childrenOf p
  nodup : (L.map (·.2)).Nodup
  logSplit : ∀ a s, (Request.split a, s) ∈ L → a ∈ L.map (·.2) ∧ (0 ≤ d.parentOf a → get s d.parentFor = some (d.parentOf a))


theorem run_append (d : TerminalDict) (xs ys : List Request) :
    run d (xs ++ ys) = ((run (run d xs).1 ys).1, (run d xs).2 ++ (run (run d xs).1 ys).2) := by
  induction xs generalizing d with
  | nil => simp [run]
  | cons x xs ih => simp [run, ih]

theorem Inv.fresh {d L} (h : Inv d L) : d.max ∉ L.map (·.2) := by
  intro hm
  obtain ⟨⟨q, s⟩, hq, hs⟩ := List.mem_map.1 hm
  have := h.lt q s hq
  dsimp only at hs
  omega

theorem Inv.name_mem {d L} (h : Inv d L) {n s} (hn : get n d.symbolOf = some s) : s ∈ L.map (·.2) := by
  rcases h.symName n s hn with h | h
  · exact List.mem_map.2 ⟨_, h, rfl⟩
  · exact List.mem_map.2 ⟨_, h, rfl⟩

/-- Both ways to add a name. -/
theorem Inv.addName {d L} (h : Inv d L) {n : String} {v m : Int} {q : Request} (hq : q = .named n ∨ q = .at n v)
    (hv : v ∉ L.map (·.2)) (hn : ∀ s, (Request.named n, s) ∉ L ∧ ∀ w, (Request.at n w, s) ∉ L) (hm : d.max ≤ m) (hvm : v < m) :
    Inv { d with max := m, symbolOf := put n v d.symbolOf, nameOf := put v n d.nameOf } (L ++ [(q, v)]) := by
  have hnone : get n d.symbolOf = none := by
    by_contra hne
    obtain ⟨s, hs⟩ := Option.ne_none_iff_exists'.1 hne
    rcases h.symName n s hs with h | h
    · exact (hn s).1 h
    · exact (hn s).2 _ h
  have hvnone : get v d.nameOf = none := by
    by_contra hne
    obtain ⟨k, hk⟩ := Option.ne_none_iff_exists'.1 hne
    exact hv (h.name_mem ((h.name k v).2 hk))
  refine ⟨?_, ?_, ?_, ?_, ?_, ?_, ?_, h.children, ?_, ?_⟩
  · intro q' s hs
    rcases List.mem_append.1 hs with hs | hs
    · exact Int.lt_of_lt_of_le (h.lt q' s hs) hm
    · simp only [List.mem_singleton, Prod.mk.injEq] at hs; dsimp only; omega
  · dsimp only; have := h.nonneg; omega
  · intro k s
    simp only [get_put]
    have := h.name k s
    by_cases hk : n = k
    · subst hk
      rw [if_pos rfl]
      by_cases hs : v = s
      · subst hs; simp
      · rw [if_neg hs, ← this, hnone]
        constructor
        · intro he; exact absurd (Option.some.inj he) hs
        · intro he; cases he
    · rw [if_neg hk]
      by_cases hs : v = s
      · subst hs
        rw [if_pos rfl, this, hvnone]
        constructor
        · intro he; cases he
        · intro he; exact absurd (Option.some.inj he) hk
      · rw [if_neg hs]; exact this
  · intro k s hs
    simp only [get_put]
    rcases List.mem_append.1 hs with hs | hs
    · rw [if_neg]; · exact h.logName k s hs
      rintro rfl; exact (hn s).1 hs
    · simp only [List.mem_singleton, Prod.mk.injEq] at hs
      obtain ⟨h1, rfl⟩ := hs
      rcases hq with rfl | rfl
      · cases h1; rw [if_pos rfl]
      · cases h1
  · intro k w s hs
    simp only [get_put]
    rcases List.mem_append.1 hs with hs | hs
    · refine ⟨(h.logAt k w s hs).1, ?_⟩
      rw [if_neg]; · exact (h.logAt k w s hs).2
      rintro rfl; exact (hn s).2 _ hs
    · simp only [List.mem_singleton, Prod.mk.injEq] at hs
      obtain ⟨h1, rfl⟩ := hs
      rcases hq with rfl | rfl
      · cases h1
      · cases h1; exact ⟨rfl, by rw [if_pos rfl]⟩
  · intro k s hs
    simp only [get_put] at hs
    split at hs
    · rename_i hk
      cases hs
      subst hk
      rcases hq with rfl | rfl <;> simp
    · rcases h.symName k s hs with h | h
      · exact .inl (List.mem_append_left _ h)
      · exact .inr (List.mem_append_left _ h)
  · intro s p hs
    obtain ⟨h1, h2, h3, h4, h5, h6⟩ := h.parent s p hs
    refine ⟨?_, ?_, h3, h4, h5, ?_⟩
    · rw [List.map_append]; exact List.mem_append_left _ h1
    · rw [List.map_append]; exact List.mem_append_left _ h2
    · simp only [get_put]
      rw [if_neg]; · exact h6
      rintro rfl; exact hv h1
  · rw [List.map_append, List.nodup_append]
    refine ⟨h.nodup, by simp, ?_⟩
    rintro a ha b hb rfl
    simp only [List.map_cons, List.map_nil, List.mem_singleton] at hb
    subst hb
    exact hv ha
  · intro a s hs
    rcases List.mem_append.1 hs with hs | hs
    · refine ⟨?_, (h.logSplit a s hs).2⟩
      rw [List.map_append]; exact List.mem_append_left _ (h.logSplit a s hs).1
    · simp only [List.mem_singleton, Prod.mk.injEq] at hs
      rcases hq with rfl | rfl <;> cases hs.1

theorem Inv.addAnon {d L} (h : Inv d L) {q : Request} (hn : ∀ n, q ≠ .named n) (ha : ∀ n v, q ≠ .at n v)
    (hs : ∀ a, q = .split a → a ∈ L.map (·.2) ∧ d.parentOf a < 0) :
    Inv { d with max := d.max + 1 } (L ++ [(q, d.max)]) := by
  refine ⟨?_, ?_, h.name, ?_, ?_, ?_, ?_, h.children, ?_, ?_⟩
  · intro q' s hs
    rcases List.mem_append.1 hs with hs | hs
    · have := h.lt q' s hs; dsimp only; omega
    · simp only [List.mem_singleton, Prod.mk.injEq] at hs; dsimp only; omega
  · dsimp only; have := h.nonneg; omega
  · intro k s hk
    rcases List.mem_append.1 hk with hk | hk
    · exact h.logName k s hk
    · simp only [List.mem_singleton, Prod.mk.injEq] at hk; exact absurd hk.1.symm (hn k)
  · intro k w s hk
    rcases List.mem_append.1 hk with hk | hk
    · exact h.logAt k w s hk
    · simp only [List.mem_singleton, Prod.mk.injEq] at hk; exact absurd hk.1.symm (ha k w)
  · intro k s hk
    rcases h.symName k s hk with h | h
    · exact .inl (List.mem_append_left _ h)
    · exact .inr (List.mem_append_left _ h)
  · intro s p hs
    obtain ⟨h1, h2, h3⟩ := h.parent s p hs
    refine ⟨?_, ?_, h3⟩
    · rw [List.map_append]; exact List.mem_append_left _ h1
    · rw [List.map_append]; exact List.mem_append_left _ h2
  · rw [List.map_append, List.nodup_append]
    refine ⟨h.nodup, by simp, ?_⟩
    rintro a ha b hb rfl
    simp only [List.map_cons, List.map_nil, List.mem_singleton] at hb
    subst hb
    exact h.fresh ha
  · intro a s hk
    rw [List.map_append]
    rcases List.mem_append.1 hk with hk | hk
    · exact ⟨List.mem_append_left _ (h.logSplit a s hk).1, (h.logSplit a s hk).2⟩
    · simp only [List.mem_singleton, Prod.mk.injEq] at hk
      have := hs a hk.1.symm
      refine ⟨List.mem_append_left _ this.1, fun h0 => ?_⟩
      exact absurd this.2 (Int.not_lt.2 h0)

theorem Inv.split {d L} (h : Inv d L) (a : Int) (ha : a ∈ L.map (·.2)) :
    Inv (d.split a).1 (L ++ [(.split a, (d.split a).2)]) := by
  unfold TerminalDict.split
  simp only [addAnonymous]
  by_cases hp : d.parentOf a ≥ 0
  swap
  · rw [if_neg hp]
    exact h.addAnon (by intro n hc; cases hc) (by intro n v hc; cases hc)
      (by intro b hb; cases hb; exact ⟨ha, Int.not_le.1 hp⟩)
  rw [if_pos hp]
  have hmn : ∀ s, s ∈ L.map (·.2) → d.max ≠ s := by
    rintro s hs rfl; exact h.fresh hs
  have hpm : d.parentOf a ∈ L.map (·.2) ∧ get (d.parentOf a) d.parentFor = none := by
    unfold parentOf
    cases hg : get a d.parentFor with
    | none => exact ⟨ha, hg⟩
    | some p => exact ⟨(h.parent a p hg).2.1, (h.parent a p hg).2.2.2.2.1⟩
  have hmnone : get d.max d.parentFor = none := by
    by_contra hne
    obtain ⟨p, hk⟩ := Option.ne_none_iff_exists'.1 hne
    exact h.fresh (h.parent _ p hk).1
  have hmname : get d.max d.nameOf = none := by
    by_contra hne
    obtain ⟨k, hk⟩ := Option.ne_none_iff_exists'.1 hne
    exact h.fresh (h.name_mem ((h.name k _).2 hk))
  have hpo : ∀ b, b ∈ L.map (·.2) → parentOf { d with
      max := d.max + 1, parentFor := put d.max (d.parentOf a) d.parentFor,
      childrenFor := put (d.parentOf a) ((childrenOf { d with max := d.max + 1 } (d.parentOf a)).insert d.max) d.childrenFor } b
      = d.parentOf b := by
    intro b hb
    simp only [parentOf, get_put]
    rw [if_neg (hmn b hb)]
  refine ⟨?_, ?_, h.name, ?_, ?_, ?_, ?_, ?_, ?_, ?_⟩
  · intro q' s hs
    rcases List.mem_append.1 hs with hs | hs
    · have := h.lt q' s hs; dsimp only; omega
    · simp only [List.mem_singleton, Prod.mk.injEq] at hs; dsimp only; omega
  · dsimp only; have := h.nonneg; omega
  · intro k s hk
    rcases List.mem_append.1 hk with hk | hk
    · exact h.logName k s hk
    · simp at hk
  · intro k w s hk
    rcases List.mem_append.1 hk with hk | hk
    · exact h.logAt k w s hk
    · simp at hk
  · intro k s hk
    rcases h.symName k s hk with h | h
    · exact .inl (List.mem_append_left _ h)
    · exact .inr (List.mem_append_left _ h)
  · intro s p hs
    simp only [get_put] at hs ⊢
    simp only [List.map_append, List.mem_append]
    split at hs
    · rename_i he
      cases hs
      subst he
      rw [if_neg (hmn _ hpm.1)]
      exact ⟨.inr (by simp), .inl hpm.1, (hmn _ hpm.1).symm, hp, hpm.2, hmname⟩
    · obtain ⟨h1, h2, h3, h4, h5, h6⟩ := h.parent s p hs
      rw [if_neg (hmn _ h2)]
      exact ⟨.inl h1, .inl h2, h3, h4, h5, h6⟩
  · intro s p
    have hc := h.children s p
    simp only [childrenOf, get_put] at hc ⊢
    by_cases hs : d.max = s
    · subst hs
      rw [if_pos rfl]
      by_cases hp' : d.parentOf a = p
      · subst hp'
        simp
      · rw [if_neg hp', ← hc, hmnone]
        constructor
        · intro he; exact absurd (Option.some.inj he) hp'
        · intro he; cases he
    · rw [if_neg hs]
      by_cases hp' : d.parentOf a = p
      · subst hp'
        rw [if_pos rfl, hc]
        simp only [Option.getD_some, List.mem_insert_iff]
        constructor
        · exact .inr
        · rintro (he | he)
          · exact absurd he.symm hs
          · exact he
      · rw [if_neg hp']; exact hc
  · rw [List.map_append, List.nodup_append]
    refine ⟨h.nodup, by simp, ?_⟩
    rintro a ha b hb rfl
    simp only [List.map_cons, List.map_nil, List.mem_singleton] at hb
    subst hb
    exact h.fresh ha
  · intro b s hk
    rw [List.map_append]
    rcases List.mem_append.1 hk with hk | hk
    · have hl := h.logSplit b s hk
      refine ⟨List.mem_append_left _ hl.1, ?_⟩
      rw [hpo b hl.1]
      intro h0
      simp only [get_put]
      rw [if_neg (hmn s (List.mem_map.2 ⟨_, hk, rfl⟩))]
      exact hl.2 h0
    · simp only [List.mem_singleton, Prod.mk.injEq, Request.split.injEq] at hk
      obtain ⟨rfl, rfl⟩ := hk
      refine ⟨List.mem_append_left _ ha, ?_⟩
      rw [hpo b ha]
      intro _
      simp only [get_put, if_true]

/-- Each name is added once, each explicit value is unused when it is added (as the comment of `add_symbol` requires), and only symbols
that were added are split. -/
def Fresh (qs : List Request) : Prop :=
  ∀ pre q post, qs = pre ++ q :: post →
    (∀ n, q = .named n → ∀ s, (Request.named n, s) ∉ (run new pre).2 ∧ ∀ w, (Request.at n w, s) ∉ (run new pre).2) ∧
    (∀ n v, q = .at n v → v ∉ (run new pre).2.map (·.2) ∧
      ∀ s, (Request.named n, s) ∉ (run new pre).2 ∧ ∀ w, (Request.at n w, s) ∉ (run new pre).2) ∧
    (∀ a, q = .split a → a ∈ (run new pre).2.map (·.2))

theorem inv_run (qs : List Request) (hq : Fresh qs) : Inv (run new qs).1 (run new qs).2 := by
  induction qs using List.reverseRecOn with
  | nil =>
    refine ⟨by simp [run], by decide, ?_, by simp [run], by simp [run], ?_, ?_, ?_, by simp [run], by simp [run]⟩
    · intro n s; simp [run, new, AssocMap.get]
    · intro n s h; cases h
    · intro n s h; cases h
    · intro n s; simp [run, new, AssocMap.get, childrenOf]
  | append_singleton qs q ih =>
    have hI : Fresh qs := by
      intro pre q' post he
      exact hq pre q' (post ++ [q]) (by rw [he]; simp)
    have h := ih hI
    rw [run_append]
    obtain ⟨h1, h2, h3⟩ := hq qs q [] rfl
    cases q with
    | anonymous => exact h.addAnon (by intro n hc; cases hc) (by intro n v hc; cases hc) (by intro b hb; cases hb)
    | named n => exact h.addName (.inl rfl) h.fresh (h1 n rfl) (by dsimp only; omega) (by dsimp only; omega)
    | «at» n v =>
      refine h.addName (.inr rfl) (h2 n v rfl).1 (h2 n v rfl).2 ?_ ?_ <;> split <;> omega
    | split a => exact h.split a (h3 a rfl)

/-- C30 (partial: names are added once and explicit values are unused). Every addition gives a new symbol; a name and its symbol lead to
each other; a symbol split off another one has the same parent, is listed among the parent's children and has the parent's name. -/
theorem terminal_dictionary_partial (qs : List Request) (hq : Fresh qs) :
    ((run new qs).2.map (·.2)).Nodup ∧
    (∀ n s, ((Request.named n, s) ∈ (run new qs).2 ∨ (Request.at n s, s) ∈ (run new qs).2) →
      (run new qs).1.symbolForName n = s ∧ ∀ fuel, (run new qs).1.nameForSymbol (fuel + 1) s = some n) ∧
    (∀ a s, (Request.split a, s) ∈ (run new qs).2 → 0 ≤ a →
      (run new qs).1.parentOf s = (run new qs).1.parentOf a ∧ (run new qs).1.parentOf s ≠ s ∧
      s ∈ (run new qs).1.childrenOf ((run new qs).1.parentOf a) ∧
      (run new qs).1.parentOf ((run new qs).1.parentOf a) = (run new qs).1.parentOf a ∧
      ∃ n, ∀ fuel, (run new qs).1.nameForSymbol (fuel + 2) s = some n ∧
        (run new qs).1.nameForSymbol (fuel + 2) ((run new qs).1.parentOf a) = some n) := by
  have h := inv_run qs hq
  generalize (run new qs).1 = d at *
  generalize (run new qs).2 = L at *
  refine ⟨h.nodup, ?_, ?_⟩
  · intro n s hs
    have hg : get n d.symbolOf = some s := by
      rcases hs with hs | hs
      · exact h.logName n s hs
      · exact (h.logAt n s s hs).2
    refine ⟨by simp [symbolForName, hg], fun fuel => ?_⟩
    simp [nameForSymbol, (h.name n s).1 hg]
  · intro a s hs ha
    have hl := h.logSplit a s hs
    have hpa : 0 ≤ d.parentOf a := by
      unfold parentOf
      cases hg : get a d.parentFor with
      | none => exact ha
      | some p => exact (h.parent a p hg).2.2.2.1
    have hg := hl.2 hpa
    generalize d.parentOf a = p at *
    obtain ⟨h1, h2, h3, h4, h5, h6⟩ := h.parent s p hg
    have hps : d.parentOf s = p := by simp [parentOf, hg]
    have hpp : d.parentOf p = p := by simp [parentOf, h5]
    refine ⟨hps, hps ▸ h3, (h.children s p).1 hg, hpp, ?_⟩
    cases hn : get p d.nameOf with
    | none => refine ⟨"", fun fuel => ?_⟩; simp [nameForSymbol, h6, hps, h3, hpp, hn]
    | some n => refine ⟨n, fun fuel => ?_⟩; simp [nameForSymbol, h6, hps, h3, hn]

/-- C30 is violated: adding a name again leaves the first symbol with a name that leads elsewhere. -/
theorem terminal_dictionary_violated : ∃ qs n s,
    (Request.named n, s) ∈ (run new qs).2 ∧ (run new qs).1.nameForSymbol 1 s = some n ∧ (run new qs).1.symbolForName n ≠ s :=
  ⟨[.named "a", .named "a"], "a", 0, by simp [run, answer, addNamed, addAnonymous, new], by decide, by decide⟩

/-- Splitting symbols that were never added can make `name_for_symbol` run for ever. -/
theorem terminal_dictionary_loop_violated : ∃ qs s, ∀ fuel, (run new qs).1.nameForSymbol fuel s = none := by
  refine ⟨[.split 1, .split 2, .split 0], 1, ?_⟩
  have hd : (run new [.split 1, .split 2, .split 0]).1.parentFor = [(0, 1), (1, 2), (2, 1)] := by rfl
  have hn : (run new [.split 1, .split 2, .split 0]).1.nameOf = [] := by rfl
  generalize (run new [.split 1, .split 2, .split 0]).1 = d at *
  have key : ∀ fuel, d.nameForSymbol fuel 1 = none ∧ d.nameForSymbol fuel 2 = none := by
    intro fuel
    induction fuel with
    | zero => exact ⟨rfl, rfl⟩
    | succ fuel ih =>
      have p1 : d.parentOf 1 = 2 := by simp [parentOf, hd, AssocMap.get]
      have p2 : d.parentOf 2 = 1 := by simp [parentOf, hd, AssocMap.get]
      constructor
      · simp [nameForSymbol, hn, AssocMap.get, p1, ih.2]
      · simp [nameForSymbol, hn, AssocMap.get, p2, ih.1]
  exact fun fuel => (key fuel).1

example : (run new [.named "id", .split 0, .split 1, .at "num" 7, .anonymous]).2.map (·.2) = [0, 1, 2, 7, 8] ∧
    (run new [.named "id", .split 0, .split 1]).1.nameForSymbol 2 2 = some "id" ∧
    (run new [.named "id", .split 0, .split 1]).1.childrenOf 0 = [2, 1] := by decide

end TerminalDict
end TameParse

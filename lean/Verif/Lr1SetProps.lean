import Verif.Lr1Set
import Mathlib.Data.List.Induction
/-
C33: `lr1_item_set` keeps one entry per LR(0) item, whose lookahead is the union of everything inserted for it, and reports a change
exactly when something new was added.
-/
namespace TameParse

theorem Lr0.lt_iff (a b : Lr0) : a.lt b = true ↔ a.offset < b.offset ∨ (a.offset = b.offset ∧ a.rule < b.rule) := by
  unfold Lr0.lt
  split
  · simp [*]
  · split
    · simp; omega
    · simp; omega

theorem Lr0.eq_iff (a b : Lr0) : a.eq b = true ↔ a = b := by
  unfold Lr0.eq
  cases a; cases b
  simp

theorem Lr0.lt_trans {a b c : Lr0} (h : a.lt b = true) (h' : b.lt c = true) : a.lt c = true := by
  rw [Lr0.lt_iff] at *; omega

theorem Lr0.lt_irrefl (a : Lr0) : a.lt a = false := by
  rw [Bool.eq_false_iff]; intro h; rw [Lr0.lt_iff] at h; omega

theorem Lr0.lt_asymm {a b : Lr0} (h : a.lt b = true) : b.lt a = false := by
  rw [Bool.eq_false_iff]; intro h'; rw [Lr0.lt_iff] at *; omega

theorem Lr0.eq_of_not_lt {a b : Lr0} (h : a.lt b = false) (h' : b.lt a = false) : a = b := by
  rw [Bool.eq_false_iff] at *
  simp only [ne_eq, Lr0.lt_iff] at *
  cases a; cases b; simp only [Lr0.mk.injEq] at *; omega

namespace Lr1Set

/-- The entries are in strictly increasing order of their LR(0) items. -/
def Sorted (d : List Entry) : Prop := d.Pairwise (fun a b => a.1.lt b.1 = true)

/-- A lookahead set that the operations of `item_set` produce. -/
def Valid (s : ItemSet) : Prop := ∃ F, ItemSet.Reachable s F

theorem dropWhile_cases (k : Lr0) : ∀ d : List Entry, Sorted d →
    (∀ e ∈ d.takeWhile (fun e => e.1.lt k), e.1.lt k = true) ∧
    (∀ e ∈ d.dropWhile (fun e => e.1.lt k), e.1.lt k = false)
  | [], _ => by simp
  | e :: d, h => by
    have hd := List.pairwise_cons.1 h
    have ih := dropWhile_cases k d hd.2
    by_cases he : e.1.lt k = true
    · simp only [List.takeWhile_cons, List.dropWhile_cons, he, if_true]
      exact ⟨by intro x hx; rcases List.mem_cons.1 hx with rfl | hx; exacts [he, ih.1 x hx], ih.2⟩
    · rw [Bool.not_eq_true] at he
      simp only [List.takeWhile_cons, List.dropWhile_cons, he]
      refine ⟨by simp, ?_⟩
      intro x hx
      rcases List.mem_cons.1 hx with rfl | hx
      · exact he
      · have := hd.1 x hx
        rw [Bool.eq_false_iff] at *
        intro hk
        exact he (Lr0.lt_trans this hk)

theorem setInsert_between (e : Entry) : ∀ (b a : List Entry), (∀ x ∈ b, x.1.lt e.1 = true) → (∀ x ∈ a, e.1.lt x.1 = true) →
    setInsert e (b ++ a) = (b ++ e :: a, true)
  | [], [], _, _ => rfl
  | [], x :: a, _, ha => by
    have := ha x (by simp)
    simp [setInsert, this, Lr0.lt_asymm this]
  | x :: b, a, hb, ha => by
    simp only [List.cons_append, setInsert]
    rw [if_pos (hb x (by simp)), setInsert_between e b a (fun y hy => hb y (by simp [hy])) ha]

/-- What one insertion does: either the set is left alone, because the entry for that item has all the new lookahead already, or the
entry for the item is added or replaced by one with the union. -/
theorem insert_cases (d : List Entry) (new : Entry) (hs : Sorted d) (hd : ∀ e ∈ d, Valid e.2) (hn : Valid new.2) :
    ∃ b a, (∀ x ∈ b, x.1.lt new.1 = true) ∧ (∀ x ∈ a, new.1.lt x.1 = true) ∧
      ((d = b ++ a ∧ insert d new = (b ++ new :: a, new, true)) ∨
       (∃ la, d = b ++ (new.1, la) :: a ∧ (∀ x, new.2.contains x = true → la.contains x = true) ∧ insert d new = (d, (new.1, la), false)) ∨
       (∃ la m, d = b ++ (new.1, la) :: a ∧ (∃ x, new.2.contains x = true ∧ la.contains x = false) ∧ Valid m ∧
          (∀ x, m.contains x = true ↔ la.contains x = true ∨ new.2.contains x = true) ∧
          insert d new = (b ++ (new.1, m) :: a, (new.1, m), true))) := by
  obtain ⟨h1, h2⟩ := dropWhile_cases new.1 d hs
  have hsplit : d.takeWhile (fun e => e.1.lt new.1) ++ d.dropWhile (fun e => e.1.lt new.1) = d := List.takeWhile_append_dropWhile
  unfold insert
  generalize hb : d.takeWhile (fun e => e.1.lt new.1) = b at *
  generalize ha : d.dropWhile (fun e => e.1.lt new.1) = a at *
  cases a with
  | nil => exact ⟨b, [], h1, by simp, Or.inl ⟨by rw [← hsplit], by simp⟩⟩
  | cons e a =>
    have hsort : Sorted (b ++ e :: a) := by rw [hsplit]; exact hs
    have ha' : ∀ x ∈ a, e.1.lt x.1 = true := (List.pairwise_cons.1 (List.pairwise_append.1 hsort).2.1).1
    have he := h2 e (by simp)
    by_cases hk : e.1 = new.1
    · refine ⟨b, a, h1, by rw [← hk]; exact ha', Or.inr ?_⟩
      have hk' : e.1.eq new.1 = true := (Lr0.eq_iff _ _).2 hk
      obtain ⟨ek, la⟩ := e
      simp only at hk; subst hk
      obtain ⟨F, hF⟩ := hd (new.1, la) (by rw [← hsplit]; simp)
      obtain ⟨G, hG⟩ := hn
      have hFr := ItemSet.reachable_repr hF
      have hGr := ItemSet.reachable_repr hG
      obtain ⟨hm, -⟩ := ItemSet.merge_repr _ _ _ _ hFr hGr
      by_cases hsub : G ⊆ F
      · refine Or.inl ⟨la, hsplit.symm, fun x hx => (hFr.1 x).2 (hsub ((hGr.1 x).1 hx)), ?_⟩
        have hsize : (la.merge new.2).2.size = la.size := by
          rw [hm.2, hFr.2, Finset.union_eq_left.2 hsub]
        simp [hk', hsize]
      · obtain ⟨x, hx, hxF⟩ := Finset.not_subset.1 hsub
        have hne : new.2.eq la = false := by
          rw [Bool.eq_false_iff]
          intro h
          exact hxF ((hFr.1 x).1 (by rw [← ItemSet.eq_members _ _ h]; exact (hGr.1 x).2 hx))
        have hsize : (la.merge new.2).2.size ≠ la.size := by
          rw [hm.2, hFr.2]
          intro h
          have := Finset.eq_of_subset_of_card_le (Finset.subset_union_left (s₁ := F) (s₂ := G)) (by omega)
          exact hxF (by rw [this]; exact Finset.mem_union_right _ hx)
        refine Or.inr ⟨la, (la.merge new.2).2, hsplit.symm, ⟨x, (hGr.1 x).2 hx, ?_⟩, ⟨_, .merge hF hG⟩, ?_, ?_⟩
        · rw [Bool.eq_false_iff]; intro h; exact hxF ((hFr.1 x).1 h)
        · intro y; rw [hm.1, hFr.1, hGr.1, Finset.mem_union]
        · simp [hk', hne, hsize, setInsert_between (new.1, (la.merge new.2).2) b a h1 ha']
    · refine ⟨b, e :: a, h1, ?_, Or.inl ⟨hsplit.symm, ?_⟩⟩
      · have : new.1.lt e.1 = true := by
          by_contra hc
          rw [Bool.not_eq_true] at hc
          exact hk (Lr0.eq_of_not_lt he hc)
        intro x hx
        rcases List.mem_cons.1 hx with rfl | hx
        · exact this
        · exact Lr0.lt_trans this (ha' x hx)
      · have : e.1.eq new.1 = false := by rw [Bool.eq_false_iff, ne_eq, Lr0.eq_iff]; exact hk
        simp [this]

/-- The lookahead stored for an LR(0) item. -/
def lookahead (d : List Entry) (k : Lr0) : Option ItemSet := (d.find? (fun e => e.1.eq k)).map (·.2)

theorem find_middle (b a : List Entry) (e : Entry) (hb : ∀ x ∈ b, x.1.lt e.1 = true) :
    lookahead (b ++ e :: a) e.1 = some e.2 := by
  have h1 : b.find? (fun x => x.1.eq e.1) = none := by
    rw [List.find?_eq_none]
    intro x hx h
    rw [Lr0.eq_iff] at h
    have := hb x hx
    rw [h, Lr0.lt_irrefl] at this
    cases this
  have h2 : e.1.eq e.1 = true := (Lr0.eq_iff _ _).2 rfl
  simp [lookahead, List.find?_append, h1, h2]

theorem find_none (b a : List Entry) (k : Lr0) (hb : ∀ x ∈ b, x.1.lt k = true) (ha : ∀ x ∈ a, k.lt x.1 = true) :
    lookahead (b ++ a) k = none := by
  have h1 : (b ++ a).find? (fun x => x.1.eq k) = none := by
    rw [List.find?_eq_none]
    intro x hx h
    rw [Lr0.eq_iff] at h
    rcases List.mem_append.1 hx with hx | hx
    · have := hb x hx
      rw [h, Lr0.lt_irrefl] at this
      cases this
    · have := ha x hx
      rw [h, Lr0.lt_irrefl] at this
      cases this
  simp [lookahead, h1]

theorem find_other (b a : List Entry) (e : Entry) (k : Lr0) (h : e.1 ≠ k) : lookahead (b ++ e :: a) k = lookahead (b ++ a) k := by
  have : e.1.eq k = false := by rw [Bool.eq_false_iff, ne_eq, Lr0.eq_iff]; exact h
  simp [lookahead, List.find?_append, this]

theorem sorted_middle {b a : List Entry} {e e' : Entry} (h : e'.1 = e.1) (hs : Sorted (b ++ e :: a)) : Sorted (b ++ e' :: a) := by
  simp only [Sorted, List.pairwise_append, List.pairwise_cons, List.mem_cons] at *
  rw [h]
  refine ⟨hs.1, hs.2.1, ?_⟩
  rintro x hx y (rfl | hy)
  · rw [h]; exact hs.2.2 x hx e (Or.inl rfl)
  · exact hs.2.2 x hx y (Or.inr hy)

theorem sorted_new {b a : List Entry} {e : Entry} (hb : ∀ x ∈ b, x.1.lt e.1 = true) (ha : ∀ x ∈ a, e.1.lt x.1 = true)
    (hs : Sorted (b ++ a)) : Sorted (b ++ e :: a) := by
  simp only [Sorted, List.pairwise_append, List.pairwise_cons, List.mem_cons] at *
  refine ⟨hs.1, ⟨ha, hs.2.1⟩, ?_⟩
  rintro x hx y (rfl | hy)
  · exact hb x hx
  · exact hs.2.2 x hx y hy

/-- C33 for a single insertion into a set in order. -/
theorem insert_spec (d : List Entry) (new : Entry) (hs : Sorted d) (hd : ∀ e ∈ d, Valid e.2) (hn : Valid new.2) :
    Sorted (insert d new).1 ∧ (∀ e ∈ (insert d new).1, Valid e.2) ∧
    (∀ k, k ≠ new.1 → lookahead (insert d new).1 k = lookahead d k) ∧
    (∃ la, lookahead (insert d new).1 new.1 = some la ∧ (insert d new).2.1 = (new.1, la) ∧
      ∀ x, la.contains x = true ↔ new.2.contains x = true ∨ ∃ old, lookahead d new.1 = some old ∧ old.contains x = true) ∧
    ((insert d new).2.2 = false ↔ ∃ old, lookahead d new.1 = some old ∧ ∀ x, new.2.contains x = true → old.contains x = true) := by
  obtain ⟨b, a, hb, ha, ⟨rfl, h⟩ | ⟨la, rfl, hsub, h⟩ | ⟨la, m, rfl, ⟨y, hy, hy'⟩, hm, hmem, h⟩⟩ := insert_cases d new hs hd hn
  · rw [h]
    refine ⟨sorted_new hb ha hs, ?_, fun k hk => find_other _ _ _ _ (Ne.symm hk), ⟨new.2, find_middle _ _ _ hb, rfl, ?_⟩, ?_⟩
    · intro e he
      simp only [List.mem_append, List.mem_cons] at he
      rcases he with he | rfl | he
      · exact hd e (by simp [he])
      · exact hn
      · exact hd e (by simp [he])
    · intro x
      rw [find_none b a new.1 hb ha]
      simp
    · rw [find_none b a new.1 hb ha]
      simp
  · rw [h]
    have hl := find_middle b a (new.1, la) hb
    simp only at hl
    refine ⟨hs, hd, fun _ _ => rfl, ⟨la, hl, rfl, ?_⟩, ?_⟩
    · intro x
      rw [hl]
      constructor
      · intro hx; exact Or.inr ⟨la, rfl, hx⟩
      · rintro (hx | ⟨old, ho, hx⟩)
        · exact hsub x hx
        · cases ho; exact hx
    · rw [hl]
      exact ⟨fun _ => ⟨la, rfl, hsub⟩, fun _ => rfl⟩
  · rw [h]
    have hl := find_middle b a (new.1, la) hb
    have hl' := find_middle b a (new.1, m) hb
    simp only at hl hl'
    refine ⟨sorted_middle (e := (new.1, la)) rfl hs, ?_, ?_, ⟨m, hl', rfl, ?_⟩, ?_⟩
    · intro e he
      simp only [List.mem_append, List.mem_cons] at he
      rcases he with he | rfl | he
      · exact hd e (by simp [he])
      · exact hm
      · exact hd e (by simp [he])
    · intro k hk
      exact (find_other b a (new.1, m) k (Ne.symm hk)).trans (find_other b a (new.1, la) k (Ne.symm hk)).symm
    · intro x
      rw [hl, hmem]
      constructor
      · rintro (hx | hx)
        · exact Or.inr ⟨la, rfl, hx⟩
        · exact Or.inl hx
      · rintro (hx | ⟨old, ho, hx⟩)
        · exact Or.inr hx
        · cases ho; exact Or.inl hx
    · rw [hl]
      constructor
      · intro hc; cases hc
      · rintro ⟨old, ho, hx⟩
        cases ho
        rw [hx y hy] at hy'
        cases hy'

/-- C33: after any sequence of insertions the entries are in strictly increasing order (so there is one for each LR(0) item), every
inserted LR(0) item has an entry and no other has, and its lookahead is the union of what was inserted for it. One more insertion
refers the caller to the entry of its item, and reports a change exactly if the item was new or some of its lookahead was. -/
theorem lr1_item_set_exact (ops : List Entry) (h : ∀ e ∈ ops, Valid e.2) :
    Sorted (insertAll ops) ∧
    (∀ k, (lookahead (insertAll ops) k = none ↔ ∀ e ∈ ops, e.1 ≠ k)) ∧
    (∀ k la, lookahead (insertAll ops) k = some la → ∀ x, la.contains x = true ↔ ∃ e ∈ ops, e.1 = k ∧ e.2.contains x = true) ∧
    ∀ new, Valid new.2 →
      ((insert (insertAll ops) new).2.2 = true ↔
        (∀ e ∈ ops, e.1 ≠ new.1) ∨ ∃ x, new.2.contains x = true ∧ ∀ e ∈ ops, e.1 = new.1 → e.2.contains x = false) ∧
      some (insert (insertAll ops) new).2.1.2 = lookahead (insertAll (ops ++ [new])) new.1 := by
  have main : ∀ ops : List Entry, (∀ e ∈ ops, Valid e.2) → Sorted (insertAll ops) ∧ (∀ e ∈ insertAll ops, Valid e.2) ∧
      (∀ k, (lookahead (insertAll ops) k = none ↔ ∀ e ∈ ops, e.1 ≠ k)) ∧
      (∀ k la, lookahead (insertAll ops) k = some la → ∀ x, la.contains x = true ↔ ∃ e ∈ ops, e.1 = k ∧ e.2.contains x = true) := by
    intro ops
    induction ops using List.reverseRecOn with
    | nil => intro _; simp [insertAll, Sorted, lookahead]
    | append_singleton ops new ih =>
      intro h
      obtain ⟨i1, i2, i3, i4⟩ := ih (fun e he => h e (by simp [he]))
      have heq : insertAll (ops ++ [new]) = (insert (insertAll ops) new).1 := by simp [insertAll]
      obtain ⟨s1, s2, s3, ⟨la, s4, -, s5⟩, -⟩ := insert_spec (insertAll ops) new i1 i2 (h new (by simp))
      rw [heq]
      refine ⟨s1, s2, ?_, ?_⟩
      · intro k
        by_cases hk : k = new.1
        · subst hk
          rw [s4]
          exact ⟨fun hc => (by cases hc), fun hc => absurd rfl (hc new (by simp))⟩
        · rw [s3 k hk, i3]
          constructor
          · intro hc e he
            rcases List.mem_append.1 he with he | he
            · exact hc e he
            · rw [List.mem_singleton.1 he]; exact Ne.symm hk
          · intro hc e he
            exact hc e (List.mem_append_left _ he)
      · intro k la' hla x
        by_cases hk : k = new.1
        · subst hk
          rw [s4] at hla
          cases hla
          rw [s5]
          constructor
          · rintro (hx | ⟨old, ho, hx⟩)
            · exact ⟨new, by simp, rfl, hx⟩
            · obtain ⟨e, he, h1, h2⟩ := (i4 _ _ ho x).1 hx
              exact ⟨e, by simp [he], h1, h2⟩
          · rintro ⟨e, he, h1, h2⟩
            rcases List.mem_append.1 he with he | he
            · cases ho : lookahead (insertAll ops) new.1 with
              | none => exact absurd h1 ((i3 _).1 ho e he)
              | some old => exact Or.inr ⟨old, rfl, (i4 _ _ ho x).2 ⟨e, he, h1, h2⟩⟩
            · rw [List.mem_singleton] at he
              subst he
              exact Or.inl h2
        · rw [s3 k hk] at hla
          rw [i4 _ _ hla]
          constructor
          · rintro ⟨e, he, h1, h2⟩
            exact ⟨e, by simp [he], h1, h2⟩
          · rintro ⟨e, he, h1, h2⟩
            rcases List.mem_append.1 he with he | he
            · exact ⟨e, he, h1, h2⟩
            · rw [List.mem_singleton] at he
              subst he
              exact absurd h1.symm hk
  obtain ⟨i1, i2, i3, i4⟩ := main ops h
  refine ⟨i1, i3, i4, ?_⟩
  intro new hn
  obtain ⟨s1, s2, s3, ⟨la, s4, s4', s5⟩, s6⟩ := insert_spec (insertAll ops) new i1 i2 hn
  constructor
  · rw [← Bool.not_eq_false, s6]
    cases ho : lookahead (insertAll ops) new.1 with
    | none =>
      simp only [reduceCtorEq, false_and, exists_false, not_false_eq_true, true_iff]
      exact Or.inl ((i3 _).1 ho)
    | some old =>
      have hne : ¬ ∀ e ∈ ops, e.1 ≠ new.1 := by rw [← i3, ho]; simp
      simp only [Option.some.injEq, exists_eq_left', hne, false_or]
      rw [not_forall]
      constructor
      · rintro ⟨x, hx⟩
        rw [Classical.not_imp] at hx
        refine ⟨x, hx.1, ?_⟩
        intro e he h1
        rw [Bool.eq_false_iff]
        intro h2
        exact hx.2 ((i4 _ _ ho x).2 ⟨e, he, h1, h2⟩)
      · rintro ⟨x, hx, h'⟩
        refine ⟨x, ?_⟩
        rw [Classical.not_imp]
        refine ⟨hx, ?_⟩
        intro h2
        obtain ⟨e, he, h1, h3⟩ := (i4 _ _ ho x).1 h2
        rw [h' e he h1] at h3
        cases h3
  · have heq : insertAll (ops ++ [new]) = (insert (insertAll ops) new).1 := by simp [insertAll]
    rw [heq, s4, s4']

/-- Two items, one of them inserted twice with different lookahead. -/
example : insertAll [(⟨1, 4⟩, (ItemSet.empty.insert 3).2), (⟨0, 7⟩, (ItemSet.empty.insert 2).2), (⟨1, 4⟩, (ItemSet.empty.insert 35).2)] =
    [(⟨0, 7⟩, (ItemSet.empty.insert 2).2), (⟨1, 4⟩, ((ItemSet.empty.insert 3).2.insert 35).2)] := by decide +kernel

example : Valid (ItemSet.empty.insert 3).2 := ⟨_, .insert 3 .empty⟩

end Lr1Set
end TameParse

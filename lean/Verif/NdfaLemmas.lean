import Verif.Ndfa
import Verif.SymbolMapLemmas
/- Helper lemmas for the automaton transformations. -/
namespace TameParse

/-- Sorted list without repetition: the representation of `std::set<int>`. -/
def SetOk (l : List Nat) : Prop := l.Pairwise (· < ·)

theorem setOk_insertId {l : List Nat} {i : Nat} (h : SetOk l) : SetOk (insertId l i) := by
  unfold SetOk at *
  induction l with
  | nil => simp [insertId]
  | cons j t ih =>
    rw [List.pairwise_cons] at h
    simp only [insertId]
    split
    · rename_i hlt
      rw [List.pairwise_cons, List.pairwise_cons]
      refine ⟨?_, h⟩
      intro a ha
      rcases List.mem_cons.1 ha with rfl | ha
      · exact hlt
      · have := h.1 a ha; omega
    · split
      · rename_i h1 h2
        rw [List.pairwise_cons]
        refine ⟨?_, ih h.2⟩
        intro a ha
        rcases mem_insertId.1 ha with rfl | ha
        · exact h2
        · exact h.1 a ha
      · rw [List.pairwise_cons]; exact h

theorem insertId_length {l : List Nat} {i : Nat} (h : i ∉ l) : (insertId l i).length = l.length + 1 := by
  induction l with
  | nil => rfl
  | cons j t ih =>
    simp only [List.mem_cons, not_or] at h
    simp only [insertId]
    split
    · simp
    · split
      · simp [ih h.2]
      · omega

theorem setOk_ext {a b : List Nat} (ha : SetOk a) (hb : SetOk b) (h : ∀ x, x ∈ a ↔ x ∈ b) : a = b := by
  unfold SetOk at *
  induction a generalizing b with
  | nil =>
    cases b with
    | nil => rfl
    | cons y b => have := (h y).2 (by simp); simp at this
  | cons x a ih =>
    cases b with
    | nil => have := (h x).1 (by simp); simp at this
    | cons y b =>
      rw [List.pairwise_cons] at ha hb
      have hxy : x = y := by
        rcases List.mem_cons.1 ((h x).1 (by simp)) with e | e
        · exact e
        · rcases List.mem_cons.1 ((h y).2 (by simp)) with e' | e'
          · exact e'.symm
          · have := hb.1 x e; have := ha.1 y e'; omega
      subst hxy
      congr 1
      apply ih ha.2 hb.2
      intro z
      constructor
      · intro hz
        rcases List.mem_cons.1 ((h z).1 (by simp [hz])) with e | e
        · subst e; have := ha.1 z hz; omega
        · exact e
      · intro hz
        rcases List.mem_cons.1 ((h z).2 (by simp [hz])) with e | e
        · subst e; have := hb.1 z hz; omega
        · exact e

/-- A sorted list of numbers below `n` has at most `n` elements. -/
theorem setOk_length {l : List Nat} {n : Nat} (h : SetOk l) (hb : ∀ x ∈ l, x < n) : l.length ≤ n := by
  have key : ∀ (l : List Nat) (k : Nat), l.Pairwise (· < ·) → (∀ x ∈ l, k ≤ x ∧ x < n) → k ≤ n → l.length + k ≤ n := by
    intro l
    induction l with
    | nil => intro k _ _ hk; simpa using hk
    | cons x l ih =>
      intro k h hb hk
      rw [List.pairwise_cons] at h
      have hx := hb x (by simp)
      have := ih (x + 1) h.2 (fun y hy => ⟨h.1 y hy, (hb y (by simp [hy])).2⟩) (by omega)
      simp only [List.length_cons]
      omega
  have := key l 0 h (fun x hx => ⟨Nat.zero_le _, hb x hx⟩) (Nat.zero_le _)
  omega

theorem mem_addTrans {l : List Trans} {t u : Trans} : u ∈ addTrans l t ↔ u = t ∨ u ∈ l := by
  induction l with
  | nil => simp [addTrans]
  | cons v r ih =>
    simp only [addTrans]
    split
    · simp
    · split
      · rename_i h; subst h; simp
      · simp only [List.mem_cons, ih]
        constructor
        · rintro (h | h | h) <;> simp [h]
        · rintro (h | h | h) <;> simp [h]

/-- Order on transitions. -/
def TransLt (a b : Trans) : Prop := a.1 < b.1 ∨ (a.1 = b.1 ∧ a.2 < b.2)

theorem sorted_addTrans {l : List Trans} {t : Trans} (h : l.Pairwise TransLt) : (addTrans l t).Pairwise TransLt := by
  induction l with
  | nil => simp [addTrans]
  | cons v r ih =>
    rw [List.pairwise_cons] at h
    simp only [addTrans]
    split
    · rename_i hlt
      rw [List.pairwise_cons, List.pairwise_cons]
      refine ⟨?_, h⟩
      intro a ha
      rcases List.mem_cons.1 ha with rfl | ha
      · exact hlt
      · have := h.1 a ha
        simp only [TransLt] at *; omega
    · split
      · rw [List.pairwise_cons]; exact h
      · rename_i h1 h2
        rw [List.pairwise_cons]
        refine ⟨?_, ih h.2⟩
        intro a ha
        rcases mem_addTrans.1 ha with rfl | ha
        · have : v ≠ a := fun e => h2 e.symm
          have h3 : v.1 ≠ a.1 ∨ v.2 ≠ a.2 := by
            by_cases hh : v.1 = a.1
            · right; intro h4; exact this (Prod.ext hh h4)
            · exact .inl hh
          simp only [TransLt]; omega
        · exact h.1 a ha

namespace Ndfa

/-! ### Epsilon -/

theorem eps_iff (n : Ndfa) (h : n.syms.Inv) {s : Nat} (hs : s < n.syms.count) :
    s = (n.syms.identifierFor []).2 ↔ n.syms.get s = [] := by
  obtain ⟨h1, h2, ⟨l, h3, _⟩, h4⟩ := SymbolMap.identifierFor_spec n.syms [] h
  have hs' : n.syms.syms[s]? = some n.syms.syms[s] := List.getElem?_eq_getElem hs
  have hg : n.syms.get s = n.syms.syms[s] := by simp [SymbolMap.get, hs']
  rw [hg]
  have hx : (n.syms.identifierFor []).1.syms[s]? = some n.syms.syms[s] := by
    rw [h3, List.getElem?_append_left hs]; exact hs'
  constructor
  · intro e
    rw [← e, hx] at h2
    exact Option.some.inj h2
  · intro e
    rw [e] at hx
    exact SymbolMap.syms_inj _ h1 hx h2

/-- Reflexive transitive closure of the epsilon transitions. -/
inductive EpsReach (n : Ndfa) : Nat → Nat → Prop
  | refl (q) : EpsReach n q q
  | step {q p p'} : EpsReach n q p → EpsStep n p p' → EpsReach n q p'

theorem EpsReach.trans {n : Ndfa} {a b c : Nat} (h1 : EpsReach n a b) (h2 : EpsReach n b c) : EpsReach n a c := by
  induction h2 with
  | refl => exact h1
  | step _ hs ih => exact .step ih hs

/-! ### Closure -/

theorem closeTrans_spec (eps : Nat) (ts : List Trans) (S A : List Nat) (hA : ∀ q ∈ A, q ∈ S)
    (hS : SetOk S) (hA' : SetOk A) :
    let r := closeTrans eps ts (S, A)
    (∀ q, q ∈ r.1 ↔ q ∈ S ∨ (eps, q) ∈ ts) ∧ (∀ q, q ∈ r.2 ↔ q ∈ A ∨ (q ∉ S ∧ (eps, q) ∈ ts)) ∧
    SetOk r.1 ∧ SetOk r.2 ∧ r.1.length + A.length = S.length + r.2.length := by
  induction ts generalizing S A with
  | nil => exact ⟨by simp [closeTrans], by simp [closeTrans], hS, hA', by simp [closeTrans]⟩
  | cons t ts ih =>
    obtain ⟨s, p⟩ := t
    simp only [closeTrans]
    by_cases h1 : s ≠ eps
    · simp only [if_pos h1]
      obtain ⟨g1, g2, g3⟩ := ih S A hA hS hA'
      have hne : ∀ q, ((eps, q) = (s, p)) ↔ False := by
        intro q; simp only [Prod.mk.injEq, iff_false, not_and]; intro e; exact absurd e.symm h1
      refine ⟨fun q => ?_, fun q => ?_, g3⟩
      · rw [g1]; simp only [List.mem_cons, hne, false_or]
      · rw [g2]; simp only [List.mem_cons, hne, false_or]
    · have h1 : s = eps := by simpa using h1
      subst h1
      simp only [ne_eq, not_true_eq_false, if_false]
      by_cases h2 : p ∈ S
      · simp only [if_pos h2]
        obtain ⟨g1, g2, g3⟩ := ih S A hA hS hA'
        refine ⟨fun q => ?_, fun q => ?_, g3⟩
        · rw [g1]; simp only [List.mem_cons, Prod.mk.injEq, true_and]
          constructor
          · rintro (h | h) <;> simp [h]
          · rintro (h | rfl | h)
            · exact .inl h
            · exact .inl h2
            · exact .inr h
        · rw [g2]; simp only [List.mem_cons, Prod.mk.injEq, true_and]
          constructor
          · rintro (h | h) <;> simp [h]
          · rintro (h | ⟨h3, rfl | h⟩)
            · exact .inl h
            · exact absurd h2 h3
            · exact .inr ⟨h3, h⟩
      · simp only [if_neg h2]
        have h3 : p ∉ A := fun h => h2 (hA p h)
        obtain ⟨g1, g2, g3, g4, g5⟩ := ih (insertId S p) (insertId A p)
          (by intro q hq; rw [mem_insertId] at *; rcases hq with h | h
              · exact .inl h
              · exact .inr (hA q h))
          (setOk_insertId hS) (setOk_insertId hA')
        refine ⟨fun q => ?_, fun q => ?_, g3, g4, ?_⟩
        · rw [g1, mem_insertId]; simp only [List.mem_cons, Prod.mk.injEq, true_and]
          constructor
          · rintro ((h | h) | h) <;> simp [h]
          · rintro (h | h | h) <;> simp [h]
        · rw [g2, mem_insertId, mem_insertId]; simp only [List.mem_cons, Prod.mk.injEq, true_and, not_or]
          constructor
          · rintro ((h | h) | ⟨⟨h4, h5⟩, h6⟩)
            · subst h; exact .inr ⟨h2, .inl rfl⟩
            · exact .inl h
            · exact .inr ⟨h5, .inr h6⟩
          · rintro (h | ⟨h4, h | h⟩)
            · exact .inl (.inr h)
            · exact .inl (.inl h)
            · by_cases h5 : q = p
              · exact .inl (.inl h5)
              · exact .inr ⟨⟨h5, h4⟩, h⟩
        · rw [insertId_length h2, insertId_length h3] at g5
          omega

theorem closeFold_spec (n : Ndfa) (eps : Nat) (N S A : List Nat) (hA : ∀ q ∈ A, q ∈ S)
    (hS : SetOk S) (hA' : SetOk A) :
    let r := N.foldl (fun acc q => closeTrans eps (n.trans q) acc) (S, A)
    (∀ q, q ∈ r.1 ↔ q ∈ S ∨ ∃ p ∈ N, (eps, q) ∈ n.trans p) ∧
    (∀ q, q ∈ r.2 ↔ q ∈ A ∨ (q ∉ S ∧ ∃ p ∈ N, (eps, q) ∈ n.trans p)) ∧
    SetOk r.1 ∧ SetOk r.2 ∧ r.1.length + A.length = S.length + r.2.length := by
  induction N generalizing S A with
  | nil => exact ⟨by simp, by simp, hS, hA', by simp⟩
  | cons p N ih =>
    obtain ⟨g1, g2, g3, g4, g5⟩ := closeTrans_spec eps (n.trans p) S A hA hS hA'
    simp only [List.foldl_cons]
    generalize closeTrans eps (n.trans p) (S, A) = r at *
    obtain ⟨S1, A1⟩ := r
    simp only at g1 g2 g3 g4 g5 ⊢
    obtain ⟨f1, f2, f3, f4, f5⟩ := ih S1 A1
      (by intro q hq; rw [g1]; rcases (g2 q).1 hq with h | h
          · exact .inl (hA q h)
          · exact .inr h.2) g3 g4
    refine ⟨fun q => ?_, fun q => ?_, f3, f4, by omega⟩
    · rw [f1 q, g1]
      simp only [List.mem_cons, exists_eq_or_imp, or_assoc]
    · rw [f2 q, g2, g1]
      simp only [List.mem_cons, exists_eq_or_imp]
      constructor
      · rintro ((h | ⟨h1, h2⟩) | ⟨h1, h2⟩)
        · exact .inl h
        · exact .inr ⟨h1, .inl h2⟩
        · exact .inr ⟨fun h => h1 (.inl h), .inr h2⟩
      · rintro (h | ⟨h1, h2 | h2⟩)
        · exact .inl (.inl h)
        · exact .inl (.inr ⟨h1, h2⟩)
        · by_cases h3 : (eps, q) ∈ n.trans p
          · exact .inl (.inr ⟨h1, h3⟩)
          · refine .inr ⟨?_, h2⟩
            rintro (h | h)
            · exact h1 h
            · exact h3 h

/-- Epsilon transitions are the ones labelled with the identifier of the empty set. -/
theorem epsStep_iff (n : Ndfa) (h : n.WF) (p q : Nat) :
    EpsStep n p q ↔ ((n.syms.identifierFor []).2, q) ∈ n.trans p := by
  constructor
  · rintro ⟨s, h1, h2⟩
    rw [← (eps_iff n h.map (h.symbol p _ h1)).2 h2]; exact h1
  · intro h1
    exact ⟨_, h1, (eps_iff n h.map (h.symbol p _ h1)).1 rfl⟩

theorem closeLoop_spec (n : Ndfa) (h : n.WF) (S0 : List Nat) : ∀ (fuel : Nat) (S N : List Nat), SetOk S →
    (∀ q ∈ N, q ∈ S) → (∀ q ∈ S0, q ∈ S) → (∀ q ∈ S, ∃ p ∈ S0, EpsReach n p q) → (∀ q ∈ S, q < n.states.length) →
    (∀ q ∈ S, q ∉ N → ∀ p, EpsStep n q p → p ∈ S) →
    (n.states.length + (if N = [] then 0 else 1) ≤ fuel + S.length) →
    ∃ out, closeLoop n (n.syms.identifierFor []).2 fuel S N = some out ∧ SetOk out ∧
      ∀ q, q ∈ out ↔ ∃ p ∈ S0, EpsReach n p q := by
  intro fuel
  induction fuel with
  | zero =>
    intro S N hS hN h0 hr hb hc hf
    cases N with
    | nil =>
      refine ⟨S, rfl, hS, fun q => ⟨hr q, ?_⟩⟩
      rintro ⟨p, hp, hpq⟩
      induction hpq with
      | refl => exact h0 _ hp
      | step _ hs ih => exact hc _ (ih) (by simp) _ hs
    | cons a N =>
      have := setOk_length hS hb
      simp at hf
      omega
  | succ fuel ih =>
    intro S N hS hN h0 hr hb hc hf
    cases N with
    | nil =>
      refine ⟨S, by simp [closeLoop], hS, fun q => ⟨hr q, ?_⟩⟩
      rintro ⟨p, hp, hpq⟩
      induction hpq with
      | refl => exact h0 _ hp
      | step _ hs ih => exact hc _ (ih) (by simp) _ hs
    | cons a N =>
      obtain ⟨g1, g2, g3, g4, g5⟩ := closeFold_spec n (n.syms.identifierFor []).2 (a :: N) S [] (by simp) hS (by simp [SetOk])
      simp only [closeLoop]
      generalize List.foldl (fun acc q => closeTrans (n.syms.identifierFor []).2 (n.trans q) acc) (S, []) (a :: N) = r at g1 g2 g3 g4 g5
      obtain ⟨S', A'⟩ := r
      simp only at g1 g2 g3 g4 g5 ⊢
      refine ih S' A' g3 ?_ ?_ ?_ ?_ ?_ ?_
      · intro q hq
        rw [g1]
        rcases (g2 q).1 hq with h | h
        · simp at h
        · exact .inr h.2
      · intro q hq; rw [g1]; exact .inl (h0 q hq)
      · intro q hq
        rcases (g1 q).1 hq with h' | ⟨p, hp, hpq⟩
        · exact hr q h'
        · obtain ⟨p0, hp0, hp1⟩ := hr p (hN p hp)
          exact ⟨p0, hp0, .step hp1 ((epsStep_iff n h p q).2 hpq)⟩
      · intro q hq
        rcases (g1 q).1 hq with h' | ⟨p, hp, hpq⟩
        · exact hb q h'
        · exact h.target p _ hpq
      · intro q hq hqA p hpq
        rw [g1]
        have hpq' := (epsStep_iff n h q p).1 hpq
        by_cases hqN : q ∈ a :: N
        · exact .inr ⟨q, hqN, hpq'⟩
        · rcases (g1 q).1 hq with h' | ⟨p', hp', hpq''⟩
          · exact .inl (hc q h' hqN p hpq)
          · by_cases hqS : q ∈ S
            · exact .inl (hc q hqS hqN p hpq)
            · exact absurd ((g2 q).2 (.inr ⟨hqS, p', hp', hpq''⟩)) hqA
      · simp only [List.length_nil, Nat.add_zero] at g5
        simp only [reduceCtorEq, if_false] at hf
        by_cases hA : A' = []
        · subst hA
          simp at g5 ⊢
          omega
        · have : 0 < A'.length := List.length_pos_iff.2 hA
          simp only [hA, if_false]
          omega

theorem closure_spec (n : Ndfa) (h : n.WF) (S : List Nat) (hS : SetOk S) (hb : ∀ q ∈ S, q < n.states.length) :
    ∃ out, n.closure S = some out ∧ SetOk out ∧ (∀ q, q ∈ out ↔ ∃ p ∈ S, EpsReach n p q) := by
  refine closeLoop_spec n h S _ S S hS (fun _ h => h) (fun _ h => h) (fun q hq => ⟨q, hq, .refl q⟩) hb
    (fun q hq hn => absurd hq hn) ?_
  split <;> omega

theorem epsReach_lt {n : Ndfa} (h : n.WF) {p q : Nat} (hr : EpsReach n p q) (hp : p < n.states.length) :
    q < n.states.length := by
  induction hr with
  | refl => exact hp
  | step _ hs => obtain ⟨s, h1, _⟩ := hs; exact h.target _ _ h1

end Ndfa
end TameParse

import Verif.Lookahead
import Verif.LalrProps
import Mathlib.Data.Finset.Prod

/-!
# C52: the lookaheads of the LALR automaton
-/

namespace TameParse
namespace Lalr

open AssocMap Closure Relation

/-! Adding lookaheads -/

theorem mem_addLa : ∀ (new old : List Item) (a : Item), a ∈ (addLa new old).1 ↔ a ∈ old ∨ a ∈ new ∧ a ≠ .empty
  | [], old, a => by simp [addLa]
  | b :: new, old, a => by
    unfold addLa
    by_cases h1 : b = .empty
    · rw [if_pos h1, mem_addLa new old a, List.mem_cons]
      constructor
      · rintro (h | ⟨h, h'⟩)
        · exact Or.inl h
        · exact Or.inr ⟨Or.inr h, h'⟩
      · rintro (h | ⟨h | h, h'⟩)
        · exact Or.inl h
        · exact absurd (h.trans h1) h'
        · exact Or.inr ⟨h, h'⟩
    · rw [if_neg h1]
      by_cases h2 : b ∈ old
      · rw [if_pos h2, mem_addLa new old a, List.mem_cons]
        constructor
        · rintro (h | ⟨h, h'⟩)
          · exact Or.inl h
          · exact Or.inr ⟨Or.inr h, h'⟩
        · rintro (h | ⟨h | h, h'⟩)
          · exact Or.inl h
          · exact Or.inl (h ▸ h2)
          · exact Or.inr ⟨h, h'⟩
      · rw [if_neg h2]
        dsimp only
        rw [mem_addLa new (old ++ [b]) a, List.mem_append, List.mem_singleton, List.mem_cons]
        constructor
        · rintro ((h | h) | ⟨h, h'⟩)
          · exact Or.inl h
          · exact Or.inr ⟨Or.inl h, h ▸ h1⟩
          · exact Or.inr ⟨Or.inr h, h'⟩
        · rintro (h | ⟨h | h, h'⟩)
          · exact Or.inl (Or.inl h)
          · exact Or.inl (Or.inr h)
          · exact Or.inr ⟨h, h'⟩

theorem addLa_flag : ∀ (new old : List Item), (addLa new old).2 = true ↔ ∃ a ∈ new, a ≠ .empty ∧ a ∉ old
  | [], old => by simp [addLa]
  | b :: new, old => by
    unfold addLa
    by_cases h1 : b = .empty
    · rw [if_pos h1, addLa_flag new old]
      constructor
      · rintro ⟨a, h, h'⟩; exact ⟨a, List.mem_cons_of_mem _ h, h'⟩
      · rintro ⟨a, h, h'⟩
        rcases List.mem_cons.1 h with rfl | h
        · exact absurd h1 h'.1
        · exact ⟨a, h, h'⟩
    · rw [if_neg h1]
      by_cases h2 : b ∈ old
      · rw [if_pos h2, addLa_flag new old]
        constructor
        · rintro ⟨a, h, h'⟩; exact ⟨a, List.mem_cons_of_mem _ h, h'⟩
        · rintro ⟨a, h, h'⟩
          rcases List.mem_cons.1 h with rfl | h
          · exact absurd h2 h'.2
          · exact ⟨a, h, h'⟩
      · rw [if_neg h2]
        exact ⟨fun _ => ⟨b, List.mem_cons_self .., h1, h2⟩, fun _ => rfl⟩

/-- The same machine apart from the lookaheads. -/
structure Same (m m' : Mach) : Prop where
  len : m'.states.length = m.states.length
  trans : m'.trans = m.trans
  guards : m'.guards = m.guards
  kern : ∀ s, kern m' s = kern m s

theorem Same.refl (m : Mach) : Same m m := ⟨rfl, rfl, rfl, fun _ => rfl⟩

theorem Same.trans' {a b c : Mach} (h : Same a b) (h' : Same b c) : Same a c :=
  ⟨h'.len.trans h.len, h'.trans.trans h.trans, h'.guards.trans h.guards, fun s => (h'.kern s).trans (h.kern s)⟩

theorem Same.tr {m m' : Mach} (h : Same m m') (s : Nat) (x : Item) : tr m' s x = tr m s x := by
  unfold Lalr.tr
  rw [h.trans]

theorem keys_put {κ ν : Type} [DecidableEq κ] {k : κ} {v : ν} : ∀ {l : List (κ × ν)} {o : ν}, get k l = some o → (put k v l).map Prod.fst = l.map Prod.fst
  | (k', o') :: l, o, h => by
    unfold AssocMap.get at h
    unfold put
    by_cases e : k' = k
    · rw [if_pos e]
      simp [e]
    · rw [if_neg e] at h ⊢
      rw [List.map_cons, List.map_cons, keys_put h]

theorem get_of_key {κ ν : Type} [DecidableEq κ] {k : κ} : ∀ {l : List (κ × ν)}, k ∈ l.map Prod.fst → ∃ o, get k l = some o
  | [], h => by cases h
  | (k', o') :: l, h => by
    unfold AssocMap.get
    by_cases e : k' = k
    · exact ⟨o', if_pos e⟩
    · rw [if_neg e]
      rcases List.mem_cons.1 h with h | h
      · exact absurd h.symm e
      · exact get_of_key h

theorem key_of_get {κ ν : Type} [DecidableEq κ] {k : κ} {o : ν} {l : List (κ × ν)} (h : get k l = some o) : k ∈ l.map Prod.fst :=
  List.mem_map.2 ⟨_, mem_of_get h, rfl⟩

theorem getD_set {α : Type} (l : List α) (s t : Nat) (x d : α) (hs : s < l.length) : (l.set s x).getD t d = if t = s then x else l.getD t d := by
  rw [List.getD_eq_getElem?_getD, List.getElem?_set]
  by_cases h : s = t
  · subst h
    simp [hs]
  · rw [if_neg h, if_neg (fun e => h e.symm), List.getD_eq_getElem?_getD]

/-- What `add_lookahead` does. -/
theorem addLookahead_spec (m : Mach) (k : Key) (new : List Item) : Same m (addLookahead m k new).1 ∧
    (k.2 ∈ kern m k.1 → (∀ k' a, a ∈ laOf (addLookahead m k new).1 k' ↔ a ∈ laOf m k' ∨ k' = k ∧ a ∈ new ∧ a ≠ .empty) ∧
      ((addLookahead m k new).2 = true ↔ ∃ a ∈ new, a ≠ .empty ∧ a ∉ laOf m k)) := by
  unfold addLookahead
  cases hg : get k.2 (m.states.getD k.1 []) with
  | none =>
    refine ⟨Same.refl m, fun h => ?_⟩
    obtain ⟨o, ho⟩ := get_of_key (show k.2 ∈ (m.states.getD k.1 []).map Prod.fst from h)
    rw [hg] at ho
    cases ho
  | some old =>
    dsimp only
    have hk : k.1 < m.states.length := by
      by_cases h : k.1 < m.states.length
      · exact h
      · rw [List.getD_eq_getElem?_getD, List.getElem?_eq_none (by omega)] at hg
        cases hg
    have hla : laOf m k = old := by unfold laOf; rw [hg]; rfl
    refine ⟨⟨List.length_set .., rfl, rfl, fun s => ?_⟩, fun _ => ⟨fun k' a => ?_, ?_⟩⟩
    · unfold kern
      dsimp only
      rw [getD_set _ _ _ _ _ hk]
      by_cases h : s = k.1
      · rw [if_pos h, keys_put hg, h]
      · rw [if_neg h]
    · have hnew : laOf { m with states := m.states.set k.1 (put k.2 (addLa new old).1 (m.states.getD k.1 [])) } k' =
          if k' = k then (addLa new old).1 else laOf m k' := by
        unfold laOf
        dsimp only
        rw [getD_set _ _ _ _ _ hk]
        by_cases h : k'.1 = k.1
        · rw [if_pos h, get_put]
          by_cases h2 : k'.2 = k.2
          · rw [if_pos h2.symm, if_pos (Prod.ext h h2)]; rfl
          · rw [if_neg (fun e => h2 e.symm), if_neg (fun e => h2 (by rw [e])), h]
        · rw [if_neg h, if_neg (fun e => h (by rw [e]))]
      rw [hnew]
      by_cases h : k' = k
      · rw [if_pos h, mem_addLa, h, hla]
        simp
      · rw [if_neg h]
        simp [h]
    · rw [addLa_flag, hla]

/-! The first part -/

section
variable {lt : Key → Key → Bool}

theorem mem_place (x y : Key) : ∀ l, y ∈ place lt x l ↔ y = x ∨ y ∈ l
  | [] => by simp [place]
  | z :: l => by
    unfold place
    cases hb : lt x z
    · rw [if_neg (by simp), List.mem_cons, mem_place x y l, List.mem_cons]
      tauto
    · rw [if_pos rfl, List.mem_cons]

theorem mem_keyAdd (x y : Key) (l : List Key) : y ∈ keyAdd lt x l ↔ y = x ∨ y ∈ l := by
  unfold keyAdd
  by_cases h : x ∈ l
  · rw [if_pos h]
    constructor
    · exact Or.inr
    · rintro (rfl | h')
      · exact h
      · exact h'
  · rw [if_neg h, mem_place]

theorem place_nodup (x : Key) : ∀ l, x ∉ l → l.Nodup → (place lt x l).Nodup
  | [], _, _ => by simp [place]
  | z :: l, hx, hn => by
    unfold place
    cases hb : lt x z
    · rw [if_neg (by simp)]
      obtain ⟨h1, h2⟩ := List.nodup_cons.1 hn
      refine List.nodup_cons.2 ⟨fun h => ?_, place_nodup x l (fun h => hx (List.mem_cons_of_mem _ h)) h2⟩
      rcases (mem_place x z l).1 h with rfl | h
      · exact hx (List.mem_cons_self ..)
      · exact h1 h
    · rw [if_pos rfl]
      exact List.nodup_cons.2 ⟨hx, hn⟩

theorem keyAdd_nodup (x : Key) (l : List Key) (h : l.Nodup) : (keyAdd lt x l).Nodup := by
  unfold keyAdd
  by_cases hx : x ∈ l
  · rw [if_pos hx]; exact h
  · rw [if_neg hx]; exact place_nodup x l hx h

/-- An item of a closure of an item of a state, with the item that it leads to. -/
def Hit (m : Mach) (s : Nat) (j : LItem) (v : Key) : Prop :=
  ∃ x t, j.rule.items[j.dot]? = some x ∧ tr m s x = some t ∧ v = (t, adv j) ∧ adv j ∈ kern m t

/-- The propagations that are recorded. -/
def Edge (P : Props) (u v : Key) : Prop := v ∈ (get u P).getD []

/-- What has been done when the closure items `T` have been looked at. -/
structure Acc (m : Mach) (T : Key → LItem × List Item → Prop) (p : Mach × Props) : Prop where
  same : Same m p.1
  la : ∀ v a, a ∈ laOf p.1 v ↔ a ∈ laOf m v ∨ ∃ u c, T u c ∧ Hit m u.1 c.1 v ∧ a ∈ c.2 ∧ a ≠ .empty
  edge : ∀ u v, Edge p.2 u v ↔ ∃ c, T u c ∧ Hit m u.1 c.1 v ∧ .empty ∈ c.2

theorem Acc.congr {m : Mach} {T T' : Key → LItem × List Item → Prop} {p : Mach × Props} (h : Acc m T p) (hT : ∀ u c, T u c ↔ T' u c) : Acc m T' p := by
  have : T = T' := by funext u c; exact propext (hT u c)
  rw [← this]
  exact h

theorem Acc.step {m : Mach} {T : Key → LItem × List Item → Prop} {p : Mach × Props} (h : Acc m T p) (s : Nat) (i : LItem) (c : LItem × List Item) :
    Acc m (fun u c' => T u c' ∨ u = (s, i) ∧ c' = c) (spontClose lt s i p c) := by
  have miss : (∀ v, ¬ Hit m s c.1 v) → Acc m (fun u c' => T u c' ∨ u = (s, i) ∧ c' = c) p := by
    intro hno
    refine ⟨h.same, fun v a => ?_, fun u v => ?_⟩
    · rw [h.la v a]
      refine or_congr Iff.rfl ⟨?_, ?_⟩
      · rintro ⟨u, c', h1, h2⟩; exact ⟨u, c', Or.inl h1, h2⟩
      · rintro ⟨u, c', h1 | ⟨rfl, rfl⟩, h2⟩
        · exact ⟨u, c', h1, h2⟩
        · exact absurd h2.1 (hno v)
    · rw [h.edge u v]
      constructor
      · rintro ⟨c', h1, h2⟩; exact ⟨c', Or.inl h1, h2⟩
      · rintro ⟨c', h1 | ⟨rfl, rfl⟩, h2⟩
        · exact ⟨c', h1, h2⟩
        · exact absurd h2.1 (hno v)
  unfold spontClose
  cases hx : c.1.rule.items[c.1.dot]? with
  | none =>
    refine miss ?_
    rintro v ⟨x, t, h1, -⟩
    rw [hx] at h1
    cases h1
  | some x =>
    dsimp only
    cases ht : tr p.1 s x with
    | none =>
      refine miss ?_
      rintro v ⟨x', t, h1, h2, -⟩
      rw [hx] at h1
      cases h1
      rw [h.same.tr, h2] at ht
      cases ht
    | some t =>
      dsimp only
      have htm : tr m s x = some t := by rw [← h.same.tr]; exact ht
      rw [h.same.kern]
      by_cases hk : adv c.1 ∈ kern m t
      · rw [if_pos hk]
        have hit : ∀ v, Hit m s c.1 v ↔ v = (t, adv c.1) := by
          intro v
          constructor
          · rintro ⟨x', t', h1, h2, rfl, -⟩
            rw [hx] at h1
            cases h1
            rw [htm] at h2
            cases h2
            rfl
          · rintro rfl
            exact ⟨x, t, hx, htm, rfl, hk⟩
        obtain ⟨a1, a2⟩ := addLookahead_spec p.1 (t, adv c.1) c.2
        obtain ⟨a3, -⟩ := a2 (by rw [h.same.kern]; exact hk)
        refine ⟨h.same.trans' a1, fun v a => ?_, fun u v => ?_⟩
        · rw [a3 v a, h.la v a]
          constructor
          · rintro ((h1 | ⟨u, c', h1, h2⟩) | ⟨rfl, h1, h2⟩)
            · exact Or.inl h1
            · exact Or.inr ⟨u, c', Or.inl h1, h2⟩
            · exact Or.inr ⟨(s, i), c, Or.inr ⟨rfl, rfl⟩, (hit _).2 rfl, h1, h2⟩
          · rintro (h1 | ⟨u, c', h1 | ⟨rfl, rfl⟩, h2, h3⟩)
            · exact Or.inl (Or.inl h1)
            · exact Or.inl (Or.inr ⟨u, c', h1, h2, h3⟩)
            · exact Or.inr ⟨(hit v).1 h2, h3⟩
        · dsimp only
          by_cases he : .empty ∈ c.2
          · rw [if_pos he]
            unfold Edge
            rw [get_put]
            by_cases hu : (s, i) = u
            · rw [if_pos hu, Option.getD_some, mem_keyAdd]
              have := h.edge (s, i) v
              unfold Edge at this
              rw [this, ← hu]
              constructor
              · rintro (rfl | ⟨c', h1, h2⟩)
                · exact ⟨c, Or.inr ⟨rfl, rfl⟩, (hit _).2 rfl, he⟩
                · exact ⟨c', Or.inl h1, h2⟩
              · rintro ⟨c', h1 | ⟨-, rfl⟩, h2, h3⟩
                · exact Or.inr ⟨c', h1, h2, h3⟩
                · exact Or.inl ((hit v).1 h2)
            · rw [if_neg hu]
              refine (h.edge u v).trans ⟨?_, ?_⟩
              · rintro ⟨c', h1, h2⟩; exact ⟨c', Or.inl h1, h2⟩
              · rintro ⟨c', h1 | ⟨e, -⟩, h2⟩
                · exact ⟨c', h1, h2⟩
                · exact absurd e.symm hu
          · rw [if_neg he]
            refine (h.edge u v).trans ⟨?_, ?_⟩
            · rintro ⟨c', h1, h2⟩; exact ⟨c', Or.inl h1, h2⟩
            · rintro ⟨c', h1 | ⟨-, rfl⟩, h2, h3⟩
              · exact ⟨c', h1, h2, h3⟩
              · exact absurd h3 he
      · rw [if_neg hk]
        refine miss ?_
        rintro v ⟨x', t', h1, h2, -, h3⟩
        rw [hx] at h1
        cases h1
        rw [htm] at h2
        cases h2
        exact hk h3

theorem Acc.close {m : Mach} (s : Nat) (i : LItem) : ∀ (l : List (LItem × List Item)) {T : Key → LItem × List Item → Prop} {p : Mach × Props}, Acc m T p →
    Acc m (fun u c => T u c ∨ u = (s, i) ∧ c ∈ l) (l.foldl (spontClose lt s i) p)
  | [], T, p, h => h.congr (by simp)
  | c :: l, T, p, h => (Acc.close s i l (h.step s i c)).congr (by
      intro u c'
      rw [List.mem_cons]
      tauto)

variable {self : LItem → Set1}

theorem Acc.item {m : Mach} (s : Nat) : ∀ (l : List LItem) {T : Key → LItem × List Item → Prop} {p : Mach × Props}, Acc m T p →
    Acc m (fun u c => T u c ∨ u.1 = s ∧ u.2 ∈ l ∧ u.2.dot < u.2.rule.items.length ∧ c ∈ self u.2) (l.foldl (spontItem lt self s) p)
  | [], T, p, h => h.congr (by simp)
  | i :: l, T, p, h => by
    rw [List.foldl_cons]
    unfold spontItem
    by_cases hd : i.rule.items.length ≤ i.dot
    · rw [if_pos hd]
      refine (Acc.item s l h).congr ?_
      intro u c
      rw [List.mem_cons]
      constructor
      · rintro (h1 | ⟨h1, h2, h3⟩)
        · exact Or.inl h1
        · exact Or.inr ⟨h1, Or.inr h2, h3⟩
      · rintro (h1 | ⟨h1, h2 | h2, h3⟩)
        · exact Or.inl h1
        · rw [h2] at h3; omega
        · exact Or.inr ⟨h1, h2, h3⟩
    · rw [if_neg hd]
      refine (Acc.item s l (Acc.close s i (self i) h)).congr ?_
      rintro ⟨u1, u2⟩ c
      rw [List.mem_cons]
      constructor
      · rintro ((h1 | ⟨h1, h2⟩) | ⟨h1, h2, h3⟩)
        · exact Or.inl h1
        · cases h1
          exact Or.inr ⟨rfl, Or.inl rfl, by dsimp only; omega, h2⟩
        · exact Or.inr ⟨h1, Or.inr h2, h3⟩
      · rintro (h1 | ⟨h1, h2 | h2, h3, h4⟩)
        · exact Or.inl (Or.inl h1)
        · dsimp only at h1 h2 h4
          subst h1
          subst h2
          exact Or.inl (Or.inr ⟨rfl, h4⟩)
        · exact Or.inr ⟨h1, h2, h3, h4⟩

theorem Acc.state {m : Mach} : ∀ (l : List Nat) {T : Key → LItem × List Item → Prop} {p : Mach × Props}, Acc m T p →
    Acc m (fun u c => T u c ∨ u.1 ∈ l ∧ u.2 ∈ kern m u.1 ∧ u.2.dot < u.2.rule.items.length ∧ c ∈ self u.2) (l.foldl (spontState lt self) p)
  | [], T, p, h => h.congr (by simp)
  | s :: l, T, p, h => by
    rw [List.foldl_cons]
    unfold spontState
    rw [h.same.kern]
    refine (Acc.state l (Acc.item s (kern m s) h)).congr ?_
    rintro ⟨u1, u2⟩ c
    rw [List.mem_cons]
    constructor
    · rintro ((h1 | ⟨h1, h2⟩) | ⟨h1, h2⟩)
      · exact Or.inl h1
      · dsimp only at h1; subst h1; exact Or.inr ⟨Or.inl rfl, h2⟩
      · exact Or.inr ⟨Or.inr h1, h2⟩
    · rintro (h1 | ⟨h1 | h1, h2⟩)
      · exact Or.inl (Or.inl h1)
      · dsimp only at h1; subst h1; exact Or.inl (Or.inr ⟨rfl, h2⟩)
      · exact Or.inr ⟨h1, h2⟩

/-- The items that generate and propagate lookaheads. -/
def Source (m : Mach) (u : Key) : Prop := u.1 < m.states.length ∧ u.2 ∈ kern m u.1 ∧ u.2.dot < u.2.rule.items.length

/-- What the first part does: the lookaheads that are generated, and the propagations. -/
theorem spontaneous_spec (m : Mach) : Same m (spontaneous lt self m).1 ∧
    (∀ v a, a ∈ laOf (spontaneous lt self m).1 v ↔ a ∈ laOf m v ∨ ∃ u c, Source m u ∧ c ∈ self u.2 ∧ Hit m u.1 c.1 v ∧ a ∈ c.2 ∧ a ≠ .empty) ∧
    ∀ u v, Edge (spontaneous lt self m).2 u v ↔ ∃ c, Source m u ∧ c ∈ self u.2 ∧ Hit m u.1 c.1 v ∧ .empty ∈ c.2 := by
  have h0 : Acc m (fun _ _ => False) (m, []) := ⟨Same.refl m, by simp, fun u v => by
    unfold Edge
    rw [show get u ([] : Props) = none from rfl]
    simp⟩
  have h := Acc.state (lt := lt) (self := self) (List.range m.states.length) h0
  refine ⟨h.same, fun v a => (h.la v a).trans ?_, fun u v => (h.edge u v).trans ?_⟩
  · refine or_congr Iff.rfl ⟨?_, ?_⟩
    · rintro ⟨u, c, h1 | ⟨h1, h2, h3, h4⟩, h5⟩
      · exact h1.elim
      · exact ⟨u, c, ⟨List.mem_range.1 h1, h2, h3⟩, h4, h5⟩
    · rintro ⟨u, c, ⟨h1, h2, h3⟩, h4, h5⟩
      exact ⟨u, c, Or.inr ⟨List.mem_range.2 h1, h2, h3, h4⟩, h5⟩
  · constructor
    · rintro ⟨c, h1 | ⟨h1, h2, h3, h4⟩, h5⟩
      · exact h1.elim
      · exact ⟨c, ⟨List.mem_range.1 h1, h2, h3⟩, h4, h5⟩
    · rintro ⟨c, ⟨h1, h2, h3⟩, h4, h5⟩
      exact ⟨c, Or.inr ⟨List.mem_range.2 h1, h2, h3, h4⟩, h5⟩

/-! Propagation -/

/-- What holds while propagating: `cur` is the item that is being propagated from, `L` is what has been done for it. -/
structure PInv (P : Props) (m0 m : Mach) (todo : List Key) (cur : Key → Prop) : Prop where
  same : Same m0 m
  mono : ∀ v a, a ∈ laOf m0 v → a ∈ laOf m v
  sound : ∀ v a, a ∈ laOf m v → ∃ u, ReflTransGen (Edge P) u v ∧ a ∈ laOf m0 u
  todo : ∀ u v, Edge P u v → u ∈ todo ∨ cur u ∨ ∀ a ∈ laOf m u, a ∈ laOf m v

/-- Propagations lead to items of the machine, and no lookahead is empty. -/
structure PropsOk (P : Props) (m0 : Mach) : Prop where
  target : ∀ u v, Edge P u v → v.2 ∈ kern m0 v.1
  empty : ∀ v, .empty ∉ laOf m0 v

/-- The pairs of items and symbols that are still missing. -/
noncomputable def lacking (Q : Finset (Key × Item)) (m : Mach) : Finset (Key × Item) := by
  classical exact Q.filter fun p => p.2 ∉ laOf m p.1

theorem lacking_mono {Q : Finset (Key × Item)} {m m' : Mach} (h : ∀ v a, a ∈ laOf m v → a ∈ laOf m' v) : (lacking Q m').card ≤ (lacking Q m).card := by
  classical
  refine Finset.card_le_card fun p hp => ?_
  unfold lacking at hp ⊢
  rw [Finset.mem_filter] at hp ⊢
  exact ⟨hp.1, fun hm => hp.2 (h _ _ hm)⟩

theorem lacking_lt {Q : Finset (Key × Item)} {m m' : Mach} (h : ∀ v a, a ∈ laOf m v → a ∈ laOf m' v) {v : Key} {a : Item} (hq : (v, a) ∈ Q)
    (h1 : a ∉ laOf m v) (h2 : a ∈ laOf m' v) : (lacking Q m').card < (lacking Q m).card := by
  classical
  refine Finset.card_lt_card ⟨fun p hp => ?_, fun hs => ?_⟩
  · unfold lacking at hp ⊢
    rw [Finset.mem_filter] at hp ⊢
    exact ⟨hp.1, fun hm => hp.2 (h _ _ hm)⟩
  · have hm : (v, a) ∈ lacking Q m := by unfold lacking; rw [Finset.mem_filter]; exact ⟨hq, h1⟩
    have := hs hm
    unfold lacking at this
    rw [Finset.mem_filter] at this
    exact this.2 h2

theorem PInv.nonempty {P : Props} {m0 m : Mach} {todo : List Key} {cur : Key → Prop} (hP : PropsOk P m0) (h : PInv P m0 m todo cur) (v : Key) :
    .empty ∉ laOf m v := by
  intro he
  obtain ⟨u, -, hu⟩ := h.sound v _ he
  exact hP.empty u hu

theorem propFold {P : Props} {m0 : Mach} (hP : PropsOk P m0) {u : Key} {Q : Finset (Key × Item)} (hQ : ∀ u v w a, Edge P u v → a ∈ laOf m0 w → (v, a) ∈ Q) :
    ∀ (rest : List Key) (m : Mach) (todo : List Key) (la : List Item), la = laOf m u → (∀ v ∈ rest, Edge P u v) → PInv P m0 m todo (· = u) →
      todo.Nodup → (∀ k ∈ todo, k ∈ P.map Prod.fst) →
      PInv P m0 (rest.foldl (propStep lt P la) (m, todo)).1 (rest.foldl (propStep lt P la) (m, todo)).2 (· = u) ∧
      laOf (rest.foldl (propStep lt P la) (m, todo)).1 u = la ∧
      (∀ v a, a ∈ laOf m v → a ∈ laOf (rest.foldl (propStep lt P la) (m, todo)).1 v) ∧
      (∀ v ∈ rest, ∀ a ∈ la, a ∈ laOf (rest.foldl (propStep lt P la) (m, todo)).1 v) ∧
      (rest.foldl (propStep lt P la) (m, todo)).2.Nodup ∧ (∀ k ∈ (rest.foldl (propStep lt P la) (m, todo)).2, k ∈ P.map Prod.fst) ∧
      ((rest.foldl (propStep lt P la) (m, todo)).2 = todo ∨ (lacking Q (rest.foldl (propStep lt P la) (m, todo)).1).card < (lacking Q m).card)
  | [], m, todo, la, hla, _, h, hn, hk => ⟨h, hla.symm, fun _ _ h => h, by simp, hn, hk, Or.inl rfl⟩
  | v :: rest, m, todo, la, hla, he, h, hn, hk => by
    have hev : Edge P u v := he v (List.mem_cons_self ..)
    have hvk : v.2 ∈ kern m v.1 := by rw [h.same.kern]; exact hP.target u v hev
    obtain ⟨a1, a2⟩ := addLookahead_spec m v la
    obtain ⟨a3, a4⟩ := a2 hvk
    have hne : ∀ a ∈ la, a ≠ .empty := by
      rintro a ha rfl
      rw [hla] at ha
      exact h.nonempty hP u ha
    have hmono : ∀ w a, a ∈ laOf m w → a ∈ laOf (addLookahead m v la).1 w := fun w a ha => (a3 w a).2 (Or.inl ha)
    rw [List.foldl_cons]
    generalize hstep : propStep lt P la (m, todo) v = q
    obtain ⟨m', todo'⟩ := q
    unfold propStep at hstep
    dsimp only at hstep
    injection hstep with e1 e2
    rw [e1] at a1 a3 hmono
    -- the lookahead of the item that is propagated from does not change
    have hla' : laOf m' u = la := by
      rw [← e1, hla]
      unfold addLookahead
      cases hg : get v.2 (m.states.getD v.1 []) with
      | none => rfl
      | some old =>
        dsimp only
        have hold : laOf m v = old := by unfold laOf; rw [hg]; rfl
        have hvlt : v.1 < m.states.length := by
          by_cases hh : v.1 < m.states.length
          · exact hh
          · rw [List.getD_eq_getElem?_getD, List.getElem?_eq_none (by omega)] at hg
            cases hg
        unfold laOf
        dsimp only
        rw [getD_set _ _ _ _ _ hvlt]
        by_cases h1 : u.1 = v.1
        · rw [if_pos h1, get_put]
          by_cases h2 : v.2 = u.2
          · rw [if_pos h2]
            have huv : u = v := Prod.ext h1 h2.symm
            have : (get u.2 (m.states.getD u.1 [])).getD [] = old := by rw [huv, hg]; rfl
            rw [this, Option.getD_some]
            have hid : ∀ new old : List Item, (∀ a ∈ new, a ∈ old) → (addLa new old).1 = old := by
              intro new
              induction new with
              | nil => intro old _; rfl
              | cons b new ih =>
                intro old hsub
                unfold addLa
                by_cases hb : b = .empty
                · rw [if_pos hb]; exact ih old fun a ha => hsub a (List.mem_cons_of_mem _ ha)
                · rw [if_neg hb, if_pos (hsub b (List.mem_cons_self ..))]; exact ih old fun a ha => hsub a (List.mem_cons_of_mem _ ha)
            exact hid old old fun _ h => h
          · rw [if_neg h2, h1]
        · rw [if_neg h1]
    have hchange : (addLookahead m v la).2 = false → ∀ w a, a ∈ laOf m' w ↔ a ∈ laOf m w := by
      intro hf w a
      rw [a3 w a]
      constructor
      · rintro (h1 | ⟨rfl, h1, h2⟩)
        · exact h1
        · by_contra hc
          have := a4.2 ⟨a, h1, h2, hc⟩
          rw [hf] at this
          cases this
      · exact Or.inl
    have htodo : (todo' = todo ∧ ((addLookahead m v la).2 = false ∨ ∀ w, ¬ Edge P v w)) ∨
        (todo' = keyAdd lt v todo ∧ (get v P).isSome ∧ (addLookahead m v la).2 = true) := by
      cases hf : (addLookahead m v la).2 with
      | false =>
        rw [hf, Bool.false_and, if_neg (by simp)] at e2
        exact Or.inl ⟨e2.symm, Or.inl rfl⟩
      | true =>
        cases hs : (get v P).isSome with
        | false =>
          rw [hf, hs, Bool.and_false, if_neg (by simp)] at e2
          refine Or.inl ⟨e2.symm, Or.inr fun w hw => ?_⟩
          unfold Edge at hw
          rw [Option.isSome_eq_false_iff, Option.isNone_iff_eq_none] at hs
          rw [hs] at hw
          cases hw
        | true =>
          rw [hf, hs, Bool.and_self, if_pos rfl] at e2
          exact Or.inr ⟨e2.symm, rfl, rfl⟩
    have hsub : ∀ k ∈ todo, k ∈ todo' := by
      intro k hk
      rcases htodo with ⟨e, -⟩ | ⟨e, -⟩
      · rw [e]; exact hk
      · rw [e]; exact (mem_keyAdd v k todo).2 (Or.inr hk)
    have hI : PInv P m0 m' todo' (· = u) := by
      refine ⟨h.same.trans' a1, fun w a ha => hmono w a (h.mono w a ha), fun w a ha => ?_, fun w w' hw => ?_⟩
      · rcases (a3 w a).1 ha with h1 | ⟨rfl, h1, -⟩
        · exact h.sound w a h1
        · rw [hla] at h1
          obtain ⟨u0, hp, hu0⟩ := h.sound u a h1
          exact ⟨u0, hp.tail hev, hu0⟩
      · by_cases hwv : w = v
        · subst hwv
          rcases htodo with ⟨e, hf | hf⟩ | ⟨e, -⟩
          · rcases h.todo w w' hw with h1 | h1 | h1
            · exact Or.inl (hsub w h1)
            · exact Or.inr (Or.inl h1)
            · exact Or.inr (Or.inr fun a ha => hmono w' a (h1 a ((hchange hf w a).1 ha)))
          · exact absurd hw (hf w')
          · exact Or.inl (by rw [e]; exact (mem_keyAdd w w todo).2 (Or.inl rfl))
        · rcases h.todo w w' hw with h1 | h1 | h1
          · exact Or.inl (hsub w h1)
          · exact Or.inr (Or.inl h1)
          · refine Or.inr (Or.inr fun a ha => hmono w' a (h1 a ?_))
            rcases (a3 w a).1 ha with h2 | ⟨h2, -⟩
            · exact h2
            · exact absurd h2 hwv
    have hn' : todo'.Nodup := by
      rcases htodo with ⟨e, -⟩ | ⟨e, -⟩
      · rw [e]; exact hn
      · rw [e]; exact keyAdd_nodup v todo hn
    have hk' : ∀ k ∈ todo', k ∈ P.map Prod.fst := by
      intro k hkm
      rcases htodo with ⟨e, -⟩ | ⟨e, hs, -⟩
      · rw [e] at hkm; exact hk k hkm
      · rw [e, mem_keyAdd] at hkm
        rcases hkm with rfl | hkm
        · obtain ⟨l, hl⟩ := Option.isSome_iff_exists.1 hs
          exact key_of_get hl
        · exact hk k hkm
    obtain ⟨r1, r2, r3, r4, r5, r6, r7⟩ := propFold hP hQ rest m' todo' la hla'.symm (fun w hw => he w (List.mem_cons_of_mem _ hw)) hI hn' hk'
    refine ⟨r1, r2, fun w a ha => r3 w a (hmono w a ha), ?_, r5, r6, ?_⟩
    · intro w hw a ha
      rcases List.mem_cons.1 hw with rfl | hw
      · exact r3 w a ((a3 w a).2 (Or.inr ⟨rfl, ha, hne a ha⟩))
      · exact r4 w hw a ha
    · rcases htodo with ⟨e, -⟩ | ⟨e, -, hf⟩
      · rcases r7 with r7 | r7
        · exact Or.inl (r7.trans e)
        · exact Or.inr (Nat.lt_of_lt_of_le r7 (lacking_mono hmono))
      · right
        obtain ⟨a, ha, hae, hna⟩ := a4.1 hf
        have hq : (v, a) ∈ Q := by
          rw [hla] at ha
          obtain ⟨u0, -, hu0⟩ := h.sound u a ha
          exact hQ u v u0 a hev hu0
        exact lacking_lt (fun w b hb => r3 w b (hmono w b hb)) hq hna (r3 v a ((a3 v a).2 (Or.inr ⟨rfl, ha, hae⟩)))

/-- All that can be missing. -/
def space1 (P : Props) (m0 : Mach) : Finset (Key × Item) :=
  (P.flatMap Prod.snd).toFinset ×ˢ (m0.states.flatMap fun st => st.flatMap Prod.snd).toFinset

theorem mem_space1 {P : Props} {m0 : Mach} (u v w : Key) (a : Item) (he : Edge P u v) (ha : a ∈ laOf m0 w) : (v, a) ∈ space1 P m0 := by
  unfold space1
  rw [Finset.mem_product, List.mem_toFinset, List.mem_toFinset, List.mem_flatMap, List.mem_flatMap]
  constructor
  · unfold Edge at he
    cases hg : get u P with
    | none => rw [hg] at he; cases he
    | some l => rw [hg] at he; exact ⟨_, mem_of_get hg, he⟩
  · unfold laOf at ha
    cases hg : get w.2 (m0.states.getD w.1 []) with
    | none => rw [hg] at ha; cases ha
    | some l =>
      rw [hg] at ha
      refine ⟨m0.states.getD w.1 [], ?_, List.mem_flatMap.2 ⟨_, mem_of_get hg, ha⟩⟩
      rw [List.getD_eq_getElem?_getD] at hg ⊢
      cases hs : m0.states[w.1]? with
      | none => rw [hs] at hg; cases hg
      | some st => exact List.mem_of_getElem? hs

theorem propStepInv {P : Props} {m0 m : Mach} (hP : PropsOk P m0) {u : Key} {todo : List Key} (h : PInv P m0 m (u :: todo) (fun _ => False))
    (hn : (u :: todo).Nodup) (hk : ∀ k ∈ u :: todo, k ∈ P.map Prod.fst) :
    PInv P m0 (((get u P).getD []).foldl (propStep lt P (laOf m u)) (m, todo)).1 (((get u P).getD []).foldl (propStep lt P (laOf m u)) (m, todo)).2 (fun _ => False) ∧
    (((get u P).getD []).foldl (propStep lt P (laOf m u)) (m, todo)).2.Nodup ∧
    (∀ k ∈ (((get u P).getD []).foldl (propStep lt P (laOf m u)) (m, todo)).2, k ∈ P.map Prod.fst) ∧
    (lacking (space1 P m0) (((get u P).getD []).foldl (propStep lt P (laOf m u)) (m, todo)).1).card ≤ (lacking (space1 P m0) m).card ∧
    ((((get u P).getD []).foldl (propStep lt P (laOf m u)) (m, todo)).2 = todo ∨
      (lacking (space1 P m0) (((get u P).getD []).foldl (propStep lt P (laOf m u)) (m, todo)).1).card < (lacking (space1 P m0) m).card) := by
  have h' : PInv P m0 m todo (· = u) := by
    refine ⟨h.same, h.mono, h.sound, fun w w' hw => ?_⟩
    rcases h.todo w w' hw with h1 | h1 | h1
    · rcases List.mem_cons.1 h1 with h1 | h1
      · exact Or.inr (Or.inl h1)
      · exact Or.inl h1
    · exact h1.elim
    · exact Or.inr (Or.inr h1)
  obtain ⟨r1, r2, r3, r4, r5, r6, r7⟩ := propFold hP (lt := lt) (Q := space1 P m0) mem_space1 ((get u P).getD []) m todo _ rfl (fun v hv => hv) h'
    (List.nodup_cons.1 hn).2 (fun k hkm => hk k (List.mem_cons_of_mem _ hkm))
  refine ⟨⟨r1.same, r1.mono, r1.sound, fun w w' hw => ?_⟩, r5, r6, lacking_mono r3, r7⟩
  rcases r1.todo w w' hw with h1 | h1 | h1
  · exact Or.inl h1
  · subst h1
    refine Or.inr (Or.inr fun a ha => ?_)
    rw [r2] at ha
    exact r4 w' hw a ha
  · exact Or.inr (Or.inr h1)

theorem propLoop_spec {P : Props} {m0 : Mach} (hP : PropsOk P m0) : ∀ (fuel : Nat) (m : Mach) (todo : List Key) (res : Mach),
    PInv P m0 m todo (fun _ => False) → todo.Nodup → (∀ k ∈ todo, k ∈ P.map Prod.fst) → propLoop lt P fuel m todo = some res →
    PInv P m0 res [] (fun _ => False)
  | _, m, [], res, h, _, _, hr => by
    have : res = m := by cases ‹Nat› <;> (unfold propLoop at hr; cases hr; rfl)
    rw [this]
    exact h
  | 0, _, _ :: _, _, _, _, _, hr => by cases hr
  | fuel + 1, m, u :: todo, res, h, hn, hk, hr => by
    obtain ⟨r1, r2, r3, -⟩ := propStepInv (lt := lt) hP h hn hk
    unfold propLoop at hr
    exact propLoop_spec hP fuel _ _ res r1 r2 r3 hr

theorem propLoop_total {P : Props} {m0 : Mach} (hP : PropsOk P m0) : ∀ (fuel : Nat) (m : Mach) (todo : List Key),
    PInv P m0 m todo (fun _ => False) → todo.Nodup → (∀ k ∈ todo, k ∈ P.map Prod.fst) →
    (lacking (space1 P m0) m).card * (P.length + 1) + todo.length ≤ fuel → ∃ res, propLoop lt P fuel m todo = some res
  | _, m, [], _, _, _, _ => ⟨m, by cases ‹Nat› <;> rfl⟩
  | 0, _, _ :: _, _, _, _, hf => by rw [List.length_cons] at hf; omega
  | fuel + 1, m, u :: todo, h, hn, hk, hf => by
    obtain ⟨r1, r2, r3, r4, r5⟩ := propStepInv (lt := lt) hP h hn hk
    unfold propLoop
    refine propLoop_total hP fuel _ _ r1 r2 r3 ?_
    rw [List.length_cons] at hf
    have hle : (((get u P).getD []).foldl (propStep lt P (laOf m u)) (m, todo)).2.length ≤ P.length := by
      have := (List.subperm_of_subset r2 r3).length_le
      rwa [List.length_map] at this
    rcases r5 with r5 | r5
    · rw [r5]
      have := Nat.mul_le_mul_right (P.length + 1) r4
      omega
    · have := Nat.mul_le_mul_right (P.length + 1) (Nat.succ_le_of_lt r5)
      rw [Nat.succ_mul] at this
      omega

/-- The items that the loop starts with. -/
theorem mem_start (P : Props) : ∀ (l : List Key) (t : List Key), (∀ k, k ∈ l.foldl (fun l k => keyAdd lt k l) t ↔ k ∈ t ∨ k ∈ l) ∧
    (t.Nodup → (l.foldl (fun l k => keyAdd lt k l) t).Nodup)
  | [], t => by simp
  | x :: l, t => by
    obtain ⟨h1, h2⟩ := mem_start P l (keyAdd lt x t)
    refine ⟨fun k => ?_, fun h => h2 (keyAdd_nodup x t h)⟩
    rw [List.foldl_cons, h1, mem_keyAdd, List.mem_cons]
    tauto

theorem pinv_start {P : Props} (m : Mach) : PInv P m m ((P.map Prod.fst).foldl (fun l k => keyAdd lt k l) []) (fun _ => False) := by
  refine ⟨Same.refl m, fun _ _ h => h, fun v a h => ⟨v, .refl, h⟩, fun u v he => Or.inl ?_⟩
  refine ((mem_start (lt := lt) P (P.map Prod.fst) []).1 u).2 (Or.inr ?_)
  unfold Edge at he
  cases hg : get u P with
  | none => rw [hg] at he; cases he
  | some l => exact key_of_get hg

/-- C52: if the propagation finishes, an item has exactly the lookaheads that were generated for it or for an item that it can be reached from
by propagations. -/
theorem propagation_exact {P : Props} {m m' : Mach} (hP : PropsOk P m) {fuel : Nat}
    (h : propLoop lt P fuel m ((P.map Prod.fst).foldl (fun l k => keyAdd lt k l) []) = some m') :
    Same m m' ∧ ∀ v a, a ∈ laOf m' v ↔ ∃ u, ReflTransGen (Edge P) u v ∧ a ∈ laOf m u := by
  obtain ⟨s1, s2⟩ := mem_start (lt := lt) P (P.map Prod.fst) []
  have hI := propLoop_spec hP fuel _ _ _ (pinv_start m) (s2 List.nodup_nil) (fun k hk => by
    rcases (s1 k).1 hk with h | h
    · cases h
    · exact h) h
  refine ⟨hI.same, fun v a => ⟨hI.sound v a, ?_⟩⟩
  rintro ⟨u, hp, hu⟩
  induction hp with
  | refl => exact hI.mono _ _ hu
  | tail _ he ih =>
    rcases hI.todo _ _ he with h1 | h1 | h1
    · cases h1
    · exact h1.elim
    · exact h1 a ih

/-- C52: the propagation finishes, whatever the graph. -/
theorem propagation_terminates {P : Props} {m : Mach} (hP : PropsOk P m) :
    ∃ fuel m', propLoop lt P fuel m ((P.map Prod.fst).foldl (fun l k => keyAdd lt k l) []) = some m' := by
  obtain ⟨s1, s2⟩ := mem_start (lt := lt) P (P.map Prod.fst) []
  exact ⟨_, propLoop_total hP _ _ _ (pinv_start m) (s2 List.nodup_nil) (fun k hk => by
    rcases (s1 k).1 hk with h | h
    · cases h
    · exact h) (Nat.le_refl _)⟩

end

/-! What is generated by an item -/

section
variable {first : Item → List Item} {g : Gram}

/-- The closure treats each lookahead on its own: a symbol after steps of the closure was there before and can be replaced by any other, or it
is generated whatever was there before. -/
theorem gen_linear {i j : LItem} {o p : Option Item} (h : ReflTransGen (Gen first g) (i, o) (j, p)) :
    (∀ o', ∃ p', ReflTransGen (Gen first g) (i, o') (j, p')) ∧
    ∀ b, p = some b → (o = some b ∧ ∀ c, ReflTransGen (Gen first g) (i, some c) (j, some c)) ∨
      (b ≠ .empty ∧ ∀ o', ReflTransGen (Gen first g) (i, o') (j, some b)) := by
  generalize he : (j, p) = e at h
  induction h generalizing j p with
  | refl =>
    cases he
    exact ⟨fun o' => ⟨o', .refl⟩, fun b hb => Or.inl ⟨hb, fun c => .refl⟩⟩
  | @tail e1 e2 _ hg ih =>
    obtain ⟨k, q⟩ := e1
    obtain ⟨i1, i2⟩ := ih rfl
    cases hg with
    | item hx hr =>
      cases he
      refine ⟨fun o' => ?_, fun b hb => by cases hb⟩
      obtain ⟨p', hp'⟩ := i1 o'
      exact ⟨none, hp'.tail (.item hx hr)⟩
    | first hx hr hb =>
      cases he
      refine ⟨fun o' => ?_, fun b' hb' => ?_⟩
      · obtain ⟨p', hp'⟩ := i1 o'
        exact ⟨none, hp'.tail (.item hx hr)⟩
      · cases hb'
        refine Or.inr ⟨?_, fun o' => ?_⟩
        · obtain ⟨-, -, -, -, -, -, hne⟩ := hb
          exact hne
        · obtain ⟨p', hp'⟩ := i1 o'
          exact hp'.tail (.first hx hr hb)
    | pass hx hr hn =>
      cases he
      refine ⟨fun o' => ?_, fun b' hb' => ?_⟩
      · obtain ⟨p', hp'⟩ := i1 o'
        exact ⟨none, hp'.tail (.item hx hr)⟩
      · cases hb'
        rcases i2 _ rfl with ⟨h1, h2⟩ | ⟨h1, h2⟩
        · exact Or.inl ⟨h1, fun c => (h2 c).tail (.pass hx hr hn)⟩
        · exact Or.inr ⟨h1, fun o' => (h2 o').tail (.pass hx hr hn)⟩

theorem gen_none_path {i j : LItem} (h : ReflTransGen (Step0 g) i j) : ReflTransGen (Gen first g) (i, none) (j, none) := by
  induction h with
  | refl => exact .refl
  | tail _ hs ih =>
    obtain ⟨x, r, hx, hr, rfl⟩ := hs
    exact ih.tail (.item hx hr)

theorem gen_step_path {e e' : Elem} (h : ReflTransGen (Gen first g) e e') : ReflTransGen (Step0 g) e.1 e'.1 := by
  induction h with
  | refl => exact .refl
  | tail _ hs ih =>
    cases hs with
    | item hx hr => exact ih.tail ⟨_, _, hx, hr, rfl⟩
    | first hx hr hb => exact ih.tail ⟨_, _, hx, hr, rfl⟩
    | pass hx hr hn => exact ih.tail ⟨_, _, hx, hr, rfl⟩

/-- What is known of the sets `self`. -/
def SelfOk (first : Item → List Item) (g : Gram) (okI : Item → Prop) (self : LItem → Set1) : Prop :=
  ∀ i, i.dot < i.rule.items.length → (∀ y ∈ i.rule.items, okI y) → ∀ j o, In (self i) (j, o) ↔
    (∃ p, (∀ a, p = some a → a = .empty) ∧ ReflTransGen (Gen first g) (i, p) (j, o))

variable {okI : Item → Prop}

/-- The sets are those that `cache_closure` makes when it is given the set with just the item. -/
theorem selfOk_cache (hp : Proper first g okI) {self : LItem → Set1}
    (h : ∀ i, i.dot < i.rule.items.length → (∀ y ∈ i.rule.items, okI y) → ∃ caching fuel cache st', CacheOk first g cache ∧
      cacheClosure first caching g fuel [] i [.empty] ⟨cache, [(i, [.empty])]⟩ = some st' ∧ self i = st'.set) : SelfOk first g okI self := by
  intro i hd hok j o
  obtain ⟨caching, fuel, cache, st', hc, h1, h2⟩ := h i hd hok
  rw [h2]
  have post := cacheClosure_post hp caching fuel [] i [.empty] _ _ hok hc h1
  have hin : ∀ e, In [(i, [Item.empty])] e ↔ Of i [.empty] e := by
    intro e
    constructor
    · rintro ⟨la, hm, ha⟩
      rw [List.mem_singleton] at hm
      injection hm with e1 e2
      subst e2
      exact ⟨e1, ha⟩
    · rintro ⟨e1, ha⟩
      exact ⟨[.empty], by rw [e1]; exact List.mem_singleton.2 rfl, ha⟩
  constructor
  · intro he
    rcases post.sound _ he with h | ⟨e0, ⟨h3, h4⟩, ht⟩
    · obtain ⟨h3, h4⟩ := (hin _).1 h
      dsimp only at h3 h4
      subst h3
      exact ⟨o, fun a ha => List.mem_singleton.1 (h4 a ha), .refl⟩
    · obtain ⟨i', p⟩ := e0
      dsimp only at h3 h4
      subst h3
      exact ⟨p, fun a ha => List.mem_singleton.1 (h4 a ha), ht.to_reflTransGen⟩
  · rintro ⟨p, hpe, ht⟩
    have hof : Of i [.empty] (i, p) := ⟨rfl, fun a ha => by rw [hpe a ha]; exact List.mem_singleton.2 rfl⟩
    generalize (j, o) = e at ht
    induction ht with
    | refl => exact post.mono _ ((hin _).2 hof)
    | @tail e1 e2 _ hg ih =>
      by_cases he1 : In [(i, [Item.empty])] e1
      · exact post.direct _ _ ((hin _).1 he1) hg
      · exact post.closed _ ih he1 _ hg

end

/-! The lookaheads that the states start with -/

/-- The lookahead that an item is added with. -/
def la0 (i : LItem) : List Item :=
  match i.dot, i.rule.nonterminal with
  | 0, .empty => [.eoi]
  | 0, .guard _ _ => [.eog]
  | _, _ => []

/-- All items have the lookahead they were added with. -/
def Plain (m : Mach) : Prop := ∀ st ∈ m.states, ∀ p ∈ st, p.2 = la0 p.1

theorem addState_plain {m : Mach} (h : Plain m) {s : Set1} (hs : ∀ p ∈ s, p.2 = la0 p.1) : Plain (addState m s).1 := by
  unfold addState
  cases m.states.findIdx? (fun t => decide (t.map Prod.fst = s.map Prod.fst)) with
  | some k => exact h
  | none =>
    intro st hst
    rcases List.mem_append.1 hst with h' | h'
    · exact h st h'
    · rw [List.mem_singleton.1 h']; exact hs

theorem addTransition_plain {m : Mach} (h : Plain m) (s : Nat) (x : Item) (t : Nat) : Plain (addTransition m s x t) := by
  unfold addTransition
  by_cases ht : t < m.states.length
  · rw [if_pos ht]; exact h
  · rw [if_neg ht]; exact h

theorem addGuard_plain {m : Mach} (h : Plain m) (p : Int) (l : List Item) (queue : List Nat) : Plain (addGuard ⟨.guard p l, l⟩ m queue).1 := by
  unfold addGuard
  cases get (⟨.guard p l, l⟩ : Rule) m.guards with
  | some k => exact h
  | none =>
    have := addState_plain h (s := [((⟨⟨.guard p l, l⟩, 0⟩ : LItem), [Item.eog])]) (fun q hq => by rw [List.mem_singleton.1 hq]; rfl)
    exact this

/-- The new states have only items with the dot moved. -/
def NewsPlain (n : List (Item × List LItem)) : Prop := ∀ p ∈ n, ∀ i ∈ p.2, la0 i = []

theorem la0_adv (i : LItem) : la0 (adv i) = [] := rfl

theorem newAdd_plain (x : Item) (i : LItem) : ∀ n, NewsPlain n → NewsPlain (newAdd x (adv i) n)
  | [], _ => by
    intro p hp j hj
    rw [show p = (x, [adv i]) from List.mem_singleton.1 hp] at hj
    rw [List.mem_singleton.1 hj]; rfl
  | (y, l) :: n, h => by
    have h1 : NewsPlain n := fun p hp => h p (List.mem_cons_of_mem _ hp)
    have h2 := h (y, l) (List.mem_cons_self ..)
    dsimp only at h2
    unfold newAdd
    cases Item.cmp x y with
    | lt =>
      intro p hp j hj
      rcases List.mem_cons.1 hp with rfl | hp
      · rw [List.mem_singleton.1 hj]; rfl
      · exact h p hp j hj
    | eq =>
      intro p hp j hj
      rcases List.mem_cons.1 hp with rfl | hp
      · dsimp only at hj
        unfold stateAdd at hj
        by_cases hm : adv i ∈ l
        · rw [if_pos hm] at hj; exact h2 j hj
        · rw [if_neg hm] at hj
          rcases List.mem_append.1 hj with hj | hj
          · exact h2 j hj
          · rw [List.mem_singleton.1 hj]; rfl
      · exact h1 p hp j hj
    | gt =>
      intro p hp j hj
      rcases List.mem_cons.1 hp with rfl | hp
      · exact h2 j hj
      · exact newAdd_plain x i n h1 p hp j hj

theorem scanItem_plain {p : Mach × List Nat × List (Item × List LItem)} (h : Plain p.1) (hn : NewsPlain p.2.2) (i : LItem) :
    Plain (scanItem p i).1 ∧ NewsPlain (scanItem p i).2.2 := by
  unfold scanItem
  cases i.rule.items[i.dot]? with
  | none => exact ⟨h, hn⟩
  | some x =>
    cases x with
    | empty => exact ⟨h, hn⟩
    | guard pr l => exact ⟨addGuard_plain h pr l _, newAdd_plain _ i _ hn⟩
    | eoi => exact ⟨h, newAdd_plain _ i _ hn⟩
    | eog => exact ⟨h, newAdd_plain _ i _ hn⟩
    | terminal n => exact ⟨h, newAdd_plain _ i _ hn⟩
    | nonterminal n => exact ⟨h, newAdd_plain _ i _ hn⟩
    | ebnf k rs => exact ⟨h, newAdd_plain _ i _ hn⟩

theorem scan_plain : ∀ (l : List LItem) (p : Mach × List Nat × List (Item × List LItem)), Plain p.1 → NewsPlain p.2.2 →
    Plain (l.foldl scanItem p).1 ∧ NewsPlain (l.foldl scanItem p).2.2
  | [], _, h, hn => ⟨h, hn⟩
  | i :: l, p, h, hn => scan_plain l _ (scanItem_plain h hn i).1 (scanItem_plain h hn i).2

theorem addTarget_plain {w : Work} (h : Plain w.m) (s : Nat) (n : Item × List LItem) (hn : ∀ i ∈ n.2, la0 i = []) : Plain (addTarget s w n).m := by
  have h1 := addTransition_plain (addState_plain h (s := n.2.map fun i => (i, ([] : List Item))) (fun p hp => by
    obtain ⟨i, hi, rfl⟩ := List.mem_map.1 hp
    exact (hn i hi).symm)) s n.1 (addState w.m (n.2.map fun i => (i, []))).2
  unfold addTarget
  dsimp only
  by_cases hm : w.max ≤ (addState w.m (n.2.map fun i => (i, []))).2
  · rw [if_pos hm]; exact h1
  · rw [if_neg hm]; exact h1

theorem targets_plain (s : Nat) : ∀ (news : List (Item × List LItem)) (w : Work), Plain w.m → NewsPlain news → Plain (news.foldl (addTarget s) w).m
  | [], _, h, _ => h
  | n :: news, w, h, hn => targets_plain s news _ (addTarget_plain h s n (hn n (List.mem_cons_self ..))) (fun p hp => hn p (List.mem_cons_of_mem _ hp))

section
variable {first : Item → List Item} {g : Gram} {okI : Item → Prop} {okR : Rule → Prop} {rid : Rule → Nat} {clos : LItem → List Item → Set1}

theorem buildLoop_plain {cf : Nat} : ∀ (fuel : Nat) (w : Work) (res : Mach), Plain w.m → buildLoop rid clos cf fuel w = some res → Plain res
  | 0, ⟨m, mx, []⟩, res, h, hr => by cases hr; exact h
  | 0, ⟨m, mx, _ :: _⟩, res, h, hr => by cases hr
  | fuel + 1, ⟨m, mx, []⟩, res, h, hr => by cases hr; exact h
  | fuel + 1, ⟨m, mx, s :: queue⟩, res, h, hr => by
    unfold buildLoop at hr
    cases hp : processState rid clos cf s ⟨m, mx, queue⟩ with
    | none => rw [hp] at hr; cases hr
    | some w' =>
      rw [hp] at hr
      refine buildLoop_plain fuel w' res ?_ hr
      unfold processState at hp
      dsimp only at hp
      cases hs : m.states[s]? with
      | none => rw [hs] at hp; cases hp
      | some st =>
        rw [hs] at hp
        dsimp only at hp
        cases hcl : createClosure rid clos cf st with
        | none => rw [hcl] at hp; cases hp
        | some cl =>
          rw [hcl] at hp
          dsimp only at hp
          obtain ⟨h1, h2⟩ := scan_plain cl (m, queue, []) h (fun p hp => by cases hp)
          cases hp
          exact targets_plain s _ _ h1 h2

theorem initials_plain : ∀ (languages : List Item) (m : Mach), Plain m → Plain (languages.foldl (fun m l => (addInitial m l).1) m)
  | [], _, h => h
  | l :: ls, m, h => initials_plain ls _ (addState_plain h (fun p hp => by rw [List.mem_singleton.1 hp]; rfl))

theorem completeStates_plain {cf fuel : Nat} {languages : List Item} {m : Mach} (h : completeStates rid clos cf fuel (initials languages) = some m) : Plain m :=
  buildLoop_plain fuel _ m (initials_plain languages _ (fun st hst => by cases hst)) h

theorem laOf_item {m : Mach} {k : Key} {a : Item} (h : a ∈ laOf m k) : k.1 < m.states.length ∧ k.2 ∈ kern m k.1 := by
  unfold laOf at h
  cases hg : get k.2 (m.states.getD k.1 []) with
  | none => rw [hg] at h; cases h
  | some old =>
    refine ⟨?_, key_of_get hg⟩
    by_cases hk : k.1 < m.states.length
    · exact hk
    · rw [List.getD_eq_getElem?_getD, List.getElem?_eq_none (by omega)] at hg
      cases hg

theorem Plain.la {m : Mach} (h : Plain m) {k : Key} (hk : k.2 ∈ kern m k.1) : laOf m k = la0 k.2 := by
  obtain ⟨o, ho⟩ := get_of_key (show k.2 ∈ (m.states.getD k.1 []).map Prod.fst from hk)
  unfold laOf
  rw [ho]
  have hmem : m.states.getD k.1 [] ∈ m.states := by
    rw [List.getD_eq_getElem?_getD] at ho ⊢
    cases hs : m.states[k.1]? with
    | none => rw [hs] at ho; cases ho
    | some st => exact List.mem_of_getElem? hs
  exact h _ hmem _ (mem_of_get ho)

theorem empty_not_la0 (i : LItem) : Item.empty ∉ la0 i := by
  unfold la0
  split <;> simp

/-! The lookaheads -/

/-- The LR(1) items of the automaton: those of the initial states have the end of input after them, those of the states for guards the end of
the guard, and the others come from the closure of a state that leads to theirs. -/
inductive Lr1 (first : Item → List Item) (g : Gram) (m : Mach) (n0 : Nat) : Nat → Elem → Prop
  | start {k : Nat} {l : Item} {o : Option Item} (hk : k < n0) (hl : kern m k = [startItem l]) (ho : ∀ a, o = some a → a = .eoi) :
      Lr1 first g m n0 k (startItem l, o)
  | guard {k : Nat} {p : Int} {l : List Item} {o : Option Item} (hk : get ⟨.guard p l, l⟩ m.guards = some k) (ho : ∀ a, o = some a → a = .eog) :
      Lr1 first g m n0 k (⟨⟨.guard p l, l⟩, 0⟩, o)
  | goto {s t : Nat} {x : Item} {e : Elem} {i : LItem} {o : Option Item} (hs : Lr1 first g m n0 s e) (hc : ReflTransGen (Gen first g) e (i, o))
      (hx : i.rule.items[i.dot]? = some x) (ht : tr m s x = some t) : Lr1 first g m n0 t (adv i, o)

theorem completeStates_inv (hr : Function.Injective rid) (hU : Univ first g okI okR) (hc : ClosOk first g okI clos) {languages : List Item}
    (hl : ∀ l ∈ languages, okR ⟨.empty, [l]⟩) {cf fuel : Nat} {m : Mach} (h : completeStates rid clos cf fuel (initials languages) = some m) :
    Inv rid g okR m ∧ (∀ s < m.states.length, Reached g m (initials languages).states.length s) ∧
    (∀ k < (initials languages).states.length, k < m.states.length ∧ ∃ l ∈ languages, kern m k = [startItem l]) := by
  obtain ⟨hw, -⟩ := buildLoop_spec hr hU hc fuel _ m (initials_work hl) h
  obtain ⟨-, h2, -⟩ := lr0_states_exact hr hU hc hl h
  exact ⟨hw.inv, hw.reach, h2⟩

/-- Every item of every state is an LR(1) item of it. -/
theorem lr1_of_kern {m : Mach} {n0 : Nat} (hi : Inv rid g okR m) (h0 : ∀ k < n0, ∃ l, kern m k = [startItem l]) {s : Nat} (hs : Reached g m n0 s) :
    ∀ i ∈ kern m s, Lr1 first g m n0 s (i, none) := by
  induction hs with
  | @initial s h =>
    intro i him
    obtain ⟨l, hl⟩ := h0 s h
    rw [hl] at him
    rw [List.mem_singleton.1 him]
    exact .start h hl (by simp)
  | @guard s k p l i hs hci hx hk ih =>
    intro j hj
    obtain ⟨-, h2, -⟩ := hi.guards _ _ hk
    rw [h2] at hj
    rw [List.mem_singleton.1 hj]
    exact .guard hk (by simp)
  | @step s t x hs ht ih =>
    intro j hj
    obtain ⟨-, -, -, -, h3⟩ := hi.trans s x t ht
    obtain ⟨i, ⟨k, hk, hp⟩, hx, rfl⟩ := (h3 j).1 hj
    exact .goto (ih k hk) (gen_none_path hp) hx ht

theorem gen_at_end {e e' : Elem} (hd : e.1.rule.items.length ≤ e.1.dot) (h : ReflTransGen (Gen first g) e e') : e' = e := by
  have hn : e.1.rule.items[e.1.dot]? = none := List.getElem?_eq_none hd
  rcases ReflTransGen.cases_head h with h | ⟨e1, hg, -⟩
  · exact h.symm
  · exfalso
    cases hg with
    | item hx hr => dsimp only at hn; rw [hx] at hn; cases hn
    | first hx hr hb => dsimp only at hn; rw [hx] at hn; cases hn
    | pass hx hr hnl => dsimp only at hn; rw [hx] at hn; cases hn

variable {lt : Key → Key → Bool} {self : LItem → Set1}

theorem spontaneous_props {m : Mach} (hpl : Plain m) : PropsOk (spontaneous lt self m).2 (spontaneous lt self m).1 := by
  obtain ⟨h1, h2, h3⟩ := spontaneous_spec (lt := lt) (self := self) m
  refine ⟨fun u v he => ?_, fun v he => ?_⟩
  · obtain ⟨c, -, -, ⟨x, t, -, -, rfl, hk⟩, -⟩ := (h3 u v).1 he
    rw [h1.kern]
    exact hk
  · rcases (h2 v _).1 he with h | ⟨-, -, -, -, -, -, h⟩
    · have := laOf_item h
      rw [hpl.la this.2] at h
      exact empty_not_la0 _ h
    · exact h rfl

/-- C52: the computation of the lookaheads finishes. -/
theorem lookaheads_terminate {cf fuel : Nat} {languages : List Item} {m : Mach} (h : completeStates rid clos cf fuel (initials languages) = some m) :
    ∃ fuel' m', completeLookaheads lt self fuel' m = some m' :=
  propagation_terminates (spontaneous_props (completeStates_plain h))

/-- C52: if the construction finishes, the states have exactly the items of the LR(1) items, and each item has exactly the lookaheads of its
LR(1) items. -/
theorem lookaheads_exact (hr : Function.Injective rid) (hU : Univ first g okI okR) (hc : ClosOk first g okI clos) (hself : SelfOk first g okI self)
    {languages : List Item} (hl : ∀ l ∈ languages, okR ⟨.empty, [l]⟩) {cf fuel fuel' : Nat} {m m' : Mach}
    (h : completeStates rid clos cf fuel (initials languages) = some m) (h' : completeLookaheads lt self fuel' m = some m') :
    Same m m' ∧
    (∀ s i, s < m.states.length → (i ∈ kern m s ↔ Lr1 first g m (initials languages).states.length s (i, none))) ∧
    ∀ s i a, a ∈ laOf m' (s, i) ↔ Lr1 first g m (initials languages).states.length s (i, some a) := by
  obtain ⟨hi, hreach, h0⟩ := completeStates_inv hr hU hc hl h
  have hpl := completeStates_plain h
  obtain ⟨s1, s2, s3⟩ := spontaneous_spec (lt := lt) (self := self) m
  obtain ⟨p1, p2⟩ := propagation_exact (spontaneous_props hpl) h'
  have hnone : ∀ s < m.states.length, ∀ i ∈ kern m s, Lr1 first g m (initials languages).states.length s (i, none) := fun s hs =>
    lr1_of_kern hi (fun k hk => by obtain ⟨-, l, -, hl⟩ := h0 k hk; exact ⟨l, hl⟩) (hreach s hs)
  have hok : ∀ s < m.states.length, ∀ i ∈ kern m s, ∀ y ∈ i.rule.items, okI y := fun s hs i him => hU.items _ (hi.good s hs i him).1
  -- from the lookaheads to LR(1) items
  have hstart : ∀ u a, a ∈ laOf m u → Lr1 first g m (initials languages).states.length u.1 (u.2, some a) := by
    intro u a ha
    obtain ⟨hu, huk⟩ := laOf_item ha
    rw [hpl.la huk] at ha
    cases hreach u.1 hu with
    | initial hlt =>
      obtain ⟨-, l, -, hkl⟩ := h0 _ hlt
      rw [hkl] at huk
      rw [List.mem_singleton.1 huk] at ha ⊢
      exact .start hlt hkl (fun b hb => by cases hb; exact List.mem_singleton.1 ha)
    | guard hs hci hx hk =>
      obtain ⟨-, h2, -⟩ := hi.guards _ _ hk
      rw [h2] at huk
      rw [List.mem_singleton.1 huk] at ha ⊢
      exact .guard hk (fun b hb => by cases hb; exact List.mem_singleton.1 ha)
    | @step s t x hs ht =>
      obtain ⟨-, -, -, -, h3⟩ := hi.trans s x _ ht
      obtain ⟨i, -, -, hj⟩ := (h3 _).1 huk
      rw [hj] at ha
      cases ha
  have hspont : ∀ u a, a ∈ laOf (spontaneous lt self m).1 u → Lr1 first g m (initials languages).states.length u.1 (u.2, some a) := by
    intro u a ha
    rcases (s2 u a).1 ha with ha | ⟨w, c, ⟨hw1, hw2, hw3⟩, hcs, ⟨x, t, hx, ht, rfl, -⟩, hac, hae⟩
    · exact hstart u a ha
    · have hin : In (self w.2) (c.1, some a) := ⟨c.2, hcs, fun b hb => by cases hb; exact hac⟩
      obtain ⟨p, hpe, hpath⟩ := (hself w.2 hw3 (hok _ hw1 _ hw2) _ _).1 hin
      rcases (gen_linear hpath).2 a rfl with ⟨h1, -⟩ | ⟨-, h2⟩
      · exact absurd (hpe a h1) hae
      · exact .goto (hnone _ hw1 _ hw2) (h2 none) hx ht
  have hsound : ∀ v a, a ∈ laOf m' v → Lr1 first g m (initials languages).states.length v.1 (v.2, some a) := by
    intro v a ha
    obtain ⟨u, hpath, hu⟩ := (p2 v a).1 ha
    have hu' := hspont u a hu
    clear ha hu
    induction hpath with
    | refl => exact hu'
    | tail _ he ih =>
      obtain ⟨c, ⟨hw1, hw2, hw3⟩, hcs, ⟨x, t, hx, ht, rfl, -⟩, hac⟩ := (s3 _ _).1 he
      have hin : In (self _) (c.1, some .empty) := ⟨c.2, hcs, fun b hb => by cases hb; exact hac⟩
      obtain ⟨p, -, hp⟩ := (hself _ hw3 (hok _ hw1 _ hw2) _ _).1 hin
      rcases (gen_linear hp).2 _ rfl with ⟨-, h2⟩ | ⟨h1, -⟩
      · exact .goto ih (h2 a) hx ht
      · exact absurd rfl h1
  -- and back
  have hcomplete : ∀ s e, Lr1 first g m (initials languages).states.length s e → s < m.states.length ∧ e.1 ∈ kern m s ∧ ∀ a, e.2 = some a → a ∈ laOf m' (s, e.1) := by
    have hup : ∀ k a, a ∈ laOf m k → a ∈ laOf m' k := fun k a ha => (p2 k a).2 ⟨k, .refl, (s2 k a).2 (Or.inl ha)⟩
    intro s e he
    induction he with
    | @start k l o hk hkl ho =>
      have hm : startItem l ∈ kern m k := by rw [hkl]; exact List.mem_singleton.2 rfl
      refine ⟨(h0 k hk).1, hm, fun a ha => hup _ _ ?_⟩
      rw [ho a ha, hpl.la (k := (k, startItem l)) hm]
      exact List.mem_singleton.2 rfl
    | @guard k p l o hk ho =>
      obtain ⟨h1, h2, -⟩ := hi.guards _ _ hk
      have hm : (⟨⟨.guard p l, l⟩, 0⟩ : LItem) ∈ kern m k := by rw [h2]; exact List.mem_singleton.2 rfl
      refine ⟨h1, hm, fun a ha => hup _ _ ?_⟩
      rw [ho a ha, hpl.la (k := (k, ⟨⟨.guard p l, l⟩, 0⟩)) hm]
      exact List.mem_singleton.2 rfl
    | @goto s t x e i o hs hce hx ht ih =>
      obtain ⟨k, p⟩ := e
      obtain ⟨i1, i2, i3⟩ := ih
      obtain ⟨-, t1, -, -, t2⟩ := hi.trans s x t ht
      have hkt : adv i ∈ kern m t := (t2 _).2 ⟨i, ⟨k, i2, gen_step_path hce⟩, hx, rfl⟩
      refine ⟨t1, hkt, ?_⟩
      intro a ha
      dsimp only at ha i2 i3
      subst ha
      have hd : k.dot < k.rule.items.length := by
        by_contra hd
        have := gen_at_end (e := (k, p)) (by dsimp only; omega) hce
        cases this
        rw [List.getElem?_eq_none (by omega)] at hx
        cases hx
      have hsrc : Source m (s, k) := ⟨i1, i2, hd⟩
      have hhit : Hit m s i (t, adv i) := ⟨x, t, hx, ht, rfl, hkt⟩
      rcases (gen_linear hce).2 a rfl with ⟨h1, h2⟩ | ⟨h1, h2⟩
      · obtain ⟨la, hla, ha⟩ := (hself k hd (hok s i1 k i2) i (some .empty)).2 ⟨some .empty, fun b hb => by cases hb; rfl, h2 .empty⟩
        obtain ⟨u, hpath, hu⟩ := (p2 (s, k) a).1 (i3 a h1)
        exact (p2 (t, adv i) a).2 ⟨u, hpath.tail ((s3 (s, k) (t, adv i)).2 ⟨(i, la), hsrc, hla, hhit, ha _ rfl⟩), hu⟩
      · obtain ⟨la, hla, ha⟩ := (hself k hd (hok s i1 k i2) i (some a)).2 ⟨none, by simp, h2 none⟩
        exact (p2 (t, adv i) a).2 ⟨(t, adv i), .refl, (s2 _ _).2 (Or.inr ⟨(s, k), (i, la), hsrc, hla, hhit, ha _ rfl, h1⟩)⟩
  refine ⟨s1.trans' p1, fun s i hs => ⟨hnone s hs i, fun h => (hcomplete s _ h).2.1⟩, fun s i a => ⟨hsound (s, i) a, fun h => (hcomplete s _ h).2.2 a rfl⟩⟩

end
/-! Example -/

/-- `S → L = R | R`, `L → * R | id`, `R → L`. -/
def pointerGram : Gram := ⟨fun n =>
  if n = 1 then [[.nonterminal 2, .terminal 1, .nonterminal 3], [.nonterminal 3]]
  else if n = 2 then [[.terminal 2, .nonterminal 3], [.terminal 3]]
  else if n = 3 then [[.nonterminal 2]] else []⟩

def pointerFirst : Item → List Item
  | .nonterminal 1 => [.nonterminal 1, .nonterminal 2, .nonterminal 3, .terminal 2, .terminal 3]
  | .nonterminal 2 => [.nonterminal 2, .terminal 2, .terminal 3]
  | .nonterminal 3 => [.nonterminal 3, .nonterminal 2, .terminal 2, .terminal 3]
  | x => [x]

def pointerRules : List Rule := [⟨.empty, [.nonterminal 1]⟩, ⟨.nonterminal 1, [.nonterminal 2, .terminal 1, .nonterminal 3]⟩, ⟨.nonterminal 1, [.nonterminal 3]⟩,
  ⟨.nonterminal 2, [.terminal 2, .nonterminal 3]⟩, ⟨.nonterminal 2, [.terminal 3]⟩, ⟨.nonterminal 3, [.nonterminal 2]⟩]

def pointerRid (r : Rule) : Nat := pointerRules.findIdx (· = r)

def pointerClos (i : LItem) (la : List Item) : Set1 := ((cacheClosure pointerFirst shared pointerGram 40 [] i la ⟨[], []⟩).map (·.set)).getD []

def pointerSelf (i : LItem) : Set1 := ((cacheClosure pointerFirst shared pointerGram 40 [] i [.empty] ⟨[], [(i, [.empty])]⟩).map (·.set)).getD []

/-- The order of states and items. -/
def keyLt (a b : Key) : Bool := decide (a.1 < b.1) || (decide (a.1 = b.1) && ltI pointerRid a.2 b.2)

/-- In the state after `L` the item `R → L ·` has just the end of input in its lookahead and not `=`; elsewhere it has both. -/
example : ((completeStates pointerRid pointerClos 40 40 (initials [.nonterminal 1])).bind (completeLookaheads keyLt pointerSelf 100)).map
    (fun m => m.states.map fun st => st.map fun p => (pointerRid p.1.rule, p.1.dot, p.2)) = some
    [[(0, 0, [.eoi])], [(3, 1, [.terminal 1, .eoi])], [(4, 1, [.terminal 1, .eoi])], [(0, 1, [.eoi])], [(1, 1, [.eoi]), (5, 1, [.eoi])], [(2, 1, [.eoi])],
      [(5, 1, [.terminal 1, .eoi])], [(3, 2, [.terminal 1, .eoi])], [(1, 2, [.eoi])], [(1, 3, [.eoi])]] := by
  decide +kernel

end Lalr
end TameParse

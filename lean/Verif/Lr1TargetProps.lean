import Verif.Lr1Targets
import Verif.LookaheadProps
import Verif.RewritersProps

/-!
# C89: the conflicts that the LR(1) resolver gives up
-/

namespace TameParse
namespace Lalr
open AssocMap Closure Relation

section
variable {R : List Record} {P : Props} {m : Mach} {a : Item}

/-- An item gets the symbol from another one. -/
def Fed (P : Props) (m : Mach) (a : Item) (v u : Key) : Prop := a ∈ laOf m u ∧ ∃ l, (u, l) ∈ P ∧ v ∈ l

/-- An item makes the symbol for another one. -/
def Gave (R : List Record) (a : Item) (v u : Key) : Prop := ∃ r ∈ R, r.source = u ∧ r.target = v ∧ a ∈ r.la

theorem mem_feeders {u v : Key} : u ∈ feeders P m a v ↔ Fed P m a v u := by
  simp only [feeders, Fed, List.mem_map, List.mem_filter, Bool.and_eq_true, decide_eq_true_eq]
  constructor
  · rintro ⟨⟨x, l⟩, ⟨h1, h2, h3⟩, rfl⟩
    exact ⟨h2, l, h1, h3⟩
  · rintro ⟨h2, l, h1, h3⟩
    exact ⟨(u, l), ⟨h1, h2, h3⟩, rfl⟩

theorem mem_generators {u v : Key} : u ∈ generators R a v ↔ Gave R a v u := by
  simp only [generators, Gave, List.mem_map, List.mem_filter, Bool.and_eq_true, decide_eq_true_eq]
  constructor
  · rintro ⟨r, ⟨h1, h2, h3⟩, rfl⟩
    exact ⟨r, h1, rfl, h2, h3⟩
  · rintro ⟨r, h1, rfl, h2, h3⟩
    exact ⟨r, ⟨h1, h2, h3⟩, rfl⟩

theorem findLoop_spec (v0 : Key) : ∀ (fuel : Nat) (visited todo found res : List Key),
    (∀ v ∈ visited, ReflTransGen (Fed P m a) v0 v) → (∀ v ∈ todo, ReflTransGen (Fed P m a) v0 v) → (v0 ∈ visited ∨ v0 ∈ todo) →
    (∀ v ∈ visited, ∀ u, Fed P m a v u → u ∈ visited ∨ u ∈ todo) →
    (∀ u, u ∈ found ↔ ∃ v ∈ visited, Gave R a v u ∨ Fed P m a v u) →
    findLoop R P m a fuel visited todo found = some res →
    ∀ u, u ∈ res ↔ ∃ v, ReflTransGen (Fed P m a) v0 v ∧ (Gave R a v u ∨ Fed P m a v u) := by
  intro fuel
  have done : ∀ (visited found res : List Key),
      (∀ v ∈ visited, ReflTransGen (Fed P m a) v0 v) → (v0 ∈ visited ∨ v0 ∈ ([] : List Key)) →
      (∀ v ∈ visited, ∀ u, Fed P m a v u → u ∈ visited ∨ u ∈ ([] : List Key)) →
      (∀ u, u ∈ found ↔ ∃ v ∈ visited, Gave R a v u ∨ Fed P m a v u) → some found = some res →
      ∀ u, u ∈ res ↔ ∃ v, ReflTransGen (Fed P m a) v0 v ∧ (Gave R a v u ∨ Fed P m a v u) := by
    intro visited found res h1 h3 h4 h5 h u
    cases h
    have hall : ∀ v, ReflTransGen (Fed P m a) v0 v → v ∈ visited := by
      intro v hv
      induction hv with
      | refl => exact h3.resolve_right (by simp)
      | tail _ he ih => exact (h4 _ ih _ he).resolve_right (by simp)
    rw [h5]
    exact ⟨fun ⟨v, hv, h⟩ => ⟨v, h1 v hv, h⟩, fun ⟨v, hv, h⟩ => ⟨v, hall v hv, h⟩⟩
  induction fuel with
  | zero =>
    intro visited todo found res h1 h2 h3 h4 h5 h
    cases todo with
    | nil => exact done visited found res h1 h3 h4 h5 h
    | cons v todo => exact nomatch h
  | succ fuel ih =>
    intro visited todo found res h1 h2 h3 h4 h5 h
    cases todo with
    | nil => exact done visited found res h1 h3 h4 h5 h
    | cons v todo =>
      simp only [findLoop] at h
      split at h
      · rename_i hv
        refine ih visited todo found res h1 (fun x hx => h2 x (List.mem_cons_of_mem _ hx)) ?_ ?_ h5 h
        · rcases h3 with h3 | h3
          · exact .inl h3
          · rcases List.mem_cons.1 h3 with rfl | h3
            · exact .inl hv
            · exact .inr h3
        · intro x hx u hu
          rcases h4 x hx u hu with h | h
          · exact .inl h
          · rcases List.mem_cons.1 h with rfl | h
            · exact .inl hv
            · exact .inr h
      · rename_i hv
        refine ih (v :: visited) (todo ++ feeders P m a v) _ res ?_ ?_ ?_ ?_ ?_ h
        · intro x hx
          rcases List.mem_cons.1 hx with rfl | hx
          · exact h2 _ List.mem_cons_self
          · exact h1 x hx
        · intro x hx
          rcases List.mem_append.1 hx with hx | hx
          · exact h2 x (List.mem_cons_of_mem _ hx)
          · exact (h2 v List.mem_cons_self).tail (mem_feeders.1 hx)
        · rcases h3 with h3 | h3
          · exact .inl (List.mem_cons_of_mem _ h3)
          · rcases List.mem_cons.1 h3 with rfl | h3
            · exact .inl List.mem_cons_self
            · exact .inr (List.mem_append_left _ h3)
        · intro x hx u hu
          rcases List.mem_cons.1 hx with rfl | hx
          · exact .inr (List.mem_append_right _ (mem_feeders.2 hu))
          · rcases h4 x hx u hu with h | h
            · exact .inl (List.mem_cons_of_mem _ h)
            · rcases List.mem_cons.1 h with rfl | h
              · exact .inl List.mem_cons_self
              · exact .inr (List.mem_append_left _ h)
        · intro u
          simp only [List.mem_append, h5, mem_generators, mem_feeders, List.mem_cons]
          constructor
          · rintro ((⟨x, hx, h⟩ | h) | h)
            · exact ⟨x, .inr hx, h⟩
            · exact ⟨v, .inl rfl, .inl h⟩
            · exact ⟨v, .inl rfl, .inr h⟩
          · rintro ⟨x, rfl | hx, hg⟩
            · rcases hg with hg | hg
              · exact .inl (.inr hg)
              · exact .inr hg
            · exact .inl (.inl ⟨x, hx, hg⟩)

/-- **C89**: `find_lookahead_source` finds the items that a symbol in a lookahead comes from: those that made it or passed it on to an item from which it was passed on to
this one. -/
theorem find_source_exact {fuel : Nat} {v : Key} {res : List Key} (h : findSource R P m a fuel v = some res) (u : Key) :
    u ∈ res ↔ ∃ w, ReflTransGen (Fed P m a) v w ∧ (Gave R a w u ∨ Fed P m a w u) :=
  findLoop_spec v fuel [] [v] [] res (by simp) (by simp [ReflTransGen.refl]) (by simp) (by simp) (by simp) h u

/-- The items that have not been visited. -/
def unseen (P : Props) (v0 : Key) (visited : List Key) : List Key := (v0 :: P.map Prod.fst).filter fun u => decide (u ∉ visited)

theorem unseen_lt {v0 v : Key} {visited : List Key} (hv : v ∈ v0 :: P.map Prod.fst) (h : v ∉ visited) :
    (unseen P v0 (v :: visited)).length < (unseen P v0 visited).length := by
  have e : unseen P v0 (v :: visited) = (unseen P v0 visited).filter fun u => decide (u ≠ v) := by
    unfold unseen
    rw [List.filter_filter]
    congr 1
    funext u
    simp only [List.mem_cons, not_or, ← Bool.decide_and]
  rw [e]
  refine List.length_filter_lt_length_iff_exists.2 ⟨v, ?_, by simp⟩
  simp only [unseen, List.mem_filter, decide_eq_true_eq]
  exact ⟨hv, h⟩

theorem findLoop_total (v0 : Key) : ∀ (n : Nat) (visited todo found : List Key), (unseen P v0 visited).length ≤ n → (∀ v ∈ todo, v ∈ v0 :: P.map Prod.fst) →
    ∃ fuel res, findLoop R P m a fuel visited todo found = some res := by
  intro n
  induction n with
  | zero =>
    intro visited todo found hn ht
    induction todo generalizing found with
    | nil => exact ⟨0, found, rfl⟩
    | cons v todo ih =>
      have hv : v ∈ visited := by
        by_contra hv
        have := unseen_lt (ht v List.mem_cons_self) hv
        omega
      obtain ⟨fuel, res, h⟩ := ih found (fun x hx => ht x (List.mem_cons_of_mem _ hx))
      exact ⟨fuel + 1, res, by simp only [findLoop]; rw [if_pos hv]; exact h⟩
  | succ n ihn =>
    intro visited todo found hn ht
    induction todo generalizing found with
    | nil => exact ⟨0, found, rfl⟩
    | cons v todo ih =>
      by_cases hv : v ∈ visited
      · obtain ⟨fuel, res, h⟩ := ih found (fun x hx => ht x (List.mem_cons_of_mem _ hx))
        exact ⟨fuel + 1, res, by simp only [findLoop]; rw [if_pos hv]; exact h⟩
      · have := unseen_lt (ht v List.mem_cons_self) hv
        obtain ⟨fuel, res, h⟩ := ihn (v :: visited) (todo ++ feeders P m a v) (found ++ generators R a v ++ feeders P m a v) (by omega) (fun x hx => by
          rcases List.mem_append.1 hx with hx | hx
          · exact ht x (List.mem_cons_of_mem _ hx)
          · obtain ⟨-, l, hl, -⟩ := mem_feeders.1 hx
            exact List.mem_cons_of_mem _ (List.mem_map.2 ⟨_, hl, rfl⟩))
        exact ⟨fuel + 1, res, by simp only [findLoop]; rw [if_neg hv]; exact h⟩

/-- ... and it comes to an end. -/
theorem find_source_total (v : Key) : ∃ fuel res, findSource R P m a fuel v = some res :=
  findLoop_total v _ [] [v] [] (Nat.le_refl _) (by simp)

end

/-! ### What is recorded -/

theorem mem_records {self : LItem → Set1} {m : Mach} {r : Record} : r ∈ records self m ↔
    ∃ c, Source m r.source ∧ c ∈ self r.source.2 ∧ Hit m r.source.1 c.1 r.target ∧ r.la = c.2 ∧ ∃ b ∈ c.2, b ≠ .empty := by
  simp only [records, List.mem_flatMap, List.mem_range]
  constructor
  · rintro ⟨s, hs, i, hi, hr⟩
    split at hr
    · cases hr
    · rename_i hd
      obtain ⟨c, hc, hr⟩ := List.mem_filterMap.1 hr
      unfold recordClose at hr
      split at hr
      · cases hr
      · rename_i x hx
        split at hr
        · cases hr
        · rename_i t ht
          split at hr
          · rename_i hk
            cases hr
            refine ⟨c, ⟨hs, hi, by dsimp only; omega⟩, hc, ⟨x, t, hx, ht, rfl, hk.1⟩, rfl, ?_⟩
            obtain ⟨b, hb, h⟩ := List.any_eq_true.1 hk.2
            exact ⟨b, hb, of_decide_eq_true h⟩
          · cases hr
  · rintro ⟨c, ⟨hs, hi, hd⟩, hc, ⟨x, t, hx, ht, hv, hk⟩, hla, b, hb, hbe⟩
    refine ⟨r.source.1, hs, r.source.2, hi, ?_⟩
    rw [if_neg (by omega)]
    refine List.mem_filterMap.2 ⟨c, hc, ?_⟩
    unfold recordClose
    rw [hx]
    dsimp only
    rw [ht]
    dsimp only
    rw [if_pos ⟨hk, List.any_eq_true.2 ⟨b, hb, decide_eq_true hbe⟩⟩, ← hv, ← hla]

/-- Reading the symbols of a rule leads from one state to another. -/
def walk (m : Mach) : Nat → List Item → Option Nat
  | s, [] => some s
  | s, x :: l => (tr m s x).bind fun t => walk m t l

section
variable {first : Item → List Item} {g : Gram} {okI : Item → Prop} {okR : Rule → Prop} {rid : Rule → Nat} {clos : LItem → List Item → Set1}
  {self : LItem → Set1} {lt : Key → Key → Bool}

/-- A symbol that an item gets in the next state is found to come from the item of this state. -/
theorem source_step (hr : Function.Injective rid) (hU : Univ first g okI okR) (hc : ClosOk first g okI clos) (hself : SelfOk first g okI self)
    {languages : List Item} (hl : ∀ l ∈ languages, okR ⟨.empty, [l]⟩) {cf fuel fuel' : Nat} {m m' : Mach}
    (h : completeStates rid clos cf fuel (initials languages) = some m) (h' : completeLookaheads lt self fuel' m = some m')
    {s t : Nat} {k i : LItem} {o : Option Item} {a x : Item} (ha : a ≠ .empty) (hk : Lr1 first g m (initials languages).states.length s (k, o))
    (hg : ReflTransGen (Gen first g) (k, o) (i, some a)) (hx : i.rule.items[i.dot]? = some x) (ht : tr m s x = some t) :
    Gave (records self m) a (t, adv i) (s, k) ∨ Fed (spontaneous lt self m).2 m' a (t, adv i) (s, k) := by
  obtain ⟨hi, hreach, h0⟩ := completeStates_inv hr hU hc hl h
  obtain ⟨-, -, s3⟩ := spontaneous_spec (lt := lt) (self := self) m
  obtain ⟨e0, e1, e2⟩ := lookaheads_exact (lt := lt) hr hU hc hself hl h h'
  have hs : s < m.states.length := (hi.trans s x t ht).1
  have hkk : k ∈ kern m s := by
    cases o with
    | none => exact (e1 s k hs).2 hk
    | some b => exact e0.kern s ▸ (laOf_item ((e2 s k b).2 hk)).2
  have hd : k.dot < k.rule.items.length := by
    by_contra hd
    have := gen_at_end (e := (k, o)) (by dsimp only; omega) hg
    cases this
    rw [List.getElem?_eq_none (by omega)] at hx
    cases hx
  have hok : ∀ y ∈ k.rule.items, okI y := hU.items _ (hi.good s hs k hkk).1
  have hkt : adv i ∈ kern m t := ((hi.trans s x t ht).2.2.2.2 _).2 ⟨i, ⟨k, hkk, gen_step_path hg⟩, hx, rfl⟩
  have hsrc : Source m (s, k) := ⟨hs, hkk, hd⟩
  have hhit : Hit m s i (t, adv i) := ⟨x, t, hx, ht, rfl, hkt⟩
  rcases (gen_linear hg).2 a rfl with ⟨h1, h2⟩ | ⟨h1, h2⟩
  · obtain ⟨la, hla, hb⟩ := (hself k hd hok i (some .empty)).2 ⟨some .empty, fun b hb => by cases hb; rfl, h2 .empty⟩
    right
    have he := (s3 (s, k) (t, adv i)).2 ⟨(i, la), hsrc, hla, hhit, hb _ rfl⟩
    rw [h1] at hk
    refine ⟨(e2 s k a).2 hk, ?_⟩
    unfold Edge at he
    cases hge : get (s, k) (spontaneous lt self m).2 with
    | none => rw [hge] at he; cases he
    | some l =>
      rw [hge] at he
      exact ⟨l, mem_of_get hge, he⟩
  · obtain ⟨la, hla, hb⟩ := (hself k hd hok i (some a)).2 ⟨none, by simp, h2 none⟩
    left
    have hmem := hb a rfl
    exact ⟨⟨(s, k), (t, adv i), la⟩, mem_records.2 ⟨(i, la), hsrc, hla, hhit, rfl, a, hmem, ha⟩, rfl, rfl, hmem⟩

/-- Within a rule the symbol comes from the item before. -/
theorem source_within (hr : Function.Injective rid) (hU : Univ first g okI okR) (hc : ClosOk first g okI clos) (hself : SelfOk first g okI self)
    {languages : List Item} (hl : ∀ l ∈ languages, okR ⟨.empty, [l]⟩) {cf fuel fuel' : Nat} {m m' : Mach}
    (h : completeStates rid clos cf fuel (initials languages) = some m) (h' : completeLookaheads lt self fuel' m = some m')
    {s t : Nat} {k : LItem} {a x : Item} (hk : Lr1 first g m (initials languages).states.length s (k, some a))
    (hx : k.rule.items[k.dot]? = some x) (ht : tr m s x = some t) : Fed (spontaneous lt self m).2 m' a (t, adv k) (s, k) := by
  obtain ⟨hi, hreach, h0⟩ := completeStates_inv hr hU hc hl h
  obtain ⟨-, -, s3⟩ := spontaneous_spec (lt := lt) (self := self) m
  obtain ⟨e0, e1, e2⟩ := lookaheads_exact (lt := lt) hr hU hc hself hl h h'
  have hs : s < m.states.length := (hi.trans s x t ht).1
  have hla := (e2 s k a).2 hk
  have hkk : k ∈ kern m s := e0.kern s ▸ (laOf_item hla).2
  have hd : k.dot < k.rule.items.length := by
    by_contra hd
    rw [List.getElem?_eq_none (by omega)] at hx
    cases hx
  have hok : ∀ y ∈ k.rule.items, okI y := hU.items _ (hi.good s hs k hkk).1
  have hkt : adv k ∈ kern m t := ((hi.trans s x t ht).2.2.2.2 _).2 ⟨k, ⟨k, hkk, .refl⟩, hx, rfl⟩
  obtain ⟨la, hl', hb⟩ := (hself k hd hok k (some .empty)).2 ⟨some .empty, fun b hb => by cases hb; rfl, .refl⟩
  have he := (s3 (s, k) (t, adv k)).2 ⟨(k, la), ⟨hs, hkk, hd⟩, hl', ⟨x, t, hx, ht, rfl, hkt⟩, hb _ rfl⟩
  refine ⟨hla, ?_⟩
  unfold Edge at he
  cases hge : get (s, k) (spontaneous lt self m).2 with
  | none => rw [hge] at he; cases he
  | some l =>
    rw [hge] at he
    exact ⟨l, mem_of_get hge, he⟩

/-- The state in which a rule begins is among those that are found for its end. -/
theorem source_found (hr : Function.Injective rid) (hU : Univ first g okI okR) (hc : ClosOk first g okI clos) (hself : SelfOk first g okI self)
    {languages : List Item} (hl : ∀ l ∈ languages, okR ⟨.empty, [l]⟩) {cf fuel fuel' : Nat} {m m' : Mach}
    (h : completeStates rid clos cf fuel (initials languages) = some m) (h' : completeLookaheads lt self fuel' m = some m')
    {p s : Nat} {j : LItem} {o : Option Item} {a : Item} {r : Rule} (ha : a ≠ .empty) (hj : Lr1 first g m (initials languages).states.length p (j, o))
    (hg : ReflTransGen (Gen first g) (j, o) (⟨r, 0⟩, some a)) (hne : r.items ≠ []) (hw : walk m p r.items = some s) :
    a ∈ laOf m' (s, ⟨r, r.items.length⟩) ∧ ∃ w, ReflTransGen (Fed (spontaneous lt self m).2 m' a) (s, ⟨r, r.items.length⟩) w ∧
      (Gave (records self m) a w (p, j) ∨ Fed (spontaneous lt self m).2 m' a w (p, j)) := by
  obtain ⟨-, e1, e2⟩ := lookaheads_exact (lt := lt) hr hU hc hself hl h h'
  -- from an item on the way to the end
  have key : ∀ (l : List Item) (q d : Nat), d ≤ r.items.length → r.items.drop d = l →
      Lr1 first g m (initials languages).states.length q (⟨r, d⟩, some a) → walk m q l = some s →
      a ∈ laOf m' (s, ⟨r, r.items.length⟩) ∧ ReflTransGen (Fed (spontaneous lt self m).2 m' a) (s, ⟨r, r.items.length⟩) (q, ⟨r, d⟩) := by
    intro l
    induction l with
    | nil =>
      intro q d hle hd hq hw
      cases hw
      have := List.drop_eq_nil_iff.1 hd
      obtain rfl : d = r.items.length := by omega
      exact ⟨(e2 _ _ _).2 hq, .refl⟩
    | cons x l ih =>
      intro q d hle hd hq hw
      have hx : r.items[d]? = some x := by
        have := List.getElem?_drop (xs := r.items) (i := d) (j := 0)
        rw [hd] at this
        simpa using this.symm
      have hlt : d < r.items.length := by
        by_contra hcon
        rw [List.getElem?_eq_none (by omega)] at hx
        cases hx
      simp only [walk, Option.bind_eq_some_iff] at hw
      obtain ⟨t, ht, hw⟩ := hw
      have hnext : Lr1 first g m (initials languages).states.length t (⟨r, d + 1⟩, some a) := .goto (i := ⟨r, d⟩) hq .refl hx ht
      obtain ⟨r1, r2⟩ := ih t (d + 1) (by omega) (by rw [← List.drop_drop, hd]; rfl) hnext hw
      exact ⟨r1, r2.tail (source_within hr hU hc hself hl h h' hq hx ht)⟩
  cases hl' : r.items with
  | nil => exact absurd hl' hne
  | cons x l =>
    rw [← hl']
    have hx : r.items[0]? = some x := by rw [hl']; rfl
    rw [hl'] at hw
    simp only [walk, Option.bind_eq_some_iff] at hw
    obtain ⟨t, ht, hw⟩ := hw
    have hnext : Lr1 first g m (initials languages).states.length t (⟨r, 1⟩, some a) := .goto (i := ⟨r, 0⟩) hj hg hx ht
    obtain ⟨r1, r2⟩ := key l t 1 (by rw [hl']; simp) (by rw [hl']; rfl) hnext hw
    exact ⟨r1, _, r2, source_step hr hU hc hself hl h h' ha hj hg hx ht⟩

theorem targets_get {R : List Record} {P : Props} {m : Mach} {a : Item} {fuel : Nat} {s : Nat} :
    ∀ (l : List LItem) {L : List (List Nat)}, l.mapM (returns R P m a fuel s) = some L → L.length = l.length ∧
      ∀ (n : Nat) (i : LItem), l[n]? = some i → ∃ T, L[n]? = some T ∧ returns R P m a fuel s i = some T := by
  intro l
  induction l with
  | nil =>
    intro L hL
    cases hL
    simp
  | cons x l ih =>
    intro L hL
    simp only [List.mapM_cons, Option.bind_eq_bind, Option.bind_eq_some_iff, Option.pure_def, Option.some.injEq] at hL
    obtain ⟨T, hT, Ts, hTs, rfl⟩ := hL
    obtain ⟨h1, h2⟩ := ih hTs
    refine ⟨by simp [h1], fun n i hn => ?_⟩
    cases n with
    | zero => cases hn; exact ⟨T, rfl, hT⟩
    | succ n => exact h2 n i hn

/-- **C89, what the check gives.** Suppose that the resolver gives up a conflict on `a` in the state `s`: the sets of states it finds for the items
that end in `s` have nothing in common. Take two different rules with at least one symbol, and one state `p` with an item before the nonterminal of
each rule, from which reading the rule leads to `s`. Then it is not so that both rules can be followed by `a` there: with `p` on the stack below the
rule, at most one of the two reductions is right. -/
theorem resolved_apart_partial (hr : Function.Injective rid) (hU : Univ first g okI okR) (hc : ClosOk first g okI clos) (hself : SelfOk first g okI self)
    {languages : List Item} (hl : ∀ l ∈ languages, okR ⟨.empty, [l]⟩) {cf fuel fuel' fuel'' : Nat} {m m' : Mach}
    (h : completeStates rid clos cf fuel (initials languages) = some m) (h' : completeLookaheads lt self fuel' m = some m')
    {s : Nat} {a : Item} {L : List (List Nat)} (ht : targetsFor (records self m) (spontaneous lt self m).2 m' a fuel'' s = some L)
    (hres : Rewriters.resolvable L [] = true) (ha : a ≠ .empty) {r₁ r₂ : Rule} (hne : r₁ ≠ r₂) (h1 : r₁.items ≠ []) (h2 : r₂.items ≠ []) {p : Nat}
    {j₁ j₂ : LItem} {o₁ o₂ : Option Item} (hn1 : j₁.rule.items[j₁.dot]? = some r₁.nonterminal) (hn2 : j₂.rule.items[j₂.dot]? = some r₂.nonterminal)
    (hw1 : walk m p r₁.items = some s) (hw2 : walk m p r₂.items = some s) :
    ¬ ((Lr1 first g m (initials languages).states.length p (j₁, o₁) ∧ ReflTransGen (Gen first g) (j₁, o₁) (⟨r₁, 0⟩, some a)) ∧
      Lr1 first g m (initials languages).states.length p (j₂, o₂) ∧ ReflTransGen (Gen first g) (j₂, o₂) (⟨r₂, 0⟩, some a)) := by
  rintro ⟨⟨hj1, hg1⟩, hj2, hg2⟩
  obtain ⟨-, hdis⟩ := Rewriters.lr1_targets_disjoint L [] hres
  obtain ⟨hlen, hget⟩ := targets_get _ ht
  have one : ∀ {r : Rule} {j : LItem} {o : Option Item}, r.items ≠ [] → j.rule.items[j.dot]? = some r.nonterminal → walk m p r.items = some s →
      Lr1 first g m (initials languages).states.length p (j, o) → ReflTransGen (Gen first g) (j, o) (⟨r, 0⟩, some a) →
      ∃ (n : Nat) (T : List Nat), ((kern m' s).filter fun i => decide (i.rule.items.length ≤ i.dot) && decide (a ∈ laOf m' (s, i)))[n]? = some (⟨r, r.items.length⟩ : LItem) ∧
        L[n]? = some T ∧ p ∈ T := by
    intro r j o hne hn hw hj hg
    obtain ⟨hla, hsrc⟩ := source_found hr hU hc hself hl h h' ha hj hg hne hw
    have hmem : (⟨r, r.items.length⟩ : LItem) ∈ (kern m' s).filter fun i => decide (i.rule.items.length ≤ i.dot) && decide (a ∈ laOf m' (s, i)) :=
      List.mem_filter.2 ⟨(laOf_item hla).2, by simp [hla]⟩
    obtain ⟨n, hn'⟩ := List.mem_iff_getElem?.1 hmem
    obtain ⟨T, hT, hret⟩ := hget n _ hn'
    refine ⟨n, T, hn', hT, ?_⟩
    simp only [returns, Option.map_eq_some_iff] at hret
    obtain ⟨l, hf, rfl⟩ := hret
    exact List.mem_map.2 ⟨(p, j), List.mem_filter.2 ⟨(find_source_exact hf _).2 hsrc, decide_eq_true hn⟩, rfl⟩
  obtain ⟨n1, T1, e1, f1, g1⟩ := one h1 hn1 hw1 hj1 hg1
  obtain ⟨n2, T2, e2, f2, g2⟩ := one h2 hn2 hw2 hj2 hg2
  obtain ⟨b1, c1⟩ := List.getElem?_eq_some_iff.1 f1
  obtain ⟨b2, c2⟩ := List.getElem?_eq_some_iff.1 f2
  have hp := List.pairwise_iff_getElem.1 hdis
  rcases lt_trichotomy n1 n2 with hlt | rfl | hlt
  · exact hp n1 n2 b1 b2 hlt p (c1 ▸ g1) (c2 ▸ g2)
  · rw [e1] at e2
    cases e2
    exact hne rfl
  · exact hp n2 n1 b2 b1 hlt p (c2 ▸ g2) (c1 ▸ g1)

end
end Lalr
end TameParse

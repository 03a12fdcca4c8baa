import Verif.Follow
import Verif.FirstProps
/-
C87: FOLLOW sets hold what can come after an item.
-/
namespace TameParse
open AssocMap

namespace Gram
variable {g : Gram} {U : Item → Prop} {nts : List Int}

/-- `Inside X r Y s`: `s` is a rule of `Y`, found in the rule `r` of `X`, or is `r` itself. -/
inductive Inside : Item → List Item → Item → List Item → Prop
  | self {X r} : Inside X r X r
  | step {X r k rs r' Y s} : .ebnf k rs ∈ r → r' ∈ rs → Inside (.ebnf k rs) r' Y s → Inside X r Y s

/-- The rules of a grammar and of the EBNF items in it. -/
def Site (g : Gram) (nts : List Int) (X : Item) (r : List Item) : Prop :=
  ∃ n ∈ nts, ∃ r0 ∈ g.rules n, Inside (.nonterminal n) r0 X r

/-- The textbook rules for FOLLOW sets, over the rules as they are written. -/
inductive Follows (g : Gram) (nts : List Int) (t : Item) : Item → Prop
  | after {X a x b} : Site g nts X (a ++ x :: b) → g.BeginsList b t → Follows g nts t x
  | atEnd {X a x b} : Site g nts X (a ++ x :: b) → (∀ z ∈ b, g.Nullable z) → Follows g nts t X → Follows g nts t x

theorem Inside.inner {X r Y s} (h : Inside X r Y s) {k rs r'} (hm : .ebnf k rs ∈ s) (hr : r' ∈ rs) : Inside X r (.ebnf k rs) r' := by
  induction h with
  | self => exact .step hm hr .self
  | step h1 h2 _ ih => exact .step h1 h2 (ih hm)

theorem Site.inner {X r} (h : Site g nts X r) {k rs r'} (hm : .ebnf k rs ∈ r) (hr : r' ∈ rs) : Site g nts (.ebnf k rs) r' := by
  obtain ⟨n, hn, r0, h0, hi⟩ := h
  exact ⟨n, hn, r0, h0, hi.inner hm hr⟩

theorem Inside.closed {X r Y s} (h : Inside X r Y s) (hU : g.Closed U) (hr : ∀ y ∈ r, U y) : ∀ y ∈ s, U y := by
  induction h with
  | self => exact hr
  | step h1 h2 _ ih => exact ih (hU _ (hr _ h1) _ h2)

theorem Site.closed {X r} (h : Site g nts X r) (hU : g.Closed U) (hN : ∀ n ∈ nts, U (.nonterminal n)) : ∀ y ∈ r, U y := by
  obtain ⟨n, hn, r0, h0, hi⟩ := h
  exact hi.closed hU (hU _ (hN n hn) _ h0)

/-- What a map of sets holds for an item. -/
def look (m : ItemSets) (x : Item) : List Item := (get x m).getD []

theorem look_put (k : Item) (v : List Item) (m : ItemSets) (x : Item) : look (put k v m) x = if k = x then v else look m x := by
  simp only [look, get_put]
  split <;> rfl

theorem mem_put {k : Item} {v : List Item} {m : ItemSets} {p : Item × List Item} (h : p ∈ put k v m) : p = (k, v) ∨ p ∈ m := by
  induction m with
  | nil => simp only [put, List.mem_singleton] at h; exact .inl h
  | cons q m ih =>
    obtain ⟨a, b⟩ := q
    simp only [put] at h
    split at h
    · simp only [List.mem_cons] at h ⊢
      rcases h with h | h
      · exact .inl h
      · exact .inr (.inr h)
    · simp only [List.mem_cons] at h ⊢
      rcases h with h | h
      · exact .inr (.inl h)
      · rcases ih h with h | h
        · exact .inl h
        · exact .inr (.inr h)

theorem mem_of_get {k : Item} {v : List Item} {m : ItemSets} (h : AssocMap.get k m = some v) : (k, v) ∈ m := by
  induction m with
  | nil => cases h
  | cons q m ih =>
    obtain ⟨a, b⟩ := q
    simp only [AssocMap.get] at h
    split at h
    · rename_i he; cases h; rw [he]; exact List.mem_cons_self
    · exact List.mem_cons_of_mem _ (ih h)

theorem mem_look {m : ItemSets} {x y : Item} (h : y ∈ look m x) : ∃ s, (x, s) ∈ m ∧ y ∈ s := by
  unfold look at h
  cases hg : AssocMap.get x m with
  | none => rw [hg] at h; cases h
  | some s => rw [hg] at h; exact ⟨s, mem_of_get hg, h⟩

theorem mem_unite {s t : List Item} {x : Item} : x ∈ (unite s t).1 ↔ x ∈ s ∨ x ∈ t := by
  simp only [unite, List.mem_append, List.mem_filter, Bool.not_eq_true', List.contains_eq_mem, decide_eq_false_iff_not]
  tauto

/-! ### Soundness of the sets that are collected -/

theorem beginsList_cons_of {x : Item} {xs : List Item} {t : Item} (h : g.Begins t x) : g.BeginsList (x :: xs) t :=
  ⟨[], x, xs, rfl, by simp, h⟩

theorem beginsList_skip {x : Item} {xs : List Item} {t : Item} (hn : g.Nullable x) (h : g.BeginsList xs t) : g.BeginsList (x :: xs) t := by
  obtain ⟨pre, y, post, rfl, hp, hb⟩ := h
  refine ⟨x :: pre, y, post, rfl, ?_, hb⟩
  intro z hz
  rcases List.mem_cons.1 hz with rfl | hz
  · exact hn
  · exact hp z hz

theorem followRest_sound (hU : g.Closed U) (hE : g.EbnfSound U) (fuel : Nat) (ys : List Item) : ∀ {c s c' s' e}, (∀ y ∈ ys, U y) →
    CacheSound g c → g.followRest fuel c s ys = some (c', s', e) →
    CacheSound g c' ∧ (∀ t ∈ s', isLeaf t → t ∈ s ∨ g.BeginsList ys t) ∧ (e = true → ∀ z ∈ ys, g.Nullable z) := by
  induction ys with
  | nil =>
    intro c s c' s' e _ hc h
    simp only [followRest, Option.some.injEq, Prod.mk.injEq] at h
    obtain ⟨rfl, rfl, rfl⟩ := h
    exact ⟨hc, fun t ht _ => .inl ht, by simp⟩
  | cons y ys ih =>
    intro c s c' s' e hy hc h
    simp only [followRest] at h
    cases hf : g.first fuel c y with
    | none => rw [hf] at h; cases h
    | some cs =>
      obtain ⟨c1, f⟩ := cs
      rw [hf] at h
      dsimp only at h
      obtain ⟨hc1, hs1, hs2⟩ := first_sound_aux hU hE fuel c y c1 f (hy y List.mem_cons_self) hc hf
      split at h
      · rename_i he
        obtain ⟨i1, i2, i3⟩ := ih (fun z hz => hy z (List.mem_cons_of_mem _ hz)) hc1 h
        refine ⟨i1, ?_, ?_⟩
        · intro t ht hl
          rcases i2 t ht hl with h | h
          · rcases mem_unite.1 h with h | h
            · exact .inl h
            · exact .inr (beginsList_cons_of (hs1 t h hl))
          · exact .inr (beginsList_skip (hs2 he) h)
        · intro he' z hz
          rcases List.mem_cons.1 hz with rfl | hz
          · exact hs2 he
          · exact i3 he' z hz
      · simp only [Option.some.injEq, Prod.mk.injEq] at h
        obtain ⟨rfl, rfl, rfl⟩ := h
        refine ⟨hc1, ?_, by simp⟩
        intro t ht hl
        rcases mem_unite.1 ht with h | h
        · exact .inl h
        · exact .inr (beginsList_cons_of (hs1 t h hl))

def isTerminal : Item → Bool
  | .terminal _ => true
  | _ => false

/-- Everything collected so far is right. -/
structure FillSound (g : Gram) (nts : List Int) (st : FollowState) : Prop where
  firsts : CacheSound g st.firsts
  follow : ∀ x t, t ∈ look st.follow x → isLeaf t → ∃ X a b, Site g nts X (a ++ x :: b) ∧ g.BeginsList b t
  depend : ∀ x s X, (x, s) ∈ st.depend → X ∈ s → ∃ a b, Site g nts X (a ++ x :: b) ∧ ∀ z ∈ b, g.Nullable z
  noFollow : ∀ x, isTerminal x → look st.follow x = []
  noDepend : ∀ x s, (x, s) ∈ st.depend → ¬ isTerminal x

theorem followItem_sound (hU : g.Closed U) (hE : g.EbnfSound U) (hN : ∀ n ∈ nts, U (.nonterminal n)) (fuel : Nat) {X st x rest st' a}
    (hsite : Site g nts X (a ++ x :: rest)) (hx : ¬ isTerminal x) (hst : FillSound g nts st)
    (h : g.followItem fuel X st x rest = some st') : FillSound g nts st' := by
  unfold followItem at h
  cases hr : g.followRest fuel st.firsts ((get x st.follow).getD []) rest with
  | none => rw [hr] at h; cases h
  | some p =>
    obtain ⟨c, s, e⟩ := p
    rw [hr] at h
    simp only [Option.some.injEq] at h
    subst h
    have hrest : ∀ y ∈ rest, U y := fun y hy => hsite.closed hU hN y (by simp [hy])
    obtain ⟨h1, h2, h3⟩ := followRest_sound hU hE fuel rest hrest hst.firsts hr
    refine ⟨h1, ?_, ?_, ?_, ?_⟩
    · intro y t ht hl
      rw [look_put] at ht
      split at ht
      · rename_i he
        subst he
        rcases h2 t ht hl with h | h
        · exact hst.follow x t h hl
        · exact ⟨X, a, rest, hsite, h⟩
      · exact hst.follow y t ht hl
    · intro y s' Y hm hY
      dsimp only at hm
      split at hm
      · rename_i he
        rcases mem_put hm with hm | hm
        · cases hm
          rcases mem_unite.1 hY with h | h
          · obtain ⟨s0, h0, h1⟩ := mem_look h
            exact hst.depend x s0 Y h0 h1
          · rw [List.mem_singleton] at h
            subst h
            exact ⟨a, rest, hsite, h3 he⟩
        · exact hst.depend y s' Y hm hY
      · exact hst.depend y s' Y hm hY
    · intro y hy
      rw [look_put, if_neg (by rintro rfl; exact hx hy)]
      exact hst.noFollow y hy
    · intro y s' hm hy
      dsimp only at hm
      split at hm
      · rcases mem_put hm with hm | hm
        · cases hm; exact hx hy
        · exact hst.noDepend y s' hm hy
      · exact hst.noDepend y s' hm hy

theorem fill_sound (hU : g.Closed U) (hE : g.EbnfSound U) (hN : ∀ n ∈ nts, U (.nonterminal n)) (fuel : Nat) :
    (∀ X st r, ∀ a st', Site g nts X (a ++ r) → FillSound g nts st → g.fillFollow fuel X st r = some st' → FillSound g nts st') ∧
    (∀ st x, ∀ X a b st', Site g nts X (a ++ x :: b) → FillSound g nts st → g.fillInner fuel st x = some st' → FillSound g nts st') ∧
    (∀ X st rs, ∀ st', (∀ r ∈ rs, Site g nts X r) → FillSound g nts st → g.fillRules fuel X st rs = some st' → FillSound g nts st') := by
  apply fillFollow.mutual_induct
  · intro st k rs ih X a b st' hs hst h
    rw [fillInner] at h
    exact ih st' (fun r hr => hs.inner (by simp) hr) hst h
  · intro st x hx X a b st' hs hst h
    rw [fillInner.eq_2 _ _ _ _ hx] at h
    cases h
    exact hst
  · intro X st a st' _ hst h
    rw [fillFollow] at h
    cases h
    exact hst
  · intro X st n rest ih a st' hs hst h
    rw [fillFollow] at h
    exact ih (a ++ [.terminal n]) st' (by simpa using hs) hst h
  · intro X st x rest hx hn a st' hs hst h
    rw [fillFollow.eq_3 _ _ _ _ _ _ hx, hn] at h
    cases h
  · intro X st x rest hx st1 h1 hn ih a st' hs hst h
    rw [fillFollow.eq_3 _ _ _ _ _ _ hx, h1] at h
    simp only [hn] at h
    cases h
  · intro X st x rest hx st1 h1 st2 h2 ih2 ih1 a st' hs hst h
    rw [fillFollow.eq_3 _ _ _ _ _ _ hx, h1] at h
    simp only [h2] at h
    have hx' : ¬ isTerminal x := by cases x <;> simp_all [isTerminal]
    exact ih1 (a ++ [x]) st' (by simpa using hs) (ih2 X a rest st2 hs (followItem_sound hU hE hN fuel hs hx' hst h1) h2) h
  · intro X st st' _ hst h
    rw [fillRules] at h
    cases h
    exact hst
  · intro X st r rs hn _ st' _ _ h
    rw [fillRules, hn] at h
    cases h
  · intro X st r rs st1 h1 ih1 ih2 st' hs hst h
    rw [fillRules, h1] at h
    exact ih2 st' (fun r hr => hs r (List.mem_cons_of_mem _ hr)) (ih1 [] st1 (hs r List.mem_cons_self) hst h1) h

theorem fillAll_sound (hU : g.Closed U) (hE : g.EbnfSound U) (hN : ∀ n ∈ nts, U (.nonterminal n)) (fuel : Nat) (ns : List Int) :
    ∀ {st st'}, (∀ n ∈ ns, n ∈ nts) → FillSound g nts st → g.fillAll fuel st ns = some st' → FillSound g nts st' := by
  induction ns with
  | nil => intro st st' _ hst h; cases h; exact hst
  | cons n ns ih =>
    intro st st' hn hst h
    simp only [fillAll] at h
    cases h1 : g.fillRules fuel (.nonterminal n) st (g.rules n) with
    | none => rw [h1] at h; cases h
    | some st1 =>
      rw [h1] at h
      exact ih (fun m hm => hn m (List.mem_cons_of_mem _ hm))
        ((fill_sound hU hE hN fuel).2.2 _ _ _ st1 (fun r hr => ⟨n, hn n List.mem_cons_self, r, hr, .self⟩) hst h1) h

/-! ### Completeness of the sets that are collected -/

def CacheDone (g : Gram) (c : ItemCache) : Prop := CacheSound g c ∧ CacheComplete g (fun _ => False) c

theorem first_done {rank} (hG : g.Simple U rank) (fuel : Nat) {c y c' s} (hy : U y) (hc : CacheDone g c)
    (h : g.first fuel c y = some (c', s)) : CacheDone g c' ∧ g.SoundI y s ∧ g.CompleteI y s := by
  obtain ⟨h1, h2⟩ := first_sound_aux hG.closed hG.ebnfSound fuel c y c' s hy hc.1 h
  obtain ⟨h3, h4⟩ := first_complete_aux hG fuel (rank y + 1) c _ y c' s hy (Nat.lt_succ_self _) hc.1 hc.2 (by simp) h
  exact ⟨⟨h1, h3⟩, h2, h4⟩

theorem followRest_complete {rank} (hG : g.Simple U rank) (fuel : Nat) (ys : List Item) : ∀ {c s c' s' e}, (∀ y ∈ ys, U y) →
    CacheDone g c → g.followRest fuel c s ys = some (c', s', e) →
    CacheDone g c' ∧ (∀ t ∈ s, t ∈ s') ∧ (∀ t, isLeaf t → g.BeginsList ys t → t ∈ s') ∧ ((∀ z ∈ ys, g.Nullable z) → e = true) := by
  induction ys with
  | nil =>
    intro c s c' s' e _ hc h
    simp only [followRest, Option.some.injEq, Prod.mk.injEq] at h
    obtain ⟨rfl, rfl, rfl⟩ := h
    exact ⟨hc, fun t ht => ht, fun t _ hb => absurd hb not_beginsList_nil, fun _ => rfl⟩
  | cons y ys ih =>
    intro c s c' s' e hy hc h
    simp only [followRest] at h
    cases hf : g.first fuel c y with
    | none => rw [hf] at h; cases h
    | some cs =>
      obtain ⟨c1, f⟩ := cs
      rw [hf] at h
      dsimp only at h
      obtain ⟨hc1, hs1, hs2⟩ := first_done hG fuel (hy y List.mem_cons_self) hc hf
      split at h
      · rename_i he
        obtain ⟨i1, i2, i3, i4⟩ := ih (fun z hz => hy z (List.mem_cons_of_mem _ hz)) hc1 h
        refine ⟨i1, fun t ht => i2 t (mem_unite.2 (.inl ht)), ?_, fun hn => i4 fun z hz => hn z (List.mem_cons_of_mem _ hz)⟩
        intro t hl hb
        rcases beginsList_cons hb with hb | ⟨_, hb⟩
        · exact i2 t (mem_unite.2 (.inr (hs2.1 t hl hb)))
        · exact i3 t hl hb
      · rename_i he
        simp only [Option.some.injEq, Prod.mk.injEq] at h
        obtain ⟨rfl, rfl, rfl⟩ := h
        refine ⟨hc1, fun t ht => mem_unite.2 (.inl ht), ?_, fun hn => absurd (hs2.2 (hn y List.mem_cons_self)) he⟩
        intro t hl hb
        rcases beginsList_cons hb with hb | ⟨hn, _⟩
        · exact mem_unite.2 (.inr (hs2.1 t hl hb))
        · exact absurd (hs2.2 hn) he

/-- What the sets hold for an item `x` of a rule of `X`, before `b`. -/
def Has (g : Gram) (st : FollowState) (X x : Item) (b : List Item) : Prop :=
  (∀ t, isLeaf t → g.BeginsList b t → t ∈ look st.follow x) ∧ ((∀ z ∈ b, g.Nullable z) → X ∈ look st.depend x)

def More (st st' : FollowState) : Prop :=
  (∀ x, ∀ t ∈ look st.follow x, t ∈ look st'.follow x) ∧ (∀ x, ∀ t ∈ look st.depend x, t ∈ look st'.depend x)

theorem More.refl (st : FollowState) : More st st := ⟨fun _ _ h => h, fun _ _ h => h⟩

theorem More.trans {a b c : FollowState} (h : More a b) (h' : More b c) : More a c :=
  ⟨fun x t ht => h'.1 x t (h.1 x t ht), fun x t ht => h'.2 x t (h.2 x t ht)⟩

theorem Has.more {st st' : FollowState} {X x b} (h : Has g st X x b) (hm : More st st') : Has g st' X x b :=
  ⟨fun t hl hb => hm.1 x t (h.1 t hl hb), fun hn => hm.2 x X (h.2 hn)⟩

/-- All items of the rules inside a rule are taken care of. -/
def Covers (g : Gram) (st : FollowState) (X : Item) (r : List Item) : Prop :=
  ∀ Y s, Inside X r Y s → ∀ a x b, s = a ++ x :: b → ¬ isTerminal x → Has g st Y x b

theorem Covers.more {st st' : FollowState} {X r} (h : Covers g st X r) (hm : More st st') : Covers g st' X r :=
  fun Y s hi a x b he hx => (h Y s hi a x b he hx).more hm

theorem followItem_complete {rank} (hG : g.Simple U rank) (fuel : Nat) {X st x rest st'}
    (hrest : ∀ y ∈ rest, U y) (hc : CacheDone g st.firsts) (h : g.followItem fuel X st x rest = some st') :
    CacheDone g st'.firsts ∧ More st st' ∧ Has g st' X x rest := by
  unfold followItem at h
  cases hr : g.followRest fuel st.firsts ((get x st.follow).getD []) rest with
  | none => rw [hr] at h; cases h
  | some p =>
    obtain ⟨c, s, e⟩ := p
    rw [hr] at h
    simp only [Option.some.injEq] at h
    subst h
    obtain ⟨h1, h2, h3, h4⟩ := followRest_complete hG fuel rest hrest hc hr
    refine ⟨h1, ⟨?_, ?_⟩, ?_, ?_⟩
    · intro y t ht
      rw [look_put]
      split
      · rename_i he; subst he; exact h2 t ht
      · exact ht
    · intro y t ht
      dsimp only
      split
      · rw [look_put]
        split
        · rename_i he; subst he; exact mem_unite.2 (.inl ht)
        · exact ht
      · exact ht
    · intro t hl hb
      rw [look_put, if_pos rfl]
      exact h3 t hl hb
    · intro hn
      simp only [h4 hn, if_true]
      rw [look_put, if_pos rfl]
      exact mem_unite.2 (.inr List.mem_cons_self)

theorem fill_complete {rank} (hG : g.Simple U rank) (fuel : Nat) :
    (∀ X st r, ∀ st', (∀ y ∈ r, U y) → CacheDone g st.firsts → g.fillFollow fuel X st r = some st' →
      CacheDone g st'.firsts ∧ More st st' ∧ Covers g st' X r) ∧
    (∀ st x, ∀ st', U x → CacheDone g st.firsts → g.fillInner fuel st x = some st' →
      CacheDone g st'.firsts ∧ More st st' ∧ ∀ k rs, x = .ebnf k rs → ∀ r ∈ rs, Covers g st' x r) ∧
    (∀ X st rs, ∀ st', (∀ r ∈ rs, ∀ y ∈ r, U y) → CacheDone g st.firsts → g.fillRules fuel X st rs = some st' →
      CacheDone g st'.firsts ∧ More st st' ∧ ∀ r ∈ rs, Covers g st' X r) := by
  apply fillFollow.mutual_induct
  · intro st k rs ih st' hx hc h
    rw [fillInner] at h
    obtain ⟨h1, h2, h3⟩ := ih st' (fun r hr => hG.closed _ hx r hr) hc h
    refine ⟨h1, h2, ?_⟩
    intro k' rs' he
    cases he
    exact h3
  · intro st x hx st' _ hc h
    rw [fillInner.eq_2 _ _ _ _ hx] at h
    cases h
    exact ⟨hc, .refl _, fun k rs he => absurd he (hx k rs)⟩
  · intro X st st' _ hc h
    rw [fillFollow] at h
    cases h
    refine ⟨hc, .refl _, ?_⟩
    intro Y s hi a x b he hx
    cases hi with
    | self => simp at he
    | step hm _ _ => cases hm
  · intro X st n rest ih st' hr hc h
    rw [fillFollow] at h
    obtain ⟨h1, h2, h3⟩ := ih st' (fun y hy => hr y (List.mem_cons_of_mem _ hy)) hc h
    refine ⟨h1, h2, ?_⟩
    intro Y s hi a x b he hx
    cases hi with
    | self =>
      cases a with
      | nil =>
        simp only [List.nil_append, List.cons.injEq] at he
        rw [← he.1] at hx
        exact absurd rfl hx
      | cons a0 a =>
        simp only [List.cons_append, List.cons.injEq] at he
        exact h3 X rest .self a x b he.2 hx
    | step hm hr' hi =>
      simp only [List.mem_cons, reduceCtorEq, false_or] at hm
      exact h3 Y s (.step hm hr' hi) a x b he hx
  · intro X st x rest hx hn st' _ _ h
    rw [fillFollow.eq_3 _ _ _ _ _ _ hx, hn] at h
    cases h
  · intro X st x rest hx st1 h1 hn ih st' _ _ h
    rw [fillFollow.eq_3 _ _ _ _ _ _ hx, h1] at h
    simp only [hn] at h
    cases h
  · intro X st x rest hx st1 h1 st2 h2 ih2 ih1 st' hr hc h
    rw [fillFollow.eq_3 _ _ _ _ _ _ hx, h1] at h
    simp only [h2] at h
    obtain ⟨i1, i2, i3⟩ := followItem_complete hG fuel (fun y hy => hr y (List.mem_cons_of_mem _ hy)) hc h1
    obtain ⟨j1, j2, j3⟩ := ih2 st2 (hr x List.mem_cons_self) i1 h2
    obtain ⟨k1, k2, k3⟩ := ih1 st' (fun y hy => hr y (List.mem_cons_of_mem _ hy)) j1 h
    refine ⟨k1, i2.trans (j2.trans k2), ?_⟩
    intro Y s hi a z b he hz
    cases hi with
    | self =>
      cases a with
      | nil =>
        simp only [List.nil_append, List.cons.injEq] at he
        obtain ⟨rfl, rfl⟩ := he
        exact i3.more (j2.trans k2)
      | cons a0 a =>
        simp only [List.cons_append, List.cons.injEq] at he
        exact k3 X rest .self a z b he.2 hz
    | step hm hr' hi =>
      rcases List.mem_cons.1 hm with hm | hm
      · subst hm
        exact ((j3 _ _ rfl _ hr').more k2) Y s hi a z b he hz
      · exact k3 Y s (.step hm hr' hi) a z b he hz
  · intro X st st' _ hc h
    rw [fillRules] at h
    cases h
    exact ⟨hc, .refl _, by simp⟩
  · intro X st r rs hn _ st' _ _ h
    rw [fillRules, hn] at h
    cases h
  · intro X st r rs st1 h1 ih1 ih2 st' hr hc h
    rw [fillRules, h1] at h
    obtain ⟨i1, i2, i3⟩ := ih1 st1 (hr r List.mem_cons_self) hc h1
    obtain ⟨j1, j2, j3⟩ := ih2 st' (fun r' hr' => hr r' (List.mem_cons_of_mem _ hr')) i1 h
    refine ⟨j1, i2.trans j2, ?_⟩
    intro r' hr'
    rcases List.mem_cons.1 hr' with rfl | hr'
    · exact i3.more j2
    · exact j3 r' hr'

theorem fillAll_complete {rank} (hG : g.Simple U rank) (hN : ∀ n ∈ nts, U (.nonterminal n)) (fuel : Nat) :
    ∀ {st st'}, CacheDone g st.firsts → g.fillAll fuel st nts = some st' →
      CacheDone g st'.firsts ∧ More st st' ∧ ∀ n ∈ nts, ∀ r ∈ g.rules n, Covers g st' (.nonterminal n) r := by
  induction nts with
  | nil => intro st st' hc h; cases h; exact ⟨hc, .refl _, by simp⟩
  | cons n ns ih =>
    intro st st' hc h
    simp only [fillAll] at h
    cases h1 : g.fillRules fuel (.nonterminal n) st (g.rules n) with
    | none => rw [h1] at h; cases h
    | some st1 =>
      rw [h1] at h
      obtain ⟨i1, i2, i3⟩ := (fill_complete hG fuel).2.2 _ _ _ st1 (fun r hr => hG.closed _ (hN n List.mem_cons_self) r hr) hc h1
      obtain ⟨j1, j2, j3⟩ := ih (fun m hm => hN m (List.mem_cons_of_mem _ hm)) i1 h
      refine ⟨j1, i2.trans j2, ?_⟩
      intro m hm r hr
      rcases List.mem_cons.1 hm with rfl | hm
      · exact (i3 r hr).more j2
      · exact j3 m hm r hr

/-! ### The passes over the dependencies -/

theorem look_dependStep {x y : Item} {p : ItemSets × Bool} (hy : y ≠ x) (z : Item) :
    look (dependStep x p y).1 z = if x = z then (unite (look p.1 x) (look p.1 y)).1 else look p.1 z := by
  unfold dependStep
  rw [if_neg hy]
  cases hg : AssocMap.get y p.1 with
  | none =>
    have : look p.1 y = [] := by simp [look, hg]
    rw [this]
    dsimp only
    split
    · rename_i he; subst he; simp [unite]
    · rfl
  | some s =>
    have : look p.1 y = s := by simp [look, hg]
    dsimp only
    rw [look_put, this]
    rfl

theorem flag_dependStep {x y : Item} {p : ItemSets × Bool} (hy : y ≠ x) :
    (dependStep x p y).2 = (p.2 || (unite (look p.1 x) (look p.1 y)).2) := by
  unfold dependStep
  rw [if_neg hy]
  cases hg : AssocMap.get y p.1 with
  | none =>
    have : look p.1 y = [] := by simp [look, hg]
    rw [this]
    simp [unite]
  | some s =>
    have : look p.1 y = s := by simp [look, hg]
    dsimp only
    rw [this]
    rfl

theorem unite_snd_false {s t : List Item} (h : (unite s t).2 = false) : (unite s t).1 = s ∧ ∀ x ∈ t, x ∈ s := by
  simp only [unite, List.any_eq_false, Bool.not_eq_true', List.contains_eq_mem, decide_eq_false_iff_not, not_not] at h ⊢
  refine ⟨?_, h⟩
  rw [List.filter_eq_nil_iff.2 (fun x hx => by simpa using h x hx), List.append_nil]

/-- One pass as a walk over pairs. -/
theorem dependPass_eq (deps m : ItemSets) :
    dependPass deps m = (deps.flatMap fun d => d.2.map fun y => (d.1, y)).foldl (fun p d => dependStep d.1 p d.2) (m, false) := by
  unfold dependPass
  generalize (m, false) = p
  induction deps generalizing p with
  | nil => rfl
  | cons d deps ih => simp only [List.foldl_cons, List.flatMap_cons, List.foldl_append, List.foldl_map, ih]

def pairs (deps : ItemSets) : List (Item × Item) := deps.flatMap fun d => d.2.map fun y => (d.1, y)

theorem mem_pairs {deps : ItemSets} {x y : Item} : (x, y) ∈ pairs deps ↔ ∃ s, (x, s) ∈ deps ∧ y ∈ s := by
  simp only [pairs, List.mem_flatMap, List.mem_map, Prod.mk.injEq]
  constructor
  · rintro ⟨⟨a, s⟩, hm, y', hy, rfl, rfl⟩; exact ⟨s, hm, hy⟩
  · rintro ⟨s, hm, hy⟩; exact ⟨(x, s), hm, y, hy, rfl, rfl⟩

theorem step_mono (x y : Item) (p : ItemSets × Bool) (z t : Item) (h : t ∈ look p.1 z) : t ∈ look (dependStep x p y).1 z := by
  by_cases hy : y = x
  · unfold dependStep; rw [if_pos hy]; exact h
  · rw [look_dependStep hy]
    split
    · rename_i he; subst he; exact mem_unite.2 (.inl h)
    · exact h

theorem fold_mono (l : List (Item × Item)) : ∀ (p : ItemSets × Bool) (z t : Item), t ∈ look p.1 z →
    t ∈ look (l.foldl (fun p d => dependStep d.1 p d.2) p).1 z := by
  induction l with
  | nil => intro p z t h; exact h
  | cons d l ih => intro p z t h; exact ih _ z t (step_mono _ _ _ _ _ h)

/-- A pass that changes nothing leaves the sets as they are, and they hold what the dependencies ask for. -/
theorem fold_fixed (l : List (Item × Item)) : ∀ (p : ItemSets × Bool), (l.foldl (fun p d => dependStep d.1 p d.2) p).2 = false →
    p.2 = false ∧ (∀ z, look (l.foldl (fun p d => dependStep d.1 p d.2) p).1 z = look p.1 z) ∧
    ∀ d ∈ l, ∀ t ∈ look p.1 d.2, t ∈ look p.1 d.1 := by
  induction l with
  | nil => intro p h; exact ⟨h, fun _ => rfl, by simp⟩
  | cons d l ih =>
    intro p h
    obtain ⟨x, y⟩ := d
    simp only [List.foldl_cons] at h ⊢
    obtain ⟨i1, i2, i3⟩ := ih _ h
    by_cases hy : y = x
    · subst hy
      have he : dependStep y p y = p := by unfold dependStep; rw [if_pos rfl]
      rw [he] at i1 i2 i3 ⊢
      refine ⟨i1, i2, ?_⟩
      intro d hd
      rcases List.mem_cons.1 hd with rfl | hd
      · exact fun t ht => ht
      · exact i3 d hd
    · rw [flag_dependStep hy, Bool.or_eq_false_iff] at i1
      obtain ⟨hu, hsub⟩ := unite_snd_false i1.2
      have hl : ∀ z, look (dependStep x p y).1 z = look p.1 z := by
        intro z
        rw [look_dependStep hy, hu]
        split
        · rename_i he; rw [he]
        · rfl
      refine ⟨i1.1, fun z => (i2 z).trans (hl z), ?_⟩
      intro d hd
      rcases List.mem_cons.1 hd with rfl | hd
      · exact hsub
      · intro t ht
        rw [← hl] at ht ⊢
        exact i3 d hd t ht

theorem fold_sound {P : Item → Item → Prop} (l : List (Item × Item)) (hl : ∀ d ∈ l, ∀ t, P d.2 t → P d.1 t) :
    ∀ (p : ItemSets × Bool), (∀ z, ∀ t ∈ look p.1 z, P z t) →
    ∀ z, ∀ t ∈ look (l.foldl (fun p d => dependStep d.1 p d.2) p).1 z, P z t := by
  induction l with
  | nil => intro p h; exact h
  | cons d l ih =>
    intro p h
    obtain ⟨x, y⟩ := d
    simp only [List.foldl_cons]
    refine ih (fun d hd => hl d (List.mem_cons_of_mem _ hd)) _ ?_
    intro z t ht
    by_cases hy : y = x
    · unfold dependStep at ht; rw [if_pos hy] at ht; exact h z t ht
    · rw [look_dependStep hy] at ht
      split at ht
      · rename_i he
        subst he
        rcases mem_unite.1 ht with ht | ht
        · exact h _ t ht
        · exact hl (x, y) List.mem_cons_self t (h y t ht)
      · exact h z t ht

theorem loop_sound {P : Item → Item → Prop} {deps : ItemSets} (hl : ∀ x s y, (x, s) ∈ deps → y ∈ s → ∀ t, P y t → P x t) (fuel : Nat) :
    ∀ {m m'}, (∀ z, ∀ t ∈ look m z, P z t) → dependLoop deps fuel m = some m' → ∀ z, ∀ t ∈ look m' z, P z t := by
  have hpass : ∀ m, (∀ z, ∀ t ∈ look m z, P z t) → ∀ z, ∀ t ∈ look (dependPass deps m).1 z, P z t := by
    intro m hm
    rw [dependPass_eq]
    refine fold_sound _ ?_ _ hm
    rintro ⟨x, y⟩ hd
    obtain ⟨s, h1, h2⟩ := mem_pairs.1 hd
    exact hl x s y h1 h2
  induction fuel with
  | zero => intro m m' _ h; cases h
  | succ fuel ih =>
    intro m m' hm h
    simp only [dependLoop] at h
    split at h
    · exact ih (hpass m hm) h
    · cases h; exact hpass m hm

theorem loop_complete {deps : ItemSets} (fuel : Nat) : ∀ {m m'}, dependLoop deps fuel m = some m' →
    (∀ z, ∀ t ∈ look m z, t ∈ look m' z) ∧ ∀ x s y, (x, s) ∈ deps → y ∈ s → ∀ t ∈ look m' y, t ∈ look m' x := by
  induction fuel with
  | zero => intro m m' h; cases h
  | succ fuel ih =>
    intro m m' h
    simp only [dependLoop] at h
    have hmono : ∀ z, ∀ t ∈ look m z, t ∈ look (dependPass deps m).1 z := by
      intro z t ht; rw [dependPass_eq]; exact fold_mono _ (m, false) z t ht
    split at h
    · obtain ⟨i1, i2⟩ := ih h
      exact ⟨fun z t ht => i1 z t (hmono z t ht), i2⟩
    · rename_i hf
      cases h
      refine ⟨hmono, ?_⟩
      rw [dependPass_eq] at hf ⊢
      obtain ⟨_, h2, h3⟩ := fold_fixed _ (m, false) (by simpa using hf)
      intro x s y hm hy t ht
      rw [h2] at ht ⊢
      exact h3 (x, y) (mem_pairs.2 ⟨s, hm, hy⟩) t ht

/-- The order in which the dependencies are visited: any, as long as all of them are. -/
def Visits (order : ItemSets → ItemSets) : Prop :=
  ∀ d x y, (∃ s, (x, s) ∈ order d ∧ y ∈ s) ↔ ∃ s, (x, s) ∈ d ∧ y ∈ s

/-! ### Derivations -/

/-- Options and repetitions have one rule (ebnf_items.cpp 49-91). -/
def OneRule (U : Item → Prop) : Prop := ∀ k rs, U (.ebnf k rs) → k ≠ .alternative → ∃ r, rs = [r]

theorem Derives.trans {u v w : List Item} (h : g.Derives u v) (h' : g.Derives v w) : g.Derives u w := Relation.ReflTransGen.trans h h'

theorem site_derives (h1 : OneRule U) (hU : g.Closed U) (hN : ∀ n ∈ nts, U (.nonterminal n)) {X r} (h : Site g nts X r) :
    g.Derives [X] r ∧ ∃ n ∈ nts, ∃ a b, g.Derives [.nonterminal n] (a ++ X :: b) := by
  obtain ⟨n, hn, r0, h0, hi⟩ := h
  have key : ∀ X r Y s, Inside X r Y s → (∀ y ∈ r, U y) → g.Derives [X] r → (∃ a b, g.Derives [.nonterminal n] (a ++ X :: b)) →
      g.Derives [Y] s ∧ ∃ a b, g.Derives [.nonterminal n] (a ++ Y :: b) := by
    intro X r Y s hi
    induction hi with
    | self => intro _ h h'; exact ⟨h, h'⟩
    | @step X r k rs r' Y s hm hr _ ih =>
      intro hu hd ⟨a, b, hab⟩
      refine ih (hU _ (hu _ hm) _ hr) ?_ ?_
      · by_cases hk : k = .alternative
        · subst hk; exact derives_prod hr
        · obtain ⟨r1, rfl⟩ := h1 k rs (hu _ hm) hk
          rw [List.mem_singleton] at hr
          subst hr
          cases k with
          | optional => exact derives_prod (by simp [prods, ebnfRule])
          | repeating => exact derives_prod (by simp [prods, ebnfRule])
          | repeatZero =>
            have e1 : g.Derives [.ebnf .repeatZero [r']] (.ebnf .repeatZero [r'] :: r') := derives_prod (by simp [prods, ebnfRule])
            have e2 : g.Derives [.ebnf .repeatZero [r']] [] := derives_prod (by simp [prods])
            have e3 := derives_congr e2 [] r'
            exact Derives.trans e1 (by simpa using e3)
          | alternative => exact absurd rfl hk
      · obtain ⟨r1, r2, rfl⟩ := List.append_of_mem hm
        refine ⟨a ++ r1, r2 ++ b, Derives.trans hab ?_⟩
        have := derives_congr hd a b
        simpa using this
  obtain ⟨k1, a, b, k2⟩ := key _ _ _ _ hi (hU _ (hN n hn) _ h0) (derives_prod h0) ⟨[], [], .refl⟩
  exact ⟨k1, n, hn, a, b, k2⟩

theorem beginsList_derives {u : List Item} {t : Item} (h : g.BeginsList u t) : ∃ rest, g.Derives u (t :: rest) := by
  obtain ⟨pre, y, post, rfl, hp, hb⟩ := h
  obtain ⟨rest, hr⟩ := hb.derives
  refine ⟨rest ++ post, ?_⟩
  have e1 := derives_congr ((derives_nil_iff pre).2 hp) [] (y :: post)
  have e2 := derives_congr hr [] post
  exact Derives.trans (v := _) (by simpa using e1) (by simpa using e2)

/-- What the rules for FOLLOW sets give does come after the item. -/
theorem follows_derives (h1 : OneRule U) (hU : g.Closed U) (hN : ∀ n ∈ nts, U (.nonterminal n)) {x t : Item} (h : g.Follows nts t x) :
    ∃ n ∈ nts, ∃ a b, g.Derives [.nonterminal n] (a ++ x :: t :: b) := by
  induction h with
  | @after X a x b hs hb =>
    obtain ⟨d, n, hn, a', b', d'⟩ := site_derives h1 hU hN hs
    obtain ⟨rest, hr⟩ := beginsList_derives hb
    refine ⟨n, hn, a' ++ a, rest ++ b', Derives.trans d' ?_⟩
    have e1 := derives_congr d a' b'
    have e2 := derives_congr hr (a' ++ a ++ [x]) b'
    exact Derives.trans (v := _) (by simpa using e1) (by simpa using e2)
  | @atEnd X a x b hs hb _ ih =>
    obtain ⟨n, hn, a', b', d'⟩ := ih
    obtain ⟨d, _⟩ := site_derives h1 hU hN hs
    refine ⟨n, hn, a' ++ a, b', Derives.trans d' ?_⟩
    have e1 := derives_congr d a' (t :: b')
    have e2 := derives_congr ((derives_nil_iff b).2 hb) (a' ++ a ++ [x]) (t :: b')
    exact Derives.trans (v := _) (by simpa using e1) (by simpa using e2)

/-- Items that end a repetition, or are one: what comes after them can be the beginning of the next round. -/
inductive EndsRep (g : Gram) (nts : List Int) : Item → Prop
  | rep {k rs} : k = .repeating ∨ k = .repeatZero → EndsRep g nts (.ebnf k rs)
  | last {X a x b} : Site g nts X (a ++ x :: b) → (∀ z ∈ b, g.Nullable z) → EndsRep g nts X → EndsRep g nts x

theorem beginsList_append {u v : List Item} {t : Item} :
    g.BeginsList (u ++ v) t ↔ g.BeginsList u t ∨ (∀ z ∈ u, g.Nullable z) ∧ g.BeginsList v t := by
  induction u with
  | nil => simp [not_beginsList_nil]
  | cons x u ih =>
    constructor
    · intro h
      rcases beginsList_cons h with h | ⟨hn, h⟩
      · exact .inl (beginsList_cons_of h)
      · rcases ih.1 h with h | ⟨h1, h2⟩
        · exact .inl (beginsList_skip hn h)
        · refine .inr ⟨?_, h2⟩
          intro z hz
          rcases List.mem_cons.1 hz with rfl | hz
          · exact hn
          · exact h1 z hz
    · rintro (h | ⟨h1, h2⟩)
      · rcases beginsList_cons h with h | ⟨hn, h⟩
        · exact beginsList_cons_of h
        · exact beginsList_skip hn (ih.2 (.inl h))
      · exact beginsList_skip (h1 x List.mem_cons_self) (ih.2 (.inr ⟨fun z hz => h1 z (List.mem_cons_of_mem _ hz), h2⟩))

theorem beginsList_step {t x : Item} {r : List Item} (hr : r ∈ g.prods x) (h : g.BeginsList r t) : g.Begins t x := by
  obtain ⟨pre, y, post, rfl, hp, hb⟩ := h
  exact .prod hr hp hb

/-- Replacing an item by one of its productions adds no beginnings. -/
theorem beginsList_back {t x : Item} {r p q : List Item} (hr : r ∈ g.prods x) (h : g.BeginsList (p ++ (r ++ q)) t) :
    g.BeginsList (p ++ x :: q) t := by
  rcases beginsList_append.1 h with h | ⟨h1, h⟩
  · exact beginsList_append.2 (.inl h)
  · refine beginsList_append.2 (.inr ⟨h1, ?_⟩)
    rcases beginsList_append.1 h with h | ⟨h2, h⟩
    · exact beginsList_cons_of (beginsList_step hr h)
    · exact beginsList_skip ⟨hr, h2⟩ h

/-- The items of a sentential form: nonterminals, and items of the rules. -/
def Known (g : Gram) (nts : List Int) (x : Item) : Prop := (∃ n, x = .nonterminal n) ∨ ∃ X r, Site g nts X r ∧ x ∈ r

theorem prod_site (h1 : OneRule U) (hU : g.Closed U) (hN : ∀ n ∈ nts, U (.nonterminal n)) (hall : ∀ n, g.rules n ≠ [] → n ∈ nts)
    {x : Item} (hx : Known g nts x) {r : List Item} (hr : r ∈ g.prods x) :
    r = [] ∨ Site g nts x r ∨ ∃ k rs r', x = .ebnf k rs ∧ (k = .repeating ∨ k = .repeatZero) ∧ Site g nts x r' ∧ r = x :: r' := by
  rcases hx with ⟨n, rfl⟩ | ⟨X, s, hs, hm⟩
  · exact .inr (.inl ⟨n, hall n (by intro h; simp [prods, h] at hr), r, hr, .self⟩)
  · cases x with
    | nonterminal n => exact .inr (.inl ⟨n, hall n (by intro h; simp [prods, h] at hr), r, hr, .self⟩)
    | empty => simp only [prods, List.mem_singleton] at hr; exact .inl hr
    | eoi => cases hr
    | eog => cases hr
    | terminal n => cases hr
    | guard p l => cases hr
    | ebnf k rs =>
      by_cases hk : k = .alternative
      · subst hk; exact .inr (.inl (hs.inner hm hr))
      · obtain ⟨r1, rfl⟩ := h1 k rs (hs.closed hU hN _ hm) hk
        have hs1 : Site g nts (.ebnf k [r1]) r1 := hs.inner hm (by simp)
        cases k with
        | optional =>
          simp only [prods, ebnfRule, List.headD_cons, List.mem_cons, List.not_mem_nil, or_false] at hr
          rcases hr with rfl | rfl
          · exact .inl rfl
          · exact .inr (.inl hs1)
        | repeating =>
          simp only [prods, ebnfRule, List.headD_cons, List.mem_cons, List.not_mem_nil, or_false] at hr
          rcases hr with rfl | rfl
          · exact .inr (.inl hs1)
          · exact .inr (.inr ⟨_, _, r1, rfl, .inl rfl, hs1, rfl⟩)
        | repeatZero =>
          simp only [prods, ebnfRule, List.headD_cons, List.mem_cons, List.not_mem_nil, or_false] at hr
          rcases hr with rfl | rfl
          · exact .inl rfl
          · exact .inr (.inr ⟨_, _, r1, rfl, .inr rfl, hs1, rfl⟩)
        | alternative => exact absurd rfl hk

/-- What comes after an item is found by the rules for FOLLOW sets, unless the item ends a repetition. -/
theorem derives_follows (h1 : OneRule U) (hU : g.Closed U) (hN : ∀ n ∈ nts, U (.nonterminal n)) (hall : ∀ n, g.rules n ≠ [] → n ∈ nts)
    {n : Int} {w : List Item} (h : g.Derives [.nonterminal n] w) :
    (∀ y ∈ w, Known g nts y) ∧ ∀ t a x b, w = a ++ x :: b → ¬ EndsRep g nts x → g.BeginsList b t → g.Follows nts t x := by
  induction h with
  | refl =>
    refine ⟨by simp [Known], ?_⟩
    intro t a x b he _ hb
    cases a with
    | nil =>
      simp only [List.nil_append, List.cons.injEq] at he
      rw [← he.2] at hb
      exact absurd hb not_beginsList_nil
    | cons _ a => simp at he
  | tail _ hs ih =>
    obtain ⟨ihK, ih⟩ := ih
    obtain ⟨p, x, q, r, rfl, hr, rfl⟩ := hs
    have hx : Known g nts x := ihK x (by simp)
    have hps := prod_site h1 hU hN hall hx hr
    refine ⟨?_, ?_⟩
    · intro y hy
      simp only [List.mem_append] at hy
      rcases hy with (hy | hy) | hy
      · exact ihK y (by simp [hy])
      · rcases hps with rfl | hs | ⟨k, rs, r', rfl, _, hs, rfl⟩
        · cases hy
        · exact .inr ⟨x, r, hs, hy⟩
        · rcases List.mem_cons.1 hy with rfl | hy
          · exact hx
          · exact .inr ⟨_, r', hs, hy⟩
      · exact ihK y (by simp [hy])
    · intro t a z b he hz hb
      rw [List.append_assoc] at he
      -- `z` stands before the rule, in it or after it
      have hin : ∀ c, r ++ q = c ++ z :: b → g.Follows nts t z := by
        intro c hc
        rcases List.append_eq_append_iff.1 hc with ⟨d, rfl, hd⟩ | ⟨d, rfl, hd⟩
        · -- in `q`
          subst hd
          exact ih t (p ++ x :: d) z b (by simp) hz hb
        · cases d with
          | nil =>
            simp only [List.nil_append] at hd
            subst hd
            exact ih t (p ++ [x]) z b (by simp) hz hb
          | cons d0 d =>
            simp only [List.cons_append, List.cons.injEq] at hd
            obtain ⟨rfl, rfl⟩ := hd
            rcases beginsList_append.1 hb with hb | ⟨hn, hb⟩
            · rcases hps with h | hs | ⟨k, rs, r', rfl, hk, hs, h⟩
              · simp at h
              · exact .after hs hb
              · cases c with
                | nil =>
                  simp only [List.nil_append, List.cons.injEq] at h
                  rw [h.1] at hz
                  exact absurd (.rep hk) hz
                | cons c0 c =>
                  simp only [List.cons_append, List.cons.injEq] at h
                  rw [← h.2] at hs
                  exact .after hs hb
            · rcases hps with h | hs | ⟨k, rs, r', rfl, hk, hs, h⟩
              · simp at h
              · exact .atEnd hs hn (ih t p x q rfl (fun hx => hz (.last hs hn hx)) hb)
              · cases c with
                | nil =>
                  simp only [List.nil_append, List.cons.injEq] at h
                  rw [h.1] at hz
                  exact absurd (.rep hk) hz
                | cons c0 c =>
                  simp only [List.cons_append, List.cons.injEq] at h
                  rw [← h.2] at hs
                  exact absurd (.last hs hn (.rep hk)) hz
      rcases List.append_eq_append_iff.1 he with ⟨c, rfl, hc⟩ | ⟨c, rfl, hc⟩
      · exact hin c hc
      · -- before the rule
        cases c with
        | nil =>
          exact hin [] hc.symm
        | cons c0 c =>
          simp only [List.cons_append, List.cons.injEq] at hc
          obtain ⟨rfl, rfl⟩ := hc
          exact ih t a z (c ++ x :: q) (by simp) hz (beginsList_back hr hb)

/-! ### Questions -/

/-- The caches hold only what is right. -/
structure CachesSound (g : Gram) (nts : List Int) (c : Caches) : Prop where
  firsts : CacheSound g c.firsts
  follows : ∀ x, ∀ t ∈ look c.follows x, isLeaf t → g.Follows nts t x
  noTerminal : ∀ x, ∀ t ∈ look c.follows x, ¬ isTerminal x

theorem follow_look {order fuel passes c x c' s} (h : g.follow nts order fuel passes c x = some (c', s)) : s = look c'.follows x := by
  unfold follow at h
  split at h
  · split at h
    · cases h
    · split at h
      · cases h
      · cases h; rfl
  · cases h; rfl

theorem follow_sound_aux (hU : g.Closed U) (hE : g.EbnfSound U) (hN : ∀ n ∈ nts, U (.nonterminal n)) {order} (ho : Visits order)
    {fuel passes c x c' s} (hc : CachesSound g nts c) (h : g.follow nts order fuel passes c x = some (c', s)) : CachesSound g nts c' := by
  unfold follow at h
  split at h
  · split at h
    · cases h
    · rename_i st hst
      split at h
      · cases h
      · rename_i m hm
        cases h
        have h0 : FillSound g nts ⟨c.firsts, [], []⟩ :=
          ⟨hc.firsts, (fun x t ht => nomatch ht), (fun x s X hm => nomatch hm), (fun _ _ => rfl), (fun x s hm => nomatch hm)⟩
        have h1 := fillAll_sound hU hE hN fuel nts (fun _ h => h) h0 hst
        have h2 := loop_sound (P := fun z t => (isLeaf t → g.Follows nts t z) ∧ ¬ isTerminal z) (deps := order st.depend) (by
          intro x s y hm hy t hP
          obtain ⟨s', hm', hy'⟩ := (ho st.depend x y).1 ⟨s, hm, hy⟩
          obtain ⟨a, b, hs, hb⟩ := h1.depend x s' y hm' hy'
          exact ⟨fun hl => .atEnd hs hb (hP.1 hl), h1.noDepend x s' hm'⟩) passes (m := st.follow) (by
          intro z t ht
          refine ⟨fun hl => ?_, fun hz => ?_⟩
          · obtain ⟨X, a, b, hs, hb⟩ := h1.follow z t ht hl
            exact .after hs hb
          · rw [h1.noFollow z hz] at ht; cases ht) hm
        exact ⟨h1.firsts, fun x t ht => (h2 x t ht).1, fun x t ht => (h2 x t ht).2⟩
  · cases h; exact hc

theorem asked_sound (hU : g.Closed U) (hE : g.EbnfSound U) (hN : ∀ n ∈ nts, U (.nonterminal n)) {order} (ho : Visits order)
    {fuel passes} (qs : List Query) : ∀ {c c'}, (∀ x, Query.first x ∈ qs → U x) → CachesSound g nts c →
    g.asked nts order fuel passes c qs = some c' → CachesSound g nts c' := by
  induction qs with
  | nil => intro c c' _ hc h; cases h; exact hc
  | cons q qs ih =>
    intro c c' hq hc h
    have hq' : ∀ x, Query.first x ∈ qs → U x := fun x hx => hq x (List.mem_cons_of_mem _ hx)
    cases q with
    | first x =>
      simp only [asked] at h
      cases hf : g.first fuel c.firsts x with
      | none => rw [hf] at h; cases h
      | some p =>
        rw [hf] at h
        refine ih hq' ?_ h
        exact ⟨(first_sound_aux hU hE fuel c.firsts x p.1 p.2 (hq x List.mem_cons_self) hc.firsts hf).1, hc.follows, hc.noTerminal⟩
    | follow x =>
      simp only [asked] at h
      cases hf : g.follow nts order fuel passes c x with
      | none => rw [hf] at h; cases h
      | some p =>
        rw [hf] at h
        exact ih hq' (follow_sound_aux hU hE hN ho hc (c' := p.1) (s := p.2) hf) h

/-- The caches hold everything they should, or nothing at all. -/
structure CachesComplete (g : Gram) (nts : List Int) (c : Caches) : Prop where
  firsts : CacheDone g c.firsts
  follows : c.follows = [] ∨ ∀ x t, ¬ isTerminal x → isLeaf t → g.Follows nts t x → t ∈ look c.follows x

theorem site_not_terminal {X r} (h : Site g nts X r) : ¬ isTerminal X := by
  obtain ⟨n, _, r0, _, hi⟩ := h
  have key : ∀ X r Y s, Inside X r Y s → ¬ isTerminal X → ¬ isTerminal Y := by
    intro X r Y s h
    induction h with
    | self => exact id
    | step _ _ _ ih => intro _; exact ih (by simp [isTerminal])
  exact key _ _ _ _ hi (by simp [isTerminal])

theorem follow_complete_aux {rank} (hG : g.Simple U rank) (hN : ∀ n ∈ nts, U (.nonterminal n)) {order} (ho : Visits order)
    {fuel passes c x c' s} (hc : CachesComplete g nts c) (h : g.follow nts order fuel passes c x = some (c', s)) :
    CachesComplete g nts c' ∧ ∀ t, ¬ isTerminal x → isLeaf t → g.Follows nts t x → t ∈ s := by
  have hl := follow_look h
  unfold follow at h
  split at h
  · split at h
    · cases h
    · rename_i st hst
      split at h
      · cases h
      · rename_i m hm
        cases h
        obtain ⟨h1, _, h2⟩ := fillAll_complete hG hN fuel (st := ⟨c.firsts, [], []⟩) hc.firsts hst
        obtain ⟨h3, h4⟩ := loop_complete passes hm
        have hsite : ∀ X a x b, Site g nts X (a ++ x :: b) → ¬ isTerminal x → Has g st X x b := by
          rintro X a x b ⟨n, hn, r0, h0, hi⟩ hx
          exact h2 n hn r0 h0 X _ hi a x b rfl hx
        have key : ∀ x t, ¬ isTerminal x → isLeaf t → g.Follows nts t x → t ∈ look m x := by
          intro x t hx ht hF
          induction hF with
          | after hs hb => exact h3 _ t ((hsite _ _ _ _ hs hx).1 t ht hb)
          | @atEnd X a x b hs hn _ ih =>
            obtain ⟨s1, hm1, hX1⟩ := mem_look ((hsite _ _ _ _ hs hx).2 hn)
            obtain ⟨s2, hm2, hX2⟩ := (ho st.depend x X).2 ⟨s1, hm1, hX1⟩
            exact h4 x s2 X hm2 hX2 t (ih (site_not_terminal hs))
        exact ⟨⟨h1, .inr key⟩, fun t hx ht hF => key x t hx ht hF⟩
  · rename_i hne
    cases h
    refine ⟨hc, fun t hx ht hF => ?_⟩
    rcases hc.follows with h | h
    · exact absurd h hne
    · exact h x t hx ht hF

theorem asked_complete {rank} (hG : g.Simple U rank) (hN : ∀ n ∈ nts, U (.nonterminal n)) {order} (ho : Visits order)
    {fuel passes} (qs : List Query) : ∀ {c c'}, (∀ x, Query.first x ∈ qs → U x) → CachesComplete g nts c →
    g.asked nts order fuel passes c qs = some c' → CachesComplete g nts c' := by
  induction qs with
  | nil => intro c c' _ hc h; cases h; exact hc
  | cons q qs ih =>
    intro c c' hq hc h
    have hq' : ∀ x, Query.first x ∈ qs → U x := fun x hx => hq x (List.mem_cons_of_mem _ hx)
    cases q with
    | first x =>
      simp only [asked] at h
      cases hf : g.first fuel c.firsts x with
      | none => rw [hf] at h; cases h
      | some p =>
        rw [hf] at h
        refine ih hq' ?_ h
        exact ⟨(first_done hG fuel (hq x List.mem_cons_self) hc.firsts (c' := p.1) (s := p.2) hf).1, hc.follows⟩
    | follow x =>
      simp only [asked] at h
      cases hf : g.follow nts order fuel passes c x with
      | none => rw [hf] at h; cases h
      | some p =>
        rw [hf] at h
        exact ih hq' (follow_complete_aux hG hN ho hc (c' := p.1) (s := p.2) hf).1 h

/-- C87 (partial: the bodies of EBNF repetitions and alternatives that begin with something that can be empty can be empty as a whole).
After any questions, every symbol in the FOLLOW set of an item comes after the item in a sentential form of a nonterminal, and the sets of
terminals are empty. -/
theorem follow_sound_partial (U : Item → Prop) (hU : g.Closed U) (hE : g.EbnfSound U) (h1 : OneRule U)
    (hN : ∀ n ∈ nts, U (.nonterminal n)) (order : ItemSets → ItemSets) (ho : Visits order) (fuel passes : Nat) (qs : List Query)
    (hq : ∀ x, Query.first x ∈ qs → U x) (c c' : Caches) (x : Item) (s : List Item)
    (hc : g.asked nts order fuel passes {} qs = some c) (h : g.follow nts order fuel passes c x = some (c', s)) :
    (∀ t ∈ s, isLeaf t → ∃ n ∈ nts, ∃ a b, g.Derives [.nonterminal n] (a ++ x :: t :: b)) ∧ (∀ i, x = .terminal i → s = []) := by
  have h0 : CachesSound g nts {} := ⟨cacheSound_nil, (fun x t ht => nomatch ht), (fun x t ht => nomatch ht)⟩
  have hc' := follow_sound_aux hU hE hN ho (asked_sound hU hE hN ho qs hq h0 hc) h
  have hs := follow_look h
  refine ⟨?_, ?_⟩
  · intro t ht hl
    rw [hs] at ht
    exact follows_derives h1 hU hN (hc'.follows x t ht hl)
  · rintro i rfl
    rw [hs, List.eq_nil_iff_forall_not_mem]
    intro t ht
    exact hc'.noTerminal _ t ht rfl

/-- C87 (partial: grammars that satisfy `Simple`, and items that do not end a repetition). After any questions, the FOLLOW set of an item
holds just the symbols that come after the item in the sentential forms of the nonterminals. -/
theorem follow_exact_partial (U : Item → Prop) (rank : Item → Nat) (hG : g.Simple U rank) (h1 : OneRule U)
    (hN : ∀ n ∈ nts, U (.nonterminal n)) (hall : ∀ n, g.rules n ≠ [] → n ∈ nts) (order : ItemSets → ItemSets) (ho : Visits order)
    (fuel passes : Nat) (qs : List Query) (hq : ∀ x, Query.first x ∈ qs → U x) (c c' : Caches) (x : Item) (s : List Item)
    (hc : g.asked nts order fuel passes {} qs = some c) (h : g.follow nts order fuel passes c x = some (c', s))
    (hx : ∀ i, x ≠ .terminal i) (hrep : ¬ EndsRep g nts x) (t : Item) (ht : isLeaf t) :
    t ∈ s ↔ ∃ n ∈ nts, ∃ a b, g.Derives [.nonterminal n] (a ++ x :: t :: b) := by
  constructor
  · intro hm
    exact (follow_sound_partial U hG.closed hG.ebnfSound h1 hN order ho fuel passes qs hq c c' x s hc h).1 t hm ht
  · rintro ⟨n, _, a, b, hd⟩
    have hF := (derives_follows h1 hG.closed hN hall hd).2 t a x (t :: b) rfl hrep (beginsList_cons_of (.leaf ht))
    have h0 : CachesComplete g nts {} := ⟨⟨cacheSound_nil, (fun x s h => nomatch h)⟩, .inl rfl⟩
    refine (follow_complete_aux hG hN ho (asked_complete hG hN ho qs hq h0 hc) h).2 t ?_ ht hF
    cases x <;> simp_all [isTerminal]

/-! ### Termination -/

theorem followRest_total (V : List Item) (hV : g.Closed (· ∈ V)) (ys : List Item) : ∀ c s, (∀ y ∈ ys, y ∈ V) →
    ∃ p, g.followRest (V.length + 1) c s ys = some p := by
  induction ys with
  | nil => intro c s _; exact ⟨_, rfl⟩
  | cons y ys ih =>
    intro c s hy
    obtain ⟨c1, f, h1, _⟩ := first_total V hV (V.length + 1) c y (hy y List.mem_cons_self) (Nat.lt_succ_of_le (List.length_filter_le _ _))
    simp only [followRest, h1]
    split
    · exact ih _ _ fun z hz => hy z (List.mem_cons_of_mem _ hz)
    · exact ⟨_, rfl⟩

theorem followItem_total (V : List Item) (hV : g.Closed (· ∈ V)) (X : Item) (st : FollowState) (x : Item) (rest : List Item)
    (hr : ∀ y ∈ rest, y ∈ V) : ∃ st', g.followItem (V.length + 1) X st x rest = some st' := by
  obtain ⟨p, hp⟩ := followRest_total V hV rest st.firsts ((get x st.follow).getD []) hr
  unfold followItem
  rw [hp]
  exact ⟨_, rfl⟩

theorem fill_total (V : List Item) (hV : g.Closed (· ∈ V)) :
    (∀ X st r, (∀ y ∈ r, y ∈ V) → ∃ st', g.fillFollow (V.length + 1) X st r = some st') ∧
    (∀ st x, x ∈ V → ∃ st', g.fillInner (V.length + 1) st x = some st') ∧
    (∀ X st rs, (∀ r ∈ rs, ∀ y ∈ r, y ∈ V) → ∃ st', g.fillRules (V.length + 1) X st rs = some st') := by
  apply fillFollow.mutual_induct
  · intro st k rs ih hx
    rw [fillInner]
    exact ih fun r hr => hV _ hx r hr
  · intro st x hx _
    rw [fillInner.eq_2 _ _ _ _ hx]
    exact ⟨_, rfl⟩
  · intro X st _
    rw [fillFollow]
    exact ⟨_, rfl⟩
  · intro X st n rest ih hr
    rw [fillFollow]
    exact ih fun y hy => hr y (List.mem_cons_of_mem _ hy)
  · intro X st x rest hx hn hr
    obtain ⟨st', h⟩ := followItem_total V hV X st x rest fun y hy => hr y (List.mem_cons_of_mem _ hy)
    rw [hn] at h; cases h
  · intro X st x rest hx st1 h1 hn ih hr
    obtain ⟨st', h⟩ := ih (hr x List.mem_cons_self)
    rw [hn] at h; cases h
  · intro X st x rest hx st1 h1 st2 h2 _ ih hr
    rw [fillFollow.eq_3 _ _ _ _ _ _ hx, h1]
    simp only [h2]
    exact ih fun y hy => hr y (List.mem_cons_of_mem _ hy)
  · intro X st _
    rw [fillRules]
    exact ⟨_, rfl⟩
  · intro X st r rs hn ih hr
    obtain ⟨st', h⟩ := ih (hr r List.mem_cons_self)
    rw [hn] at h; cases h
  · intro X st r rs st1 h1 _ ih hr
    rw [fillRules, h1]
    exact ih fun r hr' => hr r (List.mem_cons_of_mem _ hr')

theorem fillAll_total (V : List Item) (hV : g.Closed (· ∈ V)) (ns : List Int) : ∀ st, (∀ n ∈ ns, .nonterminal n ∈ V) →
    ∃ st', g.fillAll (V.length + 1) st ns = some st' := by
  induction ns with
  | nil => intro st _; exact ⟨_, rfl⟩
  | cons n ns ih =>
    intro st hn
    obtain ⟨st1, h1⟩ := (fill_total V hV).2.2 (.nonterminal n) st (g.rules n) (fun r hr => hV _ (hn n List.mem_cons_self) r hr)
    simp only [fillAll, h1]
    exact ih st1 fun m hm => hn m (List.mem_cons_of_mem _ hm)

theorem fold_changed (l : List (Item × Item)) : ∀ (p : ItemSets × Bool), p.2 = false →
    (l.foldl (fun p d => dependStep d.1 p d.2) p).2 = true →
    ∃ d ∈ l, ∃ t, t ∈ look (l.foldl (fun p d => dependStep d.1 p d.2) p).1 d.1 ∧ t ∉ look p.1 d.1 := by
  induction l with
  | nil => intro p h h'; rw [List.foldl_nil, h] at h'; cases h'
  | cons d l ih =>
    intro p h h'
    obtain ⟨x, y⟩ := d
    simp only [List.foldl_cons] at h' ⊢
    cases hf : (dependStep x p y).2 with
    | false =>
      obtain ⟨d, hd, t, h1, h2⟩ := ih _ hf h'
      exact ⟨d, List.mem_cons_of_mem _ hd, t, h1, fun hm => h2 (step_mono _ _ _ _ _ hm)⟩
    | true =>
      have hy : y ≠ x := by
        rintro rfl
        unfold dependStep at hf
        rw [if_pos rfl, h] at hf
        cases hf
      rw [flag_dependStep hy, h, Bool.false_or] at hf
      simp only [unite, List.any_eq_true, Bool.not_eq_true', List.contains_eq_mem, decide_eq_false_iff_not] at hf
      obtain ⟨t, ht, hn⟩ := hf
      refine ⟨(x, y), List.mem_cons_self, t, fold_mono l _ x t ?_, hn⟩
      rw [look_dependStep hy, if_pos rfl]
      exact mem_unite.2 (.inr ht)

theorem filter_less {α : Type} {p q : α → Bool} (l : List α) (h : ∀ a ∈ l, q a → p a) {a : α} (ha : a ∈ l) (hp : p a) (hq : ¬ q a) :
    (l.filter q).length < (l.filter p).length := by
  simp only [← List.countP_eq_length_filter]
  induction l with
  | nil => cases ha
  | cons b l ih =>
    rw [List.countP_cons, List.countP_cons]
    have hle : List.countP q l ≤ List.countP p l := List.countP_mono_left fun a ha => h a (List.mem_cons_of_mem _ ha)
    rcases List.mem_cons.1 ha with rfl | ha
    · simp only [hp, hq, if_true, Bool.false_eq_true, if_false]
      omega
    · have := ih (fun a ha => h a (List.mem_cons_of_mem _ ha)) ha
      have hb := h b List.mem_cons_self
      by_cases hqb : q b
      · simp only [hqb, hb hqb, if_true]; omega
      · simp only [hqb, Bool.false_eq_true, if_false]; omega

/-- The passes come to an end. -/
theorem loop_total (deps : ItemSets) (m : ItemSets) : ∃ k, ∀ passes ≥ k, ∃ m', dependLoop deps passes m = some m' := by
  obtain ⟨T, hT⟩ : ∃ T : List Item, ∀ z, ∀ t ∈ look m z, t ∈ T := by
    refine ⟨m.flatMap fun p => p.2, fun z t ht => ?_⟩
    obtain ⟨s, h1, h2⟩ := mem_look ht
    exact List.mem_flatMap.2 ⟨(z, s), h1, h2⟩
  let all := ((pairs deps).map Prod.fst).product T
  let left : ItemSets → Nat := fun m => (all.filter fun p => !(look m p.1).contains p.2).length
  have key : ∀ k m, (∀ z, ∀ t ∈ look m z, t ∈ T) → left m < k → ∀ passes ≥ k, ∃ m', dependLoop deps passes m = some m' := by
    intro k
    induction k with
    | zero => intro m _ h; omega
    | succ k ih =>
      intro m hm hk passes hp
      obtain ⟨passes, rfl⟩ : ∃ j, passes = j + 1 := ⟨passes - 1, by omega⟩
      simp only [dependLoop]
      split
      · rename_i hch
        have hm' : ∀ z, ∀ t ∈ look (dependPass deps m).1 z, t ∈ T := by
          rw [dependPass_eq]
          exact fold_sound (P := fun _ t => t ∈ T) _ (fun _ _ _ h => h) (m, false) hm
        refine ih _ hm' ?_ passes (by omega)
        have hlt : left (dependPass deps m).1 < left m := by
          rw [dependPass_eq] at hch hm' ⊢
          obtain ⟨d, hd, t, h1, h2⟩ := fold_changed _ (m, false) rfl hch
          refine filter_less (a := (d.1, t)) all ?_ ?_ ?_ ?_
          · rintro ⟨x, y⟩ _ h
            simp only [Bool.not_eq_true', List.contains_eq_mem, decide_eq_false_iff_not] at h ⊢
            exact fun hm => h (fold_mono _ (m, false) x y hm)
          · exact List.pair_mem_product.2 ⟨List.mem_map.2 ⟨d, hd, rfl⟩, hm' d.1 t h1⟩
          · simpa using h2
          · simpa using h1
        omega
      · exact ⟨_, rfl⟩
  exact ⟨left m + 1, key _ m hT (Nat.lt_succ_self _)⟩

/-- Every question gets an answer, whatever has been cached before. -/
theorem follow_answers (V : List Item) (hV : g.Closed (· ∈ V)) (hN : ∀ n ∈ nts, .nonterminal n ∈ V) (order : ItemSets → ItemSets)
    (c : Caches) (x : Item) : ∃ k, ∀ passes ≥ k, ∃ c' s, g.follow nts order (V.length + 1) passes c x = some (c', s) := by
  by_cases hc : c.follows = []
  · obtain ⟨st, hst⟩ := fillAll_total V hV nts ⟨c.firsts, [], []⟩ hN
    obtain ⟨k, hk⟩ := loop_total (order st.depend) st.follow
    refine ⟨k, fun passes hp => ?_⟩
    obtain ⟨m, hm⟩ := hk passes hp
    unfold follow
    rw [if_pos hc]
    simp only [hst, hm]
    exact ⟨_, _, rfl⟩
  · refine ⟨0, fun passes _ => ?_⟩
    unfold follow
    rw [if_neg hc]
    exact ⟨_, _, rfl⟩

theorem Site.mem {X r} (h : Site g nts X r) (hU : g.Closed U) (hN : ∀ n ∈ nts, U (.nonterminal n)) : U X := by
  obtain ⟨n, hn, r0, h0, hi⟩ := h
  have key : ∀ X r Y s, Inside X r Y s → U X → (∀ y ∈ r, U y) → U Y := by
    intro X r Y s h
    induction h with
    | self => intro h _; exact h
    | step hm hr _ ih => intro _ h; exact ih (h _ hm) (hU _ (h _ hm) _ hr)
  exact key _ _ _ _ hi (hN n hn) (hU _ (hN n hn) _ h0)

/-- Without repetitions, no item ends one. -/
theorem not_endsRep (hU : g.Closed U) (hN : ∀ n ∈ nts, U (.nonterminal n))
    (hno : ∀ k rs, U (.ebnf k rs) → k ≠ .repeating ∧ k ≠ .repeatZero) {x : Item} (hx : U x) : ¬ EndsRep g nts x := by
  intro h
  induction h with
  | rep hk =>
    rcases hk with rfl | rfl
    · exact (hno _ _ hx).1 rfl
    · exact (hno _ _ hx).2 rfl
  | last hs _ _ ih => exact ih (hs.mem hU hN)

end Gram
end TameParse

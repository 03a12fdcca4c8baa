import Verif.First
import Mathlib.Tactic.Tauto
/-
C31, C32: FIRST sets are sound and complete.
-/
namespace TameParse
open AssocMap

namespace Gram
variable {g : Gram}

/-- Items that derive the empty string. -/
inductive Nullable (g : Gram) : Item → Prop
  | mk {x r} : r ∈ g.prods x → (∀ y ∈ r, Nullable g y) → Nullable g x

/-- `Begins g t x`: the symbol `t` begins a sentential form derived from `x`. -/
inductive Begins (g : Gram) (t : Item) : Item → Prop
  | leaf : isLeaf t → Begins g t t
  | prod {x pre y post} : pre ++ y :: post ∈ g.prods x → (∀ z ∈ pre, Nullable g z) → Begins g t y → Begins g t x

def BeginsList (g : Gram) (u : List Item) (t : Item) : Prop :=
  ∃ pre y post, u = pre ++ y :: post ∧ (∀ z ∈ pre, g.Nullable z) ∧ g.Begins t y

theorem derives_congr {u v : List Item} (h : g.Derives u v) (a b : List Item) : g.Derives (a ++ u ++ b) (a ++ v ++ b) := by
  induction h with
  | refl => exact .refl
  | tail _ hs ih =>
    refine ih.tail ?_
    obtain ⟨a', x, b', r, rfl, hr, rfl⟩ := hs
    exact ⟨a ++ a', x, b' ++ b, r, by simp, hr, by simp⟩

theorem derives_prod {x : Item} {r : List Item} (h : r ∈ g.prods x) : g.Derives [x] r :=
  Relation.ReflTransGen.single ⟨[], x, [], r, rfl, h, by simp⟩

theorem derives_nil_of {u : List Item} (h : ∀ x ∈ u, g.Derives [x] []) : g.Derives u [] := by
  induction u with
  | nil => exact .refl
  | cons x u ih =>
    have h1 := derives_congr (h x List.mem_cons_self) [] u
    exact Relation.ReflTransGen.trans h1 (ih fun y hy => h y (List.mem_cons_of_mem _ hy))

theorem derives_nil_iff (u : List Item) : g.Derives u [] ↔ ∀ x ∈ u, g.Nullable x := by
  constructor
  · intro h
    induction h using Relation.ReflTransGen.head_induction_on with
    | refl => simp
    | head hs _ ih =>
      obtain ⟨a, x, b, r, rfl, hr, rfl⟩ := hs
      intro y hy
      simp only [List.mem_append, List.mem_cons] at hy
      rcases hy with hy | rfl | hy
      · exact ih y (by simp [hy])
      · exact ⟨hr, fun z hz => ih z (by simp [hz])⟩
      · exact ih y (by simp [hy])
  · intro h
    apply derives_nil_of
    intro x hx
    have := h x hx
    clear hx
    induction this with
    | mk hr _ ih => exact Relation.ReflTransGen.trans (derives_prod hr) (derives_nil_of fun y hy => ih y hy)

theorem Begins.derives {t x : Item} (h : g.Begins t x) : ∃ rest, g.Derives [x] (t :: rest) := by
  induction h with
  | leaf _ => exact ⟨[], .refl⟩
  | @prod x pre y post hr hp _ ih =>
    obtain ⟨rest, ih⟩ := ih
    refine ⟨rest ++ post, ?_⟩
    have h1 := derives_prod hr
    have h2 := derives_congr ((derives_nil_iff pre).2 hp) [] (y :: post)
    have h3 := derives_congr ih [] post
    exact Relation.ReflTransGen.trans h1 (Relation.ReflTransGen.trans h2 h3)

theorem prods_leaf {t : Item} (h : isLeaf t) : g.prods t = [] := by
  cases t <;> simp_all [isLeaf, prods]

theorem isLeaf_ne_empty {t : Item} (h : isLeaf t) : t ≠ .empty := by rintro rfl; cases h

theorem beginsList_of_derives {u : List Item} {t : Item} {rest : List Item} (ht : isLeaf t) (h : g.Derives u (t :: rest)) :
    g.BeginsList u t := by
  generalize hv : t :: rest = v at h
  induction h using Relation.ReflTransGen.head_induction_on with
  | refl => exact ⟨[], t, rest, hv.symm, by simp, .leaf ht⟩
  | head hs _ ih =>
    obtain ⟨a, x, b, r, rfl, hr, rfl⟩ := hs
    obtain ⟨pre, y, post, he, hp, hb⟩ := ih
    rw [List.append_assoc] at he
    rcases List.append_eq_append_iff.1 he with ⟨d, hd1, hd2⟩ | ⟨d, hd1, hd2⟩
    · -- the symbol comes from `r` or from `b`
      subst hd1
      rcases List.append_eq_append_iff.1 hd2 with ⟨e, he1, he2⟩ | ⟨e, he1, he2⟩
      · subst he1
        refine ⟨a ++ x :: e, y, post, by rw [he2]; simp, ?_, hb⟩
        intro z hz
        simp only [List.mem_append, List.mem_cons] at hz
        rcases hz with hz | rfl | hz
        · exact hp z (by simp [hz])
        · exact ⟨hr, fun w hw => hp w (by simp [hw])⟩
        · exact hp z (by simp [hz])
      · cases e with
        | nil =>
          simp only [List.nil_append] at he2
          simp only [List.append_nil] at he1
          subst he1
          refine ⟨a ++ [x], y, post, by rw [← he2]; simp, ?_, hb⟩
          intro z hz
          simp only [List.mem_append, List.mem_singleton] at hz
          rcases hz with hz | rfl
          · exact hp z (by simp [hz])
          · exact ⟨hr, fun w hw => hp w (by simp [hw])⟩
        | cons e0 e =>
          simp only [List.cons_append, List.cons.injEq] at he2
          obtain ⟨rfl, rfl⟩ := he2
          refine ⟨a, x, b, rfl, fun z hz => hp z (by simp [hz]), ?_⟩
          subst he1
          exact .prod hr (fun z hz => hp z (by simp [hz])) hb
    · cases d with
      | nil =>
        simp only [List.append_nil] at hd1
        simp only [List.nil_append] at hd2
        subst hd1
        cases r with
        | nil =>
          simp only [List.nil_append] at hd2
          refine ⟨a ++ [x], y, post, by rw [← hd2]; simp, ?_, hb⟩
          intro z hz
          simp only [List.mem_append, List.mem_singleton] at hz
          rcases hz with hz | rfl
          · exact hp z hz
          · exact ⟨hr, by simp⟩
        | cons r0 r =>
          simp only [List.cons_append, List.cons.injEq] at hd2
          obtain ⟨rfl, _⟩ := hd2
          exact ⟨a, x, b, rfl, hp, .prod (pre := []) hr (by simp) hb⟩
      | cons d0 d =>
        simp only [List.cons_append, List.cons.injEq] at hd2
        obtain ⟨rfl, rfl⟩ := hd2
        subst hd1
        exact ⟨pre, y, d ++ x :: b, by simp, hp, hb⟩

theorem begins_iff {t x : Item} (ht : isLeaf t) : (∃ rest, g.Derives [x] (t :: rest)) ↔ g.Begins t x := by
  constructor
  · rintro ⟨rest, h⟩
    obtain ⟨pre, y, post, he, _, hb⟩ := beginsList_of_derives ht h
    cases pre with
    | nil => simp only [List.nil_append, List.cons.injEq] at he; rw [he.1]; exact hb
    | cons p pre => simp at he
  · exact Begins.derives

theorem nullable_iff {x : Item} : g.Derives [x] [] ↔ g.Nullable x := by
  rw [derives_nil_iff]; simp

/-! ### Soundness -/

/-- `FirstSound` in terms of `Begins` and `Nullable`. -/
def SoundI (g : Gram) (x : Item) (s : List Item) : Prop :=
  (∀ t ∈ s, isLeaf t → g.Begins t x) ∧ (Item.empty ∈ s → g.Nullable x)

theorem firstSound_iff (x : Item) (s : List Item) : g.FirstSound x s ↔ g.SoundI x s := by
  simp only [FirstSound, SoundI, nullable_iff]
  refine and_congr ⟨fun h t ht hl => (begins_iff hl).1 (h t ht hl), fun h t ht hl => (begins_iff hl).2 (h t ht hl)⟩ Iff.rfl

def CacheSound (g : Gram) (c : ItemCache) : Prop := ∀ x s, get x c = some s → g.SoundI x s

/-- A set of items that holds the items of the rules of its members. -/
def Closed (g : Gram) (U : Item → Prop) : Prop := ∀ x, U x → ∀ r ∈ g.ownRules x, ∀ y ∈ r, U y

/-- The bodies of repetitions and alternatives that begin with an item that can be empty can be empty as a whole. -/
def EbnfSound (g : Gram) (U : Item → Prop) : Prop :=
  ∀ k rs, U (.ebnf k rs) → k = .repeating ∨ k = .alternative → ∀ y post, y :: post ∈ rs → g.Nullable y → ∀ z ∈ post, g.Nullable z

variable {U : Item → Prop}

def RecSound (g : Gram) (U : Item → Prop) (rec : ItemCache → Item → Option (ItemCache × List Item)) : Prop :=
  ∀ c y c' s, U y → CacheSound g c → rec c y = some (c', s) → CacheSound g c' ∧ g.SoundI y s

theorem mem_dropEmpty {t : Item} {s : List Item} : t ∈ dropEmpty s ↔ t ∈ s ∧ t ≠ .empty := by
  simp [dropEmpty]

theorem firstTail_sound {rec} (hrec : RecSound g U rec) {X : Item} (xs : List Item) : ∀ (pre : List Item) {c result c' s},
    pre ++ xs ∈ g.prods X → (∀ y ∈ xs, U y) → (∀ z ∈ pre, g.Nullable z) → (∀ t ∈ result, isLeaf t → g.Begins t X) →
    CacheSound g c → firstTail rec c result xs = some (c', s) → CacheSound g c' ∧ g.SoundI X s := by
  induction xs with
  | nil =>
    intro pre c result c' s hr _ hp hres hc h
    simp only [firstTail, Option.some.injEq, Prod.mk.injEq] at h
    obtain ⟨rfl, rfl⟩ := h
    exact ⟨hc, hres, fun _ => ⟨hr, by simpa using hp⟩⟩
  | cons x xs ih =>
    intro pre c result c' s hr hU hp hres hc h
    simp only [firstTail] at h
    cases hx : rec c x with
    | none => rw [hx] at h; cases h
    | some cs =>
      obtain ⟨c1, s1⟩ := cs
      rw [hx] at h
      dsimp only at h
      obtain ⟨hc1, hs1⟩ := hrec c x c1 s1 (hU x List.mem_cons_self) hc hx
      have hres' : ∀ t ∈ dropEmpty result ++ s1, isLeaf t → g.Begins t X := by
        intro t ht hl
        rcases List.mem_append.1 ht with ht | ht
        · exact hres t (mem_dropEmpty.1 ht).1 hl
        · exact .prod hr hp (hs1.1 t ht hl)
      by_cases he : Item.empty ∈ s1
      · rw [if_pos he] at h
        refine ih (pre ++ [x]) (by simpa using hr) (fun y hy => hU y (List.mem_cons_of_mem _ hy)) ?_ hres' hc1 h
        intro z hz
        rcases List.mem_append.1 hz with hz | hz
        · exact hp z hz
        · rw [List.mem_singleton] at hz; subst hz; exact hs1.2 he
      · rw [if_neg he] at h
        simp only [Option.some.injEq, Prod.mk.injEq] at h
        obtain ⟨rfl, rfl⟩ := h
        refine ⟨hc1, hres', fun hm => ?_⟩
        rcases List.mem_append.1 hm with hm | hm
        · exact absurd rfl (mem_dropEmpty.1 hm).2
        · exact absurd hm he

theorem firstRules_sound {rec} (hrec : RecSound g U rec) {X : Item} (rs : List (List Item)) : ∀ {c result c' s},
    (∀ r ∈ rs, r ∈ g.prods X ∧ ∀ y ∈ r, U y) → g.SoundI X result → CacheSound g c → firstRules rec c result rs = some (c', s) →
    CacheSound g c' ∧ g.SoundI X s := by
  induction rs with
  | nil =>
    intro c result c' s _ hres hc h
    simp only [firstRules, Option.some.injEq, Prod.mk.injEq] at h
    obtain ⟨rfl, rfl⟩ := h
    exact ⟨hc, hres⟩
  | cons r rs ih =>
    intro c result c' s hr hres hc h
    have hrs : ∀ r ∈ rs, r ∈ g.prods X ∧ ∀ y ∈ r, U y := fun r hm => hr r (List.mem_cons_of_mem _ hm)
    obtain ⟨hrp, hrU⟩ := hr r List.mem_cons_self
    cases r with
    | nil =>
      simp only [firstRules] at h
      refine ih hrs ⟨?_, fun _ => ⟨hrp, by simp⟩⟩ hc h
      intro t ht hl
      rcases List.mem_append.1 ht with ht | ht
      · exact hres.1 t ht hl
      · rw [List.mem_singleton] at ht; exact absurd ht (isLeaf_ne_empty hl)
    | cons x xs =>
      simp only [firstRules] at h
      cases hx : rec c x with
      | none => rw [hx] at h; cases h
      | some cs =>
        obtain ⟨c1, s1⟩ := cs
        rw [hx] at h
        dsimp only at h
        obtain ⟨hc1, hs1⟩ := hrec c x c1 s1 (hrU x List.mem_cons_self) hc hx
        have hres' : ∀ t ∈ result ++ s1, isLeaf t → g.Begins t X := by
          intro t ht hl
          rcases List.mem_append.1 ht with ht | ht
          · exact hres.1 t ht hl
          · exact .prod (pre := []) hrp (by simp) (hs1.1 t ht hl)
        by_cases he : Item.empty ∈ s1
        · rw [if_pos he] at h
          cases ht : firstTail rec c1 (result ++ s1) xs with
          | none => rw [ht] at h; cases h
          | some cs2 =>
            obtain ⟨c2, s2⟩ := cs2
            rw [ht] at h
            dsimp only at h
            obtain ⟨hc2, hs2⟩ := firstTail_sound hrec xs [x] (by simpa using hrp) (fun y hy => hrU y (List.mem_cons_of_mem _ hy))
              (by simpa using hs1.2 he) hres' hc1 ht
            exact ih hrs hs2 hc2 h
        · rw [if_neg he] at h
          refine ih hrs ⟨hres', fun hm => ?_⟩ hc1 h
          rcases List.mem_append.1 hm with hm | hm
          · exact hres.2 hm
          · exact absurd hm he

theorem firstHeads_sound {rec} (hrec : RecSound g U rec) {X : Item} (rs : List (List Item)) : ∀ {c result c' s},
    (∀ r ∈ rs, r ∈ g.prods X ∧ (∀ y ∈ r, U y) ∧ ∀ y post, r = y :: post → g.Nullable y → ∀ z ∈ post, g.Nullable z) → g.SoundI X result →
    CacheSound g c → firstHeads rec c result rs = some (c', s) → CacheSound g c' ∧ g.SoundI X s := by
  induction rs with
  | nil =>
    intro c result c' s _ hres hc h
    simp only [firstHeads, Option.some.injEq, Prod.mk.injEq] at h
    obtain ⟨rfl, rfl⟩ := h
    exact ⟨hc, hres⟩
  | cons r rs ih =>
    intro c result c' s hr hres hc h
    have hrs := fun r hm => hr r (List.mem_cons_of_mem _ hm)
    obtain ⟨hrp, hrU, hrn⟩ := hr r List.mem_cons_self
    cases r with
    | nil =>
      simp only [firstHeads] at h
      refine ih hrs ⟨?_, fun _ => ⟨hrp, by simp⟩⟩ hc h
      intro t ht hl
      rcases List.mem_append.1 ht with ht | ht
      · exact hres.1 t ht hl
      · rw [List.mem_singleton] at ht; exact absurd ht (isLeaf_ne_empty hl)
    | cons x xs =>
      simp only [firstHeads] at h
      cases hx : rec c x with
      | none => rw [hx] at h; cases h
      | some cs =>
        obtain ⟨c1, s1⟩ := cs
        rw [hx] at h
        dsimp only at h
        obtain ⟨hc1, hs1⟩ := hrec c x c1 s1 (hrU x List.mem_cons_self) hc hx
        refine ih hrs ⟨?_, fun hm => ?_⟩ hc1 h
        · intro t ht hl
          rcases List.mem_append.1 ht with ht | ht
          · exact hres.1 t ht hl
          · exact .prod (pre := []) hrp (by simp) (hs1.1 t ht hl)
        · rcases List.mem_append.1 hm with hm | hm
          · exact hres.2 hm
          · refine ⟨hrp, fun y hy => ?_⟩
            have hn := hs1.2 hm
            rcases List.mem_cons.1 hy with rfl | hy
            · exact hn
            · exact hrn x xs rfl hn y hy

theorem ebnfRule_mem {rs : List (List Item)} {x : Item} {xs : List Item} (h : ebnfRule rs = x :: xs) : x :: xs ∈ rs := by
  cases rs with
  | nil => simp [ebnfRule] at h
  | cons r rs => simp only [ebnfRule, List.headD_cons] at h; rw [h]; exact List.mem_cons_self

theorem itemFirst_sound {rec} (hrec : RecSound g U rec) (hU : g.Closed U) (hE : g.EbnfSound U) {x : Item} {c c' s} (hx : U x)
    (hc : CacheSound g c) (h : itemFirst rec g c x = some (c', s)) : CacheSound g c' ∧ g.SoundI x s := by
  have hleaf : ∀ x : Item, isLeaf x → g.SoundI x [x] := by
    intro x hx
    refine ⟨?_, ?_⟩
    · intro t ht _
      rw [List.mem_singleton] at ht
      subst ht
      exact .leaf hx
    · intro ht
      rw [List.mem_singleton] at ht
      exact absurd ht.symm (isLeaf_ne_empty hx)
  cases x with
  | empty =>
    simp only [itemFirst, Option.some.injEq, Prod.mk.injEq] at h
    obtain ⟨rfl, rfl⟩ := h
    refine ⟨hc, ?_, fun _ => Nullable.mk (r := []) (by simp [prods]) (by simp)⟩
    intro t ht hl
    rw [List.mem_singleton] at ht
    exact absurd ht (isLeaf_ne_empty hl)
  | eoi | eog | terminal n | guard p r =>
    simp only [itemFirst, Option.some.injEq, Prod.mk.injEq] at h
    obtain ⟨rfl, rfl⟩ := h
    exact ⟨hc, hleaf _ rfl⟩
  | nonterminal n =>
    simp only [itemFirst] at h
    refine firstRules_sound hrec (g.rules n) (fun r hr => ⟨hr, hU _ hx r hr⟩) ⟨?_, ?_⟩ hc h
    · intro t ht hl
      rw [List.mem_singleton] at ht; subst ht; cases hl
    · intro ht; simp at ht
  | ebnf k rs =>
    have hopt : ∀ k, k = .optional ∨ k = .repeatZero → U (.ebnf k rs) → (match ebnfRule rs with
        | [] => some (c, [Item.empty])
        | x :: _ => match rec c x with
          | none => none
          | some (c, s) => some (c, .empty :: s)) = some (c', s) → CacheSound g c' ∧ g.SoundI (.ebnf k rs) s := by
      intro k hk hx h
      have hnull : g.Nullable (.ebnf k rs) := by
        rcases hk with rfl | rfl <;> exact Nullable.mk (r := []) (by simp [prods]) (by simp)
      cases hr : ebnfRule rs with
      | nil =>
        rw [hr] at h
        simp only [Option.some.injEq, Prod.mk.injEq] at h
        obtain ⟨rfl, rfl⟩ := h
        refine ⟨hc, ?_, fun _ => hnull⟩
        intro t ht hl
        rw [List.mem_singleton] at ht
        exact absurd ht (isLeaf_ne_empty hl)
      | cons y ys =>
        rw [hr] at h
        dsimp only at h
        cases hy : rec c y with
        | none => rw [hy] at h; cases h
        | some cs =>
          obtain ⟨c1, s1⟩ := cs
          rw [hy] at h
          simp only [Option.some.injEq, Prod.mk.injEq] at h
          obtain ⟨rfl, rfl⟩ := h
          obtain ⟨hc1, hs1⟩ := hrec c y c1 s1 (hU _ hx _ (ebnfRule_mem hr) y List.mem_cons_self) hc hy
          refine ⟨hc1, ?_, fun _ => hnull⟩
          intro t ht hl
          rcases List.mem_cons.1 ht with ht | ht
          · exact absurd ht (isLeaf_ne_empty hl)
          · have hb := hs1.1 t ht hl
            rcases hk with rfl | rfl
            · exact .prod (pre := []) (post := ys) (by simp [prods, hr]) (by simp) hb
            · exact .prod (pre := [.ebnf .repeatZero rs]) (post := ys) (by simp [prods, hr]) (by simpa using hnull) hb
    cases k with
    | optional => exact hopt _ (.inl rfl) hx h
    | repeatZero => exact hopt _ (.inr rfl) hx h
    | repeating =>
      simp only [itemFirst] at h
      cases hr : ebnfRule rs with
      | nil =>
        rw [hr] at h
        simp only [Option.some.injEq, Prod.mk.injEq] at h
        obtain ⟨rfl, rfl⟩ := h
        exact ⟨hc, by simp [SoundI]⟩
      | cons y ys =>
        rw [hr] at h
        dsimp only at h
        obtain ⟨hc1, hs1⟩ := hrec c y c' s (hU _ hx _ (ebnfRule_mem hr) y List.mem_cons_self) hc h
        refine ⟨hc1, ?_, ?_⟩
        · intro t ht hl
          exact .prod (pre := []) (post := ys) (by simp [prods, hr]) (by simp) (hs1.1 t ht hl)
        · intro he
          refine Nullable.mk (r := y :: ys) (by simp [prods, hr]) ?_
          intro z hz
          rcases List.mem_cons.1 hz with rfl | hz
          · exact hs1.2 he
          · exact hE _ rs hx (.inl rfl) y ys (ebnfRule_mem hr) (hs1.2 he) z hz
    | alternative =>
      simp only [itemFirst] at h
      refine firstHeads_sound hrec rs (fun r hr => ⟨hr, hU _ hx r hr, ?_⟩) (by simp [SoundI]) hc h
      rintro y post rfl
      exact hE _ rs hx (.inr rfl) y post hr

theorem first_sound_aux (hU : g.Closed U) (hE : g.EbnfSound U) (fuel : Nat) : RecSound g U (g.first fuel) := by
  induction fuel with
  | zero => intro c y c' s _ _ h; cases h
  | succ fuel ih =>
    intro c y c' s hy hc h
    simp only [first] at h
    cases hg : get y c with
    | some s' =>
      rw [hg] at h
      simp only [Option.some.injEq, Prod.mk.injEq] at h
      obtain ⟨rfl, rfl⟩ := h
      exact ⟨hc, hc y _ hg⟩
    | none =>
      rw [hg] at h
      dsimp only at h
      have hc0 : CacheSound g (put y [] c) := by
        intro x s hx
        rw [get_put] at hx
        split at hx
        · cases hx; simp [SoundI]
        · exact hc x s hx
      cases hi : itemFirst (first g fuel) g (put y [] c) y with
      | none => rw [hi] at h; cases h
      | some cs =>
        obtain ⟨c1, s1⟩ := cs
        rw [hi] at h
        simp only [Option.some.injEq, Prod.mk.injEq] at h
        obtain ⟨rfl, rfl⟩ := h
        obtain ⟨h1, h2⟩ := itemFirst_sound ih hU hE hy hc0 hi
        refine ⟨?_, h2⟩
        intro x s hx
        rw [get_put] at hx
        split at hx
        · rename_i he; cases hx; rw [← he]; exact h2
        · exact h1 x s hx

theorem cacheSound_nil : CacheSound g [] := by intro x s h; cases h

theorem queries_sound (hU : g.Closed U) (hE : g.EbnfSound U) (fuel : Nat) (qs : List Item) : ∀ {c c'}, (∀ q ∈ qs, U q) →
    CacheSound g c → g.queries fuel c qs = some c' → CacheSound g c' := by
  induction qs with
  | nil => intro c c' _ hc h; cases h; exact hc
  | cons q qs ih =>
    intro c c' hq hc h
    simp only [queries] at h
    cases hf : g.first fuel c q with
    | none => rw [hf] at h; cases h
    | some cs =>
      rw [hf] at h
      exact ih (fun q hq' => hq q (List.mem_cons_of_mem _ hq')) (first_sound_aux hU hE fuel c q cs.1 cs.2 (hq q List.mem_cons_self) hc hf).1 h

/-- C31 (partial: the bodies of EBNF repetitions and alternatives that begin with something that can be empty can be empty as a whole; this
includes all grammars without these items). After any queries, everything in the FIRST set of an item begins a sentential form of the item,
and the empty item is there only if the item derives the empty string. -/
theorem first_sound_partial (U : Item → Prop) (hU : g.Closed U) (hE : g.EbnfSound U) (fuel : Nat) (qs : List Item) (hq : ∀ q ∈ qs, U q)
    (c c' : ItemCache) (x : Item) (s : List Item) (hc : g.queries fuel [] qs = some c) (hx : U x) (h : g.first fuel c x = some (c', s)) :
    g.FirstSound x s :=
  (firstSound_iff x s).2 (first_sound_aux hU hE fuel c x c' s hx (queries_sound hU hE fuel qs hq cacheSound_nil hc) h).2

/-! ### Completeness -/

def CompleteI (g : Gram) (x : Item) (s : List Item) : Prop :=
  (∀ t, isLeaf t → g.Begins t x → t ∈ s) ∧ (g.Nullable x → Item.empty ∈ s)

theorem firstComplete_iff (x : Item) (s : List Item) : g.FirstComplete x s ↔ g.CompleteI x s := by
  simp only [FirstComplete, CompleteI, nullable_iff]
  refine and_congr ⟨fun h t hl hb => ?_, fun h t rest hl hd => h t hl ((begins_iff hl).1 ⟨rest, hd⟩)⟩ Iff.rfl
  obtain ⟨rest, hd⟩ := (begins_iff hl).2 hb
  exact h t rest hl hd

/-- Grammars for which the FIRST sets are complete: no left recursion (also not behind items that can be empty), EBNF bodies do not begin
with an item that can be empty unless that is all there is, bodies of repetitions are not empty, and no rule that can be empty comes before
a rule that begins with an item that can be empty but cannot be empty as a whole. -/
structure Simple (g : Gram) (U : Item → Prop) (rank : Item → Nat) : Prop where
  closed : g.Closed U
  rankNt : ∀ n, U (.nonterminal n) → ∀ pre y post, pre ++ y :: post ∈ g.rules n → (∀ z ∈ pre, g.Nullable z) →
    rank y < rank (.nonterminal n)
  rankEbnf : ∀ k rs, U (.ebnf k rs) → ∀ y post, y :: post ∈ rs → rank y < rank (.ebnf k rs)
  ebnf : ∀ k rs, U (.ebnf k rs) → ∀ y post, y :: post ∈ rs → g.Nullable y → post = []
  repeating : ∀ rs, U (.ebnf .repeating rs) → ebnfRule rs ≠ []
  order : ∀ n, U (.nonterminal n) → ∀ before r after, g.rules n = before ++ r :: after → (∀ y ∈ r, g.Nullable y) →
    ∀ y z rest, y :: z :: rest ∈ after → g.Nullable y → ∀ w ∈ z :: rest, g.Nullable w

theorem Simple.ebnfSound {rank} (h : g.Simple U rank) : g.EbnfSound U := by
  intro k rs hx _ y post hm hn z hz
  rw [h.ebnf k rs hx y post hm hn] at hz
  cases hz

/-- All but the items being computed (`P`) have complete sets. -/
def CacheComplete (g : Gram) (P : Item → Prop) (c : ItemCache) : Prop := ∀ x s, get x c = some s → P x ∨ g.CompleteI x s

def RecComplete (g : Gram) (U : Item → Prop) (rank : Item → Nat) (k : Nat)
    (rec : ItemCache → Item → Option (ItemCache × List Item)) : Prop :=
  ∀ c (P : Item → Prop) y c' s, U y → rank y < k → CacheSound g c → CacheComplete g P c → (∀ p, P p → rank y < rank p) →
    rec c y = some (c', s) → CacheComplete g P c' ∧ g.CompleteI y s

theorem beginsList_cons {x : Item} {xs : List Item} {t : Item} (h : g.BeginsList (x :: xs) t) :
    g.Begins t x ∨ g.Nullable x ∧ g.BeginsList xs t := by
  obtain ⟨pre, y, post, he, hp, hb⟩ := h
  cases pre with
  | nil => simp only [List.nil_append, List.cons.injEq] at he; rw [he.1]; exact .inl hb
  | cons p pre =>
    simp only [List.cons_append, List.cons.injEq] at he
    obtain ⟨rfl, rfl⟩ := he
    exact .inr ⟨hp x List.mem_cons_self, pre, y, post, rfl, fun z hz => hp z (List.mem_cons_of_mem _ hz), hb⟩

theorem not_beginsList_nil {t : Item} : ¬ g.BeginsList [] t := by
  rintro ⟨pre, y, post, he, _⟩
  simp at he

theorem firstTail_complete {rec rank k} {P : Item → Prop} (hs : RecSound g U rec) (hrec : RecComplete g U rank k rec)
    (hP : ∀ p, P p → k ≤ rank p) (xs : List Item) : ∀ {c result c' s},
    (∀ y ∈ xs, U y) → (∀ pre y post, xs = pre ++ y :: post → (∀ z ∈ pre, g.Nullable z) → rank y < k) →
    CacheSound g c → CacheComplete g P c → firstTail rec c result xs = some (c', s) →
    CacheComplete g P c' ∧ (∀ t ∈ result, t ≠ .empty → t ∈ s) ∧ (∀ t, isLeaf t → g.BeginsList xs t → t ∈ s) ∧
    ((∀ y ∈ xs, g.Nullable y) → xs ≠ [] → Item.empty ∈ s) ∧ (xs = [] → s = result) := by
  induction xs with
  | nil =>
    intro c result c' s _ _ _ hc h
    simp only [firstTail, Option.some.injEq, Prod.mk.injEq] at h
    obtain ⟨rfl, rfl⟩ := h
    exact ⟨hc, fun t ht _ => ht, fun t _ hb => absurd hb not_beginsList_nil, fun _ hne => absurd rfl hne, fun _ => rfl⟩
  | cons x xs ih =>
    intro c result c' s hU hk hcs hc h
    simp only [firstTail] at h
    cases hx : rec c x with
    | none => rw [hx] at h; cases h
    | some cs =>
      obtain ⟨c1, s1⟩ := cs
      rw [hx] at h
      dsimp only at h
      have hxk := hk [] x xs rfl (by simp)
      obtain ⟨hcs1, hs1⟩ := hs c x c1 s1 (hU x List.mem_cons_self) hcs hx
      obtain ⟨hc1, hk1⟩ := hrec c P x c1 s1 (hU x List.mem_cons_self) hxk hcs hc (fun p hp => Nat.lt_of_lt_of_le hxk (hP p hp)) hx
      by_cases he : Item.empty ∈ s1
      · rw [if_pos he] at h
        obtain ⟨i1, i2, i3, i4, i5⟩ := ih (fun y hy => hU y (List.mem_cons_of_mem _ hy)) (by
          intro pre y post he' hp
          refine hk (x :: pre) y post (by rw [he']; rfl) ?_
          intro z hz
          rcases List.mem_cons.1 hz with rfl | hz
          · exact hs1.2 he
          · exact hp z hz) hcs1 hc1 h
        refine ⟨i1, ?_, ?_, ?_, fun hn => by cases hn⟩
        · intro t ht hne
          exact i2 t (List.mem_append_left _ (mem_dropEmpty.2 ⟨ht, hne⟩)) hne
        · intro t hl hb
          rcases beginsList_cons hb with hb | ⟨_, hb⟩
          · exact i2 t (List.mem_append_right _ (hk1.1 t hl hb)) (isLeaf_ne_empty hl)
          · exact i3 t hl hb
        · intro hn _
          by_cases hxs : xs = []
          · rw [i5 hxs]; exact List.mem_append_right _ he
          · exact i4 (fun y hy => hn y (List.mem_cons_of_mem _ hy)) hxs
      · rw [if_neg he] at h
        simp only [Option.some.injEq, Prod.mk.injEq] at h
        obtain ⟨rfl, rfl⟩ := h
        refine ⟨hc1, ?_, ?_, ?_, fun hn => by cases hn⟩
        · intro t ht hne
          exact List.mem_append_left _ (mem_dropEmpty.2 ⟨ht, hne⟩)
        · intro t hl hb
          rcases beginsList_cons hb with hb | ⟨hn, _⟩
          · exact List.mem_append_right _ (hk1.1 t hl hb)
          · exact absurd (hk1.2 hn) he
        · intro hn _
          exact absurd (hk1.2 (hn x List.mem_cons_self)) he

theorem firstRules_complete {rec rank k} {P : Item → Prop} (hs : RecSound g U rec) (hrec : RecComplete g U rank k rec)
    (hP : ∀ p, P p → k ≤ rank p) (rs : List (List Item)) : ∀ (before : List (List Item)) {c result c' s},
    (∀ r ∈ rs, (∀ y ∈ r, U y) ∧ ∀ pre y post, r = pre ++ y :: post → (∀ z ∈ pre, g.Nullable z) → rank y < k) →
    (∀ b r a, before ++ rs = b ++ r :: a → (∀ y ∈ r, g.Nullable y) → ∀ y z rest, y :: z :: rest ∈ a → g.Nullable y →
      ∀ w ∈ z :: rest, g.Nullable w) →
    (∀ r ∈ before, ∀ t, isLeaf t → g.BeginsList r t → t ∈ result) → ((∃ r ∈ before, ∀ y ∈ r, g.Nullable y) → Item.empty ∈ result) →
    CacheSound g c → CacheComplete g P c → firstRules rec c result rs = some (c', s) →
    CacheComplete g P c' ∧ (∀ r ∈ before ++ rs, ∀ t, isLeaf t → g.BeginsList r t → t ∈ s) ∧
    ((∃ r ∈ before ++ rs, ∀ y ∈ r, g.Nullable y) → Item.empty ∈ s) := by
  induction rs with
  | nil =>
    intro before c result c' s _ _ h1 h2 _ hc h
    simp only [firstRules, Option.some.injEq, Prod.mk.injEq] at h
    obtain ⟨rfl, rfl⟩ := h
    simp only [List.append_nil]
    exact ⟨hc, h1, h2⟩
  | cons r rs ih =>
    intro before c result c' s hr ho h1 h2 hcs hc h
    have hrs := fun r hm => hr r (List.mem_cons_of_mem _ hm)
    obtain ⟨hrU, hrk⟩ := hr r List.mem_cons_self
    have hassoc : before ++ r :: rs = (before ++ [r]) ++ rs := by simp
    rw [hassoc] at ho ⊢
    cases r with
    | nil =>
      simp only [firstRules] at h
      refine ih (before ++ [[]]) hrs ho ?_ ?_ hcs hc h
      · intro r hm t hl hb
        rcases List.mem_append.1 hm with hm | hm
        · exact List.mem_append_left _ (h1 r hm t hl hb)
        · rw [List.mem_singleton] at hm; subst hm; exact absurd hb not_beginsList_nil
      · intro _; exact List.mem_append_right _ (by simp)
    | cons x xs =>
      simp only [firstRules] at h
      cases hx : rec c x with
      | none => rw [hx] at h; cases h
      | some cs =>
        obtain ⟨c1, s1⟩ := cs
        rw [hx] at h
        dsimp only at h
        have hxk := hrk [] x xs rfl (by simp)
        obtain ⟨hcs1, hs1⟩ := hs c x c1 s1 (hrU x List.mem_cons_self) hcs hx
        obtain ⟨hc1, hk1⟩ := hrec c P x c1 s1 (hrU x List.mem_cons_self) hxk hcs hc (fun p hp => Nat.lt_of_lt_of_le hxk (hP p hp)) hx
        by_cases he : Item.empty ∈ s1
        · rw [if_pos he] at h
          cases ht : firstTail rec c1 (result ++ s1) xs with
          | none => rw [ht] at h; cases h
          | some cs2 =>
            obtain ⟨c2, s2⟩ := cs2
            rw [ht] at h
            dsimp only at h
            have hxn := hs1.2 he
            have hxs : ∀ y ∈ xs, U y := fun y hy => hrU y (List.mem_cons_of_mem _ hy)
            obtain ⟨i1, i2, i3, i4, i5⟩ := firstTail_complete hs hrec hP xs hxs (by
              intro pre y post he' hp
              refine hrk (x :: pre) y post (by rw [he']; rfl) ?_
              intro z hz
              rcases List.mem_cons.1 hz with rfl | hz
              · exact hxn
              · exact hp z hz) hcs1 hc1 ht
            have hcs2 : CacheSound g c2 := by
              -- soundness of the cache does not depend on the item the rules are for
              have key : ∀ (zs : List Item) {c res c' s}, (∀ y ∈ zs, U y) → CacheSound g c → firstTail rec c res zs = some (c', s) →
                  CacheSound g c' := by
                intro zs
                induction zs with
                | nil =>
                  intro c res c' s _ hc h
                  simp only [firstTail, Option.some.injEq, Prod.mk.injEq] at h
                  obtain ⟨rfl, rfl⟩ := h
                  exact hc
                | cons z zs ihz =>
                  intro c res c' s hU hc h
                  simp only [firstTail] at h
                  cases hz : rec c z with
                  | none => rw [hz] at h; cases h
                  | some cs =>
                    obtain ⟨c1, s1⟩ := cs
                    rw [hz] at h
                    dsimp only at h
                    have h1 := (hs c z c1 s1 (hU z List.mem_cons_self) hc hz).1
                    split at h
                    · exact ihz (fun y hy => hU y (List.mem_cons_of_mem _ hy)) h1 h
                    · simp only [Option.some.injEq, Prod.mk.injEq] at h
                      obtain ⟨rfl, rfl⟩ := h
                      exact h1
              exact key xs hxs hcs1 ht
            refine ih (before ++ [x :: xs]) hrs ho ?_ ?_ hcs2 i1 h
            · intro r hm t hl hb
              rcases List.mem_append.1 hm with hm | hm
              · exact i2 t (List.mem_append_left _ (h1 r hm t hl hb)) (isLeaf_ne_empty hl)
              · rw [List.mem_singleton] at hm
                subst hm
                rcases beginsList_cons hb with hb | ⟨_, hb⟩
                · exact i2 t (List.mem_append_right _ (hk1.1 t hl hb)) (isLeaf_ne_empty hl)
                · exact i3 t hl hb
            · rintro ⟨r, hm, hn⟩
              by_cases hxs0 : xs = []
              · rw [i5 hxs0]; exact List.mem_append_right _ he
              refine i4 ?_ hxs0
              rcases List.mem_append.1 hm with hm | hm
              · obtain ⟨b, a, rfl⟩ := List.append_of_mem hm
                cases xs with
                | nil => exact absurd rfl hxs0
                | cons z rest =>
                  exact ho b r (a ++ [x :: z :: rest] ++ rs) (by simp) hn x z rest (by simp) hxn
              · rw [List.mem_singleton] at hm
                subst hm
                exact fun y hy => hn y (List.mem_cons_of_mem _ hy)
        · rw [if_neg he] at h
          refine ih (before ++ [x :: xs]) hrs ho ?_ ?_ hcs1 hc1 h
          · intro r hm t hl hb
            rcases List.mem_append.1 hm with hm | hm
            · exact List.mem_append_left _ (h1 r hm t hl hb)
            · rw [List.mem_singleton] at hm
              subst hm
              rcases beginsList_cons hb with hb | ⟨hn, _⟩
              · exact List.mem_append_right _ (hk1.1 t hl hb)
              · exact absurd (hk1.2 hn) he
          · rintro ⟨r, hm, hn⟩
            rcases List.mem_append.1 hm with hm | hm
            · exact List.mem_append_left _ (h2 ⟨r, hm, hn⟩)
            · rw [List.mem_singleton] at hm
              subst hm
              exact absurd (hk1.2 (hn x List.mem_cons_self)) he

theorem firstHeads_complete {rec rank k} {P : Item → Prop} (hs : RecSound g U rec) (hrec : RecComplete g U rank k rec)
    (hP : ∀ p, P p → k ≤ rank p) (rs : List (List Item)) : ∀ {c result c' s},
    (∀ y post, y :: post ∈ rs → U y ∧ rank y < k ∧ (g.Nullable y → post = [])) →
    CacheSound g c → CacheComplete g P c → firstHeads rec c result rs = some (c', s) →
    CacheComplete g P c' ∧ (∀ t ∈ result, t ∈ s) ∧ (∀ r ∈ rs, ∀ t, isLeaf t → g.BeginsList r t → t ∈ s) ∧
    (∀ r ∈ rs, (∀ y ∈ r, g.Nullable y) → Item.empty ∈ s) := by
  induction rs with
  | nil =>
    intro c result c' s _ _ hc h
    simp only [firstHeads, Option.some.injEq, Prod.mk.injEq] at h
    obtain ⟨rfl, rfl⟩ := h
    exact ⟨hc, fun t ht => ht, by simp, by simp⟩
  | cons r rs ih =>
    intro c result c' s hr hcs hc h
    have hrs := fun y post hm => hr y post (List.mem_cons_of_mem _ hm)
    cases r with
    | nil =>
      simp only [firstHeads] at h
      obtain ⟨i1, i2, i3, i4⟩ := ih hrs hcs hc h
      refine ⟨i1, fun t ht => i2 t (List.mem_append_left _ ht), ?_, fun _ _ _ => i2 _ (List.mem_append_right _ (by simp))⟩
      intro r hm t hl hb
      rcases List.mem_cons.1 hm with rfl | hm
      · exact absurd hb not_beginsList_nil
      · exact i3 r hm t hl hb
    | cons x xs =>
      simp only [firstHeads] at h
      cases hx : rec c x with
      | none => rw [hx] at h; cases h
      | some cs =>
        obtain ⟨c1, s1⟩ := cs
        rw [hx] at h
        dsimp only at h
        obtain ⟨hxU, hxk, hxe⟩ := hr x xs List.mem_cons_self
        obtain ⟨hcs1, hs1⟩ := hs c x c1 s1 hxU hcs hx
        obtain ⟨hc1, hk1⟩ := hrec c P x c1 s1 hxU hxk hcs hc (fun p hp => Nat.lt_of_lt_of_le hxk (hP p hp)) hx
        obtain ⟨i1, i2, i3, i4⟩ := ih hrs hcs1 hc1 h
        refine ⟨i1, fun t ht => i2 t (List.mem_append_left _ ht), ?_, ?_⟩
        · intro r hm t hl hb
          rcases List.mem_cons.1 hm with rfl | hm
          · rcases beginsList_cons hb with hb | ⟨hn, hb⟩
            · exact i2 t (List.mem_append_right _ (hk1.1 t hl hb))
            · rw [hxe hn] at hb; exact absurd hb not_beginsList_nil
          · exact i3 r hm t hl hb
        · intro r hm hn
          rcases List.mem_cons.1 hm with rfl | hm
          · exact i2 _ (List.mem_append_right _ (hk1.2 (hn x List.mem_cons_self)))
          · exact i4 r hm hn

/-- What a nonterminal, an alternative or an optional item begins with is what one of its productions begins with. -/
theorem begins_prods {t x : Item} (h : g.Begins t x) (hx : ¬ isLeaf x) : ∃ r ∈ g.prods x, g.BeginsList r t := by
  cases h with
  | leaf hl => exact absurd hl hx
  | prod hr hp hb => exact ⟨_, hr, _, _, _, rfl, hp, hb⟩

/-- What a repetition begins with is what its body begins with. -/
theorem begins_repeat {t : Item} {k : EbnfKind} {rs : List (List Item)} (hk : k = .repeating ∨ k = .repeatZero)
    (h : g.Begins t (.ebnf k rs)) : g.BeginsList (ebnfRule rs) t := by
  generalize hx : Item.ebnf k rs = x at h
  induction h with
  | leaf hl => subst hx; cases hl
  | @prod x pre y post hr hp hb ih =>
    subst hx
    have key : pre ++ y :: post = ebnfRule rs ∨ pre ++ y :: post = .ebnf k rs :: ebnfRule rs := by
      rcases hk with rfl | rfl
      · simpa [prods] using hr
      · exact .inr (by simpa [prods] using hr)
    rcases key with key | key
    · exact ⟨pre, y, post, key.symm, hp, hb⟩
    · cases pre with
      | nil =>
        simp only [List.nil_append, List.cons.injEq] at key
        exact ih key.1.symm
      | cons p pre =>
        simp only [List.cons_append, List.cons.injEq] at key
        exact ⟨pre, y, post, key.2.symm, fun z hz => hp z (List.mem_cons_of_mem _ hz), hb⟩

theorem nullable_prods {x : Item} (h : g.Nullable x) : ∃ r ∈ g.prods x, ∀ y ∈ r, g.Nullable y := by
  cases h with
  | mk hr hn => exact ⟨_, hr, hn⟩

theorem nullable_repeating {rs : List (List Item)} (h : g.Nullable (.ebnf .repeating rs)) : ∀ y ∈ ebnfRule rs, g.Nullable y := by
  obtain ⟨r, hr, hn⟩ := nullable_prods h
  simp only [prods, List.mem_cons, List.not_mem_nil, or_false] at hr
  rcases hr with rfl | rfl
  · exact hn
  · exact fun y hy => hn y (List.mem_cons_of_mem _ hy)

theorem itemFirst_complete {rec rank} {P : Item → Prop} (hG : g.Simple U rank) {x : Item} (hs : RecSound g U rec)
    (hrec : RecComplete g U rank (rank x) rec) (hP : ∀ p, P p → rank x ≤ rank p) {c c' s} (hx : U x)
    (hcs : CacheSound g c) (hc : CacheComplete g P c) (h : itemFirst rec g c x = some (c', s)) :
    CacheComplete g P c' ∧ g.CompleteI x s := by
  have hleaf : ∀ x : Item, isLeaf x → g.CompleteI x [x] := by
    intro x hx
    refine ⟨?_, ?_⟩
    · intro t ht hb
      cases hb with
      | leaf => simp
      | prod hr _ _ => rw [prods_leaf hx] at hr; cases hr
    · intro hn
      obtain ⟨r, hr, _⟩ := nullable_prods hn
      rw [prods_leaf hx] at hr; cases hr
  cases x with
  | empty =>
    simp only [itemFirst, Option.some.injEq, Prod.mk.injEq] at h
    obtain ⟨rfl, rfl⟩ := h
    refine ⟨hc, ?_, fun _ => by simp⟩
    intro t ht hb
    obtain ⟨r, hr, hb⟩ := begins_prods hb (by simp [isLeaf])
    simp only [prods, List.mem_singleton] at hr
    subst hr
    exact absurd hb not_beginsList_nil
  | eoi | eog | terminal n | guard p r =>
    simp only [itemFirst, Option.some.injEq, Prod.mk.injEq] at h
    obtain ⟨rfl, rfl⟩ := h
    exact ⟨hc, hleaf _ rfl⟩
  | nonterminal n =>
    simp only [itemFirst] at h
    obtain ⟨i1, i2, i3⟩ := firstRules_complete hs hrec hP (g.rules n) [] (fun r hr => ⟨hG.closed _ hx r hr, by
      rintro pre y post rfl hp
      exact hG.rankNt n hx pre y post hr hp⟩) (hG.order n hx) (by simp) (by simp) hcs hc h
    refine ⟨i1, ?_, ?_⟩
    · intro t ht hb
      obtain ⟨r, hr, hb⟩ := begins_prods hb (by simp [isLeaf])
      exact i2 r hr t ht hb
    · intro hn
      exact i3 (nullable_prods hn)
  | ebnf k rs =>
    have hhead : ∀ y ys, ebnfRule rs = y :: ys → U y ∧ rank y < rank (.ebnf k rs) ∧ (g.Nullable y → ys = []) := fun y ys hr =>
      ⟨hG.closed _ hx _ (ebnfRule_mem hr) y List.mem_cons_self, hG.rankEbnf k rs hx y ys (ebnfRule_mem hr),
        hG.ebnf k rs hx y ys (ebnfRule_mem hr)⟩
    have hbegin : ∀ y ys t, ebnfRule rs = y :: ys → g.BeginsList (ebnfRule rs) t → g.Begins t y := by
      intro y ys t hr hb
      rw [hr] at hb
      rcases beginsList_cons hb with hb | ⟨hn, hb⟩
      · exact hb
      · rw [(hhead y ys hr).2.2 hn] at hb; exact absurd hb not_beginsList_nil
    have hopt : k = .optional ∨ k = .repeatZero → (match ebnfRule rs with
        | [] => some (c, [Item.empty])
        | x :: _ => match rec c x with
          | none => none
          | some (c, s) => some (c, .empty :: s)) = some (c', s) → CacheComplete g P c' ∧ g.CompleteI (.ebnf k rs) s := by
      intro hk h
      have hbl : ∀ t, g.Begins t (.ebnf k rs) → g.BeginsList (ebnfRule rs) t := by
        intro t hb
        rcases hk with rfl | rfl
        · obtain ⟨r, hr, hb⟩ := begins_prods hb (by simp [isLeaf])
          simp only [prods, List.mem_cons, List.not_mem_nil, or_false] at hr
          rcases hr with rfl | rfl
          · exact absurd hb not_beginsList_nil
          · exact hb
        · exact begins_repeat (.inr rfl) hb
      cases hr : ebnfRule rs with
      | nil =>
        rw [hr] at h
        simp only [Option.some.injEq, Prod.mk.injEq] at h
        obtain ⟨rfl, rfl⟩ := h
        refine ⟨hc, ?_, fun _ => by simp⟩
        intro t ht hb
        have := hbl t hb
        rw [hr] at this
        exact absurd this not_beginsList_nil
      | cons y ys =>
        rw [hr] at h
        dsimp only at h
        cases hy : rec c y with
        | none => rw [hy] at h; cases h
        | some cs =>
          obtain ⟨c1, s1⟩ := cs
          rw [hy] at h
          simp only [Option.some.injEq, Prod.mk.injEq] at h
          obtain ⟨rfl, rfl⟩ := h
          obtain ⟨hyU, hyk, _⟩ := hhead y ys hr
          obtain ⟨hc1, hk1⟩ := hrec c P y c1 s1 hyU hyk hcs hc (fun p hp => Nat.lt_of_lt_of_le hyk (hP p hp)) hy
          refine ⟨hc1, ?_, fun _ => by simp⟩
          intro t ht hb
          exact List.mem_cons_of_mem _ (hk1.1 t ht (hbegin y ys t hr (hbl t hb)))
    cases k with
    | optional => exact hopt (.inl rfl) h
    | repeatZero => exact hopt (.inr rfl) h
    | repeating =>
      simp only [itemFirst] at h
      cases hr : ebnfRule rs with
      | nil => exact absurd hr (hG.repeating rs hx)
      | cons y ys =>
        rw [hr] at h
        dsimp only at h
        obtain ⟨hyU, hyk, _⟩ := hhead y ys hr
        obtain ⟨hc1, hk1⟩ := hrec c P y c' s hyU hyk hcs hc (fun p hp => Nat.lt_of_lt_of_le hyk (hP p hp)) h
        refine ⟨hc1, ?_, ?_⟩
        · intro t ht hb
          exact hk1.1 t ht (hbegin y ys t hr (begins_repeat (.inl rfl) hb))
        · intro hn
          have := nullable_repeating hn
          rw [hr] at this
          exact hk1.2 (this y List.mem_cons_self)
    | alternative =>
      simp only [itemFirst] at h
      obtain ⟨i1, i2, i3, i4⟩ := firstHeads_complete hs hrec hP rs (fun y post hm =>
        ⟨hG.closed _ hx _ hm y List.mem_cons_self, hG.rankEbnf _ rs hx y post hm, hG.ebnf _ rs hx y post hm⟩) hcs hc h
      refine ⟨i1, ?_, ?_⟩
      · intro t ht hb
        obtain ⟨r, hr, hb⟩ := begins_prods hb (by simp [isLeaf])
        exact i3 r hr t ht hb
      · intro hn
        obtain ⟨r, hr, hn⟩ := nullable_prods hn
        exact i4 r hr hn

theorem first_complete_aux {rank} (hG : g.Simple U rank) (fuel : Nat) : ∀ k, RecComplete g U rank k (g.first fuel) := by
  induction fuel with
  | zero => intro k c P y c' s _ _ _ _ _ h; cases h
  | succ fuel ih =>
    intro k c P y c' s hy _ hcs hc hP h
    simp only [first] at h
    cases hg : get y c with
    | some s' =>
      rw [hg] at h
      simp only [Option.some.injEq, Prod.mk.injEq] at h
      obtain ⟨rfl, rfl⟩ := h
      refine ⟨hc, ?_⟩
      rcases hc y _ hg with hp | hc
      · exact absurd (hP y hp) (Nat.lt_irrefl _)
      · exact hc
    | none =>
      rw [hg] at h
      dsimp only at h
      have hcs0 : CacheSound g (put y [] c) := by
        intro x s hx
        rw [get_put] at hx
        split at hx
        · cases hx; simp [SoundI]
        · exact hcs x s hx
      have hc0 : CacheComplete g (fun p => P p ∨ p = y) (put y [] c) := by
        intro x s hx
        rw [get_put] at hx
        split at hx
        · rename_i he; exact .inl (.inr he.symm)
        · rcases hc x s hx with h | h
          · exact .inl (.inl h)
          · exact .inr h
      cases hi : itemFirst (first g fuel) g (put y [] c) y with
      | none => rw [hi] at h; cases h
      | some cs =>
        obtain ⟨c1, s1⟩ := cs
        rw [hi] at h
        simp only [Option.some.injEq, Prod.mk.injEq] at h
        obtain ⟨rfl, rfl⟩ := h
        obtain ⟨h1, h2⟩ := itemFirst_complete hG (first_sound_aux hG.closed hG.ebnfSound fuel) (ih (rank y)) (P := fun p => P p ∨ p = y)
          (by rintro p (hp | rfl)
              · exact Nat.le_of_lt (hP p hp)
              · exact Nat.le_refl _) hy hcs0 hc0 hi
        refine ⟨?_, h2⟩
        intro x s hx
        rw [get_put] at hx
        split at hx
        · rename_i he; cases hx; rw [← he]; exact .inr h2
        · rename_i he
          rcases h1 x s hx with (h | h) | h
          · exact .inl h
          · exact absurd h.symm he
          · exact .inr h

theorem queries_complete {rank} (hG : g.Simple U rank) (fuel : Nat) (qs : List Item) : ∀ {c c'}, (∀ q ∈ qs, U q) →
    CacheSound g c → CacheComplete g (fun _ => False) c → g.queries fuel c qs = some c' → CacheComplete g (fun _ => False) c' := by
  induction qs with
  | nil => intro c c' _ _ hc h; cases h; exact hc
  | cons q qs ih =>
    intro c c' hq hcs hc h
    simp only [queries] at h
    cases hf : g.first fuel c q with
    | none => rw [hf] at h; cases h
    | some cs =>
      rw [hf] at h
      have hqU := hq q List.mem_cons_self
      exact ih (fun q hq' => hq q (List.mem_cons_of_mem _ hq')) (first_sound_aux hG.closed hG.ebnfSound fuel c q cs.1 cs.2 hqU hcs hf).1
        (first_complete_aux hG fuel (rank q + 1) c _ q cs.1 cs.2 hqU (Nat.lt_succ_self _) hcs hc (by simp) hf).1 h

/-- C32 (partial: grammars that satisfy `Simple`). After any queries, the FIRST set of an item holds every symbol that begins a sentential
form of the item, and the empty item if the item derives the empty string. -/
theorem first_complete_partial (U : Item → Prop) (rank : Item → Nat) (hG : g.Simple U rank) (fuel : Nat) (qs : List Item)
    (hq : ∀ q ∈ qs, U q) (c c' : ItemCache) (x : Item) (s : List Item) (hc : g.queries fuel [] qs = some c) (hx : U x)
    (h : g.first fuel c x = some (c', s)) : g.FirstComplete x s := by
  rw [firstComplete_iff]
  have hcs := queries_sound hG.closed hG.ebnfSound fuel qs hq cacheSound_nil hc
  have hcc := queries_complete hG fuel qs hq cacheSound_nil (by intro x s h; cases h) hc
  exact (first_complete_aux hG fuel (rank x + 1) c _ x c' s hx (Nat.lt_succ_self _) hcs hcc (by simp) h).2

/-! ### Rules -/

/-- `first_for_rule` (partial, as `first_sound_partial`): what it reports begins a sentential form of the rule. -/
theorem firstForRule_sound_partial (U : Item → Prop) (hU : g.Closed U) (hE : g.EbnfSound U) (fuel : Nat) (qs : List Item)
    (hq : ∀ q ∈ qs, U q) (c c' : ItemCache) (r s : List Item) (hc : g.queries fuel [] qs = some c) (hr : ∀ y ∈ r, U y)
    (h : g.firstForRule fuel c r = some (c', s)) :
    (∀ t ∈ s, isLeaf t → ∃ rest, g.Derives r (t :: rest)) ∧ (Item.empty ∈ s → g.Derives r []) := by
  have hcs := queries_sound hU hE fuel qs hq cacheSound_nil hc
  have key : ∀ (xs pre : List Item) {c result c' s}, r = pre ++ xs → (∀ y ∈ xs, U y) → (∀ z ∈ pre, g.Nullable z) →
      (∀ t ∈ result, isLeaf t → ∃ rest, g.Derives r (t :: rest)) → CacheSound g c → g.firstForRuleFrom fuel c result xs = some (c', s) →
      (∀ t ∈ s, isLeaf t → ∃ rest, g.Derives r (t :: rest)) ∧ (Item.empty ∈ s → g.Derives r []) := by
    intro xs
    induction xs with
    | nil =>
      intro pre c result c' s hrp _ hp hres _ h
      simp only [firstForRuleFrom, Option.some.injEq, Prod.mk.injEq] at h
      obtain ⟨_, rfl⟩ := h
      refine ⟨?_, fun _ => (derives_nil_iff r).2 (by rw [hrp]; simpa using hp)⟩
      intro t ht hl
      rcases List.mem_append.1 ht with ht | ht
      · exact hres t ht hl
      · rw [List.mem_singleton] at ht; exact absurd ht (isLeaf_ne_empty hl)
    | cons x xs ih =>
      intro pre c result c' s hrp hxU hp hres hcs h
      simp only [firstForRuleFrom] at h
      cases hx : g.first fuel c x with
      | none => rw [hx] at h; cases h
      | some cs =>
        obtain ⟨c1, s1⟩ := cs
        rw [hx] at h
        dsimp only at h
        obtain ⟨hc1, hs1⟩ := first_sound_aux hU hE fuel c x c1 s1 (hxU x List.mem_cons_self) hcs hx
        have hres' : ∀ t ∈ dropEmpty result ++ s1, isLeaf t → ∃ rest, g.Derives r (t :: rest) := by
          intro t ht hl
          rcases List.mem_append.1 ht with ht | ht
          · exact hres t (mem_dropEmpty.1 ht).1 hl
          · obtain ⟨rest, hd⟩ := (hs1.1 t ht hl).derives
            refine ⟨rest ++ xs, ?_⟩
            have h1 := derives_congr ((derives_nil_iff pre).2 hp) [] (x :: xs)
            have h2 := derives_congr hd [] xs
            rw [hrp]
            exact Relation.ReflTransGen.trans h1 h2
        have hemp : Item.empty ∈ dropEmpty result ++ s1 ↔ Item.empty ∈ s1 := by
          simp [mem_dropEmpty]
        by_cases he : Item.empty ∈ dropEmpty result ++ s1
        · rw [if_pos he] at h
          refine ih (pre ++ [x]) (by rw [hrp]; simp) (fun y hy => hxU y (List.mem_cons_of_mem _ hy)) ?_ hres' hc1 h
          intro z hz
          rcases List.mem_append.1 hz with hz | hz
          · exact hp z hz
          · rw [List.mem_singleton] at hz; subst hz; exact hs1.2 (hemp.1 he)
        · rw [if_neg he] at h
          simp only [Option.some.injEq, Prod.mk.injEq] at h
          obtain ⟨_, rfl⟩ := h
          exact ⟨hres', fun hm => absurd hm he⟩
  unfold firstForRule at h
  by_cases hr0 : r = []
  · rw [if_pos hr0] at h
    simp only [Option.some.injEq, Prod.mk.injEq] at h
    obtain ⟨_, rfl⟩ := h
    refine ⟨?_, fun _ => by rw [hr0]; exact .refl⟩
    intro t ht hl
    rw [List.mem_singleton] at ht
    exact absurd ht (isLeaf_ne_empty hl)
  · rw [if_neg hr0] at h
    exact key r [] rfl hr (by simp) (by simp) hcs h

/-! ### Termination -/

def RecTotal (U : List Item) (k : Nat) (rec : ItemCache → Item → Option (ItemCache × List Item)) : Prop :=
  ∀ c y, y ∈ U → (U.filter fun x => (get x c).isNone).length < k →
    ∃ c' s, rec c y = some (c', s) ∧ ∀ x, get x c ≠ none → get x c' ≠ none

theorem filter_mono {V : List Item} {c c' : ItemCache} (h : ∀ x, get x c ≠ none → get x c' ≠ none) :
    (V.filter fun x => (get x c').isNone).length ≤ (V.filter fun x => (get x c).isNone).length := by
  induction V with
  | nil => simp
  | cons v V ih =>
    rw [List.filter_cons, List.filter_cons]
    by_cases h1 : get v c' = none
    · have h2 : get v c = none := by
        by_contra h2; exact h v h2 h1
      simp [h1, h2]; exact ih
    · rw [if_neg (by simp [Option.isNone_iff_eq_none, h1])]
      split
      · simp only [List.length_cons]; omega
      · exact ih

theorem filter_strict {V : List Item} {c c' : ItemCache} (h : ∀ x, get x c ≠ none → get x c' ≠ none) {y : Item} (hy : y ∈ V)
    (h1 : get y c = none) (h2 : get y c' ≠ none) :
    (V.filter fun x => (get x c').isNone).length < (V.filter fun x => (get x c).isNone).length := by
  obtain ⟨a, b, rfl⟩ := List.append_of_mem hy
  rw [List.filter_append, List.filter_append, List.length_append, List.length_append, List.filter_cons, List.filter_cons]
  rw [if_neg (by simp [Option.isNone_iff_eq_none, h2]), if_pos (by simp [h1])]
  have e1 := filter_mono (V := a) h
  have e2 := filter_mono (V := b) h
  simp only [List.length_cons]
  omega

/-- The measure stays below the bound while a body runs. -/
theorem firstTail_total {V k rec} (hrec : RecTotal V k rec) (xs : List Item) : ∀ {c result}, (∀ y ∈ xs, y ∈ V) →
    (V.filter fun x => (get x c).isNone).length < k →
    ∃ c' s, firstTail rec c result xs = some (c', s) ∧ ∀ x, get x c ≠ none → get x c' ≠ none := by
  induction xs with
  | nil => intro c result _ _; exact ⟨c, result, rfl, fun _ h => h⟩
  | cons x xs ih =>
    intro c result hx hk
    obtain ⟨c1, s1, h1, hm1⟩ := hrec c x (hx x List.mem_cons_self) hk
    simp only [firstTail, h1]
    by_cases he : Item.empty ∈ s1
    · rw [if_pos he]
      obtain ⟨c2, s2, h2, hm2⟩ := ih (c := c1) (result := dropEmpty result ++ s1) (fun y hy => hx y (List.mem_cons_of_mem _ hy))
        (Nat.lt_of_le_of_lt (filter_mono hm1) hk)
      exact ⟨c2, s2, h2, fun x h => hm2 x (hm1 x h)⟩
    · rw [if_neg he]
      exact ⟨c1, _, rfl, hm1⟩

theorem firstRules_total {V k rec} (hrec : RecTotal V k rec) (rs : List (List Item)) : ∀ {c result}, (∀ r ∈ rs, ∀ y ∈ r, y ∈ V) →
    (V.filter fun x => (get x c).isNone).length < k →
    ∃ c' s, firstRules rec c result rs = some (c', s) ∧ ∀ x, get x c ≠ none → get x c' ≠ none := by
  induction rs with
  | nil => intro c result _ _; exact ⟨c, result, rfl, fun _ h => h⟩
  | cons r rs ih =>
    intro c result hr hk
    have hrs := fun r hm => hr r (List.mem_cons_of_mem _ hm)
    cases r with
    | nil => simp only [firstRules]; exact ih hrs hk
    | cons x xs =>
      have hx := hr _ List.mem_cons_self
      obtain ⟨c1, s1, h1, hm1⟩ := hrec c x (hx x List.mem_cons_self) hk
      have hk1 := Nat.lt_of_le_of_lt (filter_mono (V := V) hm1) hk
      simp only [firstRules, h1]
      by_cases he : Item.empty ∈ s1
      · rw [if_pos he]
        obtain ⟨c2, s2, h2, hm2⟩ := firstTail_total hrec xs (c := c1) (result := result ++ s1)
          (fun y hy => hx y (List.mem_cons_of_mem _ hy)) hk1
        rw [h2]
        obtain ⟨c3, s3, h3, hm3⟩ := ih (c := c2) (result := s2) hrs (Nat.lt_of_le_of_lt (filter_mono hm2) hk1)
        exact ⟨c3, s3, h3, fun x h => hm3 x (hm2 x (hm1 x h))⟩
      · rw [if_neg he]
        obtain ⟨c3, s3, h3, hm3⟩ := ih (c := c1) (result := result ++ s1) hrs hk1
        exact ⟨c3, s3, h3, fun x h => hm3 x (hm1 x h)⟩

theorem firstHeads_total {V k rec} (hrec : RecTotal V k rec) (rs : List (List Item)) : ∀ {c result}, (∀ r ∈ rs, ∀ y ∈ r, y ∈ V) →
    (V.filter fun x => (get x c).isNone).length < k →
    ∃ c' s, firstHeads rec c result rs = some (c', s) ∧ ∀ x, get x c ≠ none → get x c' ≠ none := by
  induction rs with
  | nil => intro c result _ _; exact ⟨c, result, rfl, fun _ h => h⟩
  | cons r rs ih =>
    intro c result hr hk
    have hrs := fun r hm => hr r (List.mem_cons_of_mem _ hm)
    cases r with
    | nil => simp only [firstHeads]; exact ih hrs hk
    | cons x xs =>
      have hx := hr _ List.mem_cons_self
      obtain ⟨c1, s1, h1, hm1⟩ := hrec c x (hx x List.mem_cons_self) hk
      have hk1 := Nat.lt_of_le_of_lt (filter_mono (V := V) hm1) hk
      simp only [firstHeads, h1]
      obtain ⟨c3, s3, h3, hm3⟩ := ih (c := c1) (result := result ++ s1) hrs hk1
      exact ⟨c3, s3, h3, fun x h => hm3 x (hm1 x h)⟩

theorem itemFirst_total {V k rec} (hrec : RecTotal V k rec) (hV : g.Closed (· ∈ V)) {c x} (hx : x ∈ V)
    (hk : (V.filter fun x => (get x c).isNone).length < k) :
    ∃ c' s, itemFirst rec g c x = some (c', s) ∧ ∀ x, get x c ≠ none → get x c' ≠ none := by
  cases x with
  | empty | eoi | eog | terminal n | guard p r => exact ⟨c, _, rfl, fun _ h => h⟩
  | nonterminal n => exact firstRules_total hrec (g.rules n) (hV _ hx) hk
  | ebnf kind rs =>
    have hhead : ∀ y ys, ebnfRule rs = y :: ys → y ∈ V := fun y ys hr => hV _ hx _ (ebnfRule_mem hr) y List.mem_cons_self
    cases kind with
    | alternative => exact firstHeads_total hrec rs (hV _ hx) hk
    | repeating =>
      simp only [itemFirst]
      cases hr : ebnfRule rs with
      | nil => exact ⟨c, _, rfl, fun _ h => h⟩
      | cons y ys => exact hrec c y (hhead y ys hr) hk
    | optional | repeatZero =>
      simp only [itemFirst]
      cases hr : ebnfRule rs with
      | nil => exact ⟨c, _, rfl, fun _ h => h⟩
      | cons y ys =>
        obtain ⟨c1, s1, h1, hm1⟩ := hrec c y (hhead y ys hr) hk
        dsimp only
        rw [h1]
        exact ⟨c1, _, rfl, hm1⟩

/-- Every query terminates: the calls nest no deeper than there are items in the grammar, whatever is cached already. -/
theorem first_total (V : List Item) (hV : g.Closed (· ∈ V)) (fuel : Nat) : RecTotal V fuel (g.first fuel) := by
  induction fuel with
  | zero => intro c y _ h; omega
  | succ fuel ih =>
    intro c y hy hk
    simp only [first]
    cases hg : get y c with
    | some s => exact ⟨c, s, rfl, fun _ h => h⟩
    | none =>
      dsimp only
      have hm0 : ∀ x, get x c ≠ none → get x (put y [] c) ≠ none := by
        intro x h
        rw [get_put]
        split
        · simp
        · exact h
      have hlt := filter_strict hm0 hy hg (by rw [get_put, if_pos rfl]; simp)
      obtain ⟨c1, s1, h1, hm1⟩ := itemFirst_total (g := g) (rec := g.first fuel) (k := fuel) (V := V) ih hV hy (c := put y [] c) (by omega)
      rw [h1]
      refine ⟨_, _, rfl, ?_⟩
      intro x h
      rw [get_put]
      split
      · simp
      · exact hm1 x (hm0 x h)

/-- A query on an empty cache gives an answer. -/
theorem first_answers (V : List Item) (hV : g.Closed (· ∈ V)) (x : Item) (hx : x ∈ V) :
    ∃ c s, g.first (V.length + 1) [] x = some (c, s) := by
  obtain ⟨c, s, h, _⟩ := first_total V hV (V.length + 1) [] x hx (Nat.lt_succ_of_le (List.length_filter_le _ _))
  exact ⟨c, s, h⟩

/-! ### Where the properties fail -/

theorem not_nullable_leaf {t : Item} (h : isLeaf t) : ¬ g.Nullable t := by
  intro hn
  obtain ⟨r, hr, _⟩ := nullable_prods hn
  rw [prods_leaf h] at hr
  cases hr

/-- `(a? b)+` -/
def aOptB : Item := .ebnf .repeating [[.ebnf .optional [[.terminal 1]], .terminal 2]]

/-- C31 is violated: `(a? b)+` is reported to derive the empty string, and `S → (a? b)+ c` to begin with `c`. -/
theorem first_sound_violated : ∃ (g : Gram) (fuel : Nat),
    (∃ c s, g.first fuel [] aOptB = some (c, s) ∧ Item.empty ∈ s ∧ ¬ g.Derives [aOptB] []) ∧
    (∃ c s, g.first fuel [] (.nonterminal 1) = some (c, s) ∧ .terminal 3 ∈ s ∧
      ¬ ∃ rest, g.Derives [.nonterminal 1] (.terminal 3 :: rest)) := by
  refine ⟨⟨fun n => if n = 1 then [[aOptB, .terminal 3]] else []⟩, 5, ⟨_, _, rfl, by decide +kernel, ?_⟩, _, _, rfl, by decide +kernel, ?_⟩
  · rw [nullable_iff]
    intro h
    exact not_nullable_leaf (t := .terminal 2) rfl (nullable_repeating h _ (by simp [ebnfRule]))
  · rw [begins_iff rfl]
    intro h
    obtain ⟨r, hr, hb⟩ := begins_prods h (by simp [isLeaf])
    simp only [prods, if_true, List.mem_singleton] at hr
    subst hr
    rcases beginsList_cons hb with hb | ⟨hn, _⟩
    · have := begins_repeat (.inl rfl) hb
      rcases beginsList_cons (by simpa [ebnfRule] using this) with hb | ⟨_, hb⟩
      · obtain ⟨r, hr, hb⟩ := begins_prods hb (by simp [isLeaf])
        simp only [prods, ebnfRule, List.headD_cons, List.mem_cons, List.not_mem_nil, or_false] at hr
        rcases hr with rfl | rfl
        · exact not_beginsList_nil hb
        · rcases beginsList_cons hb with hb | ⟨_, hb⟩
          · cases hb with
            | prod hr _ _ => simp [prods] at hr
          · exact not_beginsList_nil hb
      · rcases beginsList_cons hb with hb | ⟨_, hb⟩
        · cases hb with
          | prod hr _ _ => simp [prods] at hr
        · exact not_beginsList_nil hb
    · exact not_nullable_leaf (t := .terminal 2) rfl (nullable_repeating hn _ (by simp [ebnfRule]))

/-- C32 is violated by left recursion: for `List → List item | ε` the set lacks `item`. -/
theorem first_complete_violated : ∃ (g : Gram) (fuel : Nat) (c : ItemCache) (s : List Item),
    g.first fuel [] (.nonterminal 1) = some (c, s) ∧ .terminal 5 ∉ s ∧ g.Derives [.nonterminal 1] [.terminal 5] := by
  refine ⟨⟨fun n => if n = 1 then [[.nonterminal 1, .terminal 5], []] else []⟩, 5, _, _, rfl, by decide +kernel, ?_⟩
  refine Relation.ReflTransGen.tail (Relation.ReflTransGen.single
    ⟨[], .nonterminal 1, [], [.nonterminal 1, .terminal 5], rfl, by simp [prods], rfl⟩)
    ⟨[], .nonterminal 1, [.terminal 5], [], rfl, by simp [prods], rfl⟩

/-- C32 is violated by an empty rule before a rule that begins with something that can be empty: for `A → ε | B c`, `B → ε` the empty item
is missing. -/
theorem first_complete_empty_violated : ∃ (g : Gram) (fuel : Nat) (c : ItemCache) (s : List Item),
    g.first fuel [] (.nonterminal 1) = some (c, s) ∧ .empty ∉ s ∧ g.Derives [.nonterminal 1] [] :=
  ⟨⟨fun n => if n = 1 then [[], [.nonterminal 2, .terminal 3]] else [[]]⟩, 5, _, _, rfl, by decide +kernel,
    Relation.ReflTransGen.single ⟨[], .nonterminal 1, [], [], rfl, by simp [prods], rfl⟩⟩

/-- C32 is violated by EBNF items: `(a? b)?` begins with `b`, but the set lacks it. -/
theorem first_complete_ebnf_violated : ∃ (g : Gram) (x : Item) (fuel : Nat) (c : ItemCache) (s : List Item),
    g.first fuel [] x = some (c, s) ∧ .terminal 2 ∉ s ∧ g.Derives [x] [.terminal 2] := by
  refine ⟨⟨fun _ => []⟩, .ebnf .optional [[.ebnf .optional [[.terminal 1]], .terminal 2]], 5, _, _, rfl, by decide +kernel, ?_⟩
  refine Relation.ReflTransGen.tail (Relation.ReflTransGen.single
    ⟨[], _, [], [.ebnf .optional [[.terminal 1]], .terminal 2], rfl, by simp [prods, ebnfRule], rfl⟩)
    ⟨[], .ebnf .optional [[.terminal 1]], [.terminal 2], [], rfl, by simp [prods], rfl⟩

/-- The answer depends on the queries before it: for `A → B x | a`, `B → A y | b` the set of `B` lacks `a` if the set of `A` was asked for
before. -/
theorem first_order_violated : ∃ (g : Gram) (fuel : Nat) (c c1 c2 : ItemCache) (s1 s2 : List Item),
    g.queries fuel [] [.nonterminal 1] = some c ∧ g.first fuel [] (.nonterminal 2) = some (c1, s1) ∧
    g.first fuel c (.nonterminal 2) = some (c2, s2) ∧ .terminal 1 ∈ s1 ∧ .terminal 1 ∉ s2 :=
  ⟨⟨fun n => if n = 1 then [[.nonterminal 2, .terminal 3], [.terminal 1]] else [[.nonterminal 1, .terminal 4], [.terminal 2]]⟩, 5,
    _, _, _, _, _, rfl, rfl, rfl, by decide +kernel, by decide +kernel⟩

/-- A grammar in the scope of `first_complete_partial`: `S → B c | d?`, `B → ε | b`. -/
example : let g : Gram := ⟨fun n => if n = 1 then [[.nonterminal 2, .terminal 3], [.ebnf .optional [[.terminal 4]]]]
      else if n = 2 then [[], [.terminal 2]] else []⟩
    ∃ c s, g.first 9 [] (.nonterminal 1) = some (c, s) ∧ .terminal 2 ∈ s ∧ .terminal 3 ∈ s ∧ .terminal 4 ∈ s ∧ .empty ∈ s :=
  ⟨_, _, rfl, by decide +kernel, by decide +kernel, by decide +kernel, by decide +kernel⟩

end Gram
end TameParse

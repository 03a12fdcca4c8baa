import Verif.GuardExactProps
import Verif.GuardExample

/-!
# Instances of C82

A guard that looks arbitrarily far ahead.
-/

namespace TameParse
namespace Guards

open AssocMap Closure Relation Lalr TameParse.Parser ParserTables Sound

/-- `S → [=> X c] P | Q`, `X → a X | b`, `P → a P | b c`, `Q → a Q | b d`, with an ignored token. -/
def farEx : GEx where
  g := ⟨fun n => if n = 1 then [[.guard 0 [.nonterminal 2, .terminal 3], .nonterminal 3], [.nonterminal 4]]
    else if n = 2 then [[.terminal 1, .nonterminal 2], [.terminal 2]]
    else if n = 3 then [[.terminal 1, .nonterminal 3], [.terminal 2, .terminal 3]]
    else if n = 4 then [[.terminal 1, .nonterminal 4], [.terminal 2, .terminal 4]] else []⟩
  items := [.nonterminal 1, .nonterminal 2, .nonterminal 3, .nonterminal 4, .terminal 1, .terminal 2, .terminal 3, .terminal 4, .guard 0 [.nonterminal 2, .terminal 3]]
  rules := [⟨.empty, [.nonterminal 1]⟩, ⟨.nonterminal 1, [.guard 0 [.nonterminal 2, .terminal 3], .nonterminal 3]⟩,
    ⟨.nonterminal 1, [.nonterminal 4]⟩, ⟨.nonterminal 2, [.terminal 1, .nonterminal 2]⟩, ⟨.nonterminal 2, [.terminal 2]⟩,
    ⟨.nonterminal 3, [.terminal 1, .nonterminal 3]⟩, ⟨.nonterminal 3, [.terminal 2, .terminal 3]⟩,
    ⟨.nonterminal 4, [.terminal 1, .nonterminal 4]⟩, ⟨.nonterminal 4, [.terminal 2, .terminal 4]⟩,
    ⟨.guard 0 [.nonterminal 2, .terminal 3], [.nonterminal 2, .terminal 3]⟩]
  start := .nonterminal 1
  ignored := [.terminal 9]
  fuel := 100
  initial := fun y => if y = .guard 0 [.nonterminal 2, .terminal 3] then [.terminal 1, .terminal 2] else []

theorem farEx_ok : farEx.Ok where
  items := by decide +kernel
  closed := by decide +kernel
  guards := by
    intro p l h
    simp only [farEx, List.mem_cons, List.not_mem_nil, or_false, reduceCtorEq, false_or, Item.guard.injEq] at h
    obtain ⟨rfl, rfl⟩ := h
    decide +kernel
  inits := by decide +kernel
  rules := by decide +kernel
  start := by decide +kernel
  first := by decide +kernel
  mach := by decide +kernel
  full := by decide +kernel
  size := by decide +kernel
  actions := by decide +kernel
  ignored := by decide +kernel
  numRules := by decide +kernel
  next := by decide +kernel
  back := by decide +kernel

/-- The items of the guard. -/
def farInside : List Item := [.nonterminal 2, .terminal 1, .terminal 2, .terminal 3]

theorem far_plain : Plain farEx.g (· ∈ farInside) where
  prods := by decide +kernel
  noGuard := by intro p l h; simp [farInside] at h
  noEmpty := by decide +kernel

def farRank : Item → Nat
  | .nonterminal 2 => 1
  | _ => 0

theorem far_first : ∀ y ∈ farInside, farEx.g.FirstComplete y (farEx.first y) := by
  have hs : farEx.g.Simple (· ∈ farInside) farRank := simple_of_ranks (by decide +kernel) (by decide +kernel) (by decide +kernel)
  intro y hy
  have hsome : ∀ y ∈ farInside, (farEx.g.first 100 [] y).isSome = true := by decide +kernel
  obtain ⟨⟨c, s⟩, h⟩ := Option.isSome_iff_exists.1 (hsome y hy)
  have := Gram.first_complete_partial _ _ hs 100 [] (by simp) [] c y s rfl hy h
  have he : farEx.first y = s := by
    unfold Ex.first
    have h' : farEx.g.first farEx.fuel [] y = some (c, s) := h
    rw [h']
    rfl
  rw [he]
  exact this

/-- The states that the check goes through. -/
theorem far_region {m : Mach} (hm : farEx.mach = some m) {s : Nat} (h : ReflTransGen (Edge m) 1 s) : s ∈ [1, 7, 8, 9, 15, 16] := by
  have hclosed : ∀ a ∈ [1, 7, 8, 9, 15, 16], ∀ l, farEx.mach.map (fun m => m.trans.getD a []) = some l → ∀ q ∈ l, q.2 ∈ [1, 7, 8, 9, 15, 16] := by
    have : ∀ a ∈ [1, 7, 8, 9, 15, 16], ∀ q ∈ (farEx.mach.map (fun m => m.trans.getD a [])).getD [], q.2 ∈ [1, 7, 8, 9, 15, 16] := by decide +kernel
    intro a ha l hl q hq
    refine this a ha q ?_
    rw [hl]
    exact hq
  induction h with
  | refl => simp
  | @tail a b _ he ih =>
    obtain ⟨x, hx⟩ := he
    refine hclosed a ih _ (by rw [hm]; rfl) (x, b) ?_
    exact mem_of_get hx

/-! The words of the grammar -/

/-- The words of an item. -/
def farWord : Item → List Int → Prop
  | .terminal n, w => w = [n]
  | .nonterminal n, w => (n = 2 → ∃ k, w = List.replicate k 1 ++ [2]) ∧ (n = 3 → ∃ k, w = List.replicate k 1 ++ [2, 3]) ∧
      (n = 4 → ∃ k, w = List.replicate k 1 ++ [2, 4])
  | _, _ => True

/-- The words of a sequence of items. -/
def farWords : List Item → List Int → Prop
  | [], w => w = []
  | x :: xs, w => ∃ u v, w = u ++ v ∧ farWord x u ∧ farWords xs v

/-- The rules keep to the words. -/
theorem far_rule {x : Item} {r : List Item} (hr : r ∈ closRules farEx.g x) {w : List Int} (h : farWords r w) : farWord x w := by
  have two : ∀ {n : Int} {y : Item} {w : List Int}, farWords [.terminal n, y] w → ∃ v, w = n :: v ∧ farWord y v := by
    rintro n y w ⟨u, v, rfl, rfl, v1, v2, rfl, h2, rfl⟩
    exact ⟨v1, by simp, h2⟩
  have step : ∀ {l w : List Int}, (∃ k, w = List.replicate k 1 ++ l) → ∃ k, 1 :: w = List.replicate k 1 ++ l := by
    rintro l w ⟨k, rfl⟩
    exact ⟨k + 1, rfl⟩
  cases x with
  | terminal n => cases hr
  | nonterminal n =>
    refine ⟨?_, ?_, ?_⟩
    · rintro rfl
      have : r = [.terminal 1, .nonterminal 2] ∨ r = [.terminal 2] := by
        have : ∀ r ∈ closRules farEx.g (.nonterminal 2), r = [.terminal 1, .nonterminal 2] ∨ r = [.terminal 2] := by decide +kernel
        exact this r hr
      rcases this with rfl | rfl
      · obtain ⟨v, rfl, hv⟩ := two h
        exact step (hv.1 rfl)
      · obtain ⟨u, v, rfl, rfl, rfl⟩ := h
        exact ⟨0, rfl⟩
    · rintro rfl
      have : r = [.terminal 1, .nonterminal 3] ∨ r = [.terminal 2, .terminal 3] := by
        have : ∀ r ∈ closRules farEx.g (.nonterminal 3), r = [.terminal 1, .nonterminal 3] ∨ r = [.terminal 2, .terminal 3] := by decide +kernel
        exact this r hr
      rcases this with rfl | rfl
      · obtain ⟨v, rfl, hv⟩ := two h
        exact step (hv.2.1 rfl)
      · obtain ⟨v, rfl, rfl⟩ := two h
        exact ⟨0, rfl⟩
    · rintro rfl
      have : r = [.terminal 1, .nonterminal 4] ∨ r = [.terminal 2, .terminal 4] := by
        have : ∀ r ∈ closRules farEx.g (.nonterminal 4), r = [.terminal 1, .nonterminal 4] ∨ r = [.terminal 2, .terminal 4] := by decide +kernel
        exact this r hr
      rcases this with rfl | rfl
      · obtain ⟨v, rfl, hv⟩ := two h
        exact step (hv.2.2 rfl)
      · obtain ⟨v, rfl, rfl⟩ := two h
        exact ⟨0, rfl⟩
  | _ => trivial

theorem far_words {xs : List Item} {ts : List Tree} {w : List Tok} (h : Forest farEx.g farEx.num xs ts w) : farWords xs (w.map Tok.sym) := by
  induction h with
  | nil => rfl
  | @token k _ _ w _ ih => exact ⟨[k.sym], _, rfl, rfl, ih⟩
  | guard _ ih => exact ⟨[], _, rfl, trivial, ih⟩
  | node hr _ _ ih1 ih2 => exact ⟨_, _, List.map_append, far_rule hr ih1, ih2⟩

/-- `X` has all its words. -/
theorem far_forest : ∀ (n : Nat) (u : List Tok), u.map Tok.sym = List.replicate n 1 ++ [2] → ∃ ts, Forest farEx.g farEx.num [.nonterminal 2] ts u
  | 0, u, h => by
    obtain ⟨k, rfl, hk⟩ := List.map_eq_singleton_iff.1 h
    have h1 : Forest farEx.g farEx.num [.terminal k.sym] [.leaf (some k)] [k] := .token .nil
    rw [hk] at h1
    exact ⟨_, .node (r := [.terminal 2]) (by decide +kernel) h1 .nil⟩
  | n + 1, u, h => by
    match u, h with
    | k :: u, h =>
      rw [List.map_cons, List.replicate_succ, List.cons_append, List.cons.injEq] at h
      obtain ⟨ts, hf⟩ := far_forest n u h.2
      have h1 : Forest farEx.g farEx.num [.terminal k.sym, .nonterminal 2] (.leaf (some k) :: ts) (k :: u) := .token hf
      rw [h.1] at h1
      exact ⟨_, by simpa using Forest.node (r := [.terminal 1, .nonterminal 2]) (by decide +kernel) h1 .nil⟩

/-- What the guard wants, in the symbols that are not ignored. -/
def FarHolds (w : List Tok) : Prop := ∃ n rest, shown w = List.replicate n 1 ++ 2 :: 3 :: rest

theorem shown_filter (u : List Tok) : (u.filter fun k => decide (.terminal k.sym ∉ farEx.ignored)).map Tok.sym = shown u := by
  induction u with
  | nil => rfl
  | cons k u ih =>
    have : (k.sym ≠ 9) ↔ Item.terminal k.sym ∉ farEx.ignored := by simp [farEx]
    unfold shown at ih ⊢
    rw [List.map_cons, List.filter_cons, List.filter_cons]
    by_cases h : k.sym ≠ 9
    · rw [if_pos (by simpa using this.1 h), if_pos (by simpa using h), List.map_cons, ih]
    · rw [if_neg (by simpa using fun hc => h (this.2 hc)), if_neg (by simpa using h), ih]

/-- A prefix of the symbols that are not ignored is that of a prefix of the tokens. -/
theorem shown_split {w : List Tok} {a b : List Int} (h : shown w = a ++ b) : ∃ u v, w = u ++ v ∧ shown u = a := by
  induction w generalizing a with
  | nil =>
    have : a = [] := by
      have := congrArg List.length h
      simp [shown] at this
      exact List.length_eq_zero_iff.1 (by omega)
    exact ⟨[], [], rfl, this ▸ rfl⟩
  | cons k w ih =>
    by_cases hk : k.sym = 9
    · have : shown (k :: w) = shown w := by simp [shown, hk]
      obtain ⟨u, v, rfl, hu⟩ := ih (this ▸ h)
      exact ⟨k :: u, v, rfl, by rw [← hu]; simp [shown, hk]⟩
    · have : shown (k :: w) = k.sym :: shown w := by simp [shown, hk]
      rw [this] at h
      cases a with
      | nil => exact ⟨[], k :: w, rfl, rfl⟩
      | cons c a =>
        rw [List.cons_append, List.cons.injEq] at h
        obtain ⟨u, v, rfl, hu⟩ := ih h.2
        exact ⟨k :: u, v, rfl, by rw [← hu, ← h.1]; simp [shown, hk]⟩

theorem far_begun (w : List Tok) : Begun farEx.g farEx.ignored [.nonterminal 2, .terminal 3] w ↔ FarHolds w := by
  constructor
  · rintro ⟨u, v, rfl, hd⟩
    obtain ⟨ts, hf⟩ := forest_of_derives (num := farEx.num) far_plain hd (by decide +kernel) rfl
    obtain ⟨u1, v1, h1, h2, u2, v2, rfl, rfl, rfl⟩ := far_words hf
    obtain ⟨n, rfl⟩ := h2.1 rfl
    rw [shown_filter] at h1
    refine ⟨n, shown v, ?_⟩
    have : shown (u ++ v) = shown u ++ shown v := by simp [shown]
    rw [this, h1]
    simp
  · rintro ⟨n, rest, h⟩
    obtain ⟨u, v, rfl, hu⟩ := shown_split (a := (List.replicate n 1 ++ [2]) ++ [3]) (b := rest) (by simpa using h)
    refine ⟨u, v, rfl, ?_⟩
    rw [← shown_filter] at hu
    generalize (u.filter fun k => decide (.terminal k.sym ∉ farEx.ignored)) = x at hu
    obtain ⟨x1, x2, rfl, h1, h2⟩ := List.map_eq_append_iff.1 hu
    obtain ⟨k, x3, rfl, h3, h4⟩ := List.map_eq_cons_iff.1 h2
    rw [List.map_eq_nil_iff] at h4
    subst h4
    obtain ⟨ts, hf⟩ := far_forest n x1 h1
    have h5 : Forest farEx.g farEx.num [.terminal k.sym] [.leaf (some k)] [k] := .token .nil
    rw [h3] at h5
    exact (hf.append h5).plain far_plain (by decide +kernel)

/-- The check of the guard finds `X c` however far away the `c` is. -/
theorem far_check {under : List Nat} (hu : under ≠ []) {input : List Tok} {o fuel : Nat} {gs : Int} (h : checkLoop farEx.tables under input fuel [1] o = .ok gs) :
    (gs = farEx.num.ident (.guard 0 [.nonterminal 2, .terminal 3]) ∧ FarHolds (input.drop o)) ∨ (gs < 0 ∧ ¬ FarHolds (input.drop o)) := by
  obtain ⟨m, m', hm, hm', hmade⟩ := GEx.made farEx_ok
  have hk : AssocMap.get ⟨.guard 0 [.nonterminal 2, .terminal 3], [.nonterminal 2, .terminal 3]⟩ m.guards = some 1 := by
    have : farEx.mach.map (fun m => AssocMap.get ⟨.guard 0 [.nonterminal 2, .terminal 3], [.nonterminal 2, .terminal 3]⟩ m.guards) = some (some 1) := by
      decide +kernel
    rw [hm] at this
    exact Option.some.inj this
  have := guard_check_exact_partial (okB := (· ∈ farInside)) hmade (Ex.bare rfl rfl) (fun i => by simp [Ex.num]) hk far_plain (by decide +kernel) far_first ?_ hu h
  · rw [← far_begun]
    exact this
  · intro s acts hs hacts
    have hone : ∀ s ∈ [1, 7, 8, 9, 15, 16], ∀ b ∈ farEx.states.getD s [], ∀ c ∈ farEx.states.getD s [], b.item = c.item →
        isTerminal b.item = true ∨ b.item = .eog → b = c := by decide +kernel
    have := hone s (far_region hm hs)
    rw [List.getD_eq_getElem?_getD, hacts] at this
    exact this

/-- The answer, if there is one. -/
def answer : M Int → Option Int
  | .ok g => some g
  | .error _ => none

/-- It is found after five tokens, one of them ignored, and not if there is a `d` instead of the `c`. -/
example : answer (checkLoop farEx.tables [0] [⟨1, 0⟩, ⟨1, 0⟩, ⟨9, 0⟩, ⟨2, 0⟩, ⟨3, 0⟩, ⟨1, 0⟩] 20 [1] 0) = some (farEx.num.ident (.guard 0 [.nonterminal 2, .terminal 3])) ∧
    answer (checkLoop farEx.tables [0] [⟨1, 0⟩, ⟨1, 0⟩, ⟨2, 0⟩, ⟨4, 0⟩] 20 [1] 0) = some (-1) := by decide +kernel

end Guards
end TameParse

import Verif.GuardDecideProps
import Verif.GuardExactExample

/-!
# Instances of C83

The language of a parser whose guard looks arbitrarily far ahead.
-/

namespace TameParse
namespace Guards

open AssocMap Closure Relation Lalr TameParse.Parser ParserTables Sound

theorem far_first_all : ∀ y ∈ farEx.items, farEx.g.FirstComplete y (farEx.first y) := by
  have hs : farEx.g.Simple (· ∈ farEx.items) (fun y => if y = .nonterminal 1 then 2 else if y = .nonterminal 4 then 1 else if y = .nonterminal 3 then 1 else if y = .nonterminal 2 then 1 else 0) :=
    simple_of_ranks (by decide +kernel) (by decide +kernel) (by decide +kernel)
  intro y hy
  have hsome : ∀ y ∈ farEx.items, (farEx.g.first 100 [] y).isSome = true := by decide +kernel
  obtain ⟨⟨c, s⟩, h⟩ := Option.isSome_iff_exists.1 (hsome y hy)
  have := Gram.first_complete_partial _ _ hs 100 [] (by simp) [] c y s rfl hy h
  have he : farEx.first y = s := by
    unfold Ex.first
    have h' : farEx.g.first farEx.fuel [] y = some (c, s) := h
    rw [h']
    rfl
  rw [he]
  exact this

theorem far_guard {p : Int} {l : List Item} (h : Item.guard p l ∈ farEx.items) : p = 0 ∧ l = [.nonterminal 2, .terminal 3] := by
  simpa only [farEx, List.mem_cons, List.not_mem_nil, or_false, reduceCtorEq, false_or, Item.guard.injEq] using h

/-- The words that are read. -/
theorem far_yields {xs ys : List Item} (h : Yields farEx.g xs ys) : ∀ {w v : List Tok}, Follows farEx.g ys w v → ∃ u, w = u ++ v ∧ farWords xs (u.map Tok.sym) := by
  induction h with
  | nil =>
    intro w v hf
    cases hf
    exact ⟨[], rfl, rfl⟩
  | token _ ih =>
    intro w v hf
    cases hf with
    | @token k _ _ _ hf =>
      obtain ⟨u, rfl, hu⟩ := ih hf
      exact ⟨k :: u, rfl, [k.sym], _, rfl, rfl, hu⟩
  | guard _ ih =>
    intro w v hf
    cases hf with
    | guard _ hf =>
      obtain ⟨u, rfl, hu⟩ := ih hf
      exact ⟨u, rfl, [], _, rfl, trivial, hu⟩
  | @node x r us xs ys hr _ _ ih1 ih2 =>
    intro w v hf
    obtain ⟨m, h1, h2⟩ := Follows.split us hf
    obtain ⟨u1, rfl, a1⟩ := ih1 h1
    obtain ⟨u2, rfl, a2⟩ := ih2 h2
    exact ⟨u1 ++ u2, by simp, _, _, List.map_append, far_rule hr a1, a2⟩

/-- The first tokens of the guard. -/
theorem far_body {w : List Tok} : Begun farEx.g [] [.nonterminal 2, .terminal 3] w ↔ ∃ n rest, w.map Tok.sym = List.replicate n 1 ++ 2 :: 3 :: rest := by
  constructor
  · rintro ⟨u, v, rfl, hd⟩
    obtain ⟨ts, hf⟩ := forest_of_derives (num := farEx.num) far_plain hd (by decide +kernel) rfl
    obtain ⟨u1, v1, h1, h2, u2, v2, rfl, rfl, rfl⟩ := far_words hf
    obtain ⟨n, rfl⟩ := h2.1 rfl
    refine ⟨n, v.map Tok.sym, ?_⟩
    simp only [List.not_mem_nil, not_false_eq_true, decide_true, List.filter_true] at h1
    rw [List.map_append, h1]
    simp
  · rintro ⟨n, rest, h⟩
    obtain ⟨x1, x2, rfl, h1, h2⟩ := List.map_eq_append_iff.1 h
    obtain ⟨k, x3, rfl, h3, h4⟩ := List.map_eq_cons_iff.1 h2
    obtain ⟨k', x4, rfl, h5, h6⟩ := List.map_eq_cons_iff.1 h4
    obtain ⟨ts, hf⟩ := far_forest n (x1 ++ [k]) (by simp [h1, h3])
    have h7 : Forest farEx.g farEx.num [.terminal k'.sym] [.leaf (some k')] [k'] := .token .nil
    rw [h5] at h7
    have := (hf.append h7).plain far_plain (by decide +kernel)
    refine ⟨x1 ++ [k] ++ [k'], x4, by simp, ?_⟩
    simpa using this

/-- The number of `a`s and what follows them. -/
theorem far_apart : ∀ {n k : Nat} {a b : List Int}, List.replicate n 1 ++ 2 :: a = List.replicate k (1 : Int) ++ 2 :: b → a = b
  | 0, 0, a, b, h => by simpa using h
  | 0, k + 1, a, b, h => by simp [List.replicate_succ] at h
  | n + 1, 0, a, b, h => by simp [List.replicate_succ] at h
  | n + 1, k + 1, a, b, h => by
    rw [List.replicate_succ, List.replicate_succ, List.cons_append, List.cons_append, List.cons.injEq] at h
    exact far_apart h.2

/-- The items of the first state. -/
def farItems : List LItem := [⟨⟨.empty, [.nonterminal 1]⟩, 0⟩, ⟨⟨.nonterminal 1, [.guard 0 [.nonterminal 2, .terminal 3], .nonterminal 3]⟩, 0⟩,
  ⟨⟨.nonterminal 1, [.nonterminal 4]⟩, 0⟩, ⟨⟨.nonterminal 4, [.terminal 1, .nonterminal 4]⟩, 0⟩, ⟨⟨.nonterminal 4, [.terminal 2, .terminal 4]⟩, 0⟩]

theorem far_items {i : LItem} (h : Clos0 farEx.g [⟨⟨.empty, [.nonterminal 1]⟩, 0⟩] i) : i ∈ farItems := by
  obtain ⟨i0, h1, h2⟩ := h
  have hc : ∀ i ∈ farItems, ∀ x ∈ i.rule.items[i.dot]?, ∀ r ∈ closRules farEx.g x, (⟨⟨x, r⟩, 0⟩ : LItem) ∈ farItems := by decide +kernel
  induction h2 with
  | refl =>
    rw [List.mem_singleton.1 h1]
    exact List.mem_cons_self ..
  | tail _ hs ih =>
    obtain ⟨x, r, hx, hr, rfl⟩ := hs
    exact hc _ ih x hx r hr

theorem far_clear {m : Mach} (hm : farEx.mach = some m) : Clear farEx.first farEx.initial farEx.g (· ∈ farEx.items) (· ∈ farInside) m farEx.states where
  first := far_first_all
  inside := far_plain
  sub := by decide +kernel
  body := by
    intro p l h
    obtain ⟨rfl, rfl⟩ := far_guard h
    decide +kernel
  initial := by
    intro p l h n v hd
    obtain ⟨rfl, rfl⟩ := far_guard h
    have hprod : ∀ x ∈ [Item.nonterminal 2, .terminal 1, .terminal 2], ∀ r ∈ farEx.g.prods x, ∃ y rest, r = y :: rest ∧ y ∈ [Item.nonterminal 2, .terminal 1, .terminal 2] := by
      intro x hx r hr
      have : ∀ x ∈ [Item.nonterminal 2, .terminal 1, .terminal 2], ∀ r ∈ farEx.g.prods x, ∃ y ∈ r.head?, y ∈ [Item.nonterminal 2, .terminal 1, .terminal 2] := by decide +kernel
      obtain ⟨y, h1, h2⟩ := this x hx r hr
      obtain ⟨rest, rfl⟩ := List.head?_eq_some_iff.1 h1
      exact ⟨y, rest, rfl, h2⟩
    have hhead : ∀ u, farEx.g.Derives [.nonterminal 2, .terminal 3] u → ∃ y rest, u = y :: rest ∧ y ∈ [Item.nonterminal 2, .terminal 1, .terminal 2] := by
      intro u hu
      induction hu with
      | refl => exact ⟨_, _, rfl, List.mem_cons_self ..⟩
      | tail _ hs ih =>
        obtain ⟨y, rest, rfl, hy⟩ := ih
        obtain ⟨a, x, b, r, he, hr, rfl⟩ := hs
        cases a with
        | nil =>
          cases he
          obtain ⟨y', rest', rfl, hy'⟩ := hprod _ hy r hr
          exact ⟨y', _, rfl, hy'⟩
        | cons z a =>
          cases he
          exact ⟨y, _, rfl, hy⟩
    obtain ⟨y, rest, he, hy⟩ := hhead _ hd
    cases he
    have : farEx.initial (.guard 0 [.nonterminal 2, .terminal 3]) = [.terminal 1, .terminal 2] := by decide +kernel
    rw [this]
    simpa using hy
  notEmpty := by
    intro p l h hd
    obtain ⟨rfl, rfl⟩ := far_guard h
    obtain ⟨ts, hf⟩ := forest_of_derives (num := farEx.num) (w := []) far_plain hd (by decide +kernel) rfl
    obtain ⟨u1, v1, h1, -, u2, v2, rfl, rfl, rfl⟩ := far_words hf
    simp at h1
  guards := by
    intro p l k hk s acts hs hacts
    have hk1 : k = 1 := by
      have : ∀ q ∈ (farEx.mach.map (fun m => m.guards)).getD [], q.2 = 1 := by decide +kernel
      rw [hm] at this
      exact this _ (mem_of_get hk)
    subst hk1
    have hone : ∀ s ∈ [1, 7, 8, 9, 15, 16], ∀ b ∈ farEx.states.getD s [], ∀ c ∈ farEx.states.getD s [], b.item = c.item →
        isTerminal b.item = true ∨ b.item = .eog → b = c := by decide +kernel
    have := hone s (far_region hm hs)
    rw [List.getD_eq_getElem?_getD, hacts] at this
    exact this
  one := by
    intro s acts hacts b hb c hc he _ hty
    have : ∀ l ∈ farEx.states, ∀ b ∈ l, ∀ c ∈ l, b.item = c.item → (b.type = .guard ↔ c.type = .guard) → b = c := by decide +kernel
    exact Or.inl (this acts (List.mem_of_getElem? hacts) b hb c hc he hty)
  compete := by
    intro s acts hacts b hb hbt c hc he hct
    have : ∀ q ∈ farEx.states.zipIdx, ∀ b ∈ q.1, ∀ c ∈ q.1, b.type = .guard → c.item = b.item → c.type ≠ .guard →
        q.2 = 0 ∧ c.type = .shift ∧ b.rule.items = [.nonterminal 2, .terminal 3] ∧ isTerminal b.item = true := by decide +kernel
    obtain ⟨rfl, h2, h3, h4⟩ := this (acts, s) (List.mem_zipIdx_iff_getElem?.2 hacts) b hb c hc hbt he hct
    refine ⟨h2, ?_⟩
    intro i hi hdot ys w hy hf
    rw [h3, far_body]
    have hkern : kern m 0 = [⟨⟨.empty, [.nonterminal 1]⟩, 0⟩] := by
      have : farEx.mach.map (fun m => kern m 0) = some [⟨⟨.empty, [.nonterminal 1]⟩, 0⟩] := by decide +kernel
      rw [hm] at this
      exact Option.some.inj this
    rw [hkern] at hi
    have hlist : ∀ i ∈ farItems, ∀ x ∈ i.rule.items[i.dot]?, isTerminal x = true →
        i.rule.items.drop i.dot = [.terminal 1, .nonterminal 4] ∨ i.rule.items.drop i.dot = [.terminal 2, .terminal 4] := by decide +kernel
    obtain ⟨v, hf⟩ := hf
    obtain ⟨u, rfl, hu⟩ := far_yields hy hf
    have hword : ∃ k, u.map Tok.sym = List.replicate k 1 ++ [2, 4] := by
      rcases hlist i (far_items hi) _ hdot h4 with h | h
      · rw [h] at hu
        obtain ⟨u1, v1, h1, rfl, v2, v3, rfl, h2, rfl⟩ := hu
        obtain ⟨k, rfl⟩ := h2.2.2 rfl
        exact ⟨k + 1, by rw [h1]; simp [List.replicate_succ]⟩
      · rw [h] at hu
        obtain ⟨u1, v1, h1, rfl, v2, v3, rfl, rfl, rfl⟩ := hu
        exact ⟨0, by rw [h1]; rfl⟩
    obtain ⟨k, hk⟩ := hword
    rintro ⟨n, rest, hn⟩
    rw [List.map_append, hk, List.append_assoc] at hn
    have := far_apart hn
    simp at this

/-- `P` and `Q` have all their words. -/
theorem far_reads (last x : Int) (hr1 : [.terminal 1, .nonterminal x] ∈ closRules farEx.g (.nonterminal x)) (hr2 : [.terminal 2, .terminal last] ∈ closRules farEx.g (.nonterminal x)) :
    ∀ (n : Nat) (w : List Tok), w.map Tok.sym = List.replicate n 1 ++ [2, last] → ∃ ys, Yields farEx.g [.nonterminal x] ys ∧ Follows farEx.g ys w []
  | 0, w, h => by
    obtain ⟨k, w1, rfl, h1, h2⟩ := List.map_eq_cons_iff.1 h
    obtain ⟨k', w2, rfl, h3, h4⟩ := List.map_eq_cons_iff.1 h2
    rw [List.map_eq_nil_iff] at h4
    subst h4
    refine ⟨[.terminal 2, .terminal last], ?_, ?_⟩
    · exact .node hr2 (.token (.token .nil)) .nil
    · rw [← h1, ← h3]
      exact .token (.token .nil)
  | n + 1, w, h => by
    rw [List.replicate_succ, List.cons_append] at h
    obtain ⟨k, w1, rfl, h1, h2⟩ := List.map_eq_cons_iff.1 h
    obtain ⟨ys, q1, q2⟩ := far_reads last x hr1 hr2 n w1 h2
    refine ⟨.terminal 1 :: ys, ?_, ?_⟩
    · have := Yields.node hr1 (.token q1) .nil
      simpa using this
    · rw [← h1]
      exact .token q2

/-- The parser of `farEx` decides between `P` and `Q` at the first token, by what is behind all the `a`s: whenever it ends, it has accepted exactly if the input is
`a...a b c` or `a...a b d`, with ignored tokens anywhere. -/
theorem far_decides {input : List Tok} {fuel : Nat} {b : Bool} {s' : PState} (hp : parse farEx.tables fuel (Parser.start 0 input) = .ok (b, s')) :
    b = true ↔ ∃ n, shown input = List.replicate n 1 ++ [2, 3] ∨ shown input = List.replicate n 1 ++ [2, 4] := by
  obtain ⟨m, m', hm, hm', hmade⟩ := GEx.made farEx_ok
  have hkern : kern m 0 = [startItem (.nonterminal 1)] := by
    have : farEx.mach.map (fun m => kern m 0) = some [startItem (.nonterminal 1)] := by decide +kernel
    rw [hm] at this
    exact Option.some.inj this
  rw [guarded_words_partial hmade (Ex.bare rfl rfl) (fun i => by simp [Ex.num]) (far_clear hm) (k0 := 0) (start := .nonterminal 1)
    (by simp [initials, addInitial, addState]) hkern (by decide +kernel) hp]
  have hshow := shown_filter input
  change (input.filter fun k => decide (.terminal k.sym ∉ farEx.stage.ignored)).map Tok.sym = shown input at hshow
  generalize (input.filter fun k => decide (.terminal k.sym ∉ farEx.stage.ignored)) = w at hshow
  rw [← hshow]
  clear hshow hp
  have hrules : ∀ r ∈ closRules farEx.g (.nonterminal 1), r = [.guard 0 [.nonterminal 2, .terminal 3], .nonterminal 3] ∨ r = [.nonterminal 4] := by decide +kernel
  constructor
  · rintro ⟨ys, hy, hf⟩
    cases hy with
    | @node _ r us _ ys hr hc h =>
      cases h
      rw [List.append_nil] at hf
      rcases hrules r hr with rfl | rfl
      · cases hc with
        | guard hc =>
          cases hf with
          | guard _ hf =>
            obtain ⟨u, hu, u1, v1, h1, h2, rfl⟩ := far_yields hc hf
            rw [List.append_nil] at hu
            subst hu
            obtain ⟨k, rfl⟩ := h2.2.1 rfl
            exact ⟨k, Or.inl (by simpa using h1)⟩
        | node hr => exact nomatch hr
      · obtain ⟨u, hu, hw⟩ := far_yields hc hf
        rw [List.append_nil] at hu
        subst hu
        obtain ⟨u1, v1, h1, h2, rfl⟩ := hw
        obtain ⟨k, rfl⟩ := h2.2.2 rfl
        exact ⟨k, Or.inr (by simpa using h1)⟩
  · rintro ⟨n, h | h⟩
    · obtain ⟨ys, q1, q2⟩ := far_reads 3 3 (by decide +kernel) (by decide +kernel) n w h
      have hg : Begun farEx.g [] [.nonterminal 2, .terminal 3] w := far_body.2 ⟨n, [], h⟩
      have := Yields.node (r := [.guard 0 [.nonterminal 2, .terminal 3], .nonterminal 3]) (x := .nonterminal 1) (by decide +kernel) (.guard q1) .nil
      exact ⟨_, this, by rw [List.append_nil]; exact .guard hg q2⟩
    · obtain ⟨ys, q1, q2⟩ := far_reads 4 4 (by decide +kernel) (by decide +kernel) n w h
      have := Yields.node (r := [.nonterminal 4]) (x := .nonterminal 1) (by decide +kernel) q1 .nil
      exact ⟨_, this, by rw [List.append_nil]; exact q2⟩

/-- It ends on these, one of them with an ignored token. -/
example : accepts farEx.tables [⟨1, 0⟩, ⟨1, 0⟩, ⟨9, 0⟩, ⟨2, 0⟩, ⟨3, 0⟩] = true ∧ accepts farEx.tables [⟨1, 0⟩, ⟨1, 0⟩, ⟨2, 0⟩, ⟨4, 0⟩] = true ∧
    accepts farEx.tables [⟨1, 0⟩, ⟨2, 0⟩, ⟨2, 0⟩] = false := by decide +kernel

end Guards
end TameParse

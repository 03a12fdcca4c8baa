import Verif.PrecBlockProps
import Verif.CompleteExample

/-!
# An instance of C64

The language of Examples/Test/Precedence.tp, with parentheses.
-/

namespace TameParse
namespace Sound

open AssocMap Closure Relation Lalr TameParse.Parser ParserTables PrecBlock

/-- If rules are not empty and begin with items of the set then so do the words made from them. -/
theorem heads_derive {g : Gram} {H : Item → Prop} (hH : ∀ y, H y → ∀ r ∈ g.prods y, ∃ z zs, r = z :: zs ∧ H z) {x : Item} (hx : H x) {w : List Item} (h : g.Derives [x] w) :
    ∃ z zs, w = z :: zs ∧ H z := by
  unfold Gram.Derives at h
  induction h with
  | refl => exact ⟨x, [], rfl, hx⟩
  | tail _ hs ih =>
    obtain ⟨a, y, b, r, h1, h2, rfl⟩ := hs
    obtain ⟨z, zs, h3, hz⟩ := ih
    rw [h1] at h3
    cases a with
    | nil =>
      obtain ⟨rfl, rfl⟩ := List.cons.inj h3
      obtain ⟨z', zs', rfl, hz'⟩ := hH _ hz r h2
      exact ⟨z', zs' ++ b, by simp, hz'⟩
    | cons c a =>
      obtain ⟨rfl, rfl⟩ := List.cons.inj h3
      exact ⟨c, a ++ r ++ b, by simp, hz⟩

/-- FIRST sets are complete when there are no rules for the empty string and the sets have the tokens that rules begin with in them. -/
theorem first_of_heads {g : Gram} {H : Item → Prop} (hH : ∀ y, H y → ∀ r ∈ g.prods y, ∃ z zs, r = z :: zs ∧ H z) {x : Item} (hx : H x) {s : List Item}
    (hs : ∀ t, H t → Gram.isLeaf t → t ∈ s) : g.FirstComplete x s := by
  constructor
  · intro t rest ht hd
    obtain ⟨z, zs, h1, h2⟩ := heads_derive hH hx hd
    obtain ⟨rfl, rfl⟩ := List.cons.inj h1
    exact hs t h2 ht
  · intro hd
    obtain ⟨z, zs, h1, -⟩ := heads_derive hH hx hd
    cases h1

/-- `identifier`, `number`, `+`, `-`, `*`, `/`, `(` and `)` are 1 to 8. -/
def exprRules : List (List Item) :=
  [[.terminal 1], [.terminal 2], [.nonterminal 1, .terminal 3, .nonterminal 1], [.nonterminal 1, .terminal 4, .nonterminal 1],
    [.nonterminal 1, .terminal 5, .nonterminal 1], [.nonterminal 1, .terminal 6, .nonterminal 1], [.terminal 7, .nonterminal 1, .terminal 8]]

def exprSymbol (name : String) : Int :=
  if name = "identifier" then 1 else if name = "number" then 2 else if name = "'+'" then 3 else if name = "'-'" then 4 else if name = "'*'" then 5
  else if name = "'/'" then 6 else if name = "'('" then 7 else if name = "')'" then 8 else -1

/-- `left { '+' '-' } left { '*' '/' }` -/
def exprBlock : List Level := [⟨.left, [⟨true, "", "'+'"⟩, ⟨true, "", "'-'"⟩]⟩, ⟨.left, [⟨true, "", "'*'"⟩, ⟨true, "", "'/'"⟩]⟩]

def exprPrec : Rewriters.Prec := prec exprSymbol exprBlock

def exprEx : Ex where
  g := ⟨fun n => if n = 1 then exprRules else []⟩
  items := [.nonterminal 1, .terminal 1, .terminal 2, .terminal 3, .terminal 4, .terminal 5, .terminal 6, .terminal 7, .terminal 8]
  rules := ⟨.empty, [.nonterminal 1]⟩ :: exprRules.map (⟨.nonterminal 1, ·⟩)
  start := .nonterminal 1
  ignored := [.terminal 0]
  fuel := 120
  precs := [(exprPrec, fun _ => Rewriters.emptyRule, fun _ => [])]

theorem exprEx_ok : exprEx.Ok where
  items := by decide +kernel
  closed := by decide +kernel
  prods := by decide +kernel
  rules := by decide +kernel
  start := by decide +kernel
  first := by decide +kernel
  mach := by decide +kernel
  full := by decide +kernel
  size := by decide +kernel
  actions := by decide +kernel
  ignored := by decide +kernel
  numRules := by decide +kernel
  next := by decide +kernel
  back := by decide +kernel

theorem expr_conflicts : ∀ acts ∈ exprEx.states, Rewriters.findConflicts (fun _ => true) acts = [] := by decide +kernel

theorem expr_accept : ∀ acts ∈ exprEx.states, ∀ b ∈ acts, ∀ c ∈ acts, b.type = .accept → c.item = .eoi → c.type ≠ .reduce := by decide +kernel

theorem expr_first : ∀ y ∈ exprEx.items, exprEx.g.FirstComplete y (exprEx.first y) := by
  intro y hy
  have hterm : ∀ n, Item.terminal n ∈ exprEx.items → exprEx.g.FirstComplete (.terminal n) (exprEx.first (.terminal n)) := by
    intro n hn
    refine first_of_heads (H := fun x => x = .terminal n) ?_ rfl ?_
    · rintro y rfl r hr
      cases hr
    · rintro t rfl -
      have h : ∀ y ∈ exprEx.items, isTerminal y = true → y ∈ exprEx.first y := by decide +kernel
      exact h _ hn rfl
  cases y with
  | terminal n => exact hterm n hy
  | nonterminal n =>
    have hn : n = 1 := by simpa [exprEx] using hy
    subst hn
    refine first_of_heads (H := fun x => x ∈ [Item.nonterminal 1, .terminal 1, .terminal 2, .terminal 7]) ?_ (by simp) ?_
    · have h : ∀ y ∈ [Item.nonterminal 1, .terminal 1, .terminal 2, .terminal 7], ∀ r ∈ exprEx.g.prods y, ∃ z ∈ r.head?, z ∈ [Item.nonterminal 1, .terminal 1, .terminal 2, .terminal 7] := by
        decide +kernel
      intro y hy r hr
      obtain ⟨z, h1, h2⟩ := h y hy r hr
      cases r with
      | nil => cases h1
      | cons a r => cases h1; exact ⟨_, _, rfl, h2⟩
    · intro t ht hl
      simp only [List.mem_cons, List.not_mem_nil, or_false] at ht
      rcases ht with rfl | rfl | rfl | rfl
      · cases hl
      all_goals decide +kernel
  | _ => simp [exprEx] at hy

theorem expr_leveled : Leveled exprEx.stage exprPrec := ⟨⟨_, _, rfl⟩, block_same _ _, rfl, fun _ _ h => (List.not_mem_nil h).elim, rfl⟩

theorem expr_ops {n : Int} : IsOp exprPrec n ↔ n = 3 ∨ n = 4 ∨ n = 5 ∨ n = 6 := by
  have h := block_listed exprSymbol exprBlock n []
  unfold IsOp
  rw [show exprPrec = prec exprSymbol exprBlock from rfl, h]
  have e : exprSymbol "'+'" = 3 ∧ exprSymbol "'-'" = 4 ∧ exprSymbol "'*'" = 5 ∧ exprSymbol "'/'" = 6 := by decide +kernel
  simp only [exprBlock, List.mem_cons, List.not_mem_nil, or_false, exists_eq_or_imp, exists_eq_left, Listed, e, true_and]
  omega

theorem expr_op : OpGram exprEx.first exprEx.g (· ∈ exprEx.items) exprPrec (.nonterminal 1) where
  okE := by decide +kernel
  rules := by
    have h : ∀ r ∈ closRules exprEx.g (.nonterminal 1), (r = [.nonterminal 1, .terminal 3, .nonterminal 1] ∨ r = [.nonterminal 1, .terminal 4, .nonterminal 1] ∨
        r = [.nonterminal 1, .terminal 5, .nonterminal 1] ∨ r = [.nonterminal 1, .terminal 6, .nonterminal 1]) ∨ r = [.terminal 1] ∨ r = [.terminal 2] ∨
        r = [.terminal 7, .nonterminal 1, .terminal 8] := by decide +kernel
    intro r hr
    rcases h r hr with (rfl | rfl | rfl | rfl) | rfl | rfl | rfl
    · exact Or.inl ⟨3, rfl, expr_ops.2 (by simp)⟩
    · exact Or.inl ⟨4, rfl, expr_ops.2 (by simp)⟩
    · exact Or.inl ⟨5, rfl, expr_ops.2 (by simp)⟩
    · exact Or.inl ⟨6, rfl, expr_ops.2 (by simp)⟩
    · exact Or.inr ⟨⟨1, [], rfl⟩, ⟨[], 1, rfl⟩, fun n hn => by rw [expr_ops]; simp at hn; omega⟩
    · exact Or.inr ⟨⟨2, [], rfl⟩, ⟨[], 2, rfl⟩, fun n hn => by rw [expr_ops]; simp at hn; omega⟩
    · exact Or.inr ⟨⟨7, _, rfl⟩, ⟨[.terminal 7, .nonterminal 1], 8, rfl⟩, fun n hn => by rw [expr_ops]; simp at hn; omega⟩
  others := by
    have h : ∀ x ∈ exprEx.items, closRules exprEx.g x ≠ [] → x = .nonterminal 1 := by decide +kernel
    exact fun x hx r hr _ _ _ => h x hx (List.ne_nil_of_mem hr)
  both := by
    have h : ∀ x ∈ exprEx.items, closRules exprEx.g x ≠ [] → x = .nonterminal 1 := by decide +kernel
    exact fun x hx hne _ _ _ hr _ => hne (h x hx (List.ne_nil_of_mem hr))
  starts := by
    have h : ∀ x ∈ exprEx.items, ∀ y ∈ exprEx.first x, x = y ∨ y ∈ [Item.terminal 1, .terminal 2, .terminal 7] := by decide +kernel
    intro x hx n hn hf
    rcases h x hx _ hf with h | h
    · exact h
    · have := expr_ops.1 hn
      simp at h
      omega
  notNull := by
    have h : ∀ x ∈ exprEx.items, .empty ∉ exprEx.first x := by decide +kernel
    exact ⟨h _ (by decide +kernel), fun n hn => h _ hn⟩
  level := fun n k a h1 h2 => block_level _ _ h1 h2
  assoc := fun n h => block_assoc _ _ (by decide +kernel) h

/-- The parser of the language makes a tree just if it is a tree for the input and multiplications and divisions go before additions and subtractions,
and operators of a level go from left to right. -/
theorem expr_exact (input : List Tok) (τ : Tree) :
    (∃ fuel s rest, parse exprEx.tables fuel (Parser.start 0 input) = .ok (true, ⟨[(s, τ), (0, .nothing)], rest⟩)) ↔
      Forest exprEx.g exprEx.num [.nonterminal 1] [τ] (input.filter (fun k => decide (.terminal k.sym ∉ [Item.terminal 0]))) ∧ Respects exprEx.g exprEx.num exprPrec τ := by
  obtain ⟨m, m', hm, hm', hmade⟩ := Ex.made exprEx_ok
  obtain ⟨h0, hk⟩ := Ex.start_kernel exprEx_ok hm
  have hft : ∀ y ∈ exprEx.items, isTerminal y = true → y ∈ exprEx.first y := by decide +kernel
  exact precedence_exact_partial (involved := fun _ _ => true) hmade expr_leveled (Ex.plain exprEx_ok) expr_op rfl (by decide +kernel) expr_first (fun n hn => hft _ hn rfl)
    (fun r r' _ _ h => numRule_inj (by simpa [Ex.num] using h)) (fun _ _ _ => rfl) (fun s acts hs => expr_conflicts acts (List.mem_of_getElem? hs))
    (fun s acts hs => expr_accept acts (List.mem_of_getElem? hs)) h0 hk rfl input τ

/-- Every sentence is accepted, with the only tree that is as the precedences say. -/
theorem expr_decides (input : List Tok)
    (hd : exprEx.g.Derives [.nonterminal 1] ((input.filter (fun k => decide (.terminal k.sym ∉ [Item.terminal 0]))).map (fun k => .terminal k.sym))) :
    ∃ τ, (∃ fuel s rest, parse exprEx.tables fuel (Parser.start 0 input) = .ok (true, ⟨[(s, τ), (0, .nothing)], rest⟩)) ∧
      ∀ τ', Forest exprEx.g exprEx.num [.nonterminal 1] [τ'] (input.filter (fun k => decide (.terminal k.sym ∉ [Item.terminal 0]))) → Respects exprEx.g exprEx.num exprPrec τ' → τ' = τ := by
  obtain ⟨m, m', hm, hm', hmade⟩ := Ex.made exprEx_ok
  obtain ⟨h0, hk⟩ := Ex.start_kernel exprEx_ok hm
  have hft : ∀ y ∈ exprEx.items, isTerminal y = true → y ∈ exprEx.first y := by decide +kernel
  exact precedence_decides_partial (involved := fun _ _ => true) hmade expr_leveled (Ex.plain exprEx_ok) expr_op rfl (by decide +kernel) expr_first (fun n hn => hft _ hn rfl)
    (fun r r' _ _ h => numRule_inj (by simpa [Ex.num] using h)) (fun _ _ _ => rfl) (fun s acts hs => expr_conflicts acts (List.mem_of_getElem? hs))
    (fun s acts hs => expr_accept acts (List.mem_of_getElem? hs)) h0 hk rfl input hd

/-- `a + b * c` is `a + (b * c)`, with an ignored token in it. -/
example : (match parse exprEx.tables 40 (Parser.start 0 [⟨1, 0⟩, ⟨3, 0⟩, ⟨0, 0⟩, ⟨1, 0⟩, ⟨5, 0⟩, ⟨2, 0⟩]) with
    | .ok (true, ⟨[(_, .node _ _ [.node _ _ [_, .leaf (some ⟨5, _⟩), _], .leaf (some ⟨3, _⟩), .node _ _ [.leaf (some ⟨1, _⟩)]]), _], _⟩) => true
    | _ => false) = true := by decide +kernel

/-- `a - b + c` is `(a - b) + c`. -/
example : (match parse exprEx.tables 40 (Parser.start 0 [⟨1, 0⟩, ⟨4, 0⟩, ⟨1, 0⟩, ⟨3, 0⟩, ⟨2, 0⟩]) with
    | .ok (true, ⟨[(_, .node _ _ [.node _ _ [.leaf (some ⟨2, _⟩)], .leaf (some ⟨3, _⟩), .node _ _ [_, .leaf (some ⟨4, _⟩), _]]), _], _⟩) => true
    | _ => false) = true := by decide +kernel

/-- `(a - b) * c`, with parentheses, has the subtraction inside. -/
example : (match parse exprEx.tables 40 (Parser.start 0 [⟨7, 0⟩, ⟨1, 0⟩, ⟨4, 0⟩, ⟨1, 0⟩, ⟨8, 0⟩, ⟨5, 0⟩, ⟨2, 0⟩]) with
    | .ok (true, ⟨[(_, .node _ _ [_, .leaf (some ⟨5, _⟩), .node _ _ [_, .node _ _ [_, .leaf (some ⟨4, _⟩), _], _]]), _], _⟩) => true
    | _ => false) = true := by decide +kernel

/-- Without the block the parser of the same grammar has conflicts. -/
example : ∃ acts ∈ ({ exprEx with precs := [] } : Ex).states, Rewriters.findConflicts (fun _ => true) acts ≠ [] := by decide +kernel

end Sound
end TameParse

import Verif.PrecBlock
import Verif.PrecDecideProps

/-!
# C64: what a precedence block means
-/
namespace TameParse
namespace PrecBlock

open AssocMap

/-- The level has the token in it. -/
def Listed (symbol : String → Int) (l : Level) (n : Int) : Prop := 0 ≤ n ∧ ∃ i ∈ l.items, i.terminal = true ∧ i.source = "" ∧ symbol i.name = n

/-- The last level that has the token in it, and how many levels there are before that. -/
def At (symbol : String → Int) (block : List Level) (n : Int) (l : Level) (k : Nat) : Prop :=
  ∃ pre post, block = pre ++ l :: post ∧ pre.length = k ∧ Listed symbol l n ∧ ∀ l' ∈ post, ¬ Listed symbol l' n

theorem addItem_get (symbol : String → Int) (c : Int) (a : Rewriters.Assoc) (m : Maps) (i : BlockItem) (n : Int) :
    (get n (addItem symbol c a m i).precedence = if 0 ≤ n ∧ i.terminal = true ∧ i.source = "" ∧ symbol i.name = n then some c else get n m.precedence) ∧
    (get n (addItem symbol c a m i).assoc = if 0 ≤ n ∧ i.terminal = true ∧ i.source = "" ∧ symbol i.name = n then some a else get n m.assoc) := by
  unfold addItem
  cases ht : i.terminal with
  | false => simp
  | true =>
    by_cases hs : i.source = ""
    · by_cases hn : symbol i.name < 0
      · have : ∀ {P : Prop}, ¬ (0 ≤ n ∧ True ∧ P ∧ symbol i.name = n) := by
          rintro P ⟨h1, -, -, h2⟩
          omega
        simp only [Bool.not_true, Bool.false_eq_true, if_false, hs, ne_eq, not_true_eq_false, hn, if_true]
        constructor <;> rw [if_neg (by rintro ⟨h1, -, -, h2⟩; omega)]
      · simp only [Bool.not_true, Bool.false_eq_true, if_false, hs, ne_eq, not_true_eq_false, hn, get_put]
        by_cases hx : symbol i.name = n
        · subst hx
          simp [not_lt.1 hn]
        · simp [hx]
    · simp [hs]

theorem items_get (symbol : String → Int) (c : Int) (a : Rewriters.Assoc) (n : Int) : ∀ (l : List BlockItem) (m : Maps),
    ((0 ≤ n ∧ ∃ i ∈ l, i.terminal = true ∧ i.source = "" ∧ symbol i.name = n) →
      get n (l.foldl (addItem symbol c a) m).precedence = some c ∧ get n (l.foldl (addItem symbol c a) m).assoc = some a) ∧
    ((¬ (0 ≤ n ∧ ∃ i ∈ l, i.terminal = true ∧ i.source = "" ∧ symbol i.name = n)) →
      get n (l.foldl (addItem symbol c a) m).precedence = get n m.precedence ∧ get n (l.foldl (addItem symbol c a) m).assoc = get n m.assoc)
  | [], m => by simp
  | i :: l, m => by
    have ih := items_get symbol c a n l (addItem symbol c a m i)
    have hi := addItem_get symbol c a m i n
    rw [List.foldl_cons]
    by_cases hl : 0 ≤ n ∧ ∃ i ∈ l, i.terminal = true ∧ i.source = "" ∧ symbol i.name = n
    · refine ⟨fun _ => ih.1 hl, fun h => ?_⟩
      obtain ⟨h1, j, hj, h2⟩ := hl
      exact absurd ⟨h1, j, List.mem_cons_of_mem _ hj, h2⟩ h
    · obtain ⟨e1, e2⟩ := ih.2 hl
      rw [e1, e2, hi.1, hi.2]
      by_cases hc : 0 ≤ n ∧ i.terminal = true ∧ i.source = "" ∧ symbol i.name = n
      · rw [if_pos hc, if_pos hc]
        refine ⟨fun _ => ⟨rfl, rfl⟩, fun h => ?_⟩
        exact absurd ⟨hc.1, i, List.mem_cons_self .., hc.2⟩ h
      · rw [if_neg hc, if_neg hc]
        refine ⟨?_, fun _ => ⟨rfl, rfl⟩⟩
        rintro ⟨h1, j, hj, h2⟩
        rcases List.mem_cons.1 hj with rfl | hj
        · exact absurd ⟨h1, h2⟩ hc
        · exact absurd ⟨h1, j, hj, h2⟩ hl

theorem levels_get (symbol : String → Int) (n : Int) : ∀ (block : List Level) (c : Int) (m : Maps),
    (∀ l k, At symbol block n l k → get n (levels symbol c block m).precedence = some (c + (k : Int) + 1) ∧ get n (levels symbol c block m).assoc = some (assocOf l.side)) ∧
    ((∀ l ∈ block, ¬ Listed symbol l n) → get n (levels symbol c block m).precedence = get n m.precedence ∧ get n (levels symbol c block m).assoc = get n m.assoc)
  | [], c, m => by
    refine ⟨?_, fun _ => ⟨rfl, rfl⟩⟩
    rintro l k ⟨pre, post, h, -⟩
    exact absurd h (by simp)
  | l0 :: block, c, m => by
    have ih := levels_get symbol n block (c + 1) (l0.items.foldl (addItem symbol (c + 1) (assocOf l0.side)) m)
    have hi := items_get symbol (c + 1) (assocOf l0.side) n l0.items m
    unfold levels
    constructor
    · rintro l k ⟨pre, post, h1, h2, h3, h4⟩
      cases pre with
      | nil =>
        obtain ⟨rfl, rfl⟩ := List.cons.inj h1
        obtain ⟨e1, e2⟩ := ih.2 h4
        obtain ⟨e3, e4⟩ := hi.1 h3
        rw [e1, e2, e3, e4, ← h2]
        simp
      | cons l1 pre =>
        obtain ⟨rfl, rfl⟩ := List.cons.inj h1
        obtain ⟨e1, e2⟩ := ih.1 l pre.length ⟨pre, post, rfl, rfl, h3, h4⟩
        rw [e1, e2, ← h2]
        refine ⟨?_, rfl⟩
        congr 1
        push_cast [List.length_cons]
        omega
    · intro h
      obtain ⟨e1, e2⟩ := ih.2 (fun l hl => h l (List.mem_cons_of_mem _ hl))
      obtain ⟨e3, e4⟩ := hi.2 (h l0 (List.mem_cons_self ..))
      rw [e1, e2, e3, e4]
      exact ⟨rfl, rfl⟩

theorem at_exists (symbol : String → Int) (n : Int) : ∀ (block : List Level), (∃ l k, At symbol block n l k) ∨ ∀ l ∈ block, ¬ Listed symbol l n
  | [] => Or.inr (fun _ h => (by cases h))
  | l0 :: block => by
    rcases at_exists symbol n block with ⟨l, k, pre, post, h1, h2, h3, h4⟩ | h
    · exact Or.inl ⟨l, k + 1, l0 :: pre, post, by rw [h1]; rfl, by rw [List.length_cons, h2], h3, h4⟩
    · by_cases h0 : Listed symbol l0 n
      · exact Or.inl ⟨l0, 0, [], block, rfl, rfl, h0, h⟩
      · right
        intro l hl
        rcases List.mem_cons.1 hl with rfl | hl
        · exact h0
        · exact h l hl

/-- C64. The precedence and associativity of a token are those of the last level that has it in it; levels have higher precedences than those before
them. -/
theorem block_exact (symbol : String → Int) (block : List Level) (n : Int) (its : List Lr0) :
    (∀ l k, At symbol block n l k → (prec symbol block).precedence (.terminal n) its = some ((k : Int) + 1) ∧ (prec symbol block).associativity (.terminal n) its = assocOf l.side) ∧
    ((∀ l ∈ block, ¬ Listed symbol l n) → (prec symbol block).precedence (.terminal n) its = none ∧ (prec symbol block).associativity (.terminal n) its = .nonassociative) := by
  obtain ⟨h1, h2⟩ := levels_get symbol n block 0 ⟨[], []⟩
  constructor
  · intro l k h
    obtain ⟨e1, e2⟩ := h1 l k h
    constructor
    · change get n (maps symbol block).precedence = _
      rw [maps, e1]
      simp
    · change (get n (maps symbol block).assoc).getD _ = _
      rw [maps, e2]
      rfl
  · intro h
    obtain ⟨e1, e2⟩ := h2 h
    constructor
    · change get n (maps symbol block).precedence = _
      rw [maps, e1]
      rfl
    · change (get n (maps symbol block).assoc).getD _ = _
      rw [maps, e2]
      rfl

/-- Tokens have a precedence just if they are listed. -/
theorem block_listed (symbol : String → Int) (block : List Level) (n : Int) (its : List Lr0) :
    (prec symbol block).precedence (.terminal n) its ≠ none ↔ ∃ l ∈ block, Listed symbol l n := by
  rcases at_exists symbol n block with ⟨l, k, h⟩ | h
  · rw [((block_exact symbol block n its).1 l k h).1]
    obtain ⟨pre, post, rfl, -, h3, -⟩ := h
    simp only [ne_eq, reduceCtorEq, not_false_eq_true, true_iff]
    exact ⟨l, by simp, h3⟩
  · rw [((block_exact symbol block n its).2 h).1]
    simp only [ne_eq, not_true_eq_false, false_iff]
    rintro ⟨l, hl, h'⟩
    exact h l hl h'

/-- Tokens with the same precedence have the same associativity. -/
theorem block_level (symbol : String → Int) (block : List Level) {n k a : Int} (h1 : (prec symbol block).precedence (.terminal n) [] = some a)
    (h2 : (prec symbol block).precedence (.terminal k) [] = some a) :
    (prec symbol block).associativity (.terminal n) [] = (prec symbol block).associativity (.terminal k) [] := by
  rcases at_exists symbol n block with ⟨l, i, h⟩ | h
  · rcases at_exists symbol k block with ⟨l', i', h'⟩ | h'
    · obtain ⟨e1, e2⟩ := (block_exact symbol block n []).1 l i h
      obtain ⟨e1', e2'⟩ := (block_exact symbol block k []).1 l' i' h'
      rw [e1] at h1
      rw [e1'] at h2
      have hi : i = i' := by
        have := h1.trans h2.symm
        simp only [Option.some.injEq] at this
        omega
      rw [e2, e2']
      obtain ⟨pre, post, q1, q2, -⟩ := h
      obtain ⟨pre', post', q1', q2', -⟩ := h'
      rw [q1] at q1'
      have := (List.append_inj q1' (by rw [q2, q2', hi])).2
      rw [(List.cons.inj this).1]
    · rw [((block_exact symbol block k []).2 h').1] at h2
      cases h2
  · rw [((block_exact symbol block n []).2 h).1] at h1
    cases h1

/-- The parts of `OpGram` and `Leveled` that are about precedences hold for blocks without `nonassoc` levels. -/
theorem block_assoc (symbol : String → Int) (block : List Level) (hb : ∀ l ∈ block, l.side ≠ .nonassoc) {n : Int}
    (h : (prec symbol block).precedence (.terminal n) [] ≠ none) :
    (prec symbol block).associativity (.terminal n) [] = .left ∨ (prec symbol block).associativity (.terminal n) [] = .right := by
  rcases at_exists symbol n block with ⟨l, i, h'⟩ | h'
  · rw [((block_exact symbol block n []).1 l i h').2]
    obtain ⟨pre, post, q1, -⟩ := h'
    have := hb l (by rw [q1]; simp)
    cases hs : l.side with
    | left => exact Or.inl rfl
    | right => exact Or.inr rfl
    | nonassoc => exact absurd hs this
  · exact absurd ((block_exact symbol block n []).2 h').1 h

/-- A token that is listed twice has the precedence of the later level; names that are not known and items of other languages do not count. -/
example : let symbol := fun s => if s = "+" then 1 else if s = "*" then 2 else -1
    let block : List Level := [⟨.left, [⟨true, "", "+"⟩]⟩, ⟨.right, [⟨true, "", "*"⟩, ⟨true, "", "?"⟩]⟩, ⟨.nonassoc, [⟨true, "", "+"⟩, ⟨true, "Other", "*"⟩]⟩]
    (prec symbol block).precedence (.terminal 1) [] = some 3 ∧ (prec symbol block).associativity (.terminal 1) [] = .nonassociative ∧
    (prec symbol block).precedence (.terminal 2) [] = some 2 ∧ (prec symbol block).associativity (.terminal 2) [] = .right ∧
    (prec symbol block).precedence (.terminal (-1)) [] = none := by decide +kernel

theorem block_same (symbol : String → Int) (block : List Level) (t : Item) (l : List Lr0) :
    (prec symbol block).precedence t l = (prec symbol block).precedence t [] := rfl

end PrecBlock
end TameParse

import Verif.RegexSyntax
import Verif.SymbolSetLemmas
/-
Reading the text of an expression: symbols, classes, single steps of the compiler.
-/
namespace TameParse
namespace Regex
open SymSet (Mem Canon)

theorem hexValue_hexChar (u : Bool) (v : Nat) (h : v < 16) : hexValue (hexChar u v) = some (v : Int) := by
  by_cases h1 : v < 10
  · have e : hexChar u v = 48 + v := if_pos h1
    rw [e, hexValue, if_pos (by omega)]; congr 1; omega
  · cases u with
    | true =>
      have e : hexChar true v = 55 + v := by rw [hexChar, if_neg h1]; rfl
      rw [e, hexValue, if_neg (by omega), if_pos (by omega)]; congr 1; omega
    | false =>
      have e : hexChar false v = 87 + v := by rw [hexChar, if_neg h1]; rfl
      rw [e, hexValue, if_neg (by omega), if_neg (by omega), if_pos (by omega)]; congr 1; omega

theorem octValue_digit (v : Nat) (h : v < 8) : octValue (48 + (v : Int)) = some (v : Int) := by
  simp only [octValue]
  rw [if_pos (by omega)]; congr 1; omega

/-- The symbol is read, and the position left on its last character. -/
theorem symbolFor_text (c : Chr) (h : c.Ok) (rest : List Int) : ∃ l, symbolFor (c.text ++ rest) = (c.val, l :: rest) := by
  cases c with
  | plain c => exact ⟨c, by simp [Chr.text, symbolFor, Chr.val, show c ≠ 92 from h]⟩
  | quoted c =>
    refine ⟨c, ?_⟩
    simp only [Chr.Ok, Chr.Special, not_or, List.mem_cons, List.not_mem_nil, or_false] at h
    obtain ⟨h0, h1, h2, h3, h4, h5, h6, h7, h8, h9⟩ := h
    simp [Chr.text, symbolFor, Chr.val, h1, h2, h3, h4, h5, h6, h7, h8, h9, h0]
  | named c v =>
    refine ⟨c, ?_⟩
    simp only [Chr.Ok, List.mem_cons, List.not_mem_nil, or_false, Prod.mk.injEq] at h
    rcases h with ⟨rfl, rfl⟩ | ⟨rfl, rfl⟩ | ⟨rfl, rfl⟩ | ⟨rfl, rfl⟩ | ⟨rfl, rfl⟩ | ⟨rfl, rfl⟩ <;>
      simp [Chr.text, symbolFor, Chr.val]
  | hex4 u v =>
    refine ⟨hexChar u (v % 16), ?_⟩
    have h : v < 65536 := h
    simp [Chr.text, symbolFor, Chr.val, digits, hexValue_hexChar u (v / 4096) (by omega), hexValue_hexChar u (v / 256 % 16) (by omega),
      hexValue_hexChar u (v / 16 % 16) (by omega), hexValue_hexChar u (v % 16) (by omega)]
    omega
  | hex2 u v =>
    refine ⟨hexChar u (v % 16), ?_⟩
    have h : v < 256 := h
    simp [Chr.text, symbolFor, Chr.val, digits, hexValue_hexChar u (v / 16) (by omega), hexValue_hexChar u (v % 16) (by omega)]
    omega
  | oct6 v =>
    refine ⟨48 + (v % 8 : Nat), ?_⟩
    have h : v < 262144 := h
    have e1 := octValue_digit (v / 32768) (by omega)
    have e2 := octValue_digit (v / 4096 % 8) (by omega)
    have e3 := octValue_digit (v / 512 % 8) (by omega)
    have e4 := octValue_digit (v / 64 % 8) (by omega)
    have e5 := octValue_digit (v / 8 % 8) (by omega)
    have e6 := octValue_digit (v % 8) (by omega)
    have : symbolFor ((Chr.oct6 v).text ++ rest) = digits octValue 8 6 0 (111 :: (48 + (v / 32768 : Nat) : Int) ::
      (48 + (v / 4096 % 8 : Nat)) :: (48 + (v / 512 % 8 : Nat)) :: (48 + (v / 64 % 8 : Nat)) ::
      (48 + (v / 8 % 8 : Nat)) :: (48 + (v % 8 : Nat)) :: rest) := rfl
    rw [this]
    simp only [digits, e1, e2, e3, e4, e5, e6, Chr.val]
    congr 1
    omega
  | oct3 v =>
    refine ⟨48 + (v % 8 : Nat), ?_⟩
    have h : v < 512 := h
    have e4 := octValue_digit (v / 64) (by omega)
    have e5 := octValue_digit (v / 8 % 8) (by omega)
    have e6 := octValue_digit (v % 8) (by omega)
    have : symbolFor ((Chr.oct3 v).text ++ rest) = digits octValue 8 3 0 (92 :: (48 + (v / 64 : Nat) : Int) ::
      (48 + (v / 8 % 8 : Nat)) :: (48 + (v % 8 : Nat)) :: rest) := by
      simp only [Chr.text, symbolFor, List.cons_append, List.nil_append]
      rw [if_neg (by simp), if_neg (by omega), if_neg (by omega), if_neg (by omega), if_neg (by omega), if_neg (by omega),
        if_neg (by omega), if_neg (by omega), if_neg (by omega), if_neg (by omega), if_pos (by omega)]
    rw [this]
    simp only [digits, e4, e5, e6, Chr.val]
    congr 1
    omega

/-- The first character of a symbol is a backslash or the plain character. -/
theorem text_head (c : Chr) (l : List Int) (h : c.NotPlain l) (h92 : 92 ∉ l) : ∃ d t, c.text = d :: t ∧ d ∉ l := by
  cases c with
  | plain c => exact ⟨c, [], rfl, h⟩
  | _ => exact ⟨92, _, rfl, h92⟩

/-! ### Classes -/

/-- What the loop adds for one member. -/
def addItem (s : SymSet) : ClassItem → SymSet
  | .one c => s.unionRange ⟨c.val, c.val + 1⟩
  | .span c d => s.unionRange ⟨c.val, d.val + 1⟩

theorem item_head (i : ClassItem) (h : i.Ok) : ∃ d t, i.text = d :: t ∧ d ≠ 93 ∧ d ≠ 45 ∧ d ≠ 94 := by
  have key : ∀ c : Chr, c.NotPlain [93, 45, 94] → ∃ d t, c.text = d :: t ∧ d ≠ 93 ∧ d ≠ 45 ∧ d ≠ 94 := by
    intro c hc
    obtain ⟨d, t, h1, h2⟩ := text_head c _ hc (by decide)
    simp only [List.mem_cons, List.not_mem_nil, or_false, not_or] at h2
    exact ⟨d, t, h1, h2⟩
  cases i with
  | one c => exact key c h.2
  | span c d =>
    obtain ⟨x, t, h1, h2⟩ := key c h.2.1
    exact ⟨x, t ++ 45 :: d.text, by simp [ClassItem.text, h1], h2⟩

theorem classLoop_items (rest : List Int) : ∀ (items : List ClassItem) (k : Nat) (s : SymSet), (∀ i ∈ items, i.Ok) →
    (items.flatMap ClassItem.text ++ 93 :: rest).length ≤ k →
    classLoop k (items.flatMap ClassItem.text ++ 93 :: rest) s = (items.foldl addItem s, 93 :: rest) := by
  intro items
  induction items with
  | nil =>
    intro k s _ hk
    cases k with
    | zero => simp at hk
    | succ k => simp [classLoop]
  | cons i items ih =>
    intro k s hok hk
    have hi := hok i (by simp)
    obtain ⟨d, t, h1, h2, _, _⟩ := item_head i hi
    -- the text after this member does not start with a dash
    have hnext : ∃ e u, items.flatMap ClassItem.text ++ 93 :: rest = e :: u ∧ e ≠ 45 := by
      cases items with
      | nil => exact ⟨93, rest, by simp, by decide⟩
      | cons j items =>
        obtain ⟨e, u, g1, _, g2, _⟩ := item_head j (hok j (by simp))
        exact ⟨e, u ++ items.flatMap ClassItem.text ++ 93 :: rest, by simp [g1], g2⟩
    obtain ⟨e, u, g1, g2⟩ := hnext
    have hlen : i.text.length ≥ 1 := by rw [h1]; simp
    simp only [List.flatMap_cons, List.append_assoc] at hk ⊢
    cases k with
    | zero => simp [h1] at hk
    | succ k =>
      have ih' := ih k (addItem s i) (fun j hj => hok j (by simp [hj])) (by
        simp only [List.length_append] at hk ⊢; omega)
      have hun : classLoop (k + 1) (i.text ++ (items.flatMap ClassItem.text ++ 93 :: rest)) s =
          (match symbolFor (i.text ++ (items.flatMap ClassItem.text ++ 93 :: rest)) with
          | (initial, pos) => match pos with
            | [] => (s, [])
            | [_] => (s, [])
            | _ :: d :: pos' =>
              if d = 45 then
                match pos' with
                | [] => (s, [])
                | _ =>
                  let (final, pos) := symbolFor pos'
                  match pos with
                  | [] => (s, [])
                  | _ :: pos => classLoop k pos (s.unionRange ⟨initial, final + 1⟩)
              else classLoop k (d :: pos') (s.unionRange ⟨initial, initial + 1⟩)) := by
        rw [h1, List.cons_append]
        conv => lhs; unfold classLoop
        dsimp only
        rw [if_neg h2]
        rfl
      rw [hun]
      cases i with
      | one c =>
        obtain ⟨l, hs⟩ := symbolFor_text c hi.1 (items.flatMap ClassItem.text ++ 93 :: rest)
        simp only [ClassItem.text, hs]
        rw [g1] at ih' ⊢
        dsimp only
        rw [if_neg g2]
        exact ih'
      | span c d' =>
        obtain ⟨l, hs⟩ := symbolFor_text c hi.1 (45 :: d'.text ++ (items.flatMap ClassItem.text ++ 93 :: rest))
        obtain ⟨l', hs'⟩ := symbolFor_text d' hi.2.2.1 (items.flatMap ClassItem.text ++ 93 :: rest)
        obtain ⟨x, y, k1, _⟩ := text_head d' [93, 45, 94] hi.2.2.2.1 (by decide)
        have e1 : (ClassItem.span c d').text ++ (items.flatMap ClassItem.text ++ 93 :: rest) =
            c.text ++ (45 :: d'.text ++ (items.flatMap ClassItem.text ++ 93 :: rest)) := by simp [ClassItem.text]
        rw [e1, hs]
        simp only [List.cons_append]
        rw [if_pos trivial]
        have e2 : (match d'.text ++ (items.flatMap ClassItem.text ++ 93 :: rest) with
          | [] => (s, [])
          | _ =>
            let (final, pos) := symbolFor (d'.text ++ (items.flatMap ClassItem.text ++ 93 :: rest))
            match pos with
            | [] => (s, [])
            | _ :: pos => classLoop k pos (s.unionRange ⟨c.val, final + 1⟩)) =
            classLoop k (items.flatMap ClassItem.text ++ 93 :: rest) (s.unionRange ⟨c.val, d'.val + 1⟩) := by
          rw [hs', k1]
          rfl
        exact e2.trans ih'

theorem items_spec (items : List ClassItem) (h : ∀ i ∈ items, i.Ok) : ∀ s, Canon s →
    Canon (items.foldl addItem s) ∧ ∀ x, Mem x (items.foldl addItem s) ↔ Mem x s ∨ ∃ i ∈ items, i.Has x := by
  induction items with
  | nil => intro s hs; exact ⟨hs, by simp⟩
  | cons i items ih =>
    intro s hs
    have hi := h i (by simp)
    have key : Canon (addItem s i) ∧ ∀ x, Mem x (addItem s i) ↔ Mem x s ∨ i.Has x := by
      cases i with
      | one c =>
        have := SymSet.unionRange_spec s ⟨c.val, c.val + 1⟩ hs (by simp)
        refine ⟨this.1, fun x => ?_⟩
        rw [addItem, this.2]
        simp only [Range.Mem, ClassItem.Has]
        constructor <;> rintro (k | k) <;> first | exact .inl k | exact .inr (by omega)
      | span c d =>
        have := SymSet.unionRange_spec s ⟨c.val, d.val + 1⟩ hs (by have := hi.2.2.2.2; simp only; omega)
        refine ⟨this.1, fun x => ?_⟩
        rw [addItem, this.2]
        simp only [Range.Mem, ClassItem.Has]
        constructor <;> rintro (k | k) <;> first | exact .inl k | exact .inr (by omega)
    obtain ⟨h1, h2⟩ := ih (fun j hj => h j (by simp [hj])) _ key.1
    refine ⟨h1, fun x => ?_⟩
    rw [List.foldl_cons, h2, key.2]
    simp only [List.mem_cons, exists_eq_or_imp, or_assoc]

/-- The set the compiler uses for an atom. -/
def Atom.set : Atom → SymSet
  | .chr c => [⟨c.val, c.val + 1⟩]
  | .any => [⟨0, 0x7fffffff⟩]
  | .cls false items => items.foldl addItem []
  | .cls true items => (items.foldl addItem []).invert

theorem atom_set (a : Atom) (h : a.Ok) : Canon a.set ∧ a.set ≠ [] ∧ ∀ x, Mem x a.set ↔ a.Has x := by
  have key : Canon a.set ∧ ∀ x, Mem x a.set ↔ a.Has x := by
    cases a with
    | chr c =>
      refine ⟨SymSet.canon_single (by simp), fun x => ?_⟩
      simp only [Atom.set, Atom.Has, SymSet.mem_cons, SymSet.mem_nil, or_false, Range.Mem]
      omega
    | any =>
      refine ⟨SymSet.canon_single (by simp), fun x => ?_⟩
      simp only [Atom.set, Atom.Has, SymSet.mem_cons, SymSet.mem_nil, or_false, Range.Mem, SymSet.maxSymbol]
    | cls neg items =>
      have := items_spec items h.1 [] SymSet.canon_nil
      cases neg with
      | false =>
        refine ⟨this.1, fun x => ?_⟩
        simp only [Atom.set, Atom.Has, this.2, SymSet.mem_nil, false_or]
      | true =>
        have hi := SymSet.invert_spec _ this.1 (fun x hx => by
          rw [this.2] at hx
          obtain ⟨i, h1, h2⟩ := hx.resolve_left (SymSet.mem_nil x)
          exact h.2.1 rfl i h1 x h2)
        refine ⟨hi.1, fun x => ?_⟩
        simp only [Atom.set, Atom.Has, hi.2, this.2, SymSet.mem_nil, false_or]
  refine ⟨key.1, ?_, key.2⟩
  have : ∃ x, a.Has x := by
    cases a with
    | chr c => exact ⟨c.val, rfl⟩
    | any => exact ⟨0, by simp [Atom.Has, SymSet.maxSymbol]⟩
    | cls neg items => exact h.2.2
  intro he
  obtain ⟨x, hx⟩ := this
  rw [← key.2, he] at hx
  exact SymSet.mem_nil x hx

/-- Reading an atom adds a transition on its set. -/
theorem compile_atom (env : Env) (sub : List Int → Builder → Option Builder) (a : Atom) (h : a.Ok) (rest : List Int) (b : Builder) :
    ∃ l, compile env sub (a.text ++ rest) b = some (l :: rest, b.shift a.set) := by
  cases a with
  | chr c =>
    obtain ⟨d, t, h1, h2⟩ := text_head c _ h.2 (by decide)
    obtain ⟨l, h3⟩ := symbolFor_text c h.1 rest
    refine ⟨l, ?_⟩
    simp only [Atom.operators, List.mem_cons, List.not_mem_nil, or_false, not_or] at h2
    obtain ⟨g1, g2, g3, g4, g5, g6, g7, g8, g9⟩ := h2
    have e : compile env sub (d :: t ++ rest) b = some ((symbolFor (d :: t ++ rest)).2,
        b.shift [⟨(symbolFor (d :: t ++ rest)).1, (symbolFor (d :: t ++ rest)).1 + 1⟩]) := by
      simp only [compile, List.cons_append]
      rw [if_neg g1, if_neg g2, if_neg g3, if_neg g4, if_neg g5, if_neg g6, if_neg g7, if_neg g8, if_neg g9]
    simp only [Atom.text, h1]
    rw [e, ← h1, h3]
    rfl
  | any => exact ⟨46, rfl⟩
  | cls neg items =>
    have hl := classLoop_items rest items
    cases neg with
    | true =>
      have e : (Atom.cls true items).text ++ rest = 91 :: 94 :: (items.flatMap ClassItem.text ++ 93 :: rest) := by
        simp [Atom.text]
      refine ⟨93, ?_⟩
      rw [e]
      have hne : ∃ x y, items.flatMap ClassItem.text ++ 93 :: rest = x :: y := by
        cases hh : items.flatMap ClassItem.text with
        | nil => exact ⟨_, _, rfl⟩
        | cons x y => exact ⟨_, _, rfl⟩
      obtain ⟨x, y, hxy⟩ := hne
      have hl' := hl _ [] h.1 (Nat.le_refl _)
      rw [hxy] at hl' ⊢
      simp only [compile]
      rw [if_neg (by decide), if_neg (by decide), if_neg (by decide), if_neg (by decide), if_neg (by decide), if_neg (by decide),
        if_neg (by decide), if_pos trivial, if_pos trivial]
      simp only [hl']
      rfl
    | false =>
      have e : (Atom.cls false items).text ++ rest = 91 :: (items.flatMap ClassItem.text ++ 93 :: rest) := by
        simp [Atom.text]
      refine ⟨93, ?_⟩
      rw [e]
      have hne : ∃ x y, items.flatMap ClassItem.text ++ 93 :: rest = x :: y ∧ x ≠ 94 := by
        cases items with
        | nil => exact ⟨_, _, rfl, by decide⟩
        | cons i items =>
          obtain ⟨d, t, k1, _, _, k2⟩ := item_head i (h.1 i (by simp))
          exact ⟨d, t ++ (items.flatMap ClassItem.text ++ 93 :: rest), by simp [k1], k2⟩
      obtain ⟨x, y, hxy, hx⟩ := hne
      have hl' := hl _ [] h.1 (Nat.le_refl _)
      rw [hxy] at hl' ⊢
      simp only [compile]
      rw [if_neg (by decide), if_neg (by decide), if_neg (by decide), if_neg (by decide), if_neg (by decide), if_neg (by decide),
        if_neg (by decide), if_pos trivial, if_neg hx]
      simp only [hl']
      rfl

end Regex
end TameParse

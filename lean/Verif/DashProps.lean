import Verif.RegexProps
import Verif.RegexCheckExample
/-
C20 and C91: a class with a dash before its closing bracket.
-/
namespace TameParse
namespace Regex

/-- In `[c-]…` the bracket after the dash does not close the class: it is the end of the range, and the class goes on to the next bracket. -/
theorem dash_class (c : Chr) (hc : c.Ok) (hn : c.NotPlain [93, 45, 94]) (items : List ClassItem) (hi : ∀ i ∈ items, i.Ok) (rest : List Int) :
    classLoop (c.text ++ 45 :: 93 :: (items.flatMap ClassItem.text ++ 93 :: rest)).length (c.text ++ 45 :: 93 :: (items.flatMap ClassItem.text ++ 93 :: rest)) [] =
      (items.foldl addItem (SymSet.unionRange [] ⟨c.val, 94⟩), 93 :: rest) := by
  obtain ⟨d, t, h1, h2⟩ := text_head c _ hn (by decide)
  obtain ⟨l, hs⟩ := symbolFor_text c hc (45 :: 93 :: (items.flatMap ClassItem.text ++ 93 :: rest))
  rw [show (c.text ++ 45 :: 93 :: (items.flatMap ClassItem.text ++ 93 :: rest)).length =
    ((c.text.length + (items.flatMap ClassItem.text ++ 93 :: rest).length) + 1) + 1 by simp; omega]
  rw [h1, List.cons_append, classLoop]
  rw [if_neg (fun e => h2 (by simp [e])), ← List.cons_append, ← h1, hs]
  dsimp only
  rw [if_pos rfl]
  have : symbolFor (93 :: (items.flatMap ClassItem.text ++ 93 :: rest)) = (93, 93 :: (items.flatMap ClassItem.text ++ 93 :: rest)) := by
    simp [symbolFor]
  rw [this]
  dsimp only
  exact classLoop_items rest items _ _ hi (by omega)

/-- So the class matches everything from `c` to `]` and what the text up to the next bracket says. -/
theorem dash_class_matches (c : Chr) (hc : c.Ok) (hn : c.NotPlain [93, 45, 94]) (hle : c.val ≤ 93) (items : List ClassItem) (hi : ∀ i ∈ items, i.Ok) (rest : List Int) (x : Int) :
    SymSet.Mem x (classLoop (c.text ++ 45 :: 93 :: (items.flatMap ClassItem.text ++ 93 :: rest)).length
      (c.text ++ 45 :: 93 :: (items.flatMap ClassItem.text ++ 93 :: rest)) []).1 ↔ (c.val ≤ x ∧ x ≤ 93) ∨ ∃ i ∈ items, i.Has x := by
  rw [dash_class c hc hn items hi rest]
  have h0 := SymSet.unionRange_spec [] ⟨c.val, 94⟩ (by simp [SymSet.Canon]) (by simp only; omega)
  rw [(items_spec items hi _ h0.1).2, h0.2]
  simp only [Range.Mem, SymSet.Mem, List.not_mem_nil, false_and, exists_false, false_or]
  constructor
  · rintro (h | h)
    · exact Or.inl ⟨h.1, by omega⟩
    · exact Or.inr h
  · rintro (h | h)
    · exact Or.inl ⟨h.1, by omega⟩
    · exact Or.inr h

/-- The text `[+-]?[0-9]+`. -/
def signed : List Int := "[+-]?[0-9]+".toList.map (fun c => (c.toNat : Int))

/-- `[+-]?[0-9]+`, in which the check finds no error, matches "A?": the whole text up to the second `]` is one class. -/
theorem dash_violated (known : List Int → Bool) : RegexCheck.checkRegex known signed = [] ∧
    ∃ n f, addRegex noDefs 1 Ndfa.new true none 0 signed = some (n, f) ∧ Ndfa.Reach n 0 [65, 63] f := by
  constructor
  · unfold RegexCheck.checkRegex
    rw [show signed = 91 :: ([43, 45] ++ 93 :: (63 :: 91 :: ([48, 45, 57] ++ 93 :: [43]))) by decide, RegexCheck.loop_class known (by decide),
      RegexCheck.loop_chr known (by decide), RegexCheck.loop_class known (by decide), RegexCheck.loop_chr known (by decide), RegexCheck.loop_nil]
  · refine ⟨((addRegex noDefs 1 Ndfa.new true none 0 signed).getD (Ndfa.new, 0)).1, ((addRegex noDefs 1 Ndfa.new true none 0 signed).getD (Ndfa.new, 0)).2,
      rfl, ?_⟩
    exact follows_reach _ [(none, 1), (some 65, 2), (none, 1), (some 63, 2)] 0 (by decide +kernel)

/-- What is meant: `[+\-]?[0-9]+`. -/
def signedRe : Re := .cat (.opt (.atom (.cls false [.one (.plain 43), .one (.quoted 45)]))) (.plus digit)

/-- It matches only signs and digits. -/
theorem signed_meant {w : List Int} (h : w ∈ signedRe.lang true) : ∀ x ∈ w, x = 43 ∨ x = 45 ∨ (48 ≤ x ∧ x ≤ 57) := by
  have low : ∀ {x : Int}, x < 65536 → encode true x = [x] := fun hx => utf16_low hx
  have hdig : ∀ {l : List Int}, l ∈ digit.lang true → ∀ x ∈ l, 48 ≤ x ∧ x ≤ 57 := by
    rintro l ⟨y, hy, rfl⟩ x hx
    simp only [Atom.Has, ClassItem.Has, Chr.val, List.mem_singleton, exists_eq_left] at hy
    rw [low (by omega)] at hx
    rw [List.mem_singleton.1 hx]
    omega
  obtain ⟨u, hu, v, hv, rfl⟩ := h
  intro x hx
  rcases List.mem_append.1 hx with hx | hx
  · rcases hu with hu | hu
    · rw [Set.mem_singleton_iff.1 hu] at hx
      cases hx
    · obtain ⟨y, hy, rfl⟩ := hu
      simp [Atom.Has, ClassItem.Has, Chr.val] at hy
      rw [low (by omega)] at hx
      rw [List.mem_singleton.1 hx]
      omega
  · obtain ⟨a, ha, b, hb, rfl⟩ := hv
    rcases List.mem_append.1 hx with hx | hx
    · exact Or.inr (Or.inr (hdig ha x hx))
    · obtain ⟨ls, rfl, hl⟩ := Language.mem_kstar.1 hb
      obtain ⟨l, h1, h2⟩ := List.mem_flatten.1 hx
      exact Or.inr (Or.inr (hdig (hl l h1) x h2))

example : [65, 63] ∉ signedRe.lang true := fun h => by simpa using signed_meant h 65 (by simp)

end Regex
end TameParse

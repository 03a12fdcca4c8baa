import Verif.RegexLemmas

/-!
# Escapes in regular expressions
-/

namespace TameParse
namespace Regex

/-- Reading up to `k` digits: those there are, and not one that is none. -/
theorem digits_exact {value : Int → Option Int} {base : Int} : ∀ (ds : List (Int × Int)) (k : Nat) (acc c : Int) (rest : List Int), (∀ d ∈ ds, value d.1 = some d.2) → ds.length ≤ k →
    (ds.length = k ∨ ∀ e, rest.head? = some e → value e = none) →
    digits value base k acc (c :: ds.map (·.1) ++ rest) = (ds.foldl (fun n d => n * base + d.2) acc, ((ds.map (·.1)).getLastD c) :: rest)
  | [], 0, acc, c, rest, _, _, _ => rfl
  | [], k + 1, acc, c, rest, _, _, hr => by
    cases rest with
    | nil => rfl
    | cons e rest =>
      have : value e = none := by
        rcases hr with h | h
        · simp at h
        · exact h e rfl
      simp [digits, this]
  | d :: ds, 0, _, _, _, _, h, _ => by simp at h
  | d :: ds, k + 1, acc, c, rest, hd, hl, hr => by
    have h1 : value d.1 = some d.2 := hd d (by simp)
    have ih := digits_exact (base := base) ds k (acc * base + d.2) d.1 rest (fun e he => hd e (by simp [he])) (by simpa using hl) (by simpa using hr)
    simp only [List.map_cons, List.cons_append] at ih ⊢
    rw [digits, h1]
    dsimp only
    rw [ih]
    refine Prod.ext rfl ?_
    show _ :: rest = (d.1 :: ds.map (·.1)).getLastD c :: rest
    rw [List.getLastD_cons]

/-- An octal digit is one of `0` to `7`. -/
theorem octValue_iff (c v : Int) : octValue c = some v ↔ 48 ≤ c ∧ c ≤ 55 ∧ v = c - 48 := by
  unfold octValue
  split
  · rename_i h
    simp only [Option.some.injEq]
    omega
  · rename_i h
    simp only [reduceCtorEq, false_iff]
    omega

theorem hexValue_iff (c v : Int) : hexValue c = some v ↔ (48 ≤ c ∧ c ≤ 57 ∧ v = c - 48) ∨ (65 ≤ c ∧ c ≤ 70 ∧ v = c - 55) ∨ (97 ≤ c ∧ c ≤ 102 ∧ v = c - 87) := by
  unfold hexValue
  split
  · rename_i h
    simp only [Option.some.injEq]
    omega
  · split
    · rename_i h
      simp only [Option.some.injEq]
      omega
    · split
      · rename_i h
        simp only [Option.some.injEq]
        omega
      · simp only [reduceCtorEq, false_iff]
        omega

/-- The number that digits are written for. -/
def number (base : Int) (ds : List Int) : Int := ds.foldl (fun n d => n * base + d) 0

/-- `\o` with up to six octal digits, and `\` with one to three of them, are the character with that number; what follows is not read, also if it is `8` or `9`. -/
theorem octal_escapes (ds : List Int) (hd : ∀ d ∈ ds, 0 ≤ d ∧ d < 8) (rest : List Int) :
    (ds.length ≤ 6 → (ds.length = 6 ∨ ∀ e, rest.head? = some e → e < 48 ∨ 55 < e) →
      symbolFor (92 :: 111 :: ds.map (48 + ·) ++ rest) = (number 8 ds, (ds.map (48 + ·)).getLastD 111 :: rest)) ∧
    (ds ≠ [] → ds.length ≤ 3 → (ds.length = 3 ∨ ∀ e, rest.head? = some e → e < 48 ∨ 55 < e) →
      symbolFor (92 :: ds.map (48 + ·) ++ rest) = (number 8 ds, (ds.map (48 + ·)).getLastD 92 :: rest)) := by
  have hv : ∀ d ∈ ds.map (fun d => (48 + d, d)), octValue d.1 = some d.2 := by
    intro d hm
    obtain ⟨x, hx, rfl⟩ := List.mem_map.1 hm
    have := hd x hx
    rw [octValue_iff]
    omega
  have hmap : (ds.map (fun d => (48 + d, d))).map (·.1) = ds.map (48 + ·) := by simp
  have hfold : (ds.map (fun d => ((48 + d, d) : Int × Int))).foldl (fun n d => n * 8 + d.2) 0 = number 8 ds := by
    rw [List.foldl_map]
    rfl
  have hrest : ∀ k, (ds.length = k ∨ ∀ e, rest.head? = some e → e < 48 ∨ 55 < e) → (ds.length = k ∨ ∀ e, rest.head? = some e → octValue e = none) := by
    rintro k (h | h)
    · exact Or.inl h
    · refine Or.inr fun e he => ?_
      cases ho : octValue e with
      | none => rfl
      | some v =>
        have := (octValue_iff e v).1 ho
        have := h e he
        omega
  constructor
  · intro hl hr
    have := digits_exact (base := 8) _ 6 0 111 rest hv (by simpa using hl) (by simpa using hrest 6 hr)
    rw [hmap, hfold] at this
    simp only [List.cons_append, symbolFor]
    simpa using this
  · intro hne hl hr
    cases ds with
    | nil => exact absurd rfl hne
    | cons d ds =>
      have hd1 := hd d (by simp)
      have := digits_exact (base := 8) _ 3 0 92 rest hv (by simpa using hl) (by simpa using hrest 3 hr)
      rw [hmap, hfold] at this
      simp only [List.map_cons, List.cons_append, symbolFor] at this ⊢
      rw [if_neg (by simp), if_neg (by omega), if_neg (by omega), if_neg (by omega), if_neg (by omega), if_neg (by omega), if_neg (by omega), if_neg (by omega),
        if_neg (by omega), if_neg (by omega), if_pos (by omega)]
      exact this

/-- The same for `\u` with up to four hexadecimal digits and `\x` with up to two. -/
theorem hex_escapes (ds : List (Int × Int)) (hd : ∀ d ∈ ds, (48 ≤ d.1 ∧ d.1 ≤ 57 ∧ d.2 = d.1 - 48) ∨ (65 ≤ d.1 ∧ d.1 ≤ 70 ∧ d.2 = d.1 - 55) ∨ (97 ≤ d.1 ∧ d.1 ≤ 102 ∧ d.2 = d.1 - 87)) (rest : List Int)
    (letter : Int) (k : Nat) (hk : letter = 117 ∧ k = 4 ∨ letter = 120 ∧ k = 2) (hl : ds.length ≤ k)
    (hr : ds.length = k ∨ ∀ e, rest.head? = some e → ¬ ((48 ≤ e ∧ e ≤ 57) ∨ (65 ≤ e ∧ e ≤ 70) ∨ (97 ≤ e ∧ e ≤ 102))) :
    symbolFor (92 :: letter :: ds.map (·.1) ++ rest) = (number 16 (ds.map (·.2)), (ds.map (·.1)).getLastD letter :: rest) := by
  have hr' : ds.length = k ∨ ∀ e, rest.head? = some e → hexValue e = none := by
    rcases hr with h | h
    · exact Or.inl h
    · refine Or.inr fun e he => ?_
      cases ho : hexValue e with
      | none => rfl
      | some v =>
        have := (hexValue_iff e v).1 ho
        have := h e he
        omega
  have := digits_exact (base := 16) ds k 0 letter rest (fun d hm => (hexValue_iff _ _).2 (hd d hm)) hl hr'
  have hfold : ds.foldl (fun n d => n * 16 + d.2) 0 = number 16 (ds.map (·.2)) := by
    rw [number, List.foldl_map]
  rw [hfold] at this
  rcases hk with ⟨rfl, rfl⟩ | ⟨rfl, rfl⟩
  · simp only [List.cons_append, symbolFor]
    simpa using this
  · simp only [List.cons_append, symbolFor]
    simpa using this

/-- `\8` and `\9` are not these characters: the backslash is the character 0, and the digit is read once more as itself. -/
theorem octal_digit_violated (c : Int) (h : c = 56 ∨ c = 57) (rest : List Int) : symbolFor (92 :: c :: rest) = (0, 92 :: c :: rest) := by
  rcases h with rfl | rfl <;> simp [symbolFor, digits, octValue]

example : symbolFor [92, 49, 56] = (1, [49, 56]) ∧ symbolFor [92, 111, 49, 48, 49, 97] = (65, [49, 97]) ∧ symbolFor [92, 117, 52, 49] = (65, [49]) := by decide
end Regex
end TameParse

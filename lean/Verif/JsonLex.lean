import Verif.Json

/-!
# The tokens of the JSON example

What the definitions of json.tp match, and how a text is divided into tokens: the longest match. That these are the definitions is `definitions_match`. Texts are characters here, not
the units of UTF-16 that the lexer reads where `wchar_t` has 16 bits.
-/

namespace TameParse
namespace Json

open TameParse.Parser

/-- json.tp 23. -/
def Digit (c : Int) : Prop := 48 ≤ c ∧ c ≤ 57

/-- json.tp 12. -/
def HexDigit (c : Int) : Prop := Digit c ∨ (65 ≤ c ∧ c ≤ 70) ∨ (97 ≤ c ∧ c ≤ 102)

/-- json.tp 34. -/
def Space (c : Int) : Prop := c = 32 ∨ c = 9 ∨ c = 10 ∨ c = 13

/-- `{digit}+`. -/
def Digits (w : Text) : Prop := w ≠ [] ∧ ∀ c ∈ w, Digit c

/-- json.tp 24-25. -/
def IsInt (w : Text) : Prop := Digits w ∨ ∃ v, w = 45 :: v ∧ Digits v

/-- json.tp 26. The dot is not quoted: it matches any character. -/
def Frac (w : Text) : Prop := ∃ c v, 0 ≤ c ∧ c < 0x7fffffff ∧ w = c :: v ∧ Digits v

/-- json.tp 27-33. -/
def Exp (w : Text) : Prop := ∃ c s v, (c = 101 ∨ c = 69) ∧ (s = [] ∨ s = [43] ∨ s = [45]) ∧ Digits v ∧ w = c :: s ++ v

/-- json.tp 43-46. -/
def IsNumber (w : Text) : Prop :=
  IsInt w ∨ (∃ a b, IsInt a ∧ Frac b ∧ w = a ++ b) ∨ (∃ a b, IsInt a ∧ Exp b ∧ w = a ++ b) ∨ ∃ a b c, IsInt a ∧ Frac b ∧ Exp c ∧ w = a ++ b ++ c

/-- `{char}*` (json.tp 13-22). -/
inductive Chars : Text → Prop
  | nil : Chars []
  | plain {c : Int} {w : Text} (h0 : 0 ≤ c) (h1 : c < 0x7fffffff) (h2 : c ≠ 34) (h3 : c ≠ 92) (h : Chars w) : Chars (c :: w)
  | quoted {c : Int} {w : Text} (hc : c ∈ [34, 92, 47, 98, 102, 110, 114, 116]) (h : Chars w) : Chars (92 :: c :: w)
  | unicode {a b c d : Int} {w : Text} (ha : HexDigit a) (hb : HexDigit b) (hc : HexDigit c) (hd : HexDigit d) (h : Chars w) : Chars (92 :: 117 :: a :: b :: c :: d :: w)

/-- json.tp 42. -/
def IsString (w : Text) : Prop := ∃ v, Chars v ∧ w = 34 :: v ++ [34]

/-- The text is matched by the definition of the symbol. -/
def Matches (w : Text) (s : Int) : Prop :=
  (s = 0 ∧ w = [116, 114, 117, 101]) ∨ (s = 1 ∧ w = [102, 97, 108, 115, 101]) ∨ (s = 2 ∧ w = [110, 117, 108, 108]) ∨ (s = 5 ∧ w ≠ [] ∧ ∀ c ∈ w, Space c) ∨
  (s = 3 ∧ IsString w) ∨ (s = 4 ∧ IsNumber w) ∨ (s = 6 ∧ w = [123]) ∨ (s = 7 ∧ w = [125]) ∨ (s = 8 ∧ w = [44]) ∨ (s = 9 ∧ w = [58]) ∨ (s = 10 ∧ w = [91]) ∨
  (s = 11 ∧ w = [93])

/-- No definition matches more of the text `w ++ rest` than `w`. -/
def Longest (w rest : Text) : Prop := ∀ v v' s, v ++ v' = w ++ rest → Matches v s → v.length ≤ w.length

/-- The text is divided into these tokens: symbols with their contents. -/
inductive Scans : Text → List (Int × Text) → Prop
  | nil : Scans [] []
  | cons {w rest : Text} {s : Int} {ts : List (Int × Text)} (hm : Matches w s) (hl : Longest w rest) (h : Scans rest ts) : Scans (w ++ rest) ((s, w) :: ts)

/-- The tokens that are not ignored. -/
def kept (ts : List (Int × Text)) : List (Int × Text) := ts.filter fun t => t.1 ≠ 5

/-! ### What tokens begin with -/

/-- The first character of the tokens of a symbol. -/
def Starts (s c : Int) : Prop :=
  (s = 0 ∧ c = 116) ∨ (s = 1 ∧ c = 102) ∨ (s = 2 ∧ c = 110) ∨ (s = 5 ∧ Space c) ∨ (s = 3 ∧ c = 34) ∨ (s = 4 ∧ (Digit c ∨ c = 45)) ∨ (s = 6 ∧ c = 123) ∨
  (s = 7 ∧ c = 125) ∨ (s = 8 ∧ c = 44) ∨ (s = 9 ∧ c = 58) ∨ (s = 10 ∧ c = 91) ∨ (s = 11 ∧ c = 93)

theorem isInt_head {w : Text} (h : IsInt w) : ∃ c v, w = c :: v ∧ (Digit c ∨ c = 45) := by
  rcases h with ⟨h1, h2⟩ | ⟨v, rfl, -⟩
  · obtain ⟨c, v, rfl⟩ := List.exists_cons_of_ne_nil h1
    exact ⟨c, v, rfl, .inl (h2 c (List.mem_cons_self ..))⟩
  · exact ⟨45, v, rfl, .inr rfl⟩

theorem isNumber_head {w : Text} (h : IsNumber w) : ∃ c v, w = c :: v ∧ (Digit c ∨ c = 45) := by
  rcases h with h | ⟨a, b, h, -, rfl⟩ | ⟨a, b, h, -, rfl⟩ | ⟨a, b, d, h, -, -, rfl⟩ <;> obtain ⟨c, v, rfl, hc⟩ := isInt_head h
  · exact ⟨c, v, rfl, hc⟩
  · exact ⟨c, _, rfl, hc⟩
  · exact ⟨c, _, rfl, hc⟩
  · exact ⟨c, v ++ b ++ d, by simp, hc⟩

theorem matches_head {w : Text} {s : Int} (h : Matches w s) : ∃ c v, w = c :: v ∧ Starts s c := by
  rcases h with ⟨rfl, rfl⟩ | ⟨rfl, rfl⟩ | ⟨rfl, rfl⟩ | ⟨rfl, h1, h2⟩ | ⟨rfl, v, -, rfl⟩ | ⟨rfl, h⟩ | ⟨rfl, rfl⟩ | ⟨rfl, rfl⟩ | ⟨rfl, rfl⟩ | ⟨rfl, rfl⟩ | ⟨rfl, rfl⟩ | ⟨rfl, rfl⟩
  · exact ⟨_, _, rfl, by simp [Starts]⟩
  · exact ⟨_, _, rfl, by simp [Starts]⟩
  · exact ⟨_, _, rfl, by simp [Starts]⟩
  · obtain ⟨c, v, rfl⟩ := List.exists_cons_of_ne_nil h1
    exact ⟨c, v, rfl, by simpa [Starts] using h2 c (List.mem_cons_self ..)⟩
  · exact ⟨_, _, rfl, by simp [Starts]⟩
  · obtain ⟨c, v, rfl, hc⟩ := isNumber_head h
    exact ⟨c, v, rfl, by simpa [Starts] using hc⟩
  all_goals exact ⟨_, _, rfl, by simp [Starts]⟩

/-- A character begins the tokens of one symbol only. -/
theorem starts_unique {s s' c : Int} (h : Starts s c) (h' : Starts s' c) : s = s' := by
  unfold Starts Space Digit at h h'
  omega

theorem matches_unique {w : Text} {s s' : Int} (h : Matches w s) (h' : Matches w s') : s = s' := by
  obtain ⟨c, v, rfl, hc⟩ := matches_head h
  obtain ⟨c', v', he, hc'⟩ := matches_head h'
  cases he
  exact starts_unique hc hc'

/-- Only words of the same symbol have to be looked at. -/
theorem longest_of {w rest : Text} {s : Int} (hm : Matches w s) (h : ∀ x y y', rest = x :: y ++ y' → ¬ Matches (w ++ x :: y) s) : Longest w rest := by
  intro v v' s' he hv
  by_contra hlen
  obtain ⟨c, u, rfl, hc⟩ := matches_head hm
  obtain ⟨c', u', rfl, hc'⟩ := matches_head hv
  have hcc : c' = c := by
    simpa using congrArg List.head? he
  subst hcc
  have := starts_unique hc hc'
  subst this
  push Not at hlen
  rcases List.append_eq_append_iff.1 he with ⟨a, h1, h2⟩ | ⟨a, h1, h2⟩
  · rw [h1] at hlen
    simp at hlen
  · cases a with
    | nil => rw [h1] at hlen; simp at hlen
    | cons x y =>
      refine h x y v' h2 ?_
      rw [← h1]
      exact hv

/-- The tokens of a text are determined. -/
theorem scans_unique {w : Text} {ts ts' : List (Int × Text)} (h : Scans w ts) (h' : Scans w ts') : ts = ts' := by
  induction h generalizing ts' with
  | nil =>
    generalize hg : ([] : Text) = t at h'
    cases h' with
    | nil => rfl
    | cons hm _ _ =>
      obtain ⟨c, v, rfl, -⟩ := matches_head hm
      simp at hg
  | @cons w rest s ts hm hl h ih =>
    generalize hg : w ++ rest = t at h'
    cases h' with
    | nil =>
      obtain ⟨c, v, rfl, -⟩ := matches_head hm
      simp at hg
    | @cons w' rest' s' ts' hm' hl' h' =>
      have h1 := hl w' rest' s' hg.symm hm'
      have h2 := hl' w rest s hg hm
      obtain ⟨rfl, rfl⟩ := List.append_inj hg (by omega)
      rw [matches_unique hm hm', ih h']

/-! ### Numbers -/

/-- A character in a number that is no digit, sign or letter is followed by a digit. -/
theorem digit_after {p y : Text} {x : Int} (h : IsNumber (p ++ x :: y)) (hx : ¬ Digit x ∧ x ≠ 45 ∧ x ≠ 43 ∧ x ≠ 101 ∧ x ≠ 69) : ∃ z y', y = z :: y' ∧ Digit z := by
  have hint : ∀ {a : Text}, IsInt a → x ∉ a := by
    intro a ha hxa
    rcases ha with ⟨-, h2⟩ | ⟨v, rfl, -, h2⟩
    · exact hx.1 (h2 x hxa)
    · rcases List.mem_cons.1 hxa with rfl | hxa
      · exact hx.2.1 rfl
      · exact hx.1 (h2 x hxa)
  have hexp : ∀ {a : Text}, Exp a → x ∉ a := by
    rintro a ⟨c, s, v, hc, hs, ⟨-, h2⟩, rfl⟩ hxa
    rcases List.mem_append.1 hxa with hxa | hxa
    · rcases List.mem_cons.1 hxa with rfl | hxa
      · rcases hc with hc | hc
        · exact hx.2.2.2.1 hc
        · exact hx.2.2.2.2 hc
      · rcases hs with rfl | rfl | rfl
        · cases hxa
        · exact hx.2.2.1 (List.mem_singleton.1 hxa)
        · exact hx.2.1 (List.mem_singleton.1 hxa)
    · exact hx.1 (h2 x hxa)
  -- where the character is
  have key : ∀ {a b c : Text}, IsInt a → Frac b → (c = [] ∨ Exp c) → p ++ x :: y = a ++ b ++ c → ∃ z y', y = z :: y' ∧ Digit z := by
    rintro a b c ha ⟨d, v, -, -, rfl, hv1, hv2⟩ hc he
    rw [List.append_assoc] at he
    rcases List.append_eq_append_iff.1 he with ⟨r, h1, h2⟩ | ⟨r, h1, h2⟩
    · cases r with
      | nil =>
        simp only [List.nil_append, List.cons_append, List.cons.injEq] at h2
        obtain ⟨z, v', rfl⟩ := List.exists_cons_of_ne_nil hv1
        exact ⟨z, v' ++ c, by simpa using h2.2, hv2 z (List.mem_cons_self ..)⟩
      | cons r0 r =>
        simp only [List.cons_append, List.cons.injEq] at h2
        refine absurd ?_ (hint ha)
        rw [h1, ← h2.1] at *
        simp
    · cases r with
      | nil =>
        simp only [List.nil_append, List.cons_append, List.cons.injEq] at h2
        obtain ⟨z, v', rfl⟩ := List.exists_cons_of_ne_nil hv1
        exact ⟨z, v' ++ c, by simpa using h2.2.symm, hv2 z (List.mem_cons_self ..)⟩
      | cons r0 r =>
        simp only [List.cons_append, List.cons.injEq] at h2
        obtain ⟨rfl, h2⟩ := h2
        have : x ∈ v ++ c := by rw [h2]; simp
        rcases List.mem_append.1 this with hm | hm
        · exact absurd (hv2 x hm) hx.1
        · rcases hc with rfl | hc
          · cases hm
          · exact absurd hm (hexp hc)
  have hmem : x ∈ p ++ x :: y := by simp
  rcases h with h | ⟨a, b, ha, hb, he⟩ | ⟨a, b, ha, hb, he⟩ | ⟨a, b, c, ha, hb, hc, he⟩
  · exact absurd hmem (hint h)
  · exact key ha hb (.inl rfl) (by rw [List.append_nil]; exact he)
  · rw [he] at hmem
    rcases List.mem_append.1 hmem with hm | hm
    · exact absurd hm (hint ha)
    · exact absurd hm (hexp hb)
  · exact key ha hb (.inr hc) he

/-! ### Strings -/

theorem chars_prefix {v v' r r' : Text} (h : Chars v) (h' : Chars v') (he : v ++ 34 :: r = v' ++ 34 :: r') : v = v' := by
  induction h generalizing v' with
  | nil =>
    cases h' with
    | nil => rfl
    | plain _ _ h2 _ _ => exact absurd (by simpa using congrArg List.head? he : (34 : Int) = _).symm h2
    | quoted _ _ => exact absurd (congrArg List.head? he) (by simp)
    | unicode _ _ _ _ _ => exact absurd (congrArg List.head? he) (by simp)
  | @plain c w h0 h1 h2 h3 h ih =>
    cases h' with
    | nil => exact absurd (by simpa using congrArg List.head? he : c = 34) h2
    | plain _ _ _ _ h' =>
      simp only [List.cons_append, List.cons.injEq] at he
      obtain ⟨rfl, he⟩ := he
      rw [ih h' he]
    | quoted _ _ => exact absurd (by simpa using congrArg List.head? he : c = 92) h3
    | unicode _ _ _ _ _ => exact absurd (by simpa using congrArg List.head? he : c = 92) h3
  | @quoted c w hc h ih =>
    cases h' with
    | nil => exact absurd (congrArg List.head? he) (by simp)
    | plain _ _ _ h3 _ => exact absurd (by simpa using congrArg List.head? he : (92 : Int) = _).symm h3
    | quoted _ h' =>
      simp only [List.cons_append, List.cons.injEq, true_and] at he
      obtain ⟨rfl, he⟩ := he
      rw [ih h' he]
    | unicode _ _ _ _ _ =>
      simp only [List.cons_append, List.cons.injEq, true_and] at he
      obtain ⟨rfl, he⟩ := he
      simp at hc
  | @unicode a b c d w ha hb hc hd h ih =>
    cases h' with
    | nil => exact absurd (congrArg List.head? he) (by simp)
    | plain _ _ _ h3 _ => exact absurd (by simpa using congrArg List.head? he : (92 : Int) = _).symm h3
    | quoted hc' _ =>
      simp only [List.cons_append, List.cons.injEq, true_and] at he
      obtain ⟨rfl, he⟩ := he
      simp at hc'
    | unicode _ _ _ _ h' =>
      simp only [List.cons_append, List.cons.injEq, true_and] at he
      obtain ⟨rfl, rfl, rfl, rfl, he⟩ := he
      rw [ih h' he]

/-! ### Tokens in front of other text -/

/-- What may follow a value in the output: a comma, a bracket, a brace or a newline, with no digit behind it. -/
def Follow : Text → Prop
  | [] => True
  | c :: r => (c = 44 ∨ c = 93 ∨ c = 125 ∨ c = 10) ∧ ∀ d ∈ r.head?, ¬ Digit d

theorem longest_string {w rest : Text} (h : IsString w) : Longest w rest := by
  refine longest_of (s := 3) (by simp [Matches, h]) fun x y y' hr hm => ?_
  obtain ⟨v, hv, rfl⟩ := h
  simp only [Matches, OfNat.ofNat_ne_zero, false_and, false_or, true_and] at hm
  have hs : IsString (34 :: v ++ [34] ++ x :: y) := by
    rcases hm with hm | hm | hm | hm | hm | hm | hm | hm | hm | hm | hm <;> first | exact hm | (exfalso; omega)
  obtain ⟨v', hv', he⟩ := hs
  have he' : v ++ 34 :: (x :: y) = v' ++ 34 :: [] := by simpa using he
  have := chars_prefix hv hv' he'
  subst this
  simp at he'

theorem longest_number {w rest : Text} (h : IsNumber w) (hf : Follow rest) : Longest w rest := by
  refine longest_of (s := 4) (by simp [Matches, h]) fun x y y' hr hm => ?_
  have hs : IsNumber (w ++ x :: y) := by
    simp only [Matches] at hm
    rcases hm with hm | hm | hm | hm | hm | hm | hm | hm | hm | hm | hm | hm <;> first | exact hm.2 | (exfalso; omega)
  subst hr
  obtain ⟨h1, h2⟩ := hf
  obtain ⟨z, y2, rfl, hz⟩ := digit_after hs (by unfold Digit; omega)
  exact h2 z (by simp) hz

theorem longest_space {w rest : Text} (h1 : w ≠ []) (h : ∀ c ∈ w, Space c) (hf : ∀ c ∈ rest.head?, ¬ Space c) : Longest w rest := by
  refine longest_of (s := 5) (by simp [Matches, h1]; exact h) fun x y y' hr hm => ?_
  have hs : ∀ c ∈ w ++ x :: y, Space c := by
    simp only [Matches] at hm
    rcases hm with hm | hm | hm | hm | hm | hm | hm | hm | hm | hm | hm | hm <;> first | exact hm.2.2 | (exfalso; omega)
  subst hr
  exact hf x (by simp) (hs x (by simp))

/-- Symbols with one word only. -/
theorem longest_word {w rest : Text} {s : Int} (hm : Matches w s) (h3 : s ≠ 5) (h4 : s ≠ 3) (h5 : s ≠ 4) : Longest w rest := by
  refine longest_of hm fun x y y' hr hm' => ?_
  have : w = w ++ x :: y := by
    unfold Matches at hm hm'
    rcases hm with ⟨rfl, rfl⟩ | ⟨rfl, rfl⟩ | ⟨rfl, rfl⟩ | ⟨rfl, -⟩ | ⟨rfl, -⟩ | ⟨rfl, -⟩ | ⟨rfl, rfl⟩ | ⟨rfl, rfl⟩ | ⟨rfl, rfl⟩ | ⟨rfl, rfl⟩ | ⟨rfl, rfl⟩ | ⟨rfl, rfl⟩ <;>
      first | (exfalso; omega) | simp at hm'
  simp at this

/-- A token that may stand before this text. -/
theorem longest_token {w rest : Text} {s : Int} (hm : Matches w s) (h3 : s ≠ 5) (hf : s = 4 → Follow rest) : Longest w rest := by
  by_cases h4 : s = 3
  · subst h4
    refine longest_string ?_
    simp only [Matches] at hm
    rcases hm with hm | hm | hm | hm | hm | hm | hm | hm | hm | hm | hm | hm <;> first | exact hm.2 | (exfalso; omega)
  by_cases h5 : s = 4
  · subst h5
    refine longest_number ?_ (hf rfl)
    simp only [Matches] at hm
    rcases hm with hm | hm | hm | hm | hm | hm | hm | hm | hm | hm | hm | hm <;> first | exact hm.2 | (exfalso; omega)
  exact longest_word hm h3 h4 h5

end Json
end TameParse

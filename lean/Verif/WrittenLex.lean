import Verif.WrittenRead
/-
The tokens of the written tables (lemmas for property C79).
-/
namespace TameParse
namespace Written
open ParserTables

theorem runM_append {σ α β : Type} (step : σ → α → Option (List β × σ)) : ∀ (a b : List α) (s : σ),
    runM step s (a ++ b) = match runM step s a with
      | none => none
      | some p => (runM step p.2 b).map (fun q => (p.1 ++ q.1, q.2))
  | [], b, s => by
    simp only [List.nil_append, runM, List.nil_append]
    cases runM step s b <;> rfl
  | x :: a, b, s => by
    simp only [List.cons_append, runM]
    cases step s x with
    | none => rfl
    | some p =>
      dsimp only
      rw [runM_append step a b p.2]
      cases runM step p.2 a with
      | none => rfl
      | some q =>
        dsimp only [Option.map_some]
        cases runM step q.2 b with
        | none => rfl
        | some r => simp

/-- The machine goes from one state to another. -/
def Goes {σ α β : Type} (step : σ → α → Option (List β × σ)) (s : σ) (l : List α) (o : List β) (s' : σ) : Prop := runM step s l = some (o, s')

theorem Goes.append {σ α β : Type} {step : σ → α → Option (List β × σ)} {s s1 s2 : σ} {a b : List α} {o o' : List β}
    (h1 : Goes step s a o s1) (h2 : Goes step s1 b o' s2) : Goes step s (a ++ b) (o ++ o') s2 := by
  unfold Goes at *
  rw [runM_append, h1]
  dsimp only
  rw [h2]
  rfl

theorem Goes.nil {σ α β : Type} (step : σ → α → Option (List β × σ)) (s : σ) : Goes step s [] [] s := rfl

theorem Goes.cons {σ α β : Type} {step : σ → α → Option (List β × σ)} {s s1 s2 : σ} {x : α} {b : List α} {o o' : List β}
    (h1 : step s x = some (o, s1)) (h2 : Goes step s1 b o' s2) : Goes step s (x :: b) (o ++ o') s2 := by
  unfold Goes at *
  rw [runM, h1]
  dsimp only
  rw [h2]
  rfl

theorem Goes.one {σ α β : Type} {step : σ → α → Option (List β × σ)} {s s1 : σ} {x : α} {o : List β} (h1 : step s x = some (o, s1)) :
    Goes step s [x] o s1 := by
  have := Goes.cons h1 (Goes.nil step s1)
  simpa using this

/-! Texts and tokens -/

/-- A text whose tokens are finished. -/
def Clean (s : Text) (T : List Tok) : Prop := Goes lexStep .normal s T .normal

instance (s : Text) (T : List Tok) : Decidable (Clean s T) := inferInstanceAs (Decidable (_ = _))

/-- A mode that another token may end. -/
def breakable : Mode → Bool
  | .slash | .skip => false
  | _ => true

/-- A text whose last token may be unfinished. -/
def Ends (s : Text) (T : List Tok) : Prop :=
  ∃ T' m F, Goes lexStep .normal s T' m ∧ flush m = some F ∧ breakable m = true ∧ T = T' ++ F

def sepChar (c : Char) : Bool := !(isLetter c || isDigit c || c == '.' || c == '\'')

/-- The text does not go on with a token before it. -/
def Sep (s : Text) : Prop := ∀ c, s.head? = some c → sepChar c = true

instance (s : Text) : Decidable (Sep s) :=
  decidable_of_iff (s.head?.all sepChar = true) (by unfold Sep; cases s.head? <;> simp)

theorem Sep.append {a b : Text} (ha : Sep a) (hne : a ≠ []) : Sep (a ++ b) := by
  cases a with
  | nil => exact absurd rfl hne
  | cons x a => simpa [Sep] using ha

theorem lexStep_normal (c : Char) : lexStep .normal c = some (begin c) := by
  simp [lexStep, continues, flush]

theorem lexStep_sep {m : Mode} {F : List Tok} {c : Char} (hm : breakable m = true) (hf : flush m = some F) (hc : sepChar c = true) :
    lexStep m c = some (F ++ (begin c).1, (begin c).2) := by
  simp only [sepChar, Bool.not_eq_true', Bool.or_eq_false_iff] at hc
  obtain ⟨⟨⟨h1, h2⟩, h3⟩, h4⟩ := hc
  cases m with
  | normal => cases hf; simp [lexStep_normal]
  | slash => cases hm
  | skip => cases hm
  | word s => simp [lexStep, continues, h1, h2, hf]
  | num s => simp [lexStep, continues, h1, h2, h3, h4, hf]

theorem goes_sep {m m' : Mode} {F T : List Tok} {s : Text} (hm : breakable m = true) (hf : flush m = some F) (hs : Sep s) (hne : s ≠ [])
    (h : Goes lexStep .normal s T m') : Goes lexStep m s (F ++ T) m' := by
  cases s with
  | nil => exact absurd rfl hne
  | cons c s =>
    unfold Goes at *
    rw [runM, lexStep_normal] at h
    rw [runM, lexStep_sep hm hf (hs c rfl)]
    dsimp only at h ⊢
    cases hr : runM lexStep (begin c).2 s with
    | none => rw [hr] at h; cases h
    | some q =>
      rw [hr] at h
      simp only [Option.map_some, Option.some.injEq, Prod.mk.injEq] at h ⊢
      exact ⟨by rw [← h.1, List.append_assoc], h.2⟩

theorem Clean.ends {s : Text} {T : List Tok} (h : Clean s T) : Ends s T := ⟨T, .normal, [], h, rfl, rfl, by simp⟩

theorem Clean.append {a b : Text} {T U : List Tok} (ha : Clean a T) (hb : Clean b U) : Clean (a ++ b) (T ++ U) := Goes.append ha hb

theorem Clean.append_ends {a b : Text} {T U : List Tok} (ha : Clean a T) (hb : Ends b U) : Ends (a ++ b) (T ++ U) := by
  obtain ⟨U', m, F, h1, h2, h3, rfl⟩ := hb
  exact ⟨T ++ U', m, F, Goes.append ha h1, h2, h3, by simp⟩

theorem Ends.append {a b : Text} {T U : List Tok} (ha : Ends a T) (hb : Ends b U) (hs : Sep b) : Ends (a ++ b) (T ++ U) := by
  obtain ⟨T', m, F, h1, h2, h3, rfl⟩ := ha
  obtain ⟨U', m', F', h4, h5, h6, rfl⟩ := hb
  by_cases hb : b = []
  · subst hb
    cases h4
    cases h5
    exact ⟨T', m, F, by simpa using h1, h2, h3, by simp⟩
  · exact ⟨T' ++ (F ++ U'), m', F', Goes.append h1 (goes_sep h3 h2 hs hb h4), h5, h6, by simp⟩

theorem Ends.clean {a b : Text} {T U : List Tok} (ha : Ends a T) (hb : Clean b U) (hs : Sep b) (hne : b ≠ []) : Clean (a ++ b) (T ++ U) := by
  obtain ⟨T', m, F, h1, h2, h3, rfl⟩ := ha
  have := Goes.append h1 (goes_sep h3 h2 hs hne hb)
  unfold Clean
  rwa [List.append_assoc]

theorem Clean.lexes {s : Text} {T : List Tok} (h : Clean s T) : lexC s = some T := by
  unfold Clean Goes at h
  simp [lexC, h, flush]

theorem clean_nil : Clean [] [] := rfl

/-! Numbers -/

theorem digit_spec : ∀ n < 10, isDigit (digit n) = true ∧ (digit n).toNat - 48 = n ∧ (digit n = '0' → n = 0) := by decide +kernel

theorem value_append (l : Text) (c : Char) : value (l ++ [c]) = 10 * value l + (c.toNat - 48) := by simp [value]

theorem showNat_spec (n : Nat) : (∀ c ∈ showNat n, isDigit c = true) ∧ value (showNat n) = n ∧
    (∃ c l, showNat n = c :: l ∧ (c = '0' → n = 0)) := by
  induction n using Nat.strongRecOn with
  | ind n ih =>
    rw [showNat]
    by_cases hn : n < 10
    · rw [if_pos hn]
      obtain ⟨h1, h2, h3⟩ := digit_spec n hn
      exact ⟨by simpa using h1, by simpa [value] using h2, _, _, rfl, h3⟩
    · rw [if_neg hn]
      obtain ⟨h1, h2, c, l, h3, h4⟩ := ih (n / 10) (by omega)
      obtain ⟨h5, h6, -⟩ := digit_spec (n % 10) (by omega)
      refine ⟨?_, ?_, c, l ++ [digit (n % 10)], by rw [h3]; rfl, fun hc => ?_⟩
      · intro x hx
        rcases List.mem_append.1 hx with hx | hx
        · exact h1 x hx
        · rw [List.mem_singleton.1 hx]; exact h5
      · rw [value_append, h2, h6]; omega
      · have := h4 hc
        omega

theorem showNat_zero : showNat 0 = ['0'] := by rw [showNat]; rfl

theorem goes_digits : ∀ (l acc : Text), (∀ c ∈ l, isDigit c = true) → Goes lexStep (.num acc) l [] (.num (acc ++ l))
  | [], acc, _ => by simpa using Goes.nil lexStep (.num acc)
  | c :: l, acc, h => by
    have ih := goes_digits l (acc ++ [c]) (fun x hx => h x (List.mem_cons_of_mem _ hx))
    have hs : lexStep (.num acc) c = some ([], .num (acc ++ [c])) := by simp [lexStep, continues, h c (List.mem_cons_self ..)]
    have := Goes.cons hs ih
    simpa using this

theorem digit_begin : ∀ c : Char, isDigit c = true → begin c = ([], .num [c]) := by
  intro c hc
  have h1 : isBlank c = false := by
    simp only [isDigit, Bool.and_eq_true, decide_eq_true_eq] at hc
    simp only [isBlank, Bool.or_eq_false_iff, beq_eq_false_iff_ne]
    refine ⟨⟨?_, ?_⟩, ?_⟩ <;> (rintro rfl; exact absurd hc.1 (by decide))
  have h2 : isLetter c = false := by
    simp only [isDigit, Bool.and_eq_true, decide_eq_true_eq] at hc
    have h9 : c.toNat ≤ 57 := hc.2
    simp only [isLetter, Bool.or_eq_false_iff, Bool.and_eq_false_iff, decide_eq_false_iff_not, beq_eq_false_iff_ne]
    refine ⟨⟨Or.inl ?_, Or.inl ?_⟩, ?_⟩
    · intro h; have : (97 : Nat) ≤ c.toNat := h; omega
    · intro h; have : (65 : Nat) ≤ c.toNat := h; omega
    · rintro rfl; exact absurd h9 (by decide)
  simp [begin, h1, h2, hc]

theorem ends_nat (n : Nat) : Ends (showNat n) [.num n] := by
  obtain ⟨h1, h2, c, l, h3, h4⟩ := showNat_spec n
  refine ⟨[], .num (showNat n), [.num n], ?_, ?_, rfl, rfl⟩
  · rw [h3] at h1 ⊢
    have hs : lexStep .normal c = some ([], .num [c]) := by rw [lexStep_normal, digit_begin c (h1 c (List.mem_cons_self ..))]
    have := Goes.cons hs (goes_digits l [c] (fun x hx => h1 x (List.mem_cons_of_mem _ hx)))
    simpa using this
  · simp only [flush, h2]
    rw [if_neg]
    rintro ⟨h5, h6⟩
    rw [h3] at h5
    have hn : n = 0 := h4 (by simpa using h5)
    exact h6 (by rw [hn, showNat_zero])

/-- The tokens of a number. -/
def intToks : Int → List Tok
  | .ofNat n => [.num n]
  | .negSucc n => [.punct '-', .num (n + 1)]

theorem ends_int (n : Int) : Ends (showInt n) (intToks n) := by
  cases n with
  | ofNat n => exact ends_nat n
  | negSucc n =>
    have : Clean ['-'] [.punct '-'] := by decide +kernel
    exact this.append_ends (ends_nat (n + 1))

theorem expr_int (n : Int) : expr (intToks n) = some (.int n) := by
  cases n with
  | ofNat n => rfl
  | negSucc n => rfl

theorem digit_sep {c : Char} (h : isDigit c = true) : sepChar c = false := by simp [sepChar, h]

/-! Names -/

/-- An identifier. -/
def Name (s : Text) : Prop := ∃ c l, s = c :: l ∧ isLetter c = true ∧ ∀ x ∈ l, isLetter x = true ∨ isDigit x = true

theorem goes_letters : ∀ (l acc : Text), (∀ c ∈ l, isLetter c = true ∨ isDigit c = true) → Goes lexStep (.word acc) l [] (.word (acc ++ l))
  | [], acc, _ => by simpa using Goes.nil lexStep (.word acc)
  | c :: l, acc, h => by
    have ih := goes_letters l (acc ++ [c]) (fun x hx => h x (List.mem_cons_of_mem _ hx))
    have hs : lexStep (.word acc) c = some ([], .word (acc ++ [c])) := by
      simp only [lexStep, continues]
      rw [if_pos (by simpa using h c (List.mem_cons_self ..))]
    have := Goes.cons hs ih
    simpa using this

theorem letter_begin : ∀ c : Char, isLetter c = true → begin c = ([], .word [c]) := by
  intro c hc
  have h1 : isBlank c = false := by
    simp only [isBlank, Bool.or_eq_false_iff, beq_eq_false_iff_ne]
    refine ⟨⟨?_, ?_⟩, ?_⟩ <;> (rintro rfl; exact absurd hc (by decide))
  simp [begin, h1, hc]

theorem ends_name {s : Text} (h : Name s) : Ends s [.word s] := by
  obtain ⟨c, l, rfl, h1, h2⟩ := h
  refine ⟨[], .word (c :: l), [.word (c :: l)], ?_, rfl, rfl, rfl⟩
  have hs : lexStep .normal c = some ([], .word [c]) := by rw [lexStep_normal, letter_begin c h1]
  have := Goes.cons hs (goes_letters l [c] h2)
  simpa using this

theorem Name.append {s r : Text} (h : Name s) (hr : ∀ x ∈ r, isLetter x = true ∨ isDigit x = true) : Name (s ++ r) := by
  obtain ⟨c, l, rfl, h1, h2⟩ := h
  refine ⟨c, l ++ r, rfl, h1, ?_⟩
  intro x hx
  rcases List.mem_append.1 hx with hx | hx
  · exact h2 x hx
  · exact hr x hx

/-! Comments -/

theorem goes_skip : ∀ (l : Text), (∀ c ∈ l, isDigit c = true) → Goes lexStep .skip l [] .skip
  | [], _ => rfl
  | c :: l, h => by
    have hc := h c (List.mem_cons_self ..)
    have hn : c ≠ '\n' := by rintro rfl; exact absurd hc (by decide)
    have hs : lexStep .skip c = some ([], .skip) := by simp [lexStep, continues, hn]
    have := Goes.cons hs (goes_skip l (fun x hx => h x (List.mem_cons_of_mem _ hx)))
    simpa using this

theorem clean_comment {a b : Text} (n : Nat) (ha : Goes lexStep .normal a [] .skip) (hb : Goes lexStep .skip b [] .normal) :
    Clean (a ++ showNat n ++ b) [] := by
  have := (ha.append (goes_skip _ (showNat_spec n).1)).append hb
  simpa [Clean] using this

/-! Lists -/

/-- The tokens of a list of values, with commas between them. -/
def listToks : Bool → List (List Tok) → List Tok
  | _, [] => []
  | first, x :: l => (if first then [] else [.punct ',']) ++ x ++ listToks false l

theorem sep_nil : Sep [] := by intro c h; cases h

theorem ends_entries (every : Nat) : ∀ (l : List (Text × List Tok)), (∀ x ∈ l, Ends x.1 x.2) → ∀ first count, (first = true → count = 0) →
    Ends (entriesLoop every first count (l.map (·.1))) (listToks first (l.map (·.2))) ∧ Sep (entriesLoop every first count (l.map (·.1)))
  | [], _, _, _, _ => ⟨clean_nil.ends, sep_nil⟩
  | x :: l, h, first, count, hc => by
    obtain ⟨ih1, ih2⟩ := ends_entries every l (fun y hy => h y (List.mem_cons_of_mem _ hy)) false (count + 1) (by simp)
    simp only [List.map_cons, entriesLoop, listToks]
    have hpre : Clean ((if first then [] else ", ".toList) ++ (if count % every = 0 then "\n    ".toList else [])) (if first then [] else [.punct ',']) ∧
        Sep ((if first then [] else ", ".toList) ++ (if count % every = 0 then "\n    ".toList else [])) ∧
        ((if first then [] else ", ".toList) ++ (if count % every = 0 then "\n    ".toList else [])) ≠ [] := by
      cases first with
      | true =>
        rw [hc rfl]
        simp only [Nat.zero_mod, if_true]
        exact ⟨by decide +kernel, by decide +kernel, by decide +kernel⟩
      | false =>
        by_cases h0 : count % every = 0
        · rw [if_pos h0]
          exact ⟨by decide +kernel, by decide +kernel, by decide +kernel⟩
        · rw [if_neg h0]
          exact ⟨by decide +kernel, by decide +kernel, by decide +kernel⟩
    obtain ⟨h1, h2, h3⟩ := hpre
    generalize ((if first then [] else ", ".toList) ++ (if count % every = 0 then "\n    ".toList else [])) = pre at *
    refine ⟨?_, ?_⟩
    · exact Ends.append (h1.append_ends (h x (List.mem_cons_self ..))) ih1 ih2
    · rw [List.append_assoc]
      exact h2.append h3

end Written
end TameParse

import Verif.RegexProps
import Verif.LanguageGrammarProps
/-
C73: the strings, characters and comments of language definitions.

Source: /repo/TameParse/Language/definition.tp 15-41 (the expressions of the tokens), Language/process.cpp 34-70 (`dequote_string`),
Compiler/language_stage.cpp 196-203, 339-347, 629-652 (where strings become definitions of the lexer).
-/
namespace TameParse
namespace Strings
open Regex TameParse.Language TameParse.Language.Lang

/-- The characters of a text as symbols. -/
def syms (w : List Char) : List Int := w.map (fun c => (c.toNat : Int))

/-! ### What strings mean -/

/-- The escape sequences with a meaning of their own. -/
def escapes : List (Char × Char) := [('a', '\x07'), ('e', '\x1b'), ('n', '\n'), ('r', '\r'), ('f', '\x0c'), ('t', '\t')]

/-- What the characters between the quotes spell. -/
inductive Spells : List Char → List Char → Prop
  | nil : Spells [] []
  | plain {c s w} : c ≠ '\\' → Spells s w → Spells (c :: s) (c :: w)
  | escape {c v s w} : (c, v) ∈ escapes → Spells s w → Spells ('\\' :: c :: s) (v :: w)
  | quoted {c s w} : c ∉ escapes.map Prod.fst → Spells s w → Spells ('\\' :: c :: s) (c :: w)

theorem dequote_pair (d : Char) (rest : List Char) :
    ∃ v, dequoteLoop ('\\' :: d :: rest) = v :: dequoteLoop rest ∧ ((d, v) ∈ escapes ∨ d ∉ escapes.map Prod.fst ∧ v = d) := by
  rw [dequoteLoop.eq_def]
  dsimp only
  rw [if_pos rfl]
  refine ⟨_, rfl, ?_⟩
  split
  · exact .inl (by decide)
  · exact .inl (by decide)
  · exact .inl (by decide)
  · exact .inl (by decide)
  · exact .inl (by decide)
  · exact .inl (by decide)
  · next g1 g2 g3 g4 g5 g6 =>
    refine .inr ⟨?_, rfl⟩
    simp only [escapes, List.map_cons, List.map_nil, List.mem_cons, List.not_mem_nil, or_false, not_or]
    exact ⟨g1, g2, g3, g4, g5, g6⟩

theorem escape_unique {d v w : Char} (h : (d, v) ∈ escapes) (h' : (d, w) ∈ escapes) : v = w := by
  simp only [escapes, List.mem_cons, Prod.mk.injEq, List.not_mem_nil, or_false] at h h'
  rcases h with ⟨rfl, rfl⟩ | ⟨rfl, rfl⟩ | ⟨rfl, rfl⟩ | ⟨rfl, rfl⟩ | ⟨rfl, rfl⟩ | ⟨rfl, rfl⟩ <;> simp_all

theorem dequoteLoop_spells {s w : List Char} (h : Spells s w) (q : Char) : dequoteLoop (s ++ [q]) = w := by
  induction h with
  | nil => simp [dequoteLoop]
  | @plain c s w hc hs ih =>
    cases hsq : s ++ [q] with
    | nil => simp at hsq
    | cons d rest =>
      rw [List.cons_append, hsq, dequoteLoop.eq_def]
      dsimp only
      rw [if_neg hc, ← hsq, ih]
  | @escape c v s w hv hs ih =>
    obtain ⟨u, h1, h2⟩ := dequote_pair c (s ++ [q])
    rw [List.cons_append, List.cons_append, h1, ih]
    rcases h2 with h2 | ⟨h2, -⟩
    · rw [escape_unique h2 hv]
    · exact absurd (List.mem_map_of_mem hv) h2
  | @quoted c s w hc hs ih =>
    obtain ⟨u, h1, h2⟩ := dequote_pair c (s ++ [q])
    rw [List.cons_append, List.cons_append, h1, ih]
    rcases h2 with h2 | ⟨-, rfl⟩
    · exact absurd (List.mem_map_of_mem h2) hc
    · rfl

/-- **C73**. A string or character token stands for what is spelled between its quotes. -/
theorem dequote_spells {s w : List Char} (h : Spells s w) (p q : Char) : dequote (p :: s ++ [q]) = w := dequoteLoop_spells h q

theorem Spells.unique {s v w : List Char} (h : Spells s v) (h' : Spells s w) : v = w := by
  rw [← dequoteLoop_spells h 'x', ← dequoteLoop_spells h' 'x']

/-- Anything between the quotes spells something, unless it ends with a backslash that is not part of an escape sequence. -/
theorem spells_total : ∀ (k : Nat) (s : List Char), s.length ≤ k → (∃ w, Spells s w) ∨ ∃ t w, s = t ++ ['\\'] ∧ Spells t w
  | _, [], _ => .inl ⟨[], .nil⟩
  | 0, _ :: _, h => by simp at h
  | k + 1, c :: s, h => by
    have hs : s.length ≤ k := by simpa using h
    by_cases hc : c = '\\'
    · subst hc
      cases s with
      | nil => exact .inr ⟨[], [], rfl, .nil⟩
      | cons d s =>
        have hd : s.length ≤ k := by simp at hs; omega
        have key : ∀ t w, Spells t w → ∃ w, Spells ('\\' :: d :: t) w := by
          intro t w ht
          by_cases hm : d ∈ escapes.map Prod.fst
          · obtain ⟨⟨d', v⟩, hv, rfl⟩ := List.mem_map.1 hm
            exact ⟨_, .escape hv ht⟩
          · exact ⟨_, .quoted hm ht⟩
        rcases spells_total k s hd with ⟨w, hw⟩ | ⟨t, w, rfl, hw⟩
        · exact .inl (key s w hw)
        · obtain ⟨w', hw'⟩ := key t w hw
          exact .inr ⟨'\\' :: d :: t, w', rfl, hw'⟩
    · rcases spells_total k s hs with ⟨w, hw⟩ | ⟨t, w, rfl, hw⟩
      · exact .inl ⟨c :: w, .plain hc hw⟩
      · exact .inr ⟨c :: t, c :: w, rfl, .plain hc hw⟩

/-- A spelling of a text. -/
def quote : List Char → List Char
  | [] => []
  | c :: w => if c = '\\' ∨ c = '"' then '\\' :: c :: quote w else c :: quote w

theorem spells_quote : ∀ w : List Char, Spells (quote w) w
  | [] => .nil
  | c :: w => by
    unfold quote
    split
    · next h => rcases h with rfl | rfl <;> exact .quoted (by decide) (spells_quote w)
    · next h => exact .plain (fun e => h (.inl e)) (spells_quote w)

/-! ### String tokens -/

/-- `[^"]|(\\")` (definition.tp 20). -/
def stringChar : Re := .alt (.atom (.cls true [.one (.plain 34)])) (.grp (.cat (.atom (.chr (.quoted 92))) (ch 34)))

/-- `"{string-char}*"` (definition.tp 32). -/
def stringRe : Re := .cat (.cat (ch 34) (.star (.ref (syms "string-char".toList) stringChar))) (ch 34)

example : stringChar.text = syms "[^\"]|(\\\\\")".toList := by decide +kernel
example : stringRe.text = syms "\"{string-char}*\"".toList := by decide +kernel

/-- The definitions that the expression of strings needs. -/
def stringEnv : Env := { exprs := fun n => if n = syms "string-char".toList then some stringChar.text else none, literals := fun _ => none, category := fun _ => none }

/-- Every `"` comes right after a `\`. -/
def Escaped (l : List Int) : Prop := ∀ a b, l = a ++ 34 :: b → ∃ a', a = a' ++ [92]

/-- Symbols of texts. -/
def Plain (l : List Int) : Prop := ∀ x ∈ l, 0 ≤ x ∧ x < SymSet.maxSymbol

theorem mem_stringChar {w : List Int} : w ∈ stringChar.lang false ↔ (∃ x, 0 ≤ x ∧ x < SymSet.maxSymbol ∧ x ≠ 34 ∧ w = [x]) ∨ w = [92, 34] := by
  constructor
  · rintro (⟨x, ⟨h1, h2, h3⟩, rfl⟩ | h)
    · refine .inl ⟨x, h1, h2, ?_, rfl⟩
      rintro rfl
      exact h3 ⟨_, List.mem_singleton_self _, rfl⟩
    · obtain ⟨a, ⟨x, hx, rfl⟩, b, ⟨y, hy, rfl⟩, rfl⟩ := _root_.Language.mem_mul.1 h
      cases hx
      cases hy
      exact .inr rfl
  · rintro (⟨x, h1, h2, h3, rfl⟩ | rfl)
    · refine .inl ⟨x, ⟨h1, h2, ?_⟩, rfl⟩
      rintro ⟨i, hi, hx⟩
      rw [List.mem_singleton.1 hi] at hx
      exact h3 hx
    · exact .inr (_root_.Language.mem_mul.2 ⟨[92], ⟨92, rfl, rfl⟩, [34], ⟨34, rfl, rfl⟩, rfl⟩)

/-- What is between the quotes of a string token. -/
inductive Body : List Int → Prop
  | nil : Body []
  | one {x l} : 0 ≤ x → x < SymSet.maxSymbol → x ≠ 34 → Body l → Body (x :: l)
  | two {l} : Body l → Body (92 :: 34 :: l)

theorem Body.append {l m : List Int} (h : Body l) (h' : Body m) : Body (l ++ m) := by
  induction h with
  | nil => exact h'
  | one h1 h2 h3 _ ih => exact .one h1 h2 h3 ih
  | two _ ih => exact .two ih

theorem mem_body {w : List Int} : w ∈ KStar.kstar (stringChar.lang false) ↔ Body w := by
  rw [_root_.Language.mem_kstar]
  constructor
  · rintro ⟨L, rfl, hL⟩
    induction L with
    | nil => exact .nil
    | cons y L ih =>
      have hy := hL y (List.mem_cons_self ..)
      have hr := ih (fun z hz => hL z (List.mem_cons_of_mem _ hz))
      rw [List.flatten_cons]
      rcases mem_stringChar.1 hy with ⟨x, h1, h2, h3, rfl⟩ | rfl
      · exact .one h1 h2 h3 hr
      · exact .two hr
  · intro h
    induction h with
    | nil => exact ⟨[], rfl, fun _ h => (nomatch h)⟩
    | @one x l h1 h2 h3 _ ih =>
      obtain ⟨L, rfl, hL⟩ := ih
      refine ⟨[x] :: L, rfl, fun y hy => ?_⟩
      rcases List.mem_cons.1 hy with rfl | hy
      · exact mem_stringChar.2 (.inl ⟨x, h1, h2, h3, rfl⟩)
      · exact hL y hy
    | two _ ih =>
      obtain ⟨L, rfl, hL⟩ := ih
      refine ⟨[92, 34] :: L, rfl, fun y hy => ?_⟩
      rcases List.mem_cons.1 hy with rfl | hy
      · exact mem_stringChar.2 (.inr rfl)
      · exact hL y hy

theorem body_iff : ∀ (k : Nat) (l : List Int), l.length ≤ k → (Body l ↔ Plain l ∧ Escaped l)
  | _, [], _ => ⟨fun _ => ⟨fun _ h => (nomatch h), fun a b h => by cases a <;> cases h⟩, fun _ => .nil⟩
  | 0, _ :: _, h => by simp at h
  | k + 1, x :: l, h => by
    have hl : l.length ≤ k := by simpa using h
    constructor
    · intro hb
      cases hb with
      | one h1 h2 h3 hb =>
        obtain ⟨g1, g2⟩ := (body_iff k l hl).1 hb
        refine ⟨fun y hy => ?_, fun a b e => ?_⟩
        · rcases List.mem_cons.1 hy with rfl | hy
          · exact ⟨h1, h2⟩
          · exact g1 y hy
        · cases a with
          | nil => exact absurd (List.cons.inj e).1 h3
          | cons c a =>
            obtain ⟨e1, e2⟩ := List.cons.inj e
            obtain ⟨a', rfl⟩ := g2 a b e2
            exact ⟨x :: a', by rw [← e1]; rfl⟩
      | @two l hb =>
        have hl' : l.length ≤ k := by simp at hl; omega
        obtain ⟨g1, g2⟩ := (body_iff k l hl').1 hb
        refine ⟨fun y hy => ?_, fun a b e => ?_⟩
        · simp only [List.mem_cons] at hy
          rcases hy with rfl | rfl | hy
          · exact ⟨by decide, by decide⟩
          · exact ⟨by decide, by decide⟩
          · exact g1 y hy
        · match a, e with
          | [], e => exact absurd (List.cons.inj e).1 (by decide)
          | [c], e =>
            obtain ⟨rfl, -⟩ := List.cons.inj e
            exact ⟨[], rfl⟩
          | c :: d :: a, e =>
            obtain ⟨e1, e2⟩ := List.cons.inj e
            obtain ⟨e3, e4⟩ := List.cons.inj e2
            obtain ⟨a', rfl⟩ := g2 a b e4
            exact ⟨92 :: 34 :: a', by rw [← e1, ← e3]; rfl⟩
    · rintro ⟨g1, g2⟩
      have hx := g1 x (List.mem_cons_self ..)
      have hx34 : x ≠ 34 := by
        rintro rfl
        obtain ⟨a', e⟩ := g2 [] l rfl
        cases a' <;> cases e
      have g1' : Plain l := fun y hy => g1 y (List.mem_cons_of_mem _ hy)
      by_cases he : Escaped l
      · exact .one hx.1 hx.2 hx34 ((body_iff k l hl).2 ⟨g1', he⟩)
      · -- the list after the symbol begins with a quote
        have : ∃ b, l = 34 :: b := by
          by_contra hno
          apply he
          intro a b e
          cases a with
          | nil => exact absurd ⟨b, e⟩ hno
          | cons c a =>
            obtain ⟨a', e'⟩ := g2 (x :: c :: a) b (by rw [e]; rfl)
            cases a' with
            | nil => cases e'
            | cons d a' => exact ⟨a', (List.cons.inj e').2⟩
        obtain ⟨b, rfl⟩ := this
        have hx92 : x = 92 := by
          obtain ⟨a', e⟩ := g2 [x] b rfl
          cases a' with
          | nil => exact (List.cons.inj e).1
          | cons d a' => cases a' <;> cases (List.cons.inj e).2
        subst hx92
        have hb : b.length ≤ k := by simp at hl; omega
        refine .two ((body_iff k b hb).2 ⟨fun y hy => g1' y (List.mem_cons_of_mem _ hy), fun a c e => ?_⟩)
        obtain ⟨a', e'⟩ := g2 (92 :: 34 :: a) c (by rw [e]; rfl)
        cases a with
        | nil =>
          have := congrArg List.getLast? e'
          simp at this
        | cons d a =>
          match a', e' with
          | [], e' => cases e'
          | [_], e' => cases (List.cons.inj (List.cons.inj e').2).2
          | _ :: _ :: a', e' => exact ⟨a', (List.cons.inj (List.cons.inj e').2).2⟩

theorem mem_stringRe {w : List Int} : w ∈ stringRe.lang false ↔ ∃ l, w = 34 :: l ++ [34] ∧ Body l := by
  constructor
  · intro h
    obtain ⟨a, ha, b, ⟨y, hy, rfl⟩, rfl⟩ := _root_.Language.mem_mul.1 h
    obtain ⟨c, ⟨x, hx, rfl⟩, d, hd, rfl⟩ := _root_.Language.mem_mul.1 ha
    cases hx
    cases hy
    exact ⟨d, rfl, mem_body.1 hd⟩
  · rintro ⟨l, rfl, hl⟩
    exact _root_.Language.mem_mul.2 ⟨34 :: l, _root_.Language.mem_mul.2 ⟨[34], ⟨34, rfl, rfl⟩, l, mem_body.2 hl, rfl⟩, [34], ⟨34, rfl, rfl⟩, rfl⟩

theorem plain_ok (env : Env) (c : Int) (h1 : c ≠ 92) (h2 : c ∉ Atom.operators) : (ch c).Ok env false := ⟨⟨h1, h2⟩, fun h => (nomatch h)⟩

theorem quoted_ok (env : Env) (c : Int) (h : ¬ Chr.Special c) : (Re.atom (.chr (.quoted c))).Ok env false := ⟨⟨h, trivial⟩, fun h => (nomatch h)⟩

theorem not_ok (env : Env) (c : Chr) (h : c.Ok ∧ c.NotPlain [93, 45, 94]) (hc : 0 ≤ c.val ∧ c.val < SymSet.maxSymbol) (x : Int) (hx : 0 ≤ x ∧ x < SymSet.maxSymbol) (hne : x ≠ c.val) :
    (Re.atom (.cls true [.one c])).Ok env false := by
  refine ⟨⟨?_, ?_, x, hx.1, hx.2, ?_⟩, fun h => (nomatch h)⟩
  · intro i hi
    rw [List.mem_singleton.1 hi]
    exact h
  · intro _ i hi y hy
    rw [List.mem_singleton.1 hi] at hy
    rw [show y = c.val from hy]
    exact hc
  · rintro ⟨i, hi, hy⟩
    rw [List.mem_singleton.1 hi] at hy
    exact hne hy

theorem stringRe_ok : stringRe.Ok stringEnv false := by
  have h34 := plain_ok stringEnv 34 (by decide) (by decide)
  have h92 := quoted_ok stringEnv 92 (by unfold Chr.Special; decide)
  have hn := not_ok stringEnv (.plain 34) (by unfold Chr.Ok Chr.NotPlain; decide) (by decide) 97 (by decide) (by decide)
  refine ⟨⟨h34, ⟨⟨⟨hn, ⟨⟨h92, h34, rfl, rfl, .inl rfl⟩, fun h => (nomatch h)⟩, rfl, rfl, rfl⟩, by decide +kernel, ?_⟩, rfl, rfl, rfl⟩, rfl, rfl, .inl rfl⟩, h34, rfl, rfl, .inr rfl⟩
  exact ⟨rfl, rfl⟩

/-- **C73** (partial: without surrogates). The automaton for strings accepts exactly the texts in quotes in which every further quote comes right after a backslash. -/
theorem string_tokens_partial : ∃ n f, addRegex stringEnv 2 Ndfa.new false none 0 (syms "\"{string-char}*\"".toList) = some (n, f) ∧
    ∀ w, Ndfa.Reach n 0 w f ↔ ∃ l, w = 34 :: l ++ [34] ∧ Plain l ∧ Escaped l := by
  obtain ⟨n, f, h1, h2⟩ := regex_alone_partial stringEnv 2 false stringRe stringRe_ok (by decide +kernel)
  refine ⟨n, f, h1, fun w => ?_⟩
  rw [h2, mem_stringRe]
  constructor
  · rintro ⟨l, rfl, hl⟩
    exact ⟨l, rfl, (body_iff _ l (Nat.le_refl _)).1 hl⟩
  · rintro ⟨l, rfl, hl⟩
    exact ⟨l, rfl, (body_iff _ l (Nat.le_refl _)).2 hl⟩

theorem char_plain (c : Char) : (0 : Int) ≤ c.toNat ∧ (c.toNat : Int) < SymSet.maxSymbol := by
  refine ⟨by omega, ?_⟩
  have : c.toNat < 0x110000 := by
    have := c.valid
    unfold Char.toNat
    rcases this with h | ⟨-, h⟩ <;> (unfold UInt32.toNat at *; omega)
  unfold SymSet.maxSymbol
  omega

theorem char_ne {c : Char} (h : c ≠ '"') : (c.toNat : Int) ≠ 34 := by
  intro e
  apply h
  have : c.toNat = '"'.toNat := by have h2 : '"'.toNat = 34 := by decide
                                   omega
  exact Char.toNat_inj.1 this

theorem body_quote (w : List Char) : Body (syms (quote w)) := by
  induction w with
  | nil => exact .nil
  | cons c w ih =>
    unfold quote
    split
    · next h =>
      rcases h with rfl | rfl
      · exact .one (by decide) (by decide) (by decide) (.one (by decide) (by decide) (by decide) ih)
      · exact .two ih
    · next h => exact .one (char_plain c).1 (char_plain c).2 (char_ne (fun e => h (.inr e))) ih

/-- **C73**. Every text can be written as a string. -/
theorem string_round_trip (w : List Char) : dequote ('"' :: quote w ++ ['"']) = w ∧ syms ('"' :: quote w ++ ['"']) ∈ stringRe.lang false := by
  refine ⟨dequote_spells (spells_quote w) _ _, mem_stringRe.2 ⟨syms (quote w), ?_, body_quote w⟩⟩
  simp [syms]

theorem quote_append (v w : List Char) : quote (v ++ w) = quote v ++ quote w := by
  induction v with
  | nil => rfl
  | cons c v ih =>
    rw [List.cons_append, quote, quote, ih]
    split <;> rfl

/-- **C73**, violated by texts that end with a backslash: the string `"...\\"` is a token, but together with anything up to the next quote it is a longer one. So
such a string can only be the last one of a file. -/
theorem escaped_backslash_violated (w rest : List Char) (hr : '"' ∉ rest) :
    syms ('"' :: quote (w ++ ['\\']) ++ ['"']) ∈ stringRe.lang false ∧ syms ('"' :: quote (w ++ ['\\']) ++ ['"'] ++ rest ++ ['"']) ∈ stringRe.lang false := by
  refine ⟨(string_round_trip _).2, mem_stringRe.2 ⟨syms (quote w) ++ 92 :: 92 :: 34 :: syms rest, ?_, (body_quote w).append (.one (by decide) (by decide) (by decide) (.two ?_))⟩⟩
  · rw [quote_append]
    simp [syms, quote]
  · clear w
    induction rest with
    | nil => exact .nil
    | cons c rest ih =>
      exact .one (char_plain c).1 (char_plain c).2 (char_ne (fun e => hr (by rw [e]; exact List.mem_cons_self ..))) (ih (fun h => hr (List.mem_cons_of_mem _ h)))

/-- `"\\" = "` is one string. -/
example : syms "\"\\\\\" = \"".toList ∈ stringRe.lang false := (escaped_backslash_violated [] " = ".toList (by decide)).2

/-! ### Characters -/

/-- `'(.|\\.)'` (definition.tp 33). -/
def characterRe : Re := .cat (.cat (ch 39) (.grp (.alt (.atom .any) (.cat (.atom (.chr (.quoted 92))) (.atom .any))))) (ch 39)

example : characterRe.text = syms "'(.|\\\\.)'".toList := by decide +kernel

theorem characterRe_ok : characterRe.Ok noDefs false := by
  have h39 := plain_ok noDefs 39 (by decide) (by decide)
  have h92 := quoted_ok noDefs 92 (by unfold Chr.Special; decide)
  have ha : (Re.atom .any).Ok noDefs false := ⟨trivial, fun h => (nomatch h)⟩
  exact ⟨⟨h39, ⟨⟨ha, ⟨h92, ha, rfl, rfl, .inl rfl⟩, rfl, rfl, rfl⟩, fun h => (nomatch h)⟩, rfl, rfl, .inl rfl⟩, h39, rfl, rfl, .inl rfl⟩

/-- **C73** (partial: without surrogates). The automaton for characters accepts exactly one symbol in quotes, or a backslash and a symbol. -/
theorem character_tokens_partial : ∃ n f, addRegex noDefs 1 Ndfa.new false none 0 (syms "'(.|\\\\.)'".toList) = some (n, f) ∧
    ∀ w, Ndfa.Reach n 0 w f ↔ ∃ x, Plain [x] ∧ (w = [39, x, 39] ∨ w = [39, 92, x, 39]) := by
  obtain ⟨n, f, h1, h2⟩ := regex_alone_partial noDefs 1 false characterRe characterRe_ok (by decide +kernel)
  refine ⟨n, f, h1, fun w => ?_⟩
  rw [h2]
  constructor
  · intro h
    obtain ⟨a, ha, b, ⟨y, hy, rfl⟩, rfl⟩ := _root_.Language.mem_mul.1 h
    obtain ⟨c, ⟨x, hx, rfl⟩, d, hd, rfl⟩ := _root_.Language.mem_mul.1 ha
    cases hx
    cases hy
    rcases hd with ⟨x, hx, rfl⟩ | hd
    · exact ⟨x, fun y hy => by rw [List.mem_singleton.1 hy]; exact hx, .inl rfl⟩
    · obtain ⟨e, ⟨z, hz, rfl⟩, g, ⟨x, hx, rfl⟩, rfl⟩ := _root_.Language.mem_mul.1 hd
      cases hz
      exact ⟨x, fun y hy => by rw [List.mem_singleton.1 hy]; exact hx, .inr rfl⟩
  · rintro ⟨x, hx, h⟩
    have hx := hx x (List.mem_singleton_self _)
    rcases h with rfl | rfl
    · exact _root_.Language.mem_mul.2 ⟨[39, x], _root_.Language.mem_mul.2 ⟨[39], ⟨39, rfl, rfl⟩, [x], .inl ⟨x, hx, rfl⟩, rfl⟩, [39], ⟨39, rfl, rfl⟩, rfl⟩
    · exact _root_.Language.mem_mul.2 ⟨[39, 92, x], _root_.Language.mem_mul.2 ⟨[39], ⟨39, rfl, rfl⟩, [92, x],
        .inr (_root_.Language.mem_mul.2 ⟨[92], ⟨92, rfl, rfl⟩, [x], ⟨x, hx, rfl⟩, rfl⟩), rfl⟩, [39], ⟨39, rfl, rfl⟩, rfl⟩

/-- `'\'` is a character too, and stands for a quote like `'\''`. -/
example : dequote "'\\'".toList = ['\''] ∧ dequote "'\\''".toList = ['\''] := by decide

/-! ### Comments -/

/-- `\/\*([^*]|\*[^\/])*\*\/` (definition.tp 41). -/
def commentRe : Re := .cat (.cat (.cat (.cat (.atom (.chr (.quoted 47))) (.atom (.chr (.quoted 42))))
  (.star (.grp (.alt (.atom (.cls true [.one (.plain 42)])) (.cat (.atom (.chr (.quoted 42))) (.atom (.cls true [.one (.quoted 47)])))))))
  (.atom (.chr (.quoted 42)))) (.atom (.chr (.quoted 47)))

example : commentRe.text = syms "\\/\\*([^*]|\\*[^\\/])*\\*\\/".toList := by decide +kernel

theorem commentRe_ok : commentRe.Ok noDefs false := by
  have h47 := quoted_ok noDefs 47 (by unfold Chr.Special; decide)
  have h42 := quoted_ok noDefs 42 (by unfold Chr.Special; decide)
  have n42 := not_ok noDefs (.plain 42) (by unfold Chr.Ok Chr.NotPlain; decide) (by decide) 97 (by decide) (by decide)
  have n47 := not_ok noDefs (.quoted 47) (by unfold Chr.Ok Chr.NotPlain Chr.Special; decide) (by decide) 97 (by decide) (by decide)
  exact ⟨⟨⟨⟨h47, h42, rfl, rfl, .inl rfl⟩, ⟨⟨⟨n42, ⟨h42, n47, rfl, rfl, .inl rfl⟩, rfl, rfl, rfl⟩, fun h => (nomatch h)⟩, rfl, rfl, rfl⟩, rfl, rfl, .inl rfl⟩,
    h42, rfl, rfl, .inr rfl⟩, h47, rfl, rfl, .inl rfl⟩

/-- What is between the first two and the last two symbols. -/
inductive Inside : List Int → Prop
  | nil : Inside []
  | one {x l} : 0 ≤ x → x < SymSet.maxSymbol → x ≠ 42 → Inside l → Inside (x :: l)
  | two {x l} : 0 ≤ x → x < SymSet.maxSymbol → x ≠ 47 → Inside l → Inside (42 :: x :: l)

theorem mem_commentRe {w : List Int} : w ∈ commentRe.lang false ↔ ∃ l, w = 47 :: 42 :: l ++ [42, 47] ∧ Inside l := by
  have hin : ∀ l : List Int, l ∈ (Re.star (.grp (.alt (.atom (.cls true [.one (.plain 42)])) (.cat (.atom (.chr (.quoted 42)))
      (.atom (.cls true [.one (.quoted 47)])))))).lang false ↔ Inside l := by
    intro l
    show l ∈ KStar.kstar _ ↔ _
    rw [_root_.Language.mem_kstar]
    constructor
    · rintro ⟨L, rfl, hL⟩
      induction L with
      | nil => exact .nil
      | cons y L ih =>
        have hr := ih (fun z hz => hL z (List.mem_cons_of_mem _ hz))
        rw [List.flatten_cons]
        rcases hL y (List.mem_cons_self ..) with ⟨x, ⟨h1, h2, h3⟩, rfl⟩ | h
        · exact .one h1 h2 (fun e => h3 ⟨_, List.mem_singleton_self _, e⟩) hr
        · obtain ⟨a, ⟨z, hz, rfl⟩, b, ⟨x, ⟨h1, h2, h3⟩, rfl⟩, rfl⟩ := _root_.Language.mem_mul.1 h
          cases hz
          exact .two h1 h2 (fun e => h3 ⟨_, List.mem_singleton_self _, e⟩) hr
    · intro h
      induction h with
      | nil => exact ⟨[], rfl, fun _ h => (nomatch h)⟩
      | @one x l h1 h2 h3 _ ih =>
        obtain ⟨L, rfl, hL⟩ := ih
        refine ⟨[x] :: L, rfl, fun y hy => ?_⟩
        rcases List.mem_cons.1 hy with rfl | hy
        · refine .inl ⟨x, ⟨h1, h2, ?_⟩, rfl⟩
          rintro ⟨i, hi, hx⟩
          rw [List.mem_singleton.1 hi] at hx
          exact h3 hx
        · exact hL y hy
      | @two x l h1 h2 h3 _ ih =>
        obtain ⟨L, rfl, hL⟩ := ih
        refine ⟨[42, x] :: L, rfl, fun y hy => ?_⟩
        rcases List.mem_cons.1 hy with rfl | hy
        · refine .inr (_root_.Language.mem_mul.2 ⟨[42], ⟨42, rfl, rfl⟩, [x], ⟨x, ⟨h1, h2, ?_⟩, rfl⟩, rfl⟩)
          rintro ⟨i, hi, hx⟩
          rw [List.mem_singleton.1 hi] at hx
          exact h3 hx
        · exact hL y hy
  constructor
  · intro h
    obtain ⟨a, ha, b, ⟨y, hy, rfl⟩, rfl⟩ := _root_.Language.mem_mul.1 h
    obtain ⟨c, hc, d, ⟨x, hx, rfl⟩, rfl⟩ := _root_.Language.mem_mul.1 ha
    obtain ⟨e, he, g, hg, rfl⟩ := _root_.Language.mem_mul.1 hc
    obtain ⟨i, ⟨u, hu, rfl⟩, j, ⟨v, hv, rfl⟩, rfl⟩ := _root_.Language.mem_mul.1 he
    cases hx
    cases hy
    cases hu
    cases hv
    exact ⟨g, by simp [encode, Chr.val], (hin g).1 hg⟩
  · rintro ⟨l, rfl, hl⟩
    refine _root_.Language.mem_mul.2 ⟨47 :: 42 :: l ++ [42], _root_.Language.mem_mul.2 ⟨47 :: 42 :: l, _root_.Language.mem_mul.2 ⟨[47, 42],
      _root_.Language.mem_mul.2 ⟨[47], ⟨47, rfl, rfl⟩, [42], ⟨42, rfl, rfl⟩, rfl⟩, l, (hin l).2 hl, rfl⟩, [42], ⟨42, rfl, rfl⟩, rfl⟩, [47], ⟨47, rfl, rfl⟩, ?_⟩
    simp

/-- The automaton for comments. -/
theorem comment_tokens_partial : ∃ n f, addRegex noDefs 1 Ndfa.new false none 0 (syms "\\/\\*([^*]|\\*[^\\/])*\\*\\/".toList) = some (n, f) ∧
    ∀ w, Ndfa.Reach n 0 w f ↔ ∃ l, w = 47 :: 42 :: l ++ [42, 47] ∧ Inside l := by
  obtain ⟨n, f, h1, h2⟩ := regex_alone_partial noDefs 1 false commentRe commentRe_ok (by decide +kernel)
  exact ⟨n, f, h1, fun w => by rw [h2, mem_commentRe]⟩

theorem Inside.append {l m : List Int} (h : Inside l) (h' : Inside m) : Inside (l ++ m) := by
  induction h with
  | nil => exact h'
  | one h1 h2 h3 _ ih => exact .one h1 h2 h3 ih
  | two h1 h2 h3 _ ih => exact .two h1 h2 h3 ih

theorem inside_free {l : List Int} (hp : Plain l) (h : 42 ∉ l) : Inside l := by
  induction l with
  | nil => exact .nil
  | cons x l ih =>
    exact .one (hp x (List.mem_cons_self ..)).1 (hp x (List.mem_cons_self ..)).2 (fun e => h (by rw [e]; exact List.mem_cons_self ..))
      (ih (fun y hy => hp y (List.mem_cons_of_mem _ hy)) (fun hm => h (List.mem_cons_of_mem _ hm)))

theorem not_inside {l : List Int} (h : 42 ∉ l) : ¬ Inside (l ++ [42]) := by
  induction l with
  | nil =>
    intro hi
    cases hi with
    | one _ _ h3 _ => exact h3 rfl
  | cons x l ih =>
    intro hi
    have hx : x ≠ 42 := fun e => h (by rw [e]; exact List.mem_cons_self ..)
    generalize hm : x :: l ++ [42] = m at hi
    cases hi with
    | nil => cases hm
    | @one y m _ _ _ hi =>
      obtain ⟨-, rfl⟩ := List.cons.inj hm
      exact ih (fun hm => h (List.mem_cons_of_mem _ hm)) hi
    | two _ _ _ _ => exact hx (List.cons.inj hm).1

/-- **C73**, violated by comments: `/* ... **/` is not a comment; with the text up to the next `*/` it is one. -/
theorem comment_violated {l m : List Int} (hl : Plain l) (hl' : 42 ∉ l) (hm : Plain m) (hm' : 42 ∉ m) :
    47 :: 42 :: l ++ [42, 42, 47] ∉ commentRe.lang false ∧ 47 :: 42 :: l ++ [42, 42, 47] ++ m ++ [42, 47] ∈ commentRe.lang false := by
  constructor
  · intro h
    obtain ⟨k, e, hk⟩ := mem_commentRe.1 h
    have : k = l ++ [42] := by
      have e : l ++ [42, 42, 47] = k ++ [42, 47] := (List.cons.inj (List.cons.inj e).2).2
      have e : (l ++ [42]) ++ [42, 47] = k ++ [42, 47] := by rw [← e]; simp
      exact (List.append_cancel_right e).symm
    rw [this] at hk
    exact not_inside hl' hk
  · refine mem_commentRe.2 ⟨l ++ ([42, 42, 47] ++ m), by simp, (inside_free hl hl').append ?_⟩
    exact .two (by decide) (by decide) (by decide) (.one (by decide) (by decide) (by decide) (inside_free hm hm'))

theorem plain_syms (w : List Char) : Plain (syms w) := by
  intro x hx
  obtain ⟨c, -, rfl⟩ := List.mem_map.1 hx
  exact char_plain c

/-- `/***/` is not a comment, but `/***/ language X { } */` is one. -/
example : syms "/***/".toList ∉ commentRe.lang false ∧ syms "/***/ language X { } */".toList ∈ commentRe.lang false :=
  comment_violated (l := []) (m := syms " language X { } ".toList) (fun _ h => (nomatch h)) (by simp) (plain_syms _) (by decide +kernel)

/-! ### Terminals -/

open Language.Example (t)

/-- `S = 'x' "x"` -/
def twice : List (List (Block NtSyntax)) := [[.grammar [⟨.assignment, "S", [[.terminal .character "" "'x'" .blank, .terminal .string "" "\"x\"" .blank]]⟩]]]

/-- **C73**, violated by two spellings of one text: the terminals of a grammar are named by their spelling, so that there are two terminals with the same text. Both are
weak keywords, and the lexer reports only one of them. -/
theorem spellings_violated : (stage twice).errors = [] ∧ (stage twice).terminals.symbolForName "'x'" = 0 ∧ (stage twice).terminals.symbolForName "\"x\"" = 1 ∧
    (stage twice).defs.flatMap (fun p => p.2.map (fun i => (i.regex, i.definition, i.symbol))) = [(false, ['x'], 0), (false, ['x'], 1)] := by decide +kernel

end Strings
end TameParse

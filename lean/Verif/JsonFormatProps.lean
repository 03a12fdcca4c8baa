import Verif.JsonProps
import Verif.ErrorExample

/-!
# C100: what the JSON example writes for an input
-/

namespace TameParse
namespace Json

open AssocMap Closure Lalr TameParse.Parser ParserTables Sound Ast

theorem first_sound : ∀ y ∈ ex.items, ex.g.FirstSound y (ex.first y) := by
  intro y hy
  have hsome : ∀ y ∈ ex.items, (ex.g.first 200 [] y).isSome = true := by decide +kernel
  obtain ⟨⟨c, s⟩, h⟩ := Option.isSome_iff_exists.1 (hsome y hy)
  have := Gram.first_sound_partial _ simple.closed simple.ebnfSound 200 [] (by simp) [] c y s rfl hy h
  have he : ex.first y = s := by
    unfold Ex.first
    have h' : ex.g.first ex.fuel [] y = some (c, s) := h
    rw [h']
    rfl
  rw [he]
  exact this

/-- The lexemes that are not whitespace. -/
def seen (input : List Tok) : List Tok := input.filter fun k => k.sym ≠ 5

/-- The lexemes that are not whitespace are an object of the grammar (json.tp 50-64). -/
def Valid (input : List Tok) : Prop := gram.Derives [object] ((seen input).map fun k => .terminal k.sym)

/-- With enough fuel, this is written. -/
def Writes (content : Nat → Text) (input : List Tok) (out : Option Text) : Prop := ∃ fuel, ∀ f ≥ fuel, format content f input = .ok out

theorem writes_unique {content : Nat → Text} {input : List Tok} {out out' : Option Text} (h : Writes content input out) (h' : Writes content input out') : out = out' := by
  obtain ⟨f, h⟩ := h
  obtain ⟨f', h'⟩ := h'
  have e := h (max f f') (by omega)
  rw [h' (max f f') (by omega)] at e
  exact (Except.ok.inj e).symm

theorem forest_seen {xs : List Item} {ts : List Tree} {w : List Tok} (h : Forest gram ex.num xs ts w) : (∀ x ∈ xs, x ∈ ex.items) → ∀ k ∈ w, k.sym ≠ 5 := by
  induction h with
  | nil => intro _ k hk; cases hk
  | @token k xs ts w _ ih =>
    intro hx k' hk'
    rcases List.mem_cons.1 hk' with rfl | hk'
    · intro h3
      have := hx _ (List.mem_cons_self ..)
      rw [h3] at this
      exact absurd this (by decide +kernel)
    · exact ih (fun y hy => hx y (List.mem_cons_of_mem _ hy)) k' hk'
  | guard _ ih => exact fun hx => ih (fun y hy => hx y (List.mem_cons_of_mem _ hy))
  | @node x r _ _ _ _ _ hr _ _ ih1 ih2 =>
    intro hx k hk
    rcases List.mem_append.1 hk with hk | hk
    · exact ih1 (fits.closed x (hx x (List.mem_cons_self ..)) r hr) k hk
    · exact ih2 (fun y hy => hx y (List.mem_cons_of_mem _ hy)) k hk

theorem read_seen {ig : Int → Prop} {strong : Int → Int → Prop} (hig : ∀ n, ig n → n = 5) (hst : ∀ a b, ¬ strong a b) {u w : List Tok} (h : Read ig strong u w) :
    (∀ k ∈ w, k.sym ≠ 5) → w = seen u := by
  induction h with
  | nil => exact fun _ => rfl
  | @keep k u w _ ih =>
    intro hw
    have h3 : k.sym ≠ 5 := hw k (List.mem_cons_self ..)
    rw [seen, List.filter_cons_of_pos (by simpa using h3), ih fun k hk => hw k (List.mem_cons_of_mem _ hk)]
    rfl
  | strong hn => exact (hst _ _ hn).elim
  | @skip k u w hk _ ih =>
    intro hw
    rw [seen, List.filter_cons_of_neg (by simpa using hig _ hk), ih hw]
    rfl

/-- The items of a part of the tree. -/
def itemsOf : Part → List Item
  | .items xs => xs
  | .contents k rs => [.ebnf k rs]

theorem typed_seen {p : Part} {ns : List Node} {w : List Tok} (h : T p ns w) : (∀ x ∈ itemsOf p, x ∈ ex.items) → ∀ k ∈ w, k.sym ≠ 5 := by
  induction h with
  | nil => intro _ k hk; cases hk
  | guard _ ih => exact fun hx => ih (fun y hy => hx y (List.mem_cons_of_mem _ hy))
  | @token k xs ts w _ ih =>
    intro hx k' hk'
    rcases List.mem_cons.1 hk' with rfl | hk'
    · intro h3
      have := hx _ (List.mem_cons_self ..)
      rw [h3] at this
      exact absurd this (by decide +kernel)
    · exact ih (fun y hy => hx y (List.mem_cons_of_mem _ hy)) k' hk'
  | @object x r _ _ _ _ _ _ hr _ _ ih1 ih2 =>
    intro hx k hk
    rcases List.mem_append.1 hk with hk | hk
    · exact ih1 (fits.closed x (hx x (List.mem_cons_self ..)) r hr) k hk
    · exact ih2 (fun y hy => hx y (List.mem_cons_of_mem _ hy)) k hk
  | @list x rs _ _ _ _ _ _ _ _ _ ih1 ih2 =>
    intro hx k hk
    rcases List.mem_append.1 hk with hk | hk
    · exact ih1 (fun y hy => hx y (by rw [List.mem_singleton.1 hy]; exact List.mem_cons_self ..)) k hk
    · exact ih2 (fun y hy => hx y (List.mem_cons_of_mem _ hy)) k hk
  | none => intro _ k hk; cases hk
  | @more x rs _ _ _ _ _ _ ih1 ih2 =>
    intro hx k hk
    rcases List.mem_append.1 hk with hk | hk
    · exact ih1 hx k hk
    · refine ih2 (fun y hy => ?_) k hk
      have : ∀ z ∈ ex.items, (match z with | .ebnf _ rs => decide (∀ y ∈ Gram.ebnfRule rs, y ∈ ex.items) | _ => true) = true := by decide +kernel
      exact of_decide_eq_true (this _ (hx _ (List.mem_singleton.2 rfl))) y hy

/-- What has been made when the parser accepts: the tree of the lexemes that are not whitespace. -/
theorem accepted {input : List Tok} {pf : Nat} {s' : PState} (hp : parse ex.tables pf (Parser.start 0 input) = .ok (true, s')) :
    ∃ st τ n, s'.stack = [(st, τ), (0, .nothing)] ∧ Forest gram ex.num [object] [τ] (seen input) ∧ Ast.build gen τ = .ok n ∧ T (.items [object]) [n] (seen input) := by
  obtain ⟨m, m', hm, hm', hmade⟩ := Ex.made ex_ok
  obtain ⟨h0, hk⟩ := Ex.start_kernel ex_ok hm
  obtain ⟨st, τ, w, n, h1, h2, h3, h4, -⟩ := generated_tree hmade fits (by
    have : ∀ y ∈ ex.items, (match y with | .terminal n => decide (0 ≤ n ∧ n < gen.terminals) | _ => true) = true := by decide +kernel
    exact fun n hn => of_decide_eq_true (this _ hn)) h0 hk (by decide +kernel) rfl hp
  obtain ⟨st', τ', w', g1, -, g3, g4⟩ := hmade.sound h0 hk hp
  have e : (st', τ') = (st, τ) := by
    rw [h1] at g1
    exact (List.cons.inj g1).1.symm
  cases e
  have hw' : w' = seen input := read_seen (by simp [ex, Ex.stage]) (by simp [ex, Ex.stage, StrongOf]) g3 (forest_seen g4 (by decide +kernel))
  have hw : w = seen input := read_seen (by simp [ex, Ex.stage]) (by simp [ex, Ex.stage, StrongOf]) h2 (typed_seen h4 (by decide +kernel))
  subst hw
  subst hw'
  exact ⟨st, τ, n, h1, g4, h3, h4⟩

theorem parse_more {input : List Tok} {fuel f : Nat} {r : Bool × PState} (h : parse ex.tables fuel (Parser.start 0 input) = .ok r) (hf : f ≥ fuel) :
    parse ex.tables f (Parser.start 0 input) = .ok r := (parse_mono ex.tables fuel f _ hf).ok h

theorem decided (input : List Tok) : ∃ fuel b s', parse ex.tables fuel (Parser.start 0 input) = .ok (b, s') ∧ (b = true ↔ Valid input) := by
  obtain ⟨fuel, b, s', h1, h2⟩ := Ex.total ex_ok (by decide +kernel) rfl rfl first_ok first_sound no_conflicts no_accepts input
  refine ⟨fuel, b, s', h1, h2.trans ?_⟩
  have e : input.filter (fun k => decide (Item.terminal k.sym ∉ ex.ignored)) = seen input := by
    unfold seen
    congr 1
    funext k
    simp [ex]
  rw [e]
  rfl

/-- What is written for an input that the parser accepts. -/
theorem writes_of {content : Nat → Text} {input : List Tok} {pf : Nat} {s' : PState} (hp : parse ex.tables pf (Parser.start 0 input) = .ok (true, s')) {st : Nat} {τ : Tree}
    {rest : List (Nat × Tree)} (hs : s'.stack = (st, τ) :: rest) {n : Node} (hb : Ast.build gen τ = .ok n) {fuel : Nat} {text : Text}
    (ht : ∀ f ≥ fuel, printObject content f 0 n = .ok text) : Writes content input (some ([10] ++ text ++ [10])) := by
  refine ⟨max pf fuel, fun f hf => ?_⟩
  unfold format
  rw [parse_more hp (f := f) (by omega)]
  simp only [bind, Except.bind, hs, hb, ht f (by omega)]
  rfl

theorem valid_written {content : Nat → Text} {input : List Tok} (hl : Lexed content (seen input)) (hv : Valid input) :
    ∃ text, Writes content input (some ([10] ++ text ++ [10])) ∧ text = lay [] false (tokens content (seen input)) ∧ ∃ ts, Scans ([10] ++ text ++ [10]) ts ∧ kept ts = tokens content (seen input) := by
  obtain ⟨pf, b, s', hp, hb⟩ := decided input
  rw [hb.2 hv] at hp
  obtain ⟨st, τ, n, h1, -, h3, h4⟩ := accepted hp
  obtain ⟨fuel, text, q1, q2⟩ := object_written h4 hl
  exact ⟨_, writes_of hp h1 h3 q1, q2⟩

theorem lexed_seen {content : Nat → Text} {input : List Tok} (hl : Lexed content input) : Lexed content (seen input) := fun k hk => hl k (List.mem_filter.1 hk).1

/-- C100. For an input whose lexemes other than whitespace are an object, the program writes a text, and this text has the lexemes of the input again, with the
same contents and in the same order, with other whitespace between them. -/
theorem format_tokens {content : Nat → Text} {input : List Tok} (hl : Lexed content input) (hv : Valid input) :
    ∃ text, Writes content input (some text) ∧ ∃ ts, Scans text ts ∧ kept ts = tokens content (seen input) := by
  obtain ⟨text, h1, -, h2⟩ := valid_written (lexed_seen hl) hv
  exact ⟨_, h1, h2⟩

/-- The whitespace depends on the tokens before it: a new line after commas, after what opens and before closing braces, except in `{}` and `[]`, and a space after colons. Each line begins
with two columns for each bracket and each brace and pair that is open. -/
theorem format_text {content : Nat → Text} {input : List Tok} (hl : Lexed content input) (hv : Valid input) :
    Writes content input (some ([10] ++ lay [] false (tokens content (seen input)) ++ [10])) := by
  obtain ⟨text, h1, rfl, -⟩ := valid_written (lexed_seen hl) hv
  exact h1

/-- For any other input it reports a syntax error. -/
theorem format_error (content : Nat → Text) {input : List Tok} (hv : ¬ Valid input) : Writes content input none := by
  obtain ⟨pf, b, s', hp, hb⟩ := decided input
  obtain rfl : b = false := by
    cases b with
    | false => rfl
    | true => exact absurd (hb.1 rfl) hv
  refine ⟨pf, fun f hf => ?_⟩
  unfold format
  rw [parse_more hp hf]
  rfl

/-- So it reports an error exactly if the lexemes are not an object, and it always comes to an end. -/
theorem format_total {content : Nat → Text} {input : List Tok} (hl : Lexed content input) : ∃ out, Writes content input out ∧ (out.isSome ↔ Valid input) := by
  by_cases hv : Valid input
  · obtain ⟨text, h, -⟩ := format_tokens hl hv
    exact ⟨_, h, by simpa using hv⟩
  · exact ⟨_, format_error content hv, by simpa using hv⟩

theorem tokens_syms (content : Nat → Text) (w : List Tok) : (tokens content w).map (fun t => Item.terminal t.1) = w.map fun k => Item.terminal k.sym := by
  simp [tokens, Function.comp_def]

/-- Inputs that differ only in whitespace, errors included, have the same text written. -/
theorem format_layout {content content' : Nat → Text} {input input' : List Tok} (hl : Lexed content input) (he : tokens content (seen input) = tokens content' (seen input')) {out : Option Text} :
    Writes content input out ↔ Writes content' input' out := by
  have hl' : Lexed content' (seen input') := by
    intro k hk
    have : (k.sym, content' k.text) ∈ tokens content (seen input) := he ▸ List.mem_map_of_mem (f := fun k => (k.sym, content' k.text)) hk
    obtain ⟨k', h1, h2⟩ := List.mem_map.1 this
    obtain ⟨h3, h4⟩ := Prod.mk.inj h2
    rw [← h3, ← h4]
    exact hl k' (List.mem_filter.1 h1).1
  have hvv : Valid input ↔ Valid input' := by
    unfold Valid
    rw [← tokens_syms content, ← tokens_syms content', he]
  by_cases hv : Valid input
  · obtain ⟨text, h1, rfl, -⟩ := valid_written (lexed_seen hl) hv
    obtain ⟨text', h1', rfl, -⟩ := valid_written hl' (hvv.1 hv)
    rw [← he] at h1'
    exact ⟨fun h => writes_unique h h1 ▸ h1', fun h => writes_unique h h1' ▸ h1⟩
  · have h1 := format_error content hv
    have h1' := format_error content' (fun h => hv (hvv.2 h))
    exact ⟨fun h => writes_unique h h1 ▸ h1', fun h => writes_unique h h1' ▸ h1⟩

/-- For the lexemes of what it has written, the program writes the same text again. -/
theorem format_again {content content' : Nat → Text} {input input' : List Tok} (hl : Lexed content input) {text : Text} (h : Writes content input (some text))
    (hs : Scans text (tokens content' input')) : Writes content' input' (some text) := by
  have hv : Valid input := by
    by_contra hv
    cases writes_unique h (format_error content hv)
  obtain ⟨text', h1, ts, h2, h3⟩ := format_tokens hl hv
  cases writes_unique h h1
  rw [← scans_unique hs h2] at h3
  refine (format_layout hl ?_).1 h
  rw [← h3]
  simp [kept, tokens, seen, List.filter_map, Function.comp_def]

theorem scans_matches {t : Text} {ts : List (Int × Text)} (h : Scans t ts) : ∀ e ∈ ts, Matches e.2 e.1 := by
  induction h with
  | nil => simp
  | cons hm _ _ ih =>
    intro e he
    rcases List.mem_cons.1 he with rfl | he
    · exact hm
    · exact ih e he

theorem scans_text {t : Text} {ts : List (Int × Text)} (h : Scans t ts) : t = ts.flatMap (·.2) := by
  induction h with
  | nil => rfl
  | cons _ _ _ ih => rw [List.flatMap_cons, ← ih]

/-- From text to text: if the lexemes of a text are an object, a text is written that has the same tokens, that is the same but for whitespace between them, and for which the program
writes itself. -/
theorem format_texts {content : Nat → Text} {input : List Tok} {t : Text} (hs : Scans t (tokens content input)) (hv : Valid input) :
    ∃ text ts, Writes content input (some text) ∧ Scans text ts ∧ kept ts = kept (tokens content input) ∧ t = (tokens content input).flatMap (·.2) ∧ text = ts.flatMap (·.2) ∧
      (∀ e ∈ ts, e.1 = 5 → ∀ c ∈ e.2, Space c) ∧ ∀ content' input', ts = tokens content' input' → Writes content' input' (some text) := by
  have hl : Lexed content input := fun k hk => scans_matches hs _ (List.mem_map_of_mem (f := fun k : Tok => (k.sym, content k.text)) hk)
  obtain ⟨text, h1, ts, h2, h3⟩ := format_tokens hl hv
  refine ⟨text, ts, h1, h2, ?_, scans_text hs, scans_text h2, fun e he h5 => ?_, fun content' input' h => format_again hl h1 (h ▸ h2)⟩
  · rw [h3]
    simp [kept, tokens, seen, List.filter_map, Function.comp_def]
  · have := scans_matches h2 e he
    rw [h5] at this
    have hs : e.2 ≠ [] ∧ ∀ c ∈ e.2, Space c := by simpa [Matches] using this
    exact hs.2

/-! ### The dot of json.tp 26 is not quoted -/

/-- A fraction begins with a dot. -/
def Fraction (w : Text) : Prop := ∃ v, w = 46 :: v ∧ Digits v

/-- The numbers of JSON (json.org, which json.tp 3 refers to, apart from leading zeros). -/
def JsonNumber (w : Text) : Prop :=
  IsInt w ∨ (∃ a b, IsInt a ∧ Fraction b ∧ w = a ++ b) ∨ (∃ a b, IsInt a ∧ Exp b ∧ w = a ++ b) ∨ ∃ a b c, IsInt a ∧ Fraction b ∧ Exp c ∧ w = a ++ b ++ c

/-- All of them are matched. -/
theorem json_number {w : Text} (h : JsonNumber w) : IsNumber w := by
  have hf : ∀ b, Fraction b → Frac b := by
    rintro b ⟨v, rfl, hv⟩
    exact ⟨46, v, by decide, by decide, rfl, hv⟩
  rcases h with h | ⟨a, b, ha, hb, rfl⟩ | ⟨a, b, ha, hb, rfl⟩ | ⟨a, b, c, ha, hb, hc, rfl⟩
  · exact .inl h
  · exact .inr (.inl ⟨a, b, ha, hf b hb, rfl⟩)
  · exact .inr (.inr (.inl ⟨a, b, ha, hb, rfl⟩))
  · exact .inr (.inr (.inr ⟨a, b, c, ha, hf b hb, hc, rfl⟩))

/-- The lexer does not divide arrays of JSON as it should: two numbers with a comma between them are one number; so are numbers with any other character between them. -/
theorem comma_violated {a b : Text} {c : Int} (ha : Digits a) (hb : Digits b) (h0 : 0 ≤ c) (h1 : c < 0x7fffffff) {ts : List (Int × Text)} :
    Scans ([91] ++ (a ++ c :: b) ++ [93]) ts ↔ ts = [(10, [91]), (4, a ++ c :: b), (11, [93])] := by
  have hn : IsNumber (a ++ c :: b) := .inr (.inl ⟨a, c :: b, .inl ha, ⟨c, b, h0, h1, rfl, hb⟩, rfl⟩)
  have s0 : Scans [93] [(11, [93])] := by
    have := Scans.cons (w := [93]) (rest := []) (s := 11) (by simp [Matches]) (longest_word (s := 11) (by simp [Matches]) (by decide) (by decide) (by decide)) Scans.nil
    simpa using this
  have s1 : Scans ((a ++ c :: b) ++ [93]) [(4, a ++ c :: b), (11, [93])] :=
    Scans.cons (by simp [Matches, hn]) (longest_number hn ⟨by simp, by simp⟩) s0
  have s2 : Scans ([91] ++ ((a ++ c :: b) ++ [93])) [(10, [91]), (4, a ++ c :: b), (11, [93])] :=
    Scans.cons (by simp [Matches]) (longest_word (s := 10) (by simp [Matches]) (by decide) (by decide) (by decide)) s1
  rw [← List.append_assoc] at s2
  exact ⟨fun h => scans_unique h s2, fun h => h ▸ s2⟩

/-- `[1,2]` is an array of one number; so is `[1 2]`, which is no JSON. -/
example : Scans [91, 49, 44, 50, 93] [(10, [91]), (4, [49, 44, 50]), (11, [93])] ∧ Scans [91, 49, 32, 50, 93] [(10, [91]), (4, [49, 32, 50]), (11, [93])] :=
  ⟨(comma_violated (a := [49]) (b := [50]) (c := 44) (by simp [Digits, Digit]) (by simp [Digits, Digit]) (by decide) (by decide)).2 rfl,
    (comma_violated (a := [49]) (b := [50]) (c := 32) (by simp [Digits, Digit]) (by simp [Digits, Digit]) (by decide) (by decide)).2 rfl⟩

/-! ### An example -/

/-- The contents of the lexemes of `{ "a":[true,7]}`. -/
def sampleContent : Nat → Text
  | 0 => [123]
  | 1 => [32]
  | 2 => [34, 97, 34]
  | 3 => [58]
  | 4 => [91]
  | 5 => [116, 114, 117, 101]
  | 6 => [44]
  | 7 => [55]
  | 8 => [93]
  | _ => [125]

/-- The lexemes of `{ "a":[true,7]}`. -/
def sample : List Tok := [⟨6, 0⟩, ⟨5, 1⟩, ⟨3, 2⟩, ⟨9, 3⟩, ⟨10, 4⟩, ⟨0, 5⟩, ⟨8, 6⟩, ⟨4, 7⟩, ⟨11, 8⟩, ⟨7, 9⟩]

/-- What is written: the values on lines of their own, two columns further in for each object and array and for each value of a pair. -/
example : format sampleContent 200 sample = .ok (some
    ([10] ++ [123] ++ ([10, 32, 32] ++ [34, 97, 34, 58, 32, 91] ++ ([10, 32, 32, 32, 32, 32, 32] ++ [116, 114, 117, 101, 44] ++ [10, 32, 32, 32, 32, 32, 32] ++ [55]) ++ [93]) ++
      [10, 125] ++ [10])) := by decide +kernel

example : Lexed sampleContent sample := by
  have h4 : IsString [34, 97, 34] := ⟨[97], .plain (by decide) (by decide) (by decide) (by decide) .nil, rfl⟩
  have h5 : IsNumber [55] := .inl (.inl (by simp [Digits, Digit]))
  intro k hk
  simp only [sample, List.mem_cons, List.not_mem_nil, or_false] at hk
  rcases hk with rfl | rfl | rfl | rfl | rfl | rfl | rfl | rfl | rfl | rfl <;> simp [Matches, sampleContent, Space, h4, h5]

/-- It is an object. -/
example : Valid sample := by
  have h : (match parse ex.tables 200 (Parser.start 0 sample) with | .ok (b, _) => b | .error _ => false) = true := by decide +kernel
  obtain ⟨fuel, b, s', h1, h2⟩ := decided sample
  cases hp : parse ex.tables 200 (Parser.start 0 sample) with
  | error e => rw [hp] at h; cases h
  | ok r =>
    have e := parse_more hp (f := max 200 fuel) (by omega)
    rw [parse_more h1 (f := max 200 fuel) (by omega)] at e
    obtain rfl := Except.ok.inj e
    rw [hp] at h
    exact h2.1 h

/-- The layout of `{"a":{},"a":[7]}`. -/
example : lay [] false [(6, [123]), (3, [34, 97, 34]), (9, [58]), (6, [123]), (7, [125]), (8, [44]), (3, [34, 97, 34]), (9, [58]), (10, [91]), (4, [55]), (11, [93]), (7, [125])] =
    [123, 10, 32, 32, 34, 97, 34, 58, 32, 123, 125, 44, 10, 32, 32, 34, 97, 34, 58, 32, 91, 10, 32, 32, 32, 32, 32, 32, 55, 93, 10, 125] := by decide +kernel

/-- It is the same without the whitespace. -/
example : format sampleContent 200 (seen sample) = format sampleContent 200 sample := by decide +kernel

/-- Without its bracket it is refused. -/
example : format sampleContent 200 (sample.take 9) = .ok none := by decide +kernel

end Json
end TameParse

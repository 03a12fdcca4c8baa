import Verif.WrittenLex
/-
The declarations of the written tables (lemmas for property C79).
-/
namespace TameParse
namespace Written
open ParserTables

/-! Values -/

/-- A value has been read, up to what ends it. -/
def Done (h : List Tok) (top : List Init) (st : List (List Init)) (i : Init) (s : RState) : Prop :=
  (∃ p, s = .init h (top :: st) false p ∧ p ≠ [] ∧ expr p = some i) ∨ s = .init h ((top ++ [i]) :: st) true []

/-- The tokens are those of a value. -/
def Item (T : List Tok) (i : Init) : Prop :=
  ∀ h top st, ∃ s, Goes readStep (.init h (top :: st) false []) T [] s ∧ Done h top st i s

/-- A token inside an expression. -/
def plain (t : Tok) : Bool := !(t == .punct '{' || t == .punct ',' || t == .punct '}')

theorem goes_plain (h : List Tok) (st : List (List Init)) : ∀ (T acc : List Tok), (∀ t ∈ T, plain t = true) →
    Goes readStep (.init h st false acc) T [] (.init h st false (acc ++ T))
  | [], acc, _ => by simpa using Goes.nil readStep _
  | t :: T, acc, hT => by
    have ht := hT t (List.mem_cons_self ..)
    simp only [plain, Bool.not_eq_true', Bool.or_eq_false_iff, beq_eq_false_iff_ne] at ht
    obtain ⟨⟨h1, h2⟩, h3⟩ := ht
    have hs : readStep (.init h st false acc) t = some ([], .init h st false (acc ++ [t])) := by
      simp [readStep, h1, h2, h3]
    have := Goes.cons hs (goes_plain h st T (acc ++ [t]) (fun x hx => hT x (List.mem_cons_of_mem _ hx)))
    simpa using this

theorem item_expr {T : List Tok} {i : Init} (he : expr T = some i) (hp : ∀ t ∈ T, plain t = true) : Item T i := by
  intro h top st
  refine ⟨_, goes_plain h (top :: st) T [] hp, Or.inl ⟨T, by simp, ?_, he⟩⟩
  rintro rfl
  cases he

theorem item_int (n : Int) : Item (intToks n) (.int n) := by
  refine item_expr (expr_int n) ?_
  cases n <;> simp [intToks, plain]

theorem item_nat (n : Nat) : Item [.num n] (.int n) := item_int (Int.ofNat n)

theorem done_comma {h : List Tok} {top : List Init} {st : List (List Init)} {i : Init} {s : RState} (hd : Done h top st i s) :
    readStep s (.punct ',') = some ([], .init h ((top ++ [i]) :: st) false []) := by
  rcases hd with ⟨p, rfl, h1, h2⟩ | rfl
  · simp [readStep, finish, h2]
  · simp [readStep, finish]

theorem done_close {h : List Tok} {top : List Init} {st : List (List Init)} {i : Init} {s : RState} (hd : Done h top st i s) :
    readStep s (.punct '}') = (close h ((top ++ [i]) :: st)).map (fun s => ([], s)) := by
  rcases hd with ⟨p, rfl, h1, h2⟩ | rfl
  · simp [readStep, finish, h1, h2]
  · simp [readStep]

theorem done_tail : ∀ (l : List (List Tok × Init)), (∀ x ∈ l, Item x.1 x.2) → ∀ (h : List Tok) (top : List Init) (st : List (List Init)) (i : Init)
    (s s' : RState), Done h top st i s → close h ((top ++ [i] ++ l.map (·.2)) :: st) = some s' →
    Goes readStep s (listToks false (l.map (·.1)) ++ [.punct '}']) [] s'
  | [], _, h, top, st, i, s, s', hd, hc => by
    have := done_close hd
    simp only [List.map_nil, List.append_nil] at hc
    rw [hc] at this
    exact Goes.one this
  | x :: l, hl, h, top, st, i, s, s', hd, hc => by
    simp only [List.map_cons, listToks]
    obtain ⟨s1, g1, d1⟩ := hl x (List.mem_cons_self ..) h (top ++ [i]) st
    have g2 := done_tail l (fun y hy => hl y (List.mem_cons_of_mem _ hy)) h (top ++ [i]) st x.2 s1 s' d1 (by simpa using hc)
    have := Goes.cons (done_comma hd) (g1.append g2)
    simpa using this

/-- A list of values up to the closing brace. -/
theorem items_close (l : List (List Tok × Init)) (hl : ∀ x ∈ l, Item x.1 x.2) (h : List Tok) (top : List Init) (st : List (List Init)) (s' : RState)
    (hc : close h ((top ++ l.map (·.2)) :: st) = some s') :
    Goes readStep (.init h (top :: st) false []) (listToks true (l.map (·.1)) ++ [.punct '}']) [] s' := by
  cases l with
  | nil =>
    simp only [List.map_nil, List.append_nil] at hc
    refine Goes.one ?_
    simp [readStep, hc]
  | cons x l =>
    obtain ⟨s1, g1, d1⟩ := hl x (List.mem_cons_self ..) h top st
    have g2 := done_tail l (fun y hy => hl y (List.mem_cons_of_mem _ hy)) h top st x.2 s1 s' d1 (by simpa using hc)
    have := g1.append g2
    simpa [listToks] using this

theorem item_braces (l : List (List Tok × Init)) (hl : ∀ x ∈ l, Item x.1 x.2) :
    Item (.punct '{' :: (listToks true (l.map (·.1)) ++ [.punct '}'])) (.braces (l.map (·.2))) := by
  intro h top st
  have hs : readStep (.init h (top :: st) false []) (.punct '{') = some ([], .init h ([] :: top :: st) false []) := by simp [readStep]
  have g := items_close l hl h [] (top :: st) _ rfl
  have := Goes.cons hs g
  exact ⟨_, this, Or.inr (by simp)⟩

/-! Declarations -/

/-- The tokens are those of these declarations. -/
def Reads (T : List Tok) (ds : List Decl) : Prop := Goes readStep (.head []) T ds (.head [])

theorem Reads.append {T U : List Tok} {ds es : List Decl} (h1 : Reads T ds) (h2 : Reads U es) : Reads (T ++ U) (ds ++ es) := Goes.append h1 h2

/-- A token before the values. -/
def plainHead (t : Tok) : Bool := !(t == .punct ';' || t == .punct '=' || t == .punct '(')

theorem goes_head : ∀ (T acc : List Tok), (∀ t ∈ T, plainHead t = true) → Goes readStep (.head acc) T [] (.head (acc ++ T))
  | [], acc, _ => by simpa using Goes.nil readStep _
  | t :: T, acc, hT => by
    have ht := hT t (List.mem_cons_self ..)
    simp only [plainHead, Bool.not_eq_true', Bool.or_eq_false_iff, beq_eq_false_iff_ne] at ht
    obtain ⟨⟨h1, h2⟩, h3⟩ := ht
    have hs : readStep (.head acc) t = some ([], .head (acc ++ [t])) := by simp [readStep, h1, h2, h3]
    have := Goes.cons hs (goes_head T (acc ++ [t]) (fun x hx => hT x (List.mem_cons_of_mem _ hx)))
    simpa using this

theorem reads_array (H : List Tok) (hH : ∀ t ∈ H, plainHead t = true) (l : List (List Tok × Init)) (hl : ∀ x ∈ l, Item x.1 x.2) :
    Reads (H ++ [.punct '=', .punct '{'] ++ listToks true (l.map (·.1)) ++ [.punct '}', .punct ';']) [.array H (l.map (·.2))] := by
  have g1 := goes_head H [] hH
  have g2 : Goes readStep (.head ([] ++ H)) [.punct '=', .punct '{'] [] (.init ([] ++ H) [[]] false []) :=
    Goes.cons (o := []) (s1 := .equals ([] ++ H)) (by simp [readStep]) (Goes.one (by simp [readStep]))
  have g3 := items_close l hl ([] ++ H) [] [] _ rfl
  have g4 : Goes readStep (.stop (.array ([] ++ H) ([] ++ l.map (·.2)))) [.punct ';'] [.array ([] ++ H) ([] ++ l.map (·.2))] (.head []) :=
    Goes.one (by simp [readStep])
  have := ((g1.append g2).append g3).append g4
  simpa [Reads] using this

theorem reads_other (H : List Tok) (hH : ∀ t ∈ H, plainHead t = true) : Reads (H ++ [.punct ';']) [.other H] := by
  have g1 := goes_head H [] hH
  have g2 : Goes readStep (.head ([] ++ H)) [.punct ';'] [.other ([] ++ H)] (.head []) := Goes.one (by simp [readStep])
  simpa [Reads] using g1.append g2

/-- A token inside an argument. -/
def plainArg (t : Tok) : Bool := !(t == .punct ',' || t == .punct ')')

theorem goes_arg (h : List Tok) (vs : List Init) : ∀ (T acc : List Tok), (∀ t ∈ T, plainArg t = true) →
    Goes readStep (.args h vs acc) T [] (.args h vs (acc ++ T))
  | [], acc, _ => by simpa using Goes.nil readStep _
  | t :: T, acc, hT => by
    have ht := hT t (List.mem_cons_self ..)
    simp only [plainArg, Bool.not_eq_true', Bool.or_eq_false_iff, beq_eq_false_iff_ne] at ht
    obtain ⟨h1, h2⟩ := ht
    have hs : readStep (.args h vs acc) t = some ([], .args h vs (acc ++ [t])) := by simp [readStep, h1, h2]
    have := Goes.cons hs (goes_arg h vs T (acc ++ [t]) (fun x hx => hT x (List.mem_cons_of_mem _ hx)))
    simpa using this

/-- The tokens of an argument. -/
def Arg (T : List Tok) (i : Init) : Prop := expr T = some i ∧ ∀ t ∈ T, plainArg t = true

theorem goes_args (h : List Tok) : ∀ (l : List (List Tok × Init)), (∀ x ∈ l, Arg x.1 x.2) → ∀ (vs : List Init) (p : List Tok) (i : Init), expr p = some i →
    Goes readStep (.args h vs p) (listToks false (l.map (·.1)) ++ [.punct ')']) [] (.stop (.object h (vs ++ [i] ++ l.map (·.2))))
  | [], _, vs, p, i, hp => Goes.one (by simp [readStep, hp])
  | x :: l, hl, vs, p, i, hp => by
    obtain ⟨h1, h2⟩ := hl x (List.mem_cons_self ..)
    simp only [List.map_cons, listToks]
    have hs : readStep (.args h vs p) (.punct ',') = some ([], .args h (vs ++ [i]) []) := by simp [readStep, hp]
    have g1 := goes_arg h (vs ++ [i]) x.1 [] h2
    have g2 := goes_args h l (fun y hy => hl y (List.mem_cons_of_mem _ hy)) (vs ++ [i]) ([] ++ x.1) x.2 (by simpa using h1)
    have := Goes.cons hs (g1.append g2)
    simpa using this

theorem reads_object (H : List Tok) (hH : ∀ t ∈ H, plainHead t = true) (x : List Tok × Init) (l : List (List Tok × Init))
    (hl : ∀ y ∈ x :: l, Arg y.1 y.2) :
    Reads (H ++ [.punct '('] ++ listToks true ((x :: l).map (·.1)) ++ [.punct ')', .punct ';']) [.object H ((x :: l).map (·.2))] := by
  have g1 := goes_head H [] hH
  have g2 : Goes readStep (.head ([] ++ H)) [.punct '('] [] (.args ([] ++ H) [] []) := Goes.one (by simp [readStep])
  obtain ⟨hx1, hx2⟩ := hl x (List.mem_cons_self ..)
  have g3 := goes_arg ([] ++ H) [] x.1 [] hx2
  have g4 := goes_args ([] ++ H) l (fun y hy => hl y (List.mem_cons_of_mem _ hy)) [] ([] ++ x.1) x.2 (by simpa using hx1)
  have g5 : Goes readStep (.stop (.object ([] ++ H) ([] ++ [x.2] ++ l.map (·.2)))) [.punct ';'] [.object ([] ++ H) ([] ++ [x.2] ++ l.map (·.2))] (.head []) :=
    Goes.one (by simp [readStep])
  have := (((g1.append g2).append g3).append g4).append g5
  simpa [Reads, listToks] using this

/-! The text of a list in braces -/

/-- `{ a, b }`. -/
theorem ends_braces {l : List (Text × List Tok)} {body : Text} (hb : Ends body (listToks true (l.map (·.2)))) :
    Clean ("{ ".toList ++ body ++ " }".toList) (.punct '{' :: (listToks true (l.map (·.2)) ++ [.punct '}'])) := by
  have h1 : Clean "{ ".toList [.punct '{'] := by decide +kernel
  have h2 : Clean " }".toList [.punct '}'] := by decide +kernel
  have := (h1.append_ends hb).clean h2 (by decide +kernel) (by decide +kernel)
  simpa using this

theorem sep_comma : Sep ", ".toList := by decide +kernel
theorem clean_comma : Clean ", ".toList [.punct ','] := by decide +kernel

theorem ends_two {a b : Text} {A B : List Tok} (ha : Ends a A) (hb : Ends b B) :
    Clean ("{ ".toList ++ a ++ ", ".toList ++ b ++ " }".toList) (.punct '{' :: (listToks true [A, B] ++ [.punct '}'])) := by
  have h : Ends (a ++ ", ".toList ++ b) (listToks true [A, B]) := by
    have := (ha.clean clean_comma sep_comma (by decide +kernel)).append_ends hb
    simpa [listToks] using this
  have := ends_braces (l := [(a, A), (b, B)]) h
  simpa using this

theorem ends_three {a b c : Text} {A B C : List Tok} (ha : Ends a A) (hb : Ends b B) (hc : Ends c C) :
    Clean ("{ ".toList ++ a ++ ", ".toList ++ b ++ ", ".toList ++ c ++ " }".toList) (.punct '{' :: (listToks true [A, B, C] ++ [.punct '}'])) := by
  have h : Ends (a ++ ", ".toList ++ b ++ ", ".toList ++ c) (listToks true [A, B, C]) := by
    have h1 := (ha.clean clean_comma sep_comma (by decide +kernel)).append_ends hb
    have := (h1.clean clean_comma sep_comma (by decide +kernel)).append_ends hc
    simpa [listToks] using this
  have := ends_braces (l := [(a, A), (b, B), (c, C)]) h
  simpa using this

end Written
end TameParse

import Verif.JsonLex

/-!
# C100: the JSON example writes the tokens that it reads
-/

namespace TameParse
namespace Json

open AssocMap Closure Lalr TameParse.Parser ParserTables Sound Ast

/-! ### The grammar -/

theorem ex_ok : ex.Ok where
  items := by decide +kernel
  closed := by decide +kernel
  prods := by decide +kernel
  rules := by decide +kernel
  start := by decide +kernel
  first := by decide +kernel
  mach := by decide +kernel
  full := by decide +kernel
  size := by decide +kernel
  actions := by decide +kernel
  ignored := by decide +kernel
  numRules := by decide +kernel
  next := by decide +kernel
  back := by decide +kernel

theorem fits : Fits gen gram ex.num (· ∈ ex.items) where
  closed := fun x hx r hr => ex_ok.rules _ (ex_ok.closed x hx r hr)
  rule := by decide +kernel
  ruleId := fun _ _ _ _ => rfl
  plus := by
    intro rs h
    have : ∀ y ∈ ex.items, (match y with | .ebnf .repeating rs => !(Gram.ebnfRule rs).isEmpty | _ => true) = true := by decide +kernel
    have := this _ h
    dsimp only at this
    intro he
    rw [he] at this
    cases this

/-! ### Syntax trees of the grammar -/

theorem member_of {x : Item} {r : List Item} (hx : x ∈ ex.items) (hr : r ∈ closRules gram x) (c : Cls) (fs : List Node) (y : Item) :
    member (.object c (ex.num.ruleId ⟨x, r⟩) fs) y = .ok ((((memberItems ⟨x, r⟩).zip fs).find? fun p => p.1 == y).map (·.2)) := by
  unfold member
  dsimp only
  rw [fits.rule x hx r hr]
  rfl

abbrev T := Typed gram ex.num

theorem typed_nil {ns : List Node} {w : List Tok} (h : T (.items []) ns w) : ns = [] ∧ w = [] := by
  cases h
  exact ⟨rfl, rfl⟩

theorem typed_cons {x : Item} {xs : List Item} {ns : List Node} {w : List Tok} (hx : Ast.isGuard x = false) (h : T (.items (x :: xs)) ns w) :
    ∃ n v ns' w', ns = n :: ns' ∧ w = v ++ w' ∧ T (.items [x]) [n] v ∧ T (.items xs) ns' w' := by
  cases h with
  | guard h => cases hx
  | @token k _ ns w h => exact ⟨_, [k], ns, w, rfl, rfl, .token .nil, h⟩
  | @object _ r fs v _ ns w hl hr hc h =>
    have := Typed.object (xs := []) hl hr hc .nil
    rw [List.append_nil] at this
    exact ⟨_, v, ns, w, rfl, rfl, this, h⟩
  | @list k rs cs v _ ns w hk hc hne h =>
    have := Typed.list (xs := []) hk hc hne .nil
    rw [List.append_nil] at this
    exact ⟨_, v, ns, w, rfl, rfl, this, h⟩

theorem typed_terminal {t : Int} {n : Node} {w : List Tok} (h : T (.items [.terminal t]) [n] w) : ∃ k : Tok, k.sym = t ∧ n = .term (.item (.terminal t)) k ∧ w = [k] := by
  cases h with
  | token h =>
    cases h
    exact ⟨_, rfl, rfl, rfl⟩
  | object _ hr _ _ => cases hr

theorem typed_object {x : Item} {n : Node} {w : List Tok} (hx : ∀ t, x ≠ .terminal t) (hl : isList x = false) (hg : Ast.isGuard x = false) (h : T (.items [x]) [n] w) :
    ∃ r fs, r ∈ closRules gram x ∧ n = .object (.item x) (ex.num.ruleId ⟨x, r⟩) fs ∧ T (.items r) fs w := by
  cases h with
  | guard _ => cases hg
  | token _ => exact absurd rfl (hx _)
  | @object _ r fs v _ ns w hl hr hc h =>
    cases h
    rw [List.append_nil]
    exact ⟨r, fs, hr, rfl, hc⟩
  | list hk _ _ _ =>
    rcases hk with rfl | rfl <;> cases hl

/-- The contents of a list, one after the other. -/
theorem typed_contents {rs : List (List Item)} {p : Part} {cs : List Node} {w : List Tok} (h : T p cs w) (hp : p = .contents .repeatZero rs) :
    ∃ l : List (List Node × List Tok), cs = l.map (fun e => .object (.content (.ebnf .repeatZero rs)) (ex.num.ruleId ⟨.ebnf .repeatZero rs, .ebnf .repeatZero rs :: Gram.ebnfRule rs⟩) e.1) ∧
      w = l.flatMap (·.2) ∧ ∀ e ∈ l, T (.items (Gram.ebnfRule rs)) e.1 e.2 := by
  induction h with
  | none => exact ⟨[], rfl, rfl, by simp⟩
  | @more k rs' cs fs v w h hf ih _ =>
    cases hp
    obtain ⟨l, rfl, rfl, h3⟩ := ih rfl
    refine ⟨l ++ [(fs, w)], ?_, by simp, ?_⟩
    · rw [List.map_append]
      rfl
    · intro e he
      rcases List.mem_append.1 he with he | he
      · exact h3 e he
      · rw [List.mem_singleton.1 he]
        exact hf
  | _ => cases hp

theorem typed_list {rs : List (List Item)} {n : Node} {w : List Tok} (h : T (.items [.ebnf .repeatZero rs]) [n] w) :
    ∃ l : List (List Node × List Tok), n = .list (.ebnf .repeatZero rs)
        (l.map fun e => .object (.content (.ebnf .repeatZero rs)) (ex.num.ruleId ⟨.ebnf .repeatZero rs, .ebnf .repeatZero rs :: Gram.ebnfRule rs⟩) e.1) ∧
      w = l.flatMap (·.2) ∧ ∀ e ∈ l, T (.items (Gram.ebnfRule rs)) e.1 e.2 := by
  cases h with
  | object hl _ _ _ => cases hl
  | @list k _ cs v _ ns w hk hc hne h =>
    cases h
    obtain ⟨l, rfl, rfl, h3⟩ := typed_contents hc rfl
    exact ⟨l, rfl, by simp, h3⟩

/-! ### The layout of the output

Stated on the tokens, from left to right, without the tree. -/

/-- How far in a value stands in these open brackets, the inner ones first: two columns for each bracket and four for each brace (`true`), two for its pairs and two for their values. -/
def width : List Bool → Nat
  | [] => 0
  | true :: st => width st + 4
  | false :: st => width st + 2

/-- A new line that is indented with spaces. -/
def spaced (n : Nat) : Text := 10 :: List.replicate n 32

@[simp] theorem spaced_eq (n : Nat) : spaced n = line n := rfl

/-- What is written before a token: a new line for the first thing in a brace or bracket and for the closing brace, but not in `{}` and `[]`. -/
def before (st : List Bool) (fresh : Bool) (s : Int) : Text :=
  if s = 7 then (if fresh then [] else spaced (width st.tail)) else if s = 11 then [] else if fresh then spaced (width st.tail + 2) else []

/-- What is written after a token: a new line after a comma, a space after a colon. -/
def after (st : List Bool) (s : Int) : Text := if s = 8 then spaced (width st.tail + 2) else if s = 9 then [32] else []

/-- The brackets that are open after a token. -/
def inside (st : List Bool) (s : Int) : List Bool := if s = 6 then true :: st else if s = 10 then false :: st else if s = 7 ∨ s = 11 then st.tail else st

/-- The layout of tokens. `fresh` is set after an opening brace or bracket. -/
def lay : List Bool → Bool → List (Int × Text) → Text
  | _, _, [] => []
  | st, fresh, (s, w) :: ts => before st fresh s ++ w ++ after st s ++ lay (inside st s) (decide (s = 6 ∨ s = 10)) ts

/-! ### The tokens of the output -/

section
variable {content : Nat → Text}

/-- The tokens with their contents. -/
def tokens (content : Nat → Text) (w : List Tok) : List (Int × Text) := w.map fun k => (k.sym, content k.text)

/-- The lexemes have contents that their symbols match. -/
def Lexed (content : Nat → Text) (w : List Tok) : Prop := ∀ k ∈ w, Matches (content k.text) k.sym

/-- The text has these tokens, whatever follows it in the output. -/
def Says (content : Nat → Text) (text : Text) (w : List Tok) : Prop :=
  ∀ rest ts, Follow rest → Scans rest ts → ∃ ts', Scans (text ++ rest) ts' ∧ kept ts' = tokens content w ++ kept ts

/-- Something other than whitespace comes first. -/
def Visible (text : Text) : Prop := ∃ c v, text = c :: v ∧ ¬ Space c

/-- The text is the layout of these tokens, wherever it stands as `C` says. -/
def Lays (content : Nat → Text) (C : List Bool → Nat → Prop) (ind : Nat) (text : Text) (w : List Tok) : Prop :=
  ∀ st fresh rest, C st ind → lay st fresh (tokens content w ++ rest) = (if fresh then line (width st.tail + 2) else []) ++ text ++ lay st false rest

/-- Where values stand. -/
def ValueAt (st : List Bool) (ind : Nat) : Prop := ind = width st

/-- Where pairs stand. -/
def PairAt (st : List Bool) (ind : Nat) : Prop := st.head? = some true ∧ ind = width st.tail + 2

/-- With enough fuel a text is written that has these tokens in their layout. -/
def Prints (content : Nat → Text) (C : List Bool → Nat → Prop) (print : Nat → Nat → Node → M Text) (n : Node) (w : List Tok) : Prop :=
  ∀ ind, ∃ fuel text, (∀ f ≥ fuel, print f ind n = .ok text) ∧ Visible text ∧ Says content text w ∧ Lays content C ind text w

theorem Visible.head {t r : Text} (h : Visible t) : ∀ c ∈ (t ++ r).head?, ¬ Space c := by
  obtain ⟨c, v, rfl, h⟩ := h
  simpa using h

theorem scans_token {w rest : Text} {s : Int} {ts : List (Int × Text)} (hm : Matches w s) (h3 : s ≠ 5) (hf : s = 4 → Follow rest) (h : Scans rest ts) :
    ∃ ts', Scans (w ++ rest) ts' ∧ kept ts' = (s, w) :: kept ts :=
  ⟨_, .cons hm (longest_token hm h3 hf) h, by simp [kept, h3]⟩

theorem scans_space {w rest : Text} {ts : List (Int × Text)} (h1 : w ≠ []) (hw : ∀ c ∈ w, Space c) (hr : ∀ c ∈ rest.head?, ¬ Space c) (h : Scans rest ts) :
    ∃ ts', Scans (w ++ rest) ts' ∧ kept ts' = kept ts :=
  ⟨_, .cons (s := 5) (by simp [Matches, h1]; exact hw) (longest_space h1 hw hr) h, by simp [kept]⟩

theorem line_space (n : Nat) : ∀ c ∈ line n, Space c := by
  intro c hc
  rcases List.mem_cons.1 hc with rfl | hc
  · simp [Space]
  · rw [List.eq_of_mem_replicate hc]
    simp [Space]

theorem scans_line {n : Nat} {rest : Text} {ts : List (Int × Text)} (hr : ∀ c ∈ rest.head?, ¬ Space c) (h : Scans rest ts) :
    ∃ ts', Scans (line n ++ rest) ts' ∧ kept ts' = kept ts :=
  scans_space (by simp [line]) (line_space n) hr h

/-- The contents of lexemes with one text only. -/
theorem lexed_word {k : Tok} {s : Int} {v : Text} (h : Matches (content k.text) k.sym) (hs : k.sym = s) (hv : Matches v s) (h3 : s ≠ 5) (h4 : s ≠ 3) (h5 : s ≠ 4) :
    content k.text = v := by
  rw [hs] at h
  unfold Matches at h hv
  rcases h with h | h | h | h | h | h | h | h | h | h | h | h <;>
    rcases hv with g | g | g | g | g | g | g | g | g | g | g | g <;> first | (exfalso; omega) | (rw [h.2, g.2])

theorem Follow.head {rest : Text} (h : Follow rest) : ∀ d ∈ rest.head?, ¬ Digit d := by
  intro d hd
  cases rest with
  | nil => cases hd
  | cons c r =>
    cases hd
    have := h.1
    unfold Digit
    omega

theorem follow_bracket {rest : Text} (h : Follow rest) : Follow (93 :: rest) := ⟨by simp, h.head⟩

theorem follow_brace {rest : Text} (h : Follow rest) : Follow (125 :: rest) := ⟨by simp, h.head⟩

theorem follow_comma (n : Nat) (r : Text) : Follow ([44] ++ line n ++ r) := ⟨by simp, by simp [Digit, line]⟩

theorem follow_line (n : Nat) {r : Text} (h : ∀ d ∈ r.head?, ¬ Digit d) : Follow (line n ++ r) := by
  refine ⟨by simp, ?_⟩
  cases n with
  | zero => simpa [indent] using h
  | succ n => simp [indent, List.replicate_succ, Digit]

theorem Lexed.left {v w : List Tok} (h : Lexed content (v ++ w)) : Lexed content v := fun k hk => h k (List.mem_append_left _ hk)

theorem Lexed.right {v w : List Tok} (h : Lexed content (v ++ w)) : Lexed content w := fun k hk => h k (List.mem_append_right _ hk)

theorem tokens_append (v w : List Tok) : tokens content (v ++ w) = tokens content v ++ tokens content w := List.map_append

/-! ### Lists -/

/-- The rest of a list: commas and newlines in front of its elements. -/
theorem rest_says {texts : List (Text × List Tok × Tok)} {ind : Nat} (h : ∀ e ∈ texts, Visible e.1 ∧ Says content e.1 e.2.1 ∧ content e.2.2.text = [44] ∧ e.2.2.sym = 8) :
    (∀ rest, Follow rest → Follow (texts.flatMap (fun e => [44] ++ line ind ++ e.1) ++ rest)) ∧
      Says content (texts.flatMap fun e => [44] ++ line ind ++ e.1) (texts.flatMap fun e => e.2.2 :: e.2.1) := by
  induction texts with
  | nil => exact ⟨fun rest h => h, fun rest ts _ hs => ⟨ts, hs, rfl⟩⟩
  | cons e texts ih =>
    obtain ⟨i1, i2⟩ := ih fun e he => h e (List.mem_cons_of_mem _ he)
    obtain ⟨h1, h2, h3, h4⟩ := h e (List.mem_cons_self ..)
    have hfol : ∀ rest, Follow ((e :: texts).flatMap (fun e => [44] ++ line ind ++ e.1) ++ rest) := fun rest => by
      have := follow_comma ind (e.1 ++ (texts.flatMap (fun e => [44] ++ line ind ++ e.1) ++ rest))
      simpa using this
    refine ⟨fun rest _ => hfol rest, fun rest ts hf hs => ?_⟩
    obtain ⟨t1, s1, k1⟩ := i2 rest ts hf hs
    obtain ⟨t2, s2, k2⟩ := h2 _ _ (i1 rest hf) s1
    obtain ⟨t3, s3, k3⟩ := scans_line (n := ind) h1.head s2
    obtain ⟨t4, s4, k4⟩ := scans_token (w := [44]) (s := 8) (by simp [Matches]) (by decide) (fun h => nomatch h) s3
    refine ⟨t4, by simpa using s4, ?_⟩
    rw [k4, k3, k2, k1]
    simp [tokens, h3, h4]

/-- The layout of the rest of a list. -/
theorem rest_lays {C : List Bool → Nat → Prop} {texts : List (Text × List Tok × Tok)} {ind : Nat} (h : ∀ e ∈ texts, Lays content C ind e.1 e.2.1 ∧ content e.2.2.text = [44] ∧ e.2.2.sym = 8)
    (st : List Bool) (rest : List (Int × Text)) (hC : C st ind) (hi : ind = width st.tail + 2) :
    lay st false (tokens content (texts.flatMap fun e => e.2.2 :: e.2.1) ++ rest) = (texts.flatMap fun e => [44] ++ line ind ++ e.1) ++ lay st false rest := by
  induction texts with
  | nil => rfl
  | cons e texts ih =>
    obtain ⟨h1, h2, h3⟩ := h e (List.mem_cons_self ..)
    have := h1 st false (tokens content (texts.flatMap fun e => e.2.2 :: e.2.1) ++ rest) hC
    rw [ih fun e he => h e (List.mem_cons_of_mem _ he)] at this
    simp only [List.flatMap_cons, List.cons_append, tokens, List.map_cons, List.map_append, h2, h3, lay, before, after, inside] at this ⊢
    simp [hi] at this ⊢
    exact this

/-- Enough fuel for all of the elements. -/
theorem common_fuel {α : Type} {l : List α} {P : α → Nat → Prop} (h : ∀ e ∈ l, ∃ n, ∀ f ≥ n, P e f) : ∃ n, ∀ f ≥ n, ∀ e ∈ l, P e f := by
  induction l with
  | nil => exact ⟨0, by simp⟩
  | cons e l ih =>
    obtain ⟨n, hn⟩ := ih fun e he => h e (List.mem_cons_of_mem _ he)
    obtain ⟨m, hm⟩ := h e (List.mem_cons_self ..)
    refine ⟨max n m, fun f hf x hx => ?_⟩
    rcases List.mem_cons.1 hx with rfl | hx
    · exact hm f (by omega)
    · exact hn f (by omega) x hx

/-- What the loops over the rest of a list write. -/
theorem loop_prints {C : List Bool → Nat → Prop} {print : Nat → Nat → Node → M Text} {loop : Nat → Nat → List Node → M Text} {y : Item} {node : List Node → Node}
    (hnil : ∀ f ind, loop (f + 1) ind [] = .ok [])
    (hcons : ∀ f ind c cs, loop (f + 1) ind (c :: cs) = (do
      let v ← orUb (← member c y)
      let a ← print f ind v
      let b ← loop f ind cs
      return [44] ++ line ind ++ a ++ b))
    (hmem : ∀ k n, member (node [k, n]) y = .ok (some n))
    {l : List (List Node × List Tok)} (hl : ∀ e ∈ l, ∃ k n w, e = ([.term (.item (.terminal 8)) k, n], k :: w) ∧ k.sym = 8 ∧ content k.text = [44] ∧ Prints content C print n w) (ind : Nat) :
    ∃ fuel text, (∀ f ≥ fuel, loop f ind (l.map fun e => node e.1) = .ok text) ∧ (∀ rest, Follow rest → Follow (text ++ rest)) ∧ Says content text (l.flatMap (·.2)) ∧
      ∀ st rest, C st ind → ind = width st.tail + 2 → lay st false (tokens content (l.flatMap (·.2)) ++ rest) = text ++ lay st false rest := by
  suffices h : ∃ (fuel : Nat) (texts : List (Text × List Tok × Tok)), (∀ f ≥ fuel, loop f ind (l.map fun e => node e.1) = .ok (texts.flatMap fun e => [44] ++ line ind ++ e.1)) ∧
      (∀ e ∈ texts, Visible e.1 ∧ Says content e.1 e.2.1 ∧ content e.2.2.text = [44] ∧ e.2.2.sym = 8) ∧ (∀ e ∈ texts, Lays content C ind e.1 e.2.1) ∧
      l.flatMap (·.2) = texts.flatMap fun e => e.2.2 :: e.2.1 by
    obtain ⟨fuel, texts, h1, h2, h6, h3⟩ := h
    obtain ⟨h4, h5⟩ := rest_says (ind := ind) h2
    exact ⟨fuel, _, h1, h4, h3 ▸ h5, h3 ▸ rest_lays (fun e he => ⟨h6 e he, (h2 e he).2.2⟩)⟩
  induction l with
  | nil =>
    refine ⟨1, [], fun f hf => ?_, by simp, by simp, rfl⟩
    obtain ⟨f, rfl⟩ : ∃ g, f = g + 1 := ⟨f - 1, by omega⟩
    exact hnil f ind
  | cons e l ih =>
    obtain ⟨fuel, texts, h1, h2, h6, h3⟩ := ih fun e he => hl e (List.mem_cons_of_mem _ he)
    obtain ⟨k, n, w, rfl, g1, g2, g3⟩ := hl e (List.mem_cons_self ..)
    obtain ⟨fuel', text, p1, p2, p3, p4⟩ := g3 ind
    refine ⟨max fuel fuel' + 1, (text, w, k) :: texts, fun f hf => ?_, ?_, ?_, by simp [h3]⟩
    · obtain ⟨f, rfl⟩ : ∃ g, f = g + 1 := ⟨f - 1, by omega⟩
      rw [List.map_cons, hcons, hmem]
      simp only [bind, Except.bind, orUb, pure, Except.pure]
      rw [p1 f (by omega), h1 f (by omega)]
      simp
    · intro e he
      rcases List.mem_cons.1 he with rfl | he
      · exact ⟨p2, p3, g2, g1⟩
      · exact h2 e he
    · intro e he
      rcases List.mem_cons.1 he with rfl | he
      · exact p4
      · exact h6 e he

/-! ### Pairs, objects, arrays and values -/

theorem member_pair (fs : List Node) (y : Item) : member (.object (.item pair) (ex.num.ruleId ⟨pair, [.terminal 3, .terminal 9, value]⟩) fs) y =
    .ok ((([.terminal 3, .terminal 9, value].zip fs).find? fun p => p.1 == y).map (·.2)) :=
  member_of (by decide +kernel) (by decide +kernel) _ fs y

/-- `name : value`. -/
theorem pair_prints {n : Node} {w : List Tok} (h : T (.items [pair]) [n] w) (hw : Lexed content w)
    (hv : ∀ n' w', T (.items [value]) [n'] w' → w'.length < w.length → Lexed content w' → Prints content ValueAt (printValue content) n' w') :
    Prints content PairAt (printPair content) n w := by
  obtain ⟨r, fs, hr, rfl, h'⟩ := typed_object (by simp [pair]) rfl rfl h
  clear h
  rename' h' => h
  have hr : r ∈ pairRules := hr
  rw [pairRules, List.mem_singleton] at hr
  subst hr
  obtain ⟨n1, v1, ns, w', rfl, rfl, t1, h⟩ := typed_cons rfl h
  obtain ⟨n2, v2, ns, w', rfl, rfl, t2, h⟩ := typed_cons rfl h
  obtain ⟨n3, v3, ns, w', rfl, rfl, t3, h⟩ := typed_cons rfl h
  obtain ⟨rfl, rfl⟩ := typed_nil h
  obtain ⟨k1, e1, rfl, rfl⟩ := typed_terminal t1
  obtain ⟨k2, e2, rfl, rfl⟩ := typed_terminal t2
  rw [List.append_nil] at hw hv ⊢
  have m1 := hw.left k1 (List.mem_cons_self ..)
  have m2 := hw.right.left k2 (List.mem_cons_self ..)
  have c2 : content k2.text = [58] := lexed_word m2 e2 (by simp [Matches]) (by decide) (by decide) (by decide)
  intro ind
  obtain ⟨fuel, text, p1, p2, p3, p4⟩ := hv n3 v3 t3 (by simp; omega) hw.right.right (ind + 2)
  refine ⟨fuel + 1, content k1.text ++ [58, 32] ++ text, fun f hf => ?_, ?_, fun rest ts hf hs => ?_, fun st fresh rest hC => ?_⟩
  · obtain ⟨f, rfl⟩ : ∃ g, f = g + 1 := ⟨f - 1, by omega⟩
    have a1 : member (.object (.item pair) (ex.num.ruleId ⟨pair, [.terminal 3, .terminal 9, value]⟩) [.term (.item (.terminal 3)) k1, .term (.item (.terminal 9)) k2, n3]) (.terminal 3) =
        .ok (some (.term (.item (.terminal 3)) k1)) := by rw [member_pair]; rfl
    have a2 : member (.object (.item pair) (ex.num.ruleId ⟨pair, [.terminal 3, .terminal 9, value]⟩) [.term (.item (.terminal 3)) k1, .term (.item (.terminal 9)) k2, n3]) value =
        .ok (some n3) := by rw [member_pair]; rfl
    rw [printPair, a1, a2]
    simp only [bind, Except.bind, orUb, pure, Except.pure, contentOf]
    rw [p1 f (by omega)]
  · obtain ⟨c, v, hc, hst⟩ := matches_head m1
    refine ⟨c, v ++ [58, 32] ++ text, by rw [hc]; simp, ?_⟩
    unfold Starts at hst
    unfold Space
    omega
  · obtain ⟨t1, s1, q1⟩ := p3 rest ts hf hs
    obtain ⟨t2, s2, q2⟩ := scans_space (w := [32]) (by simp) (by simp [Space]) p2.head s1
    obtain ⟨t3, s3, q3⟩ := scans_token (w := [58]) (s := 9) (by simp [Matches]) (by decide) (fun h => nomatch h) s2
    obtain ⟨t4, s4, q4⟩ := scans_token m1 (by omega) (fun h => by omega) s3
    refine ⟨t4, by simpa using s4, ?_⟩
    rw [q4, q3, q2, q1]
    simp [tokens, c2, e2]
  · obtain ⟨hC, hi⟩ := hC
    obtain ⟨st, rfl⟩ : ∃ st', st = true :: st' := by
      cases st with
      | nil => cases hC
      | cons b st => cases hC; exact ⟨st, rfl⟩
    have := p4 (true :: st) false rest (by rw [hi]; rfl)
    simp only [tokens, List.map_cons, List.cons_append, List.nil_append, lay, e1, e2, c2, before, after, inside] at this ⊢
    simp at this ⊢
    rw [this]

/-- What stands between braces or brackets. -/
theorem brackets_says {text : Text} {o c : Int} {so sc : Int} {v : List Tok} {ko kc : Tok} (mo : Matches [o] so) (mc : Matches [c] sc)
    (ho : so ≠ 5 ∧ so ≠ 4) (hc : sc ≠ 5 ∧ sc ≠ 4) (eo : (ko.sym, content ko.text) = (so, [o])) (ec : (kc.sym, content kc.text) = (sc, [c]))
    (h : ∀ rest ts, Follow rest → Scans ([c] ++ rest) ts → ∃ ts', Scans (text ++ ([c] ++ rest)) ts' ∧ kept ts' = tokens content v ++ kept ts) :
    Says content ([o] ++ text ++ [c]) (ko :: (v ++ [kc])) := by
  intro rest ts hf hs
  obtain ⟨t1, s1, q1⟩ := scans_token mc hc.1 (fun h => absurd h hc.2) hs
  obtain ⟨t2, s2, q2⟩ := h rest t1 hf s1
  obtain ⟨t3, s3, q3⟩ := scans_token mo ho.1 (fun h => absurd h ho.2) s2
  refine ⟨t3, by simpa using s3, ?_⟩
  rw [q3, q2, q1]
  simp only [tokens, List.map_cons, List.map_append, List.map_nil, eo, ec, List.cons_append, List.append_assoc, List.nil_append]

theorem object_prints {n : Node} {w : List Tok} (h : T (.items [object]) [n] w) (hw : Lexed content w)
    (hv : ∀ n' w', T (.items [value]) [n'] w' → w'.length < w.length → Lexed content w' → Prints content ValueAt (printValue content) n' w') :
    Prints content ValueAt (printObject content) n w := by
  obtain ⟨r, fs, hr, rfl, h'⟩ := typed_object (by simp [object]) rfl rfl h
  clear h
  rename' h' => h
  have hr : r ∈ objectRules := hr
  have hmem := fun y => member_of (x := object) (by decide +kernel) (show r ∈ closRules gram object from hr) (.item object) fs y
  rw [objectRules, List.mem_cons, List.mem_singleton] at hr
  rcases hr with rfl | rfl
  · obtain ⟨n1, v1, ns, w', rfl, rfl, t1, h⟩ := typed_cons rfl h
    obtain ⟨n2, v2, ns, w', rfl, rfl, t2, h⟩ := typed_cons rfl h
    obtain ⟨rfl, rfl⟩ := typed_nil h
    obtain ⟨k1, e1, rfl, rfl⟩ := typed_terminal t1
    obtain ⟨k2, e2, rfl, rfl⟩ := typed_terminal t2
    have c1 : content k1.text = [123] := lexed_word (hw.left k1 (List.mem_cons_self ..)) e1 (by simp [Matches]) (by decide) (by decide) (by decide)
    have c2 : content k2.text = [125] := lexed_word (hw.right.left k2 (List.mem_cons_self ..)) e2 (by simp [Matches]) (by decide) (by decide) (by decide)
    intro ind
    refine ⟨1, [123] ++ [125], fun f hf => ?_, ⟨123, [125], rfl, by simp [Space]⟩, ?_, fun st fresh rest hC => ?_⟩
    · obtain ⟨f, rfl⟩ : ∃ g, f = g + 1 := ⟨f - 1, by omega⟩
      rw [printObject, (hmem pair).trans rfl]
      rfl
    · have := brackets_says (text := []) (v := []) (ko := k1) (kc := k2) (o := 123) (c := 125) (so := 6) (sc := 7) (content := content) (by simp [Matches]) (by simp [Matches]) (by decide) (by decide)
        (by rw [e1, c1]) (by rw [e2, c2]) (fun rest ts _ hs => ⟨ts, hs, rfl⟩)
      simpa using this
    · simp [tokens, lay, e1, e2, c1, c2, before, after, inside]
  · obtain ⟨n1, v1, ns, w', rfl, rfl, t1, h⟩ := typed_cons rfl h
    obtain ⟨n2, v2, ns, w', rfl, rfl, t2, h⟩ := typed_cons rfl h
    obtain ⟨n3, v3, ns, w', rfl, rfl, t3, h⟩ := typed_cons rfl h
    obtain ⟨n4, v4, ns, w', rfl, rfl, t4, h⟩ := typed_cons rfl h
    obtain ⟨rfl, rfl⟩ := typed_nil h
    obtain ⟨k1, e1, rfl, rfl⟩ := typed_terminal t1
    obtain ⟨k4, e4, rfl, rfl⟩ := typed_terminal t4
    obtain ⟨l, rfl, rfl, hl⟩ := typed_list t3
    have c1 : content k1.text = [123] := lexed_word (hw.left k1 (List.mem_cons_self ..)) e1 (by simp [Matches]) (by decide) (by decide) (by decide)
    have c4 : content k4.text = [125] := lexed_word (hw.right.right.right.left k4 (List.mem_cons_self ..)) e4 (by simp [Matches]) (by decide) (by decide) (by decide)
    have hw2 := hw.right.left
    have hw3 := hw.right.right.left
    have p2 : Prints content PairAt (printPair content) n2 v2 := pair_prints t2 hw2 fun n' w' h1 h2 h3 => hv n' w' h1 (by simp; omega) h3
    have hloop : ∀ e ∈ l, ∃ k n w, e = ([.term (.item (.terminal 8)) k, n], k :: w) ∧ k.sym = 8 ∧ content k.text = [44] ∧ Prints content PairAt (printPair content) n w := by
      intro e he
      obtain ⟨fs, u⟩ := e
      have hu : Lexed content u := fun k hk => hw3 k (List.mem_flatMap.2 ⟨_, he, hk⟩)
      have hlen : u.length ≤ (l.flatMap (·.2)).length := (List.sublist_flatten_of_mem (List.mem_map_of_mem (f := (·.2)) he)).length_le
      obtain ⟨m1, u1, ns, u', rfl, rfl, b1, h⟩ := typed_cons rfl (hl _ he)
      obtain ⟨m2, u2, ns, u', rfl, rfl, b2, h⟩ := typed_cons rfl h
      obtain ⟨rfl, rfl⟩ := typed_nil h
      obtain ⟨k, e1, rfl, rfl⟩ := typed_terminal b1
      refine ⟨k, m2, u2, by simp, e1, lexed_word (hu.left k (List.mem_cons_self ..)) e1 (by simp [Matches]) (by decide) (by decide) (by decide), ?_⟩
      refine pair_prints b2 hu.right.left fun n' w' h1 h2 h3 => hv n' w' h1 ?_ h3
      simp at hlen ⊢
      omega
    intro ind
    obtain ⟨f2, t2, q1, q2, q3, q4⟩ := p2 (ind + 2)
    obtain ⟨f3, t3, r1, r2, r3, r4⟩ := loop_prints (content := content) (print := printPair content) (loop := printPairs content) (y := pair)
      (node := fun fs => .object (.content pairs) (ex.num.ruleId ⟨pairs, [pairs, .terminal 8, pair]⟩) fs) (fun f ind => by rw [printPairs]) (fun f ind c cs => by rw [printPairs])
      (fun k n => by rw [member_of (by decide +kernel) (by decide +kernel)]; rfl) hloop (ind + 2)
    refine ⟨max f2 f3 + 1, [123] ++ (line (ind + 2) ++ t2 ++ t3 ++ line ind) ++ [125], fun f hf => ?_, ⟨123, _, rfl, by simp [Space]⟩, ?_, fun st fresh rest hC => ?_⟩
    · obtain ⟨f, rfl⟩ : ∃ g, f = g + 1 := ⟨f - 1, by omega⟩
      have a1 := (hmem pair).trans (rfl : _ = Except.ok (some n2))
      have a2 := (hmem pairs).trans (rfl : _ = Except.ok (some _))
      rw [printObject, a1, a2]
      simp only [bind, Except.bind, elements, pure, Except.pure]
      rw [q1 f (by omega)]
      dsimp only
      erw [r1 f (by omega)]
    · have := brackets_says (text := line (ind + 2) ++ t2 ++ t3 ++ line ind) (v := v2 ++ l.flatMap (·.2)) (ko := k1) (kc := k4) (o := 123) (c := 125) (so := 6) (sc := 7) (content := content)
        (by simp [Matches]) (by simp [Matches]) (by decide) (by decide) (by rw [e1, c1]) (by rw [e4, c4]) (fun rest ts hf hs => ?_)
      · simpa using this
      · obtain ⟨u1, s1, x1⟩ := scans_line (n := ind) (by simp [Space]) hs
        have hfl : Follow (line ind ++ ([125] ++ rest)) := follow_line ind (by simp [Digit])
        obtain ⟨u2, s2, x2⟩ := r3 _ _ hfl s1
        obtain ⟨u3, s3, x3⟩ := q3 _ _ (r2 _ hfl) s2
        obtain ⟨u4, s4, x4⟩ := scans_line (n := ind + 2) q2.head s3
        refine ⟨u4, by simpa using s4, ?_⟩
        rw [x4, x3, x2, x1, tokens_append, List.append_assoc]
    · have hC : ind = width st := hC
      have a1 := r4 (true :: st) (tokens content [k4] ++ rest) (⟨rfl, by rw [hC]; rfl⟩) (by rw [hC]; rfl)
      have a2 := q4 (true :: st) true (tokens content (l.flatMap (·.2)) ++ (tokens content [k4] ++ rest)) (⟨rfl, by rw [hC]; rfl⟩)
      rw [a1] at a2
      simp only [tokens, List.map_cons, List.map_append, List.cons_append, List.nil_append, List.append_assoc, lay, e1, e4, c1, c4, before, after, inside] at a2 ⊢
      simp [hC] at a2 ⊢
      rw [a2]

theorem array_prints {n : Node} {w : List Tok} (h : T (.items [array]) [n] w) (hw : Lexed content w)
    (hv : ∀ n' w', T (.items [value]) [n'] w' → w'.length < w.length → Lexed content w' → Prints content ValueAt (printValue content) n' w') :
    Prints content ValueAt (printArray content) n w := by
  obtain ⟨r, fs, hr, rfl, h'⟩ := typed_object (by simp [array]) rfl rfl h
  clear h
  rename' h' => h
  have hr : r ∈ arrayRules := hr
  have hmem := fun y => member_of (x := array) (by decide +kernel) (show r ∈ closRules gram array from hr) (.item array) fs y
  rw [arrayRules, List.mem_cons, List.mem_singleton] at hr
  rcases hr with rfl | rfl
  · obtain ⟨n1, v1, ns, w', rfl, rfl, t1, h⟩ := typed_cons rfl h
    obtain ⟨n2, v2, ns, w', rfl, rfl, t2, h⟩ := typed_cons rfl h
    obtain ⟨rfl, rfl⟩ := typed_nil h
    obtain ⟨k1, e1, rfl, rfl⟩ := typed_terminal t1
    obtain ⟨k2, e2, rfl, rfl⟩ := typed_terminal t2
    have c1 : content k1.text = [91] := lexed_word (hw.left k1 (List.mem_cons_self ..)) e1 (by simp [Matches]) (by decide) (by decide) (by decide)
    have c2 : content k2.text = [93] := lexed_word (hw.right.left k2 (List.mem_cons_self ..)) e2 (by simp [Matches]) (by decide) (by decide) (by decide)
    intro ind
    refine ⟨1, [91] ++ [93], fun f hf => ?_, ⟨91, [93], rfl, by simp [Space]⟩, ?_, fun st fresh rest hC => ?_⟩
    · obtain ⟨f, rfl⟩ : ∃ g, f = g + 1 := ⟨f - 1, by omega⟩
      rw [printArray, (hmem value).trans rfl]
      rfl
    · have := brackets_says (text := []) (v := []) (ko := k1) (kc := k2) (o := 91) (c := 93) (so := 10) (sc := 11) (content := content) (by simp [Matches]) (by simp [Matches]) (by decide) (by decide)
        (by rw [e1, c1]) (by rw [e2, c2]) (fun rest ts _ hs => ⟨ts, hs, rfl⟩)
      simpa using this
    · simp [tokens, lay, e1, e2, c1, c2, before, after, inside]
  · obtain ⟨n1, v1, ns, w', rfl, rfl, t1, h⟩ := typed_cons rfl h
    obtain ⟨n2, v2, ns, w', rfl, rfl, t2, h⟩ := typed_cons rfl h
    obtain ⟨n3, v3, ns, w', rfl, rfl, t3, h⟩ := typed_cons rfl h
    obtain ⟨n4, v4, ns, w', rfl, rfl, t4, h⟩ := typed_cons rfl h
    obtain ⟨rfl, rfl⟩ := typed_nil h
    obtain ⟨k1, e1, rfl, rfl⟩ := typed_terminal t1
    obtain ⟨k4, e4, rfl, rfl⟩ := typed_terminal t4
    obtain ⟨l, rfl, rfl, hl⟩ := typed_list t3
    have c1 : content k1.text = [91] := lexed_word (hw.left k1 (List.mem_cons_self ..)) e1 (by simp [Matches]) (by decide) (by decide) (by decide)
    have c4 : content k4.text = [93] := lexed_word (hw.right.right.right.left k4 (List.mem_cons_self ..)) e4 (by simp [Matches]) (by decide) (by decide) (by decide)
    have hw2 := hw.right.left
    have hw3 := hw.right.right.left
    have p2 : Prints content ValueAt (printValue content) n2 v2 := hv n2 v2 t2 (by simp; omega) hw2
    have hloop : ∀ e ∈ l, ∃ k n w, e = ([.term (.item (.terminal 8)) k, n], k :: w) ∧ k.sym = 8 ∧ content k.text = [44] ∧ Prints content ValueAt (printValue content) n w := by
      intro e he
      obtain ⟨fs, u⟩ := e
      have hu : Lexed content u := fun k hk => hw3 k (List.mem_flatMap.2 ⟨_, he, hk⟩)
      have hlen : u.length ≤ (l.flatMap (·.2)).length := (List.sublist_flatten_of_mem (List.mem_map_of_mem (f := (·.2)) he)).length_le
      obtain ⟨m1, u1, ns, u', rfl, rfl, b1, h⟩ := typed_cons rfl (hl _ he)
      obtain ⟨m2, u2, ns, u', rfl, rfl, b2, h⟩ := typed_cons rfl h
      obtain ⟨rfl, rfl⟩ := typed_nil h
      obtain ⟨k, e1, rfl, rfl⟩ := typed_terminal b1
      refine ⟨k, m2, u2, by simp, e1, lexed_word (hu.left k (List.mem_cons_self ..)) e1 (by simp [Matches]) (by decide) (by decide) (by decide), ?_⟩
      refine hv m2 u2 b2 ?_ hu.right.left
      simp at hlen ⊢
      omega
    intro ind
    obtain ⟨f2, t2, q1, q2, q3, q4⟩ := p2 (ind + 2)
    obtain ⟨f3, t3, r1, r2, r3, r4⟩ := loop_prints (content := content) (print := printValue content) (loop := printValues content) (y := value)
      (node := fun fs => .object (.content values) (ex.num.ruleId ⟨values, [values, .terminal 8, value]⟩) fs) (fun f ind => by rw [printValues]) (fun f ind c cs => by rw [printValues])
      (fun k n => by rw [member_of (by decide +kernel) (by decide +kernel)]; rfl) hloop (ind + 2)
    refine ⟨max f2 f3 + 1, [91] ++ (line (ind + 2) ++ t2 ++ t3) ++ [93], fun f hf => ?_, ⟨91, _, rfl, by simp [Space]⟩, ?_, fun st fresh rest hC => ?_⟩
    · obtain ⟨f, rfl⟩ : ∃ g, f = g + 1 := ⟨f - 1, by omega⟩
      have a1 := (hmem value).trans (rfl : _ = Except.ok (some n2))
      have a2 := (hmem values).trans (rfl : _ = Except.ok (some _))
      rw [printArray, a1, a2]
      simp only [bind, Except.bind, elements, pure, Except.pure]
      rw [q1 f (by omega)]
      dsimp only
      erw [r1 f (by omega)]
    · have := brackets_says (text := line (ind + 2) ++ t2 ++ t3) (v := v2 ++ l.flatMap (·.2)) (ko := k1) (kc := k4) (o := 91) (c := 93) (so := 10) (sc := 11) (content := content)
        (by simp [Matches]) (by simp [Matches]) (by decide) (by decide) (by rw [e1, c1]) (by rw [e4, c4]) (fun rest ts hf hs => ?_)
      · simpa using this
      · have hfl : Follow ([93] ++ rest) := follow_bracket hf
        obtain ⟨u2, s2, x2⟩ := r3 _ _ hfl hs
        obtain ⟨u3, s3, x3⟩ := q3 _ _ (r2 _ hfl) s2
        obtain ⟨u4, s4, x4⟩ := scans_line (n := ind + 2) q2.head s3
        refine ⟨u4, by simpa using s4, ?_⟩
        rw [x4, x3, x2, tokens_append, List.append_assoc]
    · have hC : ind = width st := hC
      have a1 := r4 (false :: st) (tokens content [k4] ++ rest) (by unfold ValueAt; rw [hC]; rfl) (by rw [hC]; rfl)
      have a2 := q4 (false :: st) true (tokens content (l.flatMap (·.2)) ++ (tokens content [k4] ++ rest)) (by unfold ValueAt; rw [hC]; rfl)
      rw [a1] at a2
      simp only [tokens, List.map_cons, List.map_append, List.cons_append, List.nil_append, List.append_assoc, lay, e1, e4, c1, c4, before, after, inside] at a2 ⊢
      simp [hC] at a2 ⊢
      rw [a2]

/-- A value is one token or an object or an array. -/
theorem value_prints {n : Node} {w : List Tok} (h : T (.items [value]) [n] w) (hw : Lexed content w) : Prints content ValueAt (printValue content) n w := by
  induction hN : w.length using Nat.strong_induction_on generalizing n w with
  | _ N ih =>
  subst hN
  have hv : ∀ n' w', T (.items [value]) [n'] w' → w'.length < w.length → Lexed content w' → Prints content ValueAt (printValue content) n' w' := fun n' w' h1 h2 h3 => ih _ h2 h1 h3 rfl
  obtain ⟨r, fs, hr, rfl, h'⟩ := typed_object (by simp [value]) rfl rfl h
  clear h
  have hmem := fun y => member_of (x := value) (by decide +kernel) hr (.item value) fs y
  have hr : r ∈ valueRules := hr
  -- a value of one token
  have single : ∀ {t : Int} {word : Tok → Text} {n1 : Node}, T (.items [.terminal t]) [n1] w → fs = [n1] → t ≠ 5 → (t ≠ 6 ∧ t ≠ 7 ∧ t ≠ 8 ∧ t ≠ 9 ∧ t ≠ 10 ∧ t ≠ 11) →
      (∀ k : Tok, n1 = .term (.item (.terminal t)) k → Matches (content k.text) t → word k = content k.text ∧
        ∀ f ind, printValue content (f + 1) ind (.object (.item value) (ex.num.ruleId ⟨value, r⟩) fs) = .ok (word k)) →
      Prints content ValueAt (printValue content) (.object (.item value) (ex.num.ruleId ⟨value, r⟩) fs) w := by
    intro t word n1 t1 hfs h3 hn hp
    obtain ⟨k, e, rfl, rfl⟩ := typed_terminal t1
    have hm := hw k (List.mem_cons_self ..)
    obtain ⟨p1, p2⟩ := hp k rfl (e ▸ hm)
    intro ind
    refine ⟨1, content k.text, fun f hf => ?_, ?_, fun rest ts hf hs => ?_, fun st fresh rest hC => ?_⟩
    · obtain ⟨f, rfl⟩ : ∃ g, f = g + 1 := ⟨f - 1, by omega⟩
      rw [p2, p1]
    · obtain ⟨c, v, hc, hst⟩ := matches_head hm
      refine ⟨c, v, hc, ?_⟩
      unfold Starts Digit at hst
      unfold Space
      omega
    · obtain ⟨t1, s1, q1⟩ := scans_token hm (by omega) (fun _ => hf) hs
      exact ⟨t1, s1, q1⟩
    · have hn : k.sym ≠ 6 ∧ k.sym ≠ 7 ∧ k.sym ≠ 8 ∧ k.sym ≠ 9 ∧ k.sym ≠ 10 ∧ k.sym ≠ 11 := e ▸ hn
      simp [tokens, lay, before, after, inside, hn]
  have one : ∀ {x : Item}, Ast.isGuard x = false → r = [x] → ∃ n1, fs = [n1] ∧ T (.items [x]) [n1] w := by
    rintro x hx rfl
    obtain ⟨n1, v1, ns, w', rfl, rfl, t1, h⟩ := typed_cons hx h'
    obtain ⟨rfl, rfl⟩ := typed_nil h
    rw [List.append_nil]
    exact ⟨n1, rfl, t1⟩
  simp only [valueRules, List.mem_cons, List.not_mem_nil, or_false] at hr
  rcases hr with hr | hr | hr | hr | hr | hr | hr <;> obtain ⟨n1, rfl, t1⟩ := one rfl hr <;> subst hr
  · refine single (word := fun k => content k.text) t1 rfl (by decide) (by decide) fun k hk _ => ⟨rfl, fun f ind => ?_⟩
    subst hk
    rw [printValue, (hmem (.terminal 3)).trans (rfl : _ = Except.ok (some _))]
    rfl
  · refine single (word := fun k => content k.text) t1 rfl (by decide) (by decide) fun k hk _ => ⟨rfl, fun f ind => ?_⟩
    subst hk
    rw [printValue, (hmem (.terminal 3)).trans (rfl : _ = Except.ok none), (hmem (.terminal 4)).trans (rfl : _ = Except.ok (some _))]
    rfl
  · have hp := object_prints t1 hw hv
    intro ind
    obtain ⟨fuel, text, p1, p2, p3, p4⟩ := hp ind
    refine ⟨fuel + 1, text, fun f hf => ?_, p2, p3, p4⟩
    obtain ⟨f, rfl⟩ : ∃ g, f = g + 1 := ⟨f - 1, by omega⟩
    rw [printValue, (hmem (.terminal 3)).trans (rfl : _ = Except.ok none), (hmem (.terminal 4)).trans (rfl : _ = Except.ok none), (hmem (.terminal 0)).trans (rfl : _ = Except.ok none),
      (hmem (.terminal 1)).trans (rfl : _ = Except.ok none), (hmem (.terminal 2)).trans (rfl : _ = Except.ok none), (hmem object).trans (rfl : _ = Except.ok (some _))]
    exact p1 f (by omega)
  · have hp := array_prints t1 hw hv
    intro ind
    obtain ⟨fuel, text, p1, p2, p3, p4⟩ := hp ind
    refine ⟨fuel + 1, text, fun f hf => ?_, p2, p3, p4⟩
    obtain ⟨f, rfl⟩ : ∃ g, f = g + 1 := ⟨f - 1, by omega⟩
    rw [printValue, (hmem (.terminal 3)).trans (rfl : _ = Except.ok none), (hmem (.terminal 4)).trans (rfl : _ = Except.ok none), (hmem (.terminal 0)).trans (rfl : _ = Except.ok none),
      (hmem (.terminal 1)).trans (rfl : _ = Except.ok none), (hmem (.terminal 2)).trans (rfl : _ = Except.ok none), (hmem object).trans (rfl : _ = Except.ok none),
      (hmem array).trans (rfl : _ = Except.ok (some _))]
    exact p1 f (by omega)
  · refine single (word := fun _ => [116, 114, 117, 101]) t1 rfl (by decide) (by decide) fun k hk hm => ⟨?_, fun f ind => ?_⟩
    · exact (lexed_word (k := ⟨0, k.text⟩) (s := 0) hm rfl (by simp [Matches]) (by decide) (by decide) (by decide)).symm
    · rw [printValue, (hmem (.terminal 3)).trans (rfl : _ = Except.ok none), (hmem (.terminal 4)).trans (rfl : _ = Except.ok none), (hmem (.terminal 0)).trans (rfl : _ = Except.ok (some _))]
      rfl
  · refine single (word := fun _ => [102, 97, 108, 115, 101]) t1 rfl (by decide) (by decide) fun k hk hm => ⟨?_, fun f ind => ?_⟩
    · exact (lexed_word (k := ⟨1, k.text⟩) (s := 1) hm rfl (by simp [Matches]) (by decide) (by decide) (by decide)).symm
    · rw [printValue, (hmem (.terminal 3)).trans (rfl : _ = Except.ok none), (hmem (.terminal 4)).trans (rfl : _ = Except.ok none), (hmem (.terminal 0)).trans (rfl : _ = Except.ok none),
        (hmem (.terminal 1)).trans (rfl : _ = Except.ok (some _))]
      rfl
  · refine single (word := fun _ => [110, 117, 108, 108]) t1 rfl (by decide) (by decide) fun k hk hm => ⟨?_, fun f ind => ?_⟩
    · exact (lexed_word (k := ⟨2, k.text⟩) (s := 2) hm rfl (by simp [Matches]) (by decide) (by decide) (by decide)).symm
    · rw [printValue, (hmem (.terminal 3)).trans (rfl : _ = Except.ok none), (hmem (.terminal 4)).trans (rfl : _ = Except.ok none), (hmem (.terminal 0)).trans (rfl : _ = Except.ok none),
        (hmem (.terminal 1)).trans (rfl : _ = Except.ok none), (hmem (.terminal 2)).trans (rfl : _ = Except.ok (some _))]
      rfl

/-- What is written for an object that the generated parser has made. -/
theorem object_written {n : Node} {w : List Tok} (h : T (.items [object]) [n] w) (hw : Lexed content w) : ∃ fuel text, (∀ f ≥ fuel, printObject content f 0 n = .ok text) ∧
    text = lay [] false (tokens content w) ∧ ∃ ts, Scans ([10] ++ text ++ [10]) ts ∧ kept ts = tokens content w := by
  obtain ⟨fuel, text, p1, p2, p3, p4⟩ := object_prints h hw (fun n' w' h1 _ h3 => value_prints h1 h3) 0
  refine ⟨fuel, text, p1, ?_, ?_⟩
  · have := p4 [] false [] rfl
    simpa [lay] using this.symm
  obtain ⟨t0, s0, q0⟩ := scans_space (w := [10]) (by simp) (by simp [Space]) (by simp) Scans.nil
  obtain ⟨t1, s1, q1⟩ := p3 ([10] ++ []) t0 (show Follow (10 :: []) from ⟨by simp, by simp⟩) s0
  obtain ⟨t2, s2, q2⟩ := scans_space (w := [10]) (by simp) (by simp [Space]) p2.head s1
  refine ⟨t2, by simpa using s2, ?_⟩
  rw [q2, q1, q0]
  simp [kept]

end

/-! ### FIRST sets -/

def rank : Item → Nat
  | .nonterminal 4 => 2
  | .nonterminal 1 => 1
  | .nonterminal 2 => 1
  | .nonterminal 5 => 1
  | .ebnf .. => 1
  | _ => 0

/-- The items that cannot be empty. -/
def solid : List Item := ex.items.filter fun y => match y with | .ebnf .. => false | _ => true

theorem not_nullable {x : Item} (h : gram.Nullable x) : x ∉ solid := by
  induction h with
  | @mk x r hr _ ih =>
    intro hx
    have : ∀ x ∈ solid, ∀ r ∈ gram.prods x, ∃ y ∈ r.head?, y ∈ solid := by decide +kernel
    obtain ⟨y, hy, hs⟩ := this x hx r hr
    exact ih y (List.mem_of_mem_head? hy) hs

theorem simple : gram.Simple (· ∈ ex.items) rank := by
  have hin : ∀ n, Item.nonterminal n ∈ ex.items → n = 1 ∨ n = 2 ∨ n = 5 ∨ n = 4 := by
    intro n hn
    simpa [ex, object, pair, array, value, pairs, values] using hn
  have hebnf : ∀ k rs, Item.ebnf k rs ∈ ex.items → k = .repeatZero ∧ (rs = [[.terminal 8, pair]] ∨ rs = [[.terminal 8, value]]) := by
    intro k rs h
    simp only [ex, object, pair, array, value, pairs, values, List.mem_cons, List.not_mem_nil, or_false, reduceCtorEq, false_or, Item.ebnf.injEq] at h
    rcases h with ⟨h1, h2⟩ | ⟨h1, h2⟩
    · exact ⟨h1, .inl h2⟩
    · exact ⟨h1, .inr h2⟩
  have hhead : ∀ x ∈ ex.items, ∀ r ∈ gram.prods x, ∀ y ∈ r.head?, (match x with | .ebnf .. => true | _ => decide (rank y < rank x)) = true := by decide +kernel
  have hsolid : ∀ x ∈ ex.items, (match x with | .ebnf .. => true | _ => decide (∀ r ∈ gram.prods x, ∀ y ∈ r.head?, y ∈ solid)) = true := by decide +kernel
  refine ⟨?_, ?_, ?_, ?_, ?_, ?_⟩
  · intro x hx r hr y hy
    have : ∀ x ∈ ex.items, ∀ r ∈ gram.ownRules x, ∀ y ∈ r, y ∈ ex.items := by decide +kernel
    exact this x hx r hr y hy
  · intro n hn pre y post hr hpre
    cases pre with
    | nil => exact of_decide_eq_true (hhead _ hn _ hr y (by simp))
    | cons z pre => exact absurd (of_decide_eq_true (hsolid _ hn) _ hr z (by simp)) (not_nullable (hpre z (by simp)))
  · intro k rs h y post hm
    obtain ⟨rfl, rfl | rfl⟩ := hebnf k rs h <;> simp at hm <;> rw [hm.1] <;> decide
  · intro k rs h y post hm hn
    obtain ⟨rfl, rfl | rfl⟩ := hebnf k rs h <;> simp at hm <;> rw [hm.1] at hn <;> exact absurd (by decide +kernel) (not_nullable hn)
  · intro rs h
    cases (hebnf _ rs h).1
  · intro n hn before r after hr hr'
    have hm : r ∈ gram.prods (.nonterminal n) := by
      change r ∈ gram.rules n
      rw [hr]
      simp
    have : ∀ x ∈ ex.items, (match x with | .ebnf .. => true | _ => decide (∀ r ∈ gram.prods x, ∃ y ∈ r.head?, y ∈ solid)) = true := by decide +kernel
    obtain ⟨y, hy, hs⟩ := of_decide_eq_true (this _ hn) r hm
    exact absurd hs (not_nullable (hr' y (List.mem_of_mem_head? hy)))

theorem first_ok : ∀ y ∈ ex.items, ex.g.FirstComplete y (ex.first y) := by
  intro y hy
  have hsome : ∀ y ∈ ex.items, (ex.g.first 200 [] y).isSome = true := by decide +kernel
  obtain ⟨⟨c, s⟩, h⟩ := Option.isSome_iff_exists.1 (hsome y hy)
  have := Gram.first_complete_partial _ _ simple 200 [] (by simp) [] c y s rfl hy h
  have he : ex.first y = s := by
    unfold Ex.first
    have h' : ex.g.first ex.fuel [] y = some (c, s) := h
    rw [h']
    rfl
  rw [he]
  exact this

theorem no_conflicts : ∀ acts ∈ ex.states, Rewriters.findConflicts (fun _ => true) acts = [] := by decide +kernel

theorem no_accepts : ∀ acts ∈ ex.states, ∀ b ∈ acts, ∀ c ∈ acts, b.type = .accept → c.item = .eoi → c.type ≠ .reduce := by decide +kernel

end Json
end TameParse

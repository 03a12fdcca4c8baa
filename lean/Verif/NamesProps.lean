import Verif.Names

/-!
# C67: the names in generated parsers
-/

namespace TameParse
namespace Names

open AssocMap

/-! ### Numbers -/

theorem decimal_eq (n : Nat) : decimal n = if n < 10 then [Char.ofNat (48 + n)] else decimal (n / 10) ++ [Char.ofNat (48 + n % 10)] := by
  rw [decimal]

theorem digit_inj {a b : Nat} (ha : a < 10) (hb : b < 10) (h : Char.ofNat (48 + a) = Char.ofNat (48 + b)) : a = b := by
  have : ∀ a < 10, ∀ b < 10, Char.ofNat (48 + a) = Char.ofNat (48 + b) → a = b := by decide
  exact this a ha b hb h

theorem digit_isDigit {a : Nat} (ha : a < 10) : isDigit (Char.ofNat (48 + a)) = true := by
  have : ∀ a < 10, isDigit (Char.ofNat (48 + a)) = true := by decide
  exact this a ha

theorem decimal_digits (n : Nat) : ∀ c ∈ decimal n, isDigit c = true := by
  induction n using Nat.strongRecOn with
  | _ n ih =>
    intro c hc
    rw [decimal_eq] at hc
    split at hc
    · rw [List.mem_singleton.1 hc]
      exact digit_isDigit (by assumption)
    · rcases List.mem_append.1 hc with hc | hc
      · exact ih (n / 10) (by omega) c hc
      · rw [List.mem_singleton.1 hc]
        exact digit_isDigit (by omega)

theorem decimal_ne_nil (n : Nat) : decimal n ≠ [] := by
  rw [decimal_eq]
  split <;> simp

theorem decimal_inj : ∀ {a b : Nat}, decimal a = decimal b → a = b := by
  intro a
  induction a using Nat.strongRecOn with
  | _ a ih =>
    intro b h
    rw [decimal_eq a, decimal_eq b] at h
    split at h <;> split at h
    · rename_i ha hb
      exact digit_inj ha hb (List.singleton_inj.1 h)
    · exfalso
      have := congrArg List.length h
      have h2 := List.length_pos_of_ne_nil (decimal_ne_nil (b / 10))
      rw [List.length_append, List.length_singleton, List.length_singleton] at this
      omega
    · exfalso
      have := congrArg List.length h
      have h2 := List.length_pos_of_ne_nil (decimal_ne_nil (a / 10))
      rw [List.length_append, List.length_singleton, List.length_singleton] at this
      omega
    · obtain ⟨h1, h2⟩ := List.append_inj' h rfl
      have := ih (a / 10) (by omega) h1
      have := digit_inj (by omega) (by omega) (List.singleton_inj.1 h2)
      omega

theorem digit_ne_underscore {c : Char} (h : isDigit c = true) : c ≠ '_' := by
  rintro rfl
  revert h
  decide

/-- Something without `_` behind a `_` can be told from the rest. -/
theorem underscore_inj {a b d e : Str} (hd : '_' ∉ d) (he : '_' ∉ e) (h : a ++ '_' :: d = b ++ '_' :: e) : a = b ∧ d = e := by
  have key : ∀ (d e : Str) (a b : Str), '_' ∉ d → '_' ∉ e → d ++ '_' :: a = e ++ '_' :: b → d = e ∧ a = b := by
    intro d
    induction d with
    | nil =>
      intro e a b _ he h
      cases e with
      | nil => exact ⟨rfl, (List.cons.inj h).2⟩
      | cons c e => exact absurd (List.mem_cons.2 (Or.inl (List.cons.inj h).1)) he
    | cons c d ih =>
      intro e a b hd he h
      cases e with
      | nil => exact absurd (List.mem_cons.2 (Or.inl (List.cons.inj h).1.symm)) hd
      | cons c' e =>
        obtain ⟨h1, h2⟩ := List.cons.inj h
        obtain ⟨h3, h4⟩ := ih e a b (fun h => hd (List.mem_cons_of_mem _ h)) (fun h => he (List.mem_cons_of_mem _ h)) h2
        exact ⟨by rw [h1, h3], h4⟩
  have h' := congrArg List.reverse h
  simp only [List.reverse_append, List.reverse_cons, List.append_assoc, List.cons_append, List.nil_append] at h'
  obtain ⟨h1, h2⟩ := key d.reverse e.reverse a.reverse b.reverse (by simpa using hd) (by simpa using he) h'
  exact ⟨List.reverse_inj.1 h2, List.reverse_inj.1 h1⟩

theorem decimal_no_underscore (n : Nat) : '_' ∉ decimal n := fun h => digit_ne_underscore (decimal_digits n _ h) rfl

theorem variant_inj {base : Str} {v w : Nat} (hv : 0 < v) (hw : 0 < w) (h : variant base v = variant base w) : v = w := by
  unfold variant at h
  split at h <;> split at h
  · exact decimal_inj (List.cons.inj (List.append_cancel_left h)).2
  · exfalso
    have := congrArg List.length h
    simp at this
  · exfalso
    have := congrArg List.length h
    simp at this
  · omega

/-! ### Identifiers -/

/-- What an identifier of C++ can have in it. -/
def IdChar (c : Char) : Prop := isLetter c = true ∨ isDigit c = true ∨ c = '_'

instance (c : Char) : Decidable (IdChar c) := by unfold IdChar; infer_instance

theorem charText_valid (alone : Bool) (c : Char) : ∀ d ∈ charText alone c, IdChar d := by
  unfold charText
  split
  · rename_i h
    intro d hd
    rw [List.mem_singleton.1 hd]
    rw [Bool.or_eq_true] at h
    exact h.imp id Or.inl
  · split <;> try decide
    split <;> decide

/-- C67. What `get_identifier` gives is always an identifier of C++ and never a keyword or one of the names that the generated class declares
itself: it is a single `_`, or `yy_` and letters, digits and `_`. -/
theorem identifier_valid (name : Str) : identifier name = ['_'] ∨ ∃ s, identifier name = "yy_".toList ++ s ∧ ∀ c ∈ s, IdChar c := by
  unfold identifier
  split
  · exact Or.inl rfl
  · refine Or.inr ⟨_, rfl, ?_⟩
    intro c hc
    obtain ⟨d, -, hd⟩ := List.mem_flatMap.1 hc
    exact charText_valid _ d c hd

theorem identifier_yy {name : Str} (h : name ≠ []) : ∃ s, identifier name = "yy_".toList ++ s := by
  unfold identifier
  rw [if_neg h]
  exact ⟨_, rfl⟩

example : identifier "'+='".toList = "yy__plus__equals_".toList ∧ identifier "<Ebnf-Item>".toList = "yy_Ebnf_Item".toList := by decide

/-- C67 is violated for the identifiers that C++ reserves: those with two `_` beside each other. -/
theorem identifier_reserved_violated : identifier "'+'".toList = "yy__plus_".toList ∧ ∃ a b, identifier "'+'".toList = a ++ '_' :: '_' :: b :=
  ⟨by decide, "yy".toList, "plus_".toList, by decide⟩

/-- The names of symbols: quotes around something are left out, those around nothing are kept, and so is everything else. -/
theorem symbol_names (term nonterm : Int → Str) (i : Int) (l r : Char) (s : Str) :
    (((l = '<' ∧ r = '>') ∨ (l = '"' ∧ r = '"') ∨ (l = '\'' ∧ r = '\'')) →
      (s ≠ [] → term i = l :: (s ++ [r]) → nameForItem term nonterm (.terminal i) = s) ∧
      (s ≠ [] → nonterm i = l :: (s ++ [r]) → nameForItem term nonterm (.nonterminal i) = s)) ∧
    (term i = [] → nameForItem term nonterm (.terminal i) = "item".toList) ∧
    (term i ≠ [] → (term i).length < 3 → nameForItem term nonterm (.terminal i) = term i) ∧
    (nonterm i ≠ [] → (nonterm i).length < 3 → nameForItem term nonterm (.nonterminal i) = nonterm i) ∧
    (∀ t u, term i = l :: t → term i = u ++ [r] →
      ¬ ((l = '<' ∧ r = '>') ∨ (l = '"' ∧ r = '"') ∨ (l = '\'' ∧ r = '\'')) → nameForItem term nonterm (.terminal i) = term i) := by
  have strip_quoted : ∀ s : Str, s ≠ [] → ((l = '<' ∧ r = '>') ∨ (l = '"' ∧ r = '"') ∨ (l = '\'' ∧ r = '\'')) →
      strip (l :: (s ++ [r])) = s := by
    intro s hs hq
    have hlen : 0 < s.length := List.length_pos_iff.2 hs
    have hl : (l :: (s ++ [r])).getLast? = some r := by
      rw [← List.cons_append, List.getLast?_append]; rfl
    unfold strip
    rw [if_neg (by simp only [List.length_cons, List.length_append, List.length_nil]; omega), if_pos, List.tail_cons,
      List.dropLast_concat]
    unfold quoted within
    rw [hl]
    rcases hq with ⟨rfl, rfl⟩ | ⟨rfl, rfl⟩ | ⟨rfl, rfl⟩ <;> simp
  refine ⟨fun hq => ⟨?_, ?_⟩, ?_, ?_, ?_, ?_⟩
  · intro hs h
    unfold nameForItem rawName
    rw [h, strip_quoted s hs hq, if_neg hs]
  · intro hs h
    unfold nameForItem rawName
    rw [h, strip_quoted s hs hq, if_neg hs]
  · intro h
    unfold nameForItem rawName
    rw [h]
    rfl
  · intro h h3
    unfold nameForItem rawName strip
    rw [if_pos h3, if_neg h]
  · intro h h3
    unfold nameForItem rawName strip
    rw [if_pos h3, if_neg h]
  · intro t u h1 h2 hq
    have e : strip (term i) = term i := by
      unfold strip
      split
      · rfl
      · rw [if_neg]
        intro hc
        have a : (term i).head? = some l := by rw [h1]; rfl
        have b : (term i).getLast? = some r := by rw [h2]; simp
        unfold quoted within at hc
        rw [a, b] at hc
        simp only [Option.some.injEq, Bool.or_eq_true, Bool.and_eq_true, decide_eq_true_eq] at hc
        tauto
    unfold nameForItem rawName
    rw [e, if_neg (by rw [h1]; simp)]

example : nameForItem (fun _ => "'+'".toList) (fun _ => "<>".toList) (.terminal 0) = "+".toList ∧
    nameForItem (fun _ => "'+'".toList) (fun _ => "<>".toList) (.nonterminal 0) = "<>".toList ∧
    nameForItem (fun _ => "'x>".toList) (fun _ => "<>".toList) (.terminal 0) = "'x>".toList := by decide

theorem intercalate_ne_nil {sep : Str} : ∀ {l : List Str}, (∃ s ∈ l, s ≠ []) → List.intercalate sep l ≠ []
  | [], h => by obtain ⟨_, h, -⟩ := h; cases h
  | [x], h => by
    obtain ⟨s, hs, h⟩ := h
    rw [List.mem_singleton.1 hs] at h
    simpa [List.intercalate] using h
  | x :: y :: l, h => by
    intro he
    have e : List.intercalate sep (x :: y :: l) = x ++ (sep ++ List.intercalate sep (y :: l)) := by simp [List.intercalate]
    rw [e] at he
    obtain ⟨h1, h2⟩ := List.append_eq_nil_iff.1 he
    obtain ⟨-, h3⟩ := List.append_eq_nil_iff.1 h2
    obtain ⟨s, hs, h⟩ := h
    rcases List.mem_cons.1 hs with rfl | hs
    · exact h h1
    · exact intercalate_ne_nil ⟨s, hs, h⟩ h3

theorem nameForItem_ne_nil (term nonterm : Int → Str) (x : Item) : nameForItem term nonterm x ≠ [] := by
  unfold nameForItem
  split
  · decide
  · assumption

/-! ### Class names -/

theorem freshLoop_spec {used : List Str} {base : Str} : ∀ {fuel v : Nat} {s : Str}, freshLoop used base fuel v = some s → s ∉ used ∧ ∃ w, v ≤ w ∧ s = variant base w
  | 0, _, _, h => by cases h
  | fuel + 1, v, s, h => by
    unfold freshLoop at h
    split at h
    · obtain ⟨h1, w, h2, h3⟩ := freshLoop_spec h
      exact ⟨h1, w, by omega, h3⟩
    · cases h
      exact ⟨by assumption, v, le_refl _, rfl⟩

/-- If the loop does not find a name, all variants that it tried are used. -/
theorem freshLoop_none {used : List Str} {base : Str} : ∀ {fuel v : Nat}, freshLoop used base fuel v = none → ∀ w, v ≤ w → w < v + fuel → variant base w ∈ used
  | 0, _, _, _, h1, h2 => absurd h2 (by omega)
  | fuel + 1, v, h, w, h1, h2 => by
    unfold freshLoop at h
    split at h
    · rcases Nat.eq_or_lt_of_le h1 with rfl | h1
      · assumption
      · exact freshLoop_none h w h1 (by omega)
    · cases h

/-- The loop comes to an end. -/
theorem freshLoop_total {used : List Str} {base : Str} {fuel v : Nat} (hv : 0 < v) (hf : used.length < fuel) : ∃ s, freshLoop used base fuel v = some s := by
  cases h : freshLoop used base fuel v with
  | some s => exact ⟨s, rfl⟩
  | none =>
    exfalso
    have hmem := freshLoop_none h
    have hnd : ((List.range fuel).map fun k => variant base (v + k)).Nodup := by
      refine List.Nodup.map_on ?_ List.nodup_range
      intro a _ b _ hab
      have := variant_inj (by omega) (by omega) hab
      omega
    have hsub : ((List.range fuel).map fun k => variant base (v + k)) ⊆ used := by
      intro s hs
      obtain ⟨k, hk, rfl⟩ := List.mem_map.1 hs
      exact hmem _ (by omega) (by have := List.mem_range.1 hk; omega)
    have := (hnd.subperm hsub).length_le
    rw [List.length_map, List.length_range] at this
    omega

/-- The names of the classes are different and not among those that were used at the start. -/
structure NamesOk (start : List Str) (name : Item → Str) (c : Classes) : Prop where
  inj : ∀ x y s, get x c.names = some s → get y c.names = some s → x = y
  used : ∀ x s, get x c.names = some s → s ∈ c.used ∧ s ∉ start
  start : ∀ s ∈ start, s ∈ c.used
  shape : ∀ x s, get x c.names = some s → ∃ v, 0 < v ∧ s = variant (identifier (name x)) v

theorem classNameFor_ok {start : List Str} {name : Item → Str} {fuel : Nat} {c : Classes} (h : NamesOk start name c) {x : Item} {p : Classes × Str}
    (hp : classNameFor name fuel c x = some p) : NamesOk start name p.1 ∧ get x p.1.names = some p.2 ∧ ∀ y s, get y c.names = some s → get y p.1.names = some s := by
  unfold classNameFor at hp
  split at hp
  · rename_i s hs
    cases hp
    exact ⟨h, hs, fun _ _ h => h⟩
  · rename_i hx
    split at hp
    · cases hp
    · rename_i s hs
      cases hp
      obtain ⟨h1, w, h2, h3⟩ := freshLoop_spec hs
      have hg : ∀ y, get y (put x s c.names) = if y = x then some s else get y c.names := fun y => by
        rw [get_put]
        simp only [eq_comm]
      refine ⟨⟨?_, ?_, fun s hs => List.mem_cons_of_mem _ (h.start s hs), ?_⟩, ?_, ?_⟩
      · intro y z s' hy hz
        rw [hg] at hy hz
        split at hy <;> split at hz
        · simp_all
        · rename_i hy' hz'
          cases hy
          exact absurd (h.used z s hz).1 h1
        · rename_i hy' hz'
          cases hz
          exact absurd (h.used y s hy).1 h1
        · exact h.inj y z s' hy hz
      · intro y s' hy
        rw [hg] at hy
        split at hy
        · cases hy
          exact ⟨List.mem_cons_self .., fun hs => h1 (h.start s hs)⟩
        · exact ⟨List.mem_cons_of_mem _ (h.used y s' hy).1, (h.used y s' hy).2⟩
      · intro y s' hy
        rw [hg] at hy
        split at hy
        · cases hy
          rename_i he
          subst he
          exact ⟨w, by omega, h3⟩
        · exact h.shape y s' hy
      · show get x (put x s c.names) = some s
        rw [hg, if_pos rfl]
      · intro y s' hy
        show get y (put x s c.names) = some s'
        rw [hg]
        split
        · rename_i he
          subst he
          rw [hx] at hy
          cases hy
        · exact hy

theorem assign_ok {start : List Str} {name : Item → Str} {fuel : Nat} : ∀ {xs : List Item} {c d : Classes}, NamesOk start name c → assign name fuel c xs = some d →
    NamesOk start name d ∧ (∀ x ∈ xs, (get x d.names).isSome) ∧ ∀ y s, get y c.names = some s → get y d.names = some s
  | [], c, d, h, hd => by
    cases hd
    exact ⟨h, by simp, fun _ _ h => h⟩
  | x :: xs, c, d, h, hd => by
    unfold assign at hd
    split at hd
    · cases hd
    · rename_i p hp
      obtain ⟨h1, h2, h3⟩ := classNameFor_ok h hp
      obtain ⟨h4, h5, h6⟩ := assign_ok h1 hd
      refine ⟨h4, ?_, fun y s hy => h6 y s (h3 y s hy)⟩
      intro y hy
      rcases List.mem_cons.1 hy with rfl | hy
      · rw [h6 _ _ h2]; rfl
      · exact h5 y hy

theorem classNameFor_total (name : Item → Str) {fuel : Nat} {c : Classes} (x : Item) (hf : c.used.length < fuel) :
    ∃ p, classNameFor name fuel c x = some p ∧ p.1.used.length ≤ c.used.length + 1 := by
  unfold classNameFor
  split
  · exact ⟨_, rfl, by simp⟩
  · obtain ⟨s, hs⟩ := freshLoop_total (base := identifier (name x)) (v := 1) (by omega) hf
    rw [hs]
    exact ⟨_, rfl, by simp⟩

theorem assign_total (name : Item → Str) {fuel : Nat} : ∀ (xs : List Item) (c : Classes), c.used.length + xs.length < fuel → ∃ d, assign name fuel c xs = some d
  | [], c, _ => ⟨c, rfl⟩
  | x :: xs, c, hf => by
    obtain ⟨p, hp, hl⟩ := classNameFor_total name (c := c) x (fuel := fuel) (by omega)
    obtain ⟨d, hd⟩ := assign_total name (fuel := fuel) xs p.1 (by simp only [List.length_cons] at hf; omega)
    refine ⟨d, ?_⟩
    unfold assign
    rw [hp]
    exact hd

theorem typeName_inj {a b : Str} (h : typeName a = typeName b) : a = b := List.append_cancel_right h

theorem contentName_inj {a b : Str} (h : contentName a = contentName b) : a = b := typeName_inj (List.append_cancel_right h)

theorem typeName_ne_contentName (a b : Str) : typeName a ≠ contentName b := by
  intro h
  have h1 : (typeName a).getLast? = some 'n' := by simp [typeName]
  have h2 : (contentName b).getLast? = some 't' := by simp [contentName]
  rw [h, h2] at h1
  revert h1
  decide

theorem typeName_yy {term nonterm : Int → Str} {x : Item} {v : Nat} : ∃ s, variant (identifier (nameForItem term nonterm x)) v = "yy_".toList ++ s := by
  obtain ⟨s, hs⟩ := identifier_yy (nameForItem_ne_nil term nonterm x)
  unfold variant
  rw [hs]
  split
  · exact ⟨_, List.append_assoc ..⟩
  · exact ⟨_, rfl⟩

theorem fixed_not_yy {s : Str} (h : "yy_".toList ++ s ∈ fixed) : False := by
  have : ∀ f ∈ fixed, f.take 3 ≠ "yy_".toList := by decide
  refine this _ h ?_
  rw [show (3 : Nat) = "yy_".toList.length from rfl, List.take_left]

/-- C67. Whatever the symbols are called, and in whatever order the classes are asked for: choosing the names comes to an end, every item gets
one, different items get different classes, no class has the name of the class for the content of a list, and none has one of the names
that the generated class declares itself. -/
theorem class_names (term nonterm : Int → Str) (used : List Str) (xs : List Item) :
    ∃ fuel d, assign (nameForItem term nonterm) fuel ⟨[], used⟩ xs = some d ∧ (∀ x ∈ xs, ∃ s, get x d.names = some s) ∧
      ∀ x s, get x d.names = some s → s ∉ used ∧ typeName s ∉ fixed ∧ contentName s ∉ fixed ∧
        ∀ y r, get y d.names = some r → typeName s ≠ contentName r ∧ (typeName s = typeName r ∨ contentName s = contentName r → x = y) := by
  obtain ⟨d, hd⟩ := assign_total (nameForItem term nonterm) (fuel := used.length + xs.length + 1) xs ⟨[], used⟩ (by simp)
  obtain ⟨h1, h2, -⟩ := assign_ok (start := used) ⟨by simp [AssocMap.get], by simp [AssocMap.get], fun _ h => h, by simp [AssocMap.get]⟩ hd
  refine ⟨_, d, hd, fun x hx => Option.isSome_iff_exists.1 (h2 x hx), ?_⟩
  intro x s hx
  obtain ⟨v, -, rfl⟩ := h1.shape x s hx
  refine ⟨(h1.used x _ hx).2, ?_, ?_, fun y r hy => ⟨typeName_ne_contentName _ _, fun h => ?_⟩⟩
  · intro h
    obtain ⟨s, hs⟩ := typeName_yy (term := term) (nonterm := nonterm) (x := x) (v := v)
    rw [hs, typeName, List.append_assoc] at h
    exact fixed_not_yy h
  · intro h
    obtain ⟨s, hs⟩ := typeName_yy (term := term) (nonterm := nonterm) (x := x) (v := v)
    rw [hs, contentName, typeName, List.append_assoc, List.append_assoc] at h
    exact fixed_not_yy h
  · have : variant (identifier (nameForItem term nonterm x)) v = r := h.elim typeName_inj contentName_inj
    rw [← this] at hy
    exact h1.inj x y _ hx hy

/-- A terminal and a nonterminal with the same name, and a terminal with the name that the second of them gets. -/
example : (assign (nameForItem (fun n => if n = 0 then "'a'".toList else "a_2".toList) (fun _ => "<a>".toList)) 9 ⟨[], []⟩ [.terminal 0, .terminal 1, .nonterminal 5]).map
    (fun c => [Item.terminal 0, .terminal 1, .nonterminal 5].map fun x => (get x c.names).map String.ofList) = some [some "yy_a", some "yy_a_2", some "yy_a_3"] := by
  decide +kernel

/-- C67 is violated for the name of the generated class itself: it is kept from being used before `_n` is added, so that a parser called `A_n` with a symbol `A` has
a class with the name of the class that it is declared in. -/
theorem outer_class_violated : ∃ outer c, outer = identifier "A_n".toList ∧ assign (nameForItem (fun _ => "A".toList) (fun _ => [])) 9 ⟨[], outer :: fixed⟩ [.terminal 0] = some c ∧
    (get (.terminal 0) c.names).map typeName = some outer :=
  ⟨_, _, rfl, rfl, by decide +kernel⟩

/-! ### Constants -/

/-- The names that are at least as long. -/
def longer (counted : List Str) (n : Nat) : Nat := counted.countP (fun s => decide (n ≤ s.length))

theorem longer_lt {counted : List Str} {name : Str} (h : name ∈ counted) {n : Nat} (hn : name.length < n) : longer counted n < longer counted name.length := by
  induction counted with
  | nil => cases h
  | cons s l ih =>
    have hmono : longer l n ≤ longer l name.length := by
      refine List.countP_mono_left ?_
      intro x _ hx
      simp only [decide_eq_true_eq] at hx ⊢
      omega
    unfold longer at hmono ih ⊢
    rw [List.countP_cons, List.countP_cons]
    simp only [decide_eq_true_eq]
    rcases List.mem_cons.1 h with rfl | h
    · rw [if_neg (by omega), if_pos (le_refl _)]
      omega
    · have := ih h
      split <;> split <;> omega

theorem constLoop_total {counted : List Str} {count : Nat} : ∀ {fuel : Nat} {name : Str}, longer counted name.length < fuel → ∃ s, constLoop counted count fuel name = some s
  | 0, _, h => absurd h (by omega)
  | fuel + 1, name, h => by
    unfold constLoop
    split
    · rename_i hm
      refine constLoop_total ?_
      have := longer_lt hm (n := (name ++ '_' :: decimal count).length) (by simp)
      omega
    · exact ⟨_, rfl⟩

/-- Choosing the constants comes to an end. -/
theorem constants_total {fuel : Nat} : ∀ (ss counted : List Str), counted.length + ss.length < fuel → ∃ ns, constants fuel counted ss = some ns
  | [], _, _ => ⟨[], rfl⟩
  | s :: ss, counted, h => by
    obtain ⟨n, hn⟩ := constLoop_total (counted := counted) (count := counted.count s) (fuel := fuel) (name := s) (by
      have : longer counted s.length ≤ counted.length := List.countP_le_length
      simp only [List.length_cons] at h
      omega)
    obtain ⟨ns, hns⟩ := constants_total (fuel := fuel) ss (s :: counted) (by simp only [List.length_cons] at h ⊢; omega)
    refine ⟨n :: ns, ?_⟩
    unfold constants
    rw [hn, hns]
    rfl

/-- No name is another one with `_` and a number behind it. -/
def Apart (l : List Str) : Prop := ∀ s ∈ l, ∀ t ∈ l, ∀ k, s ≠ t ++ '_' :: decimal k

theorem constLoop_apart {counted : List Str} {s n : Str} {fuel : Nat} (ha : Apart (s :: counted)) (h : constLoop counted (counted.count s) fuel s = some n) :
    (n = s ∧ s ∉ counted) ∨ (0 < counted.count s ∧ n = s ++ '_' :: decimal (counted.count s)) := by
  cases fuel with
  | zero => cases h
  | succ fuel =>
    unfold constLoop at h
    split at h
    · rename_i hm
      cases fuel with
      | zero => cases h
      | succ fuel =>
        unfold constLoop at h
        rw [if_neg (fun hm' => ha _ (List.mem_cons_of_mem _ hm') s (List.mem_cons_self ..) _ rfl)] at h
        cases h
        exact Or.inr ⟨List.count_pos_iff.2 hm, rfl⟩
    · cases h
      exact Or.inl ⟨rfl, by assumption⟩

theorem constants_apart {fuel : Nat} : ∀ {ss counted ns : List Str}, Apart (ss ++ counted) → constants fuel counted ss = some ns →
    ns.Nodup ∧ ns.length = ss.length ∧ ∀ n ∈ ns, ∃ s ∈ ss, (n = s ∧ s ∉ counted) ∨ ∃ c, counted.count s ≤ c ∧ 0 < c ∧ n = s ++ '_' :: decimal c
  | [], _, ns, _, h => by
    cases h
    exact ⟨List.nodup_nil, rfl, by simp⟩
  | s :: ss, counted, ns, ha, h => by
    unfold constants at h
    split at h
    · cases h
    · rename_i n hn
      obtain ⟨l, hl, rfl⟩ := Option.map_eq_some_iff.1 h
      have ha1 : Apart (s :: counted) := fun a hma b hmb => ha a (by
        rcases List.mem_cons.1 hma with rfl | hma
        · simp
        · simp [hma]) b (by
        rcases List.mem_cons.1 hmb with rfl | hmb
        · simp
        · simp [hmb])
      have ha2 : Apart (ss ++ s :: counted) := fun a hma b hmb => ha a (by
        simp only [List.mem_append, List.mem_cons] at hma ⊢
        tauto) b (by
        simp only [List.mem_append, List.mem_cons] at hmb ⊢
        tauto)
      obtain ⟨h1, h2, h3⟩ := constants_apart ha2 hl
      have hn' := constLoop_apart ha1 hn
      refine ⟨List.nodup_cons.2 ⟨?_, h1⟩, by simp [h2], ?_⟩
      · intro hmem
        obtain ⟨s', hs', hcase⟩ := h3 n hmem
        have ms : s ∈ (s :: ss) ++ counted := by simp
        have ms' : s' ∈ (s :: ss) ++ counted := by simp [hs']
        rcases hn' with ⟨rfl, h4⟩ | ⟨h4, rfl⟩ <;> rcases hcase with ⟨h5, h6⟩ | ⟨c, h5, h6, h7⟩
        · exact h6 (by rw [← h5]; exact List.mem_cons_self ..)
        · exact ha _ ms _ ms' c h7
        · exact ha _ ms' _ ms _ h5.symm
        · obtain ⟨h8, h9⟩ := underscore_inj (decimal_no_underscore _) (decimal_no_underscore _) h7
          have := decimal_inj h9
          rw [← h8, List.count_cons_self] at h5
          omega
      · intro n' hn''
        rcases List.mem_cons.1 hn'' with rfl | hn''
        · refine ⟨s, List.mem_cons_self .., ?_⟩
          rcases hn' with h4 | ⟨h4, h5⟩
          · exact Or.inl h4
          · exact Or.inr ⟨_, le_refl _, h4, h5⟩
        · obtain ⟨s', hs', hcase⟩ := h3 n' hn''
          refine ⟨s', List.mem_cons_of_mem _ hs', ?_⟩
          rcases hcase with ⟨h5, h6⟩ | ⟨c, h5, h6⟩
          · exact Or.inl ⟨h5, fun h => h6 (List.mem_cons_of_mem _ h)⟩
          · refine Or.inr ⟨c, le_trans ?_ h5, h6⟩
            rw [List.count_cons]
            omega

/-- C67. The constants for the symbols get different names if no symbol has the name of another one with `_` and a number behind it, also where several names
give the same identifier. -/
theorem constant_names_partial (names : List Str) (h : Apart (names.map identifier)) :
    ∃ fuel ns, constants fuel [] (names.map identifier) = some ns ∧ ns.length = names.length ∧ ns.Nodup := by
  obtain ⟨ns, hns⟩ := constants_total (fuel := (names.map identifier).length + 1) (names.map identifier) [] (by simp)
  obtain ⟨h1, h2, -⟩ := constants_apart (by simpa using h) hns
  exact ⟨_, ns, hns, by simpa using h2, h1⟩

/-- C67 is violated for the constants: `a-b`, `a_b` and `a_b_1` give two constants of the same name. -/
theorem constant_names_violated : constants 9 [] (["a-b".toList, "a_b".toList, "a_b_1".toList].map identifier) =
    some ["yy_a_b".toList, "yy_a_b_1".toList, "yy_a_b_1".toList] := by
  decide +kernel

example : constants 9 [] (["'+'".toList, "a-b".toList, "a_b".toList, "\"a_b\"".toList].map identifier) =
    some ["yy__plus_".toList, "yy_a_b".toList, "yy_a_b_1".toList, "yy_a_b_2".toList] := by
  decide +kernel

theorem split_at {x y a b : Str} {c : Char} (hx : c ∉ x) (hy : c ∉ y) (h : x ++ c :: a = y ++ c :: b) : x = y ∧ a = b := by
  induction x generalizing y with
  | nil =>
    cases y with
    | nil => exact ⟨rfl, (List.cons.inj h).2⟩
    | cons d y => exact absurd (List.cons.inj h).1 (fun he => hy (he ▸ List.mem_cons_self ..))
  | cons d x ih =>
    cases y with
    | nil => exact absurd (List.cons.inj h).1.symm (fun he => hx (he ▸ List.mem_cons_self ..))
    | cons e y =>
      obtain ⟨rfl, h2⟩ := List.cons.inj h
      obtain ⟨rfl, rfl⟩ := ih (fun hm => hx (List.mem_cons_of_mem _ hm)) (fun hm => hy (List.mem_cons_of_mem _ hm)) h2
      exact ⟨rfl, rfl⟩

theorem intercalate_inj {c : Char} : ∀ {xs ys : List Str}, xs ≠ [] → ys ≠ [] → (∀ x ∈ xs, c ∉ x) → (∀ y ∈ ys, c ∉ y) → List.intercalate [c] xs = List.intercalate [c] ys → xs = ys
  | [], _, h, _, _, _, _ => absurd rfl h
  | _, [], _, h, _, _, _ => absurd rfl h
  | [x], [y], _, _, _, _, h => by simpa [List.intercalate] using h
  | [x], y :: z :: ys, _, _, hx, _, h => by
    have h : x = y ++ c :: List.intercalate [c] (z :: ys) := by simpa [List.intercalate] using h
    exact absurd (by rw [h]; simp) (hx x (by simp))
  | x :: z :: xs, [y], _, _, _, hy, h => by
    have h : x ++ c :: List.intercalate [c] (z :: xs) = y := by simpa [List.intercalate] using h
    exact absurd (by rw [← h]; simp) (hy y (by simp))
  | x :: x' :: xs, y :: y' :: ys, _, _, hx, hy, h => by
    have h : x ++ c :: List.intercalate [c] (x' :: xs) = y ++ c :: List.intercalate [c] (y' :: ys) := by simpa [List.intercalate] using h
    obtain ⟨rfl, h2⟩ := split_at (hx x (by simp)) (hy y (by simp)) h
    rw [intercalate_inj (xs := x' :: xs) (ys := y' :: ys) (by simp) (by simp) (fun z hz => hx z (List.mem_cons_of_mem _ hz)) (fun z hz => hy z (List.mem_cons_of_mem _ hz)) h2]

/-- Rules of at most three items with different names have different names themselves, if these have no underscores. -/
theorem short_rule_names {xs ys : List Str} (hx : xs ≠ []) (hy : ys ≠ []) (hx3 : xs.length ≤ 3) (hy3 : ys.length ≤ 3) (hxc : ∀ x ∈ xs, '_' ∉ x) (hyc : ∀ y ∈ ys, '_' ∉ y)
    (h : nameForRule xs = nameForRule ys) : xs = ys := by
  match xs, ys, hx, hy with
  | x :: xs, y :: ys, _, _ =>
    unfold nameForRule at h
    dsimp only at h
    rw [if_pos hx3, if_pos hy3] at h
    exact intercalate_inj (by simp) (by simp) hxc hyc h

/-- Longer ones are called by their first item only. -/
theorem long_rule_names_violated : nameForRule ["a".toList, "b".toList, "c".toList, "d".toList] = nameForRule ["a".toList, "e".toList, "f".toList, "g".toList] := by decide

example : nameForRule ["a".toList, "b".toList, "c".toList] ≠ nameForRule ["a".toList, "b".toList, "d".toList] := by decide

end Names
end TameParse

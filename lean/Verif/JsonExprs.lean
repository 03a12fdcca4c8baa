import Verif.JsonLex
import Verif.NamedExample

/-!
# The definitions of json.tp

The blocks of json.tp as the language stage gets them, and what their regular expressions match, by C90.
-/

namespace TameParse
namespace Json

open AssocMap TameParse.Language Lang LexerStage Regex CaseMap NamedExprs

def rx (name : String) (text : String) : Language.Lexeme := ⟨.regex, name, text.toList, false, false⟩
def more (name : String) (text : String) : Language.Lexeme := ⟨.regex, name, text.toList, true, false⟩
def kw (name : String) : Language.Lexeme := ⟨.literal, name, [], false, false⟩
def tm (n : String) : Simple := .terminal .ident "" n .blank
def qt (n : String) : Simple := .terminal .character "" n .blank
def nonterm (n : String) : Simple := .nonterminal "" n .blank
def called (n : String) : Attr := ⟨n, none, false⟩

/-- json.tp 6-66. -/
def definitions : List (List (Block NtSyntax)) := [[
  .lexer .keywords false false false [kw "true", kw "false", kw "null"],
  .lexer .symbols false false false [
    rx "hex-digit" "/[0-9A-Fa-f]/",
    rx "char" "/[^\\\"\\\\]/",
    more "char" "/\\\\\\\"/",
    more "char" "/[\\\\][\\\\]/",
    more "char" "/\\\\\\//",
    more "char" "/\\\\b/",
    more "char" "/\\\\f/",
    more "char" "/\\\\n/",
    more "char" "/\\\\r/",
    more "char" "/\\\\t/",
    more "char" "/\\\\u{hex-digit}{hex-digit}{hex-digit}{hex-digit}/",
    rx "digit" "/[0-9]/",
    rx "int" "/{digit}+/",
    more "int" "/-{digit}+/",
    rx "frac" "/.{digit}+/",
    rx "e" "/e/",
    more "e" "/e\\+/",
    more "e" "/e\\-/",
    more "e" "/E/",
    more "e" "/E\\+/",
    more "e" "/E\\-/",
    rx "exp" "/{e}{digit}+/",
    rx "whitespace" "/[ \\t\\n\\r]/"],
  .lexer .ignore false false false [rx "whitespace" "/{whitespace}+/"],
  .lexer .lexer false false false [
    rx "string" "/\\\"{char}*\\\"/",
    rx "number" "/{int}/",
    more "number" "/{int}{frac}/",
    more "number" "/{int}{exp}/",
    more "number" "/{int}{frac}{exp}/"],
  .grammar [
    ⟨.assignment, "Object", [[qt "'{'", qt "'}'"], [qt "'{'", .nonterminal "" "Pair" (called "first"), .star (.paren [qt "','", nonterm "Pair"] [] .blank) (called "pairs"), qt "'}'"]]⟩,
    ⟨.assignment, "Pair", [[.terminal .ident "" "string" (called "name"), qt "':'", .nonterminal "" "Value" (called "value")]]⟩,
    ⟨.assignment, "Array", [[qt "'['", qt "']'"], [qt "'['", .nonterminal "" "Value" (called "first"), .star (.paren [qt "','", nonterm "Value"] [] .blank) (called "remainder"), qt "']'"]]⟩,
    ⟨.assignment, "Value", [[tm "string"], [tm "number"], [nonterm "Object"], [nonterm "Array"], [tm "true"], [tm "false"], [tm "null"]]⟩]]]

theorem definitions_errors : (stage definitions).errors = [] := by decide +kernel

/-- The symbols are numbered as in `Matches`, and whitespace is ignored. -/
theorem definitions_symbols : (stage definitions).terminals.symbolOf = [("true", 0), ("false", 1), ("null", 2), ("string", 3), ("number", 4), ("whitespace", 5), ("'{'", 6), ("'}'", 7),
    ("','", 8), ("':'", 9), ("'['", 10), ("']'", 11)] ∧ (stage definitions).ignored = [5] := by decide +kernel

theorem gram_of_rules (s : Lang) (h : s.rules.map (fun p => (p.1, p.2.map Lang.items)) = [(1, objectRules), (2, pairRules), (5, arrayRules), (4, valueRules)]) : s.gram = gram := by
  have hget : ∀ (l : List (Nat × List KeyRule)) (i : Nat), ((get i l).getD []).map Lang.items = (get i (l.map (fun p => (p.1, p.2.map Lang.items)))).getD [] := by
    intro l i
    induction l with
    | nil => rfl
    | cons q l ih =>
      obtain ⟨a, b⟩ := q
      simp only [List.map_cons, AssocMap.get]
      split
      · rfl
      · exact ih
  have hr : ∀ k, s.gram.rules k = gram.rules k := by
    intro k
    show (if 0 ≤ k then (s.rulesFor k.toNat).map Lang.items else []) = _
    unfold Lang.rulesFor
    rw [hget, h]
    by_cases h1 : k = 1
    · subst h1; rfl
    · by_cases h2 : k = 2
      · subst h2; rfl
      · by_cases h3 : k = 4
        · subst h3; rfl
        · by_cases h4 : k = 5
          · subst h4; rfl
          · have e : gram.rules k = [] := by simp [gram, h1, h2, h3, h4]
            rw [e]
            split
            · simp only [AssocMap.get]
              rw [if_neg (by omega), if_neg (by omega), if_neg (by omega), if_neg (by omega)]
              rfl
            · rfl
  have : ∀ g g' : Gram, (∀ k, g.rules k = g'.rules k) → g = g' := by
    rintro ⟨r⟩ ⟨r'⟩ h
    congr 1
    exact funext h
  exact this _ _ hr

/-- The language stage makes the grammar of `Json` of json.tp, with these ignored symbols. What is written in quotation marks is weak, but no other symbol matches the same texts
(`matches_unique`). -/
theorem stage_gram : (stage definitions).gram = ex.g ∧ Item.nonterminal ((stage definitions).ids.idForNonterminal "Object").2 = ex.start ∧
    (stage definitions).ignored.map Item.terminal = ex.ignored ∧ (stage definitions).weak = [11, 10, 9, 8, 7, 6] :=
  ⟨gram_of_rules _ (by decide +kernel), by decide +kernel, by decide +kernel, by decide +kernel⟩

/-! ### The expressions -/

/-- What the expressions refer to. -/
def env : Env := languageEnv noDefs caseFolds (stage definitions)

/-- A definition that no option says anything of the case of. -/
abbrev one (r : Re) : Re := .entry false false r
/-- A quoted character. -/
abbrev q (c : Int) : Re := .atom (.chr (.quoted c))

/-- json.tp 12. -/
def hexRe : Re := .named (codes "hex-digit".toList) (one (.atom (.cls false [.span (.plain 48) (.plain 57), .span (.plain 65) (.plain 70), .span (.plain 97) (.plain 102)])))
/-- json.tp 23. -/
def digitRe : Re := .named (codes "digit".toList) (one (.atom (.cls false [.span (.plain 48) (.plain 57)])))
/-- json.tp 24-25. -/
def intRe : Re := .named (codes "int".toList) (.either (one (.plus digitRe)) (one (.cat (ch 45) (.plus digitRe))))
/-- json.tp 26. -/
def fracRe : Re := .named (codes "frac".toList) (one (.cat (.atom .any) (.plus digitRe)))
/-- json.tp 27-32. -/
def eRe : Re := .named (codes "e".toList) (.either (.either (.either (.either (.either (one (ch 101)) (one (.cat (ch 101) (q 43)))) (one (.cat (ch 101) (q 45)))) (one (ch 69)))
  (one (.cat (ch 69) (q 43)))) (one (.cat (ch 69) (q 45))))
/-- json.tp 33. -/
def expRe : Re := .named (codes "exp".toList) (one (.cat eRe (.plus digitRe)))
/-- json.tp 34. -/
def spaceRe : Re := .named (codes "whitespace".toList) (one (.atom (.cls false [.one (.plain 32), .one (.named 116 9), .one (.named 110 10), .one (.named 114 13)])))
/-- json.tp 13-22. -/
def charRe : Re := .named (codes "char".toList) (.either (.either (.either (.either (.either (.either (.either (.either (.either (one (.atom (.cls true [.one (.quoted 34), .one (.quoted 92)])))
  (one (.cat (q 92) (q 34)))) (one (.cat (.atom (.cls false [.one (.quoted 92)])) (.atom (.cls false [.one (.quoted 92)]))))) (one (.cat (q 92) (q 47)))) (one (.cat (q 92) (ch 98))))
  (one (.cat (q 92) (ch 102)))) (one (.cat (q 92) (ch 110)))) (one (.cat (q 92) (ch 114)))) (one (.cat (q 92) (ch 116))))
  (one (.cat (.cat (.cat (.cat (.cat (q 92) (ch 117)) hexRe) hexRe) hexRe) hexRe)))

/-- json.tp 43-46. -/
def numberRes : List Re := [intRe, .cat intRe fracRe, .cat intRe expRe, .cat (.cat intRe fracRe) expRe]
/-- json.tp 42. -/
def stringRe : Re := .cat (.cat (q 34) (.star charRe)) (q 34)
/-- json.tp 38. -/
def blankRe : Re := .plus spaceRe

/-- They are written as in json.tp. -/
theorem texts : numberRes.map Re.text = ["{int}", "{int}{frac}", "{int}{exp}", "{int}{frac}{exp}"].map (fun s => codes s.toList) ∧
    stringRe.text = codes "\\\"{char}*\\\"".toList ∧ blankRe.text = codes "{whitespace}+".toList := by decide +kernel

theorem named_of {n : String} {ts : List String} {r : Re} (h : writtenAs definitions.flatten n = (match ts with | [] => [] | t :: ts => rx n t :: ts.map (more n)).map (fun l => (l, false, false)))
    (hr : r.entries = ts.map fun t => ⟨true, codes t.toList.tail.dropLast, false, false⟩) : env.named (codes n.toList) = r.entries := by
  have := named_meaning noDefs caseFolds definitions n [] _ h (.inl rfl) (by
    intro d hd
    cases ts with
    | nil => simp at hd
    | cons t ts =>
      simp only [List.map_cons, List.tail_cons, List.map_map, List.mem_map] at hd
      obtain ⟨x, -, rfl⟩ := hd
      rfl)
  rw [hr]
  refine Eq.trans this ?_
  cases ts with
  | nil => rfl
  | cons t ts => simp [lexText, rx, more]

/-- Whether classes and characters are well written. -/
theorem sets_well (P : Int → Prop) : SetsWell false lowercaseMap uppercaseMap false P := fun h => nomatch h

theorem within_one : Re.within false false false = false := rfl

abbrev Fine (r : Re) : Prop := r.OkR env (SetsWell false lowercaseMap uppercaseMap) false
abbrev FineDefs (r : Re) : Prop := r.OkItems env (SetsWell false lowercaseMap uppercaseMap) false

theorem fine_one {r : Re} (h : Fine r) : FineDefs (one r) := h

theorem fine_chr {c : Int} (h : c ≠ 92 ∧ c ∉ Atom.operators) : Fine (ch c) := ⟨⟨h.1, h.2⟩, sets_well _⟩

theorem fine_quoted {c : Int} (h : ¬ Chr.Special c) : Fine (q c) := ⟨⟨h, trivial⟩, sets_well _⟩

theorem fine_class {l : List ClassItem} (h : ∀ i ∈ l, i.Ok) (x : Int) (hx : ∃ i ∈ l, i.Has x) : Fine (.atom (.cls false l)) :=
  ⟨⟨h, (fun h => nomatch h), x, hx⟩, sets_well _⟩

theorem digit_fine : Fine digitRe :=
  ⟨fine_one (fine_class (by simp [ClassItem.Ok, Chr.Ok, Chr.NotPlain, Chr.val]) 48 (by simp [ClassItem.Has, Chr.val])), by decide +kernel,
    named_of (ts := ["/[0-9]/"]) (by decide +kernel) (by decide +kernel)⟩

theorem hex_fine : Fine hexRe :=
  ⟨fine_one (fine_class (by simp [ClassItem.Ok, Chr.Ok, Chr.NotPlain, Chr.val]) 48 (by simp [ClassItem.Has, Chr.val])), by decide +kernel,
    named_of (ts := ["/[0-9A-Fa-f]/"]) (by decide +kernel) (by decide +kernel)⟩

theorem space_fine : Fine spaceRe :=
  ⟨fine_one (fine_class (by simp [ClassItem.Ok, Chr.Ok, Chr.NotPlain]) 32 (by simp [ClassItem.Has, Chr.val])), by decide +kernel,
    named_of (ts := ["/[ \\t\\n\\r]/"]) (by decide +kernel) (by decide +kernel)⟩

theorem int_fine : Fine intRe :=
  ⟨⟨fine_one ⟨digit_fine, rfl⟩, fine_one ⟨fine_chr (by decide), ⟨digit_fine, rfl⟩, rfl, rfl, .inl rfl⟩, rfl⟩, by decide +kernel,
    named_of (ts := ["/{digit}+/", "/-{digit}+/"]) (by decide +kernel) (by decide +kernel)⟩

theorem frac_fine : Fine fracRe :=
  ⟨fine_one ⟨⟨trivial, sets_well _⟩, ⟨digit_fine, rfl⟩, rfl, rfl, .inl rfl⟩, by decide +kernel, named_of (ts := ["/.{digit}+/"]) (by decide +kernel) (by decide +kernel)⟩

theorem fine_two {r s : Re} (hr : Fine r) (hs : Fine s) (h1 : r.isSeq = true) (h2 : s.isItem = true) (h3 : r.loopOut = false) : Fine (.cat r s) := ⟨hr, hs, h1, h2, .inl h3⟩

theorem e_fine : Fine eRe := by
  have hq : ∀ c ∈ [43, 45], ∀ d ∈ [101, 69], FineDefs (one (.cat (ch d) (q c))) := fun c hc d hd =>
    fine_one (fine_two (fine_chr (by revert d; decide)) (fine_quoted (by simp at hc; rcases hc with rfl | rfl <;> simp [Chr.Special])) rfl rfl rfl)
  exact ⟨⟨⟨⟨⟨⟨fine_one (fine_chr (by decide)), hq 43 (by simp) 101 (by simp), rfl⟩, hq 45 (by simp) 101 (by simp), rfl⟩, fine_one (fine_chr (by decide)), rfl⟩,
    hq 43 (by simp) 69 (by simp), rfl⟩, hq 45 (by simp) 69 (by simp), rfl⟩, by decide +kernel,
    named_of (ts := ["/e/", "/e\\+/", "/e\\-/", "/E/", "/E\\+/", "/E\\-/"]) (by decide +kernel) (by decide +kernel)⟩

theorem exp_fine : Fine expRe :=
  ⟨fine_one (fine_two e_fine ⟨digit_fine, rfl⟩ rfl rfl rfl), by decide +kernel, named_of (ts := ["/{e}{digit}+/"]) (by decide +kernel) (by decide +kernel)⟩

theorem char_fine : Fine charRe := by
  have h92 : Fine (q 92) := fine_quoted (by simp [Chr.Special])
  have hc : ∀ c ∈ [98, 102, 110, 114, 116], FineDefs (one (.cat (q 92) (ch c))) := fun c hc => fine_one (fine_two h92 (fine_chr (by revert c; decide)) rfl rfl rfl)
  have hb : Fine (.atom (.cls false [.one (.quoted 92)])) := fine_class (by simp [ClassItem.Ok, Chr.Ok, Chr.NotPlain, Chr.Special]) 92 (by simp [ClassItem.Has, Chr.val])
  refine ⟨⟨⟨⟨⟨⟨⟨⟨⟨⟨fine_one ⟨⟨?_, ?_, 48, ?_⟩, sets_well _⟩, fine_one (fine_two h92 (fine_quoted (by simp [Chr.Special])) rfl rfl rfl), rfl⟩, fine_one (fine_two hb hb rfl rfl rfl), rfl⟩,
    fine_one (fine_two h92 (fine_quoted (by simp [Chr.Special])) rfl rfl rfl), rfl⟩, hc 98 (by simp), rfl⟩, hc 102 (by simp), rfl⟩, hc 110 (by simp), rfl⟩, hc 114 (by simp), rfl⟩,
    hc 116 (by simp), rfl⟩,
    fine_one (fine_two (fine_two (fine_two (fine_two (fine_two h92 (fine_chr (by decide)) rfl rfl rfl) hex_fine rfl rfl rfl) hex_fine rfl rfl rfl) hex_fine rfl rfl rfl) hex_fine rfl rfl rfl),
    rfl⟩, by decide +kernel, named_of (ts := ["/[^\\\"\\\\]/", "/\\\\\\\"/", "/[\\\\][\\\\]/", "/\\\\\\//", "/\\\\b/", "/\\\\f/", "/\\\\n/", "/\\\\r/", "/\\\\t/",
      "/\\\\u{hex-digit}{hex-digit}{hex-digit}{hex-digit}/"]) (by decide +kernel) (by decide +kernel)⟩
  · simp [ClassItem.Ok, Chr.Ok, Chr.NotPlain, Chr.Special]
  · simp [ClassItem.Has, Chr.val, SymSet.maxSymbol]
  · simp [Atom.Has, ClassItem.Has, Chr.val, SymSet.maxSymbol]

theorem number_fine : ∀ r ∈ numberRes, Fine r := by
  simp only [numberRes, List.mem_cons, List.not_mem_nil, or_false]
  rintro r (rfl | rfl | rfl | rfl)
  · exact int_fine
  · exact fine_two int_fine frac_fine rfl rfl rfl
  · exact fine_two int_fine exp_fine rfl rfl rfl
  · exact ⟨fine_two int_fine frac_fine rfl rfl rfl, exp_fine, rfl, rfl, .inr rfl⟩

theorem string_fine : Fine stringRe :=
  ⟨⟨fine_quoted (by simp [Chr.Special]), ⟨char_fine, rfl, rfl, rfl⟩, rfl, rfl, .inl rfl⟩, fine_quoted (by simp [Chr.Special]), rfl, rfl, .inr rfl⟩

theorem blank_fine : Fine blankRe := ⟨space_fine, rfl⟩

/-! ### What they match -/

/-- The texts that an expression matches. -/
abbrev L (r : Re) : _root_.Language Int := r.langN (modes false lowercaseMap uppercaseMap) false

theorem mem_atom (a : Atom) (w : Text) : w ∈ L (.atom a) ↔ ∃ x, a.Has x ∧ w = [x] := by
  constructor
  · rintro ⟨x, ⟨y, hy, e⟩, h⟩
    have e : y = x := e
    exact ⟨x, e ▸ hy, h⟩
  · rintro ⟨x, hx, h⟩
    exact ⟨x, ⟨x, hx, rfl⟩, h⟩

theorem mem_cat (r s : Re) (w : Text) : w ∈ L (.cat r s) ↔ ∃ u v, u ∈ L r ∧ v ∈ L s ∧ w = u ++ v := by
  constructor
  · rintro ⟨u, hu, v, hv, h⟩
    exact ⟨u, v, hu, hv, h.symm⟩
  · rintro ⟨u, v, hu, hv, h⟩
    exact ⟨u, hu, v, hv, h.symm⟩

theorem mem_chr (c : Int) (w : Text) : w ∈ L (ch c) ↔ w = [c] := by
  rw [ch, mem_atom]
  simp [Atom.Has, Chr.val]

theorem mem_quoted (c : Int) (w : Text) : w ∈ L (q c) ↔ w = [c] := by
  rw [mem_atom]
  simp [Atom.Has, Chr.val]

theorem mem_named (n : List Int) (r : Re) (w : Text) : w ∈ L (.named n r) ↔ w ∈ L r := Iff.rfl
theorem mem_one (r : Re) (w : Text) : w ∈ L (one r) ↔ w ∈ L r := Iff.rfl
theorem mem_either (r s : Re) (w : Text) : w ∈ L (.either r s) ↔ w ∈ L r ∨ w ∈ L s := Iff.rfl

/-- A repetition of single characters. -/
theorem mem_plus {r : Re} {P : Int → Prop} (h : ∀ w, w ∈ L r ↔ ∃ c, P c ∧ w = [c]) (w : Text) : w ∈ L (.plus r) ↔ w ≠ [] ∧ ∀ c ∈ w, P c := by
  have hstar : ∀ w : Text, w ∈ KStar.kstar (L r) ↔ ∀ c ∈ w, P c := by
    intro w
    rw [_root_.Language.mem_kstar]
    constructor
    · rintro ⟨l, rfl, hl⟩ c hc
      obtain ⟨y, hy, hcy⟩ := List.mem_flatten.1 hc
      obtain ⟨d, hd, rfl⟩ := (h y).1 (hl y hy)
      rwa [List.mem_singleton.1 hcy]
    · intro hw
      refine ⟨w.map (fun c => [c]), by induction w with | nil => rfl | cons c w ih => simpa using ih (fun d hd => hw d (List.mem_cons_of_mem _ hd)), fun y hy => ?_⟩
      obtain ⟨c, hc, rfl⟩ := List.mem_map.1 hy
      exact (h _).2 ⟨c, hw c hc, rfl⟩
  constructor
  · rintro ⟨u, hu, v, hv, rfl⟩
    obtain ⟨c, hc, rfl⟩ := (h u).1 hu
    refine ⟨by simp, fun d hd => ?_⟩
    rcases List.mem_cons.1 hd with rfl | hd
    · exact hc
    · exact (hstar v).1 hv d hd
  · rintro ⟨hne, hw⟩
    obtain ⟨c, v, rfl⟩ := List.exists_cons_of_ne_nil hne
    exact ⟨[c], (h _).2 ⟨c, hw c (List.mem_cons_self ..), rfl⟩, v, (hstar v).2 fun d hd => hw d (List.mem_cons_of_mem _ hd), rfl⟩

theorem digit_lang (w : Text) : w ∈ L digitRe ↔ ∃ c, Digit c ∧ w = [c] := by
  rw [digitRe, mem_named, mem_one, mem_atom]
  simp [Atom.Has, ClassItem.Has, Chr.val, Digit]

theorem hex_lang (w : Text) : w ∈ L hexRe ↔ ∃ c, HexDigit c ∧ w = [c] := by
  rw [hexRe, mem_named, mem_one, mem_atom]
  simp [Atom.Has, ClassItem.Has, Chr.val, HexDigit, Digit]

theorem space_lang (w : Text) : w ∈ L spaceRe ↔ ∃ c, Space c ∧ w = [c] := by
  rw [spaceRe, mem_named, mem_one, mem_atom]
  simp [Atom.Has, ClassItem.Has, Chr.val, Space]

theorem digits_lang (w : Text) : w ∈ L (.plus digitRe) ↔ Digits w := mem_plus digit_lang w

theorem int_lang (w : Text) : w ∈ L intRe ↔ IsInt w := by
  rw [intRe, mem_named, mem_either, mem_one, mem_one, digits_lang, mem_cat]
  simp only [mem_chr, digits_lang, IsInt]
  constructor
  · rintro (h | ⟨u, v, rfl, hv, rfl⟩)
    · exact .inl h
    · exact .inr ⟨v, rfl, hv⟩
  · rintro (h | ⟨v, rfl, hv⟩)
    · exact .inl h
    · exact .inr ⟨[45], v, rfl, hv, rfl⟩

theorem frac_lang (w : Text) : w ∈ L fracRe ↔ Frac w := by
  rw [fracRe, mem_named, mem_one, mem_cat]
  simp only [mem_atom, digits_lang, Frac, Atom.Has]
  constructor
  · rintro ⟨u, v, ⟨c, hc, rfl⟩, hv, rfl⟩
    exact ⟨c, v, hc.1, hc.2, rfl, hv⟩
  · rintro ⟨c, v, h0, h1, rfl, hv⟩
    exact ⟨[c], v, ⟨c, ⟨h0, h1⟩, rfl⟩, hv, rfl⟩

theorem e_lang (w : Text) : w ∈ L eRe ↔ ∃ c s, (c = 101 ∨ c = 69) ∧ (s = [] ∨ s = [43] ∨ s = [45]) ∧ w = c :: s := by
  simp only [eRe, mem_named, mem_either, mem_one, mem_cat, mem_chr, mem_quoted]
  constructor
  · rintro (((((rfl | ⟨u, v, rfl, rfl, rfl⟩) | ⟨u, v, rfl, rfl, rfl⟩) | rfl) | ⟨u, v, rfl, rfl, rfl⟩) | ⟨u, v, rfl, rfl, rfl⟩) <;> exact ⟨_, _, by simp, by simp, rfl⟩
  · rintro ⟨c, s, rfl | rfl, rfl | rfl | rfl, rfl⟩ <;> simp

theorem exp_lang (w : Text) : w ∈ L expRe ↔ Exp w := by
  rw [expRe, mem_named, mem_one, mem_cat]
  simp only [e_lang, digits_lang, Exp]
  constructor
  · rintro ⟨u, v, ⟨c, s, hc, hs, rfl⟩, hv, rfl⟩
    exact ⟨c, s, v, hc, hs, hv, rfl⟩
  · rintro ⟨c, s, v, hc, hs, hv, rfl⟩
    exact ⟨c :: s, v, ⟨c, s, hc, hs, rfl⟩, hv, rfl⟩

/-- The definitions of numbers (json.tp 43-46) match what `IsNumber` says. -/
theorem number_lang (w : Text) : (∃ r ∈ numberRes, w ∈ L r) ↔ IsNumber w := by
  simp only [numberRes, List.mem_cons, List.not_mem_nil, or_false, exists_eq_or_imp, exists_eq_left, mem_cat, int_lang, frac_lang, exp_lang, IsNumber]
  constructor
  · rintro (h | ⟨a, b, ha, hb, rfl⟩ | ⟨a, b, ha, hb, rfl⟩ | ⟨_, c, ⟨a, b, ha, hb, rfl⟩, hc, rfl⟩)
    · exact .inl h
    · exact .inr (.inl ⟨a, b, ha, hb, rfl⟩)
    · exact .inr (.inr (.inl ⟨a, b, ha, hb, rfl⟩))
    · exact .inr (.inr (.inr ⟨a, b, c, ha, hb, hc, rfl⟩))
  · rintro (h | ⟨a, b, ha, hb, rfl⟩ | ⟨a, b, ha, hb, rfl⟩ | ⟨a, b, c, ha, hb, hc, rfl⟩)
    · exact .inl h
    · exact .inr (.inl ⟨a, b, ha, hb, rfl⟩)
    · exact .inr (.inr (.inl ⟨a, b, ha, hb, rfl⟩))
    · exact .inr (.inr (.inr ⟨_, c, ⟨a, b, ha, hb, rfl⟩, hc, rfl⟩))

theorem mem_backslash (w : Text) : w ∈ L (.atom (.cls false [.one (.quoted 92)])) ↔ w = [92] := by
  rw [mem_atom]
  simp [Atom.Has, ClassItem.Has, Chr.val]

theorem mem_other (w : Text) : w ∈ L (.atom (.cls true [.one (.quoted 34), .one (.quoted 92)])) ↔ ∃ c, 0 ≤ c ∧ c < 0x7fffffff ∧ c ≠ 34 ∧ c ≠ 92 ∧ w = [c] := by
  rw [mem_atom]
  simp [Atom.Has, ClassItem.Has, Chr.val, SymSet.maxSymbol, and_assoc]

/-- One `{char}`. -/
theorem char_lang (w : Text) : w ∈ L charRe ↔ (∃ c, 0 ≤ c ∧ c < 0x7fffffff ∧ c ≠ 34 ∧ c ≠ 92 ∧ w = [c]) ∨ (∃ c ∈ [34, 92, 47, 98, 102, 110, 114, 116], w = [92, c]) ∨
    ∃ a b c d, HexDigit a ∧ HexDigit b ∧ HexDigit c ∧ HexDigit d ∧ w = [92, 117, a, b, c, d] := by
  simp only [charRe, mem_named, mem_either, mem_one, mem_cat, mem_chr, mem_quoted, hex_lang, mem_backslash, mem_other]
  constructor
  · rintro (((((((((h | ⟨u, v, rfl, rfl, rfl⟩) | ⟨u, v, rfl, rfl, rfl⟩) | ⟨u, v, rfl, rfl, rfl⟩) | ⟨u, v, rfl, rfl, rfl⟩) | ⟨u, v, rfl, rfl, rfl⟩) |
      ⟨u, v, rfl, rfl, rfl⟩) | ⟨u, v, rfl, rfl, rfl⟩) | ⟨u, v, rfl, rfl, rfl⟩) |
      ⟨_, _, ⟨_, _, ⟨_, _, ⟨_, _, ⟨_, _, rfl, rfl, rfl⟩, ⟨a, ha, rfl⟩, rfl⟩, ⟨b, hb, rfl⟩, rfl⟩, ⟨c, hc, rfl⟩, rfl⟩, ⟨d, hd, rfl⟩, rfl⟩)
    · exact .inl h
    · exact .inr (.inl ⟨34, by simp, rfl⟩)
    · exact .inr (.inl ⟨92, by simp, rfl⟩)
    · exact .inr (.inl ⟨47, by simp, rfl⟩)
    · exact .inr (.inl ⟨98, by simp, rfl⟩)
    · exact .inr (.inl ⟨102, by simp, rfl⟩)
    · exact .inr (.inl ⟨110, by simp, rfl⟩)
    · exact .inr (.inl ⟨114, by simp, rfl⟩)
    · exact .inr (.inl ⟨116, by simp, rfl⟩)
    · exact .inr (.inr ⟨a, b, c, d, ha, hb, hc, hd, rfl⟩)
  · rintro (⟨c, h0, h1, h2, h3, rfl⟩ | ⟨c, hc, rfl⟩ | ⟨a, b, c, d, ha, hb, hc, hd, rfl⟩)
    · exact .inl (.inl (.inl (.inl (.inl (.inl (.inl (.inl (.inl ⟨c, h0, h1, h2, h3, rfl⟩))))))))
    · simp only [List.mem_cons, List.not_mem_nil, or_false] at hc
      rcases hc with rfl | rfl | rfl | rfl | rfl | rfl | rfl | rfl <;> simp
    · exact .inr ⟨_, _, ⟨_, _, ⟨_, _, ⟨_, _, ⟨_, _, rfl, rfl, rfl⟩, ⟨a, ha, rfl⟩, rfl⟩, ⟨b, hb, rfl⟩, rfl⟩, ⟨c, hc, rfl⟩, rfl⟩, ⟨d, hd, rfl⟩, rfl⟩

theorem chars_lang (w : Text) : w ∈ L (.star charRe) ↔ Chars w := by
  constructor
  · intro h
    obtain ⟨l, rfl, hl⟩ := _root_.Language.mem_kstar.1 (show w ∈ KStar.kstar (L charRe) from h)
    clear h
    induction l with
    | nil => exact .nil
    | cons y l ih =>
      have ih := ih fun z hz => hl z (List.mem_cons_of_mem _ hz)
      rcases (char_lang y).1 (hl y (List.mem_cons_self ..)) with ⟨c, h0, h1, h2, h3, rfl⟩ | ⟨c, hc, rfl⟩ | ⟨a, b, c, d, ha, hb, hc, hd, rfl⟩
      · exact .plain h0 h1 h2 h3 ih
      · exact .quoted hc ih
      · exact .unicode ha hb hc hd ih
  · intro h
    refine (_root_.Language.mem_kstar (l := L charRe)).2 ?_
    induction h with
    | nil => exact ⟨[], rfl, by simp⟩
    | @plain c w h0 h1 h2 h3 _ ih =>
      obtain ⟨l, rfl, hl⟩ := ih
      exact ⟨[c] :: l, rfl, List.forall_mem_cons.2 ⟨(char_lang _).2 (.inl ⟨c, h0, h1, h2, h3, rfl⟩), hl⟩⟩
    | @quoted c w hc _ ih =>
      obtain ⟨l, rfl, hl⟩ := ih
      exact ⟨[92, c] :: l, rfl, List.forall_mem_cons.2 ⟨(char_lang _).2 (.inr (.inl ⟨c, hc, rfl⟩)), hl⟩⟩
    | @unicode a b c d w ha hb hc hd _ ih =>
      obtain ⟨l, rfl, hl⟩ := ih
      exact ⟨[92, 117, a, b, c, d] :: l, rfl, List.forall_mem_cons.2 ⟨(char_lang _).2 (.inr (.inr ⟨a, b, c, d, ha, hb, hc, hd, rfl⟩)), hl⟩⟩

/-- The definition of strings (json.tp 42) matches what `IsString` says. -/
theorem string_lang (w : Text) : w ∈ L stringRe ↔ IsString w := by
  rw [stringRe, mem_cat]
  simp only [mem_cat, mem_quoted, chars_lang, IsString]
  constructor
  · rintro ⟨_, _, ⟨_, v, rfl, hv, rfl⟩, rfl, rfl⟩
    exact ⟨v, hv, rfl⟩
  · rintro ⟨v, hv, rfl⟩
    exact ⟨_, _, ⟨_, v, rfl, hv, rfl⟩, rfl, rfl⟩

/-- The definition of whitespace (json.tp 38). -/
theorem blank_lang (w : Text) : w ∈ L blankRe ↔ w ≠ [] ∧ ∀ c ∈ w, Space c := mem_plus space_lang w

theorem new_reach {u : Text} {p : Nat} (hu : Ndfa.Reach Ndfa.new 0 u p) : u = [] := by
  induction hu with
  | refl => rfl
  | @eps w p p' _ e ih => exact ih
  | @sym w p x p' _ e _ =>
    obtain ⟨s, hs, _⟩ := e
    simp only [Ndfa.new, Ndfa.trans] at hs
    cases p with
    | zero => simp at hs
    | succ p => simp at hs

theorem compiled {r : Re} (hr : r ∈ stringRe :: blankRe :: numberRes) : ∃ n f, addRegex env 5 Ndfa.new false none 0 r.text = some (n, f) ∧ ∀ w, Ndfa.Reach n 0 w f ↔ w ∈ L r := by
  have hf : Fine r := by
    rcases List.mem_cons.1 hr with rfl | hr
    · exact string_fine
    · rcases List.mem_cons.1 hr with rfl | hr
      · exact blank_fine
      · exact number_fine r hr
  have hd : ∀ r ∈ stringRe :: blankRe :: numberRes, r.depth < 5 ∧ r.isAlt = false := by decide +kernel
  obtain ⟨n, f, h1, -, -, -, -, h6, -⟩ := named_language_partial env 5 Ndfa.new (Ndfa.built_wf .new) false lowercaseMap uppercaseMap lower_sorted upper_sorted rfl false 0 (by decide) r hf
    (hd r hr).1 (fun _ => rfl)
  refine ⟨n, f, h1, fun w => (h6 0 w (by decide)).trans ?_⟩
  constructor
  · rintro ⟨u, v, hu, hv, rfl⟩
    rw [new_reach hu]
    exact hv
  · intro hw
    exact ⟨[], w, .refl, hw, rfl⟩

/-- The definitions that the lexer stage gets: whether they are expressions, their texts and their symbols. -/
def lexItems : List (Bool × Text × Int) := ((stage definitions).defs.flatMap (·.2)).map fun i => (i.regex, textOf i, i.symbol)

theorem lexItems_eq : lexItems = [(false, [116, 114, 117, 101], 0), (false, [102, 97, 108, 115, 101], 1), (false, [110, 117, 108, 108], 2), (true, stringRe.text, 3)] ++
    numberRes.map (fun r => (true, r.text, 4)) ++ [(true, blankRe.text, 5), (false, [123], 6), (false, [125], 7), (false, [44], 8), (false, [58], 9), (false, [91], 10), (false, [93], 11)] := by
  decide +kernel

/-- A definition means a text: the automaton that is compiled from its expression, without surrogates, accepts it, or it is the text. -/
def Means (d : Bool × Text × Int) (w : Text) : Prop := if d.1 then ∃ n f, addRegex env 5 Ndfa.new false none 0 d.2.1 = some (n, f) ∧ Ndfa.Reach n 0 w f else w = d.2.1

theorem means_expr {r : Re} {s : Int} {w : Text} (hr : r ∈ stringRe :: blankRe :: numberRes) : Means (true, r.text, s) w ↔ w ∈ L r := by
  obtain ⟨n, f, h1, h2⟩ := compiled hr
  constructor
  · rintro ⟨n', f', h3, h4⟩
    have e : (n, f) = (n', f') := Option.some.inj (h1.symm.trans h3)
    cases e
    exact (h2 w).1 h4
  · exact fun h => ⟨n, f, h1, (h2 w).2 h⟩

/-- `Matches` is what the definitions say that the language stage makes of json.tp. -/
theorem definitions_match (w : Text) (s : Int) : Matches w s ↔ ∃ d ∈ lexItems, d.2.2 = s ∧ Means d w := by
  rw [lexItems_eq]
  have hs := @means_expr stringRe 3 w (by simp)
  have hb := @means_expr blankRe 5 w (by simp)
  have hn : (∃ r ∈ numberRes, Means (true, r.text, 4) w) ↔ IsNumber w := by
    rw [← number_lang]
    exact ⟨fun ⟨r, h1, h2⟩ => ⟨r, h1, (means_expr (by simp [h1])).1 h2⟩, fun ⟨r, h1, h2⟩ => ⟨r, h1, (means_expr (by simp [h1])).2 h2⟩⟩
  rw [string_lang] at hs
  rw [blank_lang] at hb
  have hl : ∀ (v : Text) (k : Int), Means (false, v, k) w ↔ w = v := fun v k => Iff.rfl
  have hex : ∀ (a b : List (Bool × Text × Int)), (∃ d ∈ a ++ b, d.2.2 = s ∧ Means d w) ↔ (∃ d ∈ a, d.2.2 = s ∧ Means d w) ∨ ∃ d ∈ b, d.2.2 = s ∧ Means d w := by
    intro a b
    simp only [List.mem_append, or_and_right, exists_or]
  have hm : (∃ d ∈ numberRes.map (fun r => (true, r.text, (4 : Int))), d.2.2 = s ∧ Means d w) ↔ s = 4 ∧ IsNumber w := by
    rw [← hn]
    constructor
    · rintro ⟨d, hd, h1, h2⟩
      obtain ⟨r, hr, rfl⟩ := List.mem_map.1 hd
      exact ⟨h1.symm, r, hr, h2⟩
    · rintro ⟨rfl, r, hr, h⟩
      exact ⟨_, List.mem_map.2 ⟨r, hr, rfl⟩, rfl, h⟩
  rw [hex, hex, hm]
  simp only [List.mem_cons, List.not_mem_nil, or_false, exists_eq_or_imp, exists_eq_left, hl, hs, hb, Matches, eq_comm (b := s)]
  generalize (w ≠ [] ∧ ∀ c ∈ w, Space c) = B
  constructor
  · rintro (h | h | h | h | h | h | h | h | h | h | h | h) <;> simp only [h, true_and, true_or, or_true]
  · rintro (((h | h | h | h) | h) | h | h | h | h | h | h | h) <;> simp only [h, true_or, or_true, and_self]

/-- `1,2` is a number, by an automaton that is compiled from one of the definitions of json.tp; `,` is not. -/
example : (∃ d ∈ lexItems, d.2.2 = 4 ∧ Means d [49, 44, 50]) ∧ ¬ ∃ d ∈ lexItems, d.2.2 = 4 ∧ Means d [44] := by
  rw [← definitions_match, ← definitions_match]
  constructor
  · have : IsNumber [49, 44, 50] := .inr (.inl ⟨[49], [44, 50], .inl (by simp [Digits, Digit]), ⟨44, [50], by decide, by decide, rfl, by simp [Digits, Digit]⟩, rfl⟩)
    simp [Matches, this]
  · intro h
    have h : IsNumber [44] := by simpa [Matches] using h
    obtain ⟨c, v, h1, h2⟩ := isNumber_head h
    cases h1
    exact absurd h2 (by simp [Digit])

end Json
end TameParse

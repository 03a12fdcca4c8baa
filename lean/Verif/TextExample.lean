import Verif.TextProps

/-!
# A language as a whole (C75): an example

The language `ignore { ws = / +/ }`, `S = L "=" R | R`, `L = "*" R | id`, `R = L` with every choice of the options of the lexer stage.
-/

namespace TameParse
namespace Text
open AssocMap TameParse.Language TameParse.Language.Lang Definitions WeakLexer LexerStage Regex SymSet Closure Relation Lalr TameParse.Parser ParserTables Sound

def exItems : List LexItem := allItems (Language.stage pointerLang)

def exDict : TerminalDict := (Language.stage pointerLang).terminals

def exLang (i : LexItem) : _root_.Language Int :=
  if i.symbol = 0 then (Re.plus (ch 32)).lang false
  else if i.symbol = 3 then (Re.cat (ch 105) (ch 100)).lang true
  else {(textOf i).flatMap (encode (!bland [] i))}

def exAutomaton : Ndfa := (automaton noDefs 1 noFolds [] exItems).getD Ndfa.new

def exDfa : Ndfa := (deterministic exAutomaton).getD Ndfa.new

theorem exItems_eq : exItems = [⟨true, [' ', '+'], false, false, 0, some .ignore, false⟩, ⟨false, ['='], false, false, 1, some .keywords, true⟩,
    ⟨false, ['*'], false, false, 2, some .keywords, true⟩, ⟨true, ['i', 'd'], false, false, 3, some .keywords, true⟩] := by decide +kernel

theorem ex_weak : (Language.stage pointerLang).weak = [3, 2, 1] := by decide +kernel

theorem ex_denotes : ∀ i ∈ exItems, Denotes noDefs 1 noFolds (!bland [] i) i (exLang i) := by
  intro i hi
  rw [exItems_eq] at hi
  simp only [List.mem_cons, List.not_mem_nil, or_false] at hi
  rcases hi with rfl | rfl | rfl | rfl
  · exact .regex (.plus (ch 32)) rfl rfl (by decide) ⟨ch_ok 32 (by decide) (by decide) (by decide) _, rfl⟩ (by decide)
  · exact .literal rfl rfl (by decide)
  · exact .literal rfl rfl (by decide)
  · exact .regex (.cat (ch 105) (ch 100)) rfl rfl (by decide) ⟨ch_ok 105 (by decide) (by decide) (by decide) _, ch_ok 100 (by decide) (by decide) (by decide) _, rfl, rfl, .inl rfl⟩ (by decide)

theorem ex_automaton : automaton noDefs 1 noFolds [] exItems = some exAutomaton := by
  have h : (automaton noDefs 1 noFolds [] exItems).isSome = true := by decide +kernel
  unfold exAutomaton
  cases h2 : automaton noDefs 1 noFolds [] exItems with
  | none => rw [h2] at h; exact nomatch h
  | some x => rfl

theorem ex_suitable (o : Options) : Suitable o (Language.stage pointerLang).weak (Language.stage pointerLang).terminals exAutomaton := by
  have hdet : deterministic exAutomaton = some exDfa := by
    have h : (deterministic exAutomaton).isSome = true := by decide +kernel
    unfold exDfa
    cases h2 : deterministic exAutomaton with
    | none => rw [h2] at h; exact nomatch h
    | some x => rfl
  refine ⟨?_, ?_, ?_, ?_, ?_⟩
  · have e : exAutomaton.syms.syms = [[], [⟨32, 33⟩], [⟨61, 62⟩], [⟨42, 43⟩], [⟨105, 106⟩], [⟨100, 101⟩]] := by decide +kernel
    rw [e]
    intro s hs
    simp only [List.mem_cons, List.not_mem_nil, or_false] at hs
    rcases hs with rfl | rfl | rfl | rfl | rfl | rfl <;> simp [SymSet.Canon]
  · have e : (Dedup.visited exAutomaton.syms.ids).map (·.1) = [⟨32, 33⟩, ⟨42, 43⟩, ⟨61, 62⟩, ⟨100, 101⟩, ⟨105, 106⟩] := by decide +kernel
    rw [e]
    exact ⟨.inl (by simp), .inl (by simp [Range.Mem]; omega), .inl (by simp [Range.Mem]; constructor <;> intros <;> omega),
      .inl (by simp [Range.Mem]; refine ⟨?_, ?_, ?_⟩ <;> intros <;> omega), .inl (by simp [Range.Mem]; refine ⟨?_, ?_, ?_, ?_⟩ <;> intros <;> omega), trivial⟩
  · intro d hd
    rw [hdet] at hd
    have := Option.some.inj hd
    subst this
    decide +kernel
  · intro _ d hd
    rw [hdet] at hd
    have := Option.some.inj hd
    subst this
    have hlen : (withWeak (Language.stage pointerLang).weak (Language.stage pointerLang).terminals exDfa).states.length = 6 := by decide +kernel
    have hacc : ∀ q < 6, q ≠ 0 → q ≠ 4 → (withWeak (Language.stage pointerLang).weak (Language.stage pointerLang).terminals exDfa).accept q ≠ [] := by decide +kernel
    have h1 : (withWeak (Language.stage pointerLang).weak (Language.stage pointerLang).terminals exDfa).trans 1 = [(1, 1)] := by decide +kernel
    have h4 : (withWeak (Language.stage pointerLang).weak (Language.stage pointerLang).terminals exDfa).trans 4 = [(4, 5)] := by decide +kernel
    refine ⟨1, by rw [hlen]; decide, by decide, hacc 1 (by decide) (by decide) (by decide), fun p h1 h2 => by omega, fun q hq1 hq2 hq3 => ?_⟩
    rw [hlen] at hq1
    by_cases hq : q = 4
    · subst hq
      refine ⟨1, fun hiff => ?_⟩
      rw [h1, h4] at hiff
      simp at hiff
    · exact absurd hq3 (hacc q hq1 hq2 hq)
  · intro d e hd he
    rw [hdet] at hd
    have := Option.some.inj hd
    subst this
    have es : (withWeak (Language.stage pointerLang).weak (Language.stage pointerLang).terminals exDfa).syms.syms =
        [[], [⟨32, 33⟩], [⟨42, 43⟩], [⟨61, 62⟩], [⟨100, 101⟩], [⟨105, 106⟩]] := by
      decide +kernel
    refine final_below ?_ ?_ he
    · rw [es]
      intro s hs
      simp only [List.mem_cons, List.not_mem_nil, or_false] at hs
      rcases hs with rfl | rfl | rfl | rfl | rfl | rfl <;> simp [SymSet.Canon]
    · rw [es]
      intro s hs x hx
      simp only [List.mem_cons, List.not_mem_nil, or_false] at hs
      rcases hs with rfl | rfl | rfl | rfl | rfl | rfl <;> simp [SymSet.Mem, Range.Mem] at hx <;> omega

/-- The lexer and the parser of this language, for every text and with every choice of the options. -/
theorem pointer_text (o : Options) : ∃ lexer, compile noDefs 1 noFolds (Language.stage pointerLang).usedIgnored (Language.stage pointerLang).weak
    (Language.stage pointerLang).terminals o exItems = some lexer ∧
    ∀ (input : List Int) (text : Lexeme → Nat), (∀ x ∈ input, 0 ≤ x ∧ x < 65536) →
      ∃ ls st1 st2, LexMachine.PlainRun lexer (LexStream.new input 0) ls st1 ∧ lexer.next st1 = some (none, st2) ∧
      ∃ fuel b s', parse pointerLangEx.tables fuel (Parser.start 0 (ls.map (tok text))) = .ok (b, s') ∧
        (b = true ↔ ∃ w, Tokens (Matches (Language.stage pointerLang) exLang) input w ∧ Means (IsProd (defsOf pointerLang)) [.nonterminal "" "S" .blank] w) := by
  obtain ⟨m, m', hm, hm', hmade⟩ := Ex.made pointerLangEx_ok
  obtain ⟨h0, hk⟩ := Ex.start_kernel pointerLangEx_ok hm
  have hgr : pointerLangEx.g = (Language.stage pointerLang).gram := pointerLang_gram.symm
  have hpl := Ex.plain pointerLangEx_ok
  have hf : ∀ y ∈ pointerLangEx.items, pointerLangEx.g.FirstComplete y (pointerLangEx.first y) := pointerEx_first
  have hsd : ∀ y ∈ pointerLangEx.items, pointerLangEx.g.FirstSound y (pointerLangEx.first y) := pointerEx_sound
  rw [hgr] at hmade hpl hf hsd
  have hid : (Item.nonterminal ((Language.stage pointerLang).ids.idForNonterminal "S").2) = pointerLangEx.start := by decide +kernel
  have hcon : ∀ acts ∈ pointerLangEx.states, Rewriters.findConflicts (fun _ => true) acts = [] := by decide +kernel
  have hacc : ∀ acts ∈ pointerLangEx.states, ∀ b ∈ acts, ∀ c ∈ acts, b.type = .accept → c.item = .eoi → c.type ≠ .reduce := by decide +kernel
  have hign : (Language.stage pointerLang).ignored = [0] := by decide +kernel
  refine text_accepted_partial (blocks := pointerLang) (n := "S") (involved := fun _ _ => true) (U := pointerLangEx.items) (by decide +kernel)
    ?_ (by decide +kernel) (by decide +kernel)
    ⟨_, [], _, (defsOf pointerLang).drop 1, rfl, rfl, List.mem_cons_self .., by decide +kernel⟩ (fun _ => Iff.rfl) exLang ex_denotes (by rw [show allItems (Language.stage pointerLang) = _ from exItems_eq]; decide)
    ex_automaton (ex_suitable o) hmade (Ex.bare rfl) ?_ hpl hf hsd (fun _ h => h) (fun _ _ _ => rfl)
    (fun s acts hs => hcon acts (List.mem_of_getElem? hs)) (fun s acts hs => hacc acts (List.mem_of_getElem? hs)) h0 (by rw [hid]; exact hk)
    (by rw [hid]; decide +kernel)
  · rintro l t w ci cs ⟨⟨ls, h1, h2⟩, -⟩
    simp only [pointerLang, List.flatten_cons, List.flatten_nil, List.append_nil, List.mem_cons, List.not_mem_nil, or_false, Block.lexer.injEq, reduceCtorEq] at h1
    obtain ⟨-, -, -, -, rfl⟩ := h1
    rw [List.mem_singleton] at h2
    rw [h2]
  · intro i
    rw [hign]
    show Item.terminal i ∈ [Item.terminal 0] ↔ _
    simp

/-! ### How one text is read -/

theorem ex_lang_ch (c : Int) (sr : Bool) (h : c < 65536) : (ch c).lang sr = {[c]} := by
  have hone : encode sr c = [c] := by
    unfold encode
    split
    · unfold utf16
      rw [if_pos h]
    · rfl
  ext w
  constructor
  · rintro ⟨x, hx, rfl⟩
    have hx : x = c := hx
    subst hx
    show encode sr x = [x]
    exact hone
  · intro hw
    have hw : w = [c] := hw
    exact ⟨c, rfl, hw.trans hone.symm⟩

theorem ex_matches {c : List Int} {n : String} {x : LexItem} : Matches (Language.stage pointerLang) exLang c n x ↔
    (n = "ws" ∧ x = ⟨true, [' ', '+'], false, false, 0, some .ignore, false⟩ ∧ c ≠ [] ∧ ∀ a ∈ c, a = 32) ∨
    (n = "\"=\"" ∧ x = ⟨false, ['='], false, false, 1, some .keywords, true⟩ ∧ c = [61]) ∨
    (n = "\"*\"" ∧ x = ⟨false, ['*'], false, false, 2, some .keywords, true⟩ ∧ c = [42]) ∨
    (n = "id" ∧ x = ⟨true, ['i', 'd'], false, false, 3, some .keywords, true⟩ ∧ c = [105, 100]) := by
  have hdefs : (Language.stage pointerLang).defs = [("ws", [⟨true, [' ', '+'], false, false, 0, some .ignore, false⟩]),
      ("\"=\"", [⟨false, ['='], false, false, 1, some .keywords, true⟩]), ("\"*\"", [⟨false, ['*'], false, false, 2, some .keywords, true⟩]),
      ("id", [⟨true, ['i', 'd'], false, false, 3, some .keywords, true⟩])] := by decide +kernel
  have hent : ∀ n x, Entry (Language.stage pointerLang) n x ↔ (n = "ws" ∧ x = ⟨true, [' ', '+'], false, false, 0, some .ignore, false⟩) ∨
      (n = "\"=\"" ∧ x = ⟨false, ['='], false, false, 1, some .keywords, true⟩) ∨
      (n = "\"*\"" ∧ x = ⟨false, ['*'], false, false, 2, some .keywords, true⟩) ∨
      (n = "id" ∧ x = ⟨true, ['i', 'd'], false, false, 3, some .keywords, true⟩) := by
    intro n x
    unfold Entry
    rw [hdefs]
    simp only [AssocMap.get]
    by_cases h1 : n = "ws"
    · subst h1; simp
    · by_cases h2 : n = "\"=\""
      · subst h2; simp
      · by_cases h3 : n = "\"*\""
        · subst h3; simp
        · by_cases h4 : n = "id"
          · subst h4; simp
          · simp [h1, h2, h3, h4, Ne.symm h1, Ne.symm h2, Ne.symm h3, Ne.symm h4]
  have l0 : c ∈ exLang ⟨true, [' ', '+'], false, false, 0, some .ignore, false⟩ ↔ c ≠ [] ∧ ∀ a ∈ c, a = 32 := by
    have e : exLang ⟨true, [' ', '+'], false, false, 0, some .ignore, false⟩ = {[32]} * KStar.kstar ({[32]} : _root_.Language Int) := by
      show (ch 32).lang false * KStar.kstar ((ch 32).lang false) = _
      rw [ex_lang_ch 32 false (by decide)]
    rw [e, Language.mem_mul]
    constructor
    · rintro ⟨a, ha, b, hb, rfl⟩
      have ha : a = [32] := ha
      subst ha
      obtain ⟨L, rfl, hL⟩ := Language.mem_kstar.1 hb
      refine ⟨by simp, ?_⟩
      intro a ha
      rcases List.mem_append.1 ha with ha | ha
      · simpa using ha
      · obtain ⟨y, hy, ha⟩ := List.mem_flatten.1 ha
        have hy : y = [32] := hL y hy
        subst hy
        simpa using ha
    · rintro ⟨h1, h2⟩
      cases c with
      | nil => exact absurd rfl h1
      | cons a c =>
        have := h2 a (List.mem_cons_self ..)
        subst this
        refine ⟨[32], rfl, c, Language.mem_kstar.2 ⟨c.map (fun a => [a]), by clear h1 h2; induction c with | nil => rfl | cons a c ih => rw [List.map_cons, List.flatten_cons, ← ih]; rfl, ?_⟩, rfl⟩
        intro y hy
        obtain ⟨a, ha, rfl⟩ := List.mem_map.1 hy
        rw [h2 a (List.mem_cons_of_mem _ ha)]
        rfl
  have l3 : c ∈ exLang ⟨true, ['i', 'd'], false, false, 3, some .keywords, true⟩ ↔ c = [105, 100] := by
    have e : exLang ⟨true, ['i', 'd'], false, false, 3, some .keywords, true⟩ = {[105]} * {[100]} := by
      show (ch 105).lang true * (ch 100).lang true = _
      rw [ex_lang_ch 105 true (by decide), ex_lang_ch 100 true (by decide)]
    rw [e, Language.mem_mul]
    constructor
    · rintro ⟨a, ha, b, hb, rfl⟩
      have ha : a = [105] := ha
      have hb : b = [100] := hb
      rw [ha, hb]; rfl
    · intro h
      exact ⟨[105], rfl, [100], rfl, h.symm⟩
  have l1 : c ∈ exLang ⟨false, ['='], false, false, 1, some .keywords, true⟩ ↔ c = [61] := Iff.rfl
  have l2 : c ∈ exLang ⟨false, ['*'], false, false, 2, some .keywords, true⟩ ↔ c = [42] := Iff.rfl
  unfold Matches
  rw [hent]
  constructor
  · rintro ⟨⟨rfl, rfl⟩ | ⟨rfl, rfl⟩ | ⟨rfl, rfl⟩ | ⟨rfl, rfl⟩, h⟩
    · exact .inl ⟨rfl, rfl, l0.1 h⟩
    · exact .inr (.inl ⟨rfl, rfl, l1.1 h⟩)
    · exact .inr (.inr (.inl ⟨rfl, rfl, l2.1 h⟩))
    · exact .inr (.inr (.inr ⟨rfl, rfl, l3.1 h⟩))
  · rintro (⟨rfl, rfl, h⟩ | ⟨rfl, rfl, h⟩ | ⟨rfl, rfl, h⟩ | ⟨rfl, rfl, h⟩)
    · exact ⟨.inl ⟨rfl, rfl⟩, l0.2 h⟩
    · exact ⟨.inr (.inl ⟨rfl, rfl⟩), l1.2 h⟩
    · exact ⟨.inr (.inr (.inl ⟨rfl, rfl⟩)), l2.2 h⟩
    · exact ⟨.inr (.inr (.inr ⟨rfl, rfl⟩)), l3.2 h⟩

theorem ex_longest {c rest : List Int} (h : rest = [] ∨ ∃ a b r, c ++ rest = a :: b :: r ∧ (c.length = 1 ∧ a ≠ 105 ∧ ¬ (a = 32 ∧ b = 32)) ∨ c = [105, 100]) :
    ∀ w, w <+: c ++ rest → c.length < w.length → ∀ m y, ¬ Matches (Language.stage pointerLang) exLang w m y := by
  intro w hw hlen m y hm
  rcases h with rfl | ⟨a, b, r, h | rfl⟩
  · rw [List.append_nil] at hw
    have := hw.length_le
    omega
  · obtain ⟨h, hc, ha, hab⟩ := h
    rw [h] at hw
    obtain ⟨t, ht⟩ := hw
    rcases w with _ | ⟨u, _ | ⟨v, w⟩⟩
    · simp at hlen
    · simp [hc] at hlen
    · simp only [List.cons_append, List.cons.injEq] at ht
      obtain ⟨rfl, rfl, -⟩ := ht
      rcases ex_matches.1 hm with ⟨-, -, -, h⟩ | ⟨-, -, h⟩ | ⟨-, -, h⟩ | ⟨-, -, h⟩
      · exact hab ⟨h u (by simp), h v (by simp)⟩
      · simp at h
      · simp at h
      · simp only [List.cons.injEq] at h; exact ha h.1
  · obtain ⟨t, ht⟩ := hw
    rcases w with _ | ⟨u, _ | ⟨v, w⟩⟩
    · simp at hlen
    · simp at hlen
    · simp only [List.cons_append, List.cons.injEq] at ht
      obtain ⟨rfl, rfl, -⟩ := ht
      rcases ex_matches.1 hm with ⟨-, -, -, h⟩ | ⟨-, -, h⟩ | ⟨-, -, h⟩ | ⟨-, -, h⟩
      · exact absurd (h 105 (by simp)) (by decide)
      · simp at h
      · simp at h
      · simp only [List.cons.injEq] at h
        rw [h.2.2] at hlen
        simp at hlen

/-- `id = *id` -/
theorem ex_tokens : Tokens (Matches (Language.stage pointerLang) exLang) [105, 100, 32, 61, 32, 42, 105, 100] ["id", "\"=\"", "\"*\"", "id"] := by
  have uniq : ∀ {c : List Int} {n : String} {x : LexItem}, Matches (Language.stage pointerLang) exLang c n x → ∀ m y, Matches (Language.stage pointerLang) exLang c m y → m = n := by
    intro c n x h m y h'
    rcases ex_matches.1 h with ⟨rfl, -, -, h⟩ | ⟨rfl, -, h⟩ | ⟨rfl, -, h⟩ | ⟨rfl, -, h⟩ <;>
      rcases ex_matches.1 h' with ⟨rfl, -, -, h'⟩ | ⟨rfl, -, h'⟩ | ⟨rfl, -, h'⟩ | ⟨rfl, -, h'⟩ <;> first | rfl | skip
    all_goals subst_vars
    all_goals simp at *
  have mid : Matches (Language.stage pointerLang) exLang [105, 100] "id" _ := ex_matches.2 (.inr (.inr (.inr ⟨rfl, rfl, rfl⟩)))
  have meq : Matches (Language.stage pointerLang) exLang [61] "\"=\"" _ := ex_matches.2 (.inr (.inl ⟨rfl, rfl, rfl⟩))
  have mst : Matches (Language.stage pointerLang) exLang [42] "\"*\"" _ := ex_matches.2 (.inr (.inr (.inl ⟨rfl, rfl, rfl⟩)))
  have mws : Matches (Language.stage pointerLang) exLang [32] "ws" _ := ex_matches.2 (.inl ⟨rfl, rfl, by simp, by simp⟩)
  have iws : ∀ m y, Matches (Language.stage pointerLang) exLang [32] m y → y.type = some .ignore := by
    intro m y h
    rcases ex_matches.1 h with ⟨-, rfl, -, -⟩ | ⟨-, -, h⟩ | ⟨-, -, h⟩ | ⟨-, -, h⟩
    · rfl
    all_goals simp at h
  refine .token (c := [105, 100]) (by simp) mid (by decide) (fun m y h => .inl (uniq mid m y h)) (ex_longest (.inr ⟨0, 0, [], .inr rfl⟩)) ?_
  refine .skip (c := [32]) (by simp) ⟨_, _, mws⟩ iws (ex_longest (.inr ⟨32, 61, _, .inl ⟨rfl, rfl, by decide, by decide⟩⟩)) ?_
  refine .token (c := [61]) (by simp) meq (by decide) (fun m y h => .inl (uniq meq m y h)) (ex_longest (.inr ⟨61, 32, _, .inl ⟨rfl, rfl, by decide, by decide⟩⟩)) ?_
  refine .skip (c := [32]) (by simp) ⟨_, _, mws⟩ iws (ex_longest (.inr ⟨32, 42, _, .inl ⟨rfl, rfl, by decide, by decide⟩⟩)) ?_
  refine .token (c := [42]) (by simp) mst (by decide) (fun m y h => .inl (uniq mst m y h)) (ex_longest (.inr ⟨42, 105, _, .inl ⟨rfl, rfl, by decide, by decide⟩⟩)) ?_
  exact .token (c := [105, 100]) (rest := []) (by simp) mid (by decide) (fun m y h => .inl (uniq mid m y h)) (ex_longest (.inl rfl)) .nil

/-- `id = *id` is a sentence of the grammar, so the lexer and the parser together accept this text. -/
theorem ex_sentence : Means (IsProd (defsOf pointerLang)) [.nonterminal "" "S" .blank] ["id", "\"=\"", "\"*\"", "id"] := by
  have hS : IsProd (defsOf pointerLang) "S" [Language.Example.nt "L", .terminal .string "" "\"=\"" .blank, Language.Example.nt "R"] :=
    ⟨[], _, (defsOf pointerLang).drop 1, rfl, rfl, List.mem_cons_self .., by decide +kernel⟩
  have hL1 : IsProd (defsOf pointerLang) "L" [.terminal .string "" "\"*\"" .blank, Language.Example.nt "R"] :=
    ⟨(defsOf pointerLang).take 1, _, (defsOf pointerLang).drop 2, rfl, rfl, List.mem_cons_self .., by decide +kernel⟩
  have hL2 : IsProd (defsOf pointerLang) "L" [Language.Example.t "id"] :=
    ⟨(defsOf pointerLang).take 1, _, (defsOf pointerLang).drop 2, rfl, rfl, List.mem_cons_of_mem _ (List.mem_cons_self ..), by decide +kernel⟩
  have hR : IsProd (defsOf pointerLang) "R" [Language.Example.nt "L"] :=
    ⟨(defsOf pointerLang).take 2, _, [], rfl, rfl, List.mem_cons_self .., by decide +kernel⟩
  have l : Means (IsProd (defsOf pointerLang)) [Language.Example.nt "L"] ["id"] := .nonterminal (u := ["id"]) hL2 (.terminal .nil) .nil
  have r : Means (IsProd (defsOf pointerLang)) [Language.Example.nt "R"] ["id"] := .nonterminal (u := ["id"]) hR l .nil
  have r2 : Means (IsProd (defsOf pointerLang)) [Language.Example.nt "R"] ["\"*\"", "id"] :=
    .nonterminal (u := ["\"*\"", "id"]) hR (.nonterminal (u := ["\"*\"", "id"]) hL1 (.terminal r) .nil) .nil
  exact .nonterminal (u := ["id", "\"=\"", "\"*\"", "id"]) hS (.nonterminal (u := ["id"]) hL2 (.terminal .nil) (.terminal r2)) .nil

example (o : Options) (text : Lexeme → Nat) : ∃ lexer ls st1 fuel s', compile noDefs 1 noFolds (Language.stage pointerLang).usedIgnored (Language.stage pointerLang).weak
    (Language.stage pointerLang).terminals o exItems = some lexer ∧
    LexMachine.PlainRun lexer (LexStream.new [105, 100, 32, 61, 32, 42, 105, 100] 0) ls st1 ∧
    parse pointerLangEx.tables fuel (Parser.start 0 (ls.map (tok text))) = .ok (true, s') := by
  obtain ⟨lexer, hc, h⟩ := pointer_text o
  obtain ⟨ls, st1, st2, h1, -, fuel, b, s', h2, h3⟩ := h [105, 100, 32, 61, 32, 42, 105, 100] text (by decide)
  have hb := h3.2 ⟨_, ex_tokens, ex_sentence⟩
  subst hb
  exact ⟨lexer, ls, st1, fuel, s', hc, h1, h2⟩

end Text
end TameParse

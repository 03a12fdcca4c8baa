import Verif.ToolProps
import Verif.TextExample
/-
The tests of a definition file and the texts of a language (C78), with examples and witnesses.
-/
namespace TameParse
namespace Tool
open AssocMap Files Sound TameParse.Parser ParserTables LexerStage
open TameParse.Language TameParse.Language.Lang

/-! ### Lexing and parsing a text -/

/-- All lexemes of a stream; `none` if there are more than the bound. -/
def lexAll (m : LexMachine) : Nat → LexStream → Option (List Lexeme)
  | 0, _ => none
  | fuel + 1, st =>
    match m.next st with
    | none => none
    | some (none, _) => some []
    | some (some l, st') => (lexAll m fuel st').map (l :: ·)

/-- What `create_stream_from`, `create_parser` and `parse` come to for a text (test_stage.cpp 275-285); `none` if they take more steps than the bound. -/
def runText (m : LexMachine) (t : Tables) (tag : Lexeme → Nat) (state fuel : Nat) (text : List Char) : Option Bool :=
  (lexAll m fuel (LexStream.new (text.map fun c => (c.toNat : Int)) 0)).bind fun ls =>
    match parse t fuel (Parser.start state (ls.map (Text.tok tag))) with
    | .ok (b, _) => some b
    | .error _ => none

theorem lexAll_plain {m : LexMachine} {st st' st'' : LexStream} {ls : List Lexeme} (h : m.PlainRun st ls st') (he : m.next st' = some (none, st'')) :
    ∀ fuel, ls.length < fuel → lexAll m fuel st = some ls := by
  induction h with
  | nil st =>
    intro fuel hf
    cases fuel with
    | zero => cases hf
    | succ f => rw [lexAll, he]
  | @cons st st1 st2 l ls h _ ih =>
    intro fuel hf
    cases fuel with
    | zero => cases hf
    | succ f =>
      rw [lexAll, h]
      dsimp only
      rw [ih he f (by simpa using hf)]
      rfl

theorem lexAll_unique {m : LexMachine} : ∀ {f f' : Nat} {st : LexStream} {ls ls' : List Lexeme}, lexAll m f st = some ls → lexAll m f' st = some ls' → ls = ls' := by
  intro f
  induction f with
  | zero => intro f' st ls ls' h; cases h
  | succ f ih =>
    intro f' st ls ls' h h'
    cases f' with
    | zero => cases h'
    | succ f' =>
      rw [lexAll] at h h'
      cases hn : m.next st with
      | none => rw [hn] at h; cases h
      | some p =>
        obtain ⟨o, st'⟩ := p
        rw [hn] at h h'
        cases o with
        | none => dsimp only at h h'; rw [← Option.some.inj h, ← Option.some.inj h']
        | some l =>
          dsimp only at h h'
          obtain ⟨a, ha, rfl⟩ := Option.map_eq_some_iff.1 h
          obtain ⟨b, hb, rfl⟩ := Option.map_eq_some_iff.1 h'
          rw [ih ha hb]

/-- `run` is what the lexer and the parser do, however long it takes. -/
structure Behaves (run : List Char → Option Bool) (m : LexMachine) (t : Tables) (tag : Lexeme → Nat) (state : Nat) : Prop where
  sound : ∀ text b, run text = some b → ∃ fuel, runText m t tag state fuel text = some b
  total : ∀ text b fuel, runText m t tag state fuel text = some b → (run text).isSome

/-- **C78**, texts. If the lexer and the parser come to an end for every text and accept just those of `P` (as C75 shows for the definition of a language), then so do the tests. -/
theorem text_answers {run : List Char → Option Bool} {m : LexMachine} {t : Tables} {tag : Lexeme → Nat} {state : Nat} (hb : Behaves run m t tag state) {P : List Int → Prop}
    (h : ∀ (input : List Int) (text : Lexeme → Nat), (∀ x ∈ input, 0 ≤ x ∧ x < 65536) →
      ∃ ls st1 st2, LexMachine.PlainRun m (LexStream.new input 0) ls st1 ∧ m.next st1 = some (none, st2) ∧
      ∃ fuel b s', parse t fuel (Parser.start state (ls.map (Text.tok text))) = .ok (b, s') ∧ (b = true ↔ P input))
    {text : List Char} (hc : ∀ c ∈ text, c.toNat < 65536) : ∃ b, run text = some b ∧ (b = true ↔ P (text.map fun c => (c.toNat : Int))) := by
  obtain ⟨ls, st1, st2, h1, h2, fuel, b, s', h3, h4⟩ := h (text.map fun c => (c.toNat : Int)) tag (by
    intro x hx
    obtain ⟨c, hm, rfl⟩ := List.mem_map.1 hx
    have := hc c hm
    omega)
  have hl := lexAll_plain h1 h2 (fuel + ls.length + 1) (by omega)
  have hp : parse t (fuel + ls.length + 1) (Parser.start state (ls.map (Text.tok tag))) = .ok (b, s') := (parse_mono t fuel _ _ (by omega)).ok h3
  have hrun : runText m t tag state (fuel + ls.length + 1) text = some b := by
    unfold runText
    rw [hl]
    show (match parse t (fuel + ls.length + 1) (Parser.start state (ls.map (Text.tok tag))) with
      | .ok (b, _) => some b
      | .error _ => none) = some b
    rw [hp]
  obtain ⟨b', hb'⟩ := Option.isSome_iff_exists.1 (hb.total text b _ hrun)
  refine ⟨b', hb', ?_⟩
  obtain ⟨f', hf'⟩ := hb.sound text b' hb'
  have : b' = b := by
    unfold runText at hf'
    obtain ⟨ls', hl', hf'⟩ := Option.bind_eq_some_iff.1 hf'
    cases lexAll_unique hl hl'
    cases hq : parse t f' (Parser.start state (ls.map (Text.tok tag))) with
    | error e => rw [hq] at hf'; cases hf'
    | ok r =>
      rw [hq] at hf'
      have := parse_unique h3 hq
      subst this
      exact (Option.some.inj hf').symm
  rw [this]
  exact h4

/-! ### A language with tests -/

open Text in
/-- The texts of the language of `pointerLang`. -/
def PointerText (input : List Int) : Prop :=
  ∃ w, Tokens (Matches (Language.stage pointerLang) Text.exLang) input w ∧ Means (IsProd (defsOf pointerLang)) [.nonterminal "" "S" .blank] w

/-- What a lexer and a parser do. -/
noncomputable def actual (m : LexMachine) (t : Tables) (text : List Char) : Option Bool :=
  open Classical in if h : ∃ b fuel, runText m t (fun _ => 0) 0 fuel text = some b then some h.choose else none

theorem actual_behaves (m : LexMachine) (t : Tables) : Behaves (actual m t) m t (fun _ => 0) 0 := by
  constructor
  · intro text b h
    unfold actual at h
    split at h
    · rename_i hx
      rw [← Option.some.inj h]
      exact hx.choose_spec
    · cases h
  · intro text b fuel h
    unfold actual
    rw [dif_pos ⟨b, fuel, h⟩]
    rfl

/-- A file of tests for a language with one parser. -/
def pointerWorld (run : List Char → Option Bool) : World where
  find n := if n = "Pointer" then some ⟨"Pointer", [], []⟩ else none
  stages _ := ⟨[], [], [], true, fun _ => ⟨[], some run⟩⟩
  openFile _ := none

/-- A test block for the language. -/
def pointerTests (kind : TestType) (text : String) : List Top := [.tests "Pointer" [⟨"", "S", kind, "", text.toList⟩]]

theorem one_test {run : List Char → Option Bool} {kind : TestType} (hk : kind ≠ .matchFromFile) {text : String} {b : Bool} (hb : run text.toList = some b) {P : List Char → Prop}
    (hiff : b = true ↔ P text.toList) : ∃ s, testStage (pointerWorld run) (pointerTests kind text) = .ok s ∧ (exitCode false s.log = 0 ↔ (P text.toList ↔ kind ≠ .noMatch)) := by
  have htext : ∀ x, TextOf (pointerWorld run) ⟨"", "S", kind, "", text.toList⟩ x ↔ x = text.toList := by
    intro x
    unfold TextOf
    exact ⟨fun h => h.elim (fun h => absurd h.1 hk) (fun h => h.2), fun h => .inr ⟨hk, h⟩⟩
  have hin : ∀ lang ts, Top.tests lang ts ∈ pointerTests kind text → lang = "Pointer" ∧ ts = [⟨"", "S", kind, "", text.toList⟩] := by
    intro lang ts hm
    have := List.mem_singleton.1 hm
    cases this
    exact ⟨rfl, rfl⟩
  have hans : ∀ r, Answers (pointerWorld run) "Pointer" "S" text.toList r ↔ r = b := by
    intro r
    constructor
    · rintro ⟨run', h1, h2⟩
      have h1 : some run = some run' := h1
      cases h1
      rw [hb] at h2
      exact (Option.some.inj h2).symm
    · rintro rfl
      exact ⟨_, rfl, hb⟩
  have hname : (baseName "Pointer" ⟨"", "S", kind, "", text.toList⟩ ++ "." ++ toString 1).length ≤ 54 := by
    show ("Pointer" ++ "." ++ (if ("" : String) ≠ "" then "" else "S") ++ "." ++ toString 1).length ≤ 54
    decide +kernel
  obtain ⟨s, hs⟩ := (tests_end (pointerWorld run) (pointerTests kind text)).2 (by
    intro lang ts hm _ _ a t c hts x hx
    obtain ⟨rfl, rfl⟩ := hin lang ts hm
    cases a with
    | cons y a => cases a <;> cases hts
    | nil =>
      cases hts
      rw [(htext x).1 hx]
      exact ⟨⟨b, (hans b).2 rfl⟩, hname⟩)
  refine ⟨s, hs, ?_⟩
  rw [tests_mean hs false (fun _ _ x => P x) ⟨_, _, List.mem_singleton.2 rfl⟩]
  · constructor
    · intro h
      obtain ⟨x, hx, hp⟩ := h _ _ (List.mem_singleton.2 rfl) _ (List.mem_singleton.2 rfl)
      rw [(htext x).1 hx] at hp
      exact hp
    · intro h lang ts hm t htm
      obtain ⟨rfl, rfl⟩ := hin lang ts hm
      have := List.mem_singleton.1 htm
      subst this
      exact ⟨text.toList, (htext _).2 rfl, h⟩
  · intro lang ts hm
    obtain ⟨rfl, rfl⟩ := hin lang ts hm
    exact ⟨rfl, loud_nil, loud_nil, loud_nil, rfl, fun _ _ => loud_nil⟩
  · intro lang ts hm t htm x r hx hr
    obtain ⟨rfl, rfl⟩ := hin lang ts hm
    have := List.mem_singleton.1 htm
    subst this
    rw [(htext x).1 hx] at hr ⊢
    rw [(hans r).1 hr]
    exact hiff

/-- The tests pass exactly if the text is one of the language, or not one for a test that should not match. -/
theorem pointer_tests (o : Options) : ∃ lexer, compile Regex.noDefs 1 noFolds (Language.stage pointerLang).usedIgnored (Language.stage pointerLang).weak
    (Language.stage pointerLang).terminals o Text.exItems = some lexer ∧
    ∀ (kind : TestType) (text : String), kind ≠ .matchFromFile → (∀ c ∈ text.toList, c.toNat < 65536) → ∃ s, testStage (pointerWorld (actual lexer pointerLangEx.tables)) (pointerTests kind text) = .ok s ∧
      (exitCode false s.log = 0 ↔ (PointerText (text.toList.map fun c => (c.toNat : Int)) ↔ kind ≠ .noMatch)) := by
  obtain ⟨lexer, hc, h⟩ := Text.pointer_text o
  refine ⟨lexer, hc, fun kind text hk ht => ?_⟩
  obtain ⟨b, hb, hiff⟩ := text_answers (actual_behaves lexer pointerLangEx.tables) (P := PointerText) h ht
  exact one_test hk hb (P := fun x => PointerText (x.map fun c => (c.toNat : Int))) hiff

/-- `id = *id` is in the language: the test that it matches passes, and the test that it does not match fails. -/
example (o : Options) : ∃ lexer s s', compile Regex.noDefs 1 noFolds (Language.stage pointerLang).usedIgnored (Language.stage pointerLang).weak
    (Language.stage pointerLang).terminals o Text.exItems = some lexer ∧
    testStage (pointerWorld (actual lexer pointerLangEx.tables)) (pointerTests .match "id = *id") = .ok s ∧ exitCode false s.log = 0 ∧
    testStage (pointerWorld (actual lexer pointerLangEx.tables)) (pointerTests .noMatch "id = *id") = .ok s' ∧ exitCode false s'.log ≠ 0 := by
  obtain ⟨lexer, hc, h⟩ := pointer_tests o
  have hin : PointerText ("id = *id".toList.map fun c => (c.toNat : Int)) := ⟨_, Text.ex_tokens, Text.ex_sentence⟩
  obtain ⟨s, h1, h2⟩ := h .match "id = *id" (by decide) (by decide)
  obtain ⟨s', h3, h4⟩ := h .noMatch "id = *id" (by decide) (by decide)
  refine ⟨lexer, s, s', hc, h1, h2.2 ⟨fun _ => by decide, fun _ => hin⟩, h3, fun he => ?_⟩
  exact (h4.1 he).1 hin rfl

/-! ### Witnesses -/

/-- A language whose parsers accept all texts; `Other` is no nonterminal of it. -/
def easyWorld : World where
  find n := if n = "Easy" then some ⟨"Easy", [], []⟩ else none
  stages _ := ⟨[], [], [], true, fun nt => if nt = "Other" then ⟨[⟨.error, "UNDEFINED_NONTERMINAL"⟩, ⟨.error, "NO_START_SYMBOLS"⟩], none⟩ else ⟨[], some fun _ => some true⟩⟩
  openFile _ := none

def longName : String := "a-nonterminal-with-a-name-that-is-not-shorter-than-most"

/-- **C78** is violated for long names: the only test of this file passes, but the name of the nonterminal is so long that writing the result throws an exception. -/
theorem name_violated : ¬ Fails easyWorld "Easy" ⟨"", longName, .match, "", "x".toList⟩ ∧
    testStage easyWorld [.tests "Easy" [⟨"", longName, .match, "", "x".toList⟩]] = .error .lengthError := by
  constructor
  · rintro (h | ⟨text, b, h1, ⟨run, h2, h3⟩, h4⟩)
    · exact h _ (.inr ⟨by decide, rfl⟩)
    · have : run = fun _ => some true := by
        have : ((easyWorld.stages "Easy").parser longName).tables = some fun _ => some true := by
          unfold easyWorld
          dsimp only
          rw [if_neg (by decide +kernel)]
        exact Option.some.inj (h2.symm.trans this)
      subst this
      cases h3
      exact nomatch h4.1 rfl
  · decide +kernel

/-- **C78** is violated for tests of nonterminals that are not defined: this is reported, but the parser is then used although it has no tables. -/
theorem undefined_violated : testStage easyWorld [.tests "Easy" [⟨"", "Other", .noMatch, "", "x".toList⟩]] = .error .null := by
  decide +kernel

/-- Two tests of one name, and a missing file. -/
example : (testStage easyWorld [.tests "Easy" [⟨"", "S", .match, "", "x".toList⟩, ⟨"", "S", .noMatch, "", "y".toList⟩, ⟨"", "S", .matchFromFile, "", "z".toList⟩]]).map (fun s => (s.lines, s.log)) =
    .ok ([("Easy.S.1", true), ("Easy.S.2", false)], [⟨.error, "THIS_TEST_FAILED"⟩, ⟨.error, "TEST_FILE_NOT_FOUND"⟩, ⟨.error, "TESTS_FAILED"⟩]) := by
  decide +kernel

/-! ### The choice of the language -/

def plainOpts : Opts := ⟨false, false, "", "", false, false, "", "", []⟩

def twoBlocks : List Top := [.language ⟨"A", [], []⟩, .language ⟨"B", [], []⟩, .parser "BParser" "B" ["S"]]

example : Chosen plainOpts twoBlocks ⟨"B", "BParser", ["S"]⟩ := .block (n := "BParser") rfl rfl rfl

example : Chosen { plainOpts with compileLanguage := "A", startSymbols := ["T"] } twoBlocks ⟨"A", "A", ["T"]⟩ := .options (by decide)

/-- With a start symbol but no language, the parser block is not looked at. -/
example : ¬ ∃ t, Chosen { plainOpts with startSymbols := ["T"] } twoBlocks t := by
  rintro ⟨t, h⟩
  cases h with
  | options h => exact h rfl
  | block _ h => cases h
  | inferred _ _ h => cases h

/-- A run in which all stages are content. -/
def goodRun : Run where
  data := some twoBlocks
  parsed := []
  imported := []
  tests := .ok []
  built := []
  known n := n = "A" || n = "B"
  unused _ := [⟨.warning, "UNUSED_TERMINAL_SYMBOL"⟩]
  lexer _ := []
  parser _ _ := [⟨.warning, "CONFLICT_SHIFT_REDUCE"⟩]
  output _ _ := []

example : (mainRun plainOpts goodRun).map (fun r => (r.code, r.output)) = .ok (0, some ("cplusplus", ⟨"B", "BParser", ["S"]⟩)) := by decide +kernel

example : (mainRun { plainOpts with runTests := true } goodRun).map (fun r => (r.code, r.output)) = .ok (0, none) := by decide +kernel

example : (mainRun plainOpts { goodRun with lexer := fun _ => [⟨.bug, "BUG_DFA_FAILED_TO_COMPILE"⟩] }).map (fun r => (r.code, r.output)) = .ok (6, none) := by decide +kernel

end Tool
end TameParse

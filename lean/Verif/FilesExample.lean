import Verif.FilesProps
import Verif.StringProps
/-
Examples for C77, and the files for which the reading of definitions does not do what it should.
-/
namespace TameParse
namespace Files
open AssocMap TameParse.Language

/-! ### The tests of a file -/

/-- `d` is the test that `s` asks for in a definition `t`; the text is what the string between the quotes spells. -/
def Asked (t : TestSyntax) (s : Option String × List Char) (d : TestDef) : Prop :=
  d.language = t.source ∧ d.nonterminal = t.nonterminal ∧ d.type = t.type ∧ d.name = s.1.getD "" ∧
    ∀ p q w v, s.2 = p :: w ++ [q] → Strings.Spells w v → d.text = v

/-- **C77**, tests. A test block has the tests that are written, in their order, and there is one for each text. -/
theorem tests_written {l : String} {ts : List TestSyntax} {b : Top} (h : topOf (.tests l ts) = some b) :
    ∃ ds, b = .tests l ds ∧ List.Forall₂ (fun (s : TestSyntax × (Option String × List Char)) d => Asked s.1 s.2 d) (ts.flatMap fun t => t.specs.map fun s => (t, s)) ds ∧ ∀ t ∈ ts, t.specs ≠ [] := by
  obtain ⟨dss, hd, rfl⟩ := Option.map_eq_some_iff.1 h
  refine ⟨dss.flatten, rfl, ?_⟩
  have := (mapM_some _ _ _).1 hd
  clear h hd
  induction this with
  | nil => exact ⟨.nil, by simp⟩
  | @cons t ds ts dss ht _ ih =>
    obtain ⟨ih1, ih2⟩ := ih
    unfold testOf at ht
    split at ht
    · cases ht
    rename_i hne
    cases ht
    refine ⟨?_, fun u hu => (List.mem_cons.1 hu).elim (fun h => h ▸ hne) (ih2 u)⟩
    rw [List.flatMap_cons, List.flatten_cons]
    refine List.rel_append ?_ ih1
    rw [List.forall₂_map_left_iff, List.forall₂_map_right_iff, List.forall₂_same]
    refine fun s _ => ⟨rfl, rfl, rfl, rfl, fun p q w v hs hw => ?_⟩
    show Lang.dequote s.2 = v
    rw [hs]
    exact Strings.dequote_spells hw p q

/-- Three tests in two definitions. -/
example : ∃ ds, topOf (.tests "L" [⟨"", "S", .match, [(none, "\"a\"".toList), (some "two", "\"a\\n\"".toList)]⟩, ⟨"", "S", .noMatch, [(none, "\"b\"".toList)]⟩]) = some (.tests "L" ds) ∧
    ds.map (fun d => (d.name, d.text)) = [("", ['a']), ("two", ['a', '\n']), ("", ['b'])] :=
  ⟨_, rfl, by decide +kernel⟩

/-- `<S> = a` with the lexeme `a`. -/
def letterUnits (a : String) : List UnitSyntax :=
  [.keywords [] [.literal a], .grammar [⟨.assignment, "S", [[.terminal .ident "" a .blank]]⟩]]

/-- `main.tp`: imports two files and has a language that inherits from the one of `base.tp`. -/
def mainFile : List TopSyntax :=
  [.imports "\"base.tp\"".toList, .imports "\"lost.tp\"".toList, .language ⟨"Main", some "Base", [.grammar [⟨.addition, "S", [[.terminal .ident "" "a" .blank, .terminal .ident "" "a" .blank]]⟩]]⟩,
    .parser "p" "Main" ["S"]]

/-- `base.tp`, which imports `main.tp` in turn. -/
def baseFile : List TopSyntax := [.language ⟨"Base", none, letterUnits "a"⟩, .imports "\"main.tp\"".toList]

/-- Two files and one that cannot be read. -/
def goodConsole : Console := ⟨id, fun n => if n = "main.tp" then .parsed mainFile else if n = "base.tp" then .parsed baseFile else .missing⟩

/-- The three files are read, the missing one is reported, and both languages are found. -/
example : (importFile goodConsole 5 "main.tp").map (fun s => (s.files.map Prod.fst, s.errors, (s.langs.map Prod.fst, s.fileWithLanguage "Base"))) =
    some (["main.tp", "base.tp", "lost.tp"], [.cantOpen "lost.tp"], (["Main", "Base"], "base.tp")) := by
  decide +kernel

theorem good_faithful : Faithful goodConsole "main.tp" := by
  intro a b _ _ h
  exact congrArg _ (show a = b from h)

/-- What is compiled for `Main` are its own block and that of `Base`. -/
example : ∃ s b r, importFile goodConsole 5 "main.tp" = some s ∧ s.languageWithName "Main" = some b ∧ compileLanguage s.languageWithName 2 b = some r ∧
    r.1.rules.map (fun p => p.2.length) = [2] ∧ ∃ l ls, l.name = "Main" ∧ Heir (fun l => ∃ n, Found goodConsole "main.tp" n l) l ls r.2 ∧ r.1 = stage (ls.map LanguageSyntax.blocks) := by
  have h : (((importFile goodConsole 5 "main.tp").bind fun s => (s.languageWithName "Main").bind fun b => (compileLanguage s.languageWithName 2 b).map fun r =>
      r.1.rules.map (fun p => p.2.length)) = some [2]) := by decide +kernel
  obtain ⟨s, hs, h⟩ := Option.bind_eq_some_iff.1 h
  obtain ⟨b, hb, h⟩ := Option.bind_eq_some_iff.1 h
  obtain ⟨r, hr, h⟩ := Option.map_eq_some_iff.1 h
  exact ⟨s, b, r, hs, hb, hr, h, imported_language rfl good_faithful hs hb hr⟩

/-! A file with a lexeme that is defined by a reference -/

/-- `lib.tp`: `language Lib { lexer { a = Base.b } grammar { <S> = a } }`. -/
def libFile : List TopSyntax :=
  [.language ⟨"Lib", none, [.lexer [] [.reference "a" "Base" "b"], .grammar [⟨.assignment, "S", [[.terminal .ident "" "a" .blank]]⟩]]⟩]

def refConsole : Console := ⟨id, fun n => if n = "lib.tp" then .parsed libFile else .parsed [.imports "\"lib.tp\"".toList, .language ⟨"Main", none, letterUnits "a"⟩]⟩

/-- **C77**, references: a file that is named, and that was opened and parsed, has a language that is not found, and nothing is reported. -/
theorem reference_violated : Loaded refConsole "main.tp" "lib.tp" ∧ refConsole.read "lib.tp" = .parsed libFile ∧ "Lib" ∈ (languagesOf libFile).map (·.name) ∧
    ∃ s, importFile refConsole 5 "main.tp" = some s ∧ s.errors = [] ∧ s.languageWithName "Lib" = none := by
  refine ⟨?_, by unfold refConsole; dsimp only; rw [if_pos rfl], by decide +kernel, ?_⟩
  · have hn : fileName "\"lib.tp\"".toList = "lib.tp" := by decide +kernel
    rw [← hn]
    refine .imports (f := [.imports "\"lib.tp\"".toList, .language ⟨"Main", none, letterUnits "a"⟩]) .root (by unfold refConsole; dsimp only; rw [if_neg (by decide +kernel)]) ?_ List.mem_cons_self
    refine (file_data _).1 (by decide +kernel)
  · have h : (importFile refConsole 5 "main.tp").map (fun s => (s.errors, (s.languageWithName "Lib").isNone)) = some ([], true) := by decide +kernel
    obtain ⟨s, hs, h⟩ := Option.map_eq_some_iff.1 h
    exact ⟨s, hs, congrArg Prod.fst h, Option.isNone_iff_eq_none.1 (congrArg Prod.snd h)⟩

/-! Languages that inherit from each other -/

def loopConsole : Console := ⟨id, fun _ => .parsed [.language ⟨"A", some "B", letterUnits "a"⟩, .language ⟨"B", some "A", letterUnits "b"⟩]⟩

/-- **C77**, inheritance: nothing is reported for languages that inherit from each other, and compiling them never ends. -/
theorem inheritance_violated : ∃ s b, importFile loopConsole 5 "main.tp" = some s ∧ s.errors = [] ∧ s.languageWithName "A" = some b ∧
    ∀ fuel, compileLanguage s.languageWithName fuel b = none := by
  have h : ((importFile loopConsole 5 "main.tp").bind fun s => (s.languageWithName "A").bind fun a => (s.languageWithName "B").map fun b =>
      (s.errors, a.inherits, b.inherits)) = some ([], ["B"], ["A"]) := by decide +kernel
  obtain ⟨s, hs, h⟩ := Option.bind_eq_some_iff.1 h
  obtain ⟨a, ha, h⟩ := Option.bind_eq_some_iff.1 h
  obtain ⟨b, hb, h⟩ := Option.map_eq_some_iff.1 h
  obtain ⟨he, hi⟩ := Prod.mk.inj h
  obtain ⟨hia, hib⟩ := Prod.mk.inj hi
  refine ⟨s, a, hs, he, ha, ?_⟩
  have key : ∀ fuel, compileLanguage s.languageWithName fuel a = none ∧ compileLanguage s.languageWithName fuel b = none := by
    intro fuel
    induction fuel with
    | zero => exact ⟨rfl, rfl⟩
    | succ fuel ih =>
      constructor
      · rw [compileLanguage, hia]
        dsimp only
        rw [hb]
        dsimp only
        rw [ih.2]
        rfl
      · rw [compileLanguage, hib]
        dsimp only
        rw [ha]
        dsimp only
        rw [ih.1]
        rfl
  exact fun fuel => (key fuel).1

/-! One file with two paths -/

/-- The files on the disk: `dir/x.tp` and `dir/y.tp` import each other. -/
def disk (path : String) : Option (List TopSyntax) :=
  if path = "/home/dir/x.tp" then some [.imports "\"y.tp\"".toList, .language ⟨"X", none, letterUnits "x"⟩]
  else if path = "/home/dir/y.tp" then some [.imports "\"x.tp\"".toList, .language ⟨"Y", none, letterUnits "y"⟩]
  else none

/-- `boost_console` for the input file `dir/x.tp` in the directory `/home` (parsetool/boost_console.cpp 284-307, 327-359): `real_path` makes a path
absolute in the current directory, and a file that is not there is looked for next to the input file. -/
def homeConsole : Console where
  realPath n := if "/home/".toList.isPrefixOf n.toList then n else "/home/" ++ n
  read n :=
    match disk ("/home/" ++ n) with
    | some f => .parsed f
    | none => match disk ("/home/dir/" ++ n) with
      | some f => .parsed f
      | none => .missing

/-- **C77**, paths: no two files define the same language, and no file defines a language twice, but a language is reported as defined more than once. -/
theorem path_violated : (∀ p q f g, disk p = some f → disk q = some g → p ≠ q → ∀ l ∈ languagesOf f, ∀ m ∈ languagesOf g, l.name ≠ m.name) ∧
    (∀ p f, disk p = some f → ((languagesOf f).map (·.name)).Nodup) ∧
    ∃ s, importFile homeConsole 5 "dir/x.tp" = some s ∧ s.errors = [.ambiguous "X" "x.tp"] := by
  refine ⟨?_, ?_, ?_⟩
  · intro p q f g hp hq hne
    unfold disk at hp hq
    split at hp
    · split at hq
      · rename_i h1 h2; exact absurd (h1.trans h2.symm) hne
      · split at hq
        · cases hp; cases hq; decide +kernel
        · cases hq
    · split at hp
      · split at hq
        · cases hp; cases hq; decide +kernel
        · split at hq
          · rename_i h1 _ h2; exact absurd (h1.trans h2.symm) hne
          · cases hq
      · cases hp
  · intro p f hp
    unfold disk at hp
    split at hp
    · cases hp; decide +kernel
    · split at hp
      · cases hp; decide +kernel
      · cases hp
  · have h : (importFile homeConsole 5 "dir/x.tp").map (·.errors) = some [.ambiguous "X" "x.tp"] := by decide +kernel
    obtain ⟨s, hs, h⟩ := Option.map_eq_some_iff.1 h
    exact ⟨s, hs, h⟩

end Files
end TameParse

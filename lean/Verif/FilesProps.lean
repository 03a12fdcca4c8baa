import Verif.Files
import Mathlib.Data.List.Perm.Basic
import Mathlib.Data.List.Perm.Subperm
/-
C77: which files are read, which languages are found in them, and which language is compiled for one that inherits from others.

Source: see `Files`.
-/
namespace TameParse
namespace Files
open AssocMap Language

/-! ### What a file says -/

/-- The lexemes of a unit. -/
def UnitSyntax.lexemes : UnitSyntax → List LexemeSyntax
  | .symbols _ ls | .lexer _ ls => ls
  | .ignore ks | .keywords _ ks => ks.filterMap fun | .lexeme l => some l | .literal _ => none
  | .grammar _ | .precedence _ => []

/-- No lexeme is defined by a reference to another language, and there is a text for each test (as the syntax has it). -/
def Usable (f : List TopSyntax) : Prop :=
  (∀ l, .language l ∈ f → ∀ u ∈ l.units, ∀ x ∈ u.lexemes, ∃ d, x = .definition d) ∧ ∀ n ts, .tests n ts ∈ f → ∀ t ∈ ts, t.specs ≠ []

/-- The name of an imported file. -/
def fileName (quoted : List Char) : String := String.ofList (Lang.dequote quoted)

/-- The files that are read, beginning with `root`: those that are named in files that can be used. -/
inductive Loaded (c : Console) (root : String) : String → Prop
  | root : Loaded c root root
  | imports {n : String} {f : List TopSyntax} {q : List Char} : Loaded c root n → c.read n = .parsed f → Usable f → .imports q ∈ f → Loaded c root (fileName q)

/-- A language of a file that is read. -/
def Found (c : Console) (root n : String) (l : LanguageSyntax) : Prop := Loaded c root n ∧ ∃ f, c.read n = .parsed f ∧ Usable f ∧ .language l ∈ f

/-- The languages of a file. -/
def languagesOf (f : List TopSyntax) : List LanguageSyntax := f.filterMap fun | .language l => some l | _ => none

/-- The lexeme that is defined here. -/
def LexemeSyntax.given : LexemeSyntax → Option Lexeme
  | .definition l => some l
  | .reference .. => none

/-- The same in a list of keywords: a name alone stands for itself. -/
def KeywordSyntax.given : KeywordSyntax → Option Lexeme
  | .lexeme (.definition l) => some l
  | .lexeme (.reference ..) => none
  | .literal n => some { kind := .literal, name := n, definition := n.toList, add := false, replace := false }

/-- The lexer and grammar blocks of a language, as written. -/
def syntaxBlock : UnitSyntax → Option (Block NtSyntax)
  | .symbols mods ls => some (.lexer .symbols (decide (.weak ∈ mods)) (decide (.insensitive ∈ mods)) (decide (.sensitive ∈ mods)) (ls.filterMap LexemeSyntax.given))
  | .lexer mods ls => some (.lexer .lexer (decide (.weak ∈ mods)) (decide (.insensitive ∈ mods)) (decide (.sensitive ∈ mods)) (ls.filterMap LexemeSyntax.given))
  | .ignore ks => some (.lexer .ignore false false false (ks.filterMap KeywordSyntax.given))
  | .keywords mods ks => some (.lexer .keywords (decide (.weak ∈ mods)) (decide (.insensitive ∈ mods)) (decide (.sensitive ∈ mods)) (ks.filterMap KeywordSyntax.given))
  | .grammar ds => some (.grammar ds)
  | .precedence _ => none

@[inherit_doc syntaxBlock]
def LanguageSyntax.blocks (l : LanguageSyntax) : List (Block NtSyntax) := l.units.filterMap syntaxBlock

/-! ### From syntax to blocks -/

theorem mapM_some {α β : Type} (f : α → Option β) : ∀ (xs : List α) (ys : List β), xs.mapM f = some ys ↔ List.Forall₂ (fun x y => f x = some y) xs ys := by
  intro xs
  induction xs with
  | nil =>
    intro ys
    rw [List.mapM_nil]
    constructor
    · intro h
      cases h
      exact .nil
    · intro h
      cases h
      rfl
  | cons x xs ih =>
    intro ys
    rw [List.mapM_cons]
    constructor
    · intro h
      cases hx : f x with
      | none => simp [hx] at h
      | some y =>
        cases hm : xs.mapM f with
        | none => simp [hx, hm] at h
        | some l =>
          simp only [hx, hm, Option.bind_eq_bind, Option.bind_some] at h
          cases h
          exact .cons hx ((ih l).1 hm)
    · intro h
      cases h with
      | cons hx ht => simp [hx, (ih _).2 ht]

theorem mapM_isSome {α β : Type} (f : α → Option β) (xs : List α) : (xs.mapM f).isSome ↔ ∀ x ∈ xs, (f x).isSome := by
  induction xs with
  | nil => simp
  | cons x xs ih =>
    rw [List.mapM_cons]
    cases hx : f x with
    | none => simp [hx]
    | some y =>
      cases hm : xs.mapM f with
      | none => simp [hx, ← ih, hm]
      | some l => simpa [hx, hm] using ih.1 (by simp [hm])

theorem filterMap_of_mapM {α β : Type} {f : α → Option β} {xs : List α} {ys : List β} (h : xs.mapM f = some ys) : xs.filterMap f = ys := by
  have := (mapM_some f xs ys).1 h
  induction this with
  | nil => rfl
  | cons hx _ ih => rw [List.filterMap_cons, hx]; simp [ih ((mapM_some f _ _).2 ‹_›)]

theorem lexemeDef_given : LexemeSyntax.given = lexemeDef := by
  funext x
  cases x <;> rfl

theorem keywordDef_given : KeywordSyntax.given = keywordDef := by
  funext x
  cases x with
  | literal n => rfl
  | lexeme l => cases l <;> rfl

theorem lexemeDef_isSome (x : LexemeSyntax) : (lexemeDef x).isSome ↔ ∃ d, x = .definition d := by
  cases x <;> simp [lexemeDef]

theorem unitOf_isSome (u : UnitSyntax) : (unitOf u).isSome ↔ ∀ x ∈ u.lexemes, ∃ d, x = .definition d := by
  have hk : ∀ ks : List KeywordSyntax, (∀ x ∈ ks, (keywordDef x).isSome) ↔ ∀ x ∈ (ks.filterMap fun | .lexeme l => some l | .literal _ => none), ∃ d, x = .definition d := by
    intro ks
    simp only [List.mem_filterMap]
    constructor
    · rintro h x ⟨k, hk, he⟩
      cases k with
      | literal n => cases he
      | lexeme l =>
        cases he
        exact (lexemeDef_isSome _).1 (h _ hk)
    · intro h k hk
      cases k with
      | literal n => rfl
      | lexeme l => exact (lexemeDef_isSome _).2 (h l ⟨_, hk, rfl⟩)
  cases u with
  | symbols mods ls => simp only [unitOf, lexerBlock, Option.isSome_map, mapM_isSome, UnitSyntax.lexemes, lexemeDef_isSome]
  | lexer mods ls => simp only [unitOf, lexerBlock, Option.isSome_map, mapM_isSome, UnitSyntax.lexemes, lexemeDef_isSome]
  | ignore ks => simp only [unitOf, lexerBlock, Option.isSome_map, mapM_isSome, UnitSyntax.lexemes]; exact hk ks
  | keywords mods ks => simp only [unitOf, lexerBlock, Option.isSome_map, mapM_isSome, UnitSyntax.lexemes]; exact hk ks
  | grammar ds => simp [unitOf, UnitSyntax.lexemes]
  | precedence ps => simp [unitOf, UnitSyntax.lexemes]

/-- **C77**, data: a file that was parsed gives data exactly if it can be used. -/
theorem file_data (f : List TopSyntax) : (fileOf f).isSome ↔ Usable f := by
  unfold fileOf Usable
  rw [mapM_isSome]
  constructor
  · intro h
    constructor
    · intro l hl u hu
      have := h _ hl
      simp only [topOf, languageOf, Option.isSome_map, mapM_isSome] at this
      exact (unitOf_isSome u).1 (this u hu)
    · intro n ts hts t ht
      have := h _ hts
      simp only [topOf, Option.isSome_map, mapM_isSome] at this
      have := this t ht
      unfold testOf at this
      intro he
      rw [if_pos he] at this
      cases this
  · rintro ⟨h1, h2⟩ x hx
    cases x with
    | language l =>
      simp only [topOf, languageOf, Option.isSome_map, mapM_isSome]
      exact fun u hu => (unitOf_isSome u).2 (h1 l hx u hu)
    | imports q => rfl
    | parser => rfl
    | tests n ts =>
      simp only [topOf, Option.isSome_map, mapM_isSome]
      intro t ht
      unfold testOf
      rw [if_neg (h2 n ts hx t ht)]
      rfl

theorem flags_exact (mods : List Modifier) : flags mods = (decide (.weak ∈ mods), decide (.insensitive ∈ mods), decide (.sensitive ∈ mods)) := by
  have : ∀ (mods : List Modifier) (a b c : Bool), mods.foldl (fun f m => match m with
      | .weak => (true, f.2)
      | .insensitive => (f.1, true, f.2.2)
      | .sensitive => (f.1, f.2.1, true)) (a, b, c) = (a || decide (.weak ∈ mods), b || decide (.insensitive ∈ mods), c || decide (.sensitive ∈ mods)) := by
    intro mods
    induction mods with
    | nil => simp
    | cons m mods ih =>
      intro a b c
      rw [List.foldl_cons]
      cases m <;> simp [ih]
  have h := this mods false false false
  simp only [Bool.false_or] at h
  exact h

/-- **C77**, languages: the blocks of a language are those that are written. -/
theorem language_blocks {l : LanguageSyntax} {b : LanguageDef} (h : languageOf l = some b) :
    b.name = l.name ∧ b.inherits = l.inherits.toList ∧ b.blocks = l.blocks.map unitDef := by
  unfold languageOf at h
  obtain ⟨us, hus, rfl⟩ := Option.map_eq_some_iff.1 h
  refine ⟨rfl, rfl, ?_⟩
  unfold LanguageDef.blocks LanguageSyntax.blocks
  dsimp only
  have := (mapM_some _ _ _).1 hus
  clear h hus
  generalize l.units = vs at this
  induction this with
  | nil => rfl
  | @cons u d us ds hu _ ih =>
    have : DefUnit.block? d = (syntaxBlock u).map unitDef := by
      cases u with
      | symbols mods ls =>
        obtain ⟨xs, hx, rfl⟩ := Option.map_eq_some_iff.1 hu
        simp only [DefUnit.block?, syntaxBlock, Option.map_some, unitDef, lexemeDef_given, keywordDef_given, filterMap_of_mapM hx, flags_exact]
      | lexer mods ls =>
        obtain ⟨xs, hx, rfl⟩ := Option.map_eq_some_iff.1 hu
        simp only [DefUnit.block?, syntaxBlock, Option.map_some, unitDef, lexemeDef_given, keywordDef_given, filterMap_of_mapM hx, flags_exact]
      | ignore ks =>
        obtain ⟨xs, hx, rfl⟩ := Option.map_eq_some_iff.1 hu
        simp [DefUnit.block?, syntaxBlock, Option.map_some, unitDef, lexemeDef_given, keywordDef_given, filterMap_of_mapM hx, flags_exact]
      | keywords mods ks =>
        obtain ⟨xs, hx, rfl⟩ := Option.map_eq_some_iff.1 hu
        simp only [DefUnit.block?, syntaxBlock, Option.map_some, unitDef, lexemeDef_given, keywordDef_given, filterMap_of_mapM hx, flags_exact]
      | grammar ds => cases hu; rfl
      | precedence ps => cases hu; rfl
    rw [List.filterMap_cons, List.filterMap_cons, this, ih]
    cases syntaxBlock u <;> rfl

theorem mem_fileOf_imports {f : List TopSyntax} {d : List Top} (h : fileOf f = some d) (n : String) : .imports n ∈ d ↔ ∃ q, .imports q ∈ f ∧ n = fileName q := by
  have := (mapM_some _ _ _).1 h
  clear h
  induction this with
  | nil => simp
  | @cons x y xs ys hx _ ih =>
    simp only [List.mem_cons, ih]
    cases x with
    | language l =>
      obtain ⟨b, hb, rfl⟩ := Option.map_eq_some_iff.1 hx
      simp
    | imports q =>
      cases hx
      simp only [Top.imports.injEq, TopSyntax.imports.injEq]
      constructor
      · rintro (h | ⟨q', hq, rfl⟩)
        · exact ⟨q, .inl rfl, h⟩
        · exact ⟨q', .inr hq, rfl⟩
      · rintro ⟨q', rfl | hq, rfl⟩
        · exact .inl rfl
        · exact .inr ⟨q', hq, rfl⟩
    | parser => cases hx; simp
    | tests n ts =>
      obtain ⟨b, hb, rfl⟩ := Option.map_eq_some_iff.1 hx
      simp

theorem mem_fileOf_language {f : List TopSyntax} {d : List Top} (h : fileOf f = some d) (b : LanguageDef) :
    .language b ∈ d ↔ ∃ l, .language l ∈ f ∧ languageOf l = some b := by
  have := (mapM_some _ _ _).1 h
  clear h
  induction this with
  | nil => simp
  | @cons x y xs ys hx _ ih =>
    simp only [List.mem_cons, ih]
    cases x with
    | language l =>
      obtain ⟨b', hb, rfl⟩ := Option.map_eq_some_iff.1 hx
      simp only [Top.language.injEq, TopSyntax.language.injEq]
      constructor
      · rintro (rfl | ⟨q', hq, h⟩)
        · exact ⟨l, .inl rfl, hb⟩
        · exact ⟨q', .inr hq, h⟩
      · rintro ⟨q', rfl | hq, h⟩
        · exact .inl (Option.some.inj (h.symm.trans hb))
        · exact .inr ⟨q', hq, h⟩
    | imports q => cases hx; simp
    | parser => cases hx; simp
    | tests n ts =>
      obtain ⟨b, hb, rfl⟩ := Option.map_eq_some_iff.1 hx
      simp

/-! ### The import stage -/

/-- The data of a file. -/
def dataOf (c : Console) (n : String) : Option (List Top) := (parserStage c n).1

theorem dataOf_some {c : Console} {n : String} {d : List Top} : dataOf c n = some d ↔ ∃ f, c.read n = .parsed f ∧ fileOf f = some d := by
  unfold dataOf parserStage
  cases c.read n <;> simp

theorem dataOf_usable {c : Console} {n : String} {f : List TopSyntax} (h : c.read n = .parsed f) (hu : Usable f) : ∃ d, dataOf c n = some d ∧ fileOf f = some d := by
  obtain ⟨d, hd⟩ := Option.isSome_iff_exists.1 ((file_data f).2 hu)
  exact ⟨d, dataOf_some.2 ⟨f, h, hd⟩, hd⟩

/-- The languages among the blocks that were looked at, with the paths of their files. -/
def seenLangs (vis : List (String × Top)) : List (String × LanguageDef) := vis.filterMap fun x => match x.2 with | .language l => some (x.1, l) | _ => none

/-- What is known between two blocks: `don` are the files that were looked at, or are being looked at, and `vis` the blocks that were looked at. -/
structure ImportInv (c : Console) (root : String) (s : Import) (don : List (String × Option (List Top))) (vis : List (String × Top)) : Prop where
  perm : (don ++ s.todo).Perm s.files
  nodup : (s.files.map Prod.fst).Nodup
  imported : ∀ p, p ∈ s.imported ↔ p ∈ s.files.map Prod.fst
  first : c.realPath root ∈ s.files.map Prod.fst
  files : ∀ p o, (p, o) ∈ s.files → ∃ m, get p s.short = some m ∧ Loaded c root m ∧ c.realPath m = p ∧ dataOf c m = o
  short : ∀ p m, get p s.short = some m → p ∈ s.files.map Prod.fst
  imports : ∀ p n, (p, .imports n) ∈ vis → c.realPath n ∈ s.imported
  langs : ∀ n, get n s.langs = ((seenLangs vis).find? fun x => x.2.name = n).map Prod.snd
  langFile : ∀ n, get n s.langFile = ((seenLangs vis).find? fun x => x.2.name = n).map Prod.fst
  ambiguous : ∀ n, (∃ f, .ambiguous n f ∈ s.errors) ↔ 2 ≤ ((seenLangs vis).filter fun x => x.2.name = n).length
  cantOpen : ∀ m, .cantOpen m ∈ s.errors ↔ m ≠ root ∧ c.read m = .missing ∧ ∃ p, get p s.short = some m
  syntaxErr : ∀ m, .syntax m ∈ s.errors ↔ m ≠ root ∧ c.read m = .syntaxError ∧ ∃ p, get p s.short = some m

theorem put_new {κ ν : Type} [DecidableEq κ] {k : κ} {v : ν} : ∀ {m : List (κ × ν)}, k ∉ m.map Prod.fst → put k v m = m ++ [(k, v)]
  | [], _ => rfl
  | (a, b) :: m, h => by
    have h1 : a ≠ k := fun e => h (e ▸ List.mem_cons_self)
    have h2 : k ∉ m.map Prod.fst := fun e => h (List.mem_cons_of_mem _ e)
    show (if a = k then _ else _) = _
    rw [if_neg h1, put_new h2]
    rfl

theorem seenLangs_append (vis : List (String × Top)) (p : String) (t : Top) :
    seenLangs (vis ++ [(p, t)]) = seenLangs vis ++ (match t with | .language l => [(p, l)] | _ => []) := by
  unfold seenLangs
  rw [List.filterMap_append]
  cases t <;> rfl

/-- Looking at a block. -/
theorem block_inv {c : Console} {root : String} {s : Import} {don : List (String × Option (List Top))} {vis : List (String × Top)} (h : ImportInv c root s don vis)
    {path : String} {t : Top} (hl : ∀ n, t = .imports n → Loaded c root n) : ImportInv c root (s.block c path t) don (vis ++ [(path, t)]) := by
  cases t with
  | imports file =>
    have hseen : seenLangs (vis ++ [(path, .imports file)]) = seenLangs vis := by rw [seenLangs_append, List.append_nil]
    show ImportInv c root (if c.realPath file ∈ s.imported then s else _) don _
    by_cases hm : c.realPath file ∈ s.imported
    · rw [if_pos hm]
      refine { h with imports := ?_, langs := ?_, langFile := ?_, ambiguous := ?_ }
      · intro p n hp
        rcases List.mem_append.1 hp with hp | hp
        · exact h.imports p n hp
        · cases List.mem_singleton.1 hp
          exact hm
      · rw [hseen]; exact h.langs
      · rw [hseen]; exact h.langFile
      · rw [hseen]; exact h.ambiguous
    · rw [if_neg hm]
      have hk : c.realPath file ∉ s.files.map Prod.fst := fun e => hm ((h.imported _).2 e)
      have hput := put_new (v := (parserStage c file).1) hk
      have hroot : file ≠ root := fun e => hk (e ▸ h.first)
      have hshort : ∀ p m, get p (put (c.realPath file) file s.short) = some m ↔ (p = c.realPath file ∧ m = file) ∨ get p s.short = some m := by
        intro p m
        rw [get_put]
        by_cases hp : c.realPath file = p
        · rw [if_pos hp]
          constructor
          · intro e
            exact .inl ⟨hp.symm, (Option.some.inj e).symm⟩
          · rintro (⟨-, rfl⟩ | e)
            · rfl
            · exact absurd (h.short p m e) (hp ▸ hk)
        · rw [if_neg hp]
          constructor
          · exact .inr
          · rintro (⟨rfl, -⟩ | e)
            · exact absurd rfl hp
            · exact e
      refine ⟨?_, ?_, ?_, ?_, ?_, ?_, ?_, ?_, ?_, ?_, ?_, ?_⟩
      · dsimp only
        rw [hput]
        refine List.Perm.trans ?_ (h.perm.append_right _)
        rw [List.append_assoc]
        exact (List.perm_append_singleton _ _).symm.append_left don
      · dsimp only
        rw [hput, List.map_append]
        refine List.Nodup.append h.nodup (List.nodup_singleton _) ?_
        intro a ha hb
        cases List.mem_singleton.1 hb
        exact hk ha
      · intro p
        dsimp only
        rw [hput, List.map_append, List.mem_append, List.mem_cons, h.imported p]
        simp only [List.map_cons, List.map_nil, List.mem_singleton]
        exact or_comm
      · dsimp only
        rw [hput, List.map_append]
        exact List.mem_append_left _ h.first
      · intro p o hp
        dsimp only at hp ⊢
        rw [hput] at hp
        rcases List.mem_append.1 hp with hp | hp
        · obtain ⟨m, h1, h2, h3, h4⟩ := h.files p o hp
          exact ⟨m, (hshort p m).2 (.inr h1), h2, h3, h4⟩
        · cases List.mem_singleton.1 hp
          exact ⟨file, (hshort _ _).2 (.inl ⟨rfl, rfl⟩), hl file rfl, rfl, rfl⟩
      · intro p m hp
        dsimp only at hp ⊢
        rw [hput, List.map_append, List.mem_append]
        rcases (hshort p m).1 hp with ⟨rfl, -⟩ | e
        · exact .inr (List.mem_singleton.2 rfl)
        · exact .inl (h.short p m e)
      · intro p n hp
        rcases List.mem_append.1 hp with hp | hp
        · exact List.mem_cons_of_mem _ (h.imports p n hp)
        · cases List.mem_singleton.1 hp
          exact List.mem_cons_self
      · rw [hseen]; exact h.langs
      · rw [hseen]; exact h.langFile
      · intro n
        rw [hseen, ← h.ambiguous n]
        dsimp only
        refine exists_congr fun f => ?_
        rw [List.mem_append]
        refine or_iff_left ?_
        unfold parserStage
        cases c.read file <;> simp
      · intro m
        dsimp only
        rw [List.mem_append, h.cantOpen m]
        have hr : FileErr.cantOpen m ∈ (parserStage c file).2 ↔ m = file ∧ c.read m = .missing := by
          unfold parserStage
          constructor
          · intro e
            cases hc : c.read file <;> simp [hc] at e
            subst e
            exact ⟨rfl, hc⟩
          · rintro ⟨rfl, e⟩
            simp [e]
        rw [hr]
        constructor
        · rintro (⟨h1, h2, p, h3⟩ | ⟨rfl, h2⟩)
          · exact ⟨h1, h2, p, (hshort p m).2 (.inr h3)⟩
          · exact ⟨hroot, h2, _, (hshort _ _).2 (.inl ⟨rfl, rfl⟩)⟩
        · rintro ⟨h1, h2, p, h3⟩
          rcases (hshort p m).1 h3 with ⟨-, rfl⟩ | e
          · exact .inr ⟨rfl, h2⟩
          · exact .inl ⟨h1, h2, p, e⟩
      · intro m
        dsimp only
        rw [List.mem_append, h.syntaxErr m]
        have hr : FileErr.syntax m ∈ (parserStage c file).2 ↔ m = file ∧ c.read m = .syntaxError := by
          unfold parserStage
          constructor
          · intro e
            cases hc : c.read file <;> simp [hc] at e
            subst e
            exact ⟨rfl, hc⟩
          · rintro ⟨rfl, e⟩
            simp [e]
        rw [hr]
        constructor
        · rintro (⟨h1, h2, p, h3⟩ | ⟨rfl, h2⟩)
          · exact ⟨h1, h2, p, (hshort p m).2 (.inr h3)⟩
          · exact ⟨hroot, h2, _, (hshort _ _).2 (.inl ⟨rfl, rfl⟩)⟩
        · rintro ⟨h1, h2, p, h3⟩
          rcases (hshort p m).1 h3 with ⟨-, rfl⟩ | e
          · exact .inr ⟨rfl, h2⟩
          · exact .inl ⟨h1, h2, p, e⟩
  | language l =>
    have hseen : seenLangs (vis ++ [(path, .language l)]) = seenLangs vis ++ [(path, l)] := seenLangs_append vis path (.language l)
    have himp : ∀ p n, (p, Top.imports n) ∈ vis ++ [(path, Top.language l)] → c.realPath n ∈ s.imported := by
      intro p n hp
      rcases List.mem_append.1 hp with hp | hp
      · exact h.imports p n hp
      · cases List.mem_singleton.1 hp
    have hcount : ∀ n, ((seenLangs (vis ++ [(path, .language l)])).filter fun x => x.2.name = n).length =
        ((seenLangs vis).filter fun x => x.2.name = n).length + if l.name = n then 1 else 0 := by
      intro n
      rw [hseen, List.filter_append, List.length_append]
      by_cases hn : l.name = n <;> simp [hn]
    show ImportInv c root (if (get l.name s.langs).isSome then _ else _) don _
    by_cases hm : (get l.name s.langs).isSome
    · rw [if_pos hm]
      have hfound : ((seenLangs vis).find? fun x => x.2.name = l.name).isSome := by
        rw [h.langs, Option.isSome_map] at hm
        exact hm
      have hsame : ∀ n, ((seenLangs (vis ++ [(path, .language l)])).find? fun x => x.2.name = n) = (seenLangs vis).find? fun x => x.2.name = n := by
        intro n
        rw [hseen, List.find?_append]
        cases hf : (seenLangs vis).find? fun x => x.2.name = n with
        | some y => rfl
        | none =>
          by_cases hn : l.name = n
          · subst hn
            rw [hf] at hfound
            cases hfound
          · simp [hn]
      refine { h with imports := himp, langs := ?_, langFile := ?_, ambiguous := ?_, cantOpen := ?_, syntaxErr := ?_ }
      · intro n; rw [hsame]; exact h.langs n
      · intro n; rw [hsame]; exact h.langFile n
      · intro n
        rw [hcount]
        dsimp only
        constructor
        · rintro ⟨f, hf⟩
          rcases List.mem_append.1 hf with hf | hf
          · exact Nat.le_add_right_of_le ((h.ambiguous n).1 ⟨f, hf⟩)
          · cases List.mem_singleton.1 hf
            rw [if_pos rfl]
            obtain ⟨y, hy⟩ := Option.isSome_iff_exists.1 hfound
            have : y ∈ (seenLangs vis).filter fun x => x.2.name = l.name := List.mem_filter.2 ⟨List.mem_of_find?_eq_some hy, by simpa using List.find?_some hy⟩
            have := List.length_pos_of_mem this
            omega
        · intro hle
          by_cases hn : l.name = n
          · subst hn
            exact ⟨_, List.mem_append_right _ (List.mem_singleton.2 rfl)⟩
          · rw [if_neg hn] at hle
            obtain ⟨f, hf⟩ := (h.ambiguous n).2 hle
            exact ⟨f, List.mem_append_left _ hf⟩
      · intro m
        rw [← h.cantOpen m]
        simp
      · intro m
        rw [← h.syntaxErr m]
        simp
    · rw [if_neg hm]
      have hnone : (seenLangs vis).find? (fun x => x.2.name = l.name) = none := by
        rw [h.langs, Option.isSome_map, Option.not_isSome_iff_eq_none] at hm
        exact hm
      have hnew : ∀ n, ((seenLangs (vis ++ [(path, .language l)])).find? fun x => x.2.name = n) =
          if l.name = n then some (path, l) else (seenLangs vis).find? fun x => x.2.name = n := by
        intro n
        rw [hseen, List.find?_append]
        by_cases hn : l.name = n
        · subst hn
          rw [hnone, if_pos rfl]
          simp
        · rw [if_neg hn]
          cases (seenLangs vis).find? fun x => x.2.name = n <;> simp [hn]
      refine { h with imports := himp, langs := ?_, langFile := ?_, ambiguous := ?_ }
      · intro n
        dsimp only
        rw [hnew, get_put, h.langs]
        by_cases hn : l.name = n <;> simp [hn]
      · intro n
        dsimp only
        rw [hnew, get_put, h.langFile]
        by_cases hn : l.name = n <;> simp [hn]
      · intro n
        rw [h.ambiguous n, hcount]
        by_cases hn : l.name = n
        · subst hn
          have : ((seenLangs vis).filter fun x => x.2.name = l.name) = [] := by
            rw [List.filter_eq_nil_iff]
            intro a ha
            exact (List.find?_eq_none.1 hnone a ha)
          rw [this, if_pos rfl]
          simp
        · rw [if_neg hn]
          rfl
  | parser n l ss =>
    have hseen : seenLangs (vis ++ [(path, .parser n l ss)]) = seenLangs vis := by rw [seenLangs_append, List.append_nil]
    refine { h with imports := ?_, langs := ?_, langFile := ?_, ambiguous := ?_ }
    · intro p n hp
      rcases List.mem_append.1 hp with hp | hp
      · exact h.imports p n hp
      · cases List.mem_singleton.1 hp
    · rw [hseen]; exact h.langs
    · rw [hseen]; exact h.langFile
    · rw [hseen]; exact h.ambiguous
  | tests n ts =>
    have hseen : seenLangs (vis ++ [(path, .tests n ts)]) = seenLangs vis := by rw [seenLangs_append, List.append_nil]
    refine { h with imports := ?_, langs := ?_, langFile := ?_, ambiguous := ?_ }
    · intro p n hp
      rcases List.mem_append.1 hp with hp | hp
      · exact h.imports p n hp
      · cases List.mem_singleton.1 hp
    · rw [hseen]; exact h.langs
    · rw [hseen]; exact h.langFile
    · rw [hseen]; exact h.ambiguous

/-- Looking at some blocks of a file. -/
theorem blocks_inv {c : Console} {root : String} {don : List (String × Option (List Top))} {path : String} : ∀ (f : List Top) {s : Import} {vis : List (String × Top)},
    ImportInv c root s don vis → (∀ n, .imports n ∈ f → Loaded c root n) → ImportInv c root (f.foldl (Import.block c path) s) don (vis ++ f.map (path, ·))
  | [], s, vis, h, _ => by simpa using h
  | t :: f, s, vis, h, hl => by
    have := blocks_inv (path := path) f (block_inv (path := path) (t := t) h fun n e => hl n (e ▸ List.mem_cons_self)) fun n hn => hl n (List.mem_cons_of_mem _ hn)
    rw [List.append_assoc] at this
    exact this

/-- The blocks of some files. -/
def blocksOf (don : List (String × Option (List Top))) : List (String × Top) := don.flatMap fun x => (x.2.getD []).map (x.1, ·)

theorem loaded_imports {c : Console} {root m : String} (h : Loaded c root m) {d : List Top} (hd : dataOf c m = some d) {n : String} (hn : .imports n ∈ d) : Loaded c root n := by
  obtain ⟨f, hf, hfd⟩ := dataOf_some.1 hd
  obtain ⟨q, hq, rfl⟩ := (mem_fileOf_imports hfd n).1 hn
  exact .imports h hf ((file_data f).1 (by rw [hfd]; rfl)) hq

theorem loop_inv {c : Console} {root : String} : ∀ (fuel : Nat) {s s' : Import} {don : List (String × Option (List Top))}, ImportInv c root s don (blocksOf don) →
    s.loop c fuel = some s' → ∃ don', ImportInv c root s' don' (blocksOf don') ∧ s'.todo = []
  | 0, _, _, _, _, h => nomatch h
  | fuel + 1, s, s', don, hi, h => by
    rw [Import.loop.eq_def] at h
    dsimp only at h
    split at h
    · rename_i ht
      cases h
      exact ⟨don, hi, ht⟩
    · rename_i p todo ht
      refine loop_inv fuel (don := don ++ [(p, none)]) ?_ h
      have hb : blocksOf (don ++ [(p, none)]) = blocksOf don := by simp [blocksOf]
      rw [hb]
      refine { hi with perm := ?_ }
      have := hi.perm
      rw [ht] at this
      simpa using this
    · rename_i p f todo ht
      refine loop_inv fuel (don := don ++ [(p, some f)]) ?_ h
      have hb : blocksOf (don ++ [(p, some f)]) = blocksOf don ++ f.map (p, ·) := by simp [blocksOf]
      rw [hb]
      refine blocks_inv f { hi with perm := ?_ } ?_
      · have := hi.perm
        rw [ht] at this
        simpa using this
      · intro n hn
        have hm : (p, some f) ∈ s.files := hi.perm.subset (List.mem_append_right _ (ht ▸ List.mem_cons_self))
        obtain ⟨m, -, hm, -, hd⟩ := hi.files _ _ hm
        exact loaded_imports hm hd hn

theorem start_inv {c : Console} {root : String} (hid : c.realPath (c.realPath root) = c.realPath root) :
    ImportInv c root (Import.start c root (dataOf c root)) [] (blocksOf []) := by
  have hs : ∀ p m, get p [(c.realPath root, root)] = some m ↔ p = c.realPath root ∧ m = root := by
    intro p m
    show (if c.realPath root = p then some root else none) = some m ↔ _
    by_cases h : c.realPath root = p
    · rw [if_pos h]
      exact ⟨fun e => ⟨h.symm, (Option.some.inj e).symm⟩, fun e => by rw [e.2]⟩
    · rw [if_neg h]
      exact ⟨nofun, fun e => absurd e.1.symm h⟩
  refine ⟨.refl _, List.nodup_singleton _, ?_, List.mem_singleton.2 rfl, ?_, ?_, ?_, ?_, ?_, ?_, ?_, ?_⟩
  · intro p
    show p ∈ [c.realPath (c.realPath root)] ↔ _
    rw [hid]
    rfl
  · intro p o hp
    cases List.mem_singleton.1 hp
    exact ⟨root, (hs _ _).2 ⟨rfl, rfl⟩, .root, rfl, rfl⟩
  · intro p m hp
    exact List.mem_singleton.2 ((hs p m).1 hp).1
  · intro p n hp
    cases hp
  · intro n; rfl
  · intro n; rfl
  · intro n
    constructor
    · rintro ⟨f, hf⟩
      cases hf
    · intro h
      simp [blocksOf, seenLangs] at h
  · intro m
    constructor
    · intro h; cases h
    · rintro ⟨h1, -, p, h3⟩
      exact absurd ((hs p m).1 h3).2 h1
  · intro m
    constructor
    · intro h; cases h
    · rintro ⟨h1, -, p, h3⟩
      exact absurd ((hs p m).1 h3).2 h1

/-- A language is defined twice: in one file, or in two files. -/
def Twice (c : Console) (root name : String) : Prop :=
  (∃ n f, Loaded c root n ∧ c.read n = .parsed f ∧ Usable f ∧ 2 ≤ ((languagesOf f).filter fun l => l.name = name).length) ∨
  ∃ a b la lb, Found c root a la ∧ Found c root b lb ∧ la.name = name ∧ lb.name = name ∧ c.realPath a ≠ c.realPath b

/-- Two names of one file are read alike. -/
def Faithful (c : Console) (root : String) : Prop := ∀ a b, Loaded c root a → Loaded c root b → c.realPath a = c.realPath b → c.read a = c.read b

theorem loaded_files {c : Console} {root : String} (hf : Faithful c root) {s : Import} {don : List (String × Option (List Top))} (hi : ImportInv c root s don (blocksOf don)) (ht : s.todo = [])
    {n : String} (h : Loaded c root n) : (c.realPath n, dataOf c n) ∈ s.files := by
  have key : ∀ n, Loaded c root n → c.realPath n ∈ s.files.map Prod.fst → (c.realPath n, dataOf c n) ∈ s.files := by
    intro n hn hk
    obtain ⟨⟨p, o⟩, hm, rfl⟩ := List.mem_map.1 hk
    obtain ⟨m, -, h2, h3, rfl⟩ := hi.files _ _ hm
    have : dataOf c n = dataOf c m := by
      unfold dataOf parserStage
      rw [hf n m hn h2 h3.symm]
      cases c.read m <;> rfl
    rw [this]
    exact hm
  induction h with
  | root => exact key _ .root hi.first
  | @imports n f q hn hr hu hq ih =>
    obtain ⟨d, hd, hfd⟩ := dataOf_usable hr hu
    refine key _ (.imports hn hr hu hq) ?_
    rw [← hi.imported]
    refine hi.imports (c.realPath n) _ ?_
    have hdon : (c.realPath n, dataOf c n) ∈ don := by
      have := hi.perm.symm.subset ih
      rwa [ht, List.append_nil] at this
    refine List.mem_flatMap.2 ⟨_, hdon, ?_⟩
    rw [hd]
    exact List.mem_map.2 ⟨_, (mem_fileOf_imports hfd _).2 ⟨q, hq, rfl⟩, rfl⟩

/-- How often a language is defined in a file. -/
def countIn (name : String) (d : List Top) : Nat := (d.filter fun | .language l => decide (l.name = name) | _ => false).length

theorem count_blocks (name : String) : ∀ don : List (String × Option (List Top)),
    ((seenLangs (blocksOf don)).filter fun x => x.2.name = name).length = (don.map fun x => countIn name (x.2.getD [])).sum := by
  have h1 : ∀ (p : String) (d : List Top), ((seenLangs (d.map (p, ·))).filter fun x => x.2.name = name).length = countIn name d := by
    intro p d
    induction d with
    | nil => rfl
    | cons t d ih =>
      unfold seenLangs countIn at *
      rw [List.map_cons, List.filterMap_cons, List.filter_cons]
      cases t with
      | language l =>
        dsimp only
        rw [List.filter_cons]
        by_cases hn : l.name = name
        · rw [if_pos (by simpa using hn), if_pos (by simpa using hn), List.length_cons, List.length_cons, ih]
        · rw [if_neg (by simpa using hn), if_neg (by simpa using hn), ih]
      | imports => simpa using ih
      | parser => simpa using ih
      | tests => simpa using ih
  intro don
  induction don with
  | nil => rfl
  | cons x don ih =>
    have : blocksOf (x :: don) = (x.2.getD []).map (x.1, ·) ++ blocksOf don := by simp [blocksOf]
    rw [this]
    unfold seenLangs at *
    rw [List.filterMap_append, List.filter_append, List.length_append, ih, List.map_cons, List.sum_cons, ← h1 x.1]

theorem two_le_sum {α : Type} (g : α → Nat) (key : α → String) : ∀ {xs : List α}, (xs.map key).Nodup →
    (2 ≤ (xs.map g).sum ↔ (∃ x ∈ xs, 2 ≤ g x) ∨ ∃ x ∈ xs, ∃ y ∈ xs, 1 ≤ g x ∧ 1 ≤ g y ∧ key x ≠ key y)
  | [], _ => by simp
  | x :: xs, hn => by
    obtain ⟨hx, hn⟩ := List.nodup_cons.1 hn
    have ih := two_le_sum g key hn
    have hpos : ∀ xs : List α, 1 ≤ (xs.map g).sum ↔ ∃ y ∈ xs, 1 ≤ g y := by
      intro xs
      induction xs with
      | nil => simp
      | cons y ys ih =>
        rw [List.map_cons, List.sum_cons]
        constructor
        · intro h
          by_cases hy : 1 ≤ g y
          · exact ⟨y, List.mem_cons_self, hy⟩
          · obtain ⟨z, hz, h1⟩ := ih.1 (by omega)
            exact ⟨z, List.mem_cons_of_mem _ hz, h1⟩
        · rintro ⟨z, hz, h1⟩
          rcases List.mem_cons.1 hz with rfl | hz
          · omega
          · have := ih.2 ⟨z, hz, h1⟩
            omega
    rw [List.map_cons, List.sum_cons]
    constructor
    · intro h
      by_cases h2 : 2 ≤ g x
      · exact .inl ⟨x, List.mem_cons_self, h2⟩
      by_cases h1 : 1 ≤ g x
      · obtain ⟨y, hy, hy1⟩ := (hpos xs).1 (by omega)
        exact .inr ⟨x, List.mem_cons_self, y, List.mem_cons_of_mem _ hy, h1, hy1, fun e => hx (e ▸ List.mem_map_of_mem hy)⟩
      · rcases ih.1 (by omega) with ⟨y, hy, h⟩ | ⟨y, hy, z, hz, h⟩
        · exact .inl ⟨y, List.mem_cons_of_mem _ hy, h⟩
        · exact .inr ⟨y, List.mem_cons_of_mem _ hy, z, List.mem_cons_of_mem _ hz, h⟩
    · rintro (⟨y, hy, h⟩ | ⟨y, hy, z, hz, h1, h2, h3⟩)
      · rcases List.mem_cons.1 hy with rfl | hy
        · omega
        · have := ih.2 (.inl ⟨y, hy, h⟩)
          omega
      · rcases List.mem_cons.1 hy with rfl | hy
        · rcases List.mem_cons.1 hz with rfl | hz
          · exact absurd rfl h3
          · have := (hpos xs).2 ⟨z, hz, h2⟩
            omega
        · rcases List.mem_cons.1 hz with hzx | hz
          · have := (hpos xs).2 ⟨y, hy, h1⟩
            rw [hzx] at h2
            omega
          · have := ih.2 (.inr ⟨y, hy, z, hz, h1, h2, h3⟩)
            omega

theorem countIn_file {f : List TopSyntax} {d : List Top} (h : fileOf f = some d) (name : String) :
    countIn name d = ((languagesOf f).filter fun l => l.name = name).length := by
  have := (mapM_some _ _ _).1 h
  clear h
  induction this with
  | nil => rfl
  | @cons x y xs ys hx _ ih =>
    unfold countIn languagesOf at *
    rw [List.filter_cons, List.filterMap_cons]
    cases x with
    | language l =>
      obtain ⟨b, hb, rfl⟩ := Option.map_eq_some_iff.1 hx
      have hn := (language_blocks hb).1
      dsimp only
      rw [List.filter_cons]
      by_cases hl : l.name = name
      · rw [if_pos (by simpa [hn] using hl), if_pos (by simpa using hl), List.length_cons, List.length_cons, ih]
      · rw [if_neg (by simpa [hn] using hl), if_neg (by simpa using hl), ih]
    | imports q => cases hx; simpa using ih
    | parser => cases hx; simpa using ih
    | tests n ts =>
      obtain ⟨b, hb, rfl⟩ := Option.map_eq_some_iff.1 hx
      simpa using ih

/-- **C77**, imports. When the import stage has come to its end, it has read exactly the files that are named in the files that it has read, each of
them once; it has reported exactly the files that could not be opened or parsed, and the languages that are defined more than once; and it finds
exactly the languages of these files. -/
theorem imports_exact {c : Console} {root : String} (hid : c.realPath (c.realPath root) = c.realPath root) (hf : Faithful c root) {fuel : Nat} {s : Import}
    (h : importFile c fuel root = some s) :
    (s.files.map Prod.fst).Nodup ∧
    (∀ p, p ∈ s.files.map Prod.fst ↔ ∃ n, Loaded c root n ∧ c.realPath n = p) ∧
    (∀ p, (∃ m, .cantOpen m ∈ s.errors ∧ c.realPath m = p) ↔ ∃ n, Loaded c root n ∧ c.realPath n = p ∧ c.read n = .missing) ∧
    (∀ p, (∃ m, .syntax m ∈ s.errors ∧ c.realPath m = p) ↔ ∃ n, Loaded c root n ∧ c.realPath n = p ∧ c.read n = .syntaxError) ∧
    (∀ name, (∃ file, .ambiguous name file ∈ s.errors) ↔ Twice c root name) ∧
    (∀ name, s.languageWithName name = none ↔ ∀ n l, Found c root n l → l.name ≠ name) ∧
    ∀ name b, s.languageWithName name = some b → ∃ n l, Found c root n l ∧ l.name = name ∧ languageOf l = some b ∧
      Loaded c root (s.fileWithLanguage name) ∧ c.realPath (s.fileWithLanguage name) = c.realPath n := by
  unfold importFile at h
  obtain ⟨s0, hs0, rfl⟩ := Option.map_eq_some_iff.1 h
  obtain ⟨don, hi, ht⟩ := loop_inv fuel (start_inv hid) hs0
  have hperm : don.Perm s0.files := by
    have := hi.perm
    rwa [ht, List.append_nil] at this
  have hfiles : ∀ {n}, Loaded c root n → (c.realPath n, dataOf c n) ∈ s0.files := fun hn => loaded_files hf hi ht hn
  have hkeys : ∀ p, p ∈ s0.files.map Prod.fst ↔ ∃ n, Loaded c root n ∧ c.realPath n = p := by
    intro p
    constructor
    · intro hp
      obtain ⟨⟨p, o⟩, hm, rfl⟩ := List.mem_map.1 hp
      obtain ⟨m, -, h2, h3, -⟩ := hi.files _ _ hm
      exact ⟨m, h2, h3⟩
    · rintro ⟨n, hn, rfl⟩
      exact List.mem_map.2 ⟨_, hfiles hn, rfl⟩
  have hshort : ∀ {n}, Loaded c root n → ∃ m, get (c.realPath n) s0.short = some m ∧ Loaded c root m ∧ c.realPath m = c.realPath n := by
    intro n hn
    obtain ⟨m, h1, h2, h3, -⟩ := hi.files _ _ (hfiles hn)
    exact ⟨m, h1, h2, h3⟩
  have hshort' : ∀ {p m}, get p s0.short = some m → Loaded c root m ∧ c.realPath m = p := by
    intro p m hm
    obtain ⟨⟨p, o⟩, hp, rfl⟩ := List.mem_map.1 (hi.short p m hm)
    obtain ⟨m', h1, h2, h3, -⟩ := hi.files _ _ hp
    cases Option.some.inj (hm.symm.trans h1)
    exact ⟨h2, h3⟩
  have herr : ∀ (mk : String → FileErr) (r : Reading), (∀ m, mk m ∈ (parserStage c root).2 ↔ m = root ∧ c.read m = r) →
      (∀ m, mk m ∈ s0.errors ↔ m ≠ root ∧ c.read m = r ∧ ∃ p, get p s0.short = some m) →
      ∀ p, (∃ m, mk m ∈ (parserStage c root).2 ++ s0.errors ∧ c.realPath m = p) ↔ ∃ n, Loaded c root n ∧ c.realPath n = p ∧ c.read n = r := by
    intro mk r h1 h2 p
    constructor
    · rintro ⟨m, hm, rfl⟩
      rcases List.mem_append.1 hm with hm | hm
      · obtain ⟨rfl, hr⟩ := (h1 m).1 hm
        exact ⟨m, .root, rfl, hr⟩
      · obtain ⟨-, hr, p, hp⟩ := (h2 m).1 hm
        exact ⟨m, (hshort' hp).1, rfl, hr⟩
    · rintro ⟨n, hn, rfl, hr⟩
      obtain ⟨m, hm, hl, hp⟩ := hshort hn
      refine ⟨m, ?_, hp⟩
      have hr' : c.read m = r := (hf m n hl hn hp).trans hr
      by_cases hroot : m = root
      · exact List.mem_append_left _ ((h1 m).2 ⟨hroot, hr'⟩)
      · exact List.mem_append_right _ ((h2 m).2 ⟨hroot, hr', _, hm⟩)
  have hlang : ∀ n l, (∃ p, (p, l) ∈ seenLangs (blocksOf don) ∧ c.realPath n = p) ↔ ∃ d, (c.realPath n, some d) ∈ s0.files ∧ .language l ∈ d := by
    intro n l
    unfold seenLangs blocksOf
    constructor
    · rintro ⟨p, hp, rfl⟩
      obtain ⟨⟨p, t⟩, hm, he⟩ := List.mem_filterMap.1 hp
      obtain ⟨⟨p', o⟩, hd, hm⟩ := List.mem_flatMap.1 hm
      obtain ⟨t', ht', he'⟩ := List.mem_map.1 hm
      cases he'
      cases t with
      | language l' =>
        cases he
        cases o with
        | none => cases ht'
        | some d => exact ⟨d, hperm.subset hd, ht'⟩
      | imports => cases he
      | parser => cases he
      | tests => cases he
    · rintro ⟨d, hd, hl⟩
      refine ⟨_, List.mem_filterMap.2 ⟨(c.realPath n, .language l), List.mem_flatMap.2 ⟨_, hperm.symm.subset hd, List.mem_map.2 ⟨_, hl, rfl⟩⟩, rfl⟩, rfl⟩
  have hfound : ∀ {n l}, Found c root n l → ∃ b, languageOf l = some b ∧ (c.realPath n, b) ∈ seenLangs (blocksOf don) := by
    rintro n l ⟨hn, f, hr, hu, hl⟩
    obtain ⟨d, hd, hfd⟩ := dataOf_usable hr hu
    have hs : (languageOf l).isSome := by
      unfold languageOf
      rw [Option.isSome_map, mapM_isSome]
      exact fun u hu' => (unitOf_isSome u).2 (hu.1 l hl u hu')
    obtain ⟨b, hb⟩ := Option.isSome_iff_exists.1 hs
    have hm := hfiles hn
    rw [hd] at hm
    obtain ⟨p, hp, rfl⟩ := (hlang n b).2 ⟨d, hm, (mem_fileOf_language hfd b).2 ⟨l, hl, hb⟩⟩
    exact ⟨b, hb, hp⟩
  have hfound' : ∀ {p b}, (p, b) ∈ seenLangs (blocksOf don) → ∃ n l, Found c root n l ∧ c.realPath n = p ∧ languageOf l = some b := by
    intro p b hp
    have hpk : ∃ n, Loaded c root n ∧ c.realPath n = p := by
      obtain ⟨⟨p, t⟩, hm, he⟩ := List.mem_filterMap.1 hp
      obtain ⟨⟨p', o⟩, hd, hm⟩ := List.mem_flatMap.1 hm
      obtain ⟨t', ht', he'⟩ := List.mem_map.1 hm
      cases he'
      have : p = p' := by
        cases t with
        | language l' => cases he; rfl
        | imports => cases he
        | parser => cases he
        | tests => cases he
      subst this
      exact (hkeys p).1 (List.mem_map.2 ⟨_, hperm.subset hd, rfl⟩)
    obtain ⟨n, -, rfl⟩ := hpk
    obtain ⟨d, hd, hl⟩ := (hlang n b).1 ⟨_, hp, rfl⟩
    obtain ⟨m, -, h2, h3, h4⟩ := hi.files _ _ hd
    obtain ⟨f, hr, hfd⟩ := dataOf_some.1 h4
    obtain ⟨l, hl, hb⟩ := (mem_fileOf_language hfd b).1 hl
    exact ⟨m, l, ⟨h2, f, hr, (file_data f).1 (by rw [hfd]; rfl), hl⟩, h3, hb⟩
  refine ⟨hi.nodup, hkeys, ?_, ?_, ?_, ?_, ?_⟩
  · refine herr .cantOpen .missing ?_ hi.cantOpen
    intro m
    unfold parserStage
    constructor
    · intro e
      cases hc : c.read root <;> simp [hc] at e
      subst e
      exact ⟨rfl, hc⟩
    · rintro ⟨rfl, e⟩
      simp [e]
  · refine herr .syntax .syntaxError ?_ hi.syntaxErr
    intro m
    unfold parserStage
    constructor
    · intro e
      cases hc : c.read root <;> simp [hc] at e
      subst e
      exact ⟨rfl, hc⟩
    · rintro ⟨rfl, e⟩
      simp [e]
  · intro name
    have h1 : (∃ file, FileErr.ambiguous name file ∈ (parserStage c root).2 ++ s0.errors) ↔ ∃ file, FileErr.ambiguous name file ∈ s0.errors := by
      refine exists_congr fun f => ?_
      rw [List.mem_append]
      refine or_iff_right ?_
      unfold parserStage
      cases c.read root <;> simp
    have hnd : (don.map Prod.fst).Nodup := (hperm.map Prod.fst).nodup_iff.2 hi.nodup
    refine h1.trans ?_
    rw [hi.ambiguous, count_blocks, two_le_sum (fun x : String × Option (List Top) => countIn name (x.2.getD [])) Prod.fst hnd]
    have hone : ∀ {d : List Top}, 1 ≤ countIn name d ↔ ∃ b, .language b ∈ d ∧ b.name = name := by
      intro d
      unfold countIn
      rw [Nat.one_le_iff_ne_zero, Ne, List.length_eq_zero_iff, List.filter_eq_nil_iff]
      constructor
      · intro h
        by_contra hne
        refine h fun t ht => ?_
        cases t with
        | language l =>
          intro he
          exact hne ⟨l, ht, by simpa using he⟩
        | imports => simp
        | parser => simp
        | tests => simp
      · rintro ⟨b, hb, hn⟩ h
        exact h _ hb (by simpa using hn)
    have hentry : ∀ x ∈ don, ∀ d, x.2 = some d → ∃ m f, Loaded c root m ∧ c.realPath m = x.1 ∧ c.read m = .parsed f ∧ Usable f ∧ fileOf f = some d := by
      rintro ⟨p, o⟩ hx d hd
      obtain ⟨m, -, h2, h3, h4⟩ := hi.files _ _ (hperm.subset hx)
      dsimp only at hd
      obtain ⟨f, hr, hfd⟩ := dataOf_some.1 (h4.trans hd)
      exact ⟨m, f, h2, h3, hr, (file_data f).1 (by rw [hfd]; rfl), hfd⟩
    have hget : ∀ x ∈ don, 1 ≤ countIn name (x.2.getD []) → ∃ a la, Found c root a la ∧ la.name = name ∧ c.realPath a = x.1 := by
      intro x hx h1
      obtain ⟨b, hb, hn⟩ := hone.1 h1
      cases hd : x.2 with
      | none => rw [hd] at hb; cases hb
      | some d =>
        rw [hd] at hb
        obtain ⟨m, f, h2, h3, hr, hu, hfd⟩ := hentry x hx d hd
        obtain ⟨l, hl, hlb⟩ := (mem_fileOf_language hfd b).1 hb
        exact ⟨m, l, ⟨h2, f, hr, hu, hl⟩, (language_blocks hlb).1.symm.trans hn, h3⟩
    have hput : ∀ {a la}, Found c root a la → la.name = name → ∃ x ∈ don, 1 ≤ countIn name (x.2.getD []) ∧ x.1 = c.realPath a := by
      rintro a la ⟨hn, f, hr, hu, hl⟩ hname
      obtain ⟨d, hd, hfd⟩ := dataOf_usable hr hu
      refine ⟨_, hperm.symm.subset (hfiles hn), ?_, rfl⟩
      have hs : (languageOf la).isSome := by
        unfold languageOf
        rw [Option.isSome_map, mapM_isSome]
        exact fun u hu' => (unitOf_isSome u).2 (hu.1 la hl u hu')
      obtain ⟨b, hb⟩ := Option.isSome_iff_exists.1 hs
      rw [hd]
      exact hone.2 ⟨b, (mem_fileOf_language hfd b).2 ⟨la, hl, hb⟩, (language_blocks hb).1.trans hname⟩
    constructor
    · rintro (⟨x, hx, h2⟩ | ⟨x, hx, y, hy, h1, h2, h3⟩)
      · left
        cases hd : x.2 with
        | none => rw [hd] at h2; simp [countIn] at h2
        | some d =>
          obtain ⟨m, f, hm, -, hr, hu, hfd⟩ := hentry x hx d hd
          refine ⟨m, f, hm, hr, hu, ?_⟩
          rw [← countIn_file hfd]
          rw [hd] at h2
          exact h2
      · right
        obtain ⟨a, la, ha, hna, hpa⟩ := hget x hx h1
        obtain ⟨b, lb, hb, hnb, hpb⟩ := hget y hy h2
        exact ⟨a, b, la, lb, ha, hb, hna, hnb, by rw [hpa, hpb]; exact h3⟩
    · rintro (⟨n, f, hn, hr, hu, h2⟩ | ⟨a, b, la, lb, ha, hb, hna, hnb, hne⟩)
      · left
        obtain ⟨d, hd, hfd⟩ := dataOf_usable hr hu
        refine ⟨_, hperm.symm.subset (hfiles hn), ?_⟩
        rw [hd]
        rw [← countIn_file hfd] at h2
        exact h2
      · right
        obtain ⟨x, hx, h1, hpx⟩ := hput ha hna
        obtain ⟨y, hy, h2, hpy⟩ := hput hb hnb
        exact ⟨x, hx, y, hy, h1, h2, by rw [hpx, hpy]; exact hne⟩
  · intro name
    show get name s0.langs = none ↔ _
    rw [hi.langs, Option.map_eq_none_iff, List.find?_eq_none]
    constructor
    · intro h n l hl he
      obtain ⟨b, hb, hm⟩ := hfound hl
      exact h _ hm (by simpa using (language_blocks hb).1.trans he)
    · rintro h ⟨p, b⟩ hm he
      obtain ⟨n, l, hl, -, hb⟩ := hfound' hm
      exact h n l hl ((language_blocks hb).1.symm.trans (by simpa using he))
  · intro name b hb
    have hb : get name s0.langs = some b := hb
    rw [hi.langs] at hb
    obtain ⟨⟨p, b'⟩, hx, rfl⟩ := Option.map_eq_some_iff.1 hb
    obtain ⟨n, l, hl, rfl, hlb⟩ := hfound' (List.mem_of_find?_eq_some hx)
    have hn := List.find?_some hx
    have hfile : get name s0.langFile = some (c.realPath n) := by rw [hi.langFile, hx]; rfl
    obtain ⟨m, hm, h2, h3⟩ := hshort hl.1
    have he : s0.fileWithLanguage name = m := by
      unfold Import.fileWithLanguage
      rw [hfile]
      dsimp only
      rw [hm]
      rfl
    refine ⟨n, l, hl, (language_blocks hlb).1.symm.trans (by simpa using hn), hlb, ?_, ?_⟩
    · exact he.symm ▸ h2
    · exact (congrArg c.realPath he).trans h3

/-- **C77**, end: the import stage comes to its end if the files that are named have finitely many paths. -/
theorem imports_end {c : Console} {root : String} (hid : c.realPath (c.realPath root) = c.realPath root) {paths : List String} (hp : ∀ n, Loaded c root n → c.realPath n ∈ paths) :
    ∃ fuel s, importFile c fuel root = some s := by
  have key : ∀ (fuel : Nat) {s : Import} {don : List (String × Option (List Top))}, ImportInv c root s don (blocksOf don) → paths.length < fuel + don.length →
      (s.loop c fuel).isSome := by
    intro fuel
    induction fuel with
    | zero =>
      intro s don hi hl
      have hle : s.files.length ≤ paths.length := by
        rw [← List.length_map (f := Prod.fst)]
        refine (List.Nodup.subperm hi.nodup ?_).length_le
        intro p hp'
        obtain ⟨⟨p, o⟩, hm, rfl⟩ := List.mem_map.1 hp'
        obtain ⟨m, -, h2, h3, -⟩ := hi.files _ _ hm
        exact h3 ▸ hp m h2
      have := hi.perm.length_eq
      rw [List.length_append] at this
      omega
    | succ fuel ih =>
      intro s don hi hl
      rw [Import.loop.eq_def]
      dsimp only
      split
      · rfl
      · rename_i p todo ht
        refine ih (don := don ++ [(p, none)]) ?_ (by rw [List.length_append, List.length_singleton]; omega)
        have hb : blocksOf (don ++ [(p, none)]) = blocksOf don := by simp [blocksOf]
        rw [hb]
        refine { hi with perm := ?_ }
        have := hi.perm
        rw [ht] at this
        simpa using this
      · rename_i p f todo ht
        refine ih (don := don ++ [(p, some f)]) ?_ (by rw [List.length_append, List.length_singleton]; omega)
        have hb : blocksOf (don ++ [(p, some f)]) = blocksOf don ++ f.map (p, ·) := by simp [blocksOf]
        rw [hb]
        refine blocks_inv f { hi with perm := ?_ } ?_
        · have := hi.perm
          rw [ht] at this
          simpa using this
        · intro n hn
          have hm : (p, some f) ∈ s.files := hi.perm.subset (List.mem_append_right _ (ht ▸ List.mem_cons_self))
          obtain ⟨m, -, hm, -, hd⟩ := hi.files _ _ hm
          exact loaded_imports hm hd hn
  obtain ⟨s, hs⟩ := Option.isSome_iff_exists.1 (key (paths.length + 1) (start_inv hid) (by simp))
  exact ⟨paths.length + 1, _, by unfold importFile; exact Option.map_eq_some_iff.2 ⟨s, hs, rfl⟩⟩

/-! ### Inheritance -/

/-- `a` is the language that `b` inherits from; only the first name counts. -/
def Parent (find : String → Option LanguageDef) (a b : LanguageDef) : Prop := ∃ p ps, b.inherits = p :: ps ∧ find p = some a

/-- **C77**, end of inheritance: a language can be compiled exactly if there is no endless chain of languages that it inherits from. -/
theorem inherits_end (find : String → Option LanguageDef) (l : LanguageDef) : (∃ fuel r, compileLanguage find fuel l = some r) ↔ Acc (Parent find) l := by
  constructor
  · rintro ⟨fuel, r, h⟩
    induction fuel generalizing l r with
    | zero => cases h
    | succ fuel ih =>
      refine ⟨l, ?_⟩
      rintro a ⟨p, ps, hp, hf⟩
      rw [compileLanguage, hp] at h
      dsimp only at h
      rw [hf] at h
      obtain ⟨r', hr, -⟩ := Option.map_eq_some_iff.1 h
      exact ih _ _ hr
  · intro h
    induction h with
    | intro l _ ih =>
      cases hi : l.inherits with
      | nil => exact ⟨1, _, by rw [compileLanguage, hi]⟩
      | cons p ps =>
        cases hf : find p with
        | none => exact ⟨1, (Lang.new.compileBlock l.blocks, [p]), by rw [compileLanguage, hi]; dsimp only; rw [hf]⟩
        | some a =>
          obtain ⟨fuel, r, hr⟩ := ih a ⟨p, ps, hi, hf⟩
          exact ⟨fuel + 1, (r.1.compileBlock l.blocks, r.2), by rw [compileLanguage, hi]; dsimp only; rw [hf]; dsimp only; rw [hr]; rfl⟩

theorem compile_append (b : List (Block NtDef)) : ∀ (bs : List (List (Block NtDef))) (s : Lang), s.compile (bs ++ [b]) = (s.compile bs).compileBlock b
  | [], _ => rfl
  | x :: bs, s => compile_append b bs (s.compileBlock x)

/-- The languages that `l` inherits from and `l` itself, the oldest first, and the name of a language that is missing; `F` are the languages that there are. -/
inductive Heir (F : LanguageSyntax → Prop) : LanguageSyntax → List LanguageSyntax → List String → Prop
  | first {l : LanguageSyntax} : F l → l.inherits = none → Heir F l [l] []
  | missing {l : LanguageSyntax} {p : String} : F l → l.inherits = some p → (∀ m, F m → m.name ≠ p) → Heir F l [l] [p]
  | heir {l m : LanguageSyntax} {ls : List LanguageSyntax} {miss : List String} : F l → l.inherits = some m.name → Heir F m ls miss → Heir F l (ls ++ [l]) miss

theorem compile_heir {F : LanguageSyntax → Prop} {find : String → Option LanguageDef} (h1 : ∀ n, find n = none ↔ ∀ l, F l → l.name ≠ n)
    (h2 : ∀ n b, find n = some b → ∃ l, F l ∧ l.name = n ∧ languageOf l = some b) : ∀ (fuel : Nat) {l : LanguageSyntax} {b : LanguageDef} {r : Lang × List String}, F l → languageOf l = some b →
      compileLanguage find fuel b = some r → ∃ ls, Heir F l ls r.2 ∧ r.1 = stage (ls.map LanguageSyntax.blocks)
  | 0, _, _, _, _, _, h => nomatch h
  | fuel + 1, l, b, r, hl, hb, h => by
    obtain ⟨-, hi, hbl⟩ := language_blocks hb
    rw [compileLanguage.eq_def] at h
    dsimp only at h
    cases hp : l.inherits with
    | none =>
      rw [hp] at hi
      rw [hi] at h
      cases h
      exact ⟨[l], .first hl hp, by simp [stage, hbl, Lang.compile]⟩
    | some p =>
      rw [hp] at hi
      rw [hi] at h
      simp only [Option.toList_some] at h
      cases hf : find p with
      | none =>
        rw [hf] at h
        cases h
        exact ⟨[l], .missing hl hp ((h1 p).1 hf), by simp [stage, hbl, Lang.compile]⟩
      | some a =>
        rw [hf] at h
        obtain ⟨r', hr, rfl⟩ := Option.map_eq_some_iff.1 h
        obtain ⟨m, hm, hmn, hma⟩ := h2 p a hf
        obtain ⟨ls, hh, he⟩ := compile_heir h1 h2 fuel hm hma hr
        refine ⟨ls ++ [l], .heir hl (hmn ▸ hp) hh, ?_⟩
        unfold stage at he ⊢
        rw [List.map_append, List.map_append, List.map_cons, List.map_cons, List.map_nil, List.map_nil, compile_append, ← he, hbl]

/-- **C77**, languages of files: what is compiled for a language that was found in the files are the blocks that are written there for the language and
for those that it inherits from, the oldest first; the languages that are missing are reported. -/
theorem imported_language {c : Console} {root : String} (hid : c.realPath (c.realPath root) = c.realPath root) (hf : Faithful c root) {fuel fuel' : Nat} {s : Import}
    (h : importFile c fuel root = some s) {name : String} {b : LanguageDef} (hb : s.languageWithName name = some b) {r : Lang × List String}
    (hr : compileLanguage s.languageWithName fuel' b = some r) :
    ∃ l ls, l.name = name ∧ Heir (fun l => ∃ n, Found c root n l) l ls r.2 ∧ r.1 = stage (ls.map LanguageSyntax.blocks) := by
  obtain ⟨-, -, -, -, -, hn, hs⟩ := imports_exact hid hf h
  obtain ⟨n, l, hl, hname, hlb, -⟩ := hs name b hb
  obtain ⟨ls, hh, he⟩ := compile_heir (F := fun l => ∃ n, Found c root n l) (find := s.languageWithName)
    (fun n => (hn n).trans ⟨fun h l ⟨m, hm⟩ => h m l hm, fun h m l hm => h l ⟨m, hm⟩⟩)
    (fun n b hb => let ⟨m, l, hl, hn, hb, _⟩ := hs n b hb; ⟨l, ⟨m, hl⟩, hn, hb⟩) fuel' ⟨n, hl⟩ hlb hr
  exact ⟨l, ls, hname, hh, he⟩

/-- **C77**, meaning: the grammar that is made for a language derives from a nonterminal exactly what the definitions of the language, and of those that it
inherits from, mean, if they name no other language and define no symbol twice. -/
theorem imported_means_partial {c : Console} {root : String} (hid : c.realPath (c.realPath root) = c.realPath root) (hf : Faithful c root) {fuel fuel' : Nat} {s : Import}
    (h : importFile c fuel root = some s) {name : String} {b : LanguageDef} (hb : s.languageWithName name = some b) {r : Lang × List String}
    (hr : compileLanguage s.languageWithName fuel' b = some r) (hdup : ∀ n, Err.duplicateLexer n ∉ r.1.errors)
    (hown : ∀ l, (∃ n, Found c root n l) → ∀ d ∈ defsOf [l.blocks], ∀ p ∈ d.prods, ownAll p = true) :
    ∃ l ls, l.name = name ∧ Heir (fun l => ∃ n, Found c root n l) l ls r.2 ∧
      ∀ {n : String}, (∃ p, IsProd (defsOf (ls.map LanguageSyntax.blocks)) n p) → ∀ w, Means (IsProd (defsOf (ls.map LanguageSyntax.blocks))) [.nonterminal "" n .blank] w ↔
        Reads r.1.gram [.nonterminal (r.1.ids.idForNonterminal n).2] (w.map r.1.terminals.symbolForName) := by
  obtain ⟨l, ls, hname, hh, he⟩ := imported_language hid hf h hb hr
  refine ⟨l, ls, hname, hh, ?_⟩
  intro n hn w
  have hF : ∀ {l ls miss}, Heir (fun l => ∃ n, Found c root n l) l ls miss → ∀ m ∈ ls, ∃ n, Found c root n m := by
    intro l ls miss hh
    induction hh with
    | first hl _ => intro m hm; cases List.mem_singleton.1 hm; exact hl
    | missing hl _ _ => intro m hm; cases List.mem_singleton.1 hm; exact hl
    | heir hl _ _ ih =>
      intro m hm
      rcases List.mem_append.1 hm with hm | hm
      · exact ih m hm
      · cases List.mem_singleton.1 hm; exact hl
  rw [he] at hdup ⊢
  refine language_means ?_ hdup hn w
  intro d hd
  unfold defsOf at hd
  obtain ⟨u, hu, hd⟩ := List.mem_flatMap.1 hd
  obtain ⟨us, hus, hu⟩ := List.mem_flatten.1 hu
  obtain ⟨m, hm, rfl⟩ := List.mem_map.1 hus
  refine hown m (hF hh m hm) d ?_
  unfold defsOf
  exact List.mem_flatMap.2 ⟨u, by simpa using hu, hd⟩

end Files
end TameParse

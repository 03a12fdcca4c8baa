import Verif.Tool
/-
The command line tool (C78): exit codes, the tests of a definition file and the language that is compiled.
-/
namespace TameParse
namespace Tool
open AssocMap Files

/-! ### Exit codes -/

/-- Reports that say that something is wrong: errors and worse. -/
def Severe (r : Report) : Prop := r.sev = .error ∨ r.sev = .fatal ∨ r.sev = .bug

instance (r : Report) : Decidable (Severe r) := by unfold Severe; infer_instance

/-- Some report says that something is wrong. -/
def Loud (l : List Report) : Prop := ∃ r ∈ l, Severe r

instance (l : List Report) : Decidable (Loud l) := by unfold Loud; infer_instance

theorem loud_append {a b : List Report} : Loud (a ++ b) ↔ Loud a ∨ Loud b := by
  unfold Loud
  constructor
  · rintro ⟨r, h, hs⟩
    rcases List.mem_append.1 h with h | h
    · exact .inl ⟨r, h, hs⟩
    · exact .inr ⟨r, h, hs⟩
  · rintro (⟨r, h, hs⟩ | ⟨r, h, hs⟩)
    · exact ⟨r, List.mem_append_left _ h, hs⟩
    · exact ⟨r, List.mem_append_right _ h, hs⟩

theorem loud_nil : ¬ Loud [] := fun ⟨_, h, _⟩ => nomatch h

theorem report_severe {suppress : Bool} {e : Nat} {r : Report} (h : Severe r) : report suppress e r = r.sev.code := by
  unfold report
  rcases h with h | h | h <;> rw [h] <;> rfl

theorem report_mild {suppress : Bool} {e : Nat} {r : Report} (h : ¬ Severe r) : report suppress e r = e := by
  unfold report
  unfold Severe at h
  cases hs : r.sev <;> simp_all [Sev.code]

theorem exit_from (suppress : Bool) : ∀ (log : List Report) (e : Nat), log.foldl (report suppress) e = (((log.filter fun r => decide (Severe r)).getLast?).map fun r => r.sev.code).getD e := by
  intro log
  induction log with
  | nil => intro e; rfl
  | cons r log ih =>
    intro e
    rw [List.foldl_cons, ih]
    by_cases h : Severe r
    · rw [report_severe h, List.filter_cons_of_pos (by simp [h])]
      cases hl : log.filter fun r => decide (Severe r) with
      | nil => rfl
      | cons x xs => rw [List.getLast?_cons_cons]; rw [List.getLast?_cons]; rfl
    · rw [report_mild h, List.filter_cons_of_neg (by simp [h])]

/-- **C78**, exit code. It is the severity of the last report that is an error or worse, and 0 if there is none. Suppressed warnings make no difference. -/
theorem exit_code (suppress : Bool) (log : List Report) :
    (exitCode suppress log = 0 ↔ ¬ Loud log) ∧
    ∀ a r b, log = a ++ r :: b → Severe r → ¬ Loud b → exitCode suppress log = r.sev.code := by
  have key : ∀ a r b, log = a ++ r :: b → Severe r → ¬ Loud b → exitCode suppress log = r.sev.code := by
    intro a r b hl hr hb
    unfold exitCode
    rw [exit_from, hl, List.filter_append, List.filter_cons_of_pos (by simp [hr])]
    have : (b.filter fun r => decide (Severe r)) = [] := by
      rw [List.filter_eq_nil_iff]
      intro x hx h
      exact hb ⟨x, hx, of_decide_eq_true h⟩
    rw [this]
    simp
  refine ⟨⟨fun h hl => ?_, fun h => ?_⟩, key⟩
  · unfold exitCode at h
    rw [exit_from] at h
    cases hg : (log.filter fun r => decide (Severe r)).getLast? with
    | none =>
      rw [List.getLast?_eq_none_iff, List.filter_eq_nil_iff] at hg
      obtain ⟨r, hr, hs⟩ := hl
      exact hg r hr (by simp [hs])
    | some r =>
      rw [hg] at h
      have hr := (List.mem_filter.1 (List.mem_of_getLast? hg)).2
      have hs : Severe r := of_decide_eq_true hr
      simp only [Option.map_some, Option.getD_some] at h
      rcases hs with hs | hs | hs <;> rw [hs] at h <;> cases h
  · unfold exitCode
    rw [exit_from]
    have : (log.filter fun r => decide (Severe r)) = [] := by
      rw [List.filter_eq_nil_iff]
      intro x hx hd
      exact h ⟨x, hx, of_decide_eq_true hd⟩
    rw [this]
    rfl

example : exitCode false [⟨.error, "A"⟩, ⟨.bug, "B"⟩, ⟨.warning, "C"⟩] = 6 := (exit_code false _).2 [⟨.error, "A"⟩] ⟨.bug, "B"⟩ [⟨.warning, "C"⟩] rfl (.inr (.inr rfl))
  (fun ⟨r, h, hs⟩ => by rw [List.mem_singleton.1 h] at hs; revert hs; decide)

/-! ### What the tests should say -/

/-- The text of a test. -/
def TextOf (w : World) (t : TestDef) (text : List Char) : Prop :=
  (t.type = .matchFromFile ∧ w.openFile (String.ofList t.text) = some text) ∨ (t.type ≠ .matchFromFile ∧ text = t.text)

/-- The parser of a language for a nonterminal accepts or rejects the text. -/
def Answers (w : World) (lang nt : String) (text : List Char) (b : Bool) : Prop := ∃ run, ((w.stages lang).parser nt).tables = some run ∧ run text = some b

/-- A test fails: its file is missing, or the parser accepts what it should reject, or rejects what it should accept. -/
def Fails (w : World) (lang : String) (t : TestDef) : Prop :=
  (∀ text, ¬ TextOf w t text) ∨ ∃ text b, TextOf w t text ∧ Answers w lang t.nonterminal text b ∧ (b = true ↔ t.type = .noMatch)

/-- Something is wrong with the test blocks: there are none, the language of one is missing or wrong, or a test fails. -/
def Wrong (w : World) (tops : List Top) : Prop :=
  (∀ lang ts, .tests lang ts ∉ tops) ∨ ∃ lang ts, .tests lang ts ∈ tops ∧
    (w.find lang = none ∨ Loud (w.stages lang).language ∨ Loud (w.stages lang).unused ∨ Loud (w.stages lang).lexer ∨
      ((w.stages lang).hasLexer = true ∧ ∃ t ∈ ts, Loud ((w.stages lang).parser t.nonterminal).reports ∨ Fails w lang t))

/-- The name of a test that follows others in its block. -/
def testName (w : World) (lang : String) (before : List TestDef) (t : TestDef) : String :=
  baseName lang t ++ "." ++ toString ((before.filter fun x => (testText w x).isSome && decide (baseName lang x = baseName lang t)).length + 1)

/-- Every test that has a text has a parser, which comes to an end, and its name is not too long. -/
def CanRun (w : World) (tops : List Top) : Prop :=
  ∀ lang ts, .tests lang ts ∈ tops → (w.find lang).isSome → (w.stages lang).hasLexer = true → ∀ a t b, ts = a ++ t :: b → ∀ text, TextOf w t text →
    (∃ r, Answers w lang t.nonterminal text r) ∧ (testName w lang a t).length ≤ 54

/-- What should be written for the tests of a block: the names of those that have a text, and whether they passed. -/
def Listed (w : World) (lang : String) (ts : List TestDef) (x : String × Bool) : Prop :=
  ∃ a t b, ts = a ++ t :: b ∧ (∃ text, TextOf w t text) ∧ x.1 = testName w lang a t ∧ (x.2 = true ↔ ¬ Fails w lang t)

/-! ### The caches -/

structure Inv (w : World) (s : St) : Prop where
  lang : ∀ n b, get n s.langs = some b → b = true ∧ (Loud (w.stages n).language → Loud s.log)
  lexer : ∀ n b, get n s.lexers = some b → b = true ∧ (Loud (w.stages n).language → Loud s.log) ∧ (Loud (w.stages n).unused → Loud s.log) ∧ (Loud (w.stages n).lexer → Loud s.log)
  parser : ∀ n nt b, get (n, nt) s.parsers = some b → b = true ∧ (Loud ((w.stages n).parser nt).reports → Loud s.log)

theorem inv_new (w : World) : Inv w St.new := ⟨fun _ _ h => (nomatch h), fun _ _ h => (nomatch h), fun _ _ _ h => (nomatch h)⟩

theorem Inv.mono {w : World} {s s' : St} (h : Inv w s) (h1 : s'.langs = s.langs) (h2 : s'.lexers = s.lexers) (h3 : s'.parsers = s.parsers) (hl : Loud s.log → Loud s'.log) : Inv w s' := by
  refine ⟨?_, ?_, ?_⟩
  · rw [h1]; intro n b hg; exact ⟨(h.lang n b hg).1, fun x => hl ((h.lang n b hg).2 x)⟩
  · rw [h2]; intro n b hg
    obtain ⟨a, b, c, d⟩ := h.lexer n b hg
    exact ⟨a, fun x => hl (b x), fun x => hl (c x), fun x => hl (d x)⟩
  · rw [h3]; intro n nt b hg; exact ⟨(h.parser n nt b hg).1, fun x => hl ((h.parser n nt b hg).2 x)⟩

theorem Inv.say {w : World} {s : St} (h : Inv w s) (l : List Report) : Inv w (s.say l) := h.mono rfl rfl rfl (fun x => loud_append.2 (.inl x))

theorem getLanguage_spec {w : World} {s : St} (hi : Inv w s) {n : String} (hf : (w.find n).isSome) :
    (getLanguage w n s).1 = true ∧ Inv w (getLanguage w n s).2 ∧ (Loud (getLanguage w n s).2.log ↔ Loud s.log ∨ Loud (w.stages n).language) ∧
    (getLanguage w n s).2.lines = s.lines := by
  unfold getLanguage
  cases hg : AssocMap.get n s.langs with
  | some b =>
    obtain ⟨rfl, h⟩ := hi.lang n b hg
    exact ⟨rfl, hi, ⟨.inl, fun x => x.elim id h⟩, rfl⟩
  | none =>
    obtain ⟨d, hd⟩ := Option.isSome_iff_exists.1 hf
    rw [hd]
    dsimp only
    refine ⟨rfl, ⟨?_, (hi.say _).lexer, (hi.say _).parser⟩, loud_append, rfl⟩
    intro m b hm
    rw [get_put] at hm
    split at hm
    · rename_i he
      cases hm
      subst he
      exact ⟨rfl, fun x => loud_append.2 (.inr x)⟩
    · exact (hi.say _).lang m b hm

theorem getLexer_spec {w : World} {s : St} (hi : Inv w s) {n : String} (hf : (w.find n).isSome) :
    (getLexer w n s).1 = true ∧ Inv w (getLexer w n s).2 ∧
    (Loud (getLexer w n s).2.log ↔ Loud s.log ∨ Loud (w.stages n).language ∨ Loud (w.stages n).unused ∨ Loud (w.stages n).lexer) ∧
    (getLexer w n s).2.lines = s.lines := by
  unfold getLexer
  cases hg : AssocMap.get n s.lexers with
  | some b =>
    obtain ⟨rfl, h1, h2, h3⟩ := hi.lexer n b hg
    exact ⟨rfl, hi, ⟨.inl, fun x => x.elim id (fun x => x.elim h1 (fun x => x.elim h2 h3))⟩, rfl⟩
  | none =>
    obtain ⟨h1, h2, h3, h4⟩ := getLanguage_spec hi hf
    dsimp only
    rw [if_pos h1]
    have hl : Loud ((getLanguage w n s).2.log ++ ((w.stages n).unused ++ (w.stages n).lexer)) ↔ Loud s.log ∨ Loud (w.stages n).language ∨ Loud (w.stages n).unused ∨ Loud (w.stages n).lexer := by
      rw [loud_append, loud_append, h3, or_assoc]
    refine ⟨rfl, ⟨(h2.say _).lang, ?_, (h2.say _).parser⟩, hl, h4⟩
    intro m b hm
    rw [get_put] at hm
    split at hm
    · rename_i he
      cases hm
      subst he
      exact ⟨rfl, fun x => hl.2 (.inr (.inl x)), fun x => hl.2 (.inr (.inr (.inl x))), fun x => hl.2 (.inr (.inr (.inr x)))⟩
    · exact (h2.say _).lexer m b hm

theorem getParser_spec {w : World} {s : St} (hi : Inv w s) {n : String} (hf : (w.find n).isSome) (nt : String)
    (hq : Loud (w.stages n).language ∨ Loud (w.stages n).unused ∨ Loud (w.stages n).lexer → Loud s.log) :
    (getParser w n nt s).1 = true ∧ Inv w (getParser w n nt s).2 ∧ (Loud (getParser w n nt s).2.log ↔ Loud s.log ∨ Loud ((w.stages n).parser nt).reports) ∧
    (getParser w n nt s).2.lines = s.lines := by
  unfold getParser
  cases hg : AssocMap.get (n, nt) s.parsers with
  | some b =>
    obtain ⟨rfl, h⟩ := hi.parser n nt b hg
    exact ⟨rfl, hi, ⟨.inl, fun x => x.elim id h⟩, rfl⟩
  | none =>
    obtain ⟨h1, h2, h3, h4⟩ := getLexer_spec hi hf
    obtain ⟨k1, k2, k3, k4⟩ := getLanguage_spec h2 hf
    dsimp only
    rw [if_pos (by rw [h1, k1]; rfl)]
    have hl : Loud ((getLanguage w n (getLexer w n s).2).2.log ++ ((w.stages n).parser nt).reports) ↔ Loud s.log ∨ Loud ((w.stages n).parser nt).reports := by
      rw [loud_append, k3, h3]
      constructor
      · rintro (((h | h) | h) | h)
        · exact .inl h
        · exact .inl (hq h)
        · exact .inl (hq (.inl h))
        · exact .inr h
      · rintro (h | h)
        · exact .inl (.inl (.inl h))
        · exact .inr h
    refine ⟨rfl, ⟨(k2.say _).lang, (k2.say _).lexer, ?_⟩, hl, k4.trans h4⟩
    intro m mt b hm
    rw [get_put] at hm
    split at hm
    · rename_i he
      cases hm
      cases he
      exact ⟨rfl, fun x => hl.2 (.inr x)⟩
    · exact (k2.say _).parser m mt b hm

/-! ### The tests of a block -/

theorem textOf_iff {w : World} {t : TestDef} {text : List Char} : TextOf w t text ↔ testText w t = some text := by
  unfold TextOf testText
  cases t.type <;> simp [eq_comm]

/-- What is known after some tests of a block. -/
structure LoopInv (w : World) (lang : String) (start : St) (done : List TestDef) (l : Loop) : Prop where
  inv : Inv w l.st
  ids : ∀ base, (get base l.ids).getD 0 = (done.filter fun x => (testText w x).isSome && decide (baseName lang x = base)).length
  loud : Loud l.st.log ∨ l.failed ≠ 0 ↔ Loud start.log ∨ ∃ t ∈ done, Loud ((w.stages lang).parser t.nonterminal).reports ∨ Fails w lang t
  quiet : Loud (w.stages lang).language ∨ Loud (w.stages lang).unused ∨ Loud (w.stages lang).lexer → Loud l.st.log
  lines : ∀ x, x ∈ l.st.lines ↔ x ∈ start.lines ∨ Listed w lang done x

theorem split_last {α : Type} {l a b : List α} {t x : α} : l ++ [t] = a ++ x :: b ↔ (a = l ∧ x = t ∧ b = []) ∨ ∃ b', b = b' ++ [t] ∧ l = a ++ x :: b' := by
  constructor
  · intro h
    rcases List.eq_nil_or_concat b with rfl | ⟨b', y, rfl⟩
    · obtain ⟨h1, h2⟩ := List.append_inj' h rfl
      cases h2
      exact .inl ⟨h1.symm, rfl, rfl⟩
    · rw [List.concat_eq_append] at h
      have h' : l ++ [t] = (a ++ x :: b') ++ [y] := by rw [h]; simp
      obtain ⟨h1, h2⟩ := List.append_inj' h' rfl
      cases h2
      exact .inr ⟨b', by simp, h1⟩
  · rintro (⟨rfl, rfl, rfl⟩ | ⟨b', rfl, rfl⟩)
    · rfl
    · simp

theorem listed_snoc {w : World} {lang : String} {done : List TestDef} {t : TestDef} {x : String × Bool} :
    Listed w lang (done ++ [t]) x ↔ Listed w lang done x ∨ ((∃ text, TextOf w t text) ∧ x.1 = testName w lang done t ∧ (x.2 = true ↔ ¬ Fails w lang t)) := by
  constructor
  · rintro ⟨a, y, b, h, h1, h2, h3⟩
    rcases split_last.1 h with ⟨rfl, rfl, -⟩ | ⟨b', rfl, rfl⟩
    · exact .inr ⟨h1, h2, h3⟩
    · exact .inl ⟨a, y, b', rfl, h1, h2, h3⟩
  · rintro (⟨a, y, b, h, h1, h2, h3⟩ | ⟨h1, h2, h3⟩)
    · exact ⟨a, y, b ++ [t], split_last.2 (.inr ⟨b, rfl, h⟩), h1, h2, h3⟩
    · exact ⟨done, t, [], rfl, h1, h2, h3⟩

theorem failed_iff {t : TestDef} {b : Bool} : (if t.type = .noMatch then !b else b) = false ↔ (b = true ↔ t.type = .noMatch) := by
  split <;> rename_i h <;> cases b <;> simp [h]

theorem runTest_spec {w : World} {lang : String} {start : St} {done : List TestDef} {l : Loop} (hf : (w.find lang).isSome) (hi : LoopInv w lang start done l) (t : TestDef) :
    (∀ l', runTest w lang l t = .ok l' → LoopInv w lang start (done ++ [t]) l') ∧
    ((∃ l', runTest w lang l t = .ok l') ↔ ∀ text, TextOf w t text → (∃ r, Answers w lang t.nonterminal text r) ∧ (testName w lang done t).length ≤ 54) := by
  obtain ⟨h1, h2, h3, h4⟩ := getParser_spec hi.inv hf t.nonterminal hi.quiet
  have hids : ∀ (base : String) (ids : List (String × Nat)),
      (∀ b, (AssocMap.get b ids).getD 0 = (AssocMap.get b l.ids).getD 0 + if (testText w t).isSome = true ∧ baseName lang t = b then 1 else 0) →
      (AssocMap.get base ids).getD 0 = ((done ++ [t]).filter fun x => (testText w x).isSome && decide (baseName lang x = base)).length := by
    intro base ids h
    rw [h, hi.ids, List.filter_append, List.length_append]
    congr 1
    by_cases hc : (testText w t).isSome = true ∧ baseName lang t = base
    · rw [if_pos hc, List.filter_cons_of_pos (by simp [hc])]; rfl
    · rw [if_neg hc, List.filter_cons_of_neg (by simpa using hc)]; rfl
  have hfa : (∀ text, testText w t ≠ some text) → Fails w lang t := fun h => .inl fun text ht => h text (textOf_iff.1 ht)
  unfold runTest
  dsimp only
  cases ht : testText w t with
  | none =>
    dsimp only
    refine ⟨?_, ?_⟩
    · rintro l' ⟨⟩
      refine ⟨h2.say _, fun base => hids base _ (by simp [ht]), ?_, fun x => loud_append.2 (.inl (h3.2 (.inl (hi.quiet x)))), ?_⟩
      rotate_left
      · intro x
        have hno : ¬ ∃ text, TextOf w t text := fun ⟨y, hy⟩ => by rw [textOf_iff, ht] at hy; cases hy
        refine Iff.trans ?_ (or_congr .rfl (listed_snoc.trans (or_iff_left fun h => hno h.1)).symm)
        rw [← hi.lines, ← h4]
        rfl
      constructor
      · intro _
        exact .inr ⟨t, List.mem_append_right _ (List.mem_singleton.2 rfl), .inr (hfa (by simp [ht]))⟩
      · intro _
        exact .inl (loud_append.2 (.inr ⟨_, List.mem_singleton.2 rfl, .inl rfl⟩))
    · refine ⟨fun _ text h => ?_, fun _ => ⟨_, rfl⟩⟩
      rw [textOf_iff, ht] at h
      cases h
  | some text =>
    dsimp only
    rw [if_pos h1]
    have hte : ∀ x, TextOf w t x ↔ x = text := fun x => by rw [textOf_iff, ht]; exact ⟨fun h => (Option.some.inj h).symm, fun h => h ▸ rfl⟩
    cases htab : ((w.stages lang).parser t.nonterminal).tables with
    | none =>
      dsimp only
      refine ⟨fun l' h => (nomatch h), fun ⟨_, h⟩ => (nomatch h), fun h => ?_⟩
      obtain ⟨⟨r, run, hr, -⟩, -⟩ := h text ((hte _).2 rfl)
      rw [htab] at hr
      cases hr
    | some run =>
      dsimp only
      cases hrun : run text with
      | none =>
        dsimp only
        refine ⟨fun l' h => (nomatch h), fun ⟨_, h⟩ => (nomatch h), fun h => ?_⟩
        obtain ⟨⟨r, run', hr, hx⟩, -⟩ := h text ((hte _).2 rfl)
        rw [htab] at hr
        cases hr
        rw [hrun] at hx
        cases hx
      | some b =>
        dsimp only
        have hname : baseName lang t ++ "." ++ toString ((AssocMap.get (baseName lang t) l.ids).getD 0 + 1) = testName w lang done t := by
          rw [hi.ids]; rfl
        rw [hname]
        have hans : Answers w lang t.nonterminal text b := ⟨run, htab, hrun⟩
        have hfails : (if t.type = .noMatch then !b else b) = false ↔ Fails w lang t := by
          rw [failed_iff]
          constructor
          · intro h
            exact .inr ⟨text, b, (hte _).2 rfl, hans, h⟩
          · rintro (h | ⟨x, c, hx, ⟨run', hr, hc⟩, h⟩)
            · exact absurd ((hte _).2 rfl) (h text)
            · rw [(hte _).1 hx] at hc
              rw [htab] at hr
              cases hr
              rw [hrun] at hc
              cases hc
              exact h
        by_cases hlen : 54 < (testName w lang done t).length
        · rw [if_pos hlen]
          refine ⟨fun l' h => (nomatch h), fun ⟨_, h⟩ => (nomatch h), fun h => ?_⟩
          have := (h text ((hte _).2 rfl)).2
          omega
        · rw [if_neg hlen]
          refine ⟨?_, fun _ x hx => ⟨⟨b, (hte _).1 hx ▸ hans⟩, by omega⟩, fun _ => ⟨_, rfl⟩⟩
          intro l' hl'
          have hl' := Except.ok.inj hl'
          subst hl'
          generalize (if t.type = .noMatch then !b else b) = res at hfails
          refine ⟨?_, fun base => hids base _ ?_, ?_, ?_, ?_⟩
          · dsimp only
            split
            · exact h2.mono rfl rfl rfl id
            · exact h2.mono rfl rfl rfl (fun x => loud_append.2 (.inl x))
          · intro base'
            dsimp only
            rw [get_put]
            by_cases he : base' = baseName lang t
            · rw [if_pos he.symm, if_pos ⟨by rw [ht]; rfl, he.symm⟩, he]; rfl
            · rw [if_neg (fun h => he h.symm), if_neg (fun h => he h.2.symm)]; rfl
          · have hex : (∃ x ∈ done ++ [t], Loud ((w.stages lang).parser x.nonterminal).reports ∨ Fails w lang x) ↔
                (∃ x ∈ done, Loud ((w.stages lang).parser x.nonterminal).reports ∨ Fails w lang x) ∨ Loud ((w.stages lang).parser t.nonterminal).reports ∨ Fails w lang t := by
              constructor
              · rintro ⟨x, hx, h⟩
                rcases List.mem_append.1 hx with hx | hx
                · exact .inl ⟨x, hx, h⟩
                · rw [List.mem_singleton.1 hx] at h
                  exact .inr h
              · rintro (⟨x, hx, h⟩ | h)
                · exact ⟨x, List.mem_append_left _ hx, h⟩
                · exact ⟨t, List.mem_append_right _ (List.mem_singleton.2 rfl), h⟩
            rw [hex, ← or_assoc, ← hi.loud]
            dsimp only
            cases res with
            | true =>
              have hno : ¬ Fails w lang t := fun h => nomatch hfails.2 h
              rw [if_pos rfl, if_pos rfl]
              show Loud (getParser w lang t.nonterminal l.st).2.log ∨ l.failed ≠ 0 ↔ _
              rw [h3]
              tauto
            | false =>
              rw [if_neg (by simp), if_neg (by simp)]
              have := hfails.1 rfl
              refine ⟨fun _ => .inr (.inr this), fun _ => .inr (by omega)⟩
          · intro x
            dsimp only
            have : Loud (getParser w lang t.nonterminal l.st).2.log := h3.2 (.inl (hi.quiet x))
            split
            · exact this
            · exact loud_append.2 (.inl this)
          · intro x
            have hmem : ∀ y, y ∈ (getParser w lang t.nonterminal l.st).2.lines ++ [(testName w lang done t, res)] ↔ y ∈ start.lines ∨ Listed w lang (done ++ [t]) y := by
              intro y
              rw [List.mem_append, h4, hi.lines, listed_snoc, or_assoc, List.mem_singleton]
              refine or_congr .rfl (or_congr .rfl ⟨?_, ?_⟩)
              · rintro rfl
                refine ⟨⟨text, (hte _).2 rfl⟩, rfl, ?_⟩
                rw [← hfails]
                simp
              · rintro ⟨-, g1, g2⟩
                rw [← hfails] at g2
                refine Prod.ext g1 ?_
                revert g2
                cases y.2 <;> cases res <;> simp
            have hi' := hmem x
            cases res with
            | true => exact hi'
            | false => exact hi'

theorem runTests_spec {w : World} {lang : String} {start : St} (hf : (w.find lang).isSome) : ∀ (ts done : List TestDef) {l : Loop}, LoopInv w lang start done l →
    (∀ l', ts.foldlM (runTest w lang) l = .ok l' → LoopInv w lang start (done ++ ts) l') ∧
    ((∃ l', ts.foldlM (runTest w lang) l = .ok l') ↔ ∀ a t b, ts = a ++ t :: b → ∀ text, TextOf w t text →
      (∃ r, Answers w lang t.nonterminal text r) ∧ (testName w lang (done ++ a) t).length ≤ 54) := by
  intro ts
  induction ts with
  | nil =>
    intro done l hi
    refine ⟨?_, fun _ a t b h => ?_, fun _ => ⟨l, rfl⟩⟩
    · rintro l' ⟨⟩
      rw [List.append_nil]; exact hi
    · cases a <;> cases h
  | cons t ts ih =>
    intro done l hi
    obtain ⟨h1, h2⟩ := runTest_spec hf hi t
    rw [List.foldlM_cons]
    cases hr : runTest w lang l t with
    | error e =>
      refine ⟨fun l' h => (nomatch h), fun ⟨_, h⟩ => (nomatch h), fun h => ?_⟩
      obtain ⟨l', hl'⟩ := h2.2 (fun text ht => by have := h [] t ts rfl text ht; rwa [List.append_nil] at this)
      rw [hr] at hl'
      cases hl'
    | ok l1 =>
      have hi1 := h1 l1 hr
      obtain ⟨k1, k2⟩ := ih (done ++ [t]) hi1
      have hok := h2.1 ⟨l1, hr⟩
      refine ⟨?_, ?_⟩
      · intro l' h
        have := k1 l' h
        rwa [List.append_assoc] at this
      · refine k2.trans ⟨fun h a x b he => ?_, fun h a x b he => ?_⟩
        · cases a with
          | nil =>
            cases he
            rw [List.append_nil]
            exact hok
          | cons y a =>
            cases he
            have := h a x b rfl
            rwa [List.append_assoc] at this
        · have := h (t :: a) x b (by rw [he]; rfl)
          rwa [List.append_assoc]

/-- What a block of tests does to the reports. -/
def BlockWrong (w : World) (lang : String) (ts : List TestDef) : Prop :=
  w.find lang = none ∨ Loud (w.stages lang).language ∨ Loud (w.stages lang).unused ∨ Loud (w.stages lang).lexer ∨
    ((w.stages lang).hasLexer = true ∧ ∃ t ∈ ts, Loud ((w.stages lang).parser t.nonterminal).reports ∨ Fails w lang t)

theorem runBlock_spec {w : World} {s : St} (hi : Inv w s) (lang : String) (ts : List TestDef) :
    (∀ s', runBlock w lang ts s = .ok s' → Inv w s' ∧ (Loud s'.log ↔ Loud s.log ∨ BlockWrong w lang ts) ∧
      ∀ x, x ∈ s'.lines ↔ x ∈ s.lines ∨ ((w.find lang).isSome ∧ (w.stages lang).hasLexer = true ∧ Listed w lang ts x)) ∧
    ((∃ s', runBlock w lang ts s = .ok s') ↔ ((w.find lang).isSome → (w.stages lang).hasLexer = true → ∀ a t b, ts = a ++ t :: b → ∀ text, TextOf w t text →
      (∃ r, Answers w lang t.nonterminal text r) ∧ (testName w lang a t).length ≤ 54)) := by
  unfold runBlock BlockWrong
  cases hf : w.find lang with
  | none =>
    dsimp only
    refine ⟨?_, fun _ h => (nomatch h), fun _ => ⟨_, rfl⟩⟩
    rintro s' ⟨⟩
    exact ⟨hi.say _, ⟨fun _ => .inr (.inl rfl), fun _ => loud_append.2 (.inr ⟨_, List.mem_singleton.2 rfl, .inl rfl⟩)⟩, fun x => ⟨.inl, fun h => h.elim id (fun h => nomatch h.1)⟩⟩
  | some d =>
    dsimp only
    have hfs : (w.find lang).isSome := by rw [hf]; rfl
    obtain ⟨h1, h2, h3, h4⟩ := getLexer_spec hi hfs
    by_cases hl : (w.stages lang).hasLexer = true
    · rw [if_pos (by rw [h1, hl]; rfl)]
      have hi0 : LoopInv w lang (getLexer w lang s).2 [] ⟨(getLexer w lang s).2, [], 0, 0⟩ :=
        ⟨h2, fun base => rfl, by simp, fun x => h3.2 (.inr x), fun x => ⟨.inl, fun h => h.elim id (fun ⟨a, _, _, h, _⟩ => by cases a <;> cases h)⟩⟩
      obtain ⟨k1, k2⟩ := runTests_spec hfs ts [] hi0
      simp only [List.nil_append] at k1 k2
      refine ⟨?_, ?_⟩
      · intro s' hs'
        cases hr : ts.foldlM (runTest w lang) ⟨(getLexer w lang s).2, [], 0, 0⟩ with
        | error e => rw [hr] at hs'; cases hs'
        | ok l =>
          rw [hr] at hs'
          have hs' := Except.ok.inj hs'
          subst hs'
          have hl' := k1 l hr
          refine ⟨(hl'.inv.say _).say _, ?_, fun x => by rw [← h4]; exact (hl'.lines x).trans (or_congr .rfl ⟨fun h => ⟨rfl, hl, h⟩, fun h => h.2.2⟩)⟩
          have hw : ¬ Loud (if l.passed = 0 ∧ l.failed = 0 then [(⟨.warning, "NO_TESTS_TO_RUN"⟩ : Report)] else []) := by
            rintro ⟨r, hr, hs⟩
            split at hr
            · rw [List.mem_singleton.1 hr] at hs; revert hs; decide
            · cases hr
          have hfl : Loud (if l.failed ≠ 0 then [(⟨.error, "TESTS_FAILED"⟩ : Report)] else []) ↔ l.failed ≠ 0 := by
            split
            · rename_i h
              exact ⟨fun _ => h, fun _ => ⟨_, List.mem_singleton.2 rfl, .inl rfl⟩⟩
            · rename_i h
              exact ⟨fun x => absurd x loud_nil, fun x => absurd x h⟩
          show Loud (l.st.log ++ _ ++ _) ↔ _
          rw [loud_append, loud_append, hfl, or_iff_left hw, hl'.loud, h3]
          simp only [reduceCtorEq, false_or, hl, true_and, or_assoc]
      · rw [show (∃ s', Except.map _ (ts.foldlM (runTest w lang) ⟨(getLexer w lang s).2, [], 0, 0⟩) = Except.ok s') ↔
            ∃ l, ts.foldlM (runTest w lang) ⟨(getLexer w lang s).2, [], 0, 0⟩ = .ok l from ?_]
        · rw [k2]
          exact ⟨fun h _ _ => h, fun h => h rfl hl⟩
        · cases ts.foldlM (runTest w lang) ⟨(getLexer w lang s).2, [], 0, 0⟩ with
          | error e => exact ⟨fun ⟨_, h⟩ => (nomatch h), fun ⟨_, h⟩ => (nomatch h)⟩
          | ok l => exact ⟨fun _ => ⟨l, rfl⟩, fun _ => ⟨_, rfl⟩⟩
    · rw [if_neg (by rw [h1]; simpa using hl)]
      refine ⟨?_, fun _ _ h => absurd h hl, fun _ => ⟨_, rfl⟩⟩
      rintro s' ⟨⟩
      refine ⟨h2, ?_, fun x => by rw [h4]; exact ⟨.inl, fun h => h.elim id (fun h => absurd h.2.1 hl)⟩⟩
      rw [h3]
      simp only [reduceCtorEq, false_or, hl, false_and, or_false, Bool.false_eq_true]

theorem blocks_spec {w : World} : ∀ (tops : List Top) {s : St}, Inv w s →
    (∀ s', tops.foldlM (testTop w) s = .ok s' → Inv w s' ∧ (Loud s'.log ↔ Loud s.log ∨ ∃ lang ts, .tests lang ts ∈ tops ∧ BlockWrong w lang ts) ∧
      ∀ x, x ∈ s'.lines ↔ x ∈ s.lines ∨ ∃ lang ts, .tests lang ts ∈ tops ∧ (w.find lang).isSome ∧ (w.stages lang).hasLexer = true ∧ Listed w lang ts x) ∧
    ((∃ s', tops.foldlM (testTop w) s = .ok s') ↔ CanRun w tops) := by
  intro tops
  induction tops with
  | nil =>
    intro s hi
    refine ⟨?_, fun _ _ _ h => (nomatch h), fun _ => ⟨s, rfl⟩⟩
    rintro s' ⟨⟩
    exact ⟨hi, ⟨.inl, fun h => h.elim id (fun ⟨_, _, h, _⟩ => nomatch h)⟩, fun x => ⟨.inl, fun h => h.elim id (fun ⟨_, _, h, _⟩ => nomatch h)⟩⟩
  | cons top tops ih =>
    intro s hi
    rw [List.foldlM_cons]
    have key : ∀ (hn : ∀ lang ts, top ≠ .tests lang ts) (ht : testTop w s top = .ok s),
        (∀ s', (testTop w s top >>= fun s' => tops.foldlM (testTop w) s') = .ok s' → Inv w s' ∧ (Loud s'.log ↔ Loud s.log ∨ ∃ lang ts, .tests lang ts ∈ top :: tops ∧ BlockWrong w lang ts) ∧
          ∀ x, x ∈ s'.lines ↔ x ∈ s.lines ∨ ∃ lang ts, .tests lang ts ∈ top :: tops ∧ (w.find lang).isSome ∧ (w.stages lang).hasLexer = true ∧ Listed w lang ts x) ∧
        ((∃ s', (testTop w s top >>= fun s' => tops.foldlM (testTop w) s') = .ok s') ↔ CanRun w (top :: tops)) := by
      intro hn ht
      rw [ht, show (Except.ok s >>= fun s' => tops.foldlM (testTop w) s') = tops.foldlM (testTop w) s from rfl]
      obtain ⟨h1, h2⟩ := ih hi
      have hm : ∀ lang ts, Top.tests lang ts ∈ top :: tops ↔ Top.tests lang ts ∈ tops := fun lang ts =>
        ⟨fun h => (List.mem_cons.1 h).elim (fun h => absurd h.symm (hn lang ts)) id, List.mem_cons_of_mem _⟩
      refine ⟨fun s' h => ?_, ?_⟩
      · obtain ⟨a, b, c⟩ := h1 s' h
        refine ⟨a, b.trans ?_, fun x => (c x).trans ?_⟩
        · simp only [hm]
        · simp only [hm]
      · refine h2.trans ?_
        unfold CanRun
        simp only [hm]
    cases top with
    | language l => exact key (fun _ _ h => nomatch h) rfl
    | imports f => exact key (fun _ _ h => nomatch h) rfl
    | parser n l ss => exact key (fun _ _ h => nomatch h) rfl
    | tests lang ts =>
      clear key
      obtain ⟨h1, h2⟩ := runBlock_spec hi lang ts
      rw [show testTop w s (.tests lang ts) = runBlock w lang ts s from rfl]
      cases hr : runBlock w lang ts s with
      | error e =>
        refine ⟨fun s' h => (nomatch h), fun ⟨_, h⟩ => (nomatch h), fun h => ?_⟩
        obtain ⟨s', hs'⟩ := h2.2 (h lang ts (List.mem_cons_self ..))
        rw [hr] at hs'
        cases hs'
      | ok s1 =>
        obtain ⟨i1, l1, m1⟩ := h1 s1 hr
        obtain ⟨k1, k2⟩ := ih i1
        rw [show (Except.ok s1 >>= fun s' => tops.foldlM (testTop w) s') = tops.foldlM (testTop w) s1 from rfl]
        refine ⟨fun s' h => ?_, ?_⟩
        · obtain ⟨a, b, c⟩ := k1 s' h
          have hcons : ∀ (Q : String → List TestDef → Prop), (Q lang ts ∨ ∃ lang' ts', Top.tests lang' ts' ∈ tops ∧ Q lang' ts') ↔ ∃ lang' ts', Top.tests lang' ts' ∈ Top.tests lang ts :: tops ∧ Q lang' ts' := by
            intro Q
            constructor
            · rintro (h | ⟨lang', ts', hm, h⟩)
              · exact ⟨lang, ts, List.mem_cons_self .., h⟩
              · exact ⟨lang', ts', List.mem_cons_of_mem _ hm, h⟩
            · rintro ⟨lang', ts', hm, h⟩
              rcases List.mem_cons.1 hm with hm | hm
              · cases hm
                exact .inl h
              · exact .inr ⟨lang', ts', hm, h⟩
          refine ⟨a, b.trans ?_, fun x => (c x).trans ?_⟩
          · rw [l1, or_assoc]
            exact or_congr .rfl (hcons (BlockWrong w))
          · rw [m1, or_assoc]
            exact or_congr .rfl (hcons (fun lang ts => (w.find lang).isSome ∧ (w.stages lang).hasLexer = true ∧ Listed w lang ts x))
        · refine Iff.trans k2 ⟨fun h lang' ts' hm => ?_, fun h lang' ts' hm => h lang' ts' (List.mem_cons_of_mem _ hm)⟩
          rcases List.mem_cons.1 hm with hm | hm
          · cases hm
            exact h2.1 ⟨s1, hr⟩
          · exact h lang' ts' hm

/-- **C78**, tests. If the test stage comes to its end, the exit code is not 0 exactly if something is wrong: there are no tests, the language of some is missing or has
errors, or a test fails. -/
theorem tests_exact {w : World} {tops : List Top} {s : St} (h : testStage w tops = .ok s) (suppress : Bool) : exitCode suppress s.log ≠ 0 ↔ Wrong w tops := by
  rw [Ne, (exit_code suppress s.log).1, not_not]
  unfold testStage at h
  cases hr : tops.foldlM (testTop w) St.new with
  | error e => rw [hr] at h; cases h
  | ok s1 =>
    rw [hr] at h
    have h := Except.ok.inj h
    subst h
    obtain ⟨-, h1, -⟩ := (blocks_spec tops (inv_new w)).1 s1 hr
    have hn : ¬ Loud St.new.log := loud_nil
    rw [or_iff_right hn] at h1
    have hany : tops.any isTests = true ↔ ∃ lang ts, Top.tests lang ts ∈ tops := by
      rw [List.any_eq_true]
      constructor
      · rintro ⟨t, ht, h⟩
        cases t with
        | tests lang ts => exact ⟨lang, ts, ht⟩
        | _ => cases h
      · rintro ⟨lang, ts, h⟩
        exact ⟨_, h, rfl⟩
    unfold Wrong
    split
    · rename_i ha
      obtain ⟨lang, ts, ht⟩ := hany.1 ha
      rw [h1, or_iff_right (fun h => h lang ts ht)]
      rfl
    · rename_i ha
      refine ⟨fun _ => .inl fun lang ts ht => ha (hany.2 ⟨lang, ts, ht⟩), fun _ => loud_append.2 (.inr ⟨_, List.mem_singleton.2 rfl, .inl rfl⟩)⟩

/-- **C78**, end. The test stage comes to its end exactly if every test that is run has a parser that comes to an end, and a name of at most 54 characters. -/
theorem tests_end (w : World) (tops : List Top) : (∃ s, testStage w tops = .ok s) ↔ CanRun w tops := by
  rw [← (blocks_spec tops (inv_new w)).2]
  unfold testStage
  cases tops.foldlM (testTop w) St.new with
  | error e => exact ⟨fun ⟨_, h⟩ => (nomatch h), fun ⟨_, h⟩ => (nomatch h)⟩
  | ok l => exact ⟨fun _ => ⟨l, rfl⟩, fun _ => ⟨_, rfl⟩⟩

/-- **C78**, meaning. If nothing is wrong with the languages, and their parsers accept just the texts of `P`, then the exit code is 0 exactly if all files of tests exist, the texts
that should match are in `P`, and those that should not are not. -/
theorem tests_mean {w : World} {tops : List Top} {s : St} (h : testStage w tops = .ok s) (suppress : Bool) (P : String → String → List Char → Prop)
    (hany : ∃ lang ts, .tests lang ts ∈ tops)
    (hgood : ∀ lang ts, .tests lang ts ∈ tops → (w.find lang).isSome ∧ ¬ Loud (w.stages lang).language ∧ ¬ Loud (w.stages lang).unused ∧ ¬ Loud (w.stages lang).lexer ∧
      (w.stages lang).hasLexer = true ∧ ∀ t ∈ ts, ¬ Loud ((w.stages lang).parser t.nonterminal).reports)
    (hP : ∀ lang ts, .tests lang ts ∈ tops → ∀ t ∈ ts, ∀ text b, TextOf w t text → Answers w lang t.nonterminal text b → (b = true ↔ P lang t.nonterminal text)) :
    exitCode suppress s.log = 0 ↔ ∀ lang ts, .tests lang ts ∈ tops → ∀ t ∈ ts, ∃ text, TextOf w t text ∧ (P lang t.nonterminal text ↔ t.type ≠ .noMatch) := by
  have hx := tests_exact h suppress
  have hrun := (tests_end w tops).1 ⟨s, h⟩
  rw [show exitCode suppress s.log = 0 ↔ ¬ Wrong w tops from ⟨fun he hw => hx.2 hw he, fun hw => Classical.byContradiction fun he => hw (hx.1 he)⟩]
  constructor
  · intro hw lang ts hm t ht
    obtain ⟨h1, -, -, -, h5, -⟩ := hgood lang ts hm
    have hnf : ¬ Fails w lang t := fun hf => hw (.inr ⟨lang, ts, hm, .inr (.inr (.inr (.inr ⟨h5, t, ht, .inr hf⟩)))⟩)
    obtain ⟨a, b, hab⟩ := List.append_of_mem ht
    have htext : ∃ text, TextOf w t text := Classical.byContradiction fun hn => hnf (.inl fun text hte => hn ⟨text, hte⟩)
    obtain ⟨text, hte⟩ := htext
    obtain ⟨⟨r, hr⟩, -⟩ := hrun lang ts hm h1 h5 a t b hab text hte
    refine ⟨text, hte, ?_⟩
    rw [← hP lang ts hm t ht text r hte hr]
    have hne : ¬ (r = true ↔ t.type = .noMatch) := fun he => hnf (.inr ⟨text, r, hte, hr, he⟩)
    revert hne
    cases r <;> by_cases hn : t.type = .noMatch <;> simp [hn]
  · rintro hall (hno | ⟨lang, ts, hm, hb⟩)
    · obtain ⟨lang, ts, hm⟩ := hany
      exact hno lang ts hm
    · obtain ⟨h1, h2, h3, h4, -, h6⟩ := hgood lang ts hm
      rcases hb with hb | hb | hb | hb | ⟨-, t, ht, hb⟩
      · rw [hb] at h1; cases h1
      · exact h2 hb
      · exact h3 hb
      · exact h4 hb
      · obtain ⟨text, hte, hp⟩ := hall lang ts hm t ht
        rcases hb with hb | hb | ⟨text', r, hte', hr, he⟩
        · exact h6 t ht hb
        · exact hb text hte
        · have : text' = text := by
            rw [textOf_iff] at hte hte'
            exact Option.some.inj (hte'.symm.trans hte)
          subst this
          rw [← hP lang ts hm t ht text' r hte hr] at hp
          rw [he] at hp
          by_cases hn : t.type = .noMatch
          · exact (hp.1 hn) hn
          · exact hn (hp.2 hn)

/-! ### Names of tests -/

/-- **C78**, results. What is written for the tests are the names of those that have a text, each with whether it passed. -/
theorem tests_listed {w : World} {tops : List Top} {s : St} (h : testStage w tops = .ok s) (x : String × Bool) :
    x ∈ s.lines ↔ ∃ lang ts, .tests lang ts ∈ tops ∧ (w.find lang).isSome ∧ (w.stages lang).hasLexer = true ∧ Listed w lang ts x := by
  unfold testStage at h
  cases hr : tops.foldlM (testTop w) St.new with
  | error e => rw [hr] at h; cases h
  | ok s1 =>
    rw [hr] at h
    have h := Except.ok.inj h
    subst h
    obtain ⟨-, -, h1⟩ := (blocks_spec tops (inv_new w)).1 s1 hr
    have := h1 x
    rw [or_iff_right (fun h => nomatch h)] at this
    split
    · exact this
    · exact this

theorem digits_dot (n : Nat) : '.' ∉ (toString n).toList := by
  intro h
  have := Nat.isDigit_of_mem_toDigits (b := 10) (by decide) (by decide) (n := n) (c := '.') (by simpa [toString, Nat.repr] using h)
  revert this
  decide

theorem name_inj {a b : String} {m n : Nat} (h : a ++ "." ++ toString m = b ++ "." ++ toString n) : a = b ∧ toString m = toString n := by
  have h' := congrArg String.toList h
  simp only [String.toList_append] at h'
  have hd : ∀ (x y u v : List Char), '.' ∉ u → '.' ∉ v → x ++ '.' :: u = y ++ '.' :: v → x = y ∧ u = v := by
    intro x y u v hu hv he
    rcases List.append_eq_append_iff.1 he with ⟨c, h1, h2⟩ | ⟨c, h1, h2⟩
    · cases c with
      | nil => simp only [List.append_nil, List.nil_append] at h1 h2; exact ⟨h1.symm, (List.cons.inj h2).2⟩
      | cons z c =>
        obtain ⟨-, h2⟩ := List.cons.inj h2
        exact absurd (h2 ▸ List.mem_append_right _ (List.mem_cons_self ..)) hu
    · cases c with
      | nil => simp only [List.append_nil, List.nil_append] at h1 h2; exact ⟨h1, (List.cons.inj h2).2.symm⟩
      | cons z c =>
        obtain ⟨-, h2⟩ := List.cons.inj h2
        exact absurd (h2 ▸ List.mem_append_right _ (List.mem_cons_self ..)) hv
  obtain ⟨h1, h2⟩ := hd a.toList b.toList (toString m).toList (toString n).toList (digits_dot m) (digits_dot n) (by simpa using h')
  exact ⟨String.toList_injective h1, String.toList_injective h2⟩

theorem toString_inj {m n : Nat} (h : toString m = toString n) : m = n := by
  have h' := congrArg String.toList h
  have e : ∀ k : Nat, (toString k).toList = Nat.toDigits 10 k := fun k => by simp [toString, Nat.repr]
  rw [e, e] at h'
  have := congrArg (fun l => Nat.ofDigitChars 10 l 0) h'
  simpa [Nat.ofDigitChars_toDigits] using this

/-- **C78**, names. Two tests of a block that have texts do not have the same name. -/
theorem test_names (w : World) (lang : String) {a b : List TestDef} {t u : TestDef} (ht : ∃ text, TextOf w t text) :
    testName w lang a t ≠ testName w lang (a ++ t :: b) u := by
  intro h
  obtain ⟨text, ht⟩ := ht
  unfold testName at h
  obtain ⟨h1, h2⟩ := name_inj h
  have := toString_inj h2
  rw [h1, List.filter_append, List.length_append, List.filter_cons_of_pos (by simp [textOf_iff.1 ht, h1]), List.length_cons] at this
  omega

/-! ### What is compiled -/

/-- The parser blocks of a file. -/
def parsersOf (tops : List Top) : List (String × String × List String) := tops.filterMap fun t => match t with | .parser n l ss => some (n, l, ss) | _ => none

/-- The names of the languages of a file. -/
def languageNames (tops : List Top) : List String := tops.filterMap fun t => match t with | .language l => some l.name | _ => none

/-- What should be compiled: the language of the command line; or that of the parser block, if the command line says nothing and there is just one such block;
or the only language of the file. -/
inductive Chosen (o : Opts) (tops : List Top) : Target → Prop
  | options : o.compileLanguage ≠ "" → Chosen o tops ⟨o.compileLanguage, if o.className = "" then o.compileLanguage else o.className, o.startSymbols⟩
  | block {n l ss} : o.compileLanguage = "" → o.startSymbols = [] → parsersOf tops = [(n, l, ss)] → Chosen o tops ⟨l, if o.className = "" then n else o.className, ss⟩
  | inferred {n} : o.compileLanguage = "" → (o.startSymbols ≠ [] ∨ (parsersOf tops).length ≠ 1) → languageNames tops = [n] →
      Chosen o tops ⟨n, if o.className = "" then n else o.className, o.startSymbols⟩

/-- Names in a file are not empty. -/
def Named (tops : List Top) : Prop := (∀ n l ss, (n, l, ss) ∈ parsersOf tops → n ≠ "" ∧ l ≠ "") ∧ ∀ n ∈ languageNames tops, n ≠ ""

theorem parserBlock_some : ∀ (tops : List Top) (p), (parserBlock tops (some p)).1 = if parsersOf tops = [] then some p else none := by
  intro tops p
  induction tops with
  | nil => rfl
  | cons t tops ih => cases t with
    | parser n l ss => rfl
    | language l => exact ih
    | imports f => exact ih
    | tests l ts => exact ih

theorem parserBlock_none : ∀ (tops : List Top) (p), (parserBlock tops none).1 = some p ↔ parsersOf tops = [p] := by
  intro tops p
  induction tops with
  | nil => exact ⟨fun h => (nomatch h), fun h => (nomatch h)⟩
  | cons t tops ih => cases t with
    | parser n l ss =>
      rw [show parserBlock (.parser n l ss :: tops) none = parserBlock tops (some (n, l, ss)) from rfl, parserBlock_some,
        show parsersOf (.parser n l ss :: tops) = (n, l, ss) :: parsersOf tops from rfl]
      constructor
      · intro h
        split at h
        · rename_i he
          rw [he, Option.some.inj h]
        · cases h
      · intro h
        obtain ⟨h1, h2⟩ := List.cons.inj h
        rw [if_pos h2, h1]
    | language l => exact ih
    | imports f => exact ih
    | tests l ts => exact ih

theorem parserBlock_mild : ∀ (tops : List Top) (p), ¬ Loud (parserBlock tops p).2 := by
  intro tops
  induction tops with
  | nil => intro p; exact loud_nil
  | cons t tops ih =>
    intro p
    cases t with
    | parser n l ss =>
      cases p with
      | none => exact ih _
      | some q =>
        rintro ⟨r, hr, hs⟩
        rw [List.mem_singleton.1 hr] at hs
        revert hs
        decide
    | language l => cases p <;> exact ih _
    | imports f => cases p <;> exact ih _
    | tests l ts => cases p <;> exact ih _

theorem onlyLanguage_one : ∀ (tops : List Top) (n : String), onlyLanguage tops 1 n = if languageNames tops = [] then n else "" := by
  intro tops n
  induction tops with
  | nil => rfl
  | cons t tops ih => cases t with
    | language l => rfl
    | parser n l ss => exact ih
    | imports f => exact ih
    | tests l ts => exact ih

theorem onlyLanguage_zero : ∀ (tops : List Top), (∀ n ∈ languageNames tops, n ≠ "") → ∀ n, n ≠ "" → (onlyLanguage tops 0 "" = n ↔ languageNames tops = [n]) := by
  intro tops hne n hn
  induction tops with
  | nil => exact ⟨fun h => absurd h.symm hn, fun h => nomatch h⟩
  | cons t tops ih => cases t with
    | language l =>
      rw [show onlyLanguage (.language l :: tops) 0 "" = onlyLanguage tops 1 l.name from rfl, onlyLanguage_one,
        show languageNames (.language l :: tops) = l.name :: languageNames tops from rfl]
      constructor
      · intro h
        split at h
        · rename_i he
          rw [he, h]
        · exact absurd h.symm hn
      · intro h
        obtain ⟨h1, h2⟩ := List.cons.inj h
        rw [if_pos h2, h1]
    | parser n l ss => exact ih hne
    | imports f => exact ih hne
    | tests l ts => exact ih hne

/-- **C78**, choice. The tool compiles what it should, and finds no language only if there is nothing that it should compile. -/
theorem choice_exact {o : Opts} {tops : List Top} (hn : Named tops) (t : Target) : ((choose o tops).1 = t ∧ t.language ≠ "") ↔ Chosen o tops t := by
  have hinf : ∀ {n : String}, n ≠ "" → (onlyLanguage tops 0 "" = n ↔ languageNames tops = [n]) := fun h => onlyLanguage_zero tops hn.2 _ h
  unfold choose
  dsimp only
  by_cases hc : o.compileLanguage = ""
  · have other : (o.startSymbols ≠ [] ∨ (parsersOf tops).length ≠ 1) →
        (((⟨onlyLanguage tops 0 "", if o.className = "" then onlyLanguage tops 0 "" else o.className, o.startSymbols⟩ : Target) = t ∧ t.language ≠ "") ↔ Chosen o tops t) := by
      intro ho
      constructor
      · rintro ⟨rfl, h⟩
        exact .inferred hc ho ((hinf h).1 rfl)
      · intro h
        cases h with
        | options h => exact absurd hc h
        | block h1 h2 h3 =>
          rcases ho with ho | ho
          · exact absurd h2 ho
          · rw [h3] at ho; exact absurd rfl ho
        | @inferred n h1 h2 h3 =>
          have hne : n ≠ "" := hn.2 n (by rw [h3]; exact List.mem_singleton.2 rfl)
          have := (hinf hne).2 h3
          rw [this]
          exact ⟨rfl, hne⟩
    cases hp : (parserBlock tops none).1 with
    | none =>
      rw [show requested o none = ⟨o.compileLanguage, o.className, o.startSymbols⟩ from rfl]
      dsimp only
      rw [if_pos hc]
      refine other (.inr fun h => ?_)
      obtain ⟨p, hp'⟩ := List.length_eq_one_iff.1 h
      rw [(parserBlock_none tops p).2 hp'] at hp
      cases hp
    | some p =>
      obtain ⟨n, l, ss⟩ := p
      have hp' := (parserBlock_none tops _).1 hp
      by_cases hs : o.startSymbols = []
      · obtain ⟨h1, h2⟩ := hn.1 n l ss (by rw [hp']; exact List.mem_singleton.2 rfl)
        rw [show requested o (some (n, l, ss)) = ⟨l, if o.className = "" then n else o.className, ss⟩ from if_pos ⟨hc, hs⟩]
        dsimp only
        rw [if_neg h2, if_neg (by split <;> assumption)]
        constructor
        · rintro ⟨rfl, -⟩
          exact .block hc hs hp'
        · intro h
          cases h with
          | options h => exact absurd hc h
          | block h1 h2' h3 =>
            rw [hp'] at h3
            cases h3
            exact ⟨rfl, h2⟩
          | inferred h1 h2 h3 =>
            rcases h2 with h2 | h2
            · exact absurd hs h2
            · rw [hp'] at h2; exact absurd rfl h2
      · rw [show requested o (some (n, l, ss)) = ⟨o.compileLanguage, o.className, o.startSymbols⟩ from if_neg (fun h => hs h.2)]
        dsimp only
        rw [if_pos hc]
        exact other (.inl hs)
  · have hmain : requested o (parserBlock tops none).1 = ⟨o.compileLanguage, o.className, o.startSymbols⟩ := by
      cases (parserBlock tops none).1 with
      | none => rfl
      | some p => exact if_neg (fun h => hc h.1)
    rw [hmain]
    dsimp only
    rw [if_neg hc]
    constructor
    · rintro ⟨rfl, -⟩
      exact .options hc
    · intro h
      cases h with
      | options h => exact ⟨rfl, h⟩
      | block h => exact absurd h hc
      | inferred h => exact absurd h hc

theorem choose_mild (o : Opts) (tops : List Top) : ¬ Loud (choose o tops).2 := by
  unfold choose
  dsimp only
  rw [loud_append, not_or]
  refine ⟨parserBlock_mild _ _, ?_⟩
  rintro ⟨r, hr, hs⟩
  generalize (if (requested o (parserBlock tops none).1).language = "" then onlyLanguage tops 0 "" else (requested o (parserBlock tops none).1).language) = n at hr
  split at hr
  · have hr := List.mem_singleton.1 hr
    rw [hr] at hs
    revert hs
    decide
  · cases hr

/-! ### The whole run -/

theorem exit_zero {suppress : Bool} {log : List Report} : exitCode suppress log = 0 ↔ ¬ Loud log := (exit_code suppress log).1

theorem exit_last (suppress : Bool) (log : List Report) (r : Report) (h : Severe r) : exitCode suppress (log ++ [r]) = r.sev.code := (exit_code suppress _).2 log r [] rfl h loud_nil

theorem exit_error (suppress : Bool) (log : List Report) (id : String) : exitCode suppress (log ++ [⟨.error, id⟩]) = Sev.error.code := exit_last suppress log ⟨.error, id⟩ (.inl rfl)

theorem exit_bug (suppress : Bool) (log : List Report) (id : String) : exitCode suppress (log ++ [⟨.bug, id⟩]) = Sev.bug.code := exit_last suppress log ⟨.bug, id⟩ (.inr (.inr rfl))

theorem mainBuild_code (o : Opts) (r : Run) (tops : List Top) (log : List Report) : (mainBuild o r tops log).code = exitCode o.suppressWarnings (mainBuild o r tops log).log := by
  unfold mainBuild
  dsimp only
  split
  · exact (exit_error ..).symm
  split
  · exact (exit_error ..).symm
  split
  · exact (exit_error ..).symm
  split
  · rfl
  split
  · rfl
  split
  · exact (exit_error ..).symm
  · rfl

/-- **C78**, result. The tool returns the exit code of its reports: not 0 exactly if there is an error or worse among them. -/
theorem tool_code {o : Opts} {r : Run} {res : Result} (h : mainRun o r = .ok res) : res.code = exitCode o.suppressWarnings res.log ∧ (res.code ≠ 0 ↔ Loud res.log) := by
  have key : res.code = exitCode o.suppressWarnings res.log := by
    have hrest : ∀ (log : List Report) (tops : List Top), (if exitCode o.suppressWarnings (log ++ r.built) ≠ 0 then (⟨exitCode o.suppressWarnings (log ++ r.built), log ++ r.built, none⟩ : Result)
        else mainBuild o r tops (log ++ r.built)).code = exitCode o.suppressWarnings (if exitCode o.suppressWarnings (log ++ r.built) ≠ 0 then
        (⟨exitCode o.suppressWarnings (log ++ r.built), log ++ r.built, none⟩ : Result) else mainBuild o r tops (log ++ r.built)).log := by
      intro log tops
      split
      · rfl
      · exact mainBuild_code ..
    unfold mainRun at h
    dsimp only at h
    split at h
    · cases h; rfl
    split at h
    · cases h; exact (exit_bug ..).symm
    split at h
    · cases h; rfl
    split at h
    · cases ht : r.tests with
      | error e => rw [ht] at h; cases h
      | ok t =>
        rw [ht] at h
        have h := Except.ok.inj h
        subst h
        dsimp only
        split
        · rfl
        split
        · rfl
        · exact hrest _ _
    · cases h
      exact hrest _ _
  exact ⟨key, by rw [key, Ne, exit_zero, not_not]⟩

/-- Only tests are asked for. -/
def OnlyTests (o : Opts) : Prop := o.outputFile = "" ∧ o.startSymbols = [] ∧ o.outputLanguage = "" ∧ o.test = false ∧ o.showParser = false

/-- The kind of output that is asked for: `--test` goes before `--output-language`. -/
inductive Kind (o : Opts) : String → Prop
  | test : o.test = true → Kind o "test"
  | given : o.test = false → o.outputLanguage ≠ "" → Kind o o.outputLanguage
  | standard : o.test = false → o.outputLanguage = "" → Kind o "cplusplus"

theorem kind_iff (o : Opts) (k : String) : Kind o k ↔ k = targetLanguage o := by
  unfold targetLanguage
  constructor
  · rintro (h | ⟨h, h2⟩ | ⟨h, h2⟩) <;> simp [*]
  · rintro rfl
    by_cases h : o.test = true
    · simpa [h] using Kind.test h
    · have h := Bool.not_eq_true _ ▸ h
      by_cases h2 : o.outputLanguage = ""
      · simpa [h, h2] using Kind.standard h h2
      · simpa [h, h2] using Kind.given h h2

/-- The kinds of output there are. -/
def Supported (k : String) : Prop := k = "cplusplus" ∨ k = "test" ∨ k = "test-trace"

theorem supported_iff (k : String) : Supported k ↔ k ∈ outputs := by simp [Supported, outputs]

/-- Nothing is wrong, and something is to be written. -/
structure Ready (o : Opts) (r : Run) (tops : List Top) (k : String) (t : Target) : Prop where
  parsed : ¬ Loud r.parsed
  data : r.data = some tops
  imported : ¬ Loud r.imported
  tests : o.runTests = true → (∃ l, r.tests = .ok l ∧ ¬ Loud l) ∧ ¬ OnlyTests o
  built : ¬ Loud r.built
  chosen : Chosen o tops t
  known : r.known t.language = true
  unused : ¬ Loud (r.unused t.language)
  starts : t.starts ≠ []
  lexer : ¬ Loud (r.lexer t.language)
  parser : ¬ Loud (r.parser t.language t.starts)
  kind : Supported k ∧ Kind o k

theorem mainBuild_output {o : Opts} {r : Run} {tops : List Top} {log : List Report} (hn : Named tops) (hl : ¬ Loud log) (k : String) (t : Target) :
    (mainBuild o r tops log).output = some (k, t) ↔ Chosen o tops t ∧ r.known t.language = true ∧ ¬ Loud (r.unused t.language) ∧ t.starts ≠ [] ∧ ¬ Loud (r.lexer t.language) ∧
      ¬ Loud (r.parser t.language t.starts) ∧ Supported k ∧ Kind o k := by
  rw [supported_iff, kind_iff]
  have hch := choice_exact (o := o) hn
  have hmild := choose_mild o tops
  unfold mainBuild
  dsimp only
  generalize choose o tops = c at hch hmild
  have hc : Chosen o tops t → t = c.1 ∧ c.1.language ≠ "" := fun h => by
    obtain ⟨h1, h2⟩ := (hch t).2 h
    exact ⟨h1.symm, h1 ▸ h2⟩
  split
  · rename_i he
    exact ⟨fun h => (nomatch h), fun h => absurd he (hc h.1).2⟩
  rename_i hne
  split
  · rename_i hk
    refine ⟨fun h => (nomatch h), fun h => ?_⟩
    rw [(hc h.1).1, hk] at h
    exact nomatch h.2.1
  rename_i hk
  split
  · rename_i hs
    refine ⟨fun h => (nomatch h), fun h => ?_⟩
    rw [(hc h.1).1] at h
    exact absurd hs h.2.2.2.1
  rename_i hs
  simp only [ne_eq, exit_zero, not_not, loud_append, hl, hmild, false_or]
  split
  · rename_i hb
    refine ⟨fun h => (nomatch h), fun h => ?_⟩
    rw [(hc h.1).1] at h
    rcases hb with hb | hb
    · exact absurd hb h.2.2.1
    · exact absurd hb h.2.2.2.2.1
  rename_i hb
  rw [not_or] at hb
  split
  · rename_i hp
    refine ⟨fun h => (nomatch h), fun h => ?_⟩
    rw [(hc h.1).1] at h
    rcases hp with (hp | hp) | hp
    · exact absurd hp hb.1
    · exact absurd hp hb.2
    · exact absurd hp h.2.2.2.2.2.1
  rename_i hp
  split
  · rename_i ho
    refine ⟨fun h => (nomatch h), fun h => ?_⟩
    exact absurd (h.2.2.2.2.2.2.2 ▸ h.2.2.2.2.2.2.1) ho
  rename_i ho
  constructor
  · intro h
    obtain ⟨h1, h2⟩ := Prod.mk.inj (Option.some.inj h)
    subst h1 h2
    refine ⟨(hch _).1 ⟨rfl, hne⟩, by simpa using hk, hb.1, hs, hb.2, fun h => hp (.inr h), Classical.not_not.1 ho, rfl⟩
  · intro h
    rw [h.2.2.2.2.2.2.2, (hc h.1).1]

/-- **C78**, output. Something is written, or tried, exactly if no stage before has reported an error, and then it is the chosen language with the chosen start symbols. -/
theorem tool_output {o : Opts} {r : Run} {res : Result} (hn : ∀ tops, r.data = some tops → Named tops) (h : mainRun o r = .ok res) (k : String) (t : Target) :
    res.output = some (k, t) ↔ ∃ tops, Ready o r tops k t := by
  unfold mainRun at h
  simp only [ne_eq, exit_zero, not_not] at h
  split at h
  · rename_i hp
    cases h
    exact ⟨fun h => (nomatch h), fun ⟨_, h⟩ => absurd hp h.parsed⟩
  rename_i hp
  split at h
  · rename_i hd
    cases h
    exact ⟨fun h => (nomatch h), fun ⟨_, h⟩ => nomatch hd.symm.trans h.data⟩
  rename_i tops hd
  simp only [loud_append, hp, false_or] at h
  split at h
  · rename_i hi
    cases h
    exact ⟨fun h => (nomatch h), fun ⟨_, h⟩ => absurd hi h.imported⟩
  rename_i hi
  have hrest : ∀ (log : List Report), ¬ Loud log → (o.runTests = true → (∃ l, r.tests = .ok l ∧ ¬ Loud l) ∧ ¬ OnlyTests o) →
      ((if Loud (log ++ r.built) then (⟨exitCode o.suppressWarnings (log ++ r.built), log ++ r.built, none⟩ : Result) else mainBuild o r tops (log ++ r.built)).output = some (k, t) ↔
        ∃ tops, Ready o r tops k t) := by
    intro log hl ht
    split
    · rename_i hb
      refine ⟨fun h => (nomatch h), fun ⟨_, h⟩ => ?_⟩
      rcases loud_append.1 hb with hb | hb
      · exact absurd hb hl
      · exact absurd hb h.built
    · rename_i hb
      rw [mainBuild_output (hn tops hd) hb]
      have hb' : ¬ Loud r.built := fun h => hb (loud_append.2 (.inr h))
      constructor
      · rintro ⟨h1, h2, h3, h4, h5, h6, h7⟩
        exact ⟨tops, hp, hd, hi, ht, hb', h1, h2, h3, h4, h5, h6, h7⟩
      · rintro ⟨tops', h⟩
        cases hd.symm.trans h.data
        exact ⟨h.chosen, h.known, h.unused, h.starts, h.lexer, h.parser, h.kind⟩
  have hlog : ¬ Loud (r.parsed ++ r.imported) := fun h => (loud_append.1 h).elim hp hi
  split at h
  · rename_i hrt
    cases ht : r.tests with
    | error e => rw [ht] at h; cases h
    | ok l =>
      rw [ht] at h
      have h := Except.ok.inj h
      subst h
      simp only [hi, false_or]
      split
      · rename_i hl
        refine ⟨fun h => (nomatch h), fun ⟨_, h⟩ => ?_⟩
        obtain ⟨⟨l', h1, h2⟩, -⟩ := h.tests hrt
        cases ht.symm.trans h1
        exact absurd hl h2
      rename_i hl
      split
      · rename_i ho
        exact ⟨fun h => (nomatch h), fun ⟨_, h⟩ => absurd ho (h.tests hrt).2⟩
      · rename_i ho
        have := hrest (r.parsed ++ r.imported ++ l) (fun h => (loud_append.1 h).elim hlog hl) (fun _ => ⟨⟨l, ht, hl⟩, ho⟩)
        simpa only [loud_append, hp, hi, false_or] using this
  · rename_i hrt
    cases h
    have := hrest (r.parsed ++ r.imported) hlog (fun h => absurd h hrt)
    simpa only [loud_append, hp, hi, false_or] using this

end Tool
end TameParse

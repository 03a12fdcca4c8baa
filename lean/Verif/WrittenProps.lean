import Verif.WrittenParse
import Verif.TablesAgree
/-
Property C79: the tables of a generated parser are those it was made from.
-/
namespace TameParse
namespace Written
open ParserTables

/-- A text that a compiler reads as these declarations. -/
def Denotes (s : Text) (ds : List Decl) : Prop := ∃ T, Clean s T ∧ Reads T ds

theorem Denotes.append {a b : Text} {ds es : List Decl} (ha : Denotes a ds) (hb : Denotes b es) : Denotes (a ++ b) (ds ++ es) := by
  obtain ⟨T, h1, h2⟩ := ha
  obtain ⟨U, h3, h4⟩ := hb
  exact ⟨T ++ U, h1.append h3, h2.append h4⟩

theorem denotes_blank {a : Text} (h : Clean a []) : Denotes a [] := ⟨[], h, rfl⟩

theorem Denotes.compile {s : Text} {ds : List Decl} (h : Denotes s ds) (zero : Bool) :
    compile zero s = if ds.all (arrayOk zero) then some ds else none := by
  obtain ⟨T, h1, h2⟩ := h
  unfold Reads Goes at h2
  simp [Written.compile, h1.lexes, h2]

/-! Actions -/

def actionToks (a : TableAction) : List Tok :=
  .punct '{' :: (listToks true [[.num (code a.type)], [.num a.nextState], intToks a.symbolId] ++ [.punct '}'])

def actionInit (a : TableAction) : Init := .braces [.int (code a.type), .int a.nextState, .int a.symbolId]

theorem item_action (a : TableAction) : Item (actionToks a) (actionInit a) :=
  item_braces [([.num (code a.type)], .int (code a.type)), ([.num a.nextState], .int a.nextState), (intToks a.symbolId, .int a.symbolId)]
    (by
      intro x hx
      simp only [List.mem_cons, List.not_mem_nil, or_false] at hx
      rcases hx with rfl | rfl | rfl
      · exact item_nat _
      · exact item_nat _
      · exact item_int _)

theorem clean_action (a : TableAction) :
    Clean ("{ ".toList ++ showNat (code a.type) ++ ", ".toList ++ showNat a.nextState ++ ", ".toList ++ showInt a.symbolId ++ " }".toList) (actionToks a) :=
  ends_three (ends_nat _) (ends_nat _) (ends_int _)

theorem clean_first (first : Bool) : Clean (if first then [] else ", ".toList) (if first then [] else [.punct ',']) := by
  cases first <;> decide +kernel

theorem clean_if (c : Prop) [Decidable c] {a : Text} (ha : Clean a []) : Clean (if c then a else []) [] := by
  split
  · exact ha
  · exact clean_nil

theorem actionLoop_clean : ∀ (l : List TableAction) (first : Bool) (count : Nat) (showing : Bool),
    Clean (actionLoop first count showing l).1 (listToks first (l.map actionToks)) ∧ (actionLoop first count showing l).2.1 = (first && l.isEmpty)
  | [], first, count, showing => ⟨clean_nil, by simp [actionLoop]⟩
  | a :: l, first, count, showing => by
    obtain ⟨h1, h2⟩ := actionLoop_clean l false (count + 1) false
    simp only [actionLoop, List.map_cons, listToks]
    refine ⟨?_, by simpa using h2⟩
    have := (((clean_first first).append (clean_if (count % 5 = 0 ∧ showing = false) (a := "\n    ".toList) (by decide +kernel))).append (clean_action a)).append h1
    simpa using this

theorem listToks_append : ∀ (a b : List (List Tok)) (first : Bool), listToks first (a ++ b) = listToks first a ++ listToks (first && a.isEmpty) b
  | [], b, first => by simp [listToks]
  | x :: a, b, first => by simp [listToks, listToks_append a b false]

theorem goes_state : runM lexStep .normal "\n\n    // State ".toList = some ([], .skip) := by decide +kernel
theorem goes_line : runM lexStep .skip "\n    ".toList = some ([], .normal) := by decide +kernel

theorem clean_state (state : Nat) : Clean ("\n\n    // State ".toList ++ showNat state ++ "\n    ".toList) [] :=
  clean_comment (a := "\n\n    // State ".toList) (b := "\n    ".toList) state goes_state goes_line

theorem stateLoop_nil (state : Nat) (first : Bool) (count : Nat) : stateLoop state first count [] = [] := rfl

theorem stateLoop_cons (state : Nat) (first : Bool) (count : Nat) (row : List TableAction) (rows : List (List TableAction)) :
    stateLoop state first count (row :: rows) = "\n\n    // State ".toList ++ showNat state ++ "\n    ".toList ++ (actionLoop first count true row).1 ++
      stateLoop (state + 1) (actionLoop first count true row).2.1 (actionLoop first count true row).2.2 rows := rfl

theorem stateLoop_clean : ∀ (rows : List (List TableAction)) (state : Nat) (first : Bool) (count : Nat),
    Clean (stateLoop state first count rows) (listToks first (rows.flatten.map actionToks)) := by
  intro rows
  induction rows with
  | nil =>
    intro state first count
    rw [stateLoop_nil, List.flatten_nil, List.map_nil, listToks]
    exact clean_nil
  | cons row rows ih =>
    intro state first count
    obtain ⟨h1, h2⟩ := actionLoop_clean row first count true
    have h3 := ih (state + 1) (actionLoop first count true row).2.1 (actionLoop first count true row).2.2
    have h4 := ((clean_state state).append h1).append h3
    rw [List.flatten_cons, List.map_append, listToks_append, stateLoop_cons]
    rw [h2, List.nil_append] at h4
    rw [List.isEmpty_map, h2]
    exact h4

/-! Arrays -/

theorem clean_open : Clean "[] = {".toList [.punct '[', .punct ']', .punct '=', .punct '{'] := by decide +kernel
theorem clean_end : Clean "\n};\n".toList [.punct '}', .punct ';'] := by decide +kernel

theorem brackets_plain : ∀ t ∈ [Tok.punct '[', Tok.punct ']'], plainHead t = true := by decide +kernel

theorem plain_word {ty : List Tok} (h : ∀ t ∈ ty, plainHead t = true) (w : Text) : ∀ t ∈ ty ++ [.word w], plainHead t = true := by
  intro t ht
  rcases List.mem_append.1 ht with ht | ht
  · exact h t ht
  · rw [List.mem_singleton.1 ht]; rfl

/-- An array: `head[] = { ... };`. -/
theorem denotes_array {head body : Text} {H : List Tok} (hh : Ends head H) (hH : ∀ t ∈ H, plainHead t = true)
    (l : List (List Tok × Init)) (hb : Ends body (listToks true (l.map (·.1)))) (hl : ∀ x ∈ l, Item x.1 x.2) :
    Denotes (head ++ "[] = {".toList ++ body ++ "\n};\n".toList) [.array (H ++ [.punct '[', .punct ']']) (l.map (·.2))] := by
  have h1 := hh.clean clean_open (by decide +kernel) (by decide +kernel)
  have h2 := (h1.append_ends hb).clean clean_end (by decide +kernel) (by decide +kernel)
  refine ⟨_, h2, ?_⟩
  have := reads_array (H ++ [.punct '[', .punct ']']) (by
    intro t ht
    rcases List.mem_append.1 ht with ht | ht
    · exact hH t ht
    · exact brackets_plain t ht) l hl
  simpa using this

/-- The arrays that the loops write. -/
theorem denotes_writeArray {head : Text} {H : List Tok} (hh : Ends head H) (hH : ∀ t ∈ H, plainHead t = true) (every : Nat)
    {α : Type} (xs : List α) (text : α → Text) (tk : α → List Tok) (val : α → Init) (he : ∀ x, Ends (text x) (tk x)) (hi : ∀ x, Item (tk x) (val x)) :
    Denotes (writeArray head every (xs.map text)) [.array (H ++ [.punct '[', .punct ']']) (xs.map val)] := by
  have h1 := (ends_entries every (xs.map (fun x => (text x, tk x))) (by
    intro y hy
    obtain ⟨x, -, rfl⟩ := List.mem_map.1 hy
    exact he x) true 0 (fun _ => rfl)).1
  have := denotes_array hh hH (xs.map (fun x => (tk x, val x))) (body := entriesLoop every true 0 (xs.map text)) (by simpa [List.map_map, Function.comp_def] using h1) (by
    intro y hy
    obtain ⟨x, -, rfl⟩ := List.mem_map.1 hy
    exact hi x)
  simpa [writeArray, List.map_map, Function.comp_def] using this

def tyAction : List Tok := toks "static lr::parser_tables::action"
def tyPointer : List Tok := toks "static lr::parser_tables::action*"
def tyCount : List Tok := toks "static lr::parser_tables::action_count"
def tyInt : List Tok := toks "static int"
def tyRule : List Tok := toks "static lr::parser_tables::reduce_rule"
def tyEquivalent : List Tok := toks "static lr::parser_tables::symbol_equivalent"

/-- An array with its type and name. -/
def arr (ty : List Tok) (name : Text) (l : List Init) : Decl := .array (ty ++ [.word name, .punct '[', .punct ']']) l

theorem name_data {name : Text} (h : Name name) : Name (name ++ "_data".toList) :=
  h.append (by decide +kernel)

theorem denotes_table {name : Text} (hn : Name name) (rows : List (List TableAction)) :
    Denotes (writeActionTable name rows)
      [arr tyAction (name ++ "_data".toList) (rows.flatten.map actionInit), arr tyPointer name ((positions 0 rows).map (fun p => .addr (name ++ "_data".toList) p))] := by
  have hsplit : "_data[] = {".toList = "_data".toList ++ "[] = {".toList := by decide +kernel
  have hsplit2 : "_data + ".toList = "_data".toList ++ " + ".toList := by decide +kernel
  have h1 : Ends ("static lr::parser_tables::action ".toList ++ (name ++ "_data".toList)) (tyAction ++ [.word (name ++ "_data".toList)]) :=
    Clean.append_ends (by decide +kernel) (ends_name (name_data hn))
  have d1 := denotes_array h1 (plain_word (by decide +kernel) _) (rows.flatten.map (fun a => (actionToks a, actionInit a)))
    (body := stateLoop 0 true 0 rows)
    (by simpa only [List.map_map, Function.comp_def] using (stateLoop_clean rows 0 true 0).ends) (by
    intro y hy
    obtain ⟨x, -, rfl⟩ := List.mem_map.1 hy
    exact item_action x)
  have h2 : Ends ("static lr::parser_tables::action* ".toList ++ name) (tyPointer ++ [.word name]) :=
    Clean.append_ends (by decide +kernel) (ends_name hn)
  have d2 := denotes_writeArray h2 (plain_word (by decide +kernel) _) 3 (positions 0 rows) (fun p => name ++ "_data + ".toList ++ showNat p)
    (fun p => [.word (name ++ "_data".toList), .punct '+', .num p]) (fun p => .addr (name ++ "_data".toList) p)
    (by
      intro p
      have e1 : Clean " + ".toList [.punct '+'] := by decide +kernel
      have := ((ends_name (name_data hn)).clean e1 (by decide +kernel) (by decide +kernel)).append_ends (ends_nat p)
      rw [hsplit2]
      simpa using this)
    (by
      intro p
      exact item_expr rfl (by simp [plain]))
  have := d1.append d2
  unfold writeActionTable
  rw [hsplit]
  simpa [arr, writeArray, List.map_map, Function.comp_def] using this

/-! The whole text -/

def guardInit (n : Nat) : Init := .int n
def countInit (c : Nat × Nat) : Init := .braces [.int c.1, .int c.2]
def ruleInit (r : ReduceRule) : Init := .braces [.int r.identifier, .int r.ruleId, .int r.length]
def equivalentInit (e : Int × Int) : Init := .braces [.int e.1, .int e.2]

theorem item_two {A B : List Tok} {i j : Init} (ha : Item A i) (hb : Item B j) :
    Item (.punct '{' :: (listToks true [A, B] ++ [.punct '}'])) (.braces [i, j]) :=
  item_braces [(A, i), (B, j)] (by
    intro x hx
    simp only [List.mem_cons, List.not_mem_nil, or_false] at hx
    rcases hx with rfl | rfl
    · exact ha
    · exact hb)

theorem item_three {A B C : List Tok} {i j k : Init} (ha : Item A i) (hb : Item B j) (hc : Item C k) :
    Item (.punct '{' :: (listToks true [A, B, C] ++ [.punct '}'])) (.braces [i, j, k]) :=
  item_braces [(A, i), (B, j), (C, k)] (by
    intro x hx
    simp only [List.mem_cons, List.not_mem_nil, or_false] at hx
    rcases hx with rfl | rfl | rfl
    · exact ha
    · exact hb
    · exact hc)

/-- The tokens of the declaration of the tables. -/
def tablesHead (cls : Text) : List Tok := toks "const lr::parser_tables" ++ .word cls :: toks "::lr_tables"

def tablesArgs (t : Tables) : List Init :=
  [.int t.numStates, .int t.endOfInput, .int t.endOfGuard, .addr "s_TerminalActions".toList 0, .addr "s_NonterminalActions".toList 0,
    .addr "s_ActionCounts".toList 0, .addr "s_EndGuardStates".toList 0, .int t.numEndOfGuards, .int t.numRules, .addr "s_ReduceRules".toList 0,
    .int t.numWeakToStrong, .addr "s_WeakToStrong".toList 0]

/-- What is declared in the text: eight arrays and the tables. -/
def declared (cls : Text) (t : Tables) : List Decl :=
  let tr := cutRows t.numStates t.terminalActions (t.counts.map (·.1))
  let nr := cutRows t.numStates t.nonterminalActions (t.counts.map (·.2))
  [arr tyAction "s_TerminalActions_data".toList (tr.flatten.map actionInit),
    arr tyPointer "s_TerminalActions".toList ((positions 0 tr).map (fun p => .addr "s_TerminalActions_data".toList p)),
    arr tyAction "s_NonterminalActions_data".toList (nr.flatten.map actionInit),
    arr tyPointer "s_NonterminalActions".toList ((positions 0 nr).map (fun p => .addr "s_NonterminalActions_data".toList p)),
    arr tyCount "s_ActionCounts".toList ((t.counts.take t.numStates).map countInit),
    arr tyInt "s_EndGuardStates".toList ((t.endGuardStates.take t.numEndOfGuards).map guardInit),
    arr tyRule "s_ReduceRules".toList ((t.rules.take t.numRules).map ruleInit),
    arr tyEquivalent "s_WeakToStrong".toList (((t.weakToStrong.getD []).take t.numWeakToStrong).map equivalentInit),
    .object (tablesHead cls) (tablesArgs t)]

theorem arg_int (n : Int) : Arg (intToks n) (.int n) := ⟨expr_int n, by cases n <;> simp [intToks, plainArg]⟩
theorem arg_nat (n : Nat) : Arg [.num n] (.int n) := arg_int (Int.ofNat n)
theorem arg_name (w : Text) : Arg [.word w] (.addr w 0) := ⟨rfl, by simp [plainArg]⟩

theorem denotes_object (cls : Text) (hc : Name cls) (t : Tables) :
    Denotes ("\nconst lr::parser_tables ".toList ++ cls ++ "::lr_tables(".toList ++
      showNat t.numStates ++ ", ".toList ++ showInt t.endOfInput ++ ", ".toList ++ showInt t.endOfGuard ++
      ", s_TerminalActions, s_NonterminalActions, s_ActionCounts, s_EndGuardStates, ".toList ++
      showNat t.numEndOfGuards ++ ", ".toList ++ showNat t.numRules ++ ", ".toList ++ "s_ReduceRules, ".toList ++
      showNat t.numWeakToStrong ++ ", ".toList ++ "s_WeakToStrong".toList ++ ");\n".toList) [.object (tablesHead cls) (tablesArgs t)] := by
  have hsep := sep_comma
  have hne : ", ".toList ≠ [] := by decide +kernel
  have c1 : Clean "\nconst lr::parser_tables ".toList (toks "const lr::parser_tables") := by decide +kernel
  have c2 : Clean "::lr_tables(".toList (toks "::lr_tables" ++ [.punct '(']) := by decide +kernel
  have c3 : Clean ", s_TerminalActions, s_NonterminalActions, s_ActionCounts, s_EndGuardStates, ".toList
      [.punct ',', .word "s_TerminalActions".toList, .punct ',', .word "s_NonterminalActions".toList, .punct ',', .word "s_ActionCounts".toList,
        .punct ',', .word "s_EndGuardStates".toList, .punct ','] := by decide +kernel
  have c4 : Clean "s_ReduceRules, ".toList [.word "s_ReduceRules".toList, .punct ','] := by decide +kernel
  have c5 : Ends "s_WeakToStrong".toList [.word "s_WeakToStrong".toList] :=
    ends_name ⟨'s', "_WeakToStrong".toList, by decide +kernel, by decide +kernel, by decide +kernel⟩
  have c6 : Clean ");\n".toList [.punct ')', .punct ';'] := by decide +kernel
  have t1 := (c1.append_ends (ends_name hc)).clean c2 (by decide +kernel) (by decide +kernel)
  have t2 := (t1.append_ends (ends_nat t.numStates)).clean clean_comma hsep hne
  have t3 := (t2.append_ends (ends_int t.endOfInput)).clean clean_comma hsep hne
  have t4 := (t3.append_ends (ends_int t.endOfGuard)).clean c3 (by decide +kernel) (by decide +kernel)
  have t5 := (t4.append_ends (ends_nat t.numEndOfGuards)).clean clean_comma hsep hne
  have t6 := (t5.append_ends (ends_nat t.numRules)).clean clean_comma hsep hne
  have t7 := t6.append c4
  have t8 := (t7.append_ends (ends_nat t.numWeakToStrong)).clean clean_comma hsep hne
  have t9 := (t8.append_ends c5).clean c6 (by decide +kernel) (by decide +kernel)
  refine ⟨_, t9, ?_⟩
  have hH : ∀ x ∈ tablesHead cls, plainHead x = true := by
    intro x hx
    rcases List.mem_append.1 hx with hx | hx
    · have : ∀ x ∈ toks "const lr::parser_tables", plainHead x = true := by decide +kernel
      exact this x hx
    · rcases List.mem_cons.1 hx with rfl | hx
      · rfl
      · have : ∀ x ∈ toks "::lr_tables", plainHead x = true := by decide +kernel
        exact this x hx
  have := reads_object (tablesHead cls) hH ([.num t.numStates], .int t.numStates)
    [(intToks t.endOfInput, .int t.endOfInput), (intToks t.endOfGuard, .int t.endOfGuard), ([.word "s_TerminalActions".toList], .addr "s_TerminalActions".toList 0),
      ([.word "s_NonterminalActions".toList], .addr "s_NonterminalActions".toList 0), ([.word "s_ActionCounts".toList], .addr "s_ActionCounts".toList 0),
      ([.word "s_EndGuardStates".toList], .addr "s_EndGuardStates".toList 0), ([.num t.numEndOfGuards], .int t.numEndOfGuards), ([.num t.numRules], .int t.numRules),
      ([.word "s_ReduceRules".toList], .addr "s_ReduceRules".toList 0), ([.num t.numWeakToStrong], .int t.numWeakToStrong),
      ([.word "s_WeakToStrong".toList], .addr "s_WeakToStrong".toList 0)]
    (by
      intro y hy
      simp only [List.mem_cons, List.not_mem_nil, or_false] at hy
      rcases hy with rfl | rfl | rfl | rfl | rfl | rfl | rfl | rfl | rfl | rfl | rfl | rfl
      all_goals first | exact arg_nat _ | exact arg_int _ | exact arg_name _)
  simp only [List.map_cons, List.map_nil, listToks] at this
  simp only [tablesArgs]
  unfold tablesHead at this ⊢
  simpa only [List.append_assoc, List.cons_append, List.nil_append, Bool.false_eq_true, if_false, if_true, List.append_nil] using this

theorem head_ends {head name whole : Text} {ty : List Tok} (h : Clean head ty) (hn : Name name) (e : whole = head ++ name) :
    Ends whole (ty ++ [.word name]) := by
  rw [e]
  exact h.append_ends (ends_name hn)

theorem denotes_counts (l : List (Nat × Nat)) :
    Denotes (writeArray "\nstatic lr::parser_tables::action_count s_ActionCounts".toList 5
      (l.map (fun c => "{ ".toList ++ showNat c.1 ++ ", ".toList ++ showNat c.2 ++ " }".toList)))
      [arr tyCount "s_ActionCounts".toList (l.map countInit)] := by
  have hn : Name "s_ActionCounts".toList := ⟨'s', "_ActionCounts".toList, by decide +kernel, by decide +kernel, by decide +kernel⟩
  have h := head_ends (head := "\nstatic lr::parser_tables::action_count ".toList) (ty := tyCount) (by decide +kernel) hn
    (whole := "\nstatic lr::parser_tables::action_count s_ActionCounts".toList) (by decide +kernel)
  have d := denotes_writeArray h (plain_word (by decide +kernel) _) 5 l
    (fun c => "{ ".toList ++ showNat c.1 ++ ", ".toList ++ showNat c.2 ++ " }".toList) _ countInit
    (fun c => (ends_two (ends_nat c.1) (ends_nat c.2)).ends) (fun c => item_two (item_nat c.1) (item_nat c.2))
  rw [List.append_assoc] at d
  exact d

theorem denotes_guards (l : List Nat) :
    Denotes (writeArray "\nstatic int s_EndGuardStates".toList 20 (l.map showNat)) [arr tyInt "s_EndGuardStates".toList (l.map guardInit)] := by
  have hn : Name "s_EndGuardStates".toList := ⟨'s', "_EndGuardStates".toList, by decide +kernel, by decide +kernel, by decide +kernel⟩
  have h := head_ends (head := "\nstatic int ".toList) (ty := tyInt) (by decide +kernel) hn
    (whole := "\nstatic int s_EndGuardStates".toList) (by decide +kernel)
  have d := denotes_writeArray h (plain_word (by decide +kernel) _) 20 l showNat _ guardInit ends_nat item_nat
  rw [List.append_assoc] at d
  exact d

theorem denotes_rules (l : List ReduceRule) :
    Denotes (writeArray "\nstatic lr::parser_tables::reduce_rule s_ReduceRules".toList 5
      (l.map (fun r => "{ ".toList ++ showInt r.identifier ++ ", ".toList ++ showInt r.ruleId ++ ", ".toList ++ showNat r.length ++ " }".toList)))
      [arr tyRule "s_ReduceRules".toList (l.map ruleInit)] := by
  have hn : Name "s_ReduceRules".toList := ⟨'s', "_ReduceRules".toList, by decide +kernel, by decide +kernel, by decide +kernel⟩
  have h := head_ends (head := "\nstatic lr::parser_tables::reduce_rule ".toList) (ty := tyRule) (by decide +kernel) hn
    (whole := "\nstatic lr::parser_tables::reduce_rule s_ReduceRules".toList) (by decide +kernel)
  have d := denotes_writeArray h (plain_word (by decide +kernel) _) 5 l
    (fun r => "{ ".toList ++ showInt r.identifier ++ ", ".toList ++ showInt r.ruleId ++ ", ".toList ++ showNat r.length ++ " }".toList) _ ruleInit
    (fun r => (ends_three (ends_int r.identifier) (ends_int r.ruleId) (ends_nat r.length)).ends)
    (fun r => item_three (item_int r.identifier) (item_int r.ruleId) (item_nat r.length))
  rw [List.append_assoc] at d
  exact d

theorem denotes_weak (l : List (Int × Int)) :
    Denotes (writeArray "\nstatic lr::parser_tables::symbol_equivalent s_WeakToStrong".toList 10
      (l.map (fun e => "{ ".toList ++ showInt e.1 ++ ", ".toList ++ showInt e.2 ++ " }".toList)))
      [arr tyEquivalent "s_WeakToStrong".toList (l.map equivalentInit)] := by
  have hn : Name "s_WeakToStrong".toList := ⟨'s', "_WeakToStrong".toList, by decide +kernel, by decide +kernel, by decide +kernel⟩
  have h := head_ends (head := "\nstatic lr::parser_tables::symbol_equivalent ".toList) (ty := tyEquivalent) (by decide +kernel) hn
    (whole := "\nstatic lr::parser_tables::symbol_equivalent s_WeakToStrong".toList) (by decide +kernel)
  have d := denotes_writeArray h (plain_word (by decide +kernel) _) 10 l
    (fun e => "{ ".toList ++ showInt e.1 ++ ", ".toList ++ showInt e.2 ++ " }".toList) _ equivalentInit
    (fun e => (ends_two (ends_int e.1) (ends_int e.2)).ends) (fun e => item_two (item_int e.1) (item_int e.2))
  rw [List.append_assoc] at d
  exact d

theorem denotes_named {name data : Text} (hn : Name name) (e : name ++ "_data".toList = data) (rows : List (List TableAction)) :
    Denotes (writeActionTable name rows)
      [arr tyAction data (rows.flatten.map actionInit), arr tyPointer name ((positions 0 rows).map (fun p => .addr data p))] := by
  subst e
  exact denotes_table hn rows

theorem denotes_parser (cls : Text) (hc : Name cls) (t : Tables) : Denotes (parserSource cls t) (declared cls t) := by
  have n1 : Name "s_TerminalActions".toList := ⟨'s', "_TerminalActions".toList, by decide +kernel, by decide +kernel, by decide +kernel⟩
  have n2 : Name "s_NonterminalActions".toList := ⟨'s', "_NonterminalActions".toList, by decide +kernel, by decide +kernel, by decide +kernel⟩
  have d0 : Denotes "\n#include \"TameParse/Lr/parser_tables.h\"\n".toList [] := denotes_blank (by decide +kernel)
  have d1 : Denotes "\n".toList [] := denotes_blank (by decide +kernel)
  have d2 := denotes_named (data := "s_TerminalActions_data".toList) n1 (by decide +kernel)
    (cutRows t.numStates t.terminalActions (t.counts.map (·.1)))
  have d3 := denotes_named (data := "s_NonterminalActions_data".toList) n2 (by decide +kernel)
    (cutRows t.numStates t.nonterminalActions (t.counts.map (·.2)))
  have := ((((((((d0.append d1).append d2).append d1).append d3).append (denotes_counts (t.counts.take t.numStates))).append
    (denotes_guards (t.endGuardStates.take t.numEndOfGuards))).append (denotes_rules (t.rules.take t.numRules))).append
    (denotes_weak ((t.weakToStrong.getD []).take t.numWeakToStrong))).append (denotes_object cls hc t)
  exact this

end Written
end TameParse

import Verif.WrittenTableProps
import Verif.StateMachineProps
/-
The lexer tables that a C++ compiler makes of the generated source (property C79).
-/
namespace TameParse
namespace Written
open ParserTables Ndfa

/-- An array, however it is laid out. -/
theorem denotes_array_text {pre body post : Text} {H : List Tok} (h1 : Clean pre (H ++ [.punct '=', .punct '{'])) (hH : ∀ t ∈ H, plainHead t = true)
    (l : List (List Tok × Init)) (h2 : Ends body (listToks true (l.map (·.1)))) (hl : ∀ x ∈ l, Item x.1 x.2)
    (h3 : Clean post [.punct '}', .punct ';']) (hs : Sep post) (hne : post ≠ []) : Denotes (pre ++ body ++ post) [.array H (l.map (·.2))] :=
  ⟨_, (h1.append_ends h2).clean h3 hs hne, reads_array H hH l hl⟩

theorem listToks_false (l : List (List Tok)) : listToks false l = if l = [] then [] else .punct ',' :: listToks true l := by
  cases l with
  | nil => rfl
  | cons x l => simp [listToks]

theorem symbolLoop_cons (pos : Nat) (x : Int) (l : List Int) : symbolLoop pos (x :: l) =
    (if pos % 10 = 0 then "\n        ".toList else []) ++ showInt x ++ (if l = [] then [] else ", ".toList) ++ symbolLoop (pos + 1) l := rfl

theorem symbolLoop_nil (pos : Nat) : symbolLoop pos [] = [] := rfl

theorem clean_indent : Clean "\n        ".toList [] := by decide +kernel

theorem ends_symbols : ∀ (l : List Int) (pos : Nat), Ends (symbolLoop pos l) (listToks true (l.map intToks)) := by
  intro l
  induction l with
  | nil => exact fun _ => clean_nil.ends
  | cons x l ih =>
    intro pos
    rw [symbolLoop_cons]
    have h1 := (clean_if (pos % 10 = 0) clean_indent).append_ends (ends_int x)
    by_cases hl : l = []
    · subst hl
      rw [symbolLoop_nil, if_pos rfl, List.append_nil, List.append_nil, List.map_cons, List.map_nil, listToks, listToks, if_pos rfl, List.append_nil]
      exact h1
    · rw [if_neg hl]
      have h2 := (h1.clean clean_comma sep_comma (by decide +kernel)).append_ends (ih (pos + 1))
      have hm : l.map intToks ≠ [] := by simpa using hl
      rw [List.map_cons, listToks, listToks_false, if_neg hm, if_pos rfl, List.nil_append]
      rw [List.nil_append, List.append_assoc (intToks x)] at h2
      exact h2

theorem acceptLoop_cons (q : Nat) (a : Int) (l : List Int) :
    acceptLoop q (a :: l) = (if q > 0 then ", ".toList else []) ++ showInt a ++ acceptLoop (q + 1) l := rfl

theorem ends_accept : ∀ (l : List Int) (q : Nat), Ends (acceptLoop q l) (listToks (decide (q = 0)) (l.map intToks)) ∧ (q > 0 → Sep (acceptLoop q l)) := by
  intro l
  induction l with
  | nil => exact fun _ => ⟨clean_nil.ends, fun _ => sep_nil⟩
  | cons a l ih =>
    intro q
    rw [acceptLoop_cons]
    obtain ⟨i1, i2⟩ := ih (q + 1)
    rw [decide_eq_false (by omega)] at i1
    by_cases hq : q > 0
    · rw [if_pos hq]
      refine ⟨?_, fun _ => ?_⟩
      · have := Ends.append (clean_comma.append_ends (ends_int a)) i1 (i2 (by omega))
        rw [decide_eq_false (by omega)]
        simpa [listToks] using this
      · rw [List.append_assoc]
        exact Sep.append sep_comma (by decide +kernel)
    · rw [if_neg hq]
      refine ⟨?_, fun h => absurd h hq⟩
      have := Ends.append (ends_int a) i1 (i2 (by omega))
      rw [decide_eq_true (by omega)]
      simpa [listToks] using this

def startToks (p : Nat) : List Tok := [.word "s_LexerStateMachine".toList, .punct '+', .num p]
def startInit (p : Nat) : Init := .addr "s_LexerStateMachine".toList p

theorem startLoop_cons (first : Bool) (p : Nat) (l : List Nat) :
    startLoop first (p :: l) = (if first then [] else ", ".toList) ++ "s_LexerStateMachine + ".toList ++ showNat p ++ startLoop false l := rfl

theorem clean_machine : Clean "s_LexerStateMachine + ".toList [.word "s_LexerStateMachine".toList, .punct '+'] := by decide +kernel

theorem ends_starts : ∀ (l : List Nat) (first : Bool), Ends (startLoop first l) (listToks first (l.map startToks)) ∧ (first = false → Sep (startLoop first l)) := by
  intro l
  induction l with
  | nil => exact fun _ => ⟨clean_nil.ends, fun _ => sep_nil⟩
  | cons p l ih =>
    intro first
    rw [startLoop_cons]
    obtain ⟨i1, i2⟩ := ih false
    refine ⟨?_, ?_⟩
    · have := Ends.append (((clean_first first).append clean_machine).append_ends (ends_nat p)) i1 (i2 rfl)
      simpa only [List.map_cons, listToks, startToks, List.append_assoc, List.cons_append, List.nil_append] using this
    · rintro rfl
      simp only [Bool.false_eq_true, if_false, List.append_assoc]
      exact Sep.append sep_comma (by decide +kernel)

def transToks (t : Trans) : List Tok := .punct '{' :: (listToks true [[.num t.1], [.num t.2]] ++ [.punct '}'])
def transInit (t : Trans) : Init := .braces [.int t.1, .int t.2]

theorem transitionLoop_cons (last : Option Nat) (pos q : Nat) (t : Trans) (l : List (Nat × Trans)) : transitionLoop last pos ((q, t) :: l) =
    (if last = some q then [] else "\n\n        // State ".toList ++ showNat q ++ "\n        ".toList) ++
    (if pos > 0 then ", ".toList ++ (if pos % 10 = 0 then "\n        ".toList else []) else []) ++
    ("{ ".toList ++ showNat t.1 ++ ", ".toList ++ showNat t.2 ++ " }".toList) ++ transitionLoop (some q) (pos + 1) l := rfl

theorem goes_state' : runM lexStep .normal "\n\n        // State ".toList = some ([], .skip) := by decide +kernel
theorem goes_line' : runM lexStep .skip "\n        ".toList = some ([], .normal) := by decide +kernel

theorem clean_transitions : ∀ (l : List (Nat × Trans)) (last : Option Nat) (pos : Nat),
    Clean (transitionLoop last pos l) (listToks (decide (pos = 0)) ((l.map (·.2)).map transToks)) := by
  intro l
  induction l with
  | nil => exact fun _ _ => clean_nil
  | cons x l ih =>
    obtain ⟨q, t⟩ := x
    intro last pos
    rw [transitionLoop_cons]
    have h1 : Clean (if last = some q then [] else "\n\n        // State ".toList ++ showNat q ++ "\n        ".toList) [] := by
      split
      · exact clean_nil
      · exact clean_comment q goes_state' goes_line'
    have h2 : Clean (if pos > 0 then ", ".toList ++ (if pos % 10 = 0 then "\n        ".toList else []) else [])
        (if decide (pos = 0) = true then [] else [.punct ',']) := by
      by_cases hp : pos > 0
      · rw [if_pos hp, decide_eq_false (by omega)]
        exact clean_comma.append (clean_if _ clean_indent)
      · rw [if_neg hp, decide_eq_true (by omega)]
        exact clean_nil
    have h3 : Clean ("{ ".toList ++ showNat t.1 ++ ", ".toList ++ showNat t.2 ++ " }".toList) (transToks t) := ends_two (ends_nat t.1) (ends_nat t.2)
    have h4 := ih (some q) (pos + 1)
    rw [decide_eq_false (by omega)] at h4
    exact ((h1.append h2).append h3).append h4

/-! The text -/

def tyConst : List Tok := toks "static const int"
def tyEntry : List Tok := toks "static const dfa::state_machine_compact_table<false>::entry"
def headSymbols : List Tok := toks "static const dfa::hard_coded_symbol_table<wchar_t, 2>" ++ [.word "s_SymbolMap".toList]
def headStarts (n : Nat) : List Tok :=
  toks "static const dfa::state_machine_compact_table<false>::entry*" ++ [.word "s_LexerStates".toList, .punct '[', .num n, .punct ']']
def headMachine : List Tok := toks "static const lexer_state_machine" ++ [.word "s_StateMachine".toList]
def headDefinition : List Tok := toks "static lexer_definition" ++ [.word "s_LexerDefinition".toList]
def headLexer (cls : Text) : List Tok := toks "const dfa::lexer" ++ .word cls :: toks "::lexer"
def typedefMachine : List Tok := toks "typedef dfa::state_machine_tables<wchar_t, dfa::hard_coded_symbol_table<wchar_t, 2> > lexer_state_machine"
def typedefLexer : List Tok :=
  toks "typedef dfa::dfa_lexer_base<const lexer_state_machine&, 0, 0, false, const lexer_state_machine&> lexer_definition"

/-- What is declared in the text. -/
def lexDeclared (cls : Text) (table : List Int) (rows : List (List Trans)) (accept : List Int) : List Decl :=
  [arr tyConst "s_SymbolMapTable".toList (table.map Init.int),
    .object headSymbols [.addr "s_SymbolMapTable".toList 0],
    arr tyEntry "s_LexerStateMachine".toList ((genTable rows).entries.map transInit),
    .array (headStarts (genTable rows).starts.length) ((genTable rows).starts.map startInit),
    arr tyConst "s_AcceptingStates".toList (accept.map Init.int),
    .other typedefMachine,
    .object headMachine [.addr "s_SymbolMap".toList 0, .addr "s_LexerStates".toList 0, .int (genTable rows).starts.length],
    .other typedefLexer,
    .object headDefinition [.addr "s_StateMachine".toList 0, .int (genTable rows).starts.length, .addr "s_AcceptingStates".toList 0],
    .object (headLexer cls) [.ref "s_LexerDefinition".toList, .addr "false".toList 0]]

theorem map_pairs {α : Type} (f : α → List Tok) (g : α → Init) (l : List α) :
    (l.map (fun x => (f x, g x))).map (·.1) = l.map f ∧ (l.map (fun x => (f x, g x))).map (·.2) = l.map g := by
  simp [Function.comp_def]

/-- An array with the values of a list. -/
theorem denotes_values {pre body post : Text} {H : List Tok} (h1 : Clean pre (H ++ [.punct '=', .punct '{'])) (hH : ∀ t ∈ H, plainHead t = true)
    {α : Type} (f : α → List Tok) (g : α → Init) (l : List α) (h2 : Ends body (listToks true (l.map f))) (hl : ∀ x, Item (f x) (g x))
    (h3 : Clean post [.punct '}', .punct ';']) (hs : Sep post) (hne : post ≠ []) : Denotes (pre ++ body ++ post) [.array H (l.map g)] := by
  obtain ⟨e1, e2⟩ := map_pairs f g l
  rw [← e1] at h2
  rw [← e2]
  refine denotes_array_text h1 hH _ h2 ?_ h3 hs hne
  intro y hy
  obtain ⟨x, -, rfl⟩ := List.mem_map.1 hy
  exact hl x

theorem clean_post : Clean "\n    };\n".toList [.punct '}', .punct ';'] := by decide +kernel
theorem sep_post : Sep "\n    };\n".toList := by decide +kernel
theorem post_ne : "\n    };\n".toList ≠ [] := by decide +kernel

theorem denotes_symbols (table : List Int) : Denotes ("\nstatic const int s_SymbolMapTable[] = {".toList ++ symbolLoop 0 table ++ "\n    };\n".toList)
    [arr tyConst "s_SymbolMapTable".toList (table.map Init.int)] :=
  denotes_values (H := tyConst ++ [.word "s_SymbolMapTable".toList, .punct '[', .punct ']']) (by decide +kernel) (by decide +kernel) intToks Init.int table
    (ends_symbols table 0) item_int clean_post sep_post post_ne

theorem denotes_accept (accept : List Int) :
    Denotes ("\nstatic const int s_AcceptingStates[] = {\n        ".toList ++ acceptLoop 0 accept ++ "\n    };\n".toList)
    [arr tyConst "s_AcceptingStates".toList (accept.map Init.int)] :=
  denotes_values (H := tyConst ++ [.word "s_AcceptingStates".toList, .punct '[', .punct ']']) (by decide +kernel) (by decide +kernel) intToks Init.int accept
    (ends_accept accept 0).1 item_int clean_post sep_post post_ne

theorem item_trans (t : Trans) : Item (transToks t) (transInit t) := item_two (item_nat t.1) (item_nat t.2)

theorem denotes_entries (rows : List (List Trans)) :
    Denotes ("\nstatic const dfa::state_machine_compact_table<false>::entry s_LexerStateMachine[] = {\n".toList ++
      transitionLoop none 0 (lexerTransitions 0 rows) ++ "\n    };\n".toList)
    [arr tyEntry "s_LexerStateMachine".toList ((genTable rows).entries.map transInit)] :=
  denotes_values (H := tyEntry ++ [.word "s_LexerStateMachine".toList, .punct '[', .punct ']']) (by decide +kernel) (by decide +kernel) transToks transInit
    (genTable rows).entries (clean_transitions (lexerTransitions 0 rows) none 0).ends item_trans clean_post sep_post post_ne

theorem item_start (p : Nat) : Item (startToks p) (startInit p) := item_expr rfl (by simp [startToks, plain])

theorem plain_starts (n : Nat) : ∀ t ∈ headStarts n, plainHead t = true := by
  intro t ht
  rcases List.mem_append.1 ht with ht | ht
  · have : ∀ t ∈ toks "static const dfa::state_machine_compact_table<false>::entry*", plainHead t = true := by decide +kernel
    exact this t ht
  · simp only [List.mem_cons, List.not_mem_nil, or_false] at ht
    rcases ht with rfl | rfl | rfl | rfl
    all_goals rfl

theorem denotes_starts (starts : List Nat) :
    Denotes ("\nstatic const dfa::state_machine_compact_table<false>::entry* s_LexerStates[".toList ++ showNat starts.length ++ "] = {\n        ".toList ++
      startLoop true starts ++ "\n    };\n".toList) [.array (headStarts starts.length) (starts.map startInit)] := by
  have c1 : Clean "\nstatic const dfa::state_machine_compact_table<false>::entry* s_LexerStates[".toList
      (toks "static const dfa::state_machine_compact_table<false>::entry*" ++ [.word "s_LexerStates".toList, .punct '[']) := by decide +kernel
  have c2 : Clean "] = {\n        ".toList [.punct ']', .punct '=', .punct '{'] := by decide +kernel
  have c3 := (c1.append_ends (ends_nat starts.length)).clean c2 (by decide +kernel) (by decide +kernel)
  refine denotes_values (H := headStarts starts.length) ?_ (plain_starts _) startToks startInit starts (ends_starts starts true).1 item_start clean_post sep_post post_ne
  unfold headStarts
  simpa only [List.append_assoc, List.cons_append, List.nil_append] using c3

theorem denotes_lexer_parts (n : Nat) (cls : Text) (hc : Name cls) :
    Denotes "\nstatic const dfa::hard_coded_symbol_table<wchar_t, 2> s_SymbolMap(s_SymbolMapTable);\n".toList
      [.object headSymbols [.addr "s_SymbolMapTable".toList 0]] ∧
    Denotes "\ntypedef dfa::state_machine_tables<wchar_t, dfa::hard_coded_symbol_table<wchar_t, 2> > lexer_state_machine;\n".toList
      [.other typedefMachine] ∧
    Denotes ("static const lexer_state_machine s_StateMachine(s_SymbolMap, s_LexerStates, ".toList ++ showNat n ++ ");\n".toList)
      [.object headMachine [.addr "s_SymbolMap".toList 0, .addr "s_LexerStates".toList 0, .int n]] ∧
    Denotes "\ntypedef dfa::dfa_lexer_base<const lexer_state_machine&, 0, 0, false, const lexer_state_machine&> lexer_definition;\n".toList
      [.other typedefLexer] ∧
    Denotes ("static lexer_definition s_LexerDefinition(s_StateMachine, ".toList ++ showNat n ++ ", s_AcceptingStates);\n".toList)
      [.object headDefinition [.addr "s_StateMachine".toList 0, .int n, .addr "s_AcceptingStates".toList 0]] ∧
    Denotes ("\nconst dfa::lexer ".toList ++ cls ++ "::lexer(&s_LexerDefinition, false);\n".toList)
      [.object (headLexer cls) [.ref "s_LexerDefinition".toList, .addr "false".toList 0]] := by
  have hend : Clean ");\n".toList [.punct ')', .punct ';'] := by decide +kernel
  refine ⟨⟨_, ?_, reads_object headSymbols (by decide +kernel) ([.word "s_SymbolMapTable".toList], .addr "s_SymbolMapTable".toList 0) [] (by
      intro y hy
      simp only [List.mem_cons, List.not_mem_nil, or_false] at hy
      subst hy
      exact arg_name _)⟩,
    ⟨_, ?_, reads_other typedefMachine (by decide +kernel)⟩,
    ⟨_, ?_, reads_object headMachine (by decide +kernel) ([.word "s_SymbolMap".toList], .addr "s_SymbolMap".toList 0)
      [([.word "s_LexerStates".toList], .addr "s_LexerStates".toList 0), ([.num n], .int n)] (by
      intro y hy
      simp only [List.mem_cons, List.not_mem_nil, or_false] at hy
      rcases hy with rfl | rfl | rfl
      · exact arg_name _
      · exact arg_name _
      · exact arg_nat _)⟩,
    ⟨_, ?_, reads_other typedefLexer (by decide +kernel)⟩,
    ⟨_, ?_, reads_object headDefinition (by decide +kernel) ([.word "s_StateMachine".toList], .addr "s_StateMachine".toList 0)
      [([.num n], .int n), ([.word "s_AcceptingStates".toList], .addr "s_AcceptingStates".toList 0)] (by
      intro y hy
      simp only [List.mem_cons, List.not_mem_nil, or_false] at hy
      rcases hy with rfl | rfl | rfl
      · exact arg_name _
      · exact arg_nat _
      · exact arg_name _)⟩,
    ⟨_, ?_, reads_object (headLexer cls) ?_ ([.punct '&', .word "s_LexerDefinition".toList], .ref "s_LexerDefinition".toList)
      [([.word "false".toList], .addr "false".toList 0)] (by
      intro y hy
      simp only [List.mem_cons, List.not_mem_nil, or_false] at hy
      rcases hy with rfl | rfl
      · exact ⟨rfl, by simp [plainArg]⟩
      · exact arg_name _)⟩⟩
  · decide +kernel
  · decide +kernel
  · have c1 : Clean "static const lexer_state_machine s_StateMachine(s_SymbolMap, s_LexerStates, ".toList
        (headMachine ++ [.punct '(', .word "s_SymbolMap".toList, .punct ',', .word "s_LexerStates".toList, .punct ',']) := by decide +kernel
    have := (c1.append_ends (ends_nat n)).clean hend (by decide +kernel) (by decide +kernel)
    simpa only [List.map_cons, List.map_nil, listToks, List.append_assoc, List.cons_append, List.nil_append, if_true, Bool.false_eq_true, if_false] using this
  · decide +kernel
  · have c1 : Clean "static lexer_definition s_LexerDefinition(s_StateMachine, ".toList
        (headDefinition ++ [.punct '(', .word "s_StateMachine".toList, .punct ',']) := by decide +kernel
    have c2 : Clean ", s_AcceptingStates);\n".toList [.punct ',', .word "s_AcceptingStates".toList, .punct ')', .punct ';'] := by decide +kernel
    have := (c1.append_ends (ends_nat n)).clean c2 (by decide +kernel) (by decide +kernel)
    simpa only [List.map_cons, List.map_nil, listToks, List.append_assoc, List.cons_append, List.nil_append, if_true, Bool.false_eq_true, if_false] using this
  · have c1 : Clean "\nconst dfa::lexer ".toList (toks "const dfa::lexer") := by decide +kernel
    have c2 : Clean "::lexer(&s_LexerDefinition, false);\n".toList
      (toks "::lexer" ++ [.punct '(', .punct '&', .word "s_LexerDefinition".toList, .punct ',', .word "false".toList, .punct ')', .punct ';']) := by decide +kernel
    have := (c1.append_ends (ends_name hc)).clean c2 (by decide +kernel) (by decide +kernel)
    unfold headLexer
    simpa only [List.map_cons, List.map_nil, listToks, List.append_assoc, List.cons_append, List.nil_append, if_true, Bool.false_eq_true, if_false] using this
  · intro x hx
    rcases List.mem_append.1 hx with hx | hx
    · have : ∀ x ∈ toks "const dfa::lexer", plainHead x = true := by decide +kernel
      exact this x hx
    · rcases List.mem_cons.1 hx with rfl | hx
      · rfl
      · have : ∀ x ∈ toks "::lexer", plainHead x = true := by decide +kernel
        exact this x hx

theorem assoc_symbols (a b c d e : Text) : a ++ b ++ c ++ d ++ e = a ++ (b ++ c ++ d) ++ e := by simp only [List.append_assoc]

theorem assoc_lexer (i h1 l1 e1 h2 n2 b2 l2 e2 h3 l3 e3 t1 m1 n m2 t2 d1 n' d2 k1 k2 k3 : Text) :
    i ++ h1 ++ l1 ++ e1 ++ h2 ++ n2 ++ b2 ++ l2 ++ e2 ++ h3 ++ l3 ++ e3 ++ t1 ++ m1 ++ n ++ m2 ++ t2 ++ d1 ++ n' ++ d2 ++ k1 ++ k2 ++ k3 =
    i ++ (h1 ++ l1 ++ e1) ++ (h2 ++ n2 ++ b2 ++ l2 ++ e2) ++ (h3 ++ l3 ++ e3) ++ t1 ++ (m1 ++ n ++ m2) ++ t2 ++ (d1 ++ n' ++ d2) ++ (k1 ++ k2 ++ k3) := by
  simp only [List.append_assoc]

theorem denotes_lexer (cls : Text) (hc : Name cls) (table : List Int) (rows : List (List Trans)) (accept : List Int) :
    Denotes (symbolSource table ++ lexerSource cls rows accept) (lexDeclared cls table rows accept) := by
  obtain ⟨p1, p2, p3, p4, p5, p6⟩ := denotes_lexer_parts (genTable rows).starts.length cls hc
  have i1 : Denotes "\n#include \"TameParse/Dfa/hard_coded_symbol_table.h\"\n".toList [] := denotes_blank (by decide +kernel)
  have i2 : Denotes "\n#include \"TameParse/Dfa/state_machine.h\"\n".toList [] := denotes_blank (by decide +kernel)
  have a := (i1.append (denotes_symbols table)).append p1
  have b := (((((((i2.append (denotes_entries rows)).append (denotes_starts (genTable rows).starts)).append (denotes_accept accept)).append p2).append
    p3).append p4).append p5).append p6
  rw [← assoc_symbols] at a
  rw [← assoc_lexer] at b
  have := a.append b
  unfold symbolSource lexerSource
  exact this

/-! What is read -/

theorem objectOf_skip_array (ds : List Decl) (h : List Tok) (l : List Init) (head : List Tok) : objectOf (.array h l :: ds) head = objectOf ds head := by
  unfold objectOf
  rw [List.findSome?_cons]

theorem objectOf_skip_other (ds : List Decl) (h : List Tok) (head : List Tok) : objectOf (.other h :: ds) head = objectOf ds head := by
  unfold objectOf
  rw [List.findSome?_cons]

theorem objectOf_skip_object (ds : List Decl) (h : List Tok) (l : List Init) (head : List Tok) (hn : h ≠ head) :
    objectOf (.object h l :: ds) head = objectOf ds head := by
  unfold objectOf
  rw [List.findSome?_cons]
  simp only [if_neg hn]

theorem arrayOf_skip_object (ty : List Tok) (ds : List Decl) (h : List Tok) (l : List Init) (name : Text) :
    arrayOf ty (.object h l :: ds) name = arrayOf ty ds name := by
  unfold arrayOf
  rw [List.findSome?_cons]

theorem arrayOf_skip_array (ty : List Tok) (ds : List Decl) (h : List Tok) (l : List Init) (name : Text)
    (hn : h ≠ ty ++ [.word name, .punct '[', .punct ']']) : arrayOf ty (.array h l :: ds) name = arrayOf ty ds name := by
  unfold arrayOf
  rw [List.findSome?_cons]
  simp only [if_neg hn]

theorem boundedOf_skip (ty ty' : List Tok) (ds : List Decl) (l : List Init) (name name' : Text) (n : Nat) :
    boundedOf ty (arr ty' name' l :: ds) name n = boundedOf ty ds name n := by
  have hn : ty' ++ [.word name', .punct '[', .punct ']'] ≠ ty ++ [.word name, .punct '[', .num n, .punct ']'] := by
    intro h
    have := congrArg List.reverse h
    simp at this
  unfold boundedOf arr
  rw [List.findSome?_cons]
  simp only [if_neg hn]

theorem boundedOf_skip_object (ty : List Tok) (ds : List Decl) (h : List Tok) (l : List Init) (name : Text) (n : Nat) :
    boundedOf ty (.object h l :: ds) name n = boundedOf ty ds name n := by
  unfold boundedOf
  rw [List.findSome?_cons]

theorem boundedOf_hit (ty : List Tok) (ds : List Decl) (l : List Init) (name : Text) (n : Nat) :
    boundedOf ty (.array (ty ++ [.word name, .punct '[', .num n, .punct ']']) l :: ds) name n = some l := by
  unfold boundedOf
  rw [List.findSome?_cons]
  simp only [if_true]

theorem headLexer_ne (cls : Text) (h : List Tok) (hh : h.head? = some (.word "static".toList)) : h ≠ headLexer cls := by
  intro e
  have e1 : toks "const dfa::lexer" = .word "const".toList :: toks "dfa::lexer" := by decide +kernel
  rw [e, headLexer, e1, List.cons_append, List.head?_cons] at hh
  revert hh
  decide +kernel

theorem headStarts_ne (n : Nat) : headStarts n ≠ tyConst ++ [.word "s_AcceptingStates".toList, .punct '[', .punct ']'] := by
  intro h
  have := congrArg (List.take 3) h
  unfold headStarts at this
  rw [List.take_append_of_le_length (by decide +kernel)] at this
  revert this
  decide +kernel

theorem lexer_lookups (cls : Text) (table : List Int) (rows : List (List Trans)) (accept : List Int) :
    objectOf (lexDeclared cls table rows accept) (headLexer cls) = some [.ref "s_LexerDefinition".toList, .addr "false".toList 0] ∧
    objectOf (lexDeclared cls table rows accept) headDefinition =
      some [.addr "s_StateMachine".toList 0, .int (genTable rows).starts.length, .addr "s_AcceptingStates".toList 0] ∧
    objectOf (lexDeclared cls table rows accept) headMachine =
      some [.addr "s_SymbolMap".toList 0, .addr "s_LexerStates".toList 0, .int (genTable rows).starts.length] ∧
    objectOf (lexDeclared cls table rows accept) headSymbols = some [.addr "s_SymbolMapTable".toList 0] ∧
    arrayOf tyConst (lexDeclared cls table rows accept) "s_SymbolMapTable".toList = some (table.map Init.int) ∧
    arrayOf tyConst (lexDeclared cls table rows accept) "s_AcceptingStates".toList = some (accept.map Init.int) ∧
    boundedOf (toks "static const dfa::state_machine_compact_table<false>::entry*") (lexDeclared cls table rows accept) "s_LexerStates".toList
      (genTable rows).starts.length = some ((genTable rows).starts.map startInit) ∧
    arrayOf tyEntry (lexDeclared cls table rows accept) "s_LexerStateMachine".toList = some ((genTable rows).entries.map transInit) := by
  unfold lexDeclared
  refine ⟨?_, ?_, ?_, ?_, ?_, ?_, ?_, ?_⟩
  · rw [objectOf_skip, objectOf_skip_object _ _ _ _ (headLexer_ne cls _ (by decide +kernel)), objectOf_skip, objectOf_skip_array, objectOf_skip, objectOf_skip_other,
      objectOf_skip_object _ _ _ _ (headLexer_ne cls _ (by decide +kernel)), objectOf_skip_other, objectOf_skip_object _ _ _ _ (headLexer_ne cls _ (by decide +kernel)),
      objectOf_hit]
  · rw [objectOf_skip, objectOf_skip_object _ _ _ _ (by decide +kernel), objectOf_skip, objectOf_skip_array, objectOf_skip, objectOf_skip_other,
      objectOf_skip_object _ _ _ _ (by decide +kernel), objectOf_skip_other, objectOf_hit]
  · rw [objectOf_skip, objectOf_skip_object _ _ _ _ (by decide +kernel), objectOf_skip, objectOf_skip_array, objectOf_skip, objectOf_skip_other, objectOf_hit]
  · rw [objectOf_skip, objectOf_hit]
  · rw [arrayOf_hit]
  · rw [arrayOf_skip _ _ _ _ _ _ (by decide +kernel), arrayOf_skip_object, arrayOf_skip _ _ _ _ _ _ (by decide +kernel),
      arrayOf_skip_array _ _ _ _ _ (headStarts_ne _), arrayOf_hit]
  · rw [boundedOf_skip, boundedOf_skip_object, boundedOf_skip]
    exact boundedOf_hit ..
  · rw [arrayOf_skip _ _ _ _ _ _ (by decide +kernel), arrayOf_skip_object, arrayOf_hit]

theorem transOf_init (t : Trans) : transOf (transInit t) = some t := by
  have : transOf (transInit t) = if (0 : Int) ≤ t.1 ∧ (0 : Int) ≤ t.2 then some ((t.1 : Int).toNat, (t.2 : Int).toNat) else none := rfl
  rw [this, if_pos (by omega)]
  simp

theorem positionIn_init (p : Nat) : positionIn "s_LexerStateMachine".toList (startInit p) = some p := by
  have : positionIn "s_LexerStateMachine".toList (startInit p) = if "s_LexerStateMachine".toList = "s_LexerStateMachine".toList then some p else none := rfl
  rw [this, if_pos rfl]

theorem lexerOf_declared (cls : Text) (table : List Int) (rows : List (List Trans)) (accept : List Int) :
    lexerOf cls (lexDeclared cls table rows accept) = some (table, genTable rows, accept) := by
  obtain ⟨o1, o2, o3, o4, a1, a2, b1, a3⟩ := lexer_lookups cls table rows accept
  have r1 := mapM_map_id Init.int intOf table (fun _ _ => rfl)
  have r2 := mapM_map_id Init.int intOf accept (fun _ _ => rfl)
  have r3 := mapM_map_id startInit (positionIn "s_LexerStateMachine".toList) (genTable rows).starts (fun x _ => positionIn_init x)
  have r4 := mapM_map_id transInit transOf (genTable rows).entries (fun x _ => transOf_init x)
  revert o1 o2 o3 o4 a1 a2 b1 a3
  generalize lexDeclared cls table rows accept = ds
  intro o1 o2 o3 o4 a1 a2 b1 a3
  unfold headLexer at o1
  unfold headDefinition at o2
  unfold headMachine at o3
  unfold headSymbols at o4
  unfold tyConst at a1 a2
  unfold tyEntry at a3
  unfold lexerOf
  rw [o1]
  simp only
  rw [o2]
  simp only
  rw [o3]
  simp only
  rw [o4]
  simp only
  rw [a1, a2, a3, Int.toNat_natCast, b1]
  simp only [Option.bind_eq_bind, Option.bind_some, r1, r2, r3, r4, Option.pure_def]

theorem arrayOk_starts (zero : Bool) (l : List Init) : arrayOk zero (.array (headStarts l.length) l) = (zero || !l.isEmpty) := by
  simp [arrayOk, headStarts]

theorem lexer_arrays (cls : Text) (table : List Int) (rows : List (List Trans)) (accept : List Int) (zero : Bool) :
    (lexDeclared cls table rows accept).all (arrayOk zero) =
      (zero || (!table.isEmpty && !(genTable rows).entries.isEmpty && !(genTable rows).starts.isEmpty && !accept.isEmpty)) := by
  have h := arrayOk_starts zero ((genTable rows).starts.map startInit)
  rw [List.length_map] at h
  have o1 : ∀ H l, arrayOk zero (.object H l) = true := fun _ _ => rfl
  have o2 : ∀ H, arrayOk zero (.other H) = true := fun _ => rfl
  simp only [lexDeclared, List.all_cons, List.all_nil, arrayOk_arr, h, o1, o2, isEmpty_map', Bool.true_and, Bool.and_true]
  cases zero <;> simp only [Bool.true_or, Bool.false_or, Bool.and_assoc, Bool.and_self]

/-- C79 for the lexer: a compiler that accepts empty arrays gets from the text the symbol table, the state machine and the accepted symbols that were
written. -/
theorem generated_lexer_partial (cls : Text) (hc : Name cls) (table : List Int) (rows : List (List Trans)) (accept : List Int) :
    ∃ ds, compile true (symbolSource table ++ lexerSource cls rows accept) = some ds ∧ lexerOf cls ds = some (table, genTable rows, accept) := by
  refine ⟨_, ?_, lexerOf_declared cls table rows accept⟩
  rw [(denotes_lexer cls hc table rows accept).compile true, lexer_arrays, Bool.true_or, if_pos rfl]

theorem genTable_entries_empty (rows : List (List Trans)) : (genTable rows).entries = [] ↔ ∀ row ∈ rows, row = [] := by
  have : (genTable rows).entries = rows.flatten := lexerTransitions_entries rows 0
  rw [this]
  simp

theorem genTable_starts_ne (rows : List (List Trans)) : (genTable rows).starts ≠ [] := by
  have := ((genTable_starts rows).2 0).2 (.inl rfl)
  intro h
  rw [h] at this
  simp at this

/-- C79 for the lexer: standard C++ accepts the text just if there is a transition, a state and a symbol table. -/
theorem standard_lexer_exact (cls : Text) (hc : Name cls) (table : List Int) (rows : List (List Trans)) (accept : List Int) :
    (compile false (symbolSource table ++ lexerSource cls rows accept)).isSome = true ↔
      table ≠ [] ∧ (∃ row ∈ rows, row ≠ []) ∧ accept ≠ [] := by
  rw [(denotes_lexer cls hc table rows accept).compile false, lexer_arrays, Bool.false_or]
  have e1 := genTable_entries_empty rows
  have e2 := genTable_starts_ne rows
  have key : (!table.isEmpty && !(genTable rows).entries.isEmpty && !(genTable rows).starts.isEmpty && !accept.isEmpty) = true ↔
      table ≠ [] ∧ (∃ row ∈ rows, row ≠ []) ∧ accept ≠ [] := by
    have h1 : (∃ row ∈ rows, row ≠ []) ↔ (genTable rows).entries ≠ [] := by
      rw [ne_eq, e1]
      simp only [not_forall, exists_prop, ne_eq]
    rw [h1]
    simp only [Bool.and_eq_true, Bool.not_eq_true', List.isEmpty_eq_false_iff]
    exact ⟨fun h => ⟨h.1.1.1, h.1.1.2, h.2⟩, fun h => ⟨⟨⟨h.1, h.2.1⟩, e2⟩, h.2.2⟩⟩
  rw [← key]
  cases (!table.isEmpty && !(genTable rows).entries.isEmpty && !(genTable rows).starts.isEmpty && !accept.isEmpty) with
  | true => simp only [if_true, Option.isSome_some]
  | false => simp only [Bool.false_eq_true, if_false, Option.isSome_none]

end Written
end TameParse

import Verif.WrittenProps
import Verif.TablesAgree
/-
The parser tables that a C++ compiler makes of the generated source (property C79).
-/
namespace TameParse
namespace Written
open ParserTables TameParse.Parser

theorem mapM_map_some {α β γ : Type} (g : α → β) (f : β → Option γ) (h : α → γ) : ∀ l : List α, (∀ x ∈ l, f (g x) = some (h x)) →
    (l.map g).mapM f = some (l.map h)
  | [], _ => rfl
  | a :: l, hl => by
    rw [List.map_cons, List.mapM_cons, hl a (List.mem_cons_self ..), mapM_map_some g f h l (fun x hx => hl x (List.mem_cons_of_mem _ hx))]
    rfl

theorem mapM_map_id {α β : Type} (g : α → β) (f : β → Option α) (l : List α) (hl : ∀ x ∈ l, f (g x) = some x) :
    (l.map g).mapM f = some l := by
  have := mapM_map_some g f id l hl
  simpa using this

theorem arrayOf_hit (ty : List Tok) (ds : List Decl) (name : Text) (l : List Init) : arrayOf ty (arr ty name l :: ds) name = some l := by
  simp [arrayOf, arr]

theorem arrayOf_skip (ty ty' : List Tok) (ds : List Decl) (name name' : Text) (l : List Init)
    (h : ty' ++ [.word name', .punct '[', .punct ']'] ≠ ty ++ [.word name, .punct '[', .punct ']']) :
    arrayOf ty (arr ty' name' l :: ds) name = arrayOf ty ds name := by
  unfold arrayOf arr
  rw [List.findSome?_cons]
  simp only [if_neg h]

theorem objectOf_skip (ty : List Tok) (ds : List Decl) (name : Text) (l : List Init) (head : List Tok) :
    objectOf (arr ty name l :: ds) head = objectOf ds head := by
  unfold objectOf arr
  rw [List.findSome?_cons]

theorem objectOf_hit (ds : List Decl) (l : List Init) (head : List Tok) : objectOf (.object head l :: ds) head = some l := by
  simp [objectOf]

theorem typeOf_code (ty : ActType) : typeOf (code ty) = some ty := by
  cases ty <;> rfl

theorem actionOf_init (a : TableAction) (h : a.nextState < 16777216) : actionOf (actionInit a) = some a := by
  have : actionOf (actionInit a) = if (0 : Int) ≤ a.nextState ∧ (a.nextState : Int) < 16777216 then
      some ⟨a.type, (a.nextState : Int).toNat, a.symbolId⟩ else none := by
    show (match typeOf (code a.type) with
      | some ty => if (0 : Int) ≤ a.nextState ∧ (a.nextState : Int) < 16777216 then some (TableAction.mk ty (a.nextState : Int).toNat a.symbolId) else none
      | none => none) = _
    rw [typeOf_code]
  rw [this, if_pos (by omega)]
  simp

theorem natOf_init (n : Nat) : natOf (guardInit n) = some n := by
  have : natOf (guardInit n) = if (0 : Int) ≤ n then some (n : Int).toNat else none := rfl
  rw [this, if_pos (by omega)]
  simp

theorem countOf_init (c : Nat × Nat) : countOf (countInit c) = some c := by
  have : countOf (countInit c) = if (0 : Int) ≤ c.1 ∧ (0 : Int) ≤ c.2 then some ((c.1 : Int).toNat, (c.2 : Int).toNat) else none := rfl
  rw [this, if_pos (by omega)]
  simp

theorem ruleOf_init (r : ReduceRule) : ruleOf (ruleInit r) = some r := by
  have : ruleOf (ruleInit r) = if (0 : Int) ≤ r.length then some ⟨r.identifier, r.ruleId, (r.length : Int).toNat⟩ else none := rfl
  rw [this, if_pos (by omega)]
  simp

/-! The rows -/

theorem positions_get : ∀ (rows : List (List TableAction)) (pos s : Nat) (row : List TableAction), rows[s]? = some row →
    ∃ p rest, (positions pos rows)[s]? = some (pos + p) ∧ rows.flatten.drop p = row ++ rest
  | [], _, _, _, h => by simp at h
  | r :: rows, pos, 0, row, h => by
    simp only [List.getElem?_cons_zero, Option.some.injEq] at h
    subst h
    exact ⟨0, rows.flatten, by simp [positions], by simp⟩
  | r :: rows, pos, s + 1, row, h => by
    simp only [List.getElem?_cons_succ] at h
    obtain ⟨p, rest, h1, h2⟩ := positions_get rows (pos + r.length) s row h
    refine ⟨r.length + p, rest, ?_, ?_⟩
    · simp only [positions, List.getElem?_cons_succ, h1]
      congr 1
      omega
    · rw [List.flatten_cons, List.drop_append, Nat.add_sub_cancel_left, h2, List.drop_eq_nil_of_le (by omega), List.nil_append]

theorem positions_length : ∀ (rows : List (List TableAction)) (pos : Nat), (positions pos rows).length = rows.length
  | [], _ => rfl
  | r :: rows, pos => by simp [positions, positions_length rows]

theorem positions_le : ∀ (rows : List (List TableAction)) (pos : Nat), ∀ p ∈ positions pos rows, p ≤ pos + rows.flatten.length
  | [], _, p, h => by simp [positions] at h
  | r :: rows, pos, p, h => by
    rw [List.flatten_cons, List.length_append]
    rcases List.mem_cons.1 h with rfl | h
    · omega
    · have := positions_le rows (pos + r.length) p h
      omega

/-- The rows as the pointers see them: each goes on to the end of the array. -/
def seenRows (rows : List (List TableAction)) : List (List TableAction) := (positions 0 rows).map (fun p => rows.flatten.drop p)

/-- The tables that the object `lr_tables` is. -/
def readTables (t : Tables) : Tables :=
  { numStates := t.numStates
    endOfInput := t.endOfInput
    endOfGuard := t.endOfGuard
    terminalActions := seenRows (cutRows t.numStates t.terminalActions (t.counts.map (·.1)))
    nonterminalActions := seenRows (cutRows t.numStates t.nonterminalActions (t.counts.map (·.2)))
    counts := t.counts.take t.numStates
    endGuardStates := t.endGuardStates.take t.numEndOfGuards
    numEndOfGuards := t.numEndOfGuards
    numRules := t.numRules
    rules := t.rules.take t.numRules
    numWeakToStrong := t.numWeakToStrong
    weakToStrong := some ((t.weakToStrong.getD []).take t.numWeakToStrong) }

/-- Every action fits an entry with 24 bits for the state. -/
def Small (t : Tables) : Prop := ∀ row ∈ t.terminalActions ++ t.nonterminalActions, ∀ a ∈ row, a.nextState < 16777216

theorem copyRows_mem : ∀ (n : Nat) (rows : List (List TableAction)) (counts : List Nat) (a : TableAction),
    a ∈ (copyRows n rows counts).flatten → ∃ row ∈ rows, a ∈ row
  | 0, _, _, _, h => by simp [copyRows] at h
  | n + 1, [], counts, a, h => by
    simp only [copyRows, List.headD_nil, List.take_nil, List.flatten_cons, List.nil_append, List.tail_nil] at h
    exact copyRows_mem n [] _ a h
  | n + 1, r :: rows, counts, a, h => by
    simp only [copyRows, List.headD_cons, List.flatten_cons, List.tail_cons, List.mem_append] at h
    rcases h with h | h
    · exact ⟨r, List.mem_cons_self .., List.mem_of_mem_take h⟩
    · obtain ⟨row, h1, h2⟩ := copyRows_mem n rows _ a h
      exact ⟨row, List.mem_cons_of_mem _ h1, h2⟩

theorem copyRows_length : ∀ (n : Nat) (rows : List (List TableAction)) (counts : List Nat), (copyRows n rows counts).length = n
  | 0, _, _ => rfl
  | n + 1, rows, counts => by simp [copyRows, copyRows_length n]

theorem arrayOf_data1 (cls : Text) (t : Tables) : arrayOf tyAction (declared cls t) "s_TerminalActions_data".toList =
    some ((cutRows t.numStates t.terminalActions (t.counts.map (·.1))).flatten.map actionInit) := arrayOf_hit ..

theorem arrayOf_data2 (cls : Text) (t : Tables) : arrayOf tyAction (declared cls t) "s_NonterminalActions_data".toList =
    some ((cutRows t.numStates t.nonterminalActions (t.counts.map (·.2))).flatten.map actionInit) := by
  unfold declared
  rw [arrayOf_skip _ _ _ _ _ _ (by decide +kernel), arrayOf_skip _ _ _ _ _ _ (by decide +kernel), arrayOf_hit]

theorem arrayOf_terms (cls : Text) (t : Tables) : arrayOf tyPointer (declared cls t) "s_TerminalActions".toList =
    some ((positions 0 (cutRows t.numStates t.terminalActions (t.counts.map (·.1)))).map (fun p => .addr "s_TerminalActions_data".toList p)) := by
  unfold declared
  rw [arrayOf_skip _ _ _ _ _ _ (by decide +kernel), arrayOf_hit]

theorem arrayOf_nonterms (cls : Text) (t : Tables) : arrayOf tyPointer (declared cls t) "s_NonterminalActions".toList =
    some ((positions 0 (cutRows t.numStates t.nonterminalActions (t.counts.map (·.2)))).map (fun p => .addr "s_NonterminalActions_data".toList p)) := by
  unfold declared
  rw [arrayOf_skip _ _ _ _ _ _ (by decide +kernel), arrayOf_skip _ _ _ _ _ _ (by decide +kernel), arrayOf_skip _ _ _ _ _ _ (by decide +kernel),
    arrayOf_hit]

theorem arrayOf_counts (cls : Text) (t : Tables) : arrayOf tyCount (declared cls t) "s_ActionCounts".toList =
    some ((t.counts.take t.numStates).map countInit) := by
  unfold declared
  iterate 4 rw [arrayOf_skip _ _ _ _ _ _ (by decide +kernel)]
  rw [arrayOf_hit]

theorem arrayOf_guards (cls : Text) (t : Tables) : arrayOf tyInt (declared cls t) "s_EndGuardStates".toList =
    some ((t.endGuardStates.take t.numEndOfGuards).map guardInit) := by
  unfold declared
  iterate 5 rw [arrayOf_skip _ _ _ _ _ _ (by decide +kernel)]
  rw [arrayOf_hit]

theorem arrayOf_rules (cls : Text) (t : Tables) : arrayOf tyRule (declared cls t) "s_ReduceRules".toList =
    some ((t.rules.take t.numRules).map ruleInit) := by
  unfold declared
  iterate 6 rw [arrayOf_skip _ _ _ _ _ _ (by decide +kernel)]
  rw [arrayOf_hit]

theorem arrayOf_weak (cls : Text) (t : Tables) : arrayOf tyEquivalent (declared cls t) "s_WeakToStrong".toList =
    some (((t.weakToStrong.getD []).take t.numWeakToStrong).map equivalentInit) := by
  unfold declared
  iterate 7 rw [arrayOf_skip _ _ _ _ _ _ (by decide +kernel)]
  rw [arrayOf_hit]

theorem objectOf_declared (cls : Text) (t : Tables) : objectOf (declared cls t) (tablesHead cls) = some (tablesArgs t) := by
  unfold declared
  iterate 8 rw [objectOf_skip]
  rw [objectOf_hit]

theorem pointerOf_data {ds : List Decl} {w : Text} {l : List TableAction} (h : arrayOf tyAction ds w = some (l.map actionInit))
    (hs : ∀ a ∈ l, a.nextState < 16777216) (k : Nat) (hk : k ≤ l.length) : pointerOf ds (.addr w k) = some (l.drop k) := by
  have h1 : (arrayOf tyAction ds w).bind (fun l => l.mapM actionOf) = some l := by
    rw [h]
    exact mapM_map_id actionInit actionOf l (fun a ha => actionOf_init a (hs a ha))
  unfold pointerOf
  dsimp only
  unfold tyAction at h1
  rw [h1]
  exact if_pos hk

theorem rows_read {ds : List Decl} {w : Text} {rows : List (List TableAction)} (h : arrayOf tyAction ds w = some (rows.flatten.map actionInit))
    (hs : ∀ a ∈ rows.flatten, a.nextState < 16777216) :
    ((positions 0 rows).map (fun p => Init.addr w p)).mapM (pointerOf ds) = some (seenRows rows) := by
  refine mapM_map_some _ _ _ _ ?_
  intro p hp
  have := positions_le rows 0 p hp
  exact pointerOf_data h hs p (by omega)

theorem tablesOf_declared (cls : Text) (t : Tables) (hs : Small t) : tablesOf cls (declared cls t) = some (readTables t) := by
  have s1 : ∀ a ∈ (cutRows t.numStates t.terminalActions (t.counts.map (·.1))).flatten, a.nextState < 16777216 := by
    intro a ha
    obtain ⟨row, h1, h2⟩ := copyRows_mem _ _ _ a ha
    exact hs row (List.mem_append_left _ h1) a h2
  have s2 : ∀ a ∈ (cutRows t.numStates t.nonterminalActions (t.counts.map (·.2))).flatten, a.nextState < 16777216 := by
    intro a ha
    obtain ⟨row, h1, h2⟩ := copyRows_mem _ _ _ a ha
    exact hs row (List.mem_append_right _ h1) a h2
  have r1 := rows_read (arrayOf_data1 cls t) s1
  have r2 := rows_read (arrayOf_data2 cls t) s2
  have r3 := mapM_map_id countInit countOf (t.counts.take t.numStates) (fun x _ => countOf_init x)
  have r4 := mapM_map_id guardInit natOf (t.endGuardStates.take t.numEndOfGuards) (fun x _ => natOf_init x)
  have r5 := mapM_map_id ruleInit ruleOf (t.rules.take t.numRules) (fun x _ => ruleOf_init x)
  have r6 := mapM_map_id equivalentInit equivalentOf ((t.weakToStrong.getD []).take t.numWeakToStrong) (fun x _ => rfl)
  have o := objectOf_declared cls t
  have a1 := arrayOf_terms cls t
  have a2 := arrayOf_nonterms cls t
  have a3 := arrayOf_counts cls t
  have a4 := arrayOf_guards cls t
  have a5 := arrayOf_rules cls t
  have a6 := arrayOf_weak cls t
  revert r1 r2 o a1 a2 a3 a4 a5 a6
  generalize declared cls t = ds
  intro r1 r2 o a1 a2 a3 a4 a5 a6
  unfold tablesOf
  unfold tablesHead at o
  rw [o]
  unfold tablesArgs
  simp only
  unfold tyPointer at a1 a2
  unfold tyCount at a3
  unfold tyInt at a4
  unfold tyRule at a5
  unfold tyEquivalent at a6
  rw [a1, a2, a3, a4, a5, a6]
  simp only [Option.bind_eq_bind, Option.bind_some, r1, r2, r3, r4, r5, r6, Option.pure_def]
  rfl

/-! The parser that uses them -/

/-- The arrays hold as many entries as the numbers beside them say (what the constructor makes, see `exact_build`). -/
structure Exact (t : Tables) : Prop where
  counts : t.counts.length = t.numStates
  terms : t.terminalActions.length = t.numStates
  nonterms : t.nonterminalActions.length = t.numStates
  rowTerms : ∀ (s : Nat) (c : Nat × Nat) (row : List TableAction), t.counts[s]? = some c → t.terminalActions[s]? = some row → c.1 ≤ row.length
  rowNonterms : ∀ (s : Nat) (c : Nat × Nat) (row : List TableAction), t.counts[s]? = some c → t.nonterminalActions[s]? = some row → c.2 ≤ row.length
  rules : t.rules.length = t.numRules
  guards : t.numEndOfGuards ≤ t.endGuardStates.length
  weak : t.numWeakToStrong ≤ (t.weakToStrong.getD []).length

theorem seen_row {n : Nat} {rows : List (List TableAction)} {counts : List Nat} {s c : Nat} {row : List TableAction} (hs : s < n)
    (h1 : rows[s]? = some row) (h2 : counts[s]? = some c) (hc : c ≤ row.length) :
    ∃ r, (seenRows (cutRows n rows counts))[s]? = some r ∧ r.take c = row.take c ∧ c ≤ r.length := by
  obtain ⟨p, rest, h3, h4⟩ := positions_get (cutRows n rows counts) 0 s _ (copyRows_get n rows counts s row c hs h1 h2)
  refine ⟨row.take c ++ rest, ?_, ?_, ?_⟩
  · unfold seenRows
    rw [List.getElem?_map, h3]
    simp [h4]
  · rw [List.take_append_of_le_length (by simp [hc]), List.take_take, Nat.min_self]
  · simp only [List.length_append, List.length_take]
    omega

theorem seen_none {n : Nat} {rows : List (List TableAction)} {counts : List Nat} {s : Nat} (hs : n ≤ s) :
    (seenRows (cutRows n rows counts))[s]? = none := by
  rw [List.getElem?_eq_none]
  simp [seenRows, positions_length, cutRows, copyRows_length, hs]

theorem findAction_seen (x : Int) {r row : List TableAction} {c : Nat} (h : r.take c = row.take c) (h1 : c ≤ r.length) (h2 : c ≤ row.length) :
    findAction x r c = findAction x row c := by
  rw [← findAction_take x r c h1, ← findAction_take x row c h2, h]

theorem get_some {α : Type} {l : List α} {n s : Nat} (h : l.length = n) (hs : s < n) : ∃ a, l[s]? = some a :=
  ⟨l[s]'(by omega), List.getElem?_eq_getElem _⟩

/-- The tables in the program answer every question of the parser as the tables of the compiler do. -/
theorem agree_read (t : Tables) (h : Exact t) : Agree t (readTables t) := by
  have hcounts : (readTables t).counts = t.counts := by
    show t.counts.take t.numStates = _
    rw [← h.counts, List.take_length]
  have hrules : (readTables t).rules = t.rules := by
    show t.rules.take t.numRules = _
    rw [← h.rules, List.take_length]
  constructor
  · intro term s
    unfold rowOf
    rw [hcounts]
    by_cases hs : s < t.numStates
    · obtain ⟨c, hc⟩ := get_some h.counts hs
      obtain ⟨a, ha⟩ := get_some h.terms hs
      obtain ⟨b, hb⟩ := get_some h.nonterms hs
      obtain ⟨r1, e1, e2, -⟩ := seen_row (counts := t.counts.map (·.1)) hs ha (by rw [List.getElem?_map, hc]; rfl) (h.rowTerms s c a hc ha)
      obtain ⟨r2, e3, e4, -⟩ := seen_row (counts := t.counts.map (·.2)) hs hb (by rw [List.getElem?_map, hc]; rfl) (h.rowNonterms s c b hc hb)
      cases term
      · show (do let row ← orUb t.nonterminalActions[s]?; let c ← orUb t.counts[s]?; return row.take c.2) =
          (do let row ← orUb (readTables t).nonterminalActions[s]?; let c ← orUb t.counts[s]?; return row.take c.2)
        have e3' : (readTables t).nonterminalActions[s]? = some r2 := e3
        rw [hb, hc, e3']
        show Except.ok _ = Except.ok _
        rw [e4]
      · show (do let row ← orUb t.terminalActions[s]?; let c ← orUb t.counts[s]?; return row.take c.1) =
          (do let row ← orUb (readTables t).terminalActions[s]?; let c ← orUb t.counts[s]?; return row.take c.1)
        have e1' : (readTables t).terminalActions[s]? = some r1 := e1
        rw [ha, hc, e1']
        show Except.ok _ = Except.ok _
        rw [e2]
    · have n1 : t.terminalActions[s]? = none := List.getElem?_eq_none (by rw [h.terms]; omega)
      have n2 : t.nonterminalActions[s]? = none := List.getElem?_eq_none (by rw [h.nonterms]; omega)
      have n3 : (readTables t).terminalActions[s]? = none := seen_none (by omega)
      have n4 : (readTables t).nonterminalActions[s]? = none := seen_none (by omega)
      rw [n1, n2, n3, n4]
  · intro term s x
    unfold findSym findTerminal findNonterminal
    rw [hcounts]
    by_cases hs : s < t.numStates
    · obtain ⟨c, hc⟩ := get_some h.counts hs
      obtain ⟨a, ha⟩ := get_some h.terms hs
      obtain ⟨b, hb⟩ := get_some h.nonterms hs
      obtain ⟨r1, e1, e2, l1⟩ := seen_row (counts := t.counts.map (·.1)) hs ha (by rw [List.getElem?_map, hc]; rfl) (h.rowTerms s c a hc ha)
      obtain ⟨r2, e3, e4, l2⟩ := seen_row (counts := t.counts.map (·.2)) hs hb (by rw [List.getElem?_map, hc]; rfl) (h.rowNonterms s c b hc hb)
      have e1' : (readTables t).terminalActions[s]? = some r1 := e1
      have e3' : (readTables t).nonterminalActions[s]? = some r2 := e3
      rw [ha, hb, hc, e1', e3']
      simp only [Option.bind_eq_bind, Option.bind_some]
      rw [findAction_seen x e2 l1 (h.rowTerms s c a hc ha), findAction_seen x e4 l2 (h.rowNonterms s c b hc hb)]
    · have n1 : t.terminalActions[s]? = none := List.getElem?_eq_none (by rw [h.terms]; omega)
      have n2 : t.nonterminalActions[s]? = none := List.getElem?_eq_none (by rw [h.nonterms]; omega)
      have n3 : (readTables t).terminalActions[s]? = none := seen_none (by omega)
      have n4 : (readTables t).nonterminalActions[s]? = none := seen_none (by omega)
      rw [n1, n2, n3, n4]
  · intro r
    unfold rule
    rw [hrules]
  · intro s
    exact (binarySearch_take _ _ s h.guards).symm
  · intro w
    show strongIn _ _ w = strongIn _ _ w
    cases hw : t.weakToStrong with
    | none =>
      have h0 : t.numWeakToStrong = 0 := by
        have := h.weak
        rw [hw] at this
        simpa using this
      have : (readTables t).numWeakToStrong = 0 := h0
      rw [h0, this]
      simp [strongIn]
    | some l =>
      have e : (readTables t).weakToStrong = (some l).map (fun l => l.take t.numWeakToStrong) := by
        show some ((t.weakToStrong.getD []).take t.numWeakToStrong) = _
        rw [hw]
        rfl
      rw [e]
      refine (strongIn_take _ _ w ?_).symm
      intro l' hl
      cases hl
      have := h.weak
      rw [hw] at this
      exact this
  · rfl
  · rfl

/-- The tables that the constructor makes. -/
theorem exact_build (g : Numbering) (sort : List TableAction → List TableAction) (sortWeak : List (Int × Int) → List (Int × Int))
    (states : List (List LrAction)) (weak : Option (List (TameParse.Item × List TameParse.Item))) (hw : ∀ l, (sortWeak l).length = l.length) :
    Exact (build g sort sortWeak states weak) := by
  have hl := fillStates_length g sort (g.ident .eog) states [] 0
  refine ⟨?_, ?_, ?_, ?_, ?_, ?_, ?_, ?_⟩
  · simp [build, hl]
  · simp [build, hl]
  · simp [build, hl]
  · intro s c row h1 h2
    simp only [build, List.getElem?_map, Option.map_eq_some_iff] at h1 h2
    obtain ⟨r1, h3, rfl⟩ := h1
    obtain ⟨r2, h4, rfl⟩ := h2
    rw [h3] at h4
    cases h4
    exact Nat.le_refl _
  · intro s c row h1 h2
    simp only [build, List.getElem?_map, Option.map_eq_some_iff] at h1 h2
    obtain ⟨r1, h3, rfl⟩ := h1
    obtain ⟨r2, h4, rfl⟩ := h2
    rw [h3] at h4
    cases h4
    exact Nat.le_refl _
  · simp [build]
  · simp [build]
  · cases weak with
    | none => simp [build]
    | some w => simp [build, hw]

theorem field24_lt (n : Int) : field24 n < 16777216 := by
  unfold field24
  omega

theorem encode_small (g : Numbering) (ids : List Int) (a : LrAction) : (encode g ids a).2.nextState < 16777216 := by
  unfold encode
  split
  · dsimp only
    exact field24_lt _
  · exact field24_lt _

theorem fillState_small (g : Numbering) : ∀ (l : List LrAction) (ids : List Int),
    (∀ a ∈ (fillState g ids l).2.1, a.nextState < 16777216) ∧ ∀ a ∈ (fillState g ids l).2.2, a.nextState < 16777216
  | [], _ => by simp [fillState]
  | a :: l, ids => by
    have ih := fillState_small g l (encode g ids a).1
    have he := encode_small g ids a
    unfold fillState
    dsimp only
    split
    · refine ⟨?_, ih.2⟩
      intro b hb
      rcases List.mem_cons.1 hb with rfl | hb
      · exact he
      · exact ih.1 b hb
    · refine ⟨ih.1, ?_⟩
      intro b hb
      rcases List.mem_cons.1 hb with rfl | hb
      · exact he
      · exact ih.2 b hb

theorem fillStates_small (g : Numbering) (sort : List TableAction → List TableAction) (hsort : ∀ l, (sort l).Perm l) (eog : Int) :
    ∀ (l : List (List LrAction)) (ids : List Int) (s : Nat), ∀ r ∈ (fillStates g sort eog ids s l).2.1,
      (∀ a ∈ r.terms, a.nextState < 16777216) ∧ ∀ a ∈ r.nonterms, a.nextState < 16777216
  | [], _, _, r, h => by simp [fillStates] at h
  | acts :: l, ids, s, r, h => by
    have h1 := fillState_small g acts ids
    unfold fillStates at h
    dsimp only at h
    rcases List.mem_cons.1 h with rfl | h
    · exact ⟨fun a ha => h1.1 a ((hsort _).subset ha), fun a ha => h1.2 a ((hsort _).subset ha)⟩
    · exact fillStates_small g sort hsort eog l _ _ r h

theorem small_build (g : Numbering) (sort : List TableAction → List TableAction) (hsort : ∀ l, (sort l).Perm l)
    (sortWeak : List (Int × Int) → List (Int × Int)) (states : List (List LrAction)) (weak : Option (List (TameParse.Item × List TameParse.Item))) :
    Small (build g sort sortWeak states weak) := by
  intro row hrow a ha
  have h := fillStates_small g sort hsort (g.ident .eog) states [] 0
  rcases List.mem_append.1 hrow with hr | hr
  · obtain ⟨r, h1, rfl⟩ := List.mem_map.1 hr
    exact (h r h1).1 a ha
  · obtain ⟨r, h1, rfl⟩ := List.mem_map.1 hr
    exact (h r h1).2 a ha

/-! C79 -/

theorem arrayOk_arr (zero : Bool) (ty : List Tok) (name : Text) (l : List Init) : arrayOk zero (arr ty name l) = (zero || !l.isEmpty) := by
  simp [arrayOk, arr]

/-- C79: a compiler that accepts empty arrays gets from the text the tables that were written: the object of the class answers every question
as the tables of the compiler do, so that the generated parser does the same with every input. -/
theorem generated_parser_partial (cls : Text) (hc : Name cls) (t : Tables) (he : Exact t) (hs : Small t) :
    ∃ ds t', compile true (parserSource cls t) = some ds ∧ tablesOf cls ds = some t' ∧ Agree t t' ∧
      ∀ fuel s, parse t' fuel s = parse t fuel s := by
  refine ⟨declared cls t, readTables t, ?_, tablesOf_declared cls t hs, agree_read t he, fun fuel s => ((agree_read t he).parses fuel s).symm⟩
  rw [(denotes_parser cls hc t).compile true, if_pos]
  rw [List.all_eq_true]
  intro d hd
  simp only [declared, List.mem_cons, List.not_mem_nil, or_false] at hd
  rcases hd with rfl | rfl | rfl | rfl | rfl | rfl | rfl | rfl | rfl
  all_goals first | exact arrayOk_arr .. | rfl

/-- What standard C++ asks of the arrays. -/
def NonEmpty (t : Tables) : Prop :=
  (∃ row ∈ cutRows t.numStates t.terminalActions (t.counts.map (·.1)), row ≠ []) ∧
  (∃ row ∈ cutRows t.numStates t.nonterminalActions (t.counts.map (·.2)), row ≠ []) ∧
  t.numEndOfGuards ≠ 0 ∧ t.numRules ≠ 0 ∧ t.numWeakToStrong ≠ 0

theorem flatten_isEmpty (rows : List (List TableAction)) : (!rows.flatten.isEmpty) = true ↔ ∃ row ∈ rows, row ≠ [] := by
  simp

theorem take_isEmpty {α : Type} {l : List α} {n : Nat} (h : n ≤ l.length) : (!(l.take n).isEmpty) = true ↔ n ≠ 0 := by
  cases l with
  | nil => simp at h; simp [h]
  | cons a l => simp

theorem isEmpty_map' {α β : Type} (f : α → β) (l : List α) : (l.map f).isEmpty = l.isEmpty := by
  cases l <;> rfl

theorem positions_isEmpty (rows : List (List TableAction)) (h : ∃ row ∈ rows, row ≠ []) : (!(positions 0 rows).isEmpty) = true := by
  obtain ⟨row, h1, -⟩ := h
  cases rows with
  | nil => simp at h1
  | cons r rows => simp [positions]

/-- C79: which texts standard C++ accepts. -/
theorem standard_exact (cls : Text) (hc : Name cls) (t : Tables) (he : Exact t) :
    (compile false (parserSource cls t)).isSome = true ↔ NonEmpty t := by
  rw [(denotes_parser cls hc t).compile false]
  have key : (declared cls t).all (arrayOk false) = true ↔ NonEmpty t := by
    simp only [declared, List.all_cons, List.all_nil, Bool.and_true, arrayOk_arr, Bool.false_or, isEmpty_map', Bool.and_eq_true, flatten_isEmpty]
    unfold NonEmpty
    rw [take_isEmpty he.guards, take_isEmpty (le_of_eq he.rules.symm), take_isEmpty he.weak]
    constructor
    · rintro ⟨h1, -, h3, -, -, h6, h7, h8, -⟩
      exact ⟨h1, h3, h6, h7, h8⟩
    · rintro ⟨h1, h3, h6, h7, h8⟩
      refine ⟨h1, positions_isEmpty _ h1, h3, positions_isEmpty _ h3, ?_, h6, h7, h8, rfl⟩
      rw [take_isEmpty (le_of_eq he.counts.symm)]
      obtain ⟨row, h9, -⟩ := h1
      intro h0
      rw [h0] at h9
      simp [cutRows, copyRows] at h9
  by_cases h : (declared cls t).all (arrayOk false) = true
  · rw [if_pos h]
    simp [key.1 h]
  · rw [if_neg h]
    simp only [Option.isSome_none, Bool.false_eq_true, false_iff]
    exact fun hn => h (key.2 hn)

/-- C79: where a standard compiler accepts the text, it gets the same tables. -/
theorem standard_parser (cls : Text) (hc : Name cls) (t : Tables) (he : Exact t) (hs : Small t) (hn : NonEmpty t) :
    ∃ ds t', compile false (parserSource cls t) = some ds ∧ tablesOf cls ds = some t' ∧ Agree t t' ∧
      ∀ fuel s, parse t' fuel s = parse t fuel s := by
  refine ⟨declared cls t, readTables t, ?_, tablesOf_declared cls t hs, agree_read t he, fun fuel s => ((agree_read t he).parses fuel s).symm⟩
  have h := (standard_exact cls hc t he).2 hn
  rw [(denotes_parser cls hc t).compile false] at h ⊢
  by_cases ha : (declared cls t).all (arrayOk false) = true
  · rw [if_pos ha]
  · rw [if_neg ha] at h
    cases h

/-- C79 is violated for standard C++: the text for a grammar without guards, or without weak symbols, declares an array without elements. -/
theorem empty_arrays_violated (cls : Text) (hc : Name cls) (t : Tables) (he : Exact t) (h : t.numEndOfGuards = 0 ∨ t.numWeakToStrong = 0) :
    compile false (parserSource cls t) = none := by
  have := standard_exact cls hc t he
  cases hcmp : compile false (parserSource cls t) with
  | none => rfl
  | some ds =>
    rw [hcmp] at this
    obtain ⟨-, -, h1, -, h2⟩ := this.1 rfl
    rcases h with h | h
    · exact absurd h h1
    · exact absurd h h2

end Written
end TameParse

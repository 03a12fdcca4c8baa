import Verif.NamesProps
import Verif.AstProps

/-!
# C68: the members of generated classes
-/

namespace TameParse
namespace Names

open AssocMap

/-! ### What C++ asks for -/

def Decl.name? : Decl → Option Str
  | .field n _ => some n
  | _ => none

def Decl.params? : Decl → Option (List Item)
  | .ctor l => some l
  | _ => none

/-- The declarations of a class are those of a class that C++ accepts, and its constructors can be defined: members have different names, which are
not names of the classes that are used in it or its own one; there is one `m_Position`; no two constructors have the same parameters; and each
constructor initialises different members with what they are declared as. `cls` are the names of the classes of the items. -/
structure ClassOk (cls : Item → Str) (x : Item) (rules : List (List Part)) : Prop where
  members : ((body x [] rules).filterMap Decl.name?).Nodup
  position : (body x [] rules).count .position ≤ 1
  ctors : (((body x [] rules).filterMap Decl.params?).map (·.map cls)).Nodup
  inits : ∀ ps ∈ rules, declares x ps = true → ((inits ps).map Prod.fst).Nodup ∧ ∀ p ∈ inits ps, ∃ y, .field p.1 y ∈ body x [] rules ∧ cls y = cls p.2
  types : ∀ n ∈ (body x [] rules).filterMap Decl.name?, n ≠ typeName (cls x) ∧ ∀ m y, .field m y ∈ body x [] rules → n ≠ typeName (cls y)

/-! ### Violations -/

/-- The classes of all items, by their names. -/
def clsOf (name : Item → Str) (xs : List Item) : Item → Str := fun x => ((assign name 50 ⟨[], fixed⟩ xs).bind fun c => get x c.names).getD []

/-- The rules of a nonterminal without names in attributes. -/
def rulesOf (name : Item → Str) (x : Item) (rules : List (List Item)) (fuel : Nat := 50) : List (List Part) :=
  rules.map fun r => (parts name fuel x 0 [] (r.map fun y => (y, []))).getD []

def ta : Item := .terminal 0
def tb : Item := .terminal 1
def tc : Item := .terminal 2
def td : Item := .terminal 3
def nS : Item := .nonterminal 10

/-- `a`, `b`, `c-d`, `c_d`, and the nonterminals `<S>` and `<a>`. -/
def vName : Item → Str := nameForItem (fun n => if n = 0 then "a".toList else if n = 1 then "b".toList else if n = 2 then "c-d".toList else if n = 3 then "c_d".toList else "a_n".toList)
  (fun n => if n = 10 then "<S>".toList else "<a>".toList)

def stars : Item := .ebnf .repeatZero [[ta]]
def pluses : Item := .ebnf .repeating [[ta]]

def vItems : List Item := [ta, tb, tc, td, .terminal 4, nS, .nonterminal 11, stars, pluses, .ebnf .optional [[ta, tb, ta, tc]], .ebnf .optional [[ta, tb, ta, tb]]]

/-- C68 is violated by `S = a* | b a+`: both lists are called `list_of_a`, and the second constructor has a list of another class for the member. -/
theorem members_list_violated : ¬ ClassOk (clsOf vName vItems) nS (rulesOf vName nS [[stars], [tb, pluses]]) := by
  intro h
  obtain ⟨y, hy, he⟩ := (h.inits _ (by simp [rulesOf]; right; rfl) (by decide +kernel)).2 ("yy_list_of_a".toList, pluses) (by decide +kernel)
  have : ∀ d ∈ body nS [] (rulesOf vName nS [[stars], [tb, pluses]]), (match d with | .field n y => decide (n = "yy_list_of_a".toList → clsOf vName vItems y ≠ clsOf vName vItems pluses) | _ => true) = true := by
    decide +kernel
  exact of_decide_eq_true (this _ hy) rfl he

/-- The names of long EBNF items are cut off: `S = (a b a c-d)? | b (a b a b)?`. -/
theorem members_etc_violated : ¬ ClassOk (clsOf vName vItems) nS (rulesOf vName nS [[.ebnf .optional [[ta, tb, ta, tc]]], [tb, .ebnf .optional [[ta, tb, ta, tb]]]]) := by
  intro h
  obtain ⟨y, hy, he⟩ := (h.inits _ (by simp [rulesOf]; right; rfl) (by decide +kernel)).2 ("yy_optional_a_etc".toList, .ebnf .optional [[ta, tb, ta, tb]]) (by decide +kernel)
  have : ∀ d ∈ body nS [] (rulesOf vName nS [[.ebnf .optional [[ta, tb, ta, tc]]], [tb, .ebnf .optional [[ta, tb, ta, tb]]]]), (match d with
      | .field n y => decide (n = "yy_optional_a_etc".toList → clsOf vName vItems y ≠ clsOf vName vItems (.ebnf .optional [[ta, tb, ta, tb]])) | _ => true) = true := by
    decide +kernel
  exact of_decide_eq_true (this _ hy) rfl he

/-- A terminal and a nonterminal of the same name in different rules: `S = a | b <a>`. -/
theorem members_kind_violated : ¬ ClassOk (clsOf vName vItems) nS (rulesOf vName nS [[ta], [tb, .nonterminal 11]]) := by
  intro h
  obtain ⟨y, hy, he⟩ := (h.inits _ (by simp [rulesOf]; right; rfl) (by decide +kernel)).2 ("yy_a".toList, .nonterminal 11) (by decide +kernel)
  have : ∀ d ∈ body nS [] (rulesOf vName nS [[ta], [tb, .nonterminal 11]]), (match d with
      | .field n y => decide (n = "yy_a".toList → clsOf vName vItems y ≠ clsOf vName vItems (.nonterminal 11)) | _ => true) = true := by
    decide +kernel
  exact of_decide_eq_true (this _ hy) rfl he

/-- Names that differ, with identifiers that do not: `S = c-d c_d`. -/
theorem members_twice_violated : ¬ ClassOk (clsOf vName vItems) nS (rulesOf vName nS [[tc, td]]) := by
  intro h
  exact absurd (h.inits _ (List.mem_singleton.2 rfl) (by decide +kernel)).1 (by decide +kernel)

/-- Rules that differ in guards only: `S = [=> a] b | b`. -/
theorem constructors_violated : ¬ ClassOk (clsOf vName vItems) nS (rulesOf vName nS [[.guard (-1) [ta], tb], [tb]]) := fun h => absurd h.ctors (by decide +kernel)

/-- Two rules without members: `S = | [=> a]`. -/
theorem positions_violated : ¬ ClassOk (clsOf vName vItems) nS (rulesOf vName nS [[], [.guard (-1) [ta]]]) := fun h => absurd h.position (by decide +kernel)

/-- A member with the name of a class: `S = a_n a`. -/
theorem member_types_violated : ¬ ClassOk (clsOf vName vItems) nS (rulesOf vName nS [[.terminal 4, ta]]) := fun h =>
  (h.types "yy_a_n".toList (by decide +kernel)).2 "yy_a".toList ta (by decide +kernel) (by decide +kernel)

/-! ### What holds -/

/-- What is asked of the names of the items in the rules of a class: they are made of letters, digits and `_`; different items have different names; no name is another one
with `_` and a number behind it; none ends in `_n`. -/
structure Fit (name : Item → Str) (U : Item → Prop) : Prop where
  chars : ∀ y, U y → ∀ c ∈ name y, IdChar c
  nonempty : ∀ y, U y → name y ≠ []
  inj : ∀ y z, U y → U z → name y = name z → y = z
  apart : ∀ y z, U y → U z → ∀ k, name y ≠ name z ++ '_' :: decimal k
  ends : ∀ y, U y → ∀ s, name y ≠ s ++ "_n".toList

theorem idChar_not_quote {c : Char} (h : IdChar c) : c ≠ '\'' ∧ c ≠ '"' ∧ c ≠ '<' := by
  refine ⟨?_, ?_, ?_⟩ <;> (rintro rfl; revert h; decide)

theorem charText_id {c : Char} (h : IdChar c) (b : Bool) : charText b c = [c] := by
  rcases h with h | h | rfl
  · unfold charText; rw [h]; rfl
  · unfold charText; rw [h, Bool.or_true]; rfl
  · cases b <;> rfl

theorem identifier_simple {s : Str} (hs : s ≠ []) (h : ∀ c ∈ s, IdChar c) : identifier s = "yy_".toList ++ s := by
  have hq : quoted s = false := by
    obtain ⟨c, l, rfl⟩ := List.exists_cons_of_ne_nil hs
    obtain ⟨h1, h2, h3⟩ := idChar_not_quote (h c (List.mem_cons_self ..))
    simp [quoted, within, h1, h2, h3]
  unfold identifier
  rw [if_neg hs, hq]
  dsimp only
  rw [if_neg Bool.false_ne_true]
  congr 1
  rw [show s.flatMap (charText (decide (s.length = 1))) = s.flatMap (fun c => [c]) from ?_]
  · simp
  · exact List.flatMap_congr fun c hc => charText_id (h c hc) _

theorem variant_chars {s : Str} {v : Nat} (h : ∀ c ∈ s, IdChar c) : ∀ c ∈ variant s v, IdChar c := by
  unfold variant
  split
  · intro c hc
    rcases List.mem_append.1 hc with hc | hc
    · exact h c hc
    · rcases List.mem_cons.1 hc with rfl | hc
      · exact Or.inr (Or.inr rfl)
      · exact Or.inr (Or.inl (decimal_digits _ c hc))
  · exact h

theorem variant_ne_nil {s : Str} {v : Nat} (h : s ≠ []) : variant s v ≠ [] := by
  unfold variant
  split
  · simp
  · exact h

section
variable {name : Item → Str} {U : Item → Prop}

theorem Fit.identifier (h : Fit name U) {y : Item} (hy : U y) (v : Nat) : identifier (variant (name y) v) = "yy_".toList ++ variant (name y) v :=
  identifier_simple (variant_ne_nil (h.nonempty y hy)) (variant_chars (h.chars y hy))

/-- Names with numbers can be told from each other. -/
theorem Fit.variant (h : Fit name U) {y z : Item} (hy : U y) (hz : U z) {v w : Nat} (he : variant (name y) v = variant (name z) w) : y = z := by
  unfold Names.variant at he
  split at he <;> split at he
  · exact h.inj y z hy hz (underscore_inj (decimal_no_underscore _) (decimal_no_underscore _) he).1
  · exact absurd he.symm (h.apart z y hz hy _)
  · exact absurd he (h.apart y z hy hz _)
  · exact h.inj y z hy hz he

theorem Fit.type (h : Fit name U) {y : Item} (hy : U y) (v : Nat) (s : Str) : Names.variant (name y) v ≠ typeName s := by
  unfold Names.variant
  split
  · intro he
    have h1 : (name y ++ '_' :: decimal v).getLast? = some 'n' := by rw [he]; simp [typeName]
    have h2 : (name y ++ '_' :: decimal v).getLast? = (decimal v).getLast? := by
      obtain ⟨c, l, hl⟩ := List.exists_cons_of_ne_nil (decimal_ne_nil v)
      rw [List.getLast?_append, hl, List.getLast?_cons_cons, List.getLast?_cons]
      rfl
    rw [h2] at h1
    have := decimal_digits v 'n' (List.mem_of_getLast? h1)
    revert this
    decide
  · exact h.ends y hy s

theorem parts_spec {fuel : Nat} {x : Item} : ∀ {l : List Item} {index : Nat} {used : List Str} {ps : List Part}, parts name fuel x index used (l.map fun y => (y, [])) = some ps →
    ps.map Part.item = l ∧ (ps.map Part.name).Nodup ∧ (∀ p ∈ ps, p.name ∉ used ∧ ∃ v, p.name = Names.variant (name p.item) v) ∧
      ps.map Part.rep = l.mapIdx (fun k y => Ast.isRepetition x (index + k) y)
  | [], _, _, _, h => by
    cases h
    exact ⟨rfl, List.nodup_nil, by simp, rfl⟩
  | y :: l, index, used, ps, h => by
    rw [List.map_cons] at h
    unfold parts at h
    split at h
    · cases h
    · rename_i n hn
      obtain ⟨qs, hq, rfl⟩ := Option.map_eq_some_iff.1 h
      obtain ⟨h1, h2, h3, h4⟩ := parts_spec hq
      obtain ⟨h5, v, -, h6⟩ := freshLoop_spec hn
      rw [if_pos rfl] at h6
      refine ⟨by simp [h1], List.nodup_cons.2 ⟨?_, h2⟩, ?_, ?_⟩
      · intro hm
        obtain ⟨p, hp, he⟩ := List.mem_map.1 hm
        exact (h3 p hp).1 (by rw [he]; exact List.mem_cons_self ..)
      · intro p hp
        rcases List.mem_cons.1 hp with rfl | hp
        · exact ⟨fun h => h5 (List.mem_cons_of_mem _ h), v, h6⟩
        · exact ⟨fun h => (h3 p hp).1 (List.mem_cons_of_mem _ h), (h3 p hp).2⟩
      · rw [List.map_cons, h4, List.mapIdx_cons]
        simp only [Nat.add_zero, List.cons.injEq, true_and]
        refine List.mapIdx_eq_mapIdx_iff.2 ?_
        intro k hk
        rw [Nat.add_right_comm, Nat.add_assoc]

theorem parts_total {fuel : Nat} {x : Item} : ∀ (l : List (Item × Str)) (index : Nat) (used : List Str), used.length + 1 + l.length < fuel → ∃ ps, parts name fuel x index used l = some ps
  | [], _, _, _ => ⟨[], rfl⟩
  | (y, attr) :: l, index, used, h => by
    simp only [List.length_cons] at h
    obtain ⟨n, hn⟩ := freshLoop_total (used := [] :: used) (base := if attr = [] then name y else attr) (fuel := fuel) (v := 1) (by omega) (by simp only [List.length_cons]; omega)
    obtain ⟨ps, hps⟩ := parts_total (fuel := fuel) (x := x) l (index + 1) (n :: used) (by simp only [List.length_cons]; omega)
    refine ⟨⟨y, n, Ast.isRepetition x index y⟩ :: ps, ?_⟩
    unfold parts
    rw [hn]
    dsimp only
    rw [hps]
    rfl

/-- The members for a rule. -/
theorem fieldDecls_spec : ∀ (ps : List Part) (defined : List Str),
    (∀ d ∈ (fieldDecls defined ps).1, ∃ p ∈ ps, p.counts = true ∧ d = .field (identifier p.name) p.item) ∧
    ((fieldDecls defined ps).1.filterMap Decl.name?).Nodup ∧ (∀ n ∈ (fieldDecls defined ps).1.filterMap Decl.name?, n ∉ defined) ∧
    (∀ n, n ∈ (fieldDecls defined ps).2 ↔ n ∈ defined ∨ n ∈ (fieldDecls defined ps).1.filterMap Decl.name?) ∧
    ∀ p ∈ ps, p.counts = true → identifier p.name ∈ (fieldDecls defined ps).2
  | [], defined => by simp [fieldDecls]
  | p :: ps, defined => by
    unfold fieldDecls
    split
    · rename_i hc
      split
      · rename_i hm
        obtain ⟨h1, h2, h3, h4, h5⟩ := fieldDecls_spec ps defined
        refine ⟨fun d hd => ?_, h2, h3, h4, ?_⟩
        · obtain ⟨q, hq, h⟩ := h1 d hd
          exact ⟨q, List.mem_cons_of_mem _ hq, h⟩
        · intro q hq hqc
          rcases List.mem_cons.1 hq with rfl | hq
          · exact (h4 _).2 (Or.inl hm)
          · exact h5 q hq hqc
      · rename_i hm
        obtain ⟨h1, h2, h3, h4, h5⟩ := fieldDecls_spec ps (identifier p.name :: defined)
        dsimp only
        have e : (Decl.field (identifier p.name) p.item :: (fieldDecls (identifier p.name :: defined) ps).1).filterMap Decl.name? =
          identifier p.name :: (fieldDecls (identifier p.name :: defined) ps).1.filterMap Decl.name? := rfl
        rw [e]
        refine ⟨?_, List.nodup_cons.2 ⟨fun h => h3 _ h (List.mem_cons_self ..), h2⟩, ?_, ?_, ?_⟩
        · intro d hd
          rcases List.mem_cons.1 hd with rfl | hd
          · exact ⟨p, List.mem_cons_self .., hc, rfl⟩
          · obtain ⟨q, hq, h⟩ := h1 d hd
            exact ⟨q, List.mem_cons_of_mem _ hq, h⟩
        · intro n hn
          rcases List.mem_cons.1 hn with rfl | hn
          · exact hm
          · exact fun h => h3 n hn (List.mem_cons_of_mem _ h)
        · intro n
          rw [h4, List.mem_cons, List.mem_cons]
          tauto
        · intro q hq hqc
          rcases List.mem_cons.1 hq with rfl | hq
          · exact (h4 _).2 (Or.inl (List.mem_cons_self ..))
          · exact h5 q hq hqc
    · rename_i hc
      obtain ⟨h1, h2, h3, h4, h5⟩ := fieldDecls_spec ps defined
      refine ⟨fun d hd => ?_, h2, h3, h4, ?_⟩
      · obtain ⟨q, hq, h⟩ := h1 d hd
        exact ⟨q, List.mem_cons_of_mem _ hq, h⟩
      · intro q hq hqc
        rcases List.mem_cons.1 hq with rfl | hq
        · exact absurd hqc hc
        · exact h5 q hq hqc

/-- The declarations of a class: its members, its constructors, how often there is a position. -/
theorem body_spec (x : Item) : ∀ (rules : List (List Part)) (defined : List Str),
    (∀ n y, .field n y ∈ body x defined rules → ∃ ps ∈ rules, ∃ p ∈ ps, p.counts = true ∧ n = identifier p.name ∧ y = p.item) ∧
    ((body x defined rules).filterMap Decl.name?).Nodup ∧ (∀ n ∈ (body x defined rules).filterMap Decl.name?, n ∉ defined) ∧
    (∀ ps ∈ rules, ∀ p ∈ ps, p.counts = true → identifier p.name ∈ defined ∨ ∃ y, .field (identifier p.name) y ∈ body x defined rules) ∧
    (body x defined rules).count .position = rules.countP (fun ps => !ps.any Part.counts) ∧
    (body x defined rules).filterMap Decl.params? = (rules.filter (declares x)).map (fun ps => (ps.filter Part.counts).map Part.item)
  | [], defined => by simp [body]
  | ps :: rules, defined => by
    obtain ⟨f1, f2, f3, f4, f5⟩ := fieldDecls_spec ps defined
    unfold body
    dsimp only
    generalize fieldDecls defined ps = q at f1 f2 f3 f4 f5 ⊢
    obtain ⟨b1, b2, b3, b4, b5, b6⟩ := body_spec x rules q.2
    have fp : q.1.count .position = 0 := List.count_eq_zero.2 fun h => by
      obtain ⟨_, _, _, h⟩ := f1 _ h
      cases h
    have fc : q.1.filterMap Decl.params? = [] := List.filterMap_eq_nil_iff.2 fun d hd => by
      obtain ⟨_, _, _, rfl⟩ := f1 _ hd
      rfl
    have e1 : (if ps.any Part.counts then [] else [Decl.position]).filterMap Decl.name? = [] := by split <;> rfl
    have e2 : (if declares x ps then [Decl.ctor ((ps.filter Part.counts).map Part.item)] else []).filterMap Decl.name? = [] := by split <;> rfl
    have e3 : (if ps.any Part.counts then [] else [Decl.position]).filterMap Decl.params? = [] := by split <;> rfl
    have en : (q.1 ++ (if ps.any Part.counts then [] else [Decl.position]) ++ (if declares x ps then [Decl.ctor ((ps.filter Part.counts).map Part.item)] else []) ++
        body x q.2 rules).filterMap Decl.name? = q.1.filterMap Decl.name? ++ (body x q.2 rules).filterMap Decl.name? := by
      rw [List.filterMap_append, List.filterMap_append, List.filterMap_append, e1, e2, List.append_nil, List.append_nil]
    rw [en]
    refine ⟨?_, ?_, ?_, ?_, ?_, ?_⟩
    · intro n y h
      rcases List.mem_append.1 h with h | h
      · rcases List.mem_append.1 h with h | h
        · rcases List.mem_append.1 h with h | h
          · obtain ⟨p, hp, hc, he⟩ := f1 _ h
            cases he
            exact ⟨ps, List.mem_cons_self .., p, hp, hc, rfl, rfl⟩
          · split at h <;> simp at h
        · split at h <;> simp at h
      · obtain ⟨qs, hqs, h⟩ := b1 n y h
        exact ⟨qs, List.mem_cons_of_mem _ hqs, h⟩
    · exact List.Nodup.append f2 b2 fun n hn hn' => b3 n hn' ((f4 n).2 (Or.inr hn))
    · intro n hn
      rcases List.mem_append.1 hn with hn | hn
      · exact f3 n hn
      · exact fun h => b3 n hn ((f4 n).2 (Or.inl h))
    · intro qs hqs p hp hc
      have key : ∀ n, n ∈ q.2 → n ∈ defined ∨ ∃ y, Decl.field n y ∈ q.1 := by
        intro n hn
        refine ((f4 n).1 hn).imp id fun h => ?_
        obtain ⟨d, hd, he⟩ := List.mem_filterMap.1 h
        cases d with
        | field m y => cases he; exact ⟨y, hd⟩
        | position => cases he
        | ctor _ => cases he
      have lift : ∀ n, (n ∈ defined ∨ ∃ y, Decl.field n y ∈ q.1) → n ∈ defined ∨ ∃ y, Decl.field n y ∈ q.1 ++ (if ps.any Part.counts then [] else [Decl.position]) ++
          (if declares x ps then [Decl.ctor ((ps.filter Part.counts).map Part.item)] else []) ++ body x q.2 rules := fun n h =>
        h.imp id fun ⟨y, hy⟩ => ⟨y, List.mem_append_left _ (List.mem_append_left _ (List.mem_append_left _ hy))⟩
      rcases List.mem_cons.1 hqs with rfl | hqs
      · exact lift _ (key _ (f5 p hp hc))
      · rcases b4 qs hqs p hp hc with h | ⟨y, hy⟩
        · exact lift _ (key _ h)
        · exact Or.inr ⟨y, List.mem_append_right _ hy⟩
    · rw [List.count_append, List.count_append, List.count_append, fp, b5, List.countP_cons]
      cases ps.any Part.counts <;> cases declares x ps <;> simp [Nat.add_comm]
    · rw [List.filterMap_append, List.filterMap_append, List.filterMap_append, fc, e3, b6, List.filter_cons]
      cases declares x ps <;> rfl

end

/-- What `parts` makes of a rule. -/
structure RuleParts (name : Item → Str) (x : Item) (r : List Item) (ps : List Part) : Prop where
  items : ps.map Part.item = r
  names : (ps.map Part.name).Nodup
  shape : ∀ p ∈ ps, ∃ v, p.name = variant (name p.item) v
  reps : ps.map Part.rep = r.mapIdx (fun k y => Ast.isRepetition x k y)

theorem ruleParts {name : Item → Str} {fuel : Nat} {x : Item} {r : List Item} (h : r.length + 1 < fuel) :
    RuleParts name x r ((parts name fuel x 0 [] (r.map fun y => (y, []))).getD []) := by
  obtain ⟨ps, hps⟩ := parts_total (name := name) (x := x) (fuel := fuel) (r.map fun y => (y, [])) 0 [] (by simp only [List.length_nil, List.length_map]; omega)
  rw [hps]
  obtain ⟨h1, h2, h3, h4⟩ := parts_spec hps
  exact ⟨h1, h2, fun p hp => (h3 p hp).2, by simpa using h4⟩

section
variable {name : Item → Str} {x : Item} {r : List Item} {ps : List Part}

theorem RuleParts.counts_at (h : RuleParts name x r ps) (hg : ∀ y ∈ r, Ast.isGuard y = false) {k : Nat} {p : Part} (hp : ps[k]? = some p)
    (h0 : k = 0 → Ast.isRepetition x 0 p.item = false) : p.counts = true := by
  have h1 : r[k]? = some p.item := by rw [← h.items, List.getElem?_map, hp]; rfl
  have h2 : (ps.map Part.rep)[k]? = some p.rep := by rw [List.getElem?_map, hp]; rfl
  rw [h.reps, List.getElem?_mapIdx, h1] at h2
  have h3 : Ast.isRepetition x k p.item = p.rep := by simpa using h2
  have h4 : p.rep = false := by
    rw [← h3]
    by_cases hk : k = 0
    · subst hk; exact h0 rfl
    · simp [Ast.isRepetition, hk]
  unfold Part.counts
  rw [hg _ (List.mem_of_getElem? h1), h4]
  rfl

theorem RuleParts.counts_all (h : RuleParts name x r ps) (hg : ∀ y ∈ r, Ast.isGuard y = false) (h0 : ∀ y, r.head? = some y → Ast.isRepetition x 0 y = false) :
    ∀ p ∈ ps, p.counts = true := by
  intro p hp
  obtain ⟨k, hk⟩ := List.getElem?_of_mem hp
  refine h.counts_at hg hk fun h1 => h0 _ ?_
  subst h1
  rw [← h.items, List.head?_map, List.head?_eq_getElem?, hk]
  rfl

theorem RuleParts.any_tail (h : RuleParts name x r ps) (hg : ∀ y ∈ r, Ast.isGuard y = false) (h1 : 1 < r.length) : ps.any Part.counts = true := by
  have hl : 1 < ps.length := by rw [← h.items, List.length_map] at h1; exact h1
  exact List.any_eq_true.2 ⟨ps[1], List.getElem_mem _, h.counts_at hg (List.getElem?_eq_getElem hl) (by simp)⟩

end

theorem map_inj_of {α β : Type} {f : α → β} : ∀ {l m : List α}, l.map f = m.map f → (∀ y ∈ l, ∀ z ∈ m, f y = f z → y = z) → l = m
  | [], [], _, _ => rfl
  | [], _ :: _, h, _ => by cases h
  | _ :: _, [], h, _ => by cases h
  | a :: l, b :: m, h, hf => by
    obtain ⟨h1, h2⟩ := List.cons.inj h
    rw [hf a (List.mem_cons_self ..) b (List.mem_cons_self ..) h1, map_inj_of h2 fun y hy z hz => hf y (List.mem_cons_of_mem _ hy) z (List.mem_cons_of_mem _ hz)]

theorem all_eq_length {α : Type} {l : List α} {a : α} (h : l.Nodup) (he : ∀ y ∈ l, y = a) : l.length ≤ 1 := by
  match l, h, he with
  | [], _, _ => simp
  | [_], _, _ => simp
  | b :: c :: l, h, he =>
    rw [he b (by simp), he c (by simp)] at h
    simp at h

/-- **C68 (partial).** The class for `x` is one that C++ accepts, with constructors that initialise each member once and with what it is declared as, if the names of the
items in its rules are `Fit`, there are no guards and names in attributes in its rules, and `x` is no list of nothing. -/
theorem class_members_partial (g : Gram) (term nonterm : Int → Str) {x : Item} {rules : List (List Item)} {used : List Str} {xs : List Item} {d : Classes} {f fuel : Nat}
    (hd : assign (nameForItem term nonterm) f ⟨[], used⟩ xs = some d) (hx : x ∈ xs) (hxs : ∀ r ∈ rules, ∀ y ∈ r, y ∈ xs)
    (hn : rules.Nodup) (hc : ∀ r ∈ rules, r ∈ Closure.closRules g x) (hl : ∀ k rs, x = .ebnf k rs → Ast.isList x = true → Gram.ebnfRule rs ≠ [])
    (hg : ∀ r ∈ rules, ∀ y ∈ r, Ast.isGuard y = false) (hfit : Fit (nameForItem term nonterm) (fun y => ∃ r ∈ rules, y ∈ r))
    (hf : ∀ r ∈ rules, r.length + 1 < fuel) : ClassOk (fun y => (get y d.names).getD []) x (rulesOf (nameForItem term nonterm) x rules fuel) := by
  obtain ⟨a1, a2, -⟩ := assign_ok (start := used) ⟨by simp [AssocMap.get], by simp [AssocMap.get], fun _ h => h, by simp [AssocMap.get]⟩ hd
  generalize hname : nameForItem term nonterm = name at *
  have hcls : ∀ y ∈ xs, ∃ s, get y d.names = some s := fun y hy => Option.isSome_iff_exists.1 (a2 y hy)
  have hclsinj : ∀ y ∈ xs, ∀ z ∈ xs, (get y d.names).getD [] = (get z d.names).getD [] → y = z := by
    intro y hy z hz he
    obtain ⟨s, hs⟩ := hcls y hy
    obtain ⟨t, ht⟩ := hcls z hz
    rw [hs, ht] at he
    exact a1.inj y z s hs (by rw [ht]; exact congrArg some he.symm)
  have hyy : ∀ y ∈ xs, ∃ s, (get y d.names).getD [] = "yy_".toList ++ s := by
    intro y hy
    obtain ⟨s, hs⟩ := hcls y hy
    obtain ⟨v, -, rfl⟩ := a1.shape y s hs
    rw [hs, ← hname]
    exact typeName_yy
  let P : List Item → List Part := fun r => (parts name fuel x 0 [] (r.map fun y => (y, []))).getD []
  have hP : ∀ r ∈ rules, RuleParts name x r (P r) := fun r hr => ruleParts (hf r hr)
  have hrules : rulesOf name x rules fuel = rules.map P := rfl
  rw [hrules]
  clear_value P
  obtain ⟨b1, b2, -, b4, b5, b6⟩ := body_spec x (rules.map P) []
  -- a member and its item
  have hfield : ∀ n y, Decl.field n y ∈ body x [] (rules.map P) → (∃ r ∈ rules, y ∈ r) ∧ ∃ v, n = "yy_".toList ++ variant (name y) v := by
    intro n y hy
    obtain ⟨ps, hps, p, hp, -, rfl, rfl⟩ := b1 n y hy
    obtain ⟨r, hr, rfl⟩ := List.mem_map.1 hps
    have hu : p.item ∈ r := by rw [← (hP r hr).items]; exact List.mem_map_of_mem hp
    obtain ⟨v, hv⟩ := (hP r hr).shape p hp
    exact ⟨⟨r, hr, hu⟩, v, by rw [hv]; exact hfit.identifier ⟨r, hr, hu⟩ v⟩
  have hdecl : ∀ r1 ∈ rules, ∀ r2 ∈ rules, declares x (P r1) = true → declares x (P r2) = true → Ast.isList x = true → r1 = r2 := by
    intro r1 h1 r2 h2 d1 d2 hlist
    have key : ∀ r ∈ rules, declares x (P r) = true → ∀ k rs, x = .ebnf k rs → r = (if k = .repeating then Gram.ebnfRule rs else x :: Gram.ebnfRule rs) := by
      intro r hr hdr k rs hxe
      subst hxe
      have hm := hc r hr
      have hi := hP r hr
      cases k with
      | repeating =>
        rw [if_pos rfl]
        rcases List.mem_cons.1 hm with h | h
        · exact h
        · rw [List.mem_singleton] at h
          subst h
          exfalso
          have hr := hi.reps
          revert hdr hr
          generalize P (Item.ebnf .repeating rs :: Gram.ebnfRule rs) = ps
          intro hdr hr
          cases ps with
          | nil => simp at hr
          | cons p ps =>
            rw [List.map_cons, List.mapIdx_cons] at hr
            have : p.rep = true := by rw [(List.cons.inj hr).1]; simp [Ast.isRepetition, Ast.isList]
            simp [declares, this] at hdr
      | repeatZero =>
        rw [if_neg (by decide)]
        rcases List.mem_cons.1 hm with h | h
        · subst h
          exfalso
          have := List.map_eq_nil_iff.1 hi.items
          rw [this] at hdr
          simp [declares] at hdr
        · exact List.mem_singleton.1 h
      | optional => cases hlist
      | alternative => cases hlist
    match x, hlist, key with
    | .ebnf k rs, _, key => rw [key r1 h1 d1 k rs rfl, key r2 h2 d2 k rs rfl]
  have hall : Ast.isList x = false → ∀ r ∈ rules, ∀ p ∈ P r, p.counts = true := fun hlist r hr =>
    (hP r hr).counts_all (hg r hr) (fun y _ => by simp [Ast.isRepetition, hlist])
  refine ⟨b2, ?_, ?_, ?_, ?_⟩
  · rw [b5, List.countP_map, List.countP_eq_length_filter]
    refine all_eq_length (a := []) (hn.filter _) ?_
    intro r hr
    obtain ⟨hr, hany⟩ := List.mem_filter.1 hr
    have hany : (P r).any Part.counts = false := by simpa using hany
    by_contra hne
    cases hlist : Ast.isList x with
    | false =>
      have hp : P r ≠ [] := fun h => hne (by rw [← (hP r hr).items, h]; rfl)
      obtain ⟨p, ps, he⟩ := List.exists_cons_of_ne_nil hp
      have := hall hlist r hr p (by rw [he]; exact List.mem_cons_self ..)
      rw [he, List.any_cons, this] at hany
      cases hany
    | true =>
      have key : ∀ k rs, x = .ebnf k rs → r = Gram.ebnfRule rs ∨ r = x :: Gram.ebnfRule rs := by
        intro k rs hxe
        subst hxe
        have hm := hc r hr
        cases k with
        | repeating => simpa [Closure.closRules] using hm
        | repeatZero =>
          rcases List.mem_cons.1 hm with h | h
          · exact absurd h hne
          · exact Or.inr (List.mem_singleton.1 h)
        | optional => cases hlist
        | alternative => cases hlist
      match x, hlist, key, hl, hP with
      | .ebnf k rs, hlist, key, hl, hP =>
        have hne' := hl k rs rfl hlist
        rcases key k rs rfl with h | h
        · have hp : P r ≠ [] := fun h => hne (by rw [← (hP r hr).items, h]; rfl)
          obtain ⟨p, ps, he⟩ := List.exists_cons_of_ne_nil hp
          have := (hP r hr).counts_all (hg r hr) (fun y hy => Ast.ebnfRule_head (by rw [← h]; exact hy)) p (by rw [he]; exact List.mem_cons_self ..)
          rw [he, List.any_cons, this] at hany
          cases hany
        · have := (hP r hr).any_tail (hg r hr) (by rw [h, List.length_cons]; have := List.length_pos_of_ne_nil hne'; omega)
          rw [this] at hany
          cases hany
  · rw [b6, List.filter_map, List.map_map, List.map_map]
    refine List.Nodup.map_on ?_ (hn.filter _)
    intro r1 h1 r2 h2 he
    obtain ⟨h1, d1⟩ := List.mem_filter.1 h1
    obtain ⟨h2, d2⟩ := List.mem_filter.1 h2
    cases hlist : Ast.isList x with
    | true => exact hdecl r1 h1 r2 h2 d1 d2 hlist
    | false =>
      have e : ∀ r ∈ rules, ((P r).filter Part.counts).map Part.item = r := by
        intro r hr
        rw [List.filter_eq_self.2 (hall hlist r hr)]
        exact (hP r hr).items
      simp only [Function.comp] at he
      rw [e r1 h1, e r2 h2] at he
      exact map_inj_of he fun y hy z hz => hclsinj y (hxs r1 h1 y hy) z (hxs r2 h2 z hz)
  · intro ps hps hdps
    obtain ⟨r, hr, rfl⟩ := List.mem_map.1 hps
    have hu : ∀ p ∈ P r, p.item ∈ r := fun p hp => by rw [← (hP r hr).items]; exact List.mem_map_of_mem hp
    have hid : ∀ p ∈ P r, identifier p.name = "yy_".toList ++ p.name := by
      intro p hp
      obtain ⟨v, hv⟩ := (hP r hr).shape p hp
      rw [hv]
      exact hfit.identifier ⟨r, hr, hu p hp⟩ v
    constructor
    · unfold inits
      rw [List.map_map]
      refine List.Nodup.map_on ?_ (((hP r hr).names.of_map _).filter _)
      intro p hp q hq he
      have hp := (List.mem_filter.1 hp).1
      have hq := (List.mem_filter.1 hq).1
      simp only [Function.comp] at he
      rw [hid p hp, hid q hq] at he
      exact List.inj_on_of_nodup_map (hP r hr).names hp hq (List.append_cancel_left he)
    · intro q hq
      obtain ⟨p, hp, rfl⟩ := List.mem_map.1 hq
      obtain ⟨hp, hpc⟩ := List.mem_filter.1 hp
      rcases b4 (P r) hps p hp hpc with h | ⟨y, hy⟩
      · cases h
      · refine ⟨y, hy, ?_⟩
        obtain ⟨hy', v, hv⟩ := hfield _ _ hy
        obtain ⟨w, hw⟩ := (hP r hr).shape p hp
        rw [hid p hp, hw] at hv
        rw [hfit.variant hy' ⟨r, hr, hu p hp⟩ (List.append_cancel_left hv).symm]
  · intro n hn'
    obtain ⟨dd, hdd, he⟩ := List.mem_filterMap.1 hn'
    cases dd with
    | position => cases he
    | ctor _ => cases he
    | field m y =>
      cases he
      obtain ⟨hy, v, rfl⟩ := hfield _ _ hdd
      have key : ∀ z ∈ xs, "yy_".toList ++ variant (name y) v ≠ typeName ((get z d.names).getD []) := by
        intro z hz he
        obtain ⟨s, hs⟩ := hyy z hz
        rw [hs, typeName, List.append_assoc] at he
        exact hfit.type hy v s (List.append_cancel_left he)
      refine ⟨key x hx, fun m z hz => ?_⟩
      obtain ⟨⟨r, hr, hzr⟩, -⟩ := hfield _ _ hz
      exact key z (hxs r hr z hzr)

/-- `S = a b a | a*`, with the classes for `S` and for the list. -/
def okRules : List (List Item) := [[ta, tb, ta], [stars]]

theorem okFit : Fit vName (fun y => ∃ r ∈ okRules, y ∈ r) := by
  have h : ∀ y, (∃ r ∈ okRules, y ∈ r) → y = ta ∨ y = tb ∨ y = stars := by
    rintro y ⟨r, hr, hy⟩
    simp only [okRules, List.mem_cons, List.not_mem_nil, or_false] at hr
    rcases hr with rfl | rfl <;> simp only [List.mem_cons, List.not_mem_nil, or_false] at hy <;> tauto
  have ea : vName ta = ['a'] := by decide +kernel
  have eb : vName tb = ['b'] := by decide +kernel
  have es : vName stars = "list_of_a".toList := by decide +kernel
  refine ⟨?_, ?_, ?_, ?_, ?_⟩
  · intro y hy
    rcases h y hy with rfl | rfl | rfl
    · rw [ea]; unfold IdChar; decide
    · rw [eb]; unfold IdChar; decide
    · rw [es]; unfold IdChar; decide
  · intro y hy
    rcases h y hy with rfl | rfl | rfl
    · rw [ea]; decide
    · rw [eb]; decide
    · rw [es]; decide
  · intro y z hy hz
    rcases h y hy with rfl | rfl | rfl <;> rcases h z hz with rfl | rfl | rfl <;> (try simp only [ea, eb, es]) <;> decide
  · intro y z hy hz k he
    have hlast : (vName y).getLast? = (decimal k).getLast? := by
      obtain ⟨c, l, hl⟩ := List.exists_cons_of_ne_nil (decimal_ne_nil k)
      rw [he, List.getLast?_append, hl, List.getLast?_cons_cons, List.getLast?_cons]
      rfl
    have hd : ∀ c, (vName y).getLast? = some c → isDigit c = true := fun c hc => decimal_digits k c (List.mem_of_getLast? (by rw [← hlast]; exact hc))
    rcases h y hy with rfl | rfl | rfl
    · exact absurd (hd 'a' (by rw [ea]; rfl)) (by decide)
    · exact absurd (hd 'b' (by rw [eb]; rfl)) (by decide)
    · exact absurd (hd 'a' (by rw [es]; rfl)) (by decide)
  · intro y hy s he
    have hlast : (vName y).getLast? = some 'n' := by rw [he]; simp
    rcases h y hy with rfl | rfl | rfl
    · rw [ea] at hlast; revert hlast; decide
    · rw [eb] at hlast; revert hlast; decide
    · rw [es] at hlast; revert hlast; decide

/-- The class for `S` has the members `yy_a`, `yy_b`, `yy_a_2`, `yy_list_of_a`, and two constructors. -/
example : body nS [] (rulesOf vName nS okRules) = [.field "yy_a".toList ta, .field "yy_b".toList tb, .field "yy_a_2".toList ta, .ctor [ta, tb, ta],
    .field "yy_list_of_a".toList stars, .ctor [stars]] := by decide +kernel

theorem ok_class : ClassOk (clsOf vName vItems) nS (rulesOf vName nS okRules) := by
  have hd : ∃ d, assign vName 50 ⟨[], fixed⟩ vItems = some d := Option.isSome_iff_exists.1 (by decide +kernel)
  obtain ⟨d, hd⟩ := hd
  have := class_members_partial (x := nS) (rules := okRules) (fuel := 50) ⟨fun _ => okRules⟩ _ _ hd (by decide) (by decide) (by decide) (by decide)
    (by rintro k rs h; cases h) (by decide) okFit (by decide)
  have e : (fun y => (get y d.names).getD []) = clsOf vName vItems := by
    funext y
    unfold clsOf
    rw [hd]
    rfl
  rw [e] at this
  exact this

end Names
end TameParse

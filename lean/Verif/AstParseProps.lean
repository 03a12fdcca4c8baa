import Verif.AstProps
import Verif.CompleteExample

/-!
# C66: generated parsers

Guards are only looked for in front of a token, so the generated `shift` always has a lexeme.
-/

namespace TameParse
namespace Ast

open AssocMap Closure Lalr TameParse.Parser ParserTables Sound

section
variable {g : Gram} {num : Numbering} {m : Mach} {occ : Item → Prop} {ig : Int → Prop} {strong : Int → Int → Prop} {t : Tables}

/-- Every leaf on the stack has a token. -/
def Full (l : List (Nat × Tree)) : Prop := ∀ e ∈ l, atEnd e.2 = false

theorem popStack_sub (l : List (Nat × Tree)) : ∀ e ∈ popStack l, e ∈ l := by
  intro e he
  unfold popStack at he
  split at he
  · exact List.mem_cons_of_mem _ he
  · exact he

theorem popItems_full : ∀ (n : Nat) {l : List (Nat × Tree)} {items : List Tree} {p : List Tree × List (Nat × Tree)}, popItems n l items = .ok p → Full l → anyAtEnd items = false →
    anyAtEnd p.1 = false ∧ Full p.2
  | 0, _, _, _, h, hl, hi => by
    unfold popItems at h
    cases h
    exact ⟨hi, hl⟩
  | n + 1, l, items, p, h, hl, hi => by
    unfold popItems at h
    obtain ⟨e, he, h⟩ := bind_ok h
    refine popItems_full n h (fun e' he' => hl e' (popStack_sub l e' he')) ?_
    rw [anyAtEnd_eq, List.any_append, ← anyAtEnd_eq, hi]
    have := hl e (List.mem_of_mem_head? (orUb_ok he))
    simp [this]

theorem perform_full {la : Option Tok} {a : TableAction} {s : PState} {r : Bool × PState} (h : perform (standard t) t la a s = .ok r)
    (hla : la.isSome = true ∨ a.type ≠ .shift ∧ a.type ≠ .divert) (hs : Full s.stack) : Full r.2.stack := by
  have hshift : ∀ (k : Tok) (n : Nat), Full ((n, .leaf (some k)) :: s.stack) := by
    intro k n e he
    rcases List.mem_cons.1 he with rfl | he
    · rfl
    · exact hs e he
  unfold perform at h
  cases hty : a.type <;> rw [hty] at h
  case shift =>
    cases h
    rcases hla with hla | ⟨hla, -⟩
    · obtain ⟨k, rfl⟩ := Option.isSome_iff_exists.1 hla
      exact hshift k _
    · exact absurd hty hla
  case shiftstrong =>
    obtain ⟨k, hk, h⟩ := bind_ok h
    obtain ⟨n, hn, h⟩ := bind_ok h
    cases h
    exact hshift _ _
  case divert =>
    cases h
    rcases hla with hla | ⟨-, hla⟩
    · obtain ⟨k, rfl⟩ := Option.isSome_iff_exists.1 hla
      exact hshift k _
    · exact absurd hty hla
  case ignore => cases h; exact hs
  case guard => cases h; exact hs
  case goto =>
    obtain ⟨s', hs', h⟩ := bind_ok h
    cases h
    simp only [standard] at hs'
    cases hst : s.stack with
    | nil => rw [hst] at hs'; cases hs'
    | cons e l =>
      rw [hst] at hs' hs
      cases hs'
      intro e' he'
      rcases List.mem_cons.1 he' with rfl | he'
      · exact hs e (List.mem_cons_self ..)
      · exact hs e' (List.mem_cons_of_mem _ he')
  all_goals
    obtain ⟨rr, -, h⟩ := bind_ok h
    obtain ⟨s', hs', h⟩ := bind_ok h
    cases h
    simp only [standard] at hs'
    obtain ⟨p, hp, hs'⟩ := bind_ok hs'
    obtain ⟨top, -, hs'⟩ := bind_ok hs'
    obtain ⟨go, -, hs'⟩ := bind_ok hs'
    obtain ⟨h1, h2⟩ := popItems_full _ hp hs rfl
    cases go with
    | none => cases hs'; exact h2
    | some n =>
      cases hs'
      intro e he
      rcases List.mem_cons.1 he with rfl | he
      · exact h1
      · exact h2 e he

theorem guardPerform_full {k : Tok} {sym : Int} : ∀ (fuel : Nat) {s s' : PState}, guardPerform (standard t) t (some k) sym fuel s = .ok s' → Full s.stack → Full s'.stack
  | 0, _, _, h, _ => by cases h
  | fuel + 1, s, s', h, hs => by
    unfold guardPerform at h
    obtain ⟨st, -, h⟩ := bind_ok h
    obtain ⟨acts, -, h⟩ := bind_ok h
    obtain ⟨ch, -, h⟩ := bind_ok h
    cases ch with
    | none => cases h; exact hs
    | some a =>
      obtain ⟨r, hr, h⟩ := bind_ok h
      have h1 := perform_full hr (Or.inl rfl) hs
      split at h
      · cases h; exact h1
      · exact guardPerform_full fuel h h1

theorem processGuard_full {k : Tok} {sym : Int} {fuel : Nat} {s s' : PState} (h : processGuard (standard t) t fuel (some k) sym s = .ok (some s')) (hs : Full s.stack) : Full s'.stack := by
  unfold processGuard at h
  obtain ⟨st, -, h⟩ := bind_ok h
  obtain ⟨acts, -, h⟩ := bind_ok h
  obtain ⟨q, -, h⟩ := bind_ok h
  cases q with
  | false => cases h
  | true =>
    obtain ⟨s1, h1, h⟩ := bind_ok h
    cases h
    exact guardPerform_full _ h1 hs

theorem next_stack {s s' : PState} (h : next s = .ok s') : s'.stack = s.stack := by
  unfold next at h
  split at h
  · cases h
  · cases h; rfl

theorem processActions_full {fuel : Nat} {la : Option Tok} {sym : Int} {term : Bool} {s : PState} (hs : Full s.stack) {r : Result × PState} :
    ∀ (l : List TableAction), (la.isSome = true ∨ ∀ a ∈ l, a.type ≠ .shift ∧ a.type ≠ .divert ∧ a.type ≠ .guard) →
      processActions t fuel la sym term s l = .ok r → Full r.2.stack
  | [], _, h => by cases h; exact hs
  | a :: l, hl, h => by
    have ih : processActions t fuel la sym term s l = .ok r → Full r.2.stack :=
      processActions_full hs l (hl.imp id (fun h b hb => h b (List.mem_cons_of_mem _ hb)))
    have hp : la.isSome = true ∨ a.type ≠ .shift ∧ a.type ≠ .divert := hl.imp id (fun h => ⟨(h a (List.mem_cons_self ..)).1, (h a (List.mem_cons_self ..)).2.1⟩)
    unfold processActions at h
    split at h
    · obtain ⟨q, -, h⟩ := bind_ok h
      cases q with
      | true =>
        obtain ⟨x, hx, h⟩ := bind_ok h
        cases h
        exact perform_full hx hp hs
      | false => exact ih h
    · split at h
      case isTrue hg =>
        obtain ⟨gs, -, h⟩ := bind_ok h
        split at h
        · exact ih h
        · obtain ⟨o, ho, h⟩ := bind_ok h
          cases o with
          | none => exact ih h
          | some s' =>
            cases h
            rcases hl with hla | hl
            · obtain ⟨k, rfl⟩ := Option.isSome_iff_exists.1 hla
              exact processGuard_full ho hs
            · exact absurd hg (hl a (List.mem_cons_self ..)).2.2
      case isFalse =>
        split at h
        · cases h; exact hs
        · obtain ⟨x, hx, h⟩ := bind_ok h
          have h1 := perform_full hx hp hs
          split at h
          · obtain ⟨s2, h2, h⟩ := bind_ok h
            cases h
            show Full s2.stack
            rw [next_stack h2]
            exact h1
          · cases h; exact h1

theorem process_full (ht : Tab g num m occ ig strong t) {fuel : Nat} {s : PState} {r : Result × PState} (h : process t fuel s = .ok r) (hs : Full s.stack) : Full r.2.stack := by
  unfold process at h
  obtain ⟨st, -, h⟩ := bind_ok h
  split at h
  · obtain ⟨l, -, h⟩ := bind_ok h
    exact processActions_full hs l (Or.inl rfl) h
  · obtain ⟨l, hl, h⟩ := bind_ok h
    refine processActions_full hs l (Or.inr fun e he => ?_) h
    obtain ⟨a, hall, hnum, hnt, hid, hmean⟩ := ht.nonterm st _ l hl e he
    rw [ht.eoi] at hid
    have hitem : a.item = .eoi := ht.inj _ _ (hnum.1 hnt) ht.occEoi hid
    have hty : e.type = a.type := congrArg Prod.fst hmean
    rw [hty]
    cases hall with
    | reduce hr => rcases hr with rfl | rfl <;> exact ⟨nofun, nofun, nofun⟩
    | accept => exact ⟨nofun, nofun, nofun⟩
    | goto _ _ _ h3 => exact absurd hitem h3
    | _ => cases hitem

theorem parse_full (ht : Tab g num m occ ig strong t) : ∀ (fuel : Nat) {s : PState} {r : Bool × PState}, parse t fuel s = .ok r → Full s.stack → Full r.2.stack
  | 0, _, _, h, _ => by cases h
  | fuel + 1, s, r, h, hs => by
    unfold parse at h
    obtain ⟨q, hq, h⟩ := bind_ok h
    have h1 := process_full ht hq hs
    split at h
    · exact parse_full ht fuel h h1
    · cases h; exact h1
    · cases h; exact h1

end

section
variable {first initial : Item → List Item} {g : Gram} {okI : Item → Prop} {okR : Rule → Prop} {rid : Rule → Nat} {clos : LItem → List Item → Set1}
  {own : LItem → Set1} {lt : Key → Key → Bool} {languages : List Item} {m m' : Mach} {st : Stage} {states : List (List LrAction)} {num : Numbering}
  {sort : List TableAction → List TableAction} {sortWeak : List (Int × Int) → List (Int × Int)} {occ : Item → Prop}

/-- C66. When the generated parser of a grammar accepts an input, its actions have made a well-formed syntax tree for the start symbol: no
pointer was cast to a class that the object does not have, and the lexemes of the tree are those that were read, in order. -/
theorem generated_tree (h : Made first initial g okI okR rid clos own lt languages m m' st states num sort sortWeak occ) {d : Gen} {ok : Item → Prop}
    (hf : Fits d g num ok) (hterm : ∀ n : Int, ok (.terminal n) → 0 ≤ n ∧ n < d.terminals) {k0 : Nat} {start : Item} (hk : k0 < (Lalr.initials languages).states.length)
    (hS : kern m k0 = [startItem start]) (hs : ok start) (hg : isGuard start = false) {input : List Tok} {pf : Nat} {s' : PState}
    (hp : parse (ParserTables.build num sort sortWeak states (some st.weak.strongToWeak)) pf (Parser.start k0 input) = .ok (true, s')) :
    ∃ st' τ w n, s'.stack = [(st', τ), (k0, .nothing)] ∧ Read (fun n => .terminal n ∈ st.ignored) (StrongOf st.weak) input w ∧
      Ast.build d τ = .ok n ∧ Typed g num (.items [start]) [n] w ∧ n.lexemes = w := by
  obtain ⟨st', τ, w, h1, h2, h3⟩ := generated_tree_partial hf (h.sound hk hS hp) hs hterm hg
  have hfull : Full s'.stack := parse_full h.tab pf hp (fun e he => by
    have he : e ∈ [(k0, Tree.nothing)] := he
    rw [List.mem_singleton.1 he]
    rfl)
  obtain ⟨n, h4, h5, h6⟩ := h3 (hfull (st', τ) (by rw [h1]; exact List.mem_cons_self ..))
  exact ⟨st', τ, w, n, h1, h2, h4, h5, h6⟩

end

/-! A grammar with lists and an option -/

/-- `(a b)*`. -/
def pairs : Item := .ebnf .repeatZero [[.terminal 0, .terminal 1]]
/-- `c?`. -/
def maybe : Item := .ebnf .optional [[.terminal 2]]
/-- `e+`. -/
def many : Item := .ebnf .repeating [[.terminal 4]]

/-- `S → (a b)* d c? e+`. -/
def listEx : Ex where
  g := ⟨fun n => if n = 5 then [[pairs, .terminal 3, maybe, many]] else []⟩
  items := [.nonterminal 5, pairs, maybe, many, .terminal 0, .terminal 1, .terminal 2, .terminal 3, .terminal 4]
  rules := [⟨.empty, [.nonterminal 5]⟩, ⟨.nonterminal 5, [pairs, .terminal 3, maybe, many]⟩, ⟨pairs, []⟩, ⟨pairs, [pairs, .terminal 0, .terminal 1]⟩, ⟨maybe, []⟩,
    ⟨maybe, [.terminal 2]⟩, ⟨many, [.terminal 4]⟩, ⟨many, [many, .terminal 4]⟩]
  start := .nonterminal 5
  fuel := 100

theorem listEx_ok : listEx.Ok where
  items := by decide +kernel
  closed := by decide +kernel
  prods := by decide +kernel
  rules := by decide +kernel
  start := by decide +kernel
  first := by decide +kernel
  mach := by decide +kernel
  full := by decide +kernel
  size := by decide +kernel
  actions := by decide +kernel
  ignored := by decide +kernel
  numRules := by decide +kernel
  next := by decide +kernel
  back := by decide +kernel

/-- What the output stage knows of the grammar. -/
def listGen : Gen := ⟨5, fun n => listEx.rules.find? fun r => decide ((numRule r : Int) = n), fun r => (numRule r : Int)⟩

theorem listEx_fits : Fits listGen listEx.g listEx.num (· ∈ listEx.items) where
  closed := fun x hx r hr => listEx_ok.rules _ (listEx_ok.closed x hx r hr)
  rule := by decide +kernel
  ruleId := fun _ _ _ _ => rfl
  plus := by
    intro rs h
    have : ∀ y ∈ listEx.items, (match y with | .ebnf .repeating rs => !(Gram.ebnfRule rs).isEmpty | _ => true) = true := by decide +kernel
    have := this _ h
    dsimp only at this
    intro he
    rw [he] at this
    cases this

/-- Whatever the generated parser of `listEx` accepts, it makes a well-formed tree of. -/
theorem listEx_tree {input : List Tok} {pf : Nat} {s' : PState} (hp : parse listEx.tables pf (Parser.start 0 input) = .ok (true, s')) :
    ∃ st τ w n, s'.stack = [(st, τ), (0, .nothing)] ∧ Read (fun _ => False) (fun _ _ => False) input w ∧ Ast.build listGen τ = .ok n ∧
      Typed listEx.g listEx.num (.items [.nonterminal 5]) [n] w ∧ n.lexemes = w := by
  obtain ⟨m, m', hm, hm', hmade⟩ := Ex.made listEx_ok
  obtain ⟨h0, hk⟩ := Ex.start_kernel listEx_ok hm
  obtain ⟨st, τ, w, n, h1, h2, h3⟩ := generated_tree hmade listEx_fits (by
    have : ∀ y ∈ listEx.items, (match y with | .terminal n => decide (0 ≤ n ∧ n < listGen.terminals) | _ => true) = true := by decide +kernel
    exact fun n hn => of_decide_eq_true (this _ hn)) h0 hk (by decide +kernel) rfl hp
  refine ⟨st, τ, w, n, h1, ?_, h3⟩
  have e1 : (fun n => Item.terminal n ∈ listEx.stage.ignored) = fun _ => False := by
    funext n
    simp [listEx, Ex.stage]
  have e2 : StrongOf listEx.stage.weak = fun _ _ => False := by
    funext a b
    simp [listEx, Ex.stage, StrongOf]
  rw [e1, e2] at h2
  exact h2

/-- The tree for `a b a b d e e`: two pairs, nothing for the option, two `e`. -/
example : (match parse listEx.tables 60 (Parser.start 0 [⟨0, 10⟩, ⟨1, 11⟩, ⟨0, 12⟩, ⟨1, 13⟩, ⟨3, 14⟩, ⟨4, 15⟩, ⟨4, 16⟩]) with
    | .ok (true, ⟨(_, τ) :: _, _⟩) =>
      match Ast.build listGen τ with
      | .ok (.object (.item (.nonterminal 5)) _ [.list _ [.object _ _ [.term _ a, .term _ b], .object _ _ [.term _ c, .term _ d]], .term _ e, .object (.item _) _ [],
          .list _ [.object _ _ [.term _ f], .object _ _ [.term _ g]]]) => decide ([a, b, c, d, e, f, g].map (·.text) = [10, 11, 12, 13, 14, 15, 16])
      | _ => false
    | _ => false) = true := by decide +kernel

/-- C66 is violated for a `+` list that repeats nothing: the generator itself reads the first item of a rule that has none, so no code is
written for this rule. -/
theorem generated_plus_violated (d : Gen) (rs : List (List Item)) (h : Gram.ebnfRule rs = []) (id : Int) (hd : d.rule id = some ⟨.ebnf .repeating rs, Gram.ebnfRule rs⟩) (n : Int) :
    Gram.ebnfRule rs ∈ closRules ⟨fun _ => []⟩ (.ebnf .repeating rs) ∧ Ast.build d (.node n id []) = .error .ub := by
  refine ⟨List.mem_cons_self .., ?_⟩
  show reduce d id [] = _
  unfold reduce
  rw [hd, h]
  rfl

end Ast
end TameParse

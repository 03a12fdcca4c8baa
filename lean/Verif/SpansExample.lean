import Verif.SpansTreeProps

/-!
# C93: examples
-/

namespace TameParse
namespace Spans

open AssocMap Closure Lalr TameParse.Parser ParserTables Ast Sound

/-- Lexeme `n` is the character at offset `n` of a line. -/
def chars : Places := ⟨fun n => (n, 0, n), fun n => (n + 1, 0, n + 1)⟩

/-- The tree of an accepted input. -/
def treeOf (t : Tables) (input : List Tok) : Option Noted :=
  match parseNoted t 60 (startNoted 0 input) with
  | .ok (true, s) => s.stack.head?.map (·.2)
  | _ => none

/-- The children of a node, in order. -/
def childrenOf : Noted → List Noted
  | .node _ _ cs _ => cs.reverse
  | _ => []

/-- `pos` and `final_pos` of the object that is made of the tree. -/
def at' (d : Gen) (t : Option Noted) : Option (Pos × Pos) :=
  match t.map (span d chars) with
  | some (.ok s) => some (s.start, s.final)
  | _ => none

/-- The positions in whatever the generated parser of `listEx` accepts. -/
theorem listEx_positions {input : List Tok} {pf : Nat} {s' : NState} (hp : parseNoted listEx.tables pf (startNoted 0 input) = .ok (true, s')) (p : Places) :
    ∃ st' τ w, s'.stack = [(st', τ), (0, .nothing)] ∧
      ∀ part, Within part τ → ∃ before v after n s, w = before ++ v ++ after ∧ Ast.build listGen part.erase = .ok n ∧ span listGen p part = .ok s ∧ n.lexemes = v ∧
        s.start = startAt p (begins n) v (after.head?.map (·.text)) ∧ FinalAt p v (after.head?.map (·.text)) s.final (ends n) := by
  obtain ⟨m, m', hm, hm', hmade⟩ := Ex.made listEx_ok
  obtain ⟨h0, hk⟩ := Ex.start_kernel listEx_ok hm
  obtain ⟨-, st, τ, w, h1, -, h2⟩ := positions_partial hmade listEx_fits (by
    have : ∀ y ∈ listEx.items, (match y with | .terminal n => decide (0 ≤ n ∧ n < listGen.terminals) | _ => true) = true := by decide +kernel
    exact fun n hn => of_decide_eq_true (this _ hn)) (by decide +kernel) (by
    have : ∀ x ∈ listEx.items, (match x with | .ebnf k rs => (Gram.ebnfRule rs).all (fun y => !sameKind (.ebnf k rs) y) | _ => true) = true := by decide +kernel
    intro k rs hx y hy
    have h := this _ hx
    dsimp only at h
    rw [List.all_eq_true] at h
    simpa using h y hy) h0 hk (by decide +kernel) hp p
  exact ⟨st, τ, w, h1, h2⟩

/-- `a b d e e`: the whole, the list of pairs, `d`, the option (in front of the first `e`), and the list of `e`. -/
example : at' listGen (treeOf listEx.tables [⟨0, 10⟩, ⟨1, 11⟩, ⟨3, 14⟩, ⟨4, 15⟩, ⟨4, 16⟩]) = some ((10, 0, 10), (17, 0, 17)) ∧
    ((treeOf listEx.tables [⟨0, 10⟩, ⟨1, 11⟩, ⟨3, 14⟩, ⟨4, 15⟩, ⟨4, 16⟩]).elim [] childrenOf).map (at' listGen ∘ some) =
      [some ((10, 0, 10), (12, 0, 12)), some ((14, 0, 14), (15, 0, 15)), some ((15, 0, 15), (15, 0, 15)), some ((15, 0, 15), (17, 0, 17))] := by decide +kernel

/-- C93 is violated for an object that begins with an empty list: in `d e` the statement begins at offset 14, but its `pos` is (0, 0, 0). -/
theorem empty_list_violated : at' listGen (treeOf listEx.tables [⟨3, 14⟩, ⟨4, 15⟩]) = some ((0, 0, 0), (16, 0, 16)) := by decide +kernel

/-- `S → T d`, `T → a c?`. -/
def tailEx : Ex where
  g := ⟨fun n => if n = 5 then [[.nonterminal 6, .terminal 3]] else if n = 6 then [[.terminal 0, maybe]] else []⟩
  items := [.nonterminal 5, .nonterminal 6, maybe, .terminal 0, .terminal 2, .terminal 3]
  rules := [⟨.empty, [.nonterminal 5]⟩, ⟨.nonterminal 5, [.nonterminal 6, .terminal 3]⟩, ⟨.nonterminal 6, [.terminal 0, maybe]⟩, ⟨maybe, []⟩, ⟨maybe, [.terminal 2]⟩]
  start := .nonterminal 5
  fuel := 100

theorem tailEx_ok : tailEx.Ok where
  items := by decide +kernel
  closed := by decide +kernel
  prods := by decide +kernel
  rules := by decide +kernel
  start := by decide +kernel
  first := by decide +kernel
  mach := by decide +kernel
  full := by decide +kernel
  size := by decide +kernel
  actions := by decide +kernel
  ignored := by decide +kernel
  numRules := by decide +kernel
  next := by decide +kernel
  back := by decide +kernel

/-- What the output stage knows of a grammar. -/
def genOf (e : Ex) : Gen := ⟨5, fun n => e.rules.find? fun r => decide ((numRule r : Int) = n), fun r => (numRule r : Int)⟩

/-- C93 is violated for an object that ends with an option that is not there: in `a d` with `d` at offset 20 the object for `T` begins at 10 and `a` ends at 11, but its
`final_pos` is where `d` begins. -/
theorem absent_option_violated : ((treeOf tailEx.tables [⟨0, 10⟩, ⟨3, 20⟩]).elim [] childrenOf).map (at' (genOf tailEx) ∘ some) =
    [some ((10, 0, 10), (20, 0, 20)), some ((20, 0, 20), (21, 0, 21))] := by decide +kernel

/-- `a*`. -/
def inner : Item := .ebnf .repeatZero [[.terminal 0]]
/-- `(a* b)*`. -/
def outer : Item := .ebnf .repeatZero [[inner, .terminal 1]]

/-- `S → d (a* b)*`. -/
def nestEx : Ex where
  g := ⟨fun n => if n = 5 then [[.terminal 3, outer]] else []⟩
  items := [.nonterminal 5, inner, outer, .terminal 0, .terminal 1, .terminal 3]
  rules := [⟨.empty, [.nonterminal 5]⟩, ⟨.nonterminal 5, [.terminal 3, outer]⟩, ⟨outer, []⟩, ⟨outer, [outer, inner, .terminal 1]⟩, ⟨inner, []⟩, ⟨inner, [inner, .terminal 0]⟩]
  start := .nonterminal 5
  fuel := 100

theorem nestEx_ok : nestEx.Ok where
  items := by decide +kernel
  closed := by decide +kernel
  prods := by decide +kernel
  rules := by decide +kernel
  start := by decide +kernel
  first := by decide +kernel
  mach := by decide +kernel
  full := by decide +kernel
  size := by decide +kernel
  actions := by decide +kernel
  ignored := by decide +kernel
  numRules := by decide +kernel
  next := by decide +kernel
  back := by decide +kernel

/-- C93 is violated for lists in lists of the same kind: in `d a b` the list begins with `a` at offset 10, but its `pos` is that of `b`. -/
theorem nested_list_violated : ((treeOf nestEx.tables [⟨3, 9⟩, ⟨0, 10⟩, ⟨1, 11⟩]).elim [] childrenOf).map (at' (genOf nestEx) ∘ some) =
    [some ((9, 0, 9), (10, 0, 10)), some ((11, 0, 11), (12, 0, 12))] := by decide +kernel

end Spans
end TameParse

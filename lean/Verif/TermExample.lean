import Verif.TermGrammarProps
import Verif.CompleteExample

/-!
# Instances of C37
-/

namespace TameParse
namespace Sound

open AssocMap Closure Relation Lalr TameParse.Parser ParserTables

theorem pointer_simple : pointerGram.Simple (· ∈ pItems) pointerRank := simple_of_ranks (by decide +kernel) (by decide +kernel) (by decide +kernel)

theorem pointerEx_sound : ∀ y ∈ pointerEx.items, pointerEx.g.FirstSound y (pointerEx.first y) := by
  intro y hy
  have hsome : ∀ y ∈ pointerEx.items, (pointerEx.g.first 60 [] y).isSome = true := by decide +kernel
  obtain ⟨⟨c, s⟩, h⟩ := Option.isSome_iff_exists.1 (hsome y hy)
  have := Gram.first_sound_partial _ pointer_simple.closed pointer_simple.ebnfSound 60 [] (by simp) [] c y s rfl hy h
  have he : pointerEx.first y = s := by
    unfold Ex.first
    have h' : pointerEx.g.first pointerEx.fuel [] y = some (c, s) := h
    rw [h']
    rfl
  rw [he]
  exact this

/-- C37 for the grammars of `Ex`. -/
theorem Ex.total {x : Ex} (h : x.Ok) (hs : x.start ∈ x.items) (hp : x.precs = []) (hw : x.weak.strongToWeak = []) (hf : ∀ y ∈ x.items, x.g.FirstComplete y (x.first y)) (hsd : ∀ y ∈ x.items, x.g.FirstSound y (x.first y))
    (hcon : ∀ acts ∈ x.states, Rewriters.findConflicts (fun _ => true) acts = [])
    (hacc : ∀ acts ∈ x.states, ∀ b ∈ acts, ∀ c ∈ acts, b.type = .accept → c.item = .eoi → c.type ≠ .reduce) (input : List Tok) :
    ∃ fuel b s', parse x.tables fuel (Parser.start 0 input) = .ok (b, s') ∧
      (b = true ↔ x.g.Derives [x.start] ((input.filter (fun k => decide (.terminal k.sym ∉ x.ignored))).map (fun k => .terminal k.sym))) := by
  obtain ⟨m, m', hm, hm', hmade⟩ := made h
  obtain ⟨h0, hk⟩ := start_kernel h hm
  exact parser_total_partial (involved := fun _ _ => true) (U := x.items) hmade (bare hp hw) (plain h) hf hsd (fun _ h => h) (fun _ _ _ => rfl)
    (fun s acts hs => hcon acts (List.mem_of_getElem? hs)) (fun s acts hs => hacc acts (List.mem_of_getElem? hs)) h0 hk hs input

/-- The parser of `pointerGram` decides about every input. -/
theorem pointer_total (input : List Tok) : ∃ fuel b s', parse pointerEx.tables fuel (Parser.start 0 input) = .ok (b, s') ∧
    (b = true ↔ pointerGram.Derives [.nonterminal 1] ((input.filter (fun k => decide (.terminal k.sym ∉ [Item.terminal 9]))).map (fun k => .terminal k.sym))) :=
  Ex.total pointerEx_ok (by decide +kernel) rfl rfl pointerEx_first pointerEx_sound (by decide +kernel) (by decide +kernel) input

/-! A parser that does not come to an end -/

/-- `S → S | a`. -/
def loopEx : Ex where
  g := ⟨fun n => if n = 1 then [[.nonterminal 1], [.terminal 1]] else []⟩
  items := [.nonterminal 1, .terminal 1]
  rules := [⟨.empty, [.nonterminal 1]⟩, ⟨.nonterminal 1, [.nonterminal 1]⟩, ⟨.nonterminal 1, [.terminal 1]⟩]
  start := .nonterminal 1
  fuel := 60

theorem loopEx_ok : loopEx.Ok where
  items := by decide +kernel
  closed := by decide +kernel
  prods := by decide +kernel
  rules := by decide +kernel
  start := by decide +kernel
  first := by decide +kernel
  mach := by decide +kernel
  full := by decide +kernel
  size := by decide +kernel
  actions := by decide +kernel
  ignored := by decide +kernel
  numRules := by decide +kernel
  next := by decide +kernel
  back := by decide +kernel

/-- In the state `top` the parser reduces by a rule with one item, and goes from the state 0 to `dst`. -/
def reducesOne (t : Tables) (top dst : Nat) : Bool :=
  match entriesFor t false top t.endOfInput with
  | .ok (e :: _) => decide (e.type = .reduce) && match rule t e.nextState with
    | some r => decide (r.length = 1) && match gotoFor t 0 r.identifier with
      | .ok (some s) => decide (s = dst)
      | _ => false
    | none => false
  | _ => false

theorem goes_one {t : Tables} {top dst : Nat} (h : reducesOne t top dst = true) (τ : Tree) :
    ∃ τ', Goes t ⟨[(top, τ), (0, .nothing)], []⟩ ⟨[(dst, τ'), (0, .nothing)], []⟩ := by
  unfold reducesOne at h
  split at h
  · rename_i e l h1
    rw [Bool.and_eq_true, decide_eq_true_eq] at h
    obtain ⟨h2, h⟩ := h
    split at h
    · rename_i r h3
      rw [Bool.and_eq_true, decide_eq_true_eq] at h
      obtain ⟨h4, h⟩ := h
      split at h
      · rename_i s h5
        rw [decide_eq_true_eq] at h
        subst h
        refine ⟨.node r.identifier r.ruleId [τ], fun fuel => ?_⟩
        simp [process, standard, orUb, bind, Except.bind, h1, processActions, h2, perform, h3, h4, popItems, popStack, h5, pure, Except.pure]
      · cases h
    · cases h
  · cases h

/-- In the state 0 the parser shifts the token and goes to `dst`. -/
def shiftsOne (t : Tables) (n : Int) (dst : Nat) : Bool :=
  match entriesFor t true 0 n with
  | .ok (e :: _) => decide (e.type = .shift) && decide (e.nextState = dst)
  | _ => false

theorem goes_first {t : Tables} {k : Tok} {dst : Nat} (h : shiftsOne t k.sym dst = true) :
    Goes t (Parser.start 0 [k]) ⟨[(dst, .leaf (some k)), (0, .nothing)], []⟩ := by
  unfold shiftsOne at h
  split at h
  · rename_i e l h1
    rw [Bool.and_eq_true, decide_eq_true_eq, decide_eq_true_eq] at h
    obtain ⟨h2, h3⟩ := h
    intro fuel
    simp [Parser.start, process, standard, orUb, bind, Except.bind, h1, processActions, h2, perform, next, h3, pure, Except.pure]
  · cases h

theorem parse_step {t : Tables} {s s' : PState} (h : Goes t s s') (hp : ∀ fuel, parse t fuel s' = .error .fuel) (fuel : Nat) : parse t fuel s = .error .fuel := by
  cases fuel with
  | zero => rfl
  | succ f =>
    unfold parse
    rw [h f]
    exact hp f

theorem parse_loop {t : Tables} {top : Nat} (h : reducesOne t top top = true) : ∀ (fuel : Nat) (τ : Tree), parse t fuel ⟨[(top, τ), (0, .nothing)], []⟩ = .error .fuel
  | 0, _ => rfl
  | f + 1, τ => by
    obtain ⟨τ', hgo⟩ := goes_one h τ
    unfold parse
    rw [hgo f]
    exact parse_loop h f τ'

/-- C37 is violated: no conflict is reported for `S → S | a`, but the parser does not come to an end on the sentence `a`. With `S` on the stack and nothing left
to read it can accept or reduce by `S → S`, and the reduction comes first in the tables. -/
theorem terminates_violated : loopEx.Ok ∧ (∀ involved, ∀ acts ∈ loopEx.states, Rewriters.findConflicts involved acts = []) ∧
    loopEx.g.Derives [loopEx.start] [.terminal 1] ∧ ∀ (c : Nat) (fuel : Nat), parse loopEx.tables fuel (Parser.start 0 [⟨1, c⟩]) = .error .fuel := by
  refine ⟨loopEx_ok, fun involved acts ha => Ex.no_conflicts (?_ : Rewriters.findConflicts (fun _ => true) acts = []) involved, ?_, ?_⟩
  · revert acts
    decide +kernel
  · exact ReflTransGen.single ⟨[], .nonterminal 1, [], [.terminal 1], rfl, by decide +kernel, rfl⟩
  · intro c
    have h1 : reducesOne loopEx.tables 1 2 = true := by decide +kernel
    have h2 : reducesOne loopEx.tables 2 2 = true := by decide +kernel
    obtain ⟨τ, hgo⟩ := goes_one h1 (.leaf (some ⟨1, c⟩))
    have h0 : shiftsOne loopEx.tables 1 1 = true := by decide +kernel
    exact parse_step (goes_first (k := ⟨1, c⟩) h0) (parse_step hgo fun fuel => parse_loop h2 fuel τ)

end Sound
end TameParse

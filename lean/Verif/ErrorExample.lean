import Verif.ErrorProps
import Verif.TermExample

/-!
# Instances of C84 and C85
-/

namespace TameParse
namespace Sound

open AssocMap Closure Relation Lalr TameParse.Parser ParserTables

/-- C84 for the grammars of `Ex`. -/
theorem Ex.error {x : Ex} (h : x.Ok) (hs : x.start ∈ x.items) (hp : x.precs = []) (hw : x.weak.strongToWeak = []) (hf : ∀ y ∈ x.items, x.g.FirstComplete y (x.first y))
    (hprod : Productive x.g (· ∈ x.items)) (hcon : ∀ acts ∈ x.states, Rewriters.findConflicts (fun _ => true) acts = [])
    (hacc : ∀ acts ∈ x.states, ∀ b ∈ acts, ∀ c ∈ acts, b.type = .accept → c.item = .eoi → c.type ≠ .reduce) {input : List Tok} {fuel : Nat} {s' : PState}
    (hp : parse x.tables fuel (Parser.start 0 input) = .ok (false, s')) :
    ∃ used, used ++ s'.input = input ∧
      (∃ v : List Int, x.g.Derives [x.start] ((used.filter (fun k => decide (.terminal k.sym ∉ x.ignored))).map (fun k => .terminal k.sym) ++ v.map .terminal)) ∧
      ∀ a rest, s'.input = a :: rest → .terminal a.sym ∉ x.ignored ∧ ¬ ∃ v : List Int,
        x.g.Derives [x.start] ((used.filter (fun k => decide (.terminal k.sym ∉ x.ignored))).map (fun k => .terminal k.sym) ++ .terminal a.sym :: v.map .terminal) := by
  obtain ⟨m, m', hm, hm', hmade⟩ := made h
  obtain ⟨h0, hk⟩ := start_kernel h hm
  exact error_exact_partial (involved := fun _ _ => true) hmade (bare ‹_› hw) (plain h) hf hprod (fun _ _ _ => rfl)
    (fun s acts hs => hcon acts (List.mem_of_getElem? hs)) (fun s acts hs => hacc acts (List.mem_of_getElem? hs)) h0 hk hs hp

/-- C85 for the grammars of `Ex`. -/
theorem Ex.unambiguous {x : Ex} (h : x.Ok) (hp : x.precs = []) (hw : x.weak.strongToWeak = []) (hf : ∀ y ∈ x.items, x.g.FirstComplete y (x.first y))
    (hcon : ∀ acts ∈ x.states, Rewriters.findConflicts (fun _ => true) acts = [])
    (hacc : ∀ acts ∈ x.states, ∀ b ∈ acts, ∀ c ∈ acts, b.type = .accept → c.item = .eoi → c.type ≠ .reduce) {w : List Tok} {τ τ' : Tree}
    (h1 : Forest x.g x.num [x.start] [τ] w) (h2 : Forest x.g x.num [x.start] [τ'] w) : τ = τ' := by
  obtain ⟨m, m', hm, hm', hmade⟩ := made h
  obtain ⟨h0, hk⟩ := start_kernel h hm
  exact unambiguous_partial (involved := fun _ _ => true) hmade (bare hp hw) (plain h) hf (fun _ _ _ => rfl)
    (fun s acts hs => hcon acts (List.mem_of_getElem? hs)) (fun s acts hs => hacc acts (List.mem_of_getElem? hs)) h0 hk h1 h2

/-- What is left of the input when the parser rejects it. -/
def leftOver (t : Tables) (input : List Tok) : Option (List Tok) := match parse t 60 (Parser.start 0 input) with | .ok (false, s) => some s.input | _ => none

theorem leftOver_spec {t : Tables} {input rest : List Tok} (h : leftOver t input = some rest) : ∃ s', parse t 60 (Parser.start 0 input) = .ok (false, s') ∧ s'.input = rest := by
  unfold leftOver at h
  split at h
  · rename_i s' hs
    exact ⟨s', hs, Option.some.inj h⟩
  · cases h

/-! `S → L = R | R`, `L → * R | id`, `R → L` -/

theorem pointer_productive : Productive pointerGram (· ∈ pItems) := by
  have h2 : pointerGram.Derives [.nonterminal 2] [.terminal 3] := .single ⟨[], .nonterminal 2, [], [.terminal 3], rfl, by decide +kernel, rfl⟩
  have h3 : pointerGram.Derives [.nonterminal 3] [.terminal 3] := .head ⟨[], .nonterminal 3, [], [.nonterminal 2], rfl, by decide +kernel, rfl⟩ h2
  have h1 : pointerGram.Derives [.nonterminal 1] [.terminal 3] := .head ⟨[], .nonterminal 1, [], [.nonterminal 3], rfl, by decide +kernel, rfl⟩ h3
  intro x hx
  simp only [pItems, List.mem_cons, List.not_mem_nil, or_false] at hx
  rcases hx with rfl | rfl | rfl | rfl | rfl | rfl
  · exact ⟨[3], h1⟩
  · exact ⟨[3], h2⟩
  · exact ⟨[3], h3⟩
  · exact ⟨[1], .refl⟩
  · exact ⟨[2], .refl⟩
  · exact ⟨[3], .refl⟩

/-- `* id = = id`, with ignored tokens: the parser stops at the second `=`. -/
theorem pointer_leftOver : leftOver pointerEx.tables [⟨2, 0⟩, ⟨9, 1⟩, ⟨3, 2⟩, ⟨1, 3⟩, ⟨9, 4⟩, ⟨1, 5⟩, ⟨3, 6⟩] = some [⟨1, 5⟩, ⟨3, 6⟩] := by decide +kernel

/-- No sentence begins with `* id = =`, and some sentence begins with `* id =`. -/
example : (¬ ∃ v : List Int, pointerGram.Derives [.nonterminal 1] ([.terminal 2, .terminal 3, .terminal 1] ++ .terminal 1 :: v.map .terminal)) ∧
    ∃ v : List Int, pointerGram.Derives [.nonterminal 1] ([.terminal 2, .terminal 3, .terminal 1] ++ v.map .terminal) := by
  obtain ⟨s', hp, hr⟩ := leftOver_spec pointer_leftOver
  obtain ⟨used, h1, h2, h3⟩ := Ex.error pointerEx_ok (by decide +kernel) rfl rfl pointerEx_first pointer_productive (by decide +kernel) (by decide +kernel) hp
  have hu : used = [⟨2, 0⟩, ⟨9, 1⟩, ⟨3, 2⟩, ⟨1, 3⟩, ⟨9, 4⟩] := by
    rw [hr] at h1
    exact List.append_cancel_right (h1.trans (by rfl : _ = ([⟨2, 0⟩, ⟨9, 1⟩, ⟨3, 2⟩, ⟨1, 3⟩, ⟨9, 4⟩] : List Tok) ++ [⟨1, 5⟩, ⟨3, 6⟩]))
  subst hu
  exact ⟨(h3 _ _ hr).2, h2⟩

/-- Every sentence of the grammar has one tree. -/
theorem pointer_unambiguous {w : List Tok} {τ τ' : Tree} (h1 : Forest pointerGram pointerEx.num [.nonterminal 1] [τ] w)
    (h2 : Forest pointerGram pointerEx.num [.nonterminal 1] [τ'] w) : τ = τ' :=
  Ex.unambiguous pointerEx_ok rfl rfl pointerEx_first (by decide +kernel) (by decide +kernel) h1 h2

/-! Where these do not hold -/

/-- C84 is violated where FIRST sets are not complete (C32): for `S → A List`, `A → x`, `List → List item | ε` no conflict is reported, and the parser says that `item` is wrong
after `x`, although `x item` is a sentence. -/
theorem error_violated : leftEx.Ok ∧ (∀ involved, ∀ acts ∈ leftEx.states, Rewriters.findConflicts involved acts = []) ∧
    leftEx.g.Derives [leftEx.start] [.terminal 1, .terminal 2] ∧
    ∃ s', parse leftEx.tables 60 (Parser.start 0 [⟨1, 0⟩, ⟨2, 0⟩]) = .ok (false, s') ∧ s'.input = [⟨2, 0⟩] := by
  obtain ⟨h1, h2, -, h4, -⟩ := complete_violated
  exact ⟨h1, h2, h4, leftOver_spec (by decide +kernel)⟩

/-- C85 is violated: for `S → S | a` no conflict is reported, and `a` has more than one tree. -/
theorem unambiguous_violated : loopEx.Ok ∧ (∀ involved, ∀ acts ∈ loopEx.states, Rewriters.findConflicts involved acts = []) ∧
    ∃ w τ τ', Forest loopEx.g loopEx.num [loopEx.start] [τ] w ∧ Forest loopEx.g loopEx.num [loopEx.start] [τ'] w ∧ τ ≠ τ' := by
  obtain ⟨h1, h2, -, -⟩ := terminates_violated
  have ha : Forest loopEx.g loopEx.num [.nonterminal 1] _ ([⟨1, 0⟩] ++ []) := .node (x := .nonterminal 1) (r := [.terminal 1]) (by decide +kernel) (.token (k := ⟨1, 0⟩) .nil) .nil
  have hb : Forest loopEx.g loopEx.num [.nonterminal 1] _ (([⟨1, 0⟩] ++ []) ++ []) := .node (x := .nonterminal 1) (r := [.nonterminal 1]) (by decide +kernel) ha .nil
  refine ⟨h1, h2, _, _, _, ha, hb, ?_⟩
  intro h
  injection h with _ _ h
  cases h

/-- `S → a | b U`, `U → U c`: no sentence begins with `b`. -/
def deadEx : Ex where
  g := ⟨fun n => if n = 1 then [[.terminal 1], [.terminal 2, .nonterminal 2]] else if n = 2 then [[.nonterminal 2, .terminal 3]] else []⟩
  items := [.nonterminal 1, .nonterminal 2, .terminal 1, .terminal 2, .terminal 3]
  rules := [⟨.empty, [.nonterminal 1]⟩, ⟨.nonterminal 1, [.terminal 1]⟩, ⟨.nonterminal 1, [.terminal 2, .nonterminal 2]⟩, ⟨.nonterminal 2, [.nonterminal 2, .terminal 3]⟩]
  start := .nonterminal 1
  fuel := 60

theorem deadEx_ok : deadEx.Ok where
  items := by decide +kernel
  closed := by decide +kernel
  prods := by decide +kernel
  rules := by decide +kernel
  start := by decide +kernel
  first := by decide +kernel
  mach := by decide +kernel
  full := by decide +kernel
  size := by decide +kernel
  actions := by decide +kernel
  ignored := by decide +kernel
  numRules := by decide +kernel
  next := by decide +kernel
  back := by decide +kernel

/-- The condition that every symbol has a sentence is needed, and is not checked by the tool: no conflict is reported for `S → a | b U`, `U → U c`, and the parser reads `b`
before it rejects `b c`, although no sentence begins with it. -/
theorem unproductive_read : deadEx.Ok ∧ (∀ involved, ∀ acts ∈ deadEx.states, Rewriters.findConflicts involved acts = []) ∧
    (∃ s', parse deadEx.tables 60 (Parser.start 0 [⟨2, 0⟩, ⟨3, 0⟩]) = .ok (false, s') ∧ s'.input = [⟨3, 0⟩]) ∧
    ¬ ∃ v : List Int, deadEx.g.Derives [deadEx.start] (.terminal 2 :: v.map .terminal) := by
  refine ⟨deadEx_ok, fun involved acts ha => Ex.no_conflicts (?_ : Rewriters.findConflicts (fun _ => true) acts = []) involved, leftOver_spec (by decide +kernel), ?_⟩
  · revert acts
    decide +kernel
  · rintro ⟨v, hd⟩
    have hinv : ∀ {u : List Item}, deadEx.g.Derives [.nonterminal 1] u → u = [.nonterminal 1] ∨ u = [.terminal 1] ∨ ∃ l, u = .terminal 2 :: .nonterminal 2 :: l ∧ ∀ y ∈ l, y = .terminal 3 := by
      intro u h
      induction h with
      | refl => exact Or.inl rfl
      | tail _ hs ih =>
        obtain ⟨a, z, b, q, rfl, h2, rfl⟩ := hs
        rcases ih with ih | ih | ⟨l, ih, hl⟩
        · cases a with
          | nil =>
            cases ih
            have : q = [.terminal 1] ∨ q = [.terminal 2, .nonterminal 2] := by simpa [deadEx, Gram.prods] using h2
            rcases this with rfl | rfl
            · exact Or.inr (Or.inl rfl)
            · exact Or.inr (Or.inr ⟨[], rfl, by simp⟩)
          | cons c a => simp at ih
        · cases a with
          | nil => cases ih; cases h2
          | cons c a => simp at ih
        · cases a with
          | nil => cases ih; cases h2
          | cons c a =>
            cases a with
            | nil =>
              cases ih
              have : q = [.nonterminal 2, .terminal 3] := by simpa [deadEx, Gram.prods] using h2
              subst this
              exact Or.inr (Or.inr ⟨_, rfl, by simpa using hl⟩)
            | cons d a =>
              simp only [List.cons_append, List.cons.injEq] at ih
              obtain ⟨rfl, rfl, rfl⟩ := ih
              have := hl z (by simp)
              subst this
              cases h2
    rcases hinv hd with h | h | ⟨l, h, -⟩
    · cases h
    · cases h
    · cases v with
      | nil => cases h
      | cons n v => cases h

end Sound
end TameParse

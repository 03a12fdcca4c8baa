import Verif.ParserTablesProps
import Verif.Parser
/-
Two sets of tables with the same answers make the same parser (for property C79).
-/
namespace TameParse
namespace Parser
open ParserTables

/-- The tables give the same answers to everything a parser asks. -/
structure Agree (t t' : Tables) : Prop where
  row : ∀ term s, rowOf t term s = rowOf t' term s
  find : ∀ term s x, findSym t term s x = findSym t' term s x
  rule : ∀ r, rule t r = rule t' r
  guard : ∀ s, hasEndOfGuard t s = hasEndOfGuard t' s
  strong : ∀ w, strongForWeak t w = strongForWeak t' w
  eoi : t.endOfInput = t'.endOfInput
  eog : t.endOfGuard = t'.endOfGuard

variable {t t' : Tables}

theorem Agree.entries (h : Agree t t') (term : Bool) (s : Nat) (x : Int) : entriesFor t term s x = entriesFor t' term s x := by
  simp only [entriesFor, h.row, h.find]

theorem Agree.goto (h : Agree t t') (s : Nat) (x : Int) : gotoFor t s x = gotoFor t' s x := by
  simp only [gotoFor, h.row, h.find]

theorem Agree.fake (h : Agree t t') (a : TableAction) (p : Nat) (l u : List Nat) : fakeReduce t a p l u = fakeReduce t' a p l u := by
  unfold fakeReduce
  simp only [h.rule, h.goto]

theorem Agree.loop (h : Agree t t') (term : Bool) (x : Int) (under : List Nat) : ∀ fuel outer cur i p l,
    canLoop t term x under fuel outer cur i p l = canLoop t' term x under fuel outer cur i p l
  | 0, _, _, _, _, _ => rfl
  | fuel + 1, outer, cur, i, p, l => by
    have ih := Agree.loop h term x under fuel
    unfold canLoop
    simp only [h.row, h.find, h.fake, ih]

theorem Agree.can (h : Agree t t') (fuel : Nat) (term : Bool) (x : Int) (a : TableAction) (l u : List Nat) :
    canReduceAct t fuel term x a l u = canReduceAct t' fuel term x a l u := by
  unfold canReduceAct canReduce
  simp only [h.fake, h.find, h.loop]

theorem Agree.guardD (h : Agree t t') (under : List Nat) : guardDelegate t under = guardDelegate t' under := by
  unfold guardDelegate
  simp only [h.goto]

theorem Agree.standardD (h : Agree t t') : standard t = standard t' := by
  unfold standard
  simp only [h.goto]

section
variable {σ : Type} (d : Delegate σ)

theorem Agree.performs (h : Agree t t') (la : Option Tok) (a : TableAction) (s : σ) : perform d t la a s = perform d t' la a s := by
  unfold perform
  simp only [h.rule, h.strong]

theorem Agree.possible (h : Agree t t') (fuel : Nat) (x : Int) (s : σ) : ∀ l, guardPossible d t fuel x s l = guardPossible d t' fuel x s l
  | [] => rfl
  | a :: l => by
    have ih := Agree.possible h fuel x s l
    unfold guardPossible
    simp only [h.can, ih]

theorem Agree.choice (h : Agree t t') (fuel : Nat) (x : Int) (s : σ) : ∀ l, guardChoice d t fuel x s l = guardChoice d t' fuel x s l
  | [] => rfl
  | a :: l => by
    have ih := Agree.choice h fuel x s l
    unfold guardChoice
    simp only [h.can, ih]

theorem Agree.gperform (h : Agree t t') (la : Option Tok) (x : Int) : ∀ fuel s, guardPerform d t la x fuel s = guardPerform d t' la x fuel s
  | 0, _ => rfl
  | fuel + 1, s => by
    have ih := Agree.gperform h la x fuel
    unfold guardPerform
    simp only [h.entries, h.choice, h.performs, ih]

theorem Agree.process (h : Agree t t') (fuel : Nat) (la : Option Tok) (x : Int) (s : σ) :
    processGuard d t fuel la x s = processGuard d t' fuel la x s := by
  unfold processGuard
  simp only [h.entries, h.possible, h.gperform]

end

theorem Agree.skip (h : Agree t t') (fuel : Nat) (under : List Nat) (la : Option Tok) (stack : List Nat) (a : TableAction) :
    skips t fuel under la stack a = skips t' fuel under la stack a := by
  unfold skips
  simp only [h.can, h.eoi]

theorem Agree.tries (h : Agree t t') (fuel : Nat) (under : List Nat) (la : Option Tok) (nested : Nat → Nat → M Int) (stack : List Nat) (offset : Nat) :
    ∀ l, tryActions t fuel under la nested stack offset l = tryActions t' fuel under la nested stack offset l
  | [] => rfl
  | a :: l => by
    have ih := Agree.tries h fuel under la nested stack offset l
    unfold tryActions
    simp only [h.skip, h.rule, h.guardD, h.process, h.performs, ih]

theorem Agree.check (h : Agree t t') (under : List Nat) (input : List Tok) : ∀ fuel stack offset,
    checkLoop t under input fuel stack offset = checkLoop t' under input fuel stack offset
  | 0, _, _ => rfl
  | fuel + 1, stack, offset => by
    have ih := Agree.check h under input fuel
    unfold checkLoop useEog guardActs
    simp only [h.guard, h.row, h.find, h.can, h.eog, h.eoi, h.entries, h.tries, ih]

theorem Agree.actions (h : Agree t t') (fuel : Nat) (la : Option Tok) (x : Int) (term : Bool) (s : PState) :
    ∀ l, processActions t fuel la x term s l = processActions t' fuel la x term s l
  | [] => rfl
  | a :: l => by
    have ih := Agree.actions h fuel la x term s l
    unfold processActions
    simp only [h.can, h.standardD, h.check, h.process, h.performs, ih]

/-- The parsers do the same on every input. -/
theorem Agree.parses (h : Agree t t') : ∀ fuel s, parse t fuel s = parse t' fuel s
  | 0, _ => rfl
  | fuel + 1, s => by
    have ih := Agree.parses h fuel
    unfold parse Parser.process
    simp only [h.standardD, h.entries, h.actions, h.eoi, ih]

end Parser
end TameParse

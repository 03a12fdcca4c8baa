import Verif.CanReduceProps

/-!
# More fuel does not change a result
-/

namespace TameParse
namespace Parser

open ParserTables

/-- The same outcome, unless the first ran out of fuel. -/
def Le {α : Type} (x y : M α) : Prop := x = .error .fuel ∨ x = y

theorem Le.refl {α : Type} (x : M α) : Le x x := Or.inr rfl

theorem Le.fuel {α : Type} (x : M α) : Le (.error .fuel) x := Or.inl rfl

theorem Le.trans {α : Type} {x y z : M α} (h1 : Le x y) (h2 : Le y z) : Le x z := by
  rcases h1 with h1 | h1
  · exact Or.inl h1
  · rw [h1]; exact h2

theorem Le.bind {α β : Type} {x y : M α} {f g : α → M β} (h : Le x y) (hf : ∀ a, Le (f a) (g a)) : Le (x >>= f) (y >>= g) := by
  rcases h with h | h
  · rw [h]; exact Or.inl rfl
  · subst h
    cases x with
    | error e => exact Or.inr rfl
    | ok a => exact hf a

theorem Le.bind_right {α β : Type} {x : M α} {f g : α → M β} (hf : ∀ a, Le (f a) (g a)) : Le (x >>= f) (x >>= g) := (Le.refl x).bind hf

theorem Le.ite {α : Type} {p : Prop} [Decidable p] {x y x' y' : M α} (h1 : Le x x') (h2 : Le y y') :
    Le (if p then x else y) (if p then x' else y') := by
  by_cases h : p
  · rw [if_pos h, if_pos h]; exact h1
  · rw [if_neg h, if_neg h]; exact h2

theorem Le.ok {α : Type} {x y : M α} {a : α} (h : Le x y) (hx : x = .ok a) : y = .ok a := by
  rcases h with h | h
  · rw [hx] at h; cases h
  · rw [← h]; exact hx

theorem canLoop_mono (t : Tables) (term : Bool) (sym : Int) (under : List Nat) : ∀ (f f' outer cur i popped : Nat) (pushed : List Nat), f ≤ f' →
    Le (canLoop t term sym under f outer cur i popped pushed) (canLoop t term sym under f' outer cur i popped pushed)
  | 0, _, _, _, _, _, _, _ => Le.fuel _
  | f + 1, 0, _, _, _, _, _, h => absurd h (by omega)
  | f + 1, f' + 1, outer, cur, i, popped, pushed, h => by
    have ih := fun outer cur i popped pushed => canLoop_mono t term sym under f f' outer cur i popped pushed (by omega)
    unfold canLoop
    refine Le.bind_right (fun row => ?_)
    refine Le.ite (Le.refl _) (Le.bind_right (fun act => Le.ite (Le.refl _) ?_))
    cases act.type with
    | shift => exact Le.refl _
    | shiftstrong => exact Le.refl _
    | accept => exact Le.refl _
    | goto => exact Le.refl _
    | ignore => exact Le.refl _
    | divert => exact ih _ _ _ _ _
    | guard => exact ih _ _ _ _ _
    | reduce => exact Le.bind_right (fun p => Le.bind_right (fun s => Le.bind_right (fun j => ih _ _ _ _ _)))
    | weakreduce =>
      refine Le.bind_right (fun p => Le.bind_right (fun s => Le.bind_right (fun j => (ih _ _ _ _ _).bind (fun b => ?_))))
      exact Le.ite (Le.refl _) (ih _ _ _ _ _)

theorem canReduce_mono (t : Tables) (term : Bool) (sym : Int) (popped : Nat) (pushed under : List Nat) {f f' : Nat} (h : f ≤ f') :
    Le (canReduce t f term sym popped pushed under) (canReduce t f' term sym popped pushed under) :=
  Le.bind_right (fun _ => Le.bind_right (fun _ => canLoop_mono _ _ _ _ _ _ _ _ _ _ _ h))

theorem canReduceAct_mono (t : Tables) (term : Bool) (sym : Int) (act : TableAction) (pushed under : List Nat) {f f' : Nat} (h : f ≤ f') :
    Le (canReduceAct t f term sym act pushed under) (canReduceAct t f' term sym act pushed under) :=
  Le.ite (Le.refl _) (Le.bind_right (fun _ => canReduce_mono _ _ _ _ _ _ h))

section
variable {σ : Type} (d : Delegate σ) (t : Tables)

theorem guardPossible_mono (sym : Int) (s : σ) {f f' : Nat} (h : f ≤ f') : ∀ l, Le (guardPossible d t f sym s l) (guardPossible d t f' sym s l)
  | [] => Le.refl _
  | a :: l => by
    unfold guardPossible
    refine Le.ite ((canReduceAct_mono _ _ _ _ _ _ h).bind (fun b => Le.ite (Le.refl _) (guardPossible_mono sym s h l))) ?_
    exact Le.ite (Le.refl _) (guardPossible_mono sym s h l)

theorem guardChoice_mono (sym : Int) (s : σ) {f f' : Nat} (h : f ≤ f') : ∀ l, Le (guardChoice d t f sym s l) (guardChoice d t f' sym s l)
  | [] => Le.refl _
  | a :: l => by
    unfold guardChoice
    refine Le.ite ((canReduceAct_mono _ _ _ _ _ _ h).bind (fun b => Le.ite (Le.refl _) (guardChoice_mono sym s h l))) ?_
    exact Le.ite (guardChoice_mono sym s h l) (Le.refl _)

theorem guardPerform_mono (la : Option Tok) (sym : Int) : ∀ (f f' : Nat) (s : σ), f ≤ f' → Le (guardPerform d t la sym f s) (guardPerform d t la sym f' s)
  | 0, _, _, _ => Le.fuel _
  | f + 1, 0, _, h => absurd h (by omega)
  | f + 1, f' + 1, s, h => by
    unfold guardPerform
    refine Le.bind_right (fun st => Le.bind_right (fun acts => (guardChoice_mono d t sym s (by omega) acts).bind (fun o => ?_)))
    cases o with
    | none => exact Le.refl _
    | some a => exact Le.bind_right (fun r => Le.ite (Le.refl _) (guardPerform_mono la sym f f' r.2 (by omega)))

theorem processGuard_mono (la : Option Tok) (sym : Int) (s : σ) {f f' : Nat} (h : f ≤ f') :
    Le (processGuard d t f la sym s) (processGuard d t f' la sym s) := by
  unfold processGuard
  refine Le.bind_right (fun st => Le.bind_right (fun acts => (guardPossible_mono d t sym s h acts).bind (fun b => ?_)))
  exact Le.ite ((guardPerform_mono d t la sym _ _ s h).bind (fun _ => Le.refl _)) (Le.refl _)

end

theorem skips_mono (t : Tables) (under : List Nat) (la : Option Tok) (stack : List Nat) (a : TableAction) {f f' : Nat} (h : f ≤ f') :
    Le (skips t f under la stack a) (skips t f' under la stack a) := by
  unfold skips
  refine Le.ite ?_ (Le.refl _)
  cases la with
  | none => exact Le.bind (canReduceAct_mono _ _ _ _ _ _ h) (fun _ => Le.refl _)
  | some tok => exact Le.bind (canReduceAct_mono _ _ _ _ _ _ h) (fun _ => Le.refl _)

theorem tryActions_mono (t : Tables) (under : List Nat) (la : Option Tok) (nested nested' : Nat → Nat → M Int) (stack : List Nat) (offset : Nat)
    (hn : ∀ s o, Le (nested s o) (nested' s o)) {f f' : Nat} (h : f ≤ f') :
    ∀ l, Le (tryActions t f under la nested stack offset l) (tryActions t f' under la nested' stack offset l)
  | [] => Le.refl _
  | a :: l => by
    have ih := tryActions_mono t under la nested nested' stack offset hn h l
    unfold tryActions
    refine Le.bind (skips_mono t under la stack a h) (fun skip => ?_)
    refine Le.ite ih (Le.ite (Le.refl _) (Le.ite ?_ (Le.refl _)))
    refine (hn _ _).bind (fun g => Le.ite ih ((processGuard_mono _ _ _ _ _ h).bind (fun o => ?_)))
    cases o with
    | none => exact ih
    | some s => exact Le.refl _

theorem useEog_mono (t : Tables) (under : List Nat) (state : Nat) (stack : List Nat) {f f' : Nat} (h : f ≤ f') :
    Le (useEog t f under state stack) (useEog t f' under state stack) := by
  unfold useEog
  refine Le.bind_right (fun b => Le.ite ?_ (Le.refl _))
  exact Le.bind_right (fun _ => Le.bind_right (fun _ => Le.bind_right (fun _ => canReduceAct_mono _ _ _ _ _ _ h)))

theorem checkLoop_mono (t : Tables) (under : List Nat) (input : List Tok) : ∀ (f f' : Nat) (stack : List Nat) (offset : Nat), f ≤ f' →
    Le (checkLoop t under input f stack offset) (checkLoop t under input f' stack offset)
  | 0, _, _, _, _ => Le.fuel _
  | f + 1, 0, _, _, h => absurd h (by omega)
  | f + 1, f' + 1, stack, offset, h => by
    have ih := fun s o => checkLoop_mono t under input f f' s o (by omega)
    unfold checkLoop
    refine Le.bind_right (fun state => (useEog_mono t under state stack (by omega)).bind (fun eog => Le.bind_right (fun acts => ?_)))
    refine Le.bind (tryActions_mono t under _ _ _ stack offset (fun s o => ih [s] o) (by omega) acts) (fun r => ?_)
    cases r with
    | accepted g => exact Le.refl _
    | performed s o => exact ih s o
    | failed => exact Le.refl _

theorem processActions_mono (t : Tables) (la : Option Tok) (sym : Int) (term : Bool) (s : PState) {f f' : Nat} (h : f ≤ f') :
    ∀ l, Le (processActions t f la sym term s l) (processActions t f' la sym term s l)
  | [] => Le.refl _
  | a :: l => by
    have ih := processActions_mono t la sym term s h l
    unfold processActions
    refine Le.ite ?_ (Le.ite ?_ (Le.refl _))
    · exact (canReduceAct_mono _ _ _ _ _ _ h).bind (fun b => Le.ite (Le.refl _) ih)
    · refine (checkLoop_mono t _ _ _ _ _ _ h).bind (fun g => Le.ite ih ((processGuard_mono _ _ _ _ _ h).bind (fun o => ?_)))
      cases o with
      | none => exact ih
      | some s => exact Le.refl _

theorem process_mono (t : Tables) (s : PState) {f f' : Nat} (h : f ≤ f') : Le (process t f s) (process t f' s) := by
  unfold process
  refine Le.bind_right (fun st => ?_)
  cases s.input.head? with
  | none => exact Le.bind_right (fun acts => processActions_mono _ _ _ _ _ h acts)
  | some tok => exact Le.bind_right (fun acts => processActions_mono _ _ _ _ _ h acts)

/-- More fuel gives the same result. -/
theorem parse_mono (t : Tables) : ∀ (f f' : Nat) (s : PState), f ≤ f' → Le (parse t f s) (parse t f' s)
  | 0, _, _, _ => Le.fuel _
  | f + 1, 0, _, h => absurd h (by omega)
  | f + 1, f' + 1, s, h => by
    unfold parse
    refine (process_mono t s (by omega)).bind (fun r => ?_)
    cases r.1 with
    | more => exact parse_mono t f f' r.2 (by omega)
    | accept => exact Le.refl _
    | reject => exact Le.refl _

/-- The result of a parse does not depend on the fuel. -/
theorem parse_unique {t : Tables} {f f' : Nat} {s : PState} {a b : Bool × PState} (h1 : parse t f s = .ok a) (h2 : parse t f' s = .ok b) : a = b := by
  have e1 := (parse_mono t f (max f f') s (by omega)).ok h1
  have e2 := (parse_mono t f' (max f f') s (by omega)).ok h2
  rw [e1] at e2
  exact Except.ok.inj e2

end Parser
end TameParse

import Verif.Spans
import Verif.AstParseProps
import Verif.IgnoreProps

/-!
# C93: positions of syntax trees
-/

namespace TameParse
namespace Spans

open AssocMap Closure Lalr TameParse.Parser ParserTables Ast Sound

/-! ### The parser is the one of Parser -/

def NState.erase (s : NState) : PState := ⟨s.stack.map (fun e => (e.1, e.2.erase)), s.input⟩

theorem eraseAll_eq (l : List Noted) : eraseAll l = l.map Noted.erase := by
  induction l with
  | nil => rfl
  | cons t l ih => rw [eraseAll, ih]; rfl

theorem map_bind {α β γ δ : Type} {x : M α} {y : M β} {e : α → β} {f : α → M γ} {g : β → M δ} {e' : γ → δ} (h : x.map e = y) (hf : ∀ a, x = .ok a → (f a).map e' = g (e a)) :
    (x >>= f).map e' = (y >>= g) := by
  subst h
  cases x with
  | error _ => rfl
  | ok a => exact hf a rfl

theorem map_same {α γ δ : Type} {x : M α} {f : α → M γ} {g : α → M δ} {e' : γ → δ} (hf : ∀ a, x = .ok a → (f a).map e' = g a) :
    (x >>= f).map e' = (x >>= g) :=
  map_bind (e := id) (by cases x <;> rfl) hf

theorem popTop_erase (l : List (Nat × Noted)) : (popTop l).map (fun e => (e.1, e.2.erase)) = popStack (l.map (fun e => (e.1, e.2.erase))) := by
  match l with
  | [] => rfl
  | [_] => rfl
  | _ :: _ :: _ => rfl

theorem popNoted_erase (n : Nat) (l : List (Nat × Noted)) (items : List Noted) :
    (popNoted n l items).map (fun p => (eraseAll p.1, p.2.map (fun e => (e.1, e.2.erase)))) = popItems n (l.map (fun e => (e.1, e.2.erase))) (eraseAll items) := by
  induction n generalizing l items with
  | zero => rfl
  | succ n ih =>
    unfold popNoted popItems
    refine map_bind (e := fun e => (e.1, e.2.erase)) ?_ (fun e _ => ?_)
    · cases l <;> rfl
    · rw [ih, popTop_erase, eraseAll_eq, eraseAll_eq]
      simp

theorem reduce_erase (t : Tables) (r : ReduceRule) (s : NState) : ((noted t).reduce r s).map NState.erase = (standard t).reduce r s.erase := by
  simp only [noted, standard]
  refine map_bind (popNoted_erase r.length s.stack []) (fun p _ => ?_)
  refine map_bind (e := fun e => (e.1, e.2.erase)) ?_ (fun top _ => ?_)
  · cases p.2 <;> rfl
  · refine map_same (fun go _ => ?_)
    cases go <;> rfl

theorem perform_erase (t : Tables) (la : Option Tok) (a : TableAction) (s : NState) :
    (perform (noted t) t la a s).map (fun r => (r.1, r.2.erase)) = perform (standard t) t la a s.erase := by
  unfold perform
  cases a.type with
  | ignore => rfl
  | shift => rfl
  | divert => rfl
  | guard => rfl
  | shiftstrong => exact map_same (fun tok _ => map_same (fun n _ => rfl))
  | goto =>
    refine map_bind (e := NState.erase) ?_ (fun s' _ => rfl)
    simp only [noted, standard, NState.erase]
    cases s.stack <;> rfl
  | reduce => exact map_same (fun r _ => map_bind (reduce_erase t r s) (fun s' _ => rfl))
  | weakreduce => exact map_same (fun r _ => map_bind (reduce_erase t r s) (fun s' _ => rfl))
  | accept => exact map_same (fun r _ => map_bind (reduce_erase t r s) (fun s' _ => rfl))

theorem current_erase (t : Tables) (s : NState) : (noted t).current s = (standard t).current s.erase := by
  simp only [noted, standard, NState.erase]
  cases s.stack <;> rfl

theorem under_erase (t : Tables) (s : NState) : (noted t).under s = (standard t).under s.erase := by
  simp [noted, standard, NState.erase]

theorem guardChoice_erase (t : Tables) (fuel : Nat) (sym : Int) (s : NState) (l : List TableAction) :
    guardChoice (noted t) t fuel sym s l = guardChoice (standard t) t fuel sym s.erase l := by
  induction l with
  | nil => rfl
  | cons a l ih =>
    unfold guardChoice
    rw [ih, under_erase]
    rfl

theorem guardPerform_erase (t : Tables) (la : Option Tok) (sym : Int) (fuel : Nat) (s : NState) :
    (guardPerform (noted t) t la sym fuel s).map NState.erase = guardPerform (standard t) t la sym fuel s.erase := by
  induction fuel generalizing s with
  | zero => rfl
  | succ fuel ih =>
    unfold guardPerform
    rw [current_erase]
    refine map_same (fun st _ => map_same (fun acts _ => ?_))
    rw [guardChoice_erase]
    refine map_same (fun ch _ => ?_)
    cases ch with
    | none => rfl
    | some a =>
      refine map_bind (perform_erase t la a s) (fun r _ => ?_)
      dsimp only
      split
      · rfl
      · exact ih r.2

theorem guardPossible_erase (t : Tables) (fuel : Nat) (sym : Int) (s : NState) (l : List TableAction) :
    guardPossible (noted t) t fuel sym s l = guardPossible (standard t) t fuel sym s.erase l := by
  induction l with
  | nil => rfl
  | cons a l ih =>
    unfold guardPossible
    rw [ih, under_erase]
    rfl

theorem processGuard_erase (t : Tables) (fuel : Nat) (la : Option Tok) (sym : Int) (s : NState) :
    (processGuard (noted t) t fuel la sym s).map (Option.map NState.erase) = processGuard (standard t) t fuel la sym s.erase := by
  unfold processGuard
  rw [current_erase]
  refine map_same (fun st _ => map_same (fun acts _ => ?_))
  rw [guardPossible_erase]
  refine map_same (fun q _ => ?_)
  cases q with
  | false => rfl
  | true => exact map_bind (guardPerform_erase t la sym fuel s) (fun s' _ => rfl)

theorem next_erase (s : NState) : (nextNoted s).map NState.erase = next s.erase := by
  unfold nextNoted next NState.erase
  cases s.input <;> rfl

theorem process_erase (t : Tables) (fuel : Nat) (la : Option Tok) (sym : Int) (term : Bool) (s : NState) (l : List TableAction) :
    (processNoted t fuel la sym term s l).map (fun r => (r.1, r.2.erase)) = processActions t fuel la sym term s.erase l := by
  have hst : s.erase.stack.map (·.1) = s.stack.map (·.1) := by simp [NState.erase]
  induction l with
  | nil => rfl
  | cons a l ih =>
    unfold processNoted processActions
    rw [hst]
    split
    · refine map_same (fun q _ => ?_)
      cases q with
      | true => exact map_bind (perform_erase t la a s) (fun r _ => rfl)
      | false => exact ih
    · split
      · refine map_same (fun g _ => ?_)
        split
        · exact ih
        · refine map_bind (processGuard_erase t fuel la g s) (fun o _ => ?_)
          cases o with
          | none => exact ih
          | some s' => rfl
      · split
        · rfl
        · refine map_bind (perform_erase t la a s) (fun r _ => ?_)
          dsimp only
          split
          · exact map_bind (next_erase r.2) (fun s' _ => rfl)
          · rfl

theorem step_erase (t : Tables) (fuel : Nat) (s : NState) : (stepNoted t fuel s).map (fun r => (r.1, r.2.erase)) = process t fuel s.erase := by
  unfold stepNoted process
  rw [current_erase]
  refine map_same (fun st _ => ?_)
  show Except.map _ (match s.input.head? with | some tok => _ | none => _) = match s.input.head? with | some tok => _ | none => _
  cases s.input.head? with
  | some tok => exact map_same (fun l _ => process_erase t fuel _ _ _ s l)
  | none => exact map_same (fun l _ => process_erase t fuel _ _ _ s l)

/-- The parser with the lookaheads does what the parser does. -/
theorem parse_erase (t : Tables) (fuel : Nat) (s : NState) : (parseNoted t fuel s).map (fun r => (r.1, r.2.erase)) = parse t fuel s.erase := by
  induction fuel generalizing s with
  | zero => rfl
  | succ fuel ih =>
    unfold parseNoted parse
    refine map_bind (step_erase t fuel s) (fun r _ => ?_)
    dsimp only
    cases r.1 with
    | more => exact ih r.2
    | accept => rfl
    | reject => rfl

/-! ### Which lookaheads are handed to `reduce` -/

mutual
/-- The first token of a tree. -/
def first : Noted → Option Nat
  | .nothing => none
  | .leaf la => la.map (·.text)
  | .node _ _ cs _ => firstOf cs

/-- The first token of trees; the last tree comes first. -/
def firstOf : List Noted → Option Nat
  | [] => none
  | t :: ts => (firstOf ts).or (first t)
end

mutual
/-- Each reduction was made when the next token was the lookahead. -/
def Timely : Noted → Option Nat → Prop
  | .nothing, _ => True
  | .leaf _, _ => True
  | .node _ _ cs la, next => la = next ∧ AllTimely cs next

@[inherit_doc Timely]
def AllTimely : List Noted → Option Nat → Prop
  | [], _ => True
  | t :: ts, next => Timely t next ∧ AllTimely ts ((first t).or next)
end

theorem firstOf_append (a b : List Noted) : firstOf (a ++ b) = (firstOf b).or (firstOf a) := by
  induction a with
  | nil => simp [firstOf]
  | cons t a ih => rw [List.cons_append, firstOf, ih, firstOf, Option.or_assoc]

theorem allTimely_append (a b : List Noted) (next : Option Nat) : AllTimely (a ++ b) next ↔ AllTimely a next ∧ AllTimely b ((firstOf a).or next) := by
  induction a generalizing next with
  | nil => simp [AllTimely, firstOf]
  | cons t a ih => rw [List.cons_append, AllTimely, ih, AllTimely, firstOf, Option.or_assoc, and_assoc]

/-- The bottom of the stack. -/
def Bottom (l : List (Nat × Noted)) : Prop := ∃ k, l.getLast? = some (k, .nothing)

theorem Bottom.cons {l : List (Nat × Noted)} (h : Bottom l) (e : Nat × Noted) : Bottom (e :: l) := by
  obtain ⟨k, h⟩ := h
  refine ⟨k, ?_⟩
  cases l with
  | nil => cases h
  | cons e' l => rw [List.getLast?_cons_cons]; exact h

theorem popNoted_timely (n : Nat) {l : List (Nat × Noted)} {acc : List Noted} {p : List Noted × List (Nat × Noted)} (h : popNoted n l acc = .ok p) (hb : Bottom l) {next : Option Nat}
    (ht : AllTimely (l.map (·.2)) next) :
    ∃ taken, p.1 = acc ++ taken ∧ AllTimely taken next ∧ AllTimely (p.2.map (·.2)) ((firstOf taken).or next) ∧ Bottom p.2 := by
  induction n generalizing l acc next with
  | zero =>
    cases h
    exact ⟨[], by simp, trivial, by simpa [firstOf] using ht, hb⟩
  | succ n ih =>
    unfold popNoted at h
    obtain ⟨e, he, h⟩ := bind_ok h
    have he := orUb_ok he
    match l, he with
    | [e'], he =>
      cases he
      obtain ⟨k, hk⟩ := hb
      have hk : e = (k, .nothing) := by simpa using hk
      subst hk
      obtain ⟨taken, h1, h2, h3, h4⟩ := ih h ⟨k, rfl⟩ ht
      refine ⟨.nothing :: taken, by rw [h1, List.append_assoc]; rfl, ?_, ?_, h4⟩
      · rw [AllTimely]
        exact ⟨trivial, by simpa [first] using h2⟩
      · simpa [firstOf, first] using h3
    | e' :: e2 :: l, he =>
      cases he
      rw [List.map_cons, AllTimely] at ht
      obtain ⟨taken, h1, h2, h3, h4⟩ := ih (l := e2 :: l) h (by
        obtain ⟨k, hk⟩ := hb
        exact ⟨k, by rwa [List.getLast?_cons_cons] at hk⟩) ht.2
      refine ⟨e.2 :: taken, by rw [h1, List.append_assoc]; rfl, ?_, ?_, h4⟩
      · rw [AllTimely]
        exact ⟨ht.1, h2⟩
      · rw [firstOf, Option.or_assoc]
        exact h3

theorem reduce_timely {t : Tables} {r : ReduceRule} {s s' : NState} (h : (noted t).reduce r s = .ok s') (hb : Bottom s.stack)
    (ht : AllTimely (s.stack.map (·.2)) (s.input.head?.map (·.text)))
    (hgo : ∀ p top, popItems r.length s.erase.stack [] = .ok p → p.2.head? = some top → gotoFor t top.1 r.identifier ≠ .ok none) :
    s'.input = s.input ∧ Bottom s'.stack ∧ AllTimely (s'.stack.map (·.2)) (s.input.head?.map (·.text)) := by
  simp only [noted] at h
  obtain ⟨p, hp, h⟩ := bind_ok h
  obtain ⟨top, htop, h⟩ := bind_ok h
  obtain ⟨go, hg, h⟩ := bind_ok h
  obtain ⟨taken, h1, h2, h3, h4⟩ := popNoted_timely _ hp hb ht
  have he := popNoted_erase r.length s.stack []
  rw [hp] at he
  have := hgo _ (top.1, top.2.erase) he.symm (by
    have := orUb_ok htop
    rw [List.head?_map, this]
    rfl)
  cases go with
  | none => exact absurd hg this
  | some gs =>
    cases h
    refine ⟨rfl, h4.cons _, ?_⟩
    rw [List.nil_append] at h1
    rw [List.map_cons, AllTimely, Timely, first, h1]
    exact ⟨⟨rfl, h2⟩, h3⟩

section
variable {g : Gram} {num : Numbering} {m : Mach} {k0 : Nat} {start : Item} {occ : Item → Prop} {ig : Int → Prop} {strong : Int → Int → Prop} {t : Tables}

theorem reduce_goto (ha : Auto g m k0 start) (ht : Tab g num m occ ig strong t) {input : List Tok} {s : PState} (hi : Inv g num m k0 ig strong input s) {st : Nat}
    (hst : (standard t).current s = .ok st) {r : Rule} (hc : Clos0 g (kern m st) ⟨r, r.items.length⟩) (h1 : r.nonterminal ≠ .empty)
    (h2 : ∀ p l, r.nonterminal ≠ .guard p l) {p : List Tree × List (Nat × Tree)} {top : Nat × Tree} (hp : popItems r.items.length s.stack [] = .ok p) (htop : p.2.head? = some top) :
    gotoFor t top.1 (num.ident r.nonterminal) ≠ .ok none := by
  obtain ⟨used, w, u1, u2, u3⟩ := hi
  obtain ⟨top', τ, l, hl⟩ := vstack_cons u3
  have hcur : top' = st := by
    have := orUb_ok hst
    rw [hl] at this
    simpa using this
  subst hcur
  rw [hl] at u3 hp
  obtain ⟨items, s1, τ1, l1, w1, w2, p1, p2, p3, p4, p5⟩ := vstack_pop ha r.items.length (Nat.le_refl _) top' τ l w [] u3 hc
  rw [p1] at hp
  cases hp
  cases htop
  have hgen : r.items ∈ closRules g r.nonterminal ∧ ∃ j, Clos0 g (kern m s1) j ∧ j.rule.items[j.dot]? = some r.nonterminal := by
    rcases clos0_dot p5 with hk | ⟨-, hr, hj⟩
    · obtain ⟨he, -⟩ := vstack_base ha p2 hk rfl
      exact absurd (congrArg (fun i : LItem => i.rule.nonterminal) he) h1
    · exact ⟨hr, hj⟩
  obtain ⟨hr, j, hj, hx⟩ := hgen
  obtain ⟨s2, hs2⟩ := ha.step s1 (vstack_range ha p2) j _ hj hx h1
  have hterm : isTerminal r.nonterminal = false := by
    cases hn : r.nonterminal with
    | terminal n => rw [hn] at hr; cases hr
    | _ => rfl
  rw [ht.goto s1 _ s2 hs2 hterm h2]
  simp

theorem map_ok {α β : Type} {x : M α} {e : α → β} {y : M β} (h : x.map e = y) {a : α} (hx : x = .ok a) : y = .ok (e a) := by
  rw [← h, hx]
  rfl

/-- The stack is as it should be when this token is next. -/
def Ready (s : NState) (next : Option Nat) : Prop := Bottom s.stack ∧ AllTimely (s.stack.map (·.2)) next

theorem perform_reduce_ready (ha : Auto g m k0 start) (ht : Tab g num m occ ig strong t) {input : List Tok} {s : NState} (hi : Inv g num m k0 ig strong input s.erase) {st : Nat}
    (hst : (noted t).current s = .ok st) {ty : ActType} (hty : ty = .reduce ∨ ty = .weakreduce) {a : Item} {k : Int} {r : Rule} {e : TableAction}
    (he : entryMeaning t e = meaning num ⟨ty, a, k, r⟩) (hc : Clos0 g (kern m st) ⟨r, r.items.length⟩) (h1 : r.nonterminal ≠ .empty)
    (h2 : ∀ p l, r.nonterminal ≠ .guard p l) {la : Option Tok} {res : Bool × NState} (h : perform (noted t) t la e s = .ok res)
    (hr : Ready s (s.input.head?.map (·.text))) :
    res.1 = false ∧ Inv g num m k0 ig strong input res.2.erase ∧ res.2.input = s.input ∧ Ready res.2 (s.input.head?.map (·.text)) := by
  rw [current_erase] at hst
  obtain ⟨r1, r2, -⟩ := perform_reduce ha ht hi hst hty he hc h1 h2 (map_ok (perform_erase t la e s) h)
  have hty' : e.type = .reduce ∨ e.type = .weakreduce := by
    rw [show e.type = ty from congrArg Prod.fst he]; exact hty
  obtain ⟨-, hrule⟩ := entry_rule he (by rcases hty with h | h <;> rw [h] <;> rfl)
  have hp : perform (noted t) t la e s = (do let r ← orUb (rule t e.nextState); return (false, ← (noted t).reduce r s)) := by
    unfold perform
    rcases hty' with h | h <;> rw [h]
  rw [hp, hrule] at h
  obtain ⟨r', hr', h⟩ := bind_ok h
  cases hr'
  obtain ⟨s', hs', h⟩ := bind_ok h
  cases h
  obtain ⟨q1, q2, q3⟩ := reduce_timely hs' hr.1 hr.2 (fun p top hp htop => reduce_goto ha ht hi hst hc h1 h2 hp htop)
  exact ⟨r1, r2, q1, q2, q3⟩

theorem guardPerform_ready (ha : Auto g m k0 start) (ht : Tab g num m occ ig strong t) {input : List Tok} {sym : Int} (hsym : GuardSym num occ sym) {la : Option Tok}
    (fuel : Nat) {s s' : NState} (hla : la = s.input.head?) (hi : Inv g num m k0 ig strong input s.erase) (h : guardPerform (noted t) t la sym fuel s = .ok s')
    (hr : Ready s (s.input.head?.map (·.text))) : s'.input = s.input ∧ Ready s' (s.input.head?.map (·.text)) := by
  induction fuel generalizing s with
  | zero => cases h
  | succ fuel ih =>
    unfold guardPerform at h
    obtain ⟨st, hst, h⟩ := bind_ok h
    obtain ⟨acts, hacts, h⟩ := bind_ok h
    obtain ⟨ch, hch, h⟩ := bind_ok h
    cases ch with
    | none => cases h; exact ⟨rfl, hr⟩
    | some e =>
      obtain ⟨res, hres, h⟩ := bind_ok h
      obtain ⟨a, hall, hnum, hnt, hid, hmean⟩ := ht.nonterm st sym acts hacts e (guardChoice_mem hch)
      have hitem : a.item = .empty ∨ ∃ p l, a.item = .guard p l := by
        rcases hsym with h | ⟨p, l, ho, h⟩
        · exact Or.inl (ht.inj _ _ (hnum.1 hnt) ht.occEmpty (by rw [hid, h]))
        · exact Or.inr ⟨p, l, ht.inj _ _ (hnum.1 hnt) ho (by rw [hid, h])⟩
      cases hall with
      | shift => cases hnt
      | strong => cases hnt
      | ignore => cases hnt
      | guard => cases hnt
      | goto h1 h2 h3 h4 h5 =>
        rcases hitem with h | ⟨p, l, h⟩
        · exact absurd h h5
        · exact absurd h (h3 p l)
      | accept => rcases hitem with h | ⟨p, l, h⟩ <;> cases h
      | done => rcases hitem with h | ⟨p, l, h⟩ <;> cases h
      | reduce hty hc h1 h2 hna =>
        obtain ⟨r1, r2, r3, r4⟩ := perform_reduce_ready ha ht hi hst hty hmean hc h1 h2 hres hr
        rw [r1] at h
        rw [← r3] at hla hr r4 ⊢
        exact ih hla r2 h r4
      | @guarded p l k r htr =>
        obtain ⟨e1, e2⟩ := entry_next hmean rfl
        dsimp only at e1 e2
        unfold perform at hres
        rw [e1] at hres
        cases hres
        cases h
        refine ⟨rfl, hr.1.cons _, ?_⟩
        show AllTimely (Noted.leaf la :: s.stack.map (·.2)) _
        rw [AllTimely, first, hla]
        refine ⟨trivial, ?_⟩
        have := hr.2
        cases hh : s.input.head?.map (·.text) with
        | none => rw [hh] at this; exact this
        | some k => rw [hh] at this; exact this

theorem processGuard_ready (ha : Auto g m k0 start) (ht : Tab g num m occ ig strong t) {input : List Tok} {sym : Int} (hsym : GuardSym num occ sym) {la : Option Tok}
    {fuel : Nat} {s s' : NState} (hla : la = s.input.head?) (hi : Inv g num m k0 ig strong input s.erase) (h : processGuard (noted t) t fuel la sym s = .ok (some s'))
    (hr : Ready s (s.input.head?.map (·.text))) : s'.input = s.input ∧ Ready s' (s.input.head?.map (·.text)) := by
  unfold processGuard at h
  obtain ⟨st, -, h⟩ := bind_ok h
  obtain ⟨acts, -, h⟩ := bind_ok h
  obtain ⟨q, -, h⟩ := bind_ok h
  cases q with
  | false => cases h
  | true =>
    obtain ⟨s1, h1, h⟩ := bind_ok h
    cases h
    exact guardPerform_ready ha ht hsym _ hla hi h1 hr

/-- The next token that is not ignored. -/
def upcoming (igb : Int → Bool) (l : List Tok) : Option Nat := (l.find? (fun k => !igb k.sym)).map (·.text)

theorem shift_ready {s : NState} {la : Option Tok} {n : Nat} {k : Tok} (hr : Ready s (some k.text)) (hla : la.map (·.text) = some k.text) (next : Option Nat) :
    Ready ((noted t).shift la n s) next := by
  refine ⟨hr.1.cons _, ?_⟩
  show AllTimely (Noted.leaf la :: s.stack.map (·.2)) _
  rw [AllTimely, first, hla]
  exact ⟨trivial, hr.2⟩

theorem processNoted_ready (ha : Auto g m k0 start) (ht : Tab g num m occ ig strong t) {igb : Int → Bool} (higb : ∀ n, ig n ↔ igb n = true) {input : List Tok} {fuel : Nat} {s : NState}
    (hi : Inv g num m k0 ig strong input s.erase) {st : Nat} (hst : (noted t).current s = .ok st) {la : Option Tok} (hla : la = s.input.head?) {sym : Int} {term : Bool}
    {r : Result × NState} (hr : Ready s (upcoming igb s.input)) :
    ∀ (l : List TableAction), (∀ e ∈ l, ∃ a, Allowed g m ig strong st a ∧ (match la with | some k => a.item = .terminal k.sym | none => a.item = .eoi) ∧
      entryMeaning t e = meaning num a) → (∀ k, la = some k → igb k.sym = true → ∀ e ∈ l, e.type = .ignore) → processNoted t fuel la sym term s l = .ok r →
      r.1 ≠ .reject → Ready r.2 (upcoming igb r.2.input) := by
  intro l
  induction l with
  | nil =>
    intro _ _ h hne
    cases h
    exact absurd rfl hne
  | cons e l ih =>
    intro hall hig h hne
    have ih' := ih (fun e' he' => hall e' (List.mem_cons_of_mem _ he')) (fun k hk hi e' he' => hig k hk hi e' (List.mem_cons_of_mem _ he'))
    obtain ⟨a, hal, hitem, hmean⟩ := hall e (List.mem_cons_self ..)
    have hty : e.type = a.type := congrArg Prod.fst hmean
    -- the lookahead is the next token
    have hclear : e.type ≠ .ignore → upcoming igb s.input = s.input.head?.map (·.text) := by
      intro hne
      cases hin : s.input with
      | nil => rfl
      | cons k rest =>
        have hk : igb k.sym = false := by
          cases hb : igb k.sym with
          | false => rfl
          | true => exact absurd (hig k (by rw [hla, hin]; rfl) hb e (List.mem_cons_self ..)) hne
        simp [upcoming, hk]
    unfold processNoted at h
    cases hal with
    | @shift n k rr htr =>
      obtain ⟨e1, e2⟩ := entry_next hmean rfl
      dsimp only at e1 e2
      rw [if_neg (by rw [e1]; simp), if_neg (by rw [e1]; simp), if_neg (by rw [e1]; simp)] at h
      obtain ⟨res, hres, h⟩ := bind_ok h
      unfold perform at hres
      rw [e1] at hres
      cases hres
      obtain ⟨s2, hs2, h⟩ := bind_ok h
      cases h
      cases la with
      | none => cases hitem
      | some tok =>
        rw [hclear (by rw [e1]; simp), ← hla] at hr
        have hR := fun next => shift_ready (t := t) (n := e.nextState) hr (la := some tok) rfl next
        unfold nextNoted at hs2
        split at hs2
        · cases hs2
        · cases hs2
          exact hR _
    | @strong n n' k rr hn htr =>
      obtain ⟨e1, e2⟩ := entry_next hmean rfl
      dsimp only at e1 e2
      rw [if_neg (by rw [e1]; simp), if_neg (by rw [e1]; simp), if_neg (by rw [e1]; simp)] at h
      obtain ⟨res, hres, h⟩ := bind_ok h
      unfold perform at hres
      rw [e1] at hres
      cases la with
      | none => cases hitem
      | some tok =>
        obtain ⟨tok', htok, hres⟩ := bind_ok hres
        cases htok
        obtain ⟨sn, hsn, hres⟩ := bind_ok hres
        cases hres
        obtain ⟨s2, hs2, h⟩ := bind_ok h
        cases h
        rw [hclear (by rw [e1]; simp), ← hla] at hr
        have hR := fun next => shift_ready (t := t) (n := e.nextState) hr (la := some { tok with sym := sn }) rfl next
        unfold nextNoted at hs2
        split at hs2
        · cases hs2
        · cases hs2
          exact hR _
    | @ignore n k rr hn =>
      obtain ⟨e1, e2⟩ := entry_next hmean rfl
      dsimp only at e1 e2
      rw [if_neg (by rw [e1]; simp), if_neg (by rw [e1]; simp), if_neg (by rw [e1]; simp)] at h
      obtain ⟨res, hres, h⟩ := bind_ok h
      unfold perform at hres
      rw [e1] at hres
      cases hres
      obtain ⟨s2, hs2, h⟩ := bind_ok h
      cases h
      cases la with
      | none => cases hitem
      | some tok =>
        have hns : n = tok.sym := by simpa using hitem
        subst hns
        unfold nextNoted at hs2
        split at hs2
        · cases hs2
        · rename_i k rest hin
          cases hs2
          have hk : tok = k := by
            have hin' : s.input = k :: rest := hin
            rw [hin'] at hla
            exact Option.some.inj hla
          subst hk
          have hin' : s.input = tok :: rest := hin
          have : upcoming igb s.input = upcoming igb rest := by
            rw [hin']
            simp [upcoming, (higb _).1 hn]
          rw [this] at hr
          exact hr
    | guarded htr => cases la <;> cases hitem
    | goto htr h1 h2 h3 h4 =>
      cases la with
      | none => exact absurd hitem h3
      | some tok =>
        dsimp only at hitem
        rw [hitem] at h1
        cases h1
    | reduce hty' hc h1 h2 hna =>
      dsimp only at hty
      have hcl := hclear (by rcases hty' with hw | hw <;> rw [hty, hw] <;> simp)
      have key : ∀ res, perform (noted t) t la e s = .ok res → res.1 = false ∧ Ready res.2 (upcoming igb res.2.input) := by
        intro res hres
        rw [hcl] at hr
        obtain ⟨r1, -, r3, r4⟩ := perform_reduce_ready ha ht hi hst hty' hmean hc h1 h2 hres hr
        refine ⟨r1, ?_⟩
        rw [r3, hcl]
        exact r4
      rcases hty' with hw | hw
      · rw [hw] at hty
        rw [if_neg (by rw [hty]; simp), if_neg (by rw [hty]; simp), if_neg (by rw [hty]; simp)] at h
        obtain ⟨res, hres, h⟩ := bind_ok h
        obtain ⟨r1, r2⟩ := key res hres
        rw [r1] at h
        cases h
        exact r2
      · rw [hw] at hty
        rw [if_pos hty] at h
        obtain ⟨q, -, h⟩ := bind_ok h
        cases q with
        | true =>
          obtain ⟨res, hres, h⟩ := bind_ok h
          obtain ⟨r1, r2⟩ := key res hres
          cases h
          exact r2
        | false => exact ih' h hne
    | accept hc h1 =>
      dsimp only at hty
      rw [if_neg (by rw [hty]; simp), if_neg (by rw [hty]; simp), if_pos hty] at h
      cases h
      exact hr
    | done => cases la <;> cases hitem
    | guard =>
      dsimp only at hty
      rw [if_neg (by rw [hty]; simp), if_pos hty] at h
      obtain ⟨gs, hgs, h⟩ := bind_ok h
      split at h
      · exact ih' h hne
      · rename_i hneg
        obtain ⟨o, ho, h⟩ := bind_ok h
        cases o with
        | none => exact ih' h hne
        | some s' =>
          cases h
          have hcl := hclear (by rw [hty]; simp)
          rw [hcl] at hr
          have hsym : GuardSym num occ gs := by
            rcases checkLoop_sym ht _ _ _ _ hgs with h | h
            · exact absurd h hneg
            · exact h
          obtain ⟨q1, q2⟩ := processGuard_ready ha ht hsym hla hi ho hr
          show Ready s' (upcoming igb s'.input)
          rw [q1, hcl]
          exact q2

/-- In every state of the tables the only thing to do with an ignored token is to ignore it. -/
def OnlyIgnored (t : Tables) (igb : Int → Bool) : Prop := ∀ st k l, igb k = true → entriesFor t true st k = .ok l → ∀ e ∈ l, e.type = .ignore

theorem Ignores.onlyIgnored {igb : Int → Bool} (h : Ignores t igb) : OnlyIgnored t igb := by
  intro st k l hk hl e he
  rcases h.only st with h | h
  · rw [h true k] at hl
    cases hl
  · obtain ⟨n, hn⟩ := h k hk
    rw [hn] at hl
    cases hl
    rw [List.mem_singleton] at he
    rw [he]

theorem stepNoted_ready (ha : Auto g m k0 start) (ht : Tab g num m occ ig strong t) {igb : Int → Bool} (higb : ∀ n, ig n ↔ igb n = true) (hon : OnlyIgnored t igb) {input : List Tok}
    {fuel : Nat} {s : NState} (hi : Inv g num m k0 ig strong input s.erase) {r : Result × NState} (hr : Ready s (upcoming igb s.input)) (h : stepNoted t fuel s = .ok r)
    (hne : r.1 ≠ .reject) : Ready r.2 (upcoming igb r.2.input) := by
  unfold stepNoted at h
  obtain ⟨st, hst, h⟩ := bind_ok h
  cases hh : s.input.head? with
  | some tok =>
    rw [hh] at h
    obtain ⟨l, hl, h⟩ := bind_ok h
    refine processNoted_ready ha ht higb hi hst hh.symm hr l ?_ ?_ h hne
    · intro e he
      obtain ⟨a, h1, -, h3, h4⟩ := ht.term _ _ _ hl e he
      exact ⟨a, h1, h3, h4⟩
    · intro k hk hig
      cases hk
      exact hon _ _ _ hig hl
  | none =>
    rw [hh] at h
    obtain ⟨l, hl, h⟩ := bind_ok h
    refine processNoted_ready ha ht higb hi hst hh.symm hr l ?_ (fun k hk => by cases hk) h hne
    intro e he
    obtain ⟨a, hall, hnum, hnt, hid, hmean⟩ := ht.nonterm _ _ _ hl e he
    rw [ht.eoi] at hid
    exact ⟨a, hall, ht.inj _ _ (hnum.1 hnt) ht.occEoi hid, hmean⟩

end

end Spans
end TameParse

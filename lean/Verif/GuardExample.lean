import Verif.GuardProps
import Verif.CompleteExample

/-!
# Instances of C70

A grammar with a guard.
-/

namespace TameParse
namespace Guards

open AssocMap Closure Relation Lalr TameParse.Parser ParserTables Sound

/-- A grammar with guards, and the first tokens of the guards. -/
structure GEx extends Ex where
  initial : Item → List Item

namespace GEx
variable (x : GEx)

def acts (s : Nat) : Option (List LrAction) := x.full.bind fun m => actionsForState x.clos x.initial x.fuel m s

def states : List (List LrAction) := (List.range x.size).map fun s => x.stage.rewrite s ((x.acts s).getD [])

def tables : Tables := build x.num insertionSort sortWeaks x.states (some x.stage.weak.strongToWeak)

/-- What has to be checked. -/
structure Ok : Prop where
  items : ∀ y ∈ x.items, y ≠ .empty ∧ y ≠ .eoi ∧ y ≠ .eog
  closed : ∀ y ∈ x.items, ∀ r ∈ closRules x.g y, (⟨y, r⟩ : Rule) ∈ x.rules
  guards : ∀ p l, .guard p l ∈ x.items → (⟨.guard p l, l⟩ : Rule) ∈ x.rules
  inits : ∀ y ∈ x.items, ∀ z ∈ x.initial y, z ∈ x.items
  rules : ∀ r ∈ x.rules, ∀ y ∈ r.items, y ∈ x.items
  start : (⟨.empty, [x.start]⟩ : Rule) ∈ x.rules
  first : ∀ y ∈ x.items, ∀ b ∈ x.first y, b ∈ x.syms
  mach : x.mach.isSome = true
  full : x.full.isSome = true
  size : x.mach.map (·.states.length) = x.full.map (·.states.length)
  actions : ∀ s < x.size, (x.acts s).isSome = true
  ignored : ∀ i ∈ x.ignored, isTerminal i = true ∧ i ∉ x.items
  noWeak : x.weak.strongToWeak = [] := by decide +kernel
  numRules : x.tables.numRules ≤ 16777216
  next : ∀ acts ∈ x.states, ∀ a ∈ acts, isReduce a.type = false → 0 ≤ a.next ∧ a.next < 16777216
  back : ∀ acts ∈ x.states, ∀ a ∈ acts, isReduce a.type = true → x.num.ruleWith (x.num.ruleId a.rule) = a.rule

variable {x}

theorem univ (h : x.Ok) : Univ x.first x.g (· ∈ x.items) (· ∈ x.rules) := by
  refine ⟨⟨fun y hy => (h.items y hy).1, ?_, ?_⟩, h.closed, h.guards, h.rules⟩
  · intro y hy he
    rcases List.mem_cons.1 (h.first y hy _ he) with he | he
    · cases he
    · exact (h.items _ he).2.1 rfl
  · intro y hy r hr z hz
    exact h.rules _ (h.closed y hy r hr) z hz

theorem made (h : x.Ok) : ∃ m m', x.mach = some m ∧ x.full = some m' ∧
    Made x.first x.initial x.g (· ∈ x.items) (· ∈ x.rules) numRule x.clos x.own pLt [x.start] m m' x.stage x.states x.num insertionSort sortWeaks (fun _ => True) := by
  obtain ⟨m, hm⟩ := Option.isSome_iff_exists.1 h.mach
  obtain ⟨m', hm'⟩ := Option.isSome_iff_exists.1 h.full
  have hl : m.states.length = m'.states.length := by
    have := h.size
    rw [hm, hm'] at this
    exact Option.some.inj this
  have hsz : x.size = m.states.length := by
    unfold Ex.size
    rw [hm', hl]
    rfl
  have hcomp : completeLookaheads pLt x.own x.fuel m = some m' := by
    have : x.full = completeLookaheads pLt x.own x.fuel m := by
      unfold Ex.full
      rw [hm]
      rfl
    rw [← this, hm']
  refine ⟨m, m', hm, hm', ?_⟩
  refine {
    ridInj := numRule_inj
    univ := univ h
    noEoi := fun he => (h.items _ he).2.1 rfl
    noEog := fun he => (h.items _ he).2.2 rfl
    starts := by simpa using h.start
    firsts := fun y hy a ha => ((List.mem_cons.1 (h.first y hy a ha)).symm)
    inits := fun p l hp n hn => h.inits _ hp _ hn
    closOk := closWith_ok (univ h).proper (fun _ h => h) h.first
    selfOk := selfWith_ok (univ h).proper (fun _ h => h) h.first
    machine := ⟨_, _, hm⟩
    lookaheads := ⟨_, hcomp⟩
    actions := ?_
    length := by unfold states; simpa using hsz
    ignored := h.ignored
    strong := by rintro n a b ⟨_, hm, -⟩; exact absurd (h.noWeak ▸ hm : _ ∈ []) (List.not_mem_nil)
    weak := fun p hp => absurd (h.noWeak ▸ hp : p ∈ []) List.not_mem_nil
    sortOk := insertionSort_isSort
    sortWeakOk := sortWeaks_isSort
    fits := ⟨h.numRules, h.next, h.back⟩
    inj := fun y z _ _ he => numI_inj y z (by simpa [Ex.num] using he)
    occEmpty := trivial
    occEoi := trivial
    eog := fun i he => numI_inj i _ (by simpa [Ex.num] using he)
    numbered := fun _ _ _ _ => ⟨fun _ => trivial, fun _ => trivial⟩ }
  intro s hs
  obtain ⟨acts, ha⟩ := Option.isSome_iff_exists.1 (h.actions s (hsz ▸ hs))
  refine ⟨x.fuel, acts, ?_, ?_⟩
  · unfold GEx.acts at ha
    rw [hm'] at ha
    exact ha
  · unfold states
    rw [List.getElem?_map, List.getElem?_range (hsz ▸ hs)]
    simp [ha]

/-- C70 for such a grammar. -/
theorem parsed (h : x.Ok) {input : List Tok} {fuel : Nat} {s' : PState} (hp : parse x.tables fuel (Parser.start 0 input) = .ok (true, s')) :
    Parsed x.g x.num (fun n => .terminal n ∈ x.ignored) (fun _ _ => False) 0 x.start input s' := by
  obtain ⟨m, m', hm, hm', hmade⟩ := made h
  obtain ⟨-, -, h0⟩ := completeStates_inv numRule_inj (univ h) (closWith_ok (univ h).proper (fun _ h => h) h.first) (by simpa using h.start) hm
  have hlen : 0 < (initials [x.start]).states.length := by
    simp [initials, addInitial, addState]
  obtain ⟨-, l, hl, hk⟩ := h0 0 hlen
  rw [List.mem_singleton.1 hl] at hk
  have hw : StrongOf x.stage.weak = fun _ _ => False := by
    funext n n'
    refine eq_false ?_
    rintro ⟨_, hm, -⟩
    exact absurd (h.noWeak ▸ hm : _ ∈ []) List.not_mem_nil
  have := parser_guards hmade hlen hk hp
  rw [hw] at this
  exact this

end GEx

/-- `S → [=> a b] a T | a c`, `T → b | d`, with an ignored token. -/
def oneEx : GEx where
  g := ⟨fun n => if n = 1 then [[.guard 0 [.terminal 1, .terminal 2], .terminal 1, .nonterminal 2], [.terminal 1, .terminal 3]]
    else if n = 2 then [[.terminal 2], [.terminal 4]] else []⟩
  items := [.nonterminal 1, .nonterminal 2, .terminal 1, .terminal 2, .terminal 3, .terminal 4, .guard 0 [.terminal 1, .terminal 2]]
  rules := [⟨.empty, [.nonterminal 1]⟩, ⟨.nonterminal 1, [.guard 0 [.terminal 1, .terminal 2], .terminal 1, .nonterminal 2]⟩,
    ⟨.nonterminal 1, [.terminal 1, .terminal 3]⟩, ⟨.nonterminal 2, [.terminal 2]⟩, ⟨.nonterminal 2, [.terminal 4]⟩,
    ⟨.guard 0 [.terminal 1, .terminal 2], [.terminal 1, .terminal 2]⟩]
  start := .nonterminal 1
  ignored := [.terminal 9]
  fuel := 60
  initial := fun y => if y = .guard 0 [.terminal 1, .terminal 2] then [.terminal 1] else []

theorem oneEx_ok : oneEx.Ok where
  items := by decide +kernel
  closed := by decide +kernel
  guards := by
    intro p l h
    simp only [oneEx, List.mem_cons, List.not_mem_nil, or_false, reduceCtorEq, false_or, Item.guard.injEq] at h
    obtain ⟨rfl, rfl⟩ := h
    decide +kernel
  inits := by decide +kernel
  rules := by decide +kernel
  start := by decide +kernel
  first := by decide +kernel
  mach := by decide +kernel
  full := by decide +kernel
  size := by decide +kernel
  actions := by decide +kernel
  ignored := by decide +kernel
  numRules := by decide +kernel
  next := by decide +kernel
  back := by decide +kernel

/-- Whether the parser accepts. -/
def accepts (t : Tables) (input : List Tok) : Bool := match parse t 40 (Parser.start 0 input) with | .ok (true, _) => true | _ => false

/-- `a b` and `a c` are accepted, also with ignored tokens. `a d` is not, although it can be derived up to guards. -/
example : accepts oneEx.tables [⟨1, 0⟩, ⟨2, 1⟩] = true ∧ accepts oneEx.tables [⟨9, 5⟩, ⟨1, 0⟩, ⟨9, 2⟩, ⟨2, 1⟩, ⟨9, 4⟩] = true ∧
    accepts oneEx.tables [⟨1, 0⟩, ⟨3, 1⟩] = true ∧ accepts oneEx.tables [⟨1, 0⟩, ⟨4, 1⟩] = false := by decide +kernel

/-! What can be read -/

section
variable {g : Gram} {num : Numbering} {ig : Int → Prop} {strong : Int → Int → Prop}

/-- Reading an item: ignored tokens are skipped, then comes a token, a guard or a nonterminal. -/
theorem Reads.inv {x : Item} {xs : List Item} {ts : List Tree} {w v : List Tok} (h : Reads g num ig strong (x :: xs) ts w v) :
    ∃ pre w', w = pre ++ w' ∧ (∀ k ∈ pre, ig k.sym) ∧
      ((∃ k m ts', w' = k :: m ∧ (x = .terminal k.sym ∨ ∃ n, x = .terminal n ∧ strong k.sym n) ∧ Reads g num ig strong xs ts' m v) ∨
        (∃ p l us m ts', x = .guard p l ∧ Reads g num ig strong l us w' m ∧ Reads g num ig strong xs ts' w' v) ∨
        ∃ r us m ts', r ∈ closRules g x ∧ Reads g num ig strong r us w' m ∧ Reads g num ig strong xs ts' m v) := by
  generalize hx : x :: xs = ys at h
  induction h with
  | nil => cases hx
  | @skip k _ _ w _ hk _ ih =>
    obtain ⟨pre, w', rfl, h2, h3⟩ := ih hx
    exact ⟨k :: pre, w', rfl, fun a ha => (List.mem_cons.1 ha).elim (fun e => e ▸ hk) (h2 a), h3⟩
  | @token k _ _ w _ h _ =>
    cases hx
    exact ⟨[], k :: w, rfl, (fun _ h => (List.not_mem_nil h).elim), Or.inl ⟨k, w, _, rfl, Or.inl rfl, h⟩⟩
  | @strong k n _ _ w _ hn h _ =>
    cases hx
    exact ⟨[], k :: w, rfl, (fun _ h => (List.not_mem_nil h).elim), Or.inl ⟨k, w, _, rfl, Or.inr ⟨n, rfl, hn⟩, h⟩⟩
  | guard hg h _ _ =>
    cases hx
    exact ⟨[], _, rfl, (fun _ h => (List.not_mem_nil h).elim), Or.inr (Or.inl ⟨_, _, _, _, _, rfl, hg, h⟩)⟩
  | node hr hc h _ _ =>
    cases hx
    exact ⟨[], _, rfl, (fun _ h => (List.not_mem_nil h).elim), Or.inr (Or.inr ⟨_, _, _, _, hr, hc, h⟩)⟩

theorem Reads.inv_nil {ts : List Tree} {w v : List Tok} (h : Reads g num ig strong [] ts w v) : ∃ pre, w = pre ++ v ∧ ∀ k ∈ pre, ig k.sym := by
  generalize hx : ([] : List Item) = ys at h
  induction h with
  | nil => exact ⟨[], rfl, fun _ h => (List.not_mem_nil h).elim⟩
  | @skip k _ _ w _ hk _ ih =>
    obtain ⟨pre, rfl, h2⟩ := ih hx
    exact ⟨k :: pre, rfl, fun a ha => (List.mem_cons.1 ha).elim (fun e => e ▸ hk) (h2 a)⟩
  | _ => cases hx

end

/-- The symbols without the ignored one. -/
def shown (w : List Tok) : List Int := (w.map Tok.sym).filter (· ≠ 9)

theorem shown_append {pre w : List Tok} (h : ∀ k ∈ pre, Item.terminal k.sym ∈ oneEx.ignored) : shown (pre ++ w) = shown w := by
  unfold shown
  rw [List.map_append, List.filter_append, List.filter_eq_nil_iff.2, List.nil_append]
  intro a ha
  obtain ⟨k, hk, rfl⟩ := List.mem_map.1 ha
  have := h k hk
  simp only [oneEx, List.mem_singleton, Item.terminal.injEq] at this
  simp [this]

/-- What `oneEx` reads. -/
abbrev OneReads (xs : List Item) (ts : List Tree) (w v : List Tok) : Prop :=
  Reads oneEx.g oneEx.num (fun n => .terminal n ∈ oneEx.ignored) (fun _ _ => False) xs ts w v

theorem one_terminal {n : Int} (hn : n ≠ 9) {xs : List Item} {ts : List Tree} {w v : List Tok} (h : OneReads (.terminal n :: xs) ts w v) :
    ∃ m ts', shown w = n :: shown m ∧ OneReads xs ts' m v := by
  obtain ⟨pre, w', rfl, h1, ⟨k, m, ts', rfl, h2 | ⟨_, -, h2⟩, h3⟩ | ⟨p, l, _, _, _, h2, -⟩ | ⟨r, _, _, _, h2, -⟩⟩ := h.inv
  · cases h2
    refine ⟨m, ts', ?_, h3⟩
    rw [shown_append h1]
    simp [shown, hn]
  · exact h2.elim
  · cases h2
  · cases h2

theorem one_nonterminal {n : Int} {xs : List Item} {ts : List Tree} {w v : List Tok} (h : OneReads (.nonterminal n :: xs) ts w v) :
    ∃ w' r us m ts', shown w = shown w' ∧ r ∈ oneEx.g.rules n ∧ OneReads r us w' m ∧ OneReads xs ts' m v := by
  obtain ⟨pre, w', rfl, h1, ⟨k, m, ts', rfl, h2 | ⟨_, -, h2⟩, h3⟩ | ⟨p, l, _, _, _, h2, -⟩ | ⟨r, us, m, ts', h2, h3, h4⟩⟩ := h.inv
  · cases h2
  · exact h2.elim
  · cases h2
  · exact ⟨w', r, us, m, ts', shown_append h1, h2, h3, h4⟩

theorem one_guard {p : Int} {l xs : List Item} {ts : List Tree} {w v : List Tok} (h : OneReads (.guard p l :: xs) ts w v) :
    ∃ w' us m ts', shown w = shown w' ∧ OneReads l us w' m ∧ OneReads xs ts' w' v := by
  obtain ⟨pre, w', rfl, h1, ⟨k, m, ts', rfl, h2 | ⟨_, h2, -⟩, h3⟩ | ⟨p, l, us, m, ts', h2, h3, h4⟩ | ⟨r, us, m, ts', h2, h3, h4⟩⟩ := h.inv
  · cases h2
  · cases h2
  · cases h2
    exact ⟨w', us, m, ts', shown_append h1, h3, h4⟩
  · cases h2

theorem one_nil {ts : List Tree} {w v : List Tok} (h : OneReads [] ts w v) : shown w = shown v := by
  obtain ⟨pre, rfl, h1⟩ := h.inv_nil
  exact shown_append h1

/-- The guard keeps the parser of `oneEx` from accepting `a d`: it only accepts `a b` and `a c`, with ignored tokens anywhere. -/
theorem one_accepts {input : List Tok} {fuel : Nat} {s' : PState} (hp : parse oneEx.tables fuel (Parser.start 0 input) = .ok (true, s')) :
    shown input = [1, 2] ∨ shown input = [1, 3] := by
  obtain ⟨st, τ, -, -, h⟩ := GEx.parsed oneEx_ok hp
  obtain ⟨w', r, us, m, ts', e, hr, h1, h2⟩ := one_nonterminal (n := 1) h
  have e2 := one_nil h2
  rw [e]
  have hr : r = [.guard 0 [.terminal 1, .terminal 2], .terminal 1, .nonterminal 2] ∨ r = [.terminal 1, .terminal 3] := by
    simpa [oneEx] using hr
  rcases hr with rfl | rfl
  · obtain ⟨w1, us1, m1, ts1, e3, hg, h3⟩ := one_guard h1
    obtain ⟨a1, _, f1, hg⟩ := one_terminal (by decide) hg
    obtain ⟨a2, _, f2, -⟩ := one_terminal (by decide) hg
    obtain ⟨b1, _, g1, h3⟩ := one_terminal (by decide) h3
    obtain ⟨b2, r, us2, m2, ts2, g2, hr, h4, h5⟩ := one_nonterminal h3
    have e6 := one_nil h5
    have hr : r = [.terminal 2] ∨ r = [.terminal 4] := by simpa [oneEx] using hr
    rcases hr with rfl | rfl
    · obtain ⟨c1, _, k1, h6⟩ := one_terminal (by decide) h4
      have e7 := one_nil h6
      left
      rw [e3, g1, g2, k1, e7, e6, e2]
      rfl
    · obtain ⟨c1, _, k1, h6⟩ := one_terminal (by decide) h4
      rw [f1, f2, g2, k1] at g1
      simp at g1
  · obtain ⟨b1, _, g1, h3⟩ := one_terminal (by decide) h1
    obtain ⟨b2, _, g2, h3⟩ := one_terminal (by decide) h3
    right
    rw [g1, g2, one_nil h3, e2]
    rfl

end Guards
end TameParse

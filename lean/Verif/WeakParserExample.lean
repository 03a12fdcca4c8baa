import Verif.WeakParserProps
import Verif.CompleteExample

/-!
# Instances of C76

`get` (2) is a weak symbol for the identifier `id` (1).
-/

namespace TameParse
namespace Sound

open AssocMap Closure Relation Lalr TameParse.Parser ParserTables

namespace Ex
variable {x : Ex}

theorem soft (hp : x.precs = []) : Soft x.stage := ⟨hp, fun _ _ h => (List.not_mem_nil h).elim, rfl⟩

/-- The actions of the automaton are those that are computed. -/
theorem act_iff (h : x.Ok) {m : Mach} (hm : x.mach = some m) {s : Nat} {a : LrAction}
    (ha : Act x.first x.g (fun _ => []) m (initials [x.start]).states.length s a) : s < x.size ∧ ∃ acts, x.actions s = some acts ∧ a ∈ acts := by
  obtain ⟨m0, m', hm0, hm', hmade⟩ := made h
  rw [hm] at hm0
  cases hm0
  have hsize : x.size = m.states.length := by
    have := h.size
    rw [hm, hm'] at this
    unfold size
    rw [hm']
    exact (Option.some.inj this).symm
  have hlt : s < m.states.length := by
    obtain ⟨_, _, h1⟩ := hmade.machine
    obtain ⟨-, -, -, -, -, h6, -⟩ := lr0_states_exact hmade.ridInj hmade.univ hmade.closOk hmade.starts h1
    cases ha with
    | shift ht => exact (h6 _ _ _ ht).1
    | before ht _ => exact (h6 _ _ _ ht).1
    | reduce he _ => exact hmade.inRange he
    | after he _ => exact hmade.inRange he
  refine ⟨hsize ▸ hlt, ?_⟩
  obtain ⟨acts, hacts⟩ := Option.isSome_iff_exists.1 (h.actions s (hsize ▸ hlt))
  refine ⟨acts, hacts, ?_⟩
  unfold actions at hacts
  rw [hm'] at hacts
  obtain ⟨_, _, h1⟩ := hmade.machine
  obtain ⟨_, h2⟩ := hmade.lookaheads
  exact (actions_exact (lt := pLt) hmade.ridInj hmade.univ hmade.closOk hmade.selfOk hmade.starts h1 h2 hlt hacts a).2 ha

/-- C76 for such a grammar. -/
theorem weak_decides (h : x.Ok) (hs : x.start ∈ x.items) (hp : x.precs = []) (hw : WeakOk x.weak) (hf : ∀ y ∈ x.items, x.g.FirstComplete y (x.first y))
    (hcon : ∀ acts ∈ x.states, Rewriters.findConflicts (fun _ => true) acts = [])
    (hacc : ∀ acts ∈ x.states, ∀ b ∈ acts, ∀ c ∈ acts, b.type = .accept → c.item = .eoi → c.type ≠ .reduce)
    (hwk : ∀ acts ∈ x.states, ∀ b ∈ acts, ∀ c ∈ acts, b.type = .weakreduce → c.item = b.item → c = b)
    (hapart : ∀ s < x.size, ∀ a ∈ (x.actions s).getD [], ∀ b ∈ (x.actions s).getD [], ∀ p ∈ x.weak.strongToWeak, a.item = p.1 → b.item ∉ p.2) (input : List Tok) :
    (∃ fuel s', parse x.tables fuel (Parser.start 0 input) = .ok (true, s')) ↔
      ∃ reading, List.Forall₂ (Loose x.weak) (input.filter (fun k => decide (.terminal k.sym ∉ x.ignored))) reading ∧
        x.g.Derives [x.start] (reading.map (fun k => .terminal k.sym)) := by
  obtain ⟨m, m', hm, hm', hmade⟩ := made h
  obtain ⟨h0, hk⟩ := start_kernel h hm
  refine weak_parser_decides_partial (involved := fun _ _ => true) hmade (soft hp) hw (plain h) hf (fun _ _ _ => rfl) (fun s acts hs => hcon acts (List.mem_of_getElem? hs))
    (fun s acts hs => hacc acts (List.mem_of_getElem? hs)) (fun s acts hs => hwk acts (List.mem_of_getElem? hs)) ?_ h0 hk hs input
  rintro i j ⟨ws, hj, hi⟩ s a ha haj b hb hbi
  obtain ⟨hlt, acts, h1, h2⟩ := act_iff h hm ha
  obtain ⟨-, acts', h1', h2'⟩ := act_iff h hm hb
  rw [h1] at h1'
  cases h1'
  refine hapart s hlt a (by rw [h1]; exact h2) b (by rw [h1]; exact h2') _ hj haj ?_
  rw [hbi]
  exact hi

end Ex

/-! A keyword that is also a name -/

/-- `S → get id E | set id E`, `E → ; | , id E`, where `get` (2) and `set` (3) are weak for `id` (1), and spaces (9) are ignored. -/
def getEx : Ex where
  g := ⟨fun n => if n = 1 then [[.terminal 2, .terminal 1, .nonterminal 2], [.terminal 3, .terminal 1, .nonterminal 2]]
    else if n = 2 then [[.terminal 4], [.terminal 5, .terminal 1, .nonterminal 2]] else []⟩
  items := [.nonterminal 1, .nonterminal 2, .terminal 1, .terminal 2, .terminal 3, .terminal 4, .terminal 5]
  rules := [⟨.empty, [.nonterminal 1]⟩, ⟨.nonterminal 1, [.terminal 2, .terminal 1, .nonterminal 2]⟩, ⟨.nonterminal 1, [.terminal 3, .terminal 1, .nonterminal 2]⟩,
    ⟨.nonterminal 2, [.terminal 4]⟩, ⟨.nonterminal 2, [.terminal 5, .terminal 1, .nonterminal 2]⟩]
  start := .nonterminal 1
  ignored := [.terminal 9]
  fuel := 60
  weak := ⟨[(.terminal 1, [.terminal 2, .terminal 3])], [.terminal 2, .terminal 3]⟩

theorem getEx_ok : getEx.Ok where
  items := by decide +kernel
  closed := by decide +kernel
  prods := by decide +kernel
  rules := by decide +kernel
  start := by decide +kernel
  first := by decide +kernel
  mach := by decide +kernel
  full := by decide +kernel
  size := by decide +kernel
  actions := by decide +kernel
  ignored := by decide +kernel
  numRules := by decide +kernel
  next := by decide +kernel
  back := by decide +kernel

def rank2 : Item → Nat
  | .nonterminal _ => 1
  | _ => 0

def rank3 : Item → Nat
  | .nonterminal 1 => 2
  | .nonterminal _ => 1
  | _ => 0

theorem ex_first {x : Ex} {rank : Item → Nat} (hs : x.g.Simple (· ∈ x.items) rank) (hsome : ∀ y ∈ x.items, (x.g.first x.fuel [] y).isSome = true) :
    ∀ y ∈ x.items, x.g.FirstComplete y (x.first y) := by
  intro y hy
  obtain ⟨⟨c, s⟩, h⟩ := Option.isSome_iff_exists.1 (hsome y hy)
  have := Gram.first_complete_partial _ _ hs x.fuel [] (by simp) [] c y s rfl hy h
  have he : x.first y = s := by
    unfold Ex.first
    rw [h]
    rfl
  rw [he]
  exact this

theorem getEx_weakOk : WeakOk getEx.weak := ⟨by decide +kernel, by decide +kernel, by decide +kernel⟩

theorem get_decides (input : List Tok) : (∃ fuel s', parse getEx.tables fuel (Parser.start 0 input) = .ok (true, s')) ↔
    ∃ reading, List.Forall₂ (Loose getEx.weak) (input.filter (fun k => decide (.terminal k.sym ∉ getEx.ignored))) reading ∧
      getEx.g.Derives [getEx.start] (reading.map (fun k => .terminal k.sym)) :=
  Ex.weak_decides getEx_ok (by decide +kernel) rfl getEx_weakOk
    (ex_first (simple_of_ranks (rank := rank2) (by decide +kernel) (by decide +kernel) (by decide +kernel)) (by decide +kernel))
    (by decide +kernel) (by decide +kernel) (by decide +kernel) (by decide +kernel) input

/-- `get get, set;` is accepted: the second `get` and the `set` are read as identifiers. -/
example : ∃ fuel s', parse getEx.tables fuel (Parser.start 0 [⟨2, 10⟩, ⟨9, 0⟩, ⟨2, 11⟩, ⟨5, 0⟩, ⟨3, 12⟩, ⟨4, 0⟩]) = .ok (true, s') := by
  refine (get_decides _).2 ⟨[⟨2, 10⟩, ⟨1, 11⟩, ⟨5, 0⟩, ⟨1, 12⟩, ⟨4, 0⟩], ?_, ?_⟩
  · have h2 : StrongOf getEx.weak 2 1 := ⟨[.terminal 2, .terminal 3], by decide +kernel, by decide +kernel⟩
    have h3 : StrongOf getEx.weak 3 1 := ⟨[.terminal 2, .terminal 3], by decide +kernel, by decide +kernel⟩
    exact .cons (.inl rfl) (.cons (.inr ⟨h2, rfl⟩) (.cons (.inl rfl) (.cons (.inr ⟨h3, rfl⟩) (.cons (.inl rfl) .nil))))
  · refine ReflTransGen.head (b := [.terminal 2, .terminal 1, .nonterminal 2]) ⟨[], .nonterminal 1, [], [.terminal 2, .terminal 1, .nonterminal 2], rfl, by decide +kernel, rfl⟩ ?_
    refine ReflTransGen.head (b := [.terminal 2, .terminal 1, .terminal 5, .terminal 1, .nonterminal 2])
      ⟨[.terminal 2, .terminal 1], .nonterminal 2, [], [.terminal 5, .terminal 1, .nonterminal 2], rfl, by decide +kernel, rfl⟩ ?_
    exact ReflTransGen.single ⟨[.terminal 2, .terminal 1, .terminal 5, .terminal 1], .nonterminal 2, [], [.terminal 4], rfl, by decide +kernel, rfl⟩

/-! A keyword in the place of a name -/

/-- `S → get id | A get`, `A → id =`, where the state at the beginning has actions both for `get` and for `id`. -/
def eqEx : Ex where
  g := ⟨fun n => if n = 1 then [[.terminal 2, .terminal 1], [.nonterminal 2, .terminal 2]] else if n = 2 then [[.terminal 1, .terminal 3]] else []⟩
  items := [.nonterminal 1, .nonterminal 2, .terminal 1, .terminal 2, .terminal 3]
  rules := [⟨.empty, [.nonterminal 1]⟩, ⟨.nonterminal 1, [.terminal 2, .terminal 1]⟩, ⟨.nonterminal 1, [.nonterminal 2, .terminal 2]⟩, ⟨.nonterminal 2, [.terminal 1, .terminal 3]⟩]
  start := .nonterminal 1
  fuel := 60
  weak := ⟨[(.terminal 1, [.terminal 2])], [.terminal 2]⟩

theorem eqEx_ok : eqEx.Ok where
  items := by decide +kernel
  closed := by decide +kernel
  prods := by decide +kernel
  rules := by decide +kernel
  start := by decide +kernel
  first := by decide +kernel
  mach := by decide +kernel
  full := by decide +kernel
  size := by decide +kernel
  actions := by decide +kernel
  ignored := by decide +kernel
  numRules := by decide +kernel
  next := by decide +kernel
  back := by decide +kernel

theorem eq_runs {m : Mach} (hm : eqEx.mach = some m) {b : PState}
    (h : ReflTransGen (AutoRuns eqEx.first eqEx.g eqEx.num m (initials [eqEx.start]).states.length) (Parser.start 0 [⟨2, 10⟩, ⟨1, 11⟩]) b) :
    b = Parser.start 0 [⟨2, 10⟩, ⟨1, 11⟩] ∨ (∃ τ, b = ⟨[(2, τ), (0, .nothing)], [⟨1, 11⟩]⟩) ∨ b.input = [] := by
  have hred : ∀ (s : Nat) (i : Item) (r : Rule), (s = 0 ∧ i = .terminal 2 ∨ s = 2 ∧ i = .terminal 1) →
      ¬ Lr1c eqEx.first eqEx.g m (initials [eqEx.start]).states.length s (⟨r, r.items.length⟩, some i) := by
    intro s i r hsi he
    have hsym : reduceSymbol i = true := by rcases hsi with ⟨-, rfl⟩ | ⟨-, rfl⟩ <;> rfl
    obtain ⟨-, acts, h1, h2⟩ := Ex.act_iff eqEx_ok hm (.reduce (initial := fun _ => []) he hsym)
    have hall : ∀ s ∈ [0, 2], ∀ a ∈ (eqEx.actions s).getD [], isTerminal a.item = true → a.type = .shift := by decide +kernel
    have := hall s (by rcases hsi with ⟨rfl, -⟩ | ⟨rfl, -⟩ <;> simp) _ (by rw [h1]; exact h2) (by rcases hsi with ⟨-, rfl⟩ | ⟨-, rfl⟩ <;> rfl)
    revert this
    cases r.nonterminal <;> simp [reduceType]
  have htr : (eqEx.mach.map fun m => tr m 0 (.terminal 2)) = some (some 2) := by decide +kernel
  rw [hm] at htr
  have htr : tr m 0 (.terminal 2) = some 2 := Option.some.inj htr
  induction h with
  | refl => exact .inl rfl
  | @tail b c _ hs ih =>
    rcases ih with rfl | ⟨τ, rfl⟩ | hi
    · generalize hy : Parser.start 0 [⟨2, 10⟩, ⟨1, 11⟩] = y at hs
      cases hs with
      | shift ht =>
        cases hy
        have := ht.symm.trans htr
        cases this
        exact .inr (.inl ⟨_, rfl⟩)
      | reduce h1 _ _ h4 =>
        rw [h4] at hy
        cases hy
        exact absurd h1 (hred _ _ _ (.inl ⟨rfl, rfl⟩))
    · generalize hy : (⟨[(2, τ), (0, .nothing)], [⟨1, 11⟩]⟩ : PState) = y at hs
      cases hs with
      | shift ht =>
        cases hy
        exact .inr (.inr rfl)
      | reduce h1 _ _ h4 =>
        rw [h4] at hy
        cases hy
        exact absurd h1 (hred _ _ _ (.inr ⟨rfl, rfl⟩))
    · cases hs with
      | shift ht => cases hi
      | reduce => exact .inr (.inr hi)

/-- `get get` is accepted: the state after the first `get` has no action for `get`. -/
example : ∃ fuel s', parse eqEx.tables fuel (Parser.start 0 [⟨2, 10⟩, ⟨2, 11⟩]) = .ok (true, s') := by
  obtain ⟨m, m', hm, hm', hmade⟩ := Ex.made eqEx_ok
  obtain ⟨h0, hk⟩ := Ex.start_kernel eqEx_ok hm
  have hcon : ∀ acts ∈ eqEx.states, Rewriters.findConflicts (fun _ => true) acts = [] := by decide +kernel
  have hacc : ∀ acts ∈ eqEx.states, ∀ b ∈ acts, ∀ c ∈ acts, b.type = .accept → c.item = .eoi → c.type ≠ .reduce := by decide +kernel
  have hwk : ∀ acts ∈ eqEx.states, ∀ b ∈ acts, ∀ c ∈ acts, b.type = .weakreduce → c.item = b.item → c = b := by decide +kernel
  have h2 : StrongOf eqEx.weak 2 1 := ⟨[.terminal 2], by decide +kernel, by decide +kernel⟩
  obtain ⟨fuel, s, τ, rest, hp, -⟩ := weak_parser_complete_partial (involved := fun _ _ => true) hmade (Ex.soft rfl)
    ⟨by decide +kernel, by decide +kernel, by decide +kernel⟩ (Ex.plain eqEx_ok)
    (ex_first (simple_of_ranks (rank := rank3) (by decide +kernel) (by decide +kernel) (by decide +kernel)) (by decide +kernel)) (fun _ _ _ => rfl)
    (fun s acts hs => hcon acts (List.mem_of_getElem? hs)) (fun s acts hs => hacc acts (List.mem_of_getElem? hs)) (fun s acts hs => hwk acts (List.mem_of_getElem? hs))
    h0 hk (by decide +kernel) (input := [⟨2, 10⟩, ⟨2, 11⟩]) (reading := [⟨2, 10⟩, ⟨1, 11⟩]) (.cons (.inl rfl) (.cons (.inr ⟨h2, rfl⟩) .nil))
    (by
      intro u k v u' k' v' hu hu' hl hne s τ l hr x hx a ha
      obtain ⟨-, acts, h3, h4⟩ := Ex.act_iff eqEx_ok hm ha
      have hlack : ∀ a ∈ (eqEx.actions 2).getD [], a.item ≠ .terminal 2 := by decide +kernel
      have hu : [(⟨2, 10⟩ : Tok), ⟨2, 11⟩] = u ++ k :: v := hu
      match u, u', hu, hu' with
      | [], [], hu, hu' => cases hu; cases hu'; exact absurd rfl hne
      | [], [_], hu, hu' => cases hu; cases hu'; cases hl
      | [], _ :: _ :: u', hu, hu' => cases u' <;> cases hu'
      | [_], [], hu, hu' => cases hu; cases hu'; cases hl
      | [_], [_], hu, hu' =>
        cases hu
        cases hu'
        rcases eq_runs hm hr with h5 | ⟨_, h5⟩ | h5
        · cases h5
        · cases h5
          exact hlack a (by rw [h3]; exact h4)
        · cases h5
      | [_], _ :: _ :: u', hu, hu' => cases u' <;> cases hu'
      | _ :: _ :: u, _, hu, hu' => cases u <;> cases hu)
    (ReflTransGen.single ⟨[], .nonterminal 1, [], [.terminal 2, .terminal 1], rfl, by decide +kernel, rfl⟩)
  exact ⟨fuel, _, hp⟩

/-! Two violations -/

/-- `S → A w | x w c | A id`, `A → x`: `x` 4, `c` 5, `id` 1 and `w` 2, which is weak for `id`. -/
def clashEx : Ex where
  g := ⟨fun n => if n = 1 then [[.nonterminal 2, .terminal 2], [.terminal 4, .terminal 2, .terminal 5], [.nonterminal 2, .terminal 1]] else if n = 2 then [[.terminal 4]] else []⟩
  items := [.nonterminal 1, .nonterminal 2, .terminal 1, .terminal 2, .terminal 4, .terminal 5]
  rules := [⟨.empty, [.nonterminal 1]⟩, ⟨.nonterminal 1, [.nonterminal 2, .terminal 2]⟩, ⟨.nonterminal 1, [.terminal 4, .terminal 2, .terminal 5]⟩,
    ⟨.nonterminal 1, [.nonterminal 2, .terminal 1]⟩, ⟨.nonterminal 2, [.terminal 4]⟩]
  start := .nonterminal 1
  fuel := 60
  weak := ⟨[(.terminal 1, [.terminal 2])], [.terminal 2]⟩

theorem clashEx_ok : clashEx.Ok where
  items := by decide +kernel
  closed := by decide +kernel
  prods := by decide +kernel
  rules := by decide +kernel
  start := by decide +kernel
  first := by decide +kernel
  mach := by decide +kernel
  full := by decide +kernel
  size := by decide +kernel
  actions := by decide +kernel
  ignored := by decide +kernel
  numRules := by decide +kernel
  next := by decide +kernel
  back := by decide +kernel

theorem accepted_or {t : Tables} {fuel : Nat} {s : PState} {b : Bool} (h : (match parse t fuel s with | .ok (c, _) => c == b | _ => false) = true) :
    ∃ s', parse t fuel s = .ok (b, s') := by
  split at h
  · rename_i c s' hs
    rw [beq_iff_eq] at h
    subst h
    exact ⟨s', hs⟩
  · cases h

/-- **C76**, conflicts: after `x` the token `w` can be shifted and `A → x` can be reduced before it. This is a conflict, and reported as such if `w` is not weak. But as there
is also an action for `id` in the state the reduction becomes a weak one, and nothing is reported. `x w c` is a sentence that the parser rejects. -/
theorem weak_conflict_violated : clashEx.Ok ∧ WeakOk clashEx.weak ∧ (∀ involved, ∀ acts ∈ clashEx.states, Rewriters.findConflicts involved acts = []) ∧
    (∃ acts ∈ { clashEx with weak := ⟨[], []⟩ }.states, Rewriters.findConflicts (fun _ => true) acts = [.terminal 2]) ∧
    clashEx.g.Derives [clashEx.start] [.terminal 4, .terminal 2, .terminal 5] ∧
    ∃ s', parse clashEx.tables 20 (Parser.start 0 [⟨4, 0⟩, ⟨2, 0⟩, ⟨5, 0⟩]) = .ok (false, s') := by
  refine ⟨clashEx_ok, ⟨by decide +kernel, by decide +kernel, by decide +kernel⟩, fun involved acts ha => Ex.no_conflicts (?_ : Rewriters.findConflicts (fun _ => true) acts = []) involved,
    by decide +kernel, ?_, accepted_or (by decide +kernel)⟩
  · revert acts
    decide +kernel
  · exact ReflTransGen.single ⟨[], .nonterminal 1, [], [.terminal 4, .terminal 2, .terminal 5], rfl, by decide +kernel, rfl⟩

/-- `S → a X w | a Y q | b X z | b Y id`, `X → c`, `Y → c`: `id` 1, `w` 2 (weak for `id`), `a` 3, `b` 4, `c` 5, `q` 6, `z` 7. -/
def mergedEx : Ex where
  g := ⟨fun n => if n = 1 then [[.terminal 3, .nonterminal 2, .terminal 2], [.terminal 3, .nonterminal 3, .terminal 6], [.terminal 4, .nonterminal 2, .terminal 7], [.terminal 4, .nonterminal 3, .terminal 1]]
    else if n = 2 then [[.terminal 5]] else if n = 3 then [[.terminal 5]] else []⟩
  items := [.nonterminal 1, .nonterminal 2, .nonterminal 3, .terminal 1, .terminal 2, .terminal 3, .terminal 4, .terminal 5, .terminal 6, .terminal 7]
  rules := [⟨.empty, [.nonterminal 1]⟩, ⟨.nonterminal 1, [.terminal 3, .nonterminal 2, .terminal 2]⟩, ⟨.nonterminal 1, [.terminal 3, .nonterminal 3, .terminal 6]⟩,
    ⟨.nonterminal 1, [.terminal 4, .nonterminal 2, .terminal 7]⟩, ⟨.nonterminal 1, [.terminal 4, .nonterminal 3, .terminal 1]⟩, ⟨.nonterminal 2, [.terminal 5]⟩, ⟨.nonterminal 3, [.terminal 5]⟩]
  start := .nonterminal 1
  fuel := 60
  weak := ⟨[(.terminal 1, [.terminal 2])], [.terminal 2]⟩

theorem mergedEx_ok : mergedEx.Ok where
  items := by decide +kernel
  closed := by decide +kernel
  prods := by decide +kernel
  rules := by decide +kernel
  start := by decide +kernel
  first := by decide +kernel
  mach := by decide +kernel
  full := by decide +kernel
  size := by decide +kernel
  actions := by decide +kernel
  ignored := by decide +kernel
  numRules := by decide +kernel
  next := by decide +kernel
  back := by decide +kernel

/-- All sentences of `mergedEx` are accepted. After `c` the reduction of `X → c` before `w` is a weak one. -/
theorem merged_sentences {input : List Tok} (hd : mergedEx.g.Derives [mergedEx.start] ((input.filter (fun k => decide (.terminal k.sym ∉ mergedEx.ignored))).map (fun k => .terminal k.sym))) :
    ∃ fuel s', parse mergedEx.tables fuel (Parser.start 0 input) = .ok (true, s') := by
  obtain ⟨m, m', hm, hm', hmade⟩ := Ex.made mergedEx_ok
  obtain ⟨h0, hk⟩ := Ex.start_kernel mergedEx_ok hm
  have hcon : ∀ acts ∈ mergedEx.states, Rewriters.findConflicts (fun _ => true) acts = [] := by decide +kernel
  have hacc : ∀ acts ∈ mergedEx.states, ∀ b ∈ acts, ∀ c ∈ acts, b.type = .accept → c.item = .eoi → c.type ≠ .reduce := by decide +kernel
  have hwk : ∀ acts ∈ mergedEx.states, ∀ b ∈ acts, ∀ c ∈ acts, b.type = .weakreduce → c.item = b.item → c = b := by decide +kernel
  obtain ⟨fuel, s, τ, rest, hp, -⟩ := weak_parser_sentences_partial (involved := fun _ _ => true) hmade (Ex.soft rfl)
    ⟨by decide +kernel, by decide +kernel, by decide +kernel⟩ (Ex.plain mergedEx_ok)
    (ex_first (simple_of_ranks (rank := rank3) (by decide +kernel) (by decide +kernel) (by decide +kernel)) (by decide +kernel)) (fun _ _ _ => rfl)
    (fun s acts hs => hcon acts (List.mem_of_getElem? hs)) (fun s acts hs => hacc acts (List.mem_of_getElem? hs)) (fun s acts hs => hwk acts (List.mem_of_getElem? hs))
    h0 hk (by decide +kernel) hd
  exact ⟨fuel, _, hp⟩

/-- There is such a reduction. -/
example : ∃ acts ∈ mergedEx.states, ∃ b ∈ acts, b.type = .weakreduce := by decide +kernel

/-- `a c w` is accepted. -/
example : ∃ fuel s', parse mergedEx.tables fuel (Parser.start 0 [⟨3, 0⟩, ⟨5, 0⟩, ⟨2, 0⟩]) = .ok (true, s') := by
  refine merged_sentences ?_
  refine ReflTransGen.head (b := [.terminal 3, .nonterminal 2, .terminal 2]) ⟨[], .nonterminal 1, [], [.terminal 3, .nonterminal 2, .terminal 2], rfl, by decide +kernel, rfl⟩ ?_
  exact ReflTransGen.single ⟨[.terminal 3], .nonterminal 2, [.terminal 2], [.terminal 5], rfl, by decide +kernel, rfl⟩

/-- **C76**, readings: `b c id` is a sentence, and after `b c` the token `w` cannot be meant, but `b c w` is rejected. The state after `c` has a (weak) reduction for `w`, which is
for `a c w`, and therefore does not get the reduction of `Y → c` that there is for `id` (weak_symbols.cpp 286, 317-326). -/
theorem weak_reading_violated : mergedEx.Ok ∧ WeakOk mergedEx.weak ∧ (∀ involved, ∀ acts ∈ mergedEx.states, Rewriters.findConflicts involved acts = []) ∧
    List.Forall₂ (Loose mergedEx.weak) [⟨4, 0⟩, ⟨5, 0⟩, ⟨2, 7⟩] [⟨4, 0⟩, ⟨5, 0⟩, ⟨1, 7⟩] ∧ mergedEx.g.Derives [mergedEx.start] [.terminal 4, .terminal 5, .terminal 1] ∧
    ∃ s', parse mergedEx.tables 20 (Parser.start 0 [⟨4, 0⟩, ⟨5, 0⟩, ⟨2, 7⟩]) = .ok (false, s') := by
  refine ⟨mergedEx_ok, ⟨by decide +kernel, by decide +kernel, by decide +kernel⟩, fun involved acts ha => Ex.no_conflicts (?_ : Rewriters.findConflicts (fun _ => true) acts = []) involved,
    ?_, ?_, accepted_or (by decide +kernel)⟩
  · revert acts
    decide +kernel
  · exact .cons (.inl rfl) (.cons (.inl rfl) (.cons (.inr ⟨⟨[.terminal 2], by decide +kernel, by decide +kernel⟩, rfl⟩) .nil))
  · refine ReflTransGen.head (b := [.terminal 4, .nonterminal 3, .terminal 1]) ⟨[], .nonterminal 1, [], [.terminal 4, .nonterminal 3, .terminal 1], rfl, by decide +kernel, rfl⟩ ?_
    exact ReflTransGen.single ⟨[.terminal 4], .nonterminal 3, [.terminal 1], [.terminal 5], rfl, by decide +kernel, rfl⟩

end Sound
end TameParse

import Verif.TermProps
import Verif.CompleteGrammarProps

/-!
# C37: the parser of a grammar without conflicts comes to an end
-/

namespace TameParse
namespace Sound

open AssocMap Closure Relation Lalr TameParse.Parser ParserTables

/-- Tables where every lookup in a state of the automaton gives an answer, which is never a weak reduction or a guard. -/
structure Answers (m : Mach) (t : Tables) : Prop where
  range : ∀ s x s', tr m s x = some s' → s' < m.states.length
  term : ∀ s < m.states.length, ∀ n, ∃ l, entriesFor t true s n = .ok l ∧ ∀ e ∈ l.head?, (e.type = .shift ∧ tr m s (.terminal n) = some e.nextState) ∨
    e.type = .reduce ∨ e.type = .ignore
  eoi : ∀ s < m.states.length, ∃ l, entriesFor t false s t.endOfInput = .ok l ∧ ∀ e ∈ l.head?, e.type = .reduce ∨ e.type = .accept

section
variable {first : Item → List Item} {g : Gram} {okI : Item → Prop} {num : Numbering} {m : Mach} {n0 : Nat} {t : Tables}

/-- No rule is longer than the stack. -/
theorem path_enough (he : Exact first g okI num m n0 t) {k0 : Nat} {S : Item} (hk : kern m k0 = [startItem S]) {r : Rule} : ∀ (d : Nat) {s : Nat} {l : List Nat}
    {xs : List Item}, Path m (s :: l) xs → (s :: l).getLast? = some k0 → Clos0 g (kern m s) ⟨r, d⟩ → d ≤ xs.length
  | 0, _, _, _, _, _, _ => Nat.zero_le _
  | d + 1, s, l, xs, hp, hb, hc => by
    rcases clos0_dot hc with hm | ⟨hz, -⟩
    · cases hp with
      | one =>
        have : s = k0 := by simpa using hb
        subst this
        rw [hk, List.mem_singleton] at hm
        have := congrArg LItem.dot hm
        cases this
      | @push s0 _ l0 x xs hp ht =>
        obtain ⟨⟨r', d'⟩, hc1, hx, hadv⟩ := he.goto0 _ _ _ ht _ hm
        dsimp only at hx hadv
        have e1 : r = r' := congrArg LItem.rule hadv
        have e2 : d + 1 = d' + 1 := congrArg LItem.dot hadv
        have e3 : d = d' := by omega
        subst e1 e3
        have := path_enough he hk d hp (by simpa using hb) hc1
        simpa using this
    · cases hz

/-- The parser comes to an end from every stack that the automaton can make. -/
theorem parse_ends (he : Exact first g okI num m n0 t) (hA : Answers m t) (hg : Plain g okI) (hf : ∀ x, okI x → g.FirstComplete x (first x))
    (hs : ∀ x, okI x → g.FirstSound x (first x)) (hne : ¬ okI .eoi) {U : List Item} (hU : ∀ x, okI x → x ∈ U) {k0 : Nat} {S : Item} (hk : kern m k0 = [startItem S]) :
    ∀ (input : List Tok) (stack : List (Nat × Tree)) (xs : List Item), Path m (stack.map (·.1)) xs → (stack.map (·.1)).getLast? = some k0 →
    (∀ s ∈ stack.map (·.1), s < m.states.length) → ∃ fuel b s', parse t fuel ⟨stack, input⟩ = .ok (b, s') := by
  -- one reduction
  have hred : ∀ (input : List Tok) (stack : List (Nat × Tree)) (xs : List Item) (top : Nat) (τ : Tree) (l : List (Nat × Tree)) (e : TableAction), stack = (top, τ) :: l →
      Path m (stack.map (·.1)) xs → (stack.map (·.1)).getLast? = some k0 → (∀ s ∈ stack.map (·.1), s < m.states.length) → FirstEntry t top (lookahead input) e →
      e.type = .reduce → ∃ stack' ys, Goes t ⟨stack, input⟩ ⟨stack', input⟩ ∧ Red t (lookahead input) (stack.map (·.1)) (stack'.map (·.1)) ∧
        Path m (stack'.map (·.1)) ys ∧ (stack'.map (·.1)).getLast? = some k0 ∧ ∀ s ∈ stack'.map (·.1), s < m.states.length := by
    intro input stack xs top τ l e hst hp hb hr hfe hty
    have hla : La (lookahead input) := by cases input <;> simp [lookahead, La]
    obtain ⟨r, b1, b2, -⟩ := he.back top _ e hla hfe hty
    have hp' : Path m (top :: l.map (·.1)) xs := by rw [hst] at hp; exact hp
    have hb' : (top :: l.map (·.1)).getLast? = some k0 := by rw [hst] at hb; exact hb
    have hle := path_enough he hk r.items.length hp' hb' (he.clos0 _ _ b1)
    obtain ⟨-, s1, l1, k2, k3, k4⟩ := path_pop he r.items.length (Nat.le_refl _) hp' hle (he.clos0 _ _ b1)
    have hdrop : (stack.drop r.items.length).map (·.1) = s1 :: l1 := by
      rw [List.map_drop, hst]
      exact k2
    obtain ⟨⟨s1', τ1⟩, st1, hd1, hs1, hl1⟩ := List.map_eq_cons_iff.1 hdrop
    subst hl1
    have hs1 : s1' = s1 := hs1
    subst hs1
    have hgo : ∃ s2, tr m s1' r.nonterminal = some s2 := by
      rcases clos0_dot k4 with hk | ⟨-, -, j, hj, hx⟩
      · exact absurd (he.kern0 _ _ hk rfl) (List.ne_nil_of_mem b2)
      · exact he.step0 s1' j _ hj hx (List.ne_nil_of_mem b2)
    obtain ⟨s2, hs2⟩ := hgo
    have hsplit : stack.take r.items.length ++ (s1', τ1) :: st1 = stack := by rw [← hd1]; exact List.take_append_drop ..
    have hlen : (stack.take r.items.length).length = r.items.length := by
      have hl := path_length hp
      rw [List.length_map] at hl
      rw [List.length_take]
      omega
    have hgoes := goes_reduce he.toDet (rest := input) (q := stack.take r.items.length) (s := s1') (τ := τ1) (st := st1) (top := top) (τ' := τ) (l := l) b1 b2 hlen
      (hsplit.trans hst) hs2
    rw [hsplit] at hgoes
    refine ⟨_, _, hgoes, ?_, .push k3 hs2, ?_, ?_⟩
    · refine red_step he.toDet hla (l' := l.map (·.1)) b1 b2 ?_ ?_ hs2
      · rw [hst]
        rfl
      · rw [← List.map_drop, hd1]
        rfl
    · have hlast : (stack.map (·.1)).getLast? = (((s1', τ1) :: st1).map (·.1)).getLast? := by
        conv_lhs => rw [← hsplit]
        rw [List.map_append, List.getLast?_append_of_ne_nil _ (by simp)]
      rw [hlast] at hb
      simpa using hb
    · intro s hs
      rw [List.map_cons] at hs
      rcases List.mem_cons.1 hs with rfl | hs
      · exact hA.range _ _ _ hs2
      · refine hr s ?_
        rw [← hsplit, List.map_append]
        exact List.mem_append_right _ hs
  have hstep : ∀ {s s' : PState}, Goes t s s' → (∃ fuel b s'', parse t fuel s' = .ok (b, s'')) → ∃ fuel b s'', parse t fuel s = .ok (b, s'') := by
    rintro s s' hgo ⟨fuel, b, s'', h⟩
    obtain ⟨f, h⟩ := parse_goes (.single hgo) h
    exact ⟨f, b, s'', h⟩
  intro input
  induction input with
  | nil =>
    intro stack xs hp hb hr
    have hst := path_stops he hg hf hs hne (a := .eoi) (Or.inr rfl) hU _ _ _ hp (Nat.le_refl _)
    generalize hσ : stack.map (·.1) = σ at hst
    unfold Stops at hst
    induction hst generalizing stack xs with
    | intro σ _ ih =>
      obtain ⟨⟨top, τ⟩, l, rfl⟩ : ∃ p l, stack = p :: l := by
        cases stack with
        | nil => cases hp
        | cons p l => exact ⟨p, l, rfl⟩
      obtain ⟨es, h1, h2⟩ := hA.eoi top (hr top (by simp))
      cases es with
      | nil =>
        exact ⟨1, false, ⟨(top, τ) :: l, []⟩, by simp [parse, process, standard, orUb, bind, Except.bind, h1, processActions, pure, Except.pure]⟩
      | cons e es =>
        rcases h2 e (by simp) with hty | hty
        · obtain ⟨stack', ys, q1, q2, q3, q4, q5⟩ := hred [] _ xs top τ l e rfl hp hb hr ⟨fun n hn => (by cases hn), fun _ => ⟨es, h1⟩⟩ hty
          exact hstep q1 (ih _ (hσ ▸ q2) stack' ys q3 q4 q5 rfl)
        · exact ⟨1, true, ⟨(top, τ) :: l, []⟩, by simp [parse, process, standard, orUb, bind, Except.bind, h1, processActions, hty, pure, Except.pure]⟩
  | cons k rest ihin =>
    intro stack xs hp hb hr
    have hst := path_stops he hg hf hs hne (a := .terminal k.sym) (Or.inl ⟨_, rfl⟩) hU _ _ _ hp (Nat.le_refl _)
    generalize hσ : stack.map (·.1) = σ at hst
    unfold Stops at hst
    induction hst generalizing stack xs with
    | intro σ _ ih =>
      obtain ⟨⟨top, τ⟩, l, rfl⟩ : ∃ p l, stack = p :: l := by
        cases stack with
        | nil => cases hp
        | cons p l => exact ⟨p, l, rfl⟩
      obtain ⟨es, h1, h2⟩ := hA.term top (hr top (by simp)) k.sym
      cases es with
      | nil =>
        exact ⟨1, false, ⟨(top, τ) :: l, k :: rest⟩, by simp [parse, process, standard, orUb, bind, Except.bind, h1, processActions, pure, Except.pure]⟩
      | cons e es =>
        rcases h2 e (by simp) with ⟨hty, htr⟩ | hty | hty
        · refine hstep (goes_shift he.toDet htr) (ihin _ (_ :: xs) (.push hp htr) ?_ ?_)
          · simpa using hb
          · intro s hs
            rw [List.map_cons] at hs
            rcases List.mem_cons.1 hs with rfl | hs
            · exact hA.range _ _ _ htr
            · exact hr s hs
        · obtain ⟨stack', ys, q1, q2, q3, q4, q5⟩ := hred (k :: rest) _ xs top τ l e rfl hp hb hr ⟨fun n hn => (by cases hn; exact ⟨es, h1⟩), fun hn => (by cases hn)⟩ hty
          exact hstep q1 (ih _ (hσ ▸ q2) stack' ys q3 q4 q5 rfl)
        · refine hstep (s' := ⟨(top, τ) :: l, rest⟩) ?_ (ihin _ xs hp hb hr)
          intro fuel
          simp [process, standard, orUb, bind, Except.bind, h1, processActions, hty, perform, next, pure, Except.pure]

end

section
variable {first initial : Item → List Item} {g : Gram} {okI : Item → Prop} {okR : Rule → Prop} {rid : Rule → Nat} {clos : LItem → List Item → Set1}
  {own : LItem → Set1} {lt : Key → Key → Bool} {languages : List Item} {m m' : Mach} {st : Stage} {states : List (List LrAction)} {num : Numbering}
  {sort : List TableAction → List TableAction} {sortWeak : List (Int × Int) → List (Int × Int)} {occ : Item → Prop}

local notation "T" => build num sort sortWeak states (some st.weak.strongToWeak)
set_option quotPrecheck false in
local notation "n0" => (Lalr.initials languages).states.length

/-- What is found for a token or the end of the input. -/
theorem Made.entries (h : Made first initial g okI okR rid clos own lt languages m m' st states num sort sortWeak occ) {s : Nat} {acts : List LrAction}
    (hs : states[s]? = some acts) : (∀ n, ∃ l, entriesFor T true s n = .ok l ∧ ∀ e ∈ l, ∃ c ∈ acts, c.item = .terminal n ∧ entryMeaning T e = meaning num c) ∧
    ∃ l, entriesFor T false s (num.ident .eoi) = .ok l ∧ ∀ e ∈ l, ∃ c ∈ acts, c.item = .eoi ∧ entryMeaning T e = meaning num c := by
  have hmem := List.mem_of_getElem? hs
  constructor
  · intro n
    obtain ⟨⟨l, k1, k2, -⟩, -⟩ := action_lookup_exact num sort sortWeak h.sortOk states (some st.weak.strongToWeak) h.fits s acts hs n
    refine ⟨l, entriesFor_terminal k1, fun e he => ?_⟩
    obtain ⟨c, c1, c2⟩ := List.mem_map.1 (k2.mem_iff.1 (List.mem_map.2 ⟨e, he, rfl⟩))
    obtain ⟨c3, c4⟩ := List.mem_filter.1 c1
    exact ⟨c, c3, by simpa using c4, c2.symm⟩
  · obtain ⟨-, l, k1, k2, -⟩ := action_lookup_exact num sort sortWeak h.sortOk states (some st.weak.strongToWeak) h.fits s acts hs (num.ident .eoi)
    refine ⟨l, entriesFor_nonterminal k1, fun e he => ?_⟩
    obtain ⟨c, c1, c2⟩ := List.mem_map.1 (k2.mem_iff.1 (List.mem_map.2 ⟨e, he, rfl⟩))
    obtain ⟨c3, c4⟩ := List.mem_filter.1 c1
    simp only [Bool.and_eq_true, Bool.not_eq_true', beq_iff_eq] at c4
    exact ⟨c, c3, h.inj _ _ ((h.numbered _ hmem _ c3).1 c4.1) h.occEoi c4.2, c2.symm⟩

theorem lr1c_rule {n : Nat} {s d : Nat} {r : Rule} {o : Option Item} (h : Lr1c first g m n s (⟨r, d⟩, o)) (hr : reduceType r.nonterminal = .reduce) :
    r.items ∈ closRules g r.nonterminal := by
  obtain ⟨s', e0, h1, h2⟩ := lr1c_zero h
  rcases ReflTransGen.cases_tail h2 with h | ⟨e, h3, h⟩
  · subst h
    generalize he : ((⟨r, 0⟩, o) : Elem) = e at h1
    cases h1 with
    | start => cases he; cases hr
    | guard => cases he; cases hr
    | goto => cases he
  · cases h with
    | first _ hr' _ => exact hr'
    | pass _ hr' _ => exact hr'
    | item _ hr' => exact hr'

/-- The actions for the tokens and the end of the input. -/
theorem Made.types (h : Made first initial g okI okR rid clos own lt languages m m' st states num sort sortWeak occ) (hb : Bare st) (hg : Plain g okI) {s : Nat}
    {acts : List LrAction} (hs : states[s]? = some acts) {c : LrAction} (hc : c ∈ acts) :
    (∀ n, c.item = .terminal n → (c.type = .shift ∧ ∃ s', tr m s (.terminal n) = some s' ∧ c.next = s') ∨ c.type = .reduce ∨ c.type = .ignore) ∧
    (c.item = .eoi → c.type = .reduce ∨ c.type = .accept) ∧
    (c.type = .reduce → Lr1c first g m n0 s (⟨c.rule, c.rule.items.length⟩, some c.item) ∧ reduceType c.rule.nonterminal = .reduce) := by
  obtain ⟨_, _, hm⟩ := h.machine
  obtain ⟨_, hm'⟩ := h.lookaheads
  obtain ⟨hi, -, -⟩ := completeStates_inv h.ridInj h.univ h.closOk h.starts hm
  obtain ⟨-, -, -, -, h5, h6, -⟩ := lr0_states_exact h.ridInj h.univ h.closOk h.starts hm
  have htr : ∀ s x s', tr m s x = some s' → okI x := by
    intro s x s' ht
    have hs := (h6 s x s' ht).1
    obtain ⟨-, i, hci, hx⟩ := (h5 s hs x).1 ⟨s', ht⟩
    exact h.univ.items i.rule (clos0_good h.univ (hi.good s hs) hci).1 x (List.mem_of_getElem? hx)
  have hlook : ∀ s e, Lr1c first g m n0 s e → ∀ a, e.2 = some a → Sym okI a := fun s e he =>
    (lr1_sym (lt := lt) h.ridInj h.univ h.closOk h.selfOk h.firsts h.starts hm hm' (h.inRange he) he).2
  rcases ((h.bare hb hs).2 c).1 hc with ha | ⟨h1, h2⟩
  · obtain ⟨t1, t2, t3⟩ := act_types hg hlook htr h.noEoi ha
    refine ⟨?_, fun he => (t2 he).1, ?_⟩
    · intro n hn
      have hty := (t1 (by rw [hn]; rfl)).1
      cases ha with
      | before ht hgu =>
        obtain ⟨p, l, k, n, rfl, -⟩ := hgu
        exact absurd (htr _ _ _ ht) (hg.noGuard _ _)
      | after he hgu =>
        obtain ⟨p, l, k, n, rfl, -⟩ := hgu
        rcases hlook _ _ he _ rfl with hx | hx | hx
        · exact absurd hx (hg.noGuard _ _)
        · cases hx
        · cases hx
      | shift ht =>
        dsimp only at hn
        subst hn
        exact Or.inl ⟨rfl, _, ht, rfl⟩
      | reduce he _ =>
        rcases hty with hty | hty
        · dsimp only at hty
          exfalso
          revert hty
          rename_i r _ _
          cases r.nonterminal <;> simp [reduceType]
        · exact Or.inr (Or.inl hty)
    · intro hty
      cases ha with
      | before ht hgu =>
        obtain ⟨p, l, k, n, rfl, -⟩ := hgu
        exact absurd (htr _ _ _ ht) (hg.noGuard _ _)
      | after he hgu =>
        obtain ⟨p, l, k, n, rfl, -⟩ := hgu
        rcases hlook _ _ he _ rfl with hx | hx | hx
        · exact absurd hx (hg.noGuard _ _)
        · cases hx
        · cases hx
      | @shift x _ ht =>
        exfalso
        dsimp only at hty
        cases x <;> simp [shiftType] at hty
      | reduce he _ => exact ⟨he, hty⟩
  · refine ⟨fun _ _ => Or.inr (Or.inr (by rw [h2])), ?_, fun hty => by rw [h2] at hty; cases hty⟩
    intro he
    have := (h.ignored _ h1).1
    rw [he] at this
    cases this

theorem Made.exact_of_no_conflicts (h : Made first initial g okI okR rid clos own lt languages m m' st states num sort sortWeak occ) (hb : Bare st) (hg : Plain g okI)
    (hdet : Det first g okI num m n0 T) : Exact first g okI num m n0 T := by
  obtain ⟨_, _, hm⟩ := h.machine
  obtain ⟨_, hm'⟩ := h.lookaheads
  obtain ⟨hi, -, -⟩ := completeStates_inv h.ridInj h.univ h.closOk h.starts hm
  obtain ⟨-, -, -, -, h5, h6, -⟩ := lr0_states_exact h.ridInj h.univ h.closOk h.starts hm
  obtain ⟨-, hkern, -⟩ := lookaheads_exact (lt := lt) h.ridInj h.univ h.closOk h.selfOk h.starts hm hm'
  have hout : ∀ s i, i ∈ kern m s → s < m.states.length := by
    intro s i hi
    by_contra hc
    unfold kern at hi
    rw [List.getD_eq_getElem?_getD, List.getElem?_eq_none (by omega)] at hi
    cases hi
  refine { hdet with back := ?_, clos0 := fun s e he => (h.clos0 he).1, goto0 := fun s x s' ht j hj => ((h6 s x s' ht).2.2 j).1 hj, kern0 := ?_, step0 := ?_ }
  · intro s b e hla hfe hty
    cases hst : states[s]? with
    | none =>
      rcases hla with ⟨n, rfl⟩ | rfl
      · obtain ⟨l, hl⟩ := hfe.1 n rfl
        rw [entriesFor_outside num sort sortWeak states _ s hst] at hl
        cases hl
      · obtain ⟨l, hl⟩ := hfe.2 rfl
        rw [entriesFor_outside num sort sortWeak states _ s hst] at hl
        cases hl
    | some acts =>
      obtain ⟨q1, q2⟩ := h.entries hst
      have hc : ∃ c ∈ acts, c.item = b ∧ entryMeaning T e = meaning num c := by
        rcases hla with ⟨n, rfl⟩ | rfl
        · obtain ⟨l, hl⟩ := hfe.1 n rfl
          obtain ⟨l', hl', q⟩ := q1 n
          rw [hl] at hl'
          cases hl'
          exact q e (List.mem_cons_self ..)
        · obtain ⟨l, hl⟩ := hfe.2 rfl
          obtain ⟨l', hl', q⟩ := q2
          cases hl.symm.trans hl'
          exact q e (List.mem_cons_self ..)
      obtain ⟨c, c1, c2, c3⟩ := hc
      have hct : c.type = .reduce := by
        rw [← hty]
        exact (congrArg Prod.fst c3).symm
      obtain ⟨r1, r2⟩ := (h.types hb hg hst c1).2.2 hct
      rw [c2] at r1
      exact ⟨c.rule, r1, lr1c_rule r1 r2, (entry_rule c3 (by rw [hct]; rfl)).2⟩
  · intro s i hik hz
    have := (hkern s i (hout s i hik)).1 hik
    generalize he : ((i, none) : Elem) = e at this
    cases this with
    | start => cases he; rfl
    | guard => cases he; rfl
    | goto => cases he; cases hz
  · intro s i x hc hx hne
    have hs : s < m.states.length := by
      obtain ⟨i0, h0, -⟩ := hc
      exact hout s i0 h0
    exact (h5 s hs x).2 ⟨fun he => hne (by rw [he]; rfl), i, hc, hx⟩

theorem Made.answers (h : Made first initial g okI okR rid clos own lt languages m m' st states num sort sortWeak occ) (hb : Bare st) (hg : Plain g okI) : Answers m T := by
  obtain ⟨_, _, hm⟩ := h.machine
  obtain ⟨-, -, -, -, -, h6, -⟩ := lr0_states_exact h.ridInj h.univ h.closOk h.starts hm
  have hsome : ∀ s < m.states.length, ∃ acts, states[s]? = some acts := fun s hs => ⟨_, List.getElem?_eq_getElem (by rw [h.length]; exact hs)⟩
  refine ⟨fun s x s' ht => (h6 s x s' ht).2.1, ?_, ?_⟩
  · intro s hs n
    obtain ⟨acts, hst⟩ := hsome s hs
    obtain ⟨l, q1, q2⟩ := (h.entries hst).1 n
    refine ⟨l, q1, fun e he => ?_⟩
    obtain ⟨c, c1, c2, c3⟩ := q2 e (List.mem_of_mem_head? he)
    have hty : e.type = c.type := congrArg Prod.fst c3
    rcases (h.types hb hg hst c1).1 n c2 with ⟨r1, s', r2, r3⟩ | r | r
    · obtain ⟨-, k⟩ := entry_next c3 (by rw [r1]; rfl)
      refine Or.inl ⟨hty.trans r1, ?_⟩
      rw [k, r3]
      exact r2
    · exact Or.inr (Or.inl (hty.trans r))
    · exact Or.inr (Or.inr (hty.trans r))
  · intro s hs
    obtain ⟨acts, hst⟩ := hsome s hs
    obtain ⟨l, q1, q2⟩ := (h.entries hst).2
    refine ⟨l, q1, fun e he => ?_⟩
    obtain ⟨c, c1, c2, c3⟩ := q2 e (List.mem_of_mem_head? he)
    have hty : e.type = c.type := congrArg Prod.fst c3
    rw [hty]
    exact (h.types hb hg hst c1).2.1 c2

/-- C37 (partial: as C36, and for grammars whose FIRST sets contain nothing wrong, C31). If no conflicts are reported then the parser comes to an end on every
input, without undefined behaviour. -/
theorem parser_terminates_partial (h : Made first initial g okI okR rid clos own lt languages m m' st states num sort sortWeak occ) (hb : Bare st) (hg : Plain g okI)
    (hf : ∀ x, okI x → g.FirstComplete x (first x)) (hsd : ∀ x, okI x → g.FirstSound x (first x)) {U : List Item} (hU : ∀ x, okI x → x ∈ U)
    {involved : Nat → Item → Bool} (hinv : ∀ s t, Involved first g m n0 s t → involved s t = true)
    (hcon : ∀ (s : Nat) (acts : List LrAction), states[s]? = some acts → Rewriters.findConflicts (involved s) acts = [])
    (hacc : ∀ (s : Nat) (acts : List LrAction), states[s]? = some acts → ∀ b ∈ acts, ∀ c ∈ acts, b.type = .accept → c.item = .eoi → c.type ≠ .reduce)
    {k0 : Nat} {start : Item} (hk : k0 < n0) (hS : kern m k0 = [startItem start]) (input : List Tok) :
    ∃ fuel b s', parse T fuel (Parser.start k0 input) = .ok (b, s') := by
  have hdet := h.det_of_no_conflicts hb hg hinv hcon hacc
  have hex := h.exact_of_no_conflicts hb hg hdet
  obtain ⟨_, _, hm⟩ := h.machine
  obtain ⟨-, -, h0⟩ := completeStates_inv h.ridInj h.univ h.closOk h.starts hm
  exact parse_ends hex (h.answers hb hg) hg hf hsd h.noEoi hU hS input [(k0, .nothing)] [] .one rfl (by simpa using (h0 k0 hk).1)

/-- With C35 and C36: the parser is a decision procedure for the language. -/
theorem parser_total_partial (h : Made first initial g okI okR rid clos own lt languages m m' st states num sort sortWeak occ) (hb : Bare st) (hg : Plain g okI)
    (hf : ∀ x, okI x → g.FirstComplete x (first x)) (hsd : ∀ x, okI x → g.FirstSound x (first x)) {U : List Item} (hU : ∀ x, okI x → x ∈ U)
    {involved : Nat → Item → Bool} (hinv : ∀ s t, Involved first g m n0 s t → involved s t = true)
    (hcon : ∀ (s : Nat) (acts : List LrAction), states[s]? = some acts → Rewriters.findConflicts (involved s) acts = [])
    (hacc : ∀ (s : Nat) (acts : List LrAction), states[s]? = some acts → ∀ b ∈ acts, ∀ c ∈ acts, b.type = .accept → c.item = .eoi → c.type ≠ .reduce)
    {k0 : Nat} {start : Item} (hk : k0 < n0) (hS : kern m k0 = [startItem start]) (hst : okI start) (input : List Tok) :
    ∃ fuel b s', parse T fuel (Parser.start k0 input) = .ok (b, s') ∧
      (b = true ↔ g.Derives [start] ((input.filter (fun k => decide (.terminal k.sym ∉ st.ignored))).map (fun k => .terminal k.sym))) := by
  obtain ⟨fuel, b, s', hp⟩ := parser_terminates_partial h hb hg hf hsd hU hinv hcon hacc hk hS input
  refine ⟨fuel, b, s', hp, ?_⟩
  rw [← parser_decides_partial h hb hg hf hinv hcon hacc hk hS hst input]
  constructor
  · rintro rfl
    exact ⟨fuel, s', hp⟩
  · rintro ⟨fuel', s'', hp'⟩
    have := parse_unique hp hp'
    exact congrArg Prod.fst this

end
end Sound
end TameParse

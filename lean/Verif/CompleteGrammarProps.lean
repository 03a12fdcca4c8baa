import Verif.CompleteProps
import Verif.IgnoreGrammarProps

/-!
# C36: the parser of a grammar without conflicts
-/

namespace TameParse
namespace Sound

open AssocMap Closure Relation Lalr TameParse.Parser ParserTables

/-- Everything that is made on the way from a grammar to the tables of its parser. -/
structure Made (first initial : Item → List Item) (g : Gram) (okI : Item → Prop) (okR : Rule → Prop) (rid : Rule → Nat) (clos : LItem → List Item → Set1)
    (own : LItem → Set1) (lt : Key → Key → Bool) (languages : List Item) (m m' : Mach) (st : Stage) (states : List (List LrAction)) (num : Numbering)
    (sort : List TableAction → List TableAction) (sortWeak : List (Int × Int) → List (Int × Int)) (occ : Item → Prop) : Prop where
  ridInj : Function.Injective rid
  univ : Univ first g okI okR
  noEoi : ¬ okI .eoi
  noEog : ¬ okI .eog
  starts : ∀ l ∈ languages, okR ⟨.empty, [l]⟩
  firsts : ∀ x, okI x → ∀ a ∈ first x, okI a ∨ a = .empty
  inits : ∀ p l, okI (.guard p l) → ∀ n, .terminal n ∈ initial (.guard p l) → okI (.terminal n)
  closOk : ClosOk first g okI clos
  selfOk : SelfOk first g okI own
  machine : ∃ cf fuel, completeStates rid clos cf fuel (Lalr.initials languages) = some m
  lookaheads : ∃ fuel, completeLookaheads lt own fuel m = some m'
  actions : ∀ s, s < m.states.length → ∃ fuel acts, actionsForState clos initial fuel m' s = some acts ∧ states[s]? = some (st.rewrite s acts)
  length : states.length = m.states.length
  ignored : ∀ i ∈ st.ignored, isTerminal i = true ∧ ¬ okI i
  strong : ∀ n a b, StrongOf st.weak n a → StrongOf st.weak n b → a = b
  weak : ∀ p ∈ st.weak.strongToWeak, ∀ i ∈ p.2, i ∉ st.ignored
  sortOk : IsSort compareActions sort
  sortWeakOk : IsSort (fun a b => decide (a.1 < b.1)) sortWeak
  fits : Fits num states (build num sort sortWeak states (some st.weak.strongToWeak)).numRules
  inj : ∀ x y, occ x → occ y → num.ident x = num.ident y → x = y
  occEmpty : occ .empty
  occEoi : occ .eoi
  eog : ∀ i, num.ident i = num.ident .eog → i = .eog
  numbered : ∀ acts ∈ states, ∀ a ∈ acts, Numbered occ a

section
variable {first initial : Item → List Item} {g : Gram} {okI : Item → Prop} {okR : Rule → Prop} {rid : Rule → Nat} {clos : LItem → List Item → Set1}
  {own : LItem → Set1} {lt : Key → Key → Bool} {languages : List Item} {m m' : Mach} {st : Stage} {states : List (List LrAction)} {num : Numbering}
  {sort : List TableAction → List TableAction} {sortWeak : List (Int × Int) → List (Int × Int)} {occ : Item → Prop}

/-- The tables. -/
local notation "T" => build num sort sortWeak states (some st.weak.strongToWeak)
set_option quotPrecheck false in
local notation "n0" => (Lalr.initials languages).states.length

theorem Made.tab (h : Made first initial g okI okR rid clos own lt languages m m' st states num sort sortWeak occ) :
    Tab g num m occ (fun n => .terminal n ∈ st.ignored) (StrongOf st.weak) T := by
  obtain ⟨_, _, h1⟩ := h.machine
  obtain ⟨_, h2⟩ := h.lookaheads
  exact parser_tab h.ridInj h.univ h.noEoi h.starts h.closOk h.selfOk h1 h2 h.actions h.length (fun i hi => (h.ignored i hi).1) h.strong h.sortOk h.sortWeakOk h.fits
    h.inj h.occEmpty h.occEoi h.numbered

theorem Made.sound (h : Made first initial g okI okR rid clos own lt languages m m' st states num sort sortWeak occ) {k0 : Nat} {start : Item}
    (hk : k0 < n0) (hS : kern m k0 = [startItem start]) {input : List Tok} {pf : Nat} {s' : PState} (hp : parse T pf (Parser.start k0 input) = .ok (true, s')) :
    Accepted g num (fun n => .terminal n ∈ st.ignored) (StrongOf st.weak) k0 start input s' := by
  obtain ⟨_, _, h1⟩ := h.machine
  exact parse_sound (auto_of_build h.ridInj h.univ h.closOk h.starts h1 hk hS) h.tab hp

theorem Made.ignore (h : Made first initial g okI okR rid clos own lt languages m m' st states num sort sortWeak occ) (k0 : Nat) (A B : List Tok)
    (hAB : A.filter (fun k => decide (.terminal k.sym ∉ st.ignored)) = B.filter (fun k => decide (.terminal k.sym ∉ st.ignored)))
    (r : Option (Bool × List (Nat × Tree))) : Ends T k0 A r ↔ Ends T k0 B r := by
  obtain ⟨_, _, h1⟩ := h.machine
  obtain ⟨_, h2⟩ := h.lookaheads
  exact ignored_no_effect_grammar h.ridInj h.univ h.noEog h.starts h.firsts h.inits h.closOk h.selfOk h1 h2 h.actions h.length h.ignored h.weak h.sortOk h.fits h.eog
    k0 A B hAB r

theorem Made.exact (h : Made first initial g okI okR rid clos own lt languages m m' st states num sort sortWeak occ) {s : Nat} (hs : s < m.states.length) :
    ∃ acts, (∀ b, b ∈ acts ↔ Act first g initial m n0 s b) ∧ states[s]? = some (st.rewrite s acts) := by
  obtain ⟨_, _, h1⟩ := h.machine
  obtain ⟨_, h2⟩ := h.lookaheads
  obtain ⟨_, acts, h3, h4⟩ := h.actions s hs
  exact ⟨acts, fun b => actions_exact (lt := lt) h.ridInj h.univ h.closOk h.selfOk h.starts h1 h2 hs h3 b, h4⟩

theorem Made.inRange (h : Made first initial g okI okR rid clos own lt languages m m' st states num sort sortWeak occ) {s : Nat} {e : Elem}
    (he : Lr1c first g m n0 s e) : s < m.states.length := by
  obtain ⟨_, _, h1⟩ := h.machine
  obtain ⟨hi, -, h0⟩ := completeStates_inv h.ridInj h.univ h.closOk h.starts h1
  obtain ⟨e0, he, -⟩ := he
  cases he with
  | start hk => exact (h0 _ hk).1
  | guard hk => exact (hi.guards _ _ hk).1
  | goto _ _ _ ht => exact (hi.trans _ _ _ ht).2.1

theorem Made.clos0 (h : Made first initial g okI okR rid clos own lt languages m m' st states num sort sortWeak occ) {s : Nat} {e : Elem}
    (he : Lr1c first g m n0 s e) : Clos0 g (kern m s) e.1 ∧ okR e.1.rule := by
  have hs := h.inRange he
  obtain ⟨_, _, h1⟩ := h.machine
  obtain ⟨_, h2⟩ := h.lookaheads
  obtain ⟨hi, -, h0⟩ := completeStates_inv h.ridInj h.univ h.closOk h.starts h1
  obtain ⟨-, hk, -⟩ := lookaheads_exact (lt := lt) h.ridInj h.univ h.closOk h.selfOk h.starts h1 h2
  obtain ⟨⟨i0, o0⟩, c1, c2⟩ := he
  have hc : Clos0 g (kern m s) e.1 := ⟨i0, (hk s i0 hs).2 (lr1_none c1), gen_step_path c2⟩
  exact ⟨hc, (clos0_good h.univ (hi.good s hs) hc).1⟩

/-- If no two actions of a state are for the same symbol then the one that there is comes first. -/
theorem Made.firstEntry (h : Made first initial g okI okR rid clos own lt languages m m' st states num sort sortWeak occ) {s : Nat} {acts : List LrAction}
    (hs : states[s]? = some acts) {a : LrAction} (ha : a ∈ acts) (hi : isTerminal a.item = true ∨ a.item = .eoi) :
    ∃ e c, FirstEntry T s a.item e ∧ c ∈ acts ∧ c.item = a.item ∧ entryMeaning T e = meaning num c := by
  have hmem := List.mem_of_getElem? hs
  rcases hi with hi | hi
  · cases hai : a.item with
    | terminal n =>
      obtain ⟨⟨l, k1, k2, -⟩, -⟩ := action_lookup_exact num sort sortWeak h.sortOk states (some st.weak.strongToWeak) h.fits s acts hs n
      have k3 := entriesFor_terminal k1
      have k4 := k2.mem_iff.2 (List.mem_map.2 ⟨a, List.mem_filter.2 ⟨ha, by simp [hai]⟩, rfl⟩)
      cases l with
      | nil => cases k4
      | cons e l =>
        obtain ⟨c, c1, c2⟩ := List.mem_map.1 (k2.mem_iff.1 (List.mem_map.2 ⟨e, List.mem_cons_self .., rfl⟩))
        obtain ⟨c3, c4⟩ := List.mem_filter.1 c1
        refine ⟨e, c, ⟨fun n' hn => ?_, fun hn => by cases hn⟩, c3, by simpa using c4, c2.symm⟩
        cases hn
        exact ⟨l, k3⟩
    | _ => rw [hai] at hi; cases hi
  · obtain ⟨-, l, k1, k2, -⟩ := action_lookup_exact num sort sortWeak h.sortOk states (some st.weak.strongToWeak) h.fits s acts hs (num.ident .eoi)
    have k3 := entriesFor_nonterminal k1
    have k4 := k2.mem_iff.2 (List.mem_map.2 ⟨a, List.mem_filter.2 ⟨ha, by simp [hi, isTerminal]⟩, rfl⟩)
    cases l with
    | nil => cases k4
    | cons e l =>
      obtain ⟨c, c1, c2⟩ := List.mem_map.1 (k2.mem_iff.1 (List.mem_map.2 ⟨e, List.mem_cons_self .., rfl⟩))
      obtain ⟨c3, c4⟩ := List.mem_filter.1 c1
      simp only [Bool.and_eq_true, Bool.not_eq_true', beq_iff_eq] at c4
      have c5 : c.item = .eoi := h.inj _ _ ((h.numbered _ hmem _ c3).1 c4.1) h.occEoi c4.2
      refine ⟨e, c, ⟨fun n' hn => ?_, fun hn => ⟨l, k3⟩⟩, c3, by rw [c5, hi], c2.symm⟩
      rw [hi] at hn
      cases hn

/-- The tables of a parser whose actions are those of the automaton, one for each symbol. -/
theorem Made.det (h : Made first initial g okI okR rid clos own lt languages m m' st states num sort sortWeak occ)
    (hkeep : ∀ (s : Nat) (acts : List LrAction), states[s]? = some acts → ∀ a, Act first g initial m n0 s a → a.type ≠ .guard → a ∈ acts)
    (hone : ∀ (s : Nat) (acts : List LrAction), states[s]? = some acts → ∀ b ∈ acts, ∀ c ∈ acts, b.item = c.item → isTerminal b.item = true ∨ b.item = .eoi →
      b = c ∨ (b.type = .accept ∧ c.type = .accept)) : Det first g okI num m n0 T := by
  obtain ⟨_, _, h1⟩ := h.machine
  obtain ⟨_, h2⟩ := h.lookaheads
  obtain ⟨-, -, -, -, h5, h6, -⟩ := lr0_states_exact h.ridInj h.univ h.closOk h.starts h1
  have hact : ∀ s a, s < m.states.length → Act first g initial m n0 s a → a.type ≠ .guard → isTerminal a.item = true ∨ a.item = .eoi →
      ∃ e c, FirstEntry T s a.item e ∧ entryMeaning T e = meaning num c ∧ (a = c ∨ (a.type = .accept ∧ c.type = .accept)) := by
    intro s a hs ha hg hi
    obtain ⟨acts, -, hst⟩ := h.exact hs
    have hmem := hkeep s _ hst a ha hg
    obtain ⟨e, c, q1, q2, q3, q4⟩ := h.firstEntry hst hmem hi
    exact ⟨e, c, q1, q4, hone s _ hst a hmem c q2 q3.symm hi⟩
  constructor
  · intro s e he
    exact h.univ.items _ (h.clos0 he).2
  · intro s e x he hx
    have hok := h.univ.items _ (h.clos0 he).2 x (List.mem_of_getElem? hx)
    exact (h5 s (h.inRange he) x).2 ⟨h.univ.proper.empty x hok, e.1, (h.clos0 he).1, hx⟩
  · intro s n s' ht
    obtain ⟨e, c, q1, q2, q3⟩ := hact s _ (h6 s _ _ ht).1 (.shift ht) (by simp [shiftType]) (Or.inl rfl)
    rcases q3 with rfl | ⟨q3, -⟩
    · obtain ⟨r1, r2⟩ := entry_next q2 rfl
      exact ⟨e, q1, r1, by rw [r2]; rfl⟩
    · cases q3
  · intro s r b he hne hb
    have hty : reduceType r.nonterminal = .reduce := by
      cases hn : r.nonterminal <;> first | rfl | (rw [hn] at hne; exact absurd rfl hne)
    have hb' : reduceSymbol b = true ∧ (isTerminal b = true ∨ b = .eoi) := by
      rcases hb with ⟨n, rfl⟩ | rfl
      · exact ⟨rfl, Or.inl rfl⟩
      · exact ⟨rfl, Or.inr rfl⟩
    obtain ⟨e, c, q1, q2, q3⟩ := hact s ⟨reduceType r.nonterminal, b, -1, r⟩ (h.inRange he) (.reduce he hb'.1) (by rw [hty]; simp) hb'.2
    rcases q3 with rfl | ⟨q3, -⟩
    · obtain ⟨r1, r2⟩ := entry_rule q2 (by simp [hty, isReduce])
      exact ⟨e, q1, r1.trans hty, r2⟩
    · rw [hty] at q3; cases q3
  · intro s r he hem
    have hty : reduceType r.nonterminal = .accept := by rw [hem]; rfl
    obtain ⟨e, c, q1, q2, q3⟩ := hact s ⟨reduceType r.nonterminal, .eoi, -1, r⟩ (h.inRange he) (.reduce he rfl) (by rw [hty]; simp) (Or.inr rfl)
    refine ⟨e, q1, ?_⟩
    have : e.type = c.type := congrArg Prod.fst q2
    rw [this]
    rcases q3 with rfl | ⟨-, q3⟩
    · exact hty
    · exact q3
  · intro s x s' ht hx
    refine h.tab.goto s x s' ht ?_ ?_
    · cases x <;> first | rfl | (exact absurd rfl hx)
    · rintro p l rfl
      exact hx rfl

/-! Rewriters that have nothing to do -/

/-- A language without precedences, weak symbols, conflict attributes and LR(1) resolver. -/
structure Bare (st : Stage) : Prop where
  precs : st.precs = []
  weak : st.weak.strongToWeak = []
  attributes : ∀ s, ∀ p ∈ st.attributes s, p.2 = none
  targets : st.targets = none

theorem attributes_none {closure : List (Item × Option Rewriters.Resolve)} (h : ∀ p ∈ closure, p.2 = none) (actions : List LrAction) :
    Rewriters.rewriteAttributes closure actions = actions := by
  have hloop : ∀ (t : Item) (l : List (Item × Option Rewriters.Resolve)), (∀ p ∈ l, p.2 = none) → Rewriters.resolveLoop t l none = none := by
    intro t l
    induction l with
    | nil => exact fun _ => rfl
    | cons p l ih =>
      intro hl
      obtain ⟨x, a⟩ := p
      have ha : a = none := hl _ (List.mem_cons_self ..)
      subst ha
      have := ih (fun p hp => hl p (List.mem_cons_of_mem _ hp))
      simp [Rewriters.resolveLoop, this]
  have hstep : ∀ (all acts : List LrAction) (t : Item), Rewriters.attributeStep closure all acts t = acts := by
    intro all acts t
    unfold Rewriters.attributeStep
    rw [hloop t closure h]
    simp
  unfold Rewriters.rewriteAttributes
  have : ∀ (ts : List Item) (acts : List LrAction), ts.foldl (Rewriters.attributeStep closure actions) acts = acts := by
    intro ts
    induction ts with
    | nil => exact fun _ => rfl
    | cons t ts ih => intro acts; rw [List.foldl_cons, hstep, ih]
  exact this _ _

theorem bare_rewrite (h : Bare st) (s : Nat) (acts : List LrAction) : st.rewrite s acts = Rewriters.rewriteIgnored st.ignored s acts := by
  have hw : ∀ l, Rewriters.rewriteWeak st.weak l = l := by
    intro l
    refine Rewriters.weak_rewrite_none _ _ ?_
    unfold Rewriters.haveStrong Rewriters.Weak.find
    rw [h.weak]
    simp
  unfold Stage.rewrite Stage.applyLr1
  rw [h.precs, h.targets]
  simp only [List.foldl_nil, hw, attributes_none (h.attributes s)]

/-- The actions for tokens are those of the automaton. -/
theorem Made.bare (h : Made first initial g okI okR rid clos own lt languages m m' st states num sort sortWeak occ) (hb : Bare st) {s : Nat} {acts : List LrAction}
    (hs : states[s]? = some acts) : s < m.states.length ∧
    ∀ b, b ∈ acts ↔ Act first g initial m n0 s b ∨ (b.item ∈ st.ignored ∧ b = ⟨.ignore, b.item, s, Rewriters.emptyRule⟩) := by
  have hlt : s < m.states.length := by
    rw [← h.length]
    by_contra hc
    rw [List.getElem?_eq_none (by omega)] at hs
    cases hs
  refine ⟨hlt, fun b => ?_⟩
  obtain ⟨acts', h1, h2⟩ := h.exact hlt
  rw [h2] at hs
  cases hs
  obtain ⟨_, _, hm⟩ := h.machine
  obtain ⟨_, hm'⟩ := h.lookaheads
  have hno : ∀ a ∈ acts', a.item ∉ st.ignored := by
    intro a ha hi
    rcases act_sym h.ridInj h.univ h.closOk h.selfOk h.firsts h.inits h.starts hm hm' hlt ((h1 a).1 ha) with h3 | h3 | h3
    · exact (h.ignored _ hi).2 h3
    · have := (h.ignored _ hi).1
      rw [h3] at this
      cases this
    · have := (h.ignored _ hi).1
      rw [h3] at this
      cases this
  rw [bare_rewrite hb, Rewriters.ignored_rewrite_exact, ← h1]
  constructor
  · rintro (⟨h3, -⟩ | ⟨c, h3, -, h4, -⟩ | ⟨h3, h4, -⟩)
    · exact Or.inl h3
    · exact absurd h4 (hno c h3)
    · exact Or.inr ⟨h4, h3⟩
  · rintro (h3 | ⟨h3, h4⟩)
    · exact Or.inl ⟨h3, fun h4 => hno b h3 h4.2⟩
    · exact Or.inr (Or.inr ⟨h4, h3, fun c hc he => absurd (he ▸ h3) (hno c hc)⟩)

/-- The tokens that take part in a conflict: those that some item of the state can shift, or that are in the lookahead of some item that can be
reduced (conflict.cpp 156-229). -/
def Involved (first : Item → List Item) (g : Gram) (m : Mach) (n : Nat) (s : Nat) (t : Item) : Prop :=
  (∃ s', tr m s t = some s') ∨ ∃ r : Rule, Lr1c first g m n s (⟨r, r.items.length⟩, some t)

/-- Without guards an action for a token is a shift or a reduction, and one for the end of input a reduction or accepts. -/
theorem act_types (hg : Plain g okI) (hlook : ∀ s e, Lr1c first g m n0 s e → ∀ a, e.2 = some a → Sym okI a) (htr : ∀ s x s', tr m s x = some s' → okI x)
    (hne : ¬ okI .eoi) {s : Nat} {b : LrAction} (hb : Act first g initial m n0 s b) :
    (isTerminal b.item = true → (b.type = .shift ∨ b.type = .reduce) ∧ Involved first g m n0 s b.item) ∧
    (b.item = .eoi → (b.type = .reduce ∨ b.type = .accept) ∧ Involved first g m n0 s b.item) ∧ b.type ≠ .guard := by
  have hgu : ∀ {x : Item}, Sym okI x → ¬ GuardAct initial m x b := by
    rintro x hx ⟨p, l, k, n, rfl, -⟩
    rcases hx with hx | hx | hx
    · exact hg.noGuard _ _ hx
    · cases hx
    · cases hx
  cases hb with
  | before ht hg => exact absurd hg (hgu (Or.inl (htr _ _ _ ht)))
  | after he hg => exact absurd hg (hgu (hlook _ _ he _ rfl))
  | @shift x t ht =>
    refine ⟨fun hx => ?_, fun hx => ?_, ?_⟩
    · dsimp only at hx ⊢
      cases x <;> first | exact ⟨Or.inl rfl, Or.inl ⟨_, ht⟩⟩ | exact absurd hx (by decide) | cases hx
    · dsimp only at hx
      subst hx
      exact absurd (htr _ _ _ ht) hne
    · dsimp only
      cases x <;> simp [shiftType]
  | @reduce r a he ha =>
    have hin : Involved first g m n0 s a := Or.inr ⟨r, he⟩
    have hty : reduceType r.nonterminal = .reduce ∨ reduceType r.nonterminal = .accept := by
      cases r.nonterminal <;> first | exact Or.inl rfl | exact Or.inr rfl
    refine ⟨fun hx => ⟨?_, hin⟩, fun _ => ⟨hty, hin⟩, ?_⟩
    · dsimp only at hx ⊢
      cases hn : r.nonterminal with
      | empty =>
        have := (lr1c_special he).1 hn a rfl
        subst this
        cases hx
      | guard p l =>
        have := (lr1c_special he).2 p l hn a rfl
        subst this
        cases hx
      | _ => exact Or.inr rfl
    · dsimp only
      rcases hty with h | h <;> rw [h] <;> simp

open Rewriters in
/-- Two actions that take part in a conflict are found. -/
theorem conflict_found {involved : Item → Bool} {acts : List LrAction} {b c : LrAction} (hb : b ∈ acts) (hc : c ∈ acts) (hbc : b ≠ c) (hi : b.item = c.item)
    (ht : ∀ a ∈ acts, a.item = b.item → counted a.type = true → isWeak a.type = false) (h1 : counted b.type = true) (h2 : counted c.type = true)
    (hin : involved b.item = true) : b.item ∈ findConflicts involved acts := by
  unfold findConflicts
  dsimp only
  have hb' : b ∈ acts.filter (fun a => counted a.type) := List.mem_filter.2 ⟨hb, h1⟩
  have hc' : c ∈ acts.filter (fun a => counted a.type) := List.mem_filter.2 ⟨hc, h2⟩
  have hmem : ∀ a ∈ acts.filter (fun a => counted a.type), a.item = b.item → isWeak a.type = false := fun a ha he =>
    ht a (List.mem_filter.1 ha).1 he (List.mem_filter.1 ha).2
  generalize acts.filter (fun a => counted a.type) = l at hb' hc' hmem ⊢
  refine List.mem_filter.2 ⟨(mem_foldl_add _ _ _).2 (Or.inr (List.mem_map.2 ⟨b, hb', rfl⟩)), ?_⟩
  have hbm : b ∈ l.filter (fun a => decide (a.item = b.item)) := List.mem_filter.2 ⟨hb', by simp⟩
  have hcm : c ∈ l.filter (fun a => decide (a.item = b.item)) := List.mem_filter.2 ⟨hc', by simp [hi]⟩
  have hw : (l.filter (fun a => decide (a.item = b.item))).filter (fun a => isWeak a.type) = [] := by
    rw [List.filter_eq_nil_iff]
    intro a ha
    have := List.mem_filter.1 ha
    rw [hmem a this.1 (by simpa using this.2)]
    simp
  rw [hw]
  have hlen : 2 ≤ (l.filter (fun a => decide (a.item = b.item))).length := by
    generalize l.filter (fun a => decide (a.item = b.item)) = k at hbm hcm
    match k, hbm, hcm with
    | [x], hbm, hcm => exact absurd ((List.mem_singleton.1 hbm).trans (List.mem_singleton.1 hcm).symm) hbc
    | _ :: _ :: _, _, _ => simp
  simp [hlen, hin]

/-- The tables of a parser for which no conflicts are reported. -/
theorem Made.det_of_no_conflicts (h : Made first initial g okI okR rid clos own lt languages m m' st states num sort sortWeak occ) (hb : Bare st) (hg : Plain g okI)
    {involved : Nat → Item → Bool} (hinv : ∀ s t, Involved first g m n0 s t → involved s t = true)
    (hcon : ∀ (s : Nat) (acts : List LrAction), states[s]? = some acts → Rewriters.findConflicts (involved s) acts = [])
    (hacc : ∀ (s : Nat) (acts : List LrAction), states[s]? = some acts → ∀ b ∈ acts, ∀ c ∈ acts, b.type = .accept → c.item = .eoi → c.type ≠ .reduce) :
    Det first g okI num m n0 T := by
  obtain ⟨_, _, hm⟩ := h.machine
  obtain ⟨_, hm'⟩ := h.lookaheads
  obtain ⟨hi, -, -⟩ := completeStates_inv h.ridInj h.univ h.closOk h.starts hm
  obtain ⟨-, -, -, -, h5, h6, -⟩ := lr0_states_exact h.ridInj h.univ h.closOk h.starts hm
  have htr : ∀ s x s', tr m s x = some s' → okI x := by
    intro s x s' ht
    have hs := (h6 s x s' ht).1
    obtain ⟨-, i, hci, hx⟩ := (h5 s hs x).1 ⟨s', ht⟩
    exact h.univ.items i.rule (clos0_good h.univ (hi.good s hs) hci).1 x (List.mem_of_getElem? hx)
  have hlook : ∀ s e, Lr1c first g m n0 s e → ∀ a, e.2 = some a → Sym okI a := fun s e he =>
    (lr1_sym (lt := lt) h.ridInj h.univ h.closOk h.selfOk h.firsts h.starts hm hm' (h.inRange he) he).2
  have hty := fun s b => act_types (initial := initial) (s := s) (b := b) hg hlook htr h.noEoi
  refine h.det ?_ ?_
  · intro s acts hs a ha _
    exact ((h.bare hb hs).2 a).2 (Or.inl ha)
  · intro s acts hs b hbm c hcm hbc hbi
    have hb1 := ((h.bare hb hs).2 b).1 hbm
    have hc1 := ((h.bare hb hs).2 c).1 hcm
    have hnot : ∀ a, Act first g initial m n0 s a → a.item ∉ st.ignored := by
      intro a ha him
      rcases act_sym h.ridInj h.univ h.closOk h.selfOk h.firsts h.inits h.starts hm hm' (h.bare hb hs).1 ha with h3 | h3 | h3
      · exact (h.ignored _ him).2 h3
      · have := (h.ignored _ him).1
        rw [h3] at this
        cases this
      · have := (h.ignored _ him).1
        rw [h3] at this
        cases this
    rcases hb1 with hb1 | ⟨hb1, hb2⟩
    · rcases hc1 with hc1 | ⟨hc1, hc2⟩
      · obtain ⟨b1, b2, b3⟩ := hty s b hb1
        obtain ⟨c1, c2, c3⟩ := hty s c hc1
        by_contra hne
        rw [not_or] at hne
        have hall : ∀ a ∈ acts, a.item = b.item → Rewriters.counted a.type = true → Rewriters.isWeak a.type = false := by
          intro a ha hai hct
          rcases ((h.bare hb hs).2 a).1 ha with ha | ⟨-, ha⟩
          · obtain ⟨a1, a2, -⟩ := hty s a ha
            rcases hbi with hbi | hbi
            · rcases (a1 (hai ▸ hbi)).1 with h | h <;> rw [h] <;> rfl
            · rcases (a2 (hai.trans hbi)).1 with h | h <;> rw [h] <;> rfl
          · rw [ha] at hct
            cases hct
        have hfin : Rewriters.counted b.type = true → Rewriters.counted c.type = true → Involved first g m n0 s b.item → False := by
          intro k1 k2 k3
          have := conflict_found (involved := involved s) hbm hcm hne.1 hbc hall k1 k2 (hinv s _ k3)
          rw [hcon s acts hs] at this
          cases this
        rcases hbi with hbi | hbi
        · obtain ⟨b1, b4⟩ := b1 hbi
          obtain ⟨c1, -⟩ := c1 (hbc ▸ hbi)
          refine hfin ?_ ?_ b4
          · rcases b1 with h | h <;> rw [h] <;> rfl
          · rcases c1 with h | h <;> rw [h] <;> rfl
        · obtain ⟨b2, b4⟩ := b2 hbi
          obtain ⟨c2, -⟩ := c2 (hbc ▸ hbi)
          rcases b2 with b2 | b2
          · rcases c2 with c2 | c2
            · exact hfin (by rw [b2]; rfl) (by rw [c2]; rfl) b4
            · exact hacc s acts hs c hcm b hbm c2 hbi b2
          · rcases c2 with c2 | c2
            · exact hacc s acts hs b hbm c hcm b2 (hbc ▸ hbi) c2
            · exact hne.2 ⟨b2, c2⟩
      · exact absurd (hbc ▸ hc1) (hnot b hb1)
    · rcases hc1 with hc1 | ⟨hc1, hc2⟩
      · exact absurd (hbc ▸ hb1) (hnot c hc1)
      · left
        rw [hb2, hc2, hbc]

/-- C36 (partial: grammars without guards for which the computed FIRST sets are complete, C32, languages without rewriters that remove actions, and
states that do not both accept and reduce at the end of input, which is not reported as a conflict, C46). If no conflicts are reported then the parser
accepts every sentence, with ignored tokens anywhere, and makes a derivation tree of it. -/
theorem parser_complete_partial (h : Made first initial g okI okR rid clos own lt languages m m' st states num sort sortWeak occ) (hb : Bare st) (hg : Plain g okI)
    (hf : ∀ x, okI x → g.FirstComplete x (first x)) {involved : Nat → Item → Bool} (hinv : ∀ s t, Involved first g m n0 s t → involved s t = true)
    (hcon : ∀ (s : Nat) (acts : List LrAction), states[s]? = some acts → Rewriters.findConflicts (involved s) acts = [])
    (hacc : ∀ (s : Nat) (acts : List LrAction), states[s]? = some acts → ∀ b ∈ acts, ∀ c ∈ acts, b.type = .accept → c.item = .eoi → c.type ≠ .reduce)
    {k0 : Nat} {start : Item} (hk : k0 < n0) (hS : kern m k0 = [startItem start]) (hst : okI start) {input : List Tok}
    (hd : g.Derives [start] ((input.filter (fun k => decide (.terminal k.sym ∉ st.ignored))).map (fun k => .terminal k.sym))) :
    ∃ fuel s τ rest, parse T fuel (Parser.start k0 input) = .ok (true, ⟨[(s, τ), (k0, .nothing)], rest⟩) ∧
      Forest g num [start] [τ] (input.filter (fun k => decide (.terminal k.sym ∉ st.ignored))) := by
  have hdet := h.det_of_no_conflicts hb hg hinv hcon hacc
  obtain ⟨ts, hfo⟩ := forest_of_derives (num := num) hg hd (by simpa using hst) rfl
  have hlen : ∃ τ, ts = [τ] := by
    generalize hx : [start] = xs at hfo
    have hl : ts.length = xs.length := by
      clear hx hd
      generalize input.filter (fun k => decide (.terminal k.sym ∉ st.ignored)) = w at hfo
      induction hfo with
      | nil => rfl
      | token _ ih => simp [ih]
      | guard _ ih => simp [ih]
      | node _ _ _ _ ih => simp [ih]
    rw [← hx] at hl
    exact List.length_eq_one_iff.1 hl
  obtain ⟨τ, rfl⟩ := hlen
  obtain ⟨fuel, s, hp⟩ := parse_complete hdet hg hf hk hS hfo
  have hends : Ends T k0 (input.filter (fun k => decide (.terminal k.sym ∉ st.ignored))) (some (true, [(s, τ), (k0, .nothing)])) := .result hp
  have := (h.ignore k0 input _ (by simp) _).2 hends
  generalize hr : some (true, [(s, τ), (k0, Tree.nothing)]) = r at this
  cases this with
  | undefined => cases hr
  | @result f b s' hp' =>
    obtain ⟨stk, rest⟩ := s'
    cases hr
    exact ⟨f, s, τ, rest, hp', hfo⟩

/-- With C35: the parser accepts just the sentences of the grammar. -/
theorem parser_decides_partial (h : Made first initial g okI okR rid clos own lt languages m m' st states num sort sortWeak occ) (hb : Bare st) (hg : Plain g okI)
    (hf : ∀ x, okI x → g.FirstComplete x (first x)) {involved : Nat → Item → Bool} (hinv : ∀ s t, Involved first g m n0 s t → involved s t = true)
    (hcon : ∀ (s : Nat) (acts : List LrAction), states[s]? = some acts → Rewriters.findConflicts (involved s) acts = [])
    (hacc : ∀ (s : Nat) (acts : List LrAction), states[s]? = some acts → ∀ b ∈ acts, ∀ c ∈ acts, b.type = .accept → c.item = .eoi → c.type ≠ .reduce)
    {k0 : Nat} {start : Item} (hk : k0 < n0) (hS : kern m k0 = [startItem start]) (hst : okI start) (input : List Tok) :
    (∃ fuel s', parse T fuel (Parser.start k0 input) = .ok (true, s')) ↔
      g.Derives [start] ((input.filter (fun k => decide (.terminal k.sym ∉ st.ignored))).map (fun k => .terminal k.sym)) := by
  constructor
  · rintro ⟨fuel, s', hp⟩
    obtain ⟨-, τ, w, -, -, hr, hfo⟩ := h.sound hk hS hp
    have hxs : ∀ x ∈ [start], okI x := by simpa using hst
    -- no ignored token is in the tree
    have hok : ∀ k ∈ w, okI (.terminal k.sym) := by
      clear hr hp
      generalize [start] = xs at hfo hxs
      generalize [τ] = ts at hfo
      induction hfo with
      | nil => exact fun _ h => by cases h
      | token _ ih =>
        intro k hk
        rcases List.mem_cons.1 hk with rfl | hk
        · exact hxs _ (List.mem_cons_self ..)
        · exact ih (fun x hx => hxs x (List.mem_cons_of_mem _ hx)) k hk
      | guard _ ih => exact ih (fun x hx => hxs x (List.mem_cons_of_mem _ hx))
      | node hr _ _ ih1 ih2 =>
        intro k hk
        rcases List.mem_append.1 hk with hk | hk
        · exact ih1 (flatten_ok hg (hxs _ (List.mem_cons_self ..)) hr) k hk
        · exact ih2 (fun x hx => hxs x (List.mem_cons_of_mem _ hx)) k hk
    have hw : w = input.filter (fun k => decide (.terminal k.sym ∉ st.ignored)) := by
      clear hfo hp
      induction hr with
      | nil => rfl
      | @keep k u w _ ih =>
        have hk : Item.terminal k.sym ∉ st.ignored := fun hc => (h.ignored _ hc).2 (hok k (List.mem_cons_self ..))
        rw [List.filter_cons, if_pos (by simpa using hk), ← ih (fun k hk => hok k (List.mem_cons_of_mem _ hk))]
      | @strong k n u w hn =>
        obtain ⟨ws, hn, -⟩ := hn
        rw [hb.weak] at hn
        cases hn
      | @skip k u w hk _ ih =>
        rw [List.filter_cons, if_neg (by simpa using hk), ← ih hok]
    rw [← hw]
    exact hfo.plain hg hxs
  · intro hd
    obtain ⟨fuel, s, τ, rest, hp, -⟩ := parser_complete_partial h hb hg hf hinv hcon hacc hk hS hst hd
    exact ⟨fuel, _, hp⟩

end
end Sound
end TameParse

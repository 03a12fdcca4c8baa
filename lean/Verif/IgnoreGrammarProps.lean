import Verif.SoundGrammarProps
import Verif.IgnoreProps

/-!
# C38: ignored tokens that the grammar does not use
-/

namespace TameParse
namespace Sound

open AssocMap Closure Relation Lalr TameParse.Parser ParserTables

section
variable {rid : Rule → Nat} {clos : LItem → List Item → Set1} {self : LItem → Set1} {first initial : Item → List Item} {g : Gram} {okI : Item → Prop}
  {okR : Rule → Prop} {m : Mach}

/-! Lookaheads are items of the grammar or stand for an end -/

/-- An item of the grammar, or one of the two that stand for an end. -/
def Sym (okI : Item → Prop) (a : Item) : Prop := okI a ∨ a = .eoi ∨ a = .eog

theorem gen_sym (hU : Univ first g okI okR) (hf : ∀ x, okI x → ∀ a ∈ first x, okI a ∨ a = .empty) {e e' : Elem} (h : ReflTransGen (Gen first g) e e')
    (he : okR e.1.rule ∧ ∀ a, e.2 = some a → Sym okI a) : okR e'.1.rule ∧ ∀ a, e'.2 = some a → Sym okI a := by
  induction h with
  | refl => exact he
  | tail _ hs ih =>
    cases hs with
    | item hx hr => exact ⟨hU.clos _ (hU.items _ ih.1 _ (List.mem_of_getElem? hx)) _ hr, fun a ha => by cases ha⟩
    | first hx hr hb =>
      refine ⟨hU.clos _ (hU.items _ ih.1 _ (List.mem_of_getElem? hx)) _ hr, ?_⟩
      rintro a ha
      cases ha
      obtain ⟨u, y, v, e1, -, e2, e3⟩ := hb
      have hy : okI y := by
        have hm : y ∈ u ++ y :: v := List.mem_append_right _ (List.mem_cons_self ..)
        rw [← e1] at hm
        exact hU.items _ ih.1 y (List.mem_of_mem_drop hm)
      rcases hf y hy _ e2 with h | h
      · exact Or.inl h
      · exact absurd h e3
    | pass hx hr hn =>
      refine ⟨hU.clos _ (hU.items _ ih.1 _ (List.mem_of_getElem? hx)) _ hr, ?_⟩
      rintro a ha
      cases ha
      exact ih.2 _ rfl

theorem lr1_sym (hr : Function.Injective rid) (hU : Univ first g okI okR) (hc : ClosOk first g okI clos) (hself : SelfOk first g okI self)
    (hf : ∀ x, okI x → ∀ a ∈ first x, okI a ∨ a = .empty) {languages : List Item} (hl : ∀ l ∈ languages, okR ⟨.empty, [l]⟩) {lt : Key → Key → Bool}
    {cf fuel fuel' : Nat} {m' : Mach} (h : completeStates rid clos cf fuel (initials languages) = some m) (h' : completeLookaheads lt self fuel' m = some m')
    {s : Nat} (hs : s < m.states.length) {e : Elem} (he : Lr1c first g m (initials languages).states.length s e) :
    okR e.1.rule ∧ ∀ a, e.2 = some a → Sym okI a := by
  obtain ⟨hi, -, -⟩ := completeStates_inv hr hU hc hl h
  obtain ⟨-, -, -, -, -, h6, -⟩ := lr0_states_exact hr hU hc hl h
  obtain ⟨-, hk, -⟩ := lookaheads_exact (lt := lt) hr hU hc hself hl h h'
  have key : ∀ {s : Nat} {e : Elem}, Lr1 first g m (initials languages).states.length s e → s < m.states.length → okR e.1.rule ∧ ∀ a, e.2 = some a → Sym okI a := by
    intro s e he
    have hgood : ∀ {i : LItem} {o : Option Item} {s : Nat}, s < m.states.length → Lr1 first g m (initials languages).states.length s (i, o) → okR i.rule :=
      fun {i o s} hs h => (hi.good s hs i ((hk s i hs).2 (lr1_none h))).1
    induction he with
    | start hk' hl' ho => exact fun hs => ⟨hgood hs (.start hk' hl' ho), fun a ha => Or.inr (Or.inl (ho a ha))⟩
    | guard hk' ho => exact fun hs => ⟨hgood hs (.guard hk' ho), fun a ha => Or.inr (Or.inr (ho a ha))⟩
    | goto h1 h2 hx ht ih =>
      intro _
      have := gen_sym hU hf h2 (ih (h6 _ _ _ ht).1)
      exact this
  obtain ⟨e0, h1, h2⟩ := he
  exact gen_sym hU hf h2 (key h1 hs)

/-- The item of an action is one of the grammar, one of the ends, or begins a guard. -/
theorem act_sym (hr : Function.Injective rid) (hU : Univ first g okI okR) (hc : ClosOk first g okI clos) (hself : SelfOk first g okI self)
    (hf : ∀ x, okI x → ∀ a ∈ first x, okI a ∨ a = .empty) (hin : ∀ p l, okI (.guard p l) → ∀ n, .terminal n ∈ initial (.guard p l) → okI (.terminal n))
    {languages : List Item} (hl : ∀ l ∈ languages, okR ⟨.empty, [l]⟩) {lt : Key → Key → Bool} {cf fuel fuel' : Nat} {m' : Mach}
    (h : completeStates rid clos cf fuel (initials languages) = some m) (h' : completeLookaheads lt self fuel' m = some m') {s : Nat} (hs : s < m.states.length)
    {b : LrAction} (hb : Act first g initial m (initials languages).states.length s b) : Sym okI b.item := by
  obtain ⟨hi, -, -⟩ := completeStates_inv hr hU hc hl h
  obtain ⟨-, -, -, -, h5, -, -⟩ := lr0_states_exact hr hU hc hl h
  have htr : ∀ {x t}, tr m s x = some t → okI x := by
    intro x t ht
    obtain ⟨-, i, hci, hx⟩ := (h5 s hs x).1 ⟨t, ht⟩
    exact hU.items i.rule (clos0_good hU (hi.good s hs) hci).1 x (List.mem_of_getElem? hx)
  have hguard : ∀ {x : Item}, Sym okI x → GuardAct initial m x b → Sym okI b.item := by
    rintro x hx ⟨p, l, k, n, rfl, -, hn, rfl⟩
    rcases hx with hx | hx | hx
    · exact Or.inl (hin p l hx n hn)
    · cases hx
    · cases hx
  cases hb with
  | before ht hg => exact hguard (Or.inl (htr ht)) hg
  | after he hg => exact hguard ((lr1_sym hr hU hc hself hf hl h h' hs he).2 _ rfl) hg
  | shift ht => exact Or.inl (htr ht)
  | reduce he _ => exact (lr1_sym hr hU hc hself hf hl h h' hs he).2 _ rfl

end

/-! The rewriters -/

open Rewriters in
theorem attributes_terminal (closure : List (Item × Option Resolve)) (actions : List LrAction) {b : LrAction} (hb : b ∈ rewriteAttributes closure actions) :
    b ∈ actions ∨ ∃ a ∈ actions, isTerminal a.item = true ∧ a.type = .reduce ∧ b = weaken a := by
  have key : ∀ (ts : List Item) (acts : List LrAction), (∀ t ∈ ts, isTerminal t = true) → b ∈ ts.foldl (attributeStep closure actions) acts →
      b ∈ acts ∨ ∃ a ∈ actions, isTerminal a.item = true ∧ a.type = .reduce ∧ b = weaken a := by
    intro ts
    induction ts with
    | nil => exact fun acts _ h => Or.inl h
    | cons t ts ih =>
      intro acts ht h
      rcases ih _ (fun t' h' => ht t' (List.mem_cons_of_mem _ h')) h with h | h
      · unfold attributeStep at h
        dsimp only at h
        split at h
        · exact Or.inl h
        · split at h
          · exact Or.inl h
          · split at h
            · exact Or.inl h
            · rename_i r _
              split at h
              · exact Or.inl h
              · rcases (resolveAct_fold r b _ acts).1 h with h | ⟨-, a, ha, h1, h2⟩
                · exact Or.inl h.1
                · have h3 := List.mem_filter.1 ha
                  refine Or.inr ⟨a, h3.1, ?_, h1, h2⟩
                  rw [of_decide_eq_true h3.2]
                  exact ht t (List.mem_cons_self ..)
      · exact Or.inr h
  refine key _ _ ?_ hb
  intro t ht
  rcases (mem_foldl_add _ _ t).1 ht with h | h
  · cases h
  · obtain ⟨a, h1, rfl⟩ := List.mem_map.1 h
    exact (List.mem_filter.1 h1).2

theorem weak_actions (w : Rewriters.Weak) {P : LrAction → Prop} {actions : List LrAction} (h : ∀ a ∈ actions, P a)
    (hweak : ∀ a, P a → isTerminal a.item = true → P (Rewriters.weaken a))
    (hw : ∀ p ∈ w.strongToWeak, ∀ i ∈ p.2, isTerminal i = true → ∀ a, P a → P (Rewriters.asWeak a i)) : ∀ b ∈ Rewriters.rewriteWeak w actions, P b := by
  intro b hb
  cases hs : Rewriters.haveStrong w actions with
  | false => rw [Rewriters.weak_rewrite_none w actions hs] at hb; exact h b hb
  | true =>
    rcases (Rewriters.weak_rewrite_exact w actions hs b).1 hb with h1 | ⟨a, h1, h2, -, -, rfl⟩ | ⟨a, h1, -, -, ws, h3, i, h4, h5, -, rfl⟩
    · exact h b h1.1
    · exact hweak a (h a h1) h2
    · exact hw _ (find_mem h3) i h4 h5 a (h a h1)

/-- The actions before those of ignored symbols are added. -/
theorem stage_actions (st : Stage) {P : LrAction → Prop} {s : Nat} {actions : List LrAction} (h : ∀ a ∈ actions, P a)
    (hweak : ∀ a, P a → isTerminal a.item = true → P (Rewriters.weaken a))
    (hw : ∀ p ∈ st.weak.strongToWeak, ∀ i ∈ p.2, isTerminal i = true → ∀ a, P a → P (Rewriters.asWeak a i)) :
    ∃ acts', st.rewrite s actions = Rewriters.rewriteIgnored st.ignored s acts' ∧ ∀ b ∈ acts', P b := by
  have hpre : ∀ (l : List (Rewriters.Prec × (Int → Rule) × (Nat → List Lr0))) (acts : List LrAction),
      ∀ b ∈ l.foldl (fun l p => Rewriters.rewritePrecedence p.1 p.2.1 (p.2.2 s) l) acts, b ∈ acts := by
    intro l
    induction l with
    | nil => exact fun acts _ h => h
    | cons p l ih => exact fun acts b hb => (precedence_sub p.1 p.2.1 (p.2.2 s) acts).1 b (ih _ b hb)
  refine ⟨_, rfl, ?_⟩
  have w1 := weak_actions st.weak (P := P) (fun a ha => h a (hpre st.precs actions a ha)) hweak hw
  generalize Rewriters.rewriteWeak st.weak _ = a2 at w1 ⊢
  have q1 : ∀ b ∈ Rewriters.rewriteAttributes (st.attributes s) a2, P b := by
    intro b hb
    rcases attributes_terminal (st.attributes s) a2 hb with h | ⟨a, h1, h2, -, rfl⟩
    · exact w1 b h
    · exact hweak a (w1 a h1) h2
  generalize Rewriters.rewriteAttributes (st.attributes s) a2 = a3 at q1 ⊢
  unfold Stage.applyLr1
  cases st.targets with
  | none => exact q1
  | some t =>
    intro b hb
    rcases (Rewriters.lr1_exact ..).1 hb with h | ⟨u, c, hu, hwk, rfl⟩
    · exact q1 b h.1
    · exact hweak c (q1 c (Rewriters.weakened_item hwk).1) ((Rewriters.weakened_item hwk).2.1 ▸ hu)

section
variable {rid : Rule → Nat} {clos : LItem → List Item → Set1} {self : LItem → Set1} {first initial : Item → List Item} {g : Gram} {okI : Item → Prop}
  {okR : Rule → Prop} {m : Mach}

/-- In the tables of a language the only action for an ignored token is to ignore it, when the ignored symbols are used neither by the rules of the
grammar nor as weak symbols. -/
theorem grammar_ignores {num : Numbering} {sort : List TableAction → List TableAction} {sortWeak : List (Int × Int) → List (Int × Int)}
    {lt : Key → Key → Bool} {languages : List Item} {cf fuel fuel' : Nat} {m' : Mach} {st : Stage} {states : List (List LrAction)}
    -- the grammar
    (hr : Function.Injective rid) (hU : Univ first g okI okR) (hng : ¬ okI .eog) (hl : ∀ l ∈ languages, okR ⟨.empty, [l]⟩)
    (hf : ∀ x, okI x → ∀ a ∈ first x, okI a ∨ a = .empty) (hin : ∀ p l, okI (.guard p l) → ∀ n, .terminal n ∈ initial (.guard p l) → okI (.terminal n))
    -- the builder
    (hc : ClosOk first g okI clos) (hself : SelfOk first g okI self)
    (h : completeStates rid clos cf fuel (initials languages) = some m) (h' : completeLookaheads lt self fuel' m = some m')
    (hstates : ∀ s, s < m.states.length → ∃ fuel'' acts, actionsForState clos initial fuel'' m' s = some acts ∧ states[s]? = some (st.rewrite s acts))
    (hlen : states.length = m.states.length)
    -- the symbols
    (hig : ∀ i ∈ st.ignored, isTerminal i = true ∧ ¬ okI i) (hw : ∀ p ∈ st.weak.strongToWeak, ∀ i ∈ p.2, i ∉ st.ignored)
    -- the tables
    (hsort : IsSort compareActions sort) (hfit : Fits num states (build num sort sortWeak states (some st.weak.strongToWeak)).numRules)
    (hid : ∀ i, num.ident i = num.ident .eog → i = .eog) :
    Ignores (build num sort sortWeak states (some st.weak.strongToWeak)) (fun k => decide (.terminal k ∈ st.ignored)) := by
  have hst : ∀ acts ∈ states, ∃ s acts', s < m.states.length ∧ acts = st.rewrite s acts' ∧
      ∀ a ∈ acts', Act first g initial m (initials languages).states.length s a := by
    intro acts hacts
    obtain ⟨s, hs⟩ := List.getElem?_of_mem hacts
    have hlt : s < m.states.length := by
      rw [← hlen]
      by_contra hc
      rw [List.getElem?_eq_none (by omega)] at hs
      cases hs
    obtain ⟨f, acts', a1, a2⟩ := hstates s hlt
    rw [a2] at hs
    cases hs
    exact ⟨s, acts', hlt, rfl, fun a ha => (actions_exact (lt := lt) hr hU hc hself hl h h' hlt a1 a).1 ha⟩
  have hnot : ∀ i, Sym okI i → i ∉ st.ignored := by
    intro i hi hm
    rcases hi with hi | rfl | rfl
    · exact (hig i hm).2 hi
    · exact absurd (hig _ hm).1 (by simp [isTerminal])
    · exact absurd (hig _ hm).1 (by simp [isTerminal])
  have hrw : ∀ s acts', s < m.states.length → (∀ a ∈ acts', Act first g initial m (initials languages).states.length s a) →
      ∃ a4, st.rewrite s acts' = Rewriters.rewriteIgnored st.ignored s a4 ∧
        ∀ b ∈ a4, b.item ∉ st.ignored ∧ (b.item = .eog → b.type = .reduce ∨ b.type = .accept) := by
    intro s acts' hlt ha
    refine stage_actions st (fun a h1 => ⟨hnot _ (act_sym hr hU hc hself hf hin hl h h' hlt (ha a h1)), fun hai => ?_⟩) ?_ ?_
    · cases ha a h1 with
      | before _ hg => obtain ⟨p, l, k, n, -, -, -, rfl⟩ := hg; cases hai
      | after _ hg => obtain ⟨p, l, k, n, -, -, -, rfl⟩ := hg; cases hai
      | @shift x t ht =>
        dsimp only at hai
        subst hai
        rcases act_sym hr hU hc hself hf hin hl h h' hlt (ha _ h1) with h | h | h
        · exact absurd h hng
        · cases h
        · obtain ⟨hi, -, -⟩ := completeStates_inv hr hU hc hl ‹_›
          obtain ⟨-, -, -, -, h5, -, -⟩ := lr0_states_exact hr hU hc hl ‹_›
          obtain ⟨-, i, hci, hx⟩ := (h5 s hlt _).1 ⟨t, ht⟩
          exact absurd (hU.items i.rule (clos0_good hU (hi.good s hlt) hci).1 _ (List.mem_of_getElem? hx)) hng
      | @reduce r a _ _ =>
        dsimp only
        cases r.nonterminal with
        | empty => exact Or.inr rfl
        | guard p l => exact Or.inr rfl
        | _ => exact Or.inl rfl
    · rintro a ⟨h1, -⟩ ht
      exact ⟨h1, fun he => (by rw [show (Rewriters.weaken a).item = a.item from rfl] at he; rw [he] at ht; cases ht)⟩
    · intro p hp i hi ht a _
      have : (Rewriters.asWeak a i).item = i := by unfold Rewriters.asWeak; split <;> rfl
      rw [this]
      exact ⟨hw p hp i hi, fun he => (by rw [he] at ht; cases ht)⟩
  refine build_ignores num sort sortWeak hsort _ _ hfit _ ?_ ?_ hid
  · intro acts hacts k hk
    obtain ⟨s, acts', hlt, rfl, ha⟩ := hst acts hacts
    obtain ⟨a4, e1, e2⟩ := hrw s acts' hlt ha
    rw [e1]
    exact ⟨_, _, ignored_filter _ _ _ (fun b hb => (e2 b hb).1) _ (of_decide_eq_true hk)⟩
  · intro acts hacts a ha hai
    obtain ⟨s, acts', hlt, rfl, hac⟩ := hst acts hacts
    obtain ⟨a4, e1, e2⟩ := hrw s acts' hlt hac
    rw [e1] at ha
    have hno : a.item ∉ st.ignored := by rw [hai]; exact hnot _ (Or.inr (Or.inr rfl))
    rcases (Rewriters.ignored_rewrite_exact st.ignored s a4 a).1 ha with ⟨h1, -⟩ | ⟨b, -, -, h2, rfl⟩ | ⟨-, h2, -⟩
    · exact (e2 a h1).2 hai
    · exact absurd h2 hno
    · exact absurd h2 hno

/-- C38. The parser of a language ends in the same way, with the same trees, on two inputs that differ only in ignored tokens, when the
ignored symbols are used neither by the rules of the grammar nor as weak symbols. -/
theorem ignored_no_effect_grammar {num : Numbering} {sort : List TableAction → List TableAction} {sortWeak : List (Int × Int) → List (Int × Int)}
    {lt : Key → Key → Bool} {languages : List Item} {cf fuel fuel' : Nat} {m' : Mach} {st : Stage} {states : List (List LrAction)}
    -- the grammar
    (hr : Function.Injective rid) (hU : Univ first g okI okR) (hng : ¬ okI .eog) (hl : ∀ l ∈ languages, okR ⟨.empty, [l]⟩)
    (hf : ∀ x, okI x → ∀ a ∈ first x, okI a ∨ a = .empty) (hin : ∀ p l, okI (.guard p l) → ∀ n, .terminal n ∈ initial (.guard p l) → okI (.terminal n))
    -- the builder
    (hc : ClosOk first g okI clos) (hself : SelfOk first g okI self)
    (h : completeStates rid clos cf fuel (initials languages) = some m) (h' : completeLookaheads lt self fuel' m = some m')
    (hstates : ∀ s, s < m.states.length → ∃ fuel'' acts, actionsForState clos initial fuel'' m' s = some acts ∧ states[s]? = some (st.rewrite s acts))
    (hlen : states.length = m.states.length)
    -- the symbols
    (hig : ∀ i ∈ st.ignored, isTerminal i = true ∧ ¬ okI i) (hw : ∀ p ∈ st.weak.strongToWeak, ∀ i ∈ p.2, i ∉ st.ignored)
    -- the tables
    (hsort : IsSort compareActions sort) (hfit : Fits num states (build num sort sortWeak states (some st.weak.strongToWeak)).numRules)
    (hid : ∀ i, num.ident i = num.ident .eog → i = .eog)
    -- the inputs
    (k0 : Nat) (A B : List Tok) (hAB : A.filter (fun k => decide (.terminal k.sym ∉ st.ignored)) = B.filter (fun k => decide (.terminal k.sym ∉ st.ignored)))
    (r : Option (Bool × List (Nat × Tree))) :
    Ends (build num sort sortWeak states (some st.weak.strongToWeak)) k0 A r ↔ Ends (build num sort sortWeak states (some st.weak.strongToWeak)) k0 B r := by
  refine ignored_no_effect (ig := fun k => decide (.terminal k ∈ st.ignored)) (grammar_ignores hr hU hng hl hf hin hc hself h h' hstates hlen hig hw hsort hfit hid) k0 A B ?_ r
  convert hAB using 2 <;> simp

end

end Sound
end TameParse

import Verif.PrecTreeProps

/-!
# C64: the parser of a grammar with precedences
-/

namespace TameParse
namespace Sound

open AssocMap Closure Relation Lalr TameParse.Parser ParserTables

theorem nodup_add {α : Type} [DecidableEq α] {l : List α} (h : l.Nodup) (a : α) : (Rewriters.add l a).Nodup := by
  unfold Rewriters.add
  split
  · exact h
  · next hn =>
    rw [List.nodup_append]
    refine ⟨h, by simp, ?_⟩
    intro x hx y hy he
    rw [List.mem_singleton.1 hy] at he
    exact hn (he ▸ hx)

theorem nodup_foldl {α β : Type} {f : List α → β → List α} (hf : ∀ l b, l.Nodup → (f l b).Nodup) : ∀ (bs : List β) (l : List α), l.Nodup → (bs.foldl f l).Nodup
  | [], _, h => h
  | b :: bs, l, h => nodup_foldl hf bs _ (hf l b h)

theorem nodup_guards (initial : Item → List Item) (m : Mach) (x : Item) (l : List LrAction) (h : l.Nodup) : (addGuardActions initial m x l).Nodup := by
  unfold addGuardActions
  split
  · split
    · exact h
    · exact nodup_foldl (fun l a h => nodup_add h _) _ _ h
  · exact h

/-- The actions of a state are a set. -/
theorem actionsFor_nodup (initial : Item → List Item) (m : Mach) (transits : List (Item × Nat)) (closure : Set1) : (actionsFor initial m transits closure).Nodup := by
  unfold actionsFor
  refine nodup_foldl ?_ _ _ (nodup_foldl (fun l a h => nodup_add h _) _ _ (nodup_foldl (fun l a h => nodup_guards _ _ _ _ h) _ _ List.nodup_nil))
  intro l c h
  unfold reduceActions
  split
  · exact nodup_foldl (fun l a h => nodup_add (nodup_guards _ _ _ _ h) _) _ _ h
  · exact h

/-- A language with one precedence block and no weak symbols, conflict attributes and LR(1) resolver. -/
structure Leveled (st : Stage) (p : Rewriters.Prec) : Prop where
  precs : ∃ rw its, st.precs = [(p, rw, its)]
  same : ∀ t l, p.precedence t l = p.precedence t []
  weak : st.weak.strongToWeak = []
  attributes : ∀ s, ∀ q ∈ st.attributes s, q.2 = none
  targets : st.targets = none

section
variable {first initial : Item → List Item} {g : Gram} {okI : Item → Prop} {okR : Rule → Prop} {rid : Rule → Nat} {clos : LItem → List Item → Set1}
  {own : LItem → Set1} {lt : Key → Key → Bool} {languages : List Item} {m m' : Mach} {st : Stage} {states : List (List LrAction)} {num : Numbering}
  {sort : List TableAction → List TableAction} {sortWeak : List (Int × Int) → List (Int × Int)} {occ : Item → Prop} {p : Rewriters.Prec}

/-- The tables. -/
local notation "T" => build num sort sortWeak states (some st.weak.strongToWeak)
set_option quotPrecheck false in
local notation "n0" => (Lalr.initials languages).states.length

theorem leveled_rewrite (h : Leveled st p) : ∃ (ruleWith : Int → Rule) (its : Nat → List Lr0), ∀ s acts, st.rewrite s acts =
    Rewriters.rewriteIgnored st.ignored s (Rewriters.rewritePrecedence p ruleWith (its s) acts) := by
  obtain ⟨rw', its, hp⟩ := h.precs
  refine ⟨rw', its, fun s acts => ?_⟩
  have hw : ∀ l, Rewriters.rewriteWeak st.weak l = l := by
    intro l
    refine Rewriters.weak_rewrite_none _ _ ?_
    unfold Rewriters.haveStrong Rewriters.Weak.find
    rw [h.weak]
    simp
  unfold Stage.rewrite Stage.applyLr1
  rw [hp, h.targets]
  simp only [List.foldl_cons, List.foldl_nil, hw, attributes_none (h.attributes s)]

/-- The rules of the items of a state. -/
theorem lr1c_ruled {n s : Nat} {e : Elem} (h : Lr1c first g m n s e) :
    e.1.rule.items ∈ closRules g e.1.rule.nonterminal ∨ e.1.rule.nonterminal = .empty ∨ ∃ p l, e.1.rule.nonterminal = .guard p l := by
  have hgen : ∀ {e e' : Elem}, ReflTransGen (Gen first g) e e' →
      (e.1.rule.items ∈ closRules g e.1.rule.nonterminal ∨ e.1.rule.nonterminal = .empty ∨ ∃ p l, e.1.rule.nonterminal = .guard p l) →
      e'.1.rule.items ∈ closRules g e'.1.rule.nonterminal ∨ e'.1.rule.nonterminal = .empty ∨ ∃ p l, e'.1.rule.nonterminal = .guard p l := by
    intro e e' h h0
    induction h with
    | refl => exact h0
    | tail _ hs _ =>
      cases hs with
      | item hx hr => exact Or.inl hr
      | first hx hr hb => exact Or.inl hr
      | pass hx hr hb => exact Or.inl hr
  obtain ⟨e0, h1, h2⟩ := h
  refine hgen h2 ?_
  clear h2
  induction h1 with
  | start hk hl ho => exact Or.inr (Or.inl rfl)
  | guard hk ho => exact Or.inr (Or.inr ⟨_, _, rfl⟩)
  | goto hs hc hx ht ih =>
    have h3 := hgen hc ih
    exact h3

/-- The loser of a shift and a reduction; `after` tells which one it is. -/
def Lost (p : Rewriters.Prec) (Act : LrAction → Prop) (b : LrAction) : Prop :=
  ∃ shift reduce : LrAction, (∀ c, (Act c ∧ c.item = b.item ∧ c.type = .shift) ↔ c = shift) ∧ (∀ c, (Act c ∧ c.item = b.item ∧ c.type = .reduce) ↔ c = reduce) ∧
    ((b = shift ∧ Before p reduce.rule b.item) ∨ (b = reduce ∧ After p reduce.rule b.item))

/-- The actions for tokens are those of the automaton, without the losers. -/
theorem Made.leveled (h : Made first initial g okI okR rid clos own lt languages m m' st states num sort sortWeak occ) (hb : Leveled st p) {s : Nat} {acts : List LrAction}
    (hs : states[s]? = some acts) : s < m.states.length ∧ (∀ b, Act first g initial m n0 s b → b.item ∉ st.ignored) ∧
    ∀ b, b ∈ acts ↔ (Act first g initial m n0 s b ∧ (isTerminal b.item = true → ¬ Lost p (Act first g initial m n0 s) b)) ∨
      (b.item ∈ st.ignored ∧ b = ⟨.ignore, b.item, s, Rewriters.emptyRule⟩) := by
  have hlt : s < m.states.length := by
    rw [← h.length]
    by_contra hc
    rw [List.getElem?_eq_none (by omega)] at hs
    cases hs
  obtain ⟨_, _, hm⟩ := h.machine
  obtain ⟨_, hm'⟩ := h.lookaheads
  have hno : ∀ b, Act first g initial m n0 s b → b.item ∉ st.ignored := by
    intro a ha hi
    rcases act_sym h.ridInj h.univ h.closOk h.selfOk h.firsts h.inits h.starts hm hm' hlt ha with h3 | h3 | h3
    · exact (h.ignored _ hi).2 h3
    · have := (h.ignored _ hi).1
      rw [h3] at this
      cases this
    · have := (h.ignored _ hi).1
      rw [h3] at this
      cases this
  refine ⟨hlt, hno, fun b => ?_⟩
  obtain ⟨f, acts', h1, h2⟩ := h.actions s hlt
  have h3 := fun b => actions_exact (lt := lt) h.ridInj h.univ h.closOk h.selfOk h.starts hm hm' hlt h1 b
  have hnd : acts'.Nodup := by
    unfold actionsForState at h1
    cases hc : generateClosure clos f (m'.states.getD s []) with
    | none => rw [hc] at h1; cases h1
    | some c =>
      rw [hc] at h1
      cases h1
      exact actionsFor_nodup ..
  obtain ⟨ruleWith, its, hrw⟩ := leveled_rewrite hb
  rw [h2] at hs
  cases hs
  rw [hrw]
  have key : ∀ b, b ∈ Rewriters.rewritePrecedence p ruleWith (its s) acts' ↔
      Act first g initial m n0 s b ∧ (isTerminal b.item = true → ¬ Lost p (Act first g initial m n0 s) b) := by
    intro b
    rw [Rewriters.precedence_exact p ruleWith (its s) acts' hnd b, h3]
    refine and_congr_right (fun hact => ?_)
    constructor
    · rintro hl ht ⟨shift, reduce, l1, l2, l3⟩
      rcases l3 with ⟨l3, op, a, c, o1, o2, o3, o4⟩ | ⟨l3, op, a, c, o1, o2, o3, o4⟩
      · exact hl b.item ht ⟨shift, reduce, op, c, a, fun d => by rw [h3]; exact l1 d, fun d => by rw [h3]; exact l2 d, o1, by rw [hb.same]; exact o3, o2, Or.inl ⟨l3, o4⟩⟩
      · refine hl b.item ht ⟨shift, reduce, op, c, a, fun d => by rw [h3]; exact l1 d, fun d => by rw [h3]; exact l2 d, o1, by rw [hb.same]; exact o3, o2, Or.inr ⟨l3, ?_⟩⟩
        rcases o4 with o4 | o4
        · exact Or.inl o4
        · exact Or.inr o4
    · rintro hl t ht ⟨shift, reduce, op, sp, rp, l1, l2, o1, o2, o3, l3⟩
      have hbt : b.item = t := by
        rcases l3 with ⟨l3, -⟩ | ⟨l3, -⟩
        · rw [l3]; exact ((l1 shift).2 rfl).2.1
        · rw [l3]; exact ((l2 reduce).2 rfl).2.1
      subst hbt
      refine hl ht ⟨shift, reduce, fun d => by rw [← h3]; exact l1 d, fun d => by rw [← h3]; exact l2 d, ?_⟩
      rw [hb.same] at o2
      rcases l3 with ⟨l3, o4⟩ | ⟨l3, o4⟩
      · exact Or.inl ⟨l3, op, rp, sp, o1, o3, o2, o4⟩
      · exact Or.inr ⟨l3, op, rp, sp, o1, o3, o2, o4⟩
  rw [Rewriters.ignored_rewrite_exact]
  simp only [key]
  constructor
  · rintro (⟨h3, -⟩ | ⟨c, h3, -, h4, -⟩ | ⟨h3, h4, -⟩)
    · exact Or.inl h3
    · exact absurd h4 (hno c h3.1)
    · exact Or.inr ⟨h4, h3⟩
  · rintro (h3 | ⟨h3, h4⟩)
    · exact Or.inl ⟨h3, fun h4 => hno b h3.1 h4.2⟩
    · exact Or.inr (Or.inr ⟨h4, h3, fun c hc he => absurd (he ▸ h3) (hno c hc.1)⟩)

/-- The tables of a parser with precedences for which no conflicts are reported. -/
theorem Made.chosen (h : Made first initial g okI okR rid clos own lt languages m m' st states num sort sortWeak occ) (hb : Leveled st p) (hg : Plain g okI)
    {involved : Nat → Item → Bool} (hinv : ∀ s t, Involved first g m n0 s t → involved s t = true)
    (hcon : ∀ (s : Nat) (acts : List LrAction), states[s]? = some acts → Rewriters.findConflicts (involved s) acts = []) :
    Chosen first g num m n0 p (fun n => .terminal n ∈ st.ignored) (fun s a => ∃ acts, states[s]? = some acts ∧ a ∈ acts) T := by
  obtain ⟨_, _, hm⟩ := h.machine
  obtain ⟨_, hm'⟩ := h.lookaheads
  obtain ⟨hi, -, -⟩ := completeStates_inv h.ridInj h.univ h.closOk h.starts hm
  obtain ⟨-, -, -, -, h5, h6, -⟩ := lr0_states_exact h.ridInj h.univ h.closOk h.starts hm
  have htr : ∀ s x s', tr m s x = some s' → okI x := by
    intro s x s' ht
    have hs := (h6 s x s' ht).1
    obtain ⟨-, i, hci, hx⟩ := (h5 s hs x).1 ⟨s', ht⟩
    exact h.univ.items i.rule (clos0_good h.univ (hi.good s hs) hci).1 x (List.mem_of_getElem? hx)
  have hlook : ∀ s e, Lr1c first g m n0 s e → ∀ a, e.2 = some a → Sym okI a := fun s e he =>
    (lr1_sym (lt := lt) h.ridInj h.univ h.closOk h.selfOk h.firsts h.starts hm hm' (h.inRange he) he).2
  have hty := fun s b => act_types (initial := initial) (s := s) (b := b) hg hlook htr h.noEoi
  -- what an action for a token or the end of input is
  have hact : ∀ s b, Act first g initial m n0 s b → isTerminal b.item = true ∨ b.item = .eoi →
      (b.type = .shift ∧ isTerminal b.item = true ∧ tr m s b.item = some b.next.toNat) ∨
      (b.type = .reduce ∧ Lr1c first g m n0 s (⟨b.rule, b.rule.items.length⟩, some b.item) ∧ closRules g b.rule.nonterminal ≠ []) ∨
      (b.type = .accept ∧ b.item = .eoi) := by
    intro s b hb hbi
    have hgu : ∀ {x : Item}, Sym okI x → ¬ GuardAct initial m x b := by
      rintro x hx ⟨p, l, k, n, rfl, -⟩
      rcases hx with hx | hx | hx
      · exact hg.noGuard _ _ hx
      · cases hx
      · cases hx
    cases hb with
    | before ht hg => exact absurd hg (hgu (Or.inl (htr _ _ _ ht)))
    | after he hg => exact absurd hg (hgu (hlook _ _ he _ rfl))
    | @shift x t ht =>
      left
      rcases hbi with hbi | hbi
      · cases x with
        | terminal n => exact ⟨rfl, rfl, by simpa using ht⟩
        | _ => cases hbi
      · dsimp only at hbi
        subst hbi
        exact absurd (htr _ _ _ ht) h.noEoi
    | @reduce r a he ha =>
      right
      cases hn : r.nonterminal with
      | empty =>
        right
        exact ⟨rfl, (lr1c_special he).1 hn a rfl⟩
      | guard p l =>
        have h1 := (lr1c_special he).2 p l hn a rfl
        subst h1
        rcases hbi with hbi | hbi <;> cases hbi
      | _ =>
        left
        refine ⟨rfl, he, ?_⟩
        rw [← hn]
        rcases lr1c_ruled he with h1 | h1 | ⟨p, l, h1⟩
        · exact List.ne_nil_of_mem h1
        · rw [hn] at h1; cases h1
        · rw [hn] at h1; cases h1
  -- two actions for a token
  have hone : ∀ s acts, states[s]? = some acts → ∀ b ∈ acts, ∀ c ∈ acts, Act first g initial m n0 s b → Act first g initial m n0 s c → b.item = c.item →
      isTerminal b.item = true → b = c := by
    intro s acts hs b hbm c hcm hb1 hc1 hbc hbi
    by_contra hne
    obtain ⟨b1, b2, b3⟩ := hty s b hb1
    obtain ⟨c1, c2, c3⟩ := hty s c hc1
    have hall : ∀ a ∈ acts, a.item = b.item → Rewriters.counted a.type = true → Rewriters.isWeak a.type = false := by
      intro a ha hai hct
      rcases ((h.leveled hb hs).2.2 a).1 ha with ⟨ha, -⟩ | ⟨-, ha⟩
      · obtain ⟨a1, a2, -⟩ := hty s a ha
        rcases (a1 (hai ▸ hbi)).1 with h | h <;> rw [h] <;> rfl
      · rw [ha] at hct
        cases hct
    obtain ⟨b1, b4⟩ := b1 hbi
    obtain ⟨c1, -⟩ := c1 (hbc ▸ hbi)
    have := conflict_found (involved := involved s) hbm hcm hne hbc hall (by rcases b1 with h | h <;> rw [h] <;> rfl) (by rcases c1 with h | h <;> rw [h] <;> rfl)
      (hinv s _ b4)
    rw [hcon s acts hs] at this
    cases this
  -- one of a shift and a reduction is lost
  have hlost : ∀ s acts, states[s]? = some acts → ∀ b c, Act first g initial m n0 s b → Act first g initial m n0 s c → b.item = c.item → isTerminal b.item = true →
      b.type = .shift → c.type = .reduce → (b ∈ acts → After p c.rule b.item) ∧ (c ∈ acts → Before p c.rule b.item) := by
    intro s acts hs b c hb1 hc1 hbc hbi hbt hct
    have hne : b ≠ c := by
      intro he
      rw [he, hct] at hbt
      cases hbt
    have hb2 := (h.leveled hb hs).2.2 b
    have hc2 := (h.leveled hb hs).2.2 c
    have hni := (h.leveled hb hs).2.1
    refine ⟨fun hbm => ?_, fun hcm => ?_⟩
    · have hcm : c ∉ acts := fun hcm => hne (hone s acts hs b hbm c hcm hb1 hc1 hbc hbi)
      have : Lost p (Act first g initial m n0 s) c := by
        by_contra hl
        exact hcm (hc2.2 (Or.inl ⟨hc1, fun _ => hl⟩))
      obtain ⟨shift, reduce, l1, l2, l3⟩ := this
      have e1 := (l1 b).1 ⟨hb1, hbc, hbt⟩
      have e2 := (l2 c).1 ⟨hc1, rfl, hct⟩
      subst e1 e2
      rcases l3 with ⟨l3, -⟩ | ⟨-, l3⟩
      · exact absurd l3.symm hne
      · rw [hbc]; exact l3
    · have hbm : b ∉ acts := fun hbm => hne (hone s acts hs b hbm c hcm hb1 hc1 hbc hbi)
      have : Lost p (Act first g initial m n0 s) b := by
        by_contra hl
        exact hbm (hb2.2 (Or.inl ⟨hb1, fun _ => hl⟩))
      obtain ⟨shift, reduce, l1, l2, l3⟩ := this
      have e1 := (l1 b).1 ⟨hb1, rfl, hbt⟩
      have e2 := (l2 c).1 ⟨hc1, hbc.symm, hct⟩
      subst e1 e2
      rcases l3 with ⟨-, l3⟩ | ⟨l3, -⟩
      · exact l3
      · exact absurd l3 hne
  have hAct : ∀ s acts, states[s]? = some acts → ∀ a ∈ acts, a.type ≠ .ignore → Act first g initial m n0 s a := by
    intro s acts hs a ha hne
    rcases ((h.leveled hb hs).2.2 a).1 ha with ⟨ha, -⟩ | ⟨-, ha⟩
    · exact ha
    · rw [ha] at hne
      exact absurd rfl hne
  constructor
  · intro s n l hl e he
    cases hs : states[s]? with
    | none => rw [entriesFor_outside _ _ _ _ _ _ hs] at hl; cases hl
    | some acts =>
      obtain ⟨⟨l', k1, k2, -⟩, -⟩ := action_lookup_exact num sort sortWeak h.sortOk states (some st.weak.strongToWeak) h.fits s acts hs n
      rw [entriesFor_terminal k1] at hl
      cases hl
      obtain ⟨a, ha, hm⟩ := List.mem_map.1 ((k2.mem_iff (a := entryMeaning _ e)).1 (List.mem_map.2 ⟨e, he, rfl⟩))
      obtain ⟨ha1, ha2⟩ := List.mem_filter.1 ha
      exact ⟨a, ⟨acts, rfl, ha1⟩, by simpa using ha2, hm.symm⟩
  · intro s l hl e he
    cases hs : states[s]? with
    | none => rw [entriesFor_outside _ _ _ _ _ _ hs] at hl; cases hl
    | some acts =>
      obtain ⟨-, l', k1, k2, -⟩ := action_lookup_exact num sort sortWeak h.sortOk states (some st.weak.strongToWeak) h.fits s acts hs (num.ident .eoi)
      rw [show (T).endOfInput = num.ident .eoi from rfl, entriesFor_nonterminal k1] at hl
      cases hl
      obtain ⟨a, ha, hm⟩ := List.mem_map.1 ((k2.mem_iff (a := entryMeaning _ e)).1 (List.mem_map.2 ⟨e, he, rfl⟩))
      obtain ⟨ha1, ha2⟩ := List.mem_filter.1 ha
      simp only [Bool.and_eq_true, Bool.not_eq_true', beq_iff_eq] at ha2
      exact ⟨a, ⟨acts, rfl, ha1⟩, h.inj _ _ ((h.numbered _ (List.mem_of_getElem? hs) _ ha1).1 ha2.1) h.occEoi ha2.2, hm.symm⟩
  · rintro s a n ⟨acts, hs, ha⟩ hi
    rcases ((h.leveled hb hs).2.2 a).1 ha with ⟨ha1, -⟩ | ⟨ha1, ha2⟩
    · have hnot := (h.leveled hb hs).2.1 a ha1
      rw [hi] at hnot
      rcases hact s a ha1 (Or.inl (by rw [hi]; rfl)) with ⟨q1, -, q2⟩ | ⟨q1, q2, q3⟩ | ⟨-, q1⟩
      · exact Or.inl ⟨q1, by rw [← hi]; exact q2, hnot⟩
      · exact Or.inr (Or.inl ⟨q1, q2, q3, hnot⟩)
      · rw [hi] at q1; cases q1
    · exact Or.inr (Or.inr ⟨by rw [ha2], by rw [← hi]; exact ha1⟩)
  · rintro s a ⟨acts, hs, ha⟩ hi
    rcases ((h.leveled hb hs).2.2 a).1 ha with ⟨ha1, -⟩ | ⟨ha1, ha2⟩
    · rcases hact s a ha1 (Or.inr hi) with ⟨-, q1, -⟩ | ⟨q1, q2, q3⟩ | ⟨q1, -⟩
      · rw [hi] at q1; cases q1
      · exact Or.inl ⟨q1, q2, q3⟩
      · exact Or.inr q1
    · have := (h.ignored _ ha1).1
      rw [hi] at this
      cases this
  · intro s x s' ht hx
    refine h.tab.goto s x s' ht ?_ ?_
    · cases x <;> first | rfl | (exact absurd rfl hx)
    · rintro p l rfl
      exact hx rfl
  · rintro s a n r ⟨acts, hs, ha⟩ hi hty he hne
    have ha1 := hAct s acts hs a ha (by rw [hty]; simp)
    have hrt : reduceType r.nonterminal = .reduce := by
      cases hn : r.nonterminal <;> first | rfl | (rw [hn] at hne; exact absurd rfl hne)
    have hc1 : Act first g initial m n0 s ⟨reduceType r.nonterminal, .terminal n, -1, r⟩ := .reduce he rfl
    have := (hlost s acts hs a _ ha1 hc1 hi (by rw [hi]; rfl) hty hrt).1 ha
    rw [hi] at this
    exact this
  · rintro s a n ⟨acts, hs, ha⟩ hi hty ⟨s', ht⟩
    have ha1 := hAct s acts hs a ha (by rw [hty]; simp)
    have hb1 : Act first g initial m n0 s ⟨shiftType (.terminal n), .terminal n, s', Rewriters.emptyRule⟩ := .shift ht
    exact (hlost s acts hs _ a hb1 ha1 hi.symm rfl rfl hty).2 ha

theorem Made.env (h : Made first initial g okI okR rid clos own lt languages m m' st states num sort sortWeak occ)
    (hf : ∀ n, okI (.terminal n) → .terminal n ∈ first (.terminal n))
    (hid : ∀ r r' : Rule, r.items ∈ closRules g r.nonterminal → r'.items ∈ closRules g r'.nonterminal → num.ruleId r = num.ruleId r' → r = r')
    {k0 : Nat} {start : Item} (hk : k0 < n0) (hS : kern m k0 = [startItem start]) : Env first g num m n0 k0 start := by
  obtain ⟨_, _, hm⟩ := h.machine
  obtain ⟨_, hm'⟩ := h.lookaheads
  obtain ⟨hi, -, -⟩ := completeStates_inv h.ridInj h.univ h.closOk h.starts hm
  obtain ⟨-, hkern, -⟩ := lookaheads_exact (lt := lt) h.ridInj h.univ h.closOk h.selfOk h.starts hm hm'
  refine ⟨auto_of_build h.ridInj h.univ h.closOk h.starts hm hk hS, ?_, fun s e he => ⟨h.inRange he, (h.clos0 he).1⟩, ?_, hid⟩
  · rintro s hs i ⟨i0, h1, h2⟩
    refine ⟨(i0, none), (hkern s i0 hs).1 h1, ?_⟩
    clear h1
    induction h2 with
    | refl => exact .refl
    | tail _ hst ih =>
      obtain ⟨x, r, hx, hr, rfl⟩ := hst
      exact ih.tail (.item hx hr)
  · intro s hs i hc n hn
    exact hf n (h.univ.items _ (clos0_good h.univ (hi.good s hs) hc).1 _ hn)

/-- C64. The parser of a language with a precedence block, for which no conflicts are reported: the tree of what it accepts is a derivation
tree for the input, and it is as the precedences say. -/
theorem precedence_tree_partial (h : Made first initial g okI okR rid clos own lt languages m m' st states num sort sortWeak occ) (hb : Leveled st p) (hg : Plain g okI)
    (hf : ∀ n, okI (.terminal n) → .terminal n ∈ first (.terminal n))
    (hid : ∀ r r' : Rule, r.items ∈ closRules g r.nonterminal → r'.items ∈ closRules g r'.nonterminal → num.ruleId r = num.ruleId r' → r = r')
    {involved : Nat → Item → Bool} (hinv : ∀ s t, Involved first g m n0 s t → involved s t = true)
    (hcon : ∀ (s : Nat) (acts : List LrAction), states[s]? = some acts → Rewriters.findConflicts (involved s) acts = [])
    {k0 : Nat} {start : Item} (hk : k0 < n0) (hS : kern m k0 = [startItem start]) {input : List Tok} {pf : Nat} {s' : PState}
    (hp : parse T pf (Parser.start k0 input) = .ok (true, s')) :
    ∃ top τ w, s'.stack = [(top, τ), (k0, .nothing)] ∧ Read (fun n => .terminal n ∈ st.ignored) (StrongOf st.weak) input w ∧ Forest g num [start] [τ] w ∧
      Respects g num p τ := by
  obtain ⟨top, τ, w, h1, -, h2, h3⟩ := h.sound hk hS hp
  refine ⟨top, τ, w, h1, h2, h3, ?_⟩
  have hinit : PInv g num m p k0 (fun n => .terminal n ∈ st.ignored) (Parser.start k0 input) := by
    refine ⟨.base, ?_⟩
    intro e st he k _ E β α vs hτ
    cases he
    cases hτ
  refine parse_respects (h.env hf hid hk hS) (h.chosen hb hg hinv hcon) hinit hp rfl (top, τ) ?_
  rw [h1]
  exact List.mem_cons_self ..

end
end Sound
end TameParse

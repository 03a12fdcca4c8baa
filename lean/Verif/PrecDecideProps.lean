import Verif.PrecCompleteProps

/-!
# C64: parsers with precedences and the languages of their grammars
-/

namespace TameParse
namespace Sound

open AssocMap Closure Relation Lalr TameParse.Parser ParserTables

section
variable {first initial : Item → List Item} {g : Gram} {okI : Item → Prop} {okR : Rule → Prop} {rid : Rule → Nat} {clos : LItem → List Item → Set1}
  {own : LItem → Set1} {lt : Key → Key → Bool} {languages : List Item} {m m' : Mach} {st : Stage} {states : List (List LrAction)} {num : Numbering}
  {sort : List TableAction → List TableAction} {sortWeak : List (Int × Int) → List (Int × Int)} {occ : Item → Prop} {p : Rewriters.Prec} {E : Item}

local notation "T" => build num sort sortWeak states (some st.weak.strongToWeak)
set_option quotPrecheck false in
local notation "n0" => (Lalr.initials languages).states.length

/-- Where states come from. -/
theorem Made.origin (h : Made first initial g okI okR rid clos own lt languages m m' st states num sort sortWeak occ) (hg : Plain g okI)
    (hlang : ∀ l ∈ languages, isTerminal l = false) {s : Nat} (hs : s < m.states.length) :
    (∃ l, isTerminal l = false ∧ kern m s = [startItem l]) ∨ ∃ s0 x, tr m s0 x = some s := by
  obtain ⟨_, _, hm⟩ := h.machine
  obtain ⟨hi, h2, h3⟩ := completeStates_inv h.ridInj h.univ h.closOk h.starts hm
  cases h2 s hs with
  | initial h1 =>
    obtain ⟨-, l, hl, hk⟩ := h3 s h1
    exact Or.inl ⟨l, hlang l hl, hk⟩
  | @guard s0 k p l i hs0 hci hx hk =>
    have hlt : s0 < m.states.length := by
      by_contra hc
      obtain ⟨i0, h4, -⟩ := hci
      have : kern m s0 = [] := by
        unfold kern
        rw [List.getD_eq_getElem?_getD, List.getElem?_eq_none (Nat.le_of_not_lt hc)]
        rfl
      rw [this] at h4
      cases h4
    exact absurd (h.univ.items _ (clos0_good h.univ (hi.good s0 hlt) hci).1 _ (List.mem_of_getElem? hx)) (hg.noGuard _ _)
  | step _ ht => exact Or.inr ⟨_, _, ht⟩

theorem Made.itemRule (h : Made first initial g okI okR rid clos own lt languages m m' st states num sort sortWeak occ) (hg : Plain g okI)
    (hlang : ∀ l ∈ languages, isTerminal l = false) (s : Nat) (i : LItem) (hc : Clos0 g (kern m s) i) :
    (i.rule.items ∈ closRules g i.rule.nonterminal ∧ okI i.rule.nonterminal) ∨
    (i.rule.nonterminal = .empty ∧ ∃ l, i.rule.items = [l] ∧ isTerminal l = false) := by
  obtain ⟨_, _, hm⟩ := h.machine
  obtain ⟨hi, h2, h3⟩ := completeStates_inv h.ridInj h.univ h.closOk h.starts hm
  obtain ⟨-, -, -, -, h5, h6, -⟩ := lr0_states_exact h.ridInj h.univ h.closOk h.starts hm
  have hrange : ∀ {s i}, Clos0 g (kern m s) i → s < m.states.length := by
    rintro s i ⟨i0, h4, -⟩
    by_contra hc
    have : kern m s = [] := by
      unfold kern
      rw [List.getD_eq_getElem?_getD, List.getElem?_eq_none (Nat.le_of_not_lt hc)]
      rfl
    rw [this] at h4
    cases h4
  have hclos : ∀ s, (∀ i ∈ kern m s, (i.rule.items ∈ closRules g i.rule.nonterminal ∧ okI i.rule.nonterminal) ∨
      (i.rule.nonterminal = .empty ∧ ∃ l, i.rule.items = [l] ∧ isTerminal l = false)) → ∀ i, Clos0 g (kern m s) i →
      (i.rule.items ∈ closRules g i.rule.nonterminal ∧ okI i.rule.nonterminal) ∨
      (i.rule.nonterminal = .empty ∧ ∃ l, i.rule.items = [l] ∧ isTerminal l = false) := by
    intro s hk i hci
    rcases clos0_dot hci with h1 | ⟨-, h1, j, h2, h3⟩
    · exact hk i h1
    · exact Or.inl ⟨h1, h.univ.items _ (clos0_good h.univ (hi.good s (hrange h2)) h2).1 _ (List.mem_of_getElem? h3)⟩
  have key : ∀ {s}, Reached g m n0 s → ∀ i ∈ kern m s, (i.rule.items ∈ closRules g i.rule.nonterminal ∧ okI i.rule.nonterminal) ∨
      (i.rule.nonterminal = .empty ∧ ∃ l, i.rule.items = [l] ∧ isTerminal l = false) := by
    intro s hr
    induction hr with
    | initial h1 =>
      obtain ⟨-, l, hl, hk⟩ := h3 _ h1
      intro i hi
      rw [hk, List.mem_singleton] at hi
      subst hi
      exact Or.inr ⟨rfl, l, rfl, hlang l hl⟩
    | guard hs hci hx hk ih =>
      exact absurd (h.univ.items _ (clos0_good h.univ (hi.good _ (hrange hci)) hci).1 _ (List.mem_of_getElem? hx)) (hg.noGuard _ _)
    | @step s t x hs ht ih =>
      intro i hit
      obtain ⟨j, h7, -, rfl⟩ := ((h6 s x t ht).2.2 i).1 hit
      exact hclos s ih j h7
  exact hclos s (key (h2 s (hrange hc))) i hc

/-- Without conflicts there is one action for a symbol. -/
theorem Made.single (h : Made first initial g okI okR rid clos own lt languages m m' st states num sort sortWeak occ) (hb : Leveled st p) (hg : Plain g okI)
    {involved : Nat → Item → Bool} (hinv : ∀ s t, Involved first g m n0 s t → involved s t = true)
    (hcon : ∀ (s : Nat) (acts : List LrAction), states[s]? = some acts → Rewriters.findConflicts (involved s) acts = [])
    (hacc : ∀ (s : Nat) (acts : List LrAction), states[s]? = some acts → ∀ b ∈ acts, ∀ c ∈ acts, b.type = .accept → c.item = .eoi → c.type ≠ .reduce)
    {s : Nat} {acts : List LrAction} (hs : states[s]? = some acts) {b c : LrAction} (hbm : b ∈ acts) (hcm : c ∈ acts) (hb1 : Act first g initial m n0 s b) (hbc : b.item = c.item)
    (hbi : isTerminal b.item = true ∨ b.item = .eoi) : b = c ∨ (b.type = .accept ∧ c.type = .accept) := by
  obtain ⟨_, _, hm⟩ := h.machine
  obtain ⟨_, hm'⟩ := h.lookaheads
  obtain ⟨hi, -, -⟩ := completeStates_inv h.ridInj h.univ h.closOk h.starts hm
  obtain ⟨-, -, -, -, h5, h6, -⟩ := lr0_states_exact h.ridInj h.univ h.closOk h.starts hm
  have htr : ∀ s x s', tr m s x = some s' → okI x := by
    intro s x s' ht
    have hs := (h6 s x s' ht).1
    obtain ⟨-, i, hci, hx⟩ := (h5 s hs x).1 ⟨s', ht⟩
    exact h.univ.items i.rule (clos0_good h.univ (hi.good s hs) hci).1 x (List.mem_of_getElem? hx)
  have hlook : ∀ s e, Lr1c first g m n0 s e → ∀ a, e.2 = some a → Sym okI a := fun s e he =>
    (lr1_sym (lt := lt) h.ridInj h.univ h.closOk h.selfOk h.firsts h.starts hm hm' (h.inRange he) he).2
  have hty := fun s b => act_types (initial := initial) (s := s) (b := b) hg hlook htr h.noEoi
  obtain ⟨-, hno, hl⟩ := h.leveled hb hs
  rcases (hl c).1 hcm with ⟨hc1, -⟩ | ⟨hc1, -⟩
  · obtain ⟨b1, b2, b3⟩ := hty s b hb1
    obtain ⟨c1, c2, c3⟩ := hty s c hc1
    by_contra hne
    rw [not_or] at hne
    have hall : ∀ a ∈ acts, a.item = b.item → Rewriters.counted a.type = true → Rewriters.isWeak a.type = false := by
      intro a ha hai hct
      rcases (hl a).1 ha with ⟨ha, -⟩ | ⟨-, ha⟩
      · obtain ⟨a1, a2, -⟩ := hty s a ha
        rcases hbi with hbi | hbi
        · rcases (a1 (hai ▸ hbi)).1 with h | h <;> rw [h] <;> rfl
        · rcases (a2 (hai.trans hbi)).1 with h | h <;> rw [h] <;> rfl
      · rw [ha] at hct
        cases hct
    have hfin : Rewriters.counted b.type = true → Rewriters.counted c.type = true → Involved first g m n0 s b.item → False := by
      intro k1 k2 k3
      have := conflict_found (involved := involved s) hbm hcm hne.1 hbc hall k1 k2 (hinv s _ k3)
      rw [hcon s acts hs] at this
      cases this
    rcases hbi with hbi | hbi
    · obtain ⟨b1, b4⟩ := b1 hbi
      obtain ⟨c1, -⟩ := c1 (hbc ▸ hbi)
      refine hfin ?_ ?_ b4
      · rcases b1 with h | h <;> rw [h] <;> rfl
      · rcases c1 with h | h <;> rw [h] <;> rfl
    · obtain ⟨b2, b4⟩ := b2 hbi
      obtain ⟨c2, -⟩ := c2 (hbc ▸ hbi)
      rcases b2 with b2 | b2
      · rcases c2 with c2 | c2
        · exact hfin (by rw [b2]; rfl) (by rw [c2]; rfl) b4
        · exact hacc s acts hs c hcm b hbm c2 hbi b2
      · rcases c2 with c2 | c2
        · exact hacc s acts hs b hbm c hcm b2 (hbc ▸ hbi) c2
        · exact hne.2 ⟨b2, c2⟩
  · exact absurd (hbc ▸ hc1) (hno b hb1)

theorem Made.picks (h : Made first initial g okI okR rid clos own lt languages m m' st states num sort sortWeak occ) (hb : Leveled st p) (hg : Plain g okI)
    (hlang : ∀ l ∈ languages, isTerminal l = false)
    {involved : Nat → Item → Bool} (hinv : ∀ s t, Involved first g m n0 s t → involved s t = true)
    (hcon : ∀ (s : Nat) (acts : List LrAction), states[s]? = some acts → Rewriters.findConflicts (involved s) acts = [])
    (hacc : ∀ (s : Nat) (acts : List LrAction), states[s]? = some acts → ∀ b ∈ acts, ∀ c ∈ acts, b.type = .accept → c.item = .eoi → c.type ≠ .reduce) :
    Picks first g okI num m n0 p T := by
  obtain ⟨_, _, h1⟩ := h.machine
  obtain ⟨_, h2⟩ := h.lookaheads
  obtain ⟨-, -, -, -, h5, h6, -⟩ := lr0_states_exact h.ridInj h.univ h.closOk h.starts h1
  have hact : ∀ s a, s < m.states.length → Act first g initial m n0 s a → (isTerminal a.item = true → ¬ Lost p (Act first g initial m n0 s) a) →
      isTerminal a.item = true ∨ a.item = .eoi →
      ∃ e c, FirstEntry T s a.item e ∧ entryMeaning T e = meaning num c ∧ (a = c ∨ (a.type = .accept ∧ c.type = .accept)) := by
    intro s a hs ha hl hi
    obtain ⟨acts, -, hst⟩ := h.exact hs
    have hmem := ((h.leveled hb hst).2.2 a).2 (Or.inl ⟨ha, hl⟩)
    obtain ⟨e, c, q1, q2, q3, q4⟩ := h.firstEntry hst hmem hi
    exact ⟨e, c, q1, q4, h.single hb hg hinv hcon hacc hst hmem q2 ha q3.symm hi⟩
  have hred : ∀ {s b n}, Act first g initial m n0 s b → b.item = .terminal n → b.type = .reduce →
      Lr1c first g m n0 s (⟨b.rule, b.rule.items.length⟩, some (.terminal n)) := by
    intro s b n hb hi hty
    cases hb with
    | @shift x t ht =>
      dsimp only at hi hty
      subst hi
      cases hty
    | before ht hg' =>
      obtain ⟨p, l, k, n, rfl, -⟩ := hg'
      have hs := (h6 _ _ _ ht).1
      obtain ⟨-, i, hci, hx⟩ := (h5 _ hs _).1 ⟨_, ht⟩
      obtain ⟨hi, -, -⟩ := completeStates_inv h.ridInj h.univ h.closOk h.starts h1
      exact absurd (h.univ.items i.rule (clos0_good h.univ (hi.good _ hs) hci).1 _ (List.mem_of_getElem? hx)) (hg.noGuard _ _)
    | after he hg' =>
      obtain ⟨p, l, k, n, rfl, -⟩ := hg'
      rcases (lr1_sym (lt := lt) h.ridInj h.univ h.closOk h.selfOk h.firsts h.starts h1 h2 (h.inRange he) he).2 _ rfl with hx | hx | hx
      · exact absurd hx (hg.noGuard _ _)
      · cases hx
      · cases hx
    | @reduce r a he ha =>
      dsimp only at hi
      subst hi
      exact he
  constructor
  · intro s e he
    exact h.univ.items _ (h.clos0 he).2
  · exact h.itemRule hg hlang
  · exact fun s e he => (h.clos0 he).1
  · intro s i hi hd
    have hs : s < m.states.length := by
      by_contra hc
      have : kern m s = [] := by
        unfold kern
        rw [List.getD_eq_getElem?_getD, List.getElem?_eq_none (Nat.le_of_not_lt hc)]
        rfl
      rw [this] at hi
      cases hi
    rcases h.origin hg hlang hs with ⟨l, -, hk⟩ | h3
    · rw [hk, List.mem_singleton] at hi
      rw [hi] at hd
      exact absurd rfl hd
    · exact h3
  · exact fun s x s' ht j hj => ((h6 s x s' ht).2.2 j).1 hj
  · intro s e x he hx
    have hok := h.univ.items _ (h.clos0 he).2 x (List.mem_of_getElem? hx)
    exact (h5 s (h.inRange he) x).2 ⟨h.univ.proper.empty x hok, e.1, (h.clos0 he).1, hx⟩
  · intro s n s' ht hno
    obtain ⟨e, c, q1, q2, q3⟩ := hact s _ (h6 s _ _ ht).1 (.shift ht) (by
      rintro - ⟨shift, reduce, l1, l2, ⟨-, l3⟩ | ⟨l3, -⟩⟩
      · obtain ⟨r1, r2, r3⟩ := (l2 reduce).2 rfl
        exact hno _ (hred r1 r2 r3) l3
      · obtain ⟨r1, r2, r3⟩ := (l2 reduce).2 rfl
        rw [← l3] at r3
        cases r3) (Or.inl rfl)
    rcases q3 with rfl | ⟨q3, -⟩
    · obtain ⟨r1, r2⟩ := entry_next q2 rfl
      exact ⟨e, q1, r1, by rw [r2]; rfl⟩
    · cases q3
  · intro s r b he hne hb hno
    have hty : reduceType r.nonterminal = .reduce := by
      cases hn : r.nonterminal <;> first | rfl | (rw [hn] at hne; exact absurd rfl hne)
    have hb' : reduceSymbol b = true ∧ (isTerminal b = true ∨ b = .eoi) := by
      rcases hb with ⟨n, rfl⟩ | rfl
      · exact ⟨rfl, Or.inl rfl⟩
      · exact ⟨rfl, Or.inr rfl⟩
    obtain ⟨e, c, q1, q2, q3⟩ := hact s ⟨reduceType r.nonterminal, b, -1, r⟩ (h.inRange he) (.reduce he hb'.1) (by
      rintro hbt ⟨shift, reduce, l1, l2, ⟨l3, -⟩ | ⟨l3, l4⟩⟩
      · obtain ⟨r1, r2, r3⟩ := (l1 shift).2 rfl
        rw [← l3] at r3
        rw [show (LrAction.mk (reduceType r.nonterminal) b (-1) r).type = reduceType r.nonterminal from rfl, hty] at r3
        cases r3
      · rw [← l3] at l4
        cases b with
        | terminal n => exact hno n rfl l4
        | _ => cases hbt) hb'.2
    rcases q3 with rfl | ⟨q3, -⟩
    · obtain ⟨r1, r2⟩ := entry_rule q2 (by simp [hty, isReduce])
      exact ⟨e, q1, r1.trans hty, r2⟩
    · rw [hty] at q3; cases q3
  · intro s r he hem
    have hty : reduceType r.nonterminal = .accept := by rw [hem]; rfl
    obtain ⟨e, c, q1, q2, q3⟩ := hact s ⟨reduceType r.nonterminal, .eoi, -1, r⟩ (h.inRange he) (.reduce he rfl) (by intro hc; cases hc) (Or.inr rfl)
    refine ⟨e, q1, ?_⟩
    have : e.type = c.type := congrArg Prod.fst q2
    rw [this]
    rcases q3 with rfl | ⟨-, q3⟩
    · exact hty
    · exact q3
  · intro s x s' ht hx
    refine h.tab.goto s x s' ht ?_ ?_
    · cases x <;> first | rfl | (exact absurd rfl hx)
    · rintro p l rfl
      exact hx rfl

/-- C64 (partial: one precedence block and no weak symbols, guards, conflict attributes or LR(1) resolver; expressions with binary operators). The parser
of a language with a precedence block, for which no conflicts are reported, ends with a tree just if it is a derivation tree of the input, without the ignored
tokens, that is as the precedences say. -/
theorem precedence_exact_partial (h : Made first initial g okI okR rid clos own lt languages m m' st states num sort sortWeak occ) (hb : Leveled st p) (hg : Plain g okI)
    (hO : OpGram first g okI p E) (hE : isTerminal E = false) (hlang : ∀ l ∈ languages, isTerminal l = false)
    (hf : ∀ x, okI x → g.FirstComplete x (first x)) (hft : ∀ n, okI (.terminal n) → .terminal n ∈ first (.terminal n))
    (hid : ∀ r r' : Rule, r.items ∈ closRules g r.nonterminal → r'.items ∈ closRules g r'.nonterminal → num.ruleId r = num.ruleId r' → r = r')
    {involved : Nat → Item → Bool} (hinv : ∀ s t, Involved first g m n0 s t → involved s t = true)
    (hcon : ∀ (s : Nat) (acts : List LrAction), states[s]? = some acts → Rewriters.findConflicts (involved s) acts = [])
    (hacc : ∀ (s : Nat) (acts : List LrAction), states[s]? = some acts → ∀ b ∈ acts, ∀ c ∈ acts, b.type = .accept → c.item = .eoi → c.type ≠ .reduce)
    {k0 : Nat} {start : Item} (hk : k0 < n0) (hS : kern m k0 = [startItem start]) (hst : isTerminal start = false) (input : List Tok) (τ : Tree) :
    (∃ fuel s rest, parse T fuel (Parser.start k0 input) = .ok (true, ⟨[(s, τ), (k0, .nothing)], rest⟩)) ↔
      Forest g num [start] [τ] (input.filter (fun k => decide (.terminal k.sym ∉ st.ignored))) ∧ Respects g num p τ := by
  have hP := h.picks hb hg hlang hinv hcon hacc
  have h0 : Lr1c first g m n0 k0 (startItem start, none) := ⟨_, .start hk hS (fun a ha => (by cases ha)), .refl⟩
  have hok : okI start := hP.ok _ _ h0 start (by simp [startItem])
  constructor
  · rintro ⟨fuel, s, rest, hp⟩
    obtain ⟨top, τ', w, e1, hr, hfo, hres⟩ := precedence_tree_partial h hb hg hft hid hinv hcon hk hS hp
    have e2 : τ = τ' := by
      dsimp only at e1
      injection e1 with e1 _
      injection e1
    subst e2
    have hxs : ∀ x ∈ [start], okI x := by simpa using hok
    refine ⟨?_, hres⟩
    have hokw : ∀ k ∈ w, okI (.terminal k.sym) := by
      clear hr hp hres e1
      generalize [start] = xs at hfo hxs
      generalize [τ] = ts at hfo
      induction hfo with
      | nil => exact fun _ h => by cases h
      | token _ ih =>
        intro k hk
        rcases List.mem_cons.1 hk with rfl | hk
        · exact hxs _ (List.mem_cons_self ..)
        · exact ih (fun x hx => hxs x (List.mem_cons_of_mem _ hx)) k hk
      | guard _ ih => exact ih (fun x hx => hxs x (List.mem_cons_of_mem _ hx))
      | node hr _ _ ih1 ih2 =>
        intro k hk
        rcases List.mem_append.1 hk with hk | hk
        · exact ih1 (flatten_ok hg (hxs _ (List.mem_cons_self ..)) hr) k hk
        · exact ih2 (fun x hx => hxs x (List.mem_cons_of_mem _ hx)) k hk
    have hw : w = input.filter (fun k => decide (.terminal k.sym ∉ st.ignored)) := by
      clear hfo hp e1
      induction hr with
      | nil => rfl
      | @keep k u w _ ih =>
        have hk : Item.terminal k.sym ∉ st.ignored := fun hc => (h.ignored _ hc).2 (hokw k (List.mem_cons_self ..))
        rw [List.filter_cons, if_pos (by simpa using hk), ← ih (fun k hk => hokw k (List.mem_cons_of_mem _ hk))]
      | @strong k n u w hn =>
        obtain ⟨ws, hn, -⟩ := hn
        rw [hb.weak] at hn
        cases hn
      | @skip k u w hk _ ih =>
        rw [List.filter_cons, if_neg (by simpa using hk), ← ih hokw]
    rw [← hw]
    exact hfo
  · rintro ⟨hfo, hres⟩
    obtain ⟨fuel, s, hp⟩ := respecting_accepted hP hO hE hg hf hft hk hS hst hfo hres
    have hends : Ends T k0 (input.filter (fun k => decide (.terminal k.sym ∉ st.ignored))) (some (true, [(s, τ), (k0, .nothing)])) := .result hp
    have := (h.ignore k0 input _ (by simp) _).2 hends
    generalize hr : some (true, [(s, τ), (k0, Tree.nothing)]) = r at this
    cases this with
    | undefined => cases hr
    | @result f b s' hp' =>
      obtain ⟨stk, rest⟩ := s'
      cases hr
      exact ⟨f, s, rest, hp'⟩

/-- A sentence has just one tree that is as the precedences say, and the parser makes it. -/
theorem precedence_decides_partial (h : Made first initial g okI okR rid clos own lt languages m m' st states num sort sortWeak occ) (hb : Leveled st p) (hg : Plain g okI)
    (hO : OpGram first g okI p E) (hE : isTerminal E = false) (hlang : ∀ l ∈ languages, isTerminal l = false)
    (hf : ∀ x, okI x → g.FirstComplete x (first x)) (hft : ∀ n, okI (.terminal n) → .terminal n ∈ first (.terminal n))
    (hid : ∀ r r' : Rule, r.items ∈ closRules g r.nonterminal → r'.items ∈ closRules g r'.nonterminal → num.ruleId r = num.ruleId r' → r = r')
    {involved : Nat → Item → Bool} (hinv : ∀ s t, Involved first g m n0 s t → involved s t = true)
    (hcon : ∀ (s : Nat) (acts : List LrAction), states[s]? = some acts → Rewriters.findConflicts (involved s) acts = [])
    (hacc : ∀ (s : Nat) (acts : List LrAction), states[s]? = some acts → ∀ b ∈ acts, ∀ c ∈ acts, b.type = .accept → c.item = .eoi → c.type ≠ .reduce)
    {k0 : Nat} {start : Item} (hk : k0 < n0) (hS : kern m k0 = [startItem start]) (hst : isTerminal start = false) (input : List Tok)
    (hd : g.Derives [start] ((input.filter (fun k => decide (.terminal k.sym ∉ st.ignored))).map (fun k => .terminal k.sym))) :
    ∃ τ, (∃ fuel s rest, parse T fuel (Parser.start k0 input) = .ok (true, ⟨[(s, τ), (k0, .nothing)], rest⟩)) ∧
      ∀ τ', Forest g num [start] [τ'] (input.filter (fun k => decide (.terminal k.sym ∉ st.ignored))) → Respects g num p τ' → τ' = τ := by
  have hP := h.picks hb hg hlang hinv hcon hacc
  have h0 : Lr1c first g m n0 k0 (startItem start, none) := ⟨_, .start hk hS (fun a ha => (by cases ha)), .refl⟩
  have hok : okI start := hP.ok _ _ h0 start (by simp [startItem])
  have hxs : ∀ x ∈ [start], okI x := by simpa using hok
  have hexact := precedence_exact_partial h hb hg hO hE hlang hf hft hid hinv hcon hacc hk hS hst input
  obtain ⟨ts, hfo⟩ := forest_of_derives (num := num) hg hd hxs rfl
  obtain ⟨ts', hfo', hres⟩ := respecting_exists hO hE hg hid hfo hxs
  have hsg : ∀ p l, start ≠ .guard p l := fun p l h => hg.noGuard p l (h ▸ hok)
  obtain ⟨r, us, -, hts, -⟩ := forest_one hst hsg hfo'
  subst hts
  refine ⟨_, (hexact _).2 ⟨hfo', hres _ (List.mem_singleton.2 rfl)⟩, ?_⟩
  intro τ' h1 h2
  obtain ⟨f1, s1, r1, q1⟩ := (hexact _).2 ⟨h1, h2⟩
  obtain ⟨f2, s2, r2, q2⟩ := (hexact _).2 ⟨hfo', hres _ (List.mem_singleton.2 rfl)⟩
  have := parse_unique q1 q2
  simp only [Prod.mk.injEq, PState.mk.injEq, List.cons.injEq] at this
  exact this.2.1.1.2

end
end Sound
end TameParse

import Verif.GuardProps
import Verif.CanReduceProps

/-!
# C82: what checking a guard answers
-/

namespace TameParse
namespace Guards

open AssocMap Closure Relation Lalr TameParse.Parser ParserTables Sound

section
variable {t : Tables} {under : List Nat}

/-- The end of guard symbol can be shifted after reductions. -/
def EogShifts (t : Tables) (under stack : List Nat) : Prop :=
  ∃ s rest acts, stack ++ under = s :: rest ∧ entriesFor t false s t.endOfGuard = .ok acts ∧ Shifts t false t.endOfGuard acts (s :: rest)

/-- What the tables have for the end of guard symbol. -/
structure EogOk (t : Tables) : Prop where
  has : ∀ s acts, entriesFor t false s t.endOfGuard = .ok acts → ∃ b, hasEndOfGuard t s = some b ∧ (b = true ↔ acts ≠ [])
  types : ∀ s acts, entriesFor t false s t.endOfGuard = .ok acts → ∀ e ∈ acts, e.type = .reduce ∨ e.type = .accept
  idents : ∀ s acts, entriesFor t false s t.endOfGuard = .ok acts → ∀ e ∈ acts, ∀ r, rule t e.nextState = some r → 0 ≤ r.identifier

theorem virt_zero (stack : List Nat) : virt 0 stack under = stack ++ under := by simp [virt]

theorem shifts_ne {term : Bool} {sym : Int} {acts : List TableAction} {stack : List Nat} (h : Shifts t term sym acts stack) : acts ≠ [] := by
  cases h <;> simp

/-- Whether the end of guard symbol is used: just if it can be shifted. -/
theorem useEog_exact (ht : EogOk t) (hu : under ≠ []) {fuel s : Nat} {stack : List Nat} {b : Bool} (hs : stack.head? = some s)
    (h : useEog t fuel under s stack = .ok b) : b = true ↔ EogShifts t under stack := by
  obtain ⟨st', rfl⟩ : ∃ l, stack = s :: l := by
    cases stack with
    | nil => cases hs
    | cons a l => cases hs; exact ⟨l, rfl⟩
  unfold useEog at h
  obtain ⟨c, hc, h⟩ := bind_ok h
  have hc := orUb_ok hc
  cases c with
  | false =>
    cases h
    refine iff_of_false (by simp) ?_
    rintro ⟨s', rest, acts, h1, h2, h3⟩
    cases h1
    obtain ⟨b, hb, hb'⟩ := ht.has _ _ h2
    rw [hc] at hb
    cases hb
    exact absurd (hb'.2 (shifts_ne h3)) (by simp)
  | true =>
    simp only [if_true] at h
    obtain ⟨row, hrow, h⟩ := bind_ok h
    obtain ⟨i, hi, h⟩ := bind_ok h
    obtain ⟨act, hact, h⟩ := bind_ok h
    have hact := orUb_ok hact
    have hent := entriesFor_eq hrow hi
    obtain ⟨b', hb, hb'⟩ := ht.has _ _ hent
    rw [hc] at hb
    cases hb
    have hne := hb'.1 rfl
    -- the first entry
    obtain ⟨l, hl⟩ : ∃ l, actsAt row t.endOfGuard i = act :: l := by
      unfold actsAt at hne ⊢
      have hd : row.drop i = act :: row.drop (i + 1) := by
        obtain ⟨hlt, rfl⟩ := List.getElem?_eq_some_iff.1 hact
        exact List.drop_eq_getElem_cons hlt
      rw [hd, List.takeWhile_cons] at hne ⊢
      split at hne
      · rename_i hx
        rw [if_pos hx]
        exact ⟨_, rfl⟩
      · exact absurd rfl hne
    rw [hl] at hent
    have hty := ht.types _ _ hent act (List.mem_cons_self ..)
    have hiff : EogShifts t under (s :: st') ↔ Shifts t false t.endOfGuard (act :: l) (s :: st' ++ under) := by
      constructor
      · rintro ⟨s', rest, acts, h1, h2, h3⟩
        cases h1
        rw [hent] at h2
        cases h2
        exact h3
      · intro h
        exact ⟨s, st' ++ under, _, rfl, hent, h⟩
    rw [hiff]
    unfold canReduceAct at h
    split at h
    · rename_i ha
      cases h
      exact iff_of_true rfl (.shift ha)
    · rename_i ha
      have hred : act.type = .reduce := by
        rcases hty with h | h
        · exact h
        · exact absurd (Or.inr (Or.inr h)) ha
      obtain ⟨p, hp, h⟩ := bind_ok h
      obtain ⟨r, hr, hto⟩ := fakeReduce_virt hu (Or.inl hred) hp
      obtain ⟨s', rest, acts, h1, h2, h3⟩ := can_reduce_partial t fuel false _ _ _ under hu b h
      rw [virt_zero, h1] at hto
      rw [h3]
      constructor
      · intro h
        exact .reduce (Or.inl hred) hr hto h2 h
      · intro h
        cases h with
        | shift h => exact absurd h ha
        | guard h => rw [hred] at h; cases h
        | pass h => rw [hred] at h; cases h
        | reduce _ hr' hs' hacts' hl' =>
          rw [hr] at hr'
          cases hr'
          have := hs'.unique hto
          cases this
          rw [h2] at hacts'
          cases hacts'
          exact hl'

theorem popN_split : ∀ (n : Nat) (stack l : List Nat), popN n stack = .ok l → ∃ pre, pre.length = n ∧ stack = pre ++ l
  | 0, stack, l, h => by cases h; exact ⟨[], rfl, rfl⟩
  | n + 1, [], l, h => by cases h
  | n + 1, a :: stack, l, h => by
    obtain ⟨pre, h1, h2⟩ := popN_split n stack l h
    exact ⟨a :: pre, by simp [h1], by simp [h2]⟩

theorem pops_append : ∀ (pre : List Nat) (s : Nat) (l : List Nat), pops pre.length (pre ++ s :: l) = s :: l
  | [], _, _ => rfl
  | [a], s, l => rfl
  | a :: b :: pre, s, l => by
    have := pops_append (b :: pre) s l
    exact this

/-- Reducing the guard's stack. -/
theorem guard_reduces {r : ReduceRule} {stack stack' : List Nat} (h : (guardDelegate t under).reduce r stack = .ok stack') :
    ReducesTo t r (stack ++ under) (stack' ++ under) ∧ stack' ≠ [] := by
  obtain ⟨l, hl, h⟩ := bind_ok h
  obtain ⟨top, htop, h⟩ := bind_ok h
  obtain ⟨go, hgo, h⟩ := bind_ok h
  obtain ⟨pre, hpre, rfl⟩ := popN_split _ _ _ hl
  have htop := orUb_ok htop
  cases l with
  | nil => cases htop
  | cons a l =>
    cases htop
    have hp := pops_append pre top (l ++ under)
    rw [hpre] at hp
    cases go with
    | none =>
      cases h
      exact ⟨⟨top, l ++ under, by simpa using hp, Or.inr ⟨hgo, rfl⟩⟩, by simp⟩
    | some g =>
      cases h
      exact ⟨⟨top, l ++ under, by simpa using hp, Or.inl ⟨g, hgo, rfl⟩⟩, by simp⟩

/-- If the end of guard symbol can be shifted then the guard is found. -/
theorem eog_wins (ht : EogOk t) (hu : under ≠ []) {input : List Tok} : ∀ (fuel : Nat) (stack : List Nat) (o : Nat) (gs : Int), EogShifts t under stack → stack ≠ [] →
    checkLoop t under input fuel stack o = .ok gs → 0 ≤ gs
  | 0, _, _, _, _, _, h => by cases h
  | fuel + 1, stack, o, gs, hsh, hne, h => by
    unfold checkLoop at h
    obtain ⟨state, hstate, h⟩ := bind_ok h
    have hstate := orUb_ok hstate
    obtain ⟨eog, heog, h⟩ := bind_ok h
    have := (useEog_exact ht hu hstate heog).2 hsh
    subst this
    obtain ⟨acts, hacts, h⟩ := bind_ok h
    change entriesFor t false state t.endOfGuard = .ok acts at hacts
    obtain ⟨tried, htried, h⟩ := bind_ok h
    obtain ⟨s', rest, acts', h1, h2, h3⟩ := hsh
    have hs' : s' = state := by
      cases stack with
      | nil => cases hstate
      | cons a l => cases hstate; cases h1; rfl
    subst hs'
    rw [hacts] at h2
    cases h2
    cases acts with
    | nil => exact absurd rfl (shifts_ne h3)
    | cons e l =>
      have hty := ht.types _ _ hacts e (List.mem_cons_self ..)
      have hnw : e.type ≠ .weakreduce := by rcases hty with h | h <;> rw [h] <;> simp
      unfold tryActions at htried
      unfold skips at htried
      rw [if_neg hnw] at htried
      simp only [bind, Except.bind, Bool.false_eq_true, if_false] at htried
      by_cases hacc : e.type = .accept
      · rw [if_pos hacc] at htried
        cases hr : rule t e.nextState with
        | none => rw [hr] at htried; cases htried
        | some r =>
          rw [hr] at htried
          cases htried
          cases h
          exact ht.idents _ _ hacts e (List.mem_cons_self ..) r hr
      · have hred : e.type = .reduce := by
          rcases hty with h | h
          · exact h
          · exact absurd h hacc
        rw [if_neg hacc, if_neg (by rw [hred]; simp)] at htried
        unfold perform at htried
        rw [hred] at htried
        simp only [bind, Except.bind] at htried
        cases hr : rule t e.nextState with
        | none => rw [hr] at htried; cases htried
        | some r =>
          rw [hr] at htried
          simp only [orUb] at htried
          cases hd : (guardDelegate t under).reduce r stack with
          | error x => rw [hd] at htried; cases htried
          | ok stack' =>
            rw [hd] at htried
            cases htried
            obtain ⟨hto, hne'⟩ := guard_reduces hd
            refine eog_wins ht hu fuel stack' _ gs ?_ hne' h
            cases h3 with
            | shift h => rw [hred] at h; simp at h
            | guard h => rw [hred] at h; cases h
            | pass h => rw [hred] at h; cases h
            | reduce _ hr' hs' hacts' hl' =>
              rw [hr] at hr'
              cases hr'
              rw [h1] at hto
              have hst := hs'.unique hto
              exact ⟨_, _, _, hst.symm, hacts', hl'⟩

end

/-! Following a derivation -/

/-- What comes next, with the end of the guard at the end. -/
def ahead : List Tok → Item
  | [] => .eog
  | k :: _ => .terminal k.sym

/-- Tables in which every action of the automaton comes first for its symbol, in the states that `P` holds for. -/
structure GuardDet (first : Item → List Item) (g : Gram) (okI : Item → Prop) (num : Numbering) (m : Mach) (n0 : Nat) (t : Tables) (P : Nat → Prop) : Prop where
  ok : ∀ s e, P s → Lr1c first g m n0 s e → ∀ x ∈ e.1.rule.items, okI x
  step : ∀ s e x, P s → Lr1c first g m n0 s e → e.1.rule.items[e.1.dot]? = some x → ∃ s', tr m s x = some s' ∧ P s'
  shift : ∀ s n s', P s → tr m s (.terminal n) = some s' → ∃ e l, entriesFor t true s n = .ok (e :: l) ∧ e.type = .shift ∧ e.nextState = s'
  reduce : ∀ s r n, P s → Lr1c first g m n0 s (⟨r, r.items.length⟩, some (.terminal n)) → closRules g r.nonterminal ≠ [] →
    ∃ e l, entriesFor t true s n = .ok (e :: l) ∧ e.type = .reduce ∧ rule t e.nextState = some ⟨num.ident r.nonterminal, num.ruleId r, r.items.length⟩
  reduceEog : ∀ s r, P s → Lr1c first g m n0 s (⟨r, r.items.length⟩, some .eog) → closRules g r.nonterminal ≠ [] →
    ∃ e l, entriesFor t false s t.endOfGuard = .ok (e :: l) ∧ e.type = .reduce ∧
      rule t e.nextState = some ⟨num.ident r.nonterminal, num.ruleId r, r.items.length⟩
  acceptEog : ∀ s r p l, P s → Lr1c first g m n0 s (⟨r, r.items.length⟩, some .eog) → r.nonterminal = .guard p l →
    ∃ e l, entriesFor t false s t.endOfGuard = .ok (e :: l) ∧ e.type = .accept
  goto : ∀ s x s', P s → tr m s x = some s' → closRules g x ≠ [] → gotoFor t s (num.ident x) = .ok (some s')

/-- The guard is found from here on, if checking it ends; at the end of what it should read the end of guard symbol can be shifted. -/
def Wins (t : Tables) (under : List Nat) (input v : List Tok) (stack : List Nat) (rest : List Tok) : Prop :=
  (rest = [] → EogShifts t under stack) ∧
    ∀ o fuel gs, input.drop o = rest ++ v → checkLoop t under input fuel stack o = .ok gs → 0 ≤ gs

section
variable {first : Item → List Item} {g : Gram} {okI : Item → Prop} {num : Numbering} {m : Mach} {n0 : Nat} {t : Tables} {P : Nat → Prop} {under : List Nat}
  {input v : List Tok}

theorem wins_of_shifts (ht : EogOk t) (hu : under ≠ []) {stack : List Nat} (hne : stack ≠ []) (h : EogShifts t under stack) : Wins t under input v stack [] :=
  ⟨fun _ => h, fun o fuel gs _ hc => eog_wins ht hu fuel stack o gs h hne hc⟩

/-- One step of the check when the token that comes next has an action of this kind. -/
theorem wins_step (ht : EogOk t) (hu : under ≠ []) {s : Nat} {st : List Nat} {k : Tok} {rest rest' : List Tok} {stk' : List Nat} {e : TableAction} {l : List TableAction}
    (hent : entriesFor t true s k.sym = .ok (e :: l)) (hty : e.type = .shift ∨ e.type = .reduce) (b : Bool)
    (hp : perform (guardDelegate t under) t (some k) e (s :: st) = .ok (b, stk')) (hrest : rest' = if b then rest else k :: rest)
    (hw : Wins t under input v stk' rest') : Wins t under input v (s :: st) (k :: rest) := by
  refine ⟨fun h => (by cases h), ?_⟩
  intro o fuel gs ho hc
  cases fuel with
  | zero => cases hc
  | succ fuel =>
    have hc0 := hc
    unfold checkLoop at hc
    have hla : input[o]? = some k := by rw [drop_getElem?, ho]; rfl
    rw [hla] at hc
    obtain ⟨state, hstate, hc⟩ := bind_ok hc
    have hstate := orUb_ok hstate
    cases hstate
    obtain ⟨eog, heog, hc⟩ := bind_ok hc
    cases eog with
    | true => exact eog_wins ht hu _ _ _ _ ((useEog_exact ht hu rfl heog).1 rfl) (by simp) hc0
    | false =>
      obtain ⟨acts, hacts, hc⟩ := bind_ok hc
      change entriesFor t true s k.sym = .ok acts at hacts
      rw [hent] at hacts
      cases hacts
      obtain ⟨tried, htried, hc⟩ := bind_ok hc
      have h1 : e.type ≠ .weakreduce := by rcases hty with h | h <;> rw [h] <;> simp
      have h2 : e.type ≠ .accept := by rcases hty with h | h <;> rw [h] <;> simp
      have h3 : e.type ≠ .guard := by rcases hty with h | h <;> rw [h] <;> simp
      unfold tryActions at htried
      unfold skips at htried
      rw [if_neg h1] at htried
      simp only [bind, Except.bind, Bool.false_eq_true, if_false] at htried
      rw [if_neg h2, if_neg h3, hp] at htried
      cases htried
      refine hw.2 _ fuel gs ?_ hc
      subst hrest
      cases b with
      | false => exact ho
      | true => exact drop_tail ho

theorem guard_pops (q : List Nat) (s : Nat) (st : List Nat) (r : ReduceRule) (hl : q.length = r.length) {s' : Nat} (hg : gotoFor t s r.identifier = .ok (some s')) :
    (guardDelegate t under).reduce r (q ++ s :: st) = .ok (s' :: s :: st) := by
  have := popN_eq q (s :: st)
  rw [hl] at this
  simp [guardDelegate, this, bind, Except.bind, orUb, hg, pure, Except.pure]

/-- With an item of the current state and a tree for what is left of it, the check reads the tokens of the tree, if it has not found the guard before. -/
theorem forest_guard (hd : GuardDet first g okI num m n0 t P) (ht : EogOk t) (hu : under ≠ []) (hg : Plain g okI) (hf : ∀ x, okI x → g.FirstComplete x (first x))
    {xs : List Item} {ts : List Tree} {w : List Tok} (h : Forest g num xs ts w) : ∀ {i : LItem} {s : Nat} {st : List Nat} {rest : List Tok}, P s →
    Lr1c first g m n0 s (i, some (ahead rest)) → i.dot ≤ i.rule.items.length → i.rule.items.drop i.dot = xs →
    ∃ q top l, q ++ s :: st = top :: l ∧ q.length = xs.length ∧ P top ∧
      Lr1c first g m n0 top (⟨i.rule, i.rule.items.length⟩, some (ahead rest)) ∧
      (Wins t under input v (q ++ s :: st) rest → Wins t under input v (s :: st) (w ++ rest)) := by
  have hnext : ∀ {i : LItem} {x : Item} {xs : List Item}, i.rule.items.drop i.dot = x :: xs →
      i.rule.items[i.dot]? = some x ∧ (adv i).rule.items.drop (adv i).dot = xs ∧ (adv i).dot ≤ (adv i).rule.items.length := by
    intro i x xs h
    have h1 : i.rule.items[i.dot]? = some x := by
      have := congrArg List.head? h
      rwa [List.head?_drop] at this
    refine ⟨h1, ?_, ?_⟩
    · have h2 := congrArg List.tail h
      rw [List.tail_drop] at h2
      exact h2
    · have := (List.getElem?_eq_some_iff.1 h1).1
      exact this
  induction h with
  | nil =>
    intro i s st rest hP hi hle hxs
    have : i.dot = i.rule.items.length := by
      have := List.drop_eq_nil_iff.1 hxs
      omega
    refine ⟨[], s, st, rfl, rfl, hP, ?_, fun h => h⟩
    rw [← this]
    exact hi
  | @token k xs ts w _ ih =>
    intro i s st rest hP hi hle hxs
    obtain ⟨h1, h2, h3⟩ := hnext hxs
    obtain ⟨s', hs', hP'⟩ := hd.step _ _ _ hP hi h1
    obtain ⟨q, top, l, e1, e3, e0, e4, e5⟩ := ih (st := s :: st) hP' (lr1c_advance hi h1 hs') h3 h2
    refine ⟨q ++ [s'], top, l, by simpa using e1, by simp [e3], e0, e4, fun hw => ?_⟩
    obtain ⟨e, l', a1, a2, a3⟩ := hd.shift s _ s' hP hs'
    refine wins_step ht hu (rest := w ++ rest) (rest' := w ++ rest) (stk' := s' :: s :: st) a1 (Or.inl a2) true ?_ rfl (e5 (by simpa using hw))
    simp [perform, a2, a3, guardDelegate]
  | guard _ _ =>
    intro i s st rest hP hi hle hxs
    obtain ⟨h1, -, -⟩ := hnext hxs
    exact absurd (hd.ok _ _ hP hi _ (List.mem_of_getElem? h1)) (hg.noGuard _ _)
  | @node x r us v' xs ts w hr hc hfo ihc ih =>
    intro i s st rest hP hi hle hxs
    obtain ⟨h1, h2, h3⟩ := hnext hxs
    obtain ⟨s', hs', hP'⟩ := hd.step _ _ _ hP hi h1
    have hok : ∀ y ∈ xs, okI y := fun y hy => hd.ok _ _ hP hi y (List.mem_of_mem_drop (hxs ▸ List.mem_cons_of_mem _ hy))
    have hdrop : i.rule.items.drop (i.dot + 1) = xs := h2
    have hitem : Lr1c first g m n0 s (⟨⟨x, r⟩, 0⟩, some (ahead (w ++ rest))) := by
      obtain ⟨b1, b2⟩ := forest_begins hg hfo hok hf
      obtain ⟨e0, c1, c2⟩ := hi
      refine ⟨e0, c1, c2.tail ?_⟩
      cases w with
      | nil => exact .pass h1 hr (hdrop ▸ b1 rfl)
      | cons k w => exact .first h1 hr (hdrop ▸ b2 k w rfl)
    obtain ⟨q, top, l, e1, e3, e0, e4, e5⟩ := ihc (st := st) (rest := w ++ rest) hP hitem (Nat.zero_le _) rfl
    obtain ⟨q', top', l', f1, f3, f0, f4, f5⟩ := ih (st := s :: st) (rest := rest) hP' (lr1c_advance hi h1 hs') h3 h2
    refine ⟨q' ++ [s'], top', l', by simpa using f1, by simp [f3], f0, f4, fun hw => ?_⟩
    rw [List.append_assoc]
    refine e5 ?_
    have hw' := f5 (by simpa using hw)
    have hgo := hd.goto s x s' hP hs' (List.ne_nil_of_mem hr)
    have hredu := guard_pops (t := t) (under := under) q s st ⟨num.ident x, num.ruleId ⟨x, r⟩, r.length⟩ e3 hgo
    generalize w ++ rest = rest' at e4 hw'
    cases rest' with
    | nil =>
      obtain ⟨e, l2, a1, a2, a3⟩ := hd.reduceEog top _ e0 e4 (List.ne_nil_of_mem hr)
      refine wins_of_shifts ht hu (by simp) ?_
      obtain ⟨s2, rest2, acts2, b1, b2, b3⟩ := hw'.1 rfl
      have hto := (guard_reduces hredu).1
      rw [e1] at hto
      rw [b1] at hto
      rw [e1]
      exact ⟨top, l ++ under, _, rfl, a1, .reduce (Or.inl a2) a3 hto b2 b3⟩
    | cons k rest' =>
      obtain ⟨e, l2, a1, a2, a3⟩ := hd.reduce top _ _ e0 e4 (List.ne_nil_of_mem hr)
      rw [e1]
      rw [e1] at hredu
      refine wins_step ht hu (rest' := k :: rest') (stk' := s' :: s :: st) a1 (Or.inr a2) false ?_ rfl hw'
      unfold perform
      rw [a2]
      simp only [bind, Except.bind, a3, orUb]
      rw [hredu]
      rfl

/-- A guard that can be read is found. -/
theorem check_complete (hd : GuardDet first g okI num m n0 t P) (ht : EogOk t) (hu : under ≠ []) (hg : Plain g okI) (hf : ∀ x, okI x → g.FirstComplete x (first x))
    {k : Nat} {p : Int} {l : List Item} (hP : P k) (hk : AssocMap.get ⟨.guard p l, l⟩ m.guards = some k) {ts : List Tree} {u : List Tok} (h : Forest g num l ts u)
    {o fuel : Nat} {gs : Int} (hin : input.drop o = u ++ v) (hc : checkLoop t under input fuel [k] o = .ok gs) : 0 ≤ gs := by
  have h0 : Lr1c first g m n0 k (⟨⟨.guard p l, l⟩, 0⟩, some (ahead [])) := ⟨_, .guard hk (fun a ha => (Option.some.inj ha).symm), .refl⟩
  obtain ⟨q, top, l', e1, e3, e0, e4, e5⟩ := forest_guard (input := input) (v := v) hd ht hu hg hf h (st := []) (rest := []) hP h0 (Nat.zero_le _) rfl
  have := e5 (by
    refine wins_of_shifts ht hu (by simp) ?_
    obtain ⟨e, l2, a1, a2⟩ := hd.acceptEog top _ p l e0 e4 rfl
    rw [e1]
    exact ⟨top, l' ++ under, _, rfl, a1, .shift (Or.inr (Or.inr a2))⟩)
  rw [List.append_nil] at this
  exact this.2 o fuel gs hin hc

end
section
variable {first initial : Item → List Item} {g : Gram} {okI : Item → Prop} {okR : Rule → Prop} {rid : Rule → Nat} {clos : LItem → List Item → Set1}
  {own : LItem → Set1} {lt : Key → Key → Bool} {languages : List Item} {m m' : Mach} {st : Stage} {states : List (List LrAction)} {num : Numbering}
  {sort : List TableAction → List TableAction} {sortWeak : List (Int × Int) → List (Int × Int)} {occ : Item → Prop}

/-- The tables. -/
local notation "T" => build num sort sortWeak states (some st.weak.strongToWeak)
set_option quotPrecheck false in
local notation "n0" => (Lalr.initials languages).states.length

theorem made_ignores (h : Made first initial g okI okR rid clos own lt languages m m' st states num sort sortWeak occ) :
    Ignores T (fun k => decide (.terminal k ∈ st.ignored)) := by
  obtain ⟨_, _, h1⟩ := h.machine
  obtain ⟨_, h2⟩ := h.lookaheads
  exact grammar_ignores h.ridInj h.univ h.noEog h.starts h.firsts h.inits h.closOk h.selfOk h1 h2 h.actions h.length h.ignored h.weak h.sortOk h.fits h.eog

theorem state_of_entries {s : Nat} {term : Bool} {sym : Int} {l : List TableAction} (h : entriesFor T term s sym = .ok l) : ∃ acts, states[s]? = some acts := by
  cases hs : states[s]? with
  | none =>
    rw [entriesFor_outside num sort sortWeak states _ s hs] at h
    cases h
  | some acts => exact ⟨acts, rfl⟩

/-- What the tables of a grammar have for the end of guard symbol. -/
theorem made_eog (h : Made first initial g okI okR rid clos own lt languages m m' st states num sort sortWeak occ) (hpos : ∀ i, 0 ≤ num.ident i) : EogOk T := by
  refine ⟨?_, (made_ignores h).eog, ?_⟩
  · intro s l hl
    obtain ⟨acts, hs⟩ := state_of_entries hl
    obtain ⟨b, h1, h2⟩ := end_of_guard_exact num sort sortWeak states (some st.weak.strongToWeak) s acts hs
    refine ⟨b, h1, ?_⟩
    obtain ⟨-, l', e1, e2, -⟩ := action_lookup_exact num sort sortWeak h.sortOk states (some st.weak.strongToWeak) h.fits s acts hs (num.ident .eog)
    have e3 := entriesFor_nonterminal e1
    have hl' : entriesFor T false s (num.ident .eog) = .ok l := hl
    rw [e3] at hl'
    cases hl'
    rw [h2]
    constructor
    · rintro ⟨a, ha, h3, h4⟩ hnil
      subst hnil
      have := e2.mem_iff.2 (List.mem_map_of_mem (List.mem_filter.2 ⟨ha, by simp [h3, h4]⟩))
      cases this
    · intro hne
      obtain ⟨e, l, rfl⟩ := List.exists_cons_of_ne_nil hne
      obtain ⟨c, c1, -⟩ := List.mem_map.1 (e2.mem_iff.1 (List.mem_map.2 ⟨e, List.mem_cons_self .., rfl⟩))
      obtain ⟨c3, c4⟩ := List.mem_filter.1 c1
      simp only [Bool.and_eq_true, Bool.not_eq_true', beq_iff_eq] at c4
      exact ⟨c, c3, c4.1, c4.2⟩
  · intro s l hl e he r hr
    obtain ⟨a, -, -, -, -, h4⟩ := h.tab.nonterm _ _ _ hl e he
    have hty := (made_ignores h).eog _ _ hl e he
    have hty' : e.type = a.type := congrArg Prod.fst h4
    have hred : isReduce a.type = true := by
      rw [← hty']
      rcases hty with h | h <;> rw [h] <;> rfl
    obtain ⟨-, h5⟩ := entry_rule h4 hred
    rw [h5] at hr
    cases hr
    exact hpos _

/-- One state leads to another. -/
def Edge (m : Mach) (a b : Nat) : Prop := ∃ x, tr m a x = some b

/-- The states from that of a guard on have only items of what is in the guard. -/
theorem guard_items (hm : Moves g m) {okB : Item → Prop} (hg : Plain g okB) {k : Nat} {r : Rule} (hk : kern m k = [⟨r, 0⟩]) (hl : ∀ x ∈ r.items, okB x) {s : Nat}
    (hs : ReflTransGen (Edge m) k s) : ∀ i, Clos0 g (kern m s) i → ∀ x ∈ i.rule.items, okB x := by
  have hclos : ∀ s, (∀ i ∈ kern m s, ∀ x ∈ i.rule.items, okB x) → ∀ i, Clos0 g (kern m s) i → ∀ x ∈ i.rule.items, okB x := by
    rintro s h i ⟨i0, h1, h2⟩
    induction h2 with
    | refl => exact h _ h1
    | tail _ hst ih =>
      obtain ⟨x, r, hx, hr, rfl⟩ := hst
      exact flatten_ok hg (ih x (List.mem_of_getElem? hx)) hr
  induction hs with
  | refl =>
    refine hclos k ?_
    rw [hk]
    intro i hi
    rw [List.mem_singleton.1 hi]
    exact hl
  | tail _ he ih =>
    obtain ⟨x, hx⟩ := he
    refine hclos _ ?_
    intro i hi
    obtain ⟨j, hj, -, rfl⟩ := hm.goto _ _ _ hx i hi
    exact ih j hj

/-- The tables of a grammar, in the states that checking a guard goes through. -/
theorem made_guardDet (h : Made first initial g okI okR rid clos own lt languages m m' st states num sort sortWeak occ) (hb : Bare st) {p : Int} {l : List Item} {k : Nat}
    (hk : AssocMap.get ⟨.guard p l, l⟩ m.guards = some k) {okB : Item → Prop} (hg : Plain g okB) (hl : ∀ x ∈ l, okB x)
    (hone : ∀ (s : Nat) (acts : List LrAction), ReflTransGen (Edge m) k s → states[s]? = some acts → ∀ b ∈ acts, ∀ c ∈ acts, b.item = c.item →
      isTerminal b.item = true ∨ b.item = .eog → b = c) :
    GuardDet first g okB num m n0 T (ReflTransGen (Edge m) k) := by
  obtain ⟨_, _, h1⟩ := h.machine
  obtain ⟨hi, -, -⟩ := completeStates_inv h.ridInj h.univ h.closOk h.starts h1
  obtain ⟨-, -, -, -, h5, h6, -⟩ := lr0_states_exact h.ridInj h.univ h.closOk h.starts h1
  have hkern := (hi.guards _ _ hk).2.1
  have hitems : ∀ s e, ReflTransGen (Edge m) k s → Lr1c first g m n0 s e → ∀ x ∈ e.1.rule.items, okB x := fun s e hs he =>
    guard_items (moves_of_made h) hg hkern hl hs _ (h.clos0 he).1
  have hterm : ∀ s n a, ReflTransGen (Edge m) k s → s < m.states.length → Act first g initial m n0 s a → a.item = .terminal n →
      ∃ e l, entriesFor T true s n = .ok (e :: l) ∧ entryMeaning T e = meaning num a := by
    intro s n a hs hlt ha hn
    obtain ⟨acts, -, hst⟩ := h.exact hlt
    have hmem := ((h.bare hb hst).2 a).2 (Or.inl ha)
    obtain ⟨e, c, q1, q2, q3, q4⟩ := h.firstEntry hst hmem (Or.inl (by rw [hn]; rfl))
    have := hone s _ hs hst a hmem c q2 q3.symm (Or.inl (by rw [hn]; rfl))
    subst this
    obtain ⟨l, hl⟩ := q1.1 n hn
    exact ⟨e, l, hl, q4⟩
  have heog : ∀ s a, ReflTransGen (Edge m) k s → s < m.states.length → Act first g initial m n0 s a → a.item = .eog →
      ∃ e l, entriesFor T false s (num.ident .eog) = .ok (e :: l) ∧ entryMeaning T e = meaning num a := by
    intro s a hs hlt ha hn
    obtain ⟨acts, -, hst⟩ := h.exact hlt
    have hmem := ((h.bare hb hst).2 a).2 (Or.inl ha)
    obtain ⟨-, l, k1, k2, -⟩ := action_lookup_exact num sort sortWeak h.sortOk states (some st.weak.strongToWeak) h.fits s _ hst (num.ident .eog)
    have k3 := entriesFor_nonterminal k1
    have k4 := k2.mem_iff.2 (List.mem_map.2 ⟨a, List.mem_filter.2 ⟨hmem, by simp [hn, isTerminal]⟩, rfl⟩)
    cases l with
    | nil => cases k4
    | cons e l =>
      obtain ⟨c, c1, c2⟩ := List.mem_map.1 (k2.mem_iff.1 (List.mem_map.2 ⟨e, List.mem_cons_self .., rfl⟩))
      obtain ⟨c3, c4⟩ := List.mem_filter.1 c1
      simp only [Bool.and_eq_true, Bool.not_eq_true', beq_iff_eq] at c4
      have c5 := h.eog _ c4.2
      have := hone s _ hs hst a hmem c c3 (by rw [hn, c5]) (Or.inr hn)
      subst this
      exact ⟨e, l, k3, c2.symm⟩
  have hred : ∀ r : Rule, closRules g r.nonterminal ≠ [] → reduceType r.nonterminal = .reduce := by
    intro r hne
    cases hn : r.nonterminal <;> first | rfl | (rw [hn] at hne; exact absurd rfl hne)
  constructor
  · exact hitems
  · intro s e x hs he hx
    obtain ⟨s', hs'⟩ := (h5 s (h.inRange he) x).2 ⟨fun hc => hg.noEmpty (hc ▸ hitems s e hs he x (List.mem_of_getElem? hx)), e.1, (h.clos0 he).1, hx⟩
    exact ⟨s', hs', hs.tail ⟨x, hs'⟩⟩
  · intro s n s' hs ht
    obtain ⟨e, l, q1, q2⟩ := hterm s n _ hs (h6 s _ _ ht).1 (.shift ht) rfl
    obtain ⟨r1, r2⟩ := entry_next q2 rfl
    exact ⟨e, l, q1, r1, by rw [r2]; rfl⟩
  · intro s r n hs he hne
    obtain ⟨e, l, q1, q2⟩ := hterm s n ⟨reduceType r.nonterminal, .terminal n, -1, r⟩ hs (h.inRange he) (.reduce he rfl) rfl
    obtain ⟨r1, r2⟩ := entry_rule q2 (by simp [hred r hne, isReduce])
    exact ⟨e, l, q1, r1.trans (hred r hne), r2⟩
  · intro s r hs he hne
    obtain ⟨e, l, q1, q2⟩ := heog s ⟨reduceType r.nonterminal, .eog, -1, r⟩ hs (h.inRange he) (.reduce he rfl) rfl
    obtain ⟨r1, r2⟩ := entry_rule q2 (by simp [hred r hne, isReduce])
    exact ⟨e, l, q1, r1.trans (hred r hne), r2⟩
  · intro s r p l hs he hn
    obtain ⟨e, l, q1, q2⟩ := heog s ⟨reduceType r.nonterminal, .eog, -1, r⟩ hs (h.inRange he) (.reduce he rfl) rfl
    refine ⟨e, l, q1, ?_⟩
    have : e.type = reduceType r.nonterminal := congrArg Prod.fst q2
    rw [this, hn]
    rfl
  · intro s x s' hs ht hx
    refine h.tab.goto s x s' ht ?_ ?_
    · cases x <;> first | rfl | (exact absurd rfl hx)
    · rintro p l rfl
      exact hx rfl

/-- What the input begins with, without ignored tokens, is derived from these items. -/
def Begun (g : Gram) (ignored : List Item) (l : List Item) (w : List Tok) : Prop :=
  ∃ u v, w = u ++ v ∧ g.Derives l ((u.filter fun k => decide (.terminal k.sym ∉ ignored)).map fun k => .terminal k.sym)

theorem derives_of_read (h : Made first initial g okI okR rid clos own lt languages m m' st states num sort sortWeak occ) (hb : Bare st) {l : List Item}
    (hx : ∀ x ∈ l, okI x) {okB : Item → Prop} (hg : Plain g okB) (hl : ∀ x ∈ l, okB x) {us : List Tree} {u w : List Tok}
    (hr : Read (fun n => .terminal n ∈ st.ignored) (StrongOf st.weak) u w) (hfo : Forest g num l us w) :
    g.Derives l ((u.filter fun k => decide (.terminal k.sym ∉ st.ignored)).map fun k => .terminal k.sym) := by
  have hok : ∀ k ∈ w, okI (.terminal k.sym) := by
    have : Forest g num l us w := hfo
    clear hr hfo hl
    induction this with
    | nil => exact fun _ h => by cases h
    | token _ ih =>
      intro k hk
      rcases List.mem_cons.1 hk with rfl | hk
      · exact hx _ (List.mem_cons_self ..)
      · exact ih (fun x h => hx x (List.mem_cons_of_mem _ h)) k hk
    | guard _ ih => exact ih (fun x h => hx x (List.mem_cons_of_mem _ h))
    | node hr _ _ ih1 ih2 =>
      intro k hk
      rcases List.mem_append.1 hk with hk | hk
      · exact ih1 (h.univ.items _ (h.univ.clos _ (hx _ (List.mem_cons_self ..)) _ hr)) k hk
      · exact ih2 (fun x h => hx x (List.mem_cons_of_mem _ h)) k hk
  have hw : w = u.filter fun k => decide (.terminal k.sym ∉ st.ignored) := by
    clear hfo
    induction hr with
    | nil => rfl
    | @keep k u w _ ih =>
      have hk : Item.terminal k.sym ∉ st.ignored := fun hc => (h.ignored _ hc).2 (hok k (List.mem_cons_self ..))
      rw [List.filter_cons, if_pos (by simpa using hk), ← ih (fun k hk => hok k (List.mem_cons_of_mem _ hk))]
    | @strong k n u w hn =>
      obtain ⟨ws, hn, -⟩ := hn
      rw [hb.weak] at hn
      cases hn
    | @skip k u w hk _ ih =>
      rw [List.filter_cons, if_neg (by simpa using hk), ← ih hok]
  rw [← hw]
  exact hfo.plain hg hl

/-- C82 (partial: guards with no guards inside them, languages without rewriters, one action for each symbol in the states that the check goes through; and only
if the check ends, see C42). Checking a guard answers its symbol if what follows in the input, apart from ignored tokens, begins with what is in the guard, and
a negative number if not. -/
theorem guard_check_exact_partial (h : Made first initial g okI okR rid clos own lt languages m m' st states num sort sortWeak occ) (hb : Bare st)
    (hpos : ∀ i, 0 ≤ num.ident i) {p : Int} {l : List Item} {k : Nat} (hk : AssocMap.get ⟨.guard p l, l⟩ m.guards = some k) {okB : Item → Prop} (hg : Plain g okB)
    (hl : ∀ x ∈ l, okB x) (hf : ∀ x, okB x → g.FirstComplete x (first x))
    (hone : ∀ (s : Nat) (acts : List LrAction), ReflTransGen (Edge m) k s → states[s]? = some acts → ∀ b ∈ acts, ∀ c ∈ acts, b.item = c.item →
      isTerminal b.item = true ∨ b.item = .eog → b = c)
    {under : List Nat} (hu : under ≠ []) {input : List Tok} {o fuel : Nat} {gs : Int} (hc : checkLoop T under input fuel [k] o = .ok gs) :
    (gs = num.ident (.guard p l) ∧ Begun g st.ignored l (input.drop o)) ∨ (gs < 0 ∧ ¬ Begun g st.ignored l (input.drop o)) := by
  obtain ⟨_, _, h1⟩ := h.machine
  obtain ⟨hi, -, -⟩ := completeStates_inv h.ridInj h.univ h.closOk h.starts h1
  obtain ⟨hkr, hkern, hokR⟩ := hi.guards _ _ hk
  have hx : ∀ x ∈ l, okI x := h.univ.items _ hokR
  have hsound := checkLoop_spec (moves_of_made h) h.tab h.eog rfl fuel k p l ⟨hkern, hkr, Or.inr ⟨p, l, rfl⟩⟩ [k] o gs (input.drop o) ⟨[(k, .nothing)], rfl, .base .nil⟩ hc
  have hcomp : Begun g st.ignored l (input.drop o) → 0 ≤ gs := by
    rintro ⟨u, v, huv, hd⟩
    obtain ⟨ts, hfo⟩ := forest_of_derives (num := num) hg hd hl rfl
    have hdrop := checkLoop_drop (made_ignores h) under input (keep (fun k => decide (.terminal k ∈ st.ignored)) (input.drop o)) fuel [k] o 0 rfl
    rcases hdrop with hdrop | hdrop
    · rw [hc] at hdrop
      cases hdrop
    · rw [hc] at hdrop
      refine check_complete (made_guardDet h hb hk hg hl hone) (made_eog h hpos) hu hg hf .refl hk hfo (v := keep (fun k => decide (.terminal k ∈ st.ignored)) v)
        (o := 0) ?_ hdrop.symm
      rw [huv, List.drop_zero]
      unfold keep
      rw [List.filter_append]
      simp
  rcases hsound with hneg | ⟨rfl, -, us, v, hr⟩
  · refine Or.inr ⟨hneg, fun hb => ?_⟩
    have := hcomp hb
    omega
  · obtain ⟨u, w', huv, hread, hfo⟩ := hr.forest
    exact Or.inl ⟨rfl, u, v, huv, derives_of_read h hb hx hg hl hread hfo⟩

end
end Guards
end TameParse

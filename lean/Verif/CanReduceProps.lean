import Verif.Parser
import Verif.ParserTablesProps

/-!
# C42: whether a symbol can be reduced
-/

namespace TameParse
namespace Parser

open ParserTables

/-- Removing `n` states; the last one stays. -/
def pops : Nat → List Nat → List Nat
  | 0, l => l
  | n + 1, _ :: b :: l => pops n (b :: l)
  | _ + 1, l => l

/-- A reduction of a rule of length `n` to a nonterminal, on the states alone. -/
def ReducesTo (t : Tables) (r : ReduceRule) (stack stack' : List Nat) : Prop :=
  ∃ s rest, pops r.length stack = s :: rest ∧
    ((∃ g, gotoFor t s r.identifier = .ok (some g) ∧ stack' = g :: s :: rest) ∨ (gotoFor t s r.identifier = .ok none ∧ stack' = s :: rest))

/-- Trying the actions `acts` for the symbol on a stack leads to a shift of the symbol: directly, or after performing a reduction and
looking at the symbol's actions in the state that it leads to. Guards are passed over, weak reductions may be. -/
inductive Shifts (t : Tables) (term : Bool) (sym : Int) : List TableAction → List Nat → Prop
  | shift {a : TableAction} {l : List TableAction} {stack : List Nat} (h : a.type = .shift ∨ a.type = .shiftstrong ∨ a.type = .accept) :
      Shifts t term sym (a :: l) stack
  | guard {a : TableAction} {l : List TableAction} {stack : List Nat} (h : a.type = .guard) (hl : Shifts t term sym l stack) :
      Shifts t term sym (a :: l) stack
  | pass {a : TableAction} {l : List TableAction} {stack : List Nat} (h : a.type = .weakreduce) (hl : Shifts t term sym l stack) :
      Shifts t term sym (a :: l) stack
  | reduce {a : TableAction} {l acts : List TableAction} {stack rest : List Nat} {r : ReduceRule} {s : Nat}
      (h : a.type = .reduce ∨ a.type = .weakreduce) (hr : rule t a.nextState = some r) (hs : ReducesTo t r stack (s :: rest))
      (hacts : entriesFor t term s sym = .ok acts) (hl : Shifts t term sym acts (s :: rest)) : Shifts t term sym (a :: l) stack

/-- The stack that `stackPos`, the pushed states and the parser's stack stand for. -/
def virt (popped : Nat) (pushed under : List Nat) : List Nat := pushed ++ under.drop (min popped (under.length - 1))

theorem pops_short (n : Nat) (l : List Nat) (h : l.length ≤ 1) : pops n l = l := by
  cases n with
  | zero => rfl
  | succ n =>
    match l, h with
    | [], _ => rfl
    | [_], _ => rfl

theorem fakePop_virt (under : List Nat) (hu : under ≠ []) : ∀ (n popped : Nat) (pushed : List Nat),
    virt (fakePop n popped pushed).1 (fakePop n popped pushed).2 under = pops n (virt popped pushed under)
  | 0, _, _ => rfl
  | n + 1, popped, x :: pushed => by
    rw [fakePop, fakePop_virt under hu n]
    have : virt popped (x :: pushed) under = x :: virt popped pushed under := rfl
    rw [this]
    have hne : virt popped pushed under ≠ [] := by
      unfold virt
      intro h
      have := congrArg List.length h
      simp only [List.length_append, List.length_drop, List.length_nil] at this
      have := List.length_pos_iff.2 hu
      omega
    cases hv : virt popped pushed under with
    | nil => exact absurd hv hne
    | cons y l => rfl
  | n + 1, popped, [] => by
    rw [fakePop, fakePop_virt under hu n]
    have hpos := List.length_pos_iff.2 hu
    unfold virt
    rw [List.nil_append, List.nil_append]
    by_cases h : popped < under.length - 1
    · have e1 : min popped (under.length - 1) = popped := by omega
      have e2 : min (popped + 1) (under.length - 1) = popped + 1 := by omega
      rw [e1, e2]
      have hp : popped < under.length := by omega
      have hp1 : popped + 1 < under.length := by omega
      rw [List.drop_eq_getElem_cons hp, List.drop_eq_getElem_cons hp1]
      rfl
    · have e1 : min popped (under.length - 1) = under.length - 1 := by omega
      have e2 : min (popped + 1) (under.length - 1) = under.length - 1 := by omega
      rw [e1, e2]
      rw [pops_short, pops_short]
      · rw [List.length_drop]; omega
      · rw [List.length_drop]; omega

theorem topOf_virt (under : List Nat) (popped : Nat) (pushed : List Nat) : topOf popped pushed under = orUb (virt popped pushed under).head? := by
  cases pushed with
  | cons x l => rfl
  | nil =>
    unfold topOf virt
    rw [List.nil_append, List.head?_drop]

theorem orUb_ok {α : Type} {o : Option α} {a : α} (h : orUb o = .ok a) : o = some a := by
  cases o with
  | none => cases h
  | some b => cases h; rfl

theorem bind_ok {α β : Type} {x : M α} {f : α → M β} {b : β} (h : x >>= f = .ok b) : ∃ a, x = .ok a ∧ f a = .ok b := by
  cases x with
  | error e => cases h
  | ok a => exact ⟨a, rfl, h⟩

theorem fakeReduce_virt {t : Tables} {under : List Nat} (hu : under ≠ []) {a : TableAction} (ha : a.type = .reduce ∨ a.type = .weakreduce)
    {popped : Nat} {pushed : List Nat} {p : Nat × List Nat} (h : fakeReduce t a popped pushed under = .ok p) :
    ∃ r, rule t a.nextState = some r ∧ ReducesTo t r (virt popped pushed under) (virt p.1 p.2 under) := by
  have h' : (do
    let r ← orUb (rule t a.nextState)
    let p := fakePop r.length popped pushed
    let s ← topOf p.1 p.2 under
    match ← gotoFor t s r.identifier with
    | some g => return (p.1, g :: p.2)
    | none => return p : M (Nat × List Nat)) = .ok p := by
    rw [← h]
    unfold fakeReduce
    rcases ha with ha | ha <;> rw [ha] <;> rfl
  obtain ⟨r, hr, h'⟩ := bind_ok h'
  obtain ⟨s, hs, h'⟩ := bind_ok h'
  obtain ⟨g, hg, h'⟩ := bind_ok h'
  refine ⟨r, orUb_ok hr, ?_⟩
  rw [topOf_virt, fakePop_virt under hu] at hs
  have hs' := orUb_ok hs
  have hv := fakePop_virt under hu r.length popped pushed
  cases hp : pops r.length (virt popped pushed under) with
  | nil => rw [hp] at hs'; cases hs'
  | cons x rest =>
    rw [hp] at hs'
    cases hs'
    refine ⟨s, rest, hp, ?_⟩
    cases g with
    | none =>
      cases h'
      exact Or.inr ⟨hg, by rw [hv, hp]⟩
    | some g =>
      cases h'
      refine Or.inl ⟨g, hg, ?_⟩
      show g :: virt _ _ under = _
      rw [hv, hp]

theorem ReducesTo.unique {t : Tables} {r : ReduceRule} {s a b : List Nat} (h1 : ReducesTo t r s a) (h2 : ReducesTo t r s b) : a = b := by
  obtain ⟨x, l, h1, h1'⟩ := h1
  obtain ⟨y, m, h2, h2'⟩ := h2
  rw [h1] at h2
  cases h2
  rcases h1' with ⟨g, h3, rfl⟩ | ⟨h3, rfl⟩ <;> rcases h2' with ⟨g', h4, rfl⟩ | ⟨h4, rfl⟩ <;> rw [h3] at h4 <;> cases h4 <;> rfl

/-- The actions at position `i` of a row. -/
def actsAt (row : List TableAction) (sym : Int) (i : Nat) : List TableAction := (row.drop i).takeWhile (fun a => a.symbolId == sym)

theorem entriesFor_eq {t : Tables} {term : Bool} {s : Nat} {sym : Int} {row : List TableAction} {j : Nat} (h1 : rowOf t term s = .ok row)
    (h2 : findSym t term s sym = .ok j) : entriesFor t term s sym = .ok (actsAt row sym j) := by
  unfold entriesFor actsAt
  rw [h1]
  simp only [bind, Except.bind, h2, pure, Except.pure]

theorem canLoop_spec (t : Tables) (term : Bool) (sym : Int) (under : List Nat) (hu : under ≠ []) :
    ∀ (fuel outer cur i popped : Nat) (pushed : List Nat) (b : Bool) (row : List TableAction), rowOf t term cur = .ok row →
      canLoop t term sym under fuel outer cur i popped pushed = .ok b →
      (b = true ↔ Shifts t term sym (actsAt row sym i) (virt popped pushed under))
  | 0, _, _, _, _, _, _, _, _, h => by cases h
  | fuel + 1, outer, cur, i, popped, pushed, b, row, hrow, h => by
    have key : ∀ {a : TableAction} {p : Nat × List Nat} {s j : Nat} {b : Bool} {outer : Nat}, (a.type = .reduce ∨ a.type = .weakreduce) →
        fakeReduce t a popped pushed under = .ok p → topOf p.1 p.2 under = .ok s → findSym t term s sym = .ok j →
        canLoop t term sym under fuel outer s j p.1 p.2 = .ok b →
        ∃ r rest acts, rule t a.nextState = some r ∧ ReducesTo t r (virt popped pushed under) (s :: rest) ∧ entriesFor t term s sym = .ok acts ∧
          (b = true ↔ Shifts t term sym acts (s :: rest)) := by
      intro a p s j b outer ha hp hs hj hc
      obtain ⟨r, hr, hred⟩ := fakeReduce_virt hu ha hp
      have hrow' : ∃ row', rowOf t term s = .ok row' := by
        cases fuel with
        | zero => cases hc
        | succ n =>
          unfold canLoop at hc
          obtain ⟨row', h1, -⟩ := bind_ok hc
          exact ⟨row', h1⟩
      obtain ⟨row', hrow'⟩ := hrow'
      have := canLoop_spec t term sym under hu fuel _ _ _ _ _ _ row' hrow' hc
      rw [topOf_virt] at hs
      have hs' := orUb_ok hs
      cases hv : virt p.1 p.2 under with
      | nil => rw [hv] at hs'; cases hs'
      | cons x rest =>
        rw [hv] at hs' this hred
        cases hs'
        exact ⟨r, rest, _, hr, hred, entriesFor_eq hrow' hj, this⟩
    unfold canLoop at h
    rw [hrow] at h
    simp only [bind, Except.bind] at h
    by_cases he : cur = outer ∧ i = row.length
    · rw [if_pos he] at h
      cases h
      have : actsAt row sym i = [] := by
        unfold actsAt
        rw [List.drop_eq_nil_of_le (by omega)]
        rfl
      rw [this]
      constructor
      · intro h; cases h
      · intro h; cases h
    · rw [if_neg he] at h
      cases hact : row[i]? with
      | none => rw [hact] at h; cases h
      | some act =>
        rw [hact] at h
        simp only [orUb] at h
        have hi := List.getElem?_eq_some_iff.1 hact
        obtain ⟨hi, hget⟩ := hi
        have hdrop : row.drop i = act :: row.drop (i + 1) := by
          rw [List.drop_eq_getElem_cons hi, hget]
        by_cases hsym : act.symbolId ≠ sym
        · rw [if_pos hsym] at h
          cases h
          have : actsAt row sym i = [] := by
            unfold actsAt
            rw [hdrop, List.takeWhile_cons]
            simp [hsym]
          rw [this]
          constructor
          · intro h; cases h
          · intro h; cases h
        · rw [if_neg hsym] at h
          have hacts : actsAt row sym i = act :: actsAt row sym (i + 1) := by
            unfold actsAt
            rw [hdrop, List.takeWhile_cons]
            simp only [ne_eq, Decidable.not_not] at hsym
            simp [hsym]
          rw [hacts]
          have htrue : (act.type = .shift ∨ act.type = .shiftstrong ∨ act.type = .accept) → b = true →
              (b = true ↔ Shifts t term sym (act :: actsAt row sym (i + 1)) (virt popped pushed under)) :=
            fun h1 h2 => ⟨fun _ => .shift h1, fun _ => h2⟩
          have hfalse : act.type = .goto ∨ act.type = .ignore → b = false →
              (b = true ↔ Shifts t term sym (act :: actsAt row sym (i + 1)) (virt popped pushed under)) := by
            intro h1 h2
            constructor
            · intro h3; rw [h2] at h3; cases h3
            · intro h3
              exfalso
              cases h3 with
              | shift h => rcases h1 with h1 | h1 <;> rw [h1] at h <;> simp at h
              | guard h => rcases h1 with h1 | h1 <;> rw [h1] at h <;> simp at h
              | pass h => rcases h1 with h1 | h1 <;> rw [h1] at h <;> simp at h
              | reduce h => rcases h1 with h1 | h1 <;> rw [h1] at h <;> simp at h
          cases hty : act.type with
          | shift => rw [hty] at h; cases h; exact htrue (by simp [hty]) rfl
          | shiftstrong => rw [hty] at h; cases h; exact htrue (by simp [hty]) rfl
          | accept => rw [hty] at h; cases h; exact htrue (by simp [hty]) rfl
          | goto => rw [hty] at h; cases h; exact hfalse (by simp [hty]) rfl
          | ignore => rw [hty] at h; cases h; exact hfalse (by simp [hty]) rfl
          | divert =>
            rw [hty] at h
            simp only at h
            exfalso
            -- the entry is never passed
            have hno : ∀ (fuel : Nat) (pushed : List Nat) (b : Bool), canLoop t term sym under fuel outer cur i popped pushed ≠ .ok b := by
              intro fuel
              induction fuel with
              | zero => intro _ _ h; cases h
              | succ n ih =>
                intro pushed b h
                unfold canLoop at h
                rw [hrow] at h
                simp only [bind, Except.bind] at h
                rw [if_neg he, hact] at h
                simp only [orUb] at h
                rw [if_neg hsym, hty] at h
                exact ih _ _ h
            exact hno _ _ _ h
          | guard =>
            rw [hty] at h
            simp only at h
            have := canLoop_spec t term sym under hu fuel _ _ _ _ _ _ row hrow h
            rw [this]
            constructor
            · intro h1; exact .guard hty h1
            · intro h1
              cases h1 with
              | shift h => rw [hty] at h; simp at h
              | guard _ h => exact h
              | pass h => rw [hty] at h; simp at h
              | reduce h => rw [hty] at h; simp at h
          | reduce =>
            rw [hty] at h
            simp only at h
            obtain ⟨p, hp, h⟩ := bind_ok h
            obtain ⟨s, hs, h⟩ := bind_ok h
            obtain ⟨j, hj, h⟩ := bind_ok h
            obtain ⟨r, rest, acts, k1, k2, k3, k4⟩ := key (Or.inl hty) hp hs hj h
            rw [k4]
            constructor
            · intro h1; exact .reduce (Or.inl hty) k1 k2 k3 h1
            · intro h1
              cases h1 with
              | shift h => rw [hty] at h; simp at h
              | guard h => rw [hty] at h; simp at h
              | pass h => rw [hty] at h; simp at h
              | reduce _ m1 m2 m3 m4 =>
                rw [k1] at m1
                cases m1
                have := ReducesTo.unique k2 m2
                cases this
                rw [k3] at m3
                cases m3
                exact m4
          | weakreduce =>
            rw [hty] at h
            simp only at h
            obtain ⟨p, hp, h⟩ := bind_ok h
            obtain ⟨s, hs, h⟩ := bind_ok h
            obtain ⟨j, hj, h⟩ := bind_ok h
            obtain ⟨c, hc, h⟩ := bind_ok h
            obtain ⟨r, rest, acts, k1, k2, k3, k4⟩ := key (Or.inr hty) hp hs hj hc
            cases c with
            | true =>
              cases h
              exact ⟨fun _ => .reduce (Or.inr hty) k1 k2 k3 (k4.1 rfl), fun _ => rfl⟩
            | false =>
              simp only [Bool.false_eq_true, if_false] at h
              have := canLoop_spec t term sym under hu fuel _ _ _ _ _ _ row hrow h
              rw [this]
              constructor
              · intro h1; exact .pass hty h1
              · intro h1
                cases h1 with
                | shift h => rw [hty] at h; simp at h
                | guard h => rw [hty] at h; simp at h
                | pass _ h => exact h
                | reduce _ m1 m2 m3 m4 =>
                  rw [k1] at m1
                  cases m1
                  have := ReducesTo.unique k2 m2
                  cases this
                  rw [k3] at m3
                  cases m3
                  exact absurd (k4.2 m4) (by simp)

/-- C42, the part that holds: if `can_reduce` answers at all, it answers true exactly if replaying the reductions leads to a shift or an
accept of the symbol. Missing: that it answers (`can_reduce_outside_violated`, `can_reduce_endless_violated`). -/
theorem can_reduce_partial (t : Tables) (fuel : Nat) (term : Bool) (sym : Int) (popped : Nat) (pushed under : List Nat) (hu : under ≠ []) (b : Bool)
    (h : canReduce t fuel term sym popped pushed under = .ok b) :
    ∃ s rest acts, virt popped pushed under = s :: rest ∧ entriesFor t term s sym = .ok acts ∧ (b = true ↔ Shifts t term sym acts (s :: rest)) := by
  unfold canReduce at h
  obtain ⟨s, hs, h⟩ := bind_ok h
  obtain ⟨j, hj, h⟩ := bind_ok h
  have hrow' : ∃ row', rowOf t term s = .ok row' := by
    cases fuel with
    | zero => cases h
    | succ n =>
      unfold canLoop at h
      obtain ⟨row', h1, -⟩ := bind_ok h
      exact ⟨row', h1⟩
  obtain ⟨row', hrow'⟩ := hrow'
  have := canLoop_spec t term sym under hu fuel _ _ _ _ _ _ row' hrow' h
  rw [topOf_virt] at hs
  have hs' := orUb_ok hs
  cases hv : virt popped pushed under with
  | nil => rw [hv] at hs'; cases hs'
  | cons x rest =>
    rw [hv] at hs' this
    cases hs'
    exact ⟨s, rest, _, rfl, entriesFor_eq hrow' hj, this⟩

/-! Staying inside the tables -/

/-- The tables have rows for the states below `n`, sorted by symbol; gotos lead to such states and reductions name rules. -/
structure InRange (t : Tables) (n : Nat) : Prop where
  rows : ∀ s < n, ∀ term : Bool, ∃ row c, (if term then t.terminalActions[s]? else t.nonterminalActions[s]?) = some row ∧ t.counts[s]? = some c ∧
    (if term then c.1 else c.2) ≤ row.length
  sorted : ∀ s < n, ∀ term row, rowOf t term s = .ok row → row.Pairwise (fun a b => a.symbolId ≤ b.symbolId)
  gotos : ∀ s < n, ∀ row, rowOf t false s = .ok row → ∀ e ∈ row, e.type = .goto → e.nextState < n
  reduces : ∀ s < n, ∀ term row, rowOf t term s = .ok row → ∀ e ∈ row, isReduce e.type = true → ∃ r, rule t e.nextState = some r

theorem InRange.row {t : Tables} {n s : Nat} (h : InRange t n) (hs : s < n) (term : Bool) : ∃ row, rowOf t term s = .ok row := by
  obtain ⟨row, c, h1, h2, h3⟩ := h.rows s hs term
  unfold rowOf
  rw [h1, h2]
  exact ⟨_, rfl⟩

/-- The search in a sorted row. -/
theorem findAction_spec (sym : Int) (l : List TableAction) (c : Nat) (hc : c ≤ l.length) (hs : (l.take c).Pairwise (fun a b => a.symbolId ≤ b.symbolId)) :
    ∃ p, findAction sym l c = some p ∧ p ≤ c ∧ (∀ (i : Nat) a, i < p → (l.take c)[i]? = some a → a.symbolId < sym) ∧
      (∀ (i : Nat) a, p ≤ i → (l.take c)[i]? = some a → sym ≤ a.symbolId) := by
  unfold findAction
  rw [if_pos hc]
  refine ⟨_, rfl, ?_⟩
  obtain ⟨-, h2, h3, h4⟩ := lowerBoundPos_spec (fun i => match l[i]? with | some a => decide (a.symbolId < sym) | none => false) 0 c
    (Nat.zero_le _) (by
      intro i j _ hij hj hp
      have hi' : i < l.length := by omega
      have hj' : j < l.length := by omega
      simp only [List.getElem?_eq_getElem hi', List.getElem?_eq_getElem hj', decide_eq_true_eq] at *
      rcases Nat.lt_or_ge i j with hlt | hge
      · have := List.pairwise_iff_getElem.1 hs i j (by rw [List.length_take]; omega) (by rw [List.length_take]; omega) hlt
        rw [List.getElem_take, List.getElem_take] at this
        omega
      · have : i = j := by omega
        subst this; exact hp)
  have get : ∀ (i : Nat) a, (l.take c)[i]? = some a → i < c ∧ l[i]? = some a := by
    intro i a ha
    rw [List.getElem?_take] at ha
    by_cases hi : i < c
    · rw [if_pos hi] at ha
      exact ⟨hi, ha⟩
    · rw [if_neg hi] at ha
      cases ha
  refine ⟨h2, ?_, ?_⟩
  · intro i a hi ha
    have := h3 i (Nat.zero_le _) hi
    obtain ⟨-, ha⟩ := get i a ha
    simpa [ha] using this
  · intro i a hi ha
    obtain ⟨hlt, ha⟩ := get i a ha
    have := h4 i hi hlt
    simp only [ha, decide_eq_false_iff_not] at this
    omega

theorem InRange.find {t : Tables} {n s : Nat} (h : InRange t n) (hs : s < n) (term : Bool) (sym : Int) {row : List TableAction}
    (hrow : rowOf t term s = .ok row) : ∃ j, findSym t term s sym = .ok j ∧ j ≤ row.length ∧
      (∀ (i : Nat) a, i < j → row[i]? = some a → a.symbolId < sym) ∧ (∀ (i : Nat) a, j ≤ i → row[i]? = some a → sym ≤ a.symbolId) := by
  have hsort := h.sorted s hs term row hrow
  obtain ⟨l, c, h1, h2, h3⟩ := h.rows s hs term
  unfold rowOf at hrow
  rw [h1, h2] at hrow
  cases hrow
  obtain ⟨p, e1, e2, e3, e4⟩ := findAction_spec sym l _ h3 hsort
  refine ⟨p, ?_, by rw [List.length_take]; omega, e3, e4⟩
  unfold findSym
  cases term with
  | true =>
    simp only [if_true] at h1 h3 e1 ⊢
    unfold findTerminal
    rw [h1, h2]
    show orUb (findAction sym l c.1) = _
    rw [e1]
    rfl
  | false =>
    simp only [Bool.false_eq_true, if_false] at h1 h3 e1 ⊢
    unfold findNonterminal
    rw [h1, h2]
    show orUb (findAction sym l c.2) = _
    rw [e1]
    rfl

theorem fakePop_le : ∀ (n k popped : Nat) (pushed : List Nat), (∀ s ∈ pushed, s < n) → ∀ s ∈ (fakePop k popped pushed).2, s < n
  | _, 0, _, _, h => h
  | n, k + 1, popped, _ :: pushed, h => fakePop_le n k popped pushed (fun s hs => h s (List.mem_cons_of_mem _ hs))
  | n, k + 1, popped, [], h => fakePop_le n k (popped + 1) [] h

theorem topOf_range {n : Nat} {under : List Nat} (hu : under ≠ []) (hur : ∀ s ∈ under, s < n) (popped : Nat) (pushed : List Nat) (h : ∀ s ∈ pushed, s < n) :
    ∃ s, topOf popped pushed under = .ok s ∧ s < n := by
  cases pushed with
  | cons x l => exact ⟨x, rfl, h x List.mem_cons_self⟩
  | nil =>
    have hpos := List.length_pos_iff.2 hu
    have hlt : min popped (under.length - 1) < under.length := by omega
    refine ⟨under[min popped (under.length - 1)], ?_, hur _ (List.getElem_mem _)⟩
    unfold topOf
    rw [List.getElem?_eq_getElem hlt]
    rfl

theorem fakeReduce_range {t : Tables} {n : Nat} (h : InRange t n) {under : List Nat} (hu : under ≠ []) (hur : ∀ s ∈ under, s < n)
    {a : TableAction} (ha : a.type = .reduce ∨ a.type = .weakreduce) {r : ReduceRule} (hr : rule t a.nextState = some r) (popped : Nat) (pushed : List Nat)
    (hp : ∀ s ∈ pushed, s < n) : ∃ p, fakeReduce t a popped pushed under = .ok p ∧ ∀ s ∈ p.2, s < n := by
  have e : fakeReduce t a popped pushed under = (do
    let r ← orUb (rule t a.nextState)
    let p := fakePop r.length popped pushed
    let s ← topOf p.1 p.2 under
    match ← gotoFor t s r.identifier with
    | some g => return (p.1, g :: p.2)
    | none => return p : M (Nat × List Nat)) := by
    unfold fakeReduce
    rcases ha with ha | ha <;> rw [ha] <;> rfl
  rw [e, hr]
  have hp' := fakePop_le n r.length popped pushed hp
  obtain ⟨s, hs, hsn⟩ := topOf_range hu hur (fakePop r.length popped pushed).1 _ hp'
  simp only [orUb, bind, Except.bind, hs]
  obtain ⟨row, hrow⟩ := h.row hsn false
  obtain ⟨j, hj, -⟩ := h.find hsn false r.identifier hrow
  unfold gotoFor
  rw [hrow]
  simp only [bind, Except.bind, hj, pure, Except.pure]
  cases hf : (row.drop j).find? (fun a => decide (a.type = .goto)) with
  | none => exact ⟨_, rfl, hp'⟩
  | some e =>
    refine ⟨_, rfl, ?_⟩
    intro s' hs'
    rcases List.mem_cons.1 hs' with rfl | hs'
    · refine h.gotos s hsn row hrow e (List.mem_of_mem_drop (List.mem_of_find?_eq_some hf)) ?_
      simpa using List.find?_some hf
    · exact hp' s' hs'

/-- C42, in bounds where it holds: if the row of every state has an entry for a greater symbol, `can_reduce` reads no entry that does not
exist. -/
theorem can_reduce_in_bounds_partial (t : Tables) (n : Nat) (h : InRange t n) (term : Bool) (sym : Int)
    (hcov : ∀ s < n, ∀ row, rowOf t term s = .ok row → ∃ e ∈ row, sym < e.symbolId) (fuel popped : Nat) (pushed under : List Nat)
    (hu : under ≠ []) (hur : ∀ s ∈ under, s < n) (hp : ∀ s ∈ pushed, s < n)
    (hdiv : ∀ s < n, ∀ row, rowOf t term s = .ok row → ∀ e ∈ row, e.type ≠ .divert) :
    canReduce t fuel term sym popped pushed under ≠ .error .ub := by
  have loop : ∀ (fuel outer cur i popped : Nat) (pushed : List Nat) (row : List TableAction), cur < n → rowOf t term cur = .ok row → i < row.length →
      (∀ s ∈ pushed, s < n) → canLoop t term sym under fuel outer cur i popped pushed ≠ .error .ub := by
    intro fuel
    induction fuel with
    | zero => intro _ _ _ _ _ _ _ _ _ _ hc; cases hc
    | succ fuel ih =>
      intro outer cur i popped pushed row hcur hrow hi hp
      have find : ∀ s < n, ∃ j row, findSym t term s sym = .ok j ∧ rowOf t term s = .ok row ∧ j < row.length := by
        intro s hs
        obtain ⟨row, hrow⟩ := h.row hs term
        obtain ⟨j, hj, hle, hlt, -⟩ := h.find hs term sym hrow
        refine ⟨j, row, hj, hrow, ?_⟩
        obtain ⟨e, he, hes⟩ := hcov s hs row hrow
        obtain ⟨k, hk⟩ := List.mem_iff_getElem?.1 he
        rcases Nat.lt_or_ge k j with hkj | hkj
        · have := hlt k e hkj hk
          omega
        · have := (List.getElem?_eq_some_iff.1 hk).1
          omega
      unfold canLoop
      rw [hrow]
      simp only [bind, Except.bind]
      rw [if_neg (by omega), List.getElem?_eq_getElem hi]
      simp only [orUb]
      have hmem : row[i] ∈ row := List.getElem_mem _
      by_cases hsym : row[i].symbolId ≠ sym
      · rw [if_pos hsym]
        intro hc; cases hc
      · rw [if_neg hsym]
        simp only [ne_eq, Decidable.not_not] at hsym
        have hnext : i + 1 < row.length := by
          obtain ⟨e, he, hes⟩ := hcov cur hcur row hrow
          obtain ⟨k, hk⟩ := List.mem_iff_getElem?.1 he
          obtain ⟨hk1, hk2⟩ := List.getElem?_eq_some_iff.1 hk
          rcases Nat.lt_or_ge i k with hik | hik
          · omega
          · exfalso
            rcases Nat.lt_or_ge k i with hki | hki
            · have := List.pairwise_iff_getElem.1 (h.sorted cur hcur term row hrow) k i hk1 hi hki
              rw [hk2, hsym] at this
              omega
            · have : k = i := by omega
              subst this
              rw [hk2] at hsym
              omega
        cases hty : row[i].type with
        | shift => intro hc; cases hc
        | shiftstrong => intro hc; cases hc
        | accept => intro hc; cases hc
        | goto => intro hc; cases hc
        | ignore => intro hc; cases hc
        | divert => exact absurd hty (hdiv cur hcur row hrow _ hmem)
        | guard =>
          simp only
          exact ih _ _ _ _ _ _ hcur hrow hnext hp
        | reduce =>
          simp only
          obtain ⟨r, hr⟩ := h.reduces cur hcur term row hrow _ hmem (by rw [hty]; rfl)
          obtain ⟨p, hf, hp'⟩ := fakeReduce_range h hu hur (Or.inl hty) hr popped pushed hp
          obtain ⟨s, hs, hsn⟩ := topOf_range hu hur p.1 p.2 hp'
          obtain ⟨j, row', hj, hrow', hlt⟩ := find s hsn
          simp only [hf, hs, hj]
          exact ih _ _ _ _ _ _ hsn hrow' hlt hp'
        | weakreduce =>
          simp only
          obtain ⟨r, hr⟩ := h.reduces cur hcur term row hrow _ hmem (by rw [hty]; rfl)
          obtain ⟨p, hf, hp'⟩ := fakeReduce_range h hu hur (Or.inr hty) hr popped pushed hp
          obtain ⟨s, hs, hsn⟩ := topOf_range hu hur p.1 p.2 hp'
          obtain ⟨j, row', hj, hrow', hlt⟩ := find s hsn
          simp only [hf, hs, hj]
          have h1 := ih s s j p.1 p.2 row' hsn hrow' hlt hp'
          cases hc : canLoop t term sym under fuel s s j p.1 p.2 with
          | error e =>
            rw [hc] at h1
            intro h2
            exact h1 h2
          | ok b =>
            cases b with
            | true => intro h2; cases h2
            | false =>
              simp only [Bool.false_eq_true, if_false]
              exact ih _ _ _ _ _ _ hcur hrow hnext hp
  unfold canReduce
  obtain ⟨s, hs, hsn⟩ := topOf_range hu hur popped pushed hp
  obtain ⟨row, hrow⟩ := h.row hsn term
  obtain ⟨j, hj, hle, hlt, -⟩ := h.find hsn term sym hrow
  simp only [hs, bind, Except.bind, hj]
  refine loop _ _ _ _ _ _ row hsn hrow ?_ hp
  obtain ⟨e, he, hes⟩ := hcov s hsn row hrow
  obtain ⟨k, hk⟩ := List.mem_iff_getElem?.1 he
  rcases Nat.lt_or_ge k j with hkj | hkj
  · have := hlt k e hkj hk
    omega
  · have := (List.getElem?_eq_some_iff.1 hk).1
    omega

/-! Outside the tables -/

/-- `S → a A d | b B d | a B c | b A c`, `A → x`, `B → Y`, `Y → x` with `a` = 1, `b` = 2, `c` = 3, `d` = 4, `x` = 5: the states after `a`
(1), `a x` (2), `a Y` (3), `a B` (4). -/
def chainStates : List (List LrAction) :=
  let ruleA : Rule := ⟨.nonterminal 1, [.terminal 5]⟩
  let ruleB : Rule := ⟨.nonterminal 2, [.nonterminal 3]⟩
  let ruleY : Rule := ⟨.nonterminal 3, [.terminal 5]⟩
  [[⟨.shift, .terminal 1, 1, ⟨.empty, []⟩⟩],
   [⟨.shift, .terminal 5, 2, ⟨.empty, []⟩⟩, ⟨.goto, .nonterminal 2, 4, ⟨.empty, []⟩⟩, ⟨.goto, .nonterminal 3, 3, ⟨.empty, []⟩⟩],
   [⟨.reduce, .terminal 3, -1, ruleA⟩, ⟨.reduce, .terminal 4, -1, ruleA⟩, ⟨.weakreduce, .terminal 3, -1, ruleY⟩, ⟨.weakreduce, .terminal 4, -1, ruleY⟩],
   [⟨.reduce, .terminal 3, -1, ruleB⟩, ⟨.reduce, .terminal 4, -1, ruleB⟩],
   [⟨.shift, .terminal 3, 5, ⟨.empty, []⟩⟩],
   []]

def chainNumbering : Numbering where
  ident
    | .eoi => 100
    | .eog => 101
    | .nonterminal n => n
    | _ => 102
  ruleId r := match r.nonterminal with | .nonterminal n => n | _ => 0
  ruleWith n := if n = 1 then ⟨.nonterminal 1, [.terminal 5]⟩ else if n = 2 then ⟨.nonterminal 2, [.nonterminal 3]⟩ else ⟨.nonterminal 3, [.terminal 5]⟩

def chainTables : Tables := build chainNumbering insertionSort id chainStates none

/-- After `a x`, whether `x` can be reduced to `Y` before `c`: yes, by way of `B`. -/
example : canReduceAct chainTables 10 true 3 ⟨.weakreduce, 1, 3⟩ [] [2, 1, 0] = .ok true := by decide +kernel

/-- The same with an unused terminal `z` = 9 that is shifted everywhere. -/
def coveredTables : Tables :=
  build chainNumbering insertionSort id (chainStates.map (fun l => l ++ [(⟨.shift, .terminal 9, 5, ⟨.empty, []⟩⟩ : LrAction)])) none

/-- The hypotheses of `can_reduce_in_bounds_partial` can be met. -/
example (fuel : Nat) : canReduce coveredTables fuel true 4 0 [] [2, 1, 0] ≠ .error .ub := by
  have dec : ∀ s < 6, ∀ term, ∃ row, rowOf coveredTables term s = .ok row ∧ row.Pairwise (fun a b => a.symbolId ≤ b.symbolId) ∧
      (term = true → ∃ e ∈ row, 4 < e.symbolId) ∧ ∀ e ∈ row, e.type ≠ .divert ∧ (e.type = .goto → e.nextState < 6) ∧
        (isReduce e.type = true → (rule coveredTables e.nextState).isSome) := by
    intro s hs term
    have h : (match rowOf coveredTables term s with
      | .ok row => decide (row.Pairwise (fun a b => a.symbolId ≤ b.symbolId)) && (!term || row.any (fun e => decide (4 < e.symbolId))) &&
          row.all (fun e => decide (e.type ≠ .divert) && (!decide (e.type = .goto) || decide (e.nextState < 6)) &&
            (!isReduce e.type || (rule coveredTables e.nextState).isSome))
      | .error _ => false) = true := by
      revert s term
      decide +kernel
    cases hr : rowOf coveredTables term s with
    | error e => rw [hr] at h; cases h
    | ok row =>
      rw [hr] at h
      simp only [Bool.and_eq_true, decide_eq_true_eq, Bool.or_eq_true, Bool.not_eq_true', List.any_eq_true, List.all_eq_true, decide_eq_false_iff_not] at h
      refine ⟨row, rfl, h.1.1, fun ht => ?_, fun e he => ⟨(h.2 e he).1.1, fun hg => ?_, fun hg => ?_⟩⟩
      · rcases h.1.2 with h' | h'
        · rw [ht] at h'; cases h'
        · exact h'
      · exact (h.2 e he).1.2.resolve_left (fun hn => hn hg)
      · rcases (h.2 e he).2 with h' | h'
        · rw [hg] at h'; cases h'
        · exact h'
  have get : ∀ s < 6, ∀ term row, rowOf coveredTables term s = .ok row → row.Pairwise (fun a b => a.symbolId ≤ b.symbolId) ∧
      (term = true → ∃ e ∈ row, 4 < e.symbolId) ∧ ∀ e ∈ row, e.type ≠ .divert ∧ (e.type = .goto → e.nextState < 6) ∧
        (isReduce e.type = true → (rule coveredTables e.nextState).isSome) := by
    intro s hs term row hr
    obtain ⟨row', h1, h2⟩ := dec s hs term
    rw [hr] at h1
    cases h1
    exact h2
  refine can_reduce_in_bounds_partial coveredTables 6 ⟨?_, fun s hs term row hr => (get s hs term row hr).1,
    fun s hs row hr e he => ((get s hs false row hr).2.2 e he).2.1,
    fun s hs term row hr e he hx => Option.isSome_iff_exists.1 (((get s hs term row hr).2.2 e he).2.2 hx)⟩ true 4
    (fun s hs row hr => (get s hs true row hr).2.1 rfl) fuel 0 [] [2, 1, 0] (by decide) (by decide) (by decide)
    (fun s hs row hr e he => ((get s hs true row hr).2.2 e he).1)
  intro s hs term
  have h : (match (if term then coveredTables.terminalActions[s]? else coveredTables.nonterminalActions[s]?), coveredTables.counts[s]? with
      | some row, some c => decide ((if term then c.1 else c.2) ≤ row.length)
      | _, _ => false) = true := by
    revert s term
    decide +kernel
  split at h
  · rename_i row c h1 h2
    exact ⟨row, c, h1, h2, of_decide_eq_true h⟩
  · cases h

/-- C42 does not hold: the end of the row is that of the state that `can_reduce` was called in, also after a reduction has led to
another row. Before `d`, reducing `x` to `Y` and `Y` to `B` leads to a state whose last entry is for `c`, and the entry after it is
read. -/
theorem can_reduce_outside_violated :
    ¬ ∀ (g : Numbering) (sort : List TableAction → List TableAction) (states : List (List LrAction)) (fuel : Nat) (sym : Int) (act : TableAction)
      (under : List Nat), IsSort compareActions sort → (∀ s ∈ under, s < states.length) → under ≠ [] →
      (∃ s row, under.head? = some s ∧ rowOf (build g sort id states none) true s = .ok row ∧ act ∈ row) →
      canReduceAct (build g sort id states none) fuel true sym act [] under ≠ .error .ub := by
  intro h
  refine h chainNumbering insertionSort chainStates 10 4 ⟨.weakreduce, 1, 4⟩ [2, 1, 0] insertionSort_isSort (by decide) (by decide) ?_ ?_
  · exact ⟨2, [⟨.weakreduce, 1, 3⟩, ⟨.reduce, 0, 3⟩, ⟨.weakreduce, 1, 4⟩, ⟨.reduce, 0, 4⟩], rfl, by decide +kernel, by decide⟩
  · decide +kernel

/-- `S → S | a`: after `S`, a reduction of `S` leads back to the same state. -/
def cycleStates : List (List LrAction) :=
  [[⟨.goto, .nonterminal 1, 1, ⟨.empty, []⟩⟩], [⟨.reduce, .terminal 4, -1, ⟨.nonterminal 1, [.nonterminal 1]⟩⟩]]

def cycleTables : Tables :=
  build { chainNumbering with ruleWith := fun _ => ⟨.nonterminal 1, [.nonterminal 1]⟩ } insertionSort id cycleStates none

theorem canLoop_reduce {t : Tables} {term : Bool} {sym : Int} {under : List Nat} {fuel outer cur i popped : Nat} {pushed : List Nat}
    {row : List TableAction} {act : TableAction} {p : Nat × List Nat} {s j : Nat} (h1 : rowOf t term cur = .ok row) (h2 : row[i]? = some act)
    (h3 : act.symbolId = sym) (h4 : act.type = .reduce) (h5 : fakeReduce t act popped pushed under = .ok p) (h6 : topOf p.1 p.2 under = .ok s)
    (h7 : findSym t term s sym = .ok j) :
    canLoop t term sym under (fuel + 1) outer cur i popped pushed = canLoop t term sym under fuel outer s j p.1 p.2 := by
  have hi := (List.getElem?_eq_some_iff.1 h2).1
  conv => lhs; unfold canLoop
  rw [h1]
  simp only [bind, Except.bind]
  rw [if_neg (by omega), h2]
  simp only [orUb]
  rw [if_neg (by rw [h3]; simp), h4]
  simp only [h5, h6, h7]

theorem cycle_loop (fuel popped : Nat) : canLoop cycleTables true 4 [1, 0] fuel 1 1 0 (popped + 1) [1] = .error .fuel := by
  induction fuel generalizing popped with
  | zero => rfl
  | succ n ih =>
    have h1 : rowOf cycleTables true 1 = .ok [⟨.reduce, 0, 4⟩] := by decide +kernel
    have h2 : rule cycleTables 0 = some ⟨1, 1, 1⟩ := by decide +kernel
    have h3 : gotoFor cycleTables 0 1 = .ok (some 1) := by decide +kernel
    have h4 : findSym cycleTables true 1 4 = .ok 0 := by decide +kernel
    have h5 : fakeReduce cycleTables ⟨.reduce, 0, 4⟩ (popped + 1) [1] [1, 0] = .ok (popped + 1, [1]) := by
      have ht : topOf (popped + 1) [] [1, 0] = .ok 0 := by
        unfold topOf
        have : min (popped + 1) ([1, 0].length - 1) = 1 := by simp
        rw [this]
        rfl
      simp only [fakeReduce, h2, orUb, bind, Except.bind, fakePop, ht, h3, pure, Except.pure]
    rw [canLoop_reduce h1 (act := ⟨.reduce, 0, 4⟩) rfl rfl rfl h5 rfl h4]
    exact ih popped

/-- C42, the other part that fails: with a cycle in the grammar, `can_reduce` never answers. -/
theorem can_reduce_endless_violated :
    ∃ (t : Tables) (sym : Int) (under : List Nat), under ≠ [] ∧ ∀ fuel, canReduce t fuel true sym 0 [] under = .error .fuel := by
  refine ⟨cycleTables, 4, [1, 0], by decide, ?_⟩
  intro fuel
  have h4 : findSym cycleTables true 1 4 = .ok 0 := by decide +kernel
  unfold canReduce
  simp only [topOf, orUb, List.length_cons, List.length_nil, Nat.zero_min, List.getElem?_cons_zero, bind, Except.bind, h4]
  cases fuel with
  | zero => rfl
  | succ n =>
    have h1 : rowOf cycleTables true 1 = .ok [⟨.reduce, 0, 4⟩] := by decide +kernel
    have h5 : fakeReduce cycleTables ⟨.reduce, 0, 4⟩ 0 [] [1, 0] = .ok (1, [1]) := by decide +kernel
    rw [canLoop_reduce h1 (act := ⟨.reduce, 0, 4⟩) rfl rfl rfl h5 rfl h4]
    exact cycle_loop n 0

end Parser
end TameParse

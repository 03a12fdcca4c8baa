import Verif.Attributes
import Verif.RewritersProps

/-!
# C58: conflict attributes
-/

namespace TameParse
namespace Rewriters

open ParserTables (isTerminal)

/-- The attribute that decides about a token: the last one specified in the closure at a place where it is shifted. -/
def Decides (closure : List (Item × Option Resolve)) (t : Item) (r : Resolve) : Prop :=
  ∃ u v, closure = u ++ (t, some r) :: v ∧ ∀ r', (t, some r') ∉ v

theorem resolveLoop_spec (t : Item) : ∀ (l : List (Item × Option Resolve)) (o : Option Resolve) (r : Resolve),
    resolveLoop t l o = some r ↔ Decides l t r ∨ (o = some r ∧ ∀ r', (t, some r') ∉ l)
  | [], o, r => by
    simp only [resolveLoop, List.not_mem_nil, not_false_eq_true, implies_true, and_true]
    constructor
    · exact Or.inr
    · rintro (⟨u, v, h, -⟩ | h)
      · simp at h
      · exact h
  | (i, a) :: l, o, r => by
    have ih := resolveLoop_spec t l
    have hd : Decides ((i, a) :: l) t r ↔ Decides l t r ∨ (i = t ∧ a = some r ∧ ∀ r', (t, some r') ∉ l) := by
      constructor
      · rintro ⟨u, v, h, hv⟩
        cases u with
        | nil =>
          rw [List.nil_append, List.cons.injEq, Prod.mk.injEq] at h
          obtain ⟨⟨rfl, rfl⟩, rfl⟩ := h
          exact Or.inr ⟨rfl, rfl, hv⟩
        | cons p u =>
          rw [List.cons_append, List.cons.injEq] at h
          exact Or.inl ⟨u, v, h.2, hv⟩
      · rintro (⟨u, v, rfl, hv⟩ | ⟨rfl, rfl, hv⟩)
        · exact ⟨(i, a) :: u, v, rfl, hv⟩
        · exact ⟨[], l, rfl, hv⟩
    have hno : (∃ r', (t, some r') ∈ l) ∨ ∀ r', (t, some r') ∉ l := by
      by_cases h : ∃ r', (t, some r') ∈ l
      · exact Or.inl h
      · exact Or.inr (fun r' hr => h ⟨r', hr⟩)
    unfold resolveLoop
    rw [hd]
    by_cases hi : i = t
    · subst hi
      rw [if_neg (by simp)]
      cases a with
      | none =>
        have : (if none ≠ o then (if (none : Option Resolve) ≠ none then resolveLoop i l none else resolveLoop i l o) else resolveLoop i l o) = resolveLoop i l o := by
          split <;> simp
        rw [this, ih]
        simp
      | some a =>
        have : (if some a ≠ o then (if (some a : Option Resolve) ≠ none then resolveLoop i l (some a) else resolveLoop i l o) else resolveLoop i l o) =
            resolveLoop i l (some a) := by
          by_cases h : some a = o
          · subst h; simp
          · rw [if_pos h, if_pos (by simp)]
        rw [this, ih]
        simp only [true_and, List.mem_cons, Prod.mk.injEq, Option.some.injEq, not_or]
        constructor
        · rintro (h | h)
          · exact Or.inl (Or.inl h)
          · exact Or.inl (Or.inr h)
        · rintro ((h | h) | ⟨-, h⟩)
          · exact Or.inl h
          · exact Or.inr h
          · exact absurd rfl (h a).1
    · rw [if_pos hi, ih]
      simp only [hi, false_and, or_false, List.mem_cons, Prod.mk.injEq, not_or, Ne.symm hi, not_false_eq_true, true_and]

theorem isShift_iff {t : ActType} : isShift t = true ↔ t = .shift ∨ t = .shiftstrong := by simp [isShift]

/-- The conflict on a token is resolved: it can be shifted and reduced, an attribute decides, and it says to reduce or there is one reduction. -/
def Resolves (closure : List (Item × Option Resolve)) (actions : List LrAction) (t : Item) (r : Resolve) : Prop :=
  (∃ a ∈ actions, a.item = t ∧ (a.type = .shift ∨ a.type = .shiftstrong)) ∧ (∃ a ∈ actions, a.item = t ∧ a.type = .reduce) ∧ Decides closure t r ∧
  (r = .reduce ∨ ∀ a ∈ actions, ∀ b ∈ actions, a.item = t → b.item = t → a.type = .reduce → b.type = .reduce → a = b)

/-- The actions that an attribute removes. -/
def Drops (r : Resolve) (a : LrAction) : Prop :=
  match r with
  | .shift => a.type = .reduce
  | .reduce => a.type = .shift ∨ a.type = .shiftstrong
  | .weakreduce => a.type = .reduce

theorem resolveAct_mem (r : Resolve) (actions : List LrAction) (a b : LrAction) : b ∈ resolveAct r actions a ↔
    (b ∈ actions ∧ ¬ (b = a ∧ Drops r a)) ∨ (r = .weakreduce ∧ a.type = .reduce ∧ b = weaken a) := by
  unfold resolveAct Drops weaken
  cases r with
  | shift =>
    by_cases h : a.type = .reduce
    · simp [h, isShift]
    · by_cases hs : isShift a.type = true <;> simp [h, hs]
  | reduce =>
    by_cases h : a.type = .reduce
    · simp [h, isShift]
    · by_cases hs : isShift a.type = true <;> simp [h, hs, ← isShift_iff]
  | weakreduce =>
    by_cases h : a.type = .reduce
    · simp [h, isShift, mem_add]
    · by_cases hs : isShift a.type = true <;> simp [h, hs]

theorem resolveAct_fold (r : Resolve) (b : LrAction) : ∀ (l actions : List LrAction),
    b ∈ l.foldl (resolveAct r) actions ↔ (b ∈ actions ∧ ¬ (b ∈ l ∧ Drops r b)) ∨ (r = .weakreduce ∧ ∃ a ∈ l, a.type = .reduce ∧ b = weaken a)
  | [], actions => by simp
  | a :: l, actions => by
    have ih := resolveAct_fold r b l
    rw [List.foldl_cons, ih, resolveAct_mem]
    constructor
    · rintro (⟨⟨h1, h2⟩ | ⟨h1, h2, h3⟩, h4⟩ | ⟨h1, c, hc, h2⟩)
      · refine Or.inl ⟨h1, ?_⟩
        rintro ⟨hb, hd⟩
        rcases List.mem_cons.1 hb with rfl | hb
        · exact h2 ⟨rfl, hd⟩
        · exact h4 ⟨hb, hd⟩
      · exact Or.inr ⟨h1, a, List.mem_cons_self .., h2, h3⟩
      · exact Or.inr ⟨h1, c, List.mem_cons_of_mem _ hc, h2⟩
    · rintro (⟨h1, h2⟩ | ⟨h1, c, hc, h2, h3⟩)
      · refine Or.inl ⟨Or.inl ⟨h1, ?_⟩, fun h => h2 ⟨List.mem_cons_of_mem _ h.1, h.2⟩⟩
        rintro ⟨rfl, hd⟩
        exact h2 ⟨List.mem_cons_self .., hd⟩
      · rcases List.mem_cons.1 hc with rfl | hc
        · refine Or.inl ⟨Or.inr ⟨h1, h2, h3⟩, fun h => ?_⟩
          obtain ⟨-, h⟩ := h
          subst h1 h3
          cases h
        · exact Or.inr ⟨h1, c, hc, h2, h3⟩

theorem two_of_length {α : Type} {l : List α} (hn : l.Nodup) : 1 < l.length ↔ ∃ a ∈ l, ∃ b ∈ l, a ≠ b := by
  constructor
  · intro h
    match l, h with
    | a :: b :: l, _ =>
      refine ⟨a, List.mem_cons_self .., b, by simp, ?_⟩
      rintro rfl
      simp at hn
  · rintro ⟨a, ha, b, hb, hne⟩
    match l with
    | [] => cases ha
    | [c] =>
      simp at ha hb
      exact absurd (ha.trans hb.symm) hne
    | _ :: _ :: _ => simp

theorem attributeStep_mem (closure : List (Item × Option Resolve)) (all actions : List LrAction) (hn : all.Nodup) (t : Item) (b : LrAction) :
    b ∈ attributeStep closure all actions t ↔
      (b ∈ actions ∧ ¬ (b ∈ all ∧ b.item = t ∧ ∃ r, Resolves closure all t r ∧ Drops r b)) ∨
      ∃ a ∈ all, a.item = t ∧ a.type = .reduce ∧ Resolves closure all t .weakreduce ∧ b = weaken a := by
  have hmem : ∀ a, a ∈ all.filter (fun a => decide (a.item = t)) ↔ a ∈ all ∧ a.item = t := by simp [List.mem_filter]
  have hndr : ((all.filter (fun a => decide (a.item = t))).filter (fun a => decide (a.type = .reduce))).Nodup := (hn.filter _).filter _
  have hred : ∀ a, a ∈ (all.filter (fun a => decide (a.item = t))).filter (fun a => decide (a.type = .reduce)) ↔ a ∈ all ∧ a.item = t ∧ a.type = .reduce := by
    intro a
    rw [List.mem_filter, hmem, decide_eq_true_eq, and_assoc]
  have hsh : ∀ a, a ∈ (all.filter (fun a => decide (a.item = t))).filter (fun a => isShift a.type) ↔ a ∈ all ∧ a.item = t ∧ (a.type = .shift ∨ a.type = .shiftstrong) := by
    intro a
    rw [List.mem_filter, hmem, and_assoc, isShift_iff]
  have none_of : (∀ r, ¬ Resolves closure all t r) → (b ∈ actions ↔
      (b ∈ actions ∧ ¬ (b ∈ all ∧ b.item = t ∧ ∃ r, Resolves closure all t r ∧ Drops r b)) ∨
      ∃ a ∈ all, a.item = t ∧ a.type = .reduce ∧ Resolves closure all t .weakreduce ∧ b = weaken a) := by
    intro h
    constructor
    · exact fun hb => Or.inl ⟨hb, fun ⟨_, _, r, hr, _⟩ => h r hr⟩
    · rintro (hb | ⟨a, -, -, -, hr, -⟩)
      · exact hb.1
      · exact absurd hr (h _)
  unfold attributeStep
  dsimp only
  by_cases h0 : (all.filter (fun a => decide (a.item = t))).length < 2
  · rw [if_pos h0]
    refine none_of (fun r hr => ?_)
    obtain ⟨⟨x, x1, x2, x3⟩, ⟨y, y1, y2, y3⟩, -⟩ := hr
    have := (two_of_length (hn.filter (fun a => decide (a.item = t)))).2 ⟨x, (hmem x).2 ⟨x1, x2⟩, y, (hmem y).2 ⟨y1, y2⟩, fun he => by
      rw [he, y3] at x3; rcases x3 with x3 | x3 <;> cases x3⟩
    omega
  rw [if_neg h0]
  by_cases h1 : ((all.filter (fun a => decide (a.item = t))).filter (fun a => isShift a.type)).length = 0 ∨
      ((all.filter (fun a => decide (a.item = t))).filter (fun a => decide (a.type = .reduce))).length = 0
  · rw [if_pos h1]
    refine none_of (fun r hr => ?_)
    obtain ⟨⟨x, x1, x2, x3⟩, ⟨y, y1, y2, y3⟩, -⟩ := hr
    rcases h1 with h | h
    · have := (hsh x).2 ⟨x1, x2, x3⟩
      rw [List.length_eq_zero_iff.1 h] at this
      cases this
    · have := (hred y).2 ⟨y1, y2, y3⟩
      rw [List.length_eq_zero_iff.1 h] at this
      cases this
  rw [if_neg h1, not_or] at *
  have hx : ∃ a ∈ all, a.item = t ∧ (a.type = .shift ∨ a.type = .shiftstrong) := by
    obtain ⟨x, hx⟩ := List.exists_mem_of_length_pos (Nat.pos_of_ne_zero h1.1)
    exact ⟨x, (hsh x).1 hx⟩
  have hy : ∃ a ∈ all, a.item = t ∧ a.type = .reduce := by
    obtain ⟨y, hy⟩ := List.exists_mem_of_length_pos (Nat.pos_of_ne_zero h1.2)
    exact ⟨y, (hred y).1 hy⟩
  have hdec : ∀ r, resolveLoop t closure none = some r ↔ Decides closure t r := by
    intro r
    rw [resolveLoop_spec]
    simp
  cases hr : resolveLoop t closure none with
  | none =>
    refine none_of (fun r h => ?_)
    rw [(hdec r).2 h.2.2.1] at hr
    cases hr
  | some r =>
    have hd := (hdec r).1 hr
    have huniq : ∀ r', Decides closure t r' → r' = r := by
      intro r' h
      rw [(hdec r').2 h] at hr
      cases hr
      rfl
    dsimp only
    have htwo := two_of_length hndr
    by_cases h2 : 1 < ((all.filter (fun a => decide (a.item = t))).filter (fun a => decide (a.type = .reduce))).length ∧ r ≠ .reduce
    · rw [if_pos h2]
      refine none_of (fun r' h => ?_)
      obtain ⟨-, -, hd', h3⟩ := h
      rw [huniq r' hd'] at h3
      rcases h3 with h3 | h3
      · exact h2.2 h3
      · obtain ⟨x, hx, y, hy, hne⟩ := htwo.1 h2.1
        obtain ⟨x1, x2, x3⟩ := (hred x).1 hx
        obtain ⟨y1, y2, y3⟩ := (hred y).1 hy
        exact hne (h3 x x1 y y1 x2 y2 x3 y3)
    · rw [if_neg h2]
      have hres : Resolves closure all t r := by
        refine ⟨hx, hy, hd, ?_⟩
        by_cases hrr : r = .reduce
        · exact Or.inl hrr
        · refine Or.inr (fun x x1 y y1 x2 y2 x3 y3 => ?_)
          by_contra hne
          exact h2 ⟨htwo.2 ⟨x, (hred x).2 ⟨x1, x2, x3⟩, y, (hred y).2 ⟨y1, y2, y3⟩, hne⟩, hrr⟩
      rw [resolveAct_fold]
      constructor
      · rintro (⟨h3, h4⟩ | ⟨rfl, a, ha, h3, h4⟩)
        · refine Or.inl ⟨h3, ?_⟩
          rintro ⟨b1, b2, r', b3, b4⟩
          rw [huniq r' b3.2.2.1] at b4
          exact h4 ⟨(hmem b).2 ⟨b1, b2⟩, b4⟩
        · obtain ⟨a1, a2⟩ := (hmem a).1 ha
          exact Or.inr ⟨a, a1, a2, h3, hres, h4⟩
      · rintro (⟨h3, h4⟩ | ⟨a, a1, a2, a3, a4, a5⟩)
        · refine Or.inl ⟨h3, ?_⟩
          rintro ⟨b1, b2⟩
          obtain ⟨b1, b3⟩ := (hmem b).1 b1
          exact h4 ⟨b1, b3, r, hres, b2⟩
        · exact Or.inr ⟨(huniq _ a4.2.2.1).symm, a, (hmem a).2 ⟨a1, a2⟩, a3, a5⟩

/-- C58. The actions after the rewriter are those that no attribute removes, and a weak reduction for each that becomes weak. -/
theorem attributes_exact (closure : List (Item × Option Resolve)) (actions : List LrAction) (hn : actions.Nodup) (b : LrAction) :
    b ∈ rewriteAttributes closure actions ↔
      (b ∈ actions ∧ ¬ (isTerminal b.item = true ∧ ∃ r, Resolves closure actions b.item r ∧ Drops r b)) ∨
      ∃ a ∈ actions, isTerminal a.item = true ∧ a.type = .reduce ∧ Resolves closure actions a.item .weakreduce ∧ b = weaken a := by
  have hfold : ∀ (ts : List Item) (acts : List LrAction), b ∈ ts.foldl (attributeStep closure actions) acts ↔
      (b ∈ acts ∧ ¬ (b ∈ actions ∧ b.item ∈ ts ∧ ∃ r, Resolves closure actions b.item r ∧ Drops r b)) ∨
      ∃ a ∈ actions, a.item ∈ ts ∧ a.type = .reduce ∧ Resolves closure actions a.item .weakreduce ∧ b = weaken a := by
    intro ts
    induction ts with
    | nil => intro acts; simp
    | cons t ts ih =>
      intro acts
      rw [List.foldl_cons, ih, attributeStep_mem _ _ _ hn]
      constructor
      · rintro (⟨⟨h1, h2⟩ | ⟨a, a1, a2, a3, a4, a5⟩, h3⟩ | ⟨a, a1, a2, a3⟩)
        · refine Or.inl ⟨h1, ?_⟩
          rintro ⟨b1, b2, r, b3, b4⟩
          rcases List.mem_cons.1 b2 with b2 | b2
          · exact h2 ⟨b1, b2, r, b2 ▸ b3, b4⟩
          · exact h3 ⟨b1, b2, r, b3, b4⟩
        · exact Or.inr ⟨a, a1, by rw [a2]; exact List.mem_cons_self .., a3, by rw [a2]; exact a4, a5⟩
        · exact Or.inr ⟨a, a1, List.mem_cons_of_mem _ a2, a3⟩
      · rintro (⟨h1, h2⟩ | ⟨a, a1, a2, a3, a4, a5⟩)
        · refine Or.inl ⟨Or.inl ⟨h1, ?_⟩, fun ⟨b1, b2, b3⟩ => h2 ⟨b1, List.mem_cons_of_mem _ b2, b3⟩⟩
          rintro ⟨b1, b2, r, b3, b4⟩
          exact h2 ⟨b1, by rw [b2]; exact List.mem_cons_self .., r, by rw [b2]; exact b3, b4⟩
        · rcases List.mem_cons.1 a2 with a2 | a2
          · refine Or.inl ⟨Or.inr ⟨a, a1, a2, a3, a2 ▸ a4, a5⟩, ?_⟩
            rintro ⟨-, -, r, b3, b4⟩
            subst a5
            have hit : (weaken a).item = a.item := rfl
            rw [hit] at b3
            have : r = .weakreduce := by
              obtain ⟨u, v, e1, e2⟩ := b3.2.2.1
              obtain ⟨u', v', e3, e4⟩ := a4.2.2.1
              have k1 := (resolveLoop_spec a.item closure none r).2 (Or.inl ⟨u, v, e1, e2⟩)
              have k2 := (resolveLoop_spec a.item closure none .weakreduce).2 (Or.inl ⟨u', v', e3, e4⟩)
              rw [k1] at k2
              cases k2
              rfl
            subst this
            cases b4
          · exact Or.inr ⟨a, a1, a2, a3, a4, a5⟩
  have hts : ∀ a ∈ actions, (a.item ∈ ((actions.filter (fun a => isTerminal a.item)).map (·.item)).foldl add [] ↔ isTerminal a.item = true) := by
    intro a ha
    rw [mem_foldl_add]
    simp only [List.not_mem_nil, false_or, List.mem_map, List.mem_filter]
    constructor
    · rintro ⟨c, ⟨-, h⟩, h'⟩
      rw [← h']; exact h
    · exact fun h => ⟨a, ⟨ha, h⟩, rfl⟩
  unfold rewriteAttributes
  rw [hfold]
  constructor
  · rintro (⟨h1, h2⟩ | ⟨a, a1, a2, a3⟩)
    · exact Or.inl ⟨h1, fun h => h2 ⟨h1, (hts b h1).2 h.1, h.2⟩⟩
    · exact Or.inr ⟨a, a1, (hts a a1).1 a2, a3⟩
  · rintro (⟨h1, h2⟩ | ⟨a, a1, a2, a3⟩)
    · exact Or.inl ⟨h1, fun h => h2 ⟨(hts b h1).1 h.2.1, h.2.2⟩⟩
    · exact Or.inr ⟨a, a1, (hts a a1).2 a2, a3⟩

/-- C58, partial (tokens of the grammar, not their weak equivalents). After the rewriter a token for which a shift was chosen has no strong reduction left, and one for which a reduction was chosen no shift. -/
theorem attributes_resolve_partial (closure : List (Item × Option Resolve)) (actions : List LrAction) (hn : actions.Nodup) (t : Item) (ht : isTerminal t = true)
    (r : Resolve) (h : Resolves closure actions t r) (b : LrAction) (hb : b ∈ rewriteAttributes closure actions) (hi : b.item = t) : ¬ Drops r b := by
  intro hd
  rcases (attributes_exact _ _ hn b).1 hb with ⟨h1, h2⟩ | ⟨a, -, -, -, h1, rfl⟩
  · exact h2 ⟨by rw [hi]; exact ht, r, by rw [hi]; exact h, hd⟩
  · have : r = .weakreduce := by
      have k1 := (resolveLoop_spec t closure none r).2 (Or.inl h.2.2.1)
      have k2 := (resolveLoop_spec t closure none .weakreduce).2 (Or.inl (hi ▸ h1.2.2.1))
      rw [k1] at k2
      cases k2
      rfl
    subst this
    cases hd

/-! Example: `S → i S | i S e S | o`, the `e` with the attribute `[=shift]`: after `i S` the token `e` is shifted. -/

/-- `S → i S ·` and `S → i S · e S`, where `i` is 1, `e` is 2. -/
def dangling : List LrAction := [⟨.shift, .terminal 2, 5, emptyRule⟩, ⟨.reduce, .terminal 2, -1, ⟨.nonterminal 1, [.terminal 1, .nonterminal 1]⟩⟩,
  ⟨.reduce, .eoi, -1, ⟨.nonterminal 1, [.terminal 1, .nonterminal 1]⟩⟩]

example : rewriteAttributes [(.terminal 2, some .shift)] dangling =
    [⟨.shift, .terminal 2, 5, emptyRule⟩, ⟨.reduce, .eoi, -1, ⟨.nonterminal 1, [.terminal 1, .nonterminal 1]⟩⟩] := by decide +kernel

example : rewriteAttributes [(.terminal 2, some .weakreduce)] dangling =
    [⟨.shift, .terminal 2, 5, emptyRule⟩, ⟨.reduce, .eoi, -1, ⟨.nonterminal 1, [.terminal 1, .nonterminal 1]⟩⟩,
      ⟨.weakreduce, .terminal 2, -1, ⟨.nonterminal 1, [.terminal 1, .nonterminal 1]⟩⟩] := by decide +kernel

example : Resolves [(.terminal 2, some .shift)] dangling (.terminal 2) .shift := by
  refine ⟨⟨_, List.mem_cons_self .., rfl, Or.inl rfl⟩, ⟨_, List.mem_cons_of_mem _ (List.mem_cons_self ..), rfl, rfl⟩, ⟨[], [], rfl, by simp⟩, Or.inr ?_⟩
  simp [dangling]

/-- The token `e` with a weak equivalent 3. -/
def danglingWeak : Weak := (Weak.mk [] []).addSymbols (.terminal 2) [.terminal 3]

/-- C58 is violated for weak symbols: the compiler copies the actions of a strong symbol to its weak ones before it looks at the attributes
(lr_parser_stage.cpp 330-331), and then finds no item that shifts the weak symbol. The conflict on the strong symbol is resolved, the same
conflict on the weak one stays. -/
theorem attributes_weak_violated : ∃ (closure : List (Item × Option Resolve)) (w : Weak) (actions : List LrAction), actions.Nodup ∧
    Resolves closure (rewriteWeak w actions) (.terminal 2) .shift ∧ (∃ ws, w.find (.terminal 2) = some ws ∧ .terminal 3 ∈ ws) ∧
    (∀ a ∈ rewriteAttributes closure (rewriteWeak w actions), a.item = .terminal 2 → a.type = .shift) ∧
    (∃ a ∈ rewriteAttributes closure (rewriteWeak w actions), a.item = .terminal 3 ∧ a.type = .shiftstrong) ∧
    (∃ a ∈ rewriteAttributes closure (rewriteWeak w actions), a.item = .terminal 3 ∧ a.type = .reduce) := by
  have hw : rewriteWeak danglingWeak dangling = dangling ++ [⟨.reduce, .terminal 3, -1, ⟨.nonterminal 1, [.terminal 1, .nonterminal 1]⟩⟩,
      ⟨.shiftstrong, .terminal 3, 5, emptyRule⟩] := by decide +kernel
  have hr : rewriteAttributes [(.terminal 2, some .shift)] (rewriteWeak danglingWeak dangling) =
      [⟨.shift, .terminal 2, 5, emptyRule⟩, ⟨.reduce, .eoi, -1, ⟨.nonterminal 1, [.terminal 1, .nonterminal 1]⟩⟩,
        ⟨.reduce, .terminal 3, -1, ⟨.nonterminal 1, [.terminal 1, .nonterminal 1]⟩⟩, ⟨.shiftstrong, .terminal 3, 5, emptyRule⟩] := by decide +kernel
  refine ⟨[(.terminal 2, some .shift)], danglingWeak, dangling, by decide, ?_, ⟨[.terminal 3], by decide +kernel, by simp⟩, ?_, ?_, ?_⟩
  · rw [hw]
    refine ⟨⟨_, List.mem_cons_self .., rfl, Or.inl rfl⟩, ⟨_, List.mem_cons_of_mem _ (List.mem_cons_self ..), rfl, rfl⟩, ⟨[], [], rfl, by simp⟩, Or.inr ?_⟩
    simp [dangling]
  · rw [hr]; simp
  · rw [hr]; simp
  · rw [hr]; simp

end Rewriters
end TameParse

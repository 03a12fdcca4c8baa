import Verif.Stage
import Verif.SoundProps
import Verif.AttributesProps

/-!
# C35: the tables of a grammar are sound
-/

namespace TameParse
namespace Sound

open AssocMap Closure Relation Lalr TameParse.Parser ParserTables

section
variable {rid : Rule → Nat} {clos : LItem → List Item → Set1} {self : LItem → Set1} {first initial : Item → List Item} {g : Gram} {okI : Item → Prop}
  {okR : Rule → Prop} {ig : Int → Prop} {strong : Int → Int → Prop} {m : Mach}

/-! The automaton -/

theorem auto_of_build (hr : Function.Injective rid) (hU : Univ first g okI okR) (hc : ClosOk first g okI clos) {languages : List Item}
    (hl : ∀ l ∈ languages, okR ⟨.empty, [l]⟩) {cf fuel : Nat} (h : completeStates rid clos cf fuel (initials languages) = some m) {k0 : Nat} {start : Item}
    (hk : k0 < (initials languages).states.length) (hS : kern m k0 = [startItem start]) : Auto g m k0 start := by
  obtain ⟨-, h2, -, -, h5, h6, -⟩ := lr0_states_exact hr hU hc hl h
  exact ⟨hS, (h2 k0 hk).1, fun s x t ht => (h6 s x t ht).2.1, fun s x t ht j hj => ((h6 s x t ht).2.2 j).1 hj,
    fun s hs i x hi hx hne => (h5 s hs x).2 ⟨hne, i, hi, hx⟩⟩

/-! The actions -/

theorem gen_special {e e' : Elem} (h : ReflTransGen (Gen first g) e e') : e' = e ∨ closRules g e'.1.rule.nonterminal ≠ [] := by
  rcases ReflTransGen.cases_tail h with h | ⟨e1, -, hg⟩
  · exact Or.inl h
  · right
    cases hg with
    | item _ hr => exact List.ne_nil_of_mem hr
    | first _ hr _ => exact List.ne_nil_of_mem hr
    | pass _ hr _ => exact List.ne_nil_of_mem hr

theorem lr1_special {n0 s : Nat} {e : Elem} (h : Lr1 first g m n0 s e) :
    (e.1.rule.nonterminal = .empty → ∀ a, e.2 = some a → a = .eoi) ∧ (∀ p l, e.1.rule.nonterminal = .guard p l → ∀ a, e.2 = some a → a = .eog) := by
  induction h with
  | start hk hl ho => exact ⟨fun _ => ho, fun p l h => (by cases h)⟩
  | guard hk ho => exact ⟨fun h => (by cases h), fun _ _ _ => ho⟩
  | @goto s t x e i o hs hce hx ht ih =>
    rcases gen_special hce with h | h
    · rw [← h] at ih; exact ih
    · dsimp only at h
      constructor
      · intro hn
        have hn' : i.rule.nonterminal = .empty := hn
        rw [hn'] at h
        exact absurd rfl h
      · intro p l hn
        have hn' : i.rule.nonterminal = .guard p l := hn
        rw [hn'] at h
        exact absurd rfl h

theorem lr1c_special {n0 s : Nat} {e : Elem} (h : Lr1c first g m n0 s e) :
    (e.1.rule.nonterminal = .empty → ∀ a, e.2 = some a → a = .eoi) ∧ (∀ p l, e.1.rule.nonterminal = .guard p l → ∀ a, e.2 = some a → a = .eog) := by
  obtain ⟨e0, h1, h2⟩ := h
  rcases gen_special h2 with h | h
  · rw [h]; exact lr1_special h1
  · constructor
    · intro hn; rw [hn] at h; exact absurd rfl h
    · intro p l hn; rw [hn] at h; exact absurd rfl h

theorem allowed_of_act (hr : Function.Injective rid) (hU : Univ first g okI okR) (hc : ClosOk first g okI clos) (hself : SelfOk first g okI self) (hne : ¬ okI .eoi)
    {languages : List Item} (hl : ∀ l ∈ languages, okR ⟨.empty, [l]⟩) {lt : Key → Key → Bool} {cf fuel fuel' : Nat} {m' : Mach}
    (h : completeStates rid clos cf fuel (initials languages) = some m) (h' : completeLookaheads lt self fuel' m = some m') {s : Nat} (hs : s < m.states.length)
    {b : LrAction} (hb : Act first g initial m (initials languages).states.length s b) : Allowed g m ig strong s b := by
  obtain ⟨hi, -, -⟩ := completeStates_inv hr hU hc hl h
  obtain ⟨-, -, -, -, h5, -, -⟩ := lr0_states_exact hr hU hc hl h
  obtain ⟨-, hk, -⟩ := lookaheads_exact (lt := lt) hr hU hc hself hl h h'
  have hguard : ∀ {x : Item}, GuardAct initial m x b → Allowed g m ig strong s b := by
    rintro x ⟨p, l, k, n, -, hgk, -, rfl⟩
    obtain ⟨k1, k2, -⟩ := hi.guards _ _ hgk
    exact .guard k1 k2
  cases hb with
  | before _ hg => exact hguard hg
  | after _ hg => exact hguard hg
  | @shift x t ht =>
    obtain ⟨hxe, i, hci, hx⟩ := (h5 s hs x).1 ⟨t, ht⟩
    have hok : okI x := by
      refine hU.items i.rule ?_ x (List.mem_of_getElem? hx)
      obtain ⟨i0, c1, c2⟩ := hci
      have hgo : ∀ j, ReflTransGen (Step0 g) i0 j → okR j.rule := by
        intro j hj
        induction hj with
        | refl => exact (hi.good s hs i0 c1).1
        | tail _ hst ih =>
          obtain ⟨y, r, hy, hr, rfl⟩ := hst
          exact hU.clos y (hU.items _ ih y (List.mem_of_getElem? hy)) r hr
      exact hgo i c2
    have hxi : x ≠ .eoi := fun he => hne (he ▸ hok)
    cases x with
    | terminal n => exact .shift ht
    | guard p l => exact .guarded ht
    | empty => exact absurd rfl hxe
    | eoi => exact absurd rfl hxi
    | _ => exact .goto ht rfl (by simp) (by simp) (by simp)
  | @reduce r a hla ha =>
    have hclos : Clos0 g (kern m s) ⟨r, r.items.length⟩ := by
      obtain ⟨⟨i0, o0⟩, c1, c2⟩ := hla
      exact ⟨i0, (hk s i0 hs).2 (lr1_none c1), gen_step_path c2⟩
    obtain ⟨s1, s2⟩ := lr1c_special hla
    cases hn : r.nonterminal with
    | empty =>
      have := s1 hn a rfl
      subst this
      exact .accept hclos hn
    | guard p l =>
      have := s2 p l hn a rfl
      subst this
      exact .done hn hclos
    | _ => exact .reduce (Or.inl rfl) hclos (by rw [hn]; simp) (by rw [hn]; simp) (by rintro rfl; cases ha)

theorem Allowed.mono {ig' : Int → Prop} {strong' : Int → Int → Prop} (h1 : ∀ n, ig n → ig' n) (h2 : ∀ n n', strong n n' → strong' n n') {s : Nat} {a : LrAction}
    (h : Allowed g m ig strong s a) : Allowed g m ig' strong' s a := by
  cases h with
  | shift h => exact .shift h
  | guarded h => exact .guarded h
  | strong hn h => exact .strong (h2 _ _ hn) h
  | ignore h => exact .ignore (h1 _ h)
  | goto h a b c d => exact .goto h a b c d
  | reduce ht h a b c => exact .reduce ht h a b c
  | accept h a => exact .accept h a
  | done a b => exact .done a b
  | guard a b => exact .guard a b

theorem Allowed.weaken {s : Nat} {a : LrAction} (h : Allowed g m ig strong s a) (ht : a.type = .reduce) : Allowed g m ig strong s (Rewriters.weaken a) := by
  cases h with
  | reduce _ h a b c => exact .reduce (Or.inr rfl) h a b c
  | _ => cases ht

/-! The rewriters -/

open Rewriters in
theorem precStep_sub (p : Prec) (rw' : Int → Rule) (items : List Lr0) (all actions : List LrAction) (t : Item) :
    (∀ b ∈ precStep p rw' items all actions t, b ∈ actions) ∧ ∀ b ∈ actions, b.type = .goto → b ∈ precStep p rw' items all actions t := by
  unfold precStep
  dsimp only
  split
  · rename_i sh re hsh hre
    have h1 : sh.type = .shift := by
      have : sh ∈ [sh] := List.mem_singleton.2 rfl
      rw [← hsh] at this
      simpa using (List.mem_filter.1 this).2
    have h2 : re.type = .reduce := by
      have : re ∈ [re] := List.mem_singleton.2 rfl
      rw [← hre] at this
      simpa using (List.mem_filter.1 this).2
    have h3 : ∀ b ∈ actions, b.type = .goto → b ∈ actions.filter (· ≠ sh) := fun b hb hg => List.mem_filter.2 ⟨hb, by
      rw [decide_eq_true_eq]; rintro rfl; rw [h1] at hg; cases hg⟩
    have h4 : ∀ b ∈ actions, b.type = .goto → b ∈ actions.filter (· ≠ re) := fun b hb hg => List.mem_filter.2 ⟨hb, by
      rw [decide_eq_true_eq]; rintro rfl; rw [h2] at hg; cases hg⟩
    have h5 : ∀ x, ∀ b ∈ actions.filter (· ≠ x), b ∈ actions := fun x b hb => (List.mem_filter.1 hb).1
    split
    · split
      · exact ⟨h5 _, h3⟩
      · split
        · exact ⟨h5 _, h4⟩
        · split
          · exact ⟨h5 _, h4⟩
          · split
            · exact ⟨h5 _, h3⟩
            · exact ⟨fun _ h => h, fun _ h _ => h⟩
    · exact ⟨fun _ h => h, fun _ h _ => h⟩
  · exact ⟨fun _ h => h, fun _ h _ => h⟩

open Rewriters in
theorem precedence_sub (p : Prec) (rw' : Int → Rule) (items : List Lr0) (actions : List LrAction) :
    (∀ b ∈ rewritePrecedence p rw' items actions, b ∈ actions) ∧ ∀ b ∈ actions, b.type = .goto → b ∈ rewritePrecedence p rw' items actions := by
  unfold rewritePrecedence
  have key : ∀ (ts : List Item) (acts : List LrAction), (∀ b ∈ ts.foldl (precStep p rw' items actions) acts, b ∈ acts) ∧
      ∀ b ∈ acts, b.type = .goto → b ∈ ts.foldl (precStep p rw' items actions) acts := by
    intro ts
    induction ts with
    | nil => exact fun acts => ⟨fun _ h => h, fun _ h _ => h⟩
    | cons t ts ih =>
      intro acts
      obtain ⟨h1, h2⟩ := ih (precStep p rw' items actions acts t)
      obtain ⟨h3, h4⟩ := precStep_sub p rw' items actions acts t
      exact ⟨fun b hb => h3 b (h1 b hb), fun b hb hg => h2 b (h4 b hb hg) hg⟩
  exact key _ _

open Rewriters in
theorem attributes_sub (closure : List (Item × Option Resolve)) (actions : List LrAction) :
    (∀ b ∈ rewriteAttributes closure actions, b ∈ actions ∨ ∃ a ∈ actions, a.type = .reduce ∧ b = weaken a) ∧
    ∀ b ∈ actions, b.type = .goto → b ∈ rewriteAttributes closure actions := by
  have step : ∀ (acts : List LrAction) (t : Item), (∀ b ∈ attributeStep closure actions acts t, b ∈ acts ∨ ∃ a ∈ actions, a.type = .reduce ∧ b = weaken a) ∧
      ∀ b ∈ acts, b.type = .goto → b ∈ attributeStep closure actions acts t := by
    intro acts t
    have hid : (∀ b ∈ acts, b ∈ acts ∨ ∃ a ∈ actions, a.type = .reduce ∧ b = weaken a) ∧ ∀ b ∈ acts, b.type = .goto → b ∈ acts :=
      ⟨fun _ h => Or.inl h, fun _ h _ => h⟩
    unfold attributeStep
    dsimp only
    split
    · exact hid
    · split
      · exact hid
      · split
        · exact hid
        · rename_i r _
          split
          · exact hid
          · constructor
            · intro b hb
              rcases (resolveAct_fold r b _ acts).1 hb with h | ⟨-, a, ha, h1, h2⟩
              · exact Or.inl h.1
              · exact Or.inr ⟨a, (List.mem_filter.1 ha).1, h1, h2⟩
            · intro b hb hg
              refine (resolveAct_fold r b _ acts).2 (Or.inl ⟨hb, ?_⟩)
              rintro ⟨-, hd⟩
              cases r with
              | shift => exact absurd (hg.symm.trans hd) (by simp)
              | weakreduce => exact absurd (hg.symm.trans hd) (by simp)
              | reduce =>
                rcases hd with hd | hd <;> exact absurd (hg.symm.trans hd) (by simp)
  have key : ∀ (ts : List Item) (acts : List LrAction),
      (∀ b ∈ ts.foldl (attributeStep closure actions) acts, b ∈ acts ∨ ∃ a ∈ actions, a.type = .reduce ∧ b = weaken a) ∧
      ∀ b ∈ acts, b.type = .goto → b ∈ ts.foldl (attributeStep closure actions) acts := by
    intro ts
    induction ts with
    | nil => exact fun acts => ⟨fun _ h => Or.inl h, fun _ h _ => h⟩
    | cons t ts ih =>
      intro acts
      obtain ⟨h1, h2⟩ := ih (attributeStep closure actions acts t)
      obtain ⟨h3, h4⟩ := step acts t
      refine ⟨fun b hb => ?_, fun b hb hg => h2 b (h4 b hb hg) hg⟩
      rcases h1 b hb with h | h
      · exact h3 b h
      · exact Or.inr h
  exact key _ _

/-- The strong symbols of a weak one. -/
def StrongOf (w : Rewriters.Weak) (n n' : Int) : Prop := ∃ ws, (Item.terminal n', ws) ∈ w.strongToWeak ∧ Item.terminal n ∈ ws

theorem find_mem {w : Rewriters.Weak} {i : Item} {ws : List Item} (h : w.find i = some ws) : (i, ws) ∈ w.strongToWeak := by
  unfold Rewriters.Weak.find at h
  cases hf : w.strongToWeak.find? (fun p => p.1 == i) with
  | none => rw [hf] at h; cases h
  | some q =>
    rw [hf] at h
    cases h
    have h1 := List.mem_of_find?_eq_some hf
    have h2 := List.find?_some hf
    rw [← eq_of_beq h2]
    exact h1

theorem weak_allowed (w : Rewriters.Weak) {s : Nat} {actions : List LrAction} (h : ∀ a ∈ actions, Allowed g m (fun _ => False) (fun _ _ => False) s a) :
    ∀ b ∈ Rewriters.rewriteWeak w actions, Allowed g m ig (StrongOf w) s b := by
  have hm : ∀ a ∈ actions, Allowed g m ig (StrongOf w) s a := fun a ha => (h a ha).mono (fun _ h => h.elim) (fun _ _ h => h.elim)
  intro b hb
  cases hs : Rewriters.haveStrong w actions with
  | false => rw [Rewriters.weak_rewrite_none w actions hs] at hb; exact hm b hb
  | true =>
    rcases (Rewriters.weak_rewrite_exact w actions hs b).1 hb with h1 | ⟨a, h1, -, -, h2, rfl⟩ | ⟨a, h1, h2, -, ws, h3, i, h4, h5, -, rfl⟩
    · exact hm b h1.1
    · have ha := hm a h1
      by_cases ht : a.type = .reduce
      · exact ha.weaken ht
      · have hw : a.type = .weakreduce := by
          cases hty : a.type <;> simp_all [Rewriters.isReduceType]
        have : Rewriters.weaken a = a := by
          unfold Rewriters.weaken
          rw [← hw]
        rw [this]
        exact ha
    · cases i with
      | terminal n =>
        have ha := h a h1
        cases ha with
        | @shift n' t r ht => exact .strong ⟨ws, find_mem h3, h4⟩ ht
        | guarded => cases h2
        | strong hn => exact hn.elim
        | ignore hn => exact hn.elim
        | goto _ h1' => dsimp only at h2; rw [h1'] at h2; cases h2
        | @reduce ty a' k r ht hcl h1' h2' ha' =>
          have : (Rewriters.asWeak ⟨ty, a', k, r⟩ (.terminal n)) = ⟨ty, .terminal n, k, r⟩ := by
            unfold Rewriters.asWeak
            rcases ht with rfl | rfl <;> rfl
          rw [this]
          exact .reduce ht hcl h1' h2' (by simp)
        | accept => cases h2
        | done => cases h2
        | guard hk h => exact .guard hk h
      | _ => cases h5

theorem weak_goto (w : Rewriters.Weak) {actions : List LrAction} {b : LrAction} (hb : b ∈ actions) (ht : isTerminal b.item = false) : b ∈ Rewriters.rewriteWeak w actions := by
  cases hs : Rewriters.haveStrong w actions with
  | false => rw [Rewriters.weak_rewrite_none w actions hs]; exact hb
  | true => exact (Rewriters.weak_rewrite_exact w actions hs b).2 (Or.inl ⟨hb, Or.inl ht⟩)

/-- All the rewriters together. -/
theorem stage_allowed (st : Stage) (hig : ∀ i ∈ st.ignored, isTerminal i = true) {s : Nat} {actions : List LrAction}
    (h : ∀ a ∈ actions, Allowed g m (fun _ => False) (fun _ _ => False) s a) :
    (∀ b ∈ st.rewrite s actions, Allowed g m (fun n => .terminal n ∈ st.ignored) (StrongOf st.weak) s b) ∧
    ∀ b ∈ actions, b.type = .goto → isTerminal b.item = false → b ∈ st.rewrite s actions := by
  have hpre : ∀ (l : List (Rewriters.Prec × (Int → Rule) × (Nat → List Lr0))) (acts : List LrAction),
      (∀ b ∈ l.foldl (fun l p => Rewriters.rewritePrecedence p.1 p.2.1 (p.2.2 s) l) acts, b ∈ acts) ∧
      ∀ b ∈ acts, b.type = .goto → b ∈ l.foldl (fun l p => Rewriters.rewritePrecedence p.1 p.2.1 (p.2.2 s) l) acts := by
    intro l
    induction l with
    | nil => exact fun acts => ⟨fun _ h => h, fun _ h _ => h⟩
    | cons p l ih =>
      intro acts
      obtain ⟨h1, h2⟩ := ih (Rewriters.rewritePrecedence p.1 p.2.1 (p.2.2 s) acts)
      obtain ⟨h3, h4⟩ := precedence_sub p.1 p.2.1 (p.2.2 s) acts
      exact ⟨fun b hb => h3 b (h1 b hb), fun b hb hg => h2 b (h4 b hb hg) hg⟩
  obtain ⟨p1, p2⟩ := hpre st.precs actions
  unfold Stage.rewrite
  dsimp only
  generalize st.precs.foldl (fun l p => Rewriters.rewritePrecedence p.1 p.2.1 (p.2.2 s) l) actions = a1 at p1 p2 ⊢
  have w1 := weak_allowed (ig := fun n => .terminal n ∈ st.ignored) st.weak (fun a ha => h a (p1 a ha))
  have w2 : ∀ b ∈ a1, isTerminal b.item = false → b ∈ Rewriters.rewriteWeak st.weak a1 := fun b hb ht => weak_goto st.weak hb ht
  generalize Rewriters.rewriteWeak st.weak a1 = a2 at w1 w2 ⊢
  obtain ⟨r1, r2⟩ := attributes_sub (st.attributes s) a2
  have q1 : ∀ b ∈ Rewriters.rewriteAttributes (st.attributes s) a2, Allowed g m (fun n => .terminal n ∈ st.ignored) (StrongOf st.weak) s b := by
    intro b hb
    rcases r1 b hb with h | ⟨a, h1, h2, rfl⟩
    · exact w1 b h
    · exact (w1 a h1).weaken h2
  generalize Rewriters.rewriteAttributes (st.attributes s) a2 = a3 at q1 r2 ⊢
  have l1 : (∀ b ∈ st.applyLr1 s a3, Allowed g m (fun n => .terminal n ∈ st.ignored) (StrongOf st.weak) s b) ∧
      ∀ b ∈ a3, b.type = .goto → b ∈ st.applyLr1 s a3 := by
    unfold Stage.applyLr1
    cases st.targets with
    | none => exact ⟨q1, fun _ h _ => h⟩
    | some t =>
      dsimp only
      constructor
      · intro b hb
        rcases Rewriters.lr1_adds_nothing (t s) a3 b hb with h | ⟨a, h1, h2, rfl⟩
        · exact q1 b h
        · exact (q1 a h1).weaken h2
      · intro b hb hg
        rcases Rewriters.lr1_keeps (t s) a3 b hb with h | ⟨h, -⟩
        · exact h
        · rw [hg] at h; cases h
  generalize st.applyLr1 s a3 = a4 at l1 ⊢
  constructor
  · intro b hb
    rcases (Rewriters.ignored_rewrite_exact st.ignored s a4 b).1 hb with ⟨h1, -⟩ | ⟨a, h1, h2, -, rfl⟩ | ⟨h1, h2, -⟩
    · exact l1.1 b h1
    · exact (l1.1 a h1).weaken h2
    · have ht := hig _ h2
      cases hi : b.item with
      | terminal n =>
        rw [hi] at h1 h2
        rw [h1]
        exact .ignore h2
      | _ => rw [hi] at ht; cases ht
  · intro b hb hg ht
    refine (Rewriters.ignored_rewrite_exact st.ignored s a4 b).2 (Or.inl ⟨l1.2 b (r2 b (w2 b (p2 b hb hg) ht) hg) hg, ?_⟩)
    rintro ⟨h, -⟩
    rw [hg] at h
    cases h

/-! The tables -/

theorem find?_of_mem_takeWhile {α : Type} {p q : α → Bool} : ∀ {l : List α} {e : α}, e ∈ l.takeWhile p → q e = true →
    ∃ e', l.find? q = some e' ∧ e' ∈ l.takeWhile p ∧ q e' = true
  | [], e, h, _ => by cases h
  | a :: l, e, h, hq => by
    rw [List.takeWhile_cons] at h
    by_cases hp : p a = true
    · rw [if_pos hp] at h
      by_cases ha : q a = true
      · exact ⟨a, by rw [List.find?_cons_of_pos ha], by rw [List.takeWhile_cons, if_pos hp]; exact List.mem_cons_self .., ha⟩
      · rcases List.mem_cons.1 h with rfl | h
        · exact absurd hq ha
        · obtain ⟨e', h1, h2, h3⟩ := find?_of_mem_takeWhile h hq
          refine ⟨e', by rw [List.find?_cons_of_neg ha]; exact h1, ?_, h3⟩
          rw [List.takeWhile_cons, if_pos hp]
          exact List.mem_cons_of_mem _ h2
    · rw [if_neg hp] at h; cases h

theorem tab_of_build {num : Numbering} {sort : List TableAction → List TableAction} {sortWeak : List (Int × Int) → List (Int × Int)}
    (hsort : IsSort compareActions sort) (hsortWeak : IsSort (fun a b => decide (a.1 < b.1)) sortWeak) {states : List (List LrAction)} {w : Rewriters.Weak}
    (hf : Fits num states (build num sort sortWeak states (some w.strongToWeak)).numRules) {occ : Item → Prop}
    (hinj : ∀ x y, occ x → occ y → num.ident x = num.ident y → x = y) (h1 : occ .empty) (h2 : occ .eoi)
    (hnum : ∀ acts ∈ states, ∀ a ∈ acts, Numbered occ a) (hu : ∀ n a b, StrongOf w n a → StrongOf w n b → a = b)
    (hall : ∀ s acts, states[s]? = some acts → ∀ a ∈ acts, Allowed g m ig (StrongOf w) s a)
    (hgo : ∀ s x t, tr m s x = some t → isTerminal x = false → (∀ p l, x ≠ .guard p l) → ∃ acts r, states[s]? = some acts ∧ ⟨.goto, x, t, r⟩ ∈ acts) :
    Tab g num m occ ig (StrongOf w) (build num sort sortWeak states (some w.strongToWeak)) := by
  refine ⟨hinj, h1, h2, rfl, ?_, ?_, ?_, ?_⟩
  · intro n n' hn
    obtain ⟨s, e1, e2⟩ := strong_for_weak_exact num sort sortWeak hsortWeak states w.strongToWeak n
    rw [e1]
    rcases e2 with h | ⟨-, h⟩
    · rw [hu n s n' h hn]
    · obtain ⟨ws, k1, k2⟩ := hn
      exact absurd k2 (h n' ws k1)
  · intro s n l hl e he
    cases hs : states[s]? with
    | none => rw [entriesFor_outside _ _ _ _ _ _ hs] at hl; cases hl
    | some acts =>
      obtain ⟨⟨l', k1, k2, -⟩, -⟩ := action_lookup_exact num sort sortWeak hsort states (some w.strongToWeak) hf s acts hs n
      rw [entriesFor_terminal k1] at hl
      cases hl
      have := (k2.mem_iff (a := entryMeaning _ e)).1 (List.mem_map.2 ⟨e, he, rfl⟩)
      obtain ⟨a, ha, hm⟩ := List.mem_map.1 this
      obtain ⟨ha1, ha2⟩ := List.mem_filter.1 ha
      exact ⟨a, hall s acts hs a ha1, hnum _ (List.mem_of_getElem? hs) _ ha1, by simpa using ha2, hm.symm⟩
  · intro s n l hl e he
    cases hs : states[s]? with
    | none => rw [entriesFor_outside _ _ _ _ _ _ hs] at hl; cases hl
    | some acts =>
      obtain ⟨-, l', k1, k2, -⟩ := action_lookup_exact num sort sortWeak hsort states (some w.strongToWeak) hf s acts hs n
      rw [entriesFor_nonterminal k1] at hl
      cases hl
      have := (k2.mem_iff (a := entryMeaning _ e)).1 (List.mem_map.2 ⟨e, he, rfl⟩)
      obtain ⟨a, ha, hm⟩ := List.mem_map.1 this
      obtain ⟨ha1, ha2⟩ := List.mem_filter.1 ha
      simp only [Bool.and_eq_true, Bool.not_eq_true', beq_iff_eq] at ha2
      exact ⟨a, hall s acts hs a ha1, hnum _ (List.mem_of_getElem? hs) _ ha1, ha2.1, ha2.2, hm.symm⟩
  · intro s x t ht hx hxg
    obtain ⟨acts, r, hs, hmem⟩ := hgo s x t ht hx hxg
    obtain ⟨-, l, k1, k2, -⟩ := action_lookup_exact num sort sortWeak hsort states (some w.strongToWeak) hf s acts hs (num.ident x)
    have hent := entriesFor_nonterminal k1
    have hin : meaning num ⟨.goto, x, t, r⟩ ∈ l.map (entryMeaning (build num sort sortWeak states (some w.strongToWeak))) :=
      k2.mem_iff.2 (List.mem_map.2 ⟨_, List.mem_filter.2 ⟨hmem, by simp [hx]⟩, rfl⟩)
    obtain ⟨e, he, hme⟩ := List.mem_map.1 hin
    have hety : e.type = .goto := congrArg Prod.fst hme
    unfold entriesFor at hent
    obtain ⟨row, q1, hent⟩ := bind_ok hent
    obtain ⟨i, q2, hent⟩ := bind_ok hent
    have hl : (row.drop i).takeWhile (fun a => a.symbolId == num.ident x) = l := Except.ok.inj hent
    rw [← hl] at he
    obtain ⟨e', f1, f2, f3⟩ := find?_of_mem_takeWhile (q := fun a : TableAction => decide (a.type = .goto)) he (by simpa using hety)
    unfold gotoFor
    rw [q1, show findSym _ false s (num.ident x) = .ok i from q2]
    simp only [bind, Except.bind, f1, Option.map_some, pure, Except.pure]
    rw [hl] at f2
    have hin' := (k2.mem_iff (a := entryMeaning _ e')).1 (List.mem_map.2 ⟨e', f2, rfl⟩)
    obtain ⟨a, ha, hma⟩ := List.mem_map.1 hin'
    obtain ⟨ha1, ha2⟩ := List.mem_filter.1 ha
    simp only [Bool.and_eq_true, Bool.not_eq_true', beq_iff_eq] at ha2
    have hal := hall s acts hs a ha1
    have haty : a.type = .goto := by
      have : a.type = e'.type := congrArg Prod.fst hma
      rw [this]; simpa using f3
    have hitem : a.item = x := by
      refine hinj _ _ ((hnum _ (List.mem_of_getElem? hs) _ ha1).1 ha2.1) ?_ ha2.2
      exact (hnum _ (List.mem_of_getElem? hs) _ hmem).1 hx
    cases hal with
    | @goto x' t' r' htr =>
      dsimp only at hitem
      subst hitem
      rw [ht] at htr
      cases htr
      obtain ⟨-, h⟩ := entry_next (num := num) hma.symm rfl
      rw [h]
      simp
    | reduce hty => dsimp only at haty; rcases hty with h | h <;> rw [h] at haty <;> cases haty
    | _ => cases haty

/-! The theorem -/

/-- The tables that the compiler makes. -/
theorem parser_tab {num : Numbering} {sort : List TableAction → List TableAction} {sortWeak : List (Int × Int) → List (Int × Int)} {lt : Key → Key → Bool}
    {occ : Item → Prop} {languages : List Item} {cf fuel fuel' : Nat} {m' : Mach} {st : Stage} {states : List (List LrAction)}
    -- the grammar
    (hr : Function.Injective rid) (hU : Univ first g okI okR) (hne : ¬ okI .eoi) (hl : ∀ l ∈ languages, okR ⟨.empty, [l]⟩)
    -- the builder
    (hc : ClosOk first g okI clos) (hself : SelfOk first g okI self)
    (h : completeStates rid clos cf fuel (initials languages) = some m) (h' : completeLookaheads lt self fuel' m = some m')
    (hstates : ∀ s, s < m.states.length → ∃ fuel'' acts, actionsForState clos initial fuel'' m' s = some acts ∧ states[s]? = some (st.rewrite s acts))
    (hlen : states.length = m.states.length)
    -- the rewriters
    (hig : ∀ i ∈ st.ignored, isTerminal i = true) (hu : ∀ n a b, StrongOf st.weak n a → StrongOf st.weak n b → a = b)
    -- the tables
    (hsort : IsSort compareActions sort) (hsortWeak : IsSort (fun a b => decide (a.1 < b.1)) sortWeak)
    (hf : Fits num states (build num sort sortWeak states (some st.weak.strongToWeak)).numRules)
    (hinj : ∀ x y, occ x → occ y → num.ident x = num.ident y → x = y) (h1 : occ .empty) (h2 : occ .eoi)
    (hnum : ∀ acts ∈ states, ∀ a ∈ acts, Numbered occ a) :
    Tab g num m occ (fun n => .terminal n ∈ st.ignored) (StrongOf st.weak) (build num sort sortWeak states (some st.weak.strongToWeak)) := by
  obtain ⟨-, -, -, -, -, h6, -⟩ := lr0_states_exact hr hU hc hl h
  refine tab_of_build hsort hsortWeak hf hinj h1 h2 hnum hu ?_ ?_
  · intro s acts hs
    have hlt : s < m.states.length := by
      rw [← hlen]
      by_contra hc
      rw [List.getElem?_eq_none (by omega)] at hs
      cases hs
    obtain ⟨f, acts', a1, a2⟩ := hstates s hlt
    rw [a2] at hs
    cases hs
    refine (stage_allowed st hig ?_).1
    intro a ha
    exact allowed_of_act hr hU hc hself hne hl h h' hlt ((actions_exact (lt := lt) hr hU hc hself hl h h' hlt a1 a).1 ha)
  · intro s x t ht hx hxg
    have hlt := (h6 s x t ht).1
    obtain ⟨f, acts', a1, a2⟩ := hstates s hlt
    have hact : ⟨.goto, x, t, Rewriters.emptyRule⟩ ∈ acts' := by
      refine (actions_exact (lt := lt) hr hU hc hself hl h h' hlt a1 _).2 ?_
      have := Act.shift (first := first) (g := g) (initial := initial) (n0 := (initials languages).states.length) ht
      have hty : shiftType x = .goto := by
        cases x with
        | terminal n => cases hx
        | guard p l => exact absurd rfl (hxg p l)
        | _ => rfl
      rw [hty] at this
      exact this
    refine ⟨_, _, a2, (stage_allowed (g := g) (m := m) st hig ?_).2 _ hact rfl hx⟩
    intro a ha
    exact allowed_of_act hr hU hc hself hne hl h h' hlt ((actions_exact (lt := lt) hr hU hc hself hl h h' hlt a1 a).1 ha)

/-- What is accepted: the stack has one tree, which is a derivation tree of the start symbol for the input. -/
theorem parser_sound {num : Numbering} {sort : List TableAction → List TableAction} {sortWeak : List (Int × Int) → List (Int × Int)} {lt : Key → Key → Bool}
    {occ : Item → Prop} {languages : List Item} {cf fuel fuel' : Nat} {m' : Mach} {st : Stage} {states : List (List LrAction)} {k0 : Nat} {start : Item}
    -- the grammar
    (hr : Function.Injective rid) (hU : Univ first g okI okR) (hne : ¬ okI .eoi) (hl : ∀ l ∈ languages, okR ⟨.empty, [l]⟩)
    -- the builder
    (hc : ClosOk first g okI clos) (hself : SelfOk first g okI self)
    (h : completeStates rid clos cf fuel (initials languages) = some m) (h' : completeLookaheads lt self fuel' m = some m')
    (hstates : ∀ s, s < m.states.length → ∃ fuel'' acts, actionsForState clos initial fuel'' m' s = some acts ∧ states[s]? = some (st.rewrite s acts))
    (hlen : states.length = m.states.length)
    -- the rewriters
    (hig : ∀ i ∈ st.ignored, isTerminal i = true) (hu : ∀ n a b, StrongOf st.weak n a → StrongOf st.weak n b → a = b)
    -- the tables
    (hsort : IsSort compareActions sort) (hsortWeak : IsSort (fun a b => decide (a.1 < b.1)) sortWeak)
    (hf : Fits num states (build num sort sortWeak states (some st.weak.strongToWeak)).numRules)
    (hinj : ∀ x y, occ x → occ y → num.ident x = num.ident y → x = y) (h1 : occ .empty) (h2 : occ .eoi)
    (hnum : ∀ acts ∈ states, ∀ a ∈ acts, Numbered occ a)
    -- the parser
    (hk : k0 < (initials languages).states.length) (hS : kern m k0 = [startItem start]) {input : List Tok} {pf : Nat} {s' : PState}
    (hp : parse (build num sort sortWeak states (some st.weak.strongToWeak)) pf (Parser.start k0 input) = .ok (true, s')) :
    Accepted g num (fun n => .terminal n ∈ st.ignored) (StrongOf st.weak) k0 start input s' := by
  exact parse_sound (auto_of_build hr hU hc hl h hk hS)
    (parser_tab hr hU hne hl hc hself h h' hstates hlen hig hu hsort hsortWeak hf hinj h1 h2 hnum) hp

/-- So the input without ignored symbols, with weak symbols where they were needed as strong ones, is a sentence of the language, up to guards. -/
theorem accepted_derives {num : Numbering} {k0 : Nat} {start : Item} {input : List Tok} {s : PState} (h : Accepted g num ig strong k0 start input s) :
    ∃ w v, Read ig strong input w ∧ g.Derives [start] v ∧ (∀ y ∈ v, isTerminal y = true ∨ ∃ p l, y = .guard p l) ∧
      v.filter isTerminal = w.map (fun k => .terminal k.sym) := by
  obtain ⟨st, τ, w, -, -, h1, h2⟩ := h
  obtain ⟨v, h3, h4, h5⟩ := h2.derives
  exact ⟨w, v, h1, h3, h4, h5⟩

/-- Without ignored and weak symbols the tokens are those of the input. -/
theorem read_eq {u w : List Tok} (h : Read (fun _ => False) (fun _ _ => False) u w) : w = u := by
  induction h with
  | nil => rfl
  | keep _ ih => rw [ih]
  | strong hn => exact hn.elim
  | skip hk => exact hk.elim

end
end Sound
end TameParse

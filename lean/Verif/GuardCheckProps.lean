import Verif.GuardCheck
import Verif.AttrProps
/-
Which guards are reported as empty or without effect (C86).
-/
namespace TameParse
namespace GuardCheck
open AssocMap GrammarIds Relation Language Lang

/-! ### The FIRST set of a rule -/

section
variable {g : Gram} {U : Item → Prop}

/-- What `first_for_rule` leaves in the cache, and that it finds the empty item only in rules that can be empty. -/
theorem firstForRule_sound (hU : g.Closed U) (hE : g.EbnfSound U) (fuel : Nat) {c c' : ItemCache} {r s : List Item} (hr : ∀ y ∈ r, U y)
    (hc : g.CacheSound c) (h : g.firstForRule fuel c r = some (c', s)) : g.CacheSound c' ∧ (Item.empty ∈ s → ∀ y ∈ r, g.Nullable y) := by
  have key : ∀ (xs : List Item) {c result c' s}, (∀ y ∈ xs, U y) → g.CacheSound c → g.firstForRuleFrom fuel c result xs = some (c', s) →
      g.CacheSound c' ∧ (Item.empty ∈ s → ∀ y ∈ xs, g.Nullable y) := by
    intro xs
    induction xs with
    | nil =>
      intro c result c' s _ hc h
      simp only [Gram.firstForRuleFrom, Option.some.injEq, Prod.mk.injEq] at h
      obtain ⟨rfl, rfl⟩ := h
      exact ⟨hc, by simp⟩
    | cons x xs ih =>
      intro c result c' s hx hc h
      simp only [Gram.firstForRuleFrom] at h
      cases hf : g.first fuel c x with
      | none => rw [hf] at h; cases h
      | some cs =>
        obtain ⟨c1, s1⟩ := cs
        rw [hf] at h
        dsimp only at h
        obtain ⟨hc1, hs1⟩ := Gram.first_sound_aux hU hE fuel c x c1 s1 (hx x List.mem_cons_self) hc hf
        have hemp : Item.empty ∈ Gram.dropEmpty result ++ s1 ↔ Item.empty ∈ s1 := by simp [Gram.mem_dropEmpty]
        by_cases he : Item.empty ∈ Gram.dropEmpty result ++ s1
        · rw [if_pos he] at h
          obtain ⟨h1, h2⟩ := ih (fun y hy => hx y (List.mem_cons_of_mem _ hy)) hc1 h
          refine ⟨h1, fun hm y hy => ?_⟩
          rcases List.mem_cons.1 hy with rfl | hy
          · exact hs1.2 (hemp.1 he)
          · exact h2 hm y hy
        · rw [if_neg he] at h
          simp only [Option.some.injEq, Prod.mk.injEq] at h
          obtain ⟨rfl, rfl⟩ := h
          exact ⟨hc1, fun hm => absurd hm he⟩
  unfold Gram.firstForRule at h
  split at h
  · rename_i hr0
    cases h
    exact ⟨hc, fun _ => by rw [hr0]; simp⟩
  · exact key r hr hc h

/-- It finds the empty item in every rule that can be empty, if the sets of items are complete. -/
theorem firstForRule_complete {rank : Item → Nat} (hG : g.Simple U rank) (fuel : Nat) {c c' : ItemCache} {r s : List Item} (hr : ∀ y ∈ r, U y)
    (hc : g.CacheSound c) (hcc : g.CacheComplete (fun _ => False) c) (h : g.firstForRule fuel c r = some (c', s)) :
    g.CacheComplete (fun _ => False) c' ∧ ((∀ y ∈ r, g.Nullable y) → Item.empty ∈ s) := by
  have key : ∀ (xs : List Item) {c result c' s}, (∀ y ∈ xs, U y) → g.CacheSound c → g.CacheComplete (fun _ => False) c →
      g.firstForRuleFrom fuel c result xs = some (c', s) → g.CacheComplete (fun _ => False) c' ∧ ((∀ y ∈ xs, g.Nullable y) → Item.empty ∈ s) := by
    intro xs
    induction xs with
    | nil =>
      intro c result c' s _ _ hcc h
      simp only [Gram.firstForRuleFrom, Option.some.injEq, Prod.mk.injEq] at h
      obtain ⟨rfl, rfl⟩ := h
      exact ⟨hcc, by simp⟩
    | cons x xs ih =>
      intro c result c' s hx hc hcc h
      simp only [Gram.firstForRuleFrom] at h
      cases hf : g.first fuel c x with
      | none => rw [hf] at h; cases h
      | some cs =>
        obtain ⟨c1, s1⟩ := cs
        rw [hf] at h
        dsimp only at h
        have hxU := hx x List.mem_cons_self
        have hc1 := (Gram.first_sound_aux hG.closed hG.ebnfSound fuel c x c1 s1 hxU hc hf).1
        obtain ⟨hcc1, hs1⟩ := Gram.first_complete_aux hG fuel (rank x + 1) c _ x c1 s1 hxU (Nat.lt_succ_self _) hc hcc (by simp) hf
        by_cases he : Item.empty ∈ Gram.dropEmpty result ++ s1
        · rw [if_pos he] at h
          obtain ⟨h1, h2⟩ := ih (fun y hy => hx y (List.mem_cons_of_mem _ hy)) hc1 hcc1 h
          exact ⟨h1, fun hn => h2 fun y hy => hn y (List.mem_cons_of_mem _ hy)⟩
        · rw [if_neg he] at h
          simp only [Option.some.injEq, Prod.mk.injEq] at h
          obtain ⟨rfl, rfl⟩ := h
          exact ⟨hcc1, fun hn => absurd (List.mem_append_right _ (hs1.2 (hn x List.mem_cons_self))) he⟩
  unfold Gram.firstForRule at h
  split at h
  · cases h
    exact ⟨hcc, by simp⟩
  · exact key r hr hc hcc h

theorem firstForRule_nil {fuel : Nat} {c c' : ItemCache} {s : List Item} (h : g.firstForRule fuel c [] = some (c', s)) : Item.empty ∈ s := by
  simp only [Gram.firstForRule, if_true, Option.some.injEq, Prod.mk.injEq] at h
  rw [← h.2]
  simp

/-! ### The loop -/

theorem mem_reportsFor {allow : Bool} {x : Item} {r s : List Item} {e : Report} : e ∈ reportsFor allow x r s ↔
    Item.empty ∈ s ∧ ((r = [] ∧ allow = false ∧ e = .empty x) ∨ (r ≠ [] ∧ e = .ineffective x)) := by
  unfold reportsFor
  by_cases h1 : Item.empty ∈ s <;> by_cases h2 : r = [] <;> cases allow <;> simp [h1, h2]

/-- The items inside some guards. -/
def Inside (U : Item → Prop) (gs : List Item) : Prop := ∀ p r, Item.guard p r ∈ gs → ∀ y ∈ r, U y

theorem check_sound (hU : g.Closed U) (hE : g.EbnfSound U) (fuel : Nat) (allow : Bool) (gs : List Item) : ∀ {c c' : ItemCache} {reps : List Report},
    Inside U gs → g.CacheSound c → checkGuards g fuel allow c gs = some (c', reps) →
    (∀ x, .ineffective x ∈ reps → x ∈ gs ∧ ∃ p r, x = .guard p r ∧ r ≠ [] ∧ g.Derives r []) ∧
    ∀ x, .empty x ∈ reps ↔ x ∈ gs ∧ allow = false ∧ ∃ p, x = .guard p [] := by
  induction gs with
  | nil =>
    intro c c' reps _ _ h
    simp only [checkGuards, Option.some.injEq, Prod.mk.injEq] at h
    rw [← h.2]
    simp
  | cons y gs ih =>
    intro c c' reps hi hc h
    have hi' : Inside U gs := fun p r hm => hi p r (List.mem_cons_of_mem _ hm)
    by_cases hy : ∃ p r, y = .guard p r
    · obtain ⟨p, r, rfl⟩ := hy
      simp only [checkGuards] at h
      cases hf : g.firstForRule fuel c r with
      | none => rw [hf] at h; cases h
      | some cs =>
        obtain ⟨c1, s⟩ := cs
        rw [hf] at h
        dsimp only at h
        obtain ⟨hc1, hn⟩ := firstForRule_sound hU hE fuel (hi p r List.mem_cons_self) hc hf
        cases hl : checkGuards g fuel allow c1 gs with
        | none => rw [hl] at h; cases h
        | some q =>
          obtain ⟨c2, reps'⟩ := q
          rw [hl] at h
          simp only [Option.some.injEq, Prod.mk.injEq] at h
          obtain ⟨-, rfl⟩ := h
          obtain ⟨h1, h2⟩ := ih hi' hc1 hl
          constructor
          · intro x hx
            rcases List.mem_append.1 hx with hx | hx
            · obtain ⟨he, ⟨-, -, e⟩ | ⟨hr, e⟩⟩ := mem_reportsFor.1 hx
              · cases e
              · cases e
                exact ⟨List.mem_cons_self, p, r, rfl, hr, (Gram.derives_nil_iff r).2 (hn he)⟩
            · obtain ⟨hm, h⟩ := h1 x hx
              exact ⟨List.mem_cons_of_mem _ hm, h⟩
          · intro x
            rw [List.mem_append, mem_reportsFor, h2, List.mem_cons]
            constructor
            · rintro (⟨-, ⟨rfl, ha, e⟩ | ⟨-, e⟩⟩ | ⟨hm, h⟩)
              · cases e; exact ⟨.inl rfl, ha, p, rfl⟩
              · cases e
              · exact ⟨.inr hm, h⟩
            · rintro ⟨rfl | hm, ha, q, e⟩
              · cases e
                exact .inl ⟨firstForRule_nil hf, .inl ⟨rfl, ha, rfl⟩⟩
              · exact .inr ⟨hm, ha, q, e⟩
    · have h' : checkGuards g fuel allow c gs = some (c', reps) := by
        cases y <;> first | exact h | exact absurd ⟨_, _, rfl⟩ hy
      obtain ⟨h1, h2⟩ := ih hi' hc h'
      refine ⟨fun x hx => ⟨List.mem_cons_of_mem _ (h1 x hx).1, (h1 x hx).2⟩, fun x => ?_⟩
      rw [h2, List.mem_cons]
      refine ⟨fun h => ⟨.inr h.1, h.2⟩, ?_⟩
      rintro ⟨rfl | hm, ha, q, e⟩
      · exact absurd ⟨_, _, e⟩ hy
      · exact ⟨hm, ha, q, e⟩

theorem check_complete {rank : Item → Nat} (hG : g.Simple U rank) (fuel : Nat) (allow : Bool) (gs : List Item) : ∀ {c c' : ItemCache} {reps : List Report},
    Inside U gs → g.CacheSound c → g.CacheComplete (fun _ => False) c → checkGuards g fuel allow c gs = some (c', reps) →
    ∀ p r, .guard p r ∈ gs → r ≠ [] → g.Derives r [] → .ineffective (.guard p r) ∈ reps := by
  induction gs with
  | nil => intro c c' reps _ _ _ _ p r hm; cases hm
  | cons y gs ih =>
    intro c c' reps hi hc hcc h
    have hi' : Inside U gs := fun p r hm => hi p r (List.mem_cons_of_mem _ hm)
    by_cases hy : ∃ p r, y = .guard p r
    · obtain ⟨p, r, rfl⟩ := hy
      simp only [checkGuards] at h
      cases hf : g.firstForRule fuel c r with
      | none => rw [hf] at h; cases h
      | some cs =>
        obtain ⟨c1, s⟩ := cs
        rw [hf] at h
        dsimp only at h
        have hiy := hi p r List.mem_cons_self
        have hc1 := (firstForRule_sound hG.closed hG.ebnfSound fuel hiy hc hf).1
        obtain ⟨hcc1, hn⟩ := firstForRule_complete hG fuel hiy hc hcc hf
        cases hl : checkGuards g fuel allow c1 gs with
        | none => rw [hl] at h; cases h
        | some q =>
          obtain ⟨c2, reps'⟩ := q
          rw [hl] at h
          simp only [Option.some.injEq, Prod.mk.injEq] at h
          obtain ⟨-, rfl⟩ := h
          intro p' r' hm hr hd
          rcases List.mem_cons.1 hm with e | hm
          · cases e
            exact List.mem_append_left _ (mem_reportsFor.2 ⟨hn ((Gram.derives_nil_iff _).1 hd), .inr ⟨hr, rfl⟩⟩)
          · exact List.mem_append_right _ (ih hi' hc1 hcc1 hl p' r' hm hr hd)
    · have h' : checkGuards g fuel allow c gs = some (c', reps) := by
        cases y <;> first | exact h | exact absurd ⟨_, _, rfl⟩ hy
      intro p r hm
      rcases List.mem_cons.1 hm with e | hm
      · exact absurd ⟨p, r, e.symm⟩ hy
      · exact ih hi' hc hcc h' p r hm

/-- The loop ends. -/
theorem check_total (V : List Item) (hV : g.Closed (· ∈ V)) (allow : Bool) (gs : List Item) : ∀ (c : ItemCache), Inside (· ∈ V) gs →
    ∃ c' reps, checkGuards g (V.length + 1) allow c gs = some (c', reps) := by
  have key : ∀ (xs : List Item) (c : ItemCache) (result : List Item), (∀ y ∈ xs, y ∈ V) →
      ∃ c' s, g.firstForRuleFrom (V.length + 1) c result xs = some (c', s) := by
    intro xs
    induction xs with
    | nil => intro c result _; exact ⟨_, _, rfl⟩
    | cons x xs ih =>
      intro c result hx
      obtain ⟨c1, s1, h1, -⟩ := Gram.first_total V hV (V.length + 1) c x (hx x List.mem_cons_self) (Nat.lt_succ_of_le (List.length_filter_le _ _))
      simp only [Gram.firstForRuleFrom, h1]
      split
      · exact ih _ _ fun y hy => hx y (List.mem_cons_of_mem _ hy)
      · exact ⟨_, _, rfl⟩
  induction gs with
  | nil => intro c _; exact ⟨_, _, rfl⟩
  | cons y gs ih =>
    intro c hi
    have hi' : Inside (· ∈ V) gs := fun p r hm => hi p r (List.mem_cons_of_mem _ hm)
    by_cases hy : ∃ p r, y = .guard p r
    · obtain ⟨p, r, rfl⟩ := hy
      obtain ⟨c1, s, h1⟩ : ∃ c1 s, g.firstForRule (V.length + 1) c r = some (c1, s) := by
        unfold Gram.firstForRule
        split
        · exact ⟨_, _, rfl⟩
        · exact key r c [] (hi p r List.mem_cons_self)
      obtain ⟨c2, reps, h2⟩ := ih c1 hi'
      refine ⟨c2, reportsFor allow (.guard p r) r s ++ reps, ?_⟩
      simp only [checkGuards, h1, h2]
    · obtain ⟨c2, reps, h2⟩ := ih c hi'
      refine ⟨c2, reps, ?_⟩
      cases y <;> first | exact h2 | exact absurd ⟨_, _, rfl⟩ hy

end

/-! ### The guards of a language -/

/-- An item is written somewhere in a sequence. -/
inductive Within (w : Simple) : List Simple → Prop
  | here {xs} (h : w ∈ xs) : Within w xs
  | guard {c f r a p xs} (hx : .guard c f r a ∈ xs) (hp : p ∈ f :: r) (h : Within w p) : Within w xs
  | paren {f r a p xs} (hx : .paren f r a ∈ xs) (hp : p ∈ f :: r) (h : Within w p) : Within w xs
  | star {x a xs} (hx : .star x a ∈ xs) (h : Within w [x]) : Within w xs
  | plus {x a xs} (hx : .plus x a ∈ xs) (h : Within w [x]) : Within w xs
  | question {x a xs} (hx : .question x a ∈ xs) (h : Within w [x]) : Within w xs

mutual
/-- The guards in an item of a definition. -/
def guardsE (N : Names) : Ebnf → List Item
  | .terminal .. | .nonterminal .. => []
  | .paren xs _ => guardsEs N xs
  | .optional x _ | .repeatOne x _ | .repeatZero x _ => guardsE N x
  | .guard x _ => .guard (-1) (trItem N x) :: guardsE N x
  | .alternative x y _ => guardsE N x ++ guardsE N y

def guardsEs (N : Names) : List Ebnf → List Item
  | [] => []
  | x :: xs => guardsE N x ++ guardsEs N xs
end

mutual
theorem guardsE_congr {N M : Names} {T U : String → Prop} (ht : ∀ n, T n → N.sym n = M.sym n) (hu : ∀ n, U n → N.nt n = M.nt n) :
    ∀ x : Ebnf, Known T U x → guardsE N x = guardsE M x
  | .terminal _ _ n _, _ | .nonterminal _ n _, _ => by simp only [guardsE]
  | .paren xs _, h => by simp only [Known] at h; simp only [guardsE, guardsEs_congr ht hu xs h]
  | .optional x _, h | .repeatOne x _, h | .repeatZero x _, h => by simp only [Known] at h; simp only [guardsE, guardsE_congr ht hu x h]
  | .guard x _, h => by simp only [Known] at h; simp only [guardsE, guardsE_congr ht hu x h, trItem_congr ht hu x h]
  | .alternative x y _, h => by simp only [Known] at h; simp only [guardsE, guardsE_congr ht hu x h.1, guardsE_congr ht hu y h.2]

theorem guardsEs_congr {N M : Names} {T U : String → Prop} (ht : ∀ n, T n → N.sym n = M.sym n) (hu : ∀ n, U n → N.nt n = M.nt n) :
    ∀ xs : List Ebnf, KnownAll T U xs → guardsEs N xs = guardsEs M xs
  | [], _ => rfl
  | x :: xs, h => by simp only [KnownAll] at h; simp only [guardsEs, guardsE_congr ht hu x h.1, guardsEs_congr ht hu xs h.2]
end

theorem guards_appendAttr (s : Lang) (r : KeyRule) (a : Attr) : (s.appendAttr r a).1.guards = s.guards := by
  unfold appendAttr setLast
  split
  · rfl
  · cases r.getLast? with
    | none => rfl
    | some p => dsimp only; split <;> rfl

theorem grow_item (s : Lang) (r : KeyRule) {y : Item} (hy : ∀ n, y ≠ .nonterminal n) (a : Attr) : Grow s ((s.know y).appendAttr (push r y) a).1 :=
  (grow_know s hy).trans (grow_appendAttr _ _ a).1

theorem Compiles.congr {s t : Lang} {x : Ebnf} {r r' : KeyRule} (h : Compiles s r t r' (fun N => trItem N x) (fun U => Known (fun _ => True) U x)) {u : Lang} (hg : Grow t u) :
    guardsE u.names x = guardsE t.names x :=
  guardsE_congr (T := fun _ => True) (U := t.ntKnown) (fun n _ => hg.sym n) (fun _ hn => hg.nt hn) x h.2.2

mutual
theorem guards_compileItem : ∀ (x : Ebnf) (s : Lang) (r : KeyRule) (y : Item),
    y ∈ (s.compileItem r x).1.guards ↔ y ∈ s.guards ∨ y ∈ guardsE (s.compileItem r x).1.names x
  | .terminal k src n a, s, r, y => by simp only [compileItem, guards_appendAttr, guardsE, List.not_mem_nil, or_false]
  | .nonterminal src n a, s, r, y => by simp only [compileItem, guards_appendAttr, guardsE, List.not_mem_nil, or_false]
  | .paren xs a, s, r, y => by simp only [compileItem, guardsE]; exact guards_compileItems xs s r y
  | .optional x a, s, r, y => by
    have h1 := compileItem_spec x s []
    have hk := grow_item (s.compileItem [] x).1 r (y := .ebnf .optional [items (s.compileItem [] x).2]) (by simp) a
    simp only [compileItem, guardsE]
    rw [guards_appendAttr, Compiles.congr h1 hk]
    exact guards_compileItem x s [] y
  | .repeatOne x a, s, r, y => by
    have h1 := compileItem_spec x s []
    have hk := grow_item (s.compileItem [] x).1 r (y := .ebnf .repeating [items (s.compileItem [] x).2]) (by simp) a
    simp only [compileItem, guardsE]
    rw [guards_appendAttr, Compiles.congr h1 hk]
    exact guards_compileItem x s [] y
  | .repeatZero x a, s, r, y => by
    have h1 := compileItem_spec x s []
    have hk := grow_item (s.compileItem [] x).1 r (y := .ebnf .repeatZero [items (s.compileItem [] x).2]) (by simp) a
    simp only [compileItem, guardsE]
    rw [guards_appendAttr, Compiles.congr h1 hk]
    exact guards_compileItem x s [] y
  | .guard x a, s, r, y => by
    have h1 := compileItem_spec x s []
    have hi := guards_compileItem x s [] y
    simp only [compileItem, guardsE]
    have ha := (grow_appendAttr (s.compileItem [] x).1 (push r (.guard (-1) (items (s.compileItem [] x).2))) a).1
    have hq := guards_appendAttr (s.compileItem [] x).1 (push r (.guard (-1) (items (s.compileItem [] x).2))) a
    generalize appendAttr (compileItem s [] x).1 (push r (.guard (-1) (items (s.compileItem [] x).2))) a = q at ha hq ⊢
    have hk : Grow (s.compileItem [] x).1 { q.1.know (.guard (-1) (items (s.compileItem [] x).2)) with
        guards := q.1.guards.insert (.guard (-1) (items (s.compileItem [] x).2)) } := grow_guards (ha.trans (grow_know q.1 (by simp))) _
    rw [Compiles.congr h1 hk]
    have e : items (s.compileItem [] x).2 = trItem (s.compileItem [] x).1.names x := by
      have := h1.2.1
      rwa [show items [] = [] from rfl, List.nil_append] at this
    have et := trItem_congr (T := fun _ => True) (U := (s.compileItem [] x).1.ntKnown) (fun n _ => hk.sym n) (fun _ hn => hk.nt hn) x h1.2.2
    rw [et, ← e, List.mem_insert_iff, hq, hi, List.mem_cons]
    tauto
  | .alternative x z a, s, r, y => by
    have h1 := compileItem_spec x s []
    have h2 := compileItem_spec z (s.compileItem [] x).1 []
    have hi := guards_compileItem x s [] y
    have hj := guards_compileItem z (s.compileItem [] x).1 [] y
    have hk := grow_item ((s.compileItem [] x).1.compileItem [] z).1 r
      (y := .ebnf .alternative [items (s.compileItem [] x).2, items ((s.compileItem [] x).1.compileItem [] z).2]) (by simp) a
    simp only [compileItem, guardsE]
    rw [guards_appendAttr, Compiles.congr h2 hk, Compiles.congr h1 (h2.1.trans hk), List.mem_append, ← or_assoc, ← hi]
    exact hj

theorem guards_compileItems : ∀ (xs : List Ebnf) (s : Lang) (r : KeyRule) (y : Item),
    y ∈ (s.compileItems r xs).1.guards ↔ y ∈ s.guards ∨ y ∈ guardsEs (s.compileItems r xs).1.names xs
  | [], s, r, y => by simp only [compileItems, guardsEs, List.not_mem_nil, or_false]
  | x :: xs, s, r, y => by
    have h1 := compileItem_spec x s r
    have h2 := compileItems_spec xs (s.compileItem r x).1 (s.compileItem r x).2
    simp only [compileItems, guardsEs]
    rw [guards_compileItems xs, guards_compileItem x, Compiles.congr h1 h2.1, List.mem_append, or_assoc]
end

/-- The guards so far are those of the productions `G`, whether they are still in the grammar or not. -/
structure CInv (s : Lang) (G : List (List Ebnf)) : Prop where
  known : ∀ p ∈ G, KnownAll s.termKnown s.ntKnown p
  guards : ∀ y, y ∈ s.guards ↔ ∃ p ∈ G, y ∈ guardsEs s.names p

theorem CInv.grow {s t : Lang} {G : List (List Ebnf)} (h : CInv s G) (hg : Grow s t) (he : t.guards = s.guards) : CInv t G := by
  refine ⟨fun p hp => KnownAll.mono ?_ (fun _ hm => hg.known hm) p (h.known p hp), fun y => ?_⟩
  · intro m hm
    rw [termKnown, hg.terminals]
    exact hm
  · rw [he, h.guards]
    refine exists_congr fun p => and_congr_right fun hp => ?_
    rw [guardsEs_congr (T := s.termKnown) (U := s.ntKnown) (fun n _ => hg.sym n) (fun _ hn => hg.nt hn) p (h.known p hp)]

theorem CInv.compile {s : Lang} {G : List (List Ebnf)} (h : CInv s G) {p : List Ebnf} (hp : KnownAll s.termKnown (fun _ => True) p) :
    CInv (s.compileItems [] p).1 (G ++ [p]) := by
  obtain ⟨h1, -, h3⟩ := compileItems_spec p s []
  have hy := guards_compileItems p s []
  generalize (s.compileItems [] p).1 = t at h1 h3 hy
  have e : t.termKnown = s.termKnown := by funext m; simp only [termKnown, h1.terminals]
  refine ⟨fun q hq => ?_, fun y => ?_⟩
  · rcases List.mem_append.1 hq with hq | hq
    · exact KnownAll.mono (fun m hm => by rw [e]; exact hm) (fun _ hm => h1.known hm) q (h.known q hq)
    · rw [List.mem_singleton.1 hq]
      exact knownAll_and p (by rw [e]; exact hp) h3
  · rw [hy, h.guards]
    have hc : ∀ q ∈ G, guardsEs t.names q = guardsEs s.names q := fun q hq =>
      guardsEs_congr (T := s.termKnown) (U := s.ntKnown) (fun n _ => h1.sym n) (fun _ hn => h1.nt hn) q (h.known q hq)
    constructor
    · rintro (⟨q, hq, hm⟩ | hm)
      · exact ⟨q, List.mem_append_left _ hq, by rw [hc q hq]; exact hm⟩
      · exact ⟨p, by simp, hm⟩
    · rintro ⟨q, hq, hm⟩
      rcases List.mem_append.1 hq with hq | hq
      · exact .inl ⟨q, hq, by rw [← hc q hq]; exact hm⟩
      · rw [List.mem_singleton.1 hq] at hm
        exact .inr hm

theorem CInv.addProds {i : Nat} (ps : List (List Ebnf)) : ∀ {s : Lang} {G : List (List Ebnf)}, CInv s G → (∀ p ∈ ps, KnownAll s.termKnown (fun _ => True) p) →
    CInv (ps.foldl (Lang.addProd i) s) (G ++ ps) := by
  induction ps with
  | nil => intro s G h _; rw [List.append_nil]; exact h
  | cons p ps ih =>
    intro s G h hp
    have h1 := h.compile (hp p List.mem_cons_self)
    have ht := (compileItems_spec p s []).1.terminals
    rw [List.foldl_cons, show G ++ p :: ps = (G ++ [p]) ++ ps by simp]
    have e : (s.addProd i p).terminals = s.terminals := ht
    refine ih (s := s.addProd i p) ?_ (fun q hq => by
      have : (s.addProd i p).termKnown = s.termKnown := by funext m; simp only [termKnown, e]
      rw [this]
      exact hp q (List.mem_cons_of_mem _ hq))
    unfold Lang.addProd
    generalize hq : s.compileItems [] p = q at h1
    obtain ⟨t, r⟩ := q
    dsimp only at h1 ⊢
    have h2 : CInv { t with rules := AssocMap.put i (t.rulesFor i ++ [r]) t.rules } (G ++ [p]) := ⟨h1.known, h1.guards⟩
    exact h2.grow (grow_rule { t with rules := AssocMap.put i (t.rulesFor i ++ [r]) t.rules } ⟨.nonterminal i, items r⟩) rfl

theorem CInv.same {s t : Lang} {G : List (List Ebnf)} (h : CInv s G) (h1 : t.terminals = s.terminals) (h2 : t.ids = s.ids) (h3 : t.guards = s.guards) : CInv t G := by
  have e1 : t.termKnown = s.termKnown := by funext m; simp only [termKnown, h1]
  have e2 : t.ntKnown = s.ntKnown := by funext m; simp only [ntKnown, h2]
  have e3 : t.names = s.names := by simp only [Lang.names, h1, h2]
  exact ⟨by rw [e1, e2]; exact h.known, by rw [h3, e3]; exact h.guards⟩

theorem CInv.addNt {s : Lang} {G : List (List Ebnf)} (h : CInv s G) {d : NtDef} (hp : ∀ p ∈ d.prods, KnownAll s.termKnown (fun _ => True) p) :
    CInv (s.addNt d) (G ++ d.prods) := by
  obtain ⟨h1, -⟩ := grow_nt s d.name
  have h2 := h.grow h1 rfl
  unfold Lang.addNt
  generalize s.ids.idForNonterminal d.name = q at h1 h2
  obtain ⟨ids, i⟩ := q
  dsimp only at h1 h2 ⊢
  generalize ht : ({ s with ids := ids } : Lang) = t at h1 h2
  have e1 : t.terminals = s.terminals := by rw [← ht]
  clear ht
  refine CInv.addProds d.prods (h2.same ?_ ?_ ?_) (fun p hp' => ?_)
  · split_ifs <;> rfl
  · split_ifs <;> rfl
  · split_ifs <;> rfl
  · refine KnownAll.mono (fun m hm => ?_) (fun _ h => h) p (hp p hp')
    have : t.termKnown m := by rw [termKnown, e1]; exact hm
    split_ifs <;> exact this

/-- The productions of some units. -/
def prodsOf : List (Block NtDef) → List (List Ebnf)
  | [] => []
  | .grammar ds :: us => ds.flatMap NtDef.prods ++ prodsOf us
  | .lexer .. :: us => prodsOf us

theorem CInv.addNts (ds : List NtDef) : ∀ {s : Lang} {G F}, CInv s G → GInv s F → (∀ d ∈ ds, ∀ p ∈ d.prods, KnownAll s.termKnown (fun _ => True) p) →
    CInv (ds.foldl Lang.addNt s) (G ++ ds.flatMap NtDef.prods) := by
  induction ds with
  | nil => intro s G F h _ _; simpa using h
  | cons d ds ih =>
    intro s G F h hg hp
    obtain ⟨h1, h2, -⟩ := hg.addNt (hp d List.mem_cons_self)
    rw [List.flatMap_cons, ← List.append_assoc]
    exact ih (h.addNt (hp d List.mem_cons_self)) h1 (by
      intro d' hd'
      have : (s.addNt d).termKnown = s.termKnown := by funext m; simp only [termKnown, h2]
      rw [this]
      exact hp d' (List.mem_cons_of_mem _ hd'))

theorem CInv.addUnits (us : List (Block NtDef)) : ∀ {s : Lang} {G F}, CInv s G → GInv s F → TermsKnown s us → CInv (us.foldl Lang.addUnit s) (G ++ prodsOf us) := by
  induction us with
  | nil => intro s G F h _ _; simpa [prodsOf] using h
  | cons u us ih =>
    intro s G F h hi hk
    cases u with
    | lexer t w ci cs ls => exact ih h hi (fun ds hd => hk ds (List.mem_cons_of_mem _ hd))
    | grammar ds =>
      obtain ⟨h1, h2, -⟩ := hi.addNts ds (hk ds List.mem_cons_self)
      rw [prodsOf, ← List.append_assoc]
      exact ih (s := ds.foldl Lang.addNt s) (h.addNts ds hi (hk ds List.mem_cons_self)) h1 (by
        intro ds' hd'
        have : (ds.foldl Lang.addNt s).termKnown = s.termKnown := by funext m; simp only [termKnown, h2]
        rw [this]
        exact hk ds' (List.mem_cons_of_mem _ hd'))

/-! ### The steps that leave the guards alone -/

theorem guards_foldl {α : Type} (f : Lang → α → Lang) (hf : ∀ s a, (f s a).guards = s.guards) (l : List α) : ∀ s, (l.foldl f s).guards = s.guards := by
  induction l with
  | nil => exact fun s => rfl
  | cons a l ih => exact fun s => (ih _).trans (hf s a)

theorem guards_addSymbol (ci cs : Bool) (s : Lang) (l : Lexeme) : (addSymbol ci cs s l).guards = s.guards := by
  unfold addSymbol
  simp only [addExpr, Lang.error]
  split_ifs <;> rfl

theorem guards_symbolFor (type : UnitType) (s : Lang) (l : Lexeme) : (symbolFor type s l).1.guards = s.guards := by
  unfold symbolFor
  dsimp only
  split
  · split
    · split <;> rfl
    · split <;> rfl
  · split
    · rfl
    · split <;> rfl

theorem guards_addLexeme (type : UnitType) (weak ci cs : Bool) (s : Lang) (l : Lexeme) : (addLexeme type weak ci cs s l).guards = s.guards := by
  have h := guards_symbolFor type s l
  unfold addLexeme
  generalize symbolFor type s l = q at h ⊢
  obtain ⟨t, i⟩ := q
  dsimp only at h ⊢
  split
  · exact h
  · rw [← h]
    simp only [addDef]
    split_ifs <;> rfl

theorem guards_addLexerUnit (weak : Bool) (type : UnitType) (s : Lang) (u : Block NtDef) : (addLexerUnit weak type s u).guards = s.guards := by
  cases u with
  | grammar ds => rfl
  | lexer t w ci cs ls =>
    simp only [addLexerUnit]
    split
    · exact guards_foldl _ (guards_addLexeme t w ci cs) ls s
    · rfl

theorem guards_addSymbolsUnit (s : Lang) (u : Block NtDef) : (addSymbolsUnit s u).guards = s.guards := by
  unfold addSymbolsUnit
  split
  · exact guards_foldl _ (guards_addSymbol _ _) _ s
  · rfl

mutual
theorem guards_implicit : ∀ (x : Ebnf) (s : Lang), (s.implicit x).guards = s.guards
  | .guard x _, s | .repeatZero x _, s | .repeatOne x _, s | .optional x _, s => by simp only [implicit]; exact guards_implicit x s
  | .alternative x y _, s => by simp only [implicit]; exact (guards_implicit y _).trans (guards_implicit x s)
  | .paren xs _, s => by simp only [implicit]; exact guards_implicits xs s
  | .nonterminal _ _ _, s => by simp only [implicit]
  | .terminal k src n a, s => by
    simp only [implicit]
    split
    · rfl
    · split <;> rfl

theorem guards_implicits : ∀ (xs : List Ebnf) (s : Lang), (s.implicits xs).guards = s.guards
  | [], s => by simp only [implicits]
  | x :: xs, s => by simp only [implicits]; exact (guards_implicits xs _).trans (guards_implicit x s)
end

theorem guards_implicitUnit (s : Lang) (u : Block NtDef) : (implicitUnit s u).guards = s.guards := by
  cases u with
  | lexer t w ci cs ls => rfl
  | grammar ds => exact guards_foldl _ (fun s d => guards_foldl _ (fun s p => guards_implicits p s) d.prods s) ds s

theorem guards_addSymbols (s : Lang) (us : List (Block NtDef)) : (s.addSymbols us).guards = s.guards :=
  (guards_foldl _ guards_implicitUnit us _).trans ((guards_foldl _ (fun s p => guards_foldl _ (guards_addLexerUnit p.1 p.2) us s) passes _).trans
    (guards_foldl _ guards_addSymbolsUnit us s))

mutual
theorem guards_useItem : ∀ (x : Item) (s : Lang), (s.useItem x).guards = s.guards
  | .terminal n, s => by simp only [useItem]
  | .ebnf _ rs, s => by simp only [useItem]; exact guards_useRules rs s
  | .nonterminal _, s | .guard _ _, s | .eoi, s | .eog, s | .empty, s => by simp only [useItem]

theorem guards_useItems : ∀ (xs : List Item) (s : Lang), (s.useItems xs).guards = s.guards
  | [], s => by simp only [useItems]
  | x :: xs, s => by simp only [useItems]; exact (guards_useItems xs _).trans (guards_useItem x s)

theorem guards_useRules : ∀ (rs : List (List Item)) (s : Lang), (s.useRules rs).guards = s.guards
  | [], s => by simp only [useRules]
  | r :: rs, s => by simp only [useRules]; exact (guards_useRules rs _).trans (guards_useItems r s)
end

theorem guards_useAll (s : Lang) : s.useAll.guards = s.guards :=
  guards_foldl _ (fun s i => guards_foldl _ (fun s r => guards_useItems (items r) s) (s.rulesFor i) s) _ s

theorem guards_checkUndefined (s : Lang) : s.checkUndefined.guards = s.guards := by
  refine guards_foldl _ (fun s i => ?_) _ s
  split
  · split <;> rfl
  · rfl

theorem CInv.sgrow {s t : Lang} {G : List (List Ebnf)} (h : CInv s G) (hg : SGrow s t) (hi : TInv s.terminals) (hd : NoDup t) (he : t.guards = s.guards) : CInv t G := by
  have e2 : t.ntKnown = s.ntKnown := by funext m; simp only [ntKnown, hg.ids]
  refine ⟨fun p hp => ?_, fun y => ?_⟩
  · rw [e2]
    exact KnownAll.mono (fun m hm => hg.known hi hd hm) (fun _ hm => hm) p (h.known p hp)
  · rw [he, h.guards]
    refine exists_congr fun p => and_congr_right fun hp => ?_
    rw [guardsEs_congr (T := s.termKnown) (U := s.ntKnown) (fun n hn => hg.sym hi hd hn) (fun n _ => by simp only [Lang.names, hg.ids]) p (h.known p hp)]

theorem compileBlock_guards {s : Lang} {G F} (h : CInv s G) (hg : GInv s F) (hi : TInv s.terminals) {us : List (Block NtDef)} (ho : OwnBlocks us)
    (hd : NoDup (s.compileBlock us)) : CInv (s.compileBlock us) (G ++ prodsOf us) := by
  have g1 := sgrow_addSymbols s us
  have g3 := (sgrow_useAll (us.foldl addUnit (s.addSymbols us))).trans (sgrow_checkUndefined _)
  have hd1 : NoDup (s.addSymbols us) := fun n hn => hd n (g3.errors _ (addUnits_errors us _ _ hn))
  have hg1 := hg.sgrow g1 hi hd1
  have hk := addSymbols_known s ho hi hd1
  have h1 := (h.sgrow g1 hi hd1 (guards_addSymbols s us)).addUnits us hg1 hk
  have hi2 : TInv (us.foldl addUnit (s.addSymbols us)).terminals := by rw [(hg1.addUnits us hk).2.1]; exact g1.inv hi
  exact h1.sgrow g3 hi2 hd ((guards_checkUndefined _).trans (guards_useAll _))

theorem compile_guards : ∀ (blocks : List (List (Block NtDef))) (s : Lang), (∀ us ∈ blocks, OwnBlocks us) → ∀ {G F}, CInv s G → GInv s F →
    TInv s.terminals → NoDup (s.compile blocks) → CInv (s.compile blocks) (G ++ blocks.flatMap prodsOf)
  | [], s, _, G, F, h, _, _, _ => by simpa [compile] using h
  | us :: more, s, ho, G, F, h, hg, hi, hd => by
    simp only [compile] at hd ⊢
    have hd1 : NoDup (s.compileBlock us) := fun n hn => hd n (compile_errors more _ _ hn)
    have hou := ho us (List.mem_cons_self ..)
    obtain ⟨h1, h2⟩ := compileBlock_spec hg hi hou hd1
    rw [List.flatMap_cons, ← List.append_assoc]
    exact compile_guards more _ (fun us hu => ho us (List.mem_cons_of_mem _ hu)) (compileBlock_guards h hg hi hou hd1) h1 h2 hd

theorem cinv_new : CInv Lang.new [] := ⟨fun _ h => (nomatch h), fun _ => ⟨fun h => (nomatch h), fun ⟨_, h, _⟩ => (nomatch h)⟩⟩

theorem mem_prodsOf (us : List (Block NtSyntax)) (q : List Ebnf) : q ∈ prodsOf (us.map unitDef) ↔ ∃ d ∈ unitDefs us, ∃ p ∈ d.prods, q = simpleDefs p := by
  induction us with
  | nil => simp [prodsOf, unitDefs]
  | cons u us ih =>
    cases u with
    | lexer t w ci cs ls => simpa [prodsOf, unitDefs, unitDef] using ih
    | grammar ds =>
      simp only [List.map_cons, unitDef, prodsOf, List.mem_append, ih, unitDefs, List.flatMap_cons, List.mem_flatMap, List.mem_map]
      constructor
      · rintro (⟨e, ⟨d, hd, rfl⟩, hq⟩ | ⟨d, hd, p, hp, rfl⟩)
        · obtain ⟨p, hp, rfl⟩ := List.mem_map.1 hq
          exact ⟨d, .inl hd, p, hp, rfl⟩
        · exact ⟨d, .inr hd, p, hp, rfl⟩
      · rintro ⟨d, hd | hd, p, hp, rfl⟩
        · exact .inl ⟨_, ⟨d, hd, rfl⟩, List.mem_map.2 ⟨p, hp, rfl⟩⟩
        · exact .inr ⟨d, hd, p, hp, rfl⟩

/-! ### From the definitions to what is written -/

theorem guardsE_seqOf (N : Names) (xs : List Ebnf) : guardsE N (seqOf xs) = guardsEs N xs := by
  rw [seqOf_eq]
  match xs with
  | [] => simp [guardsE, guardsEs]
  | [x] => simp [guardsEs]
  | x :: y :: xs => simp only [guardsE]

def gs (N : Names) (xs : List Simple) : List Item := guardsEs N (simpleDefs xs)

theorem mem_gs_paren {N : Names} {y : Item} (r : List (List Simple)) : ∀ (f : List Simple) (a : Attr),
    y ∈ guardsE N (simpleDef (.paren f r a)) ↔ ∃ p ∈ f :: r, y ∈ gs N p := by
  induction r with
  | nil => intro f a; simp [simpleDef, altDefs, guardsE_seqOf, gs]
  | cons b r ih =>
    intro f a
    have e : guardsE N (simpleDef (.paren f (b :: r) a)) = gs N f ++ guardsE N (simpleDef (.paren b r .blank)) := by
      simp only [simpleDef, altDefs, guardsE, guardsE_seqOf, gs]
    rw [e, List.mem_append, ih]
    simp

theorem mem_gs_guard {N : Names} {y : Item} (c : Bool) (f : List Simple) (r : List (List Simple)) (a : Attr) :
    y ∈ guardsE N (simpleDef (.guard c f r a)) ↔ [y] = ts N (.guard c f r a) ∨ ∃ p ∈ f :: r, y ∈ gs N p := by
  have e : guardsE N (simpleDef (.guard c f r a)) = .guard (-1) (ts N (.paren f r .blank)) :: guardsE N (simpleDef (.paren f r .blank)) := by
    cases r <;> simp only [simpleDef, altDefs, guardsE, ts]
  rw [e, List.mem_cons, mem_gs_paren, Attrs.tr_guard]
  simp

theorem within_cons {w x : Simple} {xs : List Simple} : Within w (x :: xs) ↔ Within w [x] ∨ Within w xs := by
  constructor
  · intro h
    cases h with
    | here h =>
      rcases List.mem_cons.1 h with rfl | h
      · exact .inl (.here (by simp))
      · exact .inr (.here h)
    | guard hx hp h =>
      rcases List.mem_cons.1 hx with rfl | hx
      · exact .inl (.guard List.mem_cons_self hp h)
      · exact .inr (.guard hx hp h)
    | paren hx hp h =>
      rcases List.mem_cons.1 hx with rfl | hx
      · exact .inl (.paren List.mem_cons_self hp h)
      · exact .inr (.paren hx hp h)
    | star hx h =>
      rcases List.mem_cons.1 hx with rfl | hx
      · exact .inl (.star List.mem_cons_self h)
      · exact .inr (.star hx h)
    | plus hx h =>
      rcases List.mem_cons.1 hx with rfl | hx
      · exact .inl (.plus List.mem_cons_self h)
      · exact .inr (.plus hx h)
    | question hx h =>
      rcases List.mem_cons.1 hx with rfl | hx
      · exact .inl (.question List.mem_cons_self h)
      · exact .inr (.question hx h)
  · rintro (h | h)
    · cases h with
      | here h => rw [List.mem_singleton.1 h]; exact .here (by simp)
      | guard hx hp h => exact .guard (List.mem_cons.2 (.inl (List.mem_singleton.1 hx))) hp h
      | paren hx hp h => exact .paren (List.mem_cons.2 (.inl (List.mem_singleton.1 hx))) hp h
      | star hx h => exact .star (List.mem_cons.2 (.inl (List.mem_singleton.1 hx))) h
      | plus hx h => exact .plus (List.mem_cons.2 (.inl (List.mem_singleton.1 hx))) h
      | question hx h => exact .question (List.mem_cons.2 (.inl (List.mem_singleton.1 hx))) h
    · cases h with
      | here h => exact .here (List.mem_cons_of_mem _ h)
      | guard hx hp h => exact .guard (List.mem_cons_of_mem _ hx) hp h
      | paren hx hp h => exact .paren (List.mem_cons_of_mem _ hx) hp h
      | star hx h => exact .star (List.mem_cons_of_mem _ hx) h
      | plus hx h => exact .plus (List.mem_cons_of_mem _ hx) h
      | question hx h => exact .question (List.mem_cons_of_mem _ hx) h

/-- Where a guard can be in one item. -/
def Parts (x : Simple) (Q : List Simple → Prop) : Prop :=
  match x with
  | .guard _ f r _ | .paren f r _ => ∃ p ∈ f :: r, Q p
  | .star x _ | .plus x _ | .question x _ => Q [x]
  | _ => False

theorem within_one {w x : Simple} : Within w [x] ↔ w = x ∨ Parts x (Within w) := by
  constructor
  · intro h
    cases h with
    | here h => exact .inl (List.mem_singleton.1 h)
    | guard hx hp h => rw [← List.mem_singleton.1 hx]; exact .inr ⟨_, hp, h⟩
    | paren hx hp h => rw [← List.mem_singleton.1 hx]; exact .inr ⟨_, hp, h⟩
    | star hx h => rw [← List.mem_singleton.1 hx]; exact .inr h
    | plus hx h => rw [← List.mem_singleton.1 hx]; exact .inr h
    | question hx h => rw [← List.mem_singleton.1 hx]; exact .inr h
  · rintro (rfl | h)
    · exact .here (by simp)
    · cases x with
      | terminal => exact h.elim
      | nonterminal => exact h.elim
      | guard c f r a => obtain ⟨p, hp, h⟩ := h; exact .guard List.mem_cons_self hp h
      | paren f r a => obtain ⟨p, hp, h⟩ := h; exact .paren List.mem_cons_self hp h
      | star x a => exact .star List.mem_cons_self h
      | plus x a => exact .plus List.mem_cons_self h
      | question x a => exact .question List.mem_cons_self h

/-- A guard of a sequence, as an item of the grammar. -/
def HasGuard (N : Names) (y : Item) (xs : List Simple) : Prop := ∃ c f r a, Within (.guard c f r a) xs ∧ [y] = ts N (.guard c f r a)

theorem mem_gs (N : Names) (y : Item) : ∀ (k : Nat) (xs : List Simple), sizeOf xs < k → (y ∈ gs N xs ↔ HasGuard N y xs)
  | 0, _, hk => by omega
  | k + 1, [], _ => by
    simp only [gs, simpleDefs, guardsEs, List.not_mem_nil, false_iff]
    rintro ⟨c, f, r, a, h, -⟩
    cases h with
    | here hx => exact (nomatch hx)
    | guard hx => exact (nomatch hx)
    | paren hx => exact (nomatch hx)
    | star hx => exact (nomatch hx)
    | plus hx => exact (nomatch hx)
    | question hx => exact (nomatch hx)
  | k + 1, x :: xs, hk => by
    have hs : sizeOf (x :: xs) = 1 + sizeOf x + sizeOf xs := by simp
    have ih := mem_gs N y k xs (by omega)
    have e : gs N (x :: xs) = guardsE N (simpleDef x) ++ gs N xs := by simp only [gs, simpleDefs, guardsEs]
    have small : ∀ {f p : List Simple} {r : List (List Simple)}, p ∈ f :: r → sizeOf p < sizeOf f + sizeOf r + 1 := by
      intro f p r hp
      rcases List.mem_cons.1 hp with rfl | hp
      · omega
      · have := List.sizeOf_lt_of_mem hp
        omega
    have one : ∀ z : Simple, gs N [z] = guardsE N (simpleDef z) := by intro z; simp [gs, simpleDefs, guardsEs]
    have hx : y ∈ guardsE N (simpleDef x) ↔ HasGuard N y [x] := by
      have hh : HasGuard N y [x] ↔ (∃ c f r a, x = .guard c f r a ∧ [y] = ts N x) ∨ Parts x (HasGuard N y) := by
        unfold HasGuard
        constructor
        · rintro ⟨c, f, r, a, hw, h⟩
          rcases within_one.1 hw with rfl | hw
          · exact .inl ⟨c, f, r, a, rfl, h⟩
          · refine .inr ?_
            cases x with
            | terminal => exact hw.elim
            | nonterminal => exact hw.elim
            | guard c f r a => obtain ⟨p, hp, hw⟩ := hw; exact ⟨p, hp, _, _, _, _, hw, h⟩
            | paren f r a => obtain ⟨p, hp, hw⟩ := hw; exact ⟨p, hp, _, _, _, _, hw, h⟩
            | star x a => exact ⟨_, _, _, _, hw, h⟩
            | plus x a => exact ⟨_, _, _, _, hw, h⟩
            | question x a => exact ⟨_, _, _, _, hw, h⟩
        · rintro (⟨c, f, r, a, rfl, h⟩ | h)
          · exact ⟨c, f, r, a, .here (by simp), h⟩
          · cases x with
            | terminal => exact h.elim
            | nonterminal => exact h.elim
            | guard c f r a => obtain ⟨p, hp, c', f', r', a', hw, h⟩ := h; exact ⟨c', f', r', a', .guard List.mem_cons_self hp hw, h⟩
            | paren f r a => obtain ⟨p, hp, c', f', r', a', hw, h⟩ := h; exact ⟨c', f', r', a', .paren List.mem_cons_self hp hw, h⟩
            | star x a => obtain ⟨c', f', r', a', hw, h⟩ := h; exact ⟨c', f', r', a', .star List.mem_cons_self hw, h⟩
            | plus x a => obtain ⟨c', f', r', a', hw, h⟩ := h; exact ⟨c', f', r', a', .plus List.mem_cons_self hw, h⟩
            | question x a => obtain ⟨c', f', r', a', hw, h⟩ := h; exact ⟨c', f', r', a', .question List.mem_cons_self hw, h⟩
      rw [hh]
      cases x with
      | terminal => simp [simpleDef, guardsE, Parts]
      | nonterminal => simp [simpleDef, guardsE, Parts]
      | guard c f r a =>
        have hz : sizeOf (Simple.guard c f r a) = 1 + sizeOf c + sizeOf f + sizeOf r + sizeOf a := by simp
        rw [mem_gs_guard]
        refine or_congr ⟨fun h => ⟨_, _, _, _, rfl, h⟩, fun ⟨_, _, _, _, _, h⟩ => h⟩ (exists_congr fun p => and_congr_right fun hp => ?_)
        have := small hp
        exact mem_gs N y k p (by omega)
      | paren f r a =>
        have hz : sizeOf (Simple.paren f r a) = 1 + sizeOf f + sizeOf r + sizeOf a := by simp
        rw [mem_gs_paren]
        have hno : ¬ ∃ c f' r' a', Simple.paren f r a = .guard c f' r' a' ∧ [y] = ts N (.paren f r a) := fun ⟨_, _, _, _, h, _⟩ => (nomatch h)
        rw [or_iff_right hno]
        refine exists_congr fun p => and_congr_right fun hp => ?_
        have := small hp
        exact mem_gs N y k p (by omega)
      | star z a =>
        have hz : sizeOf (Simple.star z a) = 1 + sizeOf z + sizeOf a := by simp
        rw [or_iff_right (fun ⟨_, _, _, _, h, _⟩ => (nomatch h)), show guardsE N (simpleDef (.star z a)) = gs N [z] by rw [one]; simp only [simpleDef, guardsE]]
        have ha : 1 ≤ sizeOf a := by cases a; simp
        exact mem_gs N y k [z] (by simp; omega)
      | plus z a =>
        have hz : sizeOf (Simple.plus z a) = 1 + sizeOf z + sizeOf a := by simp
        rw [or_iff_right (fun ⟨_, _, _, _, h, _⟩ => (nomatch h)), show guardsE N (simpleDef (.plus z a)) = gs N [z] by rw [one]; simp only [simpleDef, guardsE]]
        have ha : 1 ≤ sizeOf a := by cases a; simp
        exact mem_gs N y k [z] (by simp; omega)
      | question z a =>
        have hz : sizeOf (Simple.question z a) = 1 + sizeOf z + sizeOf a := by simp
        rw [or_iff_right (fun ⟨_, _, _, _, h, _⟩ => (nomatch h)), show guardsE N (simpleDef (.question z a)) = gs N [z] by rw [one]; simp only [simpleDef, guardsE]]
        have ha : 1 ≤ sizeOf a := by cases a; simp
        exact mem_gs N y k [z] (by simp; omega)
    rw [e, List.mem_append, ih, hx]
    unfold HasGuard
    constructor
    · rintro (⟨c, f, r, a, hw, h⟩ | ⟨c, f, r, a, hw, h⟩)
      · exact ⟨c, f, r, a, within_cons.2 (.inl hw), h⟩
      · exact ⟨c, f, r, a, within_cons.2 (.inr hw), h⟩
    · rintro ⟨c, f, r, a, hw, h⟩
      rcases within_cons.1 hw with hw | hw
      · exact .inl ⟨c, f, r, a, hw, h⟩
      · exact .inr ⟨c, f, r, a, hw, h⟩

end GuardCheck
end TameParse

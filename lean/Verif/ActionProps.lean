import Verif.LookaheadProps
import Verif.RewritersProps

/-!
# The closures of states with their lookaheads, and the actions of states
-/

namespace TameParse
namespace Lalr

open AssocMap Closure Relation

section
variable {first : Item → List Item} {g : Gram} {okI : Item → Prop} {okR : Rule → Prop} {clos : LItem → List Item → Set1}

/-! generate_closure -/

theorem addNew1_spec : ∀ (s c : Set1), (∀ e, In (addNew1 s c).1 e ↔ In c e ∨ In s e) ∧
    (∀ e, In (addNew1 s c).1 e → In c e ∨ ∃ p ∈ (addNew1 s c).2, Of p.1 p.2 e) ∧ ∀ p ∈ (addNew1 s c).2, p ∈ s
  | [], c => by
    refine ⟨fun e => ⟨Or.inl, ?_⟩, fun e h => Or.inl h, fun p h => by cases h⟩
    rintro (h | ⟨_, h, -⟩)
    · exact h
    · cases h
  | (i, la) :: s, c => by
    obtain ⟨h1, h2, h3⟩ := addNew1_spec s (insert i la c).1
    have hcons : ∀ e, In ((i, la) :: s) e ↔ Of i la e ∨ In s e := by
      intro e
      constructor
      · rintro ⟨l, ha, hb⟩
        rcases List.mem_cons.1 ha with h | h
        · cases h; exact Or.inl ⟨rfl, hb⟩
        · exact Or.inr ⟨l, h, hb⟩
      · rintro (⟨ha, hb⟩ | ⟨l, ha, hb⟩)
        · exact ⟨la, by rw [ha]; exact List.mem_cons_self .., hb⟩
        · exact ⟨l, List.mem_cons_of_mem _ ha, hb⟩
    refine ⟨fun e => ?_, fun e he => ?_, fun p hp => ?_⟩
    · show In (addNew1 s (insert i la c).1).1 e ↔ _
      rw [h1, in_insert, hcons, or_assoc]
    · show In c e ∨ ∃ p ∈ (if (insert i la c).2 then (i, la) :: (addNew1 s (insert i la c).1).2 else (addNew1 s (insert i la c).1).2), Of p.1 p.2 e
      by_cases hf : (insert i la c).2 = true
      · rw [if_pos hf]
        rcases h2 e he with h | ⟨p, ha, hb⟩
        · rcases (in_insert i la c e).1 h with h | h
          · exact Or.inl h
          · exact Or.inr ⟨_, List.mem_cons_self .., h⟩
        · exact Or.inr ⟨p, List.mem_cons_of_mem _ ha, hb⟩
      · rw [if_neg hf]
        rcases h2 e he with h | h
        · rw [insert_unchanged i la c (by simpa using hf)] at h
          exact Or.inl h
        · exact Or.inr h
    · change p ∈ (if (insert i la c).2 then (i, la) :: (addNew1 s (insert i la c).1).2 else (addNew1 s (insert i la c).1).2) at hp
      split at hp
      · rcases List.mem_cons.1 hp with h | h
        · rw [h]; exact List.mem_cons_self ..
        · exact List.mem_cons_of_mem _ (h3 p h)
      · exact List.mem_cons_of_mem _ (h3 p hp)

/-- The elements of the closure of a set of LR(1) items. -/
def Target (first : Item → List Item) (g : Gram) (st : Set1) (e : Elem) : Prop := ∃ e0, In st e0 ∧ ReflTransGen (Gen first g) e0 e

/-- The state of the loop of `generate_closure`. -/
structure GenInv (first : Item → List Item) (g : Gram) (st c waiting : Set1) : Prop where
  start : ∀ e, In st e → In c e
  sound : ∀ e, In c e → Target first g st e
  waits : ∀ p ∈ waiting, ∀ e, Of p.1 p.2 e → In c e
  closed : ∀ e, In c e → (∃ p ∈ waiting, Of p.1 p.2 e) ∨ ∀ e', Gen first g e e' → In c e'

theorem target_ok (hp : Proper first g okI) {st : Set1} (hst : ∀ p ∈ st, ∀ y ∈ p.1.rule.items, okI y) {e : Elem} (h : Target first g st e) :
    ∀ y ∈ e.1.rule.items, okI y := by
  obtain ⟨e0, ⟨la, h1, -⟩, h2⟩ := h
  induction h2 with
  | refl => exact hst _ h1
  | tail _ hg ih =>
    have key : ∀ {i : LItem} {x : Item} {r : List Item}, (∀ y ∈ i.rule.items, okI y) → i.rule.items[i.dot]? = some x → r ∈ closRules g x → ∀ y ∈ r, okI y :=
      fun hok hx hr => hp.rules _ (hok _ (List.mem_of_getElem? hx)) _ hr
    cases hg with
    | item hx hr => exact key ih hx hr
    | first hx hr hb => exact key ih hx hr
    | pass hx hr hn => exact key ih hx hr

theorem in_of {i : LItem} {la : List Item} {s : Set1} (h : (i, la) ∈ s) {e : Elem} (he : Of i la e) : In s e := by
  obtain ⟨h1, h2⟩ := he
  exact ⟨la, by rw [h1]; exact h, h2⟩

theorem genInv_skip {st c waiting : Set1} {i : LItem} {la : List Item} (h : GenInv first g st c ((i, la) :: waiting)) (hd : i.rule.items.length ≤ i.dot) :
    GenInv first g st c waiting := by
  refine ⟨h.start, h.sound, fun p hp => h.waits p (List.mem_cons_of_mem _ hp), fun e he => ?_⟩
  rcases h.closed e he with ⟨p, hp, ho⟩ | h'
  · rcases List.mem_cons.1 hp with hp | hp
    · subst hp
      right
      intro e' hg
      obtain ⟨e1, e2⟩ := e
      obtain ⟨ho1, -⟩ := ho
      dsimp only at ho1
      subst ho1
      exact (no_gen (Or.inl (List.getElem?_eq_none hd)) hg).elim
    · exact Or.inl ⟨p, hp, ho⟩
  · exact Or.inr h'

theorem genInv_step (hp : Proper first g okI) (hc : ClosOk first g okI clos) {st c waiting : Set1} (hst : ∀ p ∈ st, ∀ y ∈ p.1.rule.items, okI y) {i : LItem}
    {la : List Item} (h : GenInv first g st c ((i, la) :: waiting)) (hd : ¬ i.rule.items.length ≤ i.dot) :
    GenInv first g st (addNew1 (clos i la) c).1 (waiting ++ (addNew1 (clos i la) c).2) ∧ ∀ e, In (clos i la) e → Target first g st e := by
  obtain ⟨h1, h2, h3⟩ := addNew1_spec (clos i la) c
  have hw : ∀ e, Of i la e → In c e := h.waits _ (List.mem_cons_self ..)
  have hok : ∀ y ∈ i.rule.items, okI y := target_ok hp hst (h.sound _ (hw (i, none) ⟨rfl, by simp⟩))
  have hcl := hc i la (by omega) hok
  have hsound : ∀ e, In (clos i la) e → Target first g st e := by
    intro e he
    obtain ⟨e0, hof, ht⟩ := (hcl e).1 he
    obtain ⟨e1, he1, ht1⟩ := h.sound e0 (hw e0 hof)
    exact ⟨e1, he1, ht1.trans ht.to_reflTransGen⟩
  refine ⟨⟨fun e he => (h1 e).2 (Or.inl (h.start e he)), fun e he => ?_, fun p hp e he => ?_, fun e he => ?_⟩, hsound⟩
  · rcases (h1 e).1 he with he | he
    · exact h.sound e he
    · exact hsound e he
  · rcases List.mem_append.1 hp with hp | hp
    · exact (h1 e).2 (Or.inl (h.waits p (List.mem_cons_of_mem _ hp) e he))
    · exact (h1 e).2 (Or.inr (in_of (h3 p hp) he))
  · rcases h2 e he with he | ⟨p, hp, ho⟩
    · rcases h.closed e he with ⟨p, hp, ho⟩ | h'
      · rcases List.mem_cons.1 hp with hp | hp
        · subst hp
          exact Or.inr fun e' hg => (h1 e').2 (Or.inr ((hcl e').2 ⟨e, ho, .single hg⟩))
        · exact Or.inl ⟨p, List.mem_append_left _ hp, ho⟩
      · exact Or.inr fun e' hg => (h1 e').2 (Or.inl (h' e' hg))
    · exact Or.inl ⟨p, List.mem_append_right _ hp, ho⟩

theorem genLoop_spec (hp : Proper first g okI) (hc : ClosOk first g okI clos) {st : Set1} (hst : ∀ p ∈ st, ∀ y ∈ p.1.rule.items, okI y) :
    ∀ (fuel : Nat) (c waiting res : Set1), GenInv first g st c waiting → genLoop clos fuel c waiting = some res → GenInv first g st res [] := by
  intro fuel
  induction fuel with
  | zero =>
    intro c waiting res hi h
    cases waiting with
    | nil => cases h; exact hi
    | cons p waiting => cases h
  | succ fuel ih =>
    intro c waiting res hi h
    cases waiting with
    | nil => cases h; exact hi
    | cons p waiting =>
      obtain ⟨i, la⟩ := p
      unfold genLoop at h
      by_cases hd : i.rule.items.length ≤ i.dot
      · rw [if_pos hd] at h
        exact ih _ _ _ (genInv_skip hi hd) h
      · rw [if_neg hd] at h
        exact ih _ _ _ (genInv_step hp hc hst hi hd).1 h

theorem foldl_insert : ∀ (s c : Set1) (e : Elem), In (s.foldl (fun c p => (insert p.1 p.2 c).1) c) e ↔ In c e ∨ In s e
  | [], c, e => by
    refine ⟨Or.inl, ?_⟩
    rintro (h | ⟨_, h, -⟩)
    · exact h
    · cases h
  | p :: s, c, e => by
    rw [List.foldl_cons, foldl_insert s, in_insert, or_assoc]
    refine or_congr_right ?_
    constructor
    · rintro (h | ⟨l, ha, hb⟩)
      · exact in_of (List.mem_cons_self ..) h
      · exact ⟨l, List.mem_cons_of_mem _ ha, hb⟩
    · rintro ⟨l, ha, hb⟩
      rcases List.mem_cons.1 ha with h | h
      · subst h; exact Or.inl ⟨rfl, hb⟩
      · exact Or.inr ⟨l, h, hb⟩

theorem genInv_start (st : Set1) : GenInv first g st (st.foldl (fun c p => (insert p.1 p.2 c).1) []) st := by
  have h0 : ∀ e, ¬ In [] e := by
    rintro e ⟨_, h, -⟩
    cases h
  refine ⟨fun e he => (foldl_insert _ _ _).2 (Or.inr he), fun e he => ?_, fun p hp e he => (foldl_insert _ _ _).2 (Or.inr (in_of hp he)), fun e he => ?_⟩
  · rcases (foldl_insert _ _ _).1 he with h | h
    · exact absurd h (h0 e)
    · exact ⟨e, h, .refl⟩
  · rcases (foldl_insert _ _ _).1 he with h | ⟨l, ha, hb⟩
    · exact absurd h (h0 e)
    · exact Or.inl ⟨_, ha, rfl, hb⟩

/-- `generate_closure` makes the LR(1) closure of a state with its lookaheads. -/
theorem generateClosure_exact (hp : Proper first g okI) (hc : ClosOk first g okI clos) {st : Set1} (hst : ∀ p ∈ st, ∀ y ∈ p.1.rule.items, okI y) {fuel : Nat}
    {c : Set1} (h : generateClosure clos fuel st = some c) (e : Elem) : In c e ↔ ∃ e0, In st e0 ∧ ReflTransGen (Gen first g) e0 e := by
  have hi := genLoop_spec hp hc hst fuel _ _ _ (genInv_start st) h
  refine ⟨hi.sound e, ?_⟩
  rintro ⟨e0, h1, h2⟩
  induction h2 with
  | refl => exact hi.start _ h1
  | tail _ hg ih =>
    rcases hi.closed _ ih with ⟨p, hp, -⟩ | h'
    · cases hp
    · exact h' _ hg

/-! It ends. -/

theorem addNew1_total {V : Finset Elem} : ∀ (s c : Set1), Keys c → (∀ e, In s e → e ∈ V) →
    Keys (addNew1 s c).1 ∧ (addNew1 s c).2.length + missing V (addNew1 s c).1 ≤ missing V c
  | [], c, hk, _ => ⟨hk, by simp [addNew1]⟩
  | (i, la) :: s, c, hk, hV => by
    obtain ⟨h1, h2⟩ := addNew1_total (V := V) s (insert i la c).1 (insert_keys hk i la) (fun e ⟨l, ha, hb⟩ => hV e ⟨l, List.mem_cons_of_mem _ ha, hb⟩)
    refine ⟨h1, ?_⟩
    show (if (insert i la c).2 then (i, la) :: (addNew1 s (insert i la c).1).2 else (addNew1 s (insert i la c).1).2).length +
      missing V (addNew1 s (insert i la c).1).1 ≤ missing V c
    have hm : ∀ e, In c e → In (insert i la c).1 e := fun e he => (in_insert i la c e).2 (Or.inl he)
    by_cases hf : (insert i la c).2 = true
    · rw [if_pos hf, List.length_cons]
      obtain ⟨e, he, hn⟩ := insert_changed i la c hk hf
      have := missing_lt hm (hV e (in_of (List.mem_cons_self ..) he)) hn ((in_insert i la c e).2 (Or.inr he))
      omega
    · rw [if_neg hf]
      have := missing_mono (V := V) hm
      omega

theorem genLoop_total (hp : Proper first g okI) (hc : ClosOk first g okI clos) {st : Set1} (hst : ∀ p ∈ st, ∀ y ∈ p.1.rule.items, okI y) {V : Finset Elem}
    (hV : ∀ e, Target first g st e → e ∈ V) : ∀ (fuel : Nat) (c waiting : Set1), GenInv first g st c waiting → Keys c →
      waiting.length + missing V c ≤ fuel → ∃ res, genLoop clos fuel c waiting = some res := by
  intro fuel
  induction fuel with
  | zero =>
    intro c waiting hi hk hm
    cases waiting with
    | nil => exact ⟨_, rfl⟩
    | cons => rw [List.length_cons] at hm; omega
  | succ fuel ih =>
    intro c waiting hi hk hm
    cases waiting with
    | nil => exact ⟨_, rfl⟩
    | cons p waiting =>
      obtain ⟨i, la⟩ := p
      rw [List.length_cons] at hm
      unfold genLoop
      by_cases hd : i.rule.items.length ≤ i.dot
      · rw [if_pos hd]
        exact ih _ _ (genInv_skip hi hd) hk (by omega)
      · rw [if_neg hd]
        obtain ⟨h1, h2⟩ := genInv_step hp hc hst hi hd
        obtain ⟨h3, h4⟩ := addNew1_total (V := V) (clos i la) c hk (fun e he => hV e (h2 e he))
        refine ih _ _ h1 h3 ?_
        rw [List.length_append]
        omega

/-- The elements that can occur. -/
def space2 (first : Item → List Item) (R : List Rule) (st : Set1) : Finset Elem :=
  ((R.flatMap fun r => (List.range (r.items.length + 1)).map fun d => (⟨r, d⟩ : LItem)).flatMap fun i =>
    (none :: ((R.flatMap fun r => r.items.flatMap first) ++ st.flatMap Prod.snd).map some).map fun o => (i, o)).toFinset

/-- `generate_closure` ends. -/
theorem generateClosure_terminates (hU : Univ first g okI okR) (hc : ClosOk first g okI clos) {R : List Rule} (hR : ∀ r, okR r → r ∈ R) {st : Set1}
    (hst : ∀ p ∈ st, Good okR p.1) : ∃ fuel c, generateClosure clos fuel st = some c := by
  have hok : ∀ p ∈ st, ∀ y ∈ p.1.rule.items, okI y := fun p hp => hU.items _ (hst p hp).1
  have hgood : ∀ e, Target first g st e → Good okR e.1 ∧ ∀ a, e.2 = some a → a ∈ (R.flatMap fun r => r.items.flatMap first) ++ st.flatMap Prod.snd := by
    rintro e ⟨e0, ⟨la, h1, h2⟩, h3⟩
    induction h3 with
    | refl => exact ⟨hst _ h1, fun a ha => List.mem_append_right _ (List.mem_flatMap.2 ⟨_, h1, h2 a ha⟩)⟩
    | tail _ hg ih =>
      have key : ∀ {i : LItem} {x : Item} {r : List Item}, Good okR i → i.rule.items[i.dot]? = some x → r ∈ closRules g x → Good okR ⟨⟨x, r⟩, 0⟩ :=
        fun hi hx hr => ⟨hU.clos _ (hU.items _ hi.1 _ (List.mem_of_getElem? hx)) _ hr, Nat.zero_le _⟩
      obtain ⟨ih1, ih2⟩ := ih
      cases hg with
      | item hx hr => exact ⟨key ih1 hx hr, by simp⟩
      | first hx hr hb =>
        refine ⟨key ih1 hx hr, fun a ha => List.mem_append_left _ ?_⟩
        cases ha
        obtain ⟨u, x, v, hl, -, hb, -⟩ := hb
        exact List.mem_flatMap.2 ⟨_, hR _ ih1.1, List.mem_flatMap.2 ⟨x, List.mem_of_mem_drop (hl.symm ▸ (by simp : x ∈ u ++ x :: v)), hb⟩⟩
      | pass hx hr hn => exact ⟨key ih1 hx hr, fun a ha => ih2 a ha⟩
  have hV : ∀ e, Target first g st e → e ∈ space2 first R st := by
    intro e he
    obtain ⟨h1, h2⟩ := hgood e he
    obtain ⟨⟨r, d⟩, o⟩ := e
    unfold space2
    rw [List.mem_toFinset, List.mem_flatMap]
    refine ⟨_, List.mem_flatMap.2 ⟨r, hR _ h1.1, List.mem_map.2 ⟨d, List.mem_range.2 (Nat.lt_succ_of_le h1.2), rfl⟩⟩, List.mem_map.2 ⟨o, ?_, rfl⟩⟩
    cases o with
    | none => exact List.mem_cons_self ..
    | some a => exact List.mem_cons_of_mem _ (List.mem_map.2 ⟨a, h2 a rfl, rfl⟩)
  have hk : ∀ (s c : Set1), Keys c → Keys (s.foldl (fun c p => (insert p.1 p.2 c).1) c) := by
    intro s
    induction s with
    | nil => exact fun c h => h
    | cons p s ih => exact fun c h => ih _ (insert_keys h _ _)
  obtain ⟨c, h⟩ := genLoop_total hU.proper hc hok hV _ _ _ (genInv_start st) (hk st [] List.nodup_nil) (Nat.le_refl _)
  exact ⟨_, c, h⟩

end

/-! The transitions of a state have different symbols. -/

def TransKeys (m : Mach) : Prop := ∀ l ∈ m.trans, (l.map Prod.fst).Nodup

theorem addState_keys {m : Mach} (h : TransKeys m) (s : Set1) : TransKeys (addState m s).1 := by
  unfold addState
  cases m.states.findIdx? (fun t => decide (t.map Prod.fst = s.map Prod.fst)) with
  | some k => exact h
  | none =>
    intro l hl
    rcases List.mem_append.1 hl with h' | h'
    · exact h l h'
    · rw [List.mem_singleton.1 h']; exact List.nodup_nil

theorem keys_put_new {κ ν : Type} [DecidableEq κ] {k : κ} {v : ν} : ∀ {l : List (κ × ν)}, get k l = none → (l.map Prod.fst).Nodup → ((put k v l).map Prod.fst).Nodup := by
  intro l hg hn
  have hk : k ∉ l.map Prod.fst := fun hk => by
    obtain ⟨o, ho⟩ := get_of_key hk
    rw [hg] at ho
    cases ho
  have : ∀ {l : List (κ × ν)}, k ∉ l.map Prod.fst → put k v l = l ++ [(k, v)] := by
    intro l
    induction l with
    | nil => intro _; rfl
    | cons p l ih =>
      intro hk
      obtain ⟨k', v'⟩ := p
      simp only [List.map_cons, List.mem_cons, not_or] at hk
      unfold put
      rw [if_neg (fun e => hk.1 e.symm), ih hk.2]
      rfl
  rw [this hk, List.map_append, List.nodup_append]
  refine ⟨hn, by simp, ?_⟩
  rintro a ha b hb rfl
  simp only [List.map_cons, List.map_nil, List.mem_singleton] at hb
  rw [hb] at ha
  exact hk ha

theorem addTransition_keys {m : Mach} (h : TransKeys m) (s : Nat) (x : Item) (t : Nat) : TransKeys (addTransition m s x t) := by
  unfold addTransition
  by_cases ht : t < m.states.length
  · rw [if_pos ht]
    intro l hl
    dsimp only at hl
    obtain ⟨j, hj⟩ := List.mem_iff_getElem?.1 hl
    rw [List.getElem?_modify] at hj
    cases hjt : m.trans[j]? with
    | none => rw [hjt] at hj; cases hj
    | some l' =>
      rw [hjt] at hj
      have hl' := h l' (List.mem_of_getElem? hjt)
      have hj' := Option.some.inj hj
      dsimp only at hj'
      by_cases hs : s = j
      · rw [if_pos hs] at hj'
        rw [← hj']
        cases hg : get x l' with
        | some k => exact hl'
        | none => exact keys_put_new hg hl'
      · rw [if_neg hs] at hj'
        rw [← hj']
        exact hl'
  · rw [if_neg ht]; exact h

theorem addGuard_keys {m : Mach} (h : TransKeys m) (r : Rule) (queue : List Nat) : TransKeys (addGuard r m queue).1 := by
  unfold addGuard
  cases get r m.guards with
  | some k => exact h
  | none => exact addState_keys h _

theorem scanItem_keys {p : Mach × List Nat × List (Item × List LItem)} (h : TransKeys p.1) (i : LItem) : TransKeys (scanItem p i).1 := by
  unfold scanItem
  cases i.rule.items[i.dot]? with
  | none => exact h
  | some x =>
    cases x with
    | guard pr l => exact addGuard_keys h _ _
    | _ => exact h

theorem scan_keys : ∀ (l : List LItem) (p : Mach × List Nat × List (Item × List LItem)), TransKeys p.1 → TransKeys (l.foldl scanItem p).1
  | [], _, h => h
  | i :: l, p, h => scan_keys l _ (scanItem_keys h i)

theorem addTarget_keys {w : Work} (h : TransKeys w.m) (s : Nat) (n : Item × List LItem) : TransKeys (addTarget s w n).m := by
  have h1 := addTransition_keys (addState_keys h (n.2.map fun i => (i, ([] : List Item)))) s n.1 (addState w.m (n.2.map fun i => (i, []))).2
  unfold addTarget
  dsimp only
  by_cases hm : w.max ≤ (addState w.m (n.2.map fun i => (i, []))).2
  · rw [if_pos hm]; exact h1
  · rw [if_neg hm]; exact h1

theorem targets_keys (s : Nat) : ∀ (news : List (Item × List LItem)) (w : Work), TransKeys w.m → TransKeys (news.foldl (addTarget s) w).m
  | [], _, h => h
  | n :: news, _, h => targets_keys s news _ (addTarget_keys h s n)

section
variable {first : Item → List Item} {g : Gram} {okI : Item → Prop} {okR : Rule → Prop} {rid : Rule → Nat} {clos : LItem → List Item → Set1}

theorem buildLoop_keys {cf : Nat} : ∀ (fuel : Nat) (w : Work) (res : Mach), TransKeys w.m → buildLoop rid clos cf fuel w = some res → TransKeys res
  | 0, ⟨m, mx, []⟩, res, h, hr => by cases hr; exact h
  | 0, ⟨m, mx, _ :: _⟩, res, h, hr => by cases hr
  | fuel + 1, ⟨m, mx, []⟩, res, h, hr => by cases hr; exact h
  | fuel + 1, ⟨m, mx, s :: queue⟩, res, h, hr => by
    unfold buildLoop at hr
    cases hp : processState rid clos cf s ⟨m, mx, queue⟩ with
    | none => rw [hp] at hr; cases hr
    | some w' =>
      rw [hp] at hr
      refine buildLoop_keys fuel w' res ?_ hr
      unfold processState at hp
      dsimp only at hp
      cases hs : m.states[s]? with
      | none => rw [hs] at hp; cases hp
      | some st =>
        rw [hs] at hp
        dsimp only at hp
        cases hcl : createClosure rid clos cf st with
        | none => rw [hcl] at hp; cases hp
        | some cl =>
          rw [hcl] at hp
          dsimp only at hp
          cases hp
          exact targets_keys s _ _ (scan_keys cl (m, queue, []) h)

theorem initials_keys : ∀ (languages : List Item) (m : Mach), TransKeys m → TransKeys (languages.foldl (fun m l => (addInitial m l).1) m)
  | [], _, h => h
  | _ :: ls, _, h => initials_keys ls _ (addState_keys h _)

theorem completeStates_keys {cf fuel : Nat} {languages : List Item} {m : Mach} (h : completeStates rid clos cf fuel (initials languages) = some m) : TransKeys m :=
  buildLoop_keys fuel _ m (initials_keys languages _ (fun st hst => by cases hst)) h

theorem get_of_mem_nodup {κ ν : Type} [DecidableEq κ] {k : κ} {v : ν} : ∀ {l : List (κ × ν)}, (l.map Prod.fst).Nodup → (k, v) ∈ l → get k l = some v
  | [], _, h => by cases h
  | (k', v') :: l, hn, h => by
    rw [List.map_cons, List.nodup_cons] at hn
    unfold AssocMap.get
    rcases List.mem_cons.1 h with h | h
    · cases h; exact if_pos rfl
    · rw [if_neg (fun e => hn.1 (by rw [e]; exact List.mem_map.2 ⟨_, h, rfl⟩))]
      exact get_of_mem_nodup hn.2 h

/-! The actions -/

variable {initial : Item → List Item}

/-- The actions for a guard: one for each terminal that can begin it. -/
def GuardAct (initial : Item → List Item) (m : Mach) (x : Item) (b : LrAction) : Prop :=
  ∃ p l k n, x = .guard p l ∧ get ⟨.guard p l, l⟩ m.guards = some k ∧ .terminal n ∈ initial x ∧ b = ⟨.guard, .terminal n, k, ⟨.guard p l, l⟩⟩

theorem mem_foldl_add' {α β : Type} [DecidableEq α] (f : β → α) : ∀ (m : List β) (l : List α) (b : α),
    b ∈ m.foldl (fun l x => Rewriters.add l (f x)) l ↔ b ∈ l ∨ ∃ x ∈ m, b = f x
  | [], l, b => by simp
  | x :: m, l, b => by
    rw [List.foldl_cons, mem_foldl_add' f m, Rewriters.mem_add]
    simp only [List.mem_cons, exists_eq_or_imp, or_assoc]

theorem mem_addGuardActions {m : Mach} {x : Item} {acts : List LrAction} {b : LrAction} :
    b ∈ addGuardActions initial m x acts ↔ b ∈ acts ∨ GuardAct initial m x b := by
  unfold addGuardActions GuardAct
  cases x with
  | guard p l =>
    dsimp only
    cases hk : get (⟨.guard p l, l⟩ : Rule) m.guards with
    | none =>
      refine ⟨Or.inl, ?_⟩
      rintro (h | ⟨p', l', k, n, h1, h2, -⟩)
      · exact h
      · cases h1
        rw [hk] at h2
        cases h2
    | some k =>
      dsimp only
      rw [mem_foldl_add' (fun a => (⟨.guard, a, k, ⟨.guard p l, l⟩⟩ : LrAction))]
      refine or_congr_right ⟨?_, ?_⟩
      · rintro ⟨a, ha, rfl⟩
        obtain ⟨h1, h2⟩ := List.mem_filter.1 ha
        cases a with
        | terminal n => exact ⟨p, l, k, n, rfl, hk, h1, rfl⟩
        | _ => cases h2
      · rintro ⟨p', l', k', n, h1, h2, h3, rfl⟩
        cases h1
        rw [hk] at h2
        cases h2
        exact ⟨.terminal n, List.mem_filter.2 ⟨h3, rfl⟩, rfl⟩
  | _ => simp

theorem mem_reduceActions {m : Mach} {acts : List LrAction} {c : LItem × List Item} {b : LrAction} : b ∈ reduceActions initial m acts c ↔ b ∈ acts ∨
    (c.1.rule.items.length ≤ c.1.dot ∧ ∃ a ∈ c.2, reduceSymbol a = true ∧ (GuardAct initial m a b ∨ b = ⟨reduceType c.1.rule.nonterminal, a, -1, c.1.rule⟩)) := by
  unfold reduceActions
  have key : ∀ (l : List Item) (acts : List LrAction),
      b ∈ l.foldl (fun acts a => Rewriters.add (addGuardActions initial m a acts) ⟨reduceType c.1.rule.nonterminal, a, -1, c.1.rule⟩) acts ↔
        b ∈ acts ∨ ∃ a ∈ l, GuardAct initial m a b ∨ b = ⟨reduceType c.1.rule.nonterminal, a, -1, c.1.rule⟩ := by
    intro l
    induction l with
    | nil => simp
    | cons a l ih =>
      intro acts
      rw [List.foldl_cons, ih, Rewriters.mem_add, mem_addGuardActions]
      simp only [List.mem_cons, exists_eq_or_imp, or_assoc]
  by_cases hd : c.1.rule.items.length ≤ c.1.dot
  · rw [if_pos hd, key]
    simp only [List.mem_filter, hd, true_and, and_assoc]
  · rw [if_neg hd]
    simp [hd]

theorem mem_actionsFor {m : Mach} {transits : List (Item × Nat)} {closure : Set1} {b : LrAction} : b ∈ actionsFor initial m transits closure ↔
    (∃ p ∈ transits, GuardAct initial m p.1 b ∨ b = ⟨shiftType p.1, p.1, p.2, Rewriters.emptyRule⟩) ∨
    ∃ c ∈ closure, c.1.rule.items.length ≤ c.1.dot ∧ ∃ a ∈ c.2, reduceSymbol a = true ∧
      (GuardAct initial m a b ∨ b = ⟨reduceType c.1.rule.nonterminal, a, -1, c.1.rule⟩) := by
  unfold actionsFor
  have key : ∀ (l : Set1) (acts : List LrAction), b ∈ l.foldl (reduceActions initial m) acts ↔ b ∈ acts ∨
      ∃ c ∈ l, c.1.rule.items.length ≤ c.1.dot ∧ ∃ a ∈ c.2, reduceSymbol a = true ∧
        (GuardAct initial m a b ∨ b = ⟨reduceType c.1.rule.nonterminal, a, -1, c.1.rule⟩) := by
    intro l
    induction l with
    | nil => simp
    | cons c l ih =>
      intro acts
      rw [List.foldl_cons, ih, mem_reduceActions]
      simp only [List.mem_cons, exists_eq_or_imp, or_assoc]
  have key2 : ∀ (l : List (Item × Nat)) (acts : List LrAction), b ∈ l.foldl (fun acts p => addGuardActions initial m p.1 acts) acts ↔ b ∈ acts ∨
      ∃ p ∈ l, GuardAct initial m p.1 b := by
    intro l
    induction l with
    | nil => simp
    | cons c l ih =>
      intro acts
      rw [List.foldl_cons, ih, mem_addGuardActions]
      simp only [List.mem_cons, exists_eq_or_imp, or_assoc]
  rw [key, mem_foldl_add' (fun p : Item × Nat => (⟨shiftType p.1, p.1, p.2, Rewriters.emptyRule⟩ : LrAction)), key2]
  refine or_congr_left ?_
  constructor
  · rintro ((h | ⟨p, h1, h2⟩) | ⟨p, h1, h2⟩)
    · cases h
    · exact ⟨p, h1, Or.inl h2⟩
    · exact ⟨p, h1, Or.inr h2⟩
  · rintro ⟨p, h1, h2 | h2⟩
    · exact Or.inl (Or.inr ⟨p, h1, h2⟩)
    · exact Or.inr ⟨p, h1, h2⟩

/-- The LR(1) items of the closures of the states. -/
def Lr1c (first : Item → List Item) (g : Gram) (m : Mach) (n0 s : Nat) (e : Elem) : Prop :=
  ∃ e0, Lr1 first g m n0 s e0 ∧ ReflTransGen (Gen first g) e0 e

/-- The actions that the LALR automaton has in a state. -/
inductive Act (first : Item → List Item) (g : Gram) (initial : Item → List Item) (m : Mach) (n0 s : Nat) : LrAction → Prop
  | shift {x : Item} {t : Nat} (h : tr m s x = some t) : Act first g initial m n0 s ⟨shiftType x, x, t, Rewriters.emptyRule⟩
  | before {x : Item} {t : Nat} {b : LrAction} (h : tr m s x = some t) (hg : GuardAct initial m x b) : Act first g initial m n0 s b
  | reduce {r : Rule} {a : Item} (h : Lr1c first g m n0 s (⟨r, r.items.length⟩, some a)) (ha : reduceSymbol a = true) :
      Act first g initial m n0 s ⟨reduceType r.nonterminal, a, -1, r⟩
  | after {r : Rule} {a : Item} {b : LrAction} (h : Lr1c first g m n0 s (⟨r, r.items.length⟩, some a)) (hg : GuardAct initial m a b) : Act first g initial m n0 s b

theorem in_state {m : Mach} {s : Nat} (hn : (kern m s).Nodup) {i : LItem} {o : Option Item} :
    In (m.states.getD s []) (i, o) ↔ i ∈ kern m s ∧ ∀ a, o = some a → a ∈ laOf m (s, i) := by
  constructor
  · rintro ⟨la, h1, h2⟩
    refine ⟨List.mem_map.2 ⟨_, h1, rfl⟩, fun a ha => ?_⟩
    unfold laOf
    rw [show get (s, i).2 (m.states.getD (s, i).1 []) = some la from get_of_mem_nodup hn h1]
    exact h2 a ha
  · rintro ⟨h1, h2⟩
    obtain ⟨o', ho⟩ := get_of_key h1
    refine ⟨o', mem_of_get ho, fun a ha => ?_⟩
    have := h2 a ha
    unfold laOf at this
    rw [show get (s, i).2 (m.states.getD (s, i).1 []) = some o' from ho] at this
    exact this

theorem lr1_none {m : Mach} {n0 s : Nat} {i : LItem} {o : Option Item} (h : Lr1 first g m n0 s (i, o)) : Lr1 first g m n0 s (i, none) := by
  have hpath : ∀ {e e' : Elem}, ReflTransGen (Gen first g) e e' → ReflTransGen (Gen first g) (e.1, none) (e'.1, none) := by
    intro e e' h
    induction h with
    | refl => exact .refl
    | tail _ hg ih => exact ih.tail (gen_none hg)
  have : ∀ {s : Nat} {e : Elem}, Lr1 first g m n0 s e → Lr1 first g m n0 s (e.1, none) := by
    intro s e h
    induction h with
    | start hk hl ho => exact .start hk hl (by simp)
    | guard hk ho => exact .guard hk (by simp)
    | goto hs hc hx ht ih => exact .goto ih (hpath hc) hx ht
  exact this h

/-- `actions_for_state`: the actions of a state are those of the LALR automaton. -/
theorem actions_exact {lt : Key → Key → Bool} {self : LItem → Set1} (hr : Function.Injective rid) (hU : Univ first g okI okR) (hc : ClosOk first g okI clos)
    (hself : SelfOk first g okI self) {languages : List Item} (hl : ∀ l ∈ languages, okR ⟨.empty, [l]⟩) {cf fuel fuel' fuel'' : Nat} {m m' : Mach}
    (h : completeStates rid clos cf fuel (initials languages) = some m) (h' : completeLookaheads lt self fuel' m = some m') {s : Nat} (hs : s < m.states.length)
    {acts : List LrAction} (ha : actionsForState clos initial fuel'' m' s = some acts) (b : LrAction) :
    b ∈ acts ↔ Act first g initial m (initials languages).states.length s b := by
  obtain ⟨hi, hreach, h0⟩ := completeStates_inv hr hU hc hl h
  obtain ⟨hsame, hk, hla⟩ := lookaheads_exact (lt := lt) hr hU hc hself hl h h'
  have hkeys := completeStates_keys h
  unfold actionsForState at ha
  cases hcl : generateClosure clos fuel'' (m'.states.getD s []) with
  | none => rw [hcl] at ha; cases ha
  | some c =>
    rw [hcl] at ha
    cases ha
    have hgood : ∀ i ∈ kern m' s, Good okR i := by rw [hsame.kern]; exact hi.good s hs
    have hcex := generateClosure_exact hU.proper hc (fun p hp => hU.items _ (hgood p.1 (List.mem_map.2 ⟨p, hp, rfl⟩)).1) hcl
    have hst : ∀ e, In (m'.states.getD s []) e ↔ Lr1 first g m (initials languages).states.length s e := by
      rintro ⟨i, o⟩
      rw [in_state (by rw [hsame.kern]; exact sorted_nodup (hi.sorted s hs)), hsame.kern, hk s i hs]
      cases o with
      | none => simp
      | some a =>
        constructor
        · rintro ⟨-, h2⟩
          exact (hla s i a).1 (h2 a rfl)
        · intro h2
          refine ⟨lr1_none h2, fun b hb => ?_⟩
          cases hb
          exact (hla s i _).2 h2
    have hin : ∀ e, In c e ↔ Lr1c first g m (initials languages).states.length s e := by
      intro e
      rw [hcex e]
      unfold Lr1c
      simp only [hst]
    have hdot : ∀ e, In c e → e.1.rule.items.length ≤ e.1.dot → e.1 = ⟨e.1.rule, e.1.rule.items.length⟩ := by
      intro e he hd
      have hgd : Good okR e.1 := by
        obtain ⟨e0, h1, h2⟩ := (hin e).1 he
        have h3 : e0.1 ∈ kern m s := (hk s e0.1 hs).2 (lr1_none h1)
        have h4 := hi.good s hs _ h3
        clear h1 h3 he hd
        induction h2 with
        | refl => exact h4
        | tail _ hg ih =>
          cases hg with
          | item hx hr => exact ⟨hU.clos _ (hU.items _ ih.1 _ (List.mem_of_getElem? hx)) _ hr, Nat.zero_le _⟩
          | first hx hr hb => exact ⟨hU.clos _ (hU.items _ ih.1 _ (List.mem_of_getElem? hx)) _ hr, Nat.zero_le _⟩
          | pass hx hr hn => exact ⟨hU.clos _ (hU.items _ ih.1 _ (List.mem_of_getElem? hx)) _ hr, Nat.zero_le _⟩
      obtain ⟨⟨r, d⟩, o⟩ := e
      have := hgd.2
      dsimp only at this hd ⊢
      rw [show d = r.items.length by omega]
    have htr : ∀ x t, (x, t) ∈ m'.trans.getD s [] ↔ tr m s x = some t := by
      intro x t
      unfold tr
      rw [hsame.trans]
      refine ⟨fun hm => get_of_mem_nodup ?_ hm, mem_of_get⟩
      rw [List.getD_eq_getElem?_getD] at hm ⊢
      cases hst : m.trans[s]? with
      | none => rw [hst] at hm; cases hm
      | some l => exact hkeys l (List.mem_of_getElem? hst)
    have hga : ∀ x b, GuardAct initial m' x b ↔ GuardAct initial m x b := by
      intro x b
      unfold GuardAct
      rw [hsame.guards]
    rw [mem_actionsFor]
    constructor
    · rintro (⟨⟨x, t⟩, h1, h2 | h2⟩ | ⟨⟨i, la⟩, h1, h2, a, h3, h4, h5⟩)
      · exact .before ((htr x t).1 h1) ((hga _ _).1 h2)
      · rw [h2]; exact .shift ((htr x t).1 h1)
      · have he : In c (i, some a) := in_of h1 ⟨rfl, fun b hb => by cases hb; exact h3⟩
        have hlr := (hin _).1 he
        rw [show ((i, some a) : Elem) = (⟨i.rule, i.rule.items.length⟩, some a) from Prod.ext (hdot _ he h2) rfl] at hlr
        rcases h5 with h5 | h5
        · exact .after hlr ((hga _ _).1 h5)
        · rw [h5]; exact .reduce hlr h4
    · intro hact
      cases hact with
      | @shift x t h => exact Or.inl ⟨(x, t), (htr x t).2 h, Or.inr rfl⟩
      | @before x t _ h hg => exact Or.inl ⟨(x, t), (htr x t).2 h, Or.inl ((hga _ _).2 hg)⟩
      | @reduce r a h ha =>
        obtain ⟨la, h1, h2⟩ := (hin _).2 h
        exact Or.inr ⟨(⟨r, r.items.length⟩, la), h1, Nat.le_refl _, a, h2 a rfl, ha, Or.inr rfl⟩
      | @after r a _ h hg =>
        obtain ⟨la, h1, h2⟩ := (hin _).2 h
        refine Or.inr ⟨(⟨r, r.items.length⟩, la), h1, Nat.le_refl _, a, h2 a rfl, ?_, Or.inl ((hga _ _).2 hg)⟩
        obtain ⟨p, l, k, n, rfl, -⟩ := hg
        rfl

/-- The actions for complete items and for transitions, without the names of the model: a complete item is reduced for each of its lookaheads that is a terminal, a guard, the
end of the input or the end of a guard, and accepted if it is that of a language or a guard; terminals and guards are shifted, all other items are gotos. -/
theorem actions_shape {m : Mach} {n0 s : Nat} {acts : List LrAction} (ha : ∀ b, b ∈ acts ↔ Act first g initial m n0 s b) :
    (∀ r a, Lr1c first g m n0 s (⟨r, r.items.length⟩, some a) → ((∃ n, a = .terminal n) ∨ (∃ p l, a = .guard p l) ∨ a = .eoi ∨ a = .eog) →
      ((r.nonterminal = .empty ∨ ∃ p l, r.nonterminal = .guard p l) → ⟨.accept, a, -1, r⟩ ∈ acts) ∧
      (r.nonterminal ≠ .empty → (∀ p l, r.nonterminal ≠ .guard p l) → ⟨.reduce, a, -1, r⟩ ∈ acts)) ∧
    (∀ x t, tr m s x = some t → (((∃ n, x = .terminal n) ∨ ∃ p l, x = .guard p l) → ⟨.shift, x, t, Rewriters.emptyRule⟩ ∈ acts) ∧
      ((∀ n, x ≠ .terminal n) → (∀ p l, x ≠ .guard p l) → ⟨.goto, x, t, Rewriters.emptyRule⟩ ∈ acts)) := by
  constructor
  · intro r a h hs
    have hs' : reduceSymbol a = true := by rcases hs with ⟨n, rfl⟩ | ⟨p, l, rfl⟩ | rfl | rfl <;> rfl
    have hm := (ha _).2 (Act.reduce h hs')
    constructor
    · rintro (he | ⟨p, l, he⟩) <;> simpa [reduceType, he] using hm
    · intro h1 h2
      have ht : reduceType r.nonterminal = .reduce := by
        cases hn : r.nonterminal with
        | empty => exact absurd hn h1
        | guard p l => exact absurd hn (h2 p l)
        | _ => rfl
      rwa [ht] at hm
  · intro x t h
    have hm := (ha _).2 (Act.shift h)
    constructor
    · rintro (⟨n, rfl⟩ | ⟨p, l, rfl⟩) <;> exact hm
    · intro h1 h2
      have ht : shiftType x = .goto := by
        cases x with
        | terminal n => exact absurd rfl (h1 n)
        | guard p l => exact absurd rfl (h2 p l)
        | _ => rfl
      rwa [ht] at hm

end
/-! Examples -/

/-- In the state after `L` the parser of `pointerGram` shifts `=`, and reduces `R → L` at the end of the input only. -/
example : (((completeStates pointerRid pointerClos 40 40 (initials [.nonterminal 1])).bind (completeLookaheads keyLt pointerSelf 100)).bind fun m =>
    actionsForState pointerClos (fun _ => []) 40 m 4) = some [⟨.shift, .terminal 1, 8, Rewriters.emptyRule⟩,
      ⟨.reduce, .eoi, -1, ⟨.nonterminal 3, [.nonterminal 2]⟩⟩] := by
  decide +kernel

/-- At the start it has the transitions of `S`, `L`, `R`, `*` and `id`, and nothing to reduce. -/
example : (((completeStates pointerRid pointerClos 40 40 (initials [.nonterminal 1])).bind (completeLookaheads keyLt pointerSelf 100)).bind fun m =>
    (actionsForState pointerClos (fun _ => []) 40 m 0).map (·.map fun a => (a.type, a.item, a.next))) = some [(.shift, .terminal 2, 1), (.shift, .terminal 3, 2),
      (.goto, .nonterminal 1, 3), (.goto, .nonterminal 2, 4), (.goto, .nonterminal 3, 5)] := by
  decide +kernel

end Lalr
end TameParse

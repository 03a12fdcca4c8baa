import Verif.CompleteGrammarProps
import Mathlib.Data.List.TakeWhile

/-!
# C84: errors are found at the first wrong token
-/

namespace TameParse
namespace Sound

open AssocMap Closure Relation Lalr TameParse.Parser ParserTables

/-- Every symbol has a sentence. -/
def Productive (g : Gram) (okI : Item → Prop) : Prop := ∀ x, okI x → ∃ v : List Int, g.Derives [x] (v.map .terminal)

/-- Every symbol has a tree. -/
def Treed (g : Gram) (num : Numbering) (okI : Item → Prop) : Prop := ∀ x, okI x → ∃ ts w, Forest g num [x] ts w

/-- A step of the parser that does not end it. -/
def More (t : Tables) (a b : PState) : Prop := ∃ fuel, process t fuel a = .ok (.more, b)

section
variable {first : Item → List Item} {g : Gram} {okI : Item → Prop} {num : Numbering} {m : Mach} {n0 : Nat} {t : Tables} {k0 : Nat} {start : Item}
  {occ : Item → Prop} {ig : Int → Prop} {strong : Int → Int → Prop}

theorem drop_next {α : Type} {l : List α} {n : Nat} {x : α} (h : l[n]? = some x) : l.drop n = x :: l.drop (n + 1) := by
  obtain ⟨h1, h2⟩ := List.getElem?_eq_some_iff.1 h
  rw [List.drop_eq_getElem_cons h1, h2]

theorem Productive.treed (hr : Productive g okI) (hg : Plain g okI) (num : Numbering) : Treed g num okI := by
  intro x hx
  obtain ⟨v, hv⟩ := hr x hx
  obtain ⟨us, hu⟩ := forest_of_derives (num := num) hg hv (by simpa using hx) (w := v.map fun n => ⟨n, 0⟩) (by simp)
  exact ⟨us, _, hu⟩

/-- Every sequence of symbols has a tree. -/
theorem Treed.forest (hr : Treed g num okI) : ∀ (xs : List Item), (∀ x ∈ xs, okI x) → ∃ ts w, Forest g num xs ts w
  | [], _ => ⟨[], [], .nil⟩
  | x :: xs, h => by
    obtain ⟨us, v, hu⟩ := hr x (h x (List.mem_cons_self ..))
    obtain ⟨ts, w, hf⟩ := hr.forest xs (fun y hy => h y (List.mem_cons_of_mem _ hy))
    exact ⟨us ++ ts, v ++ w, hu.append hf⟩

theorem forest_single {x : Item} {ts : List Tree} {w : List Tok} (h : Forest g num [x] ts w) : ∃ τ, ts = [τ] := by
  cases h with
  | token h => cases h; exact ⟨_, rfl⟩
  | guard h => cases h; exact ⟨_, rfl⟩
  | node _ _ h => cases h; exact ⟨_, rfl⟩

/-! What has been read is the beginning of a sentence -/

/-- Trees for what is left of an item of the top state complete the tokens of the stack to a sentence. -/
theorem stack_viable (ha : Auto g m k0 start) (ht : Treed g num okI) (hok : ∀ s < m.states.length, ∀ i, Clos0 g (kern m s) i → ∀ y ∈ i.rule.items, okI y) :
    ∀ (n : Nat) {s : Nat} {τ : Tree} {st : List (Nat × Tree)} {w : List Tok}, st.length = n → VStack g num m k0 ((s, τ) :: st) w →
    ∀ {i : LItem}, Clos0 g (kern m s) i → ∀ {ts : List Tree} {u : List Tok}, Forest g num (i.rule.items.drop i.dot) ts u →
    ∃ v σ, Forest g num [start] σ (w ++ u ++ v) := by
  intro n
  induction n using Nat.strong_induction_on with
  | _ n ih =>
    intro s τ st w hn hv i hi
    obtain ⟨k, hk, hp⟩ := hi
    induction hp with
    | refl =>
      intro ts u h1
      cases hv with
      | base =>
        rw [ha.init] at hk
        cases List.mem_singleton.1 hk
        exact ⟨[], ts, by simpa [startItem] using h1⟩
      | @push b _ τb _ x l w1 w2 hv ht hf =>
        obtain ⟨j, hj, hx, rfl⟩ := ha.goto _ _ _ ht k hk
        have h3 := Forest.append hf h1
        rw [List.singleton_append, ← drop_next hx] at h3
        obtain ⟨v, σ, g1⟩ := ih l.length (by rw [← hn]; simp) rfl hv hj h3
        exact ⟨v, σ, by simpa using g1⟩
    | @tail j i hp hs ih2 =>
      intro ts u h1
      obtain ⟨x, r, hx, hr, rfl⟩ := hs
      obtain ⟨us, w2, f2⟩ := ht.forest (j.rule.items.drop (j.dot + 1)) (fun y hy => hok s (vstack_range ha hv) j ⟨k, hk, hp⟩ y (List.mem_of_mem_drop hy))
      have h3 := Forest.node hr (by simpa using h1) f2
      rw [← drop_next hx] at h3
      obtain ⟨v, σ, g1⟩ := ih2 h3
      exact ⟨w2 ++ v, σ, by simpa using g1⟩

/-- Every state has an item. -/
theorem vstack_kernel (ha : Auto g m k0 start) (hne : ∀ s x s', tr m s x = some s' → ∃ i, i ∈ kern m s') {s : Nat} {τ : Tree} {st : List (Nat × Tree)} {w : List Tok}
    (h : VStack g num m k0 ((s, τ) :: st) w) : ∃ i, i ∈ kern m s := by
  cases h with
  | base => exact ⟨startItem start, by rw [ha.init]; exact List.mem_cons_self ..⟩
  | push _ ht _ => exact hne _ _ _ ht

theorem more_inv (ha : Auto g m k0 start) (ht : Tab g num m occ ig strong t) {input : List Tok} {a b : PState} (h : ReflTransGen (More t) a b)
    (hi : Inv g num m k0 ig strong input a) : Inv g num m k0 ig strong input b := by
  induction h with
  | refl => exact hi
  | tail _ hs ih =>
    obtain ⟨fuel, hs⟩ := hs
    exact process_inv ha ht ih hs

/-! Where the parser stops -/

theorem processActions_reject {fuel : Nat} {la : Option Tok} {sym : Int} {term : Bool} {s s' : PState} : ∀ {l : List TableAction},
    processActions t fuel la sym term s l = .ok (.reject, s') → s' = s
  | [], h => by cases h; rfl
  | a :: l, h => by
    unfold processActions at h
    split at h
    · obtain ⟨b, -, h⟩ := bind_ok h
      split at h
      · obtain ⟨b, -, h⟩ := bind_ok h
        cases h
      · exact processActions_reject h
    · split at h
      · obtain ⟨b, -, h⟩ := bind_ok h
        split at h
        · exact processActions_reject h
        · obtain ⟨b, -, h⟩ := bind_ok h
          cases b with
          | some => cases h
          | none => exact processActions_reject h
      · split at h
        · cases h
        · obtain ⟨b, -, h⟩ := bind_ok h
          split at h
          · obtain ⟨b, -, h⟩ := bind_ok h
            cases h
          · cases h

/-- A parser that rejects its input has gone to the state it is in, and does so there. -/
theorem parse_reject {s' : PState} : ∀ {fuel : Nat} {s : PState}, parse t fuel s = .ok (false, s') →
    ReflTransGen (More t) s s' ∧ ∃ f, process t f s' = .ok (.reject, s')
  | 0, s, h => by cases h
  | fuel + 1, s, h => by
    unfold parse at h
    obtain ⟨⟨r1, r2⟩, hr, h⟩ := bind_ok h
    cases r1 with
    | more =>
      obtain ⟨h1, h2⟩ := parse_reject h
      exact ⟨.head ⟨fuel, hr⟩ h1, h2⟩
    | accept => cases h
    | reject =>
      injection h with h
      injection h with _ h
      subst h
      have : r2 = s := by
        have hr' := hr
        unfold process at hr'
        obtain ⟨st, -, hr'⟩ := bind_ok hr'
        split at hr'
        · obtain ⟨l, -, hr'⟩ := bind_ok hr'
          exact processActions_reject hr'
        · obtain ⟨l, -, hr'⟩ := bind_ok hr'
          exact processActions_reject hr'
      subst this
      exact ⟨.refl, fuel, hr⟩

/-- The parser goes forward. -/
theorem more_input {a b : PState} (h : ReflTransGen (More t) a b) : b.input.length ≤ a.input.length := by
  induction h with
  | refl => exact Nat.le_refl _
  | @tail b c _ hs ih =>
    obtain ⟨fuel, hs⟩ := hs
    have := process_same t (Nat.le_refl fuel) (i := b.input) (j := b.input) (a := b) (b := b) ⟨rfl, rfl, rfl⟩ rfl (fun _ _ => Le.refl _)
    rw [hs] at this
    rcases this with h | ⟨_, h, -⟩ | ⟨r, r', h1, h2, -, h3⟩
    · cases h
    · cases h
    · cases h1
      rcases h3 with ⟨-, h3, -⟩ | ⟨-, h3, -⟩
      · rw [h3]; exact ih
      · rw [h3, List.length_tail]; omega

theorem parse_more {a b : PState} (h : ReflTransGen (Goes t) a b) {fuel : Nat} {r : Bool × PState} (h' : parse t fuel a = .ok r) : ∃ f, parse t f b = .ok r := by
  induction h generalizing fuel with
  | refl => exact ⟨fuel, h'⟩
  | @tail b c _ hs ih =>
    obtain ⟨f, hf⟩ := ih h'
    cases f with
    | zero => cases hf
    | succ f =>
      unfold parse at hf
      rw [hs f] at hf
      exact ⟨f, hf⟩

/-! The parser follows a sentence as long as the input agrees with it -/

/-- A step that depends on the next symbol only. -/
def Local (t : Tables) (a b : PState) : Prop :=
  (b.input = a.input ∧ ∀ I, lookahead I = lookahead a.input → Goes t ⟨a.stack, I⟩ ⟨b.stack, I⟩) ∨
  (∃ k, a.input = k :: b.input ∧ ∀ I, Goes t ⟨a.stack, k :: I⟩ ⟨b.stack, I⟩)

theorem Det.local (hd : Det first g okI num m n0 t) : Walk first g okI num m n0 (Local t) := by
  refine ⟨hd.ok, hd.step, ?_, ?_⟩
  · intro s s' τ st k rest h
    exact Or.inr ⟨k, rfl, fun I => goes_shift hd h⟩
  · intro s s' τ st q top τ' l r rest h1 h2 h3 h4 h5
    refine Or.inl ⟨rfl, fun I hI => ?_⟩
    dsimp only at hI
    exact goes_reduce hd (by rw [hI]; exact h1) h2 h3 h4 h5

theorem goes_skip {igb : Int → Bool} (hig : Ignores t igb) {stk : List (Nat × Tree)} {J : List Tok} {X : PState} (h : Goes t ⟨stk, J⟩ X) {k : Tok} (hk : igb k.sym = true)
    (I : List Tok) : Goes t ⟨stk, k :: I⟩ ⟨stk, I⟩ := by
  intro fuel
  cases stk with
  | nil => have := (process_ub t 0 ⟨[], J⟩ (by simp)).symm.trans (h 0); cases this
  | cons e stk =>
    rcases hig.only e.1 with h1 | h1
    · have := (process_ub t 0 ⟨e :: stk, J⟩ (by simpa using h1)).symm.trans (h 0)
      cases this
    · obtain ⟨n, hn⟩ := h1 k.sym hk
      exact process_ignore t fuel k I e stk n hn

theorem goes_skips {igb : Int → Bool} (hig : Ignores t igb) {stk : List (Nat × Tree)} {J : List Tok} {X : PState} (h : Goes t ⟨stk, J⟩ X) (I : List Tok) :
    ∀ (K : List Tok), (∀ k ∈ K, igb k.sym = true) → ReflTransGen (Goes t) ⟨stk, K ++ I⟩ ⟨stk, I⟩
  | [], _ => .refl
  | k :: K, hK => .head (goes_skip hig h (hK k (List.mem_cons_self ..)) (K ++ I)) (goes_skips hig h I K fun k hk => hK k (List.mem_cons_of_mem _ hk))

theorem local_follow {igb : Int → Bool} (hig : Ignores t igb) {A B : PState} (h : ReflTransGen (Local t) A B) : ∀ {u : List Tok} {a : Tok} {v : List Tok},
    A.input = u ++ a :: v → B.input.length ≤ v.length → igb a.sym = false → ∀ (I z : List Tok), keep igb I = u →
    ∃ stk, ReflTransGen (Goes t) ⟨A.stack, I ++ a :: z⟩ ⟨stk, z⟩ := by
  induction h using ReflTransGen.head_induction_on with
  | refl =>
    intro u a v h1 h2
    rw [h1] at h2
    simp at h2
    omega
  | @head A C hs _ ih =>
    intro u a v h1 h2 ha I z hI
    -- the tokens that are ignored come first
    have hsplit : I = I.takeWhile (fun k => igb k.sym) ++ I.dropWhile (fun k => igb k.sym) := (List.takeWhile_append_dropWhile).symm
    have hskip : ∀ k ∈ I.takeWhile (fun k => igb k.sym), igb k.sym = true := fun k hk => List.mem_takeWhile_imp (p := fun k : Tok => igb k.sym) hk
    have hhead : ∀ k l, I.dropWhile (fun k => igb k.sym) = k :: l → igb k.sym = false := fun k l hk => by
      have := List.head?_dropWhile_not (fun k : Tok => igb k.sym) I
      rw [hk] at this
      simpa using this
    generalize I.takeWhile (fun k => igb k.sym) = K at hsplit hskip
    generalize I.dropWhile (fun k => igb k.sym) = I1 at hsplit hhead
    subst hsplit
    have hI1 : keep igb I1 = u := by
      rw [← hI]
      unfold keep
      rw [List.filter_append, (List.filter_eq_nil_iff (l := K)).2 (by simpa using hskip), List.nil_append]
    have hgo : ∀ {J : List Tok} {X : PState}, Goes t ⟨A.stack, J⟩ X → ReflTransGen (Goes t) ⟨A.stack, K ++ I1 ++ a :: z⟩ ⟨A.stack, I1 ++ a :: z⟩ := by
      intro J X hX
      rw [List.append_assoc]
      exact goes_skips hig hX _ K hskip
    rcases hs with ⟨e1, e2⟩ | ⟨k, e1, e2⟩
    · have hla : lookahead (I1 ++ a :: z) = lookahead A.input := by
        rw [h1]
        cases I1 with
        | nil => rw [← hI1]; rfl
        | cons k l => rw [← hI1, keep_cons _ _ _ (hhead k l rfl)]; rfl
      have hg := e2 _ hla
      obtain ⟨stk, h3⟩ := ih (e1.trans h1) h2 ha I1 z hI1
      exact ⟨stk, (hgo hg).trans (.head hg h3)⟩
    · rw [h1] at e1
      have hg := e2
      cases I1 with
      | nil =>
        have : u = [] := by rw [← hI1]; rfl
        subst this
        injection e1 with e3 e4
        subst e3
        exact ⟨C.stack, (hgo (e2 z)).trans (.single (e2 z))⟩
      | cons k' l =>
        rw [keep_cons _ _ _ (hhead k' l rfl)] at hI1
        subst hI1
        injection e1 with e3 e4
        subst e3
        obtain ⟨stk, h3⟩ := ih e4.symm h2 ha l z rfl
        exact ⟨stk, (hgo (e2 z)).trans (.head (e2 (l ++ a :: z)) h3)⟩

end

section
variable {first initial : Item → List Item} {g : Gram} {okI : Item → Prop} {okR : Rule → Prop} {rid : Rule → Nat} {clos : LItem → List Item → Set1}
  {own : LItem → Set1} {lt : Key → Key → Bool} {languages : List Item} {m m' : Mach} {st : Stage} {states : List (List LrAction)} {num : Numbering}
  {sort : List TableAction → List TableAction} {sortWeak : List (Int × Int) → List (Int × Int)} {occ : Item → Prop}

/-- The tables. -/
local notation "T" => build num sort sortWeak states (some st.weak.strongToWeak)
set_option quotPrecheck false in
local notation "n0" => (Lalr.initials languages).states.length

/-- C84, for every language, with precedences, weak symbols and guards: whenever the parser has read some tokens, those of them that are not ignored, with weak symbols as the strong
symbols they were read as, are the beginning of a sentence (one that does without the conditions of guards). -/
theorem read_viable (h : Made first initial g okI okR rid clos own lt languages m m' st states num sort sortWeak occ) (ht : Treed g num okI) {k0 : Nat} {start : Item}
    (hk : k0 < n0) (hS : kern m k0 = [startItem start]) {input : List Tok} {s : PState} (hrun : ReflTransGen (More T) (Parser.start k0 input) s) :
    ∃ used w v τ, used ++ s.input = input ∧ Read (fun n => .terminal n ∈ st.ignored) (StrongOf st.weak) used w ∧ Forest g num [start] [τ] (w ++ v) := by
  obtain ⟨_, _, hm⟩ := h.machine
  obtain ⟨hi, -, -⟩ := completeStates_inv h.ridInj h.univ h.closOk h.starts hm
  obtain ⟨-, -, -, -, h5, h6, -⟩ := lr0_states_exact h.ridInj h.univ h.closOk h.starts hm
  have ha := auto_of_build h.ridInj h.univ h.closOk h.starts hm hk hS
  have hok : ∀ s < m.states.length, ∀ i, Clos0 g (kern m s) i → ∀ y ∈ i.rule.items, okI y := fun s hs i hci =>
    h.univ.items i.rule (clos0_good h.univ (hi.good s hs) hci).1
  obtain ⟨used, w, u1, u2, u3⟩ := more_inv ha h.tab hrun ⟨[], [], rfl, .nil, .base⟩
  obtain ⟨s1, τ1, l, he⟩ := vstack_cons u3
  rw [he] at u3
  obtain ⟨i, hi⟩ := vstack_kernel ha (fun s x s' ht => by
    obtain ⟨-, i, hci, hx⟩ := (h5 s (h6 s x s' ht).1 x).1 ⟨s', ht⟩
    exact ⟨_, ((h6 s x s' ht).2.2 _).2 ⟨i, hci, hx, rfl⟩⟩) u3
  have hci : Clos0 g (kern m s1) i := ⟨i, hi, .refl⟩
  obtain ⟨ts, u, hf⟩ := ht.forest (i.rule.items.drop i.dot) (fun y hy => hok s1 (vstack_range ha u3) i hci y (List.mem_of_mem_drop hy))
  obtain ⟨v, σ, hσ⟩ := stack_viable ha ht hok _ rfl u3 hci hf
  obtain ⟨τ, rfl⟩ := forest_single hσ
  exact ⟨used, w, u ++ v, τ, u1, u2, by simpa using hσ⟩

theorem forest_tokens (hg : Plain g okI) {xs : List Item} {ts : List Tree} {w : List Tok} (hfo : Forest g num xs ts w) (hxs : ∀ x ∈ xs, okI x) :
    ∀ k ∈ w, okI (.terminal k.sym) := by
  induction hfo with
  | nil => exact fun _ h => by cases h
  | token _ ih =>
    intro k hk
    rcases List.mem_cons.1 hk with rfl | hk
    · exact hxs _ (List.mem_cons_self ..)
    · exact ih (fun x hx => hxs x (List.mem_cons_of_mem _ hx)) k hk
  | guard _ ih => exact ih (fun x hx => hxs x (List.mem_cons_of_mem _ hx))
  | node hr _ _ ih1 ih2 =>
    intro k hk
    rcases List.mem_append.1 hk with hk | hk
    · exact ih1 (flatten_ok hg (hxs _ (List.mem_cons_self ..)) hr) k hk
    · exact ih2 (fun x hx => hxs x (List.mem_cons_of_mem _ hx)) k hk

/-- C84 (partial: as C36, for grammars in which every symbol has a sentence). If no conflicts are reported and the parser rejects its input, then what it has read is the beginning of
a sentence, and either all of the input has been read or there is no sentence that begins with what has been read and the next token. -/
theorem error_exact_partial (h : Made first initial g okI okR rid clos own lt languages m m' st states num sort sortWeak occ) (hb : Bare st) (hg : Plain g okI)
    (hf : ∀ x, okI x → g.FirstComplete x (first x)) (hprod : Productive g okI)
    {involved : Nat → Item → Bool} (hinv : ∀ s t, Involved first g m n0 s t → involved s t = true)
    (hcon : ∀ (s : Nat) (acts : List LrAction), states[s]? = some acts → Rewriters.findConflicts (involved s) acts = [])
    (hacc : ∀ (s : Nat) (acts : List LrAction), states[s]? = some acts → ∀ b ∈ acts, ∀ c ∈ acts, b.type = .accept → c.item = .eoi → c.type ≠ .reduce)
    {k0 : Nat} {start : Item} (hk : k0 < n0) (hS : kern m k0 = [startItem start]) (hst : okI start) {input : List Tok} {fuel : Nat} {s' : PState}
    (hp : parse T fuel (Parser.start k0 input) = .ok (false, s')) :
    ∃ used, used ++ s'.input = input ∧
      (∃ v : List Int, g.Derives [start] ((used.filter (fun k => decide (.terminal k.sym ∉ st.ignored))).map (fun k => .terminal k.sym) ++ v.map .terminal)) ∧
      ∀ a rest, s'.input = a :: rest → .terminal a.sym ∉ st.ignored ∧ ¬ ∃ v : List Int,
        g.Derives [start] ((used.filter (fun k => decide (.terminal k.sym ∉ st.ignored))).map (fun k => .terminal k.sym) ++ .terminal a.sym :: v.map .terminal) := by
  obtain ⟨_, _, hm⟩ := h.machine
  obtain ⟨_, hm'⟩ := h.lookaheads
  have hdet := h.det_of_no_conflicts hb hg hinv hcon hacc
  have hig := grammar_ignores h.ridInj h.univ h.noEog h.starts h.firsts h.inits h.closOk h.selfOk hm hm' h.actions h.length h.ignored h.weak h.sortOk h.fits h.eog
  obtain ⟨hrun, f, hrej⟩ := parse_reject hp
  obtain ⟨used, w, v, τ, u1, u2, hfo⟩ := read_viable h (hprod.treed hg num) hk hS hrun
  have hok := forest_tokens hg hfo (by simpa using hst)
  have hw : w = used.filter (fun k => decide (.terminal k.sym ∉ st.ignored)) := by
    have hok' : ∀ k ∈ w, okI (.terminal k.sym) := fun k hk => hok k (List.mem_append_left _ hk)
    clear hfo u1 hok
    induction u2 with
    | nil => rfl
    | @keep k u w _ ih =>
      have hk : Item.terminal k.sym ∉ st.ignored := fun hc => (h.ignored _ hc).2 (hok' k (List.mem_cons_self ..))
      rw [List.filter_cons, if_pos (by simpa using hk), ← ih (fun k hk => hok' k (List.mem_cons_of_mem _ hk))]
    | @strong k n u w hn =>
      obtain ⟨ws, hn, -⟩ := hn
      rw [hb.weak] at hn
      cases hn
    | @skip k u w hk _ ih =>
      rw [List.filter_cons, if_neg (by simpa using hk), ← ih hok']
  refine ⟨used, u1, ⟨v.map (·.sym), ?_⟩, ?_⟩
  · have := hfo.plain hg (by simpa using hst)
    rw [← hw]
    rw [List.map_append] at this
    rw [List.map_map]
    exact this
  · intro a rest ha
    have hna : Item.terminal a.sym ∉ st.ignored := by
      intro hc
      obtain ⟨stk, inp⟩ := s'
      dsimp only at ha
      subst ha
      cases stk with
      | nil => have := (process_ub T f ⟨[], a :: rest⟩ (by simp)).symm.trans hrej; cases this
      | cons e stk =>
        rcases hig.only e.1 with h1 | h1
        · have := (process_ub T f ⟨e :: stk, a :: rest⟩ (by simpa using h1)).symm.trans hrej
          cases this
        · obtain ⟨n, hn⟩ := h1 a.sym (by simpa using hc)
          have := (process_ignore T f a rest e stk n hn).symm.trans hrej
          cases this
    refine ⟨hna, ?_⟩
    rintro ⟨v, hd⟩
    obtain ⟨ts, hfo⟩ := forest_of_derives (num := num) hg hd (by simpa using hst)
      (w := used.filter (fun k => decide (.terminal k.sym ∉ st.ignored)) ++ a :: v.map fun n => ⟨n, 0⟩) (by simp)
    have h0 : Lr1c first g m n0 k0 (startItem start, some (lookahead [])) := ⟨_, .start hk hS (fun a ha => (Option.some.inj ha).symm), .refl⟩
    obtain ⟨q, top, τ', l, e1, e2, e3, e4, e5⟩ := forest_walk hdet.local hg hf hfo (τ := .nothing) (st := []) h0 (Nat.zero_le _) rfl
    rw [List.append_nil] at e5
    obtain ⟨stk, hgo⟩ := local_follow hig e5 rfl (by simp) (by simpa using hna) used rest (by unfold keep; congr 1; funext k; simp)
    rw [← ha, u1] at hgo
    obtain ⟨f2, hp2⟩ := parse_more hgo hp
    obtain ⟨hrun2, -⟩ := parse_reject hp2
    have := more_input hrun2
    rw [ha] at this
    simp at this

/-- C85 (partial: as C36). If no conflicts are reported then the grammar is unambiguous: a sentence has just one tree. -/
theorem unambiguous_partial (h : Made first initial g okI okR rid clos own lt languages m m' st states num sort sortWeak occ) (hb : Bare st) (hg : Plain g okI)
    (hf : ∀ x, okI x → g.FirstComplete x (first x)) {involved : Nat → Item → Bool} (hinv : ∀ s t, Involved first g m n0 s t → involved s t = true)
    (hcon : ∀ (s : Nat) (acts : List LrAction), states[s]? = some acts → Rewriters.findConflicts (involved s) acts = [])
    (hacc : ∀ (s : Nat) (acts : List LrAction), states[s]? = some acts → ∀ b ∈ acts, ∀ c ∈ acts, b.type = .accept → c.item = .eoi → c.type ≠ .reduce)
    {k0 : Nat} {start : Item} (hk : k0 < n0) (hS : kern m k0 = [startItem start]) {w : List Tok} {τ τ' : Tree}
    (h1 : Forest g num [start] [τ] w) (h2 : Forest g num [start] [τ'] w) : τ = τ' := by
  have hdet := h.det_of_no_conflicts hb hg hinv hcon hacc
  obtain ⟨_, _, p1⟩ := parse_complete hdet hg hf hk hS h1
  obtain ⟨_, _, p2⟩ := parse_complete hdet hg hf hk hS h2
  have := parse_unique p1 p2
  cases this
  rfl

end
end Sound
end TameParse

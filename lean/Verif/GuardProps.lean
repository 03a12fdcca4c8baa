import Verif.CompleteGrammarProps

/-!
# C70: guards hold where they are passed
-/

namespace TameParse
namespace Guards

open AssocMap Closure Relation Lalr TameParse.Parser ParserTables Sound

/-- The items can be read at the beginning of the input, with these trees, and the rest of the input is left. A guard reads nothing, but what is in it can
be read where it stands. Ignored tokens may be skipped everywhere, weak symbols may stand for strong ones. -/
inductive Reads (g : Gram) (num : Numbering) (ig : Int → Prop) (strong : Int → Int → Prop) : List Item → List Tree → List Tok → List Tok → Prop
  | nil {w : List Tok} : Reads g num ig strong [] [] w w
  | skip {k : Tok} {xs : List Item} {ts : List Tree} {w v : List Tok} (hk : ig k.sym) (h : Reads g num ig strong xs ts w v) :
      Reads g num ig strong xs ts (k :: w) v
  | token {k : Tok} {xs : List Item} {ts : List Tree} {w v : List Tok} (h : Reads g num ig strong xs ts w v) :
      Reads g num ig strong (.terminal k.sym :: xs) (.leaf (some k) :: ts) (k :: w) v
  | strong {k : Tok} {n : Int} {xs : List Item} {ts : List Tree} {w v : List Tok} (hn : strong k.sym n) (h : Reads g num ig strong xs ts w v) :
      Reads g num ig strong (.terminal n :: xs) (.leaf (some { k with sym := n }) :: ts) (k :: w) v
  | guard {p : Int} {l : List Item} {la : Option Tok} {us : List Tree} {xs : List Item} {ts : List Tree} {w v v' : List Tok}
      (hg : Reads g num ig strong l us w v') (h : Reads g num ig strong xs ts w v) : Reads g num ig strong (.guard p l :: xs) (.leaf la :: ts) w v
  | node {x : Item} {r : List Item} {us : List Tree} {xs : List Item} {ts : List Tree} {w m v : List Tok} (hr : r ∈ closRules g x)
      (hc : Reads g num ig strong r us w m) (h : Reads g num ig strong xs ts m v) :
      Reads g num ig strong (x :: xs) (.node (num.ident x) (num.ruleId ⟨x, r⟩) us.reverse :: ts) w v

section
variable {g : Gram} {num : Numbering} {m : Mach} {occ : Item → Prop} {ig : Int → Prop} {strong : Int → Int → Prop} {t : Tables}

theorem Reads.append {xs ys : List Item} {ts us : List Tree} {w m v : List Tok} (h : Reads g num ig strong xs ts w m) (h' : Reads g num ig strong ys us m v) :
    Reads g num ig strong (xs ++ ys) (ts ++ us) w v := by
  induction h with
  | nil => exact h'
  | skip hk _ ih => exact .skip hk (ih h')
  | token _ ih => exact .token (ih h')
  | strong hn _ ih => exact .strong hn (ih h')
  | guard hg _ _ ih => exact .guard hg (ih h')
  | node hr hc _ _ ih => exact .node hr hc (ih h')

/-- Such trees are derivation trees. -/
theorem Reads.forest {xs : List Item} {ts : List Tree} {w v : List Tok} (h : Reads g num ig strong xs ts w v) :
    ∃ u w', w = u ++ v ∧ Read ig strong u w' ∧ Forest g num xs ts w' := by
  induction h with
  | nil => exact ⟨[], [], rfl, .nil, .nil⟩
  | @skip k _ _ _ _ hk _ ih =>
    obtain ⟨u, w', rfl, h2, h3⟩ := ih
    exact ⟨k :: u, w', rfl, .skip hk h2, h3⟩
  | @token k _ _ _ _ _ ih =>
    obtain ⟨u, w', rfl, h2, h3⟩ := ih
    exact ⟨k :: u, k :: w', rfl, .keep h2, .token h3⟩
  | @strong k n _ _ _ _ hn _ ih =>
    obtain ⟨u, w', rfl, h2, h3⟩ := ih
    exact ⟨k :: u, { k with sym := n } :: w', rfl, .strong hn h2, Forest.token (k := { k with sym := n }) h3⟩
  | guard _ _ _ ih =>
    obtain ⟨u, w', rfl, h2, h3⟩ := ih
    exact ⟨u, w', rfl, h2, .guard h3⟩
  | node hr _ _ ih1 ih2 =>
    obtain ⟨u, w', rfl, h2, h3⟩ := ih1
    obtain ⟨u', w'', rfl, h2', h3'⟩ := ih2
    exact ⟨u ++ u', w' ++ w'', by simp, h2.append h2', .node hr h3 h3'⟩

/-! The automaton and the stack -/

/-- What holds in all states. -/
structure Moves (g : Gram) (m : Mach) : Prop where
  range : ∀ s x t, tr m s x = some t → t < m.states.length
  goto : ∀ s x t, tr m s x = some t → ∀ j ∈ kern m t, Goto0 g (kern m s) x j
  step : ∀ s < m.states.length, ∀ i x, Clos0 g (kern m s) i → i.rule.items[i.dot]? = some x → x ≠ .empty → ∃ t, tr m s x = some t
  noEog : ∀ s t, tr m s .eog ≠ some t

/-- A rule for a language or for a guard. -/
def Special (r : Rule) : Prop := r.nonterminal = .empty ∨ ∃ p l, r.nonterminal = .guard p l

/-- A state where a language or a guard begins. -/
structure Begins (m : Mach) (k0 : Nat) (r0 : Rule) : Prop where
  init : kern m k0 = [⟨r0, 0⟩]
  first : k0 < m.states.length
  special : Special r0

theorem special_rules {r : Rule} (h : Special r) : closRules g r.nonterminal = [] := by
  rcases h with h | ⟨p, l, h⟩ <;> rw [h] <;> rfl

/-- The stack is a path of the automaton; its items read the input up to some place. -/
inductive Path (g : Gram) (num : Numbering) (ig : Int → Prop) (strong : Int → Int → Prop) (m : Mach) (k0 : Nat) :
    List (Nat × Tree) → List Tok → List Tok → Prop
  | base {w v : List Tok} (h : Reads g num ig strong [] [] w v) : Path g num ig strong m k0 [(k0, .nothing)] w v
  | push {s s' : Nat} {τ τ' : Tree} {x : Item} {st : List (Nat × Tree)} {w u v : List Tok} (h : Path g num ig strong m k0 ((s, τ) :: st) w u)
      (ht : tr m s x = some s') (hf : Reads g num ig strong [x] [τ'] u v) : Path g num ig strong m k0 ((s', τ') :: (s, τ) :: st) w v

variable {k0 : Nat} {r0 : Rule}

theorem Path.skip {st : List (Nat × Tree)} {w v : List Tok} {k : Tok} (hk : ig k.sym) (h : Path g num ig strong m k0 st w (k :: v)) :
    Path g num ig strong m k0 st w v := by
  have one : Reads g num ig strong [] [] (k :: v) v := .skip hk .nil
  generalize hv : k :: v = u at h
  cases h with
  | base h => subst hv; exact .base (by simpa using h.append one)
  | push h ht hf => subst hv; exact .push h ht (by simpa using hf.append one)

theorem Path.cons {st : List (Nat × Tree)} {w v : List Tok} (h : Path g num ig strong m k0 st w v) : ∃ s τ l, st = (s, τ) :: l := by
  cases h with
  | base => exact ⟨_, _, _, rfl⟩
  | push => exact ⟨_, _, _, rfl⟩

theorem path_range (hm : Moves g m) (hb : Begins m k0 r0) {s : Nat} {τ : Tree} {st : List (Nat × Tree)} {w v : List Tok}
    (h : Path g num ig strong m k0 ((s, τ) :: st) w v) : s < m.states.length := by
  cases h with
  | base => exact hb.first
  | push _ ht _ => exact hm.range _ _ _ ht

theorem path_base (hm : Moves g m) (hb : Begins m k0 r0) {s : Nat} {τ : Tree} {st : List (Nat × Tree)} {w v : List Tok}
    (h : Path g num ig strong m k0 ((s, τ) :: st) w v) {i : LItem} (hi : i ∈ kern m s) (hd : i.dot = 0) :
    i = ⟨r0, 0⟩ ∧ s = k0 ∧ τ = .nothing ∧ st = [] ∧ Reads g num ig strong [] [] w v := by
  cases h with
  | base h =>
    rw [hb.init] at hi
    exact ⟨List.mem_singleton.1 hi, rfl, rfl, rfl, h⟩
  | push _ ht _ =>
    obtain ⟨j, -, -, rfl⟩ := hm.goto _ _ _ ht i hi
    cases hd

/-- The top of the stack has the items of a rule that has been read so far. -/
theorem path_pop (hm : Moves g m) (hb : Begins m k0 r0) {r : Rule} : ∀ (d : Nat), d ≤ r.items.length → ∀ (s : Nat) (τ : Tree) (st : List (Nat × Tree))
    (w v : List Tok), Path g num ig strong m k0 ((s, τ) :: st) w v → Clos0 g (kern m s) ⟨r, d⟩ →
    ∃ pre s' τ' st' u, (s, τ) :: st = pre ++ (s', τ') :: st' ∧ pre.length = d ∧ Path g num ig strong m k0 ((s', τ') :: st') w u ∧
      Reads g num ig strong (r.items.take d) (pre.map Prod.snd).reverse u v ∧ Clos0 g (kern m s') ⟨r, 0⟩
  | 0, _, s, τ, st, w, v, hv, hc => ⟨[], s, τ, st, v, rfl, rfl, hv, by simpa using Reads.nil, hc⟩
  | d + 1, hd, s, τ, st, w, v, hv, hc => by
    rcases clos0_dot hc with hk | ⟨hz, -⟩
    · cases hv with
      | base =>
        rw [hb.init] at hk
        have := congrArg LItem.dot (List.mem_singleton.1 hk)
        cases this
      | @push s1 _ τ1 _ x st1 _ u1 _ hv1 ht hf =>
        obtain ⟨⟨r', d'⟩, hc1, hx, he⟩ := hm.goto _ _ _ ht _ hk
        dsimp only at hx he
        have e1 : r = r' := congrArg LItem.rule he
        have e2 : d + 1 = d' + 1 := congrArg LItem.dot he
        have e3 : d = d' := by omega
        subst e1 e3
        obtain ⟨pre, s', τ', st', u, p1, p2, p3, p4, p5⟩ := path_pop hm hb d (by omega) s1 τ1 st1 w u1 hv1 hc1
        refine ⟨(s, τ) :: pre, s', τ', st', u, by rw [p1]; rfl, by simp [p2], p3, ?_, p5⟩
        rw [List.take_add_one, hx, List.map_cons, List.reverse_cons]
        exact p4.append hf
    · cases hz

/-- A complete item for a language or guard: all of it has been read. -/
theorem path_complete (hm : Moves g m) (hb : Begins m k0 r0) {r : Rule} (hr : Special r) {s : Nat} {τ : Tree} {st : List (Nat × Tree)} {w v : List Tok}
    (h : Path g num ig strong m k0 ((s, τ) :: st) w v) (hc : Clos0 g (kern m s) ⟨r, r.items.length⟩) :
    r = r0 ∧ ∃ pre, (s, τ) :: st = pre ++ [(k0, .nothing)] ∧ pre.length = r0.items.length ∧
      Reads g num ig strong r0.items (pre.map Prod.snd).reverse w v := by
  obtain ⟨pre, s', τ', st', u, p1, p2, p3, p4, p5⟩ := path_pop hm hb _ (Nat.le_refl _) s τ st w v h hc
  rcases clos0_dot p5 with hk | ⟨-, hr', -⟩
  · obtain ⟨h1, rfl, rfl, rfl, h2⟩ := path_base hm hb p3 hk rfl
    have : r = r0 := congrArg LItem.rule h1
    subst this
    refine ⟨rfl, pre, p1, p2, ?_⟩
    rw [List.take_length] at p4
    simpa using h2.append p4
  · dsimp only at hr'
    rw [special_rules hr] at hr'
    cases hr'

/-! Action sets -/

/-- The states of an action set stand for stacks with trees. -/
structure Views {σ : Type} (t : Tables) (d : Delegate σ) (R : σ → List (Nat × Tree) → Prop) : Prop where
  current : ∀ s vs st, R s vs → d.current s = .ok st → ∃ τ l, vs = (st, τ) :: l
  shift : ∀ s vs la n, R s vs → R (d.shift la n s) ((n, .leaf la) :: vs)
  reduce : ∀ s pre s1 τ1 l1 r go s', R s (pre ++ (s1, τ1) :: l1) → pre.length = r.length → gotoFor t s1 r.identifier = .ok (some go) →
    d.reduce r s = .ok s' → R s' ((go, .node r.identifier r.ruleId (pre.map Prod.snd)) :: (s1, τ1) :: l1)

theorem popItems_eq : ∀ (pre : List (Nat × Tree)) (e : Nat × Tree) (l : List (Nat × Tree)) (acc : List Tree),
    popItems pre.length (pre ++ e :: l) acc = .ok (acc ++ pre.map Prod.snd, e :: l)
  | [], e, l, acc => by simp [popItems]
  | a :: pre, e, l, acc => by
    have h : popStack (a :: pre ++ e :: l) = pre ++ e :: l := by cases pre <;> rfl
    simp only [popItems, List.length_cons]
    rw [h]
    simp only [List.cons_append, List.head?_cons, orUb, bind, Except.bind]
    rw [popItems_eq pre e l]
    simp

theorem popN_eq : ∀ (pre l : List Nat), popN pre.length (pre ++ l) = .ok l
  | [], l => rfl
  | a :: pre, l => by simpa [popN] using popN_eq pre l

theorem standard_views (v : List Tok) : Views t (standard t) (fun s vs => s.stack = vs ∧ s.input = v) := by
  refine ⟨?_, ?_, ?_⟩
  · rintro s vs st ⟨rfl, -⟩ h
    have := orUb_ok h
    cases hs : s.stack with
    | nil => rw [hs] at this; cases this
    | cons e l =>
      rw [hs] at this
      obtain ⟨a, b⟩ := e
      simp at this
      exact ⟨b, l, by rw [this]⟩
  · rintro s vs la n ⟨rfl, h⟩
    exact ⟨rfl, h⟩
  · rintro s pre s1 τ1 l1 r go s' ⟨h1, h2⟩ hlen hgo h
    simp only [standard] at h
    rw [h1, ← hlen, popItems_eq] at h
    simp only [bind, Except.bind, List.nil_append, List.head?_cons, orUb, hgo, pure, Except.pure] at h
    cases h
    exact ⟨rfl, h2⟩

theorem guard_views (under : List Nat) : Views t (guardDelegate t under) (fun s vs => s = vs.map Prod.fst) := by
  refine ⟨?_, ?_, ?_⟩
  · rintro s vs st rfl h
    have := orUb_ok h
    cases vs with
    | nil => cases this
    | cons e l =>
      obtain ⟨a, b⟩ := e
      simp at this
      exact ⟨b, l, by rw [this]⟩
  · rintro s vs la n rfl
    rfl
  · rintro s pre s1 τ1 l1 r go s' rfl hlen hgo h
    simp only [guardDelegate] at h
    rw [List.map_append, show r.length = (pre.map Prod.fst).length by rw [List.length_map, hlen], popN_eq] at h
    simp only [bind, Except.bind, List.map_cons, List.head?_cons, orUb, hgo, pure, Except.pure] at h
    cases h
    rfl

/-- The stack reads the input `w` up to `v`. -/
def Inv {σ : Type} (g : Gram) (num : Numbering) (ig : Int → Prop) (strong : Int → Int → Prop) (m : Mach) (k0 : Nat) (R : σ → List (Nat × Tree) → Prop)
    (s : σ) (w v : List Tok) : Prop := ∃ vs, R s vs ∧ Path g num ig strong m k0 vs w v

variable {σ : Type} {d : Delegate σ} {R : σ → List (Nat × Tree) → Prop}

theorem reduce_inv (hm : Moves g m) (hb : Begins m k0 r0) (ht : Tab g num m occ ig strong t) (hv : Views t d R) {s s' : σ} {w v : List Tok}
    (hi : Inv g num ig strong m k0 R s w v) {st : Nat} (hst : d.current s = .ok st) {r : Rule} (hc : Clos0 g (kern m st) ⟨r, r.items.length⟩)
    (h1 : r.nonterminal ≠ .empty) (h2 : ∀ p l, r.nonterminal ≠ .guard p l)
    (h : d.reduce ⟨num.ident r.nonterminal, num.ruleId r, r.items.length⟩ s = .ok s') : Inv g num ig strong m k0 R s' w v := by
  obtain ⟨vs, i1, i2⟩ := hi
  obtain ⟨τ, l, rfl⟩ := hv.current _ _ _ i1 hst
  obtain ⟨pre, s1, τ1, l1, u, p1, p2, p3, p4, p5⟩ := path_pop hm hb _ (Nat.le_refl _) st τ l w v i2 hc
  rw [List.take_length] at p4
  have hgen : r.items ∈ closRules g r.nonterminal ∧ ∃ j, Clos0 g (kern m s1) j ∧ j.rule.items[j.dot]? = some r.nonterminal := by
    rcases clos0_dot p5 with hk | ⟨-, hr, hj⟩
    · obtain ⟨he, -⟩ := path_base hm hb p3 hk rfl
      have : r = r0 := congrArg LItem.rule he
      rw [this] at h1 h2
      rcases hb.special with h | ⟨p, l, h⟩
      · exact absurd h h1
      · exact absurd h (h2 p l)
    · exact ⟨hr, hj⟩
  obtain ⟨hr, j, hj, hx⟩ := hgen
  obtain ⟨s2, hs2⟩ := hm.step s1 (path_range hm hb p3) j _ hj hx h1
  have hterm : isTerminal r.nonterminal = false := by
    cases hn : r.nonterminal with
    | terminal n => rw [hn] at hr; cases hr
    | _ => rfl
  have hgo := ht.goto s1 _ s2 hs2 hterm h2
  rw [p1] at i1
  have := hv.reduce s pre s1 τ1 l1 ⟨num.ident r.nonterminal, num.ruleId r, r.items.length⟩ s2 s' i1 p2 hgo h
  refine ⟨_, this, .push p3 hs2 ?_⟩
  have hnode := Reads.node (num := num) hr p4 Reads.nil
  rw [List.reverse_reverse] at hnode
  exact hnode

theorem perform_reduce (hm : Moves g m) (hb : Begins m k0 r0) (ht : Tab g num m occ ig strong t) (hv : Views t d R) {s : σ} {w v : List Tok}
    (hi : Inv g num ig strong m k0 R s w v) {st : Nat} (hst : d.current s = .ok st) {ty : ActType} (hty : ty = .reduce ∨ ty = .weakreduce) {a : Item}
    {k : Int} {r : Rule} {e : TableAction} (he : entryMeaning t e = meaning num ⟨ty, a, k, r⟩) (hc : Clos0 g (kern m st) ⟨r, r.items.length⟩)
    (h1 : r.nonterminal ≠ .empty) (h2 : ∀ p l, r.nonterminal ≠ .guard p l) {la : Option Tok} {res : Bool × σ} (h : perform d t la e s = .ok res) :
    res.1 = false ∧ Inv g num ig strong m k0 R res.2 w v := by
  have hty' : e.type = .reduce ∨ e.type = .weakreduce := by
    rw [show e.type = ty from congrArg Prod.fst he]; exact hty
  obtain ⟨-, hrule⟩ := entry_rule he (by rcases hty with h | h <;> rw [h] <;> rfl)
  have hp : perform d t la e s = (do let r ← orUb (rule t e.nextState); return (false, ← d.reduce r s)) := by
    unfold perform
    rcases hty' with h | h <;> rw [h]
  rw [hp, hrule] at h
  obtain ⟨r', hr', h⟩ := bind_ok h
  cases hr'
  obtain ⟨s', hs', h⟩ := bind_ok h
  cases h
  exact ⟨rfl, reduce_inv hm hb ht hv hi hst hc h1 h2 hs'⟩

/-- The contents of a guard can be read here. -/
def Holds (g : Gram) (num : Numbering) (ig : Int → Prop) (strong : Int → Int → Prop) (l : List Item) (w : List Tok) : Prop :=
  ∃ us v, Reads g num ig strong l us w v

theorem guardPerform_inv (hm : Moves g m) (hb : Begins m k0 r0) (ht : Tab g num m occ ig strong t) (hv : Views t d R) {p : Int} {l : List Item}
    (hocc : occ (.guard p l)) {la : Option Tok} {w v : List Tok} (hh : Holds g num ig strong l v) :
    ∀ (fuel : Nat) (s s' : σ), Inv g num ig strong m k0 R s w v → guardPerform d t la (num.ident (.guard p l)) fuel s = .ok s' →
      Inv g num ig strong m k0 R s' w v := by
  intro fuel
  induction fuel with
  | zero => intro s s' _ h; cases h
  | succ fuel ih =>
    intro s s' hi h
    unfold guardPerform at h
    obtain ⟨st, hst, h⟩ := bind_ok h
    obtain ⟨acts, hacts, h⟩ := bind_ok h
    obtain ⟨ch, hch, h⟩ := bind_ok h
    cases ch with
    | none => cases h; exact hi
    | some e =>
      obtain ⟨res, hres, h⟩ := bind_ok h
      obtain ⟨a, hall, hnum, hnt, hid, hmean⟩ := ht.nonterm st _ acts hacts e (guardChoice_mem hch)
      have hitem : a.item = .guard p l := ht.inj _ _ (hnum.1 hnt) hocc hid
      cases hall with
      | shift => cases hnt
      | strong => cases hnt
      | ignore => cases hnt
      | guard => cases hnt
      | goto h1 h2 h3 h4 h5 => exact absurd hitem (h3 p l)
      | accept => cases hitem
      | done => cases hitem
      | reduce hty hc h1 h2 hna =>
        obtain ⟨r1, r2⟩ := perform_reduce hm hb ht hv hi hst hty hmean hc h1 h2 hres
        rw [r1] at h
        exact ih _ _ r2 h
      | @guarded p' l' k r htr =>
        cases hitem
        obtain ⟨e1, e2⟩ := entry_next hmean rfl
        dsimp only at e1 e2
        unfold perform at hres
        rw [e1] at hres
        cases hres
        cases h
        obtain ⟨vs, i1, i2⟩ := hi
        obtain ⟨τ, l', rfl⟩ := hv.current _ _ _ i1 hst
        obtain ⟨us, v', hus⟩ := hh
        refine ⟨_, hv.shift _ _ la e.nextState i1, ?_⟩
        rw [e2]
        exact .push i2 htr (.guard hus .nil)

theorem processGuard_inv (hm : Moves g m) (hb : Begins m k0 r0) (ht : Tab g num m occ ig strong t) (hv : Views t d R) {p : Int} {l : List Item}
    (hocc : occ (.guard p l)) {la : Option Tok} {w v : List Tok} (hh : Holds g num ig strong l v) {fuel : Nat} {s s' : σ}
    (hi : Inv g num ig strong m k0 R s w v) (h : processGuard d t fuel la (num.ident (.guard p l)) s = .ok (some s')) :
    Inv g num ig strong m k0 R s' w v := by
  unfold processGuard at h
  obtain ⟨st, -, h⟩ := bind_ok h
  obtain ⟨acts, -, h⟩ := bind_ok h
  obtain ⟨q, -, h⟩ := bind_ok h
  cases q with
  | false => cases h
  | true =>
    obtain ⟨s1, h1, h⟩ := bind_ok h
    cases h
    exact guardPerform_inv hm hb ht hv hocc hh _ _ _ hi h1

/-- Actions for the next token. -/
theorem perform_token (ht : Tab g num m occ ig strong t) (hm : Moves g m) (hb : Begins m k0 r0) (hv : Views t d R) {s : σ} {w v : List Tok} {k : Tok}
    (hi : Inv g num ig strong m k0 R s w (k :: v)) {st : Nat} (hst : d.current s = .ok st) {a : LrAction} (hal : Allowed g m ig strong st a)
    (hitem : a.item = .terminal k.sym) {e : TableAction} (hmean : entryMeaning t e = meaning num a) (hng : e.type ≠ .guard) {res : Bool × σ}
    (h : perform d t (some k) e s = .ok res) :
    (res.1 = true ∧ Inv g num ig strong m k0 R res.2 w v) ∨ (res.1 = false ∧ Inv g num ig strong m k0 R res.2 w (k :: v)) := by
  obtain ⟨vs, i1, i2⟩ := id hi
  obtain ⟨τ, l, rfl⟩ := hv.current _ _ _ i1 hst
  cases hal with
  | @shift n to' rr htr =>
    cases hitem
    obtain ⟨e1, e2⟩ := entry_next hmean rfl
    dsimp only at e1 e2
    unfold perform at h
    rw [e1] at h
    cases h
    refine Or.inl ⟨rfl, _, hv.shift _ _ (some k) e.nextState i1, ?_⟩
    rw [e2]
    exact .push i2 htr (.token .nil)
  | @strong n n' to' rr hn htr =>
    cases hitem
    obtain ⟨e1, e2⟩ := entry_next hmean rfl
    dsimp only at e1 e2
    unfold perform at h
    rw [e1] at h
    obtain ⟨tok', htok, h⟩ := bind_ok h
    cases htok
    obtain ⟨sn, hsn, h⟩ := bind_ok h
    have hsn' := orUb_ok hsn
    rw [ht.weak _ _ hn] at hsn'
    cases hsn'
    cases h
    refine Or.inl ⟨rfl, _, hv.shift _ _ (some { k with sym := n' }) e.nextState i1, ?_⟩
    rw [e2]
    exact .push i2 htr (.strong hn .nil)
  | @ignore n to' rr hn =>
    cases hitem
    obtain ⟨e1, e2⟩ := entry_next hmean rfl
    dsimp only at e1 e2
    unfold perform at h
    rw [e1] at h
    cases h
    exact Or.inl ⟨rfl, _, i1, i2.skip hn⟩
  | guarded => cases hitem
  | goto htr h1 => dsimp only at hitem; rw [hitem] at h1; cases h1
  | reduce hty hc h1 h2 hna => exact Or.inr (perform_reduce hm hb ht hv hi hst hty hmean hc h1 h2 h)
  | accept => cases hitem
  | done => cases hitem
  | guard => exact absurd (congrArg Prod.fst hmean) hng

/-! Guards -/

/-- What checking a guard means. -/
def Checked (g : Gram) (num : Numbering) (occ : Item → Prop) (ig : Int → Prop) (strong : Int → Int → Prop) (r0 : Rule) (w : List Tok) (gs : Int) : Prop :=
  gs < 0 ∨ (gs = num.ident r0.nonterminal ∧ occ r0.nonterminal ∧ Holds g num ig strong r0.items w)

/-- What trying the actions means. -/
def TriedOk (g : Gram) (num : Numbering) (m : Mach) (occ : Item → Prop) (ig : Int → Prop) (strong : Int → Int → Prop) (k0 : Nat) (r0 : Rule)
    (input w : List Tok) : Tried → Prop
  | .accepted gs => Checked g num occ ig strong r0 w gs
  | .performed s o => Inv g num ig strong m k0 (fun s vs => s = vs.map Prod.fst) s w (input.drop o)
  | .failed => True

theorem tryActions_spec (hm : Moves g m) (ht : Tab g num m occ ig strong t) {under : List Nat} {input : List Tok} {fuel : Nat} {nested : Nat → Nat → M Int}
    (hnest : ∀ k o gs p l, Begins m k ⟨.guard p l, l⟩ → nested k o = .ok gs → Checked g num occ ig strong ⟨.guard p l, l⟩ (input.drop o) gs)
    {p0 : Int} {l0 : List Item} (hb : Begins m k0 ⟨.guard p0 l0, l0⟩) {stack : List Nat} {offset : Nat} {w : List Tok}
    (hi : Inv g num ig strong m k0 (fun s vs => s = vs.map Prod.fst) stack w (input.drop offset)) {st : Nat} (hst : stack.head? = some st) {res : Tried} :
    ∀ (l : List TableAction), (∀ e ∈ l, ∃ a, Allowed g m ig strong st a ∧ Numbered occ a ∧ entryMeaning t e = meaning num a ∧
      (a.item = .eog ∨ match input[offset]? with | some k => a.item = .terminal k.sym | none => a.item = .eoi)) →
      tryActions t fuel under input[offset]? nested stack offset l = .ok res →
      TriedOk g num m occ ig strong k0 ⟨.guard p0 l0, l0⟩ input w res
  | [], _, h => by cases h; trivial
  | e :: l, hall, h => by
    have hvw := guard_views (t := t) under
    have hst' : (guardDelegate t under).current stack = .ok st := by simp [guardDelegate, hst, orUb]
    have rest : tryActions t fuel under input[offset]? nested stack offset l = .ok res →
        TriedOk g num m occ ig strong k0 ⟨.guard p0 l0, l0⟩ input w res := tryActions_spec hm ht hnest hb hi hst l (fun e' he' => hall e' (List.mem_cons_of_mem _ he'))
    obtain ⟨a, hal, hnum, hmean, hitem⟩ := hall e (List.mem_cons_self ..)
    have hty : e.type = a.type := congrArg Prod.fst hmean
    unfold tryActions at h
    obtain ⟨q, -, h⟩ := bind_ok h
    cases q with
    | true => exact rest h
    | false =>
      rw [if_neg (by simp)] at h
      by_cases h1 : e.type = .accept
      · rw [if_pos h1] at h
        obtain ⟨r, hr, h⟩ := bind_ok h
        cases h
        have hat : a.type = .accept := by rw [← hty]; exact h1
        obtain ⟨-, h3⟩ := entry_rule hmean (by rw [hat]; rfl)
        rw [orUb_ok hr] at h3
        cases h3
        obtain ⟨vs, i1, i2⟩ := hi
        obtain ⟨τ, l', rfl⟩ := hvw.current _ _ _ i1 hst'
        show Checked g num occ ig strong _ w (num.ident a.rule.nonterminal)
        have key : Special a.rule → Clos0 g (kern m st) ⟨a.rule, a.rule.items.length⟩ → Checked g num occ ig strong ⟨.guard p0 l0, l0⟩ w (num.ident a.rule.nonterminal) := by
          intro hs hc
          obtain ⟨e1, pre, -, -, e4⟩ := path_complete hm hb hs i2 hc
          have ho := hnum.2 hat
          rw [e1] at ho ⊢
          exact Or.inr ⟨rfl, ho, _, _, e4⟩
        cases hal with
        | accept hc h1 => exact key (Or.inl h1) hc
        | done h1 hc => exact key (Or.inr ⟨_, _, h1⟩) hc
        | reduce hty' => dsimp only at hat; rcases hty' with h | h <;> rw [h] at hat <;> cases hat
        | _ => cases hat
      · rw [if_neg h1] at h
        by_cases h2 : e.type = .guard
        · rw [if_pos h2] at h
          obtain ⟨gg, hgg, h⟩ := bind_ok h
          by_cases h3 : gg < 0
          · rw [if_pos h3] at h; exact rest h
          · rw [if_neg h3] at h
            obtain ⟨o, ho, h⟩ := bind_ok h
            cases o with
            | none => exact rest h
            | some s =>
              cases h
              have hat : a.type = .guard := by rw [← hty]; exact h2
              cases hal with
              | @guard n k rr p l' hk hkern =>
                obtain ⟨-, e2⟩ := entry_next hmean rfl
                have e2 : e.nextState = k := e2
                rw [e2] at hgg
                have hck := hnest k offset gg p l' ⟨hkern, hk, Or.inr ⟨p, l', rfl⟩⟩ hgg
                rcases hck with hlt | ⟨rfl, hocc, hh⟩
                · exact absurd hlt h3
                · exact processGuard_inv hm hb ht hvw hocc hh hi ho
              | reduce hty' => dsimp only at hat; rcases hty' with h | h <;> rw [h] at hat <;> cases hat
              | _ => cases hat
        · rw [if_neg h2] at h
          obtain ⟨r, hr, h⟩ := bind_ok h
          cases h
          show Inv g num ig strong m k0 (fun s vs => s = vs.map Prod.fst) r.2 w (input.drop (if r.1 then offset + 1 else offset))
          cases hla : input[offset]? with
          | some k =>
            rw [hla] at hitem hr
            rcases hitem with hitem | hitem
            · cases hal with
              | goto htr => dsimp only at hitem; rw [hitem] at htr; exact absurd htr (hm.noEog _ _)
              | reduce hty' hc h1' h2' hna =>
                obtain ⟨r1, r2⟩ := perform_reduce hm hb ht hvw hi hst' hty' hmean hc h1' h2' hr
                rw [r1, if_neg Bool.false_ne_true]
                exact r2
              | done => exact absurd hty h1
              | _ => cases hitem
            · have hdrop : input.drop offset = k :: input.drop (offset + 1) := by
                obtain ⟨hlt, hk⟩ := List.getElem?_eq_some_iff.1 hla
                rw [List.drop_eq_getElem_cons hlt, hk]
              rw [hdrop] at hi
              rcases perform_token ht hm hb hvw hi hst' hal hitem hmean h2 hr with ⟨r1, r2⟩ | ⟨r1, r2⟩
              · rw [r1, if_pos rfl]; exact r2
              · rw [r1, if_neg Bool.false_ne_true, hdrop]; exact r2
          | none =>
            rw [hla] at hitem hr
            dsimp only at hitem
            cases hal with
            | goto htr _ _ h3 _ =>
              dsimp only at hitem
              rcases hitem with hitem | hitem
              · rw [hitem] at htr; exact absurd htr (hm.noEog _ _)
              · exact absurd hitem h3
            | reduce hty' hc h1' h2' hna =>
              obtain ⟨r1, r2⟩ := perform_reduce hm hb ht hvw hi hst' hty' hmean hc h1' h2' hr
              rw [r1, if_neg Bool.false_ne_true]
              exact r2
            | accept => exact absurd hty h1
            | done => exact absurd hty h1
            | _ => rcases hitem with hitem | hitem <;> cases hitem

/-- `check_guard`: a guard that is found can be read. -/
theorem checkLoop_spec (hm : Moves g m) (ht : Tab g num m occ ig strong t) (hei : ∀ i, num.ident i = num.ident .eog → i = .eog) (heog : t.endOfGuard = num.ident .eog) {under : List Nat}
    {input : List Tok} : ∀ (fuel : Nat) (k0 : Nat) (p0 : Int) (l0 : List Item), Begins m k0 ⟨.guard p0 l0, l0⟩ →
      ∀ (stack : List Nat) (offset : Nat) (gs : Int) (w : List Tok),
      Inv g num ig strong m k0 (fun s vs => s = vs.map Prod.fst) stack w (input.drop offset) →
      checkLoop t under input fuel stack offset = .ok gs → Checked g num occ ig strong ⟨.guard p0 l0, l0⟩ w gs := by
  intro fuel
  induction fuel with
  | zero => intro k0 p0 l0 _ stack offset gs w _ h; cases h
  | succ fuel ih =>
    intro k0 p0 l0 hb stack offset gs w hi h
    unfold checkLoop at h
    obtain ⟨state, hstate, h⟩ := bind_ok h
    obtain ⟨eog, -, h⟩ := bind_ok h
    obtain ⟨acts, hacts, h⟩ := bind_ok h
    obtain ⟨tried, htried, h⟩ := bind_ok h
    have hspec := tryActions_spec hm ht (input := input) (nested := fun s o => checkLoop t under input fuel [s] o)
      (fun k o gs p l hbk hres => ih k p l hbk [k] o gs (input.drop o) ⟨[(k, .nothing)], rfl, .base .nil⟩ hres)
      hb hi (orUb_ok hstate) acts (by
        intro e he
        unfold guardActs at hacts
        split at hacts
        · obtain ⟨a, h1, h0, h2, h3, h4⟩ := ht.nonterm _ _ _ hacts e he
          exact ⟨a, h1, h0, h4, Or.inl (hei _ (by rw [h3, heog]))⟩
        · cases hla : input[offset]? with
          | some k =>
            rw [hla] at hacts
            obtain ⟨a, h1, h0, h2, h4⟩ := ht.term _ _ _ hacts e he
            exact ⟨a, h1, h0, h4, Or.inr h2⟩
          | none =>
            rw [hla] at hacts
            obtain ⟨a, h1, h0, h2, h3, h4⟩ := ht.nonterm _ _ _ hacts e he
            exact ⟨a, h1, h0, h4, Or.inr (ht.inj _ _ (h0.1 h2) ht.occEoi (by rw [h3, ht.eoi]))⟩) htried
    cases tried with
    | failed => cases h; exact Or.inl (by decide)
    | performed s o => exact ih k0 p0 l0 hb s o gs w hspec h
    | accepted gs' => cases h; exact hspec

/-! The parser -/

/-- The input has been accepted: all of it can be read as the start symbol, with every guard holding where it is passed. -/
def Parsed (g : Gram) (num : Numbering) (ig : Int → Prop) (strong : Int → Int → Prop) (k0 : Nat) (start : Item) (input : List Tok) (s : PState) : Prop :=
  ∃ st τ, s.stack = [(st, τ), (k0, .nothing)] ∧ s.input = [] ∧ Reads g num ig strong [start] [τ] input []

/-- What a step of the parser leads to. -/
def Step (g : Gram) (num : Numbering) (m : Mach) (ig : Int → Prop) (strong : Int → Int → Prop) (k0 : Nat) (start : Item) (input : List Tok)
    (r : Result × PState) : Prop :=
  match r.1 with
  | .more => Path g num ig strong m k0 r.2.stack input r.2.input
  | .reject => True
  | .accept => Parsed g num ig strong k0 start input r.2

theorem processActions_step (hm : Moves g m) (ht : Tab g num m occ ig strong t) (hei : ∀ i, num.ident i = num.ident .eog → i = .eog) (heog : t.endOfGuard = num.ident .eog) {start : Item}
    (hb : Begins m k0 ⟨.empty, [start]⟩) {input : List Tok} {fuel : Nat} {s : PState} (hi : Path g num ig strong m k0 s.stack input s.input)
    {st : Nat} (hst : (standard t).current s = .ok st) {sym : Int} {term : Bool} {r : Result × PState} :
    ∀ (l : List TableAction), (∀ e ∈ l, ∃ a, Allowed g m ig strong st a ∧ (match s.input.head? with | some k => a.item = .terminal k.sym | none => a.item = .eoi) ∧
      entryMeaning t e = meaning num a) → processActions t fuel s.input.head? sym term s l = .ok r → Step g num m ig strong k0 start input r
  | [], _, h => by cases h; trivial
  | e :: l, hall, h => by
    have rest : processActions t fuel s.input.head? sym term s l = .ok r → Step g num m ig strong k0 start input r :=
      processActions_step hm ht hei heog hb hi hst l (fun e' he' => hall e' (List.mem_cons_of_mem _ he'))
    obtain ⟨a, hal, hitem, hmean⟩ := hall e (List.mem_cons_self ..)
    have hty : e.type = a.type := congrArg Prod.fst hmean
    have hvw := standard_views (t := t) s.input
    have hinv : Inv g num ig strong m k0 (fun s' vs => s'.stack = vs ∧ s'.input = s.input) s input s.input := ⟨s.stack, ⟨rfl, rfl⟩, hi⟩
    unfold processActions at h
    by_cases hw : e.type = .weakreduce
    · rw [if_pos hw] at h
      obtain ⟨q, -, h⟩ := bind_ok h
      cases q with
      | false => exact rest h
      | true =>
        obtain ⟨res, hres, h⟩ := bind_ok h
        cases h
        cases hal with
        | reduce hty' hc h1 h2 hna =>
          obtain ⟨-, vs, ⟨rfl, r2⟩, r3⟩ := perform_reduce hm hb ht hvw hinv hst hty' hmean hc h1 h2 hres
          show Path g num ig strong m k0 res.2.stack input res.2.input
          rw [r2]; exact r3
        | _ => rw [hw] at hty; cases hty
    · rw [if_neg hw] at h
      by_cases hg : e.type = .guard
      · rw [if_pos hg] at h
        obtain ⟨gs, hgs, h⟩ := bind_ok h
        by_cases hneg : gs < 0
        · rw [if_pos hneg] at h; exact rest h
        · rw [if_neg hneg] at h
          obtain ⟨o, ho, h⟩ := bind_ok h
          cases o with
          | none => exact rest h
          | some s' =>
            cases h
            cases hal with
            | @guard n k rr p l' hk hkern =>
              obtain ⟨-, e2⟩ := entry_next hmean rfl
              have e2 : e.nextState = k := e2
              rw [e2] at hgs
              have hck := checkLoop_spec hm ht hei heog fuel k p l' ⟨hkern, hk, Or.inr ⟨p, l', rfl⟩⟩ [k] 0 gs s.input
                ⟨[(k, .nothing)], rfl, .base .nil⟩ hgs
              rcases hck with hlt | ⟨rfl, hoc, hh⟩
              · exact absurd hlt hneg
              · obtain ⟨vs, ⟨rfl, r2⟩, r3⟩ := processGuard_inv hm hb ht hvw hoc hh hinv ho
                show Path g num ig strong m k0 s'.stack input s'.input
                rw [r2]; exact r3
            | reduce hty' => dsimp only at hty; rw [hg] at hty; rcases hty' with h | h <;> rw [h] at hty <;> cases hty
            | _ => rw [hg] at hty; cases hty
      · rw [if_neg hg] at h
        by_cases hac : e.type = .accept
        · rw [if_pos hac] at h
          cases h
          cases hin : s.input with
          | cons k v =>
            rw [hin] at hitem
            dsimp only [List.head?_cons] at hitem
            cases hal with
            | accept => cases hitem
            | done => cases hitem
            | reduce hty' => dsimp only at hty; rw [hac] at hty; rcases hty' with h | h <;> rw [h] at hty <;> cases hty
            | _ => rw [hac] at hty; cases hty
          | nil =>
            rw [hin] at hitem hi
            cases hal with
            | accept hc h1 =>
              obtain ⟨τ, l', hl⟩ := hvw.current s s.stack st ⟨rfl, rfl⟩ hst
              rw [hl] at hi
              obtain ⟨e1, pre, e2, e3, e4⟩ := path_complete hm hb (Or.inl h1) hi hc
              match pre, e3 with
              | [(a, b)], _ =>
                refine ⟨a, b, ?_, hin, e4⟩
                rw [hl]
                exact e2
            | done => cases hitem
            | reduce hty' => dsimp only at hty; rw [hac] at hty; rcases hty' with h | h <;> rw [h] at hty <;> cases hty
            | _ => rw [hac] at hty; cases hty
        · rw [if_neg hac] at h
          obtain ⟨res, hres, h⟩ := bind_ok h
          cases hin : s.input with
          | cons k v =>
            rw [hin] at hitem hres hinv hvw
            rcases perform_token ht hm hb hvw hinv hst hal hitem hmean hg hres with ⟨r1, vs, ⟨rfl, r2⟩, r3⟩ | ⟨r1, vs, ⟨rfl, r2⟩, r3⟩
            · rw [r1] at h
              simp only [if_true] at h
              obtain ⟨s2, hs2, h⟩ := bind_ok h
              cases h
              unfold next at hs2
              rw [r2] at hs2
              cases hs2
              exact r3
            · rw [r1] at h
              cases h
              show Path g num ig strong m k0 res.2.stack input res.2.input
              rw [r2]; exact r3
          | nil =>
            rw [hin] at hitem hres hinv hvw
            dsimp only [List.head?_nil] at hitem
            cases hal with
            | reduce hty' hc h1 h2 hna =>
              obtain ⟨r1, vs, ⟨rfl, r2⟩, r3⟩ := perform_reduce hm hb ht hvw hinv hst hty' hmean hc h1 h2 hres
              rw [r1] at h
              cases h
              show Path g num ig strong m k0 res.2.stack input res.2.input
              rw [r2]; exact r3
            | goto htr _ _ h3 _ => exact absurd hitem h3
            | accept => exact absurd hty hac
            | _ => cases hitem

theorem parse_guards (hm : Moves g m) (ht : Tab g num m occ ig strong t) (hei : ∀ i, num.ident i = num.ident .eog → i = .eog) (heog : t.endOfGuard = num.ident .eog) {start : Item}
    (hb : Begins m k0 ⟨.empty, [start]⟩) {input : List Tok} : ∀ (fuel : Nat) (s s' : PState), Path g num ig strong m k0 s.stack input s.input →
      parse t fuel s = .ok (true, s') → Parsed g num ig strong k0 start input s' := by
  intro fuel
  induction fuel with
  | zero => intro s s' _ h; cases h
  | succ fuel ih =>
    intro s s' hi h
    unfold parse at h
    obtain ⟨⟨r1, r2⟩, hr, h⟩ := bind_ok h
    have hs : Step g num m ig strong k0 start input (r1, r2) := by
      unfold process at hr
      obtain ⟨st, hst, hr⟩ := bind_ok hr
      cases hin : s.input.head? with
      | some tok =>
        rw [hin] at hr
        obtain ⟨l, hl, hr⟩ := bind_ok hr
        have hr' : processActions t fuel s.input.head? tok.sym true s l = .ok (r1, r2) := by rw [hin]; exact hr
        refine processActions_step hm ht hei heog hb hi hst l (fun e he => ?_) hr'
        rw [hin]
        exact (ht.term _ _ _ hl e he).imp fun a h => ⟨h.1, h.2.2⟩
      | none =>
        rw [hin] at hr
        obtain ⟨l, hl, hr⟩ := bind_ok hr
        have hr' : processActions t fuel s.input.head? t.endOfInput false s l = .ok (r1, r2) := by rw [hin]; exact hr
        refine processActions_step hm ht hei heog hb hi hst l (fun e he => ?_) hr'
        rw [hin]
        obtain ⟨a, h1, h0, h2, h3, h4⟩ := ht.nonterm _ _ _ hl e he
        exact ⟨a, h1, ht.inj _ _ (h0.1 h2) ht.occEoi (by rw [h3, ht.eoi]), h4⟩
    cases r1 with
    | more => exact ih r2 s' hs h
    | reject => cases h
    | accept => cases h; exact hs

end

section
variable {first initial : Item → List Item} {g : Gram} {okI : Item → Prop} {okR : Rule → Prop} {rid : Rule → Nat} {clos : LItem → List Item → Set1}
  {own : LItem → Set1} {lt : Key → Key → Bool} {languages : List Item} {m m' : Mach} {st : Stage} {states : List (List LrAction)} {num : Numbering}
  {sort : List TableAction → List TableAction} {sortWeak : List (Int × Int) → List (Int × Int)} {occ : Item → Prop}

theorem moves_of_made (h : Made first initial g okI okR rid clos own lt languages m m' st states num sort sortWeak occ) : Moves g m := by
  obtain ⟨_, _, h1⟩ := h.machine
  obtain ⟨h0, -, -, -, h5, h6, -⟩ := lr0_states_exact h.ridInj h.univ h.closOk h.starts h1
  refine ⟨fun s x t ht => (h6 s x t ht).2.1, fun s x t ht j hj => ((h6 s x t ht).2.2 j).1 hj, fun s hs i x hi hx hne => (h5 s hs x).2 ⟨hne, i, hi, hx⟩, ?_⟩
  intro s t ht
  obtain ⟨-, i, hi, hx⟩ := (h5 s (h6 s _ t ht).1 .eog).1 ⟨t, ht⟩
  obtain ⟨hinv, -⟩ := completeStates_inv h.ridInj h.univ h.closOk h.starts h1
  have hg := clos0_good h.univ (fun j hj => hinv.good s (h6 s _ t ht).1 j hj) hi
  exact h.noEog (h.univ.items _ hg.1 _ (List.mem_of_getElem? hx))

/-- C70: the tables made from a grammar only accept an input if it can be read as the start symbol with every guard holding where it is passed. -/
theorem parser_guards (h : Made first initial g okI okR rid clos own lt languages m m' st states num sort sortWeak occ) {k0 : Nat} {start : Item}
    (hk : k0 < (initials languages).states.length) (hS : kern m k0 = [startItem start]) {input : List Tok} {pf : Nat} {s' : PState}
    (hp : parse (build num sort sortWeak states (some st.weak.strongToWeak)) pf (Parser.start k0 input) = .ok (true, s')) :
    Parsed g num (fun n => .terminal n ∈ st.ignored) (StrongOf st.weak) k0 start input s' := by
  obtain ⟨_, _, h1⟩ := h.machine
  obtain ⟨-, h2, -⟩ := lr0_states_exact h.ridInj h.univ h.closOk h.starts h1
  exact parse_guards (moves_of_made h) h.tab h.eog rfl ⟨hS, (h2 k0 hk).1, Or.inl rfl⟩ pf _ _ (.base .nil) hp

end
end Guards
end TameParse

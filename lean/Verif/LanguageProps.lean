import Verif.Language
import Verif.GrammarIdsProps
import Verif.FirstProps
import Mathlib.Logic.Relation
/-
The grammar that is made from a language definition derives exactly what the definition means (C59).
-/
namespace TameParse
namespace Language
open AssocMap GrammarIds

/-! ### What a definition means -/

/-- The sentences of a sequence of items, as the names of their terminals; `P` says which productions a nonterminal has. Guards read nothing. -/
inductive Means (P : String → List Simple → Prop) : List Simple → List String → Prop
  | nil : Means P [] []
  | terminal {k s n a xs w} (h : Means P xs w) : Means P (.terminal k s n a :: xs) (n :: w)
  | nonterminal {s n a p u xs w} (hp : P n p) (hu : Means P p u) (h : Means P xs w) : Means P (.nonterminal s n a :: xs) (u ++ w)
  | guard {c f r a xs w} (h : Means P xs w) : Means P (.guard c f r a :: xs) w
  | star {x a xs w} {us : List (List String)} (hu : ∀ u ∈ us, Means P [x] u) (h : Means P xs w) : Means P (.star x a :: xs) (us.flatten ++ w)
  | plus {x a xs w} {us : List (List String)} (hne : us ≠ []) (hu : ∀ u ∈ us, Means P [x] u) (h : Means P xs w) :
      Means P (.plus x a :: xs) (us.flatten ++ w)
  | without {x a xs w} (h : Means P xs w) : Means P (.question x a :: xs) w
  | with {x a u xs w} (hu : Means P [x] u) (h : Means P xs w) : Means P (.question x a :: xs) (u ++ w)
  | paren {f r a p u xs w} (hp : p ∈ f :: r) (hu : Means P p u) (h : Means P xs w) : Means P (.paren f r a :: xs) (u ++ w)

/-- The productions that a sequence of definitions gives to a nonterminal: those of every definition that is not replaced by a later one. -/
def IsProd (ds : List NtSyntax) (n : String) (p : List Simple) : Prop :=
  ∃ pre d post, ds = pre ++ d :: post ∧ d.name = n ∧ p ∈ d.prods ∧ ∀ e ∈ post, e.name = n → e.type ≠ .replace

/-- The nonterminal definitions of language blocks. -/
def defsOf (blocks : List (List (Block NtSyntax))) : List NtSyntax :=
  blocks.flatten.flatMap fun | .grammar ds => ds | .lexer .. => []

mutual
/-- No reference to another language. -/
def Simple.own : Simple → Bool
  | .nonterminal s _ _ | .terminal _ s _ _ => s == ""
  | .guard _ f r _ | .paren f r _ => ownAll f && ownAlts r
  | .star x _ | .plus x _ | .question x _ => x.own

def ownAll : List Simple → Bool
  | [] => true
  | x :: xs => x.own && ownAll xs

def ownAlts : List (List Simple) → Bool
  | [] => true
  | xs :: r => ownAll xs && ownAlts r
end

/-! ### The translation as a function of the names -/

structure Names where
  sym : String → Int
  nt : String → Int

mutual
def trItem (N : Names) : Ebnf → List Item
  | .terminal _ _ n _ => [.terminal (N.sym n)]
  | .nonterminal _ n _ => [.nonterminal (N.nt n)]
  | .paren xs _ => trItems N xs
  | .optional x _ => [.ebnf .optional [trItem N x]]
  | .repeatOne x _ => [.ebnf .repeating [trItem N x]]
  | .repeatZero x _ => [.ebnf .repeatZero [trItem N x]]
  | .guard x _ => [.guard (-1) (trItem N x)]
  | .alternative x y _ => [.ebnf .alternative [trItem N x, trItem N y]]

def trItems (N : Names) : List Ebnf → List Item
  | [] => []
  | x :: xs => trItem N x ++ trItems N xs
end

mutual
/-- Every name of an item is known. -/
def Known (T U : String → Prop) : Ebnf → Prop
  | .terminal _ _ n _ => T n
  | .nonterminal _ n _ => U n
  | .paren xs _ => KnownAll T U xs
  | .optional x _ | .repeatOne x _ | .repeatZero x _ | .guard x _ => Known T U x
  | .alternative x y _ => Known T U x ∧ Known T U y

def KnownAll (T U : String → Prop) : List Ebnf → Prop
  | [] => True
  | x :: xs => Known T U x ∧ KnownAll T U xs
end

mutual
theorem Known.mono {T U T' U' : String → Prop} (ht : ∀ n, T n → T' n) (hu : ∀ n, U n → U' n) : ∀ x : Ebnf, Known T U x → Known T' U' x
  | .terminal _ _ n _, h => by simp only [Known] at h ⊢; exact ht n h
  | .nonterminal _ n _, h => by simp only [Known] at h ⊢; exact hu n h
  | .paren xs _, h => by simp only [Known] at h ⊢; exact KnownAll.mono ht hu xs h
  | .optional x _, h | .repeatOne x _, h | .repeatZero x _, h | .guard x _, h => by simp only [Known] at h ⊢; exact Known.mono ht hu x h
  | .alternative x y _, h => by simp only [Known] at h ⊢; exact ⟨Known.mono ht hu x h.1, Known.mono ht hu y h.2⟩

theorem KnownAll.mono {T U T' U' : String → Prop} (ht : ∀ n, T n → T' n) (hu : ∀ n, U n → U' n) : ∀ xs : List Ebnf, KnownAll T U xs → KnownAll T' U' xs
  | [], _ => by simp only [KnownAll]
  | x :: xs, h => by simp only [KnownAll] at h ⊢; exact ⟨Known.mono ht hu x h.1, KnownAll.mono ht hu xs h.2⟩
end

mutual
theorem trItem_congr {N M : Names} {T U : String → Prop} (ht : ∀ n, T n → N.sym n = M.sym n) (hu : ∀ n, U n → N.nt n = M.nt n) :
    ∀ x : Ebnf, Known T U x → trItem N x = trItem M x
  | .terminal _ _ n _, h => by simp only [Known] at h; simp only [trItem, ht n h]
  | .nonterminal _ n _, h => by simp only [Known] at h; simp only [trItem, hu n h]
  | .paren xs _, h => by simp only [Known] at h; simp only [trItem, trItems_congr ht hu xs h]
  | .optional x _, h | .repeatOne x _, h | .repeatZero x _, h | .guard x _, h => by
    simp only [Known] at h; simp only [trItem, trItem_congr ht hu x h]
  | .alternative x y _, h => by simp only [Known] at h; simp only [trItem, trItem_congr ht hu x h.1, trItem_congr ht hu y h.2]

theorem trItems_congr {N M : Names} {T U : String → Prop} (ht : ∀ n, T n → N.sym n = M.sym n) (hu : ∀ n, U n → N.nt n = M.nt n) :
    ∀ xs : List Ebnf, KnownAll T U xs → trItems N xs = trItems M xs
  | [], _ => rfl
  | x :: xs, h => by simp only [KnownAll] at h; simp only [trItems, trItem_congr ht hu x h.1, trItems_congr ht hu xs h.2]
end

mutual
theorem known_and {T U : String → Prop} : ∀ x : Ebnf, Known T (fun _ => True) x → Known (fun _ => True) U x → Known T U x
  | .terminal _ _ n _, h, _ => by simp only [Known] at h ⊢; exact h
  | .nonterminal _ n _, _, h => by simp only [Known] at h ⊢; exact h
  | .paren xs _, h, h' => by simp only [Known] at h h' ⊢; exact knownAll_and xs h h'
  | .optional x _, h, h' | .repeatOne x _, h, h' | .repeatZero x _, h, h' | .guard x _, h, h' => by simp only [Known] at h h' ⊢; exact known_and x h h'
  | .alternative x y _, h, h' => by simp only [Known] at h h' ⊢; exact ⟨known_and x h.1 h'.1, known_and y h.2 h'.2⟩

theorem knownAll_and {T U : String → Prop} : ∀ xs : List Ebnf, KnownAll T (fun _ => True) xs → KnownAll (fun _ => True) U xs → KnownAll T U xs
  | [], _, _ => by simp only [KnownAll]
  | x :: xs, h, h' => by simp only [KnownAll] at h h' ⊢; exact ⟨known_and x h.1 h'.1, knownAll_and xs h.2 h'.2⟩
end

namespace Lang

def ntKnown (s : Lang) (n : String) : Prop := get n s.ids.nameIds ≠ none

def termKnown (s : Lang) (n : String) : Prop := get n s.terminals.symbolOf ≠ none

def names (s : Lang) : Names := ⟨s.terminals.symbolForName, fun n => ((get n s.ids.nameIds).getD 0 : Nat)⟩

/-- What the compilation of items leaves alone. -/
structure Grow (s t : Lang) : Prop where
  terminals : t.terminals = s.terminals
  rules : t.rules = s.rules
  errors : t.errors = s.errors
  inv : ItemInv s.ids [] → ItemInv t.ids []
  names : ∀ n i, get n s.ids.nameIds = some i → get n t.ids.nameIds = some i

theorem Grow.refl (s : Lang) : Grow s s := ⟨rfl, rfl, rfl, id, fun _ _ h => h⟩

theorem Grow.trans {s t u : Lang} (h : Grow s t) (h' : Grow t u) : Grow s u :=
  ⟨h'.terminals.trans h.terminals, h'.rules.trans h.rules, h'.errors.trans h.errors, fun i => h'.inv (h.inv i), fun n i e => h'.names n i (h.names n i e)⟩

theorem Grow.known {s t : Lang} (h : Grow s t) {n : String} (hn : s.ntKnown n) : t.ntKnown n := by
  obtain ⟨i, hi⟩ := Option.ne_none_iff_exists'.1 hn
  rw [ntKnown, h.names n i hi]
  exact Option.some_ne_none i

theorem Grow.nt {s t : Lang} (h : Grow s t) {n : String} (hn : s.ntKnown n) : t.names.nt n = s.names.nt n := by
  obtain ⟨i, hi⟩ := Option.ne_none_iff_exists'.1 hn
  simp only [Lang.names, hi, h.names n i hi]

theorem Grow.sym {s t : Lang} (h : Grow s t) (n : String) : t.names.sym n = s.names.sym n := by
  simp only [Lang.names, h.terminals]

theorem itemInv_drop {g : GrammarIds} {L : List (Request × Nat)} (h : ItemInv g L) : ItemInv g [] :=
  { h with logItem := by simp, logName := by simp }

theorem grow_setLast (s : Lang) (r : KeyRule) (a : Attr) : Grow s (s.setLast r a).1 ∧ items (s.setLast r a).2 = items r := by
  unfold setLast
  cases hr : r.getLast? with
  | none => exact ⟨.refl s, rfl⟩
  | some p =>
    obtain ⟨x, key⟩ := p
    have he : items (r.dropLast ++ [(x, s.nextKey)]) = items r := by
      have hne : r ≠ [] := by rintro rfl; cases hr
      have h1 : r = r.dropLast ++ [(x, key)] := by
        rw [List.getLast?_eq_getLast_of_ne_nil hne] at hr
        have := List.dropLast_append_getLast hne
        rw [Option.some.inj hr] at this
        exact this.symm
      conv_rhs => rw [h1]
      simp [items]
    dsimp only
    split
    · exact ⟨⟨rfl, rfl, rfl, id, fun _ _ h => h⟩, he⟩
    · exact ⟨⟨rfl, rfl, rfl, id, fun _ _ h => h⟩, rfl⟩

theorem grow_appendAttr (s : Lang) (r : KeyRule) (a : Attr) : Grow s (s.appendAttr r a).1 ∧ items (s.appendAttr r a).2 = items r := by
  unfold appendAttr
  split
  · exact ⟨.refl s, rfl⟩
  · exact grow_setLast s r a

theorem grow_know (s : Lang) {x : Item} (hx : ∀ n, x ≠ .nonterminal n) : Grow s (s.know x) := by
  refine ⟨rfl, rfl, rfl, ?_, ?_⟩
  · intro h
    exact itemInv_drop (itemInv_step h (.item x) (fun n e => absurd (Request.item.inj e) (hx n)))
  · intro n i h
    show get n (s.ids.identifierForItem x).1.nameIds = some i
    unfold identifierForItem
    split <;> exact h

theorem grow_nt (s : Lang) (n : String) : Grow s { s with ids := (s.ids.idForNonterminal n).1 } ∧
    get n (s.ids.idForNonterminal n).1.nameIds = some (s.ids.idForNonterminal n).2 := by
  refine ⟨⟨rfl, rfl, rfl, ?_, ?_⟩, ?_⟩
  · intro h
    exact itemInv_drop (itemInv_step h (.name n) (fun _ e => by cases e))
  · intro m i h
    show get m (s.ids.idForNonterminal n).1.nameIds = some i
    unfold idForNonterminal
    cases hn : get n s.ids.nameIds with
    | some j => exact h
    | none =>
      dsimp only
      rw [get_put]
      split
      · next he => rw [he, h] at hn; cases hn
      · exact h
  · unfold idForNonterminal
    cases hn : get n s.ids.nameIds with
    | some j => exact hn
    | none => dsimp only; rw [get_put, if_pos rfl]

theorem grow_guards {s t : Lang} (h : Grow s t) (g : List Item) : Grow s { t with guards := g } :=
  ⟨h.terminals, h.rules, h.errors, h.inv, h.names⟩

/-- What the compilation of an item does. -/
def Compiles (s : Lang) (r : KeyRule) (t : Lang) (r' : KeyRule) (N : Names → List Item) (K : (String → Prop) → Prop) : Prop :=
  Grow s t ∧ items r' = items r ++ N t.names ∧ K t.ntKnown

theorem compiles_one {s t : Lang} {r : KeyRule} {x : Item} {a : Attr} {N : Names → List Item} {K : (String → Prop) → Prop} (h : Grow s t)
    (hN : ∀ M : Names, M.sym = t.names.sym → M.nt = t.names.nt → N M = [x]) (hK : K t.ntKnown) :
    Compiles s r (t.appendAttr (push r x) a).1 (t.appendAttr (push r x) a).2 N K := by
  obtain ⟨h1, h2⟩ := grow_appendAttr t (push r x) a
  have e : (t.appendAttr (push r x) a).1.ids = t.ids := by
    unfold appendAttr setLast
    split
    · rfl
    · cases (push r x).getLast? with
      | none => rfl
      | some p => dsimp only; split <;> rfl
  refine ⟨h.trans h1, ?_, ?_⟩
  · rw [h2, hN _ (by funext n; exact h1.sym n) (by simp only [Lang.names, e])]
    simp [items, push]
  · have : (t.appendAttr (push r x) a).1.ntKnown = t.ntKnown := by funext n; simp only [ntKnown, e]
    rw [this]
    exact hK

mutual
theorem compileItem_spec : ∀ (x : Ebnf) (s : Lang) (r : KeyRule),
    Compiles s r (s.compileItem r x).1 (s.compileItem r x).2 (fun N => trItem N x) (fun U => Known (fun _ => True) U x)
  | .terminal k src n a, s, r => by
    simp only [compileItem]
    refine compiles_one (.refl s) ?_ (by simp only [Known])
    intro M h1 _
    simp only [trItem, h1, names]
  | .nonterminal src n a, s, r => by
    simp only [compileItem]
    obtain ⟨h1, h2⟩ := grow_nt s n
    refine compiles_one h1 ?_ ?_
    · intro M _ h4
      simp only [trItem, h4, names, h2, Option.getD_some]
    · simp only [Known, ntKnown, h2]
      exact Option.some_ne_none _
  | .paren xs a, s, r => by
    simp only [compileItem, trItem, Known]
    exact compileItems_spec xs s r
  | .optional x a, s, r => by
    simp only [compileItem]
    obtain ⟨h1, h2, h3⟩ := compileItem_spec x s []
    have hk := grow_know (s.compileItem [] x).1 (x := .ebnf .optional [items (s.compileItem [] x).2]) (by simp)
    refine compiles_one (h1.trans hk) ?_ ?_
    · intro M h5 h6
      simp only [trItem]
      rw [show items [] = [] from rfl, List.nil_append] at h2
      rw [h2, trItem_congr (T := fun _ => True) (U := (s.compileItem [] x).1.ntKnown) (N := M) _ _ x h3]
      · intro n _; rw [h5, hk.sym]
      · intro n hn; rw [h6, hk.nt hn]
    · simp only [Known]
      exact Known.mono (fun _ h => h) (fun _ h => hk.known h) x h3
  | .repeatOne x a, s, r => by
    simp only [compileItem]
    obtain ⟨h1, h2, h3⟩ := compileItem_spec x s []
    have hk := grow_know (s.compileItem [] x).1 (x := .ebnf .repeating [items (s.compileItem [] x).2]) (by simp)
    refine compiles_one (h1.trans hk) ?_ ?_
    · intro M h5 h6
      simp only [trItem]
      rw [show items [] = [] from rfl, List.nil_append] at h2
      rw [h2, trItem_congr (T := fun _ => True) (U := (s.compileItem [] x).1.ntKnown) (N := M) _ _ x h3]
      · intro n _; rw [h5, hk.sym]
      · intro n hn; rw [h6, hk.nt hn]
    · simp only [Known]
      exact Known.mono (fun _ h => h) (fun _ h => hk.known h) x h3
  | .repeatZero x a, s, r => by
    simp only [compileItem]
    obtain ⟨h1, h2, h3⟩ := compileItem_spec x s []
    have hk := grow_know (s.compileItem [] x).1 (x := .ebnf .repeatZero [items (s.compileItem [] x).2]) (by simp)
    refine compiles_one (h1.trans hk) ?_ ?_
    · intro M h5 h6
      simp only [trItem]
      rw [show items [] = [] from rfl, List.nil_append] at h2
      rw [h2, trItem_congr (T := fun _ => True) (U := (s.compileItem [] x).1.ntKnown) (N := M) _ _ x h3]
      · intro n _; rw [h5, hk.sym]
      · intro n hn; rw [h6, hk.nt hn]
    · simp only [Known]
      exact Known.mono (fun _ h => h) (fun _ h => hk.known h) x h3
  | .guard x a, s, r => by
    simp only [compileItem]
    obtain ⟨h1, h2, h3⟩ := compileItem_spec x s []
    have hc := compiles_one (r := r) (x := .guard (-1) (items (s.compileItem [] x).2)) (a := a) (N := fun N => trItem N (.guard x a))
      (K := fun U => Known (fun _ => True) U x) h1 (by
        intro M h5 h6
        simp only [trItem]
        rw [show items [] = [] from rfl, List.nil_append] at h2
        rw [h2, trItem_congr (T := fun _ => True) (U := (s.compileItem [] x).1.ntKnown) (N := M) _ _ x h3]
        · intro n _; rw [h5]
        · intro n hn; rw [h6]) h3
    generalize appendAttr (compileItem s [] x).1 (push r (.guard (-1) (items (s.compileItem [] x).2))) a = q at hc ⊢
    obtain ⟨c1, c2, c3⟩ := hc
    have hk := grow_know q.1 (x := .guard (-1) (items (s.compileItem [] x).2)) (by simp)
    refine ⟨grow_guards (c1.trans hk) _, ?_, ?_⟩
    · rw [c2]
      congr 1
      refine trItem_congr (T := fun _ => True) (U := q.1.ntKnown) ?_ ?_ (.guard x a) (by simp only [Known]; exact c3)
      · intro n _; exact (hk.sym n).symm
      · intro n hn; exact (hk.nt hn).symm
    · simp only [Known]
      exact Known.mono (fun _ h => h) (fun _ h => hk.known h) x c3
  | .alternative x y a, s, r => by
    simp only [compileItem]
    obtain ⟨h1, h2, h3⟩ := compileItem_spec x s []
    obtain ⟨g1, g2, g3⟩ := compileItem_spec y (s.compileItem [] x).1 []
    have hk := grow_know ((s.compileItem [] x).1.compileItem [] y).1
      (x := .ebnf .alternative [items (s.compileItem [] x).2, items ((s.compileItem [] x).1.compileItem [] y).2]) (by simp)
    rw [show items [] = [] from rfl, List.nil_append] at h2 g2
    refine compiles_one ((h1.trans g1).trans hk) ?_ ?_
    · intro M h5 h6
      simp only [trItem]
      rw [h2, g2, trItem_congr (T := fun _ => True) (U := (s.compileItem [] x).1.ntKnown) (N := M) _ _ x h3,
        trItem_congr (T := fun _ => True) (U := ((s.compileItem [] x).1.compileItem [] y).1.ntKnown) (N := M) _ _ y g3]
      · intro n _; rw [h5, hk.sym]
      · intro n hn; rw [h6, hk.nt hn]
      · intro n _; rw [h5, hk.sym, g1.sym]
      · intro n hn; rw [h6, hk.nt (g1.known hn), g1.nt hn]
    · simp only [Known]
      exact ⟨Known.mono (fun _ h => h) (fun _ h => hk.known (g1.known h)) x h3, Known.mono (fun _ h => h) (fun _ h => hk.known h) y g3⟩

theorem compileItems_spec : ∀ (xs : List Ebnf) (s : Lang) (r : KeyRule),
    Compiles s r (s.compileItems r xs).1 (s.compileItems r xs).2 (fun N => trItems N xs) (fun U => KnownAll (fun _ => True) U xs)
  | [], s, r => by
    simp only [compileItems]
    exact ⟨.refl s, by simp [trItems], by simp only [KnownAll]⟩
  | x :: xs, s, r => by
    simp only [compileItems]
    obtain ⟨h1, h2, h3⟩ := compileItem_spec x s r
    obtain ⟨g1, g2, g3⟩ := compileItems_spec xs (s.compileItem r x).1 (s.compileItem r x).2
    refine ⟨h1.trans g1, ?_, ?_⟩
    · rw [g2, h2, List.append_assoc]
      simp only [trItems]
      rw [trItem_congr (T := fun _ => True) (U := (s.compileItem r x).1.ntKnown) _ _ x h3]
      · intro n _; rw [g1.sym]
      · intro n hn; rw [g1.nt hn]
    · simp only [KnownAll]
      exact ⟨Known.mono (fun _ h => h) (fun _ h => g1.known h) x h3, g3⟩
end

/-! ### The rules of the nonterminals -/

/-- The rules are those of the definitions so far: `F` gives the productions of each nonterminal. -/
structure GInv (s : Lang) (F : String → List (List Ebnf)) : Prop where
  ids : ItemInv s.ids []
  known : ∀ n, F n ≠ [] → s.ntKnown n
  rules : ∀ n i, get n s.ids.nameIds = some i → (s.rulesFor i).map items = (F n).map (trItems s.names)
  closed : ∀ n, ∀ p ∈ F n, KnownAll s.termKnown s.ntKnown p
  extra : ∀ i, s.rulesFor i ≠ [] → ∃ n, get n s.ids.nameIds = some i

theorem name_inj {g : GrammarIds} (h : ItemInv g []) {n m : String} {i : Nat} (hn : get n g.nameIds = some i) (hm : get m g.nameIds = some i) : n = m := by
  have h1 := (h.names n i hn).2
  rw [(h.names m i hm).2] at h1
  exact (Option.some.inj h1).symm

theorem rulesFor_congr {s t : Lang} (h : t.rules = s.rules) (i : Nat) : t.rulesFor i = s.rulesFor i := by simp only [rulesFor, h]

theorem GInv.grow {s t : Lang} {F : String → List (List Ebnf)} (h : GInv s F) (hg : Grow s t) : GInv t F := by
  have hinv := hg.inv h.ids
  refine ⟨hinv, fun n hn => hg.known (h.known n hn), ?_, ?_, ?_⟩
  · intro n i hi
    rw [rulesFor_congr hg.rules]
    by_cases hk : s.ntKnown n
    · obtain ⟨j, hj⟩ := Option.ne_none_iff_exists'.1 hk
      have := hg.names n j hj
      rw [hi] at this
      cases this
      rw [h.rules n i hj]
      refine List.map_congr_left fun p hp => ?_
      refine trItems_congr (T := s.termKnown) (U := s.ntKnown) ?_ ?_ p (h.closed n p hp)
      · intro m _; exact (hg.sym m).symm
      · intro m hm; exact (hg.nt hm).symm
    · have hF : F n = [] := by
        by_contra hne
        exact hk (h.known n hne)
      have hr : s.rulesFor i = [] := by
        by_contra hne
        obtain ⟨m, hm⟩ := h.extra i hne
        have := name_inj hinv hi (hg.names m i hm)
        subst this
        exact hk (by rw [ntKnown, hm]; exact Option.some_ne_none i)
      rw [hF, hr]
      rfl
  · intro n p hp
    refine KnownAll.mono ?_ (fun _ hm => hg.known hm) p (h.closed n p hp)
    intro m hm
    rw [termKnown, hg.terminals]
    exact hm
  · intro i hi
    rw [rulesFor_congr hg.rules] at hi
    obtain ⟨n, hn⟩ := h.extra i hi
    exact ⟨n, hg.names n i hn⟩

theorem grow_rule (s : Lang) (r : Rule) : Grow s { s with ids := (s.ids.identifierForRule r).1 } := by
  refine ⟨rfl, rfl, rfl, ?_, ?_⟩
  · intro h
    exact itemInv_drop (itemInv_step h (.rule r) (fun _ e => by cases e))
  · intro n i h
    show get n (s.ids.identifierForRule r).1.nameIds = some i
    unfold identifierForRule
    split <;> exact h

/-- Changing the rules of one nonterminal. -/
theorem GInv.put {s : Lang} {F : String → List (List Ebnf)} (h : GInv s F) {n : String} {i : Nat} (hn : get n s.ids.nameIds = some i)
    {rs : List KeyRule} {ps : List (List Ebnf)} (hr : rs.map items = ps.map (trItems s.names)) (hp : ∀ p ∈ ps, KnownAll s.termKnown s.ntKnown p) :
    GInv { s with rules := AssocMap.put i rs s.rules } (Function.update F n ps) := by
  have hk : s.ntKnown n := by rw [ntKnown, hn]; exact Option.some_ne_none i
  have hrf : ∀ j, ({ s with rules := AssocMap.put i rs s.rules } : Lang).rulesFor j = if i = j then rs else s.rulesFor j := by
    intro j
    simp only [rulesFor, get_put]
    split <;> rfl
  refine ⟨h.ids, ?_, ?_, ?_, ?_⟩
  · intro m hm
    by_cases he : m = n
    · subst he; exact hk
    · rw [Function.update_of_ne he] at hm
      exact h.known m hm
  · intro m j hj
    rw [hrf]
    by_cases he : m = n
    · subst he
      have hij : i = j := Option.some.inj (hn.symm.trans hj)
      rw [Function.update_self, if_pos hij]
      exact hr
    · have hij : i ≠ j := by
        rintro rfl
        exact he (name_inj h.ids hj hn)
      rw [Function.update_of_ne he, if_neg hij]
      exact h.rules m j hj
  · intro m p hm
    by_cases he : m = n
    · subst he
      rw [Function.update_self] at hm
      exact hp p hm
    · rw [Function.update_of_ne he] at hm
      exact h.closed m p hm
  · intro j hj
    rw [hrf] at hj
    by_cases hij : i = j
    · exact ⟨n, hij ▸ hn⟩
    · rw [if_neg hij] at hj
      exact h.extra j hj

/-- One more production. -/
theorem GInv.addProd {s : Lang} {F : String → List (List Ebnf)} (h : GInv s F) {n : String} {i : Nat} (hn : get n s.ids.nameIds = some i) {p : List Ebnf}
    (hp : KnownAll s.termKnown (fun _ => True) p) :
    GInv (s.addProd i p) (Function.update F n (F n ++ [p])) ∧ get n (s.addProd i p).ids.nameIds = some i ∧ (s.addProd i p).terminals = s.terminals ∧
      (s.addProd i p).errors = s.errors := by
  obtain ⟨h1, h2, h3⟩ := compileItems_spec p s []
  unfold Lang.addProd
  generalize hq : s.compileItems [] p = q at h1 h2 h3
  obtain ⟨t, r⟩ := q
  dsimp only at h1 h2 h3 ⊢
  have hg := h.grow h1
  have hn' := h1.names n i hn
  have hkn : KnownAll t.termKnown t.ntKnown p := by
    have key : ∀ xs : List Ebnf, KnownAll s.termKnown (fun _ => True) xs → KnownAll (fun _ => True) t.ntKnown xs → KnownAll t.termKnown t.ntKnown xs := by
      have e : t.termKnown = s.termKnown := by funext m; simp only [termKnown, h1.terminals]
      intro xs
      rw [e]
      exact knownAll_and xs
    exact key p hp h3
  have hput := hg.put hn' (rs := t.rulesFor i ++ [r]) (ps := F n ++ [p])
    (by
      rw [List.map_append, List.map_append, hg.rules n i hn']
      simp only [List.map_cons, List.map_nil, h2]
      rfl)
    (by
      intro p' hp'
      rcases List.mem_append.1 hp' with hp' | hp'
      · exact hg.closed n p' hp'
      · rw [List.mem_singleton.1 hp']; exact hkn)
  have hr := grow_rule { t with rules := AssocMap.put i (t.rulesFor i ++ [r]) t.rules } ⟨.nonterminal i, items r⟩
  exact ⟨hput.grow hr, hr.names n i hn', h1.terminals, h1.errors⟩

theorem GInv.addProds {n : String} {i : Nat} (ps : List (List Ebnf)) : ∀ {s : Lang} {F : String → List (List Ebnf)}, GInv s F → get n s.ids.nameIds = some i →
    (∀ p ∈ ps, KnownAll s.termKnown (fun _ => True) p) →
    GInv (ps.foldl (Lang.addProd i) s) (Function.update F n (F n ++ ps)) ∧ (ps.foldl (Lang.addProd i) s).terminals = s.terminals ∧
      (ps.foldl (Lang.addProd i) s).errors = s.errors := by
  induction ps with
  | nil =>
    intro s F h _ _
    simp only [List.foldl_nil, List.append_nil, Function.update_eq_self]
    exact ⟨h, trivial, trivial⟩
  | cons p ps ih =>
    intro s F h hn hp
    obtain ⟨h1, h2, h3, h4⟩ := h.addProd hn (hp p (List.mem_cons_self ..))
    obtain ⟨g1, g2, g3⟩ := ih h1 h2 (by
      intro q hq
      have : (s.addProd i p).termKnown = s.termKnown := by funext m; simp only [termKnown, h3]
      rw [this]
      exact hp q (List.mem_cons_of_mem _ hq))
    rw [Function.update_self, Function.update_idem, List.append_assoc] at g1
    exact ⟨g1, g2.trans h3, g3.trans h4⟩

/-- The productions after one more definition. -/
def defStep (F : String → List (List Ebnf)) (d : NtDef) : String → List (List Ebnf) :=
  Function.update F d.name ((if d.type = .replace then [] else F d.name) ++ d.prods)

theorem GInv.error {s : Lang} {F : String → List (List Ebnf)} (h : GInv s F) (e : Err) : GInv (s.error e) F := ⟨h.ids, h.known, h.rules, h.closed, h.extra⟩

theorem GInv.addNt {s : Lang} {F : String → List (List Ebnf)} (h : GInv s F) {d : NtDef} (hp : ∀ p ∈ d.prods, KnownAll s.termKnown (fun _ => True) p) :
    GInv (s.addNt d) (defStep F d) ∧ (s.addNt d).terminals = s.terminals ∧ (∀ e ∈ s.errors, e ∈ (s.addNt d).errors) := by
  obtain ⟨h1, h2⟩ := grow_nt s d.name
  unfold Lang.addNt
  generalize s.ids.idForNonterminal d.name = q at h1 h2
  obtain ⟨ids, i⟩ := q
  dsimp only at h1 h2 ⊢
  have g0 := h.grow h1
  generalize ht : ({ s with ids := ids } : Lang) = t at h1 g0
  have h2' : get d.name t.ids.nameIds = some i := by rw [← ht]; exact h2
  have e1 : t.terminals = s.terminals := by rw [← ht]
  have e2 : t.errors = s.errors := by rw [← ht]
  clear ht h2
  -- the error
  obtain ⟨u, hu, gu, u1, u2, u3⟩ : ∃ u, (if d.type = .assignment ∧ (!(t.rulesFor i).isEmpty) = true then t.error (.duplicateNonterminal d.name) else t) = u ∧
      GInv u F ∧ u.terminals = s.terminals ∧ (∀ e ∈ s.errors, e ∈ u.errors) ∧ u.ids = t.ids ∧ u.rules = t.rules := by
    refine ⟨_, rfl, ?_⟩
    split
    · exact ⟨g0.error _, e1, fun e he => List.mem_append_left _ (by rw [e2]; exact he), rfl, rfl⟩
    · exact ⟨g0, e1, fun e he => by rw [e2]; exact he, rfl, rfl⟩
  obtain ⟨u3, u4⟩ := u3
  rw [hu]
  have hun : get d.name u.ids.nameIds = some i := by rw [u3]; exact h2'
  -- the rules that are replaced
  obtain ⟨v, hv, gv, v1, v2, v3⟩ : ∃ v, (if d.type = .replace ∧ (!(t.rulesFor i).isEmpty) = true then { u with rules := AssocMap.put i [] u.rules } else u) = v ∧
      GInv v (Function.update F d.name (if d.type = .replace then [] else F d.name)) ∧ v.terminals = s.terminals ∧ (∀ e ∈ s.errors, e ∈ v.errors) ∧
      v.ids = u.ids := by
    refine ⟨_, rfl, ?_⟩
    by_cases hr : d.type = .replace
    · by_cases hd : (!(t.rulesFor i).isEmpty) = true
      · rw [if_pos ⟨hr, hd⟩, if_pos hr]
        exact ⟨gu.put hun (by rfl) (by intro p hp; cases hp), u1, u2, rfl⟩
      · rw [if_neg (fun h => hd h.2), if_pos hr]
        have hF : F d.name = [] := by
          have he : u.rulesFor i = [] := by
            rw [rulesFor_congr u4]
            simpa using hd
          have := gu.rules d.name i hun
          rw [he] at this
          exact List.map_eq_nil_iff.1 this.symm
        rw [← hF, Function.update_eq_self]
        exact ⟨gu, u1, u2, rfl⟩
    · rw [if_neg (fun h => hr h.1), if_neg hr, Function.update_eq_self]
      exact ⟨gu, u1, u2, rfl⟩
  rw [hv]
  obtain ⟨w1, w2, w3⟩ := gv.addProds d.prods (n := d.name) (i := i) (by rw [v3]; exact hun) (by
    intro p hp'
    have : v.termKnown = s.termKnown := by funext m; simp only [termKnown, v1]
    rw [this]
    exact hp p hp')
  rw [Function.update_self, Function.update_idem] at w1
  exact ⟨w1, w2.trans v1, fun e he => by rw [w3]; exact v2 e he⟩

/-- The productions after the definitions of some blocks. -/
def defsStep (F : String → List (List Ebnf)) : List (Block NtDef) → String → List (List Ebnf)
  | [] => F
  | .grammar ds :: us => defsStep (ds.foldl defStep F) us
  | .lexer .. :: us => defsStep F us

theorem GInv.addNts (ds : List NtDef) : ∀ {s : Lang} {F : String → List (List Ebnf)}, GInv s F →
    (∀ d ∈ ds, ∀ p ∈ d.prods, KnownAll s.termKnown (fun _ => True) p) →
    GInv (ds.foldl Lang.addNt s) (ds.foldl defStep F) ∧ (ds.foldl Lang.addNt s).terminals = s.terminals ∧ (∀ e ∈ s.errors, e ∈ (ds.foldl Lang.addNt s).errors) := by
  induction ds with
  | nil => intro s F h _; exact ⟨h, rfl, fun _ h => h⟩
  | cons d ds ih =>
    intro s F h hp
    obtain ⟨h1, h2, h3⟩ := h.addNt (hp d (List.mem_cons_self ..))
    obtain ⟨g1, g2, g3⟩ := ih h1 (by
      intro d' hd'
      have : (s.addNt d).termKnown = s.termKnown := by funext m; simp only [termKnown, h2]
      rw [this]
      exact hp d' (List.mem_cons_of_mem _ hd'))
    exact ⟨g1, g2.trans h2, fun e he => g3 e (h3 e he)⟩

/-- The terminals of the grammar blocks are in the dictionary. -/
def TermsKnown (s : Lang) (us : List (Block NtDef)) : Prop := ∀ ds, Block.grammar ds ∈ us → ∀ d ∈ ds, ∀ p ∈ d.prods, KnownAll s.termKnown (fun _ => True) p

theorem GInv.addUnits (us : List (Block NtDef)) : ∀ {s : Lang} {F : String → List (List Ebnf)}, GInv s F → TermsKnown s us →
    GInv (us.foldl Lang.addUnit s) (defsStep F us) ∧ (us.foldl Lang.addUnit s).terminals = s.terminals ∧ (∀ e ∈ s.errors, e ∈ (us.foldl Lang.addUnit s).errors) := by
  induction us with
  | nil => intro s F h _; exact ⟨h, rfl, fun _ h => h⟩
  | cons u us ih =>
    intro s F h hk
    cases u with
    | lexer t w ci cs ls => exact ih h (fun ds hd => hk ds (List.mem_cons_of_mem _ hd))
    | grammar ds =>
      obtain ⟨h1, h2, h3⟩ := h.addNts ds (hk ds (List.mem_cons_self ..))
      obtain ⟨g1, g2, g3⟩ := ih (s := ds.foldl Lang.addNt s) h1 (by
        intro ds' hd'
        have : (ds.foldl Lang.addNt s).termKnown = s.termKnown := by funext m; simp only [termKnown, h2]
        rw [this]
        exact hk ds' (List.mem_cons_of_mem _ hd'))
      exact ⟨g1, g2.trans h2, fun e he => g3 e (h3 e he)⟩

/-! ### The symbols -/

/-- The names of a dictionary to which symbols were only added by name. -/
structure TInv (d : TerminalDict) : Prop where
  pos : 0 ≤ d.max
  lt : ∀ n i, get n d.symbolOf = some i → 0 ≤ i ∧ i < d.max
  inj : ∀ n m i, get n d.symbolOf = some i → get m d.symbolOf = some i → n = m

theorem TInv.addNamed {d : TerminalDict} (h : TInv d) (n : String) : TInv (d.addNamed n).1 ∧ get n (d.addNamed n).1.symbolOf = some (d.addNamed n).2 ∧
    (d.addNamed n).2 = d.max ∧ ∀ m, m ≠ n → get m (d.addNamed n).1.symbolOf = get m d.symbolOf := by
  have hg : ∀ m, get m (d.addNamed n).1.symbolOf = if n = m then some d.max else get m d.symbolOf := fun m => get_put n d.max d.symbolOf m
  refine ⟨⟨?_, ?_, ?_⟩, ?_, rfl, ?_⟩
  · have := h.pos
    show 0 ≤ d.max + 1
    omega
  · intro m i hm
    have := h.pos
    rw [hg] at hm
    show 0 ≤ i ∧ i < d.max + 1
    split at hm
    · cases hm; omega
    · have := h.lt m i hm; omega
  · intro m k i hm hk
    rw [hg] at hm hk
    split at hm
    · next e1 =>
      split at hk
      · next e2 => exact e1.symm.trans e2
      · have := h.lt k i hk; cases hm; omega
    · split at hk
      · have := h.lt m i hm; cases hk; omega
      · exact h.inj m k i hm hk
  · rw [hg, if_pos rfl]; rfl
  · intro m hm
    rw [hg, if_neg (Ne.symm hm)]

def NoDup (s : Lang) : Prop := ∀ n, Err.duplicateLexer n ∉ s.errors

/-- What defining symbols leaves alone. -/
structure SGrow (s t : Lang) : Prop where
  ids : t.ids = s.ids
  rules : t.rules = s.rules
  errors : ∀ e ∈ s.errors, e ∈ t.errors
  inv : TInv s.terminals → TInv t.terminals
  names : TInv s.terminals → NoDup t → ∀ n i, get n s.terminals.symbolOf = some i → get n t.terminals.symbolOf = some i

theorem SGrow.refl (s : Lang) : SGrow s s := ⟨rfl, rfl, fun _ h => h, id, fun _ _ _ _ h => h⟩

theorem SGrow.trans {s t u : Lang} (h : SGrow s t) (h' : SGrow t u) : SGrow s u :=
  ⟨h'.ids.trans h.ids, h'.rules.trans h.rules, fun e he => h'.errors e (h.errors e he), fun i => h'.inv (h.inv i),
    fun hi hd n i e => h'.names (h.inv hi) hd n i (h.names hi (fun m hm => hd m (h'.errors _ hm)) n i e)⟩

theorem SGrow.same {s t : Lang} (h1 : t.ids = s.ids) (h2 : t.rules = s.rules) (h3 : ∀ e ∈ s.errors, e ∈ t.errors) (h4 : t.terminals = s.terminals) : SGrow s t :=
  ⟨h1, h2, h3, fun h => by rw [h4]; exact h, fun _ _ n i h => by rw [h4]; exact h⟩

theorem sgrow_error (s : Lang) (e : Err) : SGrow s (s.error e) := .same rfl rfl (fun _ h => List.mem_append_left _ h) rfl

theorem sgrow_foldl {α : Type} (f : Lang → α → Lang) (hf : ∀ s a, SGrow s (f s a)) (l : List α) : ∀ s, SGrow s (l.foldl f s) := by
  induction l with
  | nil => exact fun s => .refl s
  | cons a l ih => exact fun s => (hf s a).trans (ih _)

theorem known_of_symbol {s : Lang} (h : TInv s.terminals) (n : String) : 0 ≤ s.terminals.symbolForName n ↔ s.termKnown n := by
  unfold TerminalDict.symbolForName termKnown
  cases hg : get n s.terminals.symbolOf with
  | none => simp
  | some i => simp [(h.lt n i hg).1]

theorem sgrow_addNamed {s : Lang} {n : String} (hk : ¬ 0 ≤ s.terminals.symbolForName n) : SGrow s { s with terminals := (s.terminals.addNamed n).1 } := by
  refine ⟨rfl, rfl, fun _ h => h, fun h => (h.addNamed n).1, ?_⟩
  intro h _ m i hm
  obtain ⟨-, -, -, h4⟩ := h.addNamed n
  rw [h4 m ?_]
  · exact hm
  · rintro rfl
    exact hk ((known_of_symbol h m).2 (by rw [termKnown, hm]; exact Option.some_ne_none i))

theorem sgrow_addSymbol (ci cs : Bool) (s : Lang) (l : Lexeme) : SGrow s (addSymbol ci cs s l) := by
  unfold addSymbol
  refine .same ?_ ?_ ?_ ?_ <;> (simp only [addExpr, Lang.error]; split_ifs <;> simp_all)

theorem sgrow_symbolFor (type : UnitType) (s : Lang) (l : Lexeme) : SGrow s (symbolFor type s l).1 := by
  unfold symbolFor
  dsimp only
  split
  · split
    · split
      · next hge =>
        refine ⟨rfl, rfl, fun _ h => List.mem_append_left _ h, fun h => (h.addNamed l.name).1, ?_⟩
        intro _ hd
        exact absurd (List.mem_append_right _ (List.mem_singleton_self _)) (hd l.name)
      · next hge => exact sgrow_addNamed (by omega)
    · split
      · exact sgrow_error s _
      · exact .same rfl rfl (fun _ h => h) rfl
  · split
    · exact sgrow_error s _
    · split
      · exact sgrow_error s _
      · exact .refl s

theorem sgrow_addLexeme (type : UnitType) (weak ci cs : Bool) (s : Lang) (l : Lexeme) : SGrow s (addLexeme type weak ci cs s l) := by
  have h := sgrow_symbolFor type s l
  unfold addLexeme
  generalize symbolFor type s l = q at h ⊢
  obtain ⟨t, i⟩ := q
  dsimp only at h ⊢
  split
  · exact h
  · refine h.trans (.same ?_ ?_ ?_ ?_) <;> (simp only [addDef]; split_ifs <;> simp_all)

theorem sgrow_addLexerUnit (weak : Bool) (type : UnitType) (s : Lang) (u : Block NtDef) : SGrow s (addLexerUnit weak type s u) := by
  cases u with
  | grammar ds => exact .refl s
  | lexer t w ci cs ls =>
    simp only [addLexerUnit]
    split
    · exact sgrow_foldl _ (sgrow_addLexeme t w ci cs) ls s
    · exact .refl s

theorem sgrow_addSymbolsUnit (s : Lang) (u : Block NtDef) : SGrow s (addSymbolsUnit s u) := by
  unfold addSymbolsUnit
  split
  · exact sgrow_foldl _ (sgrow_addSymbol _ _) _ s
  · exact .refl s

mutual
theorem sgrow_implicit : ∀ (x : Ebnf) (s : Lang), SGrow s (s.implicit x)
  | .guard x _, s | .repeatZero x _, s | .repeatOne x _, s | .optional x _, s => by simp only [implicit]; exact sgrow_implicit x s
  | .alternative x y _, s => by simp only [implicit]; exact (sgrow_implicit x s).trans (sgrow_implicit y _)
  | .paren xs _, s => by simp only [implicit]; exact sgrow_implicits xs s
  | .nonterminal _ _ _, s => by simp only [implicit]; exact .refl s
  | .terminal k src n a, s => by
    simp only [implicit]
    split
    · exact .refl s
    · split
      · exact .refl s
      · next h => exact (sgrow_addNamed (n := n) (by omega)).trans (.same rfl rfl (fun _ h => h) rfl)

theorem sgrow_implicits : ∀ (xs : List Ebnf) (s : Lang), SGrow s (s.implicits xs)
  | [], s => by simp only [implicits]; exact .refl s
  | x :: xs, s => by simp only [implicits]; exact (sgrow_implicit x s).trans (sgrow_implicits xs _)
end

theorem sgrow_implicitUnit (s : Lang) (u : Block NtDef) : SGrow s (implicitUnit s u) := by
  cases u with
  | lexer t w ci cs ls => exact .refl s
  | grammar ds => exact sgrow_foldl _ (fun s d => sgrow_foldl _ (fun s p => sgrow_implicits p s) d.prods s) ds s

theorem sgrow_addSymbols (s : Lang) (us : List (Block NtDef)) : SGrow s (s.addSymbols us) :=
  ((sgrow_foldl _ sgrow_addSymbolsUnit us s).trans (sgrow_foldl _ (fun s p => sgrow_foldl _ (sgrow_addLexerUnit p.1 p.2) us s) passes _)).trans
    (sgrow_foldl _ sgrow_implicitUnit us _)

theorem SGrow.known {s t : Lang} (h : SGrow s t) (hi : TInv s.terminals) (hd : NoDup t) {n : String} (hn : s.termKnown n) : t.termKnown n := by
  obtain ⟨i, hi'⟩ := Option.ne_none_iff_exists'.1 hn
  rw [termKnown, h.names hi hd n i hi']
  exact Option.some_ne_none i

theorem SGrow.noDup {s t : Lang} (h : SGrow s t) (hd : NoDup t) : NoDup s := fun n hn => hd n (h.errors _ hn)

theorem SGrow.sym {s t : Lang} (h : SGrow s t) (hi : TInv s.terminals) (hd : NoDup t) {n : String} (hn : s.termKnown n) : t.names.sym n = s.names.sym n := by
  obtain ⟨i, hi'⟩ := Option.ne_none_iff_exists'.1 hn
  simp only [Lang.names, TerminalDict.symbolForName, hi', h.names hi hd n i hi']

theorem GInv.sgrow {s t : Lang} {F : String → List (List Ebnf)} (h : GInv s F) (hg : SGrow s t) (hi : TInv s.terminals) (hd : NoDup t) : GInv t F := by
  have e : t.ntKnown = s.ntKnown := by funext n; simp only [ntKnown, hg.ids]
  refine ⟨by rw [hg.ids]; exact h.ids, by rw [e]; exact h.known, ?_, ?_, ?_⟩
  · intro n i hn
    rw [hg.ids] at hn
    rw [rulesFor_congr hg.rules, h.rules n i hn]
    refine List.map_congr_left fun p hp => ?_
    refine trItems_congr (T := s.termKnown) (U := s.ntKnown) ?_ ?_ p (h.closed n p hp)
    · intro m hm; exact (hg.sym hi hd hm).symm
    · intro m _; simp only [Lang.names, hg.ids]
  · intro n p hp
    rw [e]
    exact KnownAll.mono (fun m hm => hg.known hi hd hm) (fun _ hm => hm) p (h.closed n p hp)
  · intro i hr
    rw [rulesFor_congr hg.rules] at hr
    rw [hg.ids]
    exact h.extra i hr

end Lang

mutual
/-- The terminals that are given by name are of this language. -/
def ownE : Ebnf → Prop
  | .terminal k s _ _ => k = .ident → s = ""
  | .nonterminal .. => True
  | .paren xs _ => ownEs xs
  | .optional x _ | .repeatOne x _ | .repeatZero x _ | .guard x _ => ownE x
  | .alternative x y _ => ownE x ∧ ownE y

def ownEs : List Ebnf → Prop
  | [] => True
  | x :: xs => ownE x ∧ ownEs xs
end

namespace Lang

mutual
/-- After the implicit definitions every terminal is in the dictionary. -/
theorem implicit_known : ∀ (x : Ebnf) (s : Lang), ownE x → TInv s.terminals → NoDup (s.implicit x) → Known (s.implicit x).termKnown (fun _ => True) x
  | .guard x _, s, ho, hi, hd | .repeatZero x _, s, ho, hi, hd | .repeatOne x _, s, ho, hi, hd | .optional x _, s, ho, hi, hd => by
    simp only [ownE] at ho
    simp only [implicit] at hd ⊢
    simp only [Known]
    exact implicit_known x s ho hi hd
  | .alternative x y _, s, ho, hi, hd => by
    simp only [ownE] at ho
    simp only [implicit] at hd ⊢
    simp only [Known]
    have g := sgrow_implicit y (s.implicit x)
    have hi' := (sgrow_implicit x s).inv hi
    exact ⟨Known.mono (fun n hn => g.known hi' hd hn) (fun _ h => h) x (implicit_known x s ho.1 hi (g.noDup hd)), implicit_known y _ ho.2 hi' hd⟩
  | .paren xs _, s, ho, hi, hd => by
    simp only [ownE] at ho
    simp only [implicit] at hd ⊢
    simp only [Known]
    exact implicits_known xs s ho hi hd
  | .nonterminal _ _ _, s, _, _, _ => by simp only [Known]
  | .terminal k src n a, s, ho, hi, _ => by
    simp only [ownE] at ho
    simp only [Known, implicit]
    rw [if_neg (fun h => h.2 (ho h.1))]
    split
    · next h => exact (known_of_symbol hi n).1 h
    · show get n (s.terminals.addNamed n).1.symbolOf ≠ none
      rw [(hi.addNamed n).2.1]
      exact Option.some_ne_none _

theorem implicits_known : ∀ (xs : List Ebnf) (s : Lang), ownEs xs → TInv s.terminals → NoDup (s.implicits xs) →
    KnownAll (s.implicits xs).termKnown (fun _ => True) xs
  | [], _, _, _, _ => by simp only [KnownAll]
  | x :: xs, s, ho, hi, hd => by
    simp only [ownEs] at ho
    simp only [implicits] at hd ⊢
    simp only [KnownAll]
    have g := sgrow_implicits xs (s.implicit x)
    have hi' := (sgrow_implicit x s).inv hi
    exact ⟨Known.mono (fun n hn => g.known hi' hd hn) (fun _ h => h) x (implicit_known x s ho.1 hi (g.noDup hd)), implicits_known xs _ ho.2 hi' hd⟩
end

/-- A fold that makes something true for every element. -/
theorem foldl_known {α : Type} (f : Lang → α → Lang) (hf : ∀ s a, SGrow s (f s a)) (K : (String → Prop) → α → Prop)
    (hK : ∀ T U a, (∀ n, T n → U n) → K T a → K U a) (l : List α) (hl : ∀ a ∈ l, ∀ s, TInv s.terminals → NoDup (f s a) → K (f s a).termKnown a) :
    ∀ s, TInv s.terminals → NoDup (l.foldl f s) → ∀ a ∈ l, K (l.foldl f s).termKnown a := by
  induction l with
  | nil => intro _ _ _ a ha; cases ha
  | cons b l ih =>
    intro s hi hd a ha
    have g := sgrow_foldl f hf l (f s b)
    have hi' := (hf s b).inv hi
    rcases List.mem_cons.1 ha with rfl | ha
    · exact hK _ _ a (fun n hn => g.known hi' hd hn) (hl a (List.mem_cons_self ..) s hi (g.noDup hd))
    · exact ih (fun a ha => hl a (List.mem_cons_of_mem _ ha)) (f s b) hi' hd a ha

/-- The blocks that name no terminal of another language. -/
def OwnBlocks (us : List (Block NtDef)) : Prop := ∀ ds, Block.grammar ds ∈ us → ∀ d ∈ ds, ∀ p ∈ d.prods, ownEs p

theorem addSymbols_known (s : Lang) {us : List (Block NtDef)} (ho : OwnBlocks us) (hi : TInv s.terminals) (hd : NoDup (s.addSymbols us)) :
    TermsKnown (s.addSymbols us) us := by
  have g1 := sgrow_foldl _ sgrow_addSymbolsUnit us s
  have g2 := sgrow_foldl _ (fun s p => sgrow_foldl _ (sgrow_addLexerUnit p.1 p.2) us s) passes (us.foldl addSymbolsUnit s)
  have hi' := (g1.trans g2).inv hi
  have key := foldl_known implicitUnit sgrow_implicitUnit
    (fun T u => ∀ ds, u = Block.grammar ds → ∀ d ∈ ds, ∀ p ∈ d.prods, KnownAll T (fun _ => True) p)
    (fun T U u hTU h ds hds d hd p hp => KnownAll.mono hTU (fun _ h => h) p (h ds hds d hd p hp)) us (by
      intro u hu t ht hdt ds hds
      subst hds
      exact foldl_known (fun s (d : NtDef) => d.prods.foldl implicits s) (fun s d => sgrow_foldl _ (fun s p => sgrow_implicits p s) d.prods s) (fun T d => ∀ p ∈ d.prods, KnownAll T (fun _ => True) p)
        (fun T U d hTU h p hp => KnownAll.mono hTU (fun _ h => h) p (h p hp)) ds (by
          intro d hdd t' ht' hdt'
          exact foldl_known _ (fun s p => sgrow_implicits p s) (fun T p => KnownAll T (fun _ => True) p)
            (fun T U p hTU h => KnownAll.mono hTU (fun _ h => h) p h) d.prods (by
              intro p hp t'' ht'' hdt''
              exact implicits_known p t'' (ho ds hu d hdd p hp) ht'' hdt'') t' ht' hdt') t ht hdt) _ hi' hd
  intro ds hds
  exact key _ hds ds rfl

/-! ### The checks -/

mutual
theorem sgrow_useItem : ∀ (x : Item) (s : Lang), SGrow s (s.useItem x)
  | .terminal n, s => by simp only [useItem]; exact .same rfl rfl (fun _ h => h) rfl
  | .ebnf k rs, s => by simp only [useItem]; exact sgrow_useRules rs s
  | .empty, s | .eoi, s | .eog, s | .nonterminal _, s | .guard _ _, s => by simp only [useItem]; exact .refl s

theorem sgrow_useItems : ∀ (xs : List Item) (s : Lang), SGrow s (s.useItems xs)
  | [], s => by simp only [useItems]; exact .refl s
  | x :: xs, s => by simp only [useItems]; exact (sgrow_useItem x s).trans (sgrow_useItems xs _)

theorem sgrow_useRules : ∀ (rs : List (List Item)) (s : Lang), SGrow s (s.useRules rs)
  | [], s => by simp only [useRules]; exact .refl s
  | r :: rs, s => by simp only [useRules]; exact (sgrow_useItems r s).trans (sgrow_useRules rs _)
end

theorem sgrow_useAll (s : Lang) : SGrow s s.useAll :=
  sgrow_foldl _ (fun s _ => sgrow_foldl _ (fun s r => sgrow_useItems (items r) s) _ s) _ s

theorem sgrow_checkUndefined (s : Lang) : SGrow s s.checkUndefined := by
  refine sgrow_foldl _ (fun s i => ?_) _ s
  split
  · split
    · exact sgrow_error s _
    · exact .refl s
  · exact .refl s

theorem addUnits_errors : ∀ (us : List (Block NtDef)) (t : Lang), ∀ e ∈ t.errors, e ∈ (us.foldl addUnit t).errors := by
  intro us
  induction us with
  | nil => exact fun _ _ h => h
  | cons u us ih =>
    intro t e he
    refine ih _ e ?_
    cases u with
    | lexer => exact he
    | grammar ds =>
      show e ∈ (ds.foldl addNt t).errors
      clear ih
      induction ds generalizing t with
      | nil => exact he
      | cons d ds ih =>
        refine ih (t.addNt d) ?_
        unfold addNt
        generalize t.ids.idForNonterminal d.name = q
        obtain ⟨ids, i⟩ := q
        dsimp only
        have key : ∀ (ps : List (List Ebnf)) (u : Lang), e ∈ u.errors → e ∈ (ps.foldl (Lang.addProd i) u).errors := by
          intro ps
          induction ps with
          | nil => exact fun _ h => h
          | cons p ps ih =>
            intro u hu
            refine ih _ ?_
            unfold Lang.addProd
            have := (compileItems_spec p u []).1.errors
            rw [← this] at hu
            exact hu
        refine key _ _ ?_
        simp only [Lang.error]
        split_ifs <;> simp [he]

theorem compileBlock_errors (s : Lang) (us : List (Block NtDef)) : ∀ e ∈ s.errors, e ∈ (s.compileBlock us).errors := by
  intro e he
  exact ((sgrow_useAll _).trans (sgrow_checkUndefined _)).errors e (addUnits_errors us _ e ((sgrow_addSymbols s us).errors e he))

theorem compile_errors : ∀ (blocks : List (List (Block NtDef))) (s : Lang), ∀ e ∈ s.errors, e ∈ (s.compile blocks).errors
  | [], _, _, he => he
  | us :: more, s, e, he => compile_errors more _ e (compileBlock_errors s us e he)

/-- A whole language block. -/
theorem compileBlock_spec {s : Lang} {F : String → List (List Ebnf)} (h : GInv s F) (hi : TInv s.terminals) {us : List (Block NtDef)} (ho : OwnBlocks us)
    (hd : NoDup (s.compileBlock us)) : GInv (s.compileBlock us) (defsStep F us) ∧ TInv (s.compileBlock us).terminals := by
  have g1 := sgrow_addSymbols s us
  have g3 := (sgrow_useAll (us.foldl addUnit (s.addSymbols us))).trans (sgrow_checkUndefined _)
  have hi1 := g1.inv hi
  have hd1 : NoDup (s.addSymbols us) := fun n hn => hd n (g3.errors _ (addUnits_errors us _ _ hn))
  have hg1 := h.sgrow g1 hi hd1
  obtain ⟨h1, h2, -⟩ := hg1.addUnits us (addSymbols_known s ho hi hd1)
  have hi2 : TInv (us.foldl addUnit (s.addSymbols us)).terminals := by rw [h2]; exact hi1
  exact ⟨h1.sgrow g3 hi2 hd, g3.inv hi2⟩

/-- A language and those that it inherits from. -/
theorem compile_spec : ∀ (blocks : List (List (Block NtDef))) (s : Lang), (∀ us ∈ blocks, OwnBlocks us) → ∀ {F : String → List (List Ebnf)}, GInv s F → TInv s.terminals →
    NoDup (s.compile blocks) → GInv (s.compile blocks) (blocks.foldl defsStep F) ∧ TInv (s.compile blocks).terminals
  | [], s, _, F, h, hi, _ => ⟨h, hi⟩
  | us :: more, s, ho, F, h, hi, hd => by
    simp only [compile] at hd ⊢
    have hd1 : NoDup (s.compileBlock us) := fun n hn => hd n (compile_errors more _ _ hn)
    obtain ⟨h1, h2⟩ := compileBlock_spec h hi (ho us (List.mem_cons_self ..)) hd1
    exact compile_spec more _ (fun us hu => ho us (List.mem_cons_of_mem _ hu)) h1 h2 hd

end Lang
end Language
end TameParse

import Verif.GuardCheckProps
/-
Which guards are reported as empty or without effect (C86): the theorem for whole languages.
-/
namespace TameParse
namespace GuardCheck
open AssocMap GrammarIds Relation Language Lang
open ParserTables (isTerminal)

/-- The item of the grammar for an item of a definition. -/
def Stands (s : Lang) (w : Simple) (y : Item) : Prop := Attrs.itemOf s.terminals.symbolForName (fun m => (s.ids.idForNonterminal m).2) w = [y]

/-- Something is written in a language or in one that it inherits from, also in productions that are replaced later. -/
def Written (blocks : List (List (Block NtSyntax))) (w : Simple) : Prop := ∃ d ∈ defsOf blocks, ∃ p ∈ d.prods, Within w p

/-- A sequence of nothing but parentheses. -/
inductive Blank : List Simple → Prop
  | nil : Blank []
  | paren {f a xs} (h : Blank f) (hs : Blank xs) : Blank (.paren f [] a :: xs)

section
variable {blocks : List (List (Block NtSyntax))}

theorem stage_guards (hown : ∀ d ∈ defsOf blocks, ∀ p ∈ d.prods, ownAll p = true) (hd : NoDup (stage blocks)) :
    CInv (stage blocks) ((blocks.map (List.map unitDef)).flatMap prodsOf) := by
  have := compile_guards (blocks.map (List.map unitDef)) Lang.new (ownBlocks_of hown) cinv_new ginv_new tinv_new hd
  rwa [List.nil_append] at this

theorem mem_prods (q : List Ebnf) : q ∈ (blocks.map (List.map unitDef)).flatMap prodsOf ↔ ∃ d ∈ defsOf blocks, ∃ p ∈ d.prods, q = simpleDefs p := by
  rw [defsOf_eq]
  simp only [List.mem_flatMap, List.mem_map]
  constructor
  · rintro ⟨_, ⟨us, hu, rfl⟩, hq⟩
    obtain ⟨d, hd, p, hp, rfl⟩ := (mem_prodsOf us q).1 hq
    exact ⟨d, ⟨us, hu, hd⟩, p, hp, rfl⟩
  · rintro ⟨d, ⟨us, hu, hd⟩, p, hp, rfl⟩
    exact ⟨_, ⟨us, hu, rfl⟩, (mem_prodsOf us _).2 ⟨d, hd, p, hp, rfl⟩⟩

/-- The names under which `Stands` looks items up. -/
def names' (s : Lang) : Names := ⟨s.terminals.symbolForName, fun m => (s.ids.idForNonterminal m).2⟩

theorem names_known (s : Lang) (n : String) (hn : s.ntKnown n) : s.names.nt n = (names' s).nt n := by
  obtain ⟨j, hj⟩ := Option.ne_none_iff_exists'.1 hn
  show s.names.nt n = ((s.ids.idForNonterminal n).2 : Int)
  simp only [Lang.names, GrammarIds.idForNonterminal, hj, Option.getD_some]

theorem stands_iff {s : Lang} {w : Simple} {y : Item} : Stands s w y ↔ ts (names' s) w = [y] := by
  unfold Stands ts
  rw [Attrs.itemOf_eq]
  rfl

/-- The guards that the stage remembers are those that are written. -/
theorem guards_written (hown : ∀ d ∈ defsOf blocks, ∀ p ∈ d.prods, ownAll p = true) (hd : ∀ n, Err.duplicateLexer n ∉ (stage blocks).errors) (y : Item) :
    y ∈ (stage blocks).guards ↔ ∃ c f r a, Written blocks (.guard c f r a) ∧ Stands (stage blocks) (.guard c f r a) y := by
  have h := stage_guards hown hd
  rw [h.guards]
  generalize stage blocks = s at h
  constructor
  · rintro ⟨q, hq, hy⟩
    rw [guardsEs_congr (N := s.names) (T := s.termKnown) (U := s.ntKnown) (M := names' s) (fun _ _ => rfl) (names_known s) q (h.known q hq)] at hy
    obtain ⟨d, hd, p, hp, rfl⟩ := (mem_prods q).1 hq
    obtain ⟨c, f, r, a, hw, e⟩ := (mem_gs (names' s) y _ p (Nat.lt_succ_self _)).1 hy
    exact ⟨c, f, r, a, ⟨d, hd, p, hp, hw⟩, stands_iff.2 e.symm⟩
  · rintro ⟨c, f, r, a, ⟨d, hd, p, hp, hw⟩, e⟩
    have hq := (mem_prods (blocks := blocks) (simpleDefs p)).2 ⟨d, hd, p, hp, rfl⟩
    refine ⟨_, hq, ?_⟩
    rw [guardsEs_congr (N := s.names) (T := s.termKnown) (U := s.ntKnown) (M := names' s) (fun _ _ => rfl) (names_known s) _ (h.known _ hq)]
    exact (mem_gs (names' s) y _ p (Nat.lt_succ_self _)).2 ⟨c, f, r, a, hw, (stands_iff.1 e).symm⟩

theorem blank_iff (N : Names) : ∀ (k : Nat) (es : List Simple), sizeOf es < k → (tss N es = [] ↔ Blank es)
  | 0, _, hk => by omega
  | k + 1, [], _ => ⟨fun _ => .nil, fun _ => tss_nil⟩
  | k + 1, e :: es, hk => by
    have hs : sizeOf (e :: es) = 1 + sizeOf e + sizeOf es := by simp
    rw [tss_cons, List.append_eq_nil_iff, blank_iff N k es (by omega)]
    constructor
    · rintro ⟨h, hb⟩
      by_cases ha : Atom e
      · obtain ⟨x, hx⟩ := ts_atom (N := N) ha
        rw [hx] at h
        cases h
      · cases e with
        | paren f r a =>
          cases r with
          | nil =>
            rw [ts_paren_nil] at h
            have hs' : sizeOf (Simple.paren f [] a) = 1 + sizeOf f + sizeOf ([] : List (List Simple)) + sizeOf a := by simp
            exact .paren ((blank_iff N k f (by omega)).1 h) hb
          | cons r rest => exact absurd trivial ha
        | _ => exact absurd trivial ha
    · rintro h
      cases h with
      | @paren f a _ hf hb =>
        have hs' : sizeOf (Simple.paren f [] a) = 1 + sizeOf f + sizeOf ([] : List (List Simple)) + sizeOf a := by simp
        rw [ts_paren_nil]
        exact ⟨(blank_iff N k f (by omega)).2 hf, hb⟩

/-- What a guard stands for, and when there is nothing in it. -/
theorem stands_guard {s : Lang} {c : Bool} {f : List Simple} {r : List (List Simple)} {a : Attr} {y : Item} (h : Stands s (.guard c f r a) y) :
    y = .guard (-1) (ts (names' s) (.paren f r .blank)) ∧ (ts (names' s) (.paren f r .blank) = [] ↔ r = [] ∧ Blank f) := by
  rw [stands_iff, Attrs.tr_guard] at h
  refine ⟨(List.singleton_inj.1 h).symm, ?_⟩
  cases r with
  | nil =>
    rw [ts_paren_nil, blank_iff _ _ f (Nat.lt_succ_self _)]
    simp
  | cons b r =>
    rw [ts_paren_cons]
    simp

/-- What a guard stands for can be read without a terminal exactly if one of its alternatives can. -/
theorem yield_nil (hown : ∀ d ∈ defsOf blocks, ∀ p ∈ d.prods, ownAll p = true) (hd : NoDup (stage blocks)) {c : Bool} {f : List Simple} {r : List (List Simple)} {a : Attr}
    (hw : Written blocks (.guard c f r a)) :
    Yield (stage blocks).gram (ts (names' (stage blocks)) (.paren f r .blank)) [] ↔ ∃ q ∈ f :: r, Means (IsProd (defsOf blocks)) q [] := by
  obtain ⟨hg, -⟩ := stage_inv hown hd
  have hC := stage_guards hown hd
  generalize hF : ((defsOf blocks).map ntDef).foldl defStep (fun _ => []) = F at hg
  have hmem : ∀ n q, q ∈ F n ↔ ∃ p, IsProd (defsOf blocks) n p ∧ q = simpleDefs p := by
    intro n q
    rw [← hF]
    exact mem_defSteps _ n q
  generalize stage blocks = s at hg hC
  have hall : ∀ m p, IsProd (defsOf blocks) m p → KnownAll s.termKnown s.ntKnown (simpleDefs p) := fun m p hp =>
    hg.closed m _ ((hmem m _).2 ⟨p, hp, rfl⟩)
  have hrules : ∀ m, s.ntKnown m → s.gram.rules ((names' s).nt m) = (F m).map (trItems (names' s)) := by
    intro m hm
    obtain ⟨i, hi⟩ := Option.ne_none_iff_exists'.1 hm
    have hnt : (names' s).nt m = (i : Int) := by
      rw [← names_known s m hm]
      simp only [Lang.names, hi, Option.getD_some]
    rw [hnt]
    show (if (0 : Int) ≤ (i : Int) then (s.rulesFor (i : Int).toNat).map items else []) = _
    rw [if_pos (by omega), Int.toNat_natCast, hg.rules m i hi]
    exact List.map_congr_left fun q hq => trItems_congr (N := s.names) (M := names' s) (T := s.termKnown) (U := s.ntKnown) (fun _ _ => rfl) (names_known s) q (hg.closed m q hq)
  have hkn : ∀ m p, IsProd (defsOf blocks) m p → s.ntKnown m := fun m p hp =>
    hg.known m (List.ne_nil_of_mem ((hmem m _).2 ⟨p, hp, rfl⟩))
  have hks : KS s.ntKnown [.paren f r .blank] := by
    obtain ⟨d, hd, p, hp, hw⟩ := hw
    have hp := KnownAll.mono (T' := fun _ => True) (fun _ _ => trivial) (fun _ h => h) _ (hC.known _ ((mem_prods _).2 ⟨d, hd, p, hp, rfl⟩))
    clear hd
    have hk : KS s.ntKnown p := hp
    clear hp
    have hmemk : ∀ {x : Simple} {xs : List Simple}, x ∈ xs → KS s.ntKnown xs → KS s.ntKnown [x] := by
      intro x xs hx
      induction xs with
      | nil => cases hx
      | cons z xs ih =>
        intro h
        obtain ⟨h1, h2⟩ := ks_cons.1 h
        rcases List.mem_cons.1 hx with rfl | hx
        · exact h1
        · exact ih hx h2
    have hpar : ∀ {f : List Simple} {r : List (List Simple)} {a : Attr}, KS s.ntKnown [.paren f r a] → ∀ q ∈ f :: r, KS s.ntKnown q := by
      intro f r a h
      have : Known (fun _ => True) s.ntKnown (simpleDef (.paren f r a)) := by simpa [KS, simpleDefs, KnownAll] using h
      exact fun q hq => known_paren r f a this q hq
    have hgu : ∀ {c f r a}, KS s.ntKnown [.guard c f r a] → KS s.ntKnown [.paren f r .blank] := by
      intro c f r a h
      cases r with
      | nil => simpa [KS, simpleDefs, KnownAll, simpleDef, altDefs, Known] using h
      | cons b r => simpa [KS, simpleDefs, KnownAll, simpleDef, altDefs, Known] using h
    have key : ∀ {w : Simple} {p : List Simple}, Within w p → KS s.ntKnown p → KS s.ntKnown [w] := by
      intro w p hw
      induction hw with
      | here h => exact hmemk h
      | guard hx hp _ ih => exact fun hk => ih (hpar (hgu (hmemk hx hk)) _ hp)
      | paren hx hp _ ih => exact fun hk => ih (hpar (hmemk hx hk) _ hp)
      | star hx _ ih => exact fun hk => ih (by simpa [KS, simpleDefs, simpleDef, KnownAll, Known] using hmemk hx hk)
      | plus hx _ ih => exact fun hk => ih (by simpa [KS, simpleDefs, simpleDef, KnownAll, Known] using hmemk hx hk)
      | question hx _ ih => exact fun hk => ih (by simpa [KS, simpleDefs, simpleDef, KnownAll, Known] using hmemk hx hk)
    exact hgu (key hw hk)
  constructor
  · intro h
    obtain ⟨w, hm, e⟩ := means_of_yield (P := IsProd (defsOf blocks)) (U := s.ntKnown) (N := names' s) (by
      intro m hm r hr
      rw [hrules m hm] at hr
      obtain ⟨q, hq, rfl⟩ := List.mem_map.1 hr
      obtain ⟨p, hp, rfl⟩ := (hmem m q).1 hq
      exact ⟨p, hp, rfl, KnownAll.mono (fun _ _ => trivial) (fun _ h => h) _ (hall m p hp)⟩) h [.paren f r .blank] hks (tss_one _)
    rw [List.map_eq_nil_iff.1 e.symm] at hm
    generalize hv : ([] : List String) = v at hm
    cases hm with
    | @paren _ _ _ q u _ v hp hu h' =>
      obtain ⟨h1, h2⟩ := List.append_eq_nil_iff.1 hv.symm
      rw [h1] at hu
      refine ⟨q, hp, ?_⟩
      rw [← hv]
      exact hu
  · rintro ⟨q, hq, hm⟩
    have := yield_of_means (N := names' s) (g := s.gram) (P := IsProd (defsOf blocks)) (fun m p hp => by
      rw [hrules m (hkn m p hp)]
      exact List.mem_map.2 ⟨_, (hmem m _).2 ⟨p, hp, rfl⟩, rfl⟩) (Means.paren (a := .blank) hq hm .nil)
    rwa [List.append_nil, tss_one] at this

theorem yield_of_derives {g : Gram} {r : List Item} (h : g.Derives r []) : Yield g r [] := yield_iff.2 ⟨[], h, by simp, rfl⟩

/-- Where there are no guards, what reads nothing is empty. -/
theorem derives_of_yield {g : Gram} {U : Item → Prop} (hU : g.Closed U) (hno : ∀ p l, ¬ U (.guard p l)) {r : List Item} (hr : ∀ y ∈ r, U y) {ns : List Int}
    (h : Yield g r ns) (hn : ns = []) : g.Derives r [] := by
  rw [Gram.derives_nil_iff]
  have hp : ∀ x, U x → ∀ r ∈ g.prods x, ∀ y ∈ r, U y := by
    intro x hx r hr y hy
    cases x with
    | nonterminal n => exact hU _ hx r hr y hy
    | empty =>
      simp only [Gram.prods, List.mem_singleton] at hr
      subst hr
      cases hy
    | ebnf k rs =>
      have hb : ∀ y ∈ Gram.ebnfRule rs, U y := by
        intro y hy
        cases rs with
        | nil => cases hy
        | cons b rs => exact hU _ hx b (List.mem_cons_self ..) y hy
      cases k with
      | alternative => exact hU _ hx r hr y hy
      | optional =>
        simp only [Gram.prods, List.mem_cons, List.not_mem_nil, or_false] at hr
        rcases hr with rfl | rfl
        · cases hy
        · exact hb y hy
      | repeating =>
        simp only [Gram.prods, List.mem_cons, List.not_mem_nil, or_false] at hr
        rcases hr with rfl | rfl
        · exact hb y hy
        · rcases List.mem_cons.1 hy with rfl | hy
          · exact hx
          · exact hb y hy
      | repeatZero =>
        simp only [Gram.prods, List.mem_cons, List.not_mem_nil, or_false] at hr
        rcases hr with rfl | rfl
        · cases hy
        · rcases List.mem_cons.1 hy with rfl | hy
          · exact hx
          · exact hb y hy
    | _ => cases hr
  induction h with
  | nil => exact fun _ h => (nomatch h)
  | terminal => cases hn
  | guard => exact absurd (hr _ (List.mem_cons_self ..)) (hno _ _)
  | node hx _ _ ih1 ih2 =>
    obtain ⟨e1, e2⟩ := List.append_eq_nil_iff.1 hn
    intro y hy
    rcases List.mem_cons.1 hy with rfl | hy
    · exact ⟨hx, ih1 (hp _ (hr _ (List.mem_cons_self ..)) _ hx) e1⟩
    · exact ih2 (fun y hy => hr y (List.mem_cons_of_mem _ hy)) e2 y hy

/-- **C86**, one direction (partial: no repetition or alternative inside the guards begins with something that can be empty unless all of it can be). Whatever the order of the
check, a guard that is reported as without effect is written in the definition, holds something, and one of its alternatives can be empty; and empty guards are reported, unless that is turned off. -/
theorem ineffective_sound_partial (hown : ∀ d ∈ defsOf blocks, ∀ p ∈ d.prods, ownAll p = true) (hd : ∀ n, Err.duplicateLexer n ∉ (stage blocks).errors)
    {U : Item → Prop} (hU : (stage blocks).gram.Closed U) (hE : (stage blocks).gram.EbnfSound U)
    (hI : Inside U (stage blocks).guards) {order : List Item} (ho : ∀ y, y ∈ order ↔ y ∈ (stage blocks).guards) {fuel : Nat} {allow : Bool} {c : ItemCache} {reps : List Report}
    (h : checkGuards (stage blocks).gram fuel allow [] order = some (c, reps)) :
    (∀ y, .ineffective y ∈ reps → ∃ c f r a, Written blocks (.guard c f r a) ∧ Stands (stage blocks) (.guard c f r a) y ∧ ¬ (r = [] ∧ Blank f) ∧
      ∃ q ∈ f :: r, Means (IsProd (defsOf blocks)) q []) ∧
    ∀ y, .empty y ∈ reps ↔ allow = false ∧ ∃ c f a, Written blocks (.guard c f [] a) ∧ Stands (stage blocks) (.guard c f [] a) y ∧ Blank f := by
  obtain ⟨h1, h2⟩ := check_sound hU hE fuel allow order (fun p r hm => hI p r ((ho _).1 hm)) Gram.cacheSound_nil h
  have hw := guards_written hown hd
  constructor
  · intro y hy
    obtain ⟨hm, p, l, rfl, hl, hn⟩ := h1 y hy
    obtain ⟨c, f, r, a, hwr, hs⟩ := (hw _).1 ((ho _).1 hm)
    obtain ⟨e, hb⟩ := stands_guard hs
    cases e
    exact ⟨c, f, r, a, hwr, hs, fun hc => hl (hb.2 hc), (yield_nil hown hd hwr).1 (yield_of_derives hn)⟩
  · intro y
    rw [h2]
    constructor
    · rintro ⟨hm, ha, p, rfl⟩
      obtain ⟨c, f, r, a, hwr, hs⟩ := (hw _).1 ((ho _).1 hm)
      obtain ⟨e, hb⟩ := stands_guard hs
      obtain ⟨rfl, hbf⟩ := hb.1 (Item.guard.inj e).2.symm
      exact ⟨ha, c, f, a, hwr, hs, hbf⟩
    · rintro ⟨ha, c, f, a, hwr, hs, hbf⟩
      obtain ⟨e, hb⟩ := stands_guard hs
      rw [hb.2 ⟨rfl, hbf⟩] at e
      exact ⟨(ho _).2 ((hw _).2 ⟨c, f, [], a, hwr, hs⟩), ha, _, e⟩

/-- **C86** (partial: the items inside guards satisfy `Gram.Simple`, which excludes left recursion and some uses of items that can be empty, and there are no guards inside guards).
Exactly the guards with an alternative that can be empty are reported as without effect, whatever the order of the check. -/
theorem ineffective_exact_partial (hown : ∀ d ∈ defsOf blocks, ∀ p ∈ d.prods, ownAll p = true) (hd : ∀ n, Err.duplicateLexer n ∉ (stage blocks).errors)
    {U : Item → Prop} {rank : Item → Nat} (hG : (stage blocks).gram.Simple U rank) (hno : ∀ p l, ¬ U (.guard p l))
    (hI : Inside U (stage blocks).guards) {order : List Item} (ho : ∀ y, y ∈ order ↔ y ∈ (stage blocks).guards) {fuel : Nat} {allow : Bool} {c : ItemCache} {reps : List Report}
    (h : checkGuards (stage blocks).gram fuel allow [] order = some (c, reps)) (y : Item) :
    .ineffective y ∈ reps ↔ ∃ c f r a, Written blocks (.guard c f r a) ∧ Stands (stage blocks) (.guard c f r a) y ∧ ¬ (r = [] ∧ Blank f) ∧
      ∃ q ∈ f :: r, Means (IsProd (defsOf blocks)) q [] := by
  refine ⟨(ineffective_sound_partial hown hd hG.closed hG.ebnfSound hI ho h).1 y, ?_⟩
  rintro ⟨c, f, r, a, hwr, hs, hb, hq⟩
  have hy : y ∈ (stage blocks).guards := (guards_written hown hd y).2 ⟨c, f, r, a, hwr, hs⟩
  obtain ⟨rfl, hb'⟩ := stands_guard hs
  exact check_complete hG fuel allow order (fun p r hm => hI p r ((ho _).1 hm)) Gram.cacheSound_nil (by intro x s h; cases h) h _ _ ((ho _).2 hy)
    (fun e => hb (hb'.1 e)) (derives_of_yield hG.closed hno (hI _ _ hy) ((yield_nil hown hd hwr).2 hq) rfl)

end

namespace ReportExample
open Language.Example (t nt)

def g (first : List Simple) (rest : List (List Simple)) : Simple := .guard false first rest .blank

def keywords : Block NtSyntax :=
  .lexer .keywords false false false [⟨.literal, "a", [], false, false⟩, ⟨.literal, "b", [], false, false⟩, ⟨.literal, "c", [], false, false⟩]

/-- `S = [=> A] a | [=> b] b | [=> ()] c` and `A = a |`. -/
def lang : List (List (Block NtSyntax)) :=
  [[keywords, .grammar [⟨.assignment, "S", [[g [nt "A"] [], t "a"], [g [t "b"] [], t "b"], [g [.paren [] [] .blank] [], t "c"]]⟩, ⟨.assignment, "A", [[t "a"], []]⟩]]]

theorem lang_own : ∀ d ∈ defsOf lang, ∀ p ∈ d.prods, ownAll p = true := by decide +kernel

theorem lang_errors : (stage lang).errors = [] := by decide +kernel

theorem lang_guards : (stage lang).guards = [.guard (-1) [], .guard (-1) [.terminal 1], .guard (-1) [.nonterminal 2]] := by decide +kernel

theorem lang_rules : (stage lang).gram.rules 2 = [[.terminal 0], []] := by decide +kernel

def U (x : Item) : Prop := x ∈ [Item.nonterminal 2, .terminal 0, .terminal 1]

def rank (x : Item) : Nat := if x = .nonterminal 2 then 1 else 0

theorem lang_nt {n : Int} (h : U (.nonterminal n)) : n = 2 := by
  simpa [U] using h

theorem lang_simple : (stage lang).gram.Simple U rank where
  closed := by
    intro x hx r hr y hy
    simp only [U, List.mem_cons, List.not_mem_nil, or_false] at hx
    rcases hx with rfl | rfl | rfl
    · have hr : r ∈ (stage lang).gram.rules 2 := hr
      rw [lang_rules] at hr
      simp only [List.mem_cons, List.not_mem_nil, or_false] at hr
      rcases hr with rfl | rfl
      · rw [List.mem_singleton.1 hy]
        simp [U]
      · cases hy
    · cases hr
    · cases hr
  rankNt := by
    intro n hn pre y post hm _
    rw [lang_nt hn, lang_rules] at hm
    simp only [List.mem_cons, List.not_mem_nil, or_false] at hm
    rcases hm with hm | hm
    · cases pre with
      | nil =>
        rw [List.nil_append, List.cons.injEq] at hm
        rw [lang_nt hn, hm.1]
        decide
      | cons z pre => simp at hm
    · simp at hm
  rankEbnf := by
    intro k rs h
    simp [U] at h
  ebnf := by
    intro k rs h
    simp [U] at h
  repeating := by
    intro rs h
    simp [U] at h
  order := by
    intro n hn before r after hr _ y z rest hm
    rw [lang_nt hn, lang_rules] at hr
    have : y :: z :: rest ∈ [[Item.terminal 0], []] := by
      rw [hr]
      simp [hm]
    simp at this

theorem lang_inside : Inside U (stage lang).guards := by
  rw [lang_guards]
  intro p r h y hy
  simp only [List.mem_cons, Item.guard.injEq, List.not_mem_nil, or_false] at h
  rcases h with ⟨-, rfl⟩ | ⟨-, rfl⟩ | ⟨-, rfl⟩
  · cases hy
  · rw [List.mem_singleton.1 hy]
    simp [U]
  · rw [List.mem_singleton.1 hy]
    simp [U]

theorem lang_no (p : Int) (l : List Item) : ¬ U (.guard p l) := by simp [U]

/-- The reports about a language, with the guards in the order in which the model holds them. -/
def reports (blocks : List (List (Block NtSyntax))) (allow : Bool) : Option (List Report) :=
  (checkGuards (stage blocks).gram 5 allow [] (stage blocks).guards).map Prod.snd

theorem reports_some {blocks : List (List (Block NtSyntax))} {allow : Bool} {reps : List Report} (h : reports blocks allow = some reps) :
    ∃ c, checkGuards (stage blocks).gram 5 allow [] (stage blocks).guards = some (c, reps) := by
  obtain ⟨⟨c, r⟩, h1, h2⟩ := Option.map_eq_some_iff.1 h
  exact ⟨c, by rw [h1, ← h2]⟩

theorem lang_reports : reports lang false = some [.empty (.guard (-1) []), .ineffective (.guard (-1) [.nonterminal 2])] := by decide +kernel

/-- The hypotheses hold for this language: `[=> A]` is reported, and has an alternative that can be empty; `[=> b]` is not reported, so that it has none. -/
example : (∃ c f r a, Written lang (.guard c f r a) ∧ Stands (stage lang) (.guard c f r a) (.guard (-1) [.nonterminal 2]) ∧ ¬ (r = [] ∧ Blank f) ∧
    ∃ q ∈ f :: r, Means (IsProd (defsOf lang)) q []) ∧ ¬ Means (IsProd (defsOf lang)) [t "b"] [] := by
  obtain ⟨c, hc⟩ := reports_some lang_reports
  have h := ineffective_exact_partial lang_own (by rw [lang_errors]; simp) lang_simple lang_no lang_inside (fun _ => Iff.rfl) hc
  refine ⟨(h _).1 (by decide +kernel), fun hm => ?_⟩
  have := (h (.guard (-1) [.terminal 1])).2 ⟨false, [t "b"], [], .blank, ⟨_, List.mem_cons_self .., _, List.mem_cons_of_mem _ (List.mem_cons_self ..), .here (List.mem_cons_self ..)⟩,
    by unfold Stands; decide +kernel, fun hb => (nomatch hb.2), _, List.mem_cons_self .., hm⟩
  exact absurd this (by decide +kernel)

/-- `S = [=> a? b | c] a`. -/
def opt : List (List (Block NtSyntax)) :=
  [[keywords, .grammar [⟨.assignment, "S", [[g [.question (t "a") .blank, t "b"] [[t "c"]], t "a"]]⟩]]]

/-- `S = [=> (a? b)+] a`. -/
def plus : List (List (Block NtSyntax)) :=
  [[keywords, .grammar [⟨.assignment, "S", [[g [.plus (.paren [.question (t "a") .blank, t "b"] [] .blank) .blank] [], t "a"]]⟩]]]

theorem not_a_b (P : String → List Simple → Prop) : ¬ Means P [.question (t "a") .blank, t "b"] [] := by
  intro h
  generalize hv : ([] : List String) = v at h
  cases h with
  | without h => subst hv; cases h
  | «with» hu h =>
    obtain ⟨-, rfl⟩ := List.append_eq_nil_iff.1 hv.symm
    cases h

/-- **C86** is violated by alternatives and repetitions: the guards `[=> a? b | c]` and `[=> (a? b)+]` are rejected as without effect, though every one of their alternatives reads something. -/
theorem false_report_violated :
    ((stage opt).errors = [] ∧ (∃ c y, checkGuards (stage opt).gram 5 false [] (stage opt).guards = some (c, [.ineffective y]) ∧
        Stands (stage opt) (g [.question (t "a") .blank, t "b"] [[t "c"]]) y) ∧
      ∀ q ∈ [[.question (t "a") .blank, t "b"], [t "c"]], ¬ Means (IsProd (defsOf opt)) q []) ∧
    ((stage plus).errors = [] ∧ (∃ c y, checkGuards (stage plus).gram 5 false [] (stage plus).guards = some (c, [.ineffective y]) ∧
        Stands (stage plus) (g [.plus (.paren [.question (t "a") .blank, t "b"] [] .blank) .blank] []) y) ∧
      ¬ Means (IsProd (defsOf plus)) [.plus (.paren [.question (t "a") .blank, t "b"] [] .blank) .blank] []) := by
  refine ⟨⟨by decide +kernel, ?_, ?_⟩, by decide +kernel, ?_, ?_⟩
  · obtain ⟨c, hc⟩ := reports_some (blocks := opt) (allow := false)
      (reps := [.ineffective (.guard (-1) [.ebnf .alternative [[.ebnf .optional [[.terminal 0]], .terminal 1], [.terminal 2]]])]) (by decide +kernel)
    exact ⟨c, _, hc, by unfold Stands; decide +kernel⟩
  · intro q hq
    simp only [List.mem_cons, List.not_mem_nil, or_false] at hq
    rcases hq with rfl | rfl
    · exact not_a_b _
    · intro h
      cases h
  · obtain ⟨c, hc⟩ := reports_some (blocks := plus) (allow := false)
      (reps := [.ineffective (.guard (-1) [.ebnf .repeating [[.ebnf .optional [[.terminal 0]], .terminal 1]]])]) (by decide +kernel)
    exact ⟨c, _, hc, by unfold Stands; decide +kernel⟩
  · intro h
    generalize hv : ([] : List String) = v at h
    cases h with
    | @plus _ _ _ w us hne hu h =>
      obtain ⟨he, -⟩ := List.append_eq_nil_iff.1 hv.symm
      obtain ⟨u, us, rfl⟩ := List.exists_cons_of_ne_nil hne
      rw [List.flatten_cons, List.append_eq_nil_iff] at he
      have h := hu u (List.mem_cons_self ..)
      rw [he.1] at h
      generalize hv : ([] : List String) = v at h
      cases h with
      | paren hp hu h =>
        obtain ⟨e, -⟩ := List.append_eq_nil_iff.1 hv.symm
        rw [List.mem_singleton.1 hp, e] at hu
        exact not_a_b _ hu

/-- `S = [=> A] a`, `A = | B c` and `B = `. -/
def missed : List (List (Block NtSyntax)) :=
  [[keywords, .grammar [⟨.assignment, "S", [[g [nt "A"] [], t "a"]]⟩, ⟨.assignment, "A", [[], [nt "B", t "c"]]⟩, ⟨.assignment, "B", [[]]⟩]]]

/-- **C86** is violated by nonterminals: nothing is reported about `[=> A]`, though `A` can be empty; the last rule of `A` begins with an item that can be empty, and makes the stage forget it. -/
theorem missed_report_violated : (stage missed).errors = [] ∧ (∃ c, checkGuards (stage missed).gram 5 false [] (stage missed).guards = some (c, [])) ∧
    Written missed (g [nt "A"] []) ∧ Means (IsProd (defsOf missed)) [nt "A"] [] := by
  refine ⟨by decide +kernel, reports_some (by decide +kernel), ⟨_, List.mem_cons_self .., _, List.mem_cons_self .., .here (List.mem_cons_self ..)⟩, ?_⟩
  exact Means.nonterminal (u := []) ⟨(defsOf missed).take 1, _, (defsOf missed).drop 2, rfl, rfl, List.mem_cons_self .., by decide +kernel⟩ .nil .nil

/-- `S = [=> [=>]] a`. -/
def nested : List (List (Block NtSyntax)) := [[keywords, .grammar [⟨.assignment, "S", [[g [g [] []] [], t "a"]]⟩]]]

/-- **C86** is violated by guards inside guards: nothing is reported about `[=> [=>]]`, with empty guards allowed. -/
theorem nested_report_violated : (stage nested).errors = [] ∧ (∃ c, checkGuards (stage nested).gram 5 true [] (stage nested).guards = some (c, [])) ∧
    Written nested (g [g [] []] []) ∧ Means (IsProd (defsOf nested)) [g [] []] [] :=
  ⟨by decide +kernel, reports_some (by decide +kernel), ⟨_, List.mem_cons_self .., _, List.mem_cons_self .., .here (List.mem_cons_self ..)⟩, .guard .nil⟩

/-- `S = [=> a?] a`, and a language that inherits it with `replace S = b`. -/
def replaced : List (List (Block NtSyntax)) :=
  [[keywords, .grammar [⟨.assignment, "S", [[g [.question (t "a") .blank] [], t "a"]]⟩]], [.grammar [⟨.replace, "S", [[t "b"]]⟩]]]

/-- A guard that no production holds any longer is reported all the same: the guards of a language are handed on to those that inherit it, and `replace` does not remove them. -/
theorem replaced_reported : (stage replaced).errors = [] ∧
    (∃ c, checkGuards (stage replaced).gram 5 false [] (stage replaced).guards = some (c, [.ineffective (.guard (-1) [.ebnf .optional [[.terminal 0]]])])) ∧
    ∀ n p, IsProd (defsOf replaced) n p → p = [t "b"] := by
  refine ⟨by decide +kernel, reports_some (by decide +kernel), ?_⟩
  rintro n p ⟨pre, d, post, e, hn, hp, hr⟩
  have e : [⟨.assignment, "S", [[g [.question (t "a") .blank] [], t "a"]]⟩, ⟨.replace, "S", [[t "b"]]⟩] = pre ++ d :: post := e
  cases pre with
  | nil =>
    rw [List.nil_append, List.cons.injEq] at e
    obtain ⟨rfl, rfl⟩ := e
    exact absurd rfl (hr _ (List.mem_cons_self ..) hn)
  | cons d1 pre =>
    rw [List.cons_append, List.cons.injEq] at e
    cases pre with
    | nil =>
      rw [List.nil_append, List.cons.injEq] at e
      obtain ⟨-, rfl, -⟩ := e
      exact List.mem_singleton.1 hp
    | cons d2 pre => simp at e

end ReportExample
end GuardCheck
end TameParse

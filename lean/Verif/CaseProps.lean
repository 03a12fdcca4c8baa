import Verif.RegexProps
import Verif.UtilProps

/-!
# C88: expressions that do not look at the case

The statements are about `fold`, which says what a table maps one character to (C24), and about the language of the expression when the case matters (C20).
-/

namespace TameParse
namespace Regex
open SymSet (Mem Canon)
open CaseMap

/-! ### Words of other symbols -/

/-- The words that can stand for those of a language, as the lexer reads them. -/
def standFor (m : Re.Mode) (L : Language Int) : Language Int :=
  {w | ∃ u ∈ L, ∃ v, List.Forall₂ m.var u v ∧ w = v.flatMap (encode m.surrogates)}

theorem standFor_one (m : Re.Mode) : standFor m 1 = 1 := by
  apply Language.ext
  intro w
  constructor
  · rintro ⟨u, hu, v, hv, rfl⟩
    rw [(Language.mem_one u).1 hu] at hv
    cases hv
    exact (Language.mem_one _).2 rfl
  · intro h
    rw [(Language.mem_one w).1 h]
    exact ⟨[], (Language.mem_one _).2 rfl, [], .nil, rfl⟩

theorem standFor_add (m : Re.Mode) (L M : Language Int) : standFor m (L + M) = standFor m L + standFor m M := by
  apply Language.ext
  intro w
  constructor
  · rintro ⟨u, hu | hu, v, h⟩
    · exact .inl ⟨u, hu, v, h⟩
    · exact .inr ⟨u, hu, v, h⟩
  · rintro (⟨u, hu, v, h⟩ | ⟨u, hu, v, h⟩)
    · exact ⟨u, .inl hu, v, h⟩
    · exact ⟨u, .inr hu, v, h⟩

theorem standFor_mul (m : Re.Mode) (L M : Language Int) : standFor m (L * M) = standFor m L * standFor m M := by
  apply Language.ext
  intro w
  constructor
  · rintro ⟨u, ⟨a, ha, b, hb, rfl⟩, v, hv, rfl⟩
    have hv : List.Forall₂ m.var (a ++ b) v := hv
    have h1 := List.forall₂_take_append v a b hv.flip
    have h2 := List.forall₂_drop_append v a b hv.flip
    refine ⟨(v.take a.length).flatMap (encode m.surrogates), ⟨a, ha, _, h1.flip, rfl⟩,
      (v.drop a.length).flatMap (encode m.surrogates), ⟨b, hb, _, h2.flip, rfl⟩, ?_⟩
    show List.flatMap _ _ ++ List.flatMap _ _ = _
    rw [← List.flatMap_append, List.take_append_drop]
  · rintro ⟨x, ⟨a, ha, v, hv, rfl⟩, y, ⟨b, hb, v', hv', rfl⟩, rfl⟩
    refine ⟨a ++ b, ⟨a, ha, b, hb, rfl⟩, v ++ v', List.rel_append hv hv', ?_⟩
    show List.flatMap _ _ ++ List.flatMap _ _ = _
    rw [← List.flatMap_append]

theorem standFor_kstar (m : Re.Mode) (L : Language Int) : standFor m (KStar.kstar L) = KStar.kstar (standFor m L) := by
  apply Language.ext
  intro w
  constructor
  · rintro ⟨u, hu, v, hv, rfl⟩
    rw [Language.mem_kstar] at hu
    obtain ⟨ls, rfl, hl⟩ := hu
    induction ls generalizing v with
    | nil =>
      cases hv
      exact Language.nil_mem_kstar _
    | cons a ls ih =>
      have hv : List.Forall₂ m.var (a ++ ls.flatten) v := hv
      have h1 := List.forall₂_take_append v a ls.flatten hv.flip
      have h2 := List.forall₂_drop_append v a ls.flatten hv.flip
      have h3 := ih _ (fun y hy => hl y (List.mem_cons_of_mem _ hy)) h2.flip
      rw [← Language.one_add_self_mul_kstar_eq_kstar]
      refine .inr ⟨(v.take a.length).flatMap (encode m.surrogates), ⟨a, hl a List.mem_cons_self, _, h1.flip, rfl⟩, _, h3, ?_⟩
      show List.flatMap _ _ ++ List.flatMap _ _ = _
      rw [← List.flatMap_append, List.take_append_drop]
  · intro hw
    rw [Language.mem_kstar] at hw
    obtain ⟨ls, rfl, hl⟩ := hw
    induction ls with
    | nil => exact ⟨[], Language.nil_mem_kstar _, [], .nil, rfl⟩
    | cons a ls ih =>
      obtain ⟨u, hu, v, hv, e⟩ := hl a List.mem_cons_self
      obtain ⟨u', hu', v', hv', e'⟩ := ih (fun y hy => hl y (List.mem_cons_of_mem _ hy))
      refine ⟨u ++ u', ?_, v ++ v', List.rel_append hv hv', ?_⟩
      · rw [← Language.one_add_self_mul_kstar_eq_kstar]
        exact .inr ⟨u, hu, u', hu', rfl⟩
      · rw [List.flatten_cons, List.flatMap_append, e, e']

theorem standFor_single (m : Re.Mode) (P : Int → Prop) :
    @Eq (Language Int) {w | ∃ x, m.Var P x ∧ w = encode m.surrogates x} (standFor m {w | ∃ x, P x ∧ w = encode false x}) := by
  apply Language.ext
  intro w
  constructor
  · rintro ⟨x, ⟨y, hy, hxy⟩, rfl⟩
    exact ⟨[y], ⟨y, hy, rfl⟩, [x], .cons hxy .nil, by simp⟩
  · rintro ⟨u, ⟨y, hy, rfl⟩, v, hv, rfl⟩
    have hv : List.Forall₂ m.var [y] v := hv
    cases hv with
    | cons h1 h2 =>
      cases h2
      exact ⟨_, ⟨y, hy, h1⟩, by simp⟩

/-- The language of an expression when other symbols may stand for those of the expression, from its language when not. -/
theorem langM_eq (m : Re.Mode) : ∀ r : Re, r.langM m = standFor m (r.lang false)
  | .eps => (standFor_one m).symm
  | .atom a => standFor_single m a.Has
  | .grp r => langM_eq m r
  | .star r => by rw [Re.langM, Re.lang, langM_eq m r, standFor_kstar]
  | .plus r => by rw [Re.langM, Re.lang, langM_eq m r, standFor_mul, standFor_kstar]
  | .opt r => by rw [Re.langM, Re.lang, langM_eq m r, standFor_add, standFor_one]
  | .cat r s => by rw [Re.langM, Re.lang, langM_eq m r, langM_eq m s, standFor_mul]
  | .alt r s => by rw [Re.langM, Re.lang, langM_eq m r, langM_eq m s, standFor_add]
  | .ref _ r => langM_eq m r
  | .lit _ w => by
    apply Language.ext
    intro v
    have e : w.flatMap (encode false) = w := by
      induction w with
      | nil => rfl
      | cons x w ih => rw [List.flatMap_cons, ih]; rfl
    constructor
    · rintro ⟨u, hu, rfl⟩
      exact ⟨w, by rw [Re.lang, e]; exact Set.mem_singleton _, u, hu, rfl⟩
    · rintro ⟨u, hu, x, hx, rfl⟩
      rw [Re.lang, e] at hu
      rw [Set.mem_singleton_iff.1 hu] at hx
      exact ⟨x, hx, rfl⟩
  | .unicode _ s => standFor_single m (fun x => Mem x s)
  | .named _ _ | .entry _ _ _ | .word _ _ _ | .either _ _ => by
    apply Language.ext
    intro v
    exact ⟨fun h => h.elim, fun ⟨_, h, _⟩ => h.elim⟩

/-! ### Tables -/

/-- The conversions with two tables (ndfa.cpp 344-355 and unicode.cpp 113-136). -/
def tables (low up : List MapEntry) : Option ((SymSet → SymSet) × (SymSet → SymSet)) :=
  some (fun s => (convert low s).getD [], fun s => (convert up s).getD [])

/-- One character is another one up to the case. -/
def Similar (low up : List MapEntry) (y x : Int) : Prop := x = y ∨ x = fold low y ∨ x = fold up y

/-- The mode with two tables. -/
def insensitive (sr : Bool) (low up : List MapEntry) : Re.Mode := ⟨sr, widen (tables low up), Similar low up, fun _ => .inl rfl⟩

/-- No run of characters begins inside an entry of the table and goes on behind its end. -/
def Whole (table : List MapEntry) (P : Int → Prop) : Prop :=
  ∀ e ∈ table, ∀ x, e.lower < x → x < e.upper → ¬ P (x - 1) → ¬ ∀ y, x ≤ y → y ≤ e.upper → P y

theorem canon_apart {s : SymSet} (h : s.Pairwise (fun a b => a.hi < b.lo)) : ∀ a ∈ s, ∀ b ∈ s, a = b ∨ a.hi < b.lo ∨ b.hi < a.lo := by
  induction h with
  | nil => intro a ha; cases ha
  | cons h1 _ ih =>
    intro a ha b hb
    rcases List.mem_cons.1 ha with rfl | ha <;> rcases List.mem_cons.1 hb with rfl | hb
    · exact .inl rfl
    · exact .inr (.inl (h1 b hb))
    · exact .inr (.inr (h1 a (by assumption)))
    · exact ih a ha b hb

theorem startsWell {table : List MapEntry} {P : Int → Prop} (h : Whole table P) {s : SymSet} (hs : Canon s) (hP : ∀ x, Mem x s ↔ P x) :
    ∀ r ∈ s, StartsWell table r := by
  intro r hr e he h1 h2
  by_contra hcon
  refine h e he r.lo h1 h2 ?_ (fun y hy hy' => (hP y).1 ⟨r, hr, hy, by omega⟩)
  rw [← hP]
  rintro ⟨q, hq, hq1, hq2⟩
  rcases canon_apart hs.1 q hq r hr with rfl | h' | h'
  · omega
  · omega
  · have := hs.2 r hr
    omega

theorem widen_tables {low up : List MapEntry} (hl : Sorted low) (hu : Sorted up) {P : Int → Prop} (h1 : Whole low P) (h2 : Whole up P)
    {s : SymSet} (hs : Canon s) (hP : ∀ x, Mem x s ↔ P x) :
    Canon (widen (tables low up) s) ∧ ∀ x, Mem x (widen (tables low up) s) ↔ ∃ y, P y ∧ Similar low up y x := by
  obtain ⟨a, a1, a2, a3⟩ := convert_exact_partial low hl s (startsWell h1 hs hP)
  obtain ⟨b, b1, b2, b3⟩ := convert_exact_partial up hu s (startsWell h2 hs hP)
  have e : widen (tables low up) s = (s.union a).union b := by
    show (s.union ((convert low s).getD [])).union ((convert up s).getD []) = _
    rw [a1, b1]
    rfl
  obtain ⟨c1, c2⟩ := SymSet.union_spec s a hs (fun r hr => a2.2 r hr)
  obtain ⟨d1, d2⟩ := SymSet.union_spec (s.union a) b c1 (fun r hr => b2.2 r hr)
  rw [e]
  refine ⟨d1, fun x => ?_⟩
  rw [d2, c2, a3, b3]
  constructor
  · rintro ((h | ⟨y, hy, h⟩) | ⟨y, hy, h⟩)
    · exact ⟨x, (hP x).1 h, .inl rfl⟩
    · exact ⟨y, (hP y).1 hy, .inr (.inl h)⟩
    · exact ⟨y, (hP y).1 hy, .inr (.inr h)⟩
  · rintro ⟨y, hy, rfl | h | h⟩
    · exact .inl (.inl ((hP _).2 hy))
    · exact .inl (.inr ⟨y, (hP y).2 hy, h⟩)
    · exact .inr ⟨y, (hP y).2 hy, h⟩

theorem reads_tables {sr : Bool} {low up : List MapEntry} (hl : Sorted low) (hu : Sorted up) {P : Int → Prop} (h1 : Whole low P)
    (h2 : Whole up P) (h3 : sr = true → RunsFit (fun x => ∃ y, P y ∧ Similar low up y x)) : (insensitive sr low up).Reads P :=
  ⟨fun _ hs hP => widen_tables hl hu h1 h2 hs hP, h3⟩

theorem okP_mono {env : Env} {R S : (Int → Prop) → Prop} (h : ∀ P, R P → S P) : ∀ {r : Re}, r.OkP env R → r.OkP env S
  | .eps, _ => trivial
  | .atom _, g => ⟨g.1, h _ g.2⟩
  | .grp _, g => ⟨okP_mono h g.1, g.2⟩
  | .star _, g => ⟨okP_mono h g.1, g.2⟩
  | .plus _, g => ⟨okP_mono h g.1, g.2⟩
  | .opt _, g => ⟨okP_mono h g.1, g.2⟩
  | .cat _ _, g => ⟨okP_mono h g.1, okP_mono h g.2.1, g.2.2⟩
  | .alt _ _, g => ⟨okP_mono h g.1, okP_mono h g.2.1, g.2.2⟩
  | .ref _ _, g => ⟨okP_mono h g.1, g.2⟩
  | .lit _ _, g => ⟨g.1, g.2.1, g.2.2.1, g.2.2.2.1, g.2.2.2.2.1, fun x hx => h _ (g.2.2.2.2.2 x hx)⟩
  | .unicode _ _, g => ⟨g.1, g.2.1, g.2.2.1, g.2.2.2.1, g.2.2.2.2.1, g.2.2.2.2.2.1, g.2.2.2.2.2.2.1, h _ g.2.2.2.2.2.2.2⟩

/-- The sets of symbols that are read correctly if the case does not matter. -/
def FoldsWell (sr : Bool) (low up : List MapEntry) (P : Int → Prop) : Prop :=
  Whole low P ∧ Whole up P ∧ (sr = true → RunsFit (fun x => ∃ y, P y ∧ Similar low up y x))

/-- C88: if the case does not matter, the strings accepted are those that are the same up to the case as one that the expression denotes. Missing: the
expressions for which C20 does not hold; sets of symbols with a run that begins inside an entry of a table and goes on behind its end (C24), for
which it is false; and, with surrogates, sets with a run over more than one high surrogate (C22). -/
theorem insensitive_language_partial (env : Env) (d : Nat) (n : Ndfa) (h : n.WF) (sr : Bool) (low up : List MapEntry) (hl : Sorted low)
    (hu : Sorted up) (q : Nat) (hq : q < n.states.length) (r : Re) (hok : r.OkP env (FoldsWell sr low up)) (hd : r.depth < d)
    (hq0 : r.isAlt = true → q = 0) :
    ∃ n' f, addRegex env d n sr (tables low up) q r.text = some (n', f) ∧ n'.WF ∧ n'.accept = n.accept ∧
      n.states.length ≤ f ∧ f < n'.states.length ∧
      (∀ a w, a < n.states.length → (Ndfa.Reach n' a w f ↔ ∃ p u v, Ndfa.Reach n a p q ∧ u ∈ r.lang false ∧
        List.Forall₂ (fun y x => x = y ∨ x = fold low y ∨ x = fold up y) u v ∧ w = p ++ v.flatMap (encode sr))) ∧
      (∀ a w b, a < n.states.length → b < n.states.length → (Ndfa.Reach n' a w b ↔ Ndfa.Reach n a w b)) := by
  have hok' : r.OkM env (insensitive sr low up) := okP_mono (fun P hP => reads_tables hl hu hP.1 hP.2.1 hP.2.2) hok
  have hnil : widen (tables low up) [] = [] := rfl
  obtain ⟨n', f, h1, h2, h3, h4, h5, h6, h7⟩ := regex_mode env d n h (insensitive sr low up) (tables low up) rfl hnil q hq r hok' hd hq0
  refine ⟨n', f, h1, h2, h3, h4, h5, fun a w ha => ?_, h7⟩
  rw [h6 a w ha, langM_eq]
  constructor
  · rintro ⟨p, x, hp, ⟨u, hu, v, hv, rfl⟩, rfl⟩
    exact ⟨p, u, v, hp, hu, hv, rfl⟩
  · rintro ⟨p, u, v, hp, hu, hv, rfl⟩
    exact ⟨p, _, hp, ⟨u, hu, v, hv, rfl⟩, rfl⟩

/-- ... and a literal is accepted in every case. -/
theorem insensitive_literal_partial (n : Ndfa) (h : n.WF) (sr : Bool) (low up : List MapEntry) (hl : Sorted low) (hu : Sorted up) (q : Nat)
    (hq : q < n.states.length) (w : List Int) (hw : w ≠ [])
    (hs : sr = true → ∀ x ∈ w, RunsFit (fun z => z = x ∨ z = fold low x ∨ z = fold up x)) (n' : Ndfa) (f : Nat)
    (he : addLiteral n sr (tables low up) q w = (n', f)) :
    n'.WF ∧ n'.accept = n.accept ∧ n.states.length ≤ f ∧ f < n'.states.length ∧
      (∀ a z, a < n.states.length → (Ndfa.Reach n' a z f ↔ ∃ p v, Ndfa.Reach n a p q ∧
        List.Forall₂ (fun y x => x = y ∨ x = fold low y ∨ x = fold up y) w v ∧ z = p ++ v.flatMap (encode sr))) ∧
      (∀ a z b, a < n.states.length → b < n.states.length → (Ndfa.Reach n' a z b ↔ Ndfa.Reach n a z b)) := by
  have hone : ∀ table x, Whole table (fun y => y = x) := by
    intro table x e he y h1 h2 _ h4
    have a := h4 y (by omega) (by omega)
    have b := h4 e.upper (by omega) (by omega)
    omega
  obtain ⟨E, h1, h2, h3, h4⟩ := literal_spec (insensitive sr low up) w (cons n sr (tables low up) q)
    (cons_good h sr (fold := tables low up) rfl q hq) ⟨rfl, rfl⟩ (fun x hx => reads_tables hl hu (hone _ _) (hone _ _) (fun hsr => by
      have := hs hsr x hx
      simpa [Similar] using this))
  simp only [addLiteral] at he
  rw [if_neg (by omega)] at he
  obtain ⟨rfl, rfl⟩ := Prod.mk.inj he
  have hne := h3 hw
  obtain ⟨k1, k2⟩ := reach_of_frag h h1.edges h4 hne
  have := h4.fin.resolve_left hne
  refine ⟨h1.good.wf, h1.accept, this.1, this.2, fun a v ha => ?_, k1⟩
  rw [k2 a v ha]
  constructor
  · rintro ⟨p, x, hp, ⟨y, hy, rfl⟩, rfl⟩
    exact ⟨p, y, hp, hy, rfl⟩
  · rintro ⟨p, y, hp, hy, rfl⟩
    exact ⟨p, _, hp, ⟨y, hy, rfl⟩, rfl⟩

/-! ### Names that a language defines (C90) -/

/-- How symbols are read in a language with two tables, depending on whether cases are ignored. -/
def modes (sr : Bool) (low up : List MapEntry) (c : Bool) : Re.Mode := if c then insensitive sr low up else plain sr

/-- The sets of symbols that are read correctly. -/
def SetsWell (sr : Bool) (low up : List MapEntry) (c : Bool) (P : Int → Prop) : Prop :=
  if c then FoldsWell sr low up P else (sr = true → RunsFit P)

theorem modes_cases {env : Env} (sr : Bool) {low up : List MapEntry} (hf : some env.folds = tables low up) : Cases env (modes sr low up) := by
  have hf : env.folds = (fun s => (convert low s).getD [], fun s => (convert up s).getD []) := Option.some.inj hf
  exact ⟨rfl, fun _ => rfl, fun _ => by rw [hf]; rfl, rfl, rfl⟩

theorem modes_reads {sr : Bool} {low up : List MapEntry} (hl : Sorted low) (hu : Sorted up) {c : Bool} {P : Int → Prop} (h : SetsWell sr low up c P) :
    (modes sr low up c).Reads P := by
  cases c with
  | false => exact plain_reads h
  | true => exact reads_tables hl hu h.1 h.2.1 h.2.2

theorem okR_mono {env : Env} {R S : Bool → (Int → Prop) → Prop} (h : ∀ c P, R c P → S c P) (r : Re) :
    ∀ c, (r.OkR env R c → r.OkR env S c) ∧ (r.OkItems env R c → r.OkItems env S c) := by
  induction r with
  | eps => exact fun c => ⟨id, id⟩
  | atom a => exact fun c => ⟨fun g => ⟨g.1, h _ _ g.2⟩, id⟩
  | grp r ih | star r ih | plus r ih | opt r ih => exact fun c => ⟨fun g => ⟨(ih c).1 g.1, g.2⟩, id⟩
  | cat r s ihr ihs | alt r s ihr ihs => exact fun c => ⟨fun g => ⟨(ihr c).1 g.1, (ihs c).1 g.2.1, g.2.2⟩, id⟩
  | ref n r ih => exact fun c => ⟨fun g => ⟨(ih c).1 g.1, g.2⟩, id⟩
  | lit n w => exact fun c => ⟨fun g => ⟨g.1, g.2.1, g.2.2.1, g.2.2.2.1, g.2.2.2.2.1, fun x hx => h _ _ (g.2.2.2.2.2 x hx)⟩, id⟩
  | unicode n s => exact fun c => ⟨fun g => ⟨g.1, g.2.1, g.2.2.1, g.2.2.2.1, g.2.2.2.2.1, g.2.2.2.2.2.1, g.2.2.2.2.2.2.1, h _ _ g.2.2.2.2.2.2.2⟩, id⟩
  | named n r ih => exact fun c => ⟨fun g => ⟨(ih c).2 g.1, g.2⟩, id⟩
  | entry ci cs r ih => exact fun c => ⟨id, fun g => (ih _).1 g⟩
  | word ci cs w => exact fun c => ⟨id, fun g => ⟨g.1, fun x hx => h _ _ (g.2 x hx)⟩⟩
  | either r s ihr ihs => exact fun c => ⟨id, fun g => ⟨(ihr c).2 g.1, (ihs c).2 g.2.1, g.2.2⟩⟩

/-- C90: an expression with names that the language defines matches what it says with the definitions in place of the names: a name stands for any of its
definitions, and whether cases are ignored in a definition is said by its own options or, if it has none, by where the name is used. Missing: the expressions
for which C20 and C88 do not hold, and definitions that refer to each other in a circle, which are followed without end. -/
theorem named_language_partial (env : Env) (d : Nat) (n : Ndfa) (h : n.WF) (sr : Bool) (low up : List MapEntry) (hl : Sorted low) (hu : Sorted up)
    (hf : some env.folds = tables low up) (c : Bool) (q : Nat) (hq : q < n.states.length) (r : Re) (hok : r.OkR env (SetsWell sr low up) c)
    (hd : r.depth < d) (hq0 : r.isAlt = true → q = 0) :
    ∃ n' f, addRegex env d n sr (if c then tables low up else none) q r.text = some (n', f) ∧ n'.WF ∧ n'.accept = n.accept ∧
      n.states.length ≤ f ∧ f < n'.states.length ∧
      (∀ a w, a < n.states.length → (Ndfa.Reach n' a w f ↔ ∃ u v, Ndfa.Reach n a u q ∧ v ∈ r.langN (modes sr low up) c ∧ w = u ++ v)) ∧
      (∀ a w b, a < n.states.length → b < n.states.length → (Ndfa.Reach n' a w b ↔ Ndfa.Reach n a w b)) := by
  have hok' : r.OkN env (modes sr low up) c := ((okR_mono (fun c P hP => modes_reads hl hu hP) r) c).1 hok
  have := regex_named env d n h (modes sr low up) c (if c then tables low up else none) (by cases c <;> rfl) (by cases c <;> rfl) q hq r
    (.inr (modes_cases sr hf)) hok' hd hq0
  have e : (modes sr low up c).surrogates = sr := by cases c <;> rfl
  rw [e] at this
  exact this

end Regex
end TameParse

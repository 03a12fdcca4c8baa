import Verif.LanguageMeans
/-
The grammar that is made from a language definition derives exactly what the definition means (C59): the theorem for whole languages.
-/
namespace TameParse
namespace Language
open AssocMap GrammarIds Relation Lang
open ParserTables (isTerminal)

/-! ### The productions of a nonterminal -/

theorem isProd_snoc {ds : List NtSyntax} {d : NtSyntax} {n : String} {p : List Simple} :
    IsProd (ds ++ [d]) n p ↔ (d.name = n ∧ p ∈ d.prods) ∨ (IsProd ds n p ∧ (d.name = n → d.type ≠ .replace)) := by
  constructor
  · rintro ⟨pre, e, post, he, hn, hp, hr⟩
    rcases List.eq_nil_or_concat post with rfl | ⟨post', f, rfl⟩
    · obtain ⟨-, h2⟩ := List.append_inj' he rfl
      cases h2
      exact Or.inl ⟨hn, hp⟩
    · rw [List.concat_eq_append, ← List.cons_append, ← List.append_assoc] at he
      obtain ⟨h1, h2⟩ := List.append_inj' he rfl
      cases h2
      exact Or.inr ⟨⟨pre, e, post', h1, hn, hp, fun g hg => hr g (by simp [hg])⟩, hr d (by simp)⟩
  · rintro (⟨hn, hp⟩ | ⟨⟨pre, e, post, rfl, hn, hp, hr⟩, hd⟩)
    · exact ⟨ds, d, [], rfl, hn, hp, by simp⟩
    · refine ⟨pre, e, post ++ [d], by simp, hn, hp, ?_⟩
      intro g hg
      rcases List.mem_append.1 hg with hg | hg
      · exact hr g hg
      · rw [List.mem_singleton.1 hg]; exact hd

theorem mem_defSteps (ds : List NtSyntax) (n : String) (q : List Ebnf) :
    q ∈ (ds.map ntDef).foldl defStep (fun _ => []) n ↔ ∃ p, IsProd ds n p ∧ q = simpleDefs p := by
  induction ds using List.reverseRecOn generalizing n with
  | nil =>
    simp only [List.map_nil, List.foldl_nil, List.not_mem_nil, false_iff]
    rintro ⟨p, ⟨pre, d, post, h, -⟩, -⟩
    exact absurd h.symm (by simp)
  | append_singleton ds d ih =>
    rw [List.map_append, List.foldl_append]
    simp only [List.map_cons, List.map_nil, List.foldl_cons, List.foldl_nil, defStep, isProd_snoc]
    by_cases hn : d.name = n
    · subst hn
      rw [show (ntDef d).name = d.name from rfl, Function.update_self]
      rw [show (ntDef d).type = d.type from rfl, show (ntDef d).prods = d.prods.map simpleDefs from rfl, List.mem_append, List.mem_map]
      constructor
      · rintro (h | ⟨p, hp, rfl⟩)
        · by_cases ht : d.type = .replace
          · rw [if_pos ht] at h; cases h
          · rw [if_neg ht] at h
            obtain ⟨p, hp, rfl⟩ := (ih d.name).1 h
            exact ⟨p, Or.inr ⟨hp, fun _ => ht⟩, rfl⟩
        · exact ⟨p, Or.inl ⟨rfl, hp⟩, rfl⟩
      · rintro ⟨p, ⟨-, hp⟩ | ⟨hp, ht⟩, rfl⟩
        · exact Or.inr ⟨p, hp, rfl⟩
        · rw [if_neg (ht rfl)]
          exact Or.inl ((ih d.name).2 ⟨p, hp, rfl⟩)
    · rw [show (ntDef d).name = d.name from rfl, Function.update_of_ne (fun e => hn e.symm), ih n]
      constructor
      · rintro ⟨p, hp, rfl⟩
        exact ⟨p, Or.inr ⟨hp, fun e => absurd e hn⟩, rfl⟩
      · rintro ⟨p, ⟨e, -⟩ | ⟨hp, -⟩, rfl⟩
        · exact absurd e hn
        · exact ⟨p, hp, rfl⟩

/-- The definitions of some units. -/
def unitDefs (us : List (Block NtSyntax)) : List NtSyntax := us.flatMap fun | .grammar ds => ds | .lexer .. => []

theorem defsOf_eq (blocks : List (List (Block NtSyntax))) : defsOf blocks = blocks.flatMap unitDefs := by
  induction blocks with
  | nil => rfl
  | cons us blocks ih =>
    rw [List.flatMap_cons, ← ih]
    simp only [defsOf, List.flatten_cons, List.flatMap_append]
    rfl

theorem defsStep_eq (us : List (Block NtSyntax)) : ∀ F, defsStep F (us.map unitDef) = ((unitDefs us).map ntDef).foldl defStep F := by
  induction us with
  | nil => intro F; rfl
  | cons u us ih =>
    intro F
    cases u with
    | lexer t w ci cs ls => exact ih F
    | grammar ds =>
      simp only [List.map_cons, unitDef, defsStep, ih, unitDefs, List.flatMap_cons, List.map_append, List.foldl_append]

theorem defsSteps_eq (blocks : List (List (Block NtSyntax))) : ∀ F,
    (blocks.map (List.map unitDef)).foldl defsStep F = ((defsOf blocks).map ntDef).foldl defStep F := by
  simp only [defsOf_eq]
  induction blocks with
  | nil => intro F; rfl
  | cons us blocks ih =>
    intro F
    rw [List.map_cons, List.foldl_cons, ih, defsStep_eq, List.flatMap_cons, List.map_append, List.foldl_append]

/-! ### The state at the start -/

theorem ginv_new : GInv Lang.new (fun _ => []) :=
  ⟨itemInv_new, fun _ h => absurd rfl h, fun _ _ h => (nomatch h), fun _ _ h => (nomatch h), fun _ h => absurd rfl h⟩

theorem tinv_new : TInv Lang.new.terminals := ⟨Int.le_refl 0, fun _ _ h => (nomatch h), fun _ _ _ h => (nomatch h)⟩

/-! ### No references to other languages -/

theorem ownE_seqOf (xs : List Ebnf) : ownE (seqOf xs) ↔ ownEs xs := by
  rw [seqOf_eq]
  match xs with
  | [] => simp [ownE, ownEs]
  | [x] => simp [ownEs]
  | x :: y :: xs => simp only [ownE]

mutual
theorem own_simpleDef : ∀ x : Simple, x.own = true → ownE (simpleDef x)
  | .nonterminal _ _ _, _ => by simp only [simpleDef, ownE]
  | .terminal _ s _ _, h => by
    simp only [Simple.own, beq_iff_eq] at h
    simp only [simpleDef, ownE]
    exact fun _ => h
  | .guard _ f r _, h => by
    simp only [Simple.own, Bool.and_eq_true] at h
    have h1 := own_simpleDefs f h.1
    have h2 := own_altDefs r h.2
    simp only [simpleDef, ownE]
    cases ha : altDefs r with
    | none => exact (ownE_seqOf _).2 h1
    | some y => simp only [ownE]; exact ⟨(ownE_seqOf _).2 h1, h2 y ha⟩
  | .star x _, h | .plus x _, h | .question x _, h => by
    simp only [Simple.own] at h
    simp only [simpleDef, ownE]
    exact own_simpleDef x h
  | .paren f r _, h => by
    simp only [Simple.own, Bool.and_eq_true] at h
    have h1 := own_simpleDefs f h.1
    have h2 := own_altDefs r h.2
    simp only [simpleDef]
    cases ha : altDefs r with
    | none => exact (ownE_seqOf _).2 h1
    | some y => simp only [ownE]; exact ⟨(ownE_seqOf _).2 h1, h2 y ha⟩

theorem own_altDefs : ∀ r : List (List Simple), ownAlts r = true → ∀ y, altDefs r = some y → ownE y
  | [], _, y, hy => by simp only [altDefs] at hy; cases hy
  | f :: r, h, y, hy => by
    simp only [ownAlts, Bool.and_eq_true] at h
    have h1 := own_simpleDefs f h.1
    have h2 := own_altDefs r h.2
    simp only [altDefs] at hy
    cases ha : altDefs r with
    | none =>
      rw [ha] at hy
      cases hy
      exact (ownE_seqOf _).2 h1
    | some z =>
      rw [ha] at hy
      cases hy
      simp only [ownE]
      exact ⟨(ownE_seqOf _).2 h1, h2 z ha⟩

theorem own_simpleDefs : ∀ xs : List Simple, ownAll xs = true → ownEs (simpleDefs xs)
  | [], _ => by simp only [simpleDefs, ownEs]
  | x :: xs, h => by
    simp only [ownAll, Bool.and_eq_true] at h
    simp only [simpleDefs, ownEs]
    exact ⟨own_simpleDef x h.1, own_simpleDefs xs h.2⟩
end

theorem ownBlocks_of {blocks : List (List (Block NtSyntax))} (h : ∀ d ∈ defsOf blocks, ∀ p ∈ d.prods, ownAll p = true) :
    ∀ us ∈ blocks.map (List.map unitDef), OwnBlocks us := by
  intro us hus ds hds d hd p hp
  obtain ⟨us, hb, rfl⟩ := List.mem_map.1 hus
  obtain ⟨u, hu, he⟩ := List.mem_map.1 hds
  cases u with
  | lexer t w ci cs ls => cases he
  | grammar es =>
    cases he
    obtain ⟨e, he, rfl⟩ := List.mem_map.1 hd
    obtain ⟨q, hq, rfl⟩ := List.mem_map.1 hp
    refine own_simpleDefs q (h e ?_ q hq)
    rw [defsOf_eq]
    exact List.mem_flatMap.2 ⟨us, hb, List.mem_flatMap.2 ⟨_, hu, he⟩⟩

/-! ### The terminals of the sentences -/

theorem known_paren {T U : String → Prop} (r : List (List Simple)) : ∀ (f : List Simple) (a : Attr), Known T U (simpleDef (.paren f r a)) →
    ∀ p ∈ f :: r, KnownAll T U (simpleDefs p) := by
  induction r with
  | nil =>
    intro f a h p hp
    rw [List.mem_singleton.1 hp]
    simpa [simpleDef, altDefs, known_seqOf] using h
  | cons b r ih =>
    intro f a h p hp
    have h' : KnownAll T U (simpleDefs f) ∧ Known T U (simpleDef (.paren b r .blank)) := by
      simpa [simpleDef, altDefs, known_seqOf, Known] using h
    rcases List.mem_cons.1 hp with rfl | hp
    · exact h'.1
    · exact ih b .blank h'.2 p hp

theorem means_known {T U : String → Prop} {P : String → List Simple → Prop} (hP : ∀ n p, P n p → KnownAll T U (simpleDefs p)) {xs : List Simple} {w : List String}
    (h : Means P xs w) (hx : KnownAll T U (simpleDefs xs)) : ∀ m ∈ w, T m := by
  have app : ∀ {u v : List String}, (∀ m ∈ u, T m) → (∀ m ∈ v, T m) → ∀ m ∈ u ++ v, T m := by
    intro u v h1 h2 m hm
    rcases List.mem_append.1 hm with hm | hm
    · exact h1 m hm
    · exact h2 m hm
  induction h with
  | nil => intro m hm; cases hm
  | terminal _ ih =>
    simp only [simpleDefs, simpleDef, KnownAll, Known] at hx
    intro m hm
    rcases List.mem_cons.1 hm with rfl | hm
    · exact hx.1
    · exact ih hx.2 m hm
  | nonterminal hp _ _ ih1 ih2 =>
    simp only [simpleDefs, KnownAll] at hx
    exact app (ih1 (hP _ _ hp)) (ih2 hx.2)
  | guard _ ih =>
    simp only [simpleDefs, KnownAll] at hx
    exact ih hx.2
  | star _ _ ih1 ih2 =>
    simp only [simpleDefs, simpleDef, KnownAll, Known] at hx
    refine app (fun m hm => ?_) (ih2 hx.2)
    obtain ⟨u, hu, hm⟩ := List.mem_flatten.1 hm
    exact ih1 u hu (by simp only [simpleDefs, KnownAll]; exact ⟨hx.1, trivial⟩) m hm
  | plus _ _ _ ih1 ih2 =>
    simp only [simpleDefs, simpleDef, KnownAll, Known] at hx
    refine app (fun m hm => ?_) (ih2 hx.2)
    obtain ⟨u, hu, hm⟩ := List.mem_flatten.1 hm
    exact ih1 u hu (by simp only [simpleDefs, KnownAll]; exact ⟨hx.1, trivial⟩) m hm
  | without _ ih =>
    simp only [simpleDefs, KnownAll] at hx
    exact ih hx.2
  | «with» _ _ ih1 ih2 =>
    simp only [simpleDefs, simpleDef, KnownAll, Known] at hx
    exact app (ih1 (by simp only [simpleDefs, KnownAll]; exact ⟨hx.1, trivial⟩)) (ih2 hx.2)
  | paren hp _ _ ih1 ih2 =>
    simp only [simpleDefs, KnownAll] at hx
    exact app (ih1 (known_paren _ _ _ hx.1 _ hp)) (ih2 hx.2)

/-! ### The theorem -/

/-- The stage on a language and those that it inherits from, the oldest first. -/
def stage (blocks : List (List (Block NtSyntax))) : Lang := Lang.new.compile (blocks.map (List.map unitDef))

/-- Sentences of a grammar as the terminals that they read; guards read nothing. -/
def Reads (g : Gram) (xs : List Item) (ns : List Int) : Prop :=
  ∃ v, g.Derives xs v ∧ (∀ y ∈ v, isTerminal y = true ∨ ∃ p l, y = .guard p l) ∧ v.filter isTerminal = ns.map .terminal

theorem stage_inv {blocks : List (List (Block NtSyntax))} (hown : ∀ d ∈ defsOf blocks, ∀ p ∈ d.prods, ownAll p = true) (hd : NoDup (stage blocks)) :
    GInv (stage blocks) (((defsOf blocks).map ntDef).foldl defStep (fun _ => [])) ∧ TInv (stage blocks).terminals := by
  have := compile_spec (blocks.map (List.map unitDef)) Lang.new (ownBlocks_of hown) ginv_new tinv_new hd
  rw [defsSteps_eq] at this
  exact this

theorem language_reads {blocks : List (List (Block NtSyntax))} (hown : ∀ d ∈ defsOf blocks, ∀ p ∈ d.prods, ownAll p = true)
    (hd : ∀ n, Err.duplicateLexer n ∉ (stage blocks).errors) {n : String} (hn : ∃ p, IsProd (defsOf blocks) n p) :
    (∀ w, Means (IsProd (defsOf blocks)) [.nonterminal "" n .blank] w →
      Reads (stage blocks).gram [.nonterminal ((stage blocks).ids.idForNonterminal n).2] (w.map (stage blocks).terminals.symbolForName) ∧ ∀ m ∈ w, (stage blocks).termKnown m) ∧
    ∀ ns, Reads (stage blocks).gram [.nonterminal ((stage blocks).ids.idForNonterminal n).2] ns →
      ∃ w, Means (IsProd (defsOf blocks)) [.nonterminal "" n .blank] w ∧ ns = w.map (stage blocks).terminals.symbolForName := by
  obtain ⟨hg, -⟩ := stage_inv hown hd
  generalize hF : ((defsOf blocks).map ntDef).foldl defStep (fun _ => []) = F at hg
  have hmem : ∀ n q, q ∈ F n ↔ ∃ p, IsProd (defsOf blocks) n p ∧ q = simpleDefs p := by
    intro n q
    rw [← hF]
    exact mem_defSteps _ n q
  generalize stage blocks = s at hg
  have hrules : ∀ m, s.ntKnown m → s.gram.rules (s.names.nt m) = (F m).map (trItems s.names) := by
    intro m hm
    obtain ⟨i, hi⟩ := Option.ne_none_iff_exists'.1 hm
    have hnt : s.names.nt m = (i : Int) := by simp only [Lang.names, hi, Option.getD_some]
    rw [hnt]
    show (if (0 : Int) ≤ (i : Int) then (s.rulesFor (i : Int).toNat).map items else []) = _
    rw [if_pos (by omega), Int.toNat_natCast, hg.rules m i hi]
  have hkn : ∀ m p, IsProd (defsOf blocks) m p → s.ntKnown m := fun m p hp =>
    hg.known m (List.ne_nil_of_mem ((hmem m _).2 ⟨p, hp, rfl⟩))
  have hnk : s.ntKnown n := by
    obtain ⟨p, hp⟩ := hn
    exact hkn n p hp
  have hid : [Item.nonterminal (s.ids.idForNonterminal n).2] = tss s.names [.nonterminal "" n .blank] := by
    rw [tss_one, ts_nonterminal]
    obtain ⟨i, hi⟩ := Option.ne_none_iff_exists'.1 hnk
    simp only [Lang.names, idForNonterminal, hi, Option.getD_some]
  have hall : ∀ m p, IsProd (defsOf blocks) m p → KnownAll s.termKnown s.ntKnown (simpleDefs p) := fun m p hp =>
    hg.closed m _ ((hmem m _).2 ⟨p, hp, rfl⟩)
  have hrd : ∀ ns, Reads s.gram [.nonterminal (s.ids.idForNonterminal n).2] ns ↔ Yield s.gram (tss s.names [.nonterminal "" n .blank]) ns := by
    intro ns
    rw [hid]
    unfold Reads
    rw [← yield_iff]
  have hks : KnownAll s.termKnown s.ntKnown (simpleDefs [.nonterminal "" n .blank]) := by simp only [simpleDefs, simpleDef, KnownAll, Known]; exact ⟨hnk, trivial⟩
  refine ⟨fun w h => ⟨(hrd _).2 (yield_of_means ?_ h), means_known (T := s.termKnown) (U := s.ntKnown) hall h hks⟩, fun ns h => ?_⟩
  · intro m p hp
    rw [hrules m (hkn m p hp)]
    exact List.mem_map.2 ⟨_, (hmem m _).2 ⟨p, hp, rfl⟩, rfl⟩
  · exact means_of_yield (P := IsProd (defsOf blocks)) (U := s.ntKnown) (by
      intro m hm r hr
      rw [hrules m hm] at hr
      obtain ⟨q, hq, rfl⟩ := List.mem_map.1 hr
      obtain ⟨p, hp, rfl⟩ := (hmem m q).1 hq
      exact ⟨p, hp, rfl, KnownAll.mono (fun _ _ => trivial) (fun _ h => h) _ (hall m p hp)⟩) ((hrd ns).1 h) [.nonterminal "" n .blank]
      (by simp only [KS, simpleDefs, simpleDef, KnownAll, Known]; exact ⟨hnk, trivial⟩) rfl

/-- **C59.** A language whose definition names no other language, and that was compiled without a symbol defined twice: the grammar derives
from a nonterminal exactly what its definition means, each terminal of the definition standing for the symbol of its name. -/
theorem language_means {blocks : List (List (Block NtSyntax))} (hown : ∀ d ∈ defsOf blocks, ∀ p ∈ d.prods, ownAll p = true)
    (hd : ∀ n, Err.duplicateLexer n ∉ (stage blocks).errors) {n : String} (hn : ∃ p, IsProd (defsOf blocks) n p) (w : List String) :
    Means (IsProd (defsOf blocks)) [.nonterminal "" n .blank] w ↔
      Reads (stage blocks).gram [.nonterminal ((stage blocks).ids.idForNonterminal n).2] (w.map (stage blocks).terminals.symbolForName) := by
  obtain ⟨h1, h2⟩ := language_reads hown hd hn
  obtain ⟨-, ht⟩ := stage_inv hown hd
  generalize stage blocks = s at h1 h2 ht
  constructor
  · exact fun h => (h1 w h).1
  · intro h
    obtain ⟨w', hw', he⟩ := h2 _ h
    have hkw := (h1 w' hw').2
    have hinj : ∀ (w w' : List String), (∀ m ∈ w', s.termKnown m) → w.map s.terminals.symbolForName = w'.map s.names.sym → w = w' := by
      intro w
      induction w with
      | nil =>
        intro w' _ h
        exact (List.map_eq_nil_iff.1 h.symm).symm
      | cons a w ih =>
        intro w' hk h
        cases w' with
        | nil => cases h
        | cons b w' =>
          rw [List.map_cons, List.map_cons, List.cons.injEq] at h
          rw [ih w' (fun m hm => hk m (List.mem_cons_of_mem _ hm)) h.2]
          have hb := hk b (List.mem_cons_self ..)
          have ha : s.termKnown a := (known_of_symbol ht a).1 (by rw [h.1]; exact (known_of_symbol ht b).2 hb)
          obtain ⟨i, hi⟩ := Option.ne_none_iff_exists'.1 ha
          obtain ⟨j, hj⟩ := Option.ne_none_iff_exists'.1 hb
          have h1 := h.1
          simp only [Lang.names, TerminalDict.symbolForName, hi, hj, Option.getD_some] at h1
          subst h1
          rw [ht.inj a b i hi hj]
    rw [hinj w w' hkw he]
    exact hw'

/-! ### An example -/

namespace Example

def t (n : String) : Simple := .terminal .ident "" n .blank
def nt (n : String) : Simple := .nonterminal "" n .blank

/-- `S = "if" X* (a | b)?`, `X = a X | b`. -/
def base : List (Block NtSyntax) :=
  [.lexer .lexer false false false [⟨.regex, "a", "/[a-z]+/".toList, false, false⟩],
   .grammar [⟨.assignment, "S", [[.terminal .string "" "\"if\"" .blank, .star (nt "X") .blank, .question (.paren [t "a"] [[t "b"]] .blank) .blank]]⟩,
     ⟨.assignment, "X", [[t "a", nt "X"], [t "b"]]⟩]]

/-- A language that inherits from it: `replace X = c`, `S |= [c] X`. -/
def child : List (Block NtSyntax) :=
  [.grammar [⟨.replace, "X", [[t "c"]]⟩, ⟨.addition, "S", [[.guard false [t "c"] [] .blank, nt "X"]]⟩]]

def both : List (List (Block NtSyntax)) := [base, child]

theorem both_own : ∀ d ∈ defsOf both, ∀ p ∈ d.prods, ownAll p = true := by decide +kernel

theorem both_errors : (stage both).errors = [] := by decide +kernel

theorem both_s : IsProd (defsOf both) "S" [.guard false [t "c"] [] .blank, nt "X"] :=
  ⟨(defsOf both).take 3, _, [], rfl, rfl, List.mem_singleton_self _, by simp⟩

theorem both_x : IsProd (defsOf both) "X" [t "c"] := by
  refine ⟨(defsOf both).take 2, _, (defsOf both).drop 3, rfl, rfl, List.mem_singleton_self _, ?_⟩
  intro e he hn
  rw [List.mem_singleton.1 (show e ∈ [(⟨.addition, "S", [[.guard false [t "c"] [] .blank, nt "X"]]⟩ : NtSyntax)] from he)]
  decide

/-- The sentence `c` through the production that the child adds, and the sentence `if c c b` with the productions of both. -/
example : Reads (stage both).gram [.nonterminal ((stage both).ids.idForNonterminal "S").2] (["c"].map (stage both).terminals.symbolForName) :=
  (language_means both_own (by rw [both_errors]; simp) ⟨_, both_s⟩ ["c"]).1
    (.nonterminal (u := ["c"]) both_s (.guard (.nonterminal (u := ["c"]) both_x (.terminal .nil) .nil)) .nil)

example : Reads (stage both).gram [.nonterminal ((stage both).ids.idForNonterminal "S").2]
    (["\"if\"", "c", "c", "b"].map (stage both).terminals.symbolForName) := by
  refine (language_means both_own (by rw [both_errors]; simp) ⟨_, both_s⟩ _).1 ?_
  have hs : IsProd (defsOf both) "S" [.terminal .string "" "\"if\"" .blank, .star (nt "X") .blank, .question (.paren [t "a"] [[t "b"]] .blank) .blank] :=
    ⟨[], _, (defsOf both).drop 1, rfl, rfl, List.mem_singleton_self _, by decide +kernel⟩
  have hx : Means (IsProd (defsOf both)) [nt "X"] ["c"] := .nonterminal (u := ["c"]) both_x (.terminal .nil) .nil
  exact .nonterminal (u := ["\"if\"", "c", "c", "b"]) hs
    (.terminal (.star (us := [["c"], ["c"]]) (w := ["b"]) (by simpa using hx) (.with (u := ["b"]) (.paren (u := ["b"]) (p := [t "b"]) (by simp) (.terminal .nil) .nil) .nil)))
    .nil

/-- The replaced production is gone: `if a b` is no sentence any more. -/
example : ¬ Reads (stage [base, [.grammar [⟨.replace, "X", [[t "c"]]⟩]]]).gram
    [.nonterminal ((stage [base, [.grammar [⟨.replace, "X", [[t "c"]]⟩]]]).ids.idForNonterminal "X").2]
    (["b"].map (stage [base, [.grammar [⟨.replace, "X", [[t "c"]]⟩]]]).terminals.symbolForName) := by
  have hx : ∀ p, IsProd (defsOf [base, [.grammar [⟨.replace, "X", [[t "c"]]⟩]]]) "X" p ↔ p = [t "c"] := by
    intro p
    rw [show defsOf [base, [.grammar [⟨.replace, "X", [[t "c"]]⟩]]] = defsOf [base] ++ [⟨.replace, "X", [[t "c"]]⟩] from rfl, isProd_snoc]
    simp
  rw [← language_means (by decide +kernel) (by
    rw [show (stage [base, [.grammar [⟨.replace, "X", [[t "c"]]⟩]]]).errors = [] by decide +kernel]; simp) ⟨_, (hx _).2 rfl⟩]
  intro h
  obtain ⟨u, v, he, h1, h2⟩ := means_cons h
  cases h1 with
  | nonterminal hp hu h1 =>
    rw [(hx _).1 hp] at hu
    cases hu with
    | terminal hu =>
      simp at he

/-- `S = other.x`: a terminal of another language. -/
def foreign : List (List (Block NtSyntax)) := [[.grammar [⟨.assignment, "S", [[.terminal .ident "other" "x" .blank]]⟩]]]

/-- Without the condition on other languages the theorem fails: a terminal of another language is never looked up and becomes the symbol -1,
like every other name that is not defined. There is no error. -/
theorem foreign_terminal_violated : (stage foreign).errors = [] ∧ (stage foreign).terminals.symbolForName "x" = -1 ∧
    ¬ (∀ w, Means (IsProd (defsOf foreign)) [.nonterminal "" "S" .blank] w ↔
      Reads (stage foreign).gram [.nonterminal ((stage foreign).ids.idForNonterminal "S").2] (w.map (stage foreign).terminals.symbolForName)) := by
  refine ⟨by decide +kernel, by decide +kernel, fun h => ?_⟩
  have hp : ∀ p, IsProd (defsOf foreign) "S" p ↔ p = [.terminal .ident "other" "x" .blank] := by
    intro p
    rw [show defsOf foreign = [] ++ [⟨.assignment, "S", [[.terminal .ident "other" "x" .blank]]⟩] from rfl, isProd_snoc]
    simp [IsProd]
  have hx : Means (IsProd (defsOf foreign)) [.nonterminal "" "S" .blank] ["x"] := .nonterminal (u := ["x"]) ((hp _).2 rfl) (.terminal .nil) .nil
  have h1 := (h ["x"]).1 hx
  have he : ["x"].map (stage foreign).terminals.symbolForName = ["y"].map (stage foreign).terminals.symbolForName := by decide +kernel
  rw [he] at h1
  obtain ⟨u, v, he, h2, h3⟩ := means_cons ((h ["y"]).2 h1)
  cases h2 with
  | nonterminal hp' hu h2 =>
    rw [(hp _).1 hp'] at hu
    cases hu with
    | terminal hu => simp at he

end Example

end Language
end TameParse

import Verif.LanguageProps
import Verif.ParserTables
/-
The grammar that is made from a language definition derives exactly what the definition means (C59): from the rules to the sentences.
-/
namespace TameParse
namespace Language
open AssocMap GrammarIds Relation
open ParserTables (isTerminal)

/-! ### Derivations as trees -/

/-- The terminals of the sentences of a grammar; guards read nothing. -/
inductive Yield (g : Gram) : List Item → List Int → Prop
  | nil : Yield g [] []
  | terminal {n xs ns} (h : Yield g xs ns) : Yield g (.terminal n :: xs) (n :: ns)
  | guard {p l xs ns} (h : Yield g xs ns) : Yield g (.guard p l :: xs) ns
  | node {x r m xs ns} (hr : r ∈ g.prods x) (hm : Yield g r m) (h : Yield g xs ns) : Yield g (x :: xs) (m ++ ns)

section
variable {g : Gram}

theorem Yield.append {xs ys : List Item} {m n : List Int} (h : Yield g xs m) (h' : Yield g ys n) : Yield g (xs ++ ys) (m ++ n) := by
  induction h with
  | nil => exact h'
  | terminal _ ih => exact .terminal ih
  | guard _ ih => exact .guard ih
  | node hr hm _ _ ih => rw [List.append_assoc]; exact .node hr hm ih

theorem Yield.split {xs ys : List Item} {n : List Int} (h : Yield g (xs ++ ys) n) : ∃ u v, n = u ++ v ∧ Yield g xs u ∧ Yield g ys v := by
  induction xs generalizing n with
  | nil => exact ⟨[], n, rfl, .nil, h⟩
  | cons x xs ih =>
    rw [List.cons_append] at h
    cases h with
    | terminal h => obtain ⟨u, v, rfl, h1, h2⟩ := ih h; exact ⟨_ :: u, v, rfl, .terminal h1, h2⟩
    | guard h => obtain ⟨u, v, rfl, h1, h2⟩ := ih h; exact ⟨u, v, rfl, .guard h1, h2⟩
    | node hr hm h => obtain ⟨u, v, rfl, h1, h2⟩ := ih h; exact ⟨_ ++ u, v, by rw [List.append_assoc], .node hr hm h1, h2⟩

theorem Yield.one {x : Item} {r : List Item} {m : List Int} (hr : r ∈ g.prods x) (hm : Yield g r m) : Yield g [x] m := by
  have := Yield.node hr hm .nil
  rwa [List.append_nil] at this

/-- Sentences of terminals and guards. -/
theorem yield_iff {xs : List Item} {ns : List Int} : Yield g xs ns ↔ ∃ v, g.Derives xs v ∧ (∀ y ∈ v, isTerminal y = true ∨ ∃ p l, y = .guard p l) ∧
    v.filter isTerminal = ns.map .terminal := by
  constructor
  · intro h
    induction h with
    | nil => exact ⟨[], .refl, by simp, rfl⟩
    | @terminal n xs ns _ ih =>
      obtain ⟨v, h1, h2, h3⟩ := ih
      refine ⟨.terminal n :: v, by simpa using Gram.derives_congr h1 [.terminal n] [], ?_, ?_⟩
      · intro y hy
        rcases List.mem_cons.1 hy with rfl | hy
        · exact Or.inl rfl
        · exact h2 y hy
      · rw [List.filter_cons_of_pos rfl, h3]; rfl
    | @guard p l xs ns _ ih =>
      obtain ⟨v, h1, h2, h3⟩ := ih
      refine ⟨.guard p l :: v, by simpa using Gram.derives_congr h1 [.guard p l] [], ?_, ?_⟩
      · intro y hy
        rcases List.mem_cons.1 hy with rfl | hy
        · exact Or.inr ⟨p, l, rfl⟩
        · exact h2 y hy
      · rw [List.filter_cons_of_neg (by simp [isTerminal]), h3]
    | @node x r m xs ns hr _ _ ih1 ih2 =>
      obtain ⟨v1, h1, h2, h3⟩ := ih1
      obtain ⟨v2, h4, h5, h6⟩ := ih2
      refine ⟨v1 ++ v2, ?_, ?_, ?_⟩
      · have a1 := Gram.derives_congr (ReflTransGen.trans (Gram.derives_prod hr) h1) [] xs
        have a2 := Gram.derives_congr h4 v1 []
        simp only [List.nil_append, List.append_nil, List.singleton_append] at a1 a2
        exact ReflTransGen.trans a1 a2
      · intro y hy
        rcases List.mem_append.1 hy with hy | hy
        · exact h2 y hy
        · exact h5 y hy
      · rw [List.filter_append, h3, h6, List.map_append]
  · rintro ⟨v, h1, h2, h3⟩
    induction h1 using ReflTransGen.head_induction_on with
    | refl =>
      induction v generalizing ns with
      | nil =>
        rw [List.filter_nil] at h3
        rw [List.map_eq_nil_iff.1 h3.symm]
        exact .nil
      | cons y v ih =>
        rcases h2 y (List.mem_cons_self ..) with hy | ⟨p, l, rfl⟩
        · cases y with
          | terminal n =>
            rw [List.filter_cons_of_pos rfl] at h3
            cases ns with
            | nil => cases h3
            | cons k ns =>
              rw [List.map_cons, List.cons.injEq] at h3
              cases h3.1
              exact .terminal (ih (fun z hz => h2 z (List.mem_cons_of_mem _ hz)) h3.2)
          | _ => cases hy
        · rw [List.filter_cons_of_neg (by simp [isTerminal])] at h3
          exact .guard (ih (fun z hz => h2 z (List.mem_cons_of_mem _ hz)) h3)
    | head hs _ ih =>
      obtain ⟨a, x, b, r, rfl, hr, rfl⟩ := hs
      obtain ⟨u, w, rfl, h4, h5⟩ := ih.split
      obtain ⟨u1, u2, rfl, h6, h7⟩ := h4.split
      rw [List.append_assoc]
      exact h6.append (.node hr h7 h5)

theorem Yield.nil_eq {n : List Int} (h : Yield g [] n) : n = [] := by cases h; rfl

/-- Repetitions. -/
theorem yield_zero {r : List Item} {us : List (List Int)} (h : ∀ u ∈ us, Yield g r u) : Yield g [.ebnf .repeatZero [r]] us.flatten := by
  induction us using List.reverseRecOn with
  | nil => exact .one (r := []) (by simp [Gram.prods]) .nil
  | append_singleton us u ih =>
    rw [List.flatten_append, List.flatten_singleton]
    refine .one (r := .ebnf .repeatZero [r] :: r) (by simp [Gram.prods, Gram.ebnfRule]) ?_
    exact (ih (fun u hu => h u (List.mem_append_left _ hu))).append (h u (by simp))

theorem yield_one {r : List Item} {us : List (List Int)} (hne : us ≠ []) (h : ∀ u ∈ us, Yield g r u) : Yield g [.ebnf .repeating [r]] us.flatten := by
  induction us using List.reverseRecOn with
  | nil => exact absurd rfl hne
  | append_singleton us u ih =>
    rw [List.flatten_append, List.flatten_singleton]
    by_cases he : us = []
    · subst he
      exact .one (r := r) (by simp [Gram.prods, Gram.ebnfRule]) (h u (by simp))
    · refine .one (r := .ebnf .repeating [r] :: r) (by simp [Gram.prods, Gram.ebnfRule]) ?_
      exact (ih he (fun u hu => h u (List.mem_append_left _ hu))).append (h u (by simp))

end

/-! ### The translation of the syntax -/

theorem seqLoop_true (xs : List Ebnf) : ∀ (ys : List Ebnf) (a : Attr), seqLoop (some (.paren ys a)) true xs = some (.paren (ys ++ xs) a) := by
  induction xs with
  | nil => intro ys a; simp [seqLoop]
  | cons x xs ih => intro ys a; simp [seqLoop, addChild, ih]

theorem seqOf_eq (xs : List Ebnf) : seqOf xs = match xs with | [] => .paren [] .blank | [x] => x | x :: y :: xs => .paren (x :: y :: xs) .blank := by
  match xs with
  | [] => rfl
  | [x] => rfl
  | x :: y :: xs => simp [seqOf, seqLoop, addChild, seqLoop_true]

theorem trItem_seqOf (N : Names) (xs : List Ebnf) : trItem N (seqOf xs) = trItems N xs := by
  rw [seqOf_eq]
  match xs with
  | [] => simp [trItem, trItems]
  | [x] => simp [trItems]
  | x :: y :: xs => simp only [trItem]

theorem known_seqOf {T U : String → Prop} (xs : List Ebnf) : Known T U (seqOf xs) ↔ KnownAll T U xs := by
  rw [seqOf_eq]
  match xs with
  | [] => simp [Known, KnownAll]
  | [x] => simp [KnownAll]
  | x :: y :: xs => simp only [Known]

def ts (N : Names) (x : Simple) : List Item := trItem N (simpleDef x)
def tss (N : Names) (xs : List Simple) : List Item := trItems N (simpleDefs xs)

section
variable {N : Names}

theorem tss_nil : tss N [] = [] := by simp [tss, simpleDefs, trItems]
theorem tss_cons (x : Simple) (xs : List Simple) : tss N (x :: xs) = ts N x ++ tss N xs := by simp [tss, ts, simpleDefs, trItems]
theorem tss_one (x : Simple) : tss N [x] = ts N x := by rw [tss_cons, tss_nil, List.append_nil]
theorem tss_append (xs ys : List Simple) : tss N (xs ++ ys) = tss N xs ++ tss N ys := by
  induction xs with
  | nil => rw [tss_nil]; rfl
  | cons x xs ih => rw [List.cons_append, tss_cons, tss_cons, ih, List.append_assoc]

theorem ts_terminal (k s n a) : ts N (.terminal k s n a) = [.terminal (N.sym n)] := by simp [ts, simpleDef, trItem]
theorem ts_nonterminal (s n a) : ts N (.nonterminal s n a) = [.nonterminal (N.nt n)] := by simp [ts, simpleDef, trItem]
theorem ts_star (x a) : ts N (.star x a) = [.ebnf .repeatZero [ts N x]] := by simp [ts, simpleDef, trItem]
theorem ts_plus (x a) : ts N (.plus x a) = [.ebnf .repeating [ts N x]] := by simp [ts, simpleDef, trItem]
theorem ts_question (x a) : ts N (.question x a) = [.ebnf .optional [ts N x]] := by simp [ts, simpleDef, trItem]
theorem ts_guard (c f r a) : ∃ l, ts N (.guard c f r a) = [.guard (-1) l] := by
  simp only [ts, simpleDef, trItem]
  exact ⟨_, rfl⟩
theorem ts_paren_nil (f a) : ts N (.paren f [] a) = tss N f := by simp [ts, simpleDef, altDefs, tss, trItem_seqOf]
theorem ts_paren_cons (f r rest a) : ts N (.paren f (r :: rest) a) = [.ebnf .alternative [tss N f, ts N (.paren r rest .blank)]] := by
  simp only [ts, tss, simpleDef, altDefs, trItem, trItem_seqOf]
end

/-! ### From meanings to derivations -/

section
variable {N : Names} {g : Gram} {P : String → List Simple → Prop}

theorem yield_paren (r : List (List Simple)) : ∀ (f p : List Simple) (a : Attr) {m : List Int}, p ∈ f :: r → Yield g (tss N p) m → Yield g (ts N (.paren f r a)) m := by
  induction r with
  | nil =>
    intro f p a m hp h
    rw [List.mem_singleton.1 hp] at h
    rw [ts_paren_nil]
    exact h
  | cons r rest ih =>
    intro f p a m hp h
    rw [ts_paren_cons]
    rcases List.mem_cons.1 hp with rfl | hp
    · exact .one (r := tss N p) (by simp [Gram.prods]) h
    · exact .one (r := ts N (.paren r rest .blank)) (by simp [Gram.prods]) (ih r p .blank hp h)

theorem yield_of_means (hP : ∀ n p, P n p → tss N p ∈ g.rules (N.nt n)) {xs : List Simple} {w : List String} (h : Means P xs w) :
    Yield g (tss N xs) (w.map N.sym) := by
  induction h with
  | nil => rw [tss_nil]; exact .nil
  | terminal _ ih => rw [tss_cons, ts_terminal]; exact .terminal ih
  | nonterminal hp _ _ ih1 ih2 =>
    rw [tss_cons, ts_nonterminal, List.map_append]
    exact .node (hP _ _ hp) ih1 ih2
  | @guard c f r a xs w _ ih =>
    obtain ⟨l, hl⟩ := ts_guard (N := N) c f r a
    rw [tss_cons, hl]
    exact .guard ih
  | @star x a xs w us _ _ ih1 ih2 =>
    rw [tss_cons, ts_star, List.map_append, List.map_flatten]
    refine (yield_zero ?_).append ih2
    intro u hu
    obtain ⟨v, hv, rfl⟩ := List.mem_map.1 hu
    rw [← tss_one]
    exact ih1 v hv
  | @plus x a xs w us hne _ _ ih1 ih2 =>
    rw [tss_cons, ts_plus, List.map_append, List.map_flatten]
    refine (yield_one (by simpa using hne) ?_).append ih2
    intro u hu
    obtain ⟨v, hv, rfl⟩ := List.mem_map.1 hu
    rw [← tss_one]
    exact ih1 v hv
  | without _ ih =>
    rw [tss_cons, ts_question]
    exact .node (r := []) (by simp [Gram.prods]) .nil ih
  | @«with» x a u xs w _ _ ih1 ih2 =>
    rw [tss_cons, ts_question, List.map_append]
    rw [tss_one] at ih1
    exact .node (r := ts N x) (by simp [Gram.prods, Gram.ebnfRule]) ih1 ih2
  | paren hp _ _ ih1 ih2 =>
    rw [tss_cons, List.map_append]
    exact (yield_paren _ _ _ _ hp ih1).append ih2

/-! ### From derivations to meanings -/

theorem means_append {xs ys : List Simple} {u v : List String} (h : Means P xs u) (h' : Means P ys v) : Means P (xs ++ ys) (u ++ v) := by
  induction h with
  | nil => exact h'
  | terminal _ ih => exact .terminal ih
  | nonterminal hp hu _ _ ih => rw [List.append_assoc]; exact .nonterminal hp hu ih
  | guard _ ih => exact .guard ih
  | star hu _ _ ih => rw [List.append_assoc]; exact .star hu ih
  | plus hne hu _ _ ih => rw [List.append_assoc]; exact .plus hne hu ih
  | without _ ih => exact .without ih
  | «with» hu _ _ ih => rw [List.append_assoc]; exact .with hu ih
  | paren hp hu _ _ ih => rw [List.append_assoc]; exact .paren hp hu ih

theorem means_split {xs ys : List Simple} {w : List String} (h : Means P (xs ++ ys) w) : ∃ u v, w = u ++ v ∧ Means P xs u ∧ Means P ys v := by
  induction xs generalizing w with
  | nil => exact ⟨[], w, rfl, .nil, h⟩
  | cons x xs ih =>
    rw [List.cons_append] at h
    cases h with
    | terminal h => obtain ⟨u, v, rfl, h1, h2⟩ := ih h; exact ⟨_ :: u, v, rfl, .terminal h1, h2⟩
    | nonterminal hp hu h => obtain ⟨u, v, rfl, h1, h2⟩ := ih h; exact ⟨_ ++ u, v, by rw [List.append_assoc], .nonterminal hp hu h1, h2⟩
    | guard h => obtain ⟨u, v, rfl, h1, h2⟩ := ih h; exact ⟨u, v, rfl, .guard h1, h2⟩
    | star hu h => obtain ⟨u, v, rfl, h1, h2⟩ := ih h; exact ⟨_ ++ u, v, by rw [List.append_assoc], .star hu h1, h2⟩
    | plus hne hu h => obtain ⟨u, v, rfl, h1, h2⟩ := ih h; exact ⟨_ ++ u, v, by rw [List.append_assoc], .plus hne hu h1, h2⟩
    | without h => obtain ⟨u, v, rfl, h1, h2⟩ := ih h; exact ⟨u, v, rfl, .without h1, h2⟩
    | «with» hu h => obtain ⟨u, v, rfl, h1, h2⟩ := ih h; exact ⟨_ ++ u, v, by rw [List.append_assoc], .with hu h1, h2⟩
    | paren hp hu h => obtain ⟨u, v, rfl, h1, h2⟩ := ih h; exact ⟨_ ++ u, v, by rw [List.append_assoc], .paren hp hu h1, h2⟩

theorem means_cons {x : Simple} {xs : List Simple} {w : List String} (h : Means P (x :: xs) w) : ∃ u v, w = u ++ v ∧ Means P [x] u ∧ Means P xs v :=
  means_split (xs := [x]) h

/-- Everything that is known of a sequence. -/
def KS (U : String → Prop) (xs : List Simple) : Prop := KnownAll (fun _ => True) U (simpleDefs xs)

variable {U : String → Prop}

theorem ks_cons {x : Simple} {xs : List Simple} : KS U (x :: xs) ↔ KS U [x] ∧ KS U xs := by
  simp [KS, simpleDefs, KnownAll]

theorem ks_append {xs ys : List Simple} : KS U (xs ++ ys) ↔ KS U xs ∧ KS U ys := by
  induction xs with
  | nil => simp [KS, simpleDefs, KnownAll]
  | cons x xs ih => rw [List.cons_append, ks_cons, ih, ks_cons (xs := xs), and_assoc]

theorem ks_paren_nil {f : List Simple} {a : Attr} : KS U [.paren f [] a] ↔ KS U f := by
  simp [KS, simpleDefs, KnownAll, simpleDef, altDefs, known_seqOf]

theorem ks_paren_cons {f r : List Simple} {rest : List (List Simple)} {a : Attr} : KS U [.paren f (r :: rest) a] ↔ KS U f ∧ KS U [.paren r rest .blank] := by
  simp [KS, simpleDefs, KnownAll, simpleDef, altDefs, known_seqOf, Known]

def Atom : Simple → Prop
  | .paren _ [] _ => False
  | _ => True

theorem ts_atom {e : Simple} (h : Atom e) : ∃ x, ts N e = [x] := by
  cases e with
  | nonterminal s n a => exact ⟨_, ts_nonterminal ..⟩
  | terminal k s n a => exact ⟨_, ts_terminal ..⟩
  | guard c f r a => obtain ⟨l, hl⟩ := ts_guard (N := N) c f r a; exact ⟨_, hl⟩
  | star x a => exact ⟨_, ts_star ..⟩
  | plus x a => exact ⟨_, ts_plus ..⟩
  | question x a => exact ⟨_, ts_question ..⟩
  | paren f r a =>
    cases r with
    | nil => exact h.elim
    | cons r rest => exact ⟨_, ts_paren_cons ..⟩

theorem means_nil : ∀ (k : Nat) (es : List Simple), sizeOf es < k → tss N es = [] → Means P es []
  | 0, _, hk, _ => by omega
  | k + 1, [], _, _ => .nil
  | k + 1, e :: es, hk, h => by
    rw [tss_cons, List.append_eq_nil_iff] at h
    have hs : sizeOf (e :: es) = 1 + sizeOf e + sizeOf es := by simp
    have ih := means_nil k es (by omega) h.2
    by_cases ha : Atom e
    · obtain ⟨x, hx⟩ := ts_atom (N := N) ha
      rw [hx] at h
      cases h.1
    · cases e with
      | paren f r a =>
        cases r with
        | nil =>
          rw [ts_paren_nil] at h
          have hs' : sizeOf (Simple.paren f [] a) = 1 + sizeOf f + sizeOf ([] : List (List Simple)) + sizeOf a := by simp
          have := means_nil k f (by omega) h.1
          exact Means.paren (a := a) (List.mem_singleton_self f) this ih
        | cons r rest => exact absurd trivial ha
      | _ => exact absurd trivial ha

/-- The first item of a translation comes from an item of the sequence, after some items that stand for nothing. -/
theorem uncons : ∀ (k : Nat) (es : List Simple) (x : Item) (xs : List Item), sizeOf es < k → KS U es → tss N es = x :: xs →
    ∃ e es', Atom e ∧ ts N e = [x] ∧ tss N es' = xs ∧ KS U [e] ∧ KS U es' ∧ ∀ w, Means P (e :: es') w → Means P es w
  | 0, _, _, _, hk, _, _ => by omega
  | k + 1, [], _, _, _, _, h => by rw [tss_nil] at h; cases h
  | k + 1, e :: es, x, xs, hk, hu, h => by
    have hs : sizeOf (e :: es) = 1 + sizeOf e + sizeOf es := by simp
    obtain ⟨hu1, hu2⟩ := ks_cons.1 hu
    rw [tss_cons] at h
    by_cases ha : Atom e
    · obtain ⟨y, hy⟩ := ts_atom (N := N) ha
      rw [hy, List.singleton_append, List.cons.injEq] at h
      exact ⟨e, es, ha, by rw [hy, h.1], h.2, hu1, hu2, fun _ h => h⟩
    · cases e with
      | paren f r a =>
        cases r with
        | nil =>
          have hs' : sizeOf (Simple.paren f [] a) = 1 + sizeOf f + sizeOf ([] : List (List Simple)) + sizeOf a := by simp
          rw [ts_paren_nil] at h
          rw [ks_paren_nil] at hu1
          cases hf : tss N f with
          | nil =>
            rw [hf, List.nil_append] at h
            obtain ⟨e', es', h1, h2, h3, h4, h5, h6⟩ := uncons k es x xs (by omega) hu2 h
            refine ⟨e', es', h1, h2, h3, h4, h5, fun w hw => ?_⟩
            exact Means.paren (a := a) (List.mem_singleton_self f) (means_nil k f (by omega) hf) (h6 w hw)
          | cons y ys =>
            rw [hf, List.cons_append, List.cons.injEq] at h
            obtain ⟨e', es', h1, h2, h3, h4, h5, h6⟩ := uncons k f y ys (by omega) hu1 hf
            refine ⟨e', es' ++ es, h1, by rw [h2, h.1], by rw [tss_append, h3, h.2], h4, ks_append.2 ⟨h5, hu2⟩, fun w hw => ?_⟩
            rw [← List.cons_append] at hw
            obtain ⟨u, v, rfl, g1, g2⟩ := means_split hw
            exact Means.paren (a := a) (List.mem_singleton_self f) (h6 u g1) g2
        | cons r rest => exact absurd trivial ha
      | _ => exact absurd trivial ha

theorem means_of_yield (hP : ∀ n, U n → ∀ r ∈ g.rules (N.nt n), ∃ p, P n p ∧ r = tss N p ∧ KS U p) {xs : List Item} {ns : List Int} (h : Yield g xs ns) :
    ∀ es, KS U es → tss N es = xs → ∃ w, Means P es w ∧ ns = w.map N.sym := by
  induction h with
  | nil => intro es _ he; exact ⟨[], means_nil _ es (Nat.lt_succ_self _) he, rfl⟩
  | @terminal n xs ns _ ih =>
    intro es hu he
    obtain ⟨e, es', h1, h2, h3, h4, h5, h6⟩ := uncons (P := P) _ es _ _ (Nat.lt_succ_self _) hu he
    obtain ⟨w, hw, hw'⟩ := ih es' h5 h3
    cases e with
    | terminal k s m a =>
      rw [ts_terminal, List.cons.injEq, Item.terminal.injEq] at h2
      exact ⟨m :: w, h6 _ (.terminal hw), by rw [hw', List.map_cons, h2.1]⟩
    | nonterminal s m a => rw [ts_nonterminal] at h2; cases h2
    | guard c f r a => obtain ⟨l, hl⟩ := ts_guard (N := N) c f r a; rw [hl] at h2; cases h2
    | star x a => rw [ts_star] at h2; cases h2
    | plus x a => rw [ts_plus] at h2; cases h2
    | question x a => rw [ts_question] at h2; cases h2
    | paren f r a =>
      cases r with
      | nil => exact h1.elim
      | cons r rest => rw [ts_paren_cons] at h2; cases h2
  | @guard p l xs ns _ ih =>
    intro es hu he
    obtain ⟨e, es', h1, h2, h3, h4, h5, h6⟩ := uncons (P := P) _ es _ _ (Nat.lt_succ_self _) hu he
    obtain ⟨w, hw, hw'⟩ := ih es' h5 h3
    cases e with
    | guard c f r a => exact ⟨w, h6 _ (.guard hw), hw'⟩
    | terminal k s m a => rw [ts_terminal] at h2; cases h2
    | nonterminal s m a => rw [ts_nonterminal] at h2; cases h2
    | star x a => rw [ts_star] at h2; cases h2
    | plus x a => rw [ts_plus] at h2; cases h2
    | question x a => rw [ts_question] at h2; cases h2
    | paren f r a =>
      cases r with
      | nil => exact h1.elim
      | cons r rest => rw [ts_paren_cons] at h2; cases h2
  | @node x r m xs ns hr hm _ ih1 ih2 =>
    intro es hu he
    obtain ⟨e, es', h1, h2, h3, h4, h5, h6⟩ := uncons (P := P) _ es _ _ (Nat.lt_succ_self _) hu he
    obtain ⟨w, hw, hw'⟩ := ih2 es' h5 h3
    suffices hs : ∃ u, (∀ w, Means P es' w → Means P (e :: es') (u ++ w)) ∧ m = u.map N.sym by
      obtain ⟨u, hu', rfl⟩ := hs
      exact ⟨u ++ w, h6 _ (hu' w hw), by rw [hw', List.map_append]⟩
    cases e with
    | terminal k s m a => rw [ts_terminal, List.cons.injEq] at h2; rw [← h2.1] at hr; cases hr
    | guard c f r a =>
      obtain ⟨l, hl⟩ := ts_guard (N := N) c f r a
      rw [hl, List.cons.injEq] at h2; rw [← h2.1] at hr; cases hr
    | nonterminal s n a =>
      rw [ts_nonterminal, List.cons.injEq] at h2
      rw [← h2.1] at hr
      have hn : U n := by simpa [KS, simpleDefs, simpleDef, KnownAll, Known] using h4
      obtain ⟨p, hp, rfl, hk⟩ := hP n hn r hr
      obtain ⟨u, hu', hu''⟩ := ih1 p hk rfl
      exact ⟨u, fun w hw => .nonterminal hp hu' hw, hu''⟩
    | star y a =>
      rw [ts_star, List.cons.injEq] at h2
      have hky : KS U [y] := by simpa [KS, simpleDefs, simpleDef, KnownAll, Known] using h4
      rw [← h2.1] at hr
      simp only [Gram.prods, Gram.ebnfRule, List.mem_cons, List.not_mem_nil, or_false] at hr
      rcases hr with rfl | rfl
      · exact ⟨[], fun w hw => .star (us := []) (by simp) hw, hm.nil_eq⟩
      · obtain ⟨u, hu', hu''⟩ := ih1 [.star y a, y] (ks_cons.2 ⟨h4, hky⟩) (by rw [tss_cons, ts_star, tss_one]; rfl)
        cases hu' with
        | @star _ _ _ v us hus hv =>
          refine ⟨us.flatten ++ v, fun w hw => ?_, hu''⟩
          have := Means.star (a := a) (us := us ++ [v]) (by
            intro z hz
            rcases List.mem_append.1 hz with hz | hz
            · exact hus z hz
            · rw [List.mem_singleton.1 hz]; exact hv) hw
          rwa [List.flatten_append, List.flatten_singleton] at this
    | plus y a =>
      rw [ts_plus, List.cons.injEq] at h2
      have hky : KS U [y] := by simpa [KS, simpleDefs, simpleDef, KnownAll, Known] using h4
      rw [← h2.1] at hr
      simp only [Gram.prods, Gram.ebnfRule, List.mem_cons, List.not_mem_nil, or_false] at hr
      rcases hr with rfl | rfl
      · obtain ⟨u, hu', hu''⟩ := ih1 [y] hky (tss_one y)
        refine ⟨u, fun w hw => ?_, hu''⟩
        have := Means.plus (a := a) (us := [u]) (by simp) (by simpa using hu') hw
        rwa [List.flatten_singleton] at this
      · obtain ⟨u, hu', hu''⟩ := ih1 [.plus y a, y] (ks_cons.2 ⟨h4, hky⟩) (by rw [tss_cons, ts_plus, tss_one]; rfl)
        cases hu' with
        | @plus _ _ _ v us hne hus hv =>
          refine ⟨us.flatten ++ v, fun w hw => ?_, hu''⟩
          have := Means.plus (a := a) (us := us ++ [v]) (by simp) (by
            intro z hz
            rcases List.mem_append.1 hz with hz | hz
            · exact hus z hz
            · rw [List.mem_singleton.1 hz]; exact hv) hw
          rwa [List.flatten_append, List.flatten_singleton] at this
    | question y a =>
      rw [ts_question, List.cons.injEq] at h2
      have hky : KS U [y] := by simpa [KS, simpleDefs, simpleDef, KnownAll, Known] using h4
      rw [← h2.1] at hr
      simp only [Gram.prods, Gram.ebnfRule, List.mem_cons, List.not_mem_nil, or_false] at hr
      rcases hr with rfl | rfl
      · exact ⟨[], fun w hw => .without hw, hm.nil_eq⟩
      · obtain ⟨u, hu', hu''⟩ := ih1 [y] hky (tss_one y)
        exact ⟨u, fun w hw => .with hu' hw, hu''⟩
    | paren f alts a =>
      cases alts with
      | nil => exact h1.elim
      | cons b rest =>
        rw [ts_paren_cons, List.cons.injEq] at h2
        obtain ⟨hk1, hk2⟩ := ks_paren_cons.1 h4
        rw [← h2.1] at hr
        simp only [Gram.prods, List.mem_cons, List.not_mem_nil, or_false] at hr
        rcases hr with rfl | rfl
        · obtain ⟨u, hu', hu''⟩ := ih1 f hk1 rfl
          exact ⟨u, fun w hw => .paren (List.mem_cons_self ..) hu' hw, hu''⟩
        · obtain ⟨u, hu', hu''⟩ := ih1 [.paren b rest .blank] hk2 (tss_one _)
          cases hu' with
          | @paren _ _ _ p v _ v' hp hv hv' =>
            have : v' = [] := by cases hv'; rfl
            subst this
            rw [List.append_nil] at hu''
            exact ⟨v, fun w hw => .paren (List.mem_cons_of_mem _ hp) hv hw, hu''⟩

end
end Language
end TameParse

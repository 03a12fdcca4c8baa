import Verif.BootstrapProps
/-
C98: of the trees of its grammar, the bootstrapper refuses those that inherit or refer to another language, and no others.
-/
namespace TameParse
namespace Bootstrap

/-- Somewhere in the tree, outside the rules of the grammar blocks, a language inherits or a definition `x = L.y` refers to another language. -/
inductive Refused : Node → Prop
  | reference {l : Option (Tok × String)} {cs : List Node} : cs.length = 5 → Refused (.mk (some .lexemeDefinition) l cs)
  | inherits {l : Option (Tok × String)} {a b c : Node} {cs : List Node} : c.children ≠ [] → Refused (.mk (some .languageBlock) l (a :: b :: c :: cs))
  | inside {i : Option Nt} {l : Option (Tok × String)} {c : Node} {cs : List Node} : i ≠ some .nonterminalDefinition → c ∈ cs → Refused c → Refused (.mk i l cs)

/-- Read if and only if `p` does not hold, else no definition. -/
def Exact {α : Type} (r : R α) (p : Prop) : Prop := ((∃ a, r = .ok a) ∧ ¬ p) ∨ (r = .error .null ∧ p)

theorem exact_ok {α : Type} {a : α} {p : Prop} (h : ¬ p) : Exact (.ok a : R α) p := .inl ⟨⟨a, rfl⟩, h⟩

theorem exact_map {α β : Type} {r : R α} {f : α → β} {p : Prop} (h : Exact r p) : Exact (r >>= fun a => (.ok (f a) : R β)) p := by
  rcases h with ⟨⟨a, rfl⟩, h⟩ | ⟨rfl, h⟩
  · exact .inl ⟨⟨f a, rfl⟩, h⟩
  · exact .inr ⟨rfl, h⟩

theorem exact_two {α β γ : Type} {r : R α} {s : R β} {f : α → β → γ} {p q : Prop} (h : Exact r p) (h' : Exact s q) :
    Exact (r >>= fun a => s >>= fun b => (.ok (f a b) : R γ)) (p ∨ q) := by
  rcases h with ⟨⟨a, rfl⟩, h⟩ | ⟨rfl, h⟩
  · rcases h' with ⟨⟨b, rfl⟩, h'⟩ | ⟨rfl, h'⟩
    · exact .inl ⟨⟨f a b, rfl⟩, fun e => e.elim h h'⟩
    · exact .inr ⟨rfl, .inr h'⟩
  · exact .inr ⟨rfl, .inl h⟩

theorem exact_iff {α : Type} {r : R α} {p q : Prop} (h : Exact r p) (e : p ↔ q) : Exact r q := by
  rcases h with ⟨a, h⟩ | ⟨a, h⟩
  · exact .inl ⟨a, fun x => h (e.2 x)⟩
  · exact .inr ⟨a, e.1 h⟩

theorem refused_leaf {i : Option Nt} {l : Option (Tok × String)} : ¬ Refused (.mk i l []) := by
  intro h
  cases h with
  | reference h => simp at h
  | inside _ h _ => simp at h

/-- A node of another kind is refused for what is below it. -/
theorem refused_mk {i : Option Nt} {l : Option (Tok × String)} {cs : List Node} (h1 : i ≠ some .lexemeDefinition) (h2 : i ≠ some .languageBlock)
    (h3 : i ≠ some .nonterminalDefinition) : Refused (.mk i l cs) ↔ ∃ c ∈ cs, Refused c := by
  constructor
  · intro h
    cases h with
    | reference _ => exact absurd rfl h1
    | inherits _ => exact absurd rfl h2
    | inside _ h h' => exact ⟨_, h, h'⟩
  · rintro ⟨c, h, h'⟩
    exact .inside h3 h h'

theorem refused_t {t : Tok} {n : Node} (h : Fits (.t t) n) : ¬ Refused n := by
  obtain ⟨s, rfl⟩ := fits_t h
  exact refused_leaf

theorem lexeme_exact {n : Node} (h : Fits (.n .lexemeDefinition) n) : Exact (getLexeme n) (Refused n) := by
  obtain ⟨r, cs, hr, rfl, h⟩ := fits_n h
  simp only [rules, List.mem_cons, List.not_mem_nil, or_false] at hr
  rcases hr with rfl | rfl
  · obtain ⟨d0, ds, rfl, g0, h⟩ := fitsAll_cons h
    obtain ⟨d1, ds, rfl, g1, h⟩ := fitsAll_cons h
    obtain ⟨d2, ds, rfl, g2, h⟩ := fitsAll_cons h
    cases fitsAll_nil h
    refine .inl ⟨?_, fun e => ?_⟩
    · obtain ⟨s, rfl⟩ := fits_t g0
      obtain ⟨t, rfl⟩ := fits_t g2
      simp [getLexeme, Node.item, Node.children, child, bind, Except.bind, content, Node.lexeme]
    · cases e with
      | reference e => simp at e
      | inside _ m e =>
        simp only [List.mem_cons, List.not_mem_nil, or_false] at m
        rcases m with rfl | rfl | rfl
        · exact refused_t g0 e
        · exact refused_t g1 e
        · exact refused_t g2 e
  · obtain ⟨d0, ds, rfl, g0, h⟩ := fitsAll_cons h
    obtain ⟨d1, ds, rfl, g1, h⟩ := fitsAll_cons h
    obtain ⟨d2, ds, rfl, g2, h⟩ := fitsAll_cons h
    obtain ⟨d3, ds, rfl, g3, h⟩ := fitsAll_cons h
    obtain ⟨d4, ds, rfl, g4, h⟩ := fitsAll_cons h
    cases fitsAll_nil h
    exact .inr ⟨by simp [getLexeme, Node.item, Node.children, child, bind, Except.bind], .reference rfl⟩

theorem keyword_exact {n : Node} (h : Fits (.n .keywordDefinition) n) : Exact (getLexeme n) (Refused n) := by
  obtain ⟨r, cs, hr, rfl, h⟩ := fits_n h
  simp only [rules, List.mem_cons, List.not_mem_nil, or_false] at hr
  refine .inl ⟨?_, ?_⟩
  · have three : ∀ t, (t = .string ∨ t = .character ∨ t = .regex) → FitsAll [.t .identifier, .t .equals, .t t] cs →
        ∃ a, getLexeme (.mk (some .keywordDefinition) none cs) = .ok a := by
      intro t ht h
      obtain ⟨d0, ds, rfl, g0, h⟩ := fitsAll_cons h
      obtain ⟨d1, ds, rfl, g1, h⟩ := fitsAll_cons h
      obtain ⟨d2, ds, rfl, g2, h⟩ := fitsAll_cons h
      cases fitsAll_nil h
      obtain ⟨s, rfl⟩ := fits_t g0
      obtain ⟨u, rfl⟩ := fits_t g2
      rcases ht with rfl | rfl | rfl <;> simp [getLexeme, Node.item, Node.children, child, bind, Except.bind, content, Node.lexeme, matched, lexKindOf]
    rcases hr with rfl | rfl | rfl | rfl
    · obtain ⟨d0, ds, rfl, g0, h⟩ := fitsAll_cons h
      cases fitsAll_nil h
      obtain ⟨s, rfl⟩ := fits_t g0
      simp [getLexeme, Node.item, Node.children, child, bind, Except.bind, content, Node.lexeme]
    · exact three _ (by simp) h
    · exact three _ (by simp) h
    · exact three _ (by simp) h
  · have ts : ∀ (ks : List Tok) (cs : List Node), FitsAll (ks.map Sym.t) cs → ∀ c ∈ cs, ¬ Refused c := by
      intro ks
      induction ks with
      | nil => intro cs h; rw [fitsAll_nil h]; simp
      | cons k ks ih =>
        intro cs h c hc
        obtain ⟨d, ds, rfl, g, h⟩ := fitsAll_cons h
        rcases List.mem_cons.1 hc with rfl | hc
        · exact refused_t g
        · exact ih ds h c hc
    rw [refused_mk (by simp) (by simp) (by simp)]
    rintro ⟨c, hc, e⟩
    rcases hr with rfl | rfl | rfl | rfl
    · exact ts [.identifier] cs h c hc e
    · exact ts [.identifier, .equals, .string] cs h c hc e
    · exact ts [.identifier, .equals, .character] cs h c hc e
    · exact ts [.identifier, .equals, .regex] cs h c hc e

theorem refused_list {l c : Node} : Refused l ∨ Refused c ↔ Refused (.mk (some .list) none [l, c]) := by
  rw [refused_mk (by simp) (by simp) (by simp)]
  simp

theorem lexer_exact {d : Nt} (hd : ∀ n, Fits (.n d) n → Exact (getLexeme n) (Refused n)) :
    ∀ (k : Nat) (n : Node), sizeOf n ≤ k → Fits (.star [.n d]) n → Exact (getLexer n) (Refused n) := by
  intro k
  induction k with
  | zero => intro n hn; cases n; simp at hn
  | succ k ih =>
    intro n hn h
    rcases fits_star_inv h with rfl | ⟨l, cs, rfl, hl, h⟩
    · rw [getLexer]; exact exact_ok refused_leaf
    · obtain ⟨c0, ds, rfl, h0, h⟩ := fitsAll_cons h
      cases fitsAll_nil h
      rw [getLexer]
      exact exact_iff (exact_two (ih l (by simp at hn; omega) hl) (hd c0 h0)) refused_list

theorem grammar_clean : ∀ (k : Nat) (n : Node), sizeOf n ≤ k → Fits (.star [.n .nonterminalDefinition]) n → ¬ Refused n := by
  intro k
  induction k with
  | zero => intro n hn; cases n; simp at hn
  | succ k ih =>
    intro n hn h
    rcases fits_star_inv h with rfl | ⟨l, cs, rfl, hl, h⟩
    · exact refused_leaf
    · obtain ⟨c0, ds, rfl, h0, h⟩ := fitsAll_cons h
      cases fitsAll_nil h
      rw [← refused_list]
      rintro (e | e)
      · exact ih l (by simp at hn; omega) hl e
      · obtain ⟨r, cs, hr, rfl, h⟩ := fits_n h0
        cases e with
        | inside e => exact e rfl

theorem weak_clean {n : Node} (h : Fits (.opt [.t .weak]) n) : ¬ Refused n := by
  rcases fits_opt_inv h with rfl | ⟨cs, rfl, h'⟩
  · exact refused_leaf
  · obtain ⟨c, ds, rfl, h1, h2⟩ := fitsAll_cons h'
    cases fitsAll_nil h2
    rw [refused_mk (by simp) (by simp) (by simp)]
    rintro ⟨c', hc, e⟩
    rw [List.mem_singleton.1 hc] at e
    exact refused_t h1 e

theorem defn_exact {n : Node} (h : Fits (.n .languageDefinition) n) : Exact (getDefn n) (Refused n) := by
  obtain ⟨r, cs, hr, rfl, h⟩ := fits_n h
  simp only [rules, List.mem_cons, List.not_mem_nil, or_false] at hr
  rcases hr with rfl | rfl | rfl | rfl | rfl
  all_goals
    obtain ⟨c, ds, rfl, h1, h2⟩ := fitsAll_cons h
    cases fitsAll_nil h2
    obtain ⟨r, cs, hr, rfl, k⟩ := fits_n h1
    simp only [rules, List.mem_singleton] at hr
    subst hr
    obtain ⟨d0, ds, rfl, g0, k0⟩ := fitsAll_cons k
    obtain ⟨d1, ds, rfl, g1, k1⟩ := fitsAll_cons k0
    obtain ⟨d2, ds, rfl, g2, k2⟩ := fitsAll_cons k1
    obtain ⟨d3, ds, rfl, g3, k3⟩ := fitsAll_cons k2
    rw [refused_mk (by simp) (by simp) (by simp)]
    simp only [List.mem_singleton, exists_eq_left]
    rw [refused_mk (by simp) (by simp) (by simp)]
  · cases fitsAll_nil k3
    have e := lexer_exact (fun _ => lexeme_exact) _ d2 (Nat.le_refl _) g2
    have n0 := refused_t g0; have n1 := refused_t g1; have n3 := refused_t g3
    obtain ⟨s, rfl⟩ := fits_t g1
    obtain ⟨a, rfl⟩ := fits_t g0
    obtain ⟨b, rfl⟩ := fits_t g3
    simp only [getDefn, Node.item, Node.children, child, bind, Except.bind, List.getElem?_cons_succ, List.getElem?_cons_zero, content, Node.lexeme]
    exact exact_iff (exact_map e) (by simp [n0, n1, n3])
  · obtain ⟨d4, ds, rfl, g4, k4⟩ := fitsAll_cons k3
    cases fitsAll_nil k4
    have e := lexer_exact (fun _ => lexeme_exact) _ d3 (Nat.le_refl _) g3
    have n0 := weak_clean g0; have n1 := refused_t g1; have n2 := refused_t g2; have n4 := refused_t g4
    obtain ⟨s, rfl⟩ := fits_t g1
    obtain ⟨b, rfl⟩ := fits_t g4
    simp only [getDefn, Node.item, Node.children, child, bind, Except.bind, List.getElem?_cons_succ, List.getElem?_cons_zero, content, Node.lexeme]
    exact exact_iff (exact_map e) (by simp [n0, n1, n2, n4])
  · cases fitsAll_nil k3
    have e := lexer_exact (fun _ => keyword_exact) _ d2 (Nat.le_refl _) g2
    have n0 := refused_t g0; have n1 := refused_t g1; have n3 := refused_t g3
    obtain ⟨s, rfl⟩ := fits_t g1
    obtain ⟨a, rfl⟩ := fits_t g0
    obtain ⟨b, rfl⟩ := fits_t g3
    simp only [getDefn, Node.item, Node.children, child, bind, Except.bind, List.getElem?_cons_succ, List.getElem?_cons_zero, content, Node.lexeme]
    exact exact_iff (exact_map e) (by simp [n0, n1, n3])
  · obtain ⟨d4, ds, rfl, g4, k4⟩ := fitsAll_cons k3
    cases fitsAll_nil k4
    have e := lexer_exact (fun _ => keyword_exact) _ d3 (Nat.le_refl _) g3
    have n0 := weak_clean g0; have n1 := refused_t g1; have n2 := refused_t g2; have n4 := refused_t g4
    obtain ⟨s, rfl⟩ := fits_t g1
    obtain ⟨b, rfl⟩ := fits_t g4
    simp only [getDefn, Node.item, Node.children, child, bind, Except.bind, List.getElem?_cons_succ, List.getElem?_cons_zero, content, Node.lexeme]
    exact exact_iff (exact_map e) (by simp [n0, n1, n2, n4])
  · cases fitsAll_nil k3
    have n2 := grammar_clean _ d2 (Nat.le_refl _) g2
    have n0 := refused_t g0; have n1 := refused_t g1; have n3 := refused_t g3
    obtain ⟨s, rfl⟩ := fits_t g1
    obtain ⟨a, rfl⟩ := fits_t g0
    obtain ⟨b, rfl⟩ := fits_t g3
    obtain ⟨xs, hx⟩ := grammar_ok _ d2 (Nat.le_refl _) g2
    simp only [getDefn, Node.item, Node.children, child, bind, Except.bind, List.getElem?_cons_succ, List.getElem?_cons_zero, content, Node.lexeme]
    rw [hx]
    exact exact_ok (by simp [n0, n1, n2, n3])

theorem defns_exact : ∀ (k : Nat) (n : Node), sizeOf n ≤ k → Fits (.star [.n .languageDefinition]) n → Exact (getDefns n) (Refused n) := by
  intro k
  induction k with
  | zero => intro n hn; cases n; simp at hn
  | succ k ih =>
    intro n hn h
    rcases fits_star_inv h with rfl | ⟨l, cs, rfl, hl, h⟩
    · rw [getDefns]; exact exact_ok refused_leaf
    · obtain ⟨c0, ds, rfl, h0, h⟩ := fitsAll_cons h
      cases fitsAll_nil h
      rw [getDefns]
      exact exact_iff (exact_two (ih l (by simp at hn; omega) hl) (defn_exact h0)) refused_list

theorem start_clean {s : String} : ¬ Refused (.mk (some .parserStart) none [.mk none (some (.nonterminal, s)) []]) := by
  rw [refused_mk (by simp) (by simp) (by simp)]
  rintro ⟨c, hc, e⟩
  rw [List.mem_singleton.1 hc] at e
  exact refused_leaf e

theorem starts_exact : ∀ (k : Nat) (n : Node), sizeOf n ≤ k → Fits (.plus [.n .parserStart]) n → (∃ xs, getStarts n = .ok xs) ∧ ¬ Refused n := by
  intro k
  induction k with
  | zero => intro n hn; cases n; simp at hn
  | succ k ih =>
    intro n hn h
    obtain ⟨cs, rfl, h | ⟨l, ds, rfl, hl, h⟩⟩ := fits_plus_inv h
    · obtain ⟨c, ds, rfl, h1, h2⟩ := fitsAll_cons h
      cases fitsAll_nil h2
      obtain ⟨s, rfl⟩ := start_ok h1
      refine ⟨⟨[s], ?_⟩, ?_⟩
      · rw [getStarts]
        · rfl
        · simp
      · rw [refused_mk (by simp) (by simp) (by simp)]
        rintro ⟨c, hc, e⟩
        rw [List.mem_singleton.1 hc] at e
        exact start_clean e
    · obtain ⟨c, ds, rfl, h1, h2⟩ := fitsAll_cons h
      cases fitsAll_nil h2
      obtain ⟨s, rfl⟩ := start_ok h1
      obtain ⟨⟨xs, hx⟩, hn'⟩ := ih l (by simp at hn; omega) hl
      refine ⟨⟨s :: xs, ?_⟩, ?_⟩
      · rw [getStarts]
        simp [child, Node.children, content, Node.lexeme, hx, bind, Except.bind]
      · rw [← refused_list]
        rintro (e | e)
        · exact hn' e
        · exact start_clean e

theorem top_exact {n : Node} (h : Fits (.n .toplevelBlock) n) : Exact (getTop n) (Refused n) := by
  obtain ⟨r, cs, hr, rfl, h⟩ := fits_n h
  simp only [rules, List.mem_cons, List.not_mem_nil, or_false] at hr
  rcases hr with rfl | rfl
  · obtain ⟨c, ds, rfl, h1, h2⟩ := fitsAll_cons h
    cases fitsAll_nil h2
    obtain ⟨r, cs, hr, rfl, h⟩ := fits_n h1
    simp only [rules, List.mem_singleton] at hr
    subst hr
    obtain ⟨d0, ds, rfl, g0, h⟩ := fitsAll_cons h
    obtain ⟨d1, ds, rfl, g1, h⟩ := fitsAll_cons h
    obtain ⟨d2, ds, rfl, g2, h⟩ := fitsAll_cons h
    obtain ⟨d3, ds, rfl, g3, h⟩ := fitsAll_cons h
    obtain ⟨d4, ds, rfl, g4, h⟩ := fitsAll_cons h
    obtain ⟨d5, ds, rfl, g5, h⟩ := fitsAll_cons h
    cases fitsAll_nil h
    rw [refused_mk (by simp) (by simp) (by simp)]
    simp only [List.mem_singleton, exists_eq_left]
    have n0 := refused_t g0; have n1 := refused_t g1; have n3 := refused_t g3; have n5 := refused_t g5
    have e4 := defns_exact _ d4 (Nat.le_refl _) g4
    obtain ⟨a, rfl⟩ := fits_t g0
    obtain ⟨b, rfl⟩ := fits_t g1
    obtain ⟨e, rfl⟩ := fits_t g5
    obtain ⟨i2, l2, cs2⟩ := d2
    cases cs2 with
    | nil =>
      refine exact_iff (exact_map (r := getDefns d4) (f := fun us => Top.language b us) e4) ⟨fun x => .inside (by simp) (by simp) x, fun x => ?_⟩
      cases x with
      | inherits x => exact absurd rfl x
      | inside _ m x =>
        simp only [List.mem_cons, List.not_mem_nil, or_false] at m
        rcases m with rfl | rfl | rfl | rfl | rfl | rfl
        · exact absurd x n0
        · exact absurd x n1
        · exact absurd x refused_leaf
        · exact absurd x n3
        · exact x
        · exact absurd x n5
    | cons c2 cs2 =>
      exact .inr ⟨by simp [getTop, Node.item, getLanguage, Node.children, child, bind, Except.bind, Node.lexeme, content], .inherits (by simp [Node.children])⟩
  · obtain ⟨c, ds, rfl, h1, h2⟩ := fitsAll_cons h
    cases fitsAll_nil h2
    obtain ⟨r, cs, hr, rfl, h⟩ := fits_n h1
    simp only [rules, List.mem_singleton] at hr
    subst hr
    obtain ⟨d0, ds, rfl, g0, h⟩ := fitsAll_cons h
    obtain ⟨d1, ds, rfl, g1, h⟩ := fitsAll_cons h
    obtain ⟨d2, ds, rfl, g2, h⟩ := fitsAll_cons h
    obtain ⟨d3, ds, rfl, g3, h⟩ := fitsAll_cons h
    obtain ⟨d4, ds, rfl, g4, h⟩ := fitsAll_cons h
    obtain ⟨d5, ds, rfl, g5, h⟩ := fitsAll_cons h
    obtain ⟨d6, ds, rfl, g6, h⟩ := fitsAll_cons h
    cases fitsAll_nil h
    rw [refused_mk (by simp) (by simp) (by simp)]
    simp only [List.mem_singleton, exists_eq_left]
    rw [refused_mk (by simp) (by simp) (by simp)]
    have n0 := refused_t g0; have n1 := refused_t g1; have n2 := refused_t g2; have n3 := refused_t g3; have n4 := refused_t g4; have n6 := refused_t g6
    obtain ⟨⟨xs, hx⟩, n5⟩ := starts_exact _ d5 (Nat.le_refl _) g5
    obtain ⟨a, rfl⟩ := fits_t g0
    obtain ⟨b, rfl⟩ := fits_t g1
    obtain ⟨e, rfl⟩ := fits_t g3
    obtain ⟨f, rfl⟩ := fits_t g6
    simp only [getTop, Node.item, getParser, Option.some.injEq, reduceCtorEq, if_false, if_true, hx]
    exact exact_ok (a := Top.parser b e xs) (by simp [n0, n1, n2, n3, n4, n5, n6])

theorem tops_exact : ∀ (k : Nat) (n : Node), sizeOf n ≤ k → Fits (.star [.n .toplevelBlock]) n → Exact (getTops n) (Refused n) := by
  intro k
  induction k with
  | zero => intro n hn; cases n; simp at hn
  | succ k ih =>
    intro n hn h
    rcases fits_star_inv h with rfl | ⟨l, cs, rfl, hl, h⟩
    · rw [getTops]; exact exact_ok refused_leaf
    · obtain ⟨c0, ds, rfl, h0, h⟩ := fitsAll_cons h
      cases fitsAll_nil h
      rw [getTops]
      exact exact_iff (exact_two (ih l (by simp at hn; omega) hl) (top_exact h0)) refused_list

/-- **C98.** Of the trees of its grammar the bootstrapper reads those in which no language inherits and no definition refers to another language, and gives no definition for
the others. -/
theorem reads_iff (n : Node) (h : Fits (.n .parserLanguage) n) :
    ((∃ f, getDefinition n = .ok f) ↔ ¬ Refused n) ∧ (getDefinition n = .error .null ↔ Refused n) := by
  obtain ⟨r, cs, hr, rfl, h⟩ := fits_n h
  simp only [rules, List.mem_singleton] at hr
  subst hr
  obtain ⟨c, ds, rfl, h1, h2⟩ := fitsAll_cons h
  cases fitsAll_nil h2
  rw [refused_mk (by simp) (by simp) (by simp)]
  simp only [List.mem_singleton, exists_eq_left, getDefinition, Node.item, if_true, Node.children, child, List.getElem?_cons_zero]
  have e : ∀ r : R (List (Top Language.NtDef)), Exact r (Refused c) → ((∃ f, r = .ok f) ↔ ¬ Refused c) ∧ (r = .error .null ↔ Refused c) := by
    intro r h
    rcases h with ⟨⟨a, rfl⟩, h⟩ | ⟨rfl, h⟩ <;> simp [h]
  exact e _ (tops_exact _ c (Nat.le_refl _) h1)

/-- The example file of C98 is not refused. -/
example : ¬ Refused (fileTree (leaf .identifier "") exFile) := by
  rw [← (reads_iff _ (trees_fit _ exFile exFile_plain)).1]
  obtain ⟨f, hf, _⟩ := reads_partial (leaf .identifier "") exFile exFile_plain
  exact ⟨f, hf⟩

/-- `language A : B { }` is. -/
example : Refused (node .parserLanguage [listOf [[node .toplevelBlock [node .languageBlock [leaf .language "language", leaf .identifier "A",
    node .list [node .languageInherits [leaf .colon ":", leaf .identifier "B"]], leaf .openCurly "{", listOf [], leaf .closeCurly "}"]]]]]) := by
  refine .inside (by simp) (List.mem_singleton.2 rfl) (.inside (by simp) (List.mem_cons_of_mem _ (List.mem_singleton.2 rfl))
    (.inside (by simp) (List.mem_singleton.2 rfl) (.inherits (by simp [node, Node.children]))))

end Bootstrap
end TameParse

import Verif.RegexBuild
/-
Transitions on code points above 0xffff (ndfa.cpp 200-337).
-/
set_option linter.unusedSimpArgs false

namespace TameParse
open SymSet (Mem Canon)

theorem utf16_low {x : Int} (h : x < 0x10000) : utf16 x = [x] := by simp only [utf16]; rw [if_pos h]

theorem utf16_high {x : Int} (h : 0x10000 ≤ x) : utf16 x = [0xd800 + (x - 0x10000) / 1024, 0xdc00 + (x - 0x10000) % 1024] := by
  simp only [utf16]; rw [if_neg (by omega)]

/-- The function of the code agrees with the standard. -/
theorem surrogatePair_eq {x : Int} (h : 0x10000 ≤ x) : [(surrogatePair x).1, (surrogatePair x).2] = utf16 x := by
  rw [utf16_high h]
  simp only [surrogatePair, List.cons.injEq, and_true]
  omega

/-- `n'` is `n` with more states and the edges `E`. -/
structure NAdds (n n' : Ndfa) (E : Edges) : Prop where
  wf : n'.WF
  len : n.states.length ≤ n'.states.length
  edges : n'.edges = both n.edges E
  accept : n'.accept = n.accept

theorem NAdds.trans {n n' n'' : Ndfa} {E F : Edges} (h : NAdds n n' E) (g : NAdds n' n'' F) : NAdds n n'' (both E F) :=
  ⟨g.wf, Nat.le_trans h.len g.len, by rw [g.edges, h.edges, both_assoc], by rw [g.accept, h.accept]⟩

theorem NAdds.refl {n : Ndfa} (h : n.WF) : NAdds n n (fun _ _ _ => False) := ⟨h, Nat.le_refl _, (both_empty _).symm, rfl⟩

theorem nadds_state {n : Ndfa} (h : n.WF) : NAdds n n.addState.1 (fun _ _ _ => False) := by
  refine ⟨Ndfa.addState_wf h, by rw [Ndfa.addState_length]; omega, by rw [Ndfa.addState_edges, both_empty], rfl⟩

theorem nadds_trans {n : Ndfa} (h : n.WF) (p q : Nat) (s : SymSet) (hp : p < n.states.length) (hq : q < n.states.length) :
    NAdds n (n.addTransition p s q) (setEdge p s q) ∧ (n.addTransition p s q).states.length = n.states.length := by
  obtain ⟨h1, h2, h3, h4⟩ := Ndfa.addTransition_spec h p q s hp hq
  exact ⟨⟨h1, by omega, h4, h3⟩, h2⟩

/-- Two transitions through a new state. -/
def addVia (n : Ndfa) (p : Nat) (s t : SymSet) (q : Nat) : Ndfa :=
  (n.addState.1.addTransition p s n.states.length).addTransition n.states.length t q

/-- What the fragment from `p` to `q` looks like while it is being built: `lo` states at the beginning. -/
structure Grown (n0 n : Ndfa) (p q lo : Nat) (L : Language Int) (E : Edges) : Prop where
  adds : NAdds n0 n E
  frag : Frag E p q lo n.states.length L false false

theorem Grown.congr {n0 n : Ndfa} {p q lo : Nat} {L L' : Language Int} {E : Edges} (h : Grown n0 n p q lo L E) (e : L = L') :
    Grown n0 n p q lo L' E := e ▸ h

theorem addVia_spec {n0 n : Ndfa} {p q lo : Nat} {L : Language Int} {E : Edges} (h : Grown n0 n p q lo L E)
    (hq : q ≠ p) (s t : SymSet) (hs : s ≠ []) (ht : t ≠ []) : ∃ E', Grown n0 (addVia n p s t q) p q lo (L + pairLang s t) E' := by
  have h0 := h.frag.start
  have h1 := h.frag.le
  have h2 := h.frag.fin.resolve_left hq
  have hlen := Ndfa.addState_length n
  obtain ⟨k1, k2⟩ := nadds_trans (nadds_state h.adds.wf).wf p n.states.length s (by omega) (by omega)
  obtain ⟨m1, m2⟩ := nadds_trans k1.wf n.states.length q t (by omega) (by omega)
  refine ⟨_, (h.adds.trans ((nadds_state h.adds.wf).trans k1)).trans m1, ?_⟩
  rw [empty_both']
  have e : (addVia n p s t q).states.length = n.states.length + 1 := by
    show ((n.addState.1.addTransition p s n.states.length).addTransition n.states.length t q).states.length = _
    rw [m2, k2, hlen]
  rw [e]
  exact h.frag.via hq s t hs ht
where
  empty_both' {E : Edges} : both (fun _ _ _ => False) E = E := by
    funext a l b; simp [both]

theorem mem_single (x lo hi : Int) : Mem x [⟨lo, hi⟩] ↔ lo ≤ x ∧ x < hi := by
  rw [SymSet.mem_cons]
  constructor
  · rintro (h | h)
    · exact h
    · exact absurd h (SymSet.mem_nil x)
  · exact .inl

/-- The encodings of the code points of a range. -/
def utf16Lang (r : Range) : Language Int := {w | ∃ x, r.Mem x ∧ w = utf16 x}

/-- What the transition for a range with several high surrogates accepts after the last one. -/
def lastLang (r : Range) : Language Int :=
  {w | ∃ y, 0xd800 ≤ y ∧ y ≤ 0xdc00 + (r.hi - 1 - 0x10000) % 1024 ∧ w = [0xd800 + (r.hi - 1 - 0x10000) / 1024, y]}

/-- ... and after those between the first and the last one. -/
def middleLang (r : Range) : Language Int :=
  {w | ∃ x y, 0xd800 + (r.lo - 0x10000) / 1024 < x ∧ x < 0xd800 + (r.hi - 1 - 0x10000) / 1024 ∧ 0xdc00 ≤ y ∧ y < 0xe000 ∧ w = [x, y]}

/-- The encodings of the symbols of a set. -/
def utf16Langs (s : SymSet) : Language Int := {w | ∃ x, Mem x s ∧ w = utf16 x}

open Builder in
/-- Adding the transition for a range within one high surrogate. -/
theorem addSurrogate_one {n0 n : Ndfa} {p q lo : Nat} {L : Language Int} {E : Edges} (h : Grown n0 n p q lo L E)
    (hq : q ≠ p) (r : Range) (h1 : 0x10000 ≤ r.lo) (h2 : r.lo < r.hi) (h3 : r.hi ≤ 0x110000) (h4 : r.lo / 1024 = (r.hi - 1) / 1024) :
    ∃ E', Grown n0 (addSurrogateTransition n r p q) p q lo (L + utf16Lang r) E' := by
  have hf : (surrogatePair r.lo).1 = (surrogatePair (r.hi - 1)).1 := by simp only [surrogatePair]; omega
  have e : addSurrogateTransition n r p q =
      addVia n p [⟨(surrogatePair r.lo).1, (surrogatePair r.lo).1 + 1⟩] [⟨(surrogatePair r.lo).2, (surrogatePair (r.hi - 1)).2 + 1⟩] q := by
    simp only [addSurrogateTransition]
    rw [if_neg (by omega), if_neg (by omega)]
    simp only [addSurrogatePairs]
    rw [if_pos hf]
    rfl
  rw [e]
  obtain ⟨E', g⟩ := addVia_spec h hq [⟨(surrogatePair r.lo).1, (surrogatePair r.lo).1 + 1⟩]
    [⟨(surrogatePair r.lo).2, (surrogatePair (r.hi - 1)).2 + 1⟩] (by simp) (by simp)
  have el : pairLang [⟨(surrogatePair r.lo).1, (surrogatePair r.lo).1 + 1⟩]
      [⟨(surrogatePair r.lo).2, (surrogatePair (r.hi - 1)).2 + 1⟩] = utf16Lang r := by
    apply Language.ext
    intro w
    constructor
    · rintro ⟨x, y, hx, hy, rfl⟩
      rw [mem_single] at hx hy
      simp only [surrogatePair] at hx hy
      refine ⟨(x - 0xd800) * 1024 + (y - 0xdc00) + 0x10000, ⟨by omega, by omega⟩, ?_⟩
      rw [utf16_high (by omega)]
      simp only [List.cons.injEq, and_true]
      omega
    · rintro ⟨x, ⟨hx1, hx2⟩, rfl⟩
      rw [utf16_high (by omega)]
      refine ⟨_, _, ?_, ?_, rfl⟩
      · rw [mem_single]; simp only [surrogatePair]; omega
      · rw [mem_single]; simp only [surrogatePair]; omega
  rw [el] at g
  exact ⟨E', g⟩

open Builder in
/-- Adding the transition for a range with several high surrogates. -/
theorem addSurrogate_many {n0 n : Ndfa} {p q lo : Nat} {L : Language Int} {E : Edges} (h : Grown n0 n p q lo L E)
    (hq : q ≠ p) (r : Range) (h1 : 0x10000 ≤ r.lo) (h2 : r.lo < r.hi) (h3 : r.hi ≤ 0x110000) (h4 : r.lo / 1024 ≠ (r.hi - 1) / 1024) :
    ∃ E', Grown n0 (addSurrogateTransition n r p q) p q lo (L + (lastLang r + middleLang r)) E' := by
  have hf : (surrogatePair r.lo).1 ≠ (surrogatePair (r.hi - 1)).1 := by simp only [surrogatePair]; omega
  have e : addSurrogateTransition n r p q =
      if (surrogatePair r.lo).1 < (surrogatePair (r.hi - 1)).1 - 1 then
        addVia (addVia (addVia n p [⟨(surrogatePair r.lo).1, (surrogatePair r.lo).1 + 1⟩] [⟨(surrogatePair r.lo).2, 0xdc00⟩] q)
          p [⟨(surrogatePair (r.hi - 1)).1, (surrogatePair (r.hi - 1)).1 + 1⟩] [⟨0xd800, (surrogatePair (r.hi - 1)).2 + 1⟩] q)
          p [⟨(surrogatePair r.lo).1 + 1, (surrogatePair (r.hi - 1)).1⟩] [⟨0xdc00, 0xe000⟩] q
      else addVia (addVia n p [⟨(surrogatePair r.lo).1, (surrogatePair r.lo).1 + 1⟩] [⟨(surrogatePair r.lo).2, 0xdc00⟩] q)
          p [⟨(surrogatePair (r.hi - 1)).1, (surrogatePair (r.hi - 1)).1 + 1⟩] [⟨0xd800, (surrogatePair (r.hi - 1)).2 + 1⟩] q := by
    simp only [addSurrogateTransition]
    rw [if_neg (by omega), if_neg (by omega)]
    simp only [addSurrogatePairs]
    rw [if_neg hf]
    rfl
  rw [e]
  obtain ⟨E1, g1⟩ := addVia_spec h hq [⟨(surrogatePair r.lo).1, (surrogatePair r.lo).1 + 1⟩] [⟨(surrogatePair r.lo).2, 0xdc00⟩]
    (by simp) (by simp)
  obtain ⟨E2, g2⟩ := addVia_spec g1 hq [⟨(surrogatePair (r.hi - 1)).1, (surrogatePair (r.hi - 1)).1 + 1⟩]
    [⟨0xd800, (surrogatePair (r.hi - 1)).2 + 1⟩] (by simp) (by simp)
  have hle : (surrogatePair r.lo).1 ≤ (surrogatePair (r.hi - 1)).1 := by simp only [surrogatePair]; omega
  clear e
  by_cases hm : (surrogatePair r.lo).1 < (surrogatePair (r.hi - 1)).1 - 1
  · rw [if_pos hm]
    obtain ⟨E3, g3⟩ := addVia_spec g2 hq [⟨(surrogatePair r.lo).1 + 1, (surrogatePair (r.hi - 1)).1⟩] [⟨0xdc00, 0xe000⟩]
      (by simp) (by simp)
    refine ⟨E3, g3.congr ?_⟩
    apply Language.ext
    intro w
    simp only [Language.mem_add, or_assoc]
    refine or_congr Iff.rfl ?_
    constructor
    · rintro (⟨x, y, hx, hy, rfl⟩ | ⟨x, y, hx, hy, rfl⟩ | ⟨x, y, hx, hy, rfl⟩)
      · rw [mem_single] at hx hy
        simp only [surrogatePair] at hx hy
        omega
      · rw [mem_single] at hx hy
        simp only [surrogatePair] at hx hy
        refine .inl ⟨y, by omega, by omega, ?_⟩
        simp only [List.cons.injEq, and_true]; omega
      · rw [mem_single] at hx hy
        simp only [surrogatePair] at hx hy
        exact .inr ⟨x, y, by omega, by omega, by omega, by omega, rfl⟩
    · rintro (⟨y, hy1, hy2, rfl⟩ | ⟨x, y, hx1, hx2, hy1, hy2, rfl⟩)
      · refine .inr (.inl ⟨_, y, ?_, ?_, rfl⟩)
        · rw [mem_single]; simp only [surrogatePair]; omega
        · rw [mem_single]; simp only [surrogatePair]; omega
      · refine .inr (.inr ⟨_, y, ?_, ?_, rfl⟩)
        · rw [mem_single]; simp only [surrogatePair]; omega
        · rw [mem_single]; omega
  · rw [if_neg hm]
    refine ⟨E2, g2.congr ?_⟩
    apply Language.ext
    intro w
    simp only [Language.mem_add, or_assoc]
    refine or_congr Iff.rfl ?_
    constructor
    · rintro (⟨x, y, hx, hy, rfl⟩ | ⟨x, y, hx, hy, rfl⟩)
      · rw [mem_single] at hx hy
        simp only [surrogatePair] at hx hy
        omega
      · rw [mem_single] at hx hy
        simp only [surrogatePair] at hx hy
        refine .inl ⟨y, by omega, by omega, ?_⟩
        simp only [List.cons.injEq, and_true]; omega
    · rintro (⟨y, hy1, hy2, rfl⟩ | ⟨x, y, hx1, hx2, hy1, hy2, rfl⟩)
      · refine .inr ⟨_, y, ?_, ?_, rfl⟩
        · rw [mem_single]; simp only [surrogatePair]; omega
        · rw [mem_single]; simp only [surrogatePair]; omega
      · exfalso
        simp only [surrogatePair] at hm hle hf
        omega

/-- All the ranges, each within one high surrogate. -/
theorem addSurrogates_all {n0 : Ndfa} {p q lo : Nat} (hq : q ≠ p) : ∀ (high : SymSet) (n : Ndfa) (L : Language Int) (E : Edges),
    Grown n0 n p q lo L E →
    (∀ r ∈ high, 0x10000 ≤ r.lo ∧ r.lo < r.hi ∧ r.hi ≤ 0x110000 ∧ r.lo / 1024 = (r.hi - 1) / 1024) →
    ∃ E', Grown n0 (high.foldl (fun n r => Builder.addSurrogateTransition n r p q) n) p q lo
      (L + utf16Langs high) E' := by
  intro high
  induction high with
  | nil =>
    intro n L E h _
    refine ⟨E, h.congr ?_⟩
    apply Language.ext
    intro w
    rw [Language.mem_add]
    constructor
    · exact .inl
    · rintro (h | ⟨x, hx, _⟩)
      · exact h
      · exact absurd hx (SymSet.mem_nil x)
  | cons r high ih =>
    intro n L E h hr
    obtain ⟨h1, h2, h3, h4⟩ := hr r (by simp)
    obtain ⟨E1, g1⟩ := addSurrogate_one h hq r h1 h2 h3 h4
    obtain ⟨E2, g2⟩ := ih _ _ _ g1 (fun r' hr' => hr r' (by simp [hr']))
    refine ⟨E2, g2.congr ?_⟩
    apply Language.ext
    intro w
    simp only [Language.mem_add, or_assoc]
    refine or_congr Iff.rfl ?_
    constructor
    · rintro (⟨x, hx, rfl⟩ | ⟨x, hx, rfl⟩)
      · exact ⟨x, by rw [SymSet.mem_cons]; exact .inl hx, rfl⟩
      · exact ⟨x, by rw [SymSet.mem_cons]; exact .inr hx, rfl⟩
    · rintro ⟨x, hx, rfl⟩
      rw [SymSet.mem_cons] at hx
      rcases hx with hx | hx
      · exact .inl ⟨x, hx, rfl⟩
      · exact .inr ⟨x, hx, rfl⟩

/-- The split of a set at 0x10000. -/
theorem split_spec (s : SymSet) (hs : ∀ r ∈ s, r.lo < r.hi) :
    Canon (Builder.splitSurrogates s).1 ∧ Canon (Builder.splitSurrogates s).2 ∧
    (∀ x, Mem x (Builder.splitSurrogates s).1 ↔ Mem x s ∧ x < 0x10000) ∧
    (∀ x, Mem x (Builder.splitSurrogates s).2 ↔ Mem x s ∧ 0x10000 ≤ x) := by
  have key : ∀ s : SymSet, (∀ r ∈ s, r.lo < r.hi) → ∀ (acc : SymSet × SymSet) (t : SymSet),
      Canon acc.1 → Canon acc.2 → (∀ x, Mem x acc.1 ↔ Mem x t ∧ x < 0x10000) → (∀ x, Mem x acc.2 ↔ Mem x t ∧ 0x10000 ≤ x) →
      ∀ out, out = (s.foldl (fun acc r =>
        if r.hi ≤ r.lo then acc
        else if 0x10000 < r.hi then
          if r.lo ≤ 0xffff then (acc.1.unionRange ⟨r.lo, 0x10000⟩, acc.2.unionRange ⟨0x10000, r.hi⟩)
          else (acc.1, acc.2.unionRange r)
        else (acc.1.unionRange r, acc.2)) acc) →
      Canon out.1 ∧ Canon out.2 ∧ (∀ x, Mem x out.1 ↔ Mem x (t ++ s) ∧ x < 0x10000) ∧
      (∀ x, Mem x out.2 ↔ Mem x (t ++ s) ∧ 0x10000 ≤ x) := by
    intro s
    induction s with
    | nil =>
      intro _ acc t h1 h2 h3 h4 out ho
      rw [ho, List.append_nil]
      exact ⟨h1, h2, h3, h4⟩
    | cons r s ih =>
      intro hs acc t h1 h2 h3 h4 out ho
      have hr := hs r (by simp)
      have e : t ++ r :: s = (t ++ [r]) ++ s := by simp
      rw [e]
      refine ih (fun r hr => hs r (by simp [hr])) _ (t ++ [r]) ?_ ?_ ?_ ?_ out ho
      · dsimp only
        rw [if_neg (by omega)]
        by_cases g1 : 0x10000 < r.hi
        · rw [if_pos g1]
          by_cases g2 : r.lo ≤ 0xffff
          · rw [if_pos g2]; exact (SymSet.unionRange_spec _ _ h1 (by simp only; omega)).1
          · rw [if_neg g2]; exact h1
        · rw [if_neg g1]; exact (SymSet.unionRange_spec _ _ h1 hr).1
      · dsimp only
        rw [if_neg (by omega)]
        by_cases g1 : 0x10000 < r.hi
        · rw [if_pos g1]
          by_cases g2 : r.lo ≤ 0xffff
          · rw [if_pos g2]; exact (SymSet.unionRange_spec _ _ h2 (by simp only; omega)).1
          · rw [if_neg g2]; exact (SymSet.unionRange_spec _ _ h2 hr).1
        · rw [if_neg g1]; exact h2
      · intro x
        dsimp only
        rw [if_neg (by omega), SymSet.mem_append, SymSet.mem_cons]
        have hn := SymSet.mem_nil x
        by_cases g1 : 0x10000 < r.hi
        · rw [if_pos g1]
          by_cases g2 : r.lo ≤ 0xffff
          · rw [if_pos g2, (SymSet.unionRange_spec _ _ h1 (by simp only; omega)).2 x, h3 x]
            simp only [Range.Mem, hn, or_false]
            by_cases hm : Mem x t <;> simp only [hm, true_and, false_and, true_or, false_or, false_iff, iff_false] <;> omega
          · rw [if_neg g2, h3 x]
            simp only [Range.Mem, hn, or_false]
            by_cases hm : Mem x t <;> simp only [hm, true_and, false_and, true_or, false_or, false_iff, iff_false] <;> omega
        · rw [if_neg g1, (SymSet.unionRange_spec _ _ h1 hr).2 x, h3 x]
          simp only [Range.Mem, hn, or_false]
          by_cases hm : Mem x t <;> simp only [hm, true_and, false_and, true_or, false_or, false_iff, iff_false] <;> omega
      · intro x
        dsimp only
        rw [if_neg (by omega), SymSet.mem_append, SymSet.mem_cons]
        have hn := SymSet.mem_nil x
        by_cases g1 : 0x10000 < r.hi
        · rw [if_pos g1]
          by_cases g2 : r.lo ≤ 0xffff
          · rw [if_pos g2, (SymSet.unionRange_spec _ _ h2 (by simp only; omega)).2 x, h4 x]
            simp only [Range.Mem, hn, or_false]
            by_cases hm : Mem x t <;> simp only [hm, true_and, false_and, true_or, false_or, false_iff, iff_false] <;> omega
          · rw [if_neg g2, (SymSet.unionRange_spec _ _ h2 hr).2 x, h4 x]
            simp only [Range.Mem, hn, or_false]
            by_cases hm : Mem x t <;> simp only [hm, true_and, false_and, true_or, false_or, false_iff, iff_false] <;> omega
        · rw [if_neg g1, h4 x]
          simp only [Range.Mem, hn, or_false]
          by_cases hm : Mem x t <;> simp only [hm, true_and, false_and, true_or, false_or, false_iff, iff_false] <;> omega
  have := key s hs ([], []) [] SymSet.canon_nil SymSet.canon_nil (fun x => by simp [SymSet.mem_nil]) (fun x => by simp [SymSet.mem_nil])
    _ rfl
  exact this

/-- The symbols of a set as the lexer reads them. -/
def encLang (surrogates : Bool) (s : SymSet) : Language Int := {w | ∃ x, Mem x s ∧ w = encode surrogates x}

namespace Builder

/-- A transition to a new state on a set that may contain code points above 0xffff. -/
theorem addWith_frag {b : Builder} (h : b.Good) (s : SymSet) (hne : s ≠ []) (hs : ∀ r ∈ s, r.lo < r.hi)
    (hfit : b.surrogates = true → RunsFit (fun x => Mem x s)) :
    ∃ E, Adds b (b.addWithSurrogates s) E ∧ (b.addWithSurrogates s).cur ≠ b.cur ∧ (b.addWithSurrogates s).prev = b.cur ∧ (b.addWithSurrogates s).stack = b.stack ∧
      Frag E b.cur (b.addWithSurrogates s).cur b.n.states.length (b.addWithSurrogates s).n.states.length (encLang b.surrogates s) false false := by
  have hcur := h.cur
  by_cases hsr : b.surrogates = true ∧ (splitSurrogates s).2 ≠ []
  · obtain ⟨hsr, hhigh⟩ := hsr
    obtain ⟨c1, c2, c3, c4⟩ := split_spec s hs
    have hrun := hfit hsr
    have hblocks : ∀ r ∈ (splitSurrogates s).2, 0x10000 ≤ r.lo ∧ r.lo < r.hi ∧ r.hi ≤ 0x110000 ∧ r.lo / 1024 = (r.hi - 1) / 1024 := by
      intro r hr
      have hlt := c2.2 r hr
      have hall : ∀ z, r.lo ≤ z → z ≤ r.hi - 1 → Mem z s ∧ 0x10000 ≤ z := by
        intro z hz1 hz2
        exact (c4 z).1 ⟨r, hr, hz1, by omega⟩
      have hlo := (hall r.lo (by omega) (by omega)).2
      have := hrun r.lo (r.hi - 1) hlo (by omega) (fun z hz1 hz2 => (hall z hz1 hz2).1)
      exact ⟨hlo, hlt, by omega, this.2⟩
    have hsh : b.addWithSurrogates s = { b with
        n := (splitSurrogates s).2.foldl (fun n r => addSurrogateTransition n r b.cur b.n.states.length)
          (if (splitSurrogates s).1 ≠ [] then b.n.addState.1.addTransition b.cur (splitSurrogates s).1 b.n.states.length else b.n.addState.1),
        prev := b.cur, cur := b.n.states.length } := by
      simp only [addWithSurrogates, target, h.next]
      rw [if_pos hsr, if_pos hhigh]
      rfl
    have hlen := Ndfa.addState_length b.n
    have hq : b.n.states.length ≠ b.cur := by omega
    have g0 : Grown b.n b.n.addState.1 b.cur b.n.states.length b.n.states.length 0 (fun _ _ _ => False) :=
      ⟨nadds_state h.wf, by rw [hlen]; exact Frag.unreached _ _ hcur⟩
    have g1 : ∃ E, Grown b.n
        (if (splitSurrogates s).1 ≠ [] then b.n.addState.1.addTransition b.cur (splitSurrogates s).1 b.n.states.length else b.n.addState.1)
        b.cur b.n.states.length b.n.states.length (symLang (splitSurrogates s).1) E := by
      by_cases hlow : (splitSurrogates s).1 ≠ []
      · rw [if_pos hlow]
        obtain ⟨k1, k2⟩ := nadds_trans g0.adds.wf b.cur b.n.states.length (splitSurrogates s).1 (by omega) (by omega)
        refine ⟨_, g0.adds.trans k1, ?_⟩
        rw [k2]
        have := g0.frag.direct hq (splitSurrogates s).1 hlow
        rw [zero_add] at this
        exact this
      · rw [if_neg hlow]
        refine ⟨_, g0.adds, ?_⟩
        refine (congrArg (fun L => Frag _ _ _ _ _ L false false) ?_).mp g0.frag
        apply Language.ext
        intro w
        constructor
        · intro hw; exact absurd hw (Language.notMem_zero w)
        · rintro ⟨x, hx, _⟩
          have : (splitSurrogates s).1 = [] := by simpa using hlow
          rw [this] at hx
          exact absurd hx (SymSet.mem_nil x)
    obtain ⟨E1, g1⟩ := g1
    obtain ⟨E2, g2⟩ := addSurrogates_all hq _ _ _ _ g1 hblocks
    rw [hsh]
    refine ⟨E2, ⟨⟨g2.adds.wf, ?_, h.next, h.nil⟩, g2.adds.len, g2.adds.edges, g2.adds.accept, rfl, rfl⟩, hq, rfl, rfl, ?_⟩
    · exact (g2.frag.fin.resolve_left hq).2
    · refine (congrArg (fun L => Frag _ _ _ _ _ L false false) ?_).mp g2.frag
      apply Language.ext
      intro w
      rw [Language.mem_add]
      simp only [encLang, encode, hsr, if_true]
      constructor
      · rintro (⟨x, hx, rfl⟩ | ⟨x, hx, rfl⟩)
        · obtain ⟨hx1, hx2⟩ := (c3 x).1 hx
          exact ⟨x, hx1, (utf16_low hx2).symm⟩
        · exact ⟨x, ((c4 x).1 hx).1, rfl⟩
      · rintro ⟨x, hx, rfl⟩
        by_cases hx2 : x < 0x10000
        · exact .inl ⟨x, (c3 x).2 ⟨hx, hx2⟩, utf16_low hx2⟩
        · exact .inr ⟨x, (c4 x).2 ⟨hx, by omega⟩, rfl⟩
  · have hsh : b.addWithSurrogates s = b.target.1.plainTo s b.target.2 := by
      simp only [addWithSurrogates, target, h.next]
      by_cases g : b.surrogates = true
      · rw [if_pos g, if_neg (fun g' => hsr ⟨g, g'⟩)]
      · rw [if_neg g]
    have ht : b.target = ({ b with n := b.n.addState.1 }, b.n.states.length) := by
      simp only [target, h.next]; rfl
    rw [ht] at hsh
    have hl := Ndfa.addState_length b.n
    obtain ⟨h1, h2, h3, h4⟩ := Ndfa.addTransition_spec (Ndfa.addState_wf h.wf) b.cur b.n.states.length s (by omega) (by omega)
    rw [hsh]
    refine ⟨setEdge b.cur s b.n.states.length, ⟨⟨h1, ?_, h.next, h.nil⟩, ?_, ?_, h3, rfl, rfl⟩, ?_, rfl, rfl, ?_⟩
    · simp only [plainTo]; rw [h2, hl]; omega
    · simp only [plainTo]; rw [h2, hl]; omega
    · simp only [plainTo]; rw [h4, Ndfa.addState_edges]
    · simp only [plainTo]; omega
    · simp only [plainTo]; rw [h2, hl]
      refine (congrArg (fun L => Frag _ _ _ _ _ L false false) ?_).mp (Frag.edge b.cur b.n.states.length s hcur)
      apply Language.ext
      intro w
      have henc : ∀ x, Mem x s → encode b.surrogates x = [x] := by
        intro x hx
        simp only [encode]
        by_cases g : b.surrogates = true
        · rw [if_pos g]
          refine utf16_low ?_
          by_contra hcon
          have hm := ((split_spec s hs).2.2.2 x).2 ⟨hx, by omega⟩
          have : (splitSurrogates s).2 = [] := by
            by_contra hh; exact hsr ⟨g, hh⟩
          rw [this] at hm
          exact SymSet.mem_nil x hm
        · rw [if_neg g]
      constructor
      · rintro (⟨hh, _⟩ | ⟨x, hx, rfl⟩)
        · exact absurd hh hne
        · exact ⟨x, hx, (henc x hx).symm⟩
      · rintro ⟨x, hx, rfl⟩
        exact .inr ⟨x, hx, henc x hx⟩

end Builder
end TameParse

import Verif.SymbolSet
/-
Further helper lemmas about the symbol-set model: whole-set union and exclusion, inversion, lookup,
equality and ordering.
-/
namespace TameParse.SymSet

theorem union_spec (s t : SymSet) (hs : Canon s) (ht : ∀ r ∈ t, r.lo < r.hi) :
    Canon (union s t) ∧ ∀ x, Mem x (union s t) ↔ Mem x s ∨ Mem x t := by
  induction t generalizing s with
  | nil => simp [union, hs, mem_nil]
  | cons r t ih =>
    have ⟨h1, h2⟩ := unionRange_spec s r hs (ht r (by simp))
    have ⟨h3, h4⟩ := ih (unionRange s r) h1 (fun r hr => ht r (by simp [hr]))
    refine ⟨h3, fun x => ?_⟩
    simp only [union, List.foldl_cons] at h4 ⊢
    rw [h4, h2, mem_cons, or_assoc]

theorem exclude_spec (s t : SymSet) (hs : Canon s) (ht : ∀ r ∈ t, r.lo < r.hi) :
    Canon (exclude s t) ∧ ∀ x, Mem x (exclude s t) ↔ Mem x s ∧ ¬ Mem x t := by
  induction t generalizing s with
  | nil => simp [exclude, hs, mem_nil]
  | cons r t ih =>
    have ⟨h1, h2⟩ := excludeRange_spec s r hs (ht r (by simp))
    have ⟨h3, h4⟩ := ih (excludeRange s r) h1 (fun r hr => ht r (by simp [hr]))
    refine ⟨h3, fun x => ?_⟩
    simp only [exclude, List.foldl_cons] at h4 ⊢
    rw [h4, h2, mem_cons, not_or, and_assoc]

/-- Ranges of a canonical ordinary set lie within `[0, maxSymbol]`. -/
theorem ordinary_range {s : SymSet} (hs : Canon s) (ho : Ordinary s) {r : Range} (hr : r ∈ s) :
    0 ≤ r.lo ∧ r.hi ≤ maxSymbol := by
  have hne := hs.2 r hr
  have h1 := ho r.lo ⟨r, hr, by simp only [Range.Mem]; omega⟩
  have h2 := ho (r.hi - 1) ⟨r, hr, by simp only [Range.Mem]; omega⟩
  omega

/-- Invariant of the inversion loop. `u` is `last.upper()`, `acc` the gaps found so far.
`sep` says that the next range starts strictly after `u` unless nothing was consumed yet (`u = 0`). -/
theorem invertLoop_spec (s : SymSet) (u : Int) (acc : SymSet)
    (hs : Canon s) (hacc : Canon acc) (hu : ∀ a ∈ acc, a.hi < u)
    (hsep : ∀ r ∈ s, u < r.lo ∨ (u = r.lo ∧ acc = [])) :
    let st := s.foldl invertLoop (u, acc)
    Canon st.2 ∧ (∀ a ∈ st.2, a.hi < st.1) ∧ u ≤ st.1 ∧
    (∀ x, Mem x st.2 ↔ Mem x acc ∨ (u ≤ x ∧ x < st.1 ∧ ¬ Mem x s)) ∧
    (∀ x, Mem x s → u ≤ x ∧ x < st.1) ∧ (s = [] → st.1 = u) ∧
    (∀ r ∈ s, r.hi ≤ st.1) ∧ (st.1 = u ∨ ∃ r ∈ s, st.1 = r.hi) := by
  induction s generalizing u acc with
  | nil =>
    simp only [List.foldl_nil, mem_nil]
    refine ⟨hacc, hu, by omega, fun x => ?_, by simp, by simp, by simp, .inl trivial⟩
    constructor
    · exact .inl
    · rintro (h | h)
      · exact h
      · omega
  | cons r s ih =>
    have ⟨⟨hr, hrs⟩, hs'⟩ := canon_cons.1 hs
    have hsep0 := hsep r (by simp)
    have hux : u ≤ r.lo := by omega
    have haccu : ∀ a ∈ acc, a.lo < u := fun a ha => by
      have := hu a ha; have := hacc.2 a ha; omega
    have hstep : invertLoop (u, acc) r = (r.hi, if r.lo ≠ u then acc ++ [⟨u, r.lo⟩] else acc) := by
      simp only [invertLoop]
      split
      · rw [insert_end _ _ haccu]
      · rfl
    simp only [List.foldl_cons, hstep]
    have hacc' : Canon (if r.lo ≠ u then acc ++ [⟨u, r.lo⟩] else acc) := by
      split
      · rw [canon_append]
        refine ⟨hacc, canon_single (by simp only; omega), ?_⟩
        intro a ha b hb; simp at hb; subst hb; exact hu a ha
      · exact hacc
    have hu' : ∀ a ∈ (if r.lo ≠ u then acc ++ [⟨u, r.lo⟩] else acc), a.hi < r.hi := by
      intro a ha
      split at ha
      · rcases List.mem_append.1 ha with ha | ha
        · have := hu a ha; omega
        · simp at ha; subst ha; simp only; omega
      · have := hu a ha; omega
    have ⟨h1, h2, h3, h4, h5, h6, h7, h8⟩ := ih r.hi _ hs' hacc' hu' (fun b hb => .inl (hrs b hb))
    refine ⟨h1, h2, by omega, fun x => ?_, fun x hx => ?_, by simp, ?_, ?_⟩
    · rw [h4, mem_cons]
      have hx5 := h5 x
      have : Mem x (if r.lo ≠ u then acc ++ [⟨u, r.lo⟩] else acc) ↔ Mem x acc ∨ (u ≤ x ∧ x < r.lo) := by
        split
        · rw [mem_append]; simp [mem_cons, mem_nil, Range.Mem]
        · constructor
          · exact .inl
          · rintro (h | h)
            · exact h
            · omega
      rw [this]
      simp only [Range.Mem]
      constructor
      · rintro ((h | h) | h)
        · exact .inl h
        · refine .inr ⟨h.1, by omega, ?_⟩
          rintro (h' | h')
          · omega
          · have := hx5 h'; omega
        · refine .inr ⟨Int.le_trans hux (Int.le_trans (Int.le_of_lt hr) h.1), h.2.1, ?_⟩
          rintro (h' | h')
          · omega
          · exact h.2.2 h'
      · rintro (h | ⟨h, h', h''⟩)
        · exact .inl (.inl h)
        · by_cases hlt : x < r.lo
          · exact .inl (.inr ⟨h, hlt⟩)
          · refine .inr ⟨?_, h', fun hh => h'' (.inr hh)⟩
            by_cases hh : r.hi ≤ x
            · exact hh
            · exact absurd (.inl ⟨by omega, by omega⟩) h''
    · clear h8
      rcases (mem_cons x r s).1 hx with hx | hx
      · simp only [Range.Mem] at hx; omega
      · have := h5 x hx; omega
    · intro b hb
      rcases List.mem_cons.1 hb with rfl | hb
      · exact h3
      · exact h7 b hb
    · right
      rcases h8 with h8 | ⟨b, hb, h8⟩
      · exact ⟨r, by simp, h8⟩
      · exact ⟨b, by simp [hb], h8⟩

theorem invert_spec (s : SymSet) (hs : Canon s) (ho : Ordinary s) :
    Canon (invert s) ∧ ∀ x, Mem x (invert s) ↔ 0 ≤ x ∧ x < maxSymbol ∧ ¬ Mem x s := by
  have hsep : ∀ r ∈ s, (0:Int) < r.lo ∨ ((0:Int) = r.lo ∧ ([] : SymSet) = []) := fun r hr => by
    have := (ordinary_range hs ho hr).1; simp; omega
  have ⟨h1, h2, h3, h4, h5, _, h7, h8⟩ := invertLoop_spec s 0 [] hs canon_nil (by simp) hsep
  simp only [invert]
  generalize hst : s.foldl invertLoop (0, []) = st at *
  have hmax : st.1 ≤ maxSymbol := by
    rcases h8 with h | ⟨r, hr, h⟩
    · rw [h]; decide
    · have := (ordinary_range hs ho hr).2; omega
  have hlo : ∀ a ∈ st.2, a.lo < st.1 := fun a ha => by
    have := h2 a ha; have := h1.2 a ha; omega
  split
  · rename_i hlt
    rw [insert_end _ _ hlo]
    constructor
    · rw [canon_append]
      refine ⟨h1, canon_single hlt, fun a ha b hb => ?_⟩
      simp at hb; subst hb; exact h2 a ha
    · intro x
      rw [mem_append, h4]
      have := h5 x
      simp only [mem_cons, mem_nil, Range.Mem, or_false, false_or]
      constructor
      · rintro (h | h)
        · exact ⟨by omega, by omega, h.2.2⟩
        · exact ⟨by omega, by omega, fun hm => by have := this hm; omega⟩
      · rintro ⟨h, h', h''⟩
        by_cases hx : x < st.1
        · exact .inl ⟨h, hx, h''⟩
        · exact .inr ⟨by omega, h'⟩
  · refine ⟨h1, fun x => ?_⟩
    rw [h4]
    have : st.1 = maxSymbol := by omega
    simp [mem_nil, this]

/-- Membership decided by `operator[]`. -/
theorem contains_iff (s : SymSet) (hs : Canon s) (x : Int) : contains s x = true ↔ Mem x s := by
  have h0 : upperBound s x = (partP s ⟨x+1, x⟩ ++ partM s ⟨x+1, x⟩).length := by
    have hp := canon_parts ⟨x+1, x⟩ hs
    conv => lhs; rw [upperBound, parts s ⟨x+1, x⟩]
    rw [takeWhile_append_all, takeWhile_append_all, takeWhile_none]
    · simp
    · intro r hr; have := partR_gt hs hr; simp only at this; simp; omega
    · intro r hr; have := partM_le hr; simpa using this
    · intro r hr; have := partP_lt hr; have := hp.1.2 r hr; simp at *; omega
  -- split the list at the upper bound
  have hsplit : ∃ A B, s = A ++ B ∧ upperBound s x = A.length ∧ (∀ a ∈ A, a.lo ≤ x) ∧ (∀ b ∈ B, x < b.lo) := by
    refine ⟨s.takeWhile (fun r => decide (r.lo ≤ x)), s.dropWhile (fun r => decide (r.lo ≤ x)),
      List.takeWhile_append_dropWhile.symm, rfl, ?_, dropWhile_lo hs x⟩
    intro a ha; simpa using mem_takeWhile_imp ha
  obtain ⟨A, B, hAB, hlen, hA, hB⟩ := hsplit
  simp only [contains, hlen]
  have hBno : ∀ b ∈ B, ¬ b.Mem x := fun b hb => by
    have := hB b hb; simp only [Range.Mem]; omega
  rcases List.eq_nil_or_concat A with rfl | ⟨A, a, rfl⟩
  · simp only [List.length_nil, if_true, Bool.false_eq_true, false_iff]
    rintro ⟨r, hr, hx⟩
    rw [hAB] at hr
    exact hBno r (by simpa using hr) hx
  · rw [List.concat_eq_append] at *
    rw [if_neg (by simp)]
    have hget : s[(A ++ [a]).length - 1]! = a := by rw [hAB]; simp
    rw [hget]
    have hc : a.contains x = true ↔ a.Mem x := by
      simp only [Range.contains, Range.Mem]
      split
      · simp; omega
      · split
        · simp; omega
        · simp; omega
    rw [hc]
    constructor
    · intro h; exact ⟨a, by rw [hAB]; simp, h⟩
    · rintro ⟨r, hr, hx⟩
      rw [hAB] at hr hs
      have ⟨hs1, _, _⟩ := canon_append.1 hs
      have ⟨_, _, hs2⟩ := canon_append.1 hs1
      rcases List.mem_append.1 hr with hr | hr
      · rcases List.mem_append.1 hr with hr | hr
        · have := hs2 r hr a (by simp)
          have := hA a (by simp)
          simp only [Range.Mem] at hx; omega
        · simp at hr; subst hr; exact hx
      · exact absurd hx (hBno r hr)

/-- Canonical forms are unique. -/
theorem canon_ext (s t : SymSet) (hs : Canon s) (ht : Canon t) (h : ∀ x, Mem x s ↔ Mem x t) : s = t := by
  induction s generalizing t with
  | nil =>
    cases t with
    | nil => rfl
    | cons b t =>
      have := (canon_cons.1 ht).1.1
      exact absurd ((h b.lo).2 ⟨b, by simp, by simp only [Range.Mem]; omega⟩) (mem_nil _)
  | cons a s ih =>
    cases t with
    | nil =>
      have := (canon_cons.1 hs).1.1
      exact absurd ((h a.lo).1 ⟨a, by simp, by simp only [Range.Mem]; omega⟩) (mem_nil _)
    | cons b t =>
      have ⟨⟨ha, has⟩, hs'⟩ := canon_cons.1 hs
      have ⟨⟨hb, hbt⟩, ht'⟩ := canon_cons.1 ht
      have key : ∀ (a : Range) (s : SymSet), a.lo < a.hi → (∀ c ∈ s, a.hi < c.lo) → Canon s →
          (∀ x, Mem x (a :: s) → a.lo ≤ x) ∧ (∀ x, x ≤ a.hi → (Mem x (a :: s) ↔ a.lo ≤ x ∧ x < a.hi)) := by
        intro a s ha has hs
        constructor
        · rintro x ⟨r, hr, hx⟩
          simp only [Range.Mem] at hx
          rcases List.mem_cons.1 hr with rfl | hr
          · omega
          · have := has r hr; omega
        · intro x hxa
          rw [mem_cons]
          constructor
          · rintro (h | ⟨r, hr, hx⟩)
            · exact h
            · have := has r hr; simp only [Range.Mem] at hx; omega
          · exact .inl
      have ⟨ka1, ka2⟩ := key a s ha has hs'
      have ⟨kb1, kb2⟩ := key b t hb hbt ht'
      have hlo : a.lo = b.lo := by
        have h1 := kb1 a.lo ((h _).1 ((ka2 a.lo (by omega)).2 (by omega)))
        have h2 := ka1 b.lo ((h _).2 ((kb2 b.lo (by omega)).2 (by omega)))
        omega
      have hhi : a.hi = b.hi := by
        apply Int.le_antisymm
        · apply Int.not_lt.1; intro hlt
          have := (kb2 b.hi (by omega)).1 ((h _).1 ((ka2 b.hi (by omega)).2 (by omega)))
          omega
        · apply Int.not_lt.1; intro hlt
          have := (ka2 a.hi (by omega)).1 ((h _).2 ((kb2 a.hi (by omega)).2 (by omega)))
          omega
      have hab : a = b := by cases a; cases b; simp_all
      subst hab
      congr 1
      apply ih t hs' ht'
      intro x
      by_cases hx : x ≤ a.hi
      · constructor
        · rintro ⟨r, hr, hm⟩; have := has r hr; simp only [Range.Mem] at hm; omega
        · rintro ⟨r, hr, hm⟩; have := hbt r hr; simp only [Range.Mem] at hm; omega
      · have := h x
        rw [mem_cons, mem_cons] at this
        have hno : ¬ a.Mem x := by simp only [Range.Mem]; omega
        simpa [hno] using this

theorem beq_iff (s t : SymSet) : beq s t = true ↔ s = t := by
  have hloop : ∀ s t : SymSet, t.length = s.length → (eqLoop s t = true ↔ s = t) := by
    intro s
    induction s with
    | nil => intro t h; cases t <;> simp_all [eqLoop]
    | cons a s ih =>
      intro t h
      cases t with
      | nil => simp at h
      | cons b t =>
        simp only [eqLoop]
        by_cases hab : a = b
        · subst hab; simp [ih t (by simpa using h)]
        · simp [hab]
  simp only [beq]
  by_cases h : t.length = s.length
  · simp [h, hloop s t h]
  · simp only [ne_eq, h, not_false_eq_true, if_true, Bool.false_eq_true, false_iff]
    intro he; exact h (by rw [he])

theorem range_lt_irrefl (a : Range) : a.lt a = false := by simp [Range.lt]

theorem range_lt_trans {a b c : Range} (h1 : a.lt b = true) (h2 : b.lt c = true) : a.lt c = true := by
  simp only [Range.lt] at *
  split at h1 <;> split at h2 <;> (try split at h1) <;> (try split at h2) <;> simp at h1 h2 <;>
    (split <;> (try split) <;> simp <;> omega)

theorem range_lt_total {a b : Range} (h : a ≠ b) : a.lt b = true ∨ b.lt a = true := by
  have : a.lo ≠ b.lo ∨ a.hi ≠ b.hi := by
    by_cases h1 : a.lo = b.lo
    · right; intro h2; apply h; cases a; cases b; simp_all
    · exact .inl h1
  simp only [Range.lt]
  split
  · simp
  · split
    · right; simp
    · simp; omega

theorem ltLoop_irrefl (s : SymSet) : ltLoop s s = false := by
  induction s with
  | nil => rfl
  | cons a s ih => simp [ltLoop, ih]

theorem ltLoop_trans : ∀ {s t u : SymSet}, s.length = t.length → t.length = u.length →
    ltLoop s t = true → ltLoop t u = true → ltLoop s u = true
  | [], _, _, _, _, h, _ => by simp [ltLoop] at h
  | a :: s, [], _, h, _, _, _ => by simp at h
  | a :: s, b :: t, [], _, h, _, _ => by simp at h
  | a :: s, b :: t, c :: u, h1, h2, h3, h4 => by
    simp only [ltLoop] at *
    by_cases hab : a = b
    · subst hab
      rw [if_pos rfl] at h3
      by_cases hbc : a = c
      · subst hbc
        rw [if_pos rfl] at h4 ⊢
        exact ltLoop_trans (by simpa using h1) (by simpa using h2) h3 h4
      · rw [if_neg hbc] at h4 ⊢; exact h4
    · rw [if_neg hab] at h3
      by_cases hbc : b = c
      · subst hbc; rw [if_neg hab]; exact h3
      · rw [if_neg hbc] at h4
        have h5 := range_lt_trans h3 h4
        have : a ≠ c := by rintro rfl; rw [range_lt_irrefl] at h5; simp at h5
        rw [if_neg this]; exact h5

theorem ltLoop_total : ∀ {s t : SymSet}, s.length = t.length → s ≠ t → ltLoop s t = true ∨ ltLoop t s = true
  | [], [], _, h => by simp at h
  | [], b :: t, h, _ => by simp at h
  | a :: s, [], h, _ => by simp at h
  | a :: s, b :: t, h, hne => by
    simp only [ltLoop]
    by_cases hab : a = b
    · subst hab; simp only [if_true]
      exact ltLoop_total (by simpa using h) (by simpa using hne)
    · rw [if_neg hab, if_neg (Ne.symm hab)]
      exact range_lt_total hab

theorem lt_irrefl (s : SymSet) : lt s s = false := by simp [lt, ltLoop_irrefl]

theorem lt_trans {s t u : SymSet} (h1 : lt s t = true) (h2 : lt t u = true) : lt s u = true := by
  simp only [lt] at *
  split at h1
  · split at h2
    · rw [if_pos (by omega)]
    · split at h2
      · simp at h2
      · rw [if_pos (by omega)]
  · split at h1
    · simp at h1
    · split at h2
      · rw [if_pos (by omega)]
      · split at h2
        · simp at h2
        · rw [if_neg (by omega), if_neg (by omega)]
          exact ltLoop_trans (by omega) (by omega) h1 h2

theorem lt_total {s t : SymSet} (h : s ≠ t) : lt s t = true ∨ lt t s = true := by
  simp only [lt]
  by_cases h1 : s.length < t.length
  · simp [h1]
  · by_cases h2 : t.length < s.length
    · simp [h2]
    · simp only [h1, h2, if_false]
      exact ltLoop_total (by omega) h

theorem leLoop_eq : ∀ {s t : SymSet}, s.length = t.length → (leLoop s t = true ↔ ltLoop s t = true ∨ s = t)
  | [], [], _ => by simp [leLoop]
  | [], b :: t, h => by simp at h
  | a :: s, [], h => by simp at h
  | a :: s, b :: t, h => by
    simp only [leLoop, ltLoop]
    by_cases hab : a = b
    · subst hab; simp [leLoop_eq (s := s) (t := t) (by simpa using h)]
    · simp [hab]

theorem le_iff (s t : SymSet) : le s t = true ↔ lt s t = true ∨ s = t := by
  simp only [le, lt]
  by_cases h1 : s.length < t.length
  · simp [h1]
  · by_cases h2 : t.length < s.length
    · simp only [h1, h2, if_false, if_true, Bool.false_eq_true, false_or, false_iff]
      rintro rfl; omega
    · simp only [h1, h2, if_false]
      exact leLoop_eq (by omega)

end TameParse.SymSet

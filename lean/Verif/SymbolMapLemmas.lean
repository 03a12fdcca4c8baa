import Verif.SymbolMap
/- Helper lemmas for `deduplicate`. -/
namespace TameParse
namespace Dedup

/-- Symbol `x` is in a range labelled with identifier `i`. -/
def Has (sets : SetsForRange) (x : Int) (i : Nat) : Prop := ∃ p ∈ sets, p.1.Mem x ∧ i ∈ p.2

/-- Non-empty, disjoint ranges in order. -/
def Sorted (sets : SetsForRange) : Prop :=
  sets.Pairwise (fun p q => p.1.hi ≤ q.1.lo) ∧ ∀ p ∈ sets, p.1.lo < p.1.hi

theorem has_cons {p sets x i} : Has (p :: sets) x i ↔ (p.1.Mem x ∧ i ∈ p.2) ∨ Has sets x i := by
  simp [Has]

theorem has_append {a b x i} : Has (a ++ b) x i ↔ Has a x i ∨ Has b x i := by
  simp only [Has, List.mem_append]
  constructor
  · rintro ⟨p, h | h, h2⟩
    · exact .inl ⟨p, h, h2⟩
    · exact .inr ⟨p, h, h2⟩
  · rintro (⟨p, h, h2⟩ | ⟨p, h, h2⟩)
    · exact ⟨p, .inl h, h2⟩
    · exact ⟨p, .inr h, h2⟩

theorem has_nil {x i} : ¬ Has [] x i := by simp [Has]

theorem sorted_nil : Sorted [] := by simp [Sorted]

theorem sorted_cons {p sets} : Sorted (p :: sets) ↔
    p.1.lo < p.1.hi ∧ (∀ q ∈ sets, p.1.hi ≤ q.1.lo) ∧ Sorted sets := by
  simp only [Sorted, List.pairwise_cons, List.mem_cons, forall_eq_or_imp]
  constructor
  · rintro ⟨⟨a, b⟩, c, d⟩; exact ⟨c, a, b, d⟩
  · rintro ⟨c, a, b, d⟩; exact ⟨⟨a, b⟩, c, d⟩

theorem sorted_append {a b} : Sorted (a ++ b) ↔
    Sorted a ∧ Sorted b ∧ ∀ p ∈ a, ∀ q ∈ b, p.1.hi ≤ q.1.lo := by
  simp only [Sorted, List.pairwise_append, List.mem_append]
  constructor
  · rintro ⟨⟨h1, h2, h3⟩, h4⟩
    exact ⟨⟨h1, fun p hp => h4 p (.inl hp)⟩, ⟨h2, fun p hp => h4 p (.inr hp)⟩, h3⟩
  · rintro ⟨⟨h1, h4⟩, ⟨h2, h5⟩, h3⟩
    exact ⟨⟨h1, h2, h3⟩, fun p hp => hp.elim (h4 p) (h5 p)⟩

theorem insertId_ne_nil (l : List Nat) (i : Nat) : insertId l i ≠ [] := by
  intro h
  have : i ∈ insertId l i := mem_insertId.2 (.inl rfl)
  rw [h] at this; simp at this

/-! Map operations at a known position -/

theorem lo_lt_of_sorted {A : SetsForRange} {q : Range} {v : List Nat} {t : SetsForRange}
    (h : Sorted (A ++ (q, v) :: t)) : (∀ p ∈ A, p.1.lo < q.lo) ∧ ∀ p ∈ t, q.lo < p.1.lo := by
  rw [sorted_append, sorted_cons] at h
  obtain ⟨h1, ⟨h2, h3, h4⟩, h5⟩ := h
  refine ⟨fun p hp => ?_, fun p hp => ?_⟩
  · have := h1.2 p hp; have := h5 p hp (q, v) (by simp); simp only at this; omega
  · have := h3 p hp; simp only at this h2; omega

theorem mget_mid {A t : SetsForRange} {q : Range} {v : List Nat} (h : ∀ p ∈ A, p.1.lo < q.lo) :
    mget (A ++ (q, v) :: t) q.lo = some (q, v) := by
  rw [mget, List.find?_append, List.find?_eq_none.2]
  · simp
  · intro p hp; have := h p hp; simp; omega

theorem merase_mid {A t : SetsForRange} {q : Range} {v : List Nat} (h : ∀ p ∈ A, p.1.lo < q.lo)
    (h2 : ∀ p ∈ t, q.lo < p.1.lo) : merase (A ++ (q, v) :: t) q.lo = A ++ t := by
  have h1 : A.filter (fun p => p.1.lo != q.lo) = A := by
    rw [List.filter_eq_self]; intro p hp; have := h p hp; simp; omega
  have h3 : t.filter (fun p => p.1.lo != q.lo) = t := by
    rw [List.filter_eq_self]; intro p hp; have := h2 p hp; simp; omega
  simp [merase, h1, h3]

theorem minsert_mid {A t : SetsForRange} {r : Range} {v : List Nat} (h : ∀ p ∈ A, p.1.lo < r.lo)
    (h2 : ∀ p ∈ t, r.lo < p.1.lo) : minsert (A ++ t) r v = A ++ (r, v) :: t := by
  induction A with
  | nil =>
    cases t with
    | nil => rfl
    | cons p t => have := h2 p (by simp); simp [minsert, this]
  | cons p A ih =>
    have h3 := h p (by simp)
    have h4 : ¬ r.lo < p.1.lo := by omega
    simp only [List.cons_append, minsert, h3, h4, if_true, if_false]
    rw [ih (fun p hp => h p (by simp [hp]))]

theorem mput_mid {A t : SetsForRange} {r : Range} {v : List Nat} (h : ∀ p ∈ A, p.1.lo < r.lo)
    (h2 : ∀ p ∈ t, r.lo < p.1.lo) : mput (A ++ t) r v = A ++ (r, v) :: t := by
  induction A with
  | nil =>
    cases t with
    | nil => rfl
    | cons p t => have := h2 p (by simp); simp [mput, this]
  | cons p A ih =>
    have h3 := h p (by simp)
    have h4 : ¬ r.lo < p.1.lo := by omega
    simp only [List.cons_append, mput, h3, h4, if_true, if_false]
    rw [ih (fun p hp => h p (by simp [hp]))]

theorem upsert_new {A t : SetsForRange} {r : Range} {i : Nat} (h : ∀ p ∈ A, p.1.lo < r.lo)
    (h2 : ∀ p ∈ t, r.lo < p.1.lo) : upsert (A ++ t) r i = A ++ (r, [i]) :: t := by
  induction A with
  | nil =>
    cases t with
    | nil => rfl
    | cons p t => have := h2 p (by simp); simp [upsert, this]
  | cons p A ih =>
    have h3 := h p (by simp)
    have h4 : ¬ r.lo < p.1.lo := by omega
    simp only [List.cons_append, upsert, h3, h4, if_true, if_false]
    rw [ih (fun p hp => h p (by simp [hp]))]

theorem upsert_old {A t : SetsForRange} {r : Range} {v : List Nat} {i : Nat} (h : ∀ p ∈ A, p.1.lo < r.lo) :
    upsert (A ++ (r, v) :: t) r i = A ++ (r, insertId v i) :: t := by
  induction A with
  | nil => simp [upsert]
  | cons p A ih =>
    have h3 := h p (by simp)
    have h4 : ¬ r.lo < p.1.lo := by omega
    simp only [List.cons_append, upsert, h3, h4, if_true, if_false]
    rw [ih (fun p hp => h p (by simp [hp]))]

theorem madd_mid {A t : SetsForRange} {q : Range} {v : List Nat} {i : Nat} (h : ∀ p ∈ A, p.1.lo < q.lo)
    (h2 : ∀ p ∈ t, q.lo < p.1.lo) : madd (A ++ (q, v) :: t) q.lo i = A ++ (q, insertId v i) :: t := by
  have h1 : A.map (fun p => if p.1.lo = q.lo then (p.1, insertId p.2 i) else p) = A := by
    conv => rhs; rw [← List.map_id A]
    apply List.map_congr_left; intro p hp; have := h p hp; simp; omega
  have h3 : t.map (fun p => if p.1.lo = q.lo then (p.1, insertId p.2 i) else p) = t := by
    conv => rhs; rw [← List.map_id t]
    apply List.map_congr_left; intro p hp; have := h2 p hp; simp; omega
  simp [madd, h1, h3]

theorem mnext_mid {A t : SetsForRange} {q : Range} {v : List Nat} (h : ∀ p ∈ A, p.1.lo < q.lo)
    (h2 : ∀ p ∈ t, q.lo < p.1.lo) : mnext (A ++ (q, v) :: t) q.lo = t.head?.map (·.1.lo) := by
  rw [mnext, List.find?_append, List.find?_eq_none.2, List.find?_cons]
  · simp only [Int.lt_irrefl, decide_false, Option.none_or]
    cases t with
    | nil => rfl
    | cons p t => have := h2 p (by simp); simp [this]
  · intro p hp; have := h p hp; simp; omega

theorem split_mid {A t : SetsForRange} {q : Range} {v : List Nat} {pt : Int} (h : Sorted (A ++ (q, v) :: t))
    (h1 : q.lo < pt) (h2 : pt < q.hi) :
    split (A ++ (q, v) :: t) q pt = A ++ (⟨q.lo, pt⟩, v) :: (⟨pt, q.hi⟩, v) :: t := by
  obtain ⟨ha, hb⟩ := lo_lt_of_sorted h
  rw [sorted_append, sorted_cons] at h
  have hc : ∀ p ∈ t, q.hi ≤ p.1.lo := h.2.1.2.1
  simp only [split, mget_mid ha, merase_mid ha hb, Option.map_some, Option.getD_some]
  have e1 : mput (A ++ t) ⟨pt, q.hi⟩ v = A ++ (⟨pt, q.hi⟩, v) :: t :=
    mput_mid (fun p hp => by have := ha p hp; simp only; omega) (fun p hp => by have := hc p hp; simp only; omega)
  rw [e1]
  exact minsert_mid (r := ⟨q.lo, pt⟩) (fun p hp => ha p hp) (by
    intro p hp
    rcases List.mem_cons.1 hp with rfl | hp
    · exact h1
    · exact hb p hp)

theorem sorted_split {A t : SetsForRange} {q : Range} {v : List Nat} {pt : Int} (h : Sorted (A ++ (q, v) :: t))
    (h1 : q.lo < pt) (h2 : pt < q.hi) : Sorted (A ++ (⟨q.lo, pt⟩, v) :: (⟨pt, q.hi⟩, v) :: t) := by
  rw [sorted_append, sorted_cons] at *
  obtain ⟨h3, ⟨h4, h5, h6⟩, h7⟩ := h
  simp only at h4 h5
  refine ⟨h3, ⟨h1, ?_, sorted_cons.2 ⟨h2, h5, h6⟩⟩, ?_⟩
  · intro p hp
    rcases List.mem_cons.1 hp with rfl | hp
    · exact Int.le_refl _
    · have := h5 p hp; simp only; omega
  · intro p hp b hb
    have h8 := h7 p hp (q, v) (by simp)
    simp only at h8
    rcases List.mem_cons.1 hb with rfl | hb
    · exact h8
    · rcases List.mem_cons.1 hb with rfl | hb
      · simp only; omega
      · exact h7 p hp b (by simp [hb])

theorem sorted_relabel {A t : SetsForRange} {q : Range} {v w : List Nat} (h : Sorted (A ++ (q, v) :: t)) :
    Sorted (A ++ (q, w) :: t) := by
  rw [sorted_append, sorted_cons] at *
  obtain ⟨h3, ⟨h4, h5, h6⟩, h7⟩ := h
  refine ⟨h3, ⟨h4, h5, h6⟩, ?_⟩
  intro p hp b hb
  rcases List.mem_cons.1 hb with rfl | hb
  · exact h7 p hp (q, v) (by simp)
  · exact h7 p hp b (by simp [hb])

theorem loop_done (fuel : Nat) (sets : SetsForRange) (it : Option Int) (r : Range) (i : Nat) (h : r.hi = r.lo) :
    loop (fuel + 1) sets it r i = some sets := by
  unfold loop; simp [h]

/-- The part of the body of the loop that consumes an entry, as one replacement of that entry. -/
theorem loop_step (fuel : Nat) (A t : SetsForRange) (q : Range) (v : List Nat) (r : Range) (i : Nat)
    (hs : Sorted (A ++ (q, v) :: t))
    (hne : r.lo < r.hi) (hq : q.lo ≤ r.lo) (hq2 : r.lo < q.hi) :
    ∃ A' t', Sorted (A' ++ (⟨r.lo, min q.hi r.hi⟩, insertId v i) :: t') ∧
      loop (fuel + 1) (A ++ (q, v) :: t) (some q.lo) r i =
        loop fuel (A' ++ (⟨r.lo, min q.hi r.hi⟩, insertId v i) :: t') (t'.head?.map (·.1.lo)) ⟨min q.hi r.hi, r.hi⟩ i ∧
      A' = (if q.lo < r.lo then A ++ [(⟨q.lo, r.lo⟩, v)] else A) ∧
      t' = (if r.hi < q.hi then (⟨r.hi, q.hi⟩, v) :: t else t) := by
  have hne' : r.hi ≠ r.lo := by omega
  have h1 : ¬ q.lo > r.lo := by omega
  obtain ⟨ha, hb⟩ := lo_lt_of_sorted hs
  -- first split
  obtain ⟨A', q', hsa, heq1, hA', hq'lo, hq'hi⟩ : ∃ A' q', Sorted (A' ++ (q', v) :: t) ∧
      (if q.lo < r.lo then (split (A ++ (q, v) :: t) q r.lo, mnext (split (A ++ (q, v) :: t) q r.lo) q.lo)
        else (A ++ (q, v) :: t, some q.lo)) = (A' ++ (q', v) :: t, some q'.lo) ∧
      A' = (if q.lo < r.lo then A ++ [(⟨q.lo, r.lo⟩, v)] else A) ∧ q'.lo = r.lo ∧ q'.hi = q.hi := by
    by_cases h2 : q.lo < r.lo
    · have hs2 := sorted_split hs h2 hq2
      refine ⟨A ++ [(⟨q.lo, r.lo⟩, v)], ⟨r.lo, q.hi⟩, by simpa using hs2, ?_, by simp [h2], rfl, rfl⟩
      simp only [h2, if_true, split_mid hs h2 hq2]
      obtain ⟨ha2, hb2⟩ := lo_lt_of_sorted hs2
      have := mnext_mid ha2 hb2 (v := v)
      simp only at this
      rw [this]; simp
    · have h4 : q.lo = r.lo := by omega
      exact ⟨A, q, hs, by simp [h2], by simp [h2], h4, rfl⟩
  obtain ⟨ha', hb'⟩ := lo_lt_of_sorted hsa
  -- second split
  obtain ⟨q'', t', hsb, heq2, ht', hq''lo, hq''hi⟩ : ∃ q'' t', Sorted (A' ++ (q'', v) :: t') ∧
      (if q'.hi > r.hi then split (A' ++ (q', v) :: t) q' r.hi else (A' ++ (q', v) :: t)) = A' ++ (q'', v) :: t' ∧
      t' = (if r.hi < q.hi then (⟨r.hi, q.hi⟩, v) :: t else t) ∧ q''.lo = r.lo ∧ q''.hi = min q.hi r.hi := by
    by_cases h3 : r.hi < q'.hi
    · have h3' : r.hi < q.hi := by omega
      have h4 : q'.lo < r.hi := by omega
      have hs3 := sorted_split hsa h4 h3
      refine ⟨⟨q'.lo, r.hi⟩, (⟨r.hi, q'.hi⟩, v) :: t, hs3, ?_, by simp [h3', hq'hi], hq'lo, by simp only; omega⟩
      simp only [gt_iff_lt, h3, if_true, split_mid hsa h4 h3]
    · have h3' : ¬ r.hi < q.hi := by omega
      exact ⟨q', t, hsa, by simp [h3], by simp [h3'], hq'lo, by omega⟩
  obtain ⟨ha'', hb''⟩ := lo_lt_of_sorted hsb
  have hqe : q'' = ⟨r.lo, min q.hi r.hi⟩ := by cases q''; simp_all
  refine ⟨A', t', by rw [← hqe]; exact sorted_relabel hsb, ?_, hA', ht'⟩
  conv => lhs; unfold loop
  simp only [hne', if_false, mget_mid ha, h1, heq1, Option.bind_some, mget_mid ha']
  rw [heq2]
  have hlo : q'.lo = q''.lo := by omega
  rw [hlo]
  simp only [mget_mid ha'', madd_mid ha'' hb'', mnext_mid ha'' hb'']
  rw [hqe]

theorem loop_spec (i : Nat) : ∀ (fuel : Nat) (A t : SetsForRange) (r : Range),
    Sorted (A ++ t) → (∀ p ∈ A, p.1.hi ≤ r.lo) → (∀ p ∈ t, r.lo < p.1.hi) →
    r.lo ≤ r.hi →
    -- the end of the range is not strictly inside a gap that is followed by another entry
    ((∀ p ∈ t, p.1.lo ≤ r.hi) ∨ (∃ p ∈ t, p.1.lo ≤ r.hi ∧ r.hi ≤ p.1.hi) ∨ r.lo = r.hi) →
    (r.lo < r.hi → 2 * t.length + (if ∃ q, t.head? = some q ∧ r.lo < q.1.lo then 1 else 0) + 1 ≤ fuel) →
    1 ≤ fuel →
    ∃ out, loop fuel (A ++ t) (t.head?.map (·.1.lo)) r i = some out ∧ Sorted out ∧
      ((∀ p ∈ A ++ t, p.2 ≠ []) → ∀ p ∈ out, p.2 ≠ []) ∧
      ∀ x j, Has out x j ↔ Has (A ++ t) x j ∨ (r.Mem x ∧ j = i) := by
  intro fuel
  induction fuel with
  | zero => intro A t r _ _ _ _ _ _ h; omega
  | succ fuel ih =>
    intro A t r hs hpre hpost hle hsafe hfuel _
    by_cases hne : r.hi = r.lo
    · refine ⟨_, loop_done fuel _ _ r i hne, hs, id, fun x j => ?_⟩
      simp only [Range.Mem]
      constructor
      · exact .inl
      · rintro (h | h)
        · exact h
        · omega
    · have hlt : r.lo < r.hi := by omega
      have hfuel := hfuel hlt
      cases t with
      | nil =>
        have hA : ∀ p ∈ A, p.1.lo < r.lo := fun p hp => by
          have h1 := hpre p hp; have h2 := hs.2 p (by simp [hp]); omega
        have e : mput (A ++ []) r [i] = A ++ (r, [i]) :: [] := mput_mid hA (by simp)
        refine ⟨A ++ [(r, [i])], ?_, ?_, ?_, ?_⟩
        · unfold loop; simp only [hne, if_false, List.head?_nil, Option.map_none, e]
        · simp only [List.append_nil] at hs
          rw [sorted_append]
          refine ⟨hs, ?_, ?_⟩
          · rw [sorted_cons]; exact ⟨hlt, by simp, sorted_nil⟩
          · intro p hp q hq
            simp only [List.mem_singleton] at hq; subst hq
            exact hpre p hp
        · intro h p hp
          rcases List.mem_append.1 hp with hp | hp
          · exact h p (by simp [hp])
          · simp only [List.mem_singleton] at hp; subst hp; simp
        · intro x j
          simp only [has_append, has_cons, has_nil, List.mem_singleton, or_false]
      | cons qv t =>
        obtain ⟨q, v⟩ := qv
        have hqhi : r.lo < q.hi := hpost (q, v) (by simp)
        have hs' := hs
        rw [sorted_append, sorted_cons] at hs'
        obtain ⟨hsp, ⟨hq, hqt, hst⟩, hpq⟩ := hs'
        obtain ⟨ha, hb⟩ := lo_lt_of_sorted hs
        have hpre' : ∀ p ∈ A, p.1.hi ≤ q.lo := fun p hp => hpq p hp (q, v) (by simp)
        simp only at hq hqt
        simp only [List.head?_cons, Option.map_some]
        by_cases hgap : q.lo > r.lo
        · have hbig : q.lo ≤ r.hi := by
            rcases hsafe with h | ⟨p, hp, h1, h2⟩ | h
            · exact h (q, v) (by simp)
            · rcases List.mem_cons.1 hp with rfl | hp
              · exact h1
              · have := hqt p hp; omega
            · omega
          have hA : ∀ p ∈ A, p.1.lo < r.lo := fun p hp => by
            have h1 := hpre p hp; have h2 := hsp.2 p hp; omega
          have hB : ∀ p ∈ (q, v) :: t, r.lo < p.1.lo := by
            intro p hp
            rcases List.mem_cons.1 hp with rfl | hp
            · exact hgap
            · have := hb p hp; omega
          have e1 : minsert (A ++ (q, v) :: t) ⟨r.lo, q.lo⟩ [i] = A ++ (⟨r.lo, q.lo⟩, [i]) :: (q, v) :: t :=
            minsert_mid hA hB
          have e2 : mnext (A ++ (⟨r.lo, q.lo⟩, [i]) :: (q, v) :: t) r.lo = some q.lo :=
            mnext_mid (q := ⟨r.lo, q.lo⟩) hA hB
          have heq : loop (fuel + 1) (A ++ (q, v) :: t) (some q.lo) r i =
              loop fuel ((A ++ [(⟨r.lo, q.lo⟩, [i])]) ++ (q, v) :: t) (((q, v) :: t).head?.map (·.1.lo)) ⟨q.lo, r.hi⟩ i := by
            conv => lhs; unfold loop
            simp only [hne, if_false, mget_mid ha, hgap, if_true, e1, e2]
            simp
          obtain ⟨out, ho, hso, hlab, hh⟩ := ih (A ++ [(⟨r.lo, q.lo⟩, [i])]) ((q, v) :: t) ⟨q.lo, r.hi⟩
            (by
              simp only [List.append_assoc, List.singleton_append]
              rw [sorted_append, sorted_cons, sorted_cons]
              refine ⟨hsp, ⟨hgap, ?_, hq, hqt, hst⟩, ?_⟩
              · intro b hb
                rcases List.mem_cons.1 hb with rfl | hb
                · exact Int.le_refl _
                · have := hqt b hb; simp only; omega
              · intro p hp b hb
                rcases List.mem_cons.1 hb with rfl | hb
                · exact hpre p hp
                · exact hpq p hp b hb)
            (by
              intro p hp
              rcases List.mem_append.1 hp with hp | hp
              · exact hpre' p hp
              · simp only [List.mem_singleton] at hp; subst hp; exact Int.le_refl _)
            (by
              intro p hp
              rcases List.mem_cons.1 hp with rfl | hp
              · exact hq
              · have h1 := hqt p hp
                have h2 := hst.2 p hp
                simp only; omega)
            hbig
            (by
              rcases hsafe with h | h | h
              · exact .inl h
              · exact .inr (.inl h)
              · omega)
            (by
              intro _
              have h1 : (∃ q', ((q, v) :: t).head? = some q' ∧ r.lo < q'.1.lo) := ⟨(q, v), rfl, hgap⟩
              have h2 : ¬ (∃ q', ((q, v) :: t).head? = some q' ∧ (⟨q.lo, r.hi⟩ : Range).lo < q'.1.lo) := by
                rintro ⟨q', h, h'⟩
                simp only [List.head?_cons, Option.some.injEq] at h; subst h; simp at h'
              rw [if_pos h1] at hfuel
              rw [if_neg h2]
              omega)
            (by simp only [List.length_cons] at hfuel; omega)
          refine ⟨out, by rw [heq]; exact ho, hso, fun h => hlab (fun p hp => ?_), fun x j => ?_⟩
          · simp only [List.append_assoc, List.mem_append, List.mem_cons, List.not_mem_nil, or_false] at hp
            rcases hp with hp | hp | hp | hp
            · exact h p (by simp [hp])
            · subst hp; simp
            · subst hp; exact h _ (by simp)
            · exact h p (by simp [hp])
          rw [hh]
          simp only [List.append_assoc, List.singleton_append, has_append, has_cons,
            List.mem_singleton, Range.Mem]
          constructor
          · rintro ((h | h | h | h) | h)
            · exact .inl (.inl h)
            · exact .inr ⟨⟨by omega, by omega⟩, h.2⟩
            · exact .inl (.inr (.inl h))
            · exact .inl (.inr (.inr h))
            · exact .inr ⟨⟨by omega, by omega⟩, h.2⟩
          · rintro ((h | h | h) | h)
            · exact .inl (.inl h)
            · exact .inl (.inr (.inr (.inl h)))
            · exact .inl (.inr (.inr (.inr h)))
            · by_cases hx : x < q.lo
              · exact .inl (.inr (.inl ⟨⟨h.1.1, hx⟩, h.2⟩))
              · exact .inr ⟨⟨by omega, by omega⟩, h.2⟩
        · obtain ⟨A', t', hs2, heq, hA', ht'⟩ := loop_step fuel A t q v r i hs hlt (by omega) hqhi
          have hs2' := hs2
          rw [sorted_append, sorted_cons] at hs2'
          obtain ⟨out, ho, hso, hlab, hh⟩ := ih (A' ++ [(⟨r.lo, min q.hi r.hi⟩, insertId v i)]) t' ⟨min q.hi r.hi, r.hi⟩
            (by simpa using hs2)
            (by
              intro p hp
              rcases List.mem_append.1 hp with hp | hp
              · have := hs2'.2.2 p hp (⟨r.lo, min q.hi r.hi⟩, insertId v i) (by simp)
                simp only at this ⊢; omega
              · simp only [List.mem_singleton] at hp; subst hp; exact Int.le_refl _)
            (by
              intro p hp
              have h1 := hs2'.2.1.2.1 p hp
              have h2 := hs2'.2.1.2.2.2 p hp
              simp only at h1 ⊢; omega)
            (by simp only; omega)
            (by
              by_cases h3 : r.hi < q.hi
              · exact .inr (.inr (by simp only; omega))
              · rw [if_neg h3] at ht'
                subst ht'
                rcases hsafe with h | ⟨p, hp, h1, h2⟩ | h
                · exact .inl (fun p hp => h p (by simp [hp]))
                · rcases List.mem_cons.1 hp with rfl | hp
                  · exact .inr (.inr (by simp only at h2 ⊢; omega))
                  · exact .inr (.inl ⟨p, hp, h1, h2⟩)
                · omega)
            (by
              intro h4
              have h3 : ¬ r.hi < q.hi := by simp only at h4; omega
              rw [if_neg h3] at ht'
              subst ht'
              simp only [List.length_cons] at hfuel
              split <;> omega)
            (by simp only [List.length_cons] at hfuel; omega)
          refine ⟨out, ?_, hso, fun h => hlab (fun p hp => ?_), fun x j => ?_⟩
          · rw [heq]
            simp only [List.append_assoc, List.singleton_append] at ho
            exact ho
          · have hv := h (q, v) (by simp)
            simp only at hv
            rw [hA', ht'] at hp
            simp only [List.mem_append, List.mem_cons, List.not_mem_nil, or_false] at hp
            rcases hp with (hp | hp) | hp
            · split at hp
              · rcases List.mem_append.1 hp with hp | hp
                · exact h p (by simp [hp])
                · simp only [List.mem_singleton] at hp; subst hp; exact hv
              · exact h p (by simp [hp])
            · subst hp; exact insertId_ne_nil _ _
            · split at hp
              · rcases List.mem_cons.1 hp with hp | hp
                · subst hp; exact hv
                · exact h p (by simp [hp])
              · exact h p (by simp [hp])
          rw [hh]
          simp only [List.append_assoc, List.singleton_append, has_append, has_cons, Range.Mem, mem_insertId]
          have hA2 : Has A' x j ↔ Has A x j ∨ (q.lo ≤ x ∧ x < r.lo) ∧ j ∈ v := by
            rw [hA']
            split
            · simp only [has_append, has_cons, has_nil, Range.Mem, or_false]
            · constructor
              · exact .inl
              · rintro (h | h)
                · exact h
                · omega
          have ht2 : Has t' x j ↔ Has t x j ∨ (r.hi ≤ x ∧ x < q.hi) ∧ j ∈ v := by
            rw [ht']
            split
            · simp only [has_cons, Range.Mem]
              constructor
              · rintro (h | h)
                · exact .inr h
                · exact .inl h
              · rintro (h | h)
                · exact .inr h
                · exact .inl h
            · constructor
              · exact .inl
              · rintro (h | h)
                · exact h
                · omega
          rw [hA2, ht2]
          constructor
          · rintro (((h | h) | h | h | h) | h)
            · exact .inl (.inl h)
            · exact .inl (.inr (.inl ⟨⟨by omega, by omega⟩, h.2⟩))
            · rcases h.2 with h' | h'
              · exact .inr ⟨⟨by omega, by omega⟩, h'⟩
              · exact .inl (.inr (.inl ⟨⟨by omega, by omega⟩, h'⟩))
            · exact .inl (.inr (.inr h))
            · exact .inl (.inr (.inl ⟨⟨by omega, by omega⟩, h.2⟩))
            · exact .inr ⟨⟨by omega, by omega⟩, h.2⟩
          · rintro ((h | h | h) | h)
            · exact .inl (.inl (.inl h))
            · by_cases hx1 : x < r.lo
              · exact .inl (.inl (.inr ⟨⟨by omega, by omega⟩, h.2⟩))
              · by_cases hx2 : r.hi ≤ x
                · exact .inl (.inr (.inr (.inr ⟨⟨by omega, by omega⟩, h.2⟩)))
                · exact .inl (.inr (.inl ⟨⟨by omega, by omega⟩, .inr h.2⟩))
            · exact .inl (.inr (.inr (.inl h)))
            · by_cases hx2 : x < q.hi
              · exact .inl (.inr (.inl ⟨⟨by omega, by omega⟩, .inl h.2⟩))
              · exact .inr ⟨⟨by omega, by omega⟩, h.2⟩


/-- Sorted ranges with non-empty labels. -/
def Good (sets : SetsForRange) : Prop := Sorted sets ∧ ∀ p ∈ sets, p.2 ≠ []

/-- The condition under which adding `r` to a map of ranges works. -/
def SafeIn (sets : SetsForRange) (r : Range) : Prop :=
  (∀ p ∈ sets, p.1.overlaps r = false) ∨ (∀ p ∈ sets, p.1.lo ≤ r.hi) ∨ (∃ p ∈ sets, p.1.lo ≤ r.hi ∧ r.hi ≤ p.1.hi)

theorem overlaps_iff {a b : Range} : a.overlaps b = true ↔ a.lo < b.hi ∧ b.lo < a.hi := by
  simp only [Range.overlaps]
  split
  · constructor
    · intro h; cases h
    · intro h; omega
  · split
    · constructor
      · intro h; cases h
      · intro h; omega
    · constructor
      · intro _; omega
      · intro _; rfl

theorem overlaps_false {a b : Range} : a.overlaps b = false ↔ b.hi ≤ a.lo ∨ a.hi ≤ b.lo := by
  rw [← Bool.not_eq_true, overlaps_iff]; omega

/-- The split of a sorted map at a range: entries that end before it, and the rest. -/
theorem exists_split (sets : SetsForRange) (r : Range) (h : Sorted sets) :
    ∃ A t, sets = A ++ t ∧ (∀ p ∈ A, p.1.hi ≤ r.lo) ∧ (∀ p ∈ t, r.lo < p.1.hi) ∧
      start sets r = t.head?.map (·.1.lo) := by
  induction sets with
  | nil => exact ⟨[], [], rfl, by simp, by simp, rfl⟩
  | cons p s ih =>
    rw [sorted_cons] at h
    obtain ⟨h1, h2, h3⟩ := h
    by_cases hp : p.1.hi ≤ r.lo
    · obtain ⟨A, t, he, hA, ht, hst⟩ := ih h3
      refine ⟨p :: A, t, by simp [he], ?_, ht, ?_⟩
      · intro q hq
        rcases List.mem_cons.1 hq with rfl | hq
        · exact hp
        · exact hA q hq
      · rw [← hst]
        have hlo : p.1.lo < r.lo := by omega
        simp only [start, List.takeWhile_cons, hlo, decide_true, if_true, List.dropWhile_cons]
        cases hw : s.takeWhile (fun p => decide (p.1.lo < r.lo)) with
        | nil =>
          have : ¬ p.1.hi > r.lo := by omega
          simp [this]
        | cons a b => simp [List.getLast?_cons_cons]
    · refine ⟨[], p :: s, rfl, by simp, ?_, ?_⟩
      · intro q hq
        rcases List.mem_cons.1 hq with rfl | hq
        · omega
        · have h4 := h2 q hq; have := h3.2 q hq; omega
      · have hs : ∀ q ∈ s, r.lo < q.1.lo := fun q hq => by have := h2 q hq; omega
        by_cases hlo : p.1.lo < r.lo
        · have hw : s.takeWhile (fun p => decide (p.1.lo < r.lo)) = [] := by
            cases s with
            | nil => rfl
            | cons q s =>
              have := hs q (by simp)
              have h5 : ¬ q.1.lo < r.lo := by omega
              simp [h5]
          have hgt : p.1.hi > r.lo := by omega
          simp [start, hlo, hw, hgt]
        · simp [start, hlo]

theorem addRange_spec (sets : SetsForRange) (r : Range) (i : Nat) (h : Good sets) (hr : r.lo < r.hi)
    (hsafe : SafeIn sets r) :
    ∃ out, addRange sets r i = some out ∧ Good out ∧
      ∀ x j, Has out x j ↔ Has sets x j ∨ (r.Mem x ∧ j = i) := by
  obtain ⟨hs, hlab⟩ := h
  obtain ⟨A, t, he, hA, ht, hst⟩ := exists_split sets r hs
  have hAlo : ∀ p ∈ A, p.1.lo < r.lo := fun p hp => by
    have h1 := hA p hp; have h2 := hs.2 p (by simp [he, hp]); omega
  -- inserting a new entry between A and t
  have hnew : (∀ p ∈ t, r.hi ≤ p.1.lo) → addRange sets r i = some (upsert sets r i) →
      ∃ out, addRange sets r i = some out ∧ Good out ∧
      ∀ x j, Has out x j ↔ Has sets x j ∨ (r.Mem x ∧ j = i) := by
    intro htr hadd
    have e : upsert sets r i = A ++ (r, [i]) :: t := by
      rw [he]; exact upsert_new hAlo (fun p hp => by have := htr p hp; omega)
    refine ⟨_, hadd, ?_, ?_⟩
    · rw [e]
      refine ⟨?_, ?_⟩
      · rw [he, sorted_append] at hs
        rw [sorted_append, sorted_cons]
        refine ⟨hs.1, ⟨hr, htr, hs.2.1⟩, ?_⟩
        intro p hp q hq
        rcases List.mem_cons.1 hq with rfl | hq
        · exact hA p hp
        · exact hs.2.2 p hp q hq
      · intro p hp
        simp only [List.mem_append, List.mem_cons] at hp
        rcases hp with hp | hp | hp
        · exact hlab p (by simp [he, hp])
        · subst hp; simp
        · exact hlab p (by simp [he, hp])
    · intro x j
      rw [e, he]
      simp only [has_append, has_cons, List.mem_singleton]
      constructor
      · rintro (h | h | h)
        · exact .inl (.inl h)
        · exact .inr h
        · exact .inl (.inr h)
      · rintro ((h | h) | h)
        · exact .inl h
        · exact .inr (.inr h)
        · exact .inr (.inl h)
  cases t with
  | nil =>
    apply hnew (by simp)
    simp [addRange, hst]
  | cons qv t =>
    obtain ⟨q, v⟩ := qv
    have hs' := hs
    rw [he] at hs'
    obtain ⟨ha, hb⟩ := lo_lt_of_sorted hs'
    have hst' := (sorted_append.1 hs').2.1
    rw [sorted_cons] at hst'
    obtain ⟨hq, hqt, hst2⟩ := hst'
    simp only at hq hqt
    have hqhi : r.lo < q.hi := ht (q, v) (by simp)
    have hb1 : (start sets r).bind (mget sets) = some (q, v) := by
      rw [hst]; simp only [List.head?_cons, Option.map_some, Option.bind_some]
      rw [he]; exact mget_mid ha
    by_cases hov : q.overlaps r = true
    · by_cases heq : q = r
      · subst heq
        have e : upsert sets q i = A ++ (q, insertId v i) :: t := by
          rw [he]; exact upsert_old hAlo
        refine ⟨upsert sets q i, ?_, ?_, ?_⟩
        · simp only [addRange, hb1]
          simp
        · rw [e]
          refine ⟨sorted_relabel hs', ?_⟩
          intro p hp
          simp only [List.mem_append, List.mem_cons] at hp
          rcases hp with hp | hp | hp
          · exact hlab p (by simp [he, hp])
          · subst hp; exact insertId_ne_nil _ _
          · exact hlab p (by simp [he, hp])
        · intro x j
          rw [e, he]
          simp only [has_append, has_cons, mem_insertId]
          constructor
          · rintro (h | h | h)
            · exact .inl (.inl h)
            · rcases h.2 with h' | h'
              · exact .inr ⟨h.1, h'⟩
              · exact .inl (.inr (.inl ⟨h.1, h'⟩))
            · exact .inl (.inr (.inr h))
          · rintro ((h | h | h) | h)
            · exact .inl h
            · exact .inr (.inl ⟨h.1, .inr h.2⟩)
            · exact .inr (.inr h)
            · exact .inr (.inl ⟨h.1, .inl h.2⟩)
      · have hcond : (!q.overlaps r || decide (q = r)) = false := by simp [hov, heq]
        have hlen : ((q, v) :: t).length ≤ sets.length := by rw [he]; simp
        obtain ⟨out, ho, hso, hl, hh⟩ := loop_spec i (2 * sets.length + 5) A ((q, v) :: t) r hs' hA ht (by omega)
          (by
            rcases hsafe with h | h | ⟨p, hp, h1, h2⟩
            · have := h (q, v) (by simp [he])
              simp only at this
              rw [hov] at this; cases this
            · exact .inl (fun p hp => h p (by simp only [he, List.mem_append]; exact .inr hp))
            · rw [he] at hp
              rcases List.mem_append.1 hp with hp | hp
              · have := hA p hp; omega
              · exact .inr (.inl ⟨p, hp, h1, h2⟩))
          (by intro _; split <;> omega) (by omega)
        refine ⟨out, ?_, ⟨hso, hl (by rw [← he]; exact hlab)⟩, ?_⟩
        · simp only [addRange, hb1, hcond]
          rw [← ho, he]; simp
        · intro x j; rw [hh, he]
    · simp only [Bool.not_eq_true] at hov
      apply hnew
      · rw [overlaps_false] at hov
        intro p hp
        rcases List.mem_cons.1 hp with rfl | hp
        · simp only; omega
        · have := hqt p hp; omega
      · simp [addRange, hb1, hov]

/-- Adding a range is safe after the ranges `earlier`: it meets none of them, or none of them starts after its
end, or its end is inside (or at the edge of) one of them. -/
def GapSafe (earlier : List Range) (r : Range) : Prop :=
  (∀ t ∈ earlier, ∀ x, t.Mem x → ¬ r.Mem x) ∨ (∀ t ∈ earlier, t.lo ≤ r.hi) ∨
  (∃ t ∈ earlier, t.lo ≤ r.hi ∧ r.hi ≤ t.hi)

/-- `GapSafe` for each range of a sequence, against the ones before it. -/
def SafeOrder : List Range → List Range → Prop
  | _, [] => True
  | earlier, r :: rest => GapSafe earlier r ∧ SafeOrder (r :: earlier) rest

/-- All ranges of a symbol map in the order `deduplicate` visits them. -/
def visited (ids : List (SymSet × Nat)) : List (Range × Nat) := ids.flatMap (fun p => p.1.map (fun r => (r, p.2)))

theorem safeIn_of_gapSafe {sets : SetsForRange} {done : List (Range × Nat)} {r : Range} (h : Good sets)
    (hr : r.lo < r.hi) (hd : ∀ e ∈ done, e.1.lo < e.1.hi)
    (hh : ∀ x j, Has sets x j ↔ ∃ e ∈ done, e.1.Mem x ∧ e.2 = j) (hg : GapSafe (done.map (·.1)) r) :
    SafeIn sets r := by
  -- coverage of a symbol
  have cov1 : ∀ p ∈ sets, ∀ x, p.1.Mem x → ∃ e ∈ done, e.1.Mem x := by
    intro p hp x hx
    obtain ⟨j, hj⟩ := List.exists_mem_of_ne_nil _ (h.2 p hp)
    obtain ⟨e, he, hex, _⟩ := (hh x j).1 ⟨p, hp, hx, hj⟩
    exact ⟨e, he, hex⟩
  have cov2 : ∀ e ∈ done, ∀ x, e.1.Mem x → ∃ p ∈ sets, p.1.Mem x := by
    intro e he x hx
    obtain ⟨p, hp, hpx, _⟩ := (hh x e.2).2 ⟨e, he, hx, rfl⟩
    exact ⟨p, hp, hpx⟩
  by_cases hc : ∃ e ∈ done, e.1.lo ≤ r.hi ∧ r.hi ≤ e.1.hi
  · obtain ⟨e, he, h1, h2⟩ := hc
    have h3 := hd e he
    by_cases h4 : r.hi < e.1.hi
    · obtain ⟨p, hp, hpx⟩ := cov2 e he r.hi ⟨h1, h4⟩
      exact .inr (.inr ⟨p, hp, hpx.1, by have := hpx.2; omega⟩)
    · obtain ⟨p, hp, hpx⟩ := cov2 e he (r.hi - 1) ⟨by omega, by omega⟩
      have := hpx.1; have := hpx.2
      exact .inr (.inr ⟨p, hp, by omega, by omega⟩)
  · rcases hg with hg | hg | ⟨t, ht, h1, h2⟩
    · left
      intro p hp
      rw [overlaps_false]
      have hp1 := h.1.2 p hp
      rcases Int.lt_or_le p.1.lo r.hi with h1 | h1
      · rcases Int.lt_or_le r.lo p.1.hi with h2 | h2
        · exfalso
          have hm : p.1.Mem (max p.1.lo r.lo) := ⟨by omega, by omega⟩
          obtain ⟨e, he, hex⟩ := cov1 p hp _ hm
          exact hg e.1 (List.mem_map_of_mem he) _ hex ⟨by omega, by omega⟩
        · exact .inr h2
      · exact .inl h1
    · right; left
      intro p hp
      have hp1 := h.1.2 p hp
      obtain ⟨e, he, hex⟩ := cov1 p hp p.1.lo ⟨by omega, hp1⟩
      have h1 := hg e.1 (List.mem_map_of_mem he)
      have h2 := hex.1; have h3 := hex.2
      rcases Int.lt_or_le r.hi p.1.lo with h4 | h4
      · exact absurd ⟨e, he, h1, by omega⟩ hc
      · exact h4
    · obtain ⟨e, he, rfl⟩ := List.mem_map.1 ht
      exact absurd ⟨e, he, h1, h2⟩ hc

theorem collect_eq (m : SymbolMap) : collect m = (visited m.ids).foldlM (fun s e => addRange s e.1 e.2) [] := by
  have h : ∀ (ids : List (SymSet × Nat)) (s : SetsForRange),
      ids.foldlM (fun sets p => addSet sets p.1 p.2) s = (visited ids).foldlM (fun s e => addRange s e.1 e.2) s := by
    intro ids
    induction ids with
    | nil => intro s; rfl
    | cons p t ih =>
      intro s
      have hv : visited (p :: t) = p.1.map (fun r => (r, p.2)) ++ visited t := rfl
      rw [hv, List.foldlM_append, List.foldlM_cons, addSet, List.foldlM_map]
      congr 1
      funext s'
      exact ih s'
  exact h m.ids []

theorem fold_spec : ∀ (rest done : List (Range × Nat)) (sets : SetsForRange), Good sets →
    (∀ e ∈ done, e.1.lo < e.1.hi) → (∀ e ∈ rest, e.1.lo < e.1.hi) →
    (∀ x j, Has sets x j ↔ ∃ e ∈ done, e.1.Mem x ∧ e.2 = j) →
    SafeOrder (done.map (·.1)) (rest.map (·.1)) →
    ∃ out, rest.foldlM (fun s e => addRange s e.1 e.2) sets = some out ∧ Good out ∧
      ∀ x j, Has out x j ↔ (∃ e ∈ done, e.1.Mem x ∧ e.2 = j) ∨ ∃ e ∈ rest, e.1.Mem x ∧ e.2 = j := by
  intro rest
  induction rest with
  | nil => intro done sets hg _ _ hh _; exact ⟨sets, rfl, hg, fun x j => by simp [hh]⟩
  | cons e rest ih =>
    intro done sets hg hd hrest hh hsafe
    obtain ⟨hs1, hs2⟩ := hsafe
    have he := hrest e (by simp)
    obtain ⟨out, ho, hgo, hho⟩ := addRange_spec sets e.1 e.2 hg he (safeIn_of_gapSafe hg he hd hh hs1)
    obtain ⟨out2, ho2, hg2, hh2⟩ := ih (e :: done) out hgo
      (by intro a ha; rcases List.mem_cons.1 ha with rfl | ha; exact he; exact hd a ha)
      (fun a ha => hrest a (by simp [ha]))
      (by
        intro x j
        rw [hho, hh]
        simp only [List.mem_cons, exists_eq_or_imp]
        constructor
        · rintro (h | h)
          · exact .inr h
          · exact .inl ⟨h.1, h.2.symm⟩
        · rintro (h | h)
          · exact .inr ⟨h.1, h.2.symm⟩
          · exact .inl h)
      hs2
    refine ⟨out2, by rw [List.foldlM_cons, ho]; exact ho2, hg2, fun x j => ?_⟩
    rw [hh2]
    simp only [List.mem_cons, exists_eq_or_imp]
    constructor
    · rintro ((h | h) | h)
      · exact .inr (.inl h)
      · exact .inl h
      · exact .inr (.inr h)
    · rintro (h | h | h)
      · exact .inl (.inr h)
      · exact .inl (.inl h)
      · exact .inr h

theorem mem_visited {ids : List (SymSet × Nat)} {e : Range × Nat} :
    e ∈ visited ids ↔ ∃ s, (s, e.2) ∈ ids ∧ e.1 ∈ s := by
  obtain ⟨r, i⟩ := e
  simp only [visited, List.mem_flatMap, List.mem_map, Prod.mk.injEq]
  constructor
  · rintro ⟨⟨s, j⟩, h1, r', h2, rfl, rfl⟩
    exact ⟨s, h1, h2⟩
  · rintro ⟨s, h1, h2⟩
    exact ⟨(s, i), h1, r, h2, rfl, rfl⟩

theorem collect_spec (m : SymbolMap) (hne : ∀ s ∈ m.ids.map (·.1), SymSet.Canon s)
    (hsafe : SafeOrder [] ((visited m.ids).map (·.1))) :
    ∃ out, collect m = some out ∧ Good out ∧
      ∀ x j, Has out x j ↔ ∃ s, (s, j) ∈ m.ids ∧ SymSet.Mem x s := by
  obtain ⟨out, ho, hg, hh⟩ := fold_spec (visited m.ids) [] [] ⟨sorted_nil, by simp⟩ (by simp)
    (by
      intro e he
      obtain ⟨s, h1, h2⟩ := mem_visited.1 he
      exact (hne s (List.mem_map_of_mem h1)).2 _ h2)
    (by intro x j; simp [Has]) hsafe
  refine ⟨out, by rw [collect_eq]; exact ho, hg, fun x j => ?_⟩
  rw [hh]
  simp only [List.not_mem_nil, false_and, exists_false, false_or]
  constructor
  · rintro ⟨e, he, hx, rfl⟩
    obtain ⟨s, h1, h2⟩ := mem_visited.1 he
    exact ⟨s, h1, e.1, h2, hx⟩
  · rintro ⟨s, h1, r, h2, hx⟩
    exact ⟨(r, j), mem_visited.2 ⟨s, h1, h2⟩, hx, rfl⟩

/-! combine -/

structure CombineInv (L : SetsForRange) (acc : List (List Nat × SymSet)) : Prop where
  nodup : (acc.map (·.1)).Nodup
  canon : ∀ p ∈ acc, SymSet.Canon p.2
  mem : ∀ p ∈ acc, ∀ x, SymSet.Mem x p.2 ↔ ∃ e ∈ L, e.2 = p.1 ∧ e.1.Mem x
  ne : ∀ p ∈ acc, p.2 ≠ []
  all : ∀ e ∈ L, ∃ p ∈ acc, p.1 = e.2

theorem addKey_keys (acc : List (List Nat × SymSet)) (k : List Nat) (r : Range) :
    (addKey acc k r).map (·.1) = if k ∈ acc.map (·.1) then acc.map (·.1) else acc.map (·.1) ++ [k] := by
  induction acc with
  | nil => simp [addKey]
  | cons p t ih =>
    obtain ⟨k', s⟩ := p
    simp only [addKey]
    split
    · rename_i h; subst h; simp
    · rename_i h
      simp only [List.map_cons, ih, List.mem_cons]
      by_cases h2 : k ∈ t.map (·.1)
      · simp only [h2, if_true, or_true]
      · have h3 : ¬ (k = k' ∨ k ∈ t.map (·.1)) := by
          rintro (h4 | h4)
          · exact h h4.symm
          · exact h2 h4
        rw [if_neg h2, if_neg h3, List.cons_append]

theorem mem_addKey {acc : List (List Nat × SymSet)} {k : List Nat} {r : Range} {p : List Nat × SymSet}
    (hn : (acc.map (·.1)).Nodup) :
    p ∈ addKey acc k r ↔ (p.1 ≠ k ∧ p ∈ acc) ∨
      (p.1 = k ∧ ((∃ s, (k, s) ∈ acc ∧ p.2 = SymSet.unionRange s r) ∨
        (k ∉ acc.map (·.1) ∧ p.2 = SymSet.unionRange [] r))) := by
  induction acc with
  | nil =>
    obtain ⟨a, b⟩ := p
    simp [addKey]
  | cons q t ih =>
    obtain ⟨k', s⟩ := q
    obtain ⟨a, b⟩ := p
    simp only [List.map_cons, List.nodup_cons] at hn
    have ih := ih hn.2
    simp only [addKey]
    by_cases h : k' = k
    · subst h
      simp only [if_true, List.mem_cons, Prod.mk.injEq]
      constructor
      · rintro (⟨rfl, rfl⟩ | h)
        · exact .inr ⟨rfl, .inl ⟨s, .inl ⟨trivial, rfl⟩, rfl⟩⟩
        · left
          refine ⟨?_, .inr h⟩
          rintro rfl
          exact hn.1 (List.mem_map_of_mem h)
      · rintro (⟨h1, h2 | h2⟩ | ⟨h1, ⟨s', h2 | h2, h3⟩ | ⟨h2, h3⟩⟩)
        · exact absurd h2.1 h1
        · exact .inr h2
        · exact .inl ⟨h1, by rw [h3, h2.2]⟩
        · exact absurd (List.mem_map_of_mem h2) hn.1
        · simp at h2
    · simp only [if_neg h, List.mem_cons, ih, Prod.mk.injEq, List.map_cons]
      constructor
      · rintro (⟨rfl, rfl⟩ | ⟨h1, h2⟩ | ⟨h1, ⟨s', h2, h3⟩ | ⟨h2, h3⟩⟩)
        · exact .inl ⟨h, .inl ⟨rfl, rfl⟩⟩
        · exact .inl ⟨h1, .inr h2⟩
        · exact .inr ⟨h1, .inl ⟨s', .inr h2, h3⟩⟩
        · refine .inr ⟨h1, .inr ⟨?_, h3⟩⟩
          rintro (h4 | h4)
          · exact h h4.symm
          · exact h2 h4
      · rintro (⟨h1, h2 | h2⟩ | ⟨h1, ⟨s', h2 | h2, h3⟩ | ⟨h2, h3⟩⟩)
        · exact .inl h2
        · exact .inr (.inl ⟨h1, h2⟩)
        · exact absurd h2.1.symm h
        · exact .inr (.inr ⟨h1, .inl ⟨s', h2, h3⟩⟩)
        · exact .inr (.inr ⟨h1, .inr ⟨fun h4 => h2 (.inr h4), h3⟩⟩)

theorem ne_nil_of_mem {s : SymSet} {x : Int} (h : SymSet.Mem x s) : s ≠ [] := by
  rintro rfl
  obtain ⟨r, h, _⟩ := h
  simp at h

theorem combine_step {L : SetsForRange} {acc : List (List Nat × SymSet)} (h : CombineInv L acc) (e : Range × List Nat)
    (he : e.1.lo < e.1.hi) : CombineInv (L ++ [e]) (addKey acc e.2 e.1) := by
  have hx : ∀ p ∈ addKey acc e.2 e.1, SymSet.Canon p.2 ∧
      ∀ x, SymSet.Mem x p.2 ↔ ∃ e' ∈ L ++ [e], e'.2 = p.1 ∧ e'.1.Mem x := by
    intro p hp
    rw [mem_addKey h.nodup] at hp
    rcases hp with ⟨h1, h2⟩ | ⟨h1, ⟨s, h2, h3⟩ | ⟨h2, h3⟩⟩
    · refine ⟨h.canon p h2, fun x => ?_⟩
      rw [h.mem p h2]
      constructor
      · rintro ⟨e', h3, h4⟩; exact ⟨e', by simp [h3], h4⟩
      · rintro ⟨e', h3, h4⟩
        simp only [List.mem_append, List.mem_singleton] at h3
        rcases h3 with h3 | rfl
        · exact ⟨e', h3, h4⟩
        · exact absurd h4.1.symm h1
    · have hu := SymSet.unionRange_spec s e.1 (h.canon _ h2) he
      rw [h3]
      refine ⟨hu.1, fun x => ?_⟩
      rw [hu.2, h.mem _ h2, h1]
      constructor
      · rintro (⟨e', h3, h4⟩ | h3)
        · exact ⟨e', by simp [h3], h4⟩
        · exact ⟨e, by simp, rfl, h3⟩
      · rintro ⟨e', h3, h4⟩
        simp only [List.mem_append, List.mem_singleton] at h3
        rcases h3 with h3 | rfl
        · exact .inl ⟨e', h3, h4⟩
        · exact .inr h4.2
    · have hu := SymSet.unionRange_spec [] e.1 SymSet.canon_nil he
      rw [h3]
      refine ⟨hu.1, fun x => ?_⟩
      rw [hu.2, h1]
      constructor
      · rintro (h3 | h3)
        · exact absurd rfl (ne_nil_of_mem h3)
        · exact ⟨e, by simp, rfl, h3⟩
      · rintro ⟨e', h3, h4⟩
        simp only [List.mem_append, List.mem_singleton] at h3
        rcases h3 with h3 | rfl
        · obtain ⟨p', h5, h6⟩ := h.all e' h3
          exact absurd (by rw [← h4.1, ← h6]; exact List.mem_map_of_mem h5) h2
        · exact .inr h4.2
  have hk := addKey_keys acc e.2 e.1
  have hall : ∀ e' ∈ L ++ [e], ∃ p ∈ addKey acc e.2 e.1, p.1 = e'.2 := by
    intro e' he'
    have : e'.2 ∈ (addKey acc e.2 e.1).map (·.1) := by
      rw [hk]
      simp only [List.mem_append, List.mem_singleton] at he'
      rcases he' with he' | rfl
      · obtain ⟨p', h5, h6⟩ := h.all e' he'
        have : e'.2 ∈ acc.map (·.1) := by rw [← h6]; exact List.mem_map_of_mem h5
        split <;> simp [this]
      · split
        · assumption
        · simp
    obtain ⟨p, hp, hpe⟩ := List.mem_map.1 this
    exact ⟨p, hp, hpe⟩
  refine ⟨?_, fun p hp => (hx p hp).1, fun p hp => (hx p hp).2, ?_, hall⟩
  · rw [hk]
    split
    · exact h.nodup
    · rename_i hc
      rw [List.nodup_append]
      refine ⟨h.nodup, by simp, ?_⟩
      intro a ha b hb
      simp only [List.mem_singleton] at hb
      subst hb
      rintro rfl
      exact hc ha
  · intro p hp hpn
    rw [mem_addKey h.nodup] at hp
    rcases hp with ⟨h1, h2⟩ | ⟨h1, ⟨s, h2, h3⟩ | ⟨h2, h3⟩⟩
    · exact h.ne p h2 hpn
    · have hu := SymSet.unionRange_spec s e.1 (h.canon _ h2) he
      exact ne_nil_of_mem ((hu.2 e.1.lo).2 (.inr ⟨by omega, he⟩)) (by rw [← h3]; exact hpn)
    · have hu := SymSet.unionRange_spec [] e.1 SymSet.canon_nil he
      exact ne_nil_of_mem ((hu.2 e.1.lo).2 (.inr ⟨by omega, he⟩)) (by rw [← h3]; exact hpn)

theorem combine_spec (sets : SetsForRange) (h : ∀ e ∈ sets, e.1.lo < e.1.hi) : CombineInv sets (combine sets) := by
  have : ∀ (rest L : SetsForRange) (acc : List (List Nat × SymSet)), CombineInv L acc →
      (∀ e ∈ rest, e.1.lo < e.1.hi) →
      CombineInv (L ++ rest) (rest.foldl (fun acc p => addKey acc p.2 p.1) acc) := by
    intro rest
    induction rest with
    | nil => intro L acc h _; simpa using h
    | cons e rest ih =>
      intro L acc h hr
      have := ih (L ++ [e]) _ (combine_step h e (hr e (by simp))) (fun a ha => hr a (by simp [ha]))
      simpa using this
  have := this sets [] [] ⟨by simp, by simp, by simp, by simp, by simp⟩ h
  simpa [combine] using this

end Dedup

namespace RemappedMap

def idsFor (l : List (Nat × List Nat)) (o : Nat) : List Nat :=
  match l.find? (fun p => p.1 == o) with
  | some p => p.2
  | none => []

theorem mem_addOld (l : List (Nat × List Nat)) (o n o' n' : Nat) :
    n' ∈ idsFor (addOld l o n) o' ↔ n' ∈ idsFor l o' ∨ (o' = o ∧ n' = n) := by
  induction l with
  | nil =>
    by_cases h : o' = o
    · subst h; simp [idsFor, addOld]
    · simp [idsFor, addOld, h, Ne.symm h]
  | cons p t ih =>
    obtain ⟨q, v⟩ := p
    by_cases h : q = o
    · subst h
      by_cases h2 : q = o'
      · subst h2
        simp [idsFor, addOld, mem_insertId]
        constructor
        · rintro (h | h) <;> simp [h]
        · rintro (h | h) <;> simp [h]
      · simp [idsFor, addOld, h2, Ne.symm h2]
    · by_cases h2 : q = o'
      · subst h2
        simp [idsFor, addOld, h]
      · simp only [addOld, if_neg h, idsFor, List.find?_cons, beq_eq_false_iff_ne.2 h2]
        exact ih

theorem mem_foldOld (olds : List Nat) (l : List (Nat × List Nat)) (n o' n' : Nat) :
    n' ∈ idsFor (olds.foldl (fun acc o => addOld acc o n) l) o' ↔ n' ∈ idsFor l o' ∨ (o' ∈ olds ∧ n' = n) := by
  induction olds generalizing l with
  | nil => simp
  | cons o t ih =>
    simp only [List.foldl_cons, ih, mem_addOld, List.mem_cons]
    constructor
    · rintro ((h | h) | h)
      · exact .inl h
      · exact .inr ⟨.inl h.1, h.2⟩
      · exact .inr ⟨.inr h.1, h.2⟩
    · rintro (h | ⟨h | h, h2⟩)
      · exact .inl (.inl h)
      · exact .inl (.inr ⟨h, h2⟩)
      · exact .inr ⟨h, h2⟩

/-- `m` was filled by registering the pairs in `R`. -/
structure FillInv (R : List (List Nat × SymSet)) (m : RemappedMap) : Prop where
  inv : m.map.Inv
  syms : ∀ s, s ∈ m.map.syms ↔ ∃ p ∈ R, p.2 = s
  news : ∀ o n, n ∈ m.newSymbols o ↔ ∃ p ∈ R, o ∈ p.1 ∧ m.map.syms[n]? = some p.2

theorem fill_step {R : List (List Nat × SymSet)} {m : RemappedMap} (h : FillInv R m) (p : List Nat × SymSet) :
    FillInv (R ++ [p]) (m.identifierFor p.2 p.1) := by
  obtain ⟨h1, h2, ⟨l, h3, _⟩, h4⟩ := SymbolMap.identifierFor_spec m.map p.2 h.inv
  have hpre : ∀ (n : Nat) (s : SymSet), m.map.syms[n]? = some s →
      (m.map.identifierFor p.2).1.syms[n]? = some s := by
    intro n s hn
    rw [h3, List.getElem?_append_left]
    · exact hn
    · exact (List.getElem?_eq_some_iff.1 hn).1
  refine ⟨h1, fun s => ?_, fun o n => ?_⟩
  · simp only [identifierFor, List.mem_append, List.mem_singleton]
    rcases h4 with h4 | ⟨h4, _, _⟩
    · have hs : p.2 ∈ m.map.syms := by
        rw [h4] at h2; exact List.mem_of_getElem? h2
      rw [h4, h.syms]
      constructor
      · rintro ⟨q, hq, e⟩; exact ⟨q, .inl hq, e⟩
      · rintro ⟨q, hq | rfl, e⟩
        · exact ⟨q, hq, e⟩
        · exact (h.syms s).1 (e ▸ hs)
    · rw [h4]
      simp only [List.mem_append, List.mem_singleton, h.syms]
      constructor
      · rintro (⟨q, hq, e⟩ | e)
        · exact ⟨q, .inl hq, e⟩
        · exact ⟨p, .inr rfl, e.symm⟩
      · rintro ⟨q, hq | rfl, e⟩
        · exact .inl ⟨q, hq, e⟩
        · exact .inr e.symm
  · have e1 : (m.identifierFor p.2 p.1).newSymbols o =
        idsFor (p.1.foldl (fun acc o => addOld acc o (m.map.identifierFor p.2).2) m.oldToNew) o := rfl
    have e2 : m.newSymbols o = idsFor m.oldToNew o := rfl
    rw [e1, mem_foldOld, ← e2, h.news]
    simp only [identifierFor, List.mem_append, List.mem_singleton]
    constructor
    · rintro (⟨q, hq, ho, hn⟩ | ⟨ho, hn⟩)
      · exact ⟨q, .inl hq, ho, hpre n _ hn⟩
      · subst hn; exact ⟨p, .inr rfl, ho, h2⟩
    · rintro ⟨q, hq | rfl, ho, hn⟩
      · left
        refine ⟨q, hq, ho, ?_⟩
        have hq2 : q.2 ∈ m.map.syms := (h.syms _).2 ⟨q, hq, rfl⟩
        obtain ⟨k, hk, hke⟩ := List.mem_iff_getElem.1 hq2
        have hk' : m.map.syms[k]? = some q.2 := by rw [List.getElem?_eq_getElem hk, hke]
        have := SymbolMap.syms_inj _ h1 hn (hpre k _ hk')
        rw [this]; exact hk'
      · exact .inr ⟨ho, SymbolMap.syms_inj _ h1 hn h2⟩

theorem fill_fold (rest R : List (List Nat × SymSet)) (m : RemappedMap) (h : FillInv R m) :
    FillInv (R ++ rest) (rest.foldl (fun acc p => acc.identifierFor p.2 p.1) m) := by
  induction rest generalizing R m with
  | nil => simpa using h
  | cons p t ih =>
    have := ih (R ++ [p]) _ (fill_step h p)
    simpa using this

theorem fill_empty : FillInv [] empty := by
  refine ⟨SymbolMap.inv_empty, by simp [empty, SymbolMap.empty], by simp [empty, newSymbols]⟩

end RemappedMap
end TameParse

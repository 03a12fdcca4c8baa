import Verif.UnicodeData
import Verif.UtilProps
import Verif.RegexSyntax
import Verif.CaseProps
import Mathlib.Data.List.Infix
/-
C92: the characters of Unicode names and the tables for upper and lower case, from the file of the Unicode consortium to the expression.
-/
namespace TameParse
namespace UnicodeData
open Regex

/-! ### The ranges -/

def InRanges (rs : List (Nat × Nat)) (x : Nat) : Prop := ∃ r ∈ rs, r.1 ≤ x ∧ x ≤ r.2

theorem addRange_spec {rs : List (Nat × Nat)} (h : ∀ r ∈ rs, r.1 ≤ r.2) (x : Nat) :
    (∀ r ∈ addRange rs x, r.1 ≤ r.2) ∧ ∀ y, InRanges (addRange rs x) y ↔ InRanges rs y ∨ y = x := by
  unfold addRange
  rcases List.eq_nil_or_concat rs with rfl | ⟨init, r, rfl⟩
  · refine ⟨by simp, fun y => ?_⟩
    simp [InRanges]
    omega
  · simp only [List.concat_eq_append] at h ⊢
    rw [List.getLast?_concat]
    dsimp only
    have hr : r.1 ≤ r.2 := h r (by simp)
    split
    · rename_i hx
      rw [List.dropLast_concat]
      constructor
      · intro r' hr'
        rcases List.mem_append.1 hr' with hr' | hr'
        · exact h r' (by simp [hr'])
        · rw [List.mem_singleton] at hr'
          subst hr'
          exact show r.1 ≤ x by omega
      · intro y
        simp only [InRanges, List.mem_append, List.mem_singleton, or_and_right, exists_or, exists_eq_left]
        constructor
        · rintro (h1 | h1)
          · exact .inl (.inl h1)
          · by_cases hy : y = x
            · exact .inr hy
            · exact .inl (.inr (by omega))
        · rintro ((h1 | h1) | h1)
          · exact .inl h1
          · exact .inr (by omega)
          · exact .inr (by omega)
    · constructor
      · intro r' hr'
        rcases List.mem_append.1 hr' with hr' | hr'
        · exact h r' hr'
        · rw [List.mem_singleton] at hr'
          subst hr'
          exact Nat.le_refl _
      · intro y
        simp only [InRanges, List.mem_append, List.mem_singleton, or_and_right, exists_or, exists_eq_left]
        constructor
        · rintro (h1 | h1)
          · exact .inl h1
          · exact .inr (by omega)
        · rintro (h1 | h1)
          · exact .inl h1
          · exact .inr (by omega)

abbrev Types : Type := List ((Int × Int) × List (Nat × Nat))

def Types.Proper (m : Types) : Prop := ∀ e ∈ m, ∀ r ∈ e.2, r.1 ≤ r.2

def Types.In (m : Types) (t : Int × Int) (x : Nat) : Prop := ∃ e ∈ m, e.1 = t ∧ InRanges e.2 x

theorem addType_spec {m : Types} (h : m.Proper) (t : Int × Int) (x : Nat) :
    Types.Proper (addType m t x) ∧ ∀ t' y, Types.In (addType m t x) t' y ↔ m.In t' y ∨ (t' = t ∧ y = x) := by
  induction m with
  | nil =>
    have := addRange_spec (rs := []) (by simp) x
    constructor
    · intro e he
      rw [addType, List.mem_singleton] at he
      subst he
      exact this.1
    · intro t' y
      simp only [Types.In, addType, List.mem_singleton, exists_eq_left, this.2, List.not_mem_nil, false_and, exists_false, false_or]
      have : ¬ InRanges [] y := by simp [InRanges]
      constructor
      · rintro ⟨rfl, h | h⟩
        · exact absurd h this
        · exact ⟨rfl, h⟩
      · rintro ⟨rfl, h⟩
        exact ⟨rfl, .inr h⟩
  | cons e m ih =>
    have hm : Types.Proper m := fun e' he' => h e' (by simp [he'])
    have he : ∀ r ∈ e.2, r.1 ≤ r.2 := h e (by simp)
    rw [addType]
    split
    · rename_i ht
      have := addRange_spec he x
      constructor
      · intro e' he'
        rcases List.mem_cons.1 he' with rfl | he'
        · exact this.1
        · exact hm e' he'
      · intro t' y
        simp only [Types.In, List.mem_cons, or_and_right, exists_or, exists_eq_left, this.2]
        constructor
        · rintro (⟨h1, h2 | h2⟩ | h1)
          · exact .inl (.inl ⟨h1, h2⟩)
          · exact .inr ⟨by rw [← h1, ht], h2⟩
          · exact .inl (.inr h1)
        · rintro ((⟨h1, h2⟩ | h1) | ⟨h1, h2⟩)
          · exact .inl ⟨h1, .inl h2⟩
          · exact .inr h1
          · exact .inl ⟨by rw [h1, ht], .inr h2⟩
    · obtain ⟨i1, i2⟩ := ih hm
      constructor
      · intro e' he'
        rcases List.mem_cons.1 he' with rfl | he'
        · exact he
        · exact i1 e' he'
      · intro t' y
        have := i2 t' y
        simp only [Types.In] at this
        simp only [Types.In, List.mem_cons, or_and_right, exists_or, exists_eq_left, this]
        exact or_assoc.symm

theorem ranges_spec (lines : List Line) :
    Types.Proper (ranges lines) ∧ ∀ t x, Types.In (ranges lines) t x ↔ ∃ l ∈ lines, l.type = t ∧ l.code = x := by
  induction lines using List.reverseRecOn with
  | nil => exact ⟨by simp [ranges, Types.Proper], by simp [ranges, Types.In]⟩
  | append_singleton lines l ih =>
    have := addType_spec ih.1 l.type l.code
    have hr : ranges (lines ++ [l]) = addType (ranges lines) l.type l.code := by simp [ranges]
    rw [hr]
    refine ⟨this.1, fun t x => ?_⟩
    rw [this.2, ih.2]
    simp only [List.mem_append, List.mem_singleton, or_and_right, exists_or, exists_eq_left]
    constructor
    · rintro (h | ⟨rfl, rfl⟩)
      · exact .inl h
      · exact .inr ⟨rfl, rfl⟩
    · rintro (h | ⟨h1, h2⟩)
      · exact .inl h
      · exact .inr ⟨h1.symm, h2.symm⟩

/-! ### The set of a category -/

theorem foldl_ranges {rs : List Range} (h : ∀ r ∈ rs, r.lo < r.hi) {s : SymSet} (hs : SymSet.Canon s) :
    SymSet.Canon (rs.foldl SymSet.unionRange s) ∧ ∀ x, SymSet.Mem x (rs.foldl SymSet.unionRange s) ↔ SymSet.Mem x s ∨ ∃ r ∈ rs, r.Mem x := by
  induction rs generalizing s with
  | nil => exact ⟨hs, by simp⟩
  | cons r rs ih =>
    have h1 := SymSet.unionRange_spec s r hs (h r (by simp))
    have h2 := ih (fun r' hr' => h r' (by simp [hr'])) h1.1
    refine ⟨h2.1, fun x => ?_⟩
    rw [List.foldl_cons, h2.2, h1.2]
    simp only [List.mem_cons, or_and_right, exists_or, exists_eq_left, or_assoc]

theorem categorySet_spec {bs : List Block} (h : ∀ b ∈ bs, ∀ r ∈ b.ranges, r.lo < r.hi) (cat : List Int) :
    SymSet.Canon (categorySet bs cat) ∧ ∀ x, SymSet.Mem x (categorySet bs cat) ↔ ∃ b ∈ bs, matching cat b.type = true ∧ ∃ r ∈ b.ranges, r.Mem x := by
  have key : ∀ (l : List Block) (s : SymSet), (∀ b ∈ l, ∀ r ∈ b.ranges, r.lo < r.hi) → SymSet.Canon s →
      SymSet.Canon (l.foldl (fun s b => if matching cat b.type then b.ranges.foldl SymSet.unionRange s else s) s) ∧
      ∀ x, SymSet.Mem x (l.foldl (fun s b => if matching cat b.type then b.ranges.foldl SymSet.unionRange s else s) s) ↔
        SymSet.Mem x s ∨ ∃ b ∈ l, matching cat b.type = true ∧ ∃ r ∈ b.ranges, r.Mem x := by
    intro l
    induction l with
    | nil => intro s _ hs; exact ⟨hs, by simp⟩
    | cons b l ih =>
      intro s hl hs
      rw [List.foldl_cons]
      by_cases hm : matching cat b.type = true
      · rw [if_pos hm]
        have h1 := foldl_ranges (hl b (by simp)) hs
        have h2 := ih _ (fun b' hb' => hl b' (by simp [hb'])) h1.1
        refine ⟨h2.1, fun x => ?_⟩
        rw [h2.2, h1.2]
        simp only [List.mem_cons, or_and_right, exists_or, exists_eq_left, hm, true_and, or_assoc]
      · rw [if_neg hm]
        have h2 := ih s (fun b' hb' => hl b' (by simp [hb'])) hs
        refine ⟨h2.1, fun x => ?_⟩
        rw [h2.2]
        simp only [List.mem_cons, or_and_right, exists_or, exists_eq_left, hm]
        simp
  have := key bs [] h (by simp [SymSet.Canon])
  refine ⟨this.1, fun x => ?_⟩
  rw [categorySet, this.2]
  simp [SymSet.Mem]

/-! ### What the file says -/

/-- A category of one or two letters is that of a type with two. -/
def Covers (cat : List Int) (t : Int × Int) : Prop := cat = [t.1] ∨ ∃ more, cat = t.1 :: t.2 :: more

/-- The file gives the character this type: on its own line, or between the two lines of a range. -/
def Gives (lines : List Line) (t : Int × Int) (x : Nat) : Prop :=
  (∃ l ∈ lines, l.type = t ∧ l.code = x) ∨
    ∃ a f l b, lines = a ++ f :: l :: b ∧ f.kind = .first ∧ l.kind = .last ∧ f.type = t ∧ f.code < x ∧ x < l.code

theorem covers_iff {cat : List Int} (h : cat ≠ []) (t : Int × Int) : matching cat t = true ↔ Covers cat t := by
  match cat, h with
  | [a], _ => simp [matching, Covers, eq_comm]
  | a :: b :: more, _ =>
    have : matching (a :: b :: more) t = (decide (t.1 = a) && decide (t.2 = b)) := by
      simp [matching]
    rw [this, Bool.and_eq_true, decide_eq_true_eq, decide_eq_true_eq]
    constructor
    · rintro ⟨rfl, rfl⟩
      exact .inr ⟨more, rfl⟩
    · rintro (h | ⟨more', h⟩)
      · simp at h
      · injection h with h1 h2
        injection h2 with h2 h3
        exact ⟨h1.symm, h2.symm⟩

theorem blocks_mem {lines : List Line} {bs : List Block} (h : ∀ b, b ∈ bs ↔ b ∈ blocks lines) (cat : List Int) :
    SymSet.Canon (categorySet bs cat) ∧
      ∀ x, SymSet.Mem x (categorySet bs cat) ↔ ∃ l ∈ lines, matching cat l.type = true ∧ (l.code : Int) = x := by
  obtain ⟨hp, hr⟩ := ranges_spec lines
  have hb : ∀ b, b ∈ bs ↔ ∃ e ∈ ranges lines, (⟨e.1, e.2.map (fun r => ⟨(r.1 : Int), (r.2 : Int) + 1⟩)⟩ : Block) = b := by
    intro b
    rw [h, blocks, List.mem_map]
  have hn : ∀ b ∈ bs, ∀ r ∈ b.ranges, r.lo < r.hi := by
    intro b hb' r hr'
    obtain ⟨e, he, rfl⟩ := (hb b).1 hb'
    obtain ⟨r', hr'', rfl⟩ := List.mem_map.1 hr'
    have := hp e he r' hr''
    show (r'.1 : Int) < (r'.2 : Int) + 1
    omega
  have hs := categorySet_spec hn cat
  refine ⟨hs.1, fun x => ?_⟩
  rw [hs.2]
  constructor
  · rintro ⟨b, hb', hm, r, hr', hx⟩
    obtain ⟨e, he, rfl⟩ := (hb b).1 hb'
    obtain ⟨r', hr'', rfl⟩ := List.mem_map.1 hr'
    have hx1 : (r'.1 : Int) ≤ x ∧ x < (r'.2 : Int) + 1 := hx
    have : Types.In (ranges lines) e.1 x.toNat := ⟨e, he, rfl, r', hr'', by omega, by omega⟩
    obtain ⟨l, hl, h1, h2⟩ := (hr _ _).1 this
    exact ⟨l, hl, by rw [h1]; exact hm, by omega⟩
  · rintro ⟨l, hl, hm, rfl⟩
    obtain ⟨e, he, h1, r, hr', h2, h3⟩ := (hr l.type l.code).2 ⟨l, hl, rfl, rfl⟩
    refine ⟨_, (hb _).2 ⟨e, he, rfl⟩, by rw [h1]; exact hm, _, List.mem_map.2 ⟨r, hr', rfl⟩, ?_⟩
    show (r.1 : Int) ≤ l.code ∧ (l.code : Int) < (r.2 : Int) + 1
    omega

/-- C92, characters: if the file writes no characters as ranges, a category stands for exactly the characters to which the file gives a type of the category,
in whatever order the script writes the blocks. Missing: ranges (`category_violated`). -/
theorem category_partial {lines : List Line} (h1 : ∀ l ∈ lines, l.kind = .single) {bs : List Block} (hb : ∀ b, b ∈ bs ↔ b ∈ blocks lines) {cat : List Int}
    (hc : cat ≠ []) (x : Int) : SymSet.Mem x (categorySet bs cat) ↔ ∃ t y, Covers cat t ∧ Gives lines t y ∧ (y : Int) = x := by
  rw [(blocks_mem hb cat).2]
  constructor
  · rintro ⟨l, hl, hm, rfl⟩
    exact ⟨l.type, l.code, (covers_iff hc _).1 hm, .inl ⟨l, hl, rfl, rfl⟩, rfl⟩
  · rintro ⟨t, y, ht, h | ⟨a, f, l, b, rfl, hf, _⟩, rfl⟩
    · obtain ⟨l, hl, rfl, rfl⟩ := h
      exact ⟨l, hl, (covers_iff hc _).2 ht, rfl⟩
    · have := h1 f (by simp)
      rw [this] at hf
      cases hf

/-- With ranges: the characters on lines of their own, and none of those between the two lines of a range. -/
theorem category_lines {lines : List Line} {bs : List Block} (hb : ∀ b, b ∈ bs ↔ b ∈ blocks lines) {cat : List Int} (hc : cat ≠ []) (x : Int) :
    SymSet.Mem x (categorySet bs cat) ↔ ∃ l ∈ lines, Covers cat l.type ∧ (l.code : Int) = x := by
  rw [(blocks_mem hb cat).2]
  simp only [covers_iff hc]

/-! ### Upper and lower case -/

theorem find_last {ms : List MapEntry} {x : Int} (h : ∀ e ∈ ms, e.upper ≤ x) :
    ms.find? (fun e => decide (e.lower ≤ x) && decide (x < e.upper)) = none := by
  rw [List.find?_eq_none]
  intro e he
  have := h e he
  simp only [Bool.and_eq_true, decide_eq_true_eq]
  omega

theorem addMap_spec {ms : List MapEntry} (h : CaseMap.Sorted ms) {x : Nat} (hx : ∀ e ∈ ms, e.upper ≤ (x : Int)) (y : Nat) :
    CaseMap.Sorted (addMap ms x y) ∧ (∀ e ∈ addMap ms x y, e.upper ≤ (x : Int) + 1) ∧
      ∀ z, CaseMap.fold (addMap ms x y) z = if z = x ∧ y ≠ 0 then (y : Int) else CaseMap.fold ms z := by
  unfold addMap
  split
  · rename_i hy
    refine ⟨h, fun e he => by have := hx e he; omega, fun z => ?_⟩
    rw [if_neg (fun h => h.2 hy)]
  rename_i hy
  rcases List.eq_nil_or_concat ms with rfl | ⟨init, m, rfl⟩
  · refine ⟨⟨by simp, by simp⟩, by simp, fun z => ?_⟩
    simp only [List.getLast?_nil]
    by_cases hz : z = x
    · subst hz
      rw [CaseMap.fold_cons_in (by simp) (by simp), if_pos ⟨rfl, hy⟩]
      simp
    · rw [CaseMap.fold_cons_out (by dsimp only; omega), if_neg (fun h => hz h.1)]
  · simp only [List.concat_eq_append] at h hx ⊢
    rw [List.getLast?_concat]
    dsimp only
    obtain ⟨hp, hn⟩ := h
    rw [List.pairwise_append] at hp
    obtain ⟨hp1, -, hp2⟩ := hp
    have hm : m.lower < m.upper := hn m (by simp)
    have hmx : m.upper ≤ (x : Int) := hx m (by simp)
    have fold_app (e : MapEntry) (z : Int) : CaseMap.fold (init ++ [e]) z =
        match init.find? (fun e => decide (e.lower ≤ z) && decide (z < e.upper)) with
        | some e' => e'.mapTo + (z - e'.lower)
        | none => CaseMap.fold [e] z := by
      unfold CaseMap.fold
      rw [List.find?_append]
      cases init.find? (fun e => decide (e.lower ≤ z) && decide (z < e.upper)) <;> rfl
    split
    · rename_i hc
      obtain ⟨hc1, hc2⟩ := hc
      rw [List.dropLast_concat]
      refine ⟨⟨?_, ?_⟩, ?_, fun z => ?_⟩
      · rw [List.pairwise_append]
        refine ⟨hp1, by simp, ?_⟩
        intro a ha b hb
        rw [List.mem_singleton] at hb
        subst hb
        exact hp2 a ha m (by simp)
      · intro e he
        rcases List.mem_append.1 he with he | he
        · exact hn e (by simp [he])
        · rw [List.mem_singleton] at he
          subst he
          show m.lower < (x : Int) + 1
          omega
      · intro e he
        rcases List.mem_append.1 he with he | he
        · have := hx e (by simp [he])
          omega
        · rw [List.mem_singleton] at he
          subst he
          exact le_refl _
      · rw [fold_app, fold_app]
        by_cases hz : z = x
        · subst hz
          rw [find_last (fun e he => hx e (by simp [he])), if_pos ⟨rfl, hy⟩]
          dsimp only
          rw [CaseMap.fold_cons_in (by dsimp only; omega) (by dsimp only; omega)]
          dsimp only
          omega
        · rw [if_neg (fun h => hz h.1)]
          cases init.find? (fun e => decide (e.lower ≤ z) && decide (z < e.upper)) with
          | some e => rfl
          | none =>
            dsimp only
            by_cases hzm : m.lower ≤ z ∧ z < m.upper
            · rw [CaseMap.fold_cons_in (by exact hzm.1) (by dsimp only; omega), CaseMap.fold_cons_in hzm.1 hzm.2]
            · rw [CaseMap.fold_cons_out (by dsimp only; omega), CaseMap.fold_cons_out hzm]
    · have hx' : ∀ e ∈ init ++ [m], e.upper ≤ (x : Int) := hx
      refine ⟨⟨?_, ?_⟩, ?_, fun z => ?_⟩
      · rw [List.pairwise_append]
        refine ⟨?_, by simp, ?_⟩
        · rw [List.pairwise_append]
          exact ⟨hp1, by simp, hp2⟩
        · intro a ha b hb
          rw [List.mem_singleton] at hb
          subst hb
          exact hx' a ha
      · intro e he
        rcases List.mem_append.1 he with he | he
        · exact hn e he
        · rw [List.mem_singleton] at he
          subst he
          show (x : Int) < (x : Int) + 1
          omega
      · intro e he
        rcases List.mem_append.1 he with he | he
        · have := hx' e he
          omega
        · rw [List.mem_singleton] at he
          subst he
          exact le_refl _
      · by_cases hz : z = x
        · subst hz
          rw [if_pos ⟨rfl, hy⟩]
          unfold CaseMap.fold
          rw [List.find?_append, find_last hx']
          simp
        · rw [if_neg (fun h => hz h.1)]
          unfold CaseMap.fold
          rw [List.find?_append]
          cases (init ++ [m]).find? (fun e => decide (e.lower ≤ z) && decide (z < e.upper)) with
          | some e => rfl
          | none =>
            have : ¬ ((x : Int) ≤ z ∧ z < (x : Int) + 1) := by omega
            simp only [Option.none_or, List.find?_cons, List.find?_nil]
            rw [show (decide ((x : Int) ≤ z) && decide (z < (x : Int) + 1)) = false by
              rw [Bool.and_eq_false_iff, decide_eq_false_iff_not, decide_eq_false_iff_not]; omega]

theorem table_spec (f : Line → Nat) {lines : List Line} (h : lines.Pairwise (fun a b => a.code < b.code)) :
    CaseMap.Sorted (lines.foldl (fun m l => addMap m l.code (f l)) []) ∧
      (∀ e ∈ lines.foldl (fun m l => addMap m l.code (f l)) [], ∃ l ∈ lines, e.upper ≤ (l.code : Int) + 1) ∧
      (∀ l ∈ lines, f l ≠ 0 → CaseMap.fold (lines.foldl (fun m l => addMap m l.code (f l)) []) l.code = f l) ∧
      ∀ z : Int, (∀ l ∈ lines, (l.code : Int) = z → f l = 0) → CaseMap.fold (lines.foldl (fun m l => addMap m l.code (f l)) []) z = z := by
  induction lines using List.reverseRecOn with
  | nil => exact ⟨⟨by simp, by simp⟩, by simp, by simp, fun z _ => rfl⟩
  | append_singleton lines l ih =>
    rw [List.pairwise_append] at h
    obtain ⟨h1, -, h2⟩ := h
    obtain ⟨i1, i2, i3, i4⟩ := ih h1
    rw [List.foldl_append, List.foldl_cons, List.foldl_nil]
    generalize lines.foldl (fun m l => addMap m l.code (f l)) [] = t at *
    have hl : ∀ l' ∈ lines, l'.code < l.code := fun l' h' => h2 l' h' l (by simp)
    have hx : ∀ e ∈ t, e.upper ≤ (l.code : Int) := by
      intro e he
      obtain ⟨l', hl', h'⟩ := i2 e he
      have := hl l' hl'
      omega
    obtain ⟨s1, s2, s3⟩ := addMap_spec i1 hx (f l)
    refine ⟨s1, fun e he => ⟨l, by simp, s2 e he⟩, ?_, ?_⟩
    · intro l' hl' hf
      rcases List.mem_append.1 hl' with hl' | hl'
      · have := hl l' hl'
        rw [s3, if_neg (by omega), i3 l' hl' hf]
      · rw [List.mem_singleton] at hl'
        subst hl'
        rw [s3, if_pos ⟨rfl, hf⟩]
    · intro z hz
      rw [s3, if_neg (fun h => h.2 (hz l (by simp) h.1.symm)), i4 z (fun l' hl' h => hz l' (by simp [hl']) h)]

/-- C92, case: for a file whose lines are in order, the tables are as the conversion needs them (`Sorted`), they map every character with an upper or lower case to
that, and all others to themselves. -/
theorem case_tables {lines : List Line} (h : lines.Pairwise (fun a b => a.code < b.code)) :
    (CaseMap.Sorted (uppers lines) ∧ (∀ l ∈ lines, l.upper ≠ 0 → CaseMap.fold (uppers lines) l.code = l.upper) ∧
        ∀ z : Int, (∀ l ∈ lines, (l.code : Int) = z → l.upper = 0) → CaseMap.fold (uppers lines) z = z) ∧
      CaseMap.Sorted (lowers lines) ∧ (∀ l ∈ lines, l.lower ≠ 0 → CaseMap.fold (lowers lines) l.code = l.lower) ∧
        ∀ z : Int, (∀ l ∈ lines, (l.code : Int) = z → l.lower = 0) → CaseMap.fold (lowers lines) z = z := by
  obtain ⟨a1, -, a2, a3⟩ := table_spec (fun l => l.upper) h
  obtain ⟨b1, -, b2, b3⟩ := table_spec (fun l => l.lower) h
  exact ⟨⟨a1, a2, a3⟩, b1, b2, b3⟩

/-- C92, case: characters are similar for C88 with these tables if they are the same or the file gives one as the upper or lower case of the other. -/
theorem similar_iff {lines : List Line} (h : lines.Pairwise (fun a b => a.code < b.code)) (y x : Int) :
    Similar (lowers lines) (uppers lines) y x ↔
      x = y ∨ ∃ l ∈ lines, (l.code : Int) = y ∧ ((l.lower ≠ 0 ∧ x = l.lower) ∨ (l.upper ≠ 0 ∧ x = l.upper)) := by
  obtain ⟨⟨-, u1, u2⟩, -, l1, l2⟩ := case_tables h
  constructor
  · rintro (h | h | h)
    · exact .inl h
    · by_cases hy : ∀ l ∈ lines, (l.code : Int) = y → l.lower = 0
      · exact .inl (by rw [h, l2 y hy])
      · push Not at hy
        obtain ⟨l, hl, rfl, hn⟩ := hy
        exact .inr ⟨l, hl, rfl, .inl ⟨hn, by rw [h, l1 l hl hn]⟩⟩
    · by_cases hy : ∀ l ∈ lines, (l.code : Int) = y → l.upper = 0
      · exact .inl (by rw [h, u2 y hy])
      · push Not at hy
        obtain ⟨l, hl, rfl, hn⟩ := hy
        exact .inr ⟨l, hl, rfl, .inr ⟨hn, by rw [h, u1 l hl hn]⟩⟩
  · rintro (h | ⟨l, hl, rfl, ⟨hn, h⟩ | ⟨hn, h⟩⟩)
    · exact .inl h
    · exact .inr (.inl (by rw [h, l1 l hl hn]))
    · exact .inr (.inr (by rw [h, u1 l hl hn]))

/-! ### The names -/

theorem matchPrefix_iff {p s r : List Int} : matchPrefix p s = some r ↔ s = p ++ r := by
  unfold matchPrefix
  split
  · rename_i h
    obtain ⟨t, rfl⟩ := List.isPrefixOf_iff_prefix.1 h
    rw [List.drop_left]
    simp [eq_comm]
  · rename_i h
    constructor
    · intro h'; cases h'
    · rintro rfl
      exact absurd (List.isPrefixOf_iff_prefix.2 (List.prefix_append _ _)) h

theorem matchPrefix_none {p s : List Int} : matchPrefix p s = none ↔ ¬ p <+: s := by
  unfold matchPrefix
  split
  · rename_i h
    constructor
    · intro h'; cases h'
    · intro h'; exact absurd (List.isPrefixOf_iff_prefix.1 h) h'
  · rename_i h
    exact ⟨fun _ h' => h (List.isPrefixOf_iff_prefix.2 h'), fun _ => rfl⟩

/-- Neither word begins with the other. -/
def Apart (a b : List Int) : Prop := ¬ a <+: b ∧ ¬ b <+: a

instance (a b : List Int) : Decidable (Apart a b) := inferInstanceAs (Decidable (_ ∧ _))

theorem Apart.not_prefix {a b : List Int} (h : Apart a b) (r : List Int) : ¬ a <+: b ++ r := by
  intro h'
  rcases List.prefix_or_prefix_of_prefix h' (List.prefix_append b r) with h'' | h''
  · exact h.1 h''
  · exact h.2 h''

theorem modify_iff {ms : List (List Int × Int)} (h : ms.Pairwise (fun a b => Apart a.1 b.1)) (hn : ∀ m ∈ ms, m.1 ≠ []) (s ls : List Int) :
    modify ms s = (ls, []) ↔ ∃ sub : List (List Int × Int), sub.Sublist ms ∧ s = sub.flatMap (·.1) ∧ ls = sub.map (·.2) := by
  induction ms generalizing s ls with
  | nil =>
    simp only [modify, Prod.mk.injEq]
    constructor
    · rintro ⟨rfl, rfl⟩
      exact ⟨[], .slnil, rfl, rfl⟩
    · rintro ⟨sub, hs, rfl, rfl⟩
      have : sub = [] := List.sublist_nil.1 hs
      subst this
      exact ⟨rfl, rfl⟩
  | cons m ms ih =>
    rw [List.pairwise_cons] at h
    have ih := ih h.2 (fun m' hm' => hn m' (by simp [hm']))
    constructor
    · intro hm
      rw [modify] at hm
      split at hm
      · rename_i rest hp
        simp only [Prod.mk.injEq] at hm
        obtain ⟨h1, h2⟩ := hm
        obtain ⟨sub, hs, hr, hl⟩ := (ih rest (modify ms rest).1).1 (Prod.ext rfl h2)
        refine ⟨m :: sub, hs.cons_cons m, ?_, ?_⟩
        · rw [matchPrefix_iff.1 hp, hr, List.flatMap_cons]
        · rw [← h1, hl, List.map_cons]
      · obtain ⟨sub, hs, hr, hl⟩ := (ih s ls).1 hm
        exact ⟨sub, hs.cons m, hr, hl⟩
    · rintro ⟨sub, hs, rfl, rfl⟩
      cases hs with
      | cons _ hs =>
        have hp : matchPrefix m.1 (sub.flatMap (·.1)) = none := by
          rw [matchPrefix_none]
          cases sub with
          | nil =>
            intro h'
            exact hn m (by simp) (List.prefix_nil.1 h')
          | cons k sub =>
            have hk : k ∈ ms := hs.subset (by simp)
            rw [List.flatMap_cons]
            exact (h.1 k hk).not_prefix _
        rw [modify, hp]
        exact (ih _ _).2 ⟨sub, hs, rfl, rfl⟩
      | cons_cons _ hs =>
        rename_i sub
        have hp : matchPrefix m.1 ((m :: sub).flatMap (·.1)) = some (sub.flatMap (·.1)) := matchPrefix_iff.2 (by rw [List.flatMap_cons])
        have := (ih _ _).2 ⟨sub, hs, rfl, rfl⟩
        rw [modify, hp]
        simp [this]

theorem findSome_iff {α β : Type} (word : α → List Int) (f : α → List Int → β) {l : List α} (h : l.Pairwise (fun a b => Apart (word a) (word b))) (s : List Int) (c : β) :
    l.findSome? (fun a => (matchPrefix (word a) s).map (f a)) = some c ↔ ∃ a ∈ l, ∃ r, s = word a ++ r ∧ c = f a r := by
  induction l with
  | nil => simp
  | cons a l ih =>
    rw [List.pairwise_cons] at h
    rw [List.findSome?_cons]
    cases hp : matchPrefix (word a) s with
    | some r =>
      have hs := matchPrefix_iff.1 hp
      simp only [Option.map_some, Option.some.injEq]
      constructor
      · rintro rfl
        exact ⟨a, by simp, r, hs, rfl⟩
      · rintro ⟨b, hb, r', hs', rfl⟩
        rcases List.mem_cons.1 hb with rfl | hb
        · rw [hs] at hs'
          rw [List.append_cancel_left hs']
        · refine absurd ?_ ((h.1 b hb).not_prefix r')
          rw [← hs', hs]
          exact List.prefix_append _ _
    | none =>
      have hn := matchPrefix_none.1 hp
      simp only [Option.map_none]
      rw [ih h.2]
      constructor
      · rintro ⟨b, hb, h'⟩
        exact ⟨b, by simp [hb], h'⟩
      · rintro ⟨b, hb, r, hs, rfl⟩
        rcases List.mem_cons.1 hb with rfl | hb
        · exact absurd (hs ▸ List.prefix_append _ _) hn
        · exact ⟨b, hb, r, hs, rfl⟩

/-- The words are told apart by the way they begin, and written with small letters and `-`. -/
theorem words_apart : prefixes.Pairwise Apart ∧ groups.Pairwise (fun a b => Apart a.word b.word) ∧
    (∀ g ∈ groups, g.modifiers.Pairwise (fun a b => Apart a.1 b.1) ∧ ∀ m ∈ g.modifiers, m.1 ≠ []) := by
  decide +kernel

/-- A small letter or `-`. -/
def Small (c : Int) : Prop := c = 45 ∨ (97 ≤ c ∧ c ≤ 122)

instance (c : Int) : Decidable (Small c) := inferInstanceAs (Decidable (_ ∨ _))

theorem words_small : (∀ p ∈ prefixes, ∀ c ∈ p, Small c) ∧ ∀ g ∈ groups, (∀ c ∈ g.word, Small c) ∧ ∀ m ∈ g.modifiers, ∀ c ∈ m.1, Small c := by
  decide +kernel

theorem clip_small {name w : List Int} (h : ∀ c ∈ w, Small c) : name.map (fun c => if c > 255 then 46 else c) = w ↔ name = w := by
  induction w generalizing name with
  | nil => simp
  | cons c w ih =>
    cases name with
    | nil => simp
    | cons d name =>
      have hc : Small c := h c (by simp)
      unfold Small at hc
      rw [List.map_cons, List.cons.injEq, List.cons.injEq, ih (fun c' hc' => h c' (by simp [hc']))]
      constructor
      · rintro ⟨h1, h2⟩
        refine ⟨?_, h2⟩
        split at h1
        · omega
        · exact h1
      · rintro ⟨h1, h2⟩
        refine ⟨?_, h2⟩
        rw [if_neg (by omega), h1]

/-- The name of a category as the code reads it: a prefix, the word of a main category, and perhaps `-` and some of its words in their order. -/
inductive Reads : List Int → List Int → Prop
  | main (p : List Int) (g : Group) : p ∈ prefixes → g ∈ groups → Reads (p ++ g.word) [g.letter]
  | more (p : List Int) (g : Group) (sub : List (List Int × Int)) : p ∈ prefixes → g ∈ groups → sub.Sublist g.modifiers →
      Reads (p ++ g.word ++ 45 :: sub.flatMap (·.1)) (g.letter :: sub.map (·.2))

theorem category_iff {g : Group} (hg : g ∈ groups) (r cat : List Int) : category g r = (cat, []) ↔
    (r = [] ∧ cat = [g.letter]) ∨ ∃ sub : List (List Int × Int), sub.Sublist g.modifiers ∧ r = 45 :: sub.flatMap (·.1) ∧ cat = g.letter :: sub.map (·.2) := by
  obtain ⟨h1, h2⟩ := words_apart.2.2 g hg
  unfold category
  split
  · rename_i rest hp
    have hr : r = 45 :: rest := matchPrefix_iff.1 hp
    subst hr
    simp only [Prod.mk.injEq, List.cons.injEq, true_and, reduceCtorEq, false_and, false_or]
    constructor
    · rintro ⟨rfl, hm⟩
      obtain ⟨sub, hs, hr, hl⟩ := (modify_iff h1 h2 rest (modify g.modifiers rest).1).1 (Prod.ext rfl hm)
      exact ⟨sub, hs, hr, by rw [hl]⟩
    · rintro ⟨sub, hs, hr, rfl⟩
      have := (modify_iff h1 h2 rest _).2 ⟨sub, hs, hr, rfl⟩
      rw [this]
      exact ⟨rfl, rfl⟩
  · rename_i hp
    have hp := matchPrefix_none.1 hp
    simp only [Prod.mk.injEq]
    constructor
    · rintro ⟨rfl, rfl⟩
      exact .inl ⟨rfl, rfl⟩
    · rintro (⟨rfl, rfl⟩ | ⟨sub, _, rfl, _⟩)
      · exact ⟨rfl, rfl⟩
      · exact absurd ⟨_, rfl⟩ hp

/-- C92, names: exactly the names that `Reads` describes stand for categories. -/
theorem names_exact (name cat : List Int) : (unicodeForExpression name = cat ∧ cat ≠ []) ↔ Reads name cat := by
  obtain ⟨wp, wg, -⟩ := words_apart
  have hpre (s r : List Int) : prefixes.findSome? (fun p => matchPrefix p s) = some r ↔ ∃ p ∈ prefixes, s = p ++ r := by
    have := findSome_iff (fun p : List Int => p) (fun _ r => r) wp s r
    simp only [Option.map_id'] at this
    rw [this]
    constructor
    · rintro ⟨p, hp, r', hs, rfl⟩
      exact ⟨p, hp, hs⟩
    · rintro ⟨p, hp, hs⟩
      exact ⟨p, hp, r, hs, rfl⟩
  have hgrp (s : List Int) (c : List Int × List Int) := findSome_iff Group.word category wg s c
  constructor
  · rintro ⟨h, hne⟩
    unfold unicodeForExpression at h
    dsimp only at h
    split at h
    · exact absurd h.symm hne
    rename_i expr hexpr
    split at h
    · exact absurd h.symm hne
    rename_i res hres
    obtain ⟨p, hp, hs⟩ := (hpre _ _).1 hexpr
    obtain ⟨g, hg, r, rfl, rfl⟩ := (hgrp _ _).1 hres
    split at h
    · rename_i hr
      rcases (category_iff hg r cat).1 (Prod.ext h hr) with ⟨rfl, rfl⟩ | ⟨sub, hsub, rfl, rfl⟩
      · have : name = p ++ g.word := by
          rw [List.append_nil] at hs
          refine (clip_small ?_).1 hs
          intro c hc
          rcases List.mem_append.1 hc with hc | hc
          · exact words_small.1 p hp c hc
          · exact (words_small.2 g hg).1 c hc
        subst this
        exact .main p g hp hg
      · have : name = p ++ (g.word ++ 45 :: sub.flatMap (·.1)) := by
          refine (clip_small ?_).1 hs
          intro c hc
          rcases List.mem_append.1 hc with hc | hc
          · exact words_small.1 p hp c hc
          · rcases List.mem_append.1 hc with hc | hc
            · exact (words_small.2 g hg).1 c hc
            · rcases List.mem_cons.1 hc with rfl | hc
              · exact .inl rfl
              · obtain ⟨m, hm, hc⟩ := List.mem_flatMap.1 hc
                exact (words_small.2 g hg).2 m (hsub.subset hm) c hc
        rw [this, ← List.append_assoc]
        exact .more p g sub hp hg hsub
    · exact absurd h.symm hne
  · intro h
    have key (p r : List Int) (g : Group) (hp : p ∈ prefixes) (hg : g ∈ groups) (hs : ∀ c ∈ r, Small c) (cat : List Int) (hc : category g r = (cat, [])) :
        unicodeForExpression (p ++ (g.word ++ r)) = cat := by
      have hclip : (p ++ (g.word ++ r)).map (fun c => if c > 255 then 46 else c) = p ++ (g.word ++ r) := by
        refine (clip_small ?_).2 rfl
        intro c hc
        rcases List.mem_append.1 hc with hc | hc
        · exact words_small.1 p hp c hc
        · rcases List.mem_append.1 hc with hc | hc
          · exact (words_small.2 g hg).1 c hc
          · exact hs c hc
      unfold unicodeForExpression
      dsimp only
      rw [hclip, (hpre _ _).2 ⟨p, hp, rfl⟩]
      dsimp only
      rw [(hgrp _ _).2 ⟨g, hg, r, rfl, rfl⟩, hc]
      simp
    cases h with
    | main p g hp hg =>
      have := key p [] g hp hg (by simp) [g.letter] ((category_iff hg _ _).2 (.inl ⟨rfl, rfl⟩))
      rw [List.append_nil] at this
      exact ⟨this, by simp⟩
    | more p g sub hp hg hsub =>
      have := key p (45 :: sub.flatMap (·.1)) g hp hg ?_ _ ((category_iff hg _ _).2 (.inr ⟨sub, hsub, rfl, rfl⟩))
      · rw [← List.append_assoc] at this
        exact ⟨this, by simp⟩
      · intro c hc
        rcases List.mem_cons.1 hc with rfl | hc
        · exact .inl rfl
        · obtain ⟨m, hm, hc⟩ := List.mem_flatMap.1 hc
          exact (words_small.2 g hg).2 m (hsub.subset hm) c hc

/-- The names that the comment of `unicode_for_expression` gives (ndfa_regex.cpp 649-696), after the prefix, and the categories of the Unicode standard (section 4.5)
that they name. -/
def documented : List (List Int × List Int) := [
  ([108, 101, 116, 116, 101, 114], [76]) /- letter: L -/,
  ([108, 101, 116, 116, 101, 114, 45, 117, 112, 112, 101, 114, 99, 97, 115, 101], [76, 117]) /- letter-uppercase: Lu -/,
  ([108, 101, 116, 116, 101, 114, 45, 108, 111, 119, 101, 114, 99, 97, 115, 101], [76, 108]) /- letter-lowercase: Ll -/,
  ([108, 101, 116, 116, 101, 114, 45, 116, 105, 116, 108, 101, 99, 97, 115, 101], [76, 116]) /- letter-titlecase: Lt -/,
  ([108, 101, 116, 116, 101, 114, 45, 109, 111, 100, 105, 102, 105, 101, 114], [76, 109]) /- letter-modifier: Lm -/,
  ([108, 101, 116, 116, 101, 114, 45, 111, 116, 104, 101, 114], [76, 111]) /- letter-other: Lo -/,
  ([109, 97, 114, 107], [77]) /- mark: M -/,
  ([109, 97, 114, 107, 45, 110, 111, 110, 115, 112, 97, 99, 105, 110, 103], [77, 110]) /- mark-nonspacing: Mn -/,
  ([109, 97, 114, 107, 45, 115, 112, 97, 99, 105, 110, 103], [77, 99]) /- mark-spacing: Mc -/,
  ([109, 97, 114, 107, 45, 101, 110, 99, 108, 111, 115, 105, 110, 103], [77, 101]) /- mark-enclosing: Me -/,
  ([110, 117, 109, 98, 101, 114], [78]) /- number: N -/,
  ([110, 117, 109, 98, 101, 114, 45, 100, 101, 99, 105, 109, 97, 108], [78, 100]) /- number-decimal: Nd -/,
  ([110, 117, 109, 98, 101, 114, 45, 108, 101, 116, 116, 101, 114], [78, 108]) /- number-letter: Nl -/,
  ([110, 117, 109, 98, 101, 114, 45, 111, 116, 104, 101, 114], [78, 111]) /- number-other: No -/,
  ([112, 117, 110, 99, 116, 117, 97, 116, 105, 111, 110], [80]) /- punctuation: P -/,
  ([112, 117, 110, 99, 116, 117, 97, 116, 105, 111, 110, 45, 99, 111, 110, 110, 101, 99, 116, 111, 114], [80, 99]) /- punctuation-connector: Pc -/,
  ([112, 117, 110, 99, 116, 117, 97, 116, 105, 111, 110, 45, 100, 97, 115, 104], [80, 100]) /- punctuation-dash: Pd -/,
  ([112, 117, 110, 99, 116, 117, 97, 116, 105, 111, 110, 45, 111, 112, 101, 110], [80, 115]) /- punctuation-open: Ps -/,
  ([112, 117, 110, 99, 116, 117, 97, 116, 105, 111, 110, 45, 99, 108, 111, 115, 101], [80, 101]) /- punctuation-close: Pe -/,
  ([112, 117, 110, 99, 116, 117, 97, 116, 105, 111, 110, 45, 105, 110, 105, 116, 105, 97, 108], [80, 105]) /- punctuation-initial: Pi -/,
  ([112, 117, 110, 99, 116, 117, 97, 116, 105, 111, 110, 45, 102, 105, 110, 97, 108], [80, 102]) /- punctuation-final: Pf -/,
  ([112, 117, 110, 99, 116, 117, 97, 116, 105, 111, 110, 45, 111, 116, 104, 101, 114], [80, 111]) /- punctuation-other: Po -/,
  ([115, 121, 109, 98, 111, 108], [83]) /- symbol: S -/,
  ([115, 121, 109, 98, 111, 108, 45, 109, 97, 116, 104], [83, 109]) /- symbol-math: Sm -/,
  ([115, 121, 109, 98, 111, 108, 45, 99, 117, 114, 114, 101, 110, 99, 121], [83, 99]) /- symbol-currency: Sc -/,
  ([115, 121, 109, 98, 111, 108, 45, 109, 111, 100, 105, 102, 105, 101, 114], [83, 107]) /- symbol-modifier: Sk -/,
  ([115, 121, 109, 98, 111, 108, 45, 111, 116, 104, 101, 114], [83, 111]) /- symbol-other: So -/,
  ([115, 101, 112, 97, 114, 97, 116, 111, 114], [90]) /- separator: Z -/,
  ([115, 101, 112, 97, 114, 97, 116, 111, 114, 45, 115, 112, 97, 99, 101], [90, 115]) /- separator-space: Zs -/,
  ([115, 101, 112, 97, 114, 97, 116, 111, 114, 45, 108, 105, 110, 101], [90, 108]) /- separator-line: Zl -/,
  ([115, 101, 112, 97, 114, 97, 116, 111, 114, 45, 112, 97, 114, 97, 103, 114, 97, 112, 104], [90, 112]) /- separator-paragraph: Zp -/,
  ([99, 111, 110, 116, 114, 111, 108], [67]) /- control: C -/,
  ([99, 111, 110, 116, 114, 111, 108, 45, 99, 111, 110, 116, 114, 111, 108], [67, 99]) /- control-control: Cc -/,
  ([99, 111, 110, 116, 114, 111, 108, 45, 102, 111, 114, 109, 97, 116], [67, 102]) /- control-format: Cf -/,
  ([99, 111, 110, 116, 114, 111, 108, 45, 115, 117, 114, 114, 111, 103, 97, 116, 101], [67, 115]) /- control-surrogate: Cs -/,
  ([99, 111, 110, 116, 114, 111, 108, 45, 112, 114, 105, 118, 97, 116, 101], [67, 111]) /- control-private: Co -/]

/-- C92, names: with each of the prefixes the documented names stand for their categories. -/
theorem documented_names : ∀ p ∈ prefixes, ∀ d ∈ documented, unicodeForExpression (p ++ d.1) = d.2 := by
  decide +kernel

/-- Other names are taken as well: `u-letter-uppercaselowercase` stands for the upper case letters, and `u-letter-` for all letters. -/
theorem undocumented_violated : ∃ name name' : List Int, (¬ ∃ p ∈ prefixes, ∃ d ∈ documented, name = p ++ d.1 ∨ name' = p ++ d.1) ∧
    unicodeForExpression name' = [76] ∧ ∀ bs, categoryOf bs name = some (categorySet bs [76, 117]) := by
  refine ⟨[117, 45, 108, 101, 116, 116, 101, 114, 45, 117, 112, 112, 101, 114, 99, 97, 115, 101, 108, 111, 119, 101, 114, 99, 97, 115, 101], [117, 45, 108, 101, 116, 116, 101, 114, 45], by decide +kernel, by decide +kernel, fun bs => ?_⟩
  have h : unicodeForExpression [117, 45, 108, 101, 116, 116, 101, 114, 45, 117, 112, 112, 101, 114, 99, 97, 115, 101, 108, 111, 119, 101, 114, 99, 97, 115, 101] = [76, 117, 108] := by decide +kernel
  unfold categoryOf
  rw [h, if_neg (by simp)]
  rfl

/-! ### Expressions -/

/-- C92 for expressions: `{name}` with a documented name is an expression of C20, and it matches exactly the characters of the category, if the file writes no
characters as ranges. Missing: ranges. -/
theorem unicode_expression_partial {lines : List Line} (h1 : ∀ l ∈ lines, l.kind = .single) {bs : List Block} (hb : ∀ b, b ∈ bs ↔ b ∈ blocks lines) {env : Env}
    {name : List Int} (hn : env.named name = []) (he : env.exprs name = none) (hl : env.literals name = none) (hc : env.category name = categoryOf bs name)
    {p : List Int} {d : List Int × List Int} (hp : p ∈ prefixes) (hd : d ∈ documented) (hname : name = p ++ d.1)
    (hx : ∃ t y, Covers d.2 t ∧ Gives lines t y) :
    ∃ s, (Re.unicode name s).Ok env false ∧ (Re.unicode name s).text = 123 :: name ++ [125] ∧
      (Re.unicode name s).lang false = {w | ∃ t y, Covers d.2 t ∧ Gives lines t y ∧ w = [(y : Int)]} := by
  have hu : unicodeForExpression name = d.2 := by rw [hname]; exact documented_names p hp d hd
  have hd0 : ∀ d ∈ documented, d.2 ≠ [] := by decide +kernel
  have hcat := category_partial h1 hb (hd0 d hd)
  refine ⟨categorySet bs d.2, ⟨?_, hn, he, hl, ?_, ?_, (blocks_mem hb _).1, by simp⟩, rfl, ?_⟩
  · have : ∀ p ∈ prefixes, ∀ d ∈ documented, 125 ∉ p ++ d.1 := by decide +kernel
    rw [hname]
    exact this p hp d hd
  · rw [hc, categoryOf, hu, if_neg (hd0 d hd)]
  · obtain ⟨t, y, h2, h3⟩ := hx
    exact ⟨y, (hcat _).2 ⟨t, y, h2, h3, rfl⟩⟩
  · ext w
    constructor
    · rintro ⟨x, hx, rfl⟩
      obtain ⟨t, y, h2, h3, rfl⟩ := (hcat x).1 hx
      exact ⟨t, y, h2, h3, rfl⟩
    · rintro ⟨t, y, h2, h3, rfl⟩
      exact ⟨y, (hcat _).2 ⟨t, y, h2, h3, rfl⟩, rfl⟩

/-- C92 is violated for ranges: of the ideographs that the file gives as the range from 0x4e00 to 0x9fcb only the first and the last are letters. -/
theorem category_violated : ∃ (lines : List Line), lines.Pairwise (fun a b => a.code < b.code) ∧ ∃ x : Nat, Gives lines (76, 111) x ∧
    ¬ SymSet.Mem x (categorySet (blocks lines) [76]) ∧ ¬ SymSet.Mem x (categorySet (blocks lines) [76, 111]) := by
  refine ⟨[⟨0x41, .single, (76, 117), 0, 0x61⟩, ⟨0x4e00, .first, (76, 111), 0, 0⟩, ⟨0x9fcb, .last, (76, 111), 0, 0⟩], by simp, 0x4e01, ?_, ?_, ?_⟩
  · exact .inr ⟨[⟨0x41, .single, (76, 117), 0, 0x61⟩], _, _, [], rfl, rfl, rfl, rfl, by decide, by decide⟩
  · rw [category_lines (fun _ => Iff.rfl) (by simp)]
    rintro ⟨l, hl, -, hx⟩
    simp only [List.mem_cons, List.not_mem_nil, or_false] at hl
    rcases hl with rfl | rfl | rfl <;> simp at hx
  · rw [category_lines (fun _ => Iff.rfl) (by simp)]
    rintro ⟨l, hl, -, hx⟩
    simp only [List.mem_cons, List.not_mem_nil, or_false] at hl
    rcases hl with rfl | rfl | rfl <;> simp at hx

/-- Four lines of the file: `A`, `B`, `a`, `b`. -/
def sample : List Line := [⟨0x41, .single, (76, 117), 0, 0x61⟩, ⟨0x42, .single, (76, 117), 0, 0x62⟩, ⟨0x61, .single, (76, 108), 0x41, 0⟩, ⟨0x62, .single, (76, 108), 0x42, 0⟩]

example : uppers sample = [⟨0x61, 0x63, 0x41⟩] ∧ lowers sample = [⟨0x41, 0x43, 0x61⟩] ∧ categorySet (blocks sample) [76, 117] = [⟨0x41, 0x43⟩] := by
  decide +kernel

example : CaseMap.fold (uppers sample) 0x62 = 0x42 :=
  (case_tables (lines := sample) (by simp [sample])).1.2.1 ⟨0x62, .single, (76, 108), 0x42, 0⟩ (by simp [sample]) (by simp)

/-- `{u-letter-lowercase}` matches `b`. -/
example : ∃ s, (Re.unicode ([117, 45, 108, 101, 116, 116, 101, 114, 45, 108, 111, 119, 101, 114, 99, 97, 115, 101]) s).Ok ⟨fun _ => none, fun _ => none, categoryOf (blocks sample), fun _ => [], (id, id)⟩ false ∧
    [0x62] ∈ (Re.unicode ([117, 45, 108, 101, 116, 116, 101, 114, 45, 108, 111, 119, 101, 114, 99, 97, 115, 101]) s).lang false := by
  have g : Gives sample (76, 108) 0x62 := .inl ⟨⟨0x62, .single, (76, 108), 0x42, 0⟩, by simp [sample], rfl, rfl⟩
  obtain ⟨s, h1, -, h3⟩ := unicode_expression_partial (lines := sample) (bs := blocks sample) (env := ⟨fun _ => none, fun _ => none, categoryOf (blocks sample), fun _ => [], (id, id)⟩)
    (name := [117, 45, 108, 101, 116, 116, 101, 114, 45, 108, 111, 119, 101, 114, 99, 97, 115, 101]) (p := [117, 45]) (d := ([108, 101, 116, 116, 101, 114, 45, 108, 111, 119, 101, 114, 99, 97, 115, 101], [76, 108])) (by simp [sample]) (fun _ => Iff.rfl) rfl rfl rfl rfl
    (by decide) (by decide) rfl ⟨(76, 108), 0x62, .inr ⟨[], rfl⟩, g⟩
  refine ⟨s, h1, ?_⟩
  rw [h3]
  exact ⟨(76, 108), 0x62, .inr ⟨[], rfl⟩, g, rfl⟩

end UnicodeData
end TameParse

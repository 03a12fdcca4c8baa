import Verif.Util
import Mathlib.Tactic.Ring
/-
Properties of the utility classes.

C23  UTF-8 (violated for every text that is not ASCII)
C24  case conversion of ranges (violated for ranges that start inside an entry and go past it)
C49  string reader
C50  ordering operators of containers (violated)
-/
namespace TameParse
open SymSet (Mem Canon)

/-! ### C49 -/

namespace StringReader

theorem readAll_drop (s : List Int) : ∀ k pos, s.length ≤ pos + k → pos ≤ s.length →
    readAll k ⟨s, pos⟩ = (s.drop pos, ⟨s, s.length⟩) := by
  intro k
  induction k with
  | zero =>
    intro pos h h'
    have : pos = s.length := by omega
    subst this
    simp [readAll]
  | succ k ih =>
    intro pos h h'
    by_cases hp : pos < s.length
    · have hg : (⟨s, pos⟩ : StringReader).good = true := by simp [good, hp]
      simp only [readAll]
      rw [if_pos hg]
      have e : (⟨s, pos⟩ : StringReader).get = (s.getD pos 0, ⟨s, pos + 1⟩) := by
        simp only [get]
        rw [if_neg (by omega)]
      rw [e]
      dsimp only
      rw [ih (pos + 1) (by omega) (by omega)]
      dsimp only
      rw [List.drop_eq_getElem_cons hp, List.getD_eq_getElem?_getD, List.getElem?_eq_getElem hp, Option.getD_some]
    · have : pos = s.length := by omega
      subst this
      have hg : ¬ (⟨s, s.length⟩ : StringReader).good = true := by simp [good]
      simp only [readAll]
      rw [if_neg hg]
      simp

/-- C49: reading while the reader is good yields the string; then it stays not good and yields the end marker forever. -/
theorem string_reader_exact (s : List Int) (k j : Nat) (h : s.length ≤ k) :
    (readAll k (new s)).1 = s ∧ (readAll k (new s)).2.good = false ∧ reads j (readAll k (new s)).2 = List.replicate j 0 := by
  have e := readAll_drop s k 0 (by omega) (by omega)
  simp only [new, e]
  refine ⟨by simp, by simp [good], ?_⟩
  induction j with
  | zero => rfl
  | succ j ih =>
    have e : (⟨s, s.length⟩ : StringReader).get = (0, ⟨s, s.length⟩) := by simp [get]
    simp only [reads, e, ih, List.replicate_succ]

example : (readAll 10 (new [104, 105])).1 = [104, 105] ∧ reads 3 (readAll 10 (new [104, 105])).2 = [0, 0, 0] := by decide

end StringReader

/-! ### C50 -/

namespace Container

/-- Both operators always hold for an irreflexive order. -/
theorem container_order_always {α : Type} (less : α → α → Bool) (irr : ∀ a, less a a = false) (a b : α) :
    le less a b = true ∧ ge less a b = true := by
  simp [le, ge, lt, gt, irr]

/-- C50 is violated for every irreflexive order with two comparable values: `a <= b` and `b < a` hold together. -/
theorem container_order_violated {α : Type} (less : α → α → Bool) (irr : ∀ a, less a a = false) (a b : α) (h : less b a = true) :
    le less a b = true ∧ lt less b a = true ∧ ge less b a = true ∧ ¬ (le less a b = true ↔ lt less b a = false) := by
  simp [le, ge, lt, gt, irr, h]

/-- The part that holds: `<` and `>` are the order and its converse, and on the diagonal all four operators are right. -/
theorem container_order_partial {α : Type} (less : α → α → Bool) (irr : ∀ a, less a a = false) (a b : α) :
    (gt less a b = true ↔ lt less b a = true) ∧ (a = b → (le less a b = true ↔ lt less b a = false) ∧ (ge less a b = true ↔ lt less a b = false)) := by
  refine ⟨Iff.rfl, ?_⟩
  rintro rfl
  simp [le, ge, lt, gt, irr]

example : le (fun a b : Nat => decide (a < b)) 5 3 = true ∧ lt (fun a b : Nat => decide (a < b)) 3 5 = true := by decide

end Container

/-! ### C23 -/

namespace Utf8

theorem get_ascii (b : Nat) (rest : List Nat) (t : Nat) (h : b < 0x80) :
    (Utf8.mk ⟨b :: rest, false⟩ false 0).get t = (b, ⟨⟨rest, false⟩, false, 0⟩) := by
  simp [get, ByteStream.get, h]

/-- C23 for ASCII texts: every character is read as it is. -/
theorem utf8_ascii_partial (s : List Nat) (h : ∀ b ∈ s, b < 0x80) (t : Nat) :
    reads s.length (new s) t = (s, ⟨⟨[], false⟩, false, 0⟩) := by
  induction s generalizing t with
  | nil => rfl
  | cons b s ih =>
    simp only [new, List.length_cons, reads]
    rw [get_ascii b s t (h b (by simp))]
    dsimp only
    have := ih (fun c hc => h c (by simp [hc])) b
    simp only [new] at this
    rw [this]

/-- ... and the next read reports the end. -/
theorem utf8_end (t : Nat) : (Utf8.mk ⟨[], false⟩ false 0).get t = (0, ⟨⟨[], true⟩, true, 0⟩) := by
  simp [get, ByteStream.get]

/-- C23 for two and three byte characters, provided the variable the result goes to happens to hold a value with the high bits of
the lead byte. Missing: all other contents of the variable, and four byte characters. -/
theorem utf8_primed_partial (x : Nat) (rest : List Nat) (t : Nat) (h : 0x80 ≤ x) (h' : x < 0x10000)
    (ht : if x < 0x800 then t / 32 % 8 = 6 else t / 16 % 16 = 14) :
    (Utf8.mk ⟨utf8 x ++ rest, false⟩ false 0).get t = (x, ⟨⟨rest, false⟩, false, 0⟩) := by
  by_cases hx : x < 0x800
  · rw [if_pos hx] at ht
    have e : utf8 x = [0xc0 + x / 64, 0x80 + x % 64] := by simp only [utf8]; rw [if_neg (by omega), if_pos hx]
    rw [e]
    have c : continuation (0x80 + x % 64) = true := by
      simp only [continuation, beq_iff_eq]; omega
    have n1 : ¬ (0xc0 + x / 64 < 0x80) := by omega
    have v : (0xc0 + x / 64) % 32 * 64 + (0x80 + x % 64) % 64 = x := by omega
    simp [get, ByteStream.get, ht, c, n1]
    omega
  · rw [if_neg hx] at ht
    have e : utf8 x = [0xe0 + x / 4096, 0x80 + x / 64 % 64, 0x80 + x % 64] := by
      simp only [utf8]; rw [if_neg (by omega), if_neg hx, if_pos h']
    rw [e]
    have c1 : continuation (0x80 + x / 64 % 64) = true := by
      simp only [continuation, beq_iff_eq]; omega
    have c2 : continuation (0x80 + x % 64) = true := by
      simp only [continuation, beq_iff_eq]; omega
    have v : (0xe0 + x / 4096) % 16 * 4096 + (0x80 + x / 64 % 64) % 64 * 64 + (0x80 + x % 64) % 64 = x := by omega
    have h6 : ¬ (t / 32 % 8 = 6) := by omega
    have n1 : ¬ (0xe0 + x / 4096 < 0x80) := by omega
    simp [get, ByteStream.get, ht, h6, c1, c2, n1]
    omega

theorem utf8_head (x : Nat) (h : 0x80 ≤ x) (h' : x < 0x110000) : ∃ b rest, utf8 x = b :: rest ∧ 0x80 ≤ b := by
  simp only [utf8]
  rw [if_neg (by omega)]
  split
  · exact ⟨_, _, rfl, by omega⟩
  · split
    · exact ⟨_, _, rfl, by omega⟩
    · exact ⟨_, _, rfl, by omega⟩

/-- C23 is violated by every text with a character that is not ASCII, read in the usual way (one variable, which is zero or ASCII at
first): the first such character is read as 0 and the reader goes bad. -/
theorem utf8_violated (s : List Nat) (h : ∀ b ∈ s, b < 0x80) (x : Nat) (hx : 0x80 ≤ x) (hx' : x < 0x110000) (rest : List Nat) (t : Nat)
    (ht : t < 0x80) :
    (reads (s.length + 1) (new (s ++ utf8 x ++ rest)) t).1 = s ++ [0] ∧ (reads (s.length + 1) (new (s ++ utf8 x ++ rest)) t).2.good = false := by
  induction s generalizing t with
  | nil =>
    obtain ⟨b, bs, e, hb⟩ := utf8_head x hx hx'
    have g : (Utf8.mk ⟨b :: (bs ++ rest), false⟩ false 0).get t = (0, ⟨⟨bs ++ rest, false⟩, true, 0⟩) := by
      have h1 : ¬ (t / 32 % 8 = 6) := by omega
      have h2 : ¬ (t / 16 % 16 = 14) := by omega
      have h3 : ¬ (t / 8 % 32 = 30) := by omega
      have h4 : ¬ (b < 128) := by omega
      simp [get, ByteStream.get, h1, h2, h3, h4]
    simp only [List.nil_append, List.length_nil, new, e, List.cons_append, reads, g]
    simp [good]
  | cons b s ih =>
    have hb := h b (by simp)
    have ih := ih (fun c hc => h c (by simp [hc])) b hb
    simp only [new, List.cons_append, List.length_cons] at ih ⊢
    have g := get_ascii b (s ++ utf8 x ++ rest) t hb
    simp only [reads] at ih ⊢
    rw [g]
    dsimp only
    exact ⟨by rw [ih.1], ih.2⟩

/-- Four byte characters come out wrong even if the variable holds the lead byte: U+1F600 is read as U+1F61F. -/
theorem utf8_four_bytes_violated : (reads 2 (new (utf8 0x1f600)) 0xf0).1 = [0xd83d, 0xde1f] ∧ (0x1f600 - 0x10000) % 1024 + 0xdc00 ≠ 0xde1f := by
  decide

/-- "é" is read as 0. -/
example : (reads 1 (new (utf8 0xe9)) 0).1 = [0] ∧ utf8 0xe9 = [0xc3, 0xa9] := by decide

theorem continuation_iff {b : Nat} (h : b < 256) : continuation b = true ↔ 0x80 ≤ b ∧ b < 0xc0 := by
  simp only [continuation, beq_iff_eq]
  omega

/-- A character that is read without an error comes from one byte below 0x80, or from another byte and up to three ones of the form 10xxxxxx. -/
theorem utf8_sound (bytes : List Nat) (hb : ∀ b ∈ bytes, b < 256) (t c : Nat) (r : Utf8) (h : (Utf8.mk ⟨bytes, false⟩ false 0).get t = (c, r)) (hr : r.bad = false) :
    ∃ b1 more, bytes = b1 :: more ++ r.input.rest ∧ (∀ b ∈ more, 0x80 ≤ b ∧ b < 0xc0) ∧ (b1 < 0x80 ↔ more = []) ∧ more.length ≤ 3 := by
  cases bytes with
  | nil =>
    cases h
    cases hr
  | cons b1 bytes =>
    unfold get at h
    rw [if_neg (by simp), if_neg (by simp)] at h
    dsimp only [ByteStream.get] at h
    rw [if_neg (by simp)] at h
    split at h
    · rename_i h1
      cases h
      exact ⟨_, [], rfl, by simp, by simp [h1], by simp⟩
    · rename_i h1
      split at h
      · cases bytes with
        | nil => cases h; cases hr
        | cons b2 bytes =>
          simp only [Bool.false_or] at h
          split at h
          · cases h; cases hr
          · rename_i h2
            cases h
            have c2 := (continuation_iff (hb b2 (by simp))).1 (by simpa using h2)
            exact ⟨b1, [b2], rfl, by simpa using c2, by simp [h1], by simp⟩
      · split at h
        · match bytes, hb, h with
          | [], _, h => cases h; cases hr
          | [_], _, h => cases h; cases hr
          | b2 :: b3 :: bytes, hb, h =>
            simp only [Bool.false_or] at h
            split at h
            · cases h; cases hr
            · rename_i h2
              cases h
              simp only [Bool.or_eq_true, Bool.not_eq_true', not_or, Bool.not_eq_false] at h2
              have c2 := (continuation_iff (hb b2 (by simp))).1 h2.1
              have c3 := (continuation_iff (hb b3 (by simp))).1 h2.2
              exact ⟨b1, [b2, b3], rfl, by simpa using ⟨c2, c3⟩, by simp [h1], by simp⟩
        · split at h
          · match bytes, hb, h with
            | [], _, h => cases h; cases hr
            | [_], _, h => cases h; cases hr
            | [_, _], _, h => cases h; cases hr
            | b2 :: b3 :: b4 :: bytes, hb, h =>
              simp only [Bool.false_or] at h
              split at h
              · cases h; cases hr
              · rename_i h2
                simp only [Bool.or_eq_true, Bool.not_eq_true', not_or, Bool.not_eq_false] at h2
                have c2 := (continuation_iff (hb b2 (by simp))).1 h2.1.1
                have c3 := (continuation_iff (hb b3 (by simp))).1 h2.1.2
                have c4 := (continuation_iff (hb b4 (by simp))).1 h2.2
                split at h
                · cases h; cases hr
                · cases h
                  exact ⟨b1, [b2, b3, b4], rfl, by simpa using ⟨c2, c3, c4⟩, by simp [h1], by simp⟩
          · cases h; cases hr

example : ((Utf8.mk ⟨[0xc3, 0xe9], false⟩ false 0).get 0xc3).2.bad = true ∧ ((Utf8.mk ⟨[0xc3, 0xa9, 65], false⟩ false 0).get 0xc3).1 = 0xe9 := by decide

end Utf8

/-! ### C24 -/

namespace CaseMap

theorem fold_cons_in {e : MapEntry} {t : List MapEntry} {x : Int} (h : e.lower ≤ x) (h' : x < e.upper) :
    fold (e :: t) x = e.mapTo + (x - e.lower) := by
  simp [fold, h, h']

theorem fold_cons_out {e : MapEntry} {t : List MapEntry} {x : Int} (h : ¬ (e.lower ≤ x ∧ x < e.upper)) :
    fold (e :: t) x = fold t x := by
  have : (decide (e.lower ≤ x) && decide (x < e.upper)) = false := by
    rw [Bool.and_eq_false_iff, decide_eq_false_iff_not, decide_eq_false_iff_not]
    omega
  simp only [fold, List.find?_cons, this]

theorem fold_below {t : List MapEntry} {x : Int} (h : ∀ e ∈ t, x < e.lower) : fold t x = x := by
  induction t with
  | nil => rfl
  | cons e t ih =>
    have := h e (by simp)
    rw [fold_cons_out (by omega)]
    exact ih (fun e he => h e (by simp [he]))

theorem sorted_cons {e : MapEntry} {t : List MapEntry} (h : Sorted (e :: t)) :
    e.lower < e.upper ∧ (∀ f ∈ t, e.upper ≤ f.lower) ∧ Sorted t := by
  obtain ⟨h1, h2⟩ := h
  rw [List.pairwise_cons] at h1
  exact ⟨h2 e (by simp), h1.1, h1.2, fun f hf => h2 f (by simp [hf])⟩

theorem fold_dropWhile (t : List MapEntry) (l x : Int) (hx : l ≤ x) :
    fold (t.dropWhile (fun e => decide (e.upper ≤ l))) x = fold t x := by
  induction t with
  | nil => rfl
  | cons e t ih =>
    rw [List.dropWhile_cons]
    by_cases h : e.upper ≤ l
    · rw [if_pos (by simpa using h), ih, fold_cons_out (by omega)]
    · rw [if_neg (by simpa using h)]

/-- The loop adds the images of the characters that are left. -/
theorem convertLoop_spec : ∀ k (items : List MapEntry) (lower upper : Int) (result : SymSet), Canon result → Sorted items →
    (∀ e ∈ items, lower < e.upper) → (∀ e rest, items = e :: rest → lower ≤ e.lower ∨ upper ≤ e.upper) →
    2 * items.length + 1 + (if lower < upper then 1 else 0) ≤ k + (match items with | [] => 0 | e :: _ => if e.lower ≤ lower then 1 else 0) →
    ∃ out, convertLoop k items lower upper result = some out ∧ Canon out ∧
      ∀ y, Mem y out ↔ Mem y result ∨ ∃ x, lower ≤ x ∧ x < upper ∧ y = fold items x := by
  intro k
  induction k with
  | zero =>
    intro items lower upper result _ _ _ _ hk
    exfalso
    cases items with
    | nil => simp at hk
    | cons e rest => simp only [List.length_cons] at hk; split at hk <;> split at hk <;> omega
  | succ k ih =>
    intro items lower upper result hc hs hup hin hk
    simp only [convertLoop]
    by_cases hlt : lower < upper
    · rw [if_pos hlt] at hk ⊢
      cases items with
      | nil =>
        refine ⟨_, rfl, (SymSet.unionRange_spec _ _ hc hlt).1, fun y => ?_⟩
        rw [(SymSet.unionRange_spec _ _ hc hlt).2 y]
        refine or_congr Iff.rfl ?_
        constructor
        · rintro ⟨h1, h2⟩; exact ⟨y, h1, h2, rfl⟩
        · rintro ⟨x, h1, h2, rfl⟩; exact ⟨h1, h2⟩
      | cons e rest =>
        dsimp only
        obtain ⟨s1, s2, s3⟩ := sorted_cons hs
        by_cases hle : lower < e.lower
        · rw [if_pos hle]
          simp only [List.length_cons] at hk
          rw [if_neg (by omega)] at hk
          generalize hlast : (if upper < e.lower then upper else e.lower) = last
          have hl1 : lower < last := by split at hlast <;> omega
          have hl2 : last ≤ upper := by split at hlast <;> omega
          have hl3 : last ≤ e.lower := by split at hlast <;> omega
          have hl4 : last = upper ∨ last = e.lower := by split at hlast <;> omega
          obtain ⟨out, o1, o2, o3⟩ := ih (e :: rest) last upper (result.unionRange ⟨lower, last⟩)
            (SymSet.unionRange_spec _ _ hc hl1).1 hs
            (by
              intro f hf
              rcases List.mem_cons.1 hf with rfl | hf
              · omega
              · have := s2 f hf; have := s3.2 f hf; omega)
            (by
              intro f r hfr
              obtain ⟨rfl, rfl⟩ := List.cons.inj hfr
              exact .inl hl3)
            (by
              simp only [List.length_cons]
              by_cases hq : e.lower ≤ last
              · rw [if_pos hq]
                split <;> omega
              · rw [if_neg hq]
                have : last = upper := by omega
                rw [if_neg (by omega)]
                omega)
          refine ⟨out, o1, o2, fun y => ?_⟩
          rw [o3 y, (SymSet.unionRange_spec _ _ hc hl1).2 y, or_assoc]
          refine or_congr Iff.rfl ?_
          have hbelow : ∀ x, x < last → fold (e :: rest) x = x := by
            intro x hx
            refine fold_below (fun f hf => ?_)
            rcases List.mem_cons.1 hf with rfl | hf
            · omega
            · have := s2 f hf; omega
          constructor
          · rintro (⟨h1, h2⟩ | ⟨x, h1, h2, h3⟩)
            · exact ⟨y, h1, by simp only at h2; omega, (hbelow y h2).symm⟩
            · exact ⟨x, by omega, h2, h3⟩
          · rintro ⟨x, h1, h2, h3⟩
            by_cases hx : x < last
            · rw [hbelow x hx] at h3
              subst h3
              exact .inl ⟨h1, hx⟩
            · exact .inr ⟨x, by omega, h2, h3⟩
        · rw [if_neg hle]
          simp only [List.length_cons] at hk
          rw [if_pos (by omega)] at hk
          generalize hnum : (if upper - lower < e.upper - e.lower then upper - lower else e.upper - e.lower) = num
          have hup' := hup e (by simp)
          have hin' := hin e rest rfl
          have hn1 : 0 < num := by split at hnum <;> omega
          have hn2 : lower + num ≤ e.upper := by split at hnum <;> omega
          have hn3 : lower + num ≤ upper := by split at hnum <;> omega
          have hn4 : lower + num = upper ∨ lower + num = e.upper := by split at hnum <;> omega
          have hr : (⟨e.mapTo + (lower - e.lower), e.mapTo + (lower - e.lower) + num⟩ : Range).lo <
              (⟨e.mapTo + (lower - e.lower), e.mapTo + (lower - e.lower) + num⟩ : Range).hi := by simp only; omega
          obtain ⟨out, o1, o2, o3⟩ := ih rest (lower + num) upper
            (result.unionRange ⟨e.mapTo + (lower - e.lower), e.mapTo + (lower - e.lower) + num⟩)
            (SymSet.unionRange_spec _ _ hc hr).1 s3
            (by
              intro f hf
              have := s2 f hf; have := s3.2 f hf; omega)
            (by
              intro f r hfr
              left
              have := s2 f (by rw [hfr]; simp)
              omega)
            (by
              cases rest with
              | nil => simp only [List.length_nil] at hk ⊢; split <;> omega
              | cons f r =>
                simp only [List.length_cons] at hk ⊢
                split <;> split <;> omega)
          refine ⟨out, o1, o2, fun y => ?_⟩
          rw [o3 y, (SymSet.unionRange_spec _ _ hc hr).2 y, or_assoc]
          refine or_congr Iff.rfl ?_
          constructor
          · rintro (⟨h1, h2⟩ | ⟨x, h1, h2, h3⟩)
            · simp only at h1 h2
              refine ⟨y - e.mapTo + e.lower, by omega, by omega, ?_⟩
              rw [fold_cons_in (by omega) (by omega)]
              omega
            · by_cases hx : x < e.upper
              · omega
              · exact ⟨x, by omega, h2, by rw [fold_cons_out (by omega)]; exact h3⟩
          · rintro ⟨x, h1, h2, h3⟩
            by_cases hx : x < lower + num
            · rw [fold_cons_in (by omega) (by omega)] at h3
              exact .inl ⟨by simp only; omega, by simp only; omega⟩
            · have : ¬ (x < e.upper) := by omega
              rw [fold_cons_out (by omega)] at h3
              exact .inr ⟨x, by omega, h2, h3⟩
    · rw [if_neg hlt]
      refine ⟨result, rfl, hc, fun y => ?_⟩
      constructor
      · exact .inl
      · rintro (h | ⟨x, h1, h2, _⟩)
        · exact h
        · omega

/-- The range does not start inside an entry and go past its end. -/
def StartsWell (table : List MapEntry) (r : Range) : Prop := ∀ e ∈ table, e.lower < r.lo → r.lo < e.upper → r.hi ≤ e.upper

/-- C24 for one range that does not start inside a table entry and go past its end. Missing: the other ranges, for which it is
false. -/
theorem convert_range_exact_partial (table : List MapEntry) (hs : Sorted table) (r : Range) (hr : StartsWell table r) :
    ∃ out, convertRange table r = some out ∧ Canon out ∧ ∀ y, Mem y out ↔ ∃ x, r.Mem x ∧ y = fold table x := by
  have hsub : ∀ e ∈ table.dropWhile (fun e => decide (e.upper ≤ r.lo)), e ∈ table := fun e he => (List.dropWhile_sublist _).subset he
  have hsd : Sorted (table.dropWhile (fun e => decide (e.upper ≤ r.lo))) :=
    ⟨hs.1.sublist (List.dropWhile_sublist _), fun e he => hs.2 e (hsub e he)⟩
  have hlen : (table.dropWhile (fun e => decide (e.upper ≤ r.lo))).length ≤ table.length := (List.dropWhile_sublist _).length_le
  have hhead : ∀ e rest, table.dropWhile (fun e => decide (e.upper ≤ r.lo)) = e :: rest → r.lo < e.upper := by
    intro e rest h
    have := List.head_dropWhile_not (fun e : MapEntry => decide (e.upper ≤ r.lo)) (l := table) (by rw [h]; simp)
    simp only [h, List.head_cons, decide_eq_false_iff_not] at this
    omega
  obtain ⟨out, o1, o2, o3⟩ := convertLoop_spec (2 * table.length + 2) (table.dropWhile (fun e => decide (e.upper ≤ r.lo))) r.lo r.hi []
    SymSet.canon_nil hsd
    (by
      intro e he
      cases hd : table.dropWhile (fun e => decide (e.upper ≤ r.lo)) with
      | nil => rw [hd] at he; simp at he
      | cons f rest =>
        have hf := hhead f rest hd
        rw [hd] at he hsd
        rcases List.mem_cons.1 he with rfl | he
        · exact hf
        · obtain ⟨g1, g2, g3⟩ := sorted_cons hsd
          have := g2 e he
          have := g3.2 e he
          omega)
    (by
      intro e rest hd
      by_cases hl : r.lo ≤ e.lower
      · exact .inl hl
      · exact .inr (hr e (hsub e (by rw [hd]; simp)) (by omega) (hhead e rest hd)))
    (by split <;> split <;> (try split) <;> omega)
  refine ⟨out, o1, o2, fun y => ?_⟩
  rw [o3 y]
  constructor
  · rintro (h | ⟨x, h1, h2, h3⟩)
    · exact absurd h (SymSet.mem_nil y)
    · exact ⟨x, ⟨h1, h2⟩, by rw [h3, fold_dropWhile _ _ _ h1]⟩
  · rintro ⟨x, ⟨h1, h2⟩, h3⟩
    exact .inr ⟨x, h1, h2, by rw [h3, fold_dropWhile _ _ _ h1]⟩

/-- C24 for sets. -/
theorem convert_exact_partial (table : List MapEntry) (hs : Sorted table) (s : SymSet) (hr : ∀ r ∈ s, StartsWell table r) :
    ∃ out, convert table s = some out ∧ Canon out ∧ ∀ y, Mem y out ↔ ∃ x, Mem x s ∧ y = fold table x := by
  have key : ∀ (s : SymSet) (acc : SymSet), (∀ r ∈ s, StartsWell table r) → Canon acc →
      ∃ out, s.foldl (fun acc r => acc.bind (fun result => (convertRange table r).map result.union)) (some acc) = some out ∧ Canon out ∧
        ∀ y, Mem y out ↔ Mem y acc ∨ ∃ x, Mem x s ∧ y = fold table x := by
    intro s
    induction s with
    | nil =>
      intro acc _ hc
      refine ⟨acc, rfl, hc, fun y => ?_⟩
      constructor
      · exact .inl
      · rintro (h | ⟨x, h, _⟩)
        · exact h
        · exact absurd h (SymSet.mem_nil x)
    | cons r s ih =>
      intro acc hr hc
      obtain ⟨m, m1, m2, m3⟩ := convert_range_exact_partial table hs r (hr r (by simp))
      obtain ⟨u1, u2⟩ := SymSet.union_spec acc m hc (fun r hr => m2.2 r hr)
      obtain ⟨out, o1, o2, o3⟩ := ih (acc.union m) (fun r hr' => hr r (by simp [hr'])) u1
      refine ⟨out, ?_, o2, fun y => ?_⟩
      · rw [List.foldl_cons]
        simp only [Option.bind_some, m1, Option.map_some]
        exact o1
      · rw [o3 y, u2 y, m3 y, or_assoc]
        refine or_congr Iff.rfl ?_
        constructor
        · rintro (⟨x, h1, h2⟩ | ⟨x, h1, h2⟩)
          · exact ⟨x, by rw [SymSet.mem_cons]; exact .inl h1, h2⟩
          · exact ⟨x, by rw [SymSet.mem_cons]; exact .inr h1, h2⟩
        · rintro ⟨x, h1, h2⟩
          rw [SymSet.mem_cons] at h1
          rcases h1 with h1 | h1
          · exact .inl ⟨x, h1, h2⟩
          · exact .inr ⟨x, h1, h2⟩
  obtain ⟨out, o1, o2, o3⟩ := key s [] hr SymSet.canon_nil
  refine ⟨out, o1, o2, fun y => ?_⟩
  rw [o3 y]
  constructor
  · rintro (h | h)
    · exact absurd h (SymSet.mem_nil y)
    · exact h
  · exact .inr

/-- The first entries of the uppercase table (unicode_data.h 68-69). -/
def upperTable : List MapEntry := [⟨97, 123, 65⟩, ⟨181, 182, 924⟩, ⟨224, 247, 192⟩, ⟨248, 255, 216⟩]

/-- C24 is violated by ranges that start inside an entry and go past its end: the uppercase of [m-}] contains `[`, `\\` and `]`, which
are not the uppercase of anything in the range, and lacks `{`, `|` and `}`. -/
theorem convert_range_violated : Sorted upperTable ∧ convertRange upperTable ⟨109, 126⟩ = some [⟨77, 94⟩] ∧
    (Mem 91 [⟨77, 94⟩] ∧ ∀ x, (⟨109, 126⟩ : Range).Mem x → fold upperTable x ≠ 91) ∧
    (fold upperTable 123 = 123 ∧ ¬ Mem 123 [⟨77, 94⟩]) := by
  refine ⟨⟨by decide, by decide⟩, by decide, ⟨⟨_, List.mem_singleton.2 rfl, by simp [Range.Mem]⟩, ?_⟩, by decide, ?_⟩
  · rintro x ⟨h1, h2⟩
    simp only at h1 h2
    by_cases h : x < 123
    · rw [upperTable, fold_cons_in (by simp only; omega) (by simp only; omega)]
      simp only; omega
    · rw [upperTable, fold_cons_out (by simp only; omega), fold_below]
      · omega
      · intro e he
        simp only [List.mem_cons, List.not_mem_nil, or_false] at he
        rcases he with rfl | rfl | rfl <;> simp only <;> omega
  · rintro ⟨r, hr, h⟩
    rw [List.mem_singleton] at hr
    subst hr
    simp only [Range.Mem] at h
    omega

/-- [a-zµ] starts well; its uppercase is [A-Z] and U+039C. -/
example : convert upperTable [⟨97, 123⟩, ⟨181, 182⟩] = some [⟨65, 91⟩, ⟨924, 925⟩] ∧ ∀ r ∈ [(⟨97, 123⟩ : Range), ⟨181, 182⟩], StartsWell upperTable r := by
  refine ⟨by decide, ?_⟩
  intro r hr e he
  simp only [List.mem_cons, List.not_mem_nil, or_false, upperTable] at hr he
  rcases hr with rfl | rfl <;> rcases he with rfl | rfl | rfl | rfl <;> simp only <;> omega

end CaseMap
end TameParse

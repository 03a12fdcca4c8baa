import Verif.RegexCheck
import Verif.PositionProps
import Verif.RegexSyntax
/-
C91: which errors are reported in a regular expression, and where.
-/
namespace TameParse
namespace RegexCheck
open Regex

/-! ### What an error is -/

/-- The text inside the brackets of a class: up to the first `]`. If `q` a backslash quotes the character after it, otherwise it is an ordinary character. -/
inductive InClass (q : Bool) : List Int → Prop
  | nil : InClass q []
  | chr (c : Int) (w : List Int) : c ≠ 93 → (q = true → c ≠ 92) → InClass q w → InClass q (c :: w)
  | quoted (c : Int) (w : List Int) : q = true → InClass q w → InClass q (92 :: c :: w)

/-- The text inside the brackets of a group: everything that is opened in it is closed in it. The names satisfy `P`. -/
inductive InGroup (q : Bool) (P : List Int → Prop) : List Int → Prop
  | nil : InGroup q P []
  | chr (c : Int) (w : List Int) : c ∉ [40, 41, 91, 123] → (q = true → c ≠ 92) → InGroup q P w → InGroup q P (c :: w)
  | quoted (c : Int) (w : List Int) : q = true → InGroup q P w → InGroup q P (92 :: c :: w)
  | cls (b w : List Int) : InClass q b → InGroup q P w → InGroup q P (91 :: (b ++ 93 :: w))
  | name (n w : List Int) : 125 ∉ n → P n → InGroup q P w → InGroup q P (123 :: (n ++ 125 :: w))
  | group (u w : List Int) : InGroup q P u → InGroup q P w → InGroup q P (40 :: (u ++ 41 :: w))

/-- The text before a place that is not quoted and not inside a class or a name. -/
inductive Before (q : Bool) : List Int → Prop
  | nil : Before q []
  | chr (c : Int) (w : List Int) : c ∉ [92, 91, 123] → Before q w → Before q (c :: w)
  | quoted (c : Int) (w : List Int) : Before q w → Before q (92 :: c :: w)
  | cls (b w : List Int) : InClass q b → Before q w → Before q (91 :: (b ++ 93 :: w))
  | name (n w : List Int) : 125 ∉ n → Before q w → Before q (123 :: (n ++ 125 :: w))

/-- What is wrong with the text that begins here. -/
inductive Faulty (q : Bool) (known : List Int → Bool) : List Int → Fault → Prop
  | round (v : List Int) : (¬ ∃ x y, v = x ++ 41 :: y ∧ InGroup q (fun _ => True) x) → Faulty q known (40 :: v) .round
  | square (v : List Int) : (¬ ∃ x y, v = x ++ 93 :: y ∧ InClass q x) → Faulty q known (91 :: v) .square
  | curly (v : List Int) : 125 ∉ v → Faulty q known (123 :: v) .curly
  | name (n v : List Int) : 125 ∉ n → known n = false → Faulty q known (123 :: (n ++ 125 :: v)) (.name n)

/-- The error belongs to the text: it is wrong at the place that the error tells. -/
def Wrong (q : Bool) (known : List Int → Bool) (w : List Int) (e : Error) : Prop :=
  ∃ u v, w = u ++ v ∧ Before q u ∧ Faulty q known v e.fault ∧ e.pos = (Tracker.new.updateAll u).pos

/-- No bracket is written after a backslash. -/
def NoQuoted (w : List Int) : Prop := ∀ u c v, w = u ++ 92 :: c :: v → c ∉ [40, 41, 91, 93, 123]

/-! ### The search for the closing bracket -/

theorem inClass_false {b : List Int} : InClass false b ↔ 93 ∉ b := by
  constructor
  · intro h
    induction h with
    | nil => simp
    | chr c w h _ _ ih => simp only [List.mem_cons, not_or]; exact ⟨fun h' => h h'.symm, ih⟩
    | quoted c w h => cases h
  · intro h
    induction b with
    | nil => exact .nil
    | cons c b ih =>
      simp only [List.mem_cons, not_or] at h
      exact .chr c b (fun h' => h.1 h'.symm) (by intro h; cases h) (ih h.2)

theorem split_first {x : Int} {w : List Int} (h : x ∈ w) : ∃ b y, w = b ++ x :: y ∧ x ∉ b := by
  induction w with
  | nil => cases h
  | cons c w ih =>
    by_cases hc : c = x
    · subst hc; exact ⟨[], w, rfl, by simp⟩
    · obtain ⟨b, y, rfl, hb⟩ := ih (by simpa [Ne.symm hc] using h)
      exact ⟨c :: b, y, rfl, by simp only [List.mem_cons, not_or]; exact ⟨Ne.symm hc, hb⟩⟩

/-- Inside a class or a name (closed by `k`) only the closing bracket matters. -/
theorem push_inner {k c : Int} {s : List Int} (hk : k = 93 ∨ k = 125) (hc : c ≠ k) : push (k :: s) c = k :: s := by
  unfold push
  have h41 : k ≠ 41 := by omega
  simp [h41, Ne.symm hc]

theorem push_close {k : Int} {s : List Int} (hk : k = 93 ∨ k = 125 ∨ k = 41) : push (k :: s) k = s := by
  unfold push
  rcases hk with rfl | rfl | rfl <;> simp

theorem closing_inner {k : Int} (hk : k = 93 ∨ k = 125) {b : List Int} (hb : k ∉ b) (v s : List Int) :
    closing (b ++ v) (k :: s) = closing v (k :: s) := by
  induction b with
  | nil => rfl
  | cons c b ih =>
    simp only [List.mem_cons, not_or] at hb
    rw [List.cons_append, closing, push_inner hk (Ne.symm hb.1), if_neg (by simp), ih hb.2]

theorem closing_end {k : Int} (hk : k = 93 ∨ k = 125) {b : List Int} (hb : k ∉ b) (s : List Int) : closing b (k :: s) = ([], k :: s) := by
  have := closing_inner hk hb [] s
  simpa [closing] using this

theorem closing_close {k : Int} (hk : k = 93 ∨ k = 125 ∨ k = 41) (v : List Int) (s : List Int) (hs : s ≠ []) :
    closing (k :: v) (k :: s) = closing v s := by
  rw [closing, push_close hk, if_neg hs]

theorem closing_last {k : Int} (hk : k = 93 ∨ k = 125 ∨ k = 41) (v : List Int) : closing (k :: v) [k] = (k :: v, []) := by
  rw [closing, push_close hk, if_pos rfl]

theorem push_open (s : List Int) : push (41 :: s) 91 = 93 :: 41 :: s ∧ push (41 :: s) 123 = 125 :: 41 :: s ∧ push (41 :: s) 40 = 41 :: 41 :: s := by
  simp [push]

theorem push_chr {c : Int} (hc : c ∉ [40, 41, 91, 123]) (s : List Int) : push (41 :: s) c = 41 :: s := by
  simp only [List.mem_cons, List.not_mem_nil, or_false, not_or] at hc
  unfold push
  simp [hc, Ne.symm hc.2.1]

theorem closing_group {P : List Int → Prop} {x : List Int} (h : InGroup false P x) : ∀ v s, closing (x ++ v) (41 :: s) = closing v (41 :: s) := by
  induction h with
  | nil => intro v s; rfl
  | chr c w hc _ _ ih =>
    intro v s
    rw [List.cons_append, closing, push_chr hc, if_neg (by simp), ih]
  | quoted c w h => cases h
  | cls b w hb _ ih =>
    intro v s
    rw [List.cons_append, closing, (push_open s).1, if_neg (by simp), List.append_assoc, closing_inner (.inl rfl) (inClass_false.1 hb), List.cons_append,
      closing_close (.inl rfl) _ _ (by simp), ih]
  | name n w hn _ _ ih =>
    intro v s
    rw [List.cons_append, closing, (push_open s).2.1, if_neg (by simp), List.append_assoc, closing_inner (.inr rfl) hn, List.cons_append,
      closing_close (.inr (.inl rfl)) _ _ (by simp), ih]
  | group u w _ _ ihu ihw =>
    intro v s
    rw [List.cons_append, closing, (push_open s).2.2, if_neg (by simp), List.append_assoc, ihu, List.cons_append,
      closing_close (.inr (.inr rfl)) _ _ (by simp), ihw]

theorem closing_cases (k : Nat) : ∀ w : List Int, w.length ≤ k →
    (∃ x y, w = x ++ 41 :: y ∧ InGroup false (fun _ => True) x) ∨ ∀ s, (closing w (41 :: s)).2 ≠ [] := by
  induction k with
  | zero =>
    intro w hw
    have : w = [] := List.length_eq_zero_iff.1 (by omega)
    subst this
    exact .inr (fun s => by simp [closing])
  | succ k ih =>
    intro w hw
    cases w with
    | nil => exact .inr (fun s => by simp [closing])
    | cons c w =>
      simp only [List.length_cons, Nat.add_le_add_iff_right] at hw
      have inner (k' b : Int) (hk : k' = 93 ∨ k' = 125) (hp : ∀ s, push (41 :: s) b = k' :: 41 :: s)
          (mk : ∀ z x, k' ∉ z → InGroup false (fun _ => True) x → InGroup false (fun _ => True) (b :: (z ++ k' :: x))) :
          (∃ x y, b :: w = x ++ 41 :: y ∧ InGroup false (fun _ => True) x) ∨ ∀ s, (closing (b :: w) (41 :: s)).2 ≠ [] := by
        by_cases hm : k' ∈ w
        · obtain ⟨z, y, rfl, hz⟩ := split_first hm
          simp only [List.length_append, List.length_cons] at hw
          rcases ih y (by omega) with ⟨x, y', rfl, hx⟩ | h
          · exact .inl ⟨b :: (z ++ k' :: x), y', by simp, mk z x hz hx⟩
          · refine .inr (fun s => ?_)
            rw [closing, hp, if_neg (by simp), closing_inner hk hz, closing_close (by omega) _ _ (by simp)]
            exact h s
        · refine .inr (fun s => ?_)
          rw [closing, hp, if_neg (by simp), closing_end hk hm]
          simp
      by_cases h41 : c = 41
      · subst h41; exact .inl ⟨[], w, rfl, .nil⟩
      by_cases h91 : c = 91
      · subst h91
        exact inner 93 91 (.inl rfl) (fun s => (push_open s).1) (fun z x hz hx => .cls z x (inClass_false.2 hz) hx)
      by_cases h123 : c = 123
      · subst h123
        exact inner 125 123 (.inr rfl) (fun s => (push_open s).2.1) (fun z x hz hx => .name z x hz trivial hx)
      by_cases h40 : c = 40
      · subst h40
        rcases ih w hw with ⟨x, y, rfl, hx⟩ | h
        · simp only [List.length_append, List.length_cons] at hw
          rcases ih y (by omega) with ⟨x', y', rfl, hx'⟩ | h
          · exact .inl ⟨40 :: (x ++ 41 :: x'), y', by simp, .group x x' hx hx'⟩
          · refine .inr (fun s => ?_)
            rw [closing, (push_open s).2.2, if_neg (by simp), closing_group hx, closing_close (.inr (.inr rfl)) _ _ (by simp)]
            exact h s
        · refine .inr (fun s => ?_)
          rw [closing, (push_open s).2.2, if_neg (by simp)]
          exact h _
      have hc : c ∉ [40, 41, 91, 123] := by simp [h40, h41, h91, h123]
      rcases ih w hw with ⟨x, y, rfl, hx⟩ | h
      · exact .inl ⟨c :: x, y, rfl, .chr c x hc (by intro h; cases h) hx⟩
      · refine .inr (fun s => ?_)
        rw [closing, push_chr hc, if_neg (by simp)]
        exact h s

theorem closing_round (v : List Int) :
    (closing (40 :: v) []).2 = [] ↔ ∃ x y, v = x ++ 41 :: y ∧ InGroup false (fun _ => True) x := by
  have hp : push [] 40 = [41] := by simp [push]
  rw [closing, hp, if_neg (by simp)]
  constructor
  · intro h
    rcases closing_cases _ v (Nat.le_refl _) with h' | h'
    · exact h'
    · exact absurd h (h' [])
  · rintro ⟨x, y, rfl, hx⟩
    rw [closing_group hx, closing_last (.inr (.inr rfl))]

theorem closing_square {b : List Int} (hb : 93 ∉ b) (v : List Int) : closing (91 :: (b ++ 93 :: v)) [] = (93 :: v, []) := by
  have hp : push [] 91 = [93] := by simp [push]
  rw [closing, hp, if_neg (by simp), closing_inner (.inl rfl) hb, closing_last (.inl rfl)]

theorem closing_open {v : List Int} (hv : 93 ∉ v) : closing (91 :: v) [] = ([], [93]) := by
  have hp : push [] 91 = [93] := by simp [push]
  rw [closing, hp, if_neg (by simp), closing_end (.inl rfl) hv]

/-! ### The loop -/

variable (known : List Int → Bool)

theorem loop_nil (t : Tracker) : loop known t [] = [] := by rw [loop]

theorem loop_of {t t' : Tracker} {c d : Int} {rest l : List Int} {e : List Error} (h : check known t (c :: rest) = (t', d :: l, e)) :
    loop known t (c :: rest) = e ++ loop known (t'.update d) l := by
  rw [loop]
  split
  · rename_i h'
    rw [h] at h'
    cases h'
  · rename_i d' l' h'
    rw [h] at h' ⊢
    simp only [List.cons.injEq] at h'
    obtain ⟨rfl, rfl⟩ := h'
    rfl

theorem loop_stop {t t' : Tracker} {c : Int} {rest : List Int} {e : List Error} (h : check known t (c :: rest) = (t', [], e)) :
    loop known t (c :: rest) = e := by
  rw [loop]
  split
  · rw [h]
  · rename_i d' l' h'
    rw [h] at h'
    cases h'

theorem loop_chr {c : Int} (hc : c ∉ [92, 91, 123, 40]) (t : Tracker) (v : List Int) : loop known t (c :: v) = loop known (t.update c) v := by
  simp only [List.mem_cons, List.not_mem_nil, or_false, not_or] at hc
  rw [loop_of known (t' := t) (d := c) (l := v) (e := [])]
  · rfl
  · simp [check, hc]

theorem loop_round (t : Tracker) (v : List Int) :
    loop known t (40 :: v) = (if (closing (40 :: v) []).2 ≠ [] then [⟨.round, t.pos⟩] else []) ++ loop known (t.update 40) v := by
  rw [loop_of known (t' := t) (d := 40) (l := v)]
  simp [check]

theorem loop_class {b : List Int} (hb : 93 ∉ b) (t : Tracker) (v : List Int) :
    loop known t (91 :: (b ++ 93 :: v)) = loop known (t.updateAll (91 :: (b ++ [93]))) v := by
  rw [loop_of known (t' := t.updateAll (91 :: b)) (d := 93) (l := v) (e := [])]
  · have : (91 :: (b ++ [93]) : List Int) = (91 :: b) ++ [93] := rfl
    rw [this, Tracker.updateAll_append]
    rfl
  · have hl : (91 :: (b ++ 93 :: v) : List Int).length - (93 :: v).length = (91 :: b).length := by simp; omega
    have ht : (91 :: (b ++ 93 :: v)).take (91 :: b).length = (91 :: b : List Int) := by
      rw [show (91 :: (b ++ 93 :: v) : List Int) = (91 :: b) ++ 93 :: v from rfl, List.take_left]
    rw [check]
    simp only [closing_square hb]
    rw [hl, ht]
    simp

theorem loop_open {v : List Int} (hv : 93 ∉ v) (t : Tracker) : loop known t (91 :: v) = [⟨.square, t.pos⟩] := by
  apply loop_stop known (t' := t.updateAll ((91 :: v).take ((91 :: v).length - 0)))
  simp [check, closing_open hv]

theorem loop_quoted (c : Int) (t : Tracker) (v : List Int) : loop known t (92 :: c :: v) = loop known (t.updateAll [92, c]) v := by
  rw [loop_of known (t' := t.update 92) (d := c) (l := v) (e := [])]
  · rfl
  · simp [check]

theorem loop_backslash (t : Tracker) : loop known t [92] = [] := by
  apply loop_stop known (t' := t.update 92)
  simp [check]

theorem takeWhile_name {n : List Int} (hn : 125 ∉ n) (v : List Int) :
    (n ++ 125 :: v).takeWhile (fun x => decide (x ≠ 125)) = n ∧ (n ++ 125 :: v).dropWhile (fun x => decide (x ≠ 125)) = 125 :: v := by
  induction n with
  | nil => simp
  | cons c n ih =>
    simp only [List.mem_cons, not_or] at hn
    have := ih hn.2
    have hc : decide (c ≠ 125) = true := decide_eq_true (Ne.symm hn.1)
    simp only [List.cons_append, List.takeWhile_cons, List.dropWhile_cons, hc, this]
    exact ⟨rfl, rfl⟩

theorem dropWhile_none {v : List Int} (hv : 125 ∉ v) : v.dropWhile (fun x => decide (x ≠ 125)) = [] := by
  induction v with
  | nil => rfl
  | cons c v ih =>
    simp only [List.mem_cons, not_or] at hv
    have hc : decide (c ≠ 125) = true := decide_eq_true (Ne.symm hv.1)
    rw [List.dropWhile_cons, if_pos hc, ih hv.2]

theorem loop_name {n : List Int} (hn : 125 ∉ n) (t : Tracker) (v : List Int) :
    loop known t (123 :: (n ++ 125 :: v)) =
      (if known n then [] else [⟨.name n, t.pos⟩]) ++ loop known (t.updateAll (123 :: (n ++ [125]))) v := by
  rw [loop_of known (t' := t.updateAll (123 :: n)) (d := 125) (l := v) (e := if known n then [] else [⟨.name n, t.pos⟩])]
  · have : (123 :: (n ++ [125]) : List Int) = (123 :: n) ++ [125] := rfl
    rw [this, Tracker.updateAll_append]
    rfl
  · rw [check]
    simp only [(takeWhile_name hn v).1, (takeWhile_name hn v).2]
    simp [Tracker.updateAll]

theorem loop_curly {v : List Int} (hv : 125 ∉ v) (t : Tracker) : loop known t (123 :: v) = [⟨.curly, t.pos⟩] := by
  apply loop_stop known (t' := (t.update 123).updateAll (v.takeWhile (fun x => decide (x ≠ 125))))
  rw [check]
  simp only [dropWhile_none hv]
  simp

/-- The errors found are exactly those of a reading in which a backslash does not quote inside groups and classes. -/
theorem mem_loop_of {t : Tracker} {u : List Int} (h : Before false u) {v : List Int} {e : Error} (hv : Faulty false known v e.fault)
    (hp : e.pos = (t.updateAll u).pos) : e ∈ loop known t (u ++ v) := by
  induction h generalizing t with
  | nil =>
    obtain ⟨f, p⟩ := e
    simp only at hv hp
    cases hv with
    | round v h =>
      rw [List.nil_append, loop_round, if_pos (fun h' => h ((closing_round v).1 h'))]
      simp [hp, Tracker.updateAll]
    | square v h =>
      have hm : 93 ∉ v := fun hm => by
        obtain ⟨b, y, rfl, hb⟩ := split_first hm
        exact h ⟨b, y, rfl, inClass_false.2 hb⟩
      rw [List.nil_append, loop_open known hm]
      simp [hp, Tracker.updateAll]
    | curly v h =>
      rw [List.nil_append, loop_curly known h]
      simp [hp, Tracker.updateAll]
    | name n v h hk =>
      rw [List.nil_append, loop_name known h, hk]
      simp [hp, Tracker.updateAll]
  | chr c w hc _ ih =>
    have := ih (t := t.update c) hp
    by_cases h40 : c = 40
    · subst h40
      rw [List.cons_append, loop_round]
      exact List.mem_append_right _ this
    · rw [List.cons_append, loop_chr known (by simp only [List.mem_cons, List.not_mem_nil, or_false, not_or] at hc ⊢; tauto)]
      exact this
  | quoted c w _ ih =>
    rw [List.cons_append, List.cons_append, loop_quoted]
    exact ih hp
  | cls b w hb _ ih =>
    rw [List.cons_append, List.append_assoc, List.cons_append, loop_class known (inClass_false.1 hb)]
    refine ih ?_
    rw [hp, ← Tracker.updateAll_append]
    simp
  | name n w hn _ ih =>
    rw [List.cons_append, List.append_assoc, List.cons_append, loop_name known hn]
    refine List.mem_append_right _ (ih ?_)
    rw [hp, ← Tracker.updateAll_append]
    simp

theorem of_mem_loop (k : Nat) : ∀ (w : List Int) (t : Tracker) (e : Error), w.length ≤ k → e ∈ loop known t w →
    ∃ u v, w = u ++ v ∧ Before false u ∧ Faulty false known v e.fault ∧ e.pos = (t.updateAll u).pos := by
  induction k with
  | zero =>
    intro w t e hw he
    have : w = [] := List.length_eq_zero_iff.1 (by omega)
    subst this
    rw [loop_nil] at he
    cases he
  | succ k ih =>
    intro w t e hw he
    cases w with
    | nil => rw [loop_nil] at he; cases he
    | cons c w =>
      simp only [List.length_cons, Nat.add_le_add_iff_right] at hw
      by_cases h40 : c = 40
      · subst h40
        rw [loop_round, List.mem_append] at he
        rcases he with he | he
        · split at he
          · rename_i h
            rw [List.mem_singleton] at he
            subst he
            exact ⟨[], 40 :: w, rfl, .nil, .round w (fun h' => h ((closing_round w).2 h')), rfl⟩
          · cases he
        · obtain ⟨u, v, rfl, hu, hv, hp⟩ := ih w _ e hw he
          exact ⟨40 :: u, v, rfl, .chr 40 u (by decide) hu, hv, hp⟩
      by_cases h91 : c = 91
      · subst h91
        by_cases hm : 93 ∈ w
        · obtain ⟨b, y, rfl, hb⟩ := split_first hm
          rw [loop_class known hb] at he
          simp only [List.length_append, List.length_cons] at hw
          obtain ⟨u, v, rfl, hu, hv, hp⟩ := ih y _ e (by omega) he
          refine ⟨91 :: (b ++ 93 :: u), v, by simp, .cls b u (inClass_false.2 hb) hu, hv, ?_⟩
          rw [hp, ← Tracker.updateAll_append]
          simp
        · rw [loop_open known hm, List.mem_singleton] at he
          subst he
          refine ⟨[], 91 :: w, rfl, .nil, .square w ?_, rfl⟩
          rintro ⟨x, y, rfl, _⟩
          exact hm (by simp)
      by_cases h123 : c = 123
      · subst h123
        by_cases hm : 125 ∈ w
        · obtain ⟨n, y, rfl, hn⟩ := split_first hm
          rw [loop_name known hn, List.mem_append] at he
          rcases he with he | he
          · split at he
            · cases he
            · rename_i h
              rw [List.mem_singleton] at he
              subst he
              exact ⟨[], _, rfl, .nil, .name n y hn (by simpa using h), rfl⟩
          · simp only [List.length_append, List.length_cons] at hw
            obtain ⟨u, v, rfl, hu, hv, hp⟩ := ih y _ e (by omega) he
            refine ⟨123 :: (n ++ 125 :: u), v, by simp, .name n u hn hu, hv, ?_⟩
            rw [hp, ← Tracker.updateAll_append]
            simp
        · rw [loop_curly known hm, List.mem_singleton] at he
          subst he
          exact ⟨[], 123 :: w, rfl, .nil, .curly w hm, rfl⟩
      by_cases h92 : c = 92
      · subst h92
        cases w with
        | nil => rw [loop_backslash] at he; cases he
        | cons d w =>
          rw [loop_quoted] at he
          simp only [List.length_cons] at hw
          obtain ⟨u, v, rfl, hu, hv, hp⟩ := ih w _ e (by omega) he
          exact ⟨92 :: d :: u, v, rfl, .quoted d u hu, hv, hp⟩
      · rw [loop_chr known (by simp [h40, h91, h123, h92])] at he
        obtain ⟨u, v, rfl, hu, hv, hp⟩ := ih w _ e hw he
        exact ⟨c :: u, v, rfl, .chr c u (by simp [h91, h123, h92]) hu, hv, hp⟩

/-- C91, what the check does: the errors are exactly the groups, classes and names that are not closed and the names that are not known, each at its place,
in a reading in which a backslash quotes a character, but not inside a class and not in the search for the end of a group. -/
theorem check_exact (w : List Int) (e : Error) : e ∈ checkRegex known w ↔ Wrong false known w e := by
  constructor
  · exact fun h => of_mem_loop known _ w _ e (Nat.le_refl _) h
  · rintro ⟨u, v, rfl, hu, hv, hp⟩
    exact mem_loop_of known hu hv hp

/-! ### Quoted brackets -/

theorem NoQuoted.right {a b : List Int} (h : NoQuoted (a ++ b)) : NoQuoted b := by
  intro u c v hw
  exact h (a ++ u) c v (by rw [hw]; simp)

theorem NoQuoted.left {a b : List Int} (h : NoQuoted (a ++ b)) : NoQuoted a := by
  intro u c v hw
  exact h u c (v ++ b) (by rw [hw]; simp)

theorem NoQuoted.tail {c : Int} {b : List Int} (h : NoQuoted (c :: b)) : NoQuoted b := NoQuoted.right (a := [c]) h

theorem NoQuoted.head {c : Int} {b : List Int} (h : NoQuoted (92 :: c :: b)) : c ∉ [40, 41, 91, 93, 123] := h [] c b rfl

theorem inClass_drop {b : List Int} (h : InClass true b) (hb : NoQuoted b) : InClass false b := by
  induction h with
  | nil => exact .nil
  | chr c w h _ _ ih => exact .chr c w h (by intro h; cases h) (ih hb.tail)
  | quoted c w _ _ ih =>
    have hc := hb.head
    exact .chr 92 _ (by decide) (by intro h; cases h) (.chr c w (by intro h; subst h; simp at hc) (by intro h; cases h) (ih hb.tail.tail))

theorem inClass_raise (k : Nat) : ∀ b rest : List Int, b.length ≤ k → NoQuoted (b ++ 93 :: rest) → InClass false b → InClass true b := by
  induction k with
  | zero =>
    intro b rest hk _ _
    have : b = [] := List.length_eq_zero_iff.1 (by omega)
    subst this
    exact .nil
  | succ k ih =>
    intro b rest hk hb h
    cases h with
    | nil => exact .nil
    | chr c w hc _ hw =>
      simp only [List.length_cons, Nat.add_le_add_iff_right] at hk
      by_cases h92 : c = 92
      · subst h92
        cases hw with
        | nil => exact absurd hb.head (by simp)
        | chr d w hd _ hw =>
          simp only [List.length_cons] at hk
          exact .quoted d w rfl (ih w rest (by omega) hb.tail.tail hw)
        | quoted d w h => cases h
      · exact .chr c w hc (fun _ => h92) (ih w rest hk hb.tail hw)
    | quoted c w h => cases h

variable {P : List Int → Prop}

theorem inGroup_drop {x : List Int} (h : InGroup true P x) (hx : NoQuoted x) : InGroup false P x := by
  induction h with
  | nil => exact .nil
  | chr c w h _ _ ih => exact .chr c w h (by intro h; cases h) (ih hx.tail)
  | quoted c w _ _ ih =>
    have hc := hx.head
    refine .chr 92 _ (by decide) (by intro h; cases h) (.chr c w ?_ (by intro h; cases h) (ih hx.tail.tail))
    simp only [List.mem_cons, List.not_mem_nil, or_false, not_or] at hc ⊢
    exact ⟨hc.1, hc.2.1, hc.2.2.1, hc.2.2.2.2⟩
  | cls b w hb _ ih => exact .cls b w (inClass_drop hb hx.tail.left) (ih hx.tail.right.tail)
  | name n w hn hp _ ih => exact .name n w hn hp (ih hx.tail.right.tail)
  | group u w _ _ ihu ihw => exact .group u w (ihu hx.tail.left) (ihw hx.tail.right.tail)

theorem inGroup_raise (k : Nat) : ∀ x rest : List Int, x.length ≤ k → NoQuoted (x ++ 41 :: rest) → InGroup false P x → InGroup true P x := by
  induction k with
  | zero =>
    intro x rest hk _ _
    have : x = [] := List.length_eq_zero_iff.1 (by omega)
    subst this
    exact .nil
  | succ k ih =>
    intro x rest hk hx h
    cases h with
    | nil => exact .nil
    | chr c w hc _ hw =>
      simp only [List.length_cons, Nat.add_le_add_iff_right] at hk
      by_cases h92 : c = 92
      · subst h92
        cases hw with
        | nil => exact absurd hx.head (by simp)
        | chr d w hd _ hw =>
          simp only [List.length_cons] at hk
          exact .quoted d w rfl (ih w rest (by omega) hx.tail.tail hw)
        | quoted d w h => cases h
        | cls => exact absurd hx.head (by simp)
        | name => exact absurd hx.head (by simp)
        | group => exact absurd hx.head (by simp)
      · exact .chr c w hc (fun _ => h92) (ih w rest hk hx.tail hw)
    | quoted c w h => cases h
    | cls b w hb hw =>
      simp only [List.length_cons, List.length_append] at hk
      have hx' : NoQuoted (b ++ 93 :: (w ++ 41 :: rest)) := by have := hx.tail; simpa using this
      exact .cls b w (inClass_raise _ b _ (Nat.le_refl _) hx' hb) (ih w rest (by omega) hx'.right.tail hw)
    | name n w hn hp hw =>
      simp only [List.length_cons, List.length_append] at hk
      have hx' : NoQuoted (n ++ 125 :: (w ++ 41 :: rest)) := by have := hx.tail; simpa using this
      exact .name n w hn hp (ih w rest (by omega) hx'.right.tail hw)
    | group u w hu hw =>
      simp only [List.length_cons, List.length_append] at hk
      have hx' : NoQuoted (u ++ 41 :: (w ++ 41 :: rest)) := by have := hx.tail; simpa using this
      exact .group u w (ih u _ (by omega) hx' hu) (ih w rest (by omega) hx'.right.tail hw)

theorem before_iff {u : List Int} (hu : NoQuoted u) : Before false u ↔ Before true u := by
  constructor
  · intro h
    induction h with
    | nil => exact .nil
    | chr c w h _ ih => exact .chr c w h (ih hu.tail)
    | quoted c w _ ih => exact .quoted c w (ih hu.tail.tail)
    | cls b w hb _ ih => exact .cls b w (inClass_raise _ b w (Nat.le_refl _) hu.tail hb) (ih hu.tail.right.tail)
    | name n w hn _ ih => exact .name n w hn (ih hu.tail.right.tail)
  · intro h
    induction h with
    | nil => exact .nil
    | chr c w h _ ih => exact .chr c w h (ih hu.tail)
    | quoted c w _ ih => exact .quoted c w (ih hu.tail.tail)
    | cls b w hb _ ih => exact .cls b w (inClass_drop hb hu.tail.left) (ih hu.tail.right.tail)
    | name n w hn _ ih => exact .name n w hn (ih hu.tail.right.tail)

theorem faulty_iff {v : List Int} (hv : NoQuoted v) (f : Fault) : Faulty false known v f ↔ Faulty true known v f := by
  constructor
  · intro h
    cases h with
    | round v h =>
      refine .round v ?_
      rintro ⟨x, y, rfl, hx⟩
      exact h ⟨x, y, rfl, inGroup_drop hx hv.tail.left⟩
    | square v h =>
      refine .square v ?_
      rintro ⟨x, y, rfl, hx⟩
      exact h ⟨x, y, rfl, inClass_drop hx hv.tail.left⟩
    | curly v h => exact .curly v h
    | name n v h hk => exact .name n v h hk
  · intro h
    cases h with
    | round v h =>
      refine .round v ?_
      rintro ⟨x, y, rfl, hx⟩
      exact h ⟨x, y, rfl, inGroup_raise _ x y (Nat.le_refl _) hv.tail hx⟩
    | square v h =>
      refine .square v ?_
      rintro ⟨x, y, rfl, hx⟩
      exact h ⟨x, y, rfl, inClass_raise _ x y (Nat.le_refl _) hv.tail hx⟩
    | curly v h => exact .curly v h
    | name n v h hk => exact .name n v h hk

/-- C91 for expressions in which no bracket is quoted: an error is reported at a place exactly if a group, class or name that begins there is not closed, or a
name is not known, backslashes quoting everywhere. Missing: expressions with quoted brackets (`check_violated`). -/
theorem check_partial {w : List Int} (h : NoQuoted w) (e : Error) : e ∈ checkRegex known w ↔ Wrong true known w e := by
  rw [check_exact]
  constructor
  · rintro ⟨u, v, rfl, hu, hv, hp⟩
    exact ⟨u, v, rfl, (before_iff h.left).1 hu, (faulty_iff known h.right _).1 hv, hp⟩
  · rintro ⟨u, v, rfl, hu, hv, hp⟩
    exact ⟨u, v, rfl, (before_iff h.left).2 hu, (faulty_iff known h.right _).2 hv, hp⟩

/-! ### Well-written expressions -/

theorem loop_group {x : List Int} (h : InGroup true (fun n => known n = true) x) : NoQuoted x → ∀ (t : Tracker) (v : List Int),
    loop known t (x ++ v) = loop known (t.updateAll x) v := by
  induction h with
  | nil => intro _ t v; rfl
  | chr c w hc hq _ ih =>
    intro hx t v
    simp only [List.mem_cons, List.not_mem_nil, or_false, not_or] at hc
    rw [List.cons_append, loop_chr known (by simp [hc, hq rfl]), ih hx.tail]
    rfl
  | quoted c w _ _ ih =>
    intro hx t v
    rw [List.cons_append, List.cons_append, loop_quoted, ih hx.tail.tail, ← Tracker.updateAll_append]
    rfl
  | cls b w hb _ ih =>
    intro hx t v
    rw [List.cons_append, List.append_assoc, List.cons_append, loop_class known (inClass_false.1 (inClass_drop hb hx.tail.left)), ih hx.tail.right.tail,
      ← Tracker.updateAll_append]
    simp
  | name n w hn hk _ ih =>
    intro hx t v
    rw [List.cons_append, List.append_assoc, List.cons_append, loop_name known hn, ih hx.tail.right.tail, ← Tracker.updateAll_append, if_pos hk]
    simp
  | group u w hu _ ihu ihw =>
    intro hx t v
    have hc : (closing (40 :: (u ++ 41 :: (w ++ v))) []).2 = [] := by
      rw [closing_round]
      refine ⟨u, w ++ v, rfl, ?_⟩
      have := inGroup_drop hu hx.tail.left
      clear ihu ihw hu hx
      induction this with
      | nil => exact .nil
      | chr c w h h' _ ih => exact .chr c w h h' ih
      | quoted c w h => cases h
      | cls b w h _ ih => exact .cls b w h ih
      | name n w h _ _ ih => exact .name n w h trivial ih
      | group u w _ _ ih1 ih2 => exact .group u w ih1 ih2
    rw [List.cons_append, List.append_assoc, List.cons_append, loop_round, hc, if_neg (by simp), List.nil_append, ihu hx.tail.left,
      loop_chr known (by decide), ihw hx.tail.right.tail]
    have : (40 :: (u ++ 41 :: w) : List Int) = [40] ++ (u ++ ([41] ++ w)) := rfl
    rw [this, Tracker.updateAll_append, Tracker.updateAll_append, Tracker.updateAll_append]
    rfl

theorem InGroup.append {q : Bool} {x y : List Int} (hx : InGroup q P x) (hy : InGroup q P y) : InGroup q P (x ++ y) := by
  induction hx with
  | nil => exact hy
  | chr c w h h' _ ih => exact .chr c _ h h' ih
  | quoted c w h _ ih => exact .quoted c _ h ih
  | cls b w h _ ih => have := InGroup.cls (P := P) b _ h ih; simpa using this
  | name n w h h' _ ih => have := InGroup.name (P := P) n _ h h' ih; simpa using this
  | group u w h _ _ ih => have := InGroup.group (P := P) u _ h ih; simpa using this

theorem InClass.append {q : Bool} {x y : List Int} (hx : InClass q x) (hy : InClass q y) : InClass q (x ++ y) := by
  induction hx with
  | nil => exact hy
  | chr c w h h' _ ih => exact .chr c _ h h' ih
  | quoted c w h _ ih => exact .quoted c _ h ih

/-- Digits and the like. -/
def Tame (c : Int) : Prop := c ∉ [40, 41, 91, 92, 93, 123]

theorem tame_hex {u : Bool} {v : Nat} (h : v < 16) : Tame (hexChar u v) := by
  unfold Tame hexChar
  simp only [List.mem_cons, List.not_mem_nil, or_false, not_or]
  split
  · omega
  · split <;> omega

theorem tame_oct {v : Nat} (h : v < 8) : Tame (48 + (v : Int)) := by
  unfold Tame
  simp only [List.mem_cons, List.not_mem_nil, or_false, not_or]
  omega

theorem group_tame : ∀ {w : List Int}, (∀ c ∈ w, Tame c) → InGroup true P w
  | [], _ => .nil
  | c :: w, h => by
    have hc : Tame c := h c (by simp)
    simp only [Tame, List.mem_cons, List.not_mem_nil, or_false, not_or] at hc
    exact .chr c w (by simp [hc]) (fun _ => hc.2.2.2.1) (group_tame (fun d hd => h d (by simp [hd])))

theorem class_tame : ∀ {w : List Int}, (∀ c ∈ w, Tame c) → InClass true w
  | [], _ => .nil
  | c :: w, h => by
    have hc : Tame c := h c (by simp)
    simp only [Tame, List.mem_cons, List.not_mem_nil, or_false, not_or] at hc
    exact .chr c w hc.2.2.2.2.1 (fun _ => hc.2.2.2.1) (class_tame (fun d hd => h d (by simp [hd])))

/-- A symbol is written plainly or as a backslash, a character and digits. -/
theorem chr_text {c : Chr} (h : c.Ok) : (∃ x, c = .plain x ∧ c.text = [x] ∧ x ≠ 92) ∨ ∃ x w, c.text = 92 :: x :: w ∧ ∀ d ∈ w, Tame d := by
  cases c with
  | plain x => exact .inl ⟨x, rfl, rfl, h⟩
  | quoted x => exact .inr ⟨x, [], rfl, by simp⟩
  | named x v => exact .inr ⟨x, [], rfl, by simp⟩
  | hex4 u v =>
    refine .inr ⟨_, _, rfl, ?_⟩
    have h' : v < 65536 := h
    simp only [List.mem_cons, List.not_mem_nil, or_false]
    rintro d (rfl | rfl | rfl | rfl) <;> exact tame_hex (by omega)
  | hex2 u v =>
    refine .inr ⟨_, _, rfl, ?_⟩
    have h' : v < 256 := h
    simp only [List.mem_cons, List.not_mem_nil, or_false]
    rintro d (rfl | rfl) <;> exact tame_hex (by omega)
  | oct6 v =>
    refine .inr ⟨_, _, rfl, ?_⟩
    have h' : v < 262144 := h
    simp only [List.mem_cons, List.not_mem_nil, or_false]
    rintro d (rfl | rfl | rfl | rfl | rfl | rfl) <;> exact tame_oct (by omega)
  | oct3 v =>
    refine .inr ⟨_, _, rfl, ?_⟩
    have h' : v < 512 := h
    simp only [List.mem_cons, List.not_mem_nil, or_false]
    rintro d (rfl | rfl) <;> exact tame_oct (by omega)

theorem class_chr {c : Chr} (h : c.Ok) (hn : c.NotPlain [93, 45, 94]) : InClass true c.text := by
  rcases chr_text h with ⟨x, rfl, ht, hx⟩ | ⟨x, w, ht, hw⟩
  · rw [ht]
    exact .chr x [] (fun h => hn (by simp [h])) (fun _ => hx) .nil
  · rw [ht]
    exact .quoted x w rfl (class_tame hw)

theorem class_items {items : List ClassItem} (h : ∀ i ∈ items, i.Ok) : InClass true (items.flatMap ClassItem.text) := by
  induction items with
  | nil => exact .nil
  | cons i items ih =>
    rw [List.flatMap_cons]
    refine InClass.append ?_ (ih (fun j hj => h j (by simp [hj])))
    have hi := h i (by simp)
    cases i with
    | one c => exact class_chr hi.1 hi.2
    | span c d => exact InClass.append (class_chr hi.1 hi.2.1) (.chr 45 _ (by decide) (by decide) (class_chr hi.2.2.1 hi.2.2.2.1))

theorem group_atom {a : Atom} (h : a.Ok) : InGroup true P a.text := by
  cases a with
  | chr c =>
    rcases chr_text h.1 with ⟨x, rfl, ht, hx⟩ | ⟨x, w, ht, hw⟩
    · have hn : x ∉ Atom.operators := h.2
      simp only [Atom.operators, List.mem_cons, List.not_mem_nil, or_false, not_or] at hn
      exact .chr x [] (by simp [hn]) (fun _ => hx) .nil
    · rw [Atom.text, ht]
      exact .quoted x w rfl (group_tame hw)
  | any => exact .chr 46 [] (by decide) (by decide) .nil
  | cls neg items =>
    cases neg with
    | false => exact .cls _ [] (class_items h.1) .nil
    | true => exact .cls (94 :: items.flatMap ClassItem.text) [] (.chr 94 _ (by decide) (by decide) (class_items h.1)) .nil

theorem entries_ne {env : Env} {R : Bool → (Int → Prop) → Prop} : ∀ {c : Bool} {r : Re}, r.OkItems env R c → r.entries ≠ []
  | c, .entry _ _ _, _ => by simp [Re.entries]
  | c, .word _ _ _, _ => by simp [Re.entries]
  | c, .either r s, h => by
    rw [Re.OkItems] at h
    have := entries_ne h.1
    simp [Re.entries, this]
  | c, .eps, h => by simp [Re.OkItems] at h
  | c, .atom _, h => by simp [Re.OkItems] at h
  | c, .grp _, h => by simp [Re.OkItems] at h
  | c, .star _, h => by simp [Re.OkItems] at h
  | c, .plus _, h => by simp [Re.OkItems] at h
  | c, .opt _, h => by simp [Re.OkItems] at h
  | c, .cat _ _, h => by simp [Re.OkItems] at h
  | c, .alt _ _, h => by simp [Re.OkItems] at h
  | c, .ref _ _, h => by simp [Re.OkItems] at h
  | c, .lit _ _, h => by simp [Re.OkItems] at h
  | c, .unicode _ _, h => by simp [Re.OkItems] at h
  | c, .named _ _, h => by simp [Re.OkItems] at h

theorem group_text {env : Env} (hl : ∀ n, env.literals n = none) {R : Bool → (Int → Prop) → Prop} {c : Bool} (r : Re) :
    r.OkR env R c → InGroup true (fun n => knownIn env n = true) r.text := by
  have nm {n : List Int} (h1 : 125 ∉ n) (h2 : knownIn env n = true) : InGroup true (fun n => knownIn env n = true) (123 :: n ++ [125]) :=
    .name n [] h1 h2 .nil
  induction r with
  | eps => intro _; exact .nil
  | atom a => intro h; exact group_atom h.1
  | grp r ih => intro h; rw [Re.OkR] at h; exact .group r.text [] (ih h.1) .nil
  | star r ih => intro h; rw [Re.OkR] at h; exact (ih h.1).append (.chr 42 [] (by decide) (by decide) .nil)
  | plus r ih => intro h; rw [Re.OkR] at h; exact (ih h.1).append (.chr 43 [] (by decide) (by decide) .nil)
  | opt r ih => intro h; rw [Re.OkR] at h; exact (ih h.1).append (.chr 63 [] (by decide) (by decide) .nil)
  | cat r s ihr ihs => intro h; rw [Re.OkR] at h; exact (ihr h.1).append (ihs h.2.1)
  | alt r s ihr ihs => intro h; rw [Re.OkR] at h; exact (ihr h.1).append (.chr 124 _ (by decide) (by decide) (ihs h.2.1))
  | ref name r _ => intro h; rw [Re.OkR] at h; exact nm h.2.1 (by simp [knownIn, h.2.2.2])
  | lit name w => intro h; rw [Re.OkR] at h; exact absurd h.2.2.2.1 (by simp [hl])
  | unicode name s => intro h; rw [Re.OkR] at h; exact nm h.1 (by simp [knownIn, h.2.2.2.2.1])
  | named name r _ =>
    intro h
    rw [Re.OkR] at h
    exact nm h.2.1 (by simp [knownIn, h.2.2, entries_ne h.1])
  | entry _ _ _ _ => intro h; simp [Re.OkR] at h
  | word _ _ _ => intro h; simp [Re.OkR] at h
  | either _ _ _ _ => intro h; simp [Re.OkR] at h

/-- C91, no false alarms: a well-written expression that quotes no bracket draws no error. Missing: expressions with quoted brackets (`well_written_violated`),
and names that `define_expression_literal` defines (`literal_names_violated`). -/
theorem well_written_partial {env : Env} (hl : ∀ n, env.literals n = none) {R : Bool → (Int → Prop) → Prop} {c : Bool} {r : Re} (h : r.OkR env R c)
    (hq : NoQuoted r.text) : checkRegex (knownIn env) r.text = [] := by
  have := loop_group (knownIn env) (group_text hl r h) hq (Tracker.ofPos Pos.zero) []
  rw [List.append_nil, loop_nil] at this
  exact this

/-! ### Where the errors are reported -/

theorem place_tracker (t : Tracker) (u : List Int) :
    (((t.update 47).updateAll u).seenReturn = (Tracker.new.updateAll u).seenReturn) ∧
      ((t.update 47).updateAll u).pos = place t.pos (Tracker.new.updateAll u).pos := by
  induction u using List.reverseRecOn with
  | nil => exact ⟨rfl, rfl⟩
  | append_singleton u x ih =>
    rw [Tracker.updateAll_append, Tracker.updateAll_append]
    obtain ⟨hs, hp⟩ := ih
    generalize (t.update 47).updateAll u = a at *
    generalize Tracker.new.updateAll u = b at *
    obtain ⟨pa, sa⟩ := a
    obtain ⟨pb, sb⟩ := b
    simp only at hs hp
    subst hs hp
    simp only [Tracker.updateAll, List.foldl_cons, List.foldl_nil, Tracker.update]
    split
    · cases sa
      · simp [place, Pos.increment, Pos.newline]; split <;> simp <;> omega
      · simp [place, Pos.incrementOffset]; split <;> simp <;> omega
    · split
      · simp [place, Pos.newline]; split <;> simp <;> omega
      · split
        · simp [place, Pos.newline]; split <;> simp <;> omega
        · simp [place, Pos.increment]; split <;> simp <;> omega

/-- C91, where the errors are reported: if the definition is written as `/text/` after `before` in a file, the errors are reported at the places in the file
where they are. -/
theorem reported_place (before : List Int) (i : Item) (hr : i.regex = true) (hp : i.pos = (Tracker.new.updateAll before).pos) (e : Error) :
    e ∈ report known i ↔
      ∃ u v, i.text = u ++ v ∧ Before false u ∧ Faulty false known v e.fault ∧ e.pos = (Tracker.new.updateAll (before ++ 47 :: u)).pos := by
  have key (u : List Int) : (Tracker.new.updateAll (before ++ 47 :: u)).pos = place i.pos (Tracker.new.updateAll u).pos := by
    rw [Tracker.updateAll_append, hp]
    exact (place_tracker _ u).2
  unfold report
  rw [if_pos hr]
  constructor
  · intro h
    obtain ⟨e', he', rfl⟩ := List.mem_map.1 h
    obtain ⟨u, v, hw, hu, hv, hp'⟩ := (check_exact known _ _).1 he'
    exact ⟨u, v, hw, hu, hv, by rw [key, hp']⟩
  · rintro ⟨u, v, hw, hu, hv, hp'⟩
    refine List.mem_map.2 ⟨⟨e.fault, (Tracker.new.updateAll u).pos⟩, (check_exact known _ _).2 ⟨u, v, hw, hu, hv, rfl⟩, ?_⟩
    rw [← key, ← hp']

/-- C91 for a language: the errors that the lexer stage reports are those of the regular expressions among its named expressions and its definitions, at the
places in their files. -/
theorem reports_iff (exprs defs : List Item) (before : Item → List Int)
    (h : ∀ i, i ∈ exprs ∨ i ∈ defs → i.pos = (Tracker.new.updateAll (before i)).pos) (e : Error) :
    e ∈ reports known exprs defs ↔ ∃ i, (i ∈ exprs ∨ (i ∈ defs ∧ i.typed = true)) ∧ i.regex = true ∧
      ∃ u v, i.text = u ++ v ∧ Before false u ∧ Faulty false known v e.fault ∧ e.pos = (Tracker.new.updateAll (before i ++ 47 :: u)).pos := by
  have one (i : Item) (hi : i ∈ exprs ∨ i ∈ defs) : e ∈ report known i ↔ i.regex = true ∧
      ∃ u v, i.text = u ++ v ∧ Before false u ∧ Faulty false known v e.fault ∧ e.pos = (Tracker.new.updateAll (before i ++ 47 :: u)).pos := by
    by_cases hr : i.regex = true
    · rw [reported_place known (before i) i hr (h i hi)]
      exact ⟨fun h => ⟨hr, h⟩, fun h => h.2⟩
    · unfold report
      rw [if_neg hr]
      exact ⟨fun h => absurd h (by simp), fun h => absurd h.1 hr⟩
  unfold reports
  simp only [List.mem_append, List.mem_flatMap, List.mem_filter]
  constructor
  · rintro (⟨i, hi, he⟩ | ⟨i, hi, he⟩)
    · exact ⟨i, .inl hi, (one i (.inl hi)).1 he⟩
    · exact ⟨i, .inr hi, (one i (.inr hi.1)).1 he⟩
  · rintro ⟨i, hi | hi, he⟩
    · exact .inl ⟨i, hi, (one i (.inl hi)).2 he⟩
    · exact .inr ⟨i, hi, (one i (.inr hi.1)).2 he⟩

end RegexCheck
end TameParse

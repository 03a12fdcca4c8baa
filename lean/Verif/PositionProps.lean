import Verif.Position
import Mathlib.Tactic.Tauto
/-
C18, C19: positions reported for lexemes.
-/
namespace TameParse
namespace Tracker

/-! ### Specification -/

/-- The characters that end a line. -/
def lineEnders : List Int := [0x0a, 0x0b, 0x0c, 0x0d, 0x85, 0x2028, 0x2029]

/-- There is a line break at index `i` of `w`: the character there ends a line, and it is not the second half of CR LF. -/
def BreakAt (w : List Int) (i : Nat) : Bool :=
  match w[i]? with
  | none => false
  | some x => lineEnders.contains x && !(x == 0x0a && decide (0 < i) && w[i - 1]? == some 0x0d)

/-- The number of line breaks in a text. -/
def breaks (w : List Int) : Nat := (List.range w.length).countP (BreakAt w)

/-- The number of characters after the last character that ends a line. -/
def lastLine (w : List Int) : Nat := (w.reverse.takeWhile (fun x => !lineEnders.contains x)).length

/-! ### Proofs -/

theorem update_all_concat (t : Tracker) (w : List Int) (x : Int) : t.updateAll (w ++ [x]) = (t.updateAll w).update x := by
  simp [updateAll]

theorem updateAll_append (t : Tracker) (u w : List Int) : t.updateAll (u ++ w) = (t.updateAll u).updateAll w := by
  simp [updateAll]

theorem seenReturn_iff (w : List Int) : (new.updateAll w).seenReturn = true ↔ w.getLast? = some 0x0d := by
  rcases List.eq_nil_or_concat w with rfl | ⟨v, x, rfl⟩
  · simp [updateAll, new]
  · rw [List.concat_eq_append, update_all_concat]
    simp only [update, List.getLast?_concat, Option.some.injEq]
    split
    · rename_i h; subst h; split <;> simp
    · split
      · rename_i h; subst h; simp
      · rename_i h; split <;> simp [h]

theorem breakAt_append (w : List Int) (x : Int) (i : Nat) (hi : i < w.length) : BreakAt (w ++ [x]) i = BreakAt w i := by
  have e : (w ++ [x])[i]? = w[i]? := List.getElem?_append_left hi
  have e' : (w ++ [x])[i - 1]? = w[i - 1]? := List.getElem?_append_left (by omega)
  simp only [BreakAt, e, e']

theorem breakAt_last (w : List Int) (x : Int) : BreakAt (w ++ [x]) w.length = true ↔
    x ∈ lineEnders ∧ ¬ (x = 0x0a ∧ w.getLast? = some 0x0d) := by
  have e : (w ++ [x])[w.length]? = some x := by simp
  simp only [BreakAt, e]
  rcases List.eq_nil_or_concat w with rfl | ⟨v, y, rfl⟩
  · simp
  · have e' : ((v.concat y) ++ [x])[(v.concat y).length - 1]? = some y := by simp
    rw [e']
    simp
    tauto

theorem breaks_concat (w : List Int) (x : Int) : breaks (w ++ [x]) = breaks w + if BreakAt (w ++ [x]) w.length then 1 else 0 := by
  simp only [breaks, List.length_append, List.length_cons, List.length_nil, Nat.zero_add, List.range_succ, List.countP_append,
    List.countP_cons, List.countP_nil]
  congr 1
  apply List.countP_congr
  intro i hi
  rw [breakAt_append w x i (List.mem_range.1 hi)]

theorem lastLine_concat (w : List Int) (x : Int) : lastLine (w ++ [x]) = if x ∈ lineEnders then 0 else lastLine w + 1 := by
  simp only [lastLine, List.reverse_append, List.reverse_cons, List.reverse_nil, List.nil_append, List.singleton_append,
    List.takeWhile_cons]
  by_cases h : x ∈ lineEnders
  · simp [h]
  · simp [h]

/-- C18: whatever way a text is split between updates, the line number is the number of line breaks of the text and the
column is the number of characters after the last of them. -/
theorem lines_and_columns (chunks : List (List Int)) :
    let p := (chunks.foldl updateAll new).pos
    p.line = breaks chunks.flatten ∧ p.column = lastLine chunks.flatten := by
  have hsplit : ∀ (cs : List (List Int)) (t : Tracker), cs.foldl updateAll t = t.updateAll cs.flatten := by
    intro cs
    induction cs with
    | nil => intro t; rfl
    | cons c cs ih => intro t; rw [List.foldl_cons, ih, List.flatten_cons, updateAll_append]
  rw [hsplit]
  generalize chunks.flatten = w
  show (new.updateAll w).pos.line = breaks w ∧ (new.updateAll w).pos.column = lastLine w
  have : ∀ n (w : List Int), w.length = n → (new.updateAll w).pos.line = breaks w ∧ (new.updateAll w).pos.column = lastLine w := by
    intro n
    induction n with
    | zero => intro w hw; rw [List.length_eq_zero_iff.1 hw]; exact ⟨rfl, rfl⟩
    | succ n ih =>
      intro w hw
      rcases List.eq_nil_or_concat w with rfl | ⟨v, x, rfl⟩
      · simp at hw
      · rw [List.concat_eq_append] at hw ⊢
        obtain ⟨h1, h2⟩ := ih v (by simpa using hw)
        have h3 := seenReturn_iff v
        rw [breaks_concat, lastLine_concat, update_all_concat, ← h1, ← h2]
        have hb := breakAt_last v x
        generalize BreakAt (v ++ [x]) v.length = b at hb ⊢
        generalize new.updateAll v = t at *
        simp only [update]
        by_cases hlf : x = 0x0a
        · subst hlf
          have hm : (0x0a : Int) ∈ lineEnders := by simp [lineEnders]
          rw [if_pos hm, if_pos rfl]
          cases hs : t.seenReturn with
          | false =>
            have : b = true := hb.2 ⟨hm, fun h => by rw [h3.2 h.2] at hs; simp at hs⟩
            simp [this, Pos.newline, Pos.increment]
          | true =>
            have hr := h3.1 hs
            have : b = false := by
              cases b with
              | false => rfl
              | true => exact absurd ⟨rfl, hr⟩ (hb.1 rfl).2
            subst this
            have hc : t.pos.column = 0 := by
              rw [h2]
              rcases List.eq_nil_or_concat v with rfl | ⟨u, y, rfl⟩
              · simp at hr
              · rw [List.concat_eq_append] at hr ⊢
                simp only [List.getLast?_concat, Option.some.injEq] at hr
                rw [lastLine_concat, hr, if_pos (by simp [lineEnders])]
            simp [Pos.incrementOffset, hc]
        · rw [if_neg hlf]
          by_cases hm : x ∈ lineEnders
          · have hbt : b = true := hb.2 ⟨hm, fun h => hlf h.1⟩
            rw [if_pos hm, hbt]
            simp only [lineEnders, List.mem_cons, List.not_mem_nil, or_false] at hm
            by_cases hcr : x = 0x0d
            · rw [if_pos hcr]; simp [Pos.newline]
            · rw [if_neg hcr, if_pos (by omega)]; simp [Pos.newline]
          · have hbf : b = false := by
              cases b with
              | false => rfl
              | true => exact absurd (hb.1 rfl).1 hm
            rw [if_neg hm, hbf]
            simp only [lineEnders, List.mem_cons, List.not_mem_nil, or_false] at hm
            rw [if_neg (by omega), if_neg (by omega)]
            simp [Pos.increment]
  exact this _ w rfl

-- "a\r" + "\nb" + "\n\n\rcd": four breaks, two characters on the last line
example : breaks [97, 13, 10, 98, 10, 10, 13, 99, 100] = 4 ∧ lastLine [97, 13, 10, 98, 10, 10, 13, 99, 100] = 2 ∧
    ([[97, 13], [10, 98], [10, 10, 13, 99, 100]].foldl updateAll new).pos.line = 4 := by decide

/-- The characters that the tracker does not count. -/
def uncounted : List Int := [0x0b, 0x0c, 0x0d, 0x85, 0x2028, 0x2029]

/-- C19, what the tracker computes: the offset is the number of characters other than CR, VT, FF, NEL, LS and PS. -/
theorem offset_closed_form (t : Tracker) (w : List Int) :
    (t.updateAll w).pos.offset = t.pos.offset + w.countP (fun x => !uncounted.contains x) := by
  induction w generalizing t with
  | nil => rfl
  | cons x w ih =>
    show ((t.update x).updateAll w).pos.offset = _
    rw [ih, List.countP_cons]
    have : (t.update x).pos.offset = t.pos.offset + if (!uncounted.contains x) then 1 else 0 := by
      simp only [update]
      by_cases hlf : x = 0x0a
      · subst hlf
        rw [if_pos rfl]
        split <;> simp [Pos.newline, Pos.increment, Pos.incrementOffset, uncounted]
      · rw [if_neg hlf]
        by_cases hm : x ∈ uncounted
        · have hc : uncounted.contains x = true := by simpa using hm
          simp only [hc]
          simp only [uncounted, List.mem_cons, List.not_mem_nil, or_false] at hm
          by_cases hcr : x = 0x0d
          · rw [if_pos hcr]; simp [Pos.newline]
          · rw [if_neg hcr, if_pos (by omega)]; simp [Pos.newline]
        · have hc : uncounted.contains x = false := by simpa using hm
          simp only [hc]
          simp only [uncounted, List.mem_cons, List.not_mem_nil, or_false] at hm
          rw [if_neg (by omega), if_neg (by omega)]
          simp [Pos.increment]
    omega

/-- C19 holds exactly for the texts without CR, VT, FF, NEL, LS and PS. Missing: the texts with one of these. -/
theorem offset_counts_characters_partial (w : List Int) :
    (new.updateAll w).pos.offset = w.length ↔ ∀ x ∈ w, x ∉ uncounted := by
  rw [offset_closed_form]
  show 0 + _ = _ ↔ _
  rw [Nat.zero_add, List.countP_eq_length]
  simp

-- "ab\ncd" has five characters, and the offset after it is 5
example : (new.updateAll [97, 98, 10, 99, 100]).pos = ⟨5, 1, 2⟩ := by decide

/-- C19 is violated: after "a", CR, LF, "b" the offset is 3. Any text with `k` of the uncounted characters is off by `k`. -/
theorem offset_counts_characters_violated :
    (new.updateAll [97, 13, 10, 98]).pos.offset = 3 ∧
    ∀ (k : Nat), (new.updateAll (List.replicate k 13)).pos.offset = 0 := by
  refine ⟨by decide, fun k => ?_⟩
  rw [offset_closed_form]
  simp [new, Pos.zero, List.countP_replicate, uncounted]

end Tracker

/-- `lexeme::final_pos` is the position after the lexeme except when the lexeme starts with LF just after a CR, in which
case the line is one more and the offset is the same. -/
theorem final_pos_correct (u w : List Int) :
    let t := Tracker.new.updateAll u
    let after := (Tracker.new.updateAll (u ++ w)).pos
    (¬ (u.getLast? = some 0x0d ∧ w.head? = some 0x0a) → finalPos t.pos w = after) ∧
    (u.getLast? = some 0x0d ∧ w.head? = some 0x0a → finalPos t.pos w = { after with line := after.line + 1 }) := by
  intro t after
  have hkey : ∀ (v : List Int) (p : Pos) (b : Bool), (Tracker.updateAll ⟨{ p with line := p.line + 1 }, b⟩ v) =
      let r := Tracker.updateAll ⟨p, b⟩ v
      ⟨{ r.pos with line := r.pos.line + 1 }, r.seenReturn⟩ := by
    intro v
    induction v with
    | nil => intro p b; rfl
    | cons x v ih =>
      intro p b
      show Tracker.updateAll (Tracker.update _ x) v = _
      have : Tracker.update ⟨{ p with line := p.line + 1 }, b⟩ x =
          let r := Tracker.update ⟨p, b⟩ x
          ⟨{ r.pos with line := r.pos.line + 1 }, r.seenReturn⟩ := by
        simp only [Tracker.update]
        split
        · split <;> rfl
        · split
          · rfl
          · split <;> rfl
      rw [this, ih]
      rfl
  have hs := Tracker.seenReturn_iff u
  have ha : after = (t.updateAll w).pos := by simp only [after, t, Tracker.updateAll_append]
  have ht : Tracker.new.updateAll u = t := rfl
  rw [ht] at hs
  have hsame : t.seenReturn = false → finalPos t.pos w = after := by
    intro h
    rw [ha]
    have : ∀ t : Tracker, t.seenReturn = false → Tracker.ofPos t.pos = t := by
      rintro ⟨p, b⟩ h; simp only at h; subst h; rfl
    have := this t h
    simp only [finalPos, this]
  cases w with
  | nil => exact ⟨fun _ => by rw [ha]; rfl, fun h => by simp at h⟩
  | cons x w =>
    constructor
    · intro h
      cases hb : t.seenReturn with
      | false => exact hsame hb
      | true =>
        have hx : x ≠ 0x0a := fun e => h ⟨hs.1 hb, by simp [e]⟩
        rw [ha]
        have : Tracker.update (Tracker.ofPos t.pos) x = Tracker.update t x := by
          simp only [Tracker.update, if_neg hx, Tracker.ofPos]
        simp only [finalPos, Tracker.updateAll, List.foldl_cons, this]
    · rintro ⟨h1, h2⟩
      simp only [List.head?_cons, Option.some.injEq] at h2
      subst h2
      have hb := hs.2 h1
      rw [ha]
      have hc : t.pos.column = 0 := by
        have := (Tracker.lines_and_columns [u]).2
        simp only [List.foldl_cons, List.foldl_nil, List.flatten_cons, List.flatten_nil, List.append_nil] at this
        rw [ht] at this
        rw [this]
        rcases List.eq_nil_or_concat u with rfl | ⟨v, y, rfl⟩
        · simp at h1
        · rw [List.concat_eq_append] at h1 ⊢
          simp only [List.getLast?_concat, Option.some.injEq] at h1
          rw [Tracker.lastLine_concat, h1, if_pos (by simp [Tracker.lineEnders])]
      have e1 : Tracker.update (Tracker.ofPos t.pos) 0x0a = ⟨{ t.pos.incrementOffset with line := t.pos.incrementOffset.line + 1 }, false⟩ := by
        simp [Tracker.update, Tracker.ofPos, Pos.newline, Pos.increment, Pos.incrementOffset, hc]
      have e2 : Tracker.update t 0x0a = ⟨t.pos.incrementOffset, false⟩ := by simp [Tracker.update, hb]
      show (Tracker.updateAll (Tracker.update (Tracker.ofPos t.pos) 0x0a) w).pos = _
      rw [e1, hkey]
      have e3 : t.updateAll (10 :: w) = Tracker.updateAll (Tracker.update t 0x0a) w := rfl
      rw [e3, e2]

-- CR belongs to one lexeme and LF starts the next
example : finalPos (Tracker.new.updateAll [97, 13]).pos [10, 98] = ⟨3, 2, 1⟩ ∧
    (Tracker.new.updateAll [97, 13, 10, 98]).pos = ⟨3, 1, 1⟩ := by decide

/-- `position::operator<` is a strict total order. -/
theorem position_order (a b c : Pos) :
    a.lt a = false ∧ (a.lt b = true → b.lt c = true → a.lt c = true) ∧ (a.lt b = false → b.lt a = false → a = b) := by
  obtain ⟨o1, l1, c1⟩ := a
  obtain ⟨o2, l2, c2⟩ := b
  obtain ⟨o3, l3, c3⟩ := c
  simp only [Pos.lt]
  refine ⟨by simp, ?_, ?_⟩
  · intro h1 h2
    repeat' split at h1
    all_goals (repeat' split at h2)
    all_goals (repeat' split)
    all_goals (first | rfl | simp at h1 | simp at h2 | skip)
    all_goals simp at *
    all_goals omega
  · intro h1 h2
    repeat' split at h1
    all_goals (repeat' split at h2)
    all_goals (first | simp at h1 | simp at h2 | skip)
    all_goals simp at *
    all_goals omega

end TameParse

import Verif.CaseProps
import Verif.CaseTables

/-!
C88 with the tables of the source.
-/

namespace TameParse
namespace Regex
open SymSet (Mem Canon)
open CaseMap

/-! ### The tables -/

/-- Every entry ends where the next one begins, or before. -/
def chained : List MapEntry → Bool
  | [] => true
  | [e] => decide (e.lower < e.upper)
  | e :: f :: t => decide (e.lower < e.upper) && decide (e.upper ≤ f.lower) && chained (f :: t)

theorem chained_sorted : ∀ {t : List MapEntry}, chained t = true → Sorted t
  | [], _ => ⟨.nil, fun _ h => nomatch h⟩
  | [e], h => by
    simp only [chained, decide_eq_true_eq] at h
    refine ⟨by simp, fun x hx => ?_⟩
    rw [List.mem_singleton.1 hx]
    exact h
  | e :: f :: t, h => by
    simp only [chained, Bool.and_eq_true, decide_eq_true_eq] at h
    obtain ⟨⟨h1, h2⟩, h3⟩ := h
    obtain ⟨g1, g2⟩ := chained_sorted h3
    refine ⟨List.pairwise_cons.2 ⟨fun x hx => ?_, g1⟩, fun x hx => ?_⟩
    · rcases List.mem_cons.1 hx with rfl | hx
      · exact h2
      · have := (List.pairwise_cons.1 g1).1 x hx
        have := g2 f List.mem_cons_self
        omega
    · rcases List.mem_cons.1 hx with rfl | hx
      · exact h1
      · exact g2 x hx

theorem upper_sorted : Sorted uppercaseMap := chained_sorted (by decide +kernel)

theorem lower_sorted : Sorted lowercaseMap := chained_sorted (by decide +kernel)

theorem upper_ascii {x : Int} (h : x < 128) : fold uppercaseMap x = if 97 ≤ x ∧ x ≤ 122 then x - 32 else x := by
  have e : uppercaseMap = ⟨97, 123, 65⟩ :: uppercaseMap.tail := rfl
  have hb : ∀ e ∈ uppercaseMap.tail, (128 : Int) < e.lower := by
    have : uppercaseMap.tail.all (fun e => decide ((128 : Int) < e.lower)) = true := by decide +kernel
    intro e he
    simpa using List.all_eq_true.1 this e he
  rw [e]
  split
  · rw [fold_cons_in (by simp only; omega) (by simp only; omega)]
    simp only; omega
  · rw [fold_cons_out (by simp only; omega), fold_below]
    intro e he
    have := hb e he
    omega

theorem lower_ascii {x : Int} (h : x < 128) : fold lowercaseMap x = if 65 ≤ x ∧ x ≤ 90 then x + 32 else x := by
  have e : lowercaseMap = ⟨65, 91, 97⟩ :: lowercaseMap.tail := rfl
  have hb : ∀ e ∈ lowercaseMap.tail, (128 : Int) < e.lower := by
    have : lowercaseMap.tail.all (fun e => decide ((128 : Int) < e.lower)) = true := by decide +kernel
    intro e he
    simpa using List.all_eq_true.1 this e he
  rw [e]
  split
  · rw [fold_cons_in (by simp only; omega) (by simp only; omega)]
    simp only; omega
  · rw [fold_cons_out (by simp only; omega), fold_below]
    intro e he
    have := hb e he
    omega

/-! ### Literals -/

/-- The lower case letter for an ASCII letter. -/
def asciiLower (x : Int) : Int := if 65 ≤ x ∧ x ≤ 90 then x + 32 else x

theorem similar_ascii {y x : Int} (h : y < 128) : Similar lowercaseMap uppercaseMap y x ↔ asciiLower x = asciiLower y := by
  unfold Similar asciiLower
  rw [upper_ascii h, lower_ascii h]
  split <;> split <;> split <;> omega

theorem forall₂_below {R S : Int → Int → Prop} : ∀ {w v : List Int}, (∀ y ∈ w, ∀ x, R y x ↔ S y x) → (List.Forall₂ R w v ↔ List.Forall₂ S w v)
  | [], [], _ => by simp
  | [], _ :: _, _ => by simp
  | _ :: _, [], _ => by simp
  | y :: w, x :: v, h => by
    rw [List.forall₂_cons, List.forall₂_cons, h y List.mem_cons_self x,
      forall₂_below (fun z hz => h z (List.mem_cons_of_mem _ hz))]

theorem ascii_fit {w : List Int} (hw' : ∀ x ∈ w, 0 ≤ x ∧ x < 128) :
    ∀ x ∈ w, RunsFit (fun z => z = x ∨ z = fold lowercaseMap x ∨ z = fold uppercaseMap x) := by
  intro x hx s t h1 h2 h3
  have g := (similar_ascii (y := x) (x := s) (hw' x hx).2).1 (h3 s (by omega) h2)
  have := hw' x hx
  unfold asciiLower at g
  split at g <;> split at g <;> omega

theorem ascii_key {w : List Int} (hw' : ∀ x ∈ w, 0 ≤ x ∧ x < 128) :
    ∀ v, List.Forall₂ (fun y x => x = y ∨ x = fold lowercaseMap y ∨ x = fold uppercaseMap y) w v ↔ v.map asciiLower = w.map asciiLower := by
  intro v
  have e1 := forall₂_below (R := fun y x => x = y ∨ x = fold lowercaseMap y ∨ x = fold uppercaseMap y)
    (S := fun y x => asciiLower y = asciiLower x) (w := w) (v := v)
    (fun y hy x => (similar_ascii (hw' y hy).2).trans eq_comm)
  rw [e1, eq_comm (a := v.map asciiLower)]
  constructor
  · intro h
    have : List.Forall₂ (· = ·) (w.map asciiLower) (v.map asciiLower) := by
      rw [List.forall₂_map_left_iff, List.forall₂_map_right_iff]
      exact h
    rw [List.forall₂_eq_eq_eq] at this
    exact this
  · intro h
    have : List.Forall₂ (· = ·) (w.map asciiLower) (v.map asciiLower) := by
      rw [List.forall₂_eq_eq_eq]
      exact h
    rw [List.forall₂_map_left_iff, List.forall₂_map_right_iff] at this
    exact this

theorem ascii_enc (sr : Bool) {w : List Int} (hw' : ∀ x ∈ w, 0 ≤ x ∧ x < 128) :
    ∀ v : List Int, v.map asciiLower = w.map asciiLower → v.flatMap (encode sr) = v := by
  intro v hv
  have hlt : ∀ x ∈ v, x < 0x10000 := by
    intro x hx
    have : asciiLower x ∈ w.map asciiLower := by rw [← hv]; exact List.mem_map_of_mem hx
    obtain ⟨y, hy, e⟩ := List.mem_map.1 this
    have := hw' y hy
    unfold asciiLower at e
    split at e <;> split at e <;> omega
  clear hv
  induction v with
  | nil => rfl
  | cons x v ih =>
    rw [List.flatMap_cons, ih (fun y hy => hlt y (List.mem_cons_of_mem _ hy))]
    have : encode sr x = [x] := by
      unfold encode
      split
      · exact utf16_low (hlt x List.mem_cons_self)
      · rfl
    rw [this]
    rfl

/-- With the tables of the source a keyword in ASCII is accepted in every case, and nothing else is. -/
theorem insensitive_keyword (n : Ndfa) (h : n.WF) (sr : Bool) (q : Nat) (hq : q < n.states.length) (w : List Int) (hw : w ≠ [])
    (hw' : ∀ x ∈ w, 0 ≤ x ∧ x < 128) (n' : Ndfa) (f : Nat) (he : addLiteral n sr (tables lowercaseMap uppercaseMap) q w = (n', f))
    (a : Nat) (ha : a < n.states.length) (z : List Int) :
    Ndfa.Reach n' a z f ↔ ∃ p v, Ndfa.Reach n a p q ∧ v.map asciiLower = w.map asciiLower ∧ z = p ++ v := by
  rw [(insensitive_literal_partial n h sr lowercaseMap uppercaseMap lower_sorted upper_sorted q hq w hw (fun _ => ascii_fit hw') n' f he).2.2.2.2.1 a z ha]
  constructor
  · rintro ⟨p, v, hp, hv, rfl⟩
    have hv := (ascii_key hw' v).1 hv
    exact ⟨p, v, hp, hv, by rw [ascii_enc sr hw' v hv]⟩
  · rintro ⟨p, v, hp, hv, rfl⟩
    exact ⟨p, v, hp, (ascii_key hw' v).2 hv, by rw [ascii_enc sr hw' v hv]⟩

/-- "if" is accepted as "If". -/
example : ([73, 102] : List Int).map asciiLower = ([105, 102] : List Int).map asciiLower := by decide

/-- `[a-z]`: the set of symbols folds well. -/
theorem letters_fold (sr : Bool) : FoldsWell sr lowercaseMap uppercaseMap (Atom.cls false [.span (.plain 97) (.plain 122)]).Has := by
  have hP : ∀ x, (Atom.cls false [.span (.plain 97) (.plain 122)]).Has x ↔ 97 ≤ x ∧ x ≤ 122 := by
    intro x
    simp only [Atom.Has, ClassItem.Has, Chr.val, List.mem_singleton, exists_eq_left]
  refine ⟨?_, ?_, ?_⟩
  · intro e _ x h1 h2 h3 h4
    rw [hP] at h3
    have a := (hP _).1 (h4 x (by omega) (by omega))
    have b := (hP _).1 (h4 e.upper (by omega) (by omega))
    have : x = 97 := by omega
    subst this
    have : lowercaseMap.all (fun e => !(decide (e.lower < 97) && decide (97 < e.upper))) = true := by decide +kernel
    have := List.all_eq_true.1 this e (by assumption)
    simp only [Bool.not_eq_true', Bool.and_eq_false_iff, decide_eq_false_iff_not] at this
    omega
  · intro e _ x h1 h2 h3 h4
    rw [hP] at h3
    have a := (hP _).1 (h4 x (by omega) (by omega))
    have : x = 97 := by omega
    subst this
    have : uppercaseMap.all (fun e => !(decide (e.lower < 97) && decide (97 < e.upper))) = true := by decide +kernel
    have := List.all_eq_true.1 this e (by assumption)
    simp only [Bool.not_eq_true', Bool.and_eq_false_iff, decide_eq_false_iff_not] at this
    omega
  · intro _ s t h1 h2 h3
    obtain ⟨y, hy, hs⟩ := h3 s (by omega) h2
    rw [hP] at hy
    have g := (similar_ascii (by omega)).1 hs
    unfold asciiLower at g
    split at g <;> split at g <;> omega

/-- `[a-z]+` accepts "aB", without regard to the case. -/
example : ∃ n f, addRegex noDefs 1 Ndfa.new true (tables lowercaseMap uppercaseMap) 0 (Re.plus letter).text = some (n, f) ∧
    Ndfa.Reach n 0 [97, 66] f := by
  have hok : (Re.plus letter).OkP noDefs (FoldsWell true lowercaseMap uppercaseMap) :=
    ⟨⟨(letter_ok true).1, letters_fold true⟩, rfl⟩
  obtain ⟨n, f, h1, _, _, _, _, h6, _⟩ := insensitive_language_partial noDefs 1 Ndfa.new (Ndfa.built_wf .new) true lowercaseMap uppercaseMap
    lower_sorted upper_sorted 0 (by decide) (Re.plus letter) hok (by decide) (fun _ => rfl)
  refine ⟨n, f, h1, (h6 0 _ (by decide)).2 ⟨[], [97, 98], [97, 66], .refl, ?_, ?_, rfl⟩⟩
  · have hl : ∀ x : Int, 97 ≤ x → x ≤ 122 → [x] ∈ letter.lang false := fun x g1 g2 => ⟨x, ⟨_, List.mem_singleton.2 rfl, g1, g2⟩, rfl⟩
    refine ⟨[97], hl 97 (by decide) (by decide), [98], ?_, rfl⟩
    refine Language.mem_kstar.2 ⟨[[98]], rfl, fun y hy => ?_⟩
    rw [List.mem_singleton.1 hy]
    exact hl 98 (by decide) (by decide)
  · refine .cons (.inl rfl) (.cons (.inr (.inr ?_)) .nil)
    rw [upper_ascii (by decide)]
    decide

/-! ### Where it fails -/

/-- The automaton of an expression, without regard to the case. -/
def anyCase (r : Re) : Ndfa × Nat := (addRegex noDefs 1 Ndfa.new true (tables lowercaseMap uppercaseMap) 0 r.text).getD (Ndfa.new, 0)

/-- `[m-}]` -/
def fromM : Re := .atom (.cls false [.span (.plain 109) (.plain 125)])

/-- C88 is violated for `[m-}]`: `[` is accepted, but no character of the class is `[` in some case. -/
theorem insensitive_range_violated : addRegex noDefs 1 Ndfa.new true (tables lowercaseMap uppercaseMap) 0 fromM.text = some (anyCase fromM) ∧
    Ndfa.Reach (anyCase fromM).1 0 [91] (anyCase fromM).2 ∧
    ¬ ∃ u ∈ fromM.lang false, List.Forall₂ (fun y x => x = y ∨ x = fold lowercaseMap y ∨ x = fold uppercaseMap y) u [91] := by
  have hfin : (anyCase fromM).2 = 2 := by decide +kernel
  have hpath : follows (anyCase fromM).1 0 [(none, 1), (some 91, 2)] = true := by decide +kernel
  have hreach := follows_reach _ _ _ hpath
  refine ⟨?_, by rw [hfin]; exact hreach, ?_⟩
  · have : (addRegex noDefs 1 Ndfa.new true (tables lowercaseMap uppercaseMap) 0 fromM.text).isSome = true := by decide +kernel
    obtain ⟨x, hx⟩ := Option.isSome_iff_exists.1 this
    unfold anyCase
    rw [hx]
    rfl
  · rintro ⟨u, ⟨y, hy, rfl⟩, hv⟩
    have hy : 109 ≤ y ∧ y ≤ 125 := by
      simpa only [Atom.Has, ClassItem.Has, Chr.val, List.mem_singleton, exists_eq_left] using hy
    have hv : List.Forall₂ (fun y x => x = y ∨ x = fold lowercaseMap y ∨ x = fold uppercaseMap y) [y] [91] := hv
    cases hv with
    | cons h1 _ =>
      have g := (similar_ascii (y := y) (x := 91) (by omega)).1 h1
      unfold asciiLower at g
      split at g <;> split at g <;> omega

/-- `[^a]` -/
def notA : Re := .atom (.cls true [.one (.plain 97)])

def withoutA : Ndfa × Nat := (addRegex noDefs 1 Ndfa.new true (tables (lowercaseMap.take 3) (uppercaseMap.take 3)) 0 notA.text).getD (Ndfa.new, 0)

/-- A negated class accepts the characters that it excludes, as they are other characters of the class in another case. (With the first three
entries of the tables; the others do not change ASCII characters.) -/
theorem insensitive_negated : addRegex noDefs 1 Ndfa.new true (tables (lowercaseMap.take 3) (uppercaseMap.take 3)) 0 notA.text = some (withoutA) ∧
    Ndfa.Reach (withoutA).1 0 [97] (withoutA).2 ∧ [97] ∉ notA.lang true := by
  have hfin : (withoutA).2 = 2 := by decide +kernel
  have hpath : follows (withoutA).1 0 [(none, 1), (some 97, 2)] = true := by decide +kernel
  have hreach := follows_reach _ _ _ hpath
  refine ⟨?_, by rw [hfin]; exact hreach, ?_⟩
  · have : (addRegex noDefs 1 Ndfa.new true (tables (lowercaseMap.take 3) (uppercaseMap.take 3)) 0 notA.text).isSome = true := by decide +kernel
    obtain ⟨x, hx⟩ := Option.isSome_iff_exists.1 this
    unfold withoutA
    rw [hx]
    rfl
  · rintro ⟨y, ⟨_, _, hy⟩, e⟩
    have e : [97] = utf16 y := e
    have : y = 97 := by
      unfold utf16 at e
      split at e
      · simpa using e.symm
      · simp at e
    exact hy ⟨_, List.mem_singleton.2 rfl, this⟩

/-- The case in which a literal is written matters: the automaton of "ς" (0x3c2) accepts "Σ" (0x3a3), but that of "Σ" does not accept "ς". -/
theorem insensitive_written_violated (sr : Bool) (n n' : Ndfa) (f f' : Nat)
    (h : addLiteral Ndfa.new sr (tables lowercaseMap uppercaseMap) 0 [0x3c2] = (n, f))
    (h' : addLiteral Ndfa.new sr (tables lowercaseMap uppercaseMap) 0 [0x3a3] = (n', f')) :
    Ndfa.Reach n 0 [0x3a3] f ∧ ¬ Ndfa.Reach n' 0 [0x3c2] f' := by
  have h1 : fold uppercaseMap 0x3c2 = 0x3a3 := by decide +kernel
  have h2 : fold uppercaseMap 0x3a3 = 0x3a3 := by decide +kernel
  have h3 : fold lowercaseMap 0x3a3 = 0x3c3 := by decide +kernel
  have h4 : fold lowercaseMap 0x3c2 = 0x3c2 := by decide +kernel
  have fit : ∀ y : Int, y < 0x10000 → fold lowercaseMap y < 0x10000 → fold uppercaseMap y < 0x10000 → sr = true → ∀ x ∈ [y],
      RunsFit (fun z => z = x ∨ z = fold lowercaseMap x ∨ z = fold uppercaseMap x) := by
    intro y g1 g2 g3 _ x hx s t k1 k2 k3
    rw [List.mem_singleton.1 hx] at k3
    have := k3 s (by omega) k2
    dsimp only at this
    omega
  have a := (insensitive_literal_partial Ndfa.new (Ndfa.built_wf .new) sr lowercaseMap uppercaseMap lower_sorted upper_sorted 0 (by decide) [0x3c2]
    (by simp) (fit 0x3c2 (by decide) (by rw [h4]; decide) (by rw [h1]; decide)) n f h).2.2.2.2.1 0 [0x3a3] (by decide)
  have b := (insensitive_literal_partial Ndfa.new (Ndfa.built_wf .new) sr lowercaseMap uppercaseMap lower_sorted upper_sorted 0 (by decide) [0x3a3]
    (by simp) (fit 0x3a3 (by decide) (by rw [h3]; decide) (by rw [h2]; decide)) n' f' h').2.2.2.2.1 0 [0x3c2] (by decide)
  rw [a, b]
  constructor
  · exact ⟨[], [0x3a3], .refl, .cons (.inr (.inr h1.symm)) .nil, by cases sr <;> decide⟩
  · rintro ⟨p, v, hp, hv, e⟩
    cases hv with
    | @cons _ x _ _ g g' =>
      cases g'
      have e : [0x3c2] = p ++ encode sr x := by simpa using e
      have hx : x = 0x3a3 ∨ x = 0x3c3 := by
        rcases g with g | g | g
        · exact .inl g
        · rw [h3] at g; exact .inr g
        · rw [h2] at g; exact .inl g
      have hc : encode sr x = [x] := by
        unfold encode
        split
        · exact utf16_low (by omega)
        · rfl
      rw [hc] at e
      have hm : x ∈ ([0x3c2] : List Int) := by rw [e]; simp
      rw [List.mem_singleton] at hm
      omega

end Regex
end TameParse

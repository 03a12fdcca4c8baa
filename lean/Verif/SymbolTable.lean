import Verif.SymbolMapLemmas
import Mathlib.Data.List.Induction
import Mathlib.Tactic.Ring
import Mathlib.Tactic.Linarith
/-
Model of the table that maps symbols to symbol sets (property C13).

Source: /repo/TameParse/Dfa/symbol_table.h, /repo/TameParse/Dfa/symbol_translator.h.

The class template `symbol_level<next_level, mask, shift>` becomes a family of types indexed by the level: level 0 is
`symbol_level<int, 0xff, 0>` (250-360), level `d + 1` is `symbol_level<…, …, 8*(d+1)>` (49-242). `c` is `c_MaxIndex`; it is 256
except at the top of `symbol_level_for<int>`, where it is 128. `>> shift` is division by `256^d`.

Simplifications: an array of `c_MaxIndex` pointers is a function; `int` is unbounded (`range.lower() - base` could overflow only
for lower bounds near INT_MIN). Memory management is left out (level 0 has no destructor, so its arrays leak).
-/
namespace TameParse

/-- One `symbol_level` object: `DefaultSymbol` and `Symbols` (`none` is NULL). -/
structure Lvl (α : Type) where
  dflt : Int
  syms : Option (Nat → α)

/-- The symbol levels. -/
@[reducible] def Node : Nat → Type
  | 0 => Lvl Int
  | d + 1 => Lvl (Option (Node d))

namespace Node

/-- `symbol_level()` (symbol_table.h 60-63, 260-263). `symbol_set::null` is -1. -/
def empty : (d : Nat) → Node d
  | 0 => ⟨-1, none⟩
  | _ + 1 => ⟨-1, none⟩

/-- `startIndex` before the shift (symbol_table.h 103-104, 268-269). -/
def startRaw (b : Int) (r : Range) : Nat := (r.lo - b).toNat

/-- `endIndex` before the shift (symbol_table.h 109-110, 274-275). -/
def endRaw (b : Int) (r : Range) : Nat := (r.hi - b).toNat

/-- "The range entirely covers this item" (symbol_table.h 114, 279). -/
def covers (d c : Nat) (b : Int) (r : Range) : Bool :=
  startRaw b r % 256 ^ d == 0 && startRaw b r / 256 ^ d == 0 && decide (c ≤ endRaw b r / 256 ^ d)

/-- The entries visited by the loop of a level above the bottom (symbol_table.h 119, 130). The end is included. -/
def touches (d c : Nat) (b : Int) (i : Nat) (r : Range) : Bool :=
  decide (startRaw b r / 256 ^ d ≤ i) && decide (i ≤ min (endRaw b r / 256 ^ d) (c - 1))

/-- The entries filled at the bottom level (symbol_table.h 284, 293). -/
def fills (c : Nat) (b : Int) (i : Nat) (r : Range) : Bool :=
  decide (startRaw b r ≤ i) && decide (i < min (endRaw b r) c)

/-- `add_range` (symbol_table.h 101-137, 266-296). -/
def addRange : (d c : Nat) → Int → Range × Int → Node d → Node d
  | 0, c, b, r, t =>
    if covers 0 c b r.1 then ⟨r.2, t.syms⟩
    else ⟨t.dflt, some (fun i => if fills c b i r.1 then r.2 else (t.syms.getD (fun _ => -1)) i)⟩
  | d + 1, c, b, r, t =>
    if covers (d + 1) c b r.1 then ⟨r.2, t.syms⟩
    else ⟨t.dflt, some (fun i =>
      if touches (d + 1) c b i r.1 then
        some (addRange d 256 (b + i * 256 ^ (d + 1)) r (((t.syms.getD (fun _ => none)) i).getD (empty d)))
      else (t.syms.getD (fun _ => none)) i)⟩

/-- `(val & mask) >> shift` (symbol_table.h 142, 301). Division rounds down, as an arithmetic shift does. -/
def index (d c : Nat) (x : Int) : Nat := (x / (256 ^ d : Nat) % c).toNat

/-- `lookup` (symbol_table.h 140-146, 299-302). -/
def lookup : (d c : Nat) → Node d → Int → Int
  | 0, c, t, x =>
    match t.syms with
    | none => t.dflt
    | some f => f (index 0 c x)
  | d + 1, c, t, x =>
    match t.syms with
    | none => t.dflt
    | some f =>
      match f (index (d + 1) c x) with
      | none => t.dflt
      | some n => lookup d 256 n x

/-- A table filled with a list of ranges (symbol_translator.h 56-65, cplusplus.cpp 422-424). -/
def build (d c : Nat) (b : Int) (rs : List (Range × Int)) : Node d :=
  rs.foldl (fun t r => addRange d c b r t) (empty d)

/-! ## What a filled table consists of -/

/-- The identifier of the last range satisfying a condition, or -1. -/
def lastId (p : Range → Bool) (rs : List (Range × Int)) : Int :=
  ((rs.reverse.find? (fun r => p r.1)).map (·.2)).getD (-1)

theorem lastId_concat (p : Range → Bool) (rs : List (Range × Int)) (r : Range × Int) :
    lastId p (rs ++ [r]) = if p r.1 then r.2 else lastId p rs := by
  simp only [lastId, List.reverse_append, List.reverse_cons, List.reverse_nil, List.nil_append, List.singleton_append,
    List.find?_cons]
  cases h : p r.1 <;> simp

theorem lastId_cases (p : Range → Bool) (rs : List (Range × Int)) :
    (lastId p rs = -1 ∧ ∀ r ∈ rs, p r.1 = false) ∨ ∃ r ∈ rs, p r.1 = true ∧ lastId p rs = r.2 := by
  induction rs using List.reverseRecOn with
  | nil => left; simp [lastId]
  | append_singleton rs r ih =>
    rw [lastId_concat]
    cases h : p r.1 with
    | true => right; exact ⟨r, by simp, h, by simp⟩
    | false =>
      simp only [Bool.false_eq_true, if_false]
      rcases ih with ⟨h1, h2⟩ | ⟨r', h1, h2, h3⟩
      · left
        refine ⟨h1, fun q hq => ?_⟩
        rcases List.mem_append.1 hq with hq | hq
        · exact h2 q hq
        · simp only [List.mem_singleton] at hq; rw [hq]; exact h
      · exact .inr ⟨r', List.mem_append_left _ h1, h2, h3⟩

theorem build_concat (d c : Nat) (b : Int) (rs : List (Range × Int)) (r : Range × Int) :
    build d c b (rs ++ [r]) = addRange d c b r (build d c b rs) := by
  simp [build]

theorem addRange_leaf_covers {c : Nat} {b : Int} {r : Range × Int} {t : Node 0} (h : covers 0 c b r.1 = true) :
    addRange 0 c b r t = (⟨r.2, t.syms⟩ : Lvl Int) := if_pos h

theorem addRange_leaf {c : Nat} {b : Int} {r : Range × Int} {t : Node 0} (h : covers 0 c b r.1 = false) :
    addRange 0 c b r t = (⟨t.dflt, some (fun i => if fills c b i r.1 then r.2 else (t.syms.getD (fun _ => -1)) i)⟩ : Lvl Int) :=
  if_neg (by rw [h]; simp)

/-- The entry of a level. -/
def kid {d : Nat} (t : Node (d + 1)) (i : Nat) : Option (Node d) := (t.syms.getD (fun _ => none)) i

theorem addRange_level_covers {d c : Nat} {b : Int} {r : Range × Int} {t : Node (d + 1)} (h : covers (d + 1) c b r.1 = true) :
    addRange (d + 1) c b r t = (⟨r.2, t.syms⟩ : Lvl (Option (Node d))) := if_pos h

theorem addRange_level {d c : Nat} {b : Int} {r : Range × Int} {t : Node (d + 1)} (h : covers (d + 1) c b r.1 = false) :
    (addRange (d + 1) c b r t).dflt = t.dflt ∧ (addRange (d + 1) c b r t).syms ≠ none ∧
    ∀ i, kid (addRange (d + 1) c b r t) i = if touches (d + 1) c b i r.1 then
        some (addRange d 256 (b + i * 256 ^ (d + 1)) r ((kid t i).getD (empty d)))
      else kid t i := by
  have : addRange (d + 1) c b r t = (⟨t.dflt, some (fun i =>
      if touches (d + 1) c b i r.1 then
        some (addRange d 256 (b + i * 256 ^ (d + 1)) r (((t.syms.getD (fun _ => none)) i).getD (empty d)))
      else (t.syms.getD (fun _ => none)) i)⟩ : Lvl (Option (Node d))) := if_neg (by rw [h]; simp)
  rw [this]
  exact ⟨rfl, by simp, fun i => rfl⟩

/-- The ranges handed to entry `i`. -/
def passed (d c : Nat) (b : Int) (i : Nat) (rs : List (Range × Int)) : List (Range × Int) :=
  rs.filter (fun r => !covers (d + 1) c b r.1 && touches (d + 1) c b i r.1)

/-- Bottom level: the default is the last covering range; the array exists when some range does not cover the table. -/
theorem build_leaf (c : Nat) (b : Int) (rs : List (Range × Int)) :
    (build 0 c b rs).dflt = lastId (covers 0 c b) rs ∧
    ((∀ r ∈ rs, covers 0 c b r.1 = true) → (build 0 c b rs).syms = none) ∧
    ((∃ r ∈ rs, covers 0 c b r.1 = false) → ∃ f, (build 0 c b rs).syms = some f ∧
      ∀ i, f i = lastId (fun r => !covers 0 c b r && fills c b i r) rs) := by
  induction rs using List.reverseRecOn with
  | nil => refine ⟨rfl, fun _ => rfl, by simp⟩
  | append_singleton rs r ih =>
    obtain ⟨i1, i2, i3⟩ := ih
    rw [build_concat]
    simp only [lastId_concat]
    generalize build 0 c b rs = t at i1 i2 i3
    cases hcv : covers 0 c b r.1 with
    | true =>
      rw [addRange_leaf_covers hcv]
      simp only [if_true]
      refine ⟨trivial, fun h => i2 (fun q hq => h q (List.mem_append_left _ hq)), ?_⟩
      rintro ⟨q, hq, hqc⟩
      rcases List.mem_append.1 hq with hq | hq
      · obtain ⟨f, f1, f2⟩ := i3 ⟨q, hq, hqc⟩
        refine ⟨f, f1, fun i => ?_⟩
        simpa using f2 i
      · simp only [List.mem_singleton] at hq; rw [hq, hcv] at hqc; simp at hqc
    | false =>
      rw [addRange_leaf hcv]
      simp only [Bool.false_eq_true, if_false]
      refine ⟨i1, fun h => ?_, fun _ => ⟨_, rfl, fun i => ?_⟩⟩
      · have := h r (by simp); rw [hcv] at this; simp at this
      · simp only [Bool.not_false, Bool.true_and]
        by_cases hex : ∃ q ∈ rs, covers 0 c b q.1 = false
        · obtain ⟨f, f1, f2⟩ := i3 hex
          rw [f1, Option.getD_some, f2]
        · have hall : ∀ q ∈ rs, covers 0 c b q.1 = true := by
            intro q hq
            cases hx : covers 0 c b q.1 with
            | true => rfl
            | false => exact absurd ⟨q, hq, hx⟩ hex
          rw [i2 hall]
          have : lastId (fun r => !covers 0 c b r && fills c b i r) rs = -1 := by
            rcases lastId_cases (fun r => !covers 0 c b r && fills c b i r) rs with ⟨h1, _⟩ | ⟨q, h1, h2, _⟩
            · exact h1
            · simp [hall q h1] at h2
          rw [this]; rfl

theorem lookup_succ (d c : Nat) (t : Node (d + 1)) (x : Int) :
    lookup (d + 1) c t x = match kid t (index (d + 1) c x) with
      | none => t.dflt
      | some n => lookup d 256 n x := by
  simp only [lookup, kid]
  cases t.syms <;> rfl

theorem passed_concat (d c : Nat) (b : Int) (i : Nat) (rs : List (Range × Int)) (r : Range × Int) :
    passed d c b i (rs ++ [r]) = passed d c b i rs ++ if (!covers (d + 1) c b r.1 && touches (d + 1) c b i r.1) = true then [r] else [] := by
  simp only [passed, List.filter_append, List.filter_cons, List.filter_nil]

/-- Upper levels: the default is the last covering range; an entry is a table filled with the ranges handed to it. -/
theorem build_level (d c : Nat) (b : Int) (rs : List (Range × Int)) :
    (build (d + 1) c b rs).dflt = lastId (covers (d + 1) c b) rs ∧
    ∀ i, kid (build (d + 1) c b rs) i = if passed d c b i rs = [] then none
      else some (build d 256 (b + i * 256 ^ (d + 1)) (passed d c b i rs)) := by
  induction rs using List.reverseRecOn with
  | nil => exact ⟨rfl, fun i => rfl⟩
  | append_singleton rs r ih =>
    obtain ⟨i1, i2⟩ := ih
    rw [build_concat]
    simp only [lastId_concat, passed_concat]
    generalize build (d + 1) c b rs = t at i1 i2
    cases hcv : covers (d + 1) c b r.1 with
    | true =>
      rw [addRange_level_covers hcv]
      refine ⟨rfl, fun i => ?_⟩
      simp only [Bool.not_true, Bool.false_and, Bool.false_eq_true, if_false, List.append_nil]
      exact i2 i
    | false =>
      obtain ⟨a1, _, a2⟩ := addRange_level (t := t) hcv
      refine ⟨by rw [a1]; exact i1, fun i => ?_⟩
      rw [a2]
      cases htc : touches (d + 1) c b i r.1 with
      | false =>
        simp only [Bool.and_false, Bool.false_eq_true, if_false, List.append_nil]
        exact i2 i
      | true =>
        simp only [Bool.not_false, Bool.and_true, if_true]
        rw [if_neg (List.append_ne_nil_of_right_ne_nil _ (by simp)), build_concat, i2]
        by_cases he : passed d c b i rs = []
        · rw [if_pos he, he]; rfl
        · rw [if_neg he]; rfl

/-! ## Arithmetic -/

theorem covers_iff {d c : Nat} {b : Int} {r : Range} :
    covers d c b r = true ↔ (r.lo - b).toNat = 0 ∧ c * 256 ^ d ≤ (r.hi - b).toNat := by
  have hp : 0 < 256 ^ d := Nat.pow_pos (by omega)
  simp only [covers, startRaw, endRaw, Bool.and_eq_true, beq_iff_eq, decide_eq_true_eq, Nat.le_div_iff_mul_le hp]
  constructor
  · rintro ⟨⟨h1, h2⟩, h3⟩
    refine ⟨?_, h3⟩
    have := Nat.div_add_mod (r.lo - b).toNat (256 ^ d)
    rw [h2, h1] at this; simpa using this.symm
  · rintro ⟨h1, h2⟩
    simp [h1, h2]

theorem index_eq (d c : Nat) (b x : Int) (hb : ((c * 256 ^ d : Nat) : Int) ∣ b) (h1 : b ≤ x)
    (h2 : x < b + (c * 256 ^ d : Nat)) : (index d c x : Int) * (256 ^ d : Nat) ≤ x - b ∧
      x - b < (index d c x + 1 : Int) * (256 ^ d : Nat) ∧ index d c x < c := by
  have hp : (0 : Int) < (256 ^ d : Nat) := by exact_mod_cast Nat.pow_pos (by omega)
  obtain ⟨k, rfl⟩ := hb
  generalize hP : (256 ^ d : Nat) = P at *
  push_cast at *
  have hx : x = (x - c * P * k) + P * (c * k) := by ring
  have hdiv : x / P = (x - c * P * k) / P + c * k := by
    conv_lhs => rw [hx]
    rw [Int.add_mul_ediv_left _ _ (by omega)]
  have hy1 : 0 ≤ (x - c * P * k) / P := Int.ediv_nonneg (by omega) (by omega)
  have hy2 : (x - c * P * k) / P < c := by
    apply Int.ediv_lt_of_lt_mul hp; linarith
  have hmod : x / P % c = (x - c * P * k) / P := by
    rw [hdiv, Int.add_mul_emod_self_left, Int.emod_eq_of_lt hy1 hy2]
  have hidx : ((index d c x : Nat) : Int) = (x - c * P * k) / P := by
    simp only [index, hP, hmod]; omega
  rw [hidx]
  refine ⟨?_, ?_, by omega⟩
  · exact Int.ediv_mul_le _ (by omega)
  · have := Int.lt_ediv_add_one_mul_self (x - c * P * k) hp; exact this

/-- Only the low bits of a symbol matter. -/
theorem lookup_mod (d : Nat) : ∀ (c : Nat) (_ : 0 < c) (t : Node d) (x : Int), lookup d c t x = lookup d c t (x % (c * 256 ^ d : Nat)) := by
  have hidx : ∀ (d c : Nat) (_ : 0 < c) (x : Int), index d c x = index d c (x % (c * 256 ^ d : Nat)) := by
    intro d c hc x
    have hp : (0 : Int) < (256 ^ d : Nat) := by exact_mod_cast Nat.pow_pos (by omega)
    simp only [index]
    generalize (256 ^ d : Nat) = P at *
    congr 1
    push_cast
    have hx : x = x % (c * P) + P * (c * (x / (c * P))) := by
      have := Int.emod_add_mul_ediv x (c * P)
      linarith [this, mul_assoc (P : Int) c (x / (c * P)), mul_comm (c : Int) P, mul_assoc (c : Int) P (x / (c * P))]
    have hd : x / P = x % (c * P) / P + c * (x / (c * P)) := by
      conv_lhs => rw [hx]
      rw [Int.add_mul_ediv_left _ _ (by omega)]
    rw [hd, Int.add_mul_emod_self_left]
  induction d with
  | zero => intro c hc t x; simp only [lookup]; rw [hidx 0 c hc x]
  | succ d ih =>
    intro c hc t x
    rw [lookup_succ, lookup_succ, ← hidx (d + 1) c hc x]
    cases kid t (index (d + 1) c x) with
    | none => rfl
    | some n =>
      dsimp only
      rw [ih 256 (by omega) n x, ih 256 (by omega) n (x % (c * 256 ^ (d + 1) : Nat))]
      have hdvd : ((256 * 256 ^ d : Nat) : Int) ∣ ((c * 256 ^ (d + 1) : Nat) : Int) := ⟨c, by push_cast; ring⟩
      rw [Int.emod_emod_of_dvd _ hdvd]

end Node
end TameParse

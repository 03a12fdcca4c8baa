import Verif.HardCoded
/-
Property C14: the table written into generated lexers answers like the table it was made from.
-/
namespace TameParse
namespace Node

theorem hcVal_low (d : Nat) : ∀ (c : Nat) (_ : 0 < c) (_ : d = 0 → c = 256) (rs : List (Range × Int)) (x : Nat), x < 256 →
    hcVal d c (build d c 0 rs) x = lookup d c (build d c 0 rs) x ∨
    (lookup d c (build d c 0 rs) x = -1 ∧ ∃ r ∈ rs, r.1.Mem x) := by
  induction d with
  | zero =>
    intro c hc hc0 rs x hx
    obtain rfl := hc0 rfl
    obtain ⟨e1, e2, e3⟩ := build_leaf 256 0 rs
    by_cases hex : ∃ r ∈ rs, covers 0 256 0 r.1 = false
    · obtain ⟨f, f1, f2⟩ := e3 hex
      have hidx : index 0 256 (x : Int) = x := by
        simp only [index, Nat.pow_zero]; omega
      simp only [lookup, hcVal, f1, hidx, if_pos hx]
      by_cases hf : f x = -1
      · rw [if_pos hf, hf, e1]
        rcases lastId_cases (covers 0 256 0) rs with ⟨h, _⟩ | ⟨r, h3, h4, h5⟩
        · exact .inl h
        · refine .inr ⟨rfl, r, h3, ?_⟩
          rw [covers_iff] at h4
          simp only [Nat.pow_zero] at h4
          constructor <;> omega
      · rw [if_neg hf]; exact .inl rfl
    · have hall : ∀ q ∈ rs, covers 0 256 0 q.1 = true := by
        intro q hq
        cases hx : covers 0 256 0 q.1 with
        | true => rfl
        | false => exact absurd ⟨q, hq, hx⟩ hex
      simp only [lookup, hcVal, e2 hall]
      exact .inl trivial
  | succ d ih =>
    intro c hc _ rs x hx
    obtain ⟨e1, e2⟩ := build_level d c 0 rs
    have hp : 256 ≤ 256 ^ (d + 1) := by
      have : 0 < 256 ^ d := Nat.pow_pos (by omega)
      rw [Nat.pow_succ]; omega
    have hidx : index (d + 1) c (x : Int) = 0 := by
      simp only [index]
      have : ((x : Int) / (256 ^ (d + 1) : Nat)) = 0 := Int.ediv_eq_zero_of_lt (by omega) (by omega)
      rw [this]; simp
    have hpos : x / 256 ^ (d + 1) % 256 = 0 := by rw [Nat.div_eq_of_lt (by omega)]
    rw [lookup_succ, hidx]
    simp only [hcVal, hpos, if_pos hc, e2]
    by_cases hemp : passed d c 0 0 rs = []
    · rw [if_pos hemp]; exact .inl rfl
    · rw [if_neg hemp]
      have := ih 256 (by omega) (fun _ => rfl) (passed d c 0 0 rs) x hx
      simp only [Nat.cast_zero, zero_mul, add_zero] at this ⊢
      rcases this with h | ⟨h, r, h3, h4⟩
      · exact .inl h
      · exact .inr ⟨h, r, (List.mem_filter.1 h3).1, h4⟩

/-- C14, the part that holds: when the generator succeeds, the generated table gives, for the symbols below 256 and
without reading outside the table, the answer of the translation table. The ranges are as in C13. Missing: symbols from 256 up
and inputs for which the generator fails; both are refuted below. -/
theorem hard_coded_table_agrees_partial (d c : Nat) (hc : 0 < c) (hc2 : c ≤ 256) (hc0 : d = 0 → c = 256) (rs : List (Range × Int))
    (hp : rs.Pairwise (fun r r' => ∀ y, ¬ (r.1.Mem y ∧ r'.1.Mem y))) (hne : ∀ r ∈ rs, r.1.lo < r.1.hi) (hid : ∀ r ∈ rs, r.2 ≠ -1)
    (hlo : d = 0 → ∀ r ∈ rs, r.1.lo < 256) (hs : ∀ r ∈ rs, ∀ r' ∈ rs, ¬ Spoils (c * 256 ^ d) r.1 r'.1)
    (T : List Int) (hT : hcTable d c (build d c 0 rs) = some T) (x : Nat) (hx : x < 256) :
    hcLookup T d 0 x = some (lookup d c (build d c 0 rs) x) := by
  have h1 := hcLookup_spec d c hc2 _ T hT [] [] x
  simp only [List.nil_append, List.append_nil, List.length_nil] at h1
  rw [h1]
  congr 1
  rcases hcVal_low d c hc hc0 rs x hx with h | ⟨h, r, h3, h4⟩
  · exact h
  · exfalso
    have hcap : 256 ≤ c * 256 ^ d := by
      cases d with
      | zero => rw [hc0 rfl]; simp
      | succ d =>
        have h1 : 0 < c * 256 ^ d := Nat.mul_pos hc (Nat.pow_pos (by omega))
        have h2 : c * 256 ^ (d + 1) = 256 * (c * 256 ^ d) := by ring
        omega
    rcases (symbol_table_correct_iff d c hc hc0 rs hp hne hid hlo).2 hs x (by omega) (by omega) with ⟨q, hq, _, e⟩ | ⟨hno, _⟩
    · rw [h] at e; exact hid q hq e.symm
    · exact hno r h3 h4

/-- C14 fails for every symbol from 256 to 65535 whose range does not cover its whole block of 256 symbols: the generated
two-level table (the only kind that is generated) says "no symbol set". -/
theorem hard_coded_table_high_symbols_violated (rs : List (Range × Int))
    (hp : rs.Pairwise (fun r r' => ∀ y, ¬ (r.1.Mem y ∧ r'.1.Mem y)))
    (T : List Int) (hT : hcTable 1 256 (build 1 256 0 rs) = some T) (x : Nat) (h1 : 256 ≤ x) (h2 : x < 65536)
    (r : Range × Int) (hr : r ∈ rs) (hrx : r.1.Mem x) (hcov : ¬ (r.1.lo ≤ x / 256 * 256 ∧ x / 256 * 256 + 256 ≤ r.1.hi)) :
    hcLookup T 1 0 x = some (-1) := by
  have h := hcLookup_spec 1 256 (by omega) _ T hT [] [] x
  simp only [List.nil_append, List.append_nil, List.length_nil] at h
  rw [h]
  congr 1
  obtain ⟨e1, e2⟩ := build_level 0 256 0 rs
  have hpos : x / 256 ^ (0 + 1) % 256 = x / 256 := by simp only [Nat.zero_add, Nat.pow_one]; omega
  obtain ⟨r1, r2⟩ := hrx
  have hidx : index (0 + 1) 256 (x : Int) = x / 256 := by
    simp only [index, Nat.zero_add, Nat.pow_one]; omega
  have hnc : covers (0 + 1) 256 0 r.1 = false := by
    cases hx : covers (0 + 1) 256 0 r.1 with
    | false => rfl
    | true => rw [covers_iff] at hx; simp only [Nat.zero_add, Nat.pow_one] at hx; omega
  have htouch : touches (0 + 1) 256 0 (x / 256) r.1 = true := by
    rw [touches_iff (by omega)]; simp only [Nat.zero_add, Nat.pow_one]; omega
  have hmem : r ∈ passed 0 256 0 (x / 256) rs := by
    simp only [passed, List.mem_filter, hnc, htouch]; exact ⟨hr, rfl⟩
  have hnil : passed 0 256 0 (x / 256) rs ≠ [] := fun e => by rw [e] at hmem; simp at hmem
  simp only [hcVal, hpos, if_pos (by omega : x / 256 < 256), e2, if_neg hnil]
  generalize hbase : (0 : Int) + ((x / 256 : Nat) : Int) * 256 ^ (0 + 1) = b
  have hb : b = x / 256 * 256 := by rw [← hbase]; simp
  obtain ⟨g1, g2, g3⟩ := build_leaf 256 b (passed 0 256 0 (x / 256) rs)
  have hnc0 : covers 0 256 b r.1 = false := by
    cases hx : covers 0 256 b r.1 with
    | false => rfl
    | true => rw [covers_iff] at hx; simp only [Nat.pow_zero] at hx; omega
  obtain ⟨f, f1, _⟩ := g3 ⟨r, hmem, hnc0⟩
  simp only [f1, if_neg (by omega : ¬ x < 256)]
  rw [g1]
  rcases lastId_cases (covers 0 256 b) (passed 0 256 0 (x / 256) rs) with ⟨h, _⟩ | ⟨q, h3, h4, _⟩
  · exact h
  · exfalso
    have hqr : q ≠ r := fun e => by rw [e, hnc0] at h4; simp at h4
    rw [covers_iff] at h4
    simp only [Nat.pow_zero] at h4
    exact pairwise_disjoint hp (List.mem_filter.1 h3).1 hr hqr x ⟨by constructor <;> omega, r1, r2⟩

/-- C14 fails for the set `[a-ÿ]`: the generator computes the size -254 for the table of symbols 0x100 to 0x1ff. -/
theorem hard_coded_table_size_violated : hcTable 1 256 (build 1 256 0 [(⟨97, 256⟩, 0)]) = none := by decide +kernel

/-- Both halves on one table: `[a-z]` is set 0 and the Greek letters `[α-ω]` are set 1. -/
def latinGreek : List (Range × Int) := [(⟨97, 123⟩, 0), (⟨0x3b1, 0x3ca⟩, 1)]

def latinGreekTable : List Int := (hcTable 1 256 (build 1 256 0 latinGreek)).getD []

example : hcTable 1 256 (build 1 256 0 latinGreek) = some latinGreekTable ∧ latinGreekTable.length = 61 ∧
    hcLookup latinGreekTable 1 0 98 = some 0 ∧ hcLookup latinGreekTable 1 0 65 = some (-1) ∧
    lookup 1 256 (build 1 256 0 latinGreek) 0x3b2 = 1 ∧ hcLookup latinGreekTable 1 0 0x3b2 = some (-1) := by
  decide +kernel

end Node
end TameParse

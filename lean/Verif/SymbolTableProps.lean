import Verif.SymbolTable
import Mathlib.Tactic.Positivity
/-
Property C13: the translation table returns the symbol set of every symbol.
-/
namespace TameParse
namespace Node

/-- What a lookup should return: the identifier of the range containing the symbol, or -1 if there is none. -/
def Answers (rs : List (Range × Int)) (x v : Int) : Prop :=
  (∃ r ∈ rs, r.1.Mem x ∧ v = r.2) ∨ ((∀ r ∈ rs, ¬ r.1.Mem x) ∧ v = -1)

/-- Two ranges that spoil each other: the first ends (or lies below zero) where a block of 256 symbols starts that the second
covers completely. -/
def Spoils (cap : Nat) (r r' : Range) : Prop :=
  max 0 r.hi % 256 = 0 ∧ max 0 r.hi < cap ∧ r'.lo ≤ max 0 r.hi ∧ max 0 r.hi + 256 ≤ r'.hi

theorem pairwise_disjoint {rs : List (Range × Int)} (hp : rs.Pairwise (fun r r' => ∀ y, ¬ (r.1.Mem y ∧ r'.1.Mem y)))
    {r r' : Range × Int} (hr : r ∈ rs) (hr' : r' ∈ rs) (hne : r ≠ r') : ∀ y, ¬ (r.1.Mem y ∧ r'.1.Mem y) := by
  induction hp with
  | nil => simp at hr
  | cons h _ ih =>
    rcases List.mem_cons.1 hr with rfl | hr1 <;> rcases List.mem_cons.1 hr' with rfl | hr2
    · exact absurd rfl hne
    · exact h r' hr2
    · exact fun y hy => h r hr1 y hy.symm
    · exact ih hr1 hr2

theorem touches_iff {d c : Nat} {b : Int} {i : Nat} {r : Range} (hi : i < c) :
    touches d c b i r = true ↔ (r.lo - b).toNat < (i + 1) * 256 ^ d ∧ i * 256 ^ d ≤ (r.hi - b).toNat := by
  have hp : 0 < 256 ^ d := Nat.pow_pos (by omega)
  simp only [touches, Bool.and_eq_true, decide_eq_true_eq, Nat.le_min]
  simp only [startRaw, endRaw]
  rw [Nat.le_div_iff_mul_le hp, ← Nat.lt_succ_iff, Nat.div_lt_iff_lt_mul hp]
  constructor
  · rintro ⟨h1, h2, _⟩; exact ⟨h1, h2⟩
  · rintro ⟨h1, h2⟩; exact ⟨h1, h2, by omega⟩

theorem fills_iff {c : Nat} {b : Int} {i : Nat} {r : Range} :
    fills c b i r = true ↔ (r.lo - b).toNat ≤ i ∧ i < (r.hi - b).toNat ∧ i < c := by
  simp only [fills, Bool.and_eq_true, decide_eq_true_eq, Nat.lt_min]
  simp only [startRaw, endRaw]

/-- A symbol in a table lies in exactly one entry, and ranges containing it reach that entry. -/
theorem entry_of (d c : Nat) (b x : Int) (hb : ((c * 256 ^ d : Nat) : Int) ∣ b) (h1 : b ≤ x)
    (h2 : x < b + (c * 256 ^ d : Nat)) :
    index d c x < c ∧ b + index d c x * (256 ^ d : Nat) ≤ x ∧ x < b + index d c x * (256 ^ d : Nat) + (256 ^ d : Nat) ∧
      ∀ r : Range, r.Mem x → touches d c b (index d c x) r = true := by
  obtain ⟨i1, i2, i3⟩ := index_eq d c b x hb h1 h2
  have i2' : x - b < index d c x * (256 ^ d : Nat) + (256 ^ d : Nat) := by
    have : (index d c x + 1 : Int) * (256 ^ d : Nat) = index d c x * (256 ^ d : Nat) + (256 ^ d : Nat) := by ring
    omega
  refine ⟨i3, by omega, by omega, fun r hr => ?_⟩
  rw [touches_iff i3]
  obtain ⟨r1, r2⟩ := hr
  generalize index d c x = i at *
  have e1 : (((i + 1) * 256 ^ d : Nat) : Int) = i * (256 ^ d : Nat) + (256 ^ d : Nat) := by push_cast; ring
  have e2 : ((i * 256 ^ d : Nat) : Int) = i * (256 ^ d : Nat) := by push_cast; ring
  constructor
  · have hpos : (0 : Int) < (256 ^ d : Nat) := by exact_mod_cast Nat.pow_pos (by omega)
    have h0 : (0 : Int) ≤ i * (256 ^ d : Nat) := by positivity
    omega
  · omega

theorem child_dvd {d c i : Nat} {b : Int} (hb : ((c * 256 ^ (d + 1) : Nat) : Int) ∣ b) :
    ((256 * 256 ^ d : Nat) : Int) ∣ b + i * (256 ^ (d + 1) : Nat) := by
  obtain ⟨k, rfl⟩ := hb
  exact ⟨c * k + i, by push_cast; ring⟩

/-- A lookup never returns the identifier of a range that does not contain the symbol. No condition on the ranges. -/
theorem lookup_sound (d : Nat) : ∀ (c : Nat) (_ : 0 < c) (b : Int) (_ : ((c * 256 ^ d : Nat) : Int) ∣ b) (rs : List (Range × Int)) (x : Int),
    b ≤ x → x < b + (c * 256 ^ d : Nat) →
    lookup d c (build d c b rs) x = -1 ∨ ∃ r ∈ rs, r.1.Mem x ∧ lookup d c (build d c b rs) x = r.2 := by
  have hcov : ∀ (d c : Nat) (b x : Int) (r : Range), b ≤ x → x < b + (c * 256 ^ d : Nat) → covers d c b r = true → r.Mem x := by
    intro d c b x r h1 h2 hcv
    rw [covers_iff] at hcv
    have hpos : (0 : Int) < (256 ^ d : Nat) := by exact_mod_cast Nat.pow_pos (by omega)
    constructor <;> omega
  induction d with
  | zero =>
    intro c hc b hb rs x h1 h2
    obtain ⟨e1, e2, e3⟩ := build_leaf c b rs
    by_cases hex : ∃ r ∈ rs, covers 0 c b r.1 = false
    · obtain ⟨f, f1, f2⟩ := e3 hex
      simp only [lookup, f1, f2]
      obtain ⟨g1, g2, g3, _⟩ := entry_of 0 c b x hb h1 h2
      rcases lastId_cases (fun r => !covers 0 c b r && fills c b (index 0 c x) r) rs with ⟨h, _⟩ | ⟨r, h3, h4, h5⟩
      · exact .inl h
      · refine .inr ⟨r, h3, ?_, h5⟩
        simp only [Bool.and_eq_true, fills_iff] at h4
        simp only [Nat.pow_zero] at g2 g3
        constructor <;> omega
    · have hall : ∀ q ∈ rs, covers 0 c b q.1 = true := by
        intro q hq
        cases hx : covers 0 c b q.1 with
        | true => rfl
        | false => exact absurd ⟨q, hq, hx⟩ hex
      simp only [lookup, e2 hall, e1]
      rcases lastId_cases (covers 0 c b) rs with ⟨h, _⟩ | ⟨r, h3, h4, h5⟩
      · exact .inl h
      · exact .inr ⟨r, h3, hcov 0 c b x r.1 h1 h2 h4, h5⟩
  | succ d ih =>
    intro c hc b hb rs x h1 h2
    obtain ⟨e1, e2⟩ := build_level d c b rs
    obtain ⟨g1, g2, g3, _⟩ := entry_of (d + 1) c b x hb h1 h2
    rw [lookup_succ, e2]
    by_cases hemp : passed d c b (index (d + 1) c x) rs = []
    · rw [if_pos hemp]
      simp only [e1]
      rcases lastId_cases (covers (d + 1) c b) rs with ⟨h, _⟩ | ⟨r, h3, h4, h5⟩
      · exact .inl h
      · exact .inr ⟨r, h3, hcov (d + 1) c b x r.1 h1 h2 h4, h5⟩
    · rw [if_neg hemp]
      dsimp only
      have hs : ((256 * 256 ^ d : Nat) : Int) = (256 ^ (d + 1) : Nat) := by push_cast; ring
      have hcast : ((256 : Int) ^ (d + 1)) = ((256 ^ (d + 1) : Nat) : Int) := by push_cast; ring
      have := ih 256 (by omega) (b + (index (d + 1) c x : Int) * 256 ^ (d + 1)) (by rw [hcast]; exact child_dvd hb)
        (passed d c b (index (d + 1) c x) rs) x (by rw [hcast]; omega) (by rw [hcast, hs]; omega)
      rcases this with h | ⟨r, h3, h4⟩
      · exact .inl h
      · exact .inr ⟨r, (List.mem_filter.1 h3).1, h4⟩

/-- Which ranges a symbol table entry receives, and what is wrong with a pair that spoils it. -/
theorem covered_and_touched {d c : Nat} {b : Int} {r r0 : Range} (hb0 : 0 ≤ b) (hne : r0.lo < r0.hi) (hdis : ∀ x, ¬ (r0.Mem x ∧ r.Mem x))
    (hc256 : 256 ≤ c * 256 ^ d) (hcov : covers d c b r = true) (hlo : r0.lo < b + (c * 256 ^ d : Nat)) (hhi : b ≤ max 0 r0.hi)
    (hb256 : b % 256 = 0) (cap : Nat) (hcap : b < cap) : Spoils cap r0 r := by
  rw [covers_iff] at hcov
  have h1 : ¬ b < r0.hi := by
    intro hlt
    have := hdis (max r0.lo b)
    apply this
    constructor <;> constructor <;> omega
  have hm : max 0 r0.hi = b := by omega
  unfold Spoils
  rw [hm]
  refine ⟨hb256, hcap, ?_, ?_⟩ <;> omega

theorem lookup_complete (d : Nat) : ∀ (c : Nat) (_ : 0 < c) (_ : 256 ≤ c * 256 ^ d) (b : Int) (_ : 0 ≤ b)
    (_ : ((c * 256 ^ d : Nat) : Int) ∣ b) (_ : b % 256 = 0) (cap : Nat) (_ : b + (c * 256 ^ d : Nat) ≤ cap)
    (rs : List (Range × Int)) (x : Int), b ≤ x → x < b + (c * 256 ^ d : Nat) →
    rs.Pairwise (fun r r' => ∀ y, ¬ (r.1.Mem y ∧ r'.1.Mem y)) → (∀ r ∈ rs, r.1.lo < r.1.hi) →
    (∀ r ∈ rs, b ≤ max 0 r.1.hi) → (d = 0 → ∀ r ∈ rs, r.1.lo < b + (c * 256 ^ d : Nat)) →
    (∀ r ∈ rs, ∀ r' ∈ rs, ¬ Spoils cap r.1 r'.1) →
    ∀ r ∈ rs, r.1.Mem x → lookup d c (build d c b rs) x = r.2 := by
  have huniq : ∀ (rs : List (Range × Int)) (x : Int), rs.Pairwise (fun r r' => ∀ y, ¬ (r.1.Mem y ∧ r'.1.Mem y)) →
      ∀ r ∈ rs, r.1.Mem x → ∀ r' ∈ rs, r'.1.Mem x → r = r' := by
    intro rs x hp r hr hrx r' hr' hrx'
    by_contra hne
    exact pairwise_disjoint hp hr hr' hne x ⟨hrx, hrx'⟩
  have hdis : ∀ (rs : List (Range × Int)), rs.Pairwise (fun r r' => ∀ y, ¬ (r.1.Mem y ∧ r'.1.Mem y)) →
      ∀ r ∈ rs, ∀ r' ∈ rs, r ≠ r' → ∀ y, ¬ (r.1.Mem y ∧ r'.1.Mem y) := by
    intro rs hp r hr r' hr' hne
    exact pairwise_disjoint hp hr hr' hne
  have hcovm : ∀ (d c : Nat) (b x : Int) (r : Range), b ≤ x → x < b + (c * 256 ^ d : Nat) → covers d c b r = true → r.Mem x := by
    intro d c b x r h1 h2 hcv
    rw [covers_iff] at hcv
    have hpos : (0 : Int) < (256 ^ d : Nat) := by exact_mod_cast Nat.pow_pos (by omega)
    constructor <;> omega
  induction d with
  | zero =>
    intro c hc hc256 b hb0 hb hb256 cap hcap rs x h1 h2 hp hne hhi hlo hgood r hr hrx
    obtain ⟨e1, e2, e3⟩ := build_leaf c b rs
    obtain ⟨g1, g2, g3, _⟩ := entry_of 0 c b x hb h1 h2
    simp only [Nat.pow_zero] at g2 g3
    by_cases hex : ∃ r ∈ rs, covers 0 c b r.1 = false
    · obtain ⟨f, f1, f2⟩ := e3 hex
      simp only [lookup, f1, f2]
      cases hcv : covers 0 c b r.1 with
      | true =>
        exfalso
        obtain ⟨r0, hr0, hc0⟩ := hex
        have hne0 : r0 ≠ r := fun e => by rw [e, hcv] at hc0; simp at hc0
        exact hgood r0 hr0 r hr (covered_and_touched hb0 (hne r0 hr0) (hdis rs hp r0 hr0 r hr hne0) hc256 hcv (hlo rfl r0 hr0)
          (hhi r0 hr0) hb256 cap (by omega))
      | false =>
        have hfill : fills c b (index 0 c x) r.1 = true := by
          obtain ⟨r1, r2⟩ := hrx
          simp only [fills_iff]
          omega
        rcases lastId_cases (fun r => !covers 0 c b r && fills c b (index 0 c x) r) rs with ⟨_, h⟩ | ⟨r', h3, h4, h5⟩
        · have := h r hr; simp [hcv, hfill] at this
        · rw [h5]
          have : r'.1.Mem x := by
            simp only [Bool.and_eq_true, fills_iff] at h4
            constructor <;> omega
          rw [huniq rs x hp r hr hrx r' h3 this]
    · have hall : ∀ q ∈ rs, covers 0 c b q.1 = true := by
        intro q hq
        cases hx : covers 0 c b q.1 with
        | true => rfl
        | false => exact absurd ⟨q, hq, hx⟩ hex
      simp only [lookup, e2 hall, e1]
      rcases lastId_cases (covers 0 c b) rs with ⟨_, h⟩ | ⟨r', h3, h4, h5⟩
      · have := h r hr; rw [hall r hr] at this; simp at this
      · rw [h5, huniq rs x hp r hr hrx r' h3 (hcovm 0 c b x r'.1 h1 h2 h4)]
  | succ d ih =>
    intro c hc hc256 b hb0 hb hb256 cap hcap rs x h1 h2 hp hne hhi hlo hgood r hr hrx
    obtain ⟨e1, e2⟩ := build_level d c b rs
    obtain ⟨g1, g2, g3, g4⟩ := entry_of (d + 1) c b x hb h1 h2
    have hs : ((256 * 256 ^ d : Nat) : Int) = (256 ^ (d + 1) : Nat) := by push_cast; ring
    have hcast : ((256 : Int) ^ (d + 1)) = ((256 ^ (d + 1) : Nat) : Int) := by push_cast; ring
    have hsize : ((c * 256 ^ (d + 1) : Nat) : Int) = c * (256 ^ (d + 1) : Nat) := by push_cast; ring
    have hpos : (0 : Int) < (256 ^ (d + 1) : Nat) := by exact_mod_cast Nat.pow_pos (by omega)
    have hin : (index (d + 1) c x : Int) * (256 ^ (d + 1) : Nat) + (256 ^ (d + 1) : Nat) ≤ c * (256 ^ (d + 1) : Nat) := by
      have : ((index (d + 1) c x : Int) + 1) * (256 ^ (d + 1) : Nat) ≤ c * (256 ^ (d + 1) : Nat) := by
        apply mul_le_mul_of_nonneg_right _ (by omega); omega
      linarith [this, add_mul (index (d + 1) c x : Int) 1 (256 ^ (d + 1) : Nat)]
    have hi0 : (0 : Int) ≤ (index (d + 1) c x : Int) * (256 ^ (d + 1) : Nat) := by positivity
    have htouch : ∀ r0 : Range, touches (d + 1) c b (index (d + 1) c x) r0 = true →
        r0.lo < b + index (d + 1) c x * (256 ^ (d + 1) : Nat) + (256 ^ (d + 1) : Nat) ∧
        (b ≤ max 0 r0.hi → b + index (d + 1) c x * (256 ^ (d + 1) : Nat) ≤ max 0 r0.hi) := by
      intro r0 ht
      rw [touches_iff g1] at ht
      have q1 : (((index (d + 1) c x + 1) * 256 ^ (d + 1) : Nat) : Int) =
          index (d + 1) c x * (256 ^ (d + 1) : Nat) + (256 ^ (d + 1) : Nat) := by push_cast; ring
      have q2 : ((index (d + 1) c x * 256 ^ (d + 1) : Nat) : Int) = index (d + 1) c x * (256 ^ (d + 1) : Nat) := by push_cast; ring
      constructor
      · omega
      · intro _; omega
    rw [lookup_succ, e2]
    split
    · rename_i hx
      split at hx
      · rename_i hemp
        cases hcv : covers (d + 1) c b r.1 with
        | false =>
          exfalso
          have : r ∈ passed d c b (index (d + 1) c x) rs := by
            simp only [passed, List.mem_filter, hcv, g4 r.1 hrx]
            exact ⟨hr, rfl⟩
          rw [hemp] at this; simp at this
        | true =>
          rw [e1]
          rcases lastId_cases (covers (d + 1) c b) rs with ⟨_, h⟩ | ⟨r', h3, h4, h5⟩
          · have := h r hr; rw [hcv] at this; simp at this
          · rw [h5, huniq rs x hp r hr hrx r' h3 (hcovm (d + 1) c b x r'.1 h1 h2 h4)]
      · simp at hx
    · rename_i n hx
      split at hx
      · simp at hx
      · rename_i hemp
        simp only [Option.some.injEq] at hx
        subst hx
        cases hcv : covers (d + 1) c b r.1 with
        | true =>
          exfalso
          obtain ⟨r0, hr0⟩ := List.exists_mem_of_ne_nil _ hemp
          simp only [passed, List.mem_filter, Bool.and_eq_true, Bool.not_eq_true'] at hr0
          obtain ⟨hr0, hc0, ht0⟩ := hr0
          have hne0 : r0 ≠ r := fun e => by rw [e, hcv] at hc0; simp at hc0
          exact hgood r0 hr0 r hr (covered_and_touched hb0 (hne r0 hr0) (hdis rs hp r0 hr0 r hr hne0) hc256 hcv
            (by have := (htouch r0.1 ht0).1; omega) (hhi r0 hr0) hb256 cap (by omega))
        | false =>
          have hsub : ∀ q ∈ passed d c b (index (d + 1) c x) rs, q ∈ rs ∧ touches (d + 1) c b (index (d + 1) c x) q.1 = true := by
            intro q hq
            simp only [passed, List.mem_filter, Bool.and_eq_true] at hq
            exact ⟨hq.1, hq.2.2⟩
          have hmod : (b + (index (d + 1) c x : Int) * (256 ^ (d + 1) : Nat)) % 256 = 0 := by
            apply Int.emod_eq_zero_of_dvd
            exact Int.dvd_add (Int.dvd_of_emod_eq_zero hb256) ⟨index (d + 1) c x * 256 ^ d, by push_cast; ring⟩
          apply ih 256 (by omega) (by have := Nat.pow_pos (n := d) (by omega : 0 < 256); omega)
            (b + (index (d + 1) c x : Int) * 256 ^ (d + 1)) (by rw [hcast]; omega)
            (by rw [hcast]; exact child_dvd hb) (by rw [hcast]; exact hmod) cap (by rw [hcast, hs]; omega) _ x
            (by rw [hcast]; omega) (by rw [hcast, hs]; omega) (hp.filter _) (fun q hq => hne q (hsub q hq).1)
            (fun q hq => by rw [hcast]; exact (htouch q.1 (hsub q hq).2).2 (hhi q (hsub q hq).1))
            (fun _ q hq => by rw [hcast, hs]; have := (htouch q.1 (hsub q hq).2).1; omega)
            (fun q hq q' hq' => hgood q (hsub q hq).1 q' (hsub q' hq').1) r _ hrx
          simp only [List.mem_filter, hcv, g4 r.1 hrx]
          exact ⟨hr, rfl⟩

theorem lookup_spoiled (d : Nat) : ∀ (c : Nat) (_ : 0 < c) (b : Int) (_ : 0 ≤ b)
    (_ : ((c * 256 ^ d : Nat) : Int) ∣ b) (rs : List (Range × Int)) (r r' : Range × Int),
    rs.Pairwise (fun r r' => ∀ y, ¬ (r.1.Mem y ∧ r'.1.Mem y)) → (∀ r ∈ rs, r.1.lo < r.1.hi) → r ∈ rs → r' ∈ rs →
    b ≤ max 0 r.1.hi → max 0 r.1.hi < b + (c * 256 ^ d : Nat) → (d = 0 → c = 256) → max 0 r.1.hi % 256 = 0 →
    r'.1.lo ≤ max 0 r.1.hi → max 0 r.1.hi + 256 ≤ r'.1.hi →
    lookup d c (build d c b rs) (max 0 r.1.hi) = -1 := by
  intro c
  induction d generalizing c with
  | zero =>
    intro hc b hb0 hb rs r r' hp hne hr hr' h1 h2 hc256 hm hlo hhi
    obtain rfl := hc256 rfl
    obtain ⟨e1, e2, e3⟩ := build_leaf 256 b rs
    have hmb : max 0 r.1.hi = b := by
      obtain ⟨k, rfl⟩ := hb
      simp only [Nat.pow_zero] at *
      omega
    have hnc : covers 0 256 b r.1 = false := by
      cases hx : covers 0 256 b r.1 with
      | false => rfl
      | true => rw [covers_iff] at hx; simp only [Nat.pow_zero] at hx; omega
    have hr'c : covers 0 256 b r'.1 = true := by
      rw [covers_iff]; simp only [Nat.pow_zero]; omega
    obtain ⟨f, f1, f2⟩ := e3 ⟨r, hr, hnc⟩
    obtain ⟨g1, g2, g3, _⟩ := entry_of 0 256 b (max 0 r.1.hi) hb h1 h2
    simp only [Nat.pow_zero] at g2 g3
    simp only [lookup, f1, f2]
    rcases lastId_cases (fun q => !covers 0 256 b q && fills 256 b (index 0 256 (max 0 r.1.hi)) q) rs with ⟨h, _⟩ | ⟨q, h3, h4, h5⟩
    · exact h
    · exfalso
      simp only [Bool.and_eq_true, Bool.not_eq_true', fills_iff] at h4
      have hqr : q ≠ r' := fun e => by rw [e, hr'c] at h4; simp at h4
      exact pairwise_disjoint hp h3 hr' hqr (max 0 r.1.hi)
        ⟨by constructor <;> omega, by constructor <;> omega⟩
  | succ d ih =>
    intro hc b hb0 hb rs r r' hp hne hr hr' h1 h2 _ hm hlo hhi
    have hsub0 : ∀ i, (passed d c b i rs).Pairwise (fun r r' => ∀ y, ¬ (r.1.Mem y ∧ r'.1.Mem y)) := fun i => hp.filter _
    obtain ⟨e1, e2⟩ := build_level d c b rs
    obtain ⟨g1, g2, g3, g4⟩ := entry_of (d + 1) c b (max 0 r.1.hi) hb h1 h2
    have hs : ((256 * 256 ^ d : Nat) : Int) = (256 ^ (d + 1) : Nat) := by push_cast; ring
    have hcast : ((256 : Int) ^ (d + 1)) = ((256 ^ (d + 1) : Nat) : Int) := by push_cast; ring
    have hnc : covers (d + 1) c b r.1 = false := by
      cases hx : covers (d + 1) c b r.1 with
      | false => rfl
      | true => rw [covers_iff] at hx; omega
    have hpos : (0 : Int) < (256 ^ (d + 1) : Nat) := by exact_mod_cast Nat.pow_pos (by omega)
    have hlt := hne r hr
    have ht : touches (d + 1) c b (index (d + 1) c (max 0 r.1.hi)) r.1 = true := by
      rw [touches_iff g1]
      have q1 : (((index (d + 1) c (max 0 r.1.hi) + 1) * 256 ^ (d + 1) : Nat) : Int) =
          index (d + 1) c (max 0 r.1.hi) * (256 ^ (d + 1) : Nat) + (256 ^ (d + 1) : Nat) := by push_cast; ring
      have q2 : ((index (d + 1) c (max 0 r.1.hi) * 256 ^ (d + 1) : Nat) : Int) =
        index (d + 1) c (max 0 r.1.hi) * (256 ^ (d + 1) : Nat) := by push_cast; ring
      have hi0 : (0 : Int) ≤ (index (d + 1) c (max 0 r.1.hi) : Int) * (256 ^ (d + 1) : Nat) := by positivity
      omega
    have hmem : r ∈ passed d c b (index (d + 1) c (max 0 r.1.hi)) rs := by
      simp only [passed, List.mem_filter, hnc, ht]; exact ⟨hr, rfl⟩
    have hnil : passed d c b (index (d + 1) c (max 0 r.1.hi)) rs ≠ [] := by
      intro e; rw [e] at hmem; simp at hmem
    rw [lookup_succ, e2, if_neg hnil]
    dsimp only
    cases hcv : covers (d + 1) c b r'.1 with
    | false =>
      refine ih 256 (by omega) _ ?_ ?_ _ r r' (hp.filter _) (fun q hq => hne q (List.mem_filter.1 hq).1) hmem ?_ ?_ ?_ (fun _ => rfl) hm hlo hhi
      · have hi0 : (0 : Int) ≤ (index (d + 1) c (max 0 r.1.hi) : Int) * (256 ^ (d + 1) : Nat) := by positivity
        rw [hcast]; omega
      · rw [hcast]; exact child_dvd hb
      · simp only [passed, List.mem_filter, hcv, g4 r'.1 ⟨hlo, by omega⟩]; exact ⟨hr', rfl⟩
      · rw [hcast]; exact g2
      · rw [hcast, hs]; exact g3
    | true =>
      rcases lookup_sound d 256 (by omega) (b + (index (d + 1) c (max 0 r.1.hi) : Int) * 256 ^ (d + 1)) (by rw [hcast]; exact child_dvd hb)
        (passed d c b (index (d + 1) c (max 0 r.1.hi)) rs) (max 0 r.1.hi) (by rw [hcast]; exact g2) (by rw [hcast, hs]; exact g3) with h | ⟨q, h3, h4, _⟩
      · exact h
      · exfalso
        simp only [passed, List.mem_filter, Bool.and_eq_true, Bool.not_eq_true'] at h3
        have hqr : q ≠ r' := fun e => by rw [e, hcv] at h3; simp at h3
        exact pairwise_disjoint hp h3.1 hr' hqr (max 0 r.1.hi) ⟨h4, ⟨hlo, by omega⟩⟩

/-- C13, exact form. Take a table of any number of levels filled, in any order, with disjoint non-empty ranges whose identifiers
are not -1. The table answers correctly for every symbol it has room for if and only if no range ends where a block of 256
symbols starts that another range covers. (A one-level table must not be given ranges beyond its end.) -/
theorem symbol_table_correct_iff (d c : Nat) (hc : 0 < c) (hc0 : d = 0 → c = 256) (rs : List (Range × Int))
    (hp : rs.Pairwise (fun r r' => ∀ y, ¬ (r.1.Mem y ∧ r'.1.Mem y))) (hne : ∀ r ∈ rs, r.1.lo < r.1.hi) (hid : ∀ r ∈ rs, r.2 ≠ -1)
    (hlo : d = 0 → ∀ r ∈ rs, r.1.lo < 256) :
    (∀ x : Int, 0 ≤ x → x < (c * 256 ^ d : Nat) → Answers rs x (lookup d c (build d c 0 rs) x)) ↔
      ∀ r ∈ rs, ∀ r' ∈ rs, ¬ Spoils (c * 256 ^ d) r.1 r'.1 := by
  have hc256 : 256 ≤ c * 256 ^ d := by
    cases d with
    | zero => rw [hc0 rfl]; simp
    | succ d =>
      have h1 : 0 < 256 ^ d := Nat.pow_pos (by omega)
      have h2 : c * 256 ^ (d + 1) = 256 * (c * 256 ^ d) := by ring
      have h3 : 0 < c * 256 ^ d := Nat.mul_pos hc h1
      omega
  constructor
  · rintro h r hr r' hr' ⟨s1, s2, s3, s4⟩
    have hx := lookup_spoiled d c hc 0 (by omega) (Int.dvd_zero _) rs r r' hp hne hr hr' (by omega) (by omega) hc0 s1 s3 s4
    rcases h (max 0 r.1.hi) (by omega) s2 with ⟨q, hq, _, e⟩ | ⟨hno, _⟩
    · rw [hx] at e; exact hid q hq e.symm
    · exact hno r' hr' ⟨s3, by omega⟩
  · intro h x h1 h2
    by_cases hex : ∃ r ∈ rs, r.1.Mem x
    · obtain ⟨r, hr, hrx⟩ := hex
      refine .inl ⟨r, hr, hrx, ?_⟩
      exact lookup_complete d c hc hc256 0 (by omega) (Int.dvd_zero _) (by simp) (c * 256 ^ d) (by omega) rs x h1 (by omega) hp hne
        (fun _ _ => by omega) (fun e r hr => by subst e; have := hlo rfl r hr; rw [hc0 rfl]; simpa using this) h r hr hrx
    · have hno : ∀ r ∈ rs, ¬ r.1.Mem x := fun r hr hm => hex ⟨r, hr, hm⟩
      rcases lookup_sound d c hc 0 (Int.dvd_zero _) rs x h1 (by omega) with e | ⟨r, hr, hm, _⟩
      · exact .inr ⟨hno, e⟩
      · exact absurd hm (hno r hr)

end Node

namespace SymbolMap

/-- The ranges of a symbol map with their set identifiers, in the order of the identifiers. -/
def ranges (m : SymbolMap) : List (Range × Int) := m.syms.zipIdx.flatMap (fun p => p.1.map (fun r => (r, (p.2 : Int))))

theorem mem_ranges {m : SymbolMap} {r : Range × Int} : r ∈ m.ranges ↔ ∃ i : Nat, r.2 = i ∧ r.1 ∈ m.get i := by
  simp only [ranges, List.mem_flatMap, List.mem_map, SymbolMap.get]
  constructor
  · rintro ⟨p, hp, q, hq, rfl⟩
    have := List.mem_zipIdx_iff_getElem?.1 hp
    exact ⟨p.2, rfl, by rw [this]; exact hq⟩
  · rintro ⟨i, h1, h2⟩
    cases hx : m.syms[i]? with
    | none => rw [hx] at h2; simp at h2
    | some s =>
      rw [hx] at h2
      exact ⟨(s, i), List.mem_zipIdx_iff_getElem?.2 hx, r.1, h2, by rw [← h1]⟩

/-- C13, the part that holds: the translator built from a map of disjoint sets, visiting the sets in any order, gives for
every symbol that fits in the table the identifier of its set, and -1 for symbols in no set — unless two ranges spoil each
other. Missing: maps with such ranges, and symbols that do not fit in the table (wchar_t values from 0x10000 up); both are
refuted below. `d` is 1 for wchar_t, 3 (with `c = 128`) for int. -/
theorem symbol_translator_correct_partial (m : SymbolMap) (hcanon : ∀ s ∈ m.syms, SymSet.Canon s)
    (hdis : ∀ i j x, SymSet.Mem x (m.get i) → SymSet.Mem x (m.get j) → i = j) (rs : List (Range × Int)) (hrs : rs.Perm m.ranges)
    (d c : Nat) (hc : 0 < c) (hd : 0 < d) (hs : ∀ r ∈ rs, ∀ r' ∈ rs, ¬ Node.Spoils (c * 256 ^ d) r.1 r'.1)
    (x : Int) (h0 : 0 ≤ x) (hx : x < (c * 256 ^ d : Nat)) :
    (∀ i : Nat, Node.lookup d c (Node.build d c 0 rs) x = i ↔ SymSet.Mem x (m.get i)) ∧
    (Node.lookup d c (Node.build d c 0 rs) x = -1 ↔ ∀ i, ¬ SymSet.Mem x (m.get i)) := by
  have hcan : ∀ i, SymSet.Canon (m.get i) := by
    intro i
    simp only [SymbolMap.get]
    cases h : m.syms[i]? with
    | none => exact SymSet.canon_nil
    | some v => exact hcanon v (List.mem_of_getElem? h)
  have hp : m.ranges.Pairwise (fun r r' => ∀ y, ¬ (r.1.Mem y ∧ r'.1.Mem y)) := by
    unfold ranges
    rw [List.pairwise_flatMap]
    constructor
    · rintro ⟨s, i⟩ hp
      have hs := (hcanon s (List.mem_of_getElem? (List.mem_zipIdx_iff_getElem?.1 hp))).1
      rw [List.pairwise_map]
      refine hs.imp ?_
      intro a b hab y hy
      simp only [Range.Mem] at hy
      omega
    · have : m.syms.zipIdx.Pairwise (fun a b => a.2 < b.2) := by
        rw [List.pairwise_iff_getElem]
        intro i j hi hj hij
        simp only [List.getElem_zipIdx]
        omega
      refine this.imp_of_mem ?_
      rintro ⟨s, i⟩ ⟨s', j⟩ hi hj hij a ha b hb y hy
      obtain ⟨q, hq, rfl⟩ := List.mem_map.1 ha
      obtain ⟨q', hq', rfl⟩ := List.mem_map.1 hb
      have e1 := List.mem_zipIdx_iff_getElem?.1 hi
      have e2 := List.mem_zipIdx_iff_getElem?.1 hj
      have := hdis i j y ⟨q, by simp only [SymbolMap.get, e1]; exact hq, hy.1⟩ ⟨q', by simp only [SymbolMap.get, e2]; exact hq', hy.2⟩
      simp only at hij
      omega
  have hmem : ∀ r, r ∈ rs ↔ ∃ i : Nat, r.2 = i ∧ r.1 ∈ m.get i := fun r => by rw [hrs.mem_iff, mem_ranges]
  have hans := (Node.symbol_table_correct_iff d c hc (fun e => by omega) rs
    (hrs.symm.pairwise hp (fun {a b} h y hy => h y hy.symm))
    (fun r hr => by obtain ⟨i, _, h2⟩ := (hmem r).1 hr; exact (hcan i).2 _ h2)
    (fun r hr => by obtain ⟨i, h1, _⟩ := (hmem r).1 hr; omega) (fun e => by omega)).2 hs x h0 hx
  generalize Node.lookup d c (Node.build d c 0 rs) x = v at hans
  rcases hans with ⟨r, hr, hrx, rfl⟩ | ⟨hno, rfl⟩
  · obtain ⟨i, h1, h2⟩ := (hmem r).1 hr
    have hm : SymSet.Mem x (m.get i) := ⟨r.1, h2, hrx⟩
    constructor
    · intro j
      rw [h1]
      constructor
      · intro e; have : i = j := by omega
        rw [← this]; exact hm
      · intro hj; rw [hdis i j x hm hj]
    · constructor
      · intro e; omega
      · intro hall; exact absurd hm (hall i)
  · have hnone : ∀ i, ¬ SymSet.Mem x (m.get i) := by
      rintro i ⟨r, h1, h2⟩
      exact hno (r, i) ((hmem _).2 ⟨i, rfl, h1⟩) h2
    refine ⟨fun i => ⟨fun e => by omega, fun h => absurd h (hnone i)⟩, fun _ => hnone, fun _ => rfl⟩

/-- C13 fails for adjacent blocks: a wchar_t table with `[0, 0x100)` and `[0x100, 0x200)` does not know symbol 300. -/
theorem symbol_translator_correct_violated :
    ∃ m : SymbolMap, (∀ s ∈ m.syms, SymSet.Canon s) ∧ (∀ i j x, SymSet.Mem x (m.get i) → SymSet.Mem x (m.get j) → i = j) ∧
      SymSet.Mem 300 (m.get 1) ∧ Node.lookup 1 256 (Node.build 1 256 0 m.ranges) 300 = -1 := by
  refine ⟨⟨[([⟨0, 256⟩], 0), ([⟨256, 512⟩], 1)], [[⟨0, 256⟩], [⟨256, 512⟩]]⟩, ?_, ?_, ?_, by rfl⟩
  · intro s hs
    simp only [List.mem_cons, List.not_mem_nil, or_false] at hs
    rcases hs with rfl | rfl <;> simp [SymSet.Canon]
  · have : ∀ i x, SymSet.Mem x (SymbolMap.get ⟨[([⟨0, 256⟩], 0), ([⟨256, 512⟩], 1)], [[⟨0, 256⟩], [⟨256, 512⟩]]⟩ i) →
        (i : Int) * 256 ≤ x ∧ x < i * 256 + 256 := by
      rintro i x ⟨r, h1, h2⟩
      simp only [SymbolMap.get] at h1
      match i with
      | 0 => simp at h1; subst h1; simp only [Range.Mem] at h2; omega
      | 1 => simp at h1; subst h1; simp only [Range.Mem] at h2; omega
      | i + 2 => simp at h1
    intro i j x h1 h2
    have h3 := this i x h1
    have h4 := this j x h2
    omega
  · exact ⟨⟨256, 512⟩, by simp [SymbolMap.get], by simp [Range.Mem]⟩

/-- C13 fails for symbols that do not fit: whatever a wchar_t table answers for `x`, it answers for `x + 0x10000` too, so with
the set `{a}` alone the symbol 0x10061 is taken for an `a`. -/
theorem symbol_translator_alias_violated (rs : List (Range × Int)) (x k : Int) :
    Node.lookup 1 256 (Node.build 1 256 0 rs) (x + 65536 * k) = Node.lookup 1 256 (Node.build 1 256 0 rs) x := by
  rw [Node.lookup_mod 1 256 (by omega), Node.lookup_mod 1 256 (by omega) _ x]
  congr 1
  simp

/-- The condition holds for a map that uses whole blocks, several levels and a range to the end of the table. -/
example : ∀ r ∈ [((⟨97, 123⟩ : Range), (0 : Int)), (⟨300, 0x7fffffff⟩, 1)], ∀ r' ∈ [((⟨97, 123⟩ : Range), (0 : Int)), (⟨300, 0x7fffffff⟩, 1)],
    ¬ Node.Spoils 65536 r.1 r'.1 := by
  simp [Node.Spoils]

example : Node.lookup 1 256 (Node.build 1 256 0 [(⟨97, 123⟩, 0), (⟨300, 0x7fffffff⟩, 1)]) 100 = 0 ∧
    Node.lookup 1 256 (Node.build 1 256 0 [(⟨97, 123⟩, 0), (⟨300, 0x7fffffff⟩, 1)]) 0x4e00 = 1 ∧
    Node.lookup 1 256 (Node.build 1 256 0 [(⟨97, 123⟩, 0), (⟨300, 0x7fffffff⟩, 1)]) 256 = -1 := by
  refine ⟨by rfl, by rfl, by rfl⟩

end SymbolMap
end TameParse

import Verif.ItemSet
/-
C26: item sets behave as finite sets.
C27: comparison of item sets is extensional (violated after an erase; proved for sets built by inserting and merging).
-/
namespace TameParse
namespace ItemSet

/-- Whether the bit for `id` is set. -/
def bit (l : List (BitVec 32)) (id : Nat) : Bool := (l.getD (id / 32) 0).getLsbD (id % 32)

theorem and_mask (w : BitVec 32) (b : Nat) (h : b < 32) : w &&& mask b = 0 ↔ w.getLsbD b = false := by
  constructor
  · intro e
    have := congrArg (fun v => v.getLsbD b) e
    simp [mask, h] at this
    exact this
  · intro e
    apply BitVec.eq_of_getLsbD_eq
    intro i hi
    by_cases hib : i = b
    · subst hib; simp [e]
    · simp [mask]
      omega

theorem contains_bit (s : ItemSet) (id : Nat) : s.contains id = bit s.words id := by
  simp only [contains]
  split
  · rename_i h
    rw [bit, List.getD_eq_getElem?_getD, List.getElem?_eq_none h]
    simp
  · rw [bit]
    have := and_mask (s.words.getD (id / 32) 0) (id % 32) (Nat.mod_lt _ (by omega))
    cases hb : (s.words.getD (id / 32) 0).getLsbD (id % 32) with
    | true =>
      rw [hb] at this
      simpa using this
    | false =>
      rw [hb] at this
      simpa using this

theorem getD_grow (l : List (BitVec 32)) (n i : Nat) : (grow l n).getD i 0 = l.getD i 0 := by
  rw [grow, List.getD_eq_getElem?_getD, List.getD_eq_getElem?_getD, List.getElem?_append]
  split
  · rfl
  · rename_i h
    rw [List.getElem?_eq_none (l := l) (by omega), List.getElem?_replicate]
    split <;> rfl

theorem length_grow (l : List (BitVec 32)) (n : Nat) : (grow l n).length = max l.length n := by
  simp [grow]; omega

theorem bit_grow (l : List (BitVec 32)) (n id : Nat) : bit (grow l n) id = bit l id := by
  simp only [bit, getD_grow]

theorem bit_set (l : List (BitVec 32)) (i : Nat) (w : BitVec 32) (h : i < l.length) (id : Nat) :
    bit (l.set i w) id = if id / 32 = i then w.getLsbD (id % 32) else bit l id := by
  simp only [bit, List.getD_eq_getElem?_getD, List.getElem?_set]
  by_cases hi : id / 32 = i
  · rw [if_pos hi.symm, if_pos h, if_pos hi]
    rfl
  · rw [if_neg (fun e => hi e.symm), if_neg hi]

theorem getLsbD_mask (b i : Nat) (hb : b < 32) : (mask b).getLsbD i = decide (i = b) := by
  by_cases h : i = b
  · subst h; simp [mask, hb]
  · simp only [mask, BitVec.getLsbD_shiftLeft, BitVec.getLsbD_one, h, decide_false]
    by_cases h2 : i < b
    · simp [h2]
    · have : ¬ (i - b = 0) := by omega
      simp [this]

/-- The set holds the identifiers in `F`. -/
def Repr (s : ItemSet) (F : Finset Nat) : Prop := (∀ x, s.contains x = true ↔ x ∈ F) ∧ s.size = F.card

theorem empty_repr : Repr empty ∅ := by
  constructor
  · intro x; simp [contains, empty]
  · rfl

theorem insert_bit (s : ItemSet) (id x : Nat) : bit (s.insert id).2.words x = (decide (x = id) || bit s.words x) := by
  have hm := Nat.mod_lt id (show 0 < 32 by omega)
  have hw : bit s.words id = ((grow s.words (id / 32 + 1)).getD (id / 32) 0).getLsbD (id % 32) := by
    rw [getD_grow]; rfl
  simp only [insert]
  split
  · dsimp only
    rw [bit_set _ _ _ (by rw [length_grow]; omega), BitVec.getLsbD_or, getLsbD_mask _ _ hm, bit_grow]
    split
    · rename_i hx
      rw [show (grow s.words (id / 32 + 1)).getD (id / 32) 0 = s.words.getD (id / 32) 0 from getD_grow _ _ _]
      rw [← hx]
      change (bit s.words x || _) = _
      rw [Bool.or_comm]
      congr 1
      rw [decide_eq_decide]
      omega
    · rename_i hx
      have : ¬ (x = id) := by rintro rfl; exact hx rfl
      simp [this]
  · rename_i hc
    rw [and_mask _ _ hm, ← hw] at hc
    dsimp only
    rw [bit_grow]
    by_cases hx : x = id
    · subst hx; simpa using hc
    · simp [hx]

theorem insert_flag (s : ItemSet) (id : Nat) : (s.insert id).1 = !s.contains id ∧
    (s.insert id).2.size = if s.contains id then s.size else s.size + 1 := by
  have hm := Nat.mod_lt id (show 0 < 32 by omega)
  have hw : s.contains id = ((grow s.words (id / 32 + 1)).getD (id / 32) 0).getLsbD (id % 32) := by
    rw [contains_bit, getD_grow]; rfl
  simp only [insert]
  split
  · rename_i hc
    rw [and_mask _ _ hm, ← hw] at hc
    simp [hc]
  · rename_i hc
    rw [and_mask _ _ hm, ← hw] at hc
    simp only [Bool.not_eq_false] at hc
    simp [hc]

/-- C26, insertion. -/
theorem insert_repr (s : ItemSet) (F : Finset Nat) (id : Nat) (h : Repr s F) :
    Repr (s.insert id).2 (Insert.insert id F) ∧ ((s.insert id).1 = true ↔ id ∉ F) := by
  obtain ⟨h1, h2⟩ := h
  have hf := insert_flag s id
  have hc := h1 id
  refine ⟨⟨fun x => ?_, ?_⟩, ?_⟩
  · rw [contains_bit, insert_bit, Finset.mem_insert, ← h1 x, contains_bit]
    simp
  · rw [hf.2]
    by_cases hm : id ∈ F
    · rw [if_pos (hc.2 hm), Finset.insert_eq_of_mem hm, h2]
    · rw [if_neg (fun e => hm (hc.1 e)), Finset.card_insert_of_notMem hm, h2]
  · rw [hf.1, ← hc]
    simp

theorem erase_bit (s : ItemSet) (id x : Nat) : bit (s.erase id).2.words x = (decide (x ≠ id) && bit s.words x) := by
  have hm := Nat.mod_lt id (show 0 < 32 by omega)
  simp only [erase]
  split
  · rename_i hl
    by_cases hx : x = id
    · subst hx
      have : bit s.words x = false := by
        rw [bit, List.getD_eq_getElem?_getD, List.getElem?_eq_none hl]; simp
      simp [this]
    · simp [hx]
  · rename_i hl
    split
    · dsimp only
      rw [bit_set _ _ _ (by omega)]
      split
      · rename_i hx
        have hmx := Nat.mod_lt x (show 0 < 32 by omega)
        rw [BitVec.getLsbD_and, BitVec.getLsbD_not, getLsbD_mask _ _ hm, ← hx]
        change (bit s.words x && _) = _
        rw [Bool.and_comm]
        congr 1
        have : (x % 32 = id % 32) = (x = id) := by
          apply propext; omega
        simp [hmx, this]
      · rename_i hx
        have : ¬ (x = id) := by rintro rfl; exact hx rfl
        simp [this]
    · rename_i hc
      simp only [bne_iff_ne, ne_eq, Decidable.not_not] at hc
      rw [and_mask _ _ hm] at hc
      by_cases hx : x = id
      · subst hx
        have : bit s.words x = false := hc
        simp [this]
      · simp [hx]

theorem erase_flag (s : ItemSet) (id : Nat) : (s.erase id).1 = s.contains id ∧
    (s.erase id).2.size = if s.contains id then s.size - 1 else s.size := by
  simp only [erase, contains]
  split
  · simp
  · split
    · rename_i hc
      rw [hc]
      simp
    · rename_i hc
      rw [Bool.not_eq_true] at hc
      rw [hc]
      simp

/-- C26, removal. -/
theorem erase_repr (s : ItemSet) (F : Finset Nat) (id : Nat) (h : Repr s F) :
    Repr (s.erase id).2 (F.erase id) ∧ ((s.erase id).1 = true ↔ id ∈ F) := by
  obtain ⟨h1, h2⟩ := h
  have hf := erase_flag s id
  have hc := h1 id
  refine ⟨⟨fun x => ?_, ?_⟩, ?_⟩
  · rw [contains_bit, erase_bit, Finset.mem_erase, ← h1 x, contains_bit]
    simp
  · rw [hf.2]
    by_cases hm : id ∈ F
    · rw [if_pos (hc.2 hm), Finset.card_erase_of_mem hm, h2]
    · rw [if_neg (fun e => hm (hc.1 e)), Finset.erase_eq_of_notMem hm, h2]
  · rw [hf.1, ← hc]

/-! Counting bits -/

/-- The number of bits of a natural number. -/
def pop : Nat → Nat
  | 0 => 0
  | n + 1 => pop ((n + 1) / 2) + (n + 1) % 2
decreasing_by omega

theorem pop_eq (n : Nat) : pop n = pop (n / 2) + n % 2 := by
  cases n with
  | zero => rfl
  | succ n => rw [pop]

theorem pop_clear : ∀ n : Nat, n ≠ 0 → pop (n &&& (n - 1)) + 1 = pop n := by
  intro n
  induction n using Nat.strong_induction_on with
  | _ n ih =>
    intro hn
    rw [pop_eq (n &&& (n - 1)), pop_eq n]
    have hdiv : (n &&& (n - 1)) / 2 = (n / 2) &&& ((n - 1) / 2) := by
      apply Nat.eq_of_testBit_eq
      intro i
      simp [← Nat.testBit_add_one, Nat.testBit_and]
    have hmod : (n &&& (n - 1)) % 2 = if n % 2 = 1 ∧ (n - 1) % 2 = 1 then 1 else 0 := by
      have := Nat.testBit_and n (n - 1) 0
      simp only [Nat.testBit_zero] at this
      by_cases h1 : n % 2 = 1
      · by_cases h2 : (n - 1) % 2 = 1
        · omega
        · simp only [h1, h2, decide_true, decide_false, Bool.and_false, decide_eq_false_iff_not] at this
          rw [if_neg (by omega)]; omega
      · simp only [h1, decide_false, Bool.false_and, decide_eq_false_iff_not] at this
        rw [if_neg (by omega)]; omega
    rw [hdiv, hmod]
    rcases Nat.mod_two_eq_zero_or_one n with he | ho
    · have e1 : (n - 1) / 2 = n / 2 - 1 := by omega
      rw [e1, if_neg (by omega)]
      have := ih (n / 2) (by omega) (by omega)
      omega
    · have e1 : (n - 1) / 2 = n / 2 := by omega
      rw [e1, Nat.and_self, if_neg (by omega)]
      omega

theorem countBits_pop : ∀ k (b : BitVec 32), pop b.toNat ≤ k → countBits k b = pop b.toNat := by
  intro k
  induction k with
  | zero =>
    intro b h
    simp only [countBits]
    omega
  | succ k ih =>
    intro b h
    simp only [countBits]
    split
    · rename_i hb; subst hb; simp [pop]
    · rename_i hb
      have hn : b.toNat ≠ 0 := fun e => hb (BitVec.eq_of_toNat_eq (by simpa using e))
      have e1 : (b - 1).toNat = b.toNat - 1 := by
        have := b.isLt
        rw [BitVec.toNat_sub]
        simp only [BitVec.ofNat_eq_ofNat, BitVec.toNat_ofNat]
        omega
      have e2 : (b &&& (b - 1)).toNat = b.toNat &&& (b.toNat - 1) := by rw [BitVec.toNat_and, e1]
      have hp := pop_clear b.toNat hn
      rw [ih (b &&& (b - 1)) (by rw [e2]; omega), e2, hp]

/-- The positions of the set bits among the first `n`. -/
def bitsOf (m n : Nat) : Finset Nat := (Finset.range n).filter (fun i => m.testBit i = true)

theorem pop_card : ∀ n m : Nat, m < 2 ^ n → pop m = (bitsOf m n).card := by
  intro n
  induction n with
  | zero =>
    intro m h
    have : m = 0 := by simpa using h
    subst this
    simp [pop, bitsOf]
  | succ n ih =>
    intro m h
    have h2 : m / 2 < 2 ^ n := by rw [pow_succ] at h; omega
    have hs : bitsOf m (n + 1) = ((bitsOf (m / 2) n).image (· + 1)) ∪ (if m % 2 = 1 then {0} else ∅) := by
      ext i
      simp only [bitsOf, Finset.mem_filter, Finset.mem_range, Finset.mem_union, Finset.mem_image]
      cases i with
      | zero =>
        simp only [Nat.testBit_zero, decide_eq_true_eq]
        constructor
        · rintro ⟨_, h⟩; exact .inr (by simp [h])
        · rintro (⟨a, _, h⟩ | h)
          · omega
          · refine ⟨by omega, ?_⟩
            by_contra hc
            simp [hc] at h
      | succ i =>
        rw [Nat.testBit_add_one]
        constructor
        · rintro ⟨h1, h3⟩; exact .inl ⟨i, ⟨by omega, h3⟩, rfl⟩
        · rintro (⟨a, ⟨h1, h3⟩, h4⟩ | h)
          · have : a = i := by omega
            subst this
            exact ⟨by omega, h3⟩
          · split at h <;> simp at h
    rw [pop_eq, ih _ h2, hs, Finset.card_union_of_disjoint, Finset.card_image_of_injective _ (fun a b h => by simpa using h)]
    · congr 1
      rcases Nat.mod_two_eq_zero_or_one m with h | h <;> simp [h]
    · rw [Finset.disjoint_left]
      intro a ha hb
      rw [Finset.mem_image] at ha
      obtain ⟨c, _, rfl⟩ := ha
      split at hb <;> simp at hb

theorem countBits_card (w : BitVec 32) : countBits 32 w = ((Finset.range 32).filter (fun i => w.getLsbD i = true)).card := by
  have h1 := pop_card 32 w.toNat w.isLt
  have hle : (bitsOf w.toNat 32).card ≤ 32 := by
    have := Finset.card_filter_le (Finset.range 32) (fun i => w.toNat.testBit i = true)
    rw [Finset.card_range] at this
    exact this
  rw [countBits_pop 32 w (by omega), h1]
  rfl

/-- `count_size` counts the members. -/
theorem countSize_card (l : List (BitVec 32)) : ∃ F : Finset Nat, (∀ x, bit l x = true ↔ x ∈ F) ∧ countSize l = F.card ∧ ∀ x ∈ F, x < 32 * l.length := by
  induction l using List.reverseRecOn with
  | nil => exact ⟨∅, fun x => by simp [bit], rfl, by simp⟩
  | append_singleton l w ih =>
    obtain ⟨F, h1, h2, h3⟩ := ih
    refine ⟨F ∪ ((Finset.range 32).filter (fun i => w.getLsbD i = true)).image (fun i => 32 * l.length + i), fun x => ?_, ?_, ?_⟩
    · rw [Finset.mem_union, ← h1 x, Finset.mem_image]
      have hb : bit (l ++ [w]) x = if x / 32 = l.length then w.getLsbD (x % 32) else bit l x := by
        simp only [bit, List.getD_eq_getElem?_getD, List.getElem?_append]
        by_cases hx : x / 32 < l.length
        · rw [if_pos hx, if_neg (by omega)]
        · rw [if_neg hx]
          by_cases he : x / 32 = l.length
          · rw [if_pos he]; simp [he]
          · rw [if_neg he, List.getElem?_eq_none (l := l) (by omega), List.getElem?_eq_none (l := [w]) (by simp; omega)]
      rw [hb]
      by_cases he : x / 32 = l.length
      · rw [if_pos he]
        have hl : bit l x = false := by
          rw [bit, List.getD_eq_getElem?_getD, List.getElem?_eq_none (by omega)]; simp
        rw [hl]
        constructor
        · intro hw
          refine .inr ⟨x % 32, ?_, by omega⟩
          simp [hw, Nat.mod_lt]
        · rintro (h | ⟨a, ha, hx⟩)
          · cases h
          · simp only [Finset.mem_filter, Finset.mem_range] at ha
            have : x % 32 = a := by omega
            rw [this]; exact ha.2
      · rw [if_neg he]
        constructor
        · exact .inl
        · rintro (h | ⟨a, ha, hx⟩)
          · exact h
          · simp only [Finset.mem_filter, Finset.mem_range] at ha
            omega
    · rw [Finset.card_union_of_disjoint, Finset.card_image_of_injective _ (fun a b h => by simpa using h), ← countBits_card, ← h2]
      · simp [countSize]
      · rw [Finset.disjoint_left]
        intro a ha hb
        rw [Finset.mem_image] at hb
        obtain ⟨c, _, rfl⟩ := hb
        have := h3 _ ha
        omega
    · intro x hx
      rw [Finset.mem_union, Finset.mem_image] at hx
      simp only [List.length_append, List.length_cons, List.length_nil]
      rcases hx with hx | ⟨a, ha, rfl⟩
      · have := h3 x hx; omega
      · simp only [Finset.mem_filter, Finset.mem_range] at ha; omega

/-! Merging -/

theorem mergeWords_spec : ∀ (ws bs : List (BitVec 32)), bs.length ≤ ws.length →
    (mergeWords ws bs).2.length = ws.length ∧
    (∀ i, (mergeWords ws bs).2.getD i 0 = ws.getD i 0 ||| bs.getD i 0) ∧
    ((mergeWords ws bs).1 = true ↔ ∃ i, bs.getD i 0 &&& ~~~ ws.getD i 0 ≠ 0) := by
  intro ws
  induction ws with
  | nil =>
    intro bs h
    have : bs = [] := by simpa using h
    subst this
    simp [mergeWords]
  | cons w ws ih =>
    intro bs h
    cases bs with
    | nil => simp [mergeWords]
    | cons b bs =>
      obtain ⟨i1, i2, i3⟩ := ih bs (by simpa using h)
      have key : ∀ (flag : Bool) (v : BitVec 32), v = w ||| b → (flag = true ↔ (mergeWords ws bs).1 = true ∨ b &&& ~~~ w ≠ 0) →
          ((v :: (mergeWords ws bs).2).length = (w :: ws).length ∧
          (∀ i, (v :: (mergeWords ws bs).2).getD i 0 = (w :: ws).getD i 0 ||| (b :: bs).getD i 0) ∧
          (flag = true ↔ ∃ i, (b :: bs).getD i 0 &&& ~~~ (w :: ws).getD i 0 ≠ 0)) := by
        intro flag v hv hf
        refine ⟨by simp [i1], ?_, ?_⟩
        · intro i
          cases i with
          | zero => simpa using hv
          | succ i => simpa using i2 i
        · rw [hf, i3]
          constructor
          · rintro (⟨i, hi⟩ | h0)
            · exact ⟨i + 1, by simpa using hi⟩
            · exact ⟨0, by simpa using h0⟩
          · rintro ⟨i, hi⟩
            cases i with
            | zero => exact .inr (by simpa using hi)
            | succ i => exact .inl ⟨i, by simpa using hi⟩
      simp only [mergeWords]
      by_cases hb : b = 0
      · rw [if_pos hb]
        exact key _ _ (by subst hb; simp) (by subst hb; simp)
      · rw [if_neg hb]
        by_cases hbw : b &&& ~~~ w = 0
        · rw [if_pos hbw]
          refine key _ _ ?_ (by simp [hbw])
          apply BitVec.eq_of_getLsbD_eq
          intro i hi
          have := congrArg (fun v => v.getLsbD i) hbw
          simp [hi] at this
          rw [BitVec.getLsbD_or]
          cases hx : b.getLsbD i <;> simp_all
        · rw [if_neg hbw]
          exact key _ _ rfl ⟨fun _ => .inr hbw, fun _ => rfl⟩

/-- C26, merging. -/
theorem merge_repr (s t : ItemSet) (F G : Finset Nat) (hs : Repr s F) (ht : Repr t G) :
    Repr (s.merge t).2 (F ∪ G) ∧ ((s.merge t).1 = true ↔ ¬ G ⊆ F) := by
  obtain ⟨h1, h2, h3⟩ := mergeWords_spec (grow s.words t.words.length) t.words (by rw [length_grow]; omega)
  have hbit : ∀ x, bit (mergeWords (grow s.words t.words.length) t.words).2 x = true ↔ x ∈ F ∪ G := by
    intro x
    rw [Finset.mem_union, ← hs.1 x, ← ht.1 x, contains_bit, contains_bit]
    simp only [bit, h2, getD_grow, BitVec.getLsbD_or, Bool.or_eq_true]
  have hchg : (mergeWords (grow s.words t.words.length) t.words).1 = true ↔ ¬ G ⊆ F := by
    rw [h3]
    simp only [getD_grow]
    constructor
    · rintro ⟨i, hi⟩ hsub
      apply hi
      apply BitVec.eq_of_getLsbD_eq
      intro j hj
      have hx : ∀ u : ItemSet, u.contains (32 * i + j) = (u.words.getD i 0).getLsbD j := by
        intro u
        rw [contains_bit, bit, show (32 * i + j) / 32 = i by omega, show (32 * i + j) % 32 = j by omega]
      have a := hs.1 (32 * i + j)
      have b := ht.1 (32 * i + j)
      rw [hx] at a b
      by_cases hm : 32 * i + j ∈ G
      · have := a.2 (hsub hm)
        rw [BitVec.getLsbD_and, BitVec.getLsbD_not, this]
        simp
      · have := (not_congr b).2 hm
        simp only [Bool.not_eq_true] at this
        rw [BitVec.getLsbD_and, this]
        simp
    · intro hsub
      obtain ⟨x, hx, hx'⟩ := Finset.not_subset.1 hsub
      refine ⟨x / 32, fun e => ?_⟩
      have hm := Nat.mod_lt x (show 0 < 32 by omega)
      have := congrArg (fun v => v.getLsbD (x % 32)) e
      have a := (ht.1 x).2 hx
      have b : ¬ s.contains x = true := fun e => hx' ((hs.1 x).1 e)
      rw [contains_bit, bit] at a b
      simp only [Bool.not_eq_true] at b
      simp only [BitVec.getLsbD_and, BitVec.getLsbD_not, a, b] at this
      simp [hm] at this
  refine ⟨⟨fun x => ?_, ?_⟩, hchg⟩
  · rw [contains_bit]
    exact hbit x
  · simp only [merge]
    by_cases hc : (mergeWords (grow s.words t.words.length) t.words).1 = true
    · rw [if_pos hc]
      obtain ⟨H, e1, e2, _⟩ := countSize_card (mergeWords (grow s.words t.words.length) t.words).2
      rw [e2]
      congr 1
      ext x
      rw [← e1 x, hbit x]
    · rw [if_neg hc, hs.2]
      rw [hchg, not_not] at hc
      rw [Finset.union_eq_left.2 hc]

/-- C26, emptiness. -/
theorem size_zero_iff (s : ItemSet) (F : Finset Nat) (h : Repr s F) : s.size = 0 ↔ F = ∅ := by
  rw [h.2, Finset.card_eq_zero]

/-! Iteration -/

theorem bit_lt {l : List (BitVec 32)} {x : Nat} (h : bit l x = true) : x < l.length * 32 := by
  by_contra hc
  rw [bit, List.getD_eq_getElem?_getD, List.getElem?_eq_none (by omega)] at h
  simp at h

theorem nextLoop_spec (l : List (BitVec 32)) : ∀ k set b, b < 32 → l.length * 32 < k + (set * 32 + b) → set * 32 + b ≤ l.length * 32 →
    (set * 32 + b < nextLoop l k set b ∧ bit l (nextLoop l k set b) = true ∨ nextLoop l k set b = l.length * 32) ∧
    ∀ x, set * 32 + b < x → x < nextLoop l k set b → bit l x = false := by
  intro k
  induction k with
  | zero => intro set b _ h1 h2; omega
  | succ k ih =>
    intro set b hb hk hle
    have at' : ∀ s i, i < 32 → (l.getD s 0 &&& mask i = 0 ↔ bit l (s * 32 + i) = false) := by
      intro s i hi
      rw [and_mask _ _ hi, bit, show (s * 32 + i) / 32 = s by omega, show (s * 32 + i) % 32 = i by omega]
    have m0 : mask 0 = 1 := by rfl
    simp only [nextLoop]
    by_cases hset : set < l.length
    · rw [if_pos hset]
      by_cases hz : b = 0 ∧ l.getD set 0 = 0
      · rw [if_pos hz]
        obtain ⟨rfl, hz⟩ := hz
        have zero : ∀ x, set * 32 ≤ x → x < (set + 1) * 32 → bit l x = false := by
          intro x h1 h2
          rw [bit, show x / 32 = set by omega, hz]
          simp
        by_cases hn : set + 1 < l.length ∧ l.getD (set + 1) 0 &&& 1 ≠ 0
        · rw [if_pos hn]
          have hbit : bit l ((set + 1) * 32) = true := by
            have := (not_congr (at' (set + 1) 0 (by omega))).1 (by rw [m0]; exact hn.2)
            simpa using this
          refine ⟨.inl ⟨by omega, hbit⟩, fun x h1 h2 => zero x (by omega) h2⟩
        · rw [if_neg hn]
          have hbit : bit l ((set + 1) * 32) = false := by
            by_cases hl : set + 1 < l.length
            · have : l.getD (set + 1) 0 &&& mask 0 = 0 := by
                rw [m0]
                by_contra hc
                exact hn ⟨hl, hc⟩
              have := (at' (set + 1) 0 (by omega)).1 this
              simpa using this
            · by_contra hc
              simp only [Bool.not_eq_false] at hc
              have := bit_lt hc
              omega
          obtain ⟨i1, i2⟩ := ih (set + 1) 0 (by omega) (by omega) (by omega)
          refine ⟨?_, fun x h1 h2 => ?_⟩
          · rcases i1 with ⟨j1, j2⟩ | j1
            · exact .inl ⟨by omega, j2⟩
            · exact .inr j1
          · by_cases hx : x < (set + 1) * 32
            · exact zero x (by omega) hx
            · by_cases hx' : x = (set + 1) * 32
              · rw [hx']; exact hbit
              · exact i2 x (by omega) h2
      · rw [if_neg hz]
        have step : ∀ set' b', (set', b') = (if 32 ≤ b + 1 then (set + 1, 0) else (set, b + 1)) → set' * 32 + b' = set * 32 + b + 1 ∧ b' < 32 := by
          intro set' b' h
          split at h
          · simp only [Prod.mk.injEq] at h
            omega
          · simp only [Prod.mk.injEq] at h
            omega
        generalize hp : (if 32 ≤ b + 1 then (set + 1, 0) else (set, b + 1)) = p at step
        obtain ⟨set', b'⟩ := p
        obtain ⟨s1, s2⟩ := step set' b' rfl
        dsimp only
        by_cases hend : l.length ≤ set'
        · rw [if_pos hend]
          refine ⟨.inr (by omega), fun x h1 h2 => ?_⟩
          by_contra hc
          simp only [Bool.not_eq_false] at hc
          have := bit_lt hc
          omega
        · rw [if_neg hend]
          by_cases hm : l.getD set' 0 &&& mask b' ≠ 0
          · rw [if_pos hm]
            have := (not_congr (at' set' b' s2)).1 hm
            exact ⟨.inl ⟨by omega, by simpa using this⟩, fun x h1 h2 => by omega⟩
          · rw [if_neg hm]
            have hbit := (at' set' b' s2).1 (by simpa using hm)
            obtain ⟨i1, i2⟩ := ih set' b' s2 (by omega) (by omega)
            refine ⟨?_, fun x h1 h2 => ?_⟩
            · rcases i1 with ⟨j1, j2⟩ | j1
              · exact .inl ⟨by omega, j2⟩
              · exact .inr j1
            · by_cases hx : x = set' * 32 + b'
              · rw [hx]; exact hbit
              · exact i2 x (by omega) h2
    · rw [if_neg hset]
      refine ⟨.inr rfl, fun x h1 h2 => ?_⟩
      omega

theorem next_spec (s : ItemSet) (id : Nat) (h : id ≤ s.words.length * 32) :
    (id < s.next id ∧ bit s.words (s.next id) = true ∨ s.next id = s.words.length * 32) ∧
    ∀ x, id < x → x < s.next id → bit s.words x = false := by
  have := nextLoop_spec s.words (s.words.length * 32 + 1) (id / 32) (id % 32) (Nat.mod_lt _ (by omega)) (by omega) (by omega)
  rw [show id / 32 * 32 + id % 32 = id by omega] at this
  exact this

theorem first_spec (s : ItemSet) :
    (bit s.words s.first = true ∨ s.first = s.words.length * 32) ∧ ∀ x, x < s.first → bit s.words x = false := by
  simp only [first]
  split
  · rename_i h
    exact ⟨.inr (by omega), fun x hx => absurd hx (by omega)⟩
  · rename_i h
    have m0 : mask 0 = 1 := by rfl
    have h0 := and_mask (s.words.getD 0 0) 0 (by omega)
    rw [m0] at h0
    split
    · rename_i hc
      refine ⟨.inl ?_, fun x hx => absurd hx (by omega)⟩
      have := (not_congr h0).1 hc
      simpa [bit] using this
    · rename_i hc
      have hb : bit s.words 0 = false := by
        have := h0.1 (by simpa using hc)
        simpa [bit] using this
      obtain ⟨h1, h2⟩ := next_spec s 0 (by omega)
      refine ⟨?_, fun x hx => ?_⟩
      · rcases h1 with ⟨_, h1⟩ | h1
        · exact .inl h1
        · exact .inr h1
      · by_cases hx0 : x = 0
        · rw [hx0]; exact hb
        · exact h2 x (by omega) hx

theorem iterFrom_spec (s : ItemSet) : ∀ k id, s.words.length * 32 < k + id → id ≤ s.words.length * 32 →
    (bit s.words id = true ∨ id = s.words.length * 32) →
    (iterFrom s k id).Pairwise (· < ·) ∧ ∀ x, x ∈ iterFrom s k id ↔ id ≤ x ∧ bit s.words x = true := by
  intro k
  induction k with
  | zero => intro id h1 h2; omega
  | succ k ih =>
    intro id hk hle hid
    simp only [iterFrom]
    split
    · rename_i he
      refine ⟨List.Pairwise.nil, fun x => ?_⟩
      simp only [List.not_mem_nil, false_iff, not_and]
      intro h1 h2
      have := bit_lt h2
      omega
    · rename_i he
      obtain ⟨n1, n2⟩ := next_spec s id hle
      have hid : bit s.words id = true := by
        rcases hid with h | h
        · exact h
        · exact absurd h he
      have hlt := bit_lt hid
      have hn : id < s.next id ∧ s.next id ≤ s.words.length * 32 := by
        rcases n1 with ⟨h1, h2⟩ | h1
        · have := bit_lt h2; omega
        · omega
      obtain ⟨i1, i2⟩ := ih (s.next id) (by omega) hn.2 (by
        rcases n1 with ⟨_, h⟩ | h
        · exact .inl h
        · exact .inr h)
      refine ⟨List.pairwise_cons.2 ⟨fun y hy => ?_, i1⟩, fun x => ?_⟩
      · have := (i2 y).1 hy
        omega
      · rw [List.mem_cons, i2 x]
        constructor
        · rintro (rfl | ⟨h1, h2⟩)
          · exact ⟨Nat.le_refl _, hid⟩
          · exact ⟨by omega, h2⟩
        · rintro ⟨h1, h2⟩
          by_cases hx : x = id
          · exact .inl hx
          · right
            refine ⟨?_, h2⟩
            by_contra hc
            rw [n2 x (by omega) (by omega)] at h2
            cases h2

/-- C26, iteration: every member once, in increasing order. -/
theorem iter_exact (s : ItemSet) (F : Finset Nat) (h : Repr s F) : s.iter.Pairwise (· < ·) ∧ ∀ x, x ∈ s.iter ↔ x ∈ F := by
  obtain ⟨f1, f2⟩ := first_spec s
  have hle : s.first ≤ s.words.length * 32 := by
    rcases f1 with h | h
    · have := bit_lt h; omega
    · omega
  obtain ⟨i1, i2⟩ := iterFrom_spec s (s.words.length * 32 + 1) s.first (by omega) hle f1
  refine ⟨i1, fun x => ?_⟩
  rw [iter, i2 x, ← h.1 x, contains_bit]
  constructor
  · exact fun h => h.2
  · intro hx
    refine ⟨?_, hx⟩
    by_contra hc
    rw [f2 x (by omega)] at hx
    cases hx

/-! Sequences of operations -/

/-- Sets that programs can build, with the finite sets they stand for. -/
inductive Reachable : ItemSet → Finset Nat → Prop
  | empty : Reachable empty ∅
  | insert {s F} (id : Nat) : Reachable s F → Reachable (s.insert id).2 (Insert.insert id F)
  | erase {s F} (id : Nat) : Reachable s F → Reachable (s.erase id).2 (F.erase id)
  | merge {s F t G} : Reachable s F → Reachable t G → Reachable (s.merge t).2 (F ∪ G)

theorem reachable_repr {s : ItemSet} {F : Finset Nat} (h : Reachable s F) : Repr s F := by
  induction h with
  | empty => exact empty_repr
  | insert id _ ih => exact (insert_repr _ _ id ih).1
  | erase id _ ih => exact (erase_repr _ _ id ih).1
  | merge _ _ ih1 ih2 => exact (merge_repr _ _ _ _ ih1 ih2).1

/-- C26: for sets reached by any operations, membership, size, emptiness, iteration and the reported changes are those of finite sets. -/
theorem item_set_exact {s : ItemSet} {F : Finset Nat} (h : Reachable s F) :
    (∀ x, s.contains x = true ↔ x ∈ F) ∧ s.size = F.card ∧ (s.size = 0 ↔ F = ∅) ∧
    (s.iter.Pairwise (· < ·) ∧ ∀ x, x ∈ s.iter ↔ x ∈ F) ∧
    (∀ x, (s.insert x).1 = true ↔ x ∉ F) ∧ (∀ x, (s.erase x).1 = true ↔ x ∈ F) ∧
    ∀ t G, Reachable t G → ((s.merge t).1 = true ↔ ¬ G ⊆ F) := by
  have hr := reachable_repr h
  exact ⟨hr.1, hr.2, size_zero_iff s F hr, iter_exact s F hr, fun x => (insert_repr s F x hr).2, fun x => (erase_repr s F x hr).2,
    fun t G ht => (merge_repr s t F G hr (reachable_repr ht)).2⟩

example : Reachable (((empty.insert 70).2.insert 3).2.erase 70).2 (Finset.erase (Insert.insert 3 (Insert.insert 70 ∅)) 70) ∧
    (((empty.insert 70).2.insert 3).2.erase 70).2.iter = [3] :=
  ⟨.erase _ (.insert _ (.insert _ .empty)), by decide +kernel⟩

/-! ### C27 -/

/-- Comparing equal implies the same members. -/
theorem eq_members (s t : ItemSet) (h : s.eq t = true) (x : Nat) : s.contains x = t.contains x := by
  simp only [eq, beq_iff_eq] at h
  simp only [contains, h]

/-- The last word is not zero, so the array is as small as possible. -/
def Tight (l : List (BitVec 32)) : Prop := ∀ w, l.getLast? = some w → w ≠ 0

theorem tight_length {l m : List (BitVec 32)} (hl : Tight l) (h : ∀ x, bit l x = bit m x) : l.length ≤ m.length := by
  by_contra hc
  have hne : l ≠ [] := by rintro rfl; simp at hc
  have hlast := hl (l.getLast hne) (List.getLast?_eq_some_getLast hne)
  apply hlast
  apply BitVec.eq_of_getLsbD_eq
  intro i hi
  have hx := h ((l.length - 1) * 32 + i)
  rw [bit, bit, show ((l.length - 1) * 32 + i) / 32 = l.length - 1 by omega, show ((l.length - 1) * 32 + i) % 32 = i by omega] at hx
  rw [List.getD_eq_getElem?_getD, List.getD_eq_getElem?_getD, List.getElem?_eq_none (l := m) (by omega)] at hx
  rw [List.getLast_eq_getElem]
  rw [List.getElem?_eq_getElem (by omega)] at hx
  simpa using hx

theorem tight_ext {l m : List (BitVec 32)} (hl : Tight l) (hm : Tight m) (h : ∀ x, bit l x = bit m x) : l = m := by
  have e : l.length = m.length := Nat.le_antisymm (tight_length hl h) (tight_length hm (fun x => (h x).symm))
  apply List.ext_getElem e
  intro i h1 h2
  apply BitVec.eq_of_getLsbD_eq
  intro j hj
  have := h (i * 32 + j)
  rw [bit, bit, show (i * 32 + j) / 32 = i by omega, show (i * 32 + j) % 32 = j by omega] at this
  rw [List.getD_eq_getElem?_getD, List.getD_eq_getElem?_getD, List.getElem?_eq_getElem h1, List.getElem?_eq_getElem h2] at this
  simpa using this

theorem or_ne_zero {a b : BitVec 32} (h : a ≠ 0) : a ||| b ≠ 0 := by
  intro e
  apply h
  apply BitVec.eq_of_getLsbD_eq
  intro i hi
  have := congrArg (fun v => v.getLsbD i) e
  simp at this
  simp [this.1]

theorem tight_insert (s : ItemSet) (id : Nat) (h : Tight s.words) : Tight (s.insert id).2.words := by
  have hm := Nat.mod_lt id (show 0 < 32 by omega)
  have hbit : bit (s.insert id).2.words id = true := by rw [insert_bit]; simp
  have hlen : (s.insert id).2.words.length = max s.words.length (id / 32 + 1) := by
    simp only [insert]; split <;> simp [length_grow]
  intro w hw
  have hne : (s.insert id).2.words ≠ [] := by
    intro e
    rw [e] at hlen
    simp only [List.length_nil] at hlen
    omega
  rw [List.getLast?_eq_some_getLast hne, Option.some.injEq] at hw
  rw [← hw, List.getLast_eq_getElem]
  by_cases hl : s.words.length ≤ id / 32
  · -- the last word is the new one
    have : (s.insert id).2.words.length - 1 = id / 32 := by omega
    intro e
    rw [bit, List.getD_eq_getElem?_getD, List.getElem?_eq_getElem (by omega)] at hbit
    simp only [this] at e
    simp only [Option.getD_some, e] at hbit
    simp at hbit
  · -- the old last word, possibly with one more bit
    have hsne : s.words ≠ [] := by rintro e; rw [e] at hl; simp at hl
    have hlast := h (s.words.getLast hsne) (List.getLast?_eq_some_getLast hsne)
    intro e
    apply hlast
    apply BitVec.eq_of_getLsbD_eq
    intro i hi
    have hx := insert_bit s id ((s.words.length - 1) * 32 + i)
    have e1 : bit (s.insert id).2.words ((s.words.length - 1) * 32 + i) = false := by
      have hidx : (s.insert id).2.words.length - 1 = s.words.length - 1 := by omega
      rw [bit, show ((s.words.length - 1) * 32 + i) / 32 = s.words.length - 1 by omega, List.getD_eq_getElem?_getD,
        List.getElem?_eq_getElem (by omega)]
      simp only [hidx] at e
      simp [e]
    rw [e1] at hx
    have hx := (Bool.or_eq_false_iff.1 hx.symm).2
    rw [bit, show ((s.words.length - 1) * 32 + i) / 32 = s.words.length - 1 by omega,
      show ((s.words.length - 1) * 32 + i) % 32 = i by omega, List.getD_eq_getElem?_getD, List.getElem?_eq_getElem (by omega)] at hx
    rw [List.getLast_eq_getElem]
    simpa using hx

theorem tight_merge (s t : ItemSet) (hs : Tight s.words) (ht : Tight t.words) : Tight (s.merge t).2.words := by
  obtain ⟨h1, h2, _⟩ := mergeWords_spec (grow s.words t.words.length) t.words (by rw [length_grow]; omega)
  rw [length_grow] at h1
  intro w hw
  change (mergeWords (grow s.words t.words.length) t.words).2.getLast? = some w at hw
  have hne : (mergeWords (grow s.words t.words.length) t.words).2 ≠ [] := by rintro e; rw [e] at hw; simp at hw
  have hpos : 0 < (mergeWords (grow s.words t.words.length) t.words).2.length := List.length_pos_iff.2 hne
  rw [List.getLast?_eq_some_getLast hne, Option.some.injEq] at hw
  have hg := h2 (max s.words.length t.words.length - 1)
  rw [List.getD_eq_getElem?_getD, List.getElem?_eq_getElem (by omega), getD_grow] at hg
  simp only [Option.getD_some] at hg
  have hw' : w = s.words.getD (max s.words.length t.words.length - 1) 0 ||| t.words.getD (max s.words.length t.words.length - 1) 0 := by
    rw [← hw, List.getLast_eq_getElem, ← hg]
    simp only [h1]
  have lastOf : ∀ l : List (BitVec 32), Tight l → l ≠ [] → l.getD (l.length - 1) 0 ≠ 0 := by
    intro l hl hne
    have := List.length_pos_iff.2 hne
    have hh := hl (l.getLast hne) (List.getLast?_eq_some_getLast hne)
    rw [List.getLast_eq_getElem] at hh
    rw [List.getD_eq_getElem?_getD, List.getElem?_eq_getElem (by omega)]
    simpa using hh
  rw [hw']
  by_cases hle : t.words.length ≤ s.words.length
  · rw [show max s.words.length t.words.length = s.words.length by omega]
    refine or_ne_zero (lastOf _ hs ?_)
    rintro e
    have := congrArg List.length e
    simp only [List.length_nil] at this
    omega
  · rw [show max s.words.length t.words.length = t.words.length by omega, BitVec.or_comm]
    refine or_ne_zero (lastOf _ ht ?_)
    rintro e
    rw [e] at hle
    simp at hle

/-- Sets built without erasing. -/
inductive Grown : ItemSet → Finset Nat → Prop
  | empty : Grown empty ∅
  | insert {s F} (id : Nat) : Grown s F → Grown (s.insert id).2 (Insert.insert id F)
  | merge {s F t G} : Grown s F → Grown t G → Grown (s.merge t).2 (F ∪ G)

theorem grown_reachable {s : ItemSet} {F : Finset Nat} (h : Grown s F) : Reachable s F ∧ Tight s.words := by
  induction h with
  | empty => exact ⟨.empty, by intro w hw; simp [ItemSet.empty] at hw⟩
  | insert id _ ih => exact ⟨.insert id ih.1, tight_insert _ _ ih.2⟩
  | merge _ _ ih1 ih2 => exact ⟨.merge ih1.1 ih2.1, tight_merge _ _ ih1.2 ih2.2⟩

theorem ltWords_total : ∀ a b : List (BitVec 32), a.length = b.length → (ltWords a b = false ∧ ltWords b a = false ↔ a = b) := by
  intro a
  induction a with
  | nil => intro b h; cases b with
    | nil => simp [ltWords]
    | cons _ _ => simp at h
  | cons x a ih =>
    intro b h
    cases b with
    | nil => simp at h
    | cons y b =>
      simp only [ltWords, List.cons.injEq]
      by_cases h1 : x < y
      · have h2 : ¬ y < x := fun h2 => by
          rw [BitVec.lt_def] at h1 h2; omega
        have h3 : x ≠ y := by rintro rfl; exact h2 h1
        simp [h1, h2, h3]
      · by_cases h2 : y < x
        · have h3 : x ≠ y := by rintro rfl; exact h1 h2
          simp [h1, h2, h3]
        · have h3 : x = y := by
            apply BitVec.eq_of_toNat_eq
            rw [BitVec.lt_def] at h1 h2; omega
          subst h3
          simp only [h1, if_false, true_and]
          exact ih b (by simpa using h)

theorem ltWords_asymm : ∀ a b : List (BitVec 32), ltWords a b = true → ltWords b a = false
  | [], _, h => by simp [ltWords] at h
  | _ :: _, [], h => by simp [ltWords] at h
  | x :: a, y :: b, h => by
    unfold ltWords at h ⊢
    by_cases h1 : x < y
    · have h2 : ¬ y < x := fun h2 => by rw [BitVec.lt_def] at h1 h2; omega
      rw [if_neg h2, if_pos h1]
    · rw [if_neg h1] at h
      by_cases h2 : y < x
      · rw [if_pos h2] at h; cases h
      · rw [if_neg h2] at h
        rw [if_neg h2, if_neg h1]
        exact ltWords_asymm a b h

theorem ltWords_trans : ∀ a b c : List (BitVec 32), ltWords a b = true → ltWords b c = true → ltWords a c = true
  | [], _, _, h, _ => by simp [ltWords] at h
  | _ :: _, [], _, h, _ => by simp [ltWords] at h
  | _ :: _, _ :: _, [], _, h => by simp [ltWords] at h
  | x :: a, y :: b, z :: c, h, h' => by
    unfold ltWords at h h' ⊢
    simp only [BitVec.lt_def] at h h' ⊢
    by_cases h1 : x.toNat < y.toNat
    · by_cases h2 : y.toNat < z.toNat
      · rw [if_pos (by omega)]
      · rw [if_neg h2] at h'
        by_cases h3 : z.toNat < y.toNat
        · rw [if_pos h3] at h'; cases h'
        · rw [if_pos (by omega)]
    · rw [if_neg h1] at h
      by_cases h2 : y.toNat < x.toNat
      · rw [if_pos h2] at h; cases h
      · rw [if_neg h2] at h
        by_cases h3 : y.toNat < z.toNat
        · rw [if_pos (by omega)]
        · rw [if_neg h3] at h'
          by_cases h4 : z.toNat < y.toNat
          · rw [if_pos h4] at h'; cases h'
          · rw [if_neg h4] at h'
            rw [if_neg (by omega), if_neg (by omega)]
            exact ltWords_trans a b c h h'

/-- `operator<` is a strict order on item sets, whatever their history, so it may be used as the order of a map. -/
theorem lt_strict (s t u : ItemSet) : (s.lt t = true → t.lt s = false) ∧ (s.lt t = true → t.lt u = true → s.lt u = true) := by
  unfold lt
  constructor
  · intro h
    by_cases h1 : s.words.length < t.words.length
    · rw [if_neg (by omega), if_pos h1]
    · rw [if_neg h1] at h
      by_cases h2 : t.words.length < s.words.length
      · rw [if_pos h2] at h; cases h
      · rw [if_neg h2] at h
        rw [if_neg h2, if_neg h1]
        exact ltWords_asymm _ _ h
  · intro h h'
    by_cases h1 : s.words.length < t.words.length
    · by_cases h2 : u.words.length < t.words.length
      · rw [if_neg (by omega), if_pos h2] at h'; cases h'
      · rw [if_pos (by omega)]
    · rw [if_neg h1] at h
      by_cases h2 : t.words.length < s.words.length
      · rw [if_pos h2] at h; cases h
      · rw [if_neg h2] at h
        by_cases h3 : t.words.length < u.words.length
        · rw [if_pos (by omega)]
        · rw [if_neg h3] at h'
          by_cases h4 : u.words.length < t.words.length
          · rw [if_pos h4] at h'; cases h'
          · rw [if_neg h4] at h'
            rw [if_neg (by omega), if_neg (by omega)]
            exact ltWords_trans _ _ _ h h'

example : (empty.insert 3).2.lt (empty.insert 5).2 = true := by decide +kernel

/-- C27 for sets built by inserting and merging: both comparisons are extensional. Missing: sets from which something was erased. -/
theorem comparison_extensional_partial {s t : ItemSet} {F G : Finset Nat} (hs : Grown s F) (ht : Grown t G) :
    (s.eq t = true ↔ F = G) ∧ (s.lt t = false ∧ t.lt s = false ↔ F = G) := by
  have hF := (reachable_repr (grown_reachable hs).1).1
  have hG := (reachable_repr (grown_reachable ht).1).1
  have key : s.words = t.words ↔ F = G := by
    constructor
    · intro e
      ext x
      rw [← hF x, ← hG x, contains_bit, contains_bit, e]
    · intro e
      refine tight_ext (grown_reachable hs).2 (grown_reachable ht).2 (fun x => ?_)
      rw [← contains_bit, ← contains_bit, Bool.eq_iff_iff, hF x, hG x, e]
  refine ⟨by rw [← key]; simp [eq], ?_⟩
  rw [← key]
  simp only [lt]
  by_cases h1 : s.words.length < t.words.length
  · have : s.words ≠ t.words := by intro e; rw [e] at h1; omega
    simp [h1, this]
  · by_cases h2 : t.words.length < s.words.length
    · have : s.words ≠ t.words := by intro e; rw [e] at h2; omega
      simp [h1, h2, this]
    · rw [if_neg h1, if_neg h2, if_neg h2, if_neg h1]
      exact ltWords_total _ _ (by omega)

/-- C27 is violated after an erase: a set from which its only member was erased is not equal to the empty set (and is ordered after
it). -/
theorem comparison_violated (id : Nat) : Reachable ((empty.insert id).2.erase id).2 ∅ ∧ Reachable empty ∅ ∧
    ((empty.insert id).2.erase id).2.eq empty = false ∧ empty.lt ((empty.insert id).2.erase id).2 = true := by
  have hlen : ((empty.insert id).2.erase id).2.words.length = id / 32 + 1 := by
    have hl : (empty.insert id).2.words.length = id / 32 + 1 := by
      simp only [insert]; split <;> simp [length_grow, empty]
    simp only [erase]
    split
    · exact hl
    · split <;> simp [hl]
  refine ⟨?_, .empty, ?_, ?_⟩
  · have := Reachable.erase id (Reachable.insert id Reachable.empty)
    rwa [show (Insert.insert id (∅ : Finset Nat)).erase id = ∅ by ext x; simp] at this
  · simp only [eq, empty, beq_eq_false_iff_ne, ne_eq]
    intro e
    rw [show ((empty.insert id).2.erase id).2.words = [] from e] at hlen
    simp at hlen
  · simp only [lt]
    rw [if_pos (by rw [hlen]; simp [empty])]

example : ((empty.insert 3).2.insert 40).2.eq ((empty.insert 40).2.insert 3).2 = true := by decide +kernel

end ItemSet
end TameParse

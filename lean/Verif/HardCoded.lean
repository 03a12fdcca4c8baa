import Verif.SymbolTableProps
/-
Model of the table written into generated lexers (property C14).

Source: `symbol_level::to_hard_coded_table` (/repo/TameParse/Dfa/symbol_table.h 162-237, 315-359) and
`hard_coded_symbol_table::lookup` (/repo/TameParse/Dfa/hard_coded_symbol_table.h 37-84, 119-121).

Notes:
* `none` from `hcTable`: the size of an array is computed as a negative number and converted to `size_t`, so `new int[size]` fails.
* `none` from `hcLookup`: a read outside the table.
* Symbols are below 2^31 (`(int) symbol` at line 73 does not change them).
-/
namespace TameParse
namespace Node

/-- `lowestUsed` (symbol_table.h 176/188, 326/336). -/
def lowest {α : Type} (p : α → Bool) (l : List α) : Nat := (l.findIdx? p).getD l.length

/-- `highestUsed` (symbol_table.h 177/189, 327/337). -/
def highest {α : Type} (p : α → Bool) (l : List α) : Nat := ((l.reverse.findIdx? p).map (fun i => l.length - i)).getD 0

/-- The list of offsets (symbol_table.h 211-233). -/
def offsets : Nat → List (Option (List Int)) → List Int
  | _, [] => []
  | pos, none :: r => -1 :: offsets pos r
  | pos, some t :: r => (pos : Int) :: offsets (pos + t.length) r

/-- `newTable[1]` (symbol_table.h 208, 346). -/
def header (lo hi : Nat) : Int := ((lo ||| (hi <<< 8) : Nat) : Int)

/-- `to_hard_coded_table` (symbol_table.h 162-237, 315-359). -/
def hcTable : (d c : Nat) → Node d → Option (List Int)
  | 0, c, t =>
    match t.syms with
    | none => some [t.dflt, 0]
    | some f =>
      let l := (List.range c).map f
      let lo := lowest (fun s => s != t.dflt) l
      let hi := highest (fun s => s != t.dflt) l
      if hi < lo then none else some (t.dflt :: header lo hi :: (l.take hi).drop lo)
  | d + 1, c, t =>
    match t.syms with
    | none => some [t.dflt, 0]
    | some f => do
      let l ← (List.range c).mapM (fun i => match f i with
        | none => some none
        | some n => (hcTable d 256 n).map some)
      let lo := lowest Option.isSome l
      let hi := highest Option.isSome l
      if hi < lo then none
      else
        let u := (l.take hi).drop lo
        return t.dflt :: header lo hi :: (offsets (2 + (hi - lo)) u ++ u.flatMap (fun s => s.getD []))

/-- `hcst_lookup_sym` (hard_coded_symbol_table.h 37-84). At the bottom the whole symbol is compared with the bounds, not its low
byte (line 73). -/
def hcLookup (T : List Int) : Nat → Nat → Nat → Option Int
  | 0, off, x => do
    let lowHigh ← T[off + 1]?
    let lo := lowHigh.toNat % 256
    let hi := lowHigh.toNat / 256
    if x < lo ∨ hi ≤ x then T[off]?
    else do
      let s ← T[off + 2 + (x % 256 - lo)]?
      if s = -1 then T[off]? else return s
  | d + 1, off, x => do
    let lowHigh ← T[off + 1]?
    let lo := lowHigh.toNat % 256
    let hi := lowHigh.toNat / 256
    let pos := x / 256 ^ (d + 1) % 256
    if pos < lo ∨ hi ≤ pos then T[off]?
    else do
      let next ← T[off + 2 + (pos - lo)]?
      if next = -1 then T[off]? else hcLookup T d (off + next.toNat) x

/-! ## Lemmas -/

theorem lowest_spec {α : Type} (p : α → Bool) (l : List α) : lowest p l ≤ l.length ∧ (∀ i v, l[i]? = some v → p v = true → lowest p l ≤ i) := by
  unfold lowest
  cases h : l.findIdx? p with
  | none =>
    rw [List.findIdx?_eq_none_iff] at h
    refine ⟨by simp, fun i v hi hv => ?_⟩
    have := h v (List.mem_of_getElem? hi); rw [hv] at this; simp at this
  | some k =>
    obtain ⟨hk, h1, h2⟩ := List.findIdx?_eq_some_iff_getElem.1 h
    refine ⟨by simp; omega, fun i v hi hv => ?_⟩
    simp only [Option.getD_some]
    by_contra hlt
    have := h2 i (by omega)
    obtain ⟨hil, e⟩ := List.getElem?_eq_some_iff.1 hi
    rw [e, hv] at this; simp at this

theorem highest_spec {α : Type} (p : α → Bool) (l : List α) : highest p l ≤ l.length ∧ (∀ i v, l[i]? = some v → p v = true → i < highest p l) := by
  unfold highest
  cases h : l.reverse.findIdx? p with
  | none =>
    rw [List.findIdx?_eq_none_iff] at h
    refine ⟨by simp, fun i v hi hv => ?_⟩
    have := h v (List.mem_reverse.2 (List.mem_of_getElem? hi)); rw [hv] at this; simp at this
  | some k =>
    obtain ⟨hk, h1, h2⟩ := List.findIdx?_eq_some_iff_getElem.1 h
    simp only [List.length_reverse] at hk
    refine ⟨by simp, fun i v hi hv => ?_⟩
    simp only [Option.map_some, Option.getD_some]
    by_contra hge
    obtain ⟨hil, e⟩ := List.getElem?_eq_some_iff.1 hi
    have := h2 (l.length - 1 - i) (by omega)
    rw [List.getElem_reverse] at this
    have hidx : l.length - 1 - (l.length - 1 - i) = i := by omega
    simp only [hidx, e, hv] at this
    simp at this

theorem header_spec {lo hi : Nat} (h : lo < 256) : (header lo hi).toNat % 256 = lo ∧ (header lo hi).toNat / 256 = hi := by
  have : lo ||| (hi <<< 8) = 256 * hi + lo := by
    rw [Nat.or_comm, ← Nat.shiftLeft_add_eq_or_of_lt (by simpa using h), Nat.shiftLeft_eq]; omega
  simp only [header, this, Int.toNat_natCast]
  omega

/-- Reading the offsets and the copied tables. -/
theorem offsets_spec (u : List (Option (List Int))) : ∀ (pos i : Nat),
    (offsets pos u).length = u.length ∧
    (u[i]? = some none → (offsets pos u)[i]? = some (-1)) ∧
    (∀ t, u[i]? = some (some t) → ∃ A B, u.flatMap (fun s => s.getD []) = A ++ t ++ B ∧ (offsets pos u)[i]? = some ((pos + A.length : Nat) : Int)) := by
  induction u with
  | nil => intro pos i; simp [offsets]
  | cons s u ih =>
    intro pos i
    cases s with
    | none =>
      have hl := (ih pos 0).1
      refine ⟨by simp [offsets, hl], ?_, ?_⟩
      · intro h
        cases i with
        | zero => simp [offsets]
        | succ i => simp only [offsets, List.getElem?_cons_succ] at h ⊢; exact (ih pos i).2.1 h
      · intro t h
        cases i with
        | zero => simp at h
        | succ i =>
          simp only [offsets, List.getElem?_cons_succ] at h ⊢
          obtain ⟨A, B, h1, h2⟩ := (ih pos i).2.2 t h
          exact ⟨A, B, by simpa using h1, h2⟩
    | some t0 =>
      have hl := (ih (pos + t0.length) 0).1
      refine ⟨by simp [offsets, hl], ?_, ?_⟩
      · intro h
        cases i with
        | zero => simp at h
        | succ i => simp only [offsets, List.getElem?_cons_succ] at h ⊢; exact (ih _ i).2.1 h
      · intro t h
        cases i with
        | zero =>
          simp only [List.getElem?_cons_zero, Option.some.injEq] at h
          subst h
          exact ⟨[], u.flatMap (fun s => s.getD []), by simp, by simp [offsets]⟩
        | succ i =>
          simp only [offsets, List.getElem?_cons_succ] at h ⊢
          obtain ⟨A, B, h1, h2⟩ := (ih _ i).2.2 t h
          refine ⟨t0 ++ A, B, by simp [h1], ?_⟩
          rw [h2]; simp; omega

/-- What the generated table answers, in terms of the table it was made from. -/
def hcVal : (d c : Nat) → Node d → Nat → Int
  | 0, c, t, x =>
    match t.syms with
    | none => t.dflt
    | some f => if x < c then (if f x = -1 then t.dflt else f x) else t.dflt
  | d + 1, c, t, x =>
    if x / 256 ^ (d + 1) % 256 < c then
      match kid t (x / 256 ^ (d + 1) % 256) with
      | none => t.dflt
      | some n => hcVal d 256 n x
    else t.dflt

theorem take_drop_get {α : Type} (l : List α) (lo hi i : Nat) (h1 : lo ≤ i) (h2 : i < hi) : ((l.take hi).drop lo)[i - lo]? = l[i]? := by
  rw [List.getElem?_drop, List.getElem?_take, if_pos (by omega)]
  congr 1; omega

theorem hcLookup_spec (d : Nat) : ∀ (c : Nat) (_ : c ≤ 256) (t : Node d) (T : List Int), hcTable d c t = some T →
    ∀ (P Q : List Int) (x : Nat), hcLookup (P ++ T ++ Q) d P.length x = some (hcVal d c t x) := by
  have hget : ∀ (P T Q : List Int) (i : Nat), i < T.length → (P ++ T ++ Q)[P.length + i]? = T[i]? := by
    intro P T Q i hi
    rw [List.getElem?_append_left (by simp; omega), List.getElem?_append_right (by omega)]
    congr 1; omega
  have hget0 : ∀ (P Q : List Int) (a b : Int) (R : List Int), (P ++ (a :: b :: R) ++ Q)[P.length]? = some a := by
    intro P Q a b R
    have := hget P (a :: b :: R) Q 0 (by simp)
    simpa using this
  have hget1 : ∀ (P Q : List Int) (a b : Int) (R : List Int), (P ++ (a :: b :: R) ++ Q)[P.length + 1]? = some b := by
    intro P Q a b R
    have := hget P (a :: b :: R) Q 1 (by simp)
    simpa using this
  have hgetr : ∀ (P Q : List Int) (a b : Int) (R : List Int) (i : Nat), i < R.length → (P ++ (a :: b :: R) ++ Q)[P.length + 2 + i]? = R[i]? := by
    intro P Q a b R i hi
    have := hget P (a :: b :: R) Q (2 + i) (by simp; omega)
    rw [Nat.add_assoc, this, Nat.add_comm 2 i]
    simp
  induction d with
  | zero =>
    intro c hc t T hT P Q x
    cases hs : t.syms with
    | none =>
      simp only [hcTable, hs, Option.some.injEq] at hT
      subst hT
      simp only [hcLookup, hcVal, hs, hget0, hget1, Option.bind_eq_bind, Option.bind_some]
      simp
    | some f =>
      simp only [hcTable, hs] at hT
      obtain ⟨lo1, lo2⟩ := lowest_spec (fun s => s != t.dflt) ((List.range c).map f)
      obtain ⟨hi1, hi2⟩ := highest_spec (fun s => s != t.dflt) ((List.range c).map f)
      generalize hlo : lowest (fun s => s != t.dflt) ((List.range c).map f) = lo at *
      generalize hhi : highest (fun s => s != t.dflt) ((List.range c).map f) = hi at *
      simp only [List.length_map, List.length_range] at lo1 hi1
      split at hT
      · simp at hT
      · rename_i hle
        simp only [Option.some.injEq] at hT
        subst hT
        by_cases h256 : lo = 256
        · exfalso
          -- an array with all 256 entries equal to the default has `highestUsed = 0`
          have : hi = 0 := by
            have hnone : ((List.range c).map f).reverse.findIdx? (fun s => s != t.dflt) = none := by
              rw [List.findIdx?_eq_none_iff]
              intro v hv
              obtain ⟨i, hi', e⟩ := List.mem_iff_getElem.1 (List.mem_reverse.1 hv)
              cases hb : (v != t.dflt) with
              | false => rfl
              | true =>
                have := lo2 i v (by rw [List.getElem?_eq_getElem hi', e]) hb
                simp at hi'; omega
            rw [← hhi]; unfold highest; rw [hnone]; rfl
          omega
        · obtain ⟨e1, e2⟩ := header_spec (lo := lo) (hi := hi) (by omega)
          have hfx : ∀ i, i < c → ((List.range c).map f)[i]? = some (f i) := by intro i hi; simp [hi]
          simp only [hcLookup, hcVal, hs, hget0, hget1, Option.bind_eq_bind, Option.bind_some, e1, e2]
          by_cases hx : x < lo ∨ hi ≤ x
          · rw [if_pos hx]
            congr 1
            by_cases hxc : x < c
            · have hfd : f x = t.dflt := by
                by_contra hne
                have := lo2 x (f x) (hfx x hxc) (by simpa using hne)
                have := hi2 x (f x) (hfx x hxc) (by simpa using hne)
                omega
              rw [if_pos hxc, hfd]; simp
            · rw [if_neg hxc]
          · rw [if_neg hx]
            have hxm : x % 256 = x := Nat.mod_eq_of_lt (by omega)
            rw [hxm, hgetr _ _ _ _ _ _ (by simp; omega), take_drop_get _ _ _ _ (by omega) (by omega), hfx x (by omega)]
            simp only [Option.bind_some, if_pos (by omega : x < c)]
            split <;> rfl
  | succ d ih =>
    intro c hc t T hT P Q x
    cases hs : t.syms with
    | none =>
      simp only [hcTable, hs, Option.some.injEq] at hT
      subst hT
      simp only [hcLookup, hcVal, hget0, hget1, Option.bind_eq_bind, Option.bind_some, kid, hs, Option.getD_none]
      simp
    | some f =>
      simp only [hcTable, hs, Option.bind_eq_bind] at hT
      cases hl : (List.range c).mapM (fun i => match f i with
        | none => some none
        | some n => (hcTable d 256 n).map some) with
      | none => rw [hl] at hT; simp at hT
      | some l =>
        rw [hl] at hT
        simp only [Option.bind_some] at hT
        obtain ⟨hll, hlg⟩ : l.length = c ∧ ∀ i, i < c → l[i]? = (match f i with
            | none => some none
            | some n => (hcTable d 256 n).map some) := by
          have hgen : ∀ (xs : List Nat) (l : List (Option (List Int))), xs.mapM (fun i => match f i with
              | none => some none
              | some n => (hcTable d 256 n).map some) = some l → l.length = xs.length ∧ ∀ (i y : Nat), xs[i]? = some y → l[i]? = (match f y with
              | none => some none
              | some n => (hcTable d 256 n).map some) := by
            intro xs
            induction xs with
            | nil => intro l h; simp at h; subst h; simp
            | cons y ys ihy =>
              intro l h
              rw [List.mapM_cons] at h
              generalize hy : (match f y with
                | none => some none
                | some n => (hcTable d 256 n).map some) = v at h
              cases v with
              | none => simp at h
              | some v =>
                cases hys : ys.mapM (fun i => match f i with
                  | none => some none
                  | some n => (hcTable d 256 n).map some) with
                | none => rw [hys] at h; simp at h
                | some l' =>
                  rw [hys] at h
                  simp at h
                  subst h
                  obtain ⟨g1, g2⟩ := ihy l' hys
                  refine ⟨by simp [g1], fun i z hz => ?_⟩
                  cases i with
                  | zero => simp only [List.getElem?_cons_zero, Option.some.injEq] at hz ⊢; subst hz; rw [hy]
                  | succ i => simp only [List.getElem?_cons_succ] at hz ⊢; exact g2 i z hz
          obtain ⟨g1, g2⟩ := hgen _ l hl
          exact ⟨by simpa using g1, fun i hi => g2 i i (by simp [hi])⟩
        obtain ⟨lo1, lo2⟩ := lowest_spec Option.isSome l
        obtain ⟨hi1, hi2⟩ := highest_spec Option.isSome l
        generalize hlo : lowest Option.isSome l = lo at *
        generalize hhi : highest Option.isSome l = hi at *
        split at hT
        · simp at hT
        · rename_i hle
          simp only [pure, Option.some.injEq] at hT
          subst hT
          have hkid : ∀ i, kid t i = f i := by intro i; simp only [kid, hs, Option.getD_some]
          by_cases h256 : lo = 256
          · exfalso
            have : hi = 0 := by
              have hnone : l.reverse.findIdx? Option.isSome = none := by
                rw [List.findIdx?_eq_none_iff]
                intro v hv
                obtain ⟨i, hi', e⟩ := List.mem_iff_getElem.1 (List.mem_reverse.1 hv)
                cases hb : v.isSome with
                | false => rfl
                | true =>
                  have := lo2 i v (by rw [List.getElem?_eq_getElem hi', e]) hb
                  omega
              rw [← hhi]; unfold highest; rw [hnone]; rfl
            omega
          · obtain ⟨e1, e2⟩ := header_spec (lo := lo) (hi := hi) (by omega)
            simp only [hcLookup, hcVal, hget0, hget1, Option.bind_eq_bind, Option.bind_some, e1, e2, hkid]
            generalize hpos : x / 256 ^ (d + 1) % 256 = pos
            have hlpos : pos < c → l[pos]? = (match f pos with
              | none => some none
              | some n => (hcTable d 256 n).map some) := hlg pos
            have hunused : ∀ i, i < c → (i < lo ∨ hi ≤ i) → f i = none := by
              intro i hic hor
              cases hfi : f i with
              | none => rfl
              | some n =>
                exfalso
                have hli := hlg i hic
                simp only [hfi] at hli
                cases hsub : hcTable d 256 n with
                | none => rw [hsub] at hli; simp at hli; omega
                | some T' =>
                  rw [hsub] at hli
                  simp only [Option.map_some] at hli
                  have := lo2 i _ hli rfl
                  have := hi2 i _ hli rfl
                  omega
            by_cases hx : pos < lo ∨ hi ≤ pos
            · rw [if_pos hx]
              congr 1
              by_cases hpc : pos < c
              · rw [if_pos hpc, hunused pos hpc hx]
              · rw [if_neg hpc]
            · rw [if_neg hx]
              have hpc : pos < c := by omega
              rw [if_pos hpc]
              have hul : ((l.take hi).drop lo).length = hi - lo := by simp; omega
              have hug : ((l.take hi).drop lo)[pos - lo]? = l[pos]? := take_drop_get _ _ _ _ (by omega) (by omega)
              generalize hu : (l.take hi).drop lo = u at hul hug
              have hspec := offsets_spec u (2 + (hi - lo)) (pos - lo)
              have hread : (P ++ (t.dflt :: header lo hi :: (offsets (2 + (hi - lo)) u ++ u.flatMap (fun s => s.getD []))) ++ Q)[P.length + 2 + (pos - lo)]? =
                  (offsets (2 + (hi - lo)) u)[pos - lo]? := by
                rw [hgetr _ _ _ _ _ _ (by simp [hspec.1]; omega), List.getElem?_append_left (by rw [hspec.1]; omega)]
              rw [hread]
              have hlp := hlg pos hpc
              cases hfp : f pos with
              | none =>
                simp only [hfp] at hlp
                rw [hspec.2.1 (by rw [hug, hlp])]
                simp
              | some n =>
                simp only [hfp] at hlp
                cases hsub : hcTable d 256 n with
                | none =>
                  exfalso
                  rw [hsub] at hlp; simp at hlp; omega
                | some T' =>
                  rw [hsub] at hlp
                  simp only [Option.map_some] at hlp
                  obtain ⟨A, B, hAB, hoff⟩ := hspec.2.2 T' (by rw [hug, hlp])
                  rw [hoff]
                  simp only [Option.bind_some]
                  rw [if_neg (by omega)]
                  have := ih 256 (by omega) n T' hsub (P ++ t.dflt :: header lo hi :: (offsets (2 + (hi - lo)) u ++ A)) (B ++ Q) x
                  rw [hAB]
                  have hlen : (P ++ t.dflt :: header lo hi :: (offsets (2 + (hi - lo)) u ++ A)).length = P.length + ((2 + (hi - lo) + A.length : Nat) : Int).toNat := by
                    simp only [List.length_append, List.length_cons, hspec.1, hul, Int.toNat_natCast]; omega
                  rw [hlen] at this
                  simpa using this

end Node
end TameParse

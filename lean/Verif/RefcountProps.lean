import Verif.Refcount
/-
C25: reference counting keeps objects exactly as long as pointers to them exist, for programs that do not release the last reference
to the object which holds the source (or the target) of an assignment. `head = head->next` is undefined behaviour.
-/
namespace TameParse
namespace PtrHeap

/-- The pointers that hold reference `r`. -/
def holders (h : PtrHeap) (r : Nat) : Finset Nat := (Finset.range h.nextPtr).filter (fun p => h.ptr p = some r)

/-- The pointers that exist. -/
def live (h : PtrHeap) : Finset Nat := (Finset.range h.nextPtr).filter (fun p => h.ptr p ≠ none)

/-- The state between operations and while destructors run: `hole` is a pointer that is being assigned to, `pending` the pointers
whose destructors are due. -/
structure Inv (h : PtrHeap) (hole : Nat → Prop) (pending : List Nat) : Prop where
  ptr_lt : ∀ p r, h.ptr p = some r → p < h.nextPtr
  ref_lt : ∀ r e, h.ref r = some e → r < h.nextRef
  ptr_ref : ∀ p r, h.ptr p = some r → h.ref r ≠ none
  count : ∀ r c fs, h.ref r = some (c, fs) → c = (h.holders r).card ∧ 0 < c
  field_live : ∀ r c fs x, h.ref r = some (c, fs) → x ∈ fs → h.ptr x ≠ none ∨ hole x
  field_nodup : ∀ r c fs, h.ref r = some (c, fs) → fs.Nodup
  field_one : ∀ r c fs r' c' fs' x, h.ref r = some (c, fs) → h.ref r' = some (c', fs') → x ∈ fs → x ∈ fs' → r = r'
  field_lt : ∀ r c fs x, h.ref r = some (c, fs) → x ∈ fs → x < h.nextPtr
  pend_live : ∀ x ∈ pending, h.ptr x ≠ none ∨ hole x
  pend_nodup : pending.Nodup
  pend_field : ∀ x ∈ pending, ∀ r c fs, h.ref r = some (c, fs) → x ∉ fs
  hole_out : ∀ x, hole x → h.ptr x = none
  deleted_nodup : h.deleted.Nodup
  deleted_iff : ∀ r, r < h.nextRef → (r ∈ h.deleted ↔ h.ref r = none)
  deleted_lt : ∀ r ∈ h.deleted, r < h.nextRef

theorem mem_holders {h : PtrHeap} {r p : Nat} : p ∈ h.holders r ↔ p < h.nextPtr ∧ h.ptr p = some r := by
  simp [holders]

/-- Removing a pointer takes one holder away from its reference and leaves the other references alone. -/
theorem holders_erase {h : PtrHeap} {p r : Nat} (hp : h.ptr p = some r) (hlt : p < h.nextPtr) (ref : Nat → Option (Nat × List Nat))
    (del : List Nat) (s : Nat) :
    ((PtrHeap.mk (Function.update h.ptr p none) ref h.nextPtr h.nextRef del).holders s).card =
      if s = r then (h.holders s).card - 1 else (h.holders s).card := by
  split
  · rename_i hs
    subst hs
    rw [show (PtrHeap.mk (Function.update h.ptr p none) ref h.nextPtr h.nextRef del).holders s = (h.holders s).erase p from ?_]
    · rw [Finset.card_erase_of_mem (mem_holders.2 ⟨hlt, hp⟩)]
    · ext x
      rw [Finset.mem_erase, mem_holders, mem_holders]
      dsimp only
      by_cases hx : x = p
      · subst hx; simp
      · simp [hx]
  · rename_i hs
    congr 1
    ext x
    rw [mem_holders, mem_holders]
    dsimp only
    by_cases hx : x = p
    · subst hx
      simp only [Function.update_self, hp, reduceCtorEq, and_false, Option.some.injEq, false_iff, not_and]
      intro _ e
      exact hs e.symm
    · simp [Function.update_of_ne hx]

/-- Adding a new holder. -/
theorem holders_add {ptr : Nat → Option Nat} {p r n m n' : Nat} (hp : ptr p = none) (hlt : p < n') (hn : n ≤ n')
    (hout : ∀ x, n ≤ x → ptr x = none) (ref ref' : Nat → Option (Nat × List Nat)) (m' : Nat)
    (del del' : List Nat) (s : Nat) :
    ((PtrHeap.mk (Function.update ptr p (some r)) ref n' m' del).holders s).card =
      if s = r then ((PtrHeap.mk ptr ref' n m del').holders s).card + 1 else ((PtrHeap.mk ptr ref' n m del').holders s).card := by
  split
  · rename_i hs
    subst hs
    rw [show (PtrHeap.mk (Function.update ptr p (some s)) ref n' m' del).holders s = insert p ((PtrHeap.mk ptr ref' n m del').holders s) from ?_]
    · rw [Finset.card_insert_of_notMem]
      rw [mem_holders]
      simp [hp]
    · ext x
      rw [Finset.mem_insert, mem_holders, mem_holders]
      dsimp only
      by_cases hx : x = p
      · subst hx; simp [hlt]
      · simp only [Function.update_of_ne hx, hx, false_or]
        constructor
        · rintro ⟨h1, h2⟩
          refine ⟨?_, h2⟩
          by_contra hc
          rw [hout x (by omega)] at h2
          simp at h2
        · rintro ⟨h1, h2⟩
          exact ⟨by omega, h2⟩
  · rename_i hs
    congr 1
    ext x
    rw [mem_holders, mem_holders]
    dsimp only
    by_cases hx : x = p
    · subst hx
      simp only [Function.update_self, Option.some.injEq, hp, reduceCtorEq, and_false, iff_false, not_and]
      intro _ e
      exact hs e.symm
    · simp only [Function.update_of_ne hx]
      constructor
      · rintro ⟨h1, h2⟩
        refine ⟨?_, h2⟩
        by_contra hc
        rw [hout x (by omega)] at h2
        simp at h2
      · rintro ⟨h1, h2⟩
        exact ⟨by omega, h2⟩

/-- A set of pointers that contains the fields of everything its members refer to. -/
def Closed (h : PtrHeap) (Q : Nat → Prop) : Prop := ∀ x r c fs, Q x → h.ptr x = some r → h.ref r = some (c, fs) → ∀ y ∈ fs, Q y

/-- One destructor, when other pointers keep the object. -/
theorem inv_release {h : PtrHeap} {hole : Nat → Prop} {pending : List Nat} {p r c : Nat} {fs : List Nat} (hi : Inv h hole (p :: pending))
    (hp : h.ptr p = some r) (hr : h.ref r = some (c, fs)) (hc : ¬ c ≤ 1) :
    Inv { h with ptr := Function.update h.ptr p none, ref := Function.update h.ref r (some (c - 1, fs)) } hole pending := by
  have hnd := List.nodup_cons.1 hi.pend_nodup
  have back : ∀ s d gs, Function.update h.ref r (some (c - 1, fs)) s = some (d, gs) → ∃ d', h.ref s = some (d', gs) := by
    intro s d gs e
    by_cases hs : s = r
    · subst hs
      rw [Function.update_self] at e
      simp only [Option.some.injEq, Prod.mk.injEq] at e
      exact ⟨c, by rw [hr, e.2]⟩
    · rw [Function.update_of_ne hs] at e
      exact ⟨d, e⟩
  have pback : ∀ x s, Function.update h.ptr p none x = some s → x ≠ p ∧ h.ptr x = some s := by
    intro x s e
    by_cases hx : x = p
    · subst hx; simp at e
    · rw [Function.update_of_ne hx] at e; exact ⟨hx, e⟩
  have pne : ∀ x, x ≠ p → (h.ptr x ≠ none ∨ hole x) → Function.update h.ptr p none x ≠ none ∨ hole x := by
    intro x hx hh
    rw [Function.update_of_ne hx]; exact hh
  refine ⟨?_, ?_, ?_, ?_, ?_, ?_, ?_, ?_, ?_, hnd.2, ?_, ?_, hi.deleted_nodup, ?_, hi.deleted_lt⟩
  · intro x s e; exact hi.ptr_lt x s (pback x s e).2
  · intro s e he
    obtain ⟨d', h'⟩ := back s e.1 e.2 he
    exact hi.ref_lt s _ h'
  · intro x s e
    dsimp only
    by_cases hs : s = r
    · subst hs; simp
    · rw [Function.update_of_ne hs]; exact hi.ptr_ref x s (pback x s e).2
  · intro s d gs e
    rw [holders_erase hp (hi.ptr_lt p r hp)]
    by_cases hs : s = r
    · subst hs
      dsimp only at e
      rw [Function.update_self] at e
      simp only [Option.some.injEq, Prod.mk.injEq] at e
      have := hi.count s c fs hr
      rw [if_pos rfl]
      omega
    · dsimp only at e
      rw [Function.update_of_ne hs] at e
      rw [if_neg hs]
      exact hi.count s d gs e
  · intro s d gs x e hx
    obtain ⟨d', h'⟩ := back s d gs e
    refine pne x ?_ (hi.field_live s d' gs x h' hx)
    rintro rfl
    exact hi.pend_field x (by simp) s d' gs h' hx
  · intro s d gs e
    obtain ⟨d', h'⟩ := back s d gs e
    exact hi.field_nodup s d' gs h'
  · intro s d gs s' d' gs' x e e' hx hx'
    obtain ⟨_, h1⟩ := back s d gs e
    obtain ⟨_, h2⟩ := back s' d' gs' e'
    exact hi.field_one s _ gs s' _ gs' x h1 h2 hx hx'
  · intro s d gs x e hx
    obtain ⟨_, h1⟩ := back s d gs e
    exact hi.field_lt s _ gs x h1 hx
  · intro x hx
    refine pne x ?_ (hi.pend_live x (by simp [hx]))
    rintro rfl
    exact hnd.1 hx
  · intro x hx s d gs e
    obtain ⟨_, h1⟩ := back s d gs e
    exact hi.pend_field x (by simp [hx]) s _ gs h1
  · intro x hx
    dsimp only
    by_cases hxp : x = p
    · subst hxp; simp
    · rw [Function.update_of_ne hxp]; exact hi.hole_out x hx
  · intro s hs
    rw [hi.deleted_iff s hs]
    dsimp only
    by_cases hsr : s = r
    · subst hsr; simp [hr]
    · rw [Function.update_of_ne hsr]

/-- One destructor, of the last pointer. -/
theorem inv_delete {h : PtrHeap} {hole : Nat → Prop} {pending : List Nat} {p r c : Nat} {fs : List Nat} (hi : Inv h hole (p :: pending))
    (hp : h.ptr p = some r) (hr : h.ref r = some (c, fs)) (hc : c ≤ 1) :
    Inv { h with ptr := Function.update h.ptr p none, ref := Function.update h.ref r none, deleted := r :: h.deleted } hole
      (fs.reverse ++ pending) := by
  have hnd := List.nodup_cons.1 hi.pend_nodup
  have back : ∀ s e, Function.update h.ref r none s = some e → s ≠ r ∧ h.ref s = some e := by
    intro s e he
    by_cases hs : s = r
    · subst hs; simp at he
    · rw [Function.update_of_ne hs] at he
      exact ⟨hs, he⟩
  have pback : ∀ x s, Function.update h.ptr p none x = some s → x ≠ p ∧ h.ptr x = some s := by
    intro x s e
    by_cases hx : x = p
    · subst hx; simp at e
    · rw [Function.update_of_ne hx] at e; exact ⟨hx, e⟩
  have pne : ∀ x, x ≠ p → (h.ptr x ≠ none ∨ hole x) → Function.update h.ptr p none x ≠ none ∨ hole x := by
    intro x hx hh
    rw [Function.update_of_ne hx]; exact hh
  have hpf : p ∉ fs := hi.pend_field p (by simp) r c fs hr
  have hone : ∀ x, h.ptr x = some r → x = p := by
    intro x hx
    have h1 := (hi.count r c fs hr).1
    have h2 : (h.holders r).card ≤ 1 := by omega
    exact Finset.card_le_one.1 h2 x (mem_holders.2 ⟨hi.ptr_lt x r hx, hx⟩) p (mem_holders.2 ⟨hi.ptr_lt p r hp, hp⟩)
  refine ⟨?_, ?_, ?_, ?_, ?_, ?_, ?_, ?_, ?_, ?_, ?_, ?_, ?_, ?_, ?_⟩
  · intro x s e; exact hi.ptr_lt x s (pback x s e).2
  · intro s e he; exact hi.ref_lt s e (back s e he).2
  · intro x s e
    obtain ⟨hx, e'⟩ := pback x s e
    dsimp only
    have hs : s ≠ r := by
      rintro rfl
      exact hx (hone x e')
    rw [Function.update_of_ne hs]; exact hi.ptr_ref x s e'
  · intro s d gs e
    obtain ⟨hs, e'⟩ := back s _ e
    rw [holders_erase hp (hi.ptr_lt p r hp), if_neg hs]
    exact hi.count s d gs e'
  · intro s d gs x e hx
    obtain ⟨hs, e'⟩ := back s _ e
    refine pne x ?_ (hi.field_live s d gs x e' hx)
    rintro rfl
    exact hi.pend_field x (by simp) s d gs e' hx
  · intro s d gs e
    exact hi.field_nodup s d gs (back s _ e).2
  · intro s d gs s' d' gs' x e e' hx hx'
    exact hi.field_one s _ gs s' _ gs' x (back s _ e).2 (back s' _ e').2 hx hx'
  · intro s d gs x e hx
    exact hi.field_lt s _ gs x (back s _ e).2 hx
  · intro x hx
    rw [List.mem_append, List.mem_reverse] at hx
    rcases hx with hx | hx
    · refine pne x ?_ (hi.field_live r c fs x hr hx)
      rintro rfl
      exact hpf hx
    · refine pne x ?_ (hi.pend_live x (by simp [hx]))
      rintro rfl
      exact hnd.1 hx
  · rw [List.nodup_append]
    refine ⟨List.nodup_reverse.2 (hi.field_nodup r c fs hr), hnd.2, ?_⟩
    rintro x hx y hy rfl
    exact hi.pend_field x (by simp [hy]) r c fs hr (List.mem_reverse.1 hx)
  · intro x hx s d gs e
    obtain ⟨hs, e'⟩ := back s _ e
    rw [List.mem_append, List.mem_reverse] at hx
    rcases hx with hx | hx
    · intro hx'
      exact hs (hi.field_one s d gs r c fs x e' hr hx' hx)
    · exact hi.pend_field x (by simp [hx]) s _ gs e'
  · intro x hx
    dsimp only
    by_cases hxp : x = p
    · subst hxp; simp
    · rw [Function.update_of_ne hxp]; exact hi.hole_out x hx
  · refine List.nodup_cons.2 ⟨fun hd => ?_, hi.deleted_nodup⟩
    have := (hi.deleted_iff r (hi.ref_lt r _ hr)).1 hd
    rw [hr] at this
    simp at this
  · intro s hs
    dsimp only
    rw [List.mem_cons]
    by_cases hsr : s = r
    · subst hsr; simp
    · rw [Function.update_of_ne hsr, hi.deleted_iff s hs]
      simp [hsr]
  · intro s hs
    rcases List.mem_cons.1 hs with rfl | hs
    · exact hi.ref_lt s _ hr
    · exact hi.deleted_lt s hs

theorem live_erase {h : PtrHeap} {p r : Nat} (hp : h.ptr p = some r) (hlt : p < h.nextPtr) (ref : Nat → Option (Nat × List Nat)) (del : List Nat) :
    (PtrHeap.mk (Function.update h.ptr p none) ref h.nextPtr h.nextRef del).live.card + 1 ≤ h.live.card := by
  have hm : p ∈ h.live := by simp [live, hlt, hp]
  rw [show (PtrHeap.mk (Function.update h.ptr p none) ref h.nextPtr h.nextRef del).live = h.live.erase p from ?_]
  · rw [Finset.card_erase_of_mem hm]
    have := Finset.card_pos.2 ⟨p, hm⟩
    omega
  · ext x
    simp only [live, Finset.mem_filter, Finset.mem_range, Finset.mem_erase]
    by_cases hx : x = p
    · subst hx; simp
    · simp [hx]

/-- Destructors: they end, keep the invariant, and destroy only pointers in a closed set that contains the pending ones. -/
theorem cascade_spec (hole : Nat → Prop) (Q : Nat → Prop) : ∀ k pending h, Inv h hole pending → h.live.card ≤ k → Closed h Q → (∀ x ∈ pending, Q x) →
    (∀ x, hole x → ¬ Q x) →
    ∃ h', cascade k pending h = some h' ∧ Inv h' hole [] ∧ h'.nextPtr = h.nextPtr ∧ h'.nextRef = h.nextRef ∧
      (∀ x s, h'.ptr x = some s → h.ptr x = some s) ∧ (∀ x, ¬ Q x → h'.ptr x = h.ptr x) ∧
      (∀ s e, h'.ref s = some e → ∃ d, h.ref s = some (d, e.2)) := by
  intro k
  induction k with
  | zero =>
    intro pending h hi hk hQ hP hH
    cases pending with
    | nil => exact ⟨h, rfl, hi, rfl, rfl, fun _ _ e => e, fun _ _ => rfl, fun s e he => ⟨e.1, he⟩⟩
    | cons p pending =>
      exfalso
      rcases hi.pend_live p (by simp) with hp | hp
      · obtain ⟨r, hr⟩ := Option.ne_none_iff_exists'.1 hp
        have : p ∈ h.live := by simp [live, hi.ptr_lt p r hr, hr]
        have := Finset.card_pos.2 ⟨p, this⟩
        omega
      · exact hH p hp (hP p (by simp))
  | succ k ih =>
    intro pending h hi hk hQ hP hH
    cases pending with
    | nil => exact ⟨h, by simp [cascade], hi, rfl, rfl, fun _ _ e => e, fun _ _ => rfl, fun s e he => ⟨e.1, he⟩⟩
    | cons p pending =>
      have hQp := hP p (by simp)
      have hlive : h.ptr p ≠ none := by
        rcases hi.pend_live p (by simp) with hp | hp
        · exact hp
        · exact absurd hQp (hH p hp)
      obtain ⟨r, hp⟩ := Option.ne_none_iff_exists'.1 hlive
      obtain ⟨⟨c, fs⟩, hr⟩ := Option.ne_none_iff_exists'.1 (hi.ptr_ref p r hp)
      simp only [cascade, hp, hr, Option.bind_some]
      by_cases hc : c ≤ 1
      · rw [if_pos hc]
        have hlen := live_erase hp (hi.ptr_lt p r hp) (Function.update h.ref r none) (r :: h.deleted)
        have back : ∀ s e, Function.update h.ref r none s = some e → h.ref s = some e := by
          intro s e he
          by_cases hs : s = r
          · subst hs; simp at he
          · rw [Function.update_of_ne hs] at he; exact he
        have pback : ∀ x s, Function.update h.ptr p none x = some s → h.ptr x = some s := by
          intro x s e
          by_cases hx : x = p
          · subst hx; simp at e
          · rw [Function.update_of_ne hx] at e; exact e
        obtain ⟨h', a1, a2, a3, a4, a5, a6, a7⟩ := ih (fs.reverse ++ pending)
          { h with ptr := Function.update h.ptr p none, ref := Function.update h.ref r none, deleted := r :: h.deleted }
          (inv_delete hi hp hr hc) (by omega)
          (fun x s d gs hx hxs hs => hQ x s d gs hx (pback x s hxs) (back s _ hs))
          (by
            intro x hx
            rw [List.mem_append, List.mem_reverse] at hx
            rcases hx with hx | hx
            · exact hQ p r c fs hQp hp hr x hx
            · exact hP x (by simp [hx])) hH
        refine ⟨h', a1, a2, a3, a4, fun x s e => pback x s (a5 x s e), fun x hx => ?_, fun s e he => ?_⟩
        · rw [a6 x hx]
          dsimp only
          rw [Function.update_of_ne]
          rintro rfl
          exact hx hQp
        · obtain ⟨d, hd⟩ := a7 s e he
          exact ⟨d, back s _ hd⟩
      · rw [if_neg hc]
        have hlen := live_erase hp (hi.ptr_lt p r hp) (Function.update h.ref r (some (c - 1, fs))) h.deleted
        have back : ∀ s e, Function.update h.ref r (some (c - 1, fs)) s = some e → ∃ d, h.ref s = some (d, e.2) := by
          intro s e he
          by_cases hs : s = r
          · subst hs
            rw [Function.update_self] at he
            simp only [Option.some.injEq] at he
            exact ⟨c, by rw [hr, ← he]⟩
          · rw [Function.update_of_ne hs] at he; exact ⟨e.1, he⟩
        have pback : ∀ x s, Function.update h.ptr p none x = some s → h.ptr x = some s := by
          intro x s e
          by_cases hx : x = p
          · subst hx; simp at e
          · rw [Function.update_of_ne hx] at e; exact e
        obtain ⟨h', a1, a2, a3, a4, a5, a6, a7⟩ := ih pending
          { h with ptr := Function.update h.ptr p none, ref := Function.update h.ref r (some (c - 1, fs)) }
          (inv_release hi hp hr hc) (by omega)
          (by
            intro x s d gs hx hxs hs
            obtain ⟨d', hd'⟩ := back s _ hs
            exact hQ x s d' gs hx (pback x s hxs) hd')
          (fun x hx => hP x (by simp [hx])) hH
        refine ⟨h', a1, a2, a3, a4, fun x s e => pback x s (a5 x s e), fun x hx => ?_, fun s e he => ?_⟩
        · rw [a6 x hx]
          dsimp only
          rw [Function.update_of_ne]
          rintro rfl
          exact hx hQp
        · obtain ⟨d, hd⟩ := a7 s e he
          exact back s (d, e.2) hd

theorem live_le (h : PtrHeap) : h.live.card ≤ h.nextPtr := by
  have := Finset.card_filter_le (Finset.range h.nextPtr) (fun p => h.ptr p ≠ none)
  rw [Finset.card_range] at this
  exact this

/-- No pointer is being assigned to. -/
def noHole : Nat → Prop := fun _ => False

theorem destroy_inv {h : PtrHeap} (hi : Inv h noHole []) {p : Nat} (hp : h.ptr p ≠ none) (hr : h.Root p) :
    ∃ h', h.destroy p = some h' ∧ Inv h' noHole [] := by
  obtain ⟨h', a1, a2, _⟩ := cascade_spec noHole (fun _ => True) h.nextPtr [p] h
    { hi with
      pend_live := by
        intro x hx
        rw [List.mem_singleton] at hx
        subst hx
        exact .inl hp
      pend_nodup := by simp
      pend_field := by
        intro x hx r c fs e
        rw [List.mem_singleton] at hx
        subst hx
        exact hr r c fs e }
    (live_le h) (fun _ _ _ _ _ _ _ _ _ => trivial) (fun _ _ => trivial) (fun _ hx => hx.elim)
  exact ⟨h', a1, a2⟩

/-- A new or empty pointer `p` is set to an existing reference. -/
theorem inv_attach {h : PtrHeap} {hole : Nat → Prop} (hi : Inv h hole []) {p r c : Nat} {fs : List Nat} (hp : h.ptr p = none)
    (hr : h.ref r = some (c, fs)) (n : Nat) (hn : h.nextPtr ≤ n) (hpn : p < n) :
    Inv { h with ptr := Function.update h.ptr p (some r), ref := Function.update h.ref r (some (c + 1, fs)), nextPtr := n }
      (fun x => hole x ∧ x ≠ p) [] := by
  have back : ∀ s d gs, Function.update h.ref r (some (c + 1, fs)) s = some (d, gs) → ∃ d', h.ref s = some (d', gs) := by
    intro s d gs e
    by_cases hs : s = r
    · subst hs
      rw [Function.update_self] at e
      simp only [Option.some.injEq, Prod.mk.injEq] at e
      exact ⟨c, by rw [hr, e.2]⟩
    · rw [Function.update_of_ne hs] at e
      exact ⟨d, e⟩
  refine ⟨?_, ?_, ?_, ?_, ?_, ?_, ?_, ?_, ?_, List.nodup_nil, ?_, ?_, hi.deleted_nodup, ?_, hi.deleted_lt⟩
  · intro x s e
    dsimp only at e ⊢
    by_cases hx : x = p
    · omega
    · rw [Function.update_of_ne hx] at e
      have := hi.ptr_lt x s e
      omega
  · intro s e he
    obtain ⟨d', h'⟩ := back s e.1 e.2 he
    exact hi.ref_lt s _ h'
  · intro x s e
    dsimp only at e ⊢
    by_cases hs : s = r
    · subst hs; simp
    · rw [Function.update_of_ne hs]
      by_cases hx : x = p
      · subst hx
        rw [Function.update_self] at e
        exact absurd (Option.some.inj e).symm hs
      · rw [Function.update_of_ne hx] at e
        exact hi.ptr_ref x s e
  · intro s d gs e
    rw [holders_add (n := h.nextPtr) (m := h.nextRef) (ref' := h.ref) (del' := h.deleted) hp hpn hn
      (by
        intro x hx
        cases hc : h.ptr x with
        | none => rfl
        | some s => have := hi.ptr_lt x s hc; omega)]
    by_cases hs : s = r
    · subst hs
      dsimp only at e
      rw [Function.update_self] at e
      simp only [Option.some.injEq, Prod.mk.injEq] at e
      have := hi.count s c fs hr
      rw [if_pos rfl]
      change d = (h.holders s).card + 1 ∧ _
      omega
    · dsimp only at e
      rw [Function.update_of_ne hs] at e
      rw [if_neg hs]
      exact hi.count s d gs e
  · intro s d gs x e hx
    obtain ⟨d', h'⟩ := back s d gs e
    dsimp only
    by_cases hxp : x = p
    · subst hxp; simp
    · rw [Function.update_of_ne hxp]
      rcases hi.field_live s d' gs x h' hx with h1 | h1
      · exact .inl h1
      · exact .inr ⟨h1, hxp⟩
  · intro s d gs e
    obtain ⟨d', h'⟩ := back s d gs e
    exact hi.field_nodup s d' gs h'
  · intro s d gs s' d' gs' x e e' hx hx'
    obtain ⟨_, h1⟩ := back s d gs e
    obtain ⟨_, h2⟩ := back s' d' gs' e'
    exact hi.field_one s _ gs s' _ gs' x h1 h2 hx hx'
  · intro s d gs x e hx
    obtain ⟨_, h1⟩ := back s d gs e
    have := hi.field_lt s _ gs x h1 hx
    dsimp only
    omega
  · simp
  · simp
  · rintro x ⟨hx, hxp⟩
    dsimp only
    rw [Function.update_of_ne hxp]
    exact hi.hole_out x hx
  · intro s hs
    rw [hi.deleted_iff s hs]
    dsimp only
    by_cases hsr : s = r
    · subst hsr; simp [hr]
    · rw [Function.update_of_ne hsr]

theorem Inv.congr {h : PtrHeap} {hole hole' : Nat → Prop} {pending : List Nat} (hi : Inv h hole pending) (e : ∀ x, hole x ↔ hole' x) :
    Inv h hole' pending := by
  have : hole = hole' := funext fun x => propext (e x)
  subst this
  exact hi

theorem copy_inv {h : PtrHeap} (hi : Inv h noHole []) {q : Nat} (hq : h.ptr q ≠ none) :
    ∃ h' r, h.copy q = some h' ∧ h.ptr q = some r ∧ Inv h' noHole [] ∧ h'.nextPtr = h.nextPtr + 1 ∧ h'.nextRef = h.nextRef ∧
      (∀ x, x < h.nextPtr → h'.ptr x = h.ptr x) ∧ h'.ptr h.nextPtr = some r ∧
      (∀ s d fs, h'.ref s = some (d, fs) → ∃ d', h.ref s = some (d', fs)) := by
  obtain ⟨r, hq⟩ := Option.ne_none_iff_exists'.1 hq
  obtain ⟨⟨c, fs⟩, hr⟩ := Option.ne_none_iff_exists'.1 (hi.ptr_ref q r hq)
  have hnew : h.ptr h.nextPtr = none := by
    cases hc : h.ptr h.nextPtr with
    | none => rfl
    | some s => have := hi.ptr_lt _ s hc; omega
  refine ⟨_, r, by simp only [copy, hq, hr, Option.bind_some], hq,
    (inv_attach hi hnew hr (h.nextPtr + 1) (by omega) (by omega)).congr (by intro x; simp [noHole]), rfl, rfl, ?_, by simp, ?_⟩
  · intro x hx
    dsimp only
    rw [Function.update_of_ne (by omega)]
  · intro s d gs e
    dsimp only at e
    by_cases hs : s = r
    · subst hs
      rw [Function.update_self] at e
      simp only [Option.some.injEq, Prod.mk.injEq] at e
      exact ⟨c, by rw [hr, e.2]⟩
    · rw [Function.update_of_ne hs] at e
      exact ⟨d, e⟩

theorem copies_inv : ∀ (qs : List Nat) (h : PtrHeap), Inv h noHole [] → (∀ q ∈ qs, h.ptr q ≠ none) →
    ∃ h', copies qs h = some h' ∧ Inv h' noHole [] ∧ h'.nextPtr = h.nextPtr + qs.length ∧ h'.nextRef = h.nextRef ∧
      (∀ x, x < h.nextPtr → h'.ptr x = h.ptr x) ∧ (∀ x, h.nextPtr ≤ x → x < h'.nextPtr → h'.ptr x ≠ none) ∧
      (∀ s d fs, h'.ref s = some (d, fs) → ∃ d', h.ref s = some (d', fs)) := by
  intro qs
  induction qs with
  | nil => intro h hi _; exact ⟨h, rfl, hi, rfl, rfl, fun _ _ => rfl, fun x h1 h2 => absurd h2 (by omega), fun s d fs e => ⟨d, e⟩⟩
  | cons q qs ih =>
    intro h hi hq
    obtain ⟨h1, r, a1, a2, a3, a4, a5, a6, a7, a8⟩ := copy_inv hi (hq q (by simp))
    obtain ⟨h2, b1, b2, b3, b4, b5, b6, b7⟩ := ih h1 a3 (by
      intro q' hq'
      have hlive := hq q' (by simp [hq'])
      obtain ⟨s, hs⟩ := Option.ne_none_iff_exists'.1 hlive
      rw [a6 q' (hi.ptr_lt q' s hs)]
      exact hlive)
    refine ⟨h2, by simp [copies, a1, b1], b2, by rw [b3, a4, List.length_cons]; omega, by rw [b4, a5], ?_, ?_, ?_⟩
    · intro x hx
      rw [b5 x (by omega), a6 x hx]
    · intro x hx hx'
      by_cases hxe : x = h.nextPtr
      · rw [b5 x (by omega), hxe, a7]; simp
      · exact b6 x (by omega) hx'
    · intro s d fs e
      obtain ⟨d', e'⟩ := b7 s d fs e
      exact a8 s d' fs e'

theorem create_inv {h : PtrHeap} (hi : Inv h noHole []) {qs : List Nat} (hq : ∀ q ∈ qs, h.ptr q ≠ none) :
    ∃ h', h.create qs = some h' ∧ Inv h' noHole [] := by
  obtain ⟨g, b1, b2, b3, b4, b5, b6, b7⟩ := copies_inv qs h hi hq
  refine ⟨_, by simp only [create, b1, Option.map_some]; rfl, ?_⟩
  have hnp : g.ptr g.nextPtr = none := by
    cases hc : g.ptr g.nextPtr with
    | none => rfl
    | some s => have := b2.ptr_lt _ s hc; omega
  have hnr : g.ref g.nextRef = none := by
    cases hc : g.ref g.nextRef with
    | none => rfl
    | some s => have := b2.ref_lt _ s hc; omega
  have hnh : ∀ x, g.ptr x ≠ some g.nextRef := by
    intro x hx
    exact b2.ptr_ref x _ hx hnr
  have back : ∀ s d gs, Function.update g.ref g.nextRef (some (1, List.range' h.nextPtr qs.length)) s = some (d, gs) →
      (s = g.nextRef ∧ d = 1 ∧ gs = List.range' h.nextPtr qs.length) ∨ (s ≠ g.nextRef ∧ g.ref s = some (d, gs)) := by
    intro s d gs e
    by_cases hs : s = g.nextRef
    · subst hs
      rw [Function.update_self] at e
      simp only [Option.some.injEq, Prod.mk.injEq] at e
      exact .inl ⟨rfl, e.1.symm, e.2.symm⟩
    · rw [Function.update_of_ne hs] at e
      exact .inr ⟨hs, e⟩
  have mem : ∀ x, x ∈ List.range' h.nextPtr qs.length ↔ h.nextPtr ≤ x ∧ x < g.nextPtr := by
    intro x
    rw [List.mem_range'_1, b3]
  have old : ∀ s d gs x, g.ref s = some (d, gs) → x ∈ gs → x < h.nextPtr := by
    intro s d gs x e hx
    obtain ⟨d', e'⟩ := b7 s d gs e
    exact hi.field_lt s d' gs x e' hx
  refine ⟨?_, ?_, ?_, ?_, ?_, ?_, ?_, ?_, by simp, List.nodup_nil, by simp, by simp [noHole], b2.deleted_nodup, ?_, ?_⟩
  · intro x s e
    dsimp only at e ⊢
    by_cases hx : x = g.nextPtr
    · omega
    · rw [Function.update_of_ne hx] at e
      have := b2.ptr_lt x s e
      omega
  · intro s e he
    dsimp only
    rcases back s e.1 e.2 he with ⟨h1, _⟩ | ⟨_, h1⟩
    · omega
    · have := b2.ref_lt s _ h1
      omega
  · intro x s e
    dsimp only at e ⊢
    by_cases hs : s = g.nextRef
    · subst hs; simp
    · rw [Function.update_of_ne hs]
      by_cases hx : x = g.nextPtr
      · subst hx
        rw [Function.update_self] at e
        exact absurd (Option.some.inj e).symm hs
      · rw [Function.update_of_ne hx] at e
        exact b2.ptr_ref x s e
  · intro s d gs e
    rw [holders_add (n := g.nextPtr) (m := g.nextRef) (ref' := g.ref) (del' := g.deleted) hnp (by omega) (by omega)
      (by
        intro x hx
        cases hc : g.ptr x with
        | none => rfl
        | some s => have := b2.ptr_lt x s hc; omega)]
    rcases back s d gs e with ⟨rfl, rfl, _⟩ | ⟨hs, h1⟩
    · rw [if_pos rfl]
      have : (PtrHeap.mk g.ptr g.ref g.nextPtr g.nextRef g.deleted).holders g.nextRef = ∅ := by
        ext x
        rw [mem_holders]
        simp [hnh x]
      rw [this]
      simp
    · rw [if_neg hs]
      exact b2.count s d gs h1
  · intro s d gs x e hx
    left
    dsimp only
    by_cases hxp : x = g.nextPtr
    · subst hxp; simp
    · rw [Function.update_of_ne hxp]
      rcases back s d gs e with ⟨_, _, rfl⟩ | ⟨_, h1⟩
      · rw [mem] at hx
        exact b6 x hx.1 hx.2
      · rcases b2.field_live s d gs x h1 hx with h2 | h2
        · exact h2
        · exact h2.elim
  · intro s d gs e
    rcases back s d gs e with ⟨_, _, rfl⟩ | ⟨_, h1⟩
    · exact List.nodup_range'
    · exact b2.field_nodup s d gs h1
  · intro s d gs s' d' gs' x e e' hx hx'
    rcases back s d gs e with ⟨h0, _, rfl⟩ | ⟨_, h1⟩ <;> rcases back s' d' gs' e' with ⟨h0', _, rfl⟩ | ⟨_, h1'⟩
    · rw [h0, h0']
    · rw [mem] at hx
      have := old s' d' gs' x h1' hx'
      omega
    · rw [mem] at hx'
      have := old s d gs x h1 hx
      omega
    · exact b2.field_one s d gs s' d' gs' x h1 h1' hx hx'
  · intro s d gs x e hx
    dsimp only
    rcases back s d gs e with ⟨_, _, rfl⟩ | ⟨_, h1⟩
    · rw [mem] at hx; omega
    · have := b2.field_lt s d gs x h1 hx
      omega
  · intro s hs
    dsimp only at hs ⊢
    by_cases hsr : s = g.nextRef
    · subst hsr
      simp only [Function.update_self, reduceCtorEq, iff_false]
      intro hd
      have := b2.deleted_lt _ hd
      omega
    · rw [Function.update_of_ne hsr]
      exact b2.deleted_iff s (by omega)
  · intro s hs
    have := b2.deleted_lt s hs
    dsimp only
    omega

/-- The target of an assignment lets go of its old reference. -/
theorem inv_detach {h : PtrHeap} (hi : Inv h noHole []) {p r c : Nat} {fs : List Nat} (hp : h.ptr p = some r) (hr : h.ref r = some (c, fs))
    (hc : ¬ c ≤ 1) :
    Inv { h with ptr := Function.update h.ptr p none, ref := Function.update h.ref r (some (c - 1, fs)) } (fun x => x = p) [] := by
  have back : ∀ s d gs, Function.update h.ref r (some (c - 1, fs)) s = some (d, gs) → ∃ d', h.ref s = some (d', gs) := by
    intro s d gs e
    by_cases hs : s = r
    · subst hs
      rw [Function.update_self] at e
      simp only [Option.some.injEq, Prod.mk.injEq] at e
      exact ⟨c, by rw [hr, e.2]⟩
    · rw [Function.update_of_ne hs] at e
      exact ⟨d, e⟩
  have pback : ∀ x s, Function.update h.ptr p none x = some s → x ≠ p ∧ h.ptr x = some s := by
    intro x s e
    by_cases hx : x = p
    · subst hx; simp at e
    · rw [Function.update_of_ne hx] at e; exact ⟨hx, e⟩
  refine ⟨?_, ?_, ?_, ?_, ?_, ?_, ?_, ?_, by simp, List.nodup_nil, by simp, ?_, hi.deleted_nodup, ?_, hi.deleted_lt⟩
  · intro x s e; exact hi.ptr_lt x s (pback x s e).2
  · intro s e he
    obtain ⟨d', h'⟩ := back s e.1 e.2 he
    exact hi.ref_lt s _ h'
  · intro x s e
    dsimp only
    by_cases hs : s = r
    · subst hs; simp
    · rw [Function.update_of_ne hs]; exact hi.ptr_ref x s (pback x s e).2
  · intro s d gs e
    rw [holders_erase hp (hi.ptr_lt p r hp)]
    by_cases hs : s = r
    · subst hs
      dsimp only at e
      rw [Function.update_self] at e
      simp only [Option.some.injEq, Prod.mk.injEq] at e
      have := hi.count s c fs hr
      rw [if_pos rfl]
      omega
    · dsimp only at e
      rw [Function.update_of_ne hs] at e
      rw [if_neg hs]
      exact hi.count s d gs e
  · intro s d gs x e hx
    obtain ⟨d', h'⟩ := back s d gs e
    by_cases hxp : x = p
    · exact .inr hxp
    · dsimp only
      rw [Function.update_of_ne hxp]
      rcases hi.field_live s d' gs x h' hx with h2 | h2
      · exact .inl h2
      · exact h2.elim
  · intro s d gs e
    obtain ⟨d', h'⟩ := back s d gs e
    exact hi.field_nodup s d' gs h'
  · intro s d gs s' d' gs' x e e' hx hx'
    obtain ⟨_, h1⟩ := back s d gs e
    obtain ⟨_, h2⟩ := back s' d' gs' e'
    exact hi.field_one s _ gs s' _ gs' x h1 h2 hx hx'
  · intro s d gs x e hx
    obtain ⟨_, h1⟩ := back s d gs e
    exact hi.field_lt s _ gs x h1 hx
  · rintro x rfl
    simp
  · intro s hs
    rw [hi.deleted_iff s hs]
    dsimp only
    by_cases hsr : s = r
    · subst hsr; simp [hr]
    · rw [Function.update_of_ne hsr]

/-- ... and deletes the object if it was the last pointer to it. -/
theorem inv_detach_last {h : PtrHeap} (hi : Inv h noHole []) {p r c : Nat} {fs : List Nat} (hp : h.ptr p = some r) (hr : h.ref r = some (c, fs))
    (hc : c ≤ 1) (hpf : p ∉ fs) :
    Inv { h with ptr := Function.update h.ptr p none, ref := Function.update h.ref r none, deleted := r :: h.deleted } (fun x => x = p)
      fs.reverse := by
  have back : ∀ s e, Function.update h.ref r none s = some e → s ≠ r ∧ h.ref s = some e := by
    intro s e he
    by_cases hs : s = r
    · subst hs; simp at he
    · rw [Function.update_of_ne hs] at he
      exact ⟨hs, he⟩
  have pback : ∀ x s, Function.update h.ptr p none x = some s → x ≠ p ∧ h.ptr x = some s := by
    intro x s e
    by_cases hx : x = p
    · subst hx; simp at e
    · rw [Function.update_of_ne hx] at e; exact ⟨hx, e⟩
  have hone : ∀ x, h.ptr x = some r → x = p := by
    intro x hx
    have h1 := (hi.count r c fs hr).1
    have h2 : (h.holders r).card ≤ 1 := by omega
    exact Finset.card_le_one.1 h2 x (mem_holders.2 ⟨hi.ptr_lt x r hx, hx⟩) p (mem_holders.2 ⟨hi.ptr_lt p r hp, hp⟩)
  have fl : ∀ s d gs x, h.ref s = some (d, gs) → x ∈ gs → Function.update h.ptr p none x ≠ none ∨ x = p := by
    intro s d gs x e hx
    by_cases hxp : x = p
    · exact .inr hxp
    · rw [Function.update_of_ne hxp]
      rcases hi.field_live s d gs x e hx with h2 | h2
      · exact .inl h2
      · exact h2.elim
  refine ⟨?_, ?_, ?_, ?_, ?_, ?_, ?_, ?_, ?_, List.nodup_reverse.2 (hi.field_nodup r c fs hr), ?_, ?_, ?_, ?_, ?_⟩
  · intro x s e; exact hi.ptr_lt x s (pback x s e).2
  · intro s e he; exact hi.ref_lt s e (back s e he).2
  · intro x s e
    obtain ⟨hx, e'⟩ := pback x s e
    dsimp only
    have hs : s ≠ r := by
      rintro rfl
      exact hx (hone x e')
    rw [Function.update_of_ne hs]; exact hi.ptr_ref x s e'
  · intro s d gs e
    obtain ⟨hs, e'⟩ := back s _ e
    rw [holders_erase hp (hi.ptr_lt p r hp), if_neg hs]
    exact hi.count s d gs e'
  · intro s d gs x e hx
    exact fl s d gs x (back s _ e).2 hx
  · intro s d gs e
    exact hi.field_nodup s d gs (back s _ e).2
  · intro s d gs s' d' gs' x e e' hx hx'
    exact hi.field_one s _ gs s' _ gs' x (back s _ e).2 (back s' _ e').2 hx hx'
  · intro s d gs x e hx
    exact hi.field_lt s _ gs x (back s _ e).2 hx
  · intro x hx
    exact fl r c fs x hr (List.mem_reverse.1 hx)
  · intro x hx s d gs e hx'
    obtain ⟨hs, e'⟩ := back s _ e
    exact hs (hi.field_one s d gs r c fs x e' hr hx' (List.mem_reverse.1 hx))
  · rintro x rfl
    simp
  · refine List.nodup_cons.2 ⟨fun hd => ?_, hi.deleted_nodup⟩
    have := (hi.deleted_iff r (hi.ref_lt r _ hr)).1 hd
    rw [hr] at this
    simp at this
  · intro s hs
    dsimp only
    rw [List.mem_cons]
    by_cases hsr : s = r
    · subst hsr; simp
    · rw [Function.update_of_ne hsr, hi.deleted_iff s hs]
      simp [hsr]
  · intro s hs
    rcases List.mem_cons.1 hs with rfl | hs
    · exact hi.ref_lt s _ hr
    · exact hi.deleted_lt s hs

theorem assign_inv {h : PtrHeap} (hi : Inv h noHole []) {p q : Nat} (ha : h.Allowed (.assign p q)) :
    ∃ h', h.assign p q = some h' ∧ Inv h' noHole [] ∧ h'.ptr p = h.ptr q ∧ h'.ptr q = h.ptr q := by
  obtain ⟨r, r', hp, hq, hcase⟩ := ha
  by_cases hrr : r = r'
  · exact ⟨h, by simp [assign, hp, hq, hrr], hi, by rw [hp, hq, hrr], rfl⟩
  have hpq : q ≠ p := by
    rintro rfl
    rw [hp] at hq
    exact hrr (Option.some.inj hq)
  obtain ⟨⟨c, fs⟩, hr⟩ := Option.ne_none_iff_exists'.1 (hi.ptr_ref p r hp)
  simp only [assign, hp, hq, hr, Option.bind_some]
  rw [if_neg hrr]
  suffices key : ∃ g, (if c ≤ 1 then
      cascade h.nextPtr fs.reverse
        { h with ptr := Function.update h.ptr p none, ref := Function.update h.ref r none, deleted := r :: h.deleted }
    else some { h with ptr := Function.update h.ptr p none, ref := Function.update h.ref r (some (c - 1, fs)) }) = some g ∧
      Inv g (fun x => x = p) [] ∧ g.ptr q = some r' ∧ g.nextPtr = h.nextPtr by
    obtain ⟨g, g1, g2, g3, g4⟩ := key
    rw [g1]
    simp only [Option.bind_some, g3]
    obtain ⟨⟨d, gs⟩, hs⟩ := Option.ne_none_iff_exists'.1 (g2.ptr_ref q r' g3)
    simp only [hs, Option.bind_some]
    refine ⟨_, rfl, (inv_attach g2 (g2.hole_out p rfl) hs g.nextPtr (by omega) (by have := hi.ptr_lt p r hp; omega)).congr
      (by intro x; simp [noHole]), by simp, ?_⟩
    dsimp only
    rw [Function.update_of_ne hpq, g3]
  by_cases hc : c ≤ 1
  · rw [if_pos hc]
    have hcase : ¬ Reach h r p ∧ ¬ Reach h r q := by
      rcases hcase with h1 | ⟨p', h1, h2⟩ | h1
      · exact absurd h1 hrr
      · exfalso
        have h3 := (hi.count r c fs hr).1
        have h4 : (h.holders r).card ≤ 1 := by omega
        exact h1 (Finset.card_le_one.1 h4 p' (mem_holders.2 ⟨hi.ptr_lt p' r h2, h2⟩) p (mem_holders.2 ⟨hi.ptr_lt p r hp, hp⟩))
      · exact h1
    have hpf : p ∉ fs := fun hm => hcase.1 (.field hr hm)
    have hlive := live_le { h with ptr := Function.update h.ptr p none, ref := Function.update h.ref r none, deleted := r :: h.deleted }
    obtain ⟨g, a1, a2, a3, a4, a5, a6, a7⟩ := cascade_spec (fun x => x = p) (Reach h r) h.nextPtr fs.reverse
      { h with ptr := Function.update h.ptr p none, ref := Function.update h.ref r none, deleted := r :: h.deleted }
      (inv_detach_last hi hp hr hc hpf) hlive
      (by
        intro x s d gs hx hxs hs y hy
        dsimp only at hxs hs
        have hx' : h.ptr x = some s := by
          by_cases hxp : x = p
          · subst hxp; simp at hxs
          · rw [Function.update_of_ne hxp] at hxs; exact hxs
        have hs' : h.ref s = some (d, gs) := by
          by_cases hsr : s = r
          · subst hsr; simp at hs
          · rw [Function.update_of_ne hsr] at hs; exact hs
        exact .step hx hx' (.field hs' hy))
      (fun x hx => .field hr (List.mem_reverse.1 hx))
      (by rintro x rfl; exact hcase.1)
    refine ⟨g, a1, a2, ?_, a3⟩
    rw [a6 q hcase.2]
    dsimp only
    rw [Function.update_of_ne hpq, hq]
  · rw [if_neg hc]
    refine ⟨_, rfl, inv_detach hi hp hr hc, ?_, rfl⟩
    dsimp only
    rw [Function.update_of_ne hpq, hq]

theorem step_inv {h : PtrHeap} (hi : Inv h noHole []) (o : Op) (ha : h.Allowed o) : ∃ h', h.step o = some h' ∧ Inv h' noHole [] := by
  cases o with
  | create qs => exact create_inv hi ha
  | copy q =>
    obtain ⟨h', _, h1, _, h2, _⟩ := copy_inv hi ha
    exact ⟨h', h1, h2⟩
  | assign p q =>
    obtain ⟨h', h1, h2, _⟩ := assign_inv hi ha
    exact ⟨h', h1, h2⟩
  | destroy p => exact destroy_inv hi ha.1 ha.2

theorem inv_empty : Inv empty noHole [] := by
  constructor <;> simp [empty, noHole]

theorem run_inv : ∀ (os : List Op) (h : PtrHeap), Inv h noHole [] → AllAllowed os h → ∃ h', run os h = some h' ∧ Inv h' noHole [] := by
  intro os
  induction os with
  | nil => intro h hi _; exact ⟨h, rfl, hi⟩
  | cons o os ih =>
    intro h hi ha
    obtain ⟨h1, e1, i1⟩ := step_inv hi o ha.1
    obtain ⟨h2, e2, i2⟩ := ih h1 i1 (ha.2 h1 e1)
    exact ⟨h2, by simp [run, e1, e2], i2⟩

/-- C25 for programs without assignments that let go of the last reference to an object from which the source or target can be reached:
there is no undefined behaviour, an object that was created exists as long as some pointer refers to it and is deleted otherwise, and
no object is deleted twice. Missing: the other programs, which may touch deleted memory. -/
theorem refcount_exact_partial (os : List Op) (ha : AllAllowed os empty) :
    ∃ h, run os empty = some h ∧ h.deleted.Nodup ∧
      ∀ r, r < h.nextRef → (h.ref r ≠ none ↔ ∃ p, h.ptr p = some r) ∧ (r ∈ h.deleted ↔ ¬ ∃ p, h.ptr p = some r) := by
  obtain ⟨h, e, hi⟩ := run_inv os empty inv_empty ha
  refine ⟨h, e, hi.deleted_nodup, fun r hr => ?_⟩
  have key : h.ref r ≠ none ↔ ∃ p, h.ptr p = some r := by
    constructor
    · intro hne
      obtain ⟨⟨c, fs⟩, he⟩ := Option.ne_none_iff_exists'.1 hne
      have := hi.count r c fs he
      have hpos : 0 < (h.holders r).card := by omega
      obtain ⟨p, hp⟩ := Finset.card_pos.1 hpos
      exact ⟨p, (mem_holders.1 hp).2⟩
    · rintro ⟨p, hp⟩
      exact hi.ptr_ref p r hp
  refine ⟨key, ?_⟩
  rw [hi.deleted_iff r hr, ← key, not_not]

theorem reach_field {h : PtrHeap} {r x : Nat} (hr : Reach h r x) : ∃ s c fs, h.ref s = some (c, fs) ∧ x ∈ fs := by
  induction hr with
  | field h1 h2 => exact ⟨_, _, _, h1, h2⟩
  | step _ _ _ _ ih => exact ih

/-- Assignments between variables, including self-assignment, are always allowed. -/
theorem assign_roots_allowed {h : PtrHeap} {p q : Nat} (hp : h.ptr p ≠ none) (hq : h.ptr q ≠ none) (rp : h.Root p) (rq : h.Root q) :
    h.Allowed (.assign p q) := by
  obtain ⟨r, hp⟩ := Option.ne_none_iff_exists'.1 hp
  obtain ⟨r', hq⟩ := Option.ne_none_iff_exists'.1 hq
  refine ⟨r, r', hp, hq, .inr (.inr ⟨fun hR => ?_, fun hR => ?_⟩)⟩
  · obtain ⟨s, c, fs, h1, h2⟩ := reach_field hR
    exact rp s c fs h1 h2
  · obtain ⟨s, c, fs, h1, h2⟩ := reach_field hR
    exact rq s c fs h1 h2

theorem cascade_gone : ∀ k pending (h h' : PtrHeap), cascade k pending h = some h' →
    (∀ x, h.ptr x = none → h'.ptr x = none) ∧ ∀ x ∈ pending, h'.ptr x = none := by
  intro k
  induction k with
  | zero =>
    intro pending h h' e
    cases pending with
    | nil => simp only [cascade, Option.some.injEq] at e; subst e; exact ⟨fun _ hx => hx, by simp⟩
    | cons p pending => simp [cascade] at e
  | succ k ih =>
    intro pending h h' e
    cases pending with
    | nil => simp only [cascade, Option.some.injEq] at e; subst e; exact ⟨fun _ hx => hx, by simp⟩
    | cons p pending =>
      simp only [cascade] at e
      obtain ⟨r, hp, e⟩ := Option.bind_eq_some_iff.1 e
      obtain ⟨⟨c, fs⟩, hr, e⟩ := Option.bind_eq_some_iff.1 e
      have upd : ∀ x, (x = p ∨ h.ptr x = none) → Function.update h.ptr p none x = none := by
        intro x hx
        by_cases hxp : x = p
        · subst hxp; simp
        · rw [Function.update_of_ne hxp]
          rcases hx with hx | hx
          · exact absurd hx hxp
          · exact hx
      dsimp only at e
      by_cases hc : c ≤ 1
      · rw [if_pos hc] at e
        obtain ⟨i1, i2⟩ := ih _ _ _ e
        refine ⟨fun x hx => i1 x (upd x (.inr hx)), fun x hx => ?_⟩
        rcases List.mem_cons.1 hx with rfl | hx
        · exact i1 x (upd x (.inl rfl))
        · exact i2 x (by simp [hx])
      · rw [if_neg hc] at e
        obtain ⟨i1, i2⟩ := ih _ _ _ e
        refine ⟨fun x hx => i1 x (upd x (.inr hx)), fun x hx => ?_⟩
        rcases List.mem_cons.1 hx with rfl | hx
        · exact i1 x (upd x (.inl rfl))
        · exact i2 x hx

/-- C25 is violated by every assignment `p = p->q` where `p` is the last pointer to an object and `q` one of its fields (which refers
to something else): the field is read after the object was deleted. -/
theorem assign_field_violated (h : PtrHeap) (p q r r' c : Nat) (fs : List Nat) (hp : h.ptr p = some r) (hr : h.ref r = some (c, fs))
    (hc : c ≤ 1) (hq : q ∈ fs) (hq' : h.ptr q = some r') (hne : r' ≠ r) : h.assign p q = none := by
  simp only [assign, hp, hq', hr, Option.bind_some]
  rw [if_neg hne.symm, if_pos hc]
  generalize hcas : cascade h.nextPtr fs.reverse _ = res
  cases res with
  | none => rfl
  | some g =>
    have := (cascade_gone _ _ _ _ hcas).2 q (List.mem_reverse.2 hq)
    simp [this]

/-- `head = head->next` for a list of two nodes: node 0, node 1 with a copy of the pointer to node 0 as its field (pointer 1), `head`
(pointer 2) the only pointer to node 1. -/
theorem list_head_violated : ∃ h, run [.create [], .create [0]] empty = some h ∧ h.ptr 2 = some 1 ∧ h.ptr 1 = some 0 ∧ h.assign 2 1 = none := by
  refine ⟨_, rfl, by decide, by decide, ?_⟩
  exact assign_field_violated _ 2 1 1 0 1 [1] (by decide) (by decide) (by decide) (by decide) (by decide) (by decide)

/-- Keeping `next` in a variable first is fine: both nodes are released when the variables go. -/
example : ((run [.create [], .create [0], .copy 1, .assign 2 3, .destroy 3, .destroy 2, .destroy 0] empty).map (fun h => h.deleted)) = some [0, 1] := by
  decide

end PtrHeap
end TameParse

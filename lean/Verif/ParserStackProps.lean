import Verif.ParserStack
import Mathlib.Data.List.Nodup
import Mathlib.Data.List.Perm.Subperm
/-
C39: every reference sees the stack made by its own operations.
C40: the storage is freed exactly when the last reference is destroyed: violated, and proved when the newest reference is always
destroyed first.
-/
namespace TameParse
namespace ParserStack

variable {α : Type} [Inhabited α]

/-- The stack that index `i` is the top of: the pushed states and items, top first. -/
inductive Chain (es : List (Entry α)) : Nat → List (Int × α) → Prop
  | head {i e} : es[i]? = some e → e.prev = .head → Chain es i []
  | step {i e j l} : es[i]? = some e → e.prev = .below j → Chain es j l → Chain es i ((e.state, e.item) :: l)

omit [Inhabited α] in
theorem Chain.det {es : List (Entry α)} {i : Nat} {l m : List (Int × α)} (h : Chain es i l) (h' : Chain es i m) : l = m := by
  induction h generalizing m with
  | head h1 h2 =>
    cases h' with
    | head _ _ => rfl
    | step h3 h4 _ => rw [h1] at h3; cases h3; rw [h2] at h4; cases h4
  | step h1 h2 _ ih =>
    cases h' with
    | head h3 h4 => rw [h1] at h3; cases h3; rw [h2] at h4; cases h4
    | step h3 h4 h5 =>
      rw [h1] at h3; cases h3; rw [h2] at h4; cases h4
      rw [ih h5]

omit [Inhabited α] in
theorem Chain.lt {es : List (Entry α)} {i : Nat} {l : List (Int × α)} (h : Chain es i l) : i < es.length := by
  cases h with
  | head h1 _ => exact (List.getElem?_eq_some_iff.1 h1).1
  | step h1 _ _ => exact (List.getElem?_eq_some_iff.1 h1).1

omit [Inhabited α] in
theorem Chain.nonempty {es : List (Entry α)} {i : Nat} {l : List (Int × α)} (h : Chain es i l) :
    ∃ e, es[i]? = some e ∧ e.prev ≠ .empty := by
  cases h with
  | head h1 h2 => exact ⟨_, h1, by rw [h2]; simp⟩
  | step h1 h2 _ => exact ⟨_, h1, by rw [h2]; simp⟩

omit [Inhabited α] in
/-- A chain survives changes outside a set of indices that holds its top and is closed under going down. -/
theorem Chain.frame {es es' : List (Entry α)} (P : Nat → Prop) (hP : ∀ j e k, P j → es[j]? = some e → e.prev = .below k → P k)
    (hsame : ∀ j e, P j → es[j]? = some e → e.prev ≠ .empty → es'[j]? = some e) {i : Nat} {l : List (Int × α)} (h : Chain es i l)
    (hi : P i) : Chain es' i l := by
  induction h with
  | head h1 h2 => exact .head (hsame _ _ hi h1 (by rw [h2]; simp)) h2
  | step h1 h2 _ ih => exact .step (hsame _ _ hi h1 (by rw [h2]; simp)) h2 (ih (hP _ _ _ hi h1 h2))

omit [Inhabited α] in
/-- The indices of a chain are different, so it is not longer than the storage. -/
theorem Chain.length_lt {es : List (Entry α)} {i : Nat} {l : List (Int × α)} (h : Chain es i l) : l.length < es.length := by
  have key : ∀ {i l}, Chain es i l → ∃ is : List Nat, is.length = l.length + 1 ∧ is.Nodup ∧ (∀ j ∈ is, j < es.length) ∧
      ∀ j ∈ is, ∃ m, Chain es j m ∧ m.length ≤ l.length := by
    intro i l h
    induction h with
    | @head i e h1 h2 =>
      exact ⟨[i], rfl, by simp, by simp [(List.getElem?_eq_some_iff.1 h1).1], by
        intro j hj
        rw [List.mem_singleton] at hj
        subst hj
        exact ⟨[], .head h1 h2, Nat.le_refl _⟩⟩
    | @step i e j l h1 h2 hc ih =>
      obtain ⟨is, i1, i2, i3, i4⟩ := ih
      refine ⟨i :: is, by simp [i1], ?_, ?_, ?_⟩
      · rw [List.nodup_cons]
        refine ⟨?_, i2⟩
        intro hi
        obtain ⟨m, hm, hlen⟩ := i4 i hi
        have := Chain.det hm (.step h1 h2 hc)
        rw [this] at hlen
        simp at hlen
        omega
      · intro k hk
        rcases List.mem_cons.1 hk with rfl | hk
        · exact (List.getElem?_eq_some_iff.1 h1).1
        · exact i3 k hk
      · intro k hk
        rcases List.mem_cons.1 hk with rfl | hk
        · exact ⟨_, .step h1 h2 hc, Nat.le_refl _⟩
        · obtain ⟨m, hm, hlen⟩ := i4 k hk
          exact ⟨m, hm, by simp; omega⟩
  obtain ⟨is, i1, i2, i3, -⟩ := key h
  have : is.length ≤ (List.range es.length).length :=
    (List.subperm_of_subset i2 (fun j hj => List.mem_range.2 (i3 j hj))).length_le
  rw [List.length_range] at this
  omega

/-! Marking -/

/-- The total length of the chains that wait to be marked. -/
def weight (ls : List (List (Int × α))) : Nat := (ls.map (fun l => l.length + 1)).sum

omit [Inhabited α] in
theorem markLoop_spec (es : List (Entry α)) : ∀ (fuel : Nat) (waiting : List Nat) (ls : List (List (Int × α))) (marks : List Bool),
    List.Forall₂ (Chain es) waiting ls → weight ls ≤ fuel → marks.length = es.length →
    (∀ (m : Nat) (e : Entry α) (j : Nat), marks[m]? = some true → es[m]? = some e → e.prev = .below j → marks[j]? = some true ∨ j ∈ waiting) →
    (∀ m : Nat, marks[m]? = some true → ∃ l, Chain es m l) →
    ∃ marks', markLoop es fuel waiting marks = .ok marks' ∧ marks'.length = es.length ∧
      (∀ m : Nat, marks[m]? = some true → marks'[m]? = some true) ∧ (∀ m ∈ waiting, marks'[m]? = some true) ∧
      (∀ (m : Nat) (e : Entry α) (j : Nat), marks'[m]? = some true → es[m]? = some e → e.prev = .below j → marks'[j]? = some true) ∧
      (∀ m : Nat, marks'[m]? = some true → ∃ l, Chain es m l) := by
  intro fuel
  induction fuel with
  | zero =>
    intro waiting ls marks hw hf hlen hcl hch
    cases hw with
    | nil =>
      exact ⟨marks, rfl, hlen, fun _ h => h, fun m hm => absurd hm (by simp), fun m e j h1 h2 h3 => (hcl m e j h1 h2 h3).resolve_right (by simp), hch⟩
    | cons _ _ => simp [weight] at hf
  | succ k ih =>
    intro waiting ls marks hw hf hlen hcl hch
    cases hw with
    | nil =>
      exact ⟨marks, rfl, hlen, fun _ h => h, fun m hm => absurd hm (by simp), fun m e j h1 h2 h3 => (hcl m e j h1 h2 h3).resolve_right (by simp), hch⟩
    | @cons next l waiting ls hc hw =>
      have hlt := hc.lt
      have hset : (marks.set next true)[next]? = some true := by simp [hlen, hlt]
      have hmono : ∀ m : Nat, marks[m]? = some true → (marks.set next true)[m]? = some true := by
        intro m hm
        by_cases h : m = next
        · subst h; exact hset
        · rw [List.getElem?_set_ne (Ne.symm h)]; exact hm
      have hback : ∀ m : Nat, (marks.set next true)[m]? = some true → m ≠ next → marks[m]? = some true := by
        intro m hm h
        rw [List.getElem?_set_ne (Ne.symm h)] at hm
        exact hm
      have hch' : ∀ m : Nat, (marks.set next true)[m]? = some true → ∃ l, Chain es m l := by
        intro m hm
        by_cases h : m = next
        · subst h; exact ⟨_, hc⟩
        · exact hch m (hback m hm h)
      have hwt : weight ls ≤ k := by
        simp only [weight, List.map_cons, List.sum_cons] at hf ⊢
        omega
      cases hc with
      | @head _ e h1 h2 =>
        obtain ⟨marks', r1, r2, r3, r4, r5, r6⟩ := ih waiting ls (marks.set next true) hw hwt (by simp [hlen]) (by
          intro m e' j hm he hp
          by_cases h : m = next
          · subst h; rw [h1] at he; cases he; rw [h2] at hp; cases hp
          · rcases hcl m e' j (hback m hm h) he hp with h' | h'
            · exact Or.inl (hmono j h')
            · rcases List.mem_cons.1 h' with rfl | h'
              · exact Or.inl hset
              · exact Or.inr h') hch'
        refine ⟨marks', ?_, r2, fun m hm => r3 m (hmono m hm), ?_, r5, r6⟩
        · simp only [markLoop, h1, h2]; exact r1
        · intro m hm
          rcases List.mem_cons.1 hm with rfl | hm
          · exact r3 _ hset
          · exact r4 m hm
      | @step _ e j l h1 h2 hc =>
        have hj := hc.lt
        obtain ⟨b, hb⟩ : ∃ b, (marks.set next true)[j]? = some b := ⟨_, List.getElem?_eq_getElem (by simp [hlen, hj])⟩
        cases b with
        | true =>
          obtain ⟨marks', r1, r2, r3, r4, r5, r6⟩ := ih waiting ls (marks.set next true) hw hwt (by simp [hlen]) (by
            intro m e' j' hm he hp
            by_cases h : m = next
            · subst h; rw [h1] at he; cases he; rw [h2] at hp; cases hp; exact Or.inl hb
            · rcases hcl m e' j' (hback m hm h) he hp with h' | h'
              · exact Or.inl (hmono j' h')
              · rcases List.mem_cons.1 h' with rfl | h'
                · exact Or.inl hset
                · exact Or.inr h') hch'
          refine ⟨marks', ?_, r2, fun m hm => r3 m (hmono m hm), ?_, r5, r6⟩
          · simp only [markLoop, h1, h2, hb]; exact r1
          · intro m hm
            rcases List.mem_cons.1 hm with rfl | hm
            · exact r3 _ hset
            · exact r4 m hm
        | false =>
          obtain ⟨marks', r1, r2, r3, r4, r5, r6⟩ := ih (j :: waiting) (l :: ls) (marks.set next true) (.cons hc hw)
            (by simp only [weight, List.map_cons, List.sum_cons, List.length_cons] at hf ⊢; omega) (by simp [hlen]) (by
            intro m e' j' hm he hp
            by_cases h : m = next
            · subst h; rw [h1] at he; cases he; rw [h2] at hp; cases hp; exact Or.inr (by simp)
            · rcases hcl m e' j' (hback m hm h) he hp with h' | h'
              · exact Or.inl (hmono j' h')
              · rcases List.mem_cons.1 h' with rfl | h'
                · exact Or.inl hset
                · exact Or.inr (by simp [h'])) hch'
          refine ⟨marks', ?_, r2, fun m hm => r3 m (hmono m hm), ?_, r5, r6⟩
          · simp only [markLoop, h1, h2, hb]; exact r1
          · intro m hm
            rcases List.mem_cons.1 hm with rfl | hm
            · exact r3 _ hset
            · exact r4 m (by simp [hm])

/-! Sweeping -/

/-- The number of free entries. -/
def free (es : List (Entry α)) : Nat := (es.filter (fun e => decide (e.prev = .empty))).length

omit [Inhabited α] in
theorem sweep_get : ∀ (es : List (Entry α)) (ms : List Bool), ms.length = es.length → ∀ i : Nat,
    (sweep es ms).length = es.length ∧ (ms[i]? = some true → (sweep es ms)[i]? = es[i]?)
  | [], [], _, i => by simp [sweep]
  | e :: es, m :: ms, h, i => by
    have hl : ms.length = es.length := by simpa using h
    cases i with
    | zero =>
      refine ⟨by simp [sweep, (sweep_get es ms hl 0).1], ?_⟩
      intro hm
      simp only [List.getElem?_cons_zero, Option.some.injEq] at hm
      simp [sweep, hm]
    | succ i =>
      obtain ⟨h1, h2⟩ := sweep_get es ms hl i
      exact ⟨by simp [sweep, h1], fun hm => by simpa [sweep] using h2 (by simpa using hm)⟩
  | [], _ :: _, h, _ => by simp at h
  | _ :: _, [], h, _ => by simp at h

omit [Inhabited α] in
theorem sweep_free : ∀ (es : List (Entry α)) (ms : List Bool), ms.length = es.length →
    (∀ (i : Nat) e, ms[i]? = some true → es[i]? = some e → e.prev ≠ .empty) → (free (sweep es ms) : Int) = unmarked ms
  | [], [], _, _ => rfl
  | e :: es, m :: ms, h, hm => by
    have ih := sweep_free es ms (by simpa using h) (fun i e h1 h2 => hm (i + 1) e (by simpa using h1) (by simpa using h2))
    unfold free unmarked at *
    cases m with
    | true =>
      have he := hm 0 e rfl rfl
      simp only [sweep, if_true, List.filter_cons, he, decide_false, Bool.not_true]
      simpa using ih
    | false =>
      simp only [sweep, List.filter_cons, Bool.not_false, if_true, Bool.false_eq_true, if_false, decide_true, List.length_cons]
      push_cast
      rw [ih]
  | [], _ :: _, h, _ => by simp at h
  | _ :: _, [], h, _ => by simp at h

/-! The invariant -/

/-- The stacks that the references should have (`none` for destroyed references), top first. -/
abbrev Stacks (α : Type) := List (Option (List (Int × α)))

def alive (S : Stacks α) (r : Nat) : Bool :=
  match S[r]? with
  | some (some _) => true
  | _ => false

/-- The newest reference that is alive among the first `n`. -/
def newest (S : Stacks α) : Nat → Option Nat
  | 0 => none
  | n + 1 => if alive S n then some n else newest S n

omit [Inhabited α] in
theorem alive_iff (S : Stacks α) (r : Nat) : alive S r = true ↔ ∃ l, S[r]? = some (some l) := by
  unfold alive
  split
  · rename_i l h; simp [h]
  · rename_i h; simp; intro l hl; exact h l hl

omit [Inhabited α] in
theorem newest_congr (S T : Stacks α) : ∀ n, (∀ r < n, alive S r = alive T r) → newest S n = newest T n
  | 0, _ => rfl
  | n + 1, h => by
    simp only [newest]
    rw [h n (by omega), newest_congr S T n (fun r hr => h r (by omega))]

omit [Inhabited α] in
theorem newest_none (S : Stacks α) : ∀ n, newest S n = none ↔ ∀ r < n, alive S r = false
  | 0 => by simp [newest]
  | n + 1 => by
    simp only [newest]
    by_cases h : alive S n = true
    · rw [if_pos h]
      constructor
      · intro hc; cases hc
      · intro hc; rw [hc n (by omega)] at h; cases h
    · rw [if_neg h, newest_none S n]
      rw [Bool.not_eq_true] at h
      constructor
      · intro h' r hr
        by_cases hrn : r = n
        · subst hrn; exact h
        · exact h' r (by omega)
      · intro h' r hr
        exact h' r (by omega)

omit [Inhabited α] in
theorem newest_some (S : Stacks α) : ∀ n m, newest S n = some m → m < n ∧ alive S m = true ∧ (∀ r, m < r → r < n → alive S r = false)
  | 0, m, h => by simp [newest] at h
  | n + 1, m, h => by
    simp only [newest] at h
    by_cases hn : alive S n = true
    · rw [if_pos hn] at h
      cases h
      exact ⟨by omega, hn, fun r h1 h2 => absurd h1 (by omega)⟩
    · rw [if_neg hn] at h
      rw [Bool.not_eq_true] at hn
      obtain ⟨h1, h2, h3⟩ := newest_some S n m h
      refine ⟨by omega, h2, fun r h4 h5 => ?_⟩
      by_cases hr : r = n
      · subst hr; exact hn
      · exact h3 r h4 (by omega)

/-- What holds between operations, apart from the storage being there. -/
structure Core (depth : Nat) (h : Heap α) (S : Stacks α) : Prop where
  refs : h.refs.length = S.length
  live : ∀ (r : Nat) (l : List (Int × α)), S[r]? = some (some l) → ∃ i : Nat, h.refs[r]? = some (some ⟨i, none, newest S r⟩) ∧ Chain h.entries i l
  root : h.root = newest S S.length
  size : depth ≤ h.entries.length
  first : h.firstUnused < h.entries.length
  count : h.numFree = free h.entries

omit [Inhabited α] in
theorem rootIndices_spec {depth : Nat} {h : Heap α} {S : Stacks α} (hc : Core depth h S) : ∀ n fuel, n ≤ S.length → n ≤ fuel →
    ∃ is ls, rootIndices h.refs fuel (newest S n) = .ok is ∧ List.Forall₂ (Chain h.entries) is ls ∧
      ∀ r i l, r < n → S[r]? = some (some l) → h.refs[r]? = some (some ⟨i, none, newest S r⟩) → i ∈ is
  | 0, fuel, _, _ => by
    refine ⟨[], [], ?_, .nil, fun r i l hr => absurd hr (by omega)⟩
    cases fuel <;> rfl
  | n + 1, fuel, hn, hf => by
    simp only [newest]
    by_cases ha : alive S n = true
    · rw [if_pos ha]
      obtain ⟨l, hl⟩ := (alive_iff S n).1 ha
      obtain ⟨i, h1, h2⟩ := hc.live n l hl
      cases fuel with
      | zero => omega
      | succ k =>
        obtain ⟨is, ls, r1, r2, r3⟩ := rootIndices_spec hc n k (by omega) (by omega)
        refine ⟨i :: is, l :: ls, ?_, .cons h2 r2, ?_⟩
        · simp only [rootIndices, h1, r1]; rfl
        · intro r i' l' hr hl' hi'
          by_cases hrn : r = n
          · subst hrn
            rw [h1] at hi'
            cases hi'
            simp
          · exact List.mem_cons_of_mem _ (r3 r i' l' (by omega) hl' hi')
    · rw [if_neg ha]
      obtain ⟨is, ls, r1, r2, r3⟩ := rootIndices_spec hc n fuel (by omega) (by omega)
      refine ⟨is, ls, r1, r2, ?_⟩
      intro r i' l' hr hl' hi'
      by_cases hrn : r = n
      · subst hrn
        exact absurd ((alive_iff S r).2 ⟨l', hl'⟩) ha
      · exact r3 r i' l' (by omega) hl' hi'

omit [Inhabited α] in
theorem weight_le (es : List (Entry α)) : ∀ {is : List Nat} {ls : List (List (Int × α))}, List.Forall₂ (Chain es) is ls →
    weight ls ≤ is.length * (es.length + 1)
  | _, _, .nil => by simp [weight]
  | i :: is, l :: ls, .cons h hl => by
    have ih := weight_le es hl
    have := h.length_lt
    simp only [weight, List.map_cons, List.sum_cons, List.length_cons] at ih ⊢
    rw [Nat.succ_mul]
    omega

omit [Inhabited α] in
theorem collect_spec {depth : Nat} {h : Heap α} {S : Stacks α} (hc : Core depth h S) :
    ∃ h', collect h = .ok h' ∧ Core depth h' S ∧ h'.refs = h.refs ∧ h'.freed = h.freed := by
  obtain ⟨is, ls, r1, r2, r3⟩ := rootIndices_spec hc S.length (h.refs.length + 1) (Nat.le_refl _) (by rw [hc.refs]; omega)
  have r2' : List.Forall₂ (Chain h.entries) is.reverse ls.reverse := List.forall₂_reverse_iff.2 r2
  obtain ⟨marks, m1, m2, -, m4, m5, m6⟩ := markLoop_spec h.entries (is.reverse.length * (h.entries.length + 1)) is.reverse ls.reverse
    (List.replicate h.entries.length false) r2' (weight_le _ r2') (by simp)
    (by intro m e j hm; simp [List.getElem?_replicate] at hm) (by intro m hm; simp [List.getElem?_replicate] at hm)
  refine ⟨{ h with entries := sweep h.entries marks, numFree := unmarked marks }, ?_, ?_, rfl, rfl⟩
  · simp only [collect, hc.root, r1, bind, Except.bind, m1, pure, Except.pure]
  · have hget := sweep_get h.entries marks m2
    constructor
    · exact hc.refs
    · intro r l hl
      obtain ⟨i, h1, h2⟩ := hc.live r l hl
      refine ⟨i, h1, ?_⟩
      have hr : r < S.length := (List.getElem?_eq_some_iff.1 hl).1
      have hi : i ∈ is := r3 r i l hr hl h1
      refine h2.frame (fun j => marks[j]? = some true) (fun j e k hj he hp => m5 j e k hj he hp) ?_ (m4 i (List.mem_reverse.2 hi))
      intro j e hj he _
      exact ((hget j).2 hj).trans he
    · exact hc.root
    · show depth ≤ (sweep h.entries marks).length
      rw [(hget 0).1]
      exact hc.size
    · show h.firstUnused < (sweep h.entries marks).length
      rw [(hget 0).1]
      exact hc.first
    · refine (sweep_free _ _ m2 ?_).symm
      intro i e hi he
      obtain ⟨l, hl⟩ := m6 i hi
      obtain ⟨e', h1, h2⟩ := hl.nonempty
      rw [he] at h1
      cases h1
      exact h2

omit [Inhabited α] in
theorem free_append (es fs : List (Entry α)) : free (es ++ fs) = free es + free fs := by
  simp [free]

theorem free_blank : ∀ n, free (List.replicate n (blank : Entry α)) = n
  | 0 => rfl
  | n + 1 => by
    have := free_blank n
    simp [free, blank, List.replicate_succ] at this ⊢

theorem grow_spec {depth : Nat} {h : Heap α} {S : Stacks α} (hd : 2 ≤ depth) (hc : Core depth h S) :
    Core depth (growStack depth h) S ∧ 0 < free (growStack depth h).entries := by
  have hsz := hc.size
  have hpos : 0 < (if h.entries.length > depth * 8 then depth * 8 else h.entries.length) := by split <;> omega
  generalize hn : (if h.entries.length > depth * 8 then depth * 8 else h.entries.length) = n at hpos
  have hg : growStack depth h = { h with entries := h.entries ++ List.replicate n blank, numFree := h.numFree + n } := by
    unfold growStack
    simp only [hn]
  rw [hg]
  refine ⟨⟨hc.refs, ?_, hc.root, ?_, ?_, ?_⟩, ?_⟩
  · intro r l hl
    obtain ⟨i, h1, h2⟩ := hc.live r l hl
    refine ⟨i, h1, h2.frame (fun _ => True) (fun _ _ _ _ _ _ => trivial) ?_ trivial⟩
    intro j e _ he _
    show (h.entries ++ List.replicate n blank)[j]? = some e
    rw [List.getElem?_append_left (List.getElem?_eq_some_iff.1 he).1]
    exact he
  · show depth ≤ (h.entries ++ List.replicate n blank).length
    rw [List.length_append]; omega
  · show h.firstUnused < (h.entries ++ List.replicate n blank).length
    have := hc.first
    rw [List.length_append]; omega
  · show h.numFree + n = (free (h.entries ++ List.replicate n blank) : Int)
    rw [free_append, free_blank, hc.count]
    push_cast
    rfl
  · show 0 < free (h.entries ++ List.replicate n blank)
    rw [free_append, free_blank]; omega

/-! Finding a free entry -/

omit [Inhabited α] in
theorem findFree_up (es : List (Entry α)) (t : Nat) (e : Entry α) (ht : es[t]? = some e) (he : e.prev = .empty) :
    ∀ fuel i, i ≤ t → t - i < fuel → ∃ k e', findFree es fuel i = .ok k ∧ es[k]? = some e' ∧ e'.prev = .empty := by
  have htl := (List.getElem?_eq_some_iff.1 ht).1
  intro fuel
  induction fuel with
  | zero => intro i _ h; omega
  | succ n ih =>
    intro i hi hf
    obtain ⟨e', he'⟩ : ∃ e', es[i]? = some e' := ⟨_, List.getElem?_eq_getElem (by omega)⟩
    simp only [findFree, he']
    by_cases hp : e'.prev = .empty
    · rw [if_pos hp]; exact ⟨i, e', rfl, he', hp⟩
    · rw [if_neg hp]
      have hne : i ≠ t := by
        intro h; subst h; rw [ht] at he'; cases he'; exact hp he
      rw [if_neg (by omega)]
      exact ih (i + 1) (by omega) (by omega)

omit [Inhabited α] in
theorem findFree_spec (es : List (Entry α)) (hpos : 0 < free es) (i : Nat) (hi : i < es.length) :
    ∃ k e', findFree es (2 * es.length + 1) i = .ok k ∧ es[k]? = some e' ∧ e'.prev = .empty := by
  obtain ⟨e, he⟩ := List.exists_mem_of_length_pos hpos
  rw [List.mem_filter, decide_eq_true_eq] at he
  obtain ⟨t, ht⟩ := List.mem_iff_getElem?.1 he.1
  have htl := (List.getElem?_eq_some_iff.1 ht).1
  have wrap : ∀ fuel i, i < es.length → (es.length - i) + t < fuel →
      ∃ k e', findFree es fuel i = .ok k ∧ es[k]? = some e' ∧ e'.prev = .empty := by
    intro fuel
    induction fuel with
    | zero => intro i _ h; omega
    | succ n ih =>
      intro i hi hf
      obtain ⟨e', he'⟩ : ∃ e', es[i]? = some e' := ⟨_, List.getElem?_eq_getElem hi⟩
      simp only [findFree, he']
      by_cases hp : e'.prev = .empty
      · rw [if_pos hp]; exact ⟨i, e', rfl, he', hp⟩
      · rw [if_neg hp]
        by_cases hw : es.length ≤ i + 1
        · rw [if_pos hw]
          exact findFree_up es t e ht he.2 n 0 (by omega) (by omega)
        · rw [if_neg hw]
          exact ih (i + 1) (by omega) (by omega)
  exact wrap _ i hi (by omega)

omit [Inhabited α] in
theorem free_set (e' : Entry α) (h' : e'.prev ≠ .empty) : ∀ (es : List (Entry α)) (k : Nat) (e : Entry α), es[k]? = some e →
    free (es.set k e') + (if e.prev = .empty then 1 else 0) = free es
  | [], k, e, h => by simp at h
  | a :: es, 0, e, h => by
    simp only [List.getElem?_cons_zero, Option.some.injEq] at h
    subst h
    by_cases ha : a.prev = .empty <;> simp [free, ha, h']
  | a :: es, k + 1, e, h => by
    have ih := free_set e' h' es k e (by simpa using h)
    simp only [free] at ih
    by_cases ha : a.prev = .empty
    · simp only [free, List.set_cons_succ, List.filter_cons, ha, decide_true, if_true, List.length_cons]
      omega
    · simp only [free, List.set_cons_succ, List.filter_cons, ha, decide_false, Bool.false_eq_true, if_false]
      omega

theorem makeRoom_spec {depth : Nat} {h : Heap α} {S : Stacks α} (hd : 2 ≤ depth) (hc : Core depth h S) :
    ∃ h1, makeRoom depth h = .ok h1 ∧ Core depth h1 S ∧ h1.refs = h.refs ∧ h1.root = h.root ∧ h1.freed = h.freed ∧
      0 < free h1.entries := by
  unfold makeRoom
  by_cases hf : h.numFree ≤ 0
  · rw [if_pos hf]
    obtain ⟨h2, c1, c2, c3, c4⟩ := collect_spec hc
    rw [c1]
    by_cases hg : h2.numFree < (depth / 2 : Nat)
    · obtain ⟨g1, g2⟩ := grow_spec hd c2
      refine ⟨growStack depth h2, ?_, g1, c3, (c2.root.trans hc.root.symm), c4, g2⟩
      simp only [Except.map, if_pos hg]
    · refine ⟨h2, ?_, c2, c3, (c2.root.trans hc.root.symm), c4, ?_⟩
      · simp only [Except.map, if_neg hg]
      · have := c2.count
        omega
  · rw [if_neg hf]
    refine ⟨h, rfl, hc, rfl, rfl, rfl, ?_⟩
    have := hc.count
    omega

/-- A new entry: it was free, so no stack goes through it. -/
theorem getNew_spec {depth : Nat} {h : Heap α} {S : Stacks α} (hd : 2 ≤ depth) (hc : Core depth h S) :
    ∃ k h', getNew depth h = .ok (k, h') ∧ h'.refs = h.refs ∧ h'.root = h.root ∧ h'.freed = h.freed ∧
      depth ≤ h'.entries.length ∧ h'.firstUnused < h'.entries.length ∧ h'.numFree = free h'.entries ∧
      (∃ e, h'.entries[k]? = some e ∧ e.prev = .head) ∧
      ∀ (r : Nat) (l : List (Int × α)) (i : Nat), S[r]? = some (some l) → h.refs[r]? = some (some ⟨i, none, newest S r⟩) →
        Chain h'.entries i l ∧ ∀ e', Chain (h'.entries.set k e') i l := by
  obtain ⟨h1, p1, p2, p3, p4, p5, p6⟩ := makeRoom_spec hd hc
  obtain ⟨k, e, f1, f2, f3⟩ := findFree_spec h1.entries p6 h1.firstUnused p2.first
  have hk := (List.getElem?_eq_some_iff.1 f2).1
  refine ⟨k, { h1 with
      firstUnused := if h1.entries.length ≤ k + 1 then 0 else k + 1
      entries := setHead h1.entries k
      numFree := h1.numFree - 1 }, ?_, p3, p4, p5, ?_, ?_, ?_, ?_, ?_⟩
  · simp only [getNew, p1, bind, Except.bind, f1, pure, Except.pure]
  · simp only [setHead, f2, List.length_set]
    exact p2.size
  · simp only [setHead, f2, List.length_set]
    split <;> omega
  · simp only [setHead, f2]
    have := free_set { e with prev := .head } (by simp) h1.entries k e f2
    rw [if_pos f3] at this
    rw [p2.count]
    omega
  · simp only [setHead, f2]
    exact ⟨{ e with prev := .head }, by simp [hk], rfl⟩
  · intro r l i hl hi
    obtain ⟨i', h2, h3⟩ := p2.live r l hl
    rw [p3, hi] at h2
    cases h2
    have hframe : ∀ e', Chain (h1.entries.set k e') i l := by
      intro e'
      refine h3.frame (fun _ => True) (fun _ _ _ _ _ _ => trivial) ?_ trivial
      intro j ej _ hj hne
      have : k ≠ j := by
        intro hkj
        subst hkj
        rw [f2] at hj
        cases hj
        exact hne f3
      rw [List.getElem?_set_ne this]
      exact hj
    simp only [setHead, f2]
    refine ⟨hframe _, ?_⟩
    intro e'
    rw [List.set_set]
    exact hframe e'

/-! The operations -/

/-- What each operation should do to the stacks. -/
def specStep (p : Stacks α × List Bool) : Op α → Option (Stacks α × List Bool)
  | .push r s x =>
    match p.1[r]? with
    | some (some l) => some (p.1.set r (some ((s, x) :: l)), p.2)
    | _ => none
  | .pop r =>
    match p.1[r]? with
    | some (some l) => some (p.1.set r (some l.tail), p.2 ++ [!l.isEmpty])
    | _ => none
  | .copy r =>
    match p.1[r]? with
    | some (some l) => some (p.1 ++ [some l], p.2)
    | _ => none
  | .assign r s =>
    match p.1[r]?, p.1[s]? with
    | some (some _), some (some m) => some (p.1.set r (some m), p.2)
    | _, _ => none
  | .destroy r =>
    match p.1[r]? with
    | some (some _) => some (p.1.set r none, p.2)
    | _ => none

/-- The stacks after a program; `none` if it uses a reference that is not there. -/
def specRun (ops : List (Op α)) : Option (Stacks α × List Bool) := ops.foldlM specStep ([some []], [])

/-- Every reference that is destroyed is the newest one there is. -/
def newestFirst : Stacks α × List Bool → List (Op α) → Bool
  | _, [] => true
  | p, op :: ops =>
    (match op with
      | .destroy r => decide (newest p.1 p.1.length = some r)
      | _ => true) &&
    (match specStep p op with
      | some q => newestFirst q ops
      | none => true)

structure Inv (depth : Nat) (h : Heap α) (S : Stacks α) : Prop where
  core : Core depth h S
  freed : h.freed = (newest S S.length).isNone

omit [Inhabited α] in
theorem Inv.live {depth : Nat} {h : Heap α} {S : Stacks α} (hi : Inv depth h S) {r : Nat} {l : List (Int × α)} (hl : S[r]? = some (some l)) :
    h.freed = false := by
  rw [hi.freed]
  cases hn : newest S S.length with
  | some _ => rfl
  | none =>
    have := (newest_none S S.length).1 hn r (List.getElem?_eq_some_iff.1 hl).1
    rw [(alive_iff S r).2 ⟨l, hl⟩] at this
    cases this

omit [Inhabited α] in
theorem alive_set_some (S : Stacks α) {r : Nat} {l m : List (Int × α)} (hl : S[r]? = some (some l)) (q : Nat) :
    alive (S.set r (some m)) q = alive S q := by
  unfold alive
  by_cases h : r = q
  · subst h
    rw [List.getElem?_set_self (List.getElem?_eq_some_iff.1 hl).1, hl]
  · rw [List.getElem?_set_ne h]

omit [Inhabited α] in
theorem newest_set_some (S : Stacks α) {r : Nat} {l m : List (Int × α)} (hl : S[r]? = some (some l)) (n : Nat) :
    newest (S.set r (some m)) n = newest S n :=
  newest_congr _ _ n (fun q _ => alive_set_some S hl q)

omit [Inhabited α] in
/-- Changing the stack of one reference. -/
theorem Inv.update {depth : Nat} {h : Heap α} {S : Stacks α} (hi : Inv depth h S) {r : Nat} {l m : List (Int × α)} {i j : Nat}
    (hl : S[r]? = some (some l)) (hr : h.refs[r]? = some (some ⟨i, none, newest S r⟩)) (entries : List (Entry α)) (first : Nat) (count : Int)
    (h1 : depth ≤ entries.length) (h2 : first < entries.length) (h3 : count = free entries) (h4 : Chain entries j m)
    (h5 : ∀ (q : Nat) (k : List (Int × α)) (i' : Nat), S[q]? = some (some k) → h.refs[q]? = some (some ⟨i', none, newest S q⟩) → Chain entries i' k) :
    Inv depth ⟨entries, first, count, h.root, h.refs.set r (some ⟨j, none, newest S r⟩), h.freed⟩ (S.set r (some m)) := by
  have hrl := (List.getElem?_eq_some_iff.1 hr).1
  have hsl := (List.getElem?_eq_some_iff.1 hl).1
  refine ⟨⟨?_, ?_, ?_, h1, h2, h3⟩, ?_⟩
  · simp only [List.length_set]; exact hi.core.refs
  · intro q k hk
    rw [newest_set_some S hl]
    by_cases hqr : r = q
    · subst hqr
      rw [List.getElem?_set_self hsl] at hk
      cases hk
      exact ⟨j, List.getElem?_set_self hrl, h4⟩
    · rw [List.getElem?_set_ne hqr] at hk
      obtain ⟨i', h6, h7⟩ := hi.core.live q k hk
      exact ⟨i', by rw [List.getElem?_set_ne hqr]; exact h6, h5 q k i' hk h6⟩
  · simp only [List.length_set]
    rw [newest_set_some S hl]
    exact hi.core.root
  · simp only [List.length_set]
    rw [newest_set_some S hl]
    exact hi.freed

theorem push_spec {depth : Nat} {h : Heap α} {S : Stacks α} (hd : 2 ≤ depth) (hi : Inv depth h S) {r : Nat} {l : List (Int × α)}
    (hl : S[r]? = some (some l)) (s : Int) (x : α) :
    ∃ h', push depth h r s x = .ok h' ∧ Inv depth h' (S.set r (some ((s, x) :: l))) := by
  obtain ⟨i, h1, h2⟩ := hi.core.live r l hl
  obtain ⟨k, h', g1, g2, g3, g4, g5, g6, g7, ⟨e, g8, g9⟩, g10⟩ := getNew_spec hd hi.core
  have hk := (List.getElem?_eq_some_iff.1 g8).1
  refine ⟨⟨h'.entries.set k ⟨.below i, s, x⟩, h'.firstUnused, h'.numFree, h.root, h.refs.set r (some ⟨k, none, newest S r⟩), h.freed⟩, ?_, ?_⟩
  · simp only [push, ParserStack.live, h1, bind, Except.bind, hi.live hl, Bool.false_eq_true, if_false, pure, Except.pure, g1, g2, g3, g4]
  · refine hi.update hl h1 _ _ _ (by simpa using g5) (by simpa using g6) ?_ ?_ ?_
    · have := free_set (⟨.below i, s, x⟩ : Entry α) (by simp) h'.entries k e g8
      rw [if_neg (by rw [g9]; simp)] at this
      rw [g7]
      omega
    · exact .step (e := ⟨.below i, s, x⟩) (List.getElem?_set_self hk) rfl ((g10 r l i hl h1).2 _)
    · intro q m i' hq hr'
      exact (g10 q m i' hq hr').2 _

omit [Inhabited α] in
theorem pop_spec {depth : Nat} {h : Heap α} {S : Stacks α} (hi : Inv depth h S) {r : Nat} {l : List (Int × α)}
    (hl : S[r]? = some (some l)) :
    ∃ h', pop h r = .ok (!l.isEmpty, h') ∧ Inv depth h' (S.set r (some l.tail)) := by
  obtain ⟨i, h1, h2⟩ := hi.core.live r l hl
  cases h2 with
  | @head _ e h3 h4 =>
    refine ⟨h, ?_, ?_⟩
    · simp only [pop, ParserStack.live, h1, bind, Except.bind, hi.live hl, Bool.false_eq_true, if_false, pure, Except.pure, h3, h4]
      rfl
    · have : S.set r (some ([] : List (Int × α)).tail) = S := by
        obtain ⟨h5, h6⟩ := List.getElem?_eq_some_iff.1 hl
        show S.set r (some []) = S
        rw [← h6, List.set_getElem_self]
      rw [this]
      exact hi
  | @step _ e j l h3 h4 h5 =>
    refine ⟨⟨h.entries, h.firstUnused, h.numFree, h.root, h.refs.set r (some ⟨j, none, newest S r⟩), h.freed⟩, ?_, ?_⟩
    · simp only [pop, ParserStack.live, h1, bind, Except.bind, hi.live hl, Bool.false_eq_true, if_false, pure, Except.pure, h3, h4]
      rfl
    · refine hi.update hl h1 _ _ _ hi.core.size hi.core.first hi.core.count h5 ?_
      intro q m i' hq hr'
      obtain ⟨i'', h6, h7⟩ := hi.core.live q m hq
      rw [hr'] at h6
      cases h6
      exact h7

omit [Inhabited α] in
theorem assign_spec {depth : Nat} {h : Heap α} {S : Stacks α} (hi : Inv depth h S) {r s : Nat} {l m : List (Int × α)}
    (hl : S[r]? = some (some l)) (hm : S[s]? = some (some m)) :
    ∃ h', assign h r s = .ok h' ∧ Inv depth h' (S.set r (some m)) := by
  obtain ⟨i, h1, h2⟩ := hi.core.live r l hl
  obtain ⟨j, h3, h4⟩ := hi.core.live s m hm
  refine ⟨⟨h.entries, h.firstUnused, h.numFree, h.root, h.refs.set r (some ⟨j, none, newest S r⟩), h.freed⟩, ?_, ?_⟩
  · simp only [assign, ParserStack.live, h1, h3, bind, Except.bind, pure, Except.pure]
  · refine hi.update hl h1 _ _ _ hi.core.size hi.core.first hi.core.count h4 ?_
    intro q m i' hq hr'
    obtain ⟨i'', h6, h7⟩ := hi.core.live q m hq
    rw [hr'] at h6
    cases h6
    exact h7

omit [Inhabited α] in
theorem newest_append (S : Stacks α) (l : List (Int × α)) (n : Nat) (hn : n ≤ S.length) : newest (S ++ [some l]) n = newest S n := by
  refine newest_congr _ _ n (fun q hq => ?_)
  unfold alive
  rw [List.getElem?_append_left (by omega)]

omit [Inhabited α] in
theorem newest_append_all (S : Stacks α) (l : List (Int × α)) : newest (S ++ [some l]) (S ++ [some l]).length = some S.length := by
  rw [List.length_append]
  show (if alive (S ++ [some l]) S.length then some S.length else newest (S ++ [some l]) S.length) = _
  rw [if_pos]
  rw [alive_iff]
  exact ⟨l, by simp⟩

omit [Inhabited α] in
theorem copy_spec {depth : Nat} {h : Heap α} {S : Stacks α} (hi : Inv depth h S) {r : Nat} {l : List (Int × α)}
    (hl : S[r]? = some (some l)) :
    ∃ h', copy h r = .ok h' ∧ Inv depth h' (S ++ [some l]) := by
  obtain ⟨i, h1, h2⟩ := hi.core.live r l hl
  refine ⟨{ h with refs := h.refs ++ [some ⟨i, none, h.root⟩], root := some h.refs.length }, ?_, ⟨⟨?_, ?_, ?_, hi.core.size, hi.core.first, hi.core.count⟩, ?_⟩⟩
  · simp only [copy, ParserStack.live, h1, bind, Except.bind, hi.live hl, Bool.false_eq_true, if_false, pure, Except.pure]
  · simp [hi.core.refs]
  · intro q m hq
    by_cases hql : q < S.length
    · rw [List.getElem?_append_left hql] at hq
      obtain ⟨i', h6, h7⟩ := hi.core.live q m hq
      refine ⟨i', ?_, h7⟩
      rw [newest_append S l q (by omega)]
      show (h.refs ++ [_])[q]? = _
      rw [List.getElem?_append_left (by rw [hi.core.refs]; exact hql)]
      exact h6
    · have hq' := (List.getElem?_eq_some_iff.1 hq).1
      rw [List.length_append, List.length_singleton] at hq'
      have : q = S.length := by omega
      subst this
      rw [List.getElem?_append_right (Nat.le_refl _)] at hq
      simp at hq
      subst hq
      refine ⟨i, ?_, h2⟩
      rw [newest_append S l _ (Nat.le_refl _), ← hi.core.root]
      show (h.refs ++ [_])[S.length]? = _
      rw [← hi.core.refs]
      simp
  · show some h.refs.length = _
    rw [newest_append_all, hi.core.refs]
  · show h.freed = _
    rw [newest_append_all, hi.live hl]
    rfl

omit [Inhabited α] in
theorem destroy_spec {depth : Nat} {h : Heap α} {S : Stacks α} (hi : Inv depth h S) {r : Nat} {l : List (Int × α)}
    (hl : S[r]? = some (some l)) (hr : newest S S.length = some r) :
    ∃ h', destroy h r = .ok h' ∧ Inv depth h' (S.set r none) := by
  obtain ⟨i, h1, h2⟩ := hi.core.live r l hl
  obtain ⟨n1, n2, n3⟩ := newest_some S _ _ hr
  have halive : ∀ q, alive (S.set r none) q = (if q = r then false else alive S q) := by
    intro q
    unfold alive
    by_cases h : q = r
    · subst h
      rw [if_pos rfl, List.getElem?_set_self n1]
    · rw [if_neg h, List.getElem?_set_ne (Ne.symm h)]
  have hlow : ∀ n, n ≤ r → newest (S.set r none) n = newest S n := by
    intro n hn
    refine newest_congr _ _ n (fun q hq => ?_)
    rw [halive, if_neg (by omega)]
  have hall : ∀ n, r ≤ n → n ≤ S.length → newest (S.set r none) n = newest S r := by
    intro n hn hn'
    induction n with
    | zero => rw [hlow 0 (by omega), show r = 0 by omega]
    | succ n ih =>
      by_cases hrn : r = n + 1
      · rw [← hrn]; exact hlow r (Nat.le_refl _)
      · show (if alive (S.set r none) n then _ else _) = _
        rw [if_neg]
        · exact ih (by omega) (by omega)
        · rw [halive]
          by_cases hnr : n = r
          · simp [hnr]
          · rw [if_neg hnr, n3 n (by omega) (by omega)]; simp
  have hlen : newest (S.set r none) (S.set r none).length = newest S r := by
    rw [List.length_set]
    exact hall _ (by omega) (Nat.le_refl _)
  -- the reference after it in the list keeps its fields: `last` is null already
  have hnext : ∀ n, newest S r = some n → ∃ y : Ref, h.refs[n]? = some (some y) ∧ h.refs.set n (some { y with last := none }) = h.refs := by
    intro n hn
    obtain ⟨m1, m2, -⟩ := newest_some S _ _ hn
    obtain ⟨l', hl'⟩ := (alive_iff S n).1 m2
    obtain ⟨i', h6, h7⟩ := hi.core.live n l' hl'
    refine ⟨_, h6, ?_⟩
    obtain ⟨h8, h9⟩ := List.getElem?_eq_some_iff.1 h6
    show h.refs.set n (some ⟨i', none, newest S n⟩) = h.refs
    rw [← h9, List.set_getElem_self]
  refine ⟨{ h with refs := h.refs.set r none, root := newest S r, freed := (newest S r).isNone }, ?_, ⟨⟨?_, ?_, ?_, hi.core.size, hi.core.first, hi.core.count⟩, ?_⟩⟩
  · cases hn : newest S r with
    | none =>
      rw [hn] at h1
      simp only [destroy, ParserStack.live, h1, bind, Except.bind, hi.live hl, Bool.false_eq_true, if_false, pure, Except.pure]
    | some n =>
      obtain ⟨y, y1, y2⟩ := hnext n hn
      rw [hn] at h1
      simp only [destroy, ParserStack.live, h1, y1, y2, bind, Except.bind, hi.live hl, Bool.false_eq_true, if_false, pure, Except.pure]
  · show (h.refs.set r none).length = (S.set r none).length
    rw [List.length_set, List.length_set]
    exact hi.core.refs
  · intro q m hq
    have hqr : r ≠ q := by
      intro hc
      subst hc
      rw [List.getElem?_set_self n1] at hq
      cases hq
    rw [List.getElem?_set_ne hqr] at hq
    obtain ⟨i', h6, h7⟩ := hi.core.live q m hq
    have hqlt : q < r := by
      by_contra hge
      have hq' := (List.getElem?_eq_some_iff.1 hq).1
      have := n3 q (by omega) hq'
      rw [(alive_iff S q).2 ⟨m, hq⟩] at this
      cases this
    refine ⟨i', ?_, h7⟩
    rw [hlow q (by omega)]
    show (h.refs.set r none)[q]? = _
    rw [List.getElem?_set_ne hqr]
    exact h6
  · exact hlen.symm
  · rw [hlen]

theorem step_spec {depth : Nat} {h : Heap α} {S : Stacks α} (hd : 2 ≤ depth) (hi : Inv depth h S) (out : List Bool) (op : Op α)
    (q : Stacks α × List Bool) (hq : specStep (S, out) op = some q)
    (hn : ∀ r, op = .destroy r → newest S S.length = some r) :
    ∃ h', step depth (h, out) op = .ok (h', q.2) ∧ Inv depth h' q.1 := by
  cases op with
  | push r s x =>
    simp only [specStep] at hq
    split at hq
    · rename_i l hl
      cases hq
      obtain ⟨h', h1, h2⟩ := push_spec hd hi hl s x
      exact ⟨h', by simp only [step, h1, Except.map], h2⟩
    · cases hq
  | pop r =>
    simp only [specStep] at hq
    split at hq
    · rename_i l hl
      cases hq
      obtain ⟨h', h1, h2⟩ := pop_spec hi hl
      exact ⟨h', by simp only [step, h1, Except.map], h2⟩
    · cases hq
  | copy r =>
    simp only [specStep] at hq
    split at hq
    · rename_i l hl
      cases hq
      obtain ⟨h', h1, h2⟩ := copy_spec hi hl
      exact ⟨h', by simp only [step, h1, Except.map], h2⟩
    · cases hq
  | assign r s =>
    simp only [specStep] at hq
    split at hq
    · rename_i l m hl hm
      cases hq
      obtain ⟨h', h1, h2⟩ := assign_spec hi hl hm
      exact ⟨h', by simp only [step, h1, Except.map], h2⟩
    · cases hq
  | destroy r =>
    simp only [specStep] at hq
    split at hq
    · rename_i l hl
      cases hq
      obtain ⟨h', h1, h2⟩ := destroy_spec hi hl (hn r rfl)
      exact ⟨h', by simp only [step, h1, Except.map], h2⟩
    · cases hq

theorem fold_spec {depth : Nat} (hd : 2 ≤ depth) : ∀ (ops : List (Op α)) (h : Heap α) (S : Stacks α) (out : List Bool) (q : Stacks α × List Bool),
    Inv depth h S → ops.foldlM specStep (S, out) = some q → newestFirst (S, out) ops = true →
    ∃ h', ops.foldlM (step depth) (h, out) = .ok (h', q.2) ∧ Inv depth h' q.1
  | [], h, S, out, q, hi, hq, _ => by
    cases hq
    exact ⟨h, rfl, hi⟩
  | op :: ops, h, S, out, q, hi, hq, hn => by
    rw [List.foldlM_cons] at hq ⊢
    cases hs : specStep (S, out) op with
    | none => rw [hs] at hq; cases hq
    | some p =>
      rw [hs] at hq
      simp only [newestFirst, hs, Bool.and_eq_true] at hn
      obtain ⟨h', h1, h2⟩ := step_spec hd hi out op p hs (by
        intro r hr
        subst hr
        simpa using hn.1)
      rw [h1]
      exact fold_spec hd ops h' p.1 p.2 q h2 hq hn.2

theorem create_spec {depth : Nat} (hd : 2 ≤ depth) : ∃ h : Heap α, create depth = .ok h ∧ Inv depth h [some []] := by
  have hc : Core depth (⟨List.replicate depth blank, 0, depth, none, [], false⟩ : Heap α) [] :=
    ⟨rfl, fun r l h => by simp at h, rfl, by simp, by simp; omega, by simp [free_blank]⟩
  obtain ⟨k, h', g1, g2, g3, g4, g5, g6, g7, ⟨e, g8, g9⟩, -⟩ := getNew_spec hd hc
  refine ⟨{ h' with refs := [some ⟨k, none, none⟩], root := some 0 }, ?_, ⟨⟨rfl, ?_, rfl, g5, g6, g7⟩, ?_⟩⟩
  · simp only [create, g1, bind, Except.bind, pure, Except.pure, g3]
  · intro r l hl
    cases r with
    | zero =>
      simp at hl
      subst hl
      exact ⟨k, rfl, .head g8 g9⟩
    | succ r => simp at hl
  · exact g4

theorem run_spec {depth : Nat} (hd : 2 ≤ depth) (ops : List (Op α)) (S : Stacks α) (out : List Bool)
    (hs : specRun ops = some (S, out)) (hn : newestFirst ([some []], []) ops = true) :
    ∃ h, run depth ops = .ok (h, out) ∧ Inv depth h S := by
  obtain ⟨h, h1, h2⟩ := create_spec (α := α) hd
  obtain ⟨h', h3, h4⟩ := fold_spec hd ops h [some []] [] (S, out) h2 hs hn
  exact ⟨h', by simp only [run, h1, bind, Except.bind]; exact h3, h4⟩

omit [Inhabited α] in
theorem walk_head (es : List (Entry α)) (i : Nat) (e : Entry α) (h : es[i]? = some e) (hp : e.prev = .head) : ∀ k, walk es k i = .ok i
  | 0 => rfl
  | k + 1 => by
    simp only [walk, h, hp]
    exact walk_head es i e h hp k

omit [Inhabited α] in
theorem walk_spec (es : List (Entry α)) : ∀ (k : Nat) (i : Nat) (l : List (Int × α)), Chain es i l →
    ∃ j, walk es k i = .ok j ∧ Chain es j (l.drop k)
  | 0, i, l, h => ⟨i, rfl, h⟩
  | k + 1, i, l, h => by
    cases h with
    | head h1 h2 => exact ⟨i, walk_head es i _ h1 h2 _, .head h1 h2⟩
    | step h1 h2 h3 =>
      obtain ⟨j, h4, h5⟩ := walk_spec es k _ _ h3
      exact ⟨j, by simp only [walk, h1, h2]; exact h4, h5⟩

omit [Inhabited α] in
theorem read_spec {depth : Nat} {h : Heap α} {S : Stacks α} (hi : Inv depth h S) {r : Nat} {l : List (Int × α)}
    (hl : S[r]? = some (some l)) (k : Nat) :
    ∃ e, read h r k = .ok e ∧ (if k < l.length then l[k]? = some (e.state, e.item) else e.prev = .head) := by
  obtain ⟨i, h1, h2⟩ := hi.core.live r l hl
  obtain ⟨j, h3, h4⟩ := walk_spec h.entries k i l h2
  have hread : ∀ e, h.entries[j]? = some e → read h r k = .ok e := by
    intro e he
    simp only [read, ParserStack.live, h1, bind, Except.bind, hi.live hl, Bool.false_eq_true, if_false, pure, Except.pure, h3, he]
  generalize hd : l.drop k = d at h4
  cases h4 with
  | head h5 h6 =>
    refine ⟨_, hread _ h5, ?_⟩
    rw [if_neg (by rw [List.drop_eq_nil_iff] at hd; omega)]
    exact h6
  | step h5 h6 h7 =>
    refine ⟨_, hread _ h5, ?_⟩
    have hk : k < l.length := by
      by_contra hc
      rw [List.drop_eq_nil_of_le (by omega)] at hd
      cases hd
    rw [if_pos hk]
    have := congrArg (·[0]?) hd
    simpa using this

/-! C39 -/

/-- C39. Whatever the references do (pushes, pops, copies, assignments, and destroying the newest reference), nothing undefined
happens, each `pop` answers whether its own stack had something to remove, and each reference reads, at every offset, what its own
stack holds there; below the bottom it reads a head entry. -/
theorem stack_persistent {depth : Nat} (hd : 2 ≤ depth) (ops : List (Op α)) (S : Stacks α) (out : List Bool)
    (hs : specRun ops = some (S, out)) (hn : newestFirst ([some []], []) ops = true) :
    ∃ h, run depth ops = .ok (h, out) ∧ ∀ (r : Nat) (l : List (Int × α)), S[r]? = some (some l) → ∀ k,
      ∃ e, read h r k = .ok e ∧ (if k < l.length then l[k]? = some (e.state, e.item) else e.prev = .head) := by
  obtain ⟨h, h1, h2⟩ := run_spec hd ops S out hs hn
  exact ⟨h, h1, fun r l hl k => read_spec h2 hl k⟩

omit [Inhabited α] in
theorem newestFirst_noDestroy : ∀ (ops : List (Op α)) (p : Stacks α × List Bool), (∀ r, Op.destroy r ∉ ops) → newestFirst p ops = true
  | [], _, _ => rfl
  | op :: ops, p, h => by
    have h' : ∀ r, Op.destroy r ∉ ops := fun r hr => h r (List.mem_cons_of_mem _ hr)
    have h1 : (match specStep p op with | some q => newestFirst q ops | none => true) = true := by
      split
      · exact newestFirst_noDestroy ops _ h'
      · rfl
    cases op with
    | destroy r => exact absurd List.mem_cons_self (h r)
    | push r s x => simp only [newestFirst, Bool.true_and]; exact h1
    | pop r => simp only [newestFirst, Bool.true_and]; exact h1
    | copy r => simp only [newestFirst, Bool.true_and]; exact h1
    | assign r s => simp only [newestFirst, Bool.true_and]; exact h1

/-- C39, for programs that destroy nothing: any interleaving at all. -/
theorem stack_persistent_all {depth : Nat} (hd : 2 ≤ depth) (ops : List (Op α)) (hops : ∀ r, Op.destroy r ∉ ops)
    (S : Stacks α) (out : List Bool) (hs : specRun ops = some (S, out)) :
    ∃ h, run depth ops = .ok (h, out) ∧ ∀ (r : Nat) (l : List (Int × α)), S[r]? = some (some l) → ∀ k,
      ∃ e, read h r k = .ok e ∧ (if k < l.length then l[k]? = some (e.state, e.item) else e.prev = .head) :=
  stack_persistent hd ops S out hs (newestFirst_noDestroy ops _ hops)

/-- Two stacks that share an entry, in storage that must be collected and grown. -/
def shared : List (Op Nat) :=
  [.push 0 1 10, .copy 0, .push 0 2 20, .push 1 3 30, .pop 0, .push 0 4 40, .copy 1, .pop 2, .pop 2, .pop 2, .assign 2 0, .push 2 5 50, .pop 0]

example : specRun shared = some ([some [(1, 10)], some [(3, 30), (1, 10)], some [(5, 50), (4, 40), (1, 10)]], [true, true, true, false, true]) := by
  decide
example : (run 2 shared).map (fun p => p.2) = .ok [true, true, true, false, true] := by decide +kernel
example : ((run 2 shared).bind (fun p => (read p.1 2 1).map (fun e => (e.state, e.item)))) = .ok (4, 40) := by decide +kernel
example : ((run 2 shared).map (fun p => p.1.entries.length)) = .ok 8 := by decide +kernel

/-- With an initial depth of 1 the first push never returns: collecting frees nothing, `1 / 2` is 0, so the storage is not grown, and
the search for a free entry goes round for ever. -/
theorem depth_one_endless (s : Int) (x : α) : run 1 [.push 0 s x] = .error .endless := rfl

/-! C40 -/

/-- C40, as far as it holds: if each destroyed reference is the newest one, the storage is freed exactly when no reference is left. -/
theorem freed_iff_no_reference_partial {depth : Nat} (hd : 2 ≤ depth) (ops : List (Op α)) (S : Stacks α) (out : List Bool)
    (hs : specRun ops = some (S, out)) (hn : newestFirst ([some []], []) ops = true) :
    ∃ h, run depth ops = .ok (h, out) ∧ (h.freed = true ↔ ∀ (r : Nat) (l : List (Int × α)), S[r]? ≠ some (some l)) := by
  obtain ⟨h, h1, h2⟩ := run_spec hd ops S out hs hn
  refine ⟨h, h1, ?_⟩
  rw [h2.freed, Option.isNone_iff_eq_none, newest_none]
  constructor
  · intro h3 r l hl
    have := h3 r (List.getElem?_eq_some_iff.1 hl).1
    rw [(alive_iff S r).2 ⟨l, hl⟩] at this
    cases this
  · intro h3 r _
    cases ha : alive S r with
    | false => rfl
    | true =>
      obtain ⟨l, hl⟩ := (alive_iff S r).1 ha
      exact absurd hl (h3 r l)

example : (run 64 ([.copy 0, .push 1 7 7, .copy 1, .destroy 2, .destroy 1, .push 0 1 1] : List (Op Nat))).map (fun p => p.1.freed) = .ok false := by
  decide +kernel
example : (run 64 ([.copy 0, .push 1 7 7, .copy 1, .destroy 2, .destroy 1, .destroy 0] : List (Op Nat))).map (fun p => p.1.freed) = .ok true := by
  decide +kernel

/-- C40 is violated: destroying the older of two references frees the storage under the newer one, whose next use is undefined. -/
theorem freed_early_violated :
    ∃ (ops : List (Op Nat)) (S : Stacks Nat) (h : Heap Nat), specRun ops = some (S, []) ∧ S[1]? = some (some [(7, 7)]) ∧
      run 64 ops = .ok (h, []) ∧ h.freed = true ∧ read h 1 0 = .error .undefined ∧ ∀ s x, push 64 h 1 s x = .error .undefined :=
  ⟨[.push 0 7 7, .copy 0, .destroy 0], [none, some [(7, 7)]],
    ⟨setHead ((List.replicate 64 blank).set 0 ⟨.head, 0, 0⟩) 1 |>.set 1 ⟨.below 0, 7, 7⟩, 2, 62, none, [none, some ⟨1, none, some 0⟩], true⟩,
    by decide, by decide, by rfl, rfl, rfl, fun _ _ => rfl⟩

/-- The references 0, 1 and 2 are each a copy of the one before; 2 pushes `(7, 7)`, 1 is destroyed, and 0 goes on pushing. -/
def lost : List (Op Nat) :=
  [.copy 0, .copy 1, .push 2 7 7, .destroy 1] ++ List.replicate 63 (.push 0 8 8)

/-- C39 fails as well when an older reference is destroyed: the newer reference is no longer a root for the collector, and its entries
are reused for another stack. -/
theorem entries_reused_violated :
    (specRun lost).map (fun p => p.1[2]?) = some (some (some [(7, 7)])) ∧
      ((run 64 lost).bind (fun p => (read p.1 2 0).map (fun e => (e.state, e.item)))) = .ok (8, 8) := by
  decide +kernel

end ParserStack
end TameParse

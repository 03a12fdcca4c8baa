import Verif.Session
import Mathlib.Data.List.Nodup
import Mathlib.Data.List.Perm.Subperm
/-
C41: parser states that share a session read the token stream independently of each other.
-/
namespace TameParse
namespace Session

variable {τ : Type}

/-! The list of states -/

/-- A doubly linked segment: the pointer to its first member, the members, and what the first one points back to. -/
inductive Seg (st : List (Option St)) : Option Nat → List Nat → Option Nat → Prop
  | nil {p} : Seg st p [] none
  | cons {p r x rs} : st[r]? = some (some x) → x.last = p → Seg st (some r) rs x.next → Seg st p (r :: rs) (some r)

theorem Seg.mem_live {st : List (Option St)} {p f : Option Nat} {rs : List Nat} (h : Seg st p rs f) : ∀ r ∈ rs, ∃ x, st[r]? = some (some x) := by
  induction h with
  | nil => intro r hr; cases hr
  | cons h1 _ _ ih =>
    intro q hq
    rcases List.mem_cons.1 hq with rfl | hq
    · exact ⟨_, h1⟩
    · exact ih q hq

theorem Seg.congr {st st' : List (Option St)} {p f : Option Nat} {rs : List Nat} (h : Seg st p rs f)
    (hs : ∀ r ∈ rs, ∀ x, st[r]? = some (some x) → ∃ y, st'[r]? = some (some y) ∧ y.next = x.next ∧ y.last = x.last) : Seg st' p rs f := by
  induction h with
  | nil => exact .nil
  | cons h1 h2 _ ih =>
    obtain ⟨y, y1, y2, y3⟩ := hs _ List.mem_cons_self _ h1
    have ih := ih (fun r hr => hs r (List.mem_cons_of_mem _ hr))
    rw [← y2] at ih
    exact .cons y1 (y3.trans h2) ih

theorem Seg.first {st : List (Option St)} {p f : Option Nat} {rs : List Nat} (h : Seg st p rs f) : f = rs.head? := by
  cases h <;> rfl

theorem members_spec {st : List (Option St)} {p f : Option Nat} {rs : List Nat} (h : Seg st p rs f) : ∀ fuel, rs.length ≤ fuel →
    members st fuel f = .ok rs := by
  induction h with
  | nil => intro fuel _; cases fuel <;> rfl
  | cons h1 _ _ ih =>
    intro fuel hf
    cases fuel with
    | zero => simp at hf
    | succ k =>
      rw [List.length_cons] at hf
      simp only [members, h1, ih k (by omega)]
      rfl

theorem Seg.length_le {st : List (Option St)} {p f : Option Nat} {rs : List Nat} (h : Seg st p rs f) (hn : rs.Nodup) : rs.length ≤ st.length := by
  have : rs.length ≤ (List.range st.length).length :=
    (List.subperm_of_subset hn (fun j hj => by
      obtain ⟨x, hx⟩ := h.mem_live j hj
      exact List.mem_range.2 (List.getElem?_eq_some_iff.1 hx).1)).length_le
  rwa [List.length_range] at this

/-- The first member is made to point back to something else. -/
theorem Seg.relast {st : List (Option St)} {p : Option Nat} {rs : List Nat} {n : Nat} {y : St} (h : Seg st p rs (some n)) (hn : rs.Nodup)
    (hy : st[n]? = some (some y)) (p' : Option Nat) : Seg (st.set n (some { y with last := p' })) p' rs (some n) := by
  cases h with
  | @cons _ _ x rs h1 h2 h3 =>
    rw [h1] at hy
    cases hy
    rw [List.nodup_cons] at hn
    refine .cons (List.getElem?_set_self (List.getElem?_eq_some_iff.1 h1).1) rfl ?_
    refine h3.congr ?_
    intro r hr x hx
    refine ⟨x, ?_, rfl, rfl⟩
    rw [List.getElem?_set_ne (by rintro rfl; exact hn.1 hr)]
    exact hx

theorem Seg.splice {st st' : List (Option St)} {l r : Nat} {x y y' : St} {b : List Nat} (hl : st[l]? = some (some y))
    (hl' : st'[l]? = some (some y')) (h1 : y'.last = y.last) (h2 : y'.next = x.next) (h3 : Seg st' (some l) b x.next) :
    ∀ (a : List Nat) (p f : Option Nat), Seg st p (a ++ l :: r :: b) f →
      (∀ q ∈ a, ∀ x, st[q]? = some (some x) → ∃ y, st'[q]? = some (some y) ∧ y.next = x.next ∧ y.last = x.last) → Seg st' p (a ++ l :: b) f
  | [], p, f, h, _ => by
    cases h with
    | cons h4 h5 _ =>
      rw [hl] at h4
      cases h4
      rw [← h2] at h3
      exact .cons hl' (h1.trans h5) h3
  | q :: a, p, f, h, hs => by
    cases h with
    | cons h4 h5 h6 =>
      obtain ⟨z, z1, z2, z3⟩ := hs q List.mem_cons_self _ h4
      have ih := Seg.splice hl hl' h1 h2 h3 a _ _ h6 (fun q hq => hs q (List.mem_cons_of_mem _ hq))
      rw [← z2] at ih
      exact .cons z1 (z3.trans h5) ih

/-- What the member `r` holds. -/
theorem Seg.at {st : List (Option St)} {r : Nat} {x : St} (hx : st[r]? = some (some x)) {b : List Nat} :
    ∀ (a : List Nat) (p f : Option Nat), Seg st p (a ++ r :: b) f → Seg st (some r) b x.next ∧
      ((a = [] ∧ f = some r ∧ x.last = p) ∨ ∃ a' l, a = a' ++ [l] ∧ x.last = some l)
  | [], p, f, h => by
    cases h with
    | cons h1 h2 h3 =>
      rw [hx] at h1
      cases h1
      exact ⟨h3, Or.inl ⟨rfl, rfl, h2⟩⟩
  | q :: a, p, f, h => by
    cases h with
    | cons h1 h2 h3 =>
      obtain ⟨h4, h5⟩ := Seg.at hx a _ _ h3
      refine ⟨h4, Or.inr ?_⟩
      rcases h5 with ⟨rfl, h6, h7⟩ | ⟨a', l, rfl, h6⟩
      · exact ⟨[], q, rfl, h7⟩
      · exact ⟨q :: a', l, rfl, h6⟩

/-! Positions -/

theorem lowest_spec (st : List (Option St)) : ∀ (ids : List Nat) (start : Int),
    lowest st start ids ≤ start ∧ (∀ r ∈ ids, ∀ x, st[r]? = some (some x) → lowest st start ids ≤ x.pos) ∧
      (lowest st start ids = start ∨ ∃ r ∈ ids, ∃ x, st[r]? = some (some x) ∧ lowest st start ids = x.pos)
  | [], start => ⟨Int.le_refl _, fun _ h => absurd h (by simp), Or.inl rfl⟩
  | r :: ids, start => by
    show lowest st (match st[r]? with | some (some x) => if x.pos < start then x.pos else start | _ => start) ids ≤ start ∧ _
    have key : ∀ m : Int, m ≤ start → (∀ x, st[r]? = some (some x) → m ≤ x.pos) → (m = start ∨ ∃ x, st[r]? = some (some x) ∧ m = x.pos) →
        lowest st m ids ≤ start ∧ (∀ q ∈ r :: ids, ∀ x, st[q]? = some (some x) → lowest st m ids ≤ x.pos) ∧
        (lowest st m ids = start ∨ ∃ q ∈ r :: ids, ∃ x, st[q]? = some (some x) ∧ lowest st m ids = x.pos) := by
      intro m h1 h2 h3
      obtain ⟨i1, i2, i3⟩ := lowest_spec st ids m
      refine ⟨Int.le_trans i1 h1, ?_, ?_⟩
      · intro q hq x hx
        rcases List.mem_cons.1 hq with rfl | hq
        · exact Int.le_trans i1 (h2 x hx)
        · exact i2 q hq x hx
      · rcases i3 with i3 | ⟨q, hq, x, hx, hq'⟩
        · rw [i3]
          rcases h3 with h3 | ⟨x, hx, h3⟩
          · exact Or.inl h3
          · exact Or.inr ⟨r, List.mem_cons_self, x, hx, h3⟩
        · exact Or.inr ⟨q, List.mem_cons_of_mem _ hq, x, hx, hq'⟩
    have hfold : ∀ m : Int, (match st[r]? with | some (some x) => if x.pos < start then x.pos else start | _ => start) = m →
        lowest st start (r :: ids) = lowest st m ids := by
      intro m hm; subst hm; rfl
    cases hr : st[r]? with
    | none =>
      rw [hr] at hfold
      rw [hfold start rfl]
      exact key start (Int.le_refl _) (fun x hx => by rw [hr] at hx; cases hx) (Or.inl rfl)
    | some o =>
      cases o with
      | none =>
        rw [hr] at hfold
        rw [hfold start rfl]
        exact key start (Int.le_refl _) (fun x hx => by rw [hr] at hx; cases hx) (Or.inl rfl)
      | some x =>
        rw [hr] at hfold
        by_cases hlt : x.pos < start
        · have := hfold x.pos (by simp [hlt])
          rw [this]
          simp only [hlt, if_true]
          exact key x.pos (Int.le_of_lt hlt) (fun y hy => by rw [hr] at hy; cases hy; exact Int.le_refl _) (Or.inr ⟨x, hr, rfl⟩)
        · have := hfold start (by simp [hlt])
          rw [this]
          simp only [hlt, if_false]
          exact key start (Int.le_refl _) (fun y hy => by rw [hr] at hy; cases hy; omega) (Or.inl rfl)

theorem lower_spec (d : Int) : ∀ (ids : List Nat) (st : List (Option St)), ids.Nodup → (∀ r ∈ ids, ∃ x, st[r]? = some (some x)) →
    (lower d st ids).length = st.length ∧ (∀ r : Nat, r ∉ ids → (lower d st ids)[r]? = st[r]?) ∧
      ∀ r ∈ ids, ∀ x, st[r]? = some (some x) → (lower d st ids)[r]? = some (some { x with pos := x.pos - d })
  | [], st, _, _ => ⟨rfl, fun _ _ => rfl, fun r hr => absurd hr (by simp)⟩
  | q :: ids, st, hn, hl => by
    rw [List.nodup_cons] at hn
    obtain ⟨x, hx⟩ := hl q List.mem_cons_self
    have hq := (List.getElem?_eq_some_iff.1 hx).1
    have hstep : lower d st (q :: ids) = lower d (st.set q (some { x with pos := x.pos - d })) ids := by
      simp only [lower, List.foldl_cons, hx]
    have hne : ∀ r : Nat, r ≠ q → (st.set q (some { x with pos := x.pos - d }))[r]? = st[r]? :=
      fun r hr => List.getElem?_set_ne (Ne.symm hr)
    obtain ⟨i1, i2, i3⟩ := lower_spec d ids (st.set q (some { x with pos := x.pos - d })) hn.2 (by
      intro r hr
      rw [hne r (by rintro rfl; exact hn.1 hr)]
      exact hl r (List.mem_cons_of_mem _ hr))
    rw [hstep]
    refine ⟨by rw [i1, List.length_set], ?_, ?_⟩
    · intro r hr
      rw [List.mem_cons, not_or] at hr
      rw [i2 r hr.2, hne r hr.1]
    · intro r hr y hy
      by_cases hrq : r = q
      · subst hrq
        rw [hx] at hy
        cases hy
        rw [i2 r hn.1, List.getElem?_set_self hq]
      · exact i3 r ((List.mem_cons.1 hr).resolve_left hrq) y (by rw [hne r hrq]; exact hy)

theorem fill_spec (pos : Nat) : ∀ (input lookahead : List τ) (eof : Bool), (eof = true → input = []) →
    ∃ la inp e, fill pos lookahead eof input = ((lookahead ++ input)[pos]?, la, inp, e) ∧ la ++ inp = lookahead ++ input ∧
      la.length = max lookahead.length (min (pos + 1) (lookahead ++ input).length) ∧ (e = true → inp = [])
  | [], lookahead, eof, h => by
    unfold fill
    by_cases hp : pos < lookahead.length
    · rw [if_pos hp]
      exact ⟨_, _, _, by rw [List.append_nil], rfl, by simp; omega, h⟩
    · rw [if_neg hp]
      have : (lookahead ++ [])[pos]? = none := by rw [List.append_nil, List.getElem?_eq_none (by omega)]
      rw [this]
      cases eof with
      | true => exact ⟨_, _, _, rfl, rfl, by simp; omega, fun _ => rfl⟩
      | false => exact ⟨_, _, _, rfl, rfl, by simp; omega, fun _ => rfl⟩
  | t :: input, lookahead, eof, h => by
    unfold fill
    by_cases hp : pos < lookahead.length
    · rw [if_pos hp]
      refine ⟨_, _, _, ?_, rfl, by simp; omega, h⟩
      rw [List.getElem?_append_left hp]
    · rw [if_neg hp]
      cases eof with
      | true => exact absurd (h rfl) (by simp)
      | false =>
        obtain ⟨la, inp, e, h1, h2, h3, h4⟩ := fill_spec pos input (lookahead ++ [t]) false (by simp)
        refine ⟨la, inp, e, ?_, ?_, ?_, h4⟩
        · simp only [Bool.false_eq_true, if_false, h1]
          simp
        · rw [h2]; simp
        · rw [h3]
          simp only [List.length_append, List.length_cons, List.length_nil]
          omega

/-! The specification: every state has its own position in the whole token stream. -/

structure Spec (τ : Type) where
  /-- the positions of the states; `none` for destroyed ones -/
  pos : List (Option Nat)
  /-- how many tokens any state has looked at -/
  seen : Nat
  out : List (Option τ)
deriving DecidableEq

/-- One operation on the whole stream `ts`; a state may only move past a token that has been looked at. -/
def specStep (ts : List τ) (p : Spec τ) : Op → Option (Spec τ)
  | .look r k =>
    match p.pos[r]? with
    | some (some q) => some ⟨p.pos, max p.seen (min (q + k + 1) ts.length), p.out ++ [ts[q + k]?]⟩
    | _ => none
  | .next r =>
    match p.pos[r]? with
    | some (some q) => if q < p.seen then some { p with pos := p.pos.set r (some (q + 1)) } else none
    | _ => none
  | .copy r =>
    match p.pos[r]? with
    | some (some q) => some { p with pos := p.pos ++ [some q] }
    | _ => none
  | .destroy r =>
    match p.pos[r]? with
    | some (some _) => some { p with pos := p.pos.set r none }
    | _ => none

def specRun (ts : List τ) (ops : List Op) : Option (Spec τ) := ops.foldlM (specStep ts) ⟨[some 0], 0, []⟩

/-- The session agrees with the positions. -/
structure Inv (ts : List τ) (s : Sess τ) (pos : List (Option Nat)) (seen : Nat) (order : List Nat) (base : Nat) : Prop where
  seg : Seg s.states none order s.first
  nodup : order.Nodup
  mem : ∀ r, r ∈ order ↔ ∃ p, pos[r]? = some (some p)
  len : s.states.length = pos.length
  at_ : ∀ (r p : Nat), pos[r]? = some (some p) → ∃ x, s.states[r]? = some (some x) ∧ x.pos + base = p ∧ 0 ≤ x.pos ∧ x.pos ≤ s.lookahead.length
  tokens : s.lookahead ++ s.input = ts.drop base
  base_le : base ≤ ts.length
  eof : s.eof = true → s.input = []
  seen_eq : seen = base + s.lookahead.length
  freed : s.freed = order.isEmpty

theorem Inv.live {ts : List τ} {s : Sess τ} {pos : List (Option Nat)} {seen : Nat} {order : List Nat} {base : Nat}
    (h : Inv ts s pos seen order base) {r p : Nat} (hp : pos[r]? = some (some p)) : s.freed = false := by
  have := (h.mem r).2 ⟨p, hp⟩
  rw [h.freed]
  cases order with
  | nil => cases this
  | cons _ _ => rfl

theorem look_spec {ts : List τ} {s : Sess τ} {pos : List (Option Nat)} {seen : Nat} {order : List Nat} {base : Nat}
    (h : Inv ts s pos seen order base) {r p : Nat} (hp : pos[r]? = some (some p)) (k : Nat) :
    ∃ s', look s r k = .ok (ts[p + k]?, s') ∧ Inv ts s' pos (max seen (min (p + k + 1) ts.length)) order base := by
  obtain ⟨x, x1, x2, x3, x4⟩ := h.at_ r p hp
  obtain ⟨la, inp, e, f1, f2, f3, f4⟩ := fill_spec (x.pos + k).toNat s.input s.lookahead s.eof h.eof
  have hlen : (s.lookahead ++ s.input).length = ts.length - base := by rw [h.tokens, List.length_drop]
  have hb := h.base_le
  refine ⟨{ s with lookahead := la, input := inp, eof := e }, ?_, ?_⟩
  · have hge : ¬ x.pos + (k : Int) < 0 := by omega
    simp only [look, Session.live, x1, bind, Except.bind, h.live hp, Bool.false_eq_true, if_false, pure, Except.pure, hge, f1]
    rw [h.tokens, List.getElem?_drop, show base + (x.pos + k).toNat = p + k by omega]
  · refine ⟨h.seg, h.nodup, h.mem, h.len, ?_, f2.trans h.tokens, h.base_le, f4, ?_, h.freed⟩
    · intro r' p' hp'
      obtain ⟨y, y1, y2, y3, y4⟩ := h.at_ r' p' hp'
      refine ⟨y, y1, y2, y3, ?_⟩
      show y.pos ≤ (la.length : Int)
      omega
    · show _ = base + la.length
      have hk : (x.pos + k).toNat + base = p + k := by omega
      rw [f3, h.seen_eq, hlen]
      omega

theorem Inv.setPos {ts : List τ} {s : Sess τ} {pos : List (Option Nat)} {seen : Nat} {order : List Nat} {base : Nat}
    (h : Inv ts s pos seen order base) {r p q : Nat} {x : St} (hp : pos[r]? = some (some p)) (hx : s.states[r]? = some (some x))
    (v : Int) (h1 : v + base = q) (h2 : 0 ≤ v) (h3 : v ≤ s.lookahead.length) :
    Inv ts { s with states := s.states.set r (some { x with pos := v }) } (pos.set r (some q)) seen order base := by
  have hr := (List.getElem?_eq_some_iff.1 hx).1
  have hr' := (List.getElem?_eq_some_iff.1 hp).1
  refine ⟨?_, h.nodup, ?_, ?_, ?_, h.tokens, h.base_le, h.eof, h.seen_eq, h.freed⟩
  · refine h.seg.congr ?_
    intro n _ y hy
    by_cases hn : r = n
    · subst hn
      rw [hx] at hy
      cases hy
      exact ⟨_, List.getElem?_set_self hr, rfl, rfl⟩
    · exact ⟨y, by rw [List.getElem?_set_ne hn]; exact hy, rfl, rfl⟩
  · intro n
    rw [h.mem]
    by_cases hn : r = n
    · subst hn
      rw [List.getElem?_set_self hr']
      exact ⟨fun _ => ⟨q, rfl⟩, fun _ => ⟨p, hp⟩⟩
    · rw [List.getElem?_set_ne hn]
  · show (s.states.set r _).length = (pos.set r _).length
    rw [List.length_set, List.length_set]
    exact h.len
  · intro n p' hp'
    by_cases hn : r = n
    · subst hn
      rw [List.getElem?_set_self hr'] at hp'
      cases hp'
      exact ⟨_, List.getElem?_set_self hr, h1, h2, h3⟩
    · rw [List.getElem?_set_ne hn] at hp'
      obtain ⟨y, y1, y2⟩ := h.at_ n p' hp'
      exact ⟨y, by rw [List.getElem?_set_ne hn]; exact y1, y2⟩

theorem trim_spec {ts : List τ} {s : Sess τ} {pos : List (Option Nat)} {seen : Nat} {order : List Nat} {base : Nat}
    (h : Inv ts s pos seen order base) {r p : Nat} (hp : pos[r]? = some (some p)) {x : St} (hx : s.states[r]? = some (some x)) :
    ∃ s' base', trim s x.pos = .ok s' ∧ Inv ts s' pos seen order base' ∧
      ∃ q ∈ order, ∃ y, s'.states[q]? = some (some y) ∧ y.pos = 0 := by
  have hm := members_spec h.seg (s.states.length + 1) (by have := h.seg.length_le h.nodup; omega)
  obtain ⟨l1, l2, l3⟩ := lowest_spec s.states order x.pos
  have hlow : 0 ≤ lowest s.states x.pos order ∧ lowest s.states x.pos order ≤ s.lookahead.length := by
    rcases l3 with l3 | ⟨q, hq, y, hy, l3⟩
    · obtain ⟨y, y1, y2, y3, y4⟩ := h.at_ r p hp
      rw [hx] at y1
      cases y1
      omega
    · obtain ⟨p', hp'⟩ := (h.mem q).1 hq
      obtain ⟨z, z1, z2, z3, z4⟩ := h.at_ q p' hp'
      rw [hy] at z1
      cases z1
      omega
  have hmin : ∃ q ∈ order, ∃ y, s.states[q]? = some (some y) ∧ lowest s.states x.pos order = y.pos := by
    rcases l3 with l3 | l3
    · exact ⟨r, (h.mem r).2 ⟨p, hp⟩, x, hx, l3⟩
    · exact l3
  generalize hd : lowest s.states x.pos order = d at *
  obtain ⟨q, hq, yq, hyq, hdq⟩ := hmin
  by_cases h0 : d = 0
  · refine ⟨s, base, ?_, h, q, hq, yq, hyq, by omega⟩
    simp only [trim, hm, bind, Except.bind, hd, h0, if_true, pure, Except.pure]
  · have hbad : ¬ (d < 0 ∨ s.lookahead.length < d.toNat) := by omega
    obtain ⟨w1, w2, w3⟩ := lower_spec d order s.states h.nodup h.seg.mem_live
    have htok := h.tokens
    refine ⟨{ s with lookahead := s.lookahead.drop d.toNat, states := lower d s.states order }, base + d.toNat, ?_, ?_, q, hq, _, w3 q hq yq hyq, by dsimp only; omega⟩
    · simp only [trim, hm, bind, Except.bind, hd, h0, if_false, hbad, pure, Except.pure]
    · have hlen : (s.lookahead ++ s.input).length = ts.length - base := by rw [h.tokens, List.length_drop]
      rw [List.length_append] at hlen
      have hb := h.base_le
      refine ⟨?_, h.nodup, h.mem, w1.trans h.len, ?_, ?_, by omega, h.eof, ?_, h.freed⟩
      · refine h.seg.congr ?_
        intro n hn y hy
        exact ⟨_, w3 n hn y hy, rfl, rfl⟩
      · intro n p' hp'
        obtain ⟨y, y1, y2, y3, y4⟩ := h.at_ n p' hp'
        have hn := (h.mem n).2 ⟨p', hp'⟩
        refine ⟨_, w3 n hn y y1, ?_, ?_, ?_⟩
        · dsimp only; push_cast; omega
        · dsimp only
          have := l2 n hn y y1
          omega
        · dsimp only
          rw [List.length_drop]
          omega
      · dsimp only
        rw [← List.drop_drop, ← htok, List.drop_append_of_le_length (by omega)]
      · dsimp only
        rw [h.seen_eq, List.length_drop]
        omega

theorem next_spec {ts : List τ} {s : Sess τ} {pos : List (Option Nat)} {seen : Nat} {order : List Nat} {base : Nat}
    (h : Inv ts s pos seen order base) {r p : Nat} (hp : pos[r]? = some (some p)) (hs : p < seen) :
    ∃ s' base', next s r = .ok s' ∧ Inv ts s' (pos.set r (some (p + 1))) seen order base' ∧
      ∃ q ∈ order, ∃ y, s'.states[q]? = some (some y) ∧ y.pos = 0 := by
  obtain ⟨x, x1, x2, x3, x4⟩ := h.at_ r p hp
  have hr := (List.getElem?_eq_some_iff.1 x1).1
  have hr' := (List.getElem?_eq_some_iff.1 hp).1
  have h' := h.setPos hp x1 (q := p + 1) (x.pos + 1) (by push_cast; omega) (by omega) (by have := h.seen_eq; omega)
  obtain ⟨s', base', t1, t2⟩ := trim_spec h' (r := r) (p := p + 1) (List.getElem?_set_self hr') (List.getElem?_set_self hr)
  refine ⟨s', base', ?_, t2⟩
  have hfr := h.live hp
  unfold next
  simp only [Session.live, x1, bind, Except.bind]
  rw [if_neg (by rw [hfr]; simp)]
  exact t1

theorem copy_spec {ts : List τ} {s : Sess τ} {pos : List (Option Nat)} {seen : Nat} {order : List Nat} {base : Nat}
    (h : Inv ts s pos seen order base) {r p : Nat} (hp : pos[r]? = some (some p)) :
    ∃ s' order', copy s r = .ok s' ∧ Inv ts s' (pos ++ [some p]) seen order' base := by
  obtain ⟨x, x1, x2, x3, x4⟩ := h.at_ r p hp
  obtain ⟨f, hf⟩ : ∃ f, s.first = some f := by
    have hmem := (h.mem r).2 ⟨p, hp⟩
    rw [h.seg.first]
    cases order with
    | nil => cases hmem
    | cons f _ => exact ⟨f, rfl⟩
  obtain ⟨y, hy⟩ : ∃ y, s.states[f]? = some (some y) := by
    have hseg := h.seg
    rw [hf] at hseg
    cases hseg with
    | cons h1 _ _ => exact ⟨_, h1⟩
  have hfl := (List.getElem?_eq_some_iff.1 hy).1
  have hnew : s.states.length ∉ order := by
    intro hc
    obtain ⟨z, hz⟩ := h.seg.mem_live _ hc
    have := (List.getElem?_eq_some_iff.1 hz).1
    omega
  have hold : ∀ n : Nat, n < s.states.length → (s.states.set f (some { y with last := some s.states.length }) ++ [some ⟨x.pos, some f, none⟩])[n]? =
      (s.states.set f (some { y with last := some s.states.length }))[n]? :=
    fun n hn => List.getElem?_append_left (by rw [List.length_set]; exact hn)
  have hlast : (s.states.set f (some { y with last := some s.states.length }) ++ [some ⟨x.pos, some f, none⟩])[s.states.length]? =
      some (some ⟨x.pos, some f, none⟩) := by
    rw [List.getElem?_append_right (by rw [List.length_set]; exact Nat.le_refl _)]
    simp
  refine ⟨{ s with states := s.states.set f (some { y with last := some s.states.length }) ++ [some ⟨x.pos, some f, none⟩], first := some s.states.length },
    s.states.length :: order, ?_, ⟨?_, ?_, ?_, ?_, ?_, h.tokens, h.base_le, h.eof, h.seen_eq, h.live hp⟩⟩
  · simp only [copy, link, Session.live, x1, bind, Except.bind, h.live hp, Bool.false_eq_true, if_false, pure, Except.pure, hf, hy]
  · refine .cons hlast rfl ?_
    have hseg := h.seg
    rw [hf] at hseg
    refine (hseg.relast h.nodup hy (some s.states.length)).congr ?_
    intro n hn z hz
    obtain ⟨w, hw⟩ := h.seg.mem_live n hn
    refine ⟨z, ?_, rfl, rfl⟩
    rw [hold n (List.getElem?_eq_some_iff.1 hw).1]
    exact hz
  · exact List.nodup_cons.2 ⟨hnew, h.nodup⟩
  · intro n
    rw [List.mem_cons, h.mem, h.len]
    by_cases hn : n < pos.length
    · rw [List.getElem?_append_left hn]
      constructor
      · rintro (rfl | h1)
        · omega
        · exact h1
      · exact Or.inr
    · rw [List.getElem?_append_right (by omega), List.getElem?_eq_none (by omega : pos.length ≤ n)]
      by_cases hn' : n = pos.length
      · subst hn'
        simp
      · rw [List.getElem?_eq_none (by simp; omega)]
        simp [hn']
  · simp [h.len]
  · intro n p' hp'
    by_cases hn : n < pos.length
    · rw [List.getElem?_append_left hn] at hp'
      obtain ⟨z, z1, z2⟩ := h.at_ n p' hp'
      have hn' : n < s.states.length := by rw [h.len]; exact hn
      by_cases hnf : f = n
      · subst hnf
        rw [hy] at z1
        cases z1
        refine ⟨{ y with last := some s.states.length }, ?_, z2⟩
        rw [hold f hn', List.getElem?_set_self hfl]
      · refine ⟨z, ?_, z2⟩
        rw [hold n hn', List.getElem?_set_ne hnf]
        exact z1
    · have hl := (List.getElem?_eq_some_iff.1 hp').1
      rw [List.length_append, List.length_singleton] at hl
      have : n = pos.length := by omega
      subst this
      rw [List.getElem?_append_right (Nat.le_refl _)] at hp'
      simp at hp'
      subst hp'
      rw [← h.len]
      exact ⟨_, hlast, x2, x3, x4⟩

theorem destroy_spec {ts : List τ} {s : Sess τ} {pos : List (Option Nat)} {seen : Nat} {order : List Nat} {base : Nat}
    (h : Inv ts s pos seen order base) {r p : Nat} (hp : pos[r]? = some (some p)) :
    ∃ s' order', destroy s r = .ok s' ∧ Inv ts s' (pos.set r none) seen order' base := by
  obtain ⟨x, x1, x2, x3, x4⟩ := h.at_ r p hp
  have hr := (List.getElem?_eq_some_iff.1 x1).1
  have hr' := (List.getElem?_eq_some_iff.1 hp).1
  obtain ⟨a, b, hab⟩ := List.append_of_mem ((h.mem r).2 ⟨p, hp⟩)
  have hnd := h.nodup
  have hseg := h.seg
  rw [hab] at hnd hseg
  obtain ⟨hb, hcase⟩ := Seg.at x1 a none s.first hseg
  have hrb : r ∉ b := fun hc => by
    rw [List.nodup_append] at hnd
    exact (List.nodup_cons.1 hnd.2.1).1 hc
  have hra : r ∉ a := fun hc => by
    rw [List.nodup_append] at hnd
    exact hnd.2.2 r hc r List.mem_cons_self rfl
  have hndb : b.Nodup := by
    rw [List.nodup_append] at hnd
    exact (List.nodup_cons.1 hnd.2.1).2
  -- it is enough to know the new list, and that only pointers changed
  have fin : ∀ (st' : List (Option St)) (first' : Option Nat), Seg st' none (a ++ b) first' → st'.length = s.states.length →
      (∀ (n : Nat) (y : St), n ≠ r → s.states[n]? = some (some y) → ∃ y', st'[n]? = some (some y') ∧ y'.pos = y.pos) →
      Inv ts { s with states := st'.set r none, first := first', freed := first'.isNone } (pos.set r none) seen (a ++ b) base := by
    intro st' first' g1 g2 g3
    refine ⟨?_, ?_, ?_, ?_, ?_, h.tokens, h.base_le, h.eof, h.seen_eq, ?_⟩
    · refine g1.congr ?_
      intro n hn y hy
      refine ⟨y, ?_, rfl, rfl⟩
      rw [List.getElem?_set_ne]
      · exact hy
      · rintro rfl
        rcases List.mem_append.1 hn with hn | hn
        · exact hra hn
        · exact hrb hn
    · rw [List.nodup_append] at hnd ⊢
      exact ⟨hnd.1, hndb, fun u hu v hv => hnd.2.2 u hu v (List.mem_cons_of_mem _ hv)⟩
    · intro n
      by_cases hn : r = n
      · subst hn
        rw [List.getElem?_set_self hr']
        simp [hra, hrb]
      · rw [List.getElem?_set_ne hn, ← h.mem, hab]
        simp [Ne.symm hn]
    · show (st'.set r none).length = (pos.set r none).length
      rw [List.length_set, List.length_set, g2, h.len]
    · intro n p' hp'
      have hn : r ≠ n := by
        rintro rfl
        rw [List.getElem?_set_self hr'] at hp'
        cases hp'
      rw [List.getElem?_set_ne hn] at hp'
      obtain ⟨y, y1, y2, y3, y4⟩ := h.at_ n p' hp'
      obtain ⟨y', z1, z2⟩ := g3 n y (Ne.symm hn) y1
      refine ⟨y', ?_, by rw [z2]; exact y2, by rw [z2]; exact y3, by rw [z2]; exact y4⟩
      show (st'.set r none)[n]? = _
      rw [List.getElem?_set_ne hn]
      exact z1
    · show first'.isNone = (a ++ b).isEmpty
      generalize a ++ b = o at g1
      cases g1 <;> rfl
  rcases hcase with ⟨rfl, hf, hlast⟩ | ⟨a', l, rfl, hlast⟩
  · -- the first of the list
    cases hnx : x.next with
    | none =>
      rw [hnx] at hb
      refine ⟨_, [] ++ b, ?_, fin s.states none ?_ rfl (fun n y _ hy => ⟨y, hy, rfl⟩)⟩
      · simp only [destroy, Session.live, x1, bind, Except.bind, h.live hp, Bool.false_eq_true, if_false, pure, Except.pure, hlast, hnx]
      · cases hb
        exact .nil
    | some n =>
      rw [hnx] at hb
      obtain ⟨y, hy⟩ : ∃ y, s.states[n]? = some (some y) := by
        cases hb with
        | cons h1 _ _ => exact ⟨_, h1⟩
      refine ⟨_, [] ++ b, ?_, fin (s.states.set n (some { y with last := none })) (some n) (hb.relast hndb hy none) (List.length_set) ?_⟩
      · simp only [destroy, Session.live, x1, bind, Except.bind, h.live hp, Bool.false_eq_true, if_false, pure, Except.pure, hlast, hnx, hy]
      · intro m z _ hz
        by_cases hm : n = m
        · subst hm
          rw [hy] at hz
          cases hz
          exact ⟨_, List.getElem?_set_self (List.getElem?_eq_some_iff.1 hy).1, rfl⟩
        · exact ⟨z, by rw [List.getElem?_set_ne hm]; exact hz, rfl⟩
  · -- there is one before it
    obtain ⟨y, hy⟩ : ∃ y, s.states[l]? = some (some y) := hseg.mem_live l (by simp)
    have hll := (List.getElem?_eq_some_iff.1 hy).1
    rw [List.append_assoc, List.singleton_append] at hseg hnd
    have hla : l ∉ a' := fun hc => by
      rw [List.nodup_append] at hnd
      exact hnd.2.2 l hc l List.mem_cons_self rfl
    have hlb : l ∉ b := fun hc => by
      rw [List.nodup_append] at hnd
      exact (List.nodup_cons.1 hnd.2.1).1 (List.mem_cons_of_mem _ hc)
    have hfirst : ∃ f, s.first = some f := by
      rw [hseg.first]
      cases a' with
      | nil => exact ⟨_, rfl⟩
      | cons _ _ => exact ⟨_, rfl⟩
    obtain ⟨f, hf⟩ := hfirst
    have hsf : s.first.isNone = false := by rw [hf]; rfl
    have hst1 : ∀ n : Nat, n ≠ l → (s.states.set l (some { y with next := x.next }))[n]? = s.states[n]? :=
      fun n hn => List.getElem?_set_ne (Ne.symm hn)
    have hb1 : Seg (s.states.set l (some { y with next := x.next })) (some r) b x.next := by
      refine hb.congr ?_
      intro n hn z hz
      exact ⟨z, by rw [hst1 n (by rintro rfl; exact hlb hn)]; exact hz, rfl, rfl⟩
    cases hnx : x.next with
    | none =>
      rw [hnx] at hb hb1
      have hbnil : b = [] := by cases hb; rfl
      refine ⟨_, a' ++ [l] ++ b, ?_, fin (s.states.set l (some { y with next := none })) s.first ?_ (List.length_set) ?_⟩
      · simp only [destroy, Session.live, x1, bind, Except.bind, h.live hp, Bool.false_eq_true, if_false, pure, Except.pure, hlast, hnx, hy]
      · rw [List.append_assoc, List.singleton_append]
        refine Seg.splice (x := x) (y' := { y with next := none }) hy (List.getElem?_set_self hll) rfl ?_ ?_ a' none s.first hseg ?_
        · exact hnx.symm
        · rw [hnx, hbnil]; exact .nil
        · intro q hq z hz
          exact ⟨z, by rw [List.getElem?_set_ne (by rintro rfl; exact hla hq)]; exact hz, rfl, rfl⟩
      · intro m z _ hz
        by_cases hm : l = m
        · subst hm
          rw [hy] at hz
          cases hz
          exact ⟨_, List.getElem?_set_self hll, rfl⟩
        · exact ⟨z, by rw [List.getElem?_set_ne hm]; exact hz, rfl⟩
    | some n =>
      rw [hnx] at hb hb1
      have hnb : n ∈ b := by cases hb; exact List.mem_cons_self
      have hnl : n ≠ l := by rintro rfl; exact hlb hnb
      obtain ⟨z, hz⟩ := hb.mem_live n hnb
      have hz1 : (s.states.set l (some { y with next := some n }))[n]? = some (some z) := by
        rw [List.getElem?_set_ne (Ne.symm hnl)]; exact hz
      have hnn := (List.getElem?_eq_some_iff.1 hz1).1
      refine ⟨_, a' ++ [l] ++ b, ?_, fin ((s.states.set l (some { y with next := some n })).set n (some { z with last := some l })) s.first ?_ (by simp) ?_⟩
      · simp only [destroy, Session.live, x1, bind, Except.bind, h.live hp, Bool.false_eq_true, if_false, pure, Except.pure, hlast, hnx, hy, hz1]
      · rw [List.append_assoc, List.singleton_append]
        refine Seg.splice (x := x) (y' := { y with next := some n }) hy ?_ rfl ?_ ?_ a' none s.first hseg ?_
        · rw [List.getElem?_set_ne hnl, List.getElem?_set_self hll]
        · exact hnx.symm
        · rw [hnx]
          exact hb1.relast hndb hz1 (some l)
        · intro q hq w hw
          refine ⟨w, ?_, rfl, rfl⟩
          have hqn : n ≠ q := by
            rintro rfl
            rw [List.nodup_append] at hnd
            exact hnd.2.2 n hq n (List.mem_cons_of_mem _ (List.mem_cons_of_mem _ hnb)) rfl
          rw [List.getElem?_set_ne hqn, List.getElem?_set_ne (by rintro rfl; exact hla hq)]
          exact hw
      · intro m w _ hw
        by_cases hmn : n = m
        · subst hmn
          rw [hz] at hw
          cases hw
          exact ⟨_, List.getElem?_set_self hnn, rfl⟩
        · rw [List.getElem?_set_ne hmn]
          by_cases hm : l = m
          · subst hm
            rw [hy] at hw
            cases hw
            exact ⟨_, List.getElem?_set_self hll, rfl⟩
          · exact ⟨w, by rw [List.getElem?_set_ne hm]; exact hw, rfl⟩

theorem step_spec {ts : List τ} {s : Sess τ} {p : Spec τ} {order : List Nat} {base : Nat} (h : Inv ts s p.pos p.seen order base) (op : Op)
    (q : Spec τ) (hq : specStep ts p op = some q) :
    ∃ s' order' base', step (s, p.out) op = .ok (s', q.out) ∧ Inv ts s' q.pos q.seen order' base' := by
  cases op with
  | look r k =>
    simp only [specStep] at hq
    split at hq
    · rename_i n hn
      cases hq
      obtain ⟨s', h1, h2⟩ := look_spec h hn k
      exact ⟨s', order, base, by simp only [step, h1, Except.map], h2⟩
    · cases hq
  | next r =>
    simp only [specStep] at hq
    split at hq
    · rename_i n hn
      split at hq
      · rename_i hlt
        cases hq
        obtain ⟨s', b, h1, h2, -⟩ := next_spec h hn hlt
        exact ⟨s', order, b, by simp only [step, h1, Except.map], h2⟩
      · cases hq
    · cases hq
  | copy r =>
    simp only [specStep] at hq
    split at hq
    · rename_i n hn
      cases hq
      obtain ⟨s', o, h1, h2⟩ := copy_spec h hn
      exact ⟨s', o, base, by simp only [step, h1, Except.map], h2⟩
    · cases hq
  | destroy r =>
    simp only [specStep] at hq
    split at hq
    · rename_i n hn
      cases hq
      obtain ⟨s', o, h1, h2⟩ := destroy_spec h hn
      exact ⟨s', o, base, by simp only [step, h1, Except.map], h2⟩
    · cases hq

theorem fold_spec (ts : List τ) : ∀ (ops : List Op) (s : Sess τ) (p q : Spec τ) (order : List Nat) (base : Nat),
    Inv ts s p.pos p.seen order base → ops.foldlM (specStep ts) p = some q →
    ∃ s' order' base', ops.foldlM step (s, p.out) = .ok (s', q.out) ∧ Inv ts s' q.pos q.seen order' base'
  | [], s, p, q, order, base, h, hq => by
    cases hq
    exact ⟨s, order, base, rfl, h⟩
  | op :: ops, s, p, q, order, base, h, hq => by
    rw [List.foldlM_cons] at hq ⊢
    cases hs : specStep ts p op with
    | none => rw [hs] at hq; cases hq
    | some p' =>
      rw [hs] at hq
      obtain ⟨s', o, b, h1, h2⟩ := step_spec h op p' hs
      rw [h1]
      exact fold_spec ts ops s' p' q o b h2 hq

theorem run_spec (ts : List τ) (ops : List Op) (p : Spec τ) (hp : specRun ts ops = some p) :
    ∃ s order base, run ts ops = .ok (s, p.out) ∧ Inv ts s p.pos p.seen order base := by
  have h0 : Inv ts (⟨[], false, some 0, ts, [some ⟨0, none, none⟩], false⟩ : Sess τ) [some 0] 0 [0] 0 := by
    refine ⟨.cons rfl rfl .nil, by simp, ?_, rfl, ?_, rfl, Nat.zero_le _, by simp, rfl, rfl⟩
    · intro r
      cases r <;> simp
    · intro r p hp
      cases r with
      | zero =>
        simp at hp
        subst hp
        exact ⟨_, rfl, by simp, by simp, by simp⟩
      | succ r => simp at hp
  exact fold_spec ts ops _ ⟨[some 0], 0, []⟩ p [0] 0 h0 hp

/-- C41. Whatever the states of a session do, every `look` of a state returns the token of the stream at the position that this
state's own calls of `next` have reached (`none` past the end), and nothing undefined happens. -/
theorem sessions_independent (ts : List τ) (ops : List Op) (p : Spec τ) (hp : specRun ts ops = some p) :
    ∃ s, run ts ops = .ok (s, p.out) := by
  obtain ⟨s, _, _, h1, _⟩ := run_spec ts ops p hp
  exact ⟨s, h1⟩

/-- C41. The session is deleted exactly when no state is left, in whatever order they are destroyed. -/
theorem session_freed (ts : List τ) (ops : List Op) (p : Spec τ) (hp : specRun ts ops = some p) :
    ∃ s, run ts ops = .ok (s, p.out) ∧ (s.freed = true ↔ ∀ r q : Nat, p.pos[r]? ≠ some (some q)) := by
  obtain ⟨s, order, base, h1, h2⟩ := run_spec ts ops p hp
  refine ⟨s, h1, ?_⟩
  rw [h2.freed, List.isEmpty_iff]
  constructor
  · intro ho r q hq
    have := (h2.mem r).2 ⟨q, hq⟩
    rw [ho] at this
    cases this
  · intro hno
    cases order with
    | nil => rfl
    | cons r _ =>
      obtain ⟨q, hq⟩ := (h2.mem r).1 List.mem_cons_self
      exact absurd hq (hno r q)

/-- C41. After a `next` the buffer holds no token that every state has passed: it starts at the position of some state. -/
theorem next_trims (ts : List τ) (ops : List Op) (r : Nat) (p : Spec τ) (hp : specRun ts (ops ++ [.next r]) = some p) :
    ∃ s, run ts (ops ++ [.next r]) = .ok (s, p.out) ∧ ∃ q v : Nat, p.pos[q]? = some (some v) ∧ v + s.lookahead.length = p.seen := by
  unfold specRun at hp
  rw [List.foldlM_append] at hp
  cases h0 : ops.foldlM (specStep ts) ⟨[some 0], 0, []⟩ with
  | none => rw [h0] at hp; cases hp
  | some p0 =>
    rw [h0] at hp
    obtain ⟨s0, order, base, h1, h2⟩ := run_spec ts ops p0 h0
    have hp' : specStep ts p0 (.next r) = some p := by
      simpa using hp
    simp only [specStep] at hp'
    split at hp'
    · rename_i n hn
      split at hp'
      · rename_i hlt
        cases hp'
        obtain ⟨s', b, g1, g2, g3⟩ := next_spec h2 hn hlt
        refine ⟨s', ?_, ?_⟩
        · have : run ts (ops ++ [.next r]) = (run ts ops).bind (fun q => step q (.next r)) := by
            simp only [run, bind, Except.bind]
            split
            · rfl
            · rw [List.foldlM_append]
              simp only [bind, Except.bind, List.foldlM_cons, List.foldlM_nil, pure, Except.pure]
              split
              · rfl
              · split <;> simp_all
          rw [this, h1]
          simp only [Except.bind, step, g1, Except.map]
        · obtain ⟨q, hq, x, hx, hx0⟩ := g3
          obtain ⟨v, hv⟩ := (g2.mem q).1 hq
          obtain ⟨y, y1, y2, -, -⟩ := g2.at_ q v hv
          rw [hx] at y1
          cases y1
          refine ⟨q, v, hv, ?_⟩
          have := g2.seen_eq
          dsimp only at this ⊢
          omega
      · cases hp'
    · cases hp'

/-- Three states over `[5, 6, 7]`: the third lags behind, then the first is destroyed. -/
def example1 : List Op :=
  [.look 0 0, .next 0, .copy 0, .look 0 1, .next 0, .look 1 0, .copy 1, .next 0, .look 0 0, .destroy 0, .next 1, .look 1 0, .look 2 0, .look 2 5]

example : (specRun [5, 6, 7] example1).map (·.out) = some [some 5, some 7, some 6, none, some 7, some 6, none] := by decide
example : (run [5, 6, 7] example1).map (·.2) = .ok [some 5, some 7, some 6, none, some 7, some 6, none] := by decide
example : (run [5, 6, 7] example1).map (·.1.lookahead) = .ok [6, 7] := by decide
example : (run [5, 6, 7] (example1 ++ [.destroy 2, .destroy 1])).map (·.1.freed) = .ok true := by decide

/-- A `next` at the end of the input, which the comment of `next` forbids, erases past the end of the buffer. -/
example : run ([] : List Nat) [.look 0 0, .next 0] = .error .undefined := by decide

end Session
end TameParse

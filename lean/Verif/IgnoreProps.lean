import Verif.FuelProps
import Verif.RewritersProps

/-!
# C38: ignored tokens have no effect
-/

namespace TameParse
namespace Parser

open ParserTables

/-! Related outcomes -/

/-- The first ran out of fuel, or both stop in the same way, or both have results that are related. -/
def Rel {α β : Type} (R : α → β → Prop) (x : M α) (y : M β) : Prop :=
  x = .error .fuel ∨ (∃ e, x = .error e ∧ y = .error e) ∨ ∃ a b, x = .ok a ∧ y = .ok b ∧ R a b

section
variable {α β γ δ : Type} {R : α → β → Prop} {S : γ → δ → Prop}

theorem Rel.fuel {y : M β} : Rel R (.error .fuel) y := Or.inl rfl

theorem Rel.error {e : Stop} : Rel R (.error e) (.error e) := Or.inr (Or.inl ⟨e, rfl, rfl⟩)

theorem Rel.ok {a : α} {b : β} (h : R a b) : Rel R (.ok a) (.ok b) := Or.inr (Or.inr ⟨a, b, rfl, rfl, h⟩)

theorem Rel.bind {x : M α} {y : M β} {f : α → M γ} {g : β → M δ} (h : Rel R x y) (hf : ∀ a b, R a b → Rel S (f a) (g b)) :
    Rel S (x >>= f) (y >>= g) := by
  rcases h with h | ⟨e, h1, h2⟩ | ⟨a, b, h1, h2, hab⟩
  · rw [h]; exact Or.inl rfl
  · rw [h1, h2]; exact Or.inr (Or.inl ⟨e, rfl, rfl⟩)
  · rw [h1, h2]; exact hf a b hab

theorem Rel.of_le {x y : M α} (h : Le x y) : Rel (fun a b => a = b) x y := by
  rcases h with h | h
  · exact Or.inl h
  · subst h
    cases x with
    | error e => exact .error
    | ok a => exact .ok rfl

theorem Rel.refl (x : M α) : Rel (fun a b => a = b) x x := .of_le (Le.refl x)

theorem Rel.bind_le {x y : M α} {f : α → M γ} {g : α → M δ} (h : Le x y) (hf : ∀ a, Rel S (f a) (g a)) : Rel S (x >>= f) (y >>= g) :=
  (Rel.of_le h).bind (fun a b hab => by subst hab; exact hf a)

theorem Rel.ite {p : Prop} [Decidable p] {x y : M α} {x' y' : M β} (h1 : Rel R x x') (h2 : Rel R y y') :
    Rel R (if p then x else y) (if p then x' else y') := by
  by_cases h : p
  · rw [if_pos h, if_pos h]; exact h1
  · rw [if_neg h, if_neg h]; exact h2

theorem Rel.trans_le {x : M α} {y z : M β} (h : Rel R x y) (h' : Le y z) : Rel R x z := by
  rcases h with h | ⟨e, h1, h2⟩ | ⟨a, b, h1, h2, hab⟩
  · exact Or.inl h
  · rcases h' with h' | h'
    · rw [h2] at h'
      cases h'
      exact Or.inl h1
    · rw [← h', h1, h2]; exact .error
  · rcases h' with h' | h'
    · rw [h2] at h'; cases h'
    · rw [← h', h1, h2]; exact .ok hab

end

/-! The tables -/

/-- In every state that the tables have, the only action for an ignored token is to ignore it. What is done at the end of a guard is to
reduce or to accept. -/
structure Ignores (t : Tables) (ig : Int → Bool) : Prop where
  only : ∀ st, (∀ term sym, entriesFor t term st sym = .error .ub) ∨ ∀ k, ig k = true → ∃ n, entriesFor t true st k = .ok [⟨.ignore, n, k⟩]
  eog : ∀ st acts, entriesFor t false st t.endOfGuard = .ok acts → ∀ a ∈ acts, a.type = .reduce ∨ a.type = .accept

/-- The tokens that are not ignored. -/
def keep (ig : Int → Bool) (l : List Tok) : List Tok := l.filter (fun k => !ig k.sym)

theorem keep_cons (ig : Int → Bool) (k : Tok) (l : List Tok) (h : ig k.sym = false) : keep ig (k :: l) = k :: keep ig l := by
  unfold keep
  rw [List.filter_cons, if_pos (by rw [h]; rfl)]

theorem keep_skip (ig : Int → Bool) (k : Tok) (l : List Tok) (h : ig k.sym = true) : keep ig (k :: l) = keep ig l := by
  unfold keep
  rw [List.filter_cons, if_neg (by rw [h]; simp)]

/-! Guards -/

/-- Results of trying actions on two streams: the same, and either both took a token or none did. -/
def TriedRel (o o' : Nat) : Tried → Tried → Prop
  | .accepted g, .accepted g' => g = g'
  | .performed s p, .performed s' p' => s = s' ∧ ((p = o ∧ p' = o') ∨ (p = o + 1 ∧ p' = o' + 1))
  | .failed, .failed => True
  | _, _ => False

theorem tryActions_rel (t : Tables) (under : List Nat) (la : Option Tok) (nested nested' : Nat → Nat → M Int) (stack : List Nat) (o o' : Nat)
    (hn : ∀ s, Le (nested s o) (nested' s o')) {f f' : Nat} (h : f ≤ f') :
    ∀ l, Rel (TriedRel o o') (tryActions t f under la nested stack o l) (tryActions t f' under la nested' stack o' l)
  | [] => .ok trivial
  | a :: l => by
    have ih := tryActions_rel t under la nested nested' stack o o' hn h l
    unfold tryActions
    refine .bind_le (skips_mono t under la stack a h) (fun skip => ?_)
    refine .ite ih (.ite ?_ (.ite ?_ ?_))
    · exact .bind_le (Le.refl _) (fun r => .ok rfl)
    · refine .bind_le (hn _) (fun g => .ite ih (.bind_le (processGuard_mono _ _ _ _ _ h) (fun q => ?_)))
      cases q with
      | none => exact ih
      | some s => exact .ok ⟨rfl, Or.inl ⟨rfl, rfl⟩⟩
    · refine .bind_le (Le.refl _) (fun r => .ok ?_)
      by_cases hr : r.1 = true
      · rw [if_pos hr, if_pos hr]; exact ⟨rfl, Or.inr ⟨rfl, rfl⟩⟩
      · rw [if_neg hr, if_neg hr]; exact ⟨rfl, Or.inl ⟨rfl, rfl⟩⟩

/-- Reductions and acceptance are the same whatever the lookahead is, and take no token. -/
theorem tryActions_eog (t : Tables) (under : List Nat) (la la' : Option Tok) (nested nested' : Nat → Nat → M Int) (stack : List Nat) (o o' : Nat)
    (f f' : Nat) : ∀ l : List TableAction, (∀ a ∈ l, a.type = .reduce ∨ a.type = .accept) →
    Rel (fun r r' => TriedRel o o' r r' ∧ ∀ s p, r = .performed s p → p = o)
      (tryActions t f under la nested stack o l) (tryActions t f' under la' nested' stack o' l)
  | [], _ => .ok ⟨trivial, fun _ _ h => by cases h⟩
  | a :: l, hl => by
    unfold tryActions
    have ha := hl a (List.mem_cons_self ..)
    have hs : ∀ g : Nat, ∀ k, skips t g under k stack a = .ok false := by
      intro g k
      unfold skips
      rw [if_neg]
      rcases ha with ha | ha <;> rw [ha] <;> simp
    rw [hs, hs]
    rcases ha with ha | ha
    · simp only [bind, Except.bind, ha, perform]
      cases h1 : rule t a.nextState with
      | none => exact .error
      | some r =>
        simp only [orUb]
        cases h2 : (guardDelegate t under).reduce r stack with
        | error e => exact .error
        | ok s => exact .ok ⟨⟨rfl, Or.inl ⟨rfl, rfl⟩⟩, fun s p h => by cases h; rfl⟩
    · simp only [bind, Except.bind, ha]
      cases h1 : rule t a.nextState with
      | none => exact .error
      | some r => exact .ok ⟨rfl, fun _ _ h => by cases h⟩

/-- Trying the action for an ignored token takes it and does nothing else. -/
theorem tryActions_ignore (t : Tables) (f : Nat) (under : List Nat) (la : Option Tok) (nested : Nat → Nat → M Int) (stack : List Nat) (o n : Nat)
    (k : Int) : tryActions t f under la nested stack o [⟨.ignore, n, k⟩] = .ok (.performed stack (o + 1)) := by
  simp [tryActions, skips, perform, bind, Except.bind, pure, Except.pure]

/-- A guard looking at an ignored token goes on to the next one, unless it is at its end. -/
theorem checkLoop_ignore (t : Tables) (under : List Nat) (input : List Tok) (f : Nat) (stack : List Nat) (o : Nat) (k : Tok) (state n : Nat)
    (hk : input[o]? = some k) (hs : stack.head? = some state) (he : useEog t f under state stack = .ok false)
    (ha : entriesFor t true state k.sym = .ok [⟨.ignore, n, k.sym⟩]) :
    checkLoop t under input (f + 1) stack o = checkLoop t under input f stack (o + 1) := by
  rw [checkLoop]
  simp only [hk, hs, orUb, bind, Except.bind, he, guardActs, ha, tryActions_ignore, Bool.false_eq_true, if_false]

theorem drop_tail {l : List Tok} {o : Nat} {k : Tok} {rest : List Tok} (h : l.drop o = k :: rest) : l.drop (o + 1) = rest := by
  rw [← List.drop_drop, h]; rfl

theorem drop_getElem? {l : List Tok} {o : Nat} : l[o]? = (l.drop o).head? := by
  rw [List.head?_drop]

/-- The step both directions have in common: the two streams have the same token next. -/
theorem checkLoop_step {t : Tables} {under : List Nat} {A B : List Tok} {stack : List Nat} {oA oB state f f' : Nat} {eog : Bool}
    {nested nested' : Nat → Nat → M Int} {cont cont' : List Nat → Nat → M Int} (hf : f ≤ f') (hla : A[oA]? = B[oB]?)
    (hn : ∀ s, Le (nested s oA) (nested' s oB))
    (h0 : ∀ s, Le (cont s oA) (cont' s oB)) (h1 : ∀ s, Le (cont s (oA + 1)) (cont' s (oB + 1))) :
    Le (do
        let acts ← guardActs t eog state A[oA]?
        match ← tryActions t f under A[oA]? nested stack oA acts with
        | .accepted g => return g
        | .performed s o => cont s o
        | .failed => return -1)
      (do
        let acts ← guardActs t eog state B[oB]?
        match ← tryActions t f' under B[oB]? nested' stack oB acts with
        | .accepted g => return g
        | .performed s o => cont' s o
        | .failed => return -1) := by
  rw [hla]
  refine Le.bind_right (fun acts => ?_)
  have hr := tryActions_rel t under B[oB]? nested nested' stack oA oB hn hf acts
  rcases hr with hr | ⟨e, h1, h2⟩ | ⟨a, b, ha, hb, hab⟩
  · rw [hr]; exact Or.inl rfl
  · rw [h1, h2]; exact Or.inr rfl
  · rw [ha, hb]
    cases a with
    | accepted g => cases b with
      | accepted g' => cases hab; exact Le.refl _
      | performed _ _ => exact hab.elim
      | failed => exact hab.elim
    | failed => cases b with
      | accepted g' => exact hab.elim
      | performed _ _ => exact hab.elim
      | failed => exact Le.refl _
    | performed s p => cases b with
      | accepted g' => exact hab.elim
      | failed => exact hab.elim
      | performed s' p' =>
        obtain ⟨rfl, ⟨rfl, rfl⟩ | ⟨rfl, rfl⟩⟩ := hab
        · exact h0 s
        · exact h1 s

/-- The same at the end of a guard, where the tokens do not matter. -/
theorem checkLoop_step_eog {t : Tables} {ig : Int → Bool} (ht : Ignores t ig) {under : List Nat} {la la' : Option Tok} {stack : List Nat}
    {oA oB state f f' : Nat} {nested nested' : Nat → Nat → M Int} {cont cont' : List Nat → Nat → M Int}
    (h0 : ∀ s, Le (cont s oA) (cont' s oB)) :
    Le (do
        let acts ← guardActs t true state la
        match ← tryActions t f under la nested stack oA acts with
        | .accepted g => return g
        | .performed s o => cont s o
        | .failed => return -1)
      (do
        let acts ← guardActs t true state la'
        match ← tryActions t f' under la' nested' stack oB acts with
        | .accepted g => return g
        | .performed s o => cont' s o
        | .failed => return -1) := by
  have hg : ∀ k, guardActs t true state k = entriesFor t false state t.endOfGuard := fun _ => rfl
  rw [hg, hg]
  cases he : entriesFor t false state t.endOfGuard with
  | error e => exact Or.inr rfl
  | ok acts =>
    have hr := tryActions_eog t under la la' nested nested' stack oA oB f f' acts (ht.eog state acts he)
    simp only [bind, Except.bind]
    rcases hr with hr | ⟨e, h1, h2⟩ | ⟨a, b, ha, hb, hab, hp⟩
    · rw [hr]; exact Or.inl rfl
    · rw [h1, h2]; exact Or.inr rfl
    · rw [ha, hb]
      cases a with
      | accepted g => cases b with
        | accepted g' => cases hab; exact Le.refl _
        | performed _ _ => exact hab.elim
        | failed => exact hab.elim
      | failed => cases b with
        | accepted g' => exact hab.elim
        | performed _ _ => exact hab.elim
        | failed => exact Le.refl _
      | performed s p => cases b with
        | accepted g' => exact hab.elim
        | failed => exact hab.elim
        | performed s' p' =>
          have := hp s p rfl
          obtain ⟨rfl, ⟨rfl, rfl⟩ | ⟨h, rfl⟩⟩ := hab
          · exact h0 s
          · omega

/-- What a guard finds with the ignored tokens in the stream it finds without them. -/
theorem checkLoop_drop {t : Tables} {ig : Int → Bool} (ht : Ignores t ig) (under : List Nat) (A B : List Tok) :
    ∀ (f : Nat) (stack : List Nat) (oA oB : Nat), keep ig (A.drop oA) = B.drop oB →
    Le (checkLoop t under A f stack oA) (checkLoop t under B f stack oB)
  | 0, _, _, _, _ => Le.fuel _
  | f + 1, stack, oA, oB, hAB => by
    have ih := checkLoop_drop ht under A B f
    cases hs : stack.head? with
    | none => exact Or.inr (by simp [checkLoop, hs, orUb, bind, Except.bind])
    | some state =>
      cases he : useEog t f under state stack with
      | error e => exact Or.inr (by simp [checkLoop, hs, he, orUb, bind, Except.bind])
      | ok eog =>
        have hx : ∀ X o, checkLoop t under X (f + 1) stack o = (do
            let acts ← guardActs t eog state X[o]?
            match ← tryActions t f under X[o]? (fun s o => checkLoop t under X f [s] o) stack o acts with
            | .accepted g => return g
            | .performed s o => checkLoop t under X f s o
            | .failed => return -1) := by
          intro X o
          rw [checkLoop]
          simp only [hs, he, orUb, bind, Except.bind]
          rfl
        cases eog with
        | true =>
          rw [hx, hx]
          exact checkLoop_step_eog ht (fun s => ih s oA oB hAB)
        | false =>
          cases hd : A.drop oA with
          | nil =>
            rw [hd] at hAB
            have e1 : A.drop (oA + 1) = [] := by rw [← List.drop_drop, hd]; rfl
            have e2 : B.drop (oB + 1) = [] := by rw [← List.drop_drop, ← hAB]; rfl
            have hB : B.drop oB = [] := hAB.symm
            rw [hx, hx]
            refine checkLoop_step (Nat.le_refl _) ?_ (fun s => ih [s] oA oB ?_) (fun s => ih s oA oB ?_) (fun s => ih s _ _ ?_)
            · rw [drop_getElem?, drop_getElem?, hd, hB]
            · rw [hd]; exact hAB
            · rw [hd]; exact hAB
            · rw [e1, e2]; rfl
          | cons k rest =>
            have ht1 := drop_tail hd
            have hk : A[oA]? = some k := by rw [drop_getElem?, hd]; rfl
            cases hig : ig k.sym with
            | true =>
              rw [hd, keep_skip ig k rest hig, ← ht1] at hAB
              rcases ht.only state with hub | hon
              · refine Or.inr ?_
                rw [hx, hx]
                have hg : ∀ la, guardActs t false state la = .error .ub := by
                  intro la
                  cases la <;> exact hub _ _
                rw [hg, hg]; rfl
              · obtain ⟨n, hn⟩ := hon k.sym hig
                rw [checkLoop_ignore t under A f stack oA k state n hk hs he hn]
                exact (ih stack (oA + 1) oB hAB).trans (checkLoop_mono t under B f (f + 1) stack oB (by omega))
            | false =>
              have hAB' := hAB
              rw [hd, keep_cons ig k rest hig] at hAB
              have ht2 := drop_tail hAB.symm
              rw [hx, hx]
              refine checkLoop_step (Nat.le_refl _) ?_ (fun s => ih [s] oA oB hAB') (fun s => ih s oA oB hAB') (fun s => ih s _ _ ?_)
              · rw [drop_getElem?, drop_getElem?, hd, ← hAB]; rfl
              · rw [ht1, ht2]

/-- What a guard finds without the ignored tokens it finds with them, in more steps. -/
theorem checkLoop_insert {t : Tables} {ig : Int → Bool} (ht : Ignores t ig) (under : List Nat) (A B : List Tok) :
    ∀ (m f F : Nat) (stack : List Nat) (oA oB : Nat), f + (A.length - oA) ≤ m → f + (A.length - oA) ≤ F → keep ig (A.drop oA) = B.drop oB →
    Le (checkLoop t under B f stack oB) (checkLoop t under A F stack oA)
  | _, 0, _, _, _, _, _, _, _ => Le.fuel _
  | 0, f + 1, _, _, _, _, h, _, _ => absurd h (by omega)
  | m + 1, f + 1, 0, _, _, _, _, h, _ => absurd h (by omega)
  | m + 1, f + 1, F + 1, stack, oA, oB, hm, hF, hAB => by
    have ih := fun s o o' h1 h2 => checkLoop_insert ht under A B m f F s o o' h1 h2
    cases hs : stack.head? with
    | none => exact Or.inr (by simp [checkLoop, hs, orUb, bind, Except.bind])
    | some state =>
      rcases useEog_mono t under state stack (show f ≤ F by omega) with hfu | hfu
      · exact Or.inl (by simp [checkLoop, hs, hfu, orUb, bind, Except.bind])
      · cases he : useEog t f under state stack with
        | error e =>
          rw [he] at hfu
          exact Or.inr (by simp [checkLoop, hs, he, ← hfu, orUb, bind, Except.bind])
        | ok eog =>
          rw [he] at hfu
          have hx : ∀ X o, ∀ g, useEog t g under state stack = .ok eog → checkLoop t under X (g + 1) stack o = (do
              let acts ← guardActs t eog state X[o]?
              match ← tryActions t g under X[o]? (fun s o => checkLoop t under X g [s] o) stack o acts with
              | .accepted v => return v
              | .performed s o => checkLoop t under X g s o
              | .failed => return -1) := by
            intro X o g hg
            rw [checkLoop]
            simp only [hs, hg, orUb, bind, Except.bind]
            rfl
          have hxA := hx A oA F hfu.symm
          have hxB := hx B oB f he
          cases eog with
          | true =>
            rw [hxA, hxB]
            exact checkLoop_step_eog ht (fun s => ih s oA oB (by omega) (by omega) hAB)
          | false =>
            cases hd : A.drop oA with
            | nil =>
              rw [hd] at hAB
              have e1 : A.drop (oA + 1) = [] := by rw [← List.drop_drop, hd]; rfl
              have e2 : B.drop (oB + 1) = [] := by rw [← List.drop_drop, ← hAB]; rfl
              have hB : B.drop oB = [] := hAB.symm
              rw [hxA, hxB]
              refine checkLoop_step (show f ≤ F by omega) ?_ (fun s => ih [s] oA oB (by omega) (by omega) ?_)
                (fun s => ih s oA oB (by omega) (by omega) ?_) (fun s => ih s _ _ (by omega) (by omega) ?_)
              · rw [drop_getElem?, drop_getElem?, hd, hB]
              · rw [hd]; exact hAB
              · rw [hd]; exact hAB
              · rw [e1, e2]; rfl
            | cons k rest =>
              have ht1 := drop_tail hd
              have hk : A[oA]? = some k := by rw [drop_getElem?, hd]; rfl
              have hlen : oA < A.length := by
                apply Nat.lt_of_not_le
                intro h
                rw [List.drop_of_length_le h] at hd
                cases hd
              cases hig : ig k.sym with
              | true =>
                rw [hd, keep_skip ig k rest hig, ← ht1] at hAB
                rcases ht.only state with hub | hon
                · refine Or.inr ?_
                  rw [hxA, hxB]
                  have hg : ∀ la, guardActs t false state la = .error .ub := by
                    intro la
                    cases la <;> exact hub _ _
                  rw [hg, hg]; rfl
                · obtain ⟨n, hn⟩ := hon k.sym hig
                  rw [checkLoop_ignore t under A F stack oA k state n hk hs hfu.symm hn]
                  exact checkLoop_insert ht under A B m (f + 1) F stack (oA + 1) oB (by omega) (by omega) hAB
              | false =>
                have hAB' := hAB
                rw [hd, keep_cons ig k rest hig] at hAB
                have ht2 := drop_tail hAB.symm
                rw [hxA, hxB]
                refine checkLoop_step (show f ≤ F by omega) ?_ (fun s => ih [s] oA oB (by omega) (by omega) hAB')
                  (fun s => ih s oA oB (by omega) (by omega) hAB') (fun s => ih s _ _ (by omega) (by omega) ?_)
                · rw [drop_getElem?, drop_getElem?, hd, ← hAB]; rfl
                · rw [ht1, ht2]

/-! The parser -/

/-- The same stack, with the given streams. -/
def Same (i j : List Tok) (a b : PState) : Prop := a.stack = b.stack ∧ a.input = i ∧ b.input = j

theorem perform_same (t : Tables) (la : Option Tok) (act : TableAction) {i j : List Tok} {a b : PState} (h : Same i j a b) :
    Rel (fun r r' => r.1 = r'.1 ∧ Same i j r.2 r'.2) (perform (standard t) t la act a) (perform (standard t) t la act b) := by
  obtain ⟨sa, ia⟩ := a
  obtain ⟨sb, ib⟩ := b
  obtain ⟨h1, h2, h3⟩ := h
  dsimp only at h1 h2 h3
  subst h1 h2 h3
  have hred : ∀ r, Rel (Same ia ib) ((standard t).reduce r ⟨sa, ia⟩) ((standard t).reduce r ⟨sa, ib⟩) := by
    intro r
    refine .bind_le (Le.refl _) (fun p => .bind_le (Le.refl _) (fun top => .bind_le (Le.refl _) (fun g => ?_)))
    cases g with
    | none => exact .ok ⟨rfl, rfl, rfl⟩
    | some g => exact .ok ⟨rfl, rfl, rfl⟩
  unfold perform
  cases act.type with
  | ignore => exact .ok ⟨rfl, rfl, rfl, rfl⟩
  | guard => exact .ok ⟨rfl, rfl, rfl, rfl⟩
  | shift => exact .ok ⟨rfl, rfl, rfl, rfl⟩
  | divert => exact .ok ⟨rfl, rfl, rfl, rfl⟩
  | shiftstrong => exact .bind_le (Le.refl _) (fun tok => .bind_le (Le.refl _) (fun st => .ok ⟨rfl, rfl, rfl, rfl⟩))
  | reduce => exact .bind_le (Le.refl _) (fun r => (hred r).bind (fun x y hxy => .ok ⟨rfl, hxy⟩))
  | weakreduce => exact .bind_le (Le.refl _) (fun r => (hred r).bind (fun x y hxy => .ok ⟨rfl, hxy⟩))
  | accept => exact .bind_le (Le.refl _) (fun r => (hred r).bind (fun x y hxy => .ok ⟨rfl, hxy⟩))
  | goto =>
    cases sa with
    | nil => exact .error
    | cons e l => exact .ok ⟨rfl, rfl, rfl, rfl⟩

theorem guardPossible_same (t : Tables) (sym : Int) {f f' : Nat} (hf : f ≤ f') {i j : List Tok} {a b : PState} (h : Same i j a b)
    (l : List TableAction) : Le (guardPossible (standard t) t f sym a l) (guardPossible (standard t) t f' sym b l) := by
  have hu : (standard t).under a = (standard t).under b := by show a.stack.map _ = b.stack.map _; rw [h.1]
  have : guardPossible (standard t) t f' sym b l = guardPossible (standard t) t f' sym a l := by
    induction l with
    | nil => rfl
    | cons x l ih => rw [guardPossible, guardPossible, ih, hu]; rfl
  rw [this]
  exact guardPossible_mono _ _ _ _ hf l

theorem guardChoice_same (t : Tables) (sym : Int) {f f' : Nat} (hf : f ≤ f') {i j : List Tok} {a b : PState} (h : Same i j a b)
    (l : List TableAction) : Le (guardChoice (standard t) t f sym a l) (guardChoice (standard t) t f' sym b l) := by
  have hu : (standard t).under a = (standard t).under b := by show a.stack.map _ = b.stack.map _; rw [h.1]
  have : guardChoice (standard t) t f' sym b l = guardChoice (standard t) t f' sym a l := by
    induction l with
    | nil => rfl
    | cons x l ih => rw [guardChoice, guardChoice, ih, hu]; rfl
  rw [this]
  exact guardChoice_mono _ _ _ _ hf l

theorem current_same (t : Tables) {i j : List Tok} {a b : PState} (h : Same i j a b) : (standard t).current a = (standard t).current b := by
  show orUb (a.stack.head?.map _) = orUb (b.stack.head?.map _)
  rw [h.1]

theorem guardPerform_same (t : Tables) (la : Option Tok) (sym : Int) {i j : List Tok} : ∀ (f f' : Nat) (a b : PState), f ≤ f' → Same i j a b →
    Rel (Same i j) (guardPerform (standard t) t la sym f a) (guardPerform (standard t) t la sym f' b)
  | 0, _, _, _, _, _ => .fuel
  | f + 1, 0, _, _, h, _ => absurd h (by omega)
  | f + 1, f' + 1, a, b, h, hs => by
    unfold guardPerform
    rw [current_same t hs]
    refine .bind_le (Le.refl _) (fun st => .bind_le (Le.refl _) (fun acts => .bind_le (guardChoice_same t sym (by omega) hs acts) (fun o => ?_)))
    cases o with
    | none => exact .ok hs
    | some act =>
      refine (perform_same t la act hs).bind (fun r r' hr => ?_)
      rw [hr.1]
      exact .ite (.ok hr.2) (guardPerform_same t la sym f f' r.2 r'.2 (by omega) hr.2)

/-- Both have a state or none has. -/
def OptSame (i j : List Tok) : Option PState → Option PState → Prop
  | none, none => True
  | some a, some b => Same i j a b
  | _, _ => False

theorem processGuard_same (t : Tables) (la : Option Tok) (sym : Int) {i j : List Tok} {f f' : Nat} {a b : PState} (h : f ≤ f') (hs : Same i j a b) :
    Rel (OptSame i j) (processGuard (standard t) t f la sym a) (processGuard (standard t) t f' la sym b) := by
  unfold processGuard
  rw [current_same t hs]
  refine .bind_le (Le.refl _) (fun st => .bind_le (Le.refl _) (fun acts => .bind_le (guardPossible_same t sym h hs acts) (fun o => ?_)))
  refine .ite ?_ (.ok trivial)
  exact (guardPerform_same t la sym f f' a b h hs).bind (fun x y hxy => .ok hxy)

/-- What one step does on two streams: the same, and it takes a token from both or from none. -/
def StepRel (i j : List Tok) (r r' : Result × PState) : Prop := r.1 = r'.1 ∧ (Same i j r.2 r'.2 ∨ Same i.tail j.tail r.2 r'.2)

theorem processActions_same (t : Tables) (la : Option Tok) (sym : Int) (term : Bool) {i j : List Tok} {f f' : Nat} {a b : PState} (h : f ≤ f')
    (hs : Same i j a b) (hij : i = [] ↔ j = [])
    (hc : ∀ under n, Le (checkLoop t under i f [n] 0) (checkLoop t under j f' [n] 0)) :
    ∀ l, Rel (StepRel i j) (processActions t f la sym term a l) (processActions t f' la sym term b l)
  | [] => .ok ⟨rfl, Or.inl hs⟩
  | act :: l => by
    have ih := processActions_same t la sym term h hs hij hc l
    unfold processActions
    rw [hs.1, hs.2.1, hs.2.2]
    refine .ite ?_ (.ite ?_ (.ite (.ok ⟨rfl, Or.inl hs⟩) ?_))
    · refine .bind_le (canReduceAct_mono _ _ _ _ _ _ h) (fun q => .ite ?_ ih)
      exact (perform_same t la act hs).bind (fun r r' hr => .ok ⟨rfl, Or.inl hr.2⟩)
    · refine .bind_le (hc _ _) (fun g => .ite ih ?_)
      refine (processGuard_same t la g h hs).bind (fun o o' ho => ?_)
      cases o with
      | none => cases o' with
        | none => exact ih
        | some _ => exact ho.elim
      | some _ => cases o' with
        | none => exact ho.elim
        | some _ => exact .ok ⟨rfl, Or.inl ho⟩
    · refine (perform_same t la act hs).bind (fun r r' hr => ?_)
      rw [hr.1]
      refine .ite ?_ (.ok ⟨rfl, Or.inl hr.2⟩)
      unfold next
      rw [hr.2.2.1, hr.2.2.2]
      cases i with
      | nil =>
        cases hij.1 rfl
        exact .error
      | cons k i =>
        cases j with
        | nil => exact absurd (hij.2 rfl) (by simp)
        | cons k' j => exact .ok ⟨rfl, Or.inr ⟨hr.2.1, rfl, rfl⟩⟩

/-- One step where the two streams have the same next token, or both none. -/
theorem process_same (t : Tables) {i j : List Tok} {f f' : Nat} {a b : PState} (h : f ≤ f') (hs : Same i j a b) (hij : i.head? = j.head?)
    (hc : ∀ under n, Le (checkLoop t under i f [n] 0) (checkLoop t under j f' [n] 0)) :
    Rel (StepRel i j) (process t f a) (process t f' b) := by
  have hnil : i = [] ↔ j = [] := by
    cases i <;> cases j <;> simp at hij ⊢
  unfold process
  rw [current_same t hs, hs.2.1, hs.2.2, hij]
  refine .bind_le (Le.refl _) (fun st => ?_)
  cases j.head? with
  | none => exact .bind_le (Le.refl _) (fun acts => processActions_same t _ _ _ h hs hnil hc acts)
  | some tok => exact .bind_le (Le.refl _) (fun acts => processActions_same t _ _ _ h hs hnil hc acts)

/-- One step at an ignored token. -/
theorem process_ignore (t : Tables) (f : Nat) (k : Tok) (l : List Tok) (e : Nat × Tree) (stack : List (Nat × Tree)) (n : Nat)
    (h : entriesFor t true e.1 k.sym = .ok [⟨.ignore, n, k.sym⟩]) : process t f ⟨e :: stack, k :: l⟩ = .ok (.more, ⟨e :: stack, l⟩) := by
  simp [process, standard, orUb, h, processActions, perform, next, bind, Except.bind, pure, Except.pure]

/-- One step in a state that the tables do not have. -/
theorem process_ub (t : Tables) (f : Nat) (s : PState) (h : ∀ e ∈ s.stack.head?, ∀ term sym, entriesFor t term e.1 sym = .error .ub) :
    process t f s = .error .ub := by
  obtain ⟨stack, input⟩ := s
  cases stack with
  | nil => simp [process, standard, orUb, bind, Except.bind]
  | cons e stack =>
    have := h e rfl
    cases input with
    | nil => simp [process, standard, orUb, bind, Except.bind, this]
    | cons k l => simp [process, standard, orUb, bind, Except.bind, this]

/-- The same stack, and the second stream is the first without the ignored tokens. -/
def Dropped (ig : Int → Bool) (a b : PState) : Prop := a.stack = b.stack ∧ keep ig a.input = b.input

theorem step_dropped {ig : Int → Bool} {i j : List Tok} (h0 : keep ig i = j) (h1 : keep ig i.tail = j.tail) {r r' : Result × PState}
    (h : StepRel i j r r') : r.1 = r'.1 ∧ Dropped ig r.2 r'.2 := by
  obtain ⟨h, h2 | h2⟩ := h
  · exact ⟨h, h2.1, by rw [h2.2.1, h2.2.2, h0]⟩
  · exact ⟨h, h2.1, by rw [h2.2.1, h2.2.2, h1]⟩

theorem parse_drop {t : Tables} {ig : Int → Bool} (ht : Ignores t ig) : ∀ (f : Nat) (a b : PState), Dropped ig a b →
    Rel (fun r r' => r.1 = r'.1 ∧ Dropped ig r.2 r'.2) (parse t f a) (parse t f b)
  | 0, _, _, _ => .fuel
  | f + 1, a, b, hab => by
    have ih := parse_drop ht f
    have same : a.input.head? = b.input.head? → keep ig a.input.tail = b.input.tail →
        Rel (fun r r' => r.1 = r'.1 ∧ Dropped ig r.2 r'.2) (parse t (f + 1) a) (parse t (f + 1) b) := by
      intro hh htl
      unfold parse
      have hs : Same a.input b.input a b := ⟨hab.1, rfl, rfl⟩
      have hp := process_same t (Nat.le_refl f) hs hh
        (fun under n => checkLoop_drop ht under a.input b.input f [n] 0 0 (by rw [List.drop_zero, List.drop_zero]; exact hab.2))
      refine hp.bind (fun r r' hr => ?_)
      obtain ⟨h1, h2⟩ := step_dropped hab.2 htl hr
      rw [h1]
      cases r'.1 with
      | more => exact ih r.2 r'.2 h2
      | accept => exact .ok ⟨rfl, h2⟩
      | reject => exact .ok ⟨rfl, h2⟩
    obtain ⟨stack, input⟩ := a
    obtain ⟨stack', input'⟩ := b
    obtain ⟨h1, h2⟩ := hab
    dsimp only at h1 h2
    subst h1
    cases input with
    | nil => cases h2; exact same rfl rfl
    | cons k l =>
      cases hig : ig k.sym with
      | false =>
        rw [keep_cons ig k l hig] at h2
        subst h2
        exact same rfl rfl
      | true =>
        rw [keep_skip ig k l hig] at h2
        cases stack with
        | nil =>
          unfold parse
          rw [process_ub t f _ (by simp), process_ub t f _ (by simp)]
          exact .error
        | cons e stack =>
          rcases ht.only e.1 with hub | hon
          · unfold parse
            rw [process_ub t f _ (by simpa using hub), process_ub t f _ (by simpa using hub)]
            exact .error
          · obtain ⟨n, hn⟩ := hon k.sym hig
            have e1 : parse t (f + 1) ⟨e :: stack, k :: l⟩ = parse t f ⟨e :: stack, l⟩ := by
              rw [parse, process_ignore t f k l e stack n hn]; rfl
            rw [e1]
            exact (ih ⟨e :: stack, l⟩ ⟨e :: stack, input'⟩ ⟨rfl, h2⟩).trans_le (parse_mono t f (f + 1) _ (by omega))

theorem parse_insert {t : Tables} {ig : Int → Bool} (ht : Ignores t ig) : ∀ (m f F : Nat) (a b : PState), f + a.input.length ≤ m →
    f + a.input.length ≤ F → Dropped ig a b → Rel (fun r r' => r.1 = r'.1 ∧ Dropped ig r'.2 r.2) (parse t f b) (parse t F a)
  | _, 0, _, _, _, _, _, _ => .fuel
  | 0, f + 1, _, _, _, h, _, _ => absurd h (by omega)
  | m + 1, f + 1, 0, _, _, _, h, _ => absurd h (by omega)
  | m + 1, f + 1, F + 1, a, b, hm, hF, hab => by
    have ih := parse_insert ht m f F
    have same : a.input.head? = b.input.head? → keep ig a.input.tail = b.input.tail →
        Rel (fun r r' => r.1 = r'.1 ∧ Dropped ig r'.2 r.2) (parse t (f + 1) b) (parse t (F + 1) a) := by
      intro hh htl
      unfold parse
      have hs : Same b.input a.input b a := ⟨hab.1.symm, rfl, rfl⟩
      have hp := process_same t (show f ≤ F by omega) hs hh.symm
        (fun under n => checkLoop_insert ht under a.input b.input (f + a.input.length) f F [n] 0 0 (by omega) (by omega)
          (by rw [List.drop_zero, List.drop_zero]; exact hab.2))
      refine hp.bind (fun r r' hr => ?_)
      have hlen : r'.2.input.length ≤ a.input.length := by
        obtain ⟨-, hr | hr⟩ := hr
        · rw [hr.2.2]
        · rw [hr.2.2, List.length_tail]; omega
      have h2 : Dropped ig r'.2 r.2 := by
        obtain ⟨-, h2 | h2⟩ := hr
        · exact ⟨h2.1.symm, by rw [h2.2.1, h2.2.2, hab.2]⟩
        · exact ⟨h2.1.symm, by rw [h2.2.1, h2.2.2, htl]⟩
      rw [hr.1]
      cases r'.1 with
      | more => exact ih r'.2 r.2 (by omega) (by omega) h2
      | accept => exact .ok ⟨rfl, h2⟩
      | reject => exact .ok ⟨rfl, h2⟩
    obtain ⟨stack, input⟩ := a
    obtain ⟨stack', input'⟩ := b
    obtain ⟨h1, h2⟩ := hab
    dsimp only at h1 h2 hm hF
    subst h1
    cases input with
    | nil => cases h2; exact same rfl rfl
    | cons k l =>
      cases hig : ig k.sym with
      | false =>
        rw [keep_cons ig k l hig] at h2
        subst h2
        exact same rfl rfl
      | true =>
        rw [keep_skip ig k l hig] at h2
        cases stack with
        | nil =>
          unfold parse
          rw [process_ub t f _ (by simp), process_ub t F _ (by simp)]
          exact .error
        | cons e stack =>
          rcases ht.only e.1 with hub | hon
          · unfold parse
            rw [process_ub t f _ (by simpa using hub), process_ub t F _ (by simpa using hub)]
            exact .error
          · obtain ⟨n, hn⟩ := hon k.sym hig
            have e1 : parse t (F + 1) ⟨e :: stack, k :: l⟩ = parse t F ⟨e :: stack, l⟩ := by
              rw [parse, process_ignore t F k l e stack n hn]; rfl
            rw [e1]
            rw [List.length_cons] at hm hF
            exact parse_insert ht m (f + 1) F ⟨e :: stack, l⟩ ⟨e :: stack, input'⟩ (by dsimp only; omega) (by dsimp only; omega) ⟨rfl, h2⟩

/-- How a parse ends: accepted or not, with the stack of trees that it has then; or with undefined behaviour. -/
inductive Ends (t : Tables) (initial : Nat) (input : List Tok) : Option (Bool × List (Nat × Tree)) → Prop
  | result {f : Nat} {b : Bool} {s : PState} (h : parse t f (start initial input) = .ok (b, s)) : Ends t initial input (some (b, s.stack))
  | undefined {f : Nat} (h : parse t f (start initial input) = .error .ub) : Ends t initial input none

theorem ends_keep {t : Tables} {ig : Int → Bool} (ht : Ignores t ig) (initial : Nat) (A : List Tok) (r : Option (Bool × List (Nat × Tree))) :
    Ends t initial A r ↔ Ends t initial (keep ig A) r := by
  have hd : Dropped ig (start initial A) (start initial (keep ig A)) := ⟨rfl, rfl⟩
  constructor
  · rintro (@⟨f, b, s, h⟩ | @⟨f, h⟩)
    · rcases parse_drop ht f _ _ hd with h1 | ⟨e, h1, h2⟩ | ⟨x, y, h1, h2, h3, h4⟩
      · rw [h] at h1; cases h1
      · rw [h] at h1; cases h1
      · rw [h] at h1
        cases h1
        obtain ⟨b', s'⟩ := y
        dsimp only at h3 h4
        rw [h3, h4.1]
        exact .result h2
    · rcases parse_drop ht f _ _ hd with h1 | ⟨e, h1, h2⟩ | ⟨x, y, h1, h2, h3, h4⟩
      · rw [h] at h1; cases h1
      · rw [h] at h1; cases h1; exact .undefined h2
      · rw [h] at h1; cases h1
  · rintro (@⟨f, b, s, h⟩ | @⟨f, h⟩)
    · rcases parse_insert ht _ f _ _ _ (Nat.le_refl _) (Nat.le_refl _) hd with h1 | ⟨e, h1, h2⟩ | ⟨x, y, h1, h2, h3, h4⟩
      · rw [h] at h1; cases h1
      · rw [h] at h1; cases h1
      · rw [h] at h1
        cases h1
        obtain ⟨b', s'⟩ := y
        dsimp only at h3 h4
        rw [h3, ← h4.1]
        exact .result h2
    · rcases parse_insert ht _ f _ _ _ (Nat.le_refl _) (Nat.le_refl _) hd with h1 | ⟨e, h1, h2⟩ | ⟨x, y, h1, h2, h3, h4⟩
      · rw [h] at h1; cases h1
      · rw [h] at h1; cases h1; exact .undefined h2
      · rw [h] at h1; cases h1

/-- C38 for tables: two inputs that differ only in ignored tokens are parsed with the same result and the same trees. -/
theorem ignored_no_effect {t : Tables} {ig : Int → Bool} (ht : Ignores t ig) (initial : Nat) (A B : List Tok)
    (h : A.filter (fun k => !ig k.sym) = B.filter (fun k => !ig k.sym)) (r : Option (Bool × List (Nat × Tree))) :
    Ends t initial A r ↔ Ends t initial B r := by
  rw [ends_keep ht, ends_keep ht initial B]
  unfold keep
  rw [h]

/-! Tables that were built with ignored symbols -/

theorem entriesFor_terminal {t : Tables} {st : Nat} {sym : Int} {l : List TableAction} (h : visitTerminal t st sym = some l) :
    entriesFor t true st sym = .ok l := by
  unfold visitTerminal at h
  simp only [bind, Option.bind_eq_some_iff] at h
  obtain ⟨row, h1, c, h2, i, h3, h4⟩ := h
  cases h4
  simp [entriesFor, rowOf, findSym, h1, h2, h3, orUb, bind, Except.bind, pure, Except.pure, scan]

theorem entriesFor_nonterminal {t : Tables} {st : Nat} {sym : Int} {l : List TableAction} (h : visitNonterminal t st sym = some l) :
    entriesFor t false st sym = .ok l := by
  unfold visitNonterminal at h
  simp only [bind, Option.bind_eq_some_iff] at h
  obtain ⟨row, h1, c, h2, i, h3, h4⟩ := h
  cases h4
  simp [entriesFor, rowOf, findSym, h1, h2, h3, orUb, bind, Except.bind, pure, Except.pure, scan]

theorem entriesFor_symbol {t : Tables} {term : Bool} {st : Nat} {sym : Int} {l : List TableAction} (h : entriesFor t term st sym = .ok l) :
    ∀ a ∈ l, a.symbolId = sym := by
  unfold entriesFor at h
  obtain ⟨row, h1, h⟩ := bind_ok h
  obtain ⟨i, h2, h⟩ := bind_ok h
  cases h
  intro a ha
  have := List.all_eq_true.1 List.all_takeWhile a ha
  simpa using this

theorem entriesFor_outside (g : Numbering) (sort : List TableAction → List TableAction) (sortWeak : List (Int × Int) → List (Int × Int))
    (states : List (List LrAction)) (weak : Option (List (Item × List Item))) (st : Nat) (h : states[st]? = none) (term : Bool) (sym : Int) :
    entriesFor (build g sort sortWeak states weak) term st sym = .error .ub := by
  have hl : (fillStates g sort (g.ident .eog) [] 0 states).2.1[st]? = none := by
    rw [List.getElem?_eq_none_iff] at *
    rw [fillStates_length]
    exact h
  cases term <;> simp [entriesFor, rowOf, build, hl, orUb, bind, Except.bind]

theorem build_ignores (g : Numbering) (sort : List TableAction → List TableAction) (sortWeak : List (Int × Int) → List (Int × Int))
    (hsort : IsSort compareActions sort) (states : List (List LrAction)) (weak : Option (List (Item × List Item)))
    (hf : Fits g states (build g sort sortWeak states weak).numRules) (ig : Int → Bool)
    (h1 : ∀ acts ∈ states, ∀ k, ig k = true → ∃ n r, acts.filter (fun a => decide (a.item = .terminal k)) = [⟨.ignore, .terminal k, n, r⟩])
    (h2 : ∀ acts ∈ states, ∀ a ∈ acts, a.item = .eog → a.type = .reduce ∨ a.type = .accept) (h3 : ∀ i, g.ident i = g.ident .eog → i = .eog) :
    Ignores (build g sort sortWeak states weak) ig := by
  constructor
  · intro st
    cases hs : states[st]? with
    | none => exact Or.inl (entriesFor_outside g sort sortWeak states weak st hs)
    | some acts =>
      refine Or.inr (fun k hk => ?_)
      obtain ⟨⟨l, e1, e2, -⟩, -⟩ := action_lookup_exact g sort sortWeak hsort states weak hf st acts hs k
      obtain ⟨n, r, e3⟩ := h1 acts (List.mem_of_getElem? hs) k hk
      rw [e3, List.map_singleton, List.perm_singleton, List.map_eq_singleton_iff] at e2
      obtain ⟨a, rfl, ha⟩ := e2
      have e4 := entriesFor_terminal e1
      refine ⟨a.nextState, ?_⟩
      have e5 := entriesFor_symbol e4 a (List.mem_singleton.2 rfl)
      have e6 : a.type = .ignore := congrArg Prod.fst ha
      rw [e4, ← e5, ← e6]
  · intro st acts he a ha
    cases hs : states[st]? with
    | none =>
      rw [entriesFor_outside g sort sortWeak states weak st hs] at he
      cases he
    | some lr =>
      obtain ⟨-, ⟨l, e1, e2, -⟩⟩ := action_lookup_exact g sort sortWeak hsort states weak hf st lr hs (g.ident .eog)
      have e4 := entriesFor_nonterminal e1
      have : (build g sort sortWeak states weak).endOfGuard = g.ident .eog := rfl
      rw [this, e4] at he
      cases he
      have hm := e2.mem_iff.1 (List.mem_map_of_mem ha)
      rw [List.mem_map] at hm
      obtain ⟨b, hb, hbe⟩ := hm
      rw [List.mem_filter, Bool.and_eq_true, beq_iff_eq] at hb
      have := h2 lr (List.mem_of_getElem? hs) b hb.1 (h3 _ hb.2.2)
      have e6 : b.type = a.type := congrArg Prod.fst hbe
      rw [← e6]
      exact this

theorem ignored_nodup (ignored : List Item) (state : Int) (actions : List LrAction) : (Rewriters.rewriteIgnored ignored state actions).Nodup := by
  have h1 : ∀ (l : List LrAction) (p : List LrAction × List Item), p.1.Nodup → (l.foldl (Rewriters.ignoreStep ignored) p).1.Nodup := by
    intro l
    induction l with
    | nil => intro p h; exact h
    | cons a l ih =>
      intro p h
      refine ih _ ?_
      unfold Rewriters.ignoreStep
      cases a.type with
      | reduce =>
        dsimp only
        by_cases ha : a.item ∈ ignored
        · rw [if_pos ha]; exact Rewriters.nodup_add _ _ h
        · rw [if_neg ha]; exact Rewriters.nodup_add _ _ h
      | _ => exact Rewriters.nodup_add _ _ h
  have h2 : ∀ (l used : List Item) (m : List LrAction), m.Nodup →
      (l.foldl (fun l i => if i ∈ used then l else Rewriters.add l ⟨.ignore, i, state, Rewriters.emptyRule⟩) m).Nodup := by
    intro l used
    induction l with
    | nil => intro m h; exact h
    | cons a l ih =>
      intro m h
      refine ih _ ?_
      dsimp only
      by_cases ha : a ∈ used
      · rw [if_pos ha]; exact h
      · rw [if_neg ha]; exact Rewriters.nodup_add _ _ h
  exact h2 _ _ _ (h1 _ _ List.nodup_nil)

/-- The only action for an ignored symbol that is not used is the one to ignore it. -/
theorem ignored_filter (ignored : List Item) (state : Int) (actions : List LrAction) (hu : ∀ a ∈ actions, a.item ∉ ignored) (i : Item)
    (hi : i ∈ ignored) : (Rewriters.rewriteIgnored ignored state actions).filter (fun a => decide (a.item = i)) =
      [⟨.ignore, i, state, Rewriters.emptyRule⟩] := by
  rw [Rewriters.filter_singleton _ _ _ (ignored_nodup ignored state actions)]
  intro b
  rw [Rewriters.ignored_rewrite_exact, decide_eq_true_eq]
  constructor
  · rintro ⟨⟨h, -⟩ | ⟨c, hc, -, hci, -⟩ | ⟨h, -⟩, rfl⟩
    · exact absurd hi (hu b h)
    · exact absurd hci (hu c hc)
    · exact h
  · rintro rfl
    refine ⟨Or.inr (Or.inr ⟨rfl, hi, ?_⟩), rfl⟩
    intro b hb hbi
    dsimp only at hbi
    subst hbi
    exact absurd hi (hu b hb)

/-- C38: with tables whose actions were rewritten for ignored symbols that no other action is for, two inputs that differ only in ignored
tokens are parsed with the same result and the same trees. -/
theorem ignored_no_effect_built (g : Numbering) (sort : List TableAction → List TableAction) (sortWeak : List (Int × Int) → List (Int × Int))
    (hsort : IsSort compareActions sort) (states : List (List LrAction)) (weak : Option (List (Item × List Item))) (ignored : List Int)
    (hf : Fits g (states.mapIdx (fun (i : Nat) acts => Rewriters.rewriteIgnored (ignored.map .terminal) i acts))
      (build g sort sortWeak (states.mapIdx (fun (i : Nat) acts => Rewriters.rewriteIgnored (ignored.map .terminal) i acts)) weak).numRules)
    (hu : ∀ acts ∈ states, ∀ a ∈ acts, ∀ k ∈ ignored, a.item ≠ .terminal k)
    (heog : ∀ acts ∈ states, ∀ a ∈ acts, a.item = .eog → a.type = .reduce ∨ a.type = .accept) (hid : ∀ i, g.ident i = g.ident .eog → i = .eog)
    (initial : Nat) (A B : List Tok) (h : A.filter (fun k => decide (k.sym ∉ ignored)) = B.filter (fun k => decide (k.sym ∉ ignored)))
    (r : Option (Bool × List (Nat × Tree))) :
    Ends (build g sort sortWeak (states.mapIdx (fun (i : Nat) acts => Rewriters.rewriteIgnored (ignored.map .terminal) i acts)) weak) initial A r ↔
    Ends (build g sort sortWeak (states.mapIdx (fun (i : Nat) acts => Rewriters.rewriteIgnored (ignored.map .terminal) i acts)) weak) initial B r := by
  have hu' : ∀ acts ∈ states, ∀ a ∈ acts, a.item ∉ ignored.map Item.terminal := by
    intro acts hacts a ha hc
    obtain ⟨k, hk, e⟩ := List.mem_map.1 hc
    exact hu acts hacts a ha k hk e.symm
  refine ignored_no_effect (ig := fun k => decide (k ∈ ignored)) (build_ignores g sort sortWeak hsort _ weak hf _ ?_ ?_ hid) initial A B ?_ r
  · intro acts hacts k hk
    rw [List.mem_mapIdx] at hacts
    obtain ⟨i, hi, rfl⟩ := hacts
    rw [decide_eq_true_eq] at hk
    exact ⟨_, _, ignored_filter _ _ _ (hu' _ (List.getElem_mem hi)) _ (List.mem_map_of_mem hk)⟩
  · intro acts hacts a ha hai
    rw [List.mem_mapIdx] at hacts
    obtain ⟨i, hi, rfl⟩ := hacts
    rw [Rewriters.ignored_rewrite_exact] at ha
    rcases ha with ⟨ha, -⟩ | ⟨b, hb, -, hbi, -⟩ | ⟨-, ha, -⟩
    · exact heog _ (List.getElem_mem hi) a ha hai
    · exact absurd hbi (hu' _ (List.getElem_mem hi) b hb)
    · rw [hai] at ha
      obtain ⟨k, -, e⟩ := List.mem_map.1 ha
      cases e
  · have e : ∀ k : Tok, (!decide (k.sym ∈ ignored)) = decide (k.sym ∉ ignored) := fun k => by simp
    simp only [e]
    exact h

/-! An example: `S → a` with a guard in front that looks for `a b`, and the ignored symbol 9. -/

/-- Numbers the items and rules of the example. -/
def ignoreNumbering : Numbering where
  ident
    | .eoi => 101
    | .eog => 103
    | .nonterminal n => 2 * n
    | _ => 102
  ruleId r := if r.nonterminal = .nonterminal 1 then 1 else if r.nonterminal = .empty then 0 else 2
  ruleWith n := if n = 1 then ⟨.nonterminal 1, [.terminal 7]⟩ else if n = 0 then ⟨.empty, [.nonterminal 1]⟩ else ⟨.guard 0 [], [.terminal 7, .terminal 8]⟩

/-- The actions of the example: for the token 7 the guard in state 3 is tried first, which wants the tokens 7 and 8. -/
def ignoreStates : List (List LrAction) :=
  [[⟨.guard, .terminal 7, 3, ⟨.empty, []⟩⟩, ⟨.shift, .terminal 7, 1, ⟨.empty, []⟩⟩, ⟨.goto, .nonterminal 1, 2, ⟨.empty, []⟩⟩],
   [⟨.reduce, .eoi, -1, ⟨.nonterminal 1, [.terminal 7]⟩⟩], [⟨.accept, .eoi, -1, ⟨.empty, [.nonterminal 1]⟩⟩],
   [⟨.shift, .terminal 7, 4, ⟨.empty, []⟩⟩], [⟨.shift, .terminal 8, 5, ⟨.empty, []⟩⟩],
   [⟨.accept, .eog, -1, ⟨.guard 0 [], [.terminal 7, .terminal 8]⟩⟩]]

def ignoreRewritten : List (List LrAction) :=
  ignoreStates.mapIdx (fun (i : Nat) acts => Rewriters.rewriteIgnored ([9].map .terminal) i acts)

def ignoreTables : Tables := build ignoreNumbering insertionSort id ignoreRewritten none

theorem ignoreRewritten_eq : ignoreRewritten = [
    [⟨.guard, .terminal 7, 3, ⟨.empty, []⟩⟩, ⟨.shift, .terminal 7, 1, ⟨.empty, []⟩⟩, ⟨.goto, .nonterminal 1, 2, ⟨.empty, []⟩⟩, ⟨.ignore, .terminal 9, 0, ⟨.empty, []⟩⟩],
    [⟨.reduce, .eoi, -1, ⟨.nonterminal 1, [.terminal 7]⟩⟩, ⟨.ignore, .terminal 9, 1, ⟨.empty, []⟩⟩],
    [⟨.accept, .eoi, -1, ⟨.empty, [.nonterminal 1]⟩⟩, ⟨.ignore, .terminal 9, 2, ⟨.empty, []⟩⟩],
    [⟨.shift, .terminal 7, 4, ⟨.empty, []⟩⟩, ⟨.ignore, .terminal 9, 3, ⟨.empty, []⟩⟩],
    [⟨.shift, .terminal 8, 5, ⟨.empty, []⟩⟩, ⟨.ignore, .terminal 9, 4, ⟨.empty, []⟩⟩],
    [⟨.accept, .eog, -1, ⟨.guard 0 [], [.terminal 7, .terminal 8]⟩⟩, ⟨.ignore, .terminal 9, 5, ⟨.empty, []⟩⟩]] := by decide +kernel

example : Fits ignoreNumbering ignoreRewritten ignoreTables.numRules ∧ (∀ acts ∈ ignoreStates, ∀ a ∈ acts, ∀ k ∈ [9], a.item ≠ .terminal k) ∧
    (∀ acts ∈ ignoreStates, ∀ a ∈ acts, a.item = .eog → a.type = .reduce ∨ a.type = .accept) ∧
    (∀ i, ignoreNumbering.ident i = ignoreNumbering.ident .eog → i = .eog) := by
  refine ⟨⟨by decide +kernel, ?_, ?_⟩, ?_, ?_, ?_⟩
  · rw [ignoreRewritten_eq]; simp [isReduce]
  · rw [ignoreRewritten_eq]; simp [isReduce, ignoreNumbering]
  · simp [ignoreStates]
  · simp [ignoreStates]
  · intro i h
    cases i <;> simp [ignoreNumbering] at h ⊢
    omega

example : (parse ignoreTables 20 (start 0 [⟨9, 0⟩, ⟨7, 1⟩, ⟨9, 2⟩, ⟨9, 3⟩])).toOption.map (fun r => (r.1, r.2.stack.map (·.1))) =
    (parse ignoreTables 20 (start 0 [⟨7, 1⟩])).toOption.map (fun r => (r.1, r.2.stack.map (·.1))) ∧
    (parse ignoreTables 20 (start 0 [⟨7, 1⟩])).toOption.map (fun r => (r.1, r.2.stack.map (·.1))) = some (true, [2, 0]) := by decide +kernel

end Parser
end TameParse

import Mathlib.Computability.Language
import Verif.NdfaProps
/-
Automaton fragments: sets of edges added to an automaton, with a start state, an end state and the language read between them.
`Frag` records whether an edge enters the start state (`i`) or leaves the end state (`o`); the construction used by the regular
expression compiler is right exactly as long as these do not get in each other's way.
-/
namespace TameParse

/-- Edges: `none` is an epsilon edge. -/
abbrev Edges := Nat → Option Int → Nat → Prop

/-- Strings read from one state to another. -/
inductive Path (E : Edges) : Nat → List Int → Nat → Prop
  | nil (p) : Path E p [] p
  | cons {p l q w r} : E p l q → Path E q w r → Path E p (l.toList ++ w) r

namespace Path

theorem trans {E : Edges} {p q r : Nat} {u v : List Int} (h : Path E p u q) (g : Path E q v r) : Path E p (u ++ v) r := by
  induction h with
  | nil => exact g
  | cons e _ ih => rw [List.append_assoc]; exact .cons e (ih g)

theorem mono {E F : Edges} (h : ∀ a l b, E a l b → F a l b) {p q : Nat} {w : List Int} (g : Path E p w q) : Path F p w q := by
  induction g with
  | nil => exact .nil _
  | cons e _ ih => exact .cons (h _ _ _ e) ih

/-- A path that starts in a region left only by edges of `E` that stay in it. -/
theorem restrict {G E : Edges} {P : Nat → Prop} (h : ∀ a l b, P a → G a l b → E a l b ∧ P b) {a c : Nat} {w : List Int}
    (g : Path G a w c) (ha : P a) : Path E a w c ∧ P c := by
  induction g with
  | nil => exact ⟨.nil _, ha⟩
  | cons e _ ih => exact ⟨.cons (h _ _ _ ha e).1 (ih (h _ _ _ ha e).2).1, (ih (h _ _ _ ha e).2).2⟩

/-- No edge leaves the state. -/
theorem stuck {E : Edges} {c d : Nat} {w : List Int} (h : ∀ l b, ¬ E c l b) (g : Path E c w d) : w = [] ∧ d = c := by
  cases g with
  | nil => exact ⟨rfl, rfl⟩
  | cons e _ => exact absurd e (h _ _)

end Path

/-- One epsilon edge. -/
def epsEdge (p q : Nat) : Edges := fun a l b => a = p ∧ b = q ∧ l = none

/-- One edge on a set of symbols; the empty set is epsilon. -/
def setEdge (p : Nat) (s : SymSet) (q : Nat) : Edges := fun a l b => a = p ∧ b = q ∧ (match l with
  | none => s = []
  | some x => SymSet.Mem x s)

def both (E F : Edges) : Edges := fun a l b => E a l b ∨ F a l b

/-- One symbol of a set. -/
def symLang (s : SymSet) : Language Int := {w | ∃ x, SymSet.Mem x s ∧ w = [x]}

/-- A symbol of one set followed by a symbol of another. -/
def pairLang (s t : SymSet) : Language Int := {w | ∃ x y, SymSet.Mem x s ∧ SymSet.Mem y t ∧ w = [x, y]}

/-- A fragment from `p` to `c` that uses the new states `lo ≤ q < hi` and reads the language `L`. -/
structure Frag (E : Edges) (p c lo hi : Nat) (L : Language Int) (i o : Bool) : Prop where
  src : ∀ a l b, E a l b → a = p ∨ (lo ≤ a ∧ a < hi)
  dst : ∀ a l b, E a l b → b = p ∨ (lo ≤ b ∧ b < hi)
  start : p < lo
  le : lo ≤ hi
  fin : c = p ∨ (lo ≤ c ∧ c < hi)
  noIn : i = false → ∀ a l, ¬ E a l p
  noOut : o = false → ∀ l b, ¬ E c l b
  lang : ∀ w, Path E p w c ↔ w ∈ L

namespace Frag

theorem weaken {E : Edges} {p c lo hi : Nat} {L : Language Int} {i o i' : Bool} (h : Frag E p c lo hi L i o)
    (hii : i' = false → i = false) : Frag E p c lo hi L i' o :=
  ⟨h.src, h.dst, h.start, h.le, h.fin, fun g => h.noIn (hii g), h.noOut, h.lang⟩

/-- Nothing added. -/
theorem empty (p lo : Nat) (h : p < lo) : Frag (fun _ _ _ => False) p p lo lo 1 false false := by
  refine ⟨by simp, by simp, h, Nat.le_refl _, .inl rfl, by simp, by simp, fun w => ?_⟩
  rw [Language.mem_one]
  constructor
  · intro g; exact (g.stuck (by simp)).1
  · rintro rfl; exact .nil _

/-- One edge to a new state. -/
theorem edge (p lo : Nat) (s : SymSet) (h : p < lo) :
    Frag (setEdge p s lo) p lo lo (lo + 1) {w | (s = [] ∧ w = []) ∨ ∃ x, SymSet.Mem x s ∧ w = [x]} false false := by
  refine ⟨?_, ?_, h, by omega, .inr (by omega), ?_, ?_, fun w => ?_⟩
  · rintro a l b ⟨rfl, _, _⟩; exact .inl rfl
  · rintro a l b ⟨_, rfl, _⟩; exact .inr (by omega)
  · rintro _ a l ⟨_, g, _⟩; omega
  · rintro _ l b ⟨g, _, _⟩; omega
  · constructor
    · intro g
      cases g with
      | nil => omega
      | @cons _ l q v _ e g =>
        obtain ⟨_, rfl, e⟩ := e
        obtain ⟨rfl, _⟩ := g.stuck (by rintro l b ⟨g, _, _⟩; omega)
        cases l with
        | none => exact .inl ⟨e, rfl⟩
        | some x => exact .inr ⟨x, e, rfl⟩
    · rintro (⟨rfl, rfl⟩ | ⟨x, hx, rfl⟩)
      · exact .cons (l := none) ⟨rfl, rfl, rfl⟩ (.nil _)
      · exact .cons (l := some x) ⟨rfl, rfl, hx⟩ (.nil _)

/-- One after the other, unless edges leave the first end and others enter the second start, which are the same state. -/
theorem cat {E F : Edges} {p m c lo mid hi : Nat} {L M : Language Int} {i₁ o₁ i₂ o₂ : Bool} (h : Frag E p m lo mid L i₁ o₁)
    (g : Frag F m c mid hi M i₂ o₂) (hm : m ≠ p) (hc : c ≠ m) (hs : o₁ = false ∨ i₂ = false) :
    Frag (both E F) p c lo hi (L * M) i₁ o₂ := by
  have hm' := h.fin.resolve_left hm
  have hc' := g.fin.resolve_left hc
  have h0 := h.start
  have h1 := h.le
  have h2 := g.le
  refine ⟨?_, ?_, h0, by omega, .inr (by omega), ?_, ?_, fun w => ?_⟩
  · rintro a l b (e | e)
    · rcases h.src _ _ _ e with rfl | e
      · exact .inl rfl
      · exact .inr (by omega)
    · rcases g.src _ _ _ e with rfl | e <;> exact .inr (by omega)
  · rintro a l b (e | e)
    · rcases h.dst _ _ _ e with rfl | e
      · exact .inl rfl
      · exact .inr (by omega)
    · rcases g.dst _ _ _ e with rfl | e <;> exact .inr (by omega)
  · rintro hi a l (e | e)
    · exact h.noIn hi a l e
    · rcases g.dst _ _ _ e with e | e <;> omega
  · rintro ho l b (e | e)
    · rcases h.src _ _ _ e with e | e <;> omega
    · exact g.noOut ho l b e
  · rw [Language.mem_mul]
    constructor
    · intro w1
      -- the part after the first edge of `F`
      have key2 : ∀ a w, (mid ≤ a ∨ (a = m ∧ o₁ = false)) → Path (both E F) a w c → Path F a w c := by
        intro a w ha gp
        refine (Path.restrict (P := fun a => mid ≤ a ∨ (a = m ∧ o₁ = false)) ?_ gp ha).1
        rintro a l b ha (e | e)
        · rcases ha with ha | ⟨rfl, ho⟩
          · rcases h.src _ _ _ e with e | e <;> omega
          · exact absurd e (h.noOut ho _ _)
        · refine ⟨e, ?_⟩
          rcases g.dst _ _ _ e with rfl | e'
          · rcases hs with hs | hs
            · exact .inr ⟨rfl, hs⟩
            · exact absurd e (g.noIn hs _ _)
          · exact .inl (by omega)
      have key : ∀ a w c', c' = c → Path (both E F) a w c' → (a = p ∨ (lo ≤ a ∧ a < mid)) →
          ∃ u v, Path E a u m ∧ Path F m v c ∧ w = u ++ v := by
        intro a w c' hcc gp
        induction gp with
        | nil => intro ha; omega
        | @cons a l b w r e gp' ih =>
          intro ha
          subst hcc
          rcases e with e | e
          · obtain ⟨u, v, k1, k2, k3⟩ := ih rfl (h.dst _ _ _ e)
            exact ⟨l.toList ++ u, v, .cons e k1, k2, by rw [k3, List.append_assoc]⟩
          · have ham : a = m := by rcases g.src _ _ _ e with k | k <;> omega
            subst ham
            refine ⟨[], _, .nil _, .cons e (key2 _ _ ?_ gp'), rfl⟩
            rcases g.dst _ _ _ e with rfl | e'
            · rcases hs with hs | hs
              · exact .inr ⟨rfl, hs⟩
              · exact absurd e (g.noIn hs _ _)
            · exact .inl (by omega)
      obtain ⟨u, v, k1, k2, k3⟩ := key p w c rfl w1 (.inl rfl)
      exact ⟨u, (h.lang u).1 k1, v, (g.lang v).1 k2, k3.symm⟩
    · rintro ⟨u, hu, v, hv, rfl⟩
      exact (((h.lang u).2 hu).mono (fun _ _ _ => .inl)).trans (((g.lang v).2 hv).mono (fun _ _ _ => .inr))

theorem kstar_append {L : Language Int} {u v : List Int} (hu : u ∈ L) (hv : v ∈ KStar.kstar L) : u ++ v ∈ KStar.kstar L := by
  rw [Language.mem_kstar] at hv ⊢
  obtain ⟨S, rfl, hS⟩ := hv
  exact ⟨u :: S, rfl, by simpa using ⟨hu, hS⟩⟩

theorem kstar_nil {L : Language Int} : [] ∈ KStar.kstar L := by
  rw [Language.mem_kstar]; exact ⟨[], rfl, by simp⟩

/-- An edge back to the start: repetition. -/
theorem plus {E : Edges} {p c lo hi : Nat} {L : Language Int} {i o : Bool} (h : Frag E p c lo hi L i o) :
    Frag (both E (epsEdge c p)) p c lo hi (L * KStar.kstar L) true true := by
  refine ⟨?_, ?_, h.start, h.le, h.fin, by simp, by simp, fun w => ?_⟩
  · rintro a l b (e | ⟨rfl, _, _⟩)
    · exact h.src _ _ _ e
    · exact h.fin
  · rintro a l b (e | ⟨_, rfl, _⟩)
    · exact h.dst _ _ _ e
    · exact .inl rfl
  · rw [Language.mem_mul]
    constructor
    · intro g
      have key : ∀ a w c', c' = c → Path (both E (epsEdge c p)) a w c' →
          ∃ u v, Path E a u c ∧ v ∈ KStar.kstar L ∧ w = u ++ v := by
        intro a w c' hcc gp
        induction gp with
        | nil => subst hcc; exact ⟨[], [], .nil _, kstar_nil, rfl⟩
        | @cons a l b w r e _ ih =>
          subst hcc
          obtain ⟨u, v, k1, k2, k3⟩ := ih rfl
          rcases e with e | ⟨rfl, rfl, rfl⟩
          · exact ⟨_, v, .cons e k1, k2, by rw [k3, List.append_assoc]⟩
          · exact ⟨[], u ++ v, .nil _, kstar_append ((h.lang u).1 k1) k2, by simp [k3]⟩
      obtain ⟨u, v, k1, k2, k3⟩ := key p w c rfl g
      exact ⟨u, (h.lang u).1 k1, v, k2, k3.symm⟩
    · rintro ⟨u, hu, v, hv, rfl⟩
      rw [Language.mem_kstar] at hv
      obtain ⟨S, rfl, hS⟩ := hv
      refine (((h.lang u).2 hu).mono (fun _ _ _ => .inl)).trans ?_
      clear hu
      induction S with
      | nil => exact .nil _
      | cons s S ih =>
        have h1 : Path (both E (epsEdge c p)) c (([] : List Int) ++ s) c :=
          .cons (l := none) (.inr ⟨rfl, rfl, rfl⟩) (((h.lang s).2 (hS s (by simp))).mono (fun _ _ _ => .inl))
        exact h1.trans (ih (fun y hy => hS y (by simp [hy])))

/-- Edges both ways between the ends, when nothing enters the start or leaves the end. -/
theorem star {E : Edges} {p c lo hi : Nat} {L : Language Int} (h : Frag E p c lo hi L false false) (hc : c ≠ p) :
    Frag (both (both E (epsEdge p c)) (epsEdge c p)) p c lo hi (KStar.kstar L) true true := by
  refine ⟨?_, ?_, h.start, h.le, h.fin, by simp, by simp, fun w => ?_⟩
  · rintro a l b ((e | ⟨rfl, _, _⟩) | ⟨rfl, _, _⟩)
    · exact h.src _ _ _ e
    · exact .inl rfl
    · exact h.fin
  · rintro a l b ((e | ⟨_, rfl, _⟩) | ⟨_, rfl, _⟩)
    · exact h.dst _ _ _ e
    · exact h.fin
    · exact .inl rfl
  · constructor
    · intro g
      have key : ∀ a w c', c' = c → Path (both (both E (epsEdge p c)) (epsEdge c p)) a w c' →
          (∃ u v, Path E a u c ∧ v ∈ KStar.kstar L ∧ w = u ++ v) ∨ (a = p ∧ w ∈ KStar.kstar L) := by
        intro a w c' hcc gp
        induction gp with
        | nil => subst hcc; exact .inl ⟨[], [], .nil _, kstar_nil, rfl⟩
        | @cons a l b w r e _ ih =>
          subst hcc
          rcases e with (e | ⟨rfl, rfl, rfl⟩) | ⟨rfl, rfl, rfl⟩
          · rcases ih rfl with ⟨u, v, k1, k2, k3⟩ | ⟨rfl, _⟩
            · exact .inl ⟨_, v, .cons e k1, k2, by rw [k3, List.append_assoc]⟩
            · exact absurd e (h.noIn rfl _ _)
          · rcases ih rfl with ⟨u, v, k1, k2, k3⟩ | ⟨k, _⟩
            · obtain ⟨rfl, _⟩ := k1.stuck (h.noOut rfl)
              exact .inr ⟨rfl, by simpa [k3] using k2⟩
            · exact absurd k hc
          · rcases ih rfl with ⟨u, v, k1, k2, k3⟩ | ⟨_, k⟩
            · exact .inl ⟨[], u ++ v, .nil _, kstar_append ((h.lang u).1 k1) k2, by simp [k3]⟩
            · exact .inl ⟨[], w, .nil _, k, by simp⟩
      rcases key p w c rfl g with ⟨u, v, k1, k2, k3⟩ | ⟨_, k⟩
      · rw [k3]; exact kstar_append ((h.lang u).1 k1) k2
      · exact k
    · intro hv
      rw [Language.mem_kstar] at hv
      obtain ⟨S, rfl, hS⟩ := hv
      induction S with
      | nil => exact .cons (l := none) (.inl (.inr ⟨rfl, rfl, rfl⟩)) (.nil _)
      | cons s S ih =>
        have h1 : Path (both (both E (epsEdge p c)) (epsEdge c p)) p s c :=
          ((h.lang s).2 (hS s (by simp))).mono (fun _ _ _ e => .inl (.inl e))
        have h2 : Path (both (both E (epsEdge p c)) (epsEdge c p)) c [] p :=
          .cons (l := none) (.inr ⟨rfl, rfl, rfl⟩) (.nil _)
        have := h1.trans (h2.trans (ih (fun y hy => hS y (by simp [hy]))))
        simpa using this

/-- An edge from the start to the end, when nothing enters the start or leaves the end. -/
theorem opt {E : Edges} {p c lo hi : Nat} {L : Language Int} (h : Frag E p c lo hi L false false) (hc : c ≠ p) :
    Frag (both E (epsEdge p c)) p c lo hi (1 + L) false false := by
  refine ⟨?_, ?_, h.start, h.le, h.fin, ?_, ?_, fun w => ?_⟩
  · rintro a l b (e | ⟨rfl, _, _⟩)
    · exact h.src _ _ _ e
    · exact .inl rfl
  · rintro a l b (e | ⟨_, rfl, _⟩)
    · exact h.dst _ _ _ e
    · exact h.fin
  · rintro _ a l (e | ⟨_, e, _⟩)
    · exact h.noIn rfl _ _ e
    · exact hc e.symm
  · rintro _ l b (e | ⟨e, _, _⟩)
    · exact h.noOut rfl _ _ e
    · exact hc e
  · rw [Language.mem_add, Language.mem_one]
    constructor
    · intro g
      have key : ∀ a w c', c' = c → Path (both E (epsEdge p c)) a w c' → Path E a w c ∨ (a = p ∧ w = []) := by
        intro a w c' hcc gp
        induction gp with
        | nil => subst hcc; exact .inl (.nil _)
        | @cons a l b w r e _ ih =>
          subst hcc
          rcases e with e | ⟨rfl, rfl, rfl⟩
          · rcases ih rfl with k | ⟨rfl, _⟩
            · exact .inl (.cons e k)
            · exact absurd e (h.noIn rfl _ _)
          · rcases ih rfl with k | ⟨k, _⟩
            · obtain ⟨rfl, _⟩ := k.stuck (h.noOut rfl)
              exact .inr ⟨rfl, rfl⟩
            · exact absurd k hc
      rcases key p w c rfl g with k | ⟨_, k⟩
      · exact .inr ((h.lang w).1 k)
      · exact .inl k
    · rintro (rfl | k)
      · exact .cons (l := none) (.inr ⟨rfl, rfl, rfl⟩) (.nil _)
      · exact ((h.lang w).2 k).mono (fun _ _ _ => .inl)

/-- An edge from the end to a new state. -/
theorem close {E : Edges} {p c lo hi : Nat} {L : Language Int} {o : Bool} (h : Frag E p c lo hi L false o) :
    Frag (both E (epsEdge c hi)) p hi lo (hi + 1) L false false := by
  have h0 := h.start
  have h1 := h.le
  refine ⟨?_, ?_, h0, by omega, .inr (by omega), ?_, ?_, fun w => ?_⟩
  · rintro a l b (e | ⟨rfl, _, _⟩)
    · rcases h.src _ _ _ e with e | e
      · exact .inl e
      · exact .inr (by omega)
    · rcases h.fin with e | e
      · exact .inl e
      · exact .inr (by omega)
  · rintro a l b (e | ⟨_, rfl, _⟩)
    · rcases h.dst _ _ _ e with e | e
      · exact .inl e
      · exact .inr (by omega)
    · exact .inr (by omega)
  · rintro _ a l (e | ⟨_, e, _⟩)
    · exact h.noIn rfl _ _ e
    · omega
  · rintro _ l b (e | ⟨e, _, _⟩)
    · rcases h.src _ _ _ e with e | e <;> omega
    · rcases h.fin with e | e <;> omega
  · rw [← h.lang]
    constructor
    · intro g
      have key : ∀ a w c', c' = hi → Path (both E (epsEdge c hi)) a w c' → a ≠ hi → Path E a w c := by
        intro a w c' hcc gp
        induction gp with
        | nil => intro k; exact absurd hcc k
        | @cons a l b w r e gp' ih =>
          intro _
          rcases e with e | ⟨rfl, rfl, rfl⟩
          · refine .cons e (ih hcc ?_)
            rcases h.dst _ _ _ e with k | k <;> omega
          · obtain ⟨rfl, _⟩ := gp'.stuck (by
              rintro l b (e | ⟨e, _, _⟩)
              · rcases h.src _ _ _ e with e | e <;> omega
              · rcases h.fin with e | e <;> omega)
            exact .nil _
      exact key p w hi rfl g (by omega)
    · intro g
      have := (g.mono (F := both E (epsEdge c hi)) (fun _ _ _ => .inl)).trans
        (.cons (l := none) (.inr ⟨rfl, rfl, rfl⟩) (.nil hi))
      simpa using this

/-- A second fragment from the same start, joined to the end of the first. -/
theorem alt {E F : Edges} {p f c lo mid hi : Nat} {L M : Language Int} {o : Bool} (h : Frag E p f lo mid L false false)
    (hf : f ≠ p) (g : Frag F p c mid hi M false o) :
    Frag (both (both E F) (epsEdge c f)) p f lo hi (L + M) false false := by
  have hf' := h.fin.resolve_left hf
  have h0 := h.start
  have h1 := h.le
  have h2 := g.le
  have hc := g.fin
  refine ⟨?_, ?_, h0, by omega, .inr (by omega), ?_, ?_, fun w => ?_⟩
  · rintro a l b ((e | e) | ⟨rfl, _, _⟩)
    · rcases h.src _ _ _ e with e | e
      · exact .inl e
      · exact .inr (by omega)
    · rcases g.src _ _ _ e with e | e
      · exact .inl e
      · exact .inr (by omega)
    · rcases hc with e | e
      · exact .inl e
      · exact .inr (by omega)
  · rintro a l b ((e | e) | ⟨_, rfl, _⟩)
    · rcases h.dst _ _ _ e with e | e
      · exact .inl e
      · exact .inr (by omega)
    · rcases g.dst _ _ _ e with e | e
      · exact .inl e
      · exact .inr (by omega)
    · exact .inr (by omega)
  · rintro _ a l ((e | e) | ⟨_, e, _⟩)
    · exact h.noIn rfl _ _ e
    · exact g.noIn rfl _ _ e
    · exact hf e.symm
  · rintro _ l b ((e | e) | ⟨e, _, _⟩)
    · exact h.noOut rfl _ _ e
    · rcases g.src _ _ _ e with e | e <;> omega
    · rcases hc with k | k <;> omega
  · rw [Language.mem_add, ← h.lang, ← g.lang]
    constructor
    · intro gp
      -- inside the first fragment
      have k1 : ∀ a w, lo ≤ a ∧ a < mid → Path (both (both E F) (epsEdge c f)) a w f → Path E a w f := by
        intro a w ha gp
        refine (Path.restrict (P := fun a => lo ≤ a ∧ a < mid) ?_ gp ha).1
        rintro a l b ha ((e | e) | ⟨e, _, _⟩)
        · refine ⟨e, ?_⟩
          rcases h.dst _ _ _ e with rfl | k
          · exact absurd e (h.noIn rfl _ _)
          · exact k
        · rcases g.src _ _ _ e with k | k <;> omega
        · rcases hc with k | k <;> omega
      have k0 : ∀ w, Path (both (both E F) (epsEdge c f)) f w f → w = [] := by
        intro w gp
        exact ((k1 f w hf' gp).stuck (h.noOut rfl)).1
      -- inside the second
      have k2 : ∀ a w f', f' = f → Path (both (both E F) (epsEdge c f)) a w f' → mid ≤ a ∧ a < hi → Path F a w c := by
        intro a w f' hff gp
        induction gp with
        | nil => intro k; omega
        | @cons a l b w r e gp' ih =>
          intro ha
          subst hff
          rcases e with (e | e) | ⟨rfl, rfl, rfl⟩
          · rcases h.src _ _ _ e with k | k <;> omega
          · refine .cons e (ih rfl ?_)
            rcases g.dst _ _ _ e with rfl | k
            · exact absurd e (g.noIn rfl _ _)
            · exact k
          · have := k0 _ gp'
            subst this
            exact .nil _
      cases gp with
      | nil => exact absurd rfl hf
      | cons e gp' =>
        rcases e with (e | e) | ⟨rfl, rfl, rfl⟩
        · rcases h.dst _ _ _ e with rfl | k
          · exact absurd e (h.noIn rfl _ _)
          · exact .inl (.cons e (k1 _ _ k gp'))
        · rcases g.dst _ _ _ e with rfl | k
          · exact absurd e (g.noIn rfl _ _)
          · exact .inr (.cons e (k2 _ _ f rfl gp' k))
        · have := k0 _ gp'
          subst this
          exact .inr (.nil _)
    · rintro (k | k)
      · exact k.mono (fun _ _ _ e => .inl (.inl e))
      · have := (k.mono (F := both (both E F) (epsEdge c f)) (fun _ _ _ e => .inl (.inr e))).trans
          (.cons (l := none) (.inr ⟨rfl, rfl, rfl⟩) (.nil f))
        simpa using this

/-- A fragment attached to an automaton whose states are below `lo`: the new end is reached by reaching the start, then reading a
string of the language; nothing changes between the old states. -/
theorem attach {E G : Edges} {p c lo hi : Nat} {L : Language Int} {o : Bool} (h : Frag E p c lo hi L false o) (hc : c ≠ p)
    (hs : ∀ a l b, G a l b → a < lo ∧ b < lo) :
    (∀ a w b, a < lo → b < lo → (Path (both G E) a w b ↔ Path G a w b)) ∧
    (∀ a w, a < lo → (Path (both G E) a w c ↔ ∃ u v, Path G a u p ∧ v ∈ L ∧ w = u ++ v)) := by
  have h0 := h.start
  have hc' := h.fin.resolve_left hc
  -- inside the fragment
  have k1 : ∀ a w b, lo ≤ a → Path (both G E) a w b → Path E a w b ∧ lo ≤ b := by
    intro a w b ha gp
    refine Path.restrict (P := fun a => lo ≤ a) ?_ gp ha
    rintro a l b ha (e | e)
    · have := hs _ _ _ e; omega
    · refine ⟨e, ?_⟩
      rcases h.dst _ _ _ e with rfl | k
      · exact absurd e (h.noIn rfl _ _)
      · exact k.1
  constructor
  · intro a w b ha hb
    constructor
    · intro gp
      induction gp with
      | nil => exact .nil _
      | @cons a l b w r e gp' ih =>
        rcases e with e | e
        · exact .cons e (ih (hs _ _ _ e).2 hb)
        · rcases h.dst _ _ _ e with rfl | k
          · exact absurd e (h.noIn rfl _ _)
          · have := (k1 _ _ _ k.1 gp').2
            omega
    · exact Path.mono (fun _ _ _ => .inl)
  · intro a w ha
    constructor
    · intro gp
      have key : ∀ a w c', c' = c → Path (both G E) a w c' → a < lo → ∃ u v, Path G a u p ∧ v ∈ L ∧ w = u ++ v := by
        intro a w c' hcc gp
        induction gp with
        | nil => intro k; omega
        | @cons a l b w r e gp' ih =>
          intro ha
          rcases e with e | e
          · obtain ⟨u, v, g1, g2, g3⟩ := ih hcc (hs _ _ _ e).2
            exact ⟨l.toList ++ u, v, .cons e g1, g2, by rw [g3, List.append_assoc]⟩
          · have hap : a = p := by rcases h.src _ _ _ e with k | k <;> omega
            subst hap
            rcases h.dst _ _ _ e with rfl | k
            · exact absurd e (h.noIn rfl _ _)
            · subst hcc
              refine ⟨[], _, .nil _, (h.lang _).1 (.cons e (k1 _ _ _ k.1 gp').1), rfl⟩
      exact key a w c rfl gp ha
    · rintro ⟨u, v, g1, g2, rfl⟩
      exact (g1.mono (fun _ _ _ => .inl)).trans (((h.lang v).2 g2).mono (fun _ _ _ => .inr))

/-- A new end state that nothing leads to yet. -/
theorem unreached (p lo : Nat) (h : p < lo) : Frag (fun _ _ _ => False) p lo lo (lo + 1) 0 false false := by
  refine ⟨by simp, by simp, h, by omega, .inr (by omega), by simp, by simp, fun w => ?_⟩
  constructor
  · intro g
    have := (g.stuck (by simp)).2
    omega
  · intro g; exact absurd g (Language.notMem_zero w)

/-- One more edge on a non-empty set from the start to the end. -/
theorem direct {E : Edges} {p q lo hi : Nat} {L : Language Int} (h : Frag E p q lo hi L false false) (hq : q ≠ p) (s : SymSet)
    (hs : s ≠ []) : Frag (both E (setEdge p s q)) p q lo hi (L + symLang s) false false := by
  refine ⟨?_, ?_, h.start, h.le, h.fin, ?_, ?_, fun w => ?_⟩
  · rintro a l b (e | ⟨rfl, _, _⟩)
    · exact h.src _ _ _ e
    · exact .inl rfl
  · rintro a l b (e | ⟨_, rfl, _⟩)
    · exact h.dst _ _ _ e
    · exact h.fin
  · rintro _ a l (e | ⟨_, e, _⟩)
    · exact h.noIn rfl _ _ e
    · exact hq e.symm
  · rintro _ l b (e | ⟨e, _, _⟩)
    · exact h.noOut rfl _ _ e
    · exact hq e
  · rw [Language.mem_add, ← h.lang]
    have stuck : ∀ w, Path (both E (setEdge p s q)) q w q → w = [] := by
      intro w g
      exact (g.stuck (by
        rintro l b (e | ⟨e, _, _⟩)
        · exact h.noOut rfl _ _ e
        · exact hq e)).1
    constructor
    · intro g
      have key : ∀ a w q', q' = q → Path (both E (setEdge p s q)) a w q' → a ≠ p → Path E a w q := by
        intro a w q' hqq gp
        induction gp with
        | nil => subst hqq; intro _; exact .nil _
        | @cons a l b w r e gp' ih =>
          intro ha
          rcases e with e | ⟨e, _, _⟩
          · refine .cons e (ih hqq ?_)
            rintro rfl
            exact h.noIn rfl _ _ e
          · exact absurd e ha
      cases g with
      | nil => exact absurd rfl hq
      | @cons _ l b w _ e g =>
        rcases e with e | ⟨_, rfl, e⟩
        · refine .inl (.cons e (key _ _ q rfl g ?_))
          rintro rfl
          exact h.noIn rfl _ _ e
        · have := stuck _ g
          subst this
          cases l with
          | none => exact absurd e hs
          | some x => exact .inr ⟨x, e, rfl⟩
    · rintro (g | ⟨x, hx, rfl⟩)
      · exact g.mono (fun _ _ _ => .inl)
      · exact .cons (l := some x) (.inr ⟨rfl, rfl, hx⟩) (.nil _)

/-- Two edges on non-empty sets through a new state. -/
theorem via {E : Edges} {p q lo hi : Nat} {L : Language Int} (h : Frag E p q lo hi L false false) (hq : q ≠ p) (s t : SymSet)
    (hs : s ≠ []) (ht : t ≠ []) : Frag (both (both E (setEdge p s hi)) (setEdge hi t q)) p q lo (hi + 1)
      (L + pairLang s t) false false := by
  have h0 := h.start
  have h1 := h.le
  have hq' := h.fin.resolve_left hq
  refine ⟨?_, ?_, h0, by omega, .inr (by omega), ?_, ?_, fun w => ?_⟩
  · rintro a l b ((e | ⟨rfl, _, _⟩) | ⟨rfl, _, _⟩)
    · rcases h.src _ _ _ e with e | e
      · exact .inl e
      · exact .inr (by omega)
    · exact .inl rfl
    · exact .inr (by omega)
  · rintro a l b ((e | ⟨_, rfl, _⟩) | ⟨_, rfl, _⟩)
    · rcases h.dst _ _ _ e with e | e
      · exact .inl e
      · exact .inr (by omega)
    · exact .inr (by omega)
    · exact .inr (by omega)
  · rintro _ a l ((e | ⟨_, e, _⟩) | ⟨_, e, _⟩)
    · exact h.noIn rfl _ _ e
    · omega
    · exact hq e.symm
  · rintro _ l b ((e | ⟨e, _, _⟩) | ⟨e, _, _⟩)
    · exact h.noOut rfl _ _ e
    · exact hq e
    · omega
  · rw [Language.mem_add, ← h.lang]
    have stuck : ∀ w, Path (both (both E (setEdge p s hi)) (setEdge hi t q)) q w q → w = [] := by
      intro w g
      exact (g.stuck (by
        rintro l b ((e | ⟨e, _, _⟩) | ⟨e, _, _⟩)
        · exact h.noOut rfl _ _ e
        · exact hq e
        · omega)).1
    constructor
    · intro g
      have key : ∀ a w q', q' = q → Path (both (both E (setEdge p s hi)) (setEdge hi t q)) a w q' → a ≠ p → a ≠ hi → Path E a w q := by
        intro a w q' hqq gp
        induction gp with
        | nil => subst hqq; intro _ _; exact .nil _
        | @cons a l b w r e gp' ih =>
          intro ha ha'
          rcases e with (e | ⟨e, _, _⟩) | ⟨e, _, _⟩
          · refine .cons e (ih hqq ?_ ?_)
            · rintro rfl; exact h.noIn rfl _ _ e
            · rcases h.dst _ _ _ e with k | k <;> omega
          · exact absurd e ha
          · exact absurd e ha'
      cases g with
      | nil => exact absurd rfl hq
      | @cons _ l b w _ e g =>
        rcases e with (e | ⟨_, rfl, e⟩) | ⟨e, _, _⟩
        · refine .inl (.cons e (key _ _ q rfl g ?_ ?_))
          · rintro rfl; exact h.noIn rfl _ _ e
          · rcases h.dst _ _ _ e with k | k <;> omega
        · cases l with
          | none => exact absurd e hs
          | some x =>
            cases g with
            | nil => omega
            | @cons _ l' b' w' _ e' g' =>
              rcases e' with (e' | ⟨e', _, _⟩) | ⟨_, rfl, e'⟩
              · rcases h.src _ _ _ e' with k | k <;> omega
              · omega
              · have := stuck _ g'
                subst this
                cases l' with
                | none => exact absurd e' ht
                | some y => exact .inr ⟨x, y, e, e', rfl⟩
        · omega
    · rintro (g | ⟨x, y, hx, hy, rfl⟩)
      · exact g.mono (fun _ _ _ e => .inl (.inl e))
      · exact .cons (l := some x) (.inl (.inr ⟨rfl, rfl, hx⟩)) (.cons (l := some y) (.inr ⟨rfl, rfl, hy⟩) (.nil _))

end Frag

/-! ### Edges of an automaton -/

namespace Ndfa

/-- The edges of an automaton. -/
def edges (n : Ndfa) : Edges := fun a l b => match l with
  | none => EpsStep n a b
  | some x => SymStep n a x b

theorem reach_iff_path (n : Ndfa) (q : Nat) (w : List Int) (p : Nat) : Reach n q w p ↔ Path n.edges q w p := by
  constructor
  · intro h
    induction h with
    | refl => exact .nil _
    | eps _ e ih => simpa using ih.trans (.cons (l := none) e (.nil _))
    | sym _ e ih => exact ih.trans (.cons (l := some _) e (.nil _))
  · intro h
    have key : ∀ u, Reach n q u q → Reach n q (u ++ w) p := by
      have : ∀ a w p, Path n.edges a w p → ∀ u, Reach n q u a → Reach n q (u ++ w) p := by
        intro a w p h
        induction h with
        | nil => intro u hu; simpa using hu
        | @cons a l b w r e _ ih =>
          intro u hu
          cases l with
          | none => simpa using ih u (.eps hu e)
          | some x => simpa using ih (u ++ [x]) (.sym hu e)
      intro u hu; exact this _ _ _ h u hu
    exact key [] .refl

theorem addState_trans (n : Ndfa) (q : Nat) : n.addState.1.trans q = n.trans q := by
  simp only [trans, addState]
  by_cases hq : q < n.states.length
  · rw [List.getElem?_append_left hq]
  · have : n.states[q]? = none := List.getElem?_eq_none (by omega)
    rw [List.getElem?_append_right (by omega), this]
    cases hx : q - n.states.length with
    | zero => simp
    | succ k => simp

theorem addState_wf {n : Ndfa} (h : n.WF) : n.addState.1.WF := by
  refine ⟨h.map, fun q t hqt => ?_, fun q t hqt => ?_⟩
  · rw [addState_trans] at hqt
    have := h.target q t hqt
    simp only [addState, List.length_append, List.length_singleton]; omega
  · rw [addState_trans] at hqt; exact h.symbol q t hqt

theorem addState_edges (n : Ndfa) : n.addState.1.edges = n.edges := by
  funext a l b
  cases l <;> simp only [edges, EpsStep, SymStep, addState_trans] <;> rfl

/-- One more transition is one more edge. -/
theorem addTransition_spec {n : Ndfa} (h : n.WF) (q q' : Nat) (s : SymSet) (hq : q < n.states.length) (hq' : q' < n.states.length) :
    (n.addTransition q s q').WF ∧ (n.addTransition q s q').states.length = n.states.length ∧
    (n.addTransition q s q').accept = n.accept ∧
    (n.addTransition q s q').edges = both n.edges (setEdge q s q') := by
  obtain ⟨h1, h2, ⟨l, h3, _⟩, _⟩ := SymbolMap.identifierFor_spec n.syms s h.map
  have hmem : ∀ p t, t ∈ (n.addTransition q s q').trans p ↔
      t ∈ n.trans p ∨ (p = q ∧ t = ((n.syms.identifierFor s).2, q')) := by
    intro p t
    simp only [addTransition]
    rw [if_pos ⟨hq, hq'⟩]
    simp only [trans]
    by_cases hp : p = q
    · subst hp
      rw [List.getElem?_set_self hq]
      simp only [Option.getD_some, mem_addTrans, true_and]
      tauto
    · rw [List.getElem?_set_ne (Ne.symm hp)]
      simp [hp]
  have hsyms : (n.addTransition q s q').syms = (n.syms.identifierFor s).1 := by
    simp only [addTransition]; rw [if_pos ⟨hq, hq'⟩]
  have hlen : (n.addTransition q s q').states.length = n.states.length := by
    simp only [addTransition]; rw [if_pos ⟨hq, hq'⟩]; simp
  have hacc : (n.addTransition q s q').accept = n.accept := by
    simp only [addTransition]; rw [if_pos ⟨hq, hq'⟩]
  have hget : ∀ i, i < n.syms.count → (n.syms.identifierFor s).1.get i = n.syms.get i := by
    intro i hi
    simp only [SymbolMap.get, h3]
    rw [List.getElem?_append_left hi]
  have hnew : (n.syms.identifierFor s).1.get (n.syms.identifierFor s).2 = s := by
    simp only [SymbolMap.get, h2, Option.getD_some]
  refine ⟨⟨?_, ?_, ?_⟩, hlen, hacc, ?_⟩
  · rw [hsyms]; exact h1
  · intro p t ht
    rw [hlen]
    rcases (hmem p t).1 ht with k | ⟨_, k⟩
    · exact h.target p t k
    · rw [k]; exact hq'
  · intro p t ht
    rw [hsyms]
    rcases (hmem p t).1 ht with k | ⟨_, k⟩
    · have := h.symbol p t k
      simp only [SymbolMap.count, h3, List.length_append] at this ⊢
      omega
    · rw [k]
      exact (List.getElem?_eq_some_iff.1 h2).1
  · funext a l b
    apply propext
    cases l with
    | none =>
      simp only [edges, EpsStep, both, setEdge, hsyms]
      constructor
      · rintro ⟨i, k1, k2⟩
        rcases (hmem a _).1 k1 with k | ⟨rfl, k⟩
        · rw [hget i (h.symbol a _ k)] at k2
          exact .inl ⟨i, k, k2⟩
        · obtain ⟨rfl, rfl⟩ := Prod.mk.inj k
          rw [hnew] at k2
          exact .inr ⟨rfl, rfl, k2⟩
      · rintro (⟨i, k1, k2⟩ | ⟨rfl, rfl, k⟩)
        · exact ⟨i, (hmem a _).2 (.inl k1), by rw [hget i (h.symbol a _ k1)]; exact k2⟩
        · exact ⟨_, (hmem a _).2 (.inr ⟨rfl, rfl⟩), by rw [hnew]; exact k⟩
    | some x =>
      simp only [edges, SymStep, both, setEdge, hsyms]
      constructor
      · rintro ⟨i, k1, k2⟩
        rcases (hmem a _).1 k1 with k | ⟨rfl, k⟩
        · rw [hget i (h.symbol a _ k)] at k2
          exact .inl ⟨i, k, k2⟩
        · obtain ⟨rfl, rfl⟩ := Prod.mk.inj k
          rw [hnew] at k2
          exact .inr ⟨rfl, rfl, k2⟩
      · rintro (⟨i, k1, k2⟩ | ⟨rfl, rfl, k⟩)
        · exact ⟨i, (hmem a _).2 (.inl k1), by rw [hget i (h.symbol a _ k1)]; exact k2⟩
        · exact ⟨_, (hmem a _).2 (.inr ⟨rfl, rfl⟩), by rw [hnew]; exact k⟩

theorem addState_length (n : Ndfa) : n.addState.1.states.length = n.states.length + 1 := by simp [addState]

/-- The edges of a well formed automaton are between its states. -/
theorem edges_lt {n : Ndfa} (h : n.WF) (a : Nat) (l : Option Int) (b : Nat) (e : n.edges a l b) :
    a < n.states.length ∧ b < n.states.length := by
  have key : ∀ s, (s, b) ∈ n.trans a → a < n.states.length ∧ b < n.states.length := by
    intro s hs
    refine ⟨?_, h.target a _ hs⟩
    by_contra hno
    simp only [trans] at hs
    rw [List.getElem?_eq_none (by omega)] at hs
    simp at hs
  cases l with
  | none => obtain ⟨s, k, _⟩ := e; exact key s k
  | some x => obtain ⟨s, k, _⟩ := e; exact key s k

theorem setEdge_nil (p q : Nat) : setEdge p [] q = epsEdge p q := by
  funext a l b
  cases l <;> simp [setEdge, epsEdge, SymSet.mem_nil]

end Ndfa
end TameParse

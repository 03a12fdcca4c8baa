import Verif.FollowProps
/-
C87: examples, and where the property fails.
-/
namespace TameParse
open AssocMap

namespace Gram

namespace FollowExample

/-- `S → A b? c | A`, `A → a`, `T → S d`. -/
def g : Gram := ⟨fun n => if n = 1 then [[.nonterminal 2, .ebnf .optional [[.terminal 12]], .terminal 13], [.nonterminal 2]]
  else if n = 2 then [[.terminal 11]] else if n = 3 then [[.nonterminal 1, .terminal 14]] else []⟩

def V : List Item := [.nonterminal 1, .nonterminal 2, .nonterminal 3, .ebnf .optional [[.terminal 12]], .terminal 11, .terminal 12,
  .terminal 13, .terminal 14]

def rank : Item → Nat
  | .nonterminal 1 => 2
  | .nonterminal 3 => 3
  | .nonterminal _ => 1
  | .ebnf _ _ => 1
  | _ => 0

theorem ownRules_eq {x : Item} (hx : x ∈ V) {r : List Item} (hr : r ∈ g.ownRules x) :
    x = .nonterminal 1 ∧ r = [.nonterminal 2, .ebnf .optional [[.terminal 12]], .terminal 13] ∨ x = .nonterminal 1 ∧ r = [.nonterminal 2] ∨
    x = .nonterminal 2 ∧ r = [.terminal 11] ∨ x = .nonterminal 3 ∧ r = [.nonterminal 1, .terminal 14] ∨
    x = .ebnf .optional [[.terminal 12]] ∧ r = [.terminal 12] := by
  simp only [V, List.mem_cons, List.not_mem_nil, or_false] at hx
  rcases hx with rfl | rfl | rfl | rfl | rfl | rfl | rfl | rfl <;> simp [ownRules, g] at hr <;> simp [hr]

theorem closed : g.Closed (· ∈ V) := by
  intro x hx r hr y hy
  rcases ownRules_eq hx hr with ⟨rfl, rfl⟩ | ⟨rfl, rfl⟩ | ⟨rfl, rfl⟩ | ⟨rfl, rfl⟩ | ⟨rfl, rfl⟩ <;>
    (simp only [List.mem_cons, List.not_mem_nil, or_false] at hy; revert hy; intro hy; simp only [V, List.mem_cons]; tauto)

theorem rank_lt {x : Item} (hx : x ∈ V) {r : List Item} (hr : r ∈ g.ownRules x) {y : Item} (hy : y ∈ r) : rank y < rank x := by
  rcases ownRules_eq hx hr with ⟨rfl, rfl⟩ | ⟨rfl, rfl⟩ | ⟨rfl, rfl⟩ | ⟨rfl, rfl⟩ | ⟨rfl, rfl⟩ <;>
    (simp only [List.mem_cons, List.not_mem_nil, or_false] at hy
     rcases hy with rfl | rfl | rfl <;> decide)

theorem simple : g.Simple (· ∈ V) rank := by
  refine ⟨closed, ?_, ?_, ?_, ?_, ?_⟩
  · intro n hn pre y post hm _
    exact rank_lt hn hm (by simp)
  · intro k rs hx y post hm
    exact rank_lt hx hm List.mem_cons_self
  · intro k rs hx y post hm _
    rcases ownRules_eq hx hm with ⟨h, _⟩ | ⟨h, _⟩ | ⟨h, _⟩ | ⟨h, _⟩ | ⟨_, h⟩
    · cases h
    · cases h
    · cases h
    · cases h
    · cases h; rfl
  · intro rs hx
    simp [V] at hx
  · intro n hn before r after he _ y z rest hm
    exfalso
    simp only [V, List.mem_cons, List.not_mem_nil, or_false, Item.nonterminal.injEq, reduceCtorEq] at hn
    rcases hn with rfl | rfl | rfl
    · have he' : [[Item.nonterminal 2, .ebnf .optional [[.terminal 12]], .terminal 13], [.nonterminal 2]] = before ++ r :: after := he
      cases before with
      | nil => cases he'; simp at hm
      | cons b before =>
        cases before with
        | nil => cases he'; cases hm
        | cons b' before => simp at he'
    · have he' : [[Item.terminal 11]] = before ++ r :: after := he
      cases before with
      | nil => cases he'; cases hm
      | cons b before => simp at he'
    · have he' : [[Item.nonterminal 1, .terminal 14]] = before ++ r :: after := he
      cases before with
      | nil => cases he'; cases hm
      | cons b before => simp at he'

theorem oneRule : OneRule (· ∈ V) := by
  intro k rs hx _
  simp [V] at hx
  exact ⟨_, hx.2⟩

theorem asks : (g.follow [1, 2, 3] id 9 9 {} (.nonterminal 2)).map Prod.snd = some
    [.empty, .terminal 12, .terminal 13, .terminal 14] := by decide +kernel

theorem answers : ∃ c s, g.follow [1, 2, 3] id 9 9 {} (.nonterminal 2) = some (c, s) ∧
    s = [.empty, .terminal 12, .terminal 13, .terminal 14] := by
  have h := asks
  cases hf : g.follow [1, 2, 3] id 9 9 {} (.nonterminal 2) with
  | none => rw [hf] at h; cases h
  | some p =>
    rw [hf] at h
    simp only [Option.map_some, Option.some.injEq] at h
    exact ⟨p.1, p.2, rfl, h⟩

theorem visits : Visits id := fun _ _ _ => Iff.rfl

theorem exact (t : Item) (ht : isLeaf t) : t ∈ [Item.terminal 12, .terminal 13, .terminal 14] ↔
    ∃ n ∈ [1, 2, 3], ∃ a b, g.Derives [.nonterminal n] (a ++ .nonterminal 2 :: t :: b) := by
  obtain ⟨c, s, h, rfl⟩ := answers
  have hN : ∀ n ∈ [(1 : Int), 2, 3], Item.nonterminal n ∈ V := by simp [V]
  have hno : ∀ k rs, Item.ebnf k rs ∈ V → k ≠ .repeating ∧ k ≠ .repeatZero := by
    intro k rs hm
    simp [V] at hm
    rw [hm.1]
    exact ⟨nofun, nofun⟩
  rw [← follow_exact_partial (· ∈ V) rank simple oneRule hN (by
    intro n hn
    simp only [g] at hn
    split at hn
    · simp [*]
    · split at hn
      · simp [*]
      · split at hn
        · simp [*]
        · exact absurd rfl hn) id visits 9 9 [] nofun {} c _ _ rfl h nofun (not_endsRep closed hN hno (by simp [V])) t ht]
  cases t <;> simp_all [isLeaf]

/-- `c` comes after `A`, `d` does at the end of `S`, but `a` never does. -/
example : (∃ n ∈ [1, 2, 3], ∃ a b, g.Derives [.nonterminal n] (a ++ .nonterminal 2 :: .terminal 14 :: b)) ∧
    ¬ ∃ n ∈ [1, 2, 3], ∃ a b, g.Derives [.nonterminal n] (a ++ .nonterminal 2 :: .terminal 11 :: b) :=
  ⟨(exact (.terminal 14) rfl).1 (by simp), fun h => absurd ((exact (.terminal 11) rfl).2 h) (by simp)⟩

/-! ### Where the property fails -/

/-- `(b A)+` -/
def bA : Item := .ebnf .repeating [[.terminal 12, .nonterminal 2]]

/-- C87 is violated by repetitions: for `S → (b A)+ c`, `A → a` the set of `A` holds `c` but not `b`, though `b A b A c` is a sentential form. -/
theorem follow_complete_violated : ∃ (g : Gram) (c : Caches) (s : List Item), g.follow [1, 2] id 9 9 {} (.nonterminal 2) = some (c, s) ∧
    .terminal 13 ∈ s ∧ .terminal 12 ∉ s ∧
    g.Derives [.nonterminal 1] [.terminal 12, .nonterminal 2, .terminal 12, .nonterminal 2, .terminal 13] := by
  refine ⟨⟨fun n => if n = 1 then [[bA, .terminal 13]] else if n = 2 then [[.terminal 11]] else []⟩, _, _, rfl, by decide +kernel,
    by decide +kernel, ?_⟩
  refine Derives.trans (derives_prod (r := [bA, .terminal 13]) (by simp [prods])) ?_
  refine Derives.trans (v := [bA, .terminal 12, .nonterminal 2, .terminal 13]) ?_ ?_
  · exact Relation.ReflTransGen.single ⟨[], bA, [.terminal 13], _, rfl, by simp only [bA, prods]; exact .tail _ (.head _), rfl⟩
  · exact Relation.ReflTransGen.single ⟨[], bA, [.terminal 12, .nonterminal 2, .terminal 13], _, rfl, by simp only [bA, prods]; exact .head _, rfl⟩

/-- `S → A (a? b)+ c`, `A → d` -/
def g2 : Gram := ⟨fun n => if n = 1 then [[.nonterminal 2, aOptB, .terminal 3]] else if n = 2 then [[.terminal 4]] else []⟩

def V2 : List Item := [.nonterminal 1, .nonterminal 2, aOptB, .ebnf .optional [[.terminal 1]], .terminal 1, .terminal 2, .terminal 3, .terminal 4]

theorem own2 {x : Item} (hx : x ∈ V2) {r : List Item} (hr : r ∈ g2.ownRules x) :
    x = .nonterminal 1 ∧ r = [.nonterminal 2, aOptB, .terminal 3] ∨ x = .nonterminal 2 ∧ r = [.terminal 4] ∨
    x = aOptB ∧ r = [.ebnf .optional [[.terminal 1]], .terminal 2] ∨ x = .ebnf .optional [[.terminal 1]] ∧ r = [.terminal 1] := by
  simp only [V2, List.mem_cons, List.not_mem_nil, or_false] at hx
  rcases hx with rfl | rfl | rfl | rfl | rfl | rfl | rfl | rfl <;> simp [ownRules, g2, aOptB] at hr <;> simp [hr, aOptB]

theorem closed2 : g2.Closed (· ∈ V2) := by
  intro x hx r hr y hy
  rcases own2 hx hr with ⟨rfl, rfl⟩ | ⟨rfl, rfl⟩ | ⟨rfl, rfl⟩ | ⟨rfl, rfl⟩ <;>
    (simp only [List.mem_cons, List.not_mem_nil, or_false] at hy; simp only [V2, List.mem_cons]; tauto)

theorem site_own {g : Gram} {nts : List Int} {X r} (h : Site g nts X r) : r ∈ g.ownRules X := by
  obtain ⟨n, _, r0, h0, hi⟩ := h
  have key : ∀ X r Y s, Inside X r Y s → r ∈ g.ownRules X → s ∈ g.ownRules Y := by
    intro X r Y s h
    induction h with
    | self => exact id
    | step _ hr _ ih => intro _; exact ih hr
  exact key _ _ _ _ hi h0

/-- C87 is violated where FIRST sets are wrong: for `S → A (a? b)+ c` the set of `A` holds `c`, which never comes after `A`. -/
theorem follow_sound_violated : ∃ (c : Caches) (s : List Item), g2.follow [1, 2] id 9 9 {} (.nonterminal 2) = some (c, s) ∧
    .terminal 3 ∈ s ∧ ¬ ∃ n ∈ [1, 2], ∃ a b, g2.Derives [.nonterminal n] (a ++ .nonterminal 2 :: .terminal 3 :: b) := by
  refine ⟨_, _, rfl, by decide +kernel, ?_⟩
  rintro ⟨n, _, a, b, hd⟩
  have hN : ∀ n ∈ [(1 : Int), 2], Item.nonterminal n ∈ V2 := by simp [V2]
  have h1 : OneRule (· ∈ V2) := by
    intro k rs hx _
    simp [V2, aOptB] at hx
    rcases hx with hx | hx <;> exact ⟨_, hx.2⟩
  have hall : ∀ n, g2.rules n ≠ [] → n ∈ [(1 : Int), 2] := by
    intro n hn
    simp only [g2] at hn
    split at hn
    · simp [*]
    · split at hn
      · simp [*]
      · exact absurd rfl hn
  -- where `A` stands
  have hsite : ∀ X a b, Site g2 [1, 2] X (a ++ .nonterminal 2 :: b) → X = .nonterminal 1 ∧ b = [aOptB, .terminal 3] := by
    intro X a b hs
    rcases own2 (hs.mem closed2 hN) (site_own hs) with ⟨rfl, h⟩ | ⟨rfl, h⟩ | ⟨rfl, h⟩ | ⟨rfl, h⟩
    · refine ⟨rfl, ?_⟩
      cases a with
      | nil => simpa using h
      | cons a0 a =>
        simp only [List.cons_append, List.cons.injEq] at h
        have : Item.nonterminal 2 ∈ [aOptB, .terminal 3] := by rw [← h.2]; simp
        simp [aOptB] at this
    · have : Item.nonterminal 2 ∈ [Item.terminal 4] := by rw [← h]; simp
      simp at this
    · have : Item.nonterminal 2 ∈ [Item.ebnf .optional [[.terminal 1]], .terminal 2] := by rw [← h]; simp
      simp at this
    · have : Item.nonterminal 2 ∈ [Item.terminal 1] := by rw [← h]; simp
      simp at this
  have hnn : ¬ g2.Nullable aOptB := fun hn => not_nullable_leaf (t := .terminal 2) rfl (nullable_repeating hn _ (by simp [ebnfRule]))
  have hend : ¬ EndsRep g2 [1, 2] (.nonterminal 2) := by
    intro h
    cases h with
    | last hs hn _ =>
      obtain ⟨_, rfl⟩ := hsite _ _ _ hs
      exact hnn (hn aOptB List.mem_cons_self)
  have hF := (derives_follows h1 closed2 hN hall hd).2 (.terminal 3) a _ (.terminal 3 :: b) rfl hend (beginsList_cons_of (.leaf rfl))
  cases hF with
  | atEnd hs hn _ =>
    obtain ⟨_, rfl⟩ := hsite _ _ _ hs
    exact hnn (hn aOptB List.mem_cons_self)
  | after hs hb =>
    obtain ⟨_, rfl⟩ := hsite _ _ _ hs
    rcases beginsList_cons hb with hb | ⟨hn, _⟩
    · have := begins_repeat (.inl rfl) hb
      rcases beginsList_cons (by simpa [ebnfRule] using this) with hb | ⟨_, hb⟩
      · obtain ⟨r, hr, hb⟩ := begins_prods hb (by simp [isLeaf])
        simp only [prods, ebnfRule, List.headD_cons, List.mem_cons, List.not_mem_nil, or_false] at hr
        rcases hr with rfl | rfl
        · exact not_beginsList_nil hb
        · rcases beginsList_cons hb with hb | ⟨_, hb⟩
          · cases hb with
            | prod hr _ _ => simp [prods] at hr
          · exact not_beginsList_nil hb
      · rcases beginsList_cons hb with hb | ⟨_, hb⟩
        · cases hb with
          | prod hr _ _ => simp [prods] at hr
        · exact not_beginsList_nil hb
    · exact hnn hn

end FollowExample

end Gram
end TameParse

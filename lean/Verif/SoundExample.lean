import Verif.SoundGrammarProps

/-!
# An instance of C35

The grammar `pointerGram` with a weak and an ignored symbol: the hypotheses of `parser_sound` hold, and there are inputs that are accepted.
-/

namespace TameParse
namespace Sound

open AssocMap Closure Relation Lalr TameParse.Parser ParserTables

/-! Closures with enough fuel -/

/-- A bound on the number of elements that a closure can have. -/
def elems (g : Gram) (U : List Item) (n : Nat) : Nat := (U.flatMap fun x => closRules g x).length * (n + 1)

theorem space_card (g : Gram) (U Sy : List Item) : (space g U Sy).card ≤ elems g U Sy.length := by
  unfold space elems
  refine (List.toFinset_card_le _).trans ?_
  have h1 : ∀ (l : List LItem), (l.flatMap fun i => (none :: Sy.map some).map fun o => (i, o)).length = l.length * (Sy.length + 1) := by
    intro l
    induction l with
    | nil => simp
    | cons a l ih =>
      rw [List.flatMap_cons, List.length_append, ih]
      simp [Nat.succ_mul, Nat.add_comm]
  have h2 : ∀ (l : List Item), (l.flatMap fun x => (closRules g x).map fun r => (⟨⟨x, r⟩, 0⟩ : LItem)).length = (l.flatMap fun x => closRules g x).length := by
    intro l
    induction l with
    | nil => rfl
    | cons a l ih => simp [List.flatMap_cons, ih]
  rw [h1, h2]

/-- Enough fuel. -/
def enough (g : Gram) (U Sy : List Item) (la : List Item) : Nat :=
  U.length * (elems g U (la.length + Sy.length + 1) + 1) + elems g U (la.length + Sy.length + 1) + 1

section
variable {first : Item → List Item} {g : Gram} {okI : Item → Prop}

theorem enough_total (hp : Proper first g okI) {U Sy : List Item} (hU : ∀ x, okI x → x ∈ U) (hfirst : ∀ x, okI x → ∀ b ∈ first x, b ∈ Sy)
    {i : LItem} (hdot : i.dot < i.rule.items.length) (hok : ∀ y ∈ i.rule.items, okI y) (la : List Item) {s : Set1} (hk : Keys s) :
    ∃ st', cacheClosure first shared g (enough g U Sy la) [] i la ⟨[], s⟩ = some st' := by
  refine cacheClosure_total (Sy := .eoi :: la ++ Sy) hp hU (fun x hx b hb => List.mem_append_right _ (hfirst x hx b hb)) (by simp) rfl _ [] i la ⟨[], s⟩ ?_
    List.nodup_nil (fun _ h => (List.not_mem_nil h).elim) hdot hok (fun a ha => by simp [ha]) (fun x s h => by cases h) hk
  have h1 := space_card g U (.eoi :: la ++ Sy)
  have h2 := missing_le (space g U (.eoi :: la ++ Sy)) s
  have h3 : (Item.eoi :: la ++ Sy).length = la.length + Sy.length + 1 := by simp [Nat.add_comm]
  rw [h3] at h1
  have h4 := Nat.mul_le_mul_left U.length (Nat.add_le_add_right h1 1)
  rw [List.length_nil, Nat.sub_zero]
  dsimp only
  omega

/-- The closure of an item, with enough fuel. -/
def closWith (first : Item → List Item) (g : Gram) (U Sy : List Item) (i : LItem) (la : List Item) : Set1 :=
  ((cacheClosure first shared g (enough g U Sy la) [] i la ⟨[], []⟩).map (·.set)).getD []

/-- The same, put into a set that has the item. -/
def selfWith (first : Item → List Item) (g : Gram) (U Sy : List Item) (i : LItem) : Set1 :=
  ((cacheClosure first shared g (enough g U Sy [.empty]) [] i [.empty] ⟨[], [(i, [.empty])]⟩).map (·.set)).getD []

theorem closWith_ok (hp : Proper first g okI) {U Sy : List Item} (hU : ∀ x, okI x → x ∈ U) (hfirst : ∀ x, okI x → ∀ b ∈ first x, b ∈ Sy) :
    ClosOk first g okI (closWith first g U Sy) := by
  refine closOk_cache hp fun i la hd hok => ?_
  obtain ⟨st', h⟩ := enough_total hp hU hfirst hd hok la (s := []) List.nodup_nil
  exact ⟨shared, _, [], st', (fun x s h => by cases h), h, by unfold closWith; rw [h]; rfl⟩

theorem selfWith_ok (hp : Proper first g okI) {U Sy : List Item} (hU : ∀ x, okI x → x ∈ U) (hfirst : ∀ x, okI x → ∀ b ∈ first x, b ∈ Sy) :
    SelfOk first g okI (selfWith first g U Sy) := by
  refine selfOk_cache hp fun i hd hok => ?_
  obtain ⟨st', h⟩ := enough_total hp hU hfirst hd hok [.empty] (s := [(i, [.empty])]) (by simp [Keys])
  exact ⟨shared, _, [], st', (fun x s h => by cases h), h, by unfold selfWith; rw [h]; rfl⟩

end

/-! The grammar -/

def pItems : List Item := [.nonterminal 1, .nonterminal 2, .nonterminal 3, .terminal 1, .terminal 2, .terminal 3]

def pSyms : List Item := [.nonterminal 1, .nonterminal 2, .nonterminal 3, .terminal 1, .terminal 2, .terminal 3]

theorem p_univ : Univ pointerFirst pointerGram (· ∈ pItems) (· ∈ pointerRules) := by
  have h1 : ∀ x ∈ pItems, x ≠ .empty := by decide +kernel
  have h2 : ∀ x ∈ pItems, .eoi ∉ pointerFirst x := by decide +kernel
  have h3 : ∀ x ∈ pItems, ∀ r ∈ closRules pointerGram x, ∀ y ∈ r, y ∈ pItems := by decide +kernel
  have h4 : ∀ x ∈ pItems, ∀ r ∈ closRules pointerGram x, (⟨x, r⟩ : Rule) ∈ pointerRules := by decide +kernel
  have h5 : ∀ r ∈ pointerRules, ∀ y ∈ r.items, y ∈ pItems := by decide +kernel
  refine ⟨⟨h1, h2, h3⟩, h4, ?_, h5⟩
  intro p l h
  simp [pItems] at h

def pClos : LItem → List Item → Set1 := closWith pointerFirst pointerGram pItems pSyms
def pSelf : LItem → Set1 := selfWith pointerFirst pointerGram pItems pSyms

theorem p_first : ∀ x, x ∈ pItems → ∀ b ∈ pointerFirst x, b ∈ pSyms := by decide +kernel

/-- The machine without lookaheads. -/
def pMach : Option Mach := completeStates numRule pClos 100 100 (initials [.nonterminal 1])

def pLt (a b : Key) : Bool := decide (a.1 < b.1) || (decide (a.1 = b.1) && ltI numRule a.2 b.2)

/-- The machine. -/
def pFull : Option Mach := pMach.bind (completeLookaheads pLt pSelf 100)

/-- Symbol 4 is a weak equivalent of `id`, symbol 9 is ignored. -/
def pStage : Stage := ⟨[], (Rewriters.Weak.mk [] []).addSymbols (.terminal 3) [.terminal 4], fun _ => [], none, [.terminal 9]⟩

/-- The actions. -/
def pStates : List (List LrAction) := (List.range 10).map fun s => (pFull.bind fun m => (actionsForState pClos (fun _ => []) 100 m s).map (pStage.rewrite s)).getD []

/-- The numbering. -/
def pNum : Numbering := ⟨fun x => (numI x : Int), fun r => (numRule r : Int), fun n => (pointerRules.find? fun r => (numRule r : Int) = n).getD ⟨.empty, []⟩⟩

/-- Sorts weak symbols. -/
def insertWeak (a : Int × Int) : List (Int × Int) → List (Int × Int)
  | [] => [a]
  | b :: l => if b.1 < a.1 then b :: insertWeak a l else a :: b :: l

def sortWeaks : List (Int × Int) → List (Int × Int)
  | [] => []
  | a :: l => insertWeak a (sortWeaks l)

theorem insertWeak_spec (a : Int × Int) : ∀ l : List (Int × Int), (insertWeak a l).Perm (a :: l) ∧
    (l.Pairwise (fun x y => x.1 ≤ y.1) → (insertWeak a l).Pairwise (fun x y => x.1 ≤ y.1))
  | [] => ⟨.refl _, fun _ => by simp [insertWeak]⟩
  | b :: l => by
    obtain ⟨h1, h2⟩ := insertWeak_spec a l
    unfold insertWeak
    by_cases h : b.1 < a.1
    · rw [if_pos h]
      refine ⟨(h1.cons b).trans (.swap a b l), fun hp => ?_⟩
      obtain ⟨p1, p2⟩ := List.pairwise_cons.1 hp
      refine List.pairwise_cons.2 ⟨fun x hx => ?_, h2 p2⟩
      rcases List.mem_cons.1 (h1.mem_iff.1 hx) with rfl | hx
      · omega
      · exact p1 x hx
    · rw [if_neg h]
      refine ⟨.refl _, fun hp => List.pairwise_cons.2 ⟨fun x hx => ?_, hp⟩⟩
      obtain ⟨p1, p2⟩ := List.pairwise_cons.1 hp
      rcases List.mem_cons.1 hx with rfl | hx
      · omega
      · have := p1 x hx
        omega

theorem sortWeaks_isSort : IsSort (fun a b => decide (a.1 < b.1)) sortWeaks := by
  intro l
  have h : (sortWeaks l).Perm l ∧ (sortWeaks l).Pairwise (fun x y => x.1 ≤ y.1) := by
    induction l with
    | nil => exact ⟨.refl _, .nil⟩
    | cons a l ih =>
      obtain ⟨h1, h2⟩ := insertWeak_spec a (sortWeaks l)
      exact ⟨h1.trans (ih.1.cons a), h2 ih.2⟩
  refine ⟨h.1, h.2.imp ?_⟩
  intro a b hab
  simpa using hab

/-- The tables. -/
def pTables : Tables := build pNum insertionSort sortWeaks pStates (some pStage.weak.strongToWeak)

theorem pMach_some : ∃ m m', pMach = some m ∧ pFull = some m' ∧ completeLookaheads pLt pSelf 100 m = some m' ∧ m.states.length = 10 ∧
    kern m 0 = [startItem (.nonterminal 1)] := by
  have h1 : pMach.map (fun m => (m.states.length, kern m 0)) = some (10, [startItem (.nonterminal 1)]) := by decide +kernel
  have h2 : pFull.isSome = true := by decide +kernel
  cases hm : pMach with
  | none => rw [hm] at h1; cases h1
  | some m =>
    rw [hm] at h1
    cases hf : pFull with
    | none => rw [hf] at h2; cases h2
    | some m' =>
      refine ⟨m, m', rfl, rfl, ?_, ?_, ?_⟩
      · unfold pFull at hf
        rw [hm] at hf
        exact hf
      · exact congrArg Prod.fst (Option.some.inj h1)
      · exact congrArg Prod.snd (Option.some.inj h1)

/-- The parser made from `pointerGram` accepts nothing but sentences. -/
theorem pointer_sound {input : List Tok} {pf : Nat} {s' : PState} (h : parse pTables pf (Parser.start 0 input) = .ok (true, s')) :
    Accepted pointerGram pNum (fun n => .terminal n ∈ pStage.ignored) (StrongOf pStage.weak) 0 (.nonterminal 1) input s' := by
  obtain ⟨m, m', h1, h2, h3, h4, h5⟩ := pMach_some
  refine parser_sound (initial := fun _ => []) (okI := (· ∈ pItems)) (okR := (· ∈ pointerRules)) (occ := fun _ => True) (lt := pLt) (clos := pClos) (self := pSelf)
    (languages := [.nonterminal 1]) numRule_inj p_univ (by decide +kernel) (by decide +kernel) (closWith_ok p_univ.proper (fun _ h => h) p_first)
    (selfWith_ok p_univ.proper (fun _ h => h) p_first) h1 h3 ?_ ?_ ?_ ?_ insertionSort_isSort sortWeaks_isSort ?_ ?_ trivial trivial ?_ ?_ h5 h
  · intro s hs
    rw [h4] at hs
    have hall : ∀ s < 10, (pFull.bind fun m => actionsForState pClos (fun _ => []) 100 m s).isSome = true := by decide +kernel
    have := hall s hs
    rw [h2] at this
    obtain ⟨acts, ha⟩ := Option.isSome_iff_exists.1 this
    have ha' : actionsForState pClos (fun _ => []) 100 m' s = some acts := ha
    refine ⟨100, acts, ha', ?_⟩
    unfold pStates
    rw [List.getElem?_map, List.getElem?_range hs, h2]
    simp [ha']
  · rw [h4]
    simp [pStates]
  · decide +kernel
  · intro n a b ha hb
    have key : ∀ a, StrongOf pStage.weak n a → a = 3 := by
      rintro a ⟨ws, h1, h2⟩
      have : pStage.weak.strongToWeak = [(.terminal 3, [.terminal 4])] := by decide +kernel
      rw [this] at h1
      simp at h1
      exact h1.1
    rw [key a ha, key b hb]
  · refine ⟨by decide +kernel, ?_, ?_⟩
    · decide +kernel
    · decide +kernel
  · intro x y _ _ h
    have : numI x = numI y := by simpa [pNum] using h
    exact numI_inj x y this
  · exact fun _ _ _ _ => ⟨fun _ => trivial, fun _ => trivial⟩
  · decide +kernel

/-- `* id = x` with an ignored token, where `x` is the weak equivalent of `id`. -/
example : (parse pTables 100 (Parser.start 0 [⟨2, 42⟩, ⟨9, 32⟩, ⟨3, 105⟩, ⟨1, 61⟩, ⟨4, 120⟩])).toOption.map (·.1) = some true := by decide +kernel

/-- `* = id` is rejected. -/
example : (parse pTables 100 (Parser.start 0 [⟨2, 42⟩, ⟨1, 61⟩, ⟨3, 105⟩])).toOption.map (·.1) = some false := by decide +kernel

end Sound
end TameParse

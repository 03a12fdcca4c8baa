import Verif.Blocks
import Verif.PositionProps
/-
C94: what copies of definition files say.
-/
namespace TameParse
namespace Blocks

/-! ### What copies have in common with the original -/

mutual
/-- The item without the types. -/
def Ebnf.blur : Ebnf → Ebnf
  | .mk _ s i a c p => .mk .junk s i a (blurItems c) p

@[inherit_doc Ebnf.blur]
def blurItems : List Ebnf → List Ebnf
  | [] => []
  | e :: l => e.blur :: blurItems l
end

/-- A definition file without the types of nonterminals and items, the flags of lexer blocks, and the positions of grammars and tests. -/
def File.blur (f : File) : File :=
  let production : Production → Production := fun p => { p with items := blurItems p.items }
  let nonterminal : Nonterminal → Nonterminal := fun n => { n with type := .junk, productions := n.productions.map production }
  let grammar : Grammar → Grammar := fun g => ⟨g.nonterminals.map nonterminal, Place.none⟩
  let lexer : Lexer → Lexer := fun l => { l with weak := .junk, ci := .junk, cs := .junk }
  let unit : LUnit → LUnit := fun u => { u with grammar := u.grammar.map grammar, lexer := u.lexer.map lexer }
  let test : Test → Test := fun t => { t with place := Place.none }
  { f with blocks := f.blocks.map fun t => { t with
      language := match t.language with | .to l => .to { l with units := l.units.map unit } | x => x
      test := match t.test with | .to x => .to (test x) | x => x } }

/-- No pointer is dangling. -/
def Top.Live (t : Top) : Prop := t.import_ ≠ .dangling ∧ t.language ≠ .dangling ∧ t.parser ≠ .dangling ∧ t.test ≠ .dangling

/-- A file that was made by adding blocks, as the language parser does (language_parser.cpp 845-866). -/
def File.Made (f : File) : Prop := (∃ ts : List Top, f = ts.foldl File.add File.new) ∧ ∀ t ∈ f.blocks, t.Live

theorem flatMap_same {α β : Type} {l : List α} {f g : α → List β} (h : ∀ x ∈ l, f x = g x) : l.flatMap f = l.flatMap g := by
  rw [List.flatMap_def, List.flatMap_def, List.map_congr_left h]

mutual
theorem blur_copy : ∀ e : Ebnf, e.copy.blur = e.blur
  | .mk t s i a c p => by rw [Ebnf.copy, Ebnf.blur, Ebnf.blur, blur_copyItems c]

theorem blur_copyItems : ∀ l : List Ebnf, blurItems (copyItems l) = blurItems l
  | [] => rfl
  | e :: l => by rw [copyItems, blurItems, blurItems, blur_copy e, blur_copyItems l]
end

theorem blocks_adds (ts : List Top) (f : File) : (ts.foldl File.add f).blocks = f.blocks ++ ts := by
  induction ts generalizing f with
  | nil => simp
  | cons t ts ih => rw [List.foldl_cons, ih, File.add]; simp

/-- The position of a file depends on those of its blocks only. -/
theorem place_adds (ts us : List Top) (h : ts.map (·.place) = us.map (·.place)) (f g : File) (hp : f.place = g.place) (hb : f.blocks.isEmpty = g.blocks.isEmpty) :
    (ts.foldl File.add f).place = (us.foldl File.add g).place := by
  induction ts generalizing us f g with
  | nil =>
    cases us with
    | nil => exact hp
    | cons u us => simp at h
  | cons t ts ih =>
    cases us with
    | nil => simp at h
    | cons u us =>
      simp only [List.map_cons, List.cons.injEq] at h
      rw [List.foldl_cons, List.foldl_cons]
      refine ih us h.2 _ _ ?_ ?_
      · simp only [File.add, h.1, hp, hb]
      · rw [File.add, File.add]
        cases f.blocks <;> cases g.blocks <;> rfl

theorem File.Made.copy_place {f : File} (h : f.Made) : f.copy.place = f.place := by
  obtain ⟨⟨ts, rfl⟩, -⟩ := h
  rw [File.copy, blocks_adds]
  exact place_adds _ _ (by simp [File.new, Top.copy, Top.assign]) _ _ rfl rfl

theorem before_iff (a b : Pos) : a.lt b = true ↔ a.line < b.line ∨ a.line = b.line ∧ (a.column < b.column ∨ a.column = b.column ∧ a.offset < b.offset) := by
  unfold Pos.lt
  split
  · simp; omega
  · split
    · simp; omega
    · split
      · simp; omega
      · split
        · simp; omega
        · simp; omega

theorem not_before_iff (a b : Pos) : a.lt b = false ↔ b.line < a.line ∨ a.line = b.line ∧ (b.column < a.column ∨ a.column = b.column ∧ b.offset ≤ a.offset) := by
  rw [← Bool.not_eq_true, before_iff]
  omega

/-- A file begins where the first of its blocks begins and ends where the last one ends. -/
theorem File.Made.place_of {f : File} (h : f.Made) (hb : f.blocks ≠ []) :
    ((∃ t ∈ f.blocks, t.place.start = f.place.start) ∧ ∀ t ∈ f.blocks, t.place.start.lt f.place.start = false) ∧
      (∃ t ∈ f.blocks, t.place.final = f.place.final) ∧ ∀ t ∈ f.blocks, f.place.final.lt t.place.final = false := by
  obtain ⟨⟨ts, rfl⟩, -⟩ := h
  suffices key : ∀ (ts : List Top) (f : File), f.blocks ≠ [] →
      (((∃ t ∈ f.blocks, t.place.start = f.place.start) ∧ ∀ t ∈ f.blocks, t.place.start.lt f.place.start = false) ∧
      (∃ t ∈ f.blocks, t.place.final = f.place.final) ∧ ∀ t ∈ f.blocks, f.place.final.lt t.place.final = false) →
      (((∃ t ∈ (ts.foldl File.add f).blocks, t.place.start = (ts.foldl File.add f).place.start) ∧ ∀ t ∈ (ts.foldl File.add f).blocks, t.place.start.lt (ts.foldl File.add f).place.start = false) ∧
      (∃ t ∈ (ts.foldl File.add f).blocks, t.place.final = (ts.foldl File.add f).place.final) ∧ ∀ t ∈ (ts.foldl File.add f).blocks, (ts.foldl File.add f).place.final.lt t.place.final = false) by
    cases ts with
    | nil => exact absurd rfl hb
    | cons t ts =>
      refine key ts (File.new.add t) (by simp [File.add]) ?_
      simp [File.add, File.new, not_before_iff]
  intro ts
  induction ts with
  | nil => exact fun f _ h => h
  | cons t ts ih =>
    intro f hf h
    refine ih (f.add t) (by simp [File.add]) ?_
    obtain ⟨⟨⟨a, ha, ha'⟩, h2⟩, ⟨b, hb, hb'⟩, h4⟩ := h
    have he : f.blocks.isEmpty = false := by simpa using hf
    simp only [File.add, he, Bool.false_or, List.mem_append, List.mem_singleton]
    simp only [not_before_iff, before_iff] at *
    refine ⟨⟨?_, ?_⟩, ?_, ?_⟩
    · split
      · exact ⟨t, .inr rfl, rfl⟩
      · exact ⟨a, .inl ha, ha'⟩
    · rintro c (hc | rfl)
      · have := h2 c hc
        split <;> omega
      · split <;> omega
    · split
      · exact ⟨t, .inr rfl, rfl⟩
      · exact ⟨b, .inl hb, hb'⟩
    · rintro c (hc | rfl)
      · have := h4 c hc
        split <;> omega
      · split <;> omega

/-- What is assigned says what the other item says, apart from the type. -/
theorem assign_agrees (to e : Ebnf) : (to.assign e).blur = e.blur := by
  cases e with
  | mk t s i a c p => rw [Ebnf.assign, Ebnf.blur, Ebnf.blur, blur_copyItems c]

/-- The type stays, so a statement about the type of the item is about the item that was there before. -/
theorem assign_type_violated (to e : Ebnf) (h : to.type ≠ e.type) : (to.assign e).type ≠ e.type := by
  cases e with
  | mk t s i a c p => exact h

theorem copy_blocks (f : File) : f.copy.blocks = f.blocks.map (·.copy) := by
  rw [File.copy, blocks_adds]
  simp [File.new]

/-- Apart from these members a copy says what the original says. -/
theorem copy_agrees_partial {f : File} (h : f.Made) : f.copy.blur = f.blur := by
  have hb := copy_blocks f
  have hp := h.copy_place
  have hl := h.2
  obtain ⟨blocks, place⟩ := f
  generalize File.copy ⟨blocks, place⟩ = g at hb hp
  obtain ⟨gb, gp⟩ := g
  simp only at hb hp
  subst hb hp
  simp only [File.blur, List.map_map, File.mk.injEq, and_true]
  refine List.map_congr_left fun t ht => ?_
  obtain ⟨h1, h2, h3, h4⟩ := hl t ht
  obtain ⟨i, l, p, x, pl⟩ := t
  simp only at h1 h2 h3 h4
  simp only [Function.comp, Top.copy, Top.assign, Top.mk.injEq, and_true]
  refine ⟨?_, ?_, ?_, ?_⟩
  · cases i <;> simp_all [Ptr.assign]
  · cases l with
    | null => rfl
    | dangling => exact absurd rfl h2
    | to l =>
      simp only [Ptr.assign, Lang.copy, Ptr.to.injEq, Lang.mk.injEq, true_and, and_true, List.map_map]
      refine List.map_congr_left fun u _ => ?_
      obtain ⟨g, x, p, ty, pl⟩ := u
      simp only [Function.comp, LUnit.copy, LUnit.mk.injEq, and_true]
      refine ⟨?_, ?_⟩
      · cases g with
        | none => rfl
        | some g =>
          simp only [Option.map_some, Grammar.copy, Option.some.injEq, Grammar.mk.injEq, and_true, List.map_map]
          refine List.map_congr_left fun n _ => ?_
          simp only [Function.comp, Nonterminal.copy, Nonterminal.mk.injEq, true_and, and_true, List.map_map]
          refine List.map_congr_left fun q _ => ?_
          simp only [Function.comp, Production.copy, blur_copyItems]
      · cases x <;> rfl
  · cases p <;> simp_all [Ptr.assign]
  · cases x with
    | null => rfl
    | dangling => exact absurd rfl h4
    | to x => rfl

/-! ### What copies lose -/

/-- The units of all languages of a file. -/
def File.units (f : File) : List LUnit := f.blocks.flatMap fun t => match t.language with | .to l => l.units | _ => []

/-- The tests of a file. -/
def File.tests (f : File) : List Test := f.blocks.flatMap fun t => match t.test with | .to x => [x] | _ => []

/-- The types and flags of the original are set. -/
def File.IsSet (f : File) : Prop :=
  (∀ u ∈ f.units, ∀ g ∈ u.grammar, ∀ n ∈ g.nonterminals, n.type ≠ .junk) ∧ ∀ u ∈ f.units, ∀ l ∈ u.lexer, l.weak ≠ .junk

theorem copy_units (f : File) : f.copy.units = f.units.map (·.copy) := by
  rw [File.units, copy_blocks, File.units, List.flatMap_map, List.map_flatMap]
  refine flatMap_same fun t _ => ?_
  obtain ⟨i, l, p, x, pl⟩ := t
  cases l <;> rfl

theorem copy_tests (f : File) : f.copy.tests = f.tests.map (·.copy) := by
  rw [File.tests, copy_blocks, File.tests, List.flatMap_map, List.map_flatMap]
  refine flatMap_same fun t _ => ?_
  obtain ⟨i, l, p, x, pl⟩ := t
  cases x <;> rfl

/-- The copy is equal to the original only if this defines no lexemes and no nonterminals, and its grammars and tests have no position. -/
theorem copy_iff {f : File} (h : f.Made) (hs : f.IsSet) :
    f.copy = f ↔ (∀ u ∈ f.units, u.lexer = none ∧ ∀ g ∈ u.grammar, g.nonterminals = [] ∧ g.place = Place.none) ∧ ∀ t ∈ f.tests, t.place = Place.none := by
  constructor
  · intro he
    have hu : f.units.map (·.copy) = f.units := by rw [← copy_units, he]
    have ht : f.tests.map (·.copy) = f.tests := by rw [← copy_tests, he]
    have fix : ∀ {α : Type} {c : α → α} {l : List α}, l.map c = l → ∀ x ∈ l, c x = x := by
      intro α c l hl x hx
      have : l.map c = l.map id := by rw [hl, List.map_id]
      exact List.map_inj_left.1 this x hx
    refine ⟨fun u hm => ?_, fun t hm => ?_⟩
    · have hc := fix hu u hm
      have hl := hs.2 u hm
      have hn := hs.1 u hm
      obtain ⟨g, x, p, ty, pl⟩ := u
      simp only [LUnit.copy, LUnit.mk.injEq, and_true] at hc hl hn ⊢
      refine ⟨?_, ?_⟩
      · cases x with
        | none => rfl
        | some x =>
          have := hc.2
          simp only [Option.map_some, Option.some.injEq] at this
          exact absurd (by rw [← this]; rfl) (hl x rfl)
      · intro g' hg
        rw [Option.mem_def] at hg
        subst hg
        have := hc.1
        simp only [Option.map_some, Option.some.injEq] at this
        refine ⟨?_, by rw [← this]; rfl⟩
        have hns : g'.nonterminals.map (·.copy) = g'.nonterminals := congrArg Grammar.nonterminals this
        cases hc : g'.nonterminals with
        | nil => rfl
        | cons n ns =>
          have h1 := fix hns n (by rw [hc]; simp)
          exact absurd (by rw [← h1]; rfl) (hn g' rfl n (by rw [hc]; simp))
    · have := fix ht t hm
      rw [← this]
      rfl
  · rintro ⟨hu, ht⟩
    have hb : f.copy.blocks = f.blocks := by
      rw [copy_blocks]
      refine (?_ : _ = f.blocks.map id).trans (List.map_id _)
      refine List.map_congr_left fun t hm => ?_
      obtain ⟨h1, h2, h3, h4⟩ := h.2 t hm
      have hlu : ∀ l, t.language = .to l → ∀ u ∈ l.units, u ∈ f.units := fun l hl u hul => List.mem_flatMap.2 ⟨t, hm, by rw [hl]; exact hul⟩
      have hlt : ∀ x, t.test = .to x → x ∈ f.tests := fun x hx => List.mem_flatMap.2 ⟨t, hm, by rw [hx]; exact List.mem_singleton.2 rfl⟩
      obtain ⟨i, l, p, x, pl⟩ := t
      simp only at h1 h2 h3 h4 hlu hlt
      simp only [Top.copy, Top.assign, id, Top.mk.injEq, and_true]
      refine ⟨?_, ?_, ?_, ?_⟩
      · cases i <;> simp_all [Ptr.assign]
      · cases l with
        | null => rfl
        | dangling => exact absurd rfl h2
        | to l =>
          simp only [Ptr.assign, Ptr.to.injEq]
          obtain ⟨a, b, c, d⟩ := l
          simp only [Lang.copy, Lang.mk.injEq, true_and, and_true]
          refine (?_ : _ = c.map id).trans (List.map_id _)
          refine List.map_congr_left fun u huc => ?_
          obtain ⟨k1, k2⟩ := hu u (hlu _ rfl u huc)
          obtain ⟨g, x, p, ty, pl⟩ := u
          simp only at k1 k2
          subst k1
          simp only [LUnit.copy, id, LUnit.mk.injEq, Option.map_none, and_true]
          cases g with
          | none => rfl
          | some g =>
            obtain ⟨k3, k4⟩ := k2 g rfl
            obtain ⟨ns, pl⟩ := g
            simp only at k3 k4
            subst k3 k4
            rfl
      · cases p <;> simp_all [Ptr.assign]
      · cases x with
        | null => rfl
        | dangling => exact absurd rfl h4
        | to x =>
          have := ht x (hlt x rfl)
          obtain ⟨a, b, c⟩ := x
          simp only at this
          subst this
          rfl
    have hp := h.copy_place
    obtain ⟨a, b⟩ := f
    generalize File.copy ⟨a, b⟩ = g at hb hp
    obtain ⟨c, d⟩ := g
    simp only at hb hp
    rw [hb, hp]

/-- The copies of precedence blocks have the items of the original, so that the destructors of the two delete every one of them twice. -/
theorem copy_frees_violated (f : File) : f.copy.frees = f.frees := by
  rw [File.frees, copy_blocks, File.frees, List.flatMap_map]
  refine flatMap_same fun t _ => ?_
  obtain ⟨i, l, p, x, pl⟩ := t
  cases l with
  | null => rfl
  | dangling => rfl
  | to l =>
    simp only [Top.copy, Top.assign, Ptr.assign, Top.frees, Lang.copy, List.flatMap_map]
    rfl

/-- Assigning a block of another kind leaves a pointer to the block that was deleted, which the destructor deletes again. -/
theorem assign_violated (old new : Top) (l : Lang) (h1 : old.language = .to l) (h2 : new.language = .null) : (old.assign new).language = .dangling := by
  simp [Top.assign, h1, h2, Ptr.assign]

/-- Assigning a grammar to itself removes its nonterminals. -/
theorem assign_self_violated (g : Grammar) (h : g.nonterminals ≠ []) : g.assignSelf ≠ g := by
  intro e
  rw [← e] at h
  exact h rfl

/-! ### Examples -/

/-- `language a { lexer { x = /y/ } precedence { left "+" } }` -/
def sample : File :=
  let lexer : Lexer := ⟨[⟨0, [120], [121], false, false, ⟨3, 0, 3⟩, ⟨⟨2, 0, 2⟩, ⟨4, 0, 4⟩⟩⟩], .is false, .is false, .is true, ⟨⟨2, 0, 2⟩, ⟨4, 0, 4⟩⟩⟩
  let units : List LUnit := [⟨none, some lexer, none, 1, Place.none⟩, ⟨none, none, some ⟨[(0, [17])], Place.none⟩, 2, Place.none⟩]
  let top : Top := ⟨.null, .to ⟨[97], [], units, ⟨⟨0, 0, 0⟩, ⟨9, 0, 9⟩⟩⟩, .null, .null, ⟨⟨0, 0, 0⟩, ⟨9, 0, 9⟩⟩⟩
  [top].foldl File.add File.new

example : sample.Made ∧ sample.IsSet ∧ sample.copy ≠ sample ∧ sample.frees = [17] ∧ sample.copy.frees = [17] := by
  have hm : sample.Made := ⟨⟨_, rfl⟩, by intro t ht; simp only [sample, List.foldl, File.add, File.new, List.nil_append, List.mem_singleton] at ht; subst ht; simp [Top.Live]⟩
  have hs : sample.IsSet := by
    constructor
    · intro u hu g hg
      simp [sample, File.units, File.add, File.new] at hu
      rcases hu with rfl | rfl <;> cases hg
    · intro u hu l hl
      simp [sample, File.units, File.add, File.new] at hu
      rcases hu with rfl | rfl
      · rw [Option.mem_def, Option.some.injEq] at hl
        subst hl
        simp
      · cases hl
  refine ⟨hm, hs, ?_, rfl, rfl⟩
  rw [ne_eq, copy_iff hm hs]
  rintro ⟨h, -⟩
  have := (h _ (List.mem_cons_self ..)).1
  cases this

/-! ### C95: the positions -/

theorem place_addChild (e c : Ebnf) : (e.addChild c).place =
    if c.place ≠ Place.none then if e.place = Place.none then c.place else ⟨if c.place.start.lt e.place.start then c.place.start else e.place.start, e.place.final⟩ else e.place := by
  obtain ⟨⟩ := e
  rfl

/-- An item with a position keeps it if no part begins before it. -/
theorem children_inside_partial (cs : List Ebnf) (e : Ebnf) (he : e.place ≠ Place.none) (hc : ∀ c ∈ cs, c.place.start.lt e.place.start = false) :
    (cs.foldl Ebnf.addChild e).place = e.place := by
  induction cs generalizing e with
  | nil => rfl
  | cons c cs ih =>
    have h1 : (e.addChild c).place = e.place := by
      rw [place_addChild]
      split
      · rw [if_neg (by rw [hc c (by simp)]; exact Bool.false_ne_true)]
      · rfl
    rw [List.foldl_cons, ih _ (by rw [h1]; exact he) (fun x hx => by rw [h1]; exact hc x (by simp [hx])), h1]

/-- An item without a position gets that of its first part with one. -/
theorem first_child (e c : Ebnf) (he : e.place = Place.none) : (e.addChild c).place = c.place := by
  rw [place_addChild]
  split
  · rfl
  · rename_i h
    rw [he]
    exact (not_not.1 h).symm

/-- A part that ends after the item does not move the end of the item. -/
theorem children_final_violated (e c : Ebnf) (he : e.place ≠ Place.none) : (e.addChild c).place.final = e.place.final := by
  rw [place_addChild]
  split <;> rfl

/-- A production with a position keeps it if its items are inside. -/
theorem items_inside_partial (es : List Ebnf) (p : Production) (hp : p.place.start ≠ p.place.final)
    (he : ∀ e ∈ es, e.place.start.lt p.place.start = false ∧ p.place.final.lt e.place.final = false) : (es.foldl Production.addItem p).place = p.place := by
  induction es generalizing p with
  | nil => rfl
  | cons e es ih =>
    have h1 : (p.addItem e).place = p.place := by
      simp only [Production.addItem, if_neg hp, (he e (by simp)).1, (he e (by simp)).2, Bool.false_eq_true, if_false]
    rw [List.foldl_cons, ih _ (by rw [h1]; exact hp) (fun x hx => by rw [h1]; exact he x (by simp [hx])), h1]

/-- An item that begins before the production moves the start of the production to the end of the item. -/
theorem items_start_violated (p : Production) (e : Ebnf) (hp : p.place.start ≠ p.place.final) (he : e.place.start.lt p.place.start = true) :
    (p.addItem e).place.start = e.place.final := by
  simp only [Production.addItem, if_neg hp, he, if_true]
  split <;> rfl

/-- An item that is made without a position and has the parts `a` and `b` ends with `a`. -/
example : let a : Ebnf := .mk (.is 1) [] [97] ⟨[], 0, false⟩ [] ⟨⟨4, 0, 4⟩, ⟨5, 0, 5⟩⟩
    let b : Ebnf := .mk (.is 1) [] [98] ⟨[], 0, false⟩ [] ⟨⟨6, 0, 6⟩, ⟨7, 0, 7⟩⟩
    ((Ebnf.mk (.is 2) [] [] ⟨[], 0, false⟩ [] Place.none).addChild a |>.addChild b).place = ⟨⟨4, 0, 4⟩, ⟨5, 0, 5⟩⟩ := by decide

end Blocks
end TameParse

import Verif.Format
/-
C96: the text that shows a syntax tree determines the tree.
-/
namespace TameParse
namespace Format

/-- A tree of labels. -/
inductive Labels where
  | mk (text : Text) (children : List Labels)

variable (itemName symbolName : Int → Text)

mutual
/-- The labels of a tree. -/
def shape : Node → Labels
  | .mk item lexeme children => .mk (label itemName symbolName item lexeme) (shapes children)

@[inherit_doc shape]
def shapes : List Node → List Labels
  | [] => []
  | c :: cs => shape c :: shapes cs
end

mutual
/-- No label contains a newline. -/
def Plain : Labels → Prop
  | .mk t cs => 10 ∉ t ∧ PlainAll cs

@[inherit_doc Plain]
def PlainAll : List Labels → Prop
  | [] => True
  | c :: cs => Plain c ∧ PlainAll cs
end

/-- What is put before the lines of a child after the first one. -/
def bar (more : Bool) : Text := if more then [124, 32, 32] else [32, 32, 32]

/-- The label at the top. -/
def top : Labels → Text
  | .mk t _ => t

mutual
/-- The lines of the text after the first, which is the label. -/
def under : Labels → List Text
  | .mk _ cs => underAll cs

/-- The lines that show children. -/
def underAll : List Labels → List Text
  | [] => []
  | c :: ds => ([43, 45, 32] ++ top c) :: ((under c).map (bar (!ds.isEmpty) ++ ·) ++ underAll ds)
end

/-- Lines, each after a newline. -/
def glue (ls : List Text) : Text := ls.flatMap (10 :: ·)

theorem indent_append (more : Bool) (a b : Text) : indent more (a ++ b) = indent more a ++ indent more b := by simp [indent]

theorem indent_plain (more : Bool) (t : Text) (h : 10 ∉ t) : indent more t = t := by
  induction t with
  | nil => rfl
  | cons c t ih =>
    simp only [List.mem_cons, not_or] at h
    have := ih h.2
    rw [indent] at this ⊢
    rw [List.flatMap_cons, this, if_neg (fun e => h.1 e.symm)]
    rfl

theorem indent_glue (more : Bool) (ls : List Text) (h : ∀ l ∈ ls, 10 ∉ l) : indent more (glue ls) = glue (ls.map (bar more ++ ·)) := by
  induction ls with
  | nil => rfl
  | cons l ls ih =>
    have e : indent more ((10 : Int) :: (l ++ glue ls)) = 10 :: (bar more ++ indent more (l ++ glue ls)) := by
      rw [indent, List.flatMap_cons, if_pos rfl]
      rfl
    show indent more ((10 : Int) :: l ++ glue ls) = _
    rw [List.cons_append, e, indent_append, indent_plain more l (h l (by simp)), ih (fun x hx => h x (by simp [hx]))]
    simp [glue]

theorem bar_plain (more : Bool) : (10 : Int) ∉ bar more := by cases more <;> decide

mutual
theorem under_plain : ∀ {t : Labels}, Plain t → ∀ l ∈ under t, 10 ∉ l
  | .mk _ cs, h => underAll_plain (cs := cs) h.2

theorem underAll_plain : ∀ {cs : List Labels}, PlainAll cs → ∀ l ∈ underAll cs, 10 ∉ l
  | [], _, l, hl => by cases hl
  | .mk t cs :: ds, h, l, hl => by
    rw [underAll, List.mem_cons, List.mem_append] at hl
    rcases hl with rfl | hl | hl
    · simp only [List.mem_append, not_or]
      exact ⟨by decide, h.1.1⟩
    · obtain ⟨x, hx, rfl⟩ := List.mem_map.1 hl
      simp only [List.mem_append, not_or]
      exact ⟨bar_plain _, underAll_plain h.1.2 x hx⟩
    · exact underAll_plain h.2 l hl
end

theorem shapes_isEmpty : ∀ cs : List Node, (shapes itemName symbolName cs).isEmpty = cs.isEmpty
  | [] => rfl
  | _ :: _ => rfl

theorem printAll_lines : ∀ cs : List Node, PlainAll (shapes itemName symbolName cs) →
    printAll itemName symbolName cs = glue (underAll (shapes itemName symbolName cs))
  | [], _ => rfl
  | .mk i l cs :: ds, h => by
    have h1 := printAll_lines cs h.1.2
    have h2 := printAll_lines ds h.2
    rw [printAll, print, h1, h2, indent_append, indent_plain _ _ h.1.1, indent_glue _ _ (underAll_plain h.1.2)]
    rw [shapes, shape, underAll, shapes_isEmpty]
    simp [glue, top, under]

theorem glue_inj : ∀ {ls ms : List Text}, (∀ l ∈ ls, 10 ∉ l) → (∀ m ∈ ms, 10 ∉ m) → ∀ {a b : Text}, 10 ∉ a → 10 ∉ b → a ++ glue ls = b ++ glue ms → a = b ∧ ls = ms := by
  intro ls
  induction ls with
  | nil =>
    intro ms _ _ a b ha hb h
    cases ms with
    | nil => simpa [glue] using h
    | cons m ms =>
      exfalso
      apply ha
      have : a = b ++ glue (m :: ms) := by simpa [glue] using h
      rw [this]
      simp [glue]
  | cons l ls ih =>
    intro ms hl hm a b ha hb h
    cases ms with
    | nil =>
      exfalso
      apply hb
      have : a ++ glue (l :: ls) = b := by simpa [glue] using h
      rw [← this]
      simp [glue]
    | cons m ms =>
      have key : ∀ {a b x y : Text}, 10 ∉ a → 10 ∉ b → a ++ (10 : Int) :: x = b ++ 10 :: y → a = b ∧ x = y := by
        intro a
        induction a with
        | nil =>
          intro b x y _ hb h
          cases b with
          | nil => simpa using h
          | cons c b =>
            simp only [List.nil_append, List.cons_append, List.cons.injEq] at h
            exact absurd (by rw [← h.1]; simp) hb
        | cons d a ih =>
          intro b x y ha hb h
          cases b with
          | nil =>
            simp only [List.nil_append, List.cons_append, List.cons.injEq] at h
            exact absurd (by rw [h.1]; simp) ha
          | cons c b =>
            simp only [List.cons_append, List.cons.injEq] at h
            obtain ⟨h1, h2⟩ := ih (fun e => ha (by simp [e])) (fun e => hb (by simp [e])) h.2
            exact ⟨by rw [h.1, h1], h2⟩
      have e1 : a ++ (10 : Int) :: (l ++ glue ls) = b ++ 10 :: (m ++ glue ms) := by simpa [glue] using h
      obtain ⟨h1, h2⟩ := key ha hb e1
      obtain ⟨h3, h4⟩ := ih (fun x hx => hl x (by simp [hx])) (fun x hx => hm x (by simp [hx])) (hl l (by simp)) (hm m (by simp)) h2
      exact ⟨h1, by rw [h3, h4]⟩

/-- The line is the first one of a child. -/
def starts (l : Text) : Bool := l.head? == some 43

theorem starts_bar (more : Bool) (l : Text) : starts (bar more ++ l) = false := by cases more <;> rfl

theorem underAll_head : ∀ cs : List Labels, ∀ l, (underAll cs).head? = some l → starts l = true
  | [], l, h => by cases h
  | .mk t cs :: ds, l, h => by
    rw [underAll] at h
    simp only [List.head?_cons, Option.some.injEq] at h
    rw [← h]
    rfl

/-- Lines that do not begin a child, up to the next one that does. -/
theorem split_starts {a b x y : List Text} (ha : ∀ l ∈ a, starts l = false) (hb : ∀ l ∈ b, starts l = false) (hx : ∀ l, x.head? = some l → starts l = true)
    (hy : ∀ l, y.head? = some l → starts l = true) (h : a ++ x = b ++ y) : a = b ∧ x = y := by
  induction a generalizing b with
  | nil =>
    cases b with
    | nil => exact ⟨rfl, h⟩
    | cons l b =>
      have := hx l (by rw [List.nil_append] at h; rw [h]; rfl)
      rw [hb l (by simp)] at this
      cases this
  | cons l a ih =>
    cases b with
    | nil =>
      have := hy l (by rw [List.nil_append] at h; rw [← h]; rfl)
      rw [ha l (by simp)] at this
      cases this
    | cons m b =>
      simp only [List.cons_append, List.cons.injEq] at h
      obtain ⟨h1, h2⟩ := ih (fun x hx => ha x (by simp [hx])) (fun x hx => hb x (by simp [hx])) h.2
      exact ⟨by rw [h.1, h1], h2⟩

theorem bar_inj {p q : Bool} {a b : List Text} (h : a.map (bar p ++ ·) = b.map (bar q ++ ·)) : a = b := by
  have key := congrArg (List.map (List.drop 3)) h
  have drop : ∀ (p : Bool) (a : List Text), (a.map (bar p ++ ·)).map (List.drop 3) = a := by
    intro p a
    rw [List.map_map]
    refine (List.map_congr_left fun x _ => ?_).trans (List.map_id a)
    cases p <;> rfl
  rwa [drop, drop] at key

theorem underAll_inj : ∀ {cs ds : List Labels}, underAll cs = underAll ds → cs = ds
  | [], [], _ => rfl
  | [], .mk _ _ :: _, h => by simp [underAll] at h
  | .mk _ _ :: _, [], h => by simp [underAll] at h
  | .mk t cs :: cs', .mk u ds :: ds', h => by
    rw [underAll, underAll, List.cons.injEq] at h
    obtain ⟨h1, h2⟩ := h
    obtain ⟨h3, h4⟩ := split_starts (fun l hl => by obtain ⟨x, -, rfl⟩ := List.mem_map.1 hl; exact starts_bar _ _)
      (fun l hl => by obtain ⟨x, -, rfl⟩ := List.mem_map.1 hl; exact starts_bar _ _) (underAll_head cs') (underAll_head ds') h2
    have e1 : t = u := List.append_cancel_left h1
    rw [e1, underAll_inj (bar_inj h3), underAll_inj h4]

/-- Two trees whose labels contain no newlines are shown by the same text only if they have the same labels in the same places. -/
theorem print_partial (m n : Node) (hm : Plain (shape itemName symbolName m)) (hn : Plain (shape itemName symbolName n))
    (h : print itemName symbolName m = print itemName symbolName n) : shape itemName symbolName m = shape itemName symbolName n := by
  obtain ⟨i, l, cs⟩ := m
  obtain ⟨j, k, ds⟩ := n
  rw [print, print, printAll_lines _ _ cs hm.2, printAll_lines _ _ ds hn.2] at h
  obtain ⟨h1, h2⟩ := glue_inj (underAll_plain hm.2) (underAll_plain hn.2) hm.1 hn.1 h
  rw [shape, shape, h1, underAll_inj h2]

/-- If items have names of their own, the label of a node without a lexeme says which item it is for. -/
theorem label_item (hinj : ∀ i j : Int, 0 ≤ i → 0 ≤ j → itemName i = itemName j → i = j) {i j : Int} (hi : 0 ≤ i) (hj : 0 ≤ j)
    (h : label itemName symbolName i none = label itemName symbolName j none) : i = j := by
  simp only [label, ge_iff_le, hi, hj, if_true, List.append_nil] at h
  exact hinj i j hi hj h

/-- A lexeme with a newline can look like a tree: the content of the only lexeme of the first tree is `x"`, a newline and `+- B "y`. -/
theorem print_violated : ∃ m n : Node, print (fun i => [i]) (fun i => [i]) m = print (fun i => [i]) (fun i => [i]) n ∧
    shape (fun i => [i]) (fun i => [i]) m ≠ shape (fun i => [i]) (fun i => [i]) n := by
  refine ⟨.mk (-1) (some (65, [120, 34, 10, 43, 45, 32, 66, 32, 34, 121])) [], .mk (-1) (some (65, [120])) [.mk (-1) (some (66, [121])) []], by decide, ?_⟩
  intro h
  rw [shape, shape, Labels.mk.injEq] at h
  simp [shapes] at h

/-- A tree with three levels. -/
example : print (fun i => [i]) (fun i => [i]) (.mk 83 none [.mk 84 none [.mk (-1) (some (97, [98])) []], .mk (-1) (some (99, [100])) []]) =
    "S\n+- T\n|  +- a \"b\"\n+- c \"d\"".toList.map (fun c => (c.toNat : Int)) := by decide

end Format
end TameParse

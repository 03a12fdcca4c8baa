import Verif.ShowMachineProps
import Verif.ShowClosure

/-!
# C99: what the text of states with their closure says
-/

namespace TameParse
namespace Show

variable {N : Names} {T M : Int → Prop}

theorem lr1s_line (l : List (Lr0 × List Item)) {r : Text} (hr : Line r) : Line (showLr1s N false l ++ r) := by
  rcases l with _ | ⟨⟨i, la⟩, l⟩
  · exact hr
  · exact .inr ⟨_, rfl⟩

theorem lr1s_sep (hN : Clear N T M) (hE : NoEmpty N T M) : ∀ (xs ys : List (Lr0 × List Item)), (∀ x ∈ xs, x.1.Ok T M ∧ KnownAll T M x.2) →
    (∀ y ∈ ys, y.1.Ok T M ∧ KnownAll T M y.2) → ∀ r s, Gap r → Gap s → showLr1s N false xs ++ r = showLr1s N false ys ++ s → xs = ys ∧ r = s
  | [], [], _, _, _, _, _, _, h => ⟨rfl, h⟩
  | [], (i, la) :: ys, _, hy, r, s, hr, _, h => by
    obtain ⟨c, t, hc, _, h2⟩ := rule_ne_nil hN i (hy (i, la) (by simp)).1
    rw [showLr1s, showLr1s, showLr1, hc] at h
    rcases hr with rfl | ⟨t, rfl⟩ <;> simp at h
    exact absurd h.1.symm h2
  | (i, la) :: xs, [], hx, _, r, s, _, hs, h => by
    obtain ⟨c, t, hc, _, h2⟩ := rule_ne_nil hN i (hx (i, la) (by simp)).1
    rw [showLr1s, showLr1s, showLr1, hc] at h
    rcases hs with rfl | ⟨t, rfl⟩ <;> simp at h
    exact absurd h.1 h2
  | (i, la) :: xs, (j, lb) :: ys, hx, hy, r, s, hr, hs, h => by
    obtain ⟨a1, a2⟩ := hx (i, la) (by simp)
    obtain ⟨b1, b2⟩ := hy (j, lb) (by simp)
    simp only [showLr1s, showLr1, List.append_assoc] at h
    have l1 := lr1s_line (N := N) xs hr.line
    have l2 := lr1s_line (N := N) ys hs.line
    obtain ⟨h1, h2⟩ := lr0_sep hN i j a1 b1 _ _ (square_end hN hE la a2 _ l1) (square_end hN hE lb b2 _ l2) (List.append_cancel_left h)
    obtain ⟨h3, h4⟩ := lookText_sep hN _ _ (.inl rfl) la lb a2 b2 _ _ l1 l2 h2
    obtain ⟨h5, h6⟩ := lr1s_sep hN hE xs ys (fun x m => hx x (List.mem_cons_of_mem _ m)) (fun y m => hy y (List.mem_cons_of_mem _ m)) r s hr hs h4
    exact ⟨by rw [h1, h3, h5], h6⟩

/-- Items of a state over known names; the rules are those of nonterminals. -/
def ItemsOk (T M : Int → Prop) (l : List (Lr0 × List Item)) : Prop := ∀ x ∈ l, x.1.Ok T M ∧ KnownAll T M x.2 ∧ ∃ n, x.1.lhs = .nonterminal n

/-- No name of a nonterminal begins with a dash. -/
def NoDash (N : Names) (M : Int → Prop) : Prop := ∀ n, M n → ∀ t, N.nt n ≠ '-' :: t

theorem dash_line (l : List (Lr0 × List Item)) {r : Text} : Line (showState N false l ++ '\n' :: r) := by
  rcases l with _ | ⟨⟨i, la⟩, l⟩
  · exact .inr ⟨_, rfl⟩
  · exact .inr ⟨_, rfl⟩

theorem dash_head (hN : Clear N T M) (hD : NoDash N M) {i : Lr0} (hi : i.Ok T M) (hl : ∃ n, i.lhs = .nonterminal n) : ∃ c t, showLr0 N i = c :: t ∧ c ≠ '-' := by
  obtain ⟨n, hn⟩ := hl
  have hM : M n := by simpa [hn, Known] using hi.1
  obtain ⟨c, t, hc, -⟩ := hN.ntHead n hM
  refine ⟨c, _, by rw [showLr0, showRule, hn, showItem, hc]; rfl, ?_⟩
  rintro rfl
  exact hD n hM t hc

theorem dash_sep (hN : Clear N T M) (hD : NoDash N M) : ∀ (xs ys : List (Lr0 × List Item)), ItemsOk T M xs → ItemsOk T M ys → ∀ first, (first = true → xs ≠ [] ∧ ys ≠ []) → ∀ r s : Text,
    showState N first xs ++ '\n' :: '-' :: r = showState N first ys ++ '\n' :: '-' :: s → xs = ys ∧ r = s
  | [], [], _, _, _, _, r, s, h => by simpa [showState] using h
  | [], (i, la) :: ys, _, hy, first, hf, r, s, h => by
    cases first with
    | true => exact absurd rfl (hf rfl).1
    | false =>
      obtain ⟨c, t, hc, h2⟩ := dash_head hN hD (hy (i, la) (by simp)).1 (hy (i, la) (by simp)).2.2
      simp only [showState, hc, Bool.false_eq_true, if_false, List.cons_append, List.nil_append, List.cons.injEq, true_and] at h
      exact absurd h.1.symm h2
  | (i, la) :: xs, [], hx, _, first, hf, r, s, h => by
    cases first with
    | true => exact absurd rfl (hf rfl).2
    | false =>
      obtain ⟨c, t, hc, h2⟩ := dash_head hN hD (hx (i, la) (by simp)).1 (hx (i, la) (by simp)).2.2
      simp only [showState, hc, Bool.false_eq_true, if_false, List.cons_append, List.nil_append, List.cons.injEq, true_and] at h
      exact absurd h.1 h2
  | (i, la) :: xs, (j, lb) :: ys, hx, hy, first, _, r, s, h => by
    obtain ⟨a1, a2, -⟩ := hx (i, la) (by simp)
    obtain ⟨b1, b2, -⟩ := hy (j, lb) (by simp)
    rw [showState, showState] at h
    simp only [List.append_assoc] at h
    obtain ⟨h1, h2⟩ := lr0_sep hN i j a1 b1 _ _ (paren_end hN la a2 _ (dash_line xs)) (paren_end hN lb b2 _ (dash_line ys)) (List.append_cancel_left h)
    obtain ⟨h3, h4⟩ := lookText_sep hN _ _ (.inr rfl) la lb a2 b2 _ _ (dash_line xs) (dash_line ys) h2
    obtain ⟨h5, h6⟩ := dash_sep hN hD xs ys (fun x m => hx x (List.mem_cons_of_mem _ m)) (fun y m => hy y (List.mem_cons_of_mem _ m)) false (fun h => nomatch h) r s h4
    exact ⟨by rw [h1, h3, h5], h6⟩

theorem full_sep (hN : Clear N T M) (hE : NoEmpty N T M) (hD : NoDash N M) {xs ys cl cl' : List (Lr0 × List Item)} (h1 : xs ≠ []) (h2 : ys ≠ []) (hx : ItemsOk T M xs)
    (hy : ItemsOk T M ys) (hc : ItemsOk T M cl) (hc' : ItemsOk T M cl') {r s : Text} (hr : Gap r) (hs : Gap s) (h : showFull N xs cl ++ r = showFull N ys cl' ++ s) :
    (xs = ys ∧ cl = cl') ∧ r = s := by
  have e : ∀ l : List (Lr0 × List Item), l ≠ [] → l.isEmpty = false := by
    intro l hl
    cases l with
    | nil => exact absurd rfl hl
    | cons _ _ => rfl
  simp only [showFull, e xs h1, e ys h2, Bool.false_eq_true, if_false, List.cons_append, List.nil_append, List.append_assoc] at h
  obtain ⟨h3, h4⟩ := dash_sep hN hD xs ys hx hy true (fun _ => ⟨h1, h2⟩) _ _ h
  obtain ⟨h5, h6⟩ := lr1s_sep hN hE cl cl' (fun x m => ⟨(hc x m).1, (hc x m).2.1⟩) (fun x m => ⟨(hc' x m).1, (hc' x m).2.1⟩) r s hr hs (List.cons.inj h4).2
  exact ⟨⟨h3, h5⟩, h6⟩

/-- Two states with items have the same text with their closure only if they have the same items and the same closure, as long as nothing is called `empty` and no nonterminal begins with a dash. -/
theorem full_text_partial (hN : Clear N T M) (hE : NoEmpty N T M) (hD : NoDash N M) {xs ys cl cl' : List (Lr0 × List Item)} (h1 : xs ≠ []) (h2 : ys ≠ []) (hx : ItemsOk T M xs)
    (hy : ItemsOk T M ys) (hc : ItemsOk T M cl) (hc' : ItemsOk T M cl') : showFull N xs cl = showFull N ys cl' ↔ xs = ys ∧ cl = cl' := by
  constructor
  · intro h
    exact (full_sep hN hE hD h1 h2 hx hy hc hc' (.inl rfl) (.inl rfl) (by rw [h])).1
  · rintro ⟨rfl, rfl⟩; rfl

/-- A state that has items, with its closure and transitions or actions that are `P`. -/
def FullOk (T M : Int → Prop) {α : Type} (P : α → Prop) (n : Node α × List (Lr0 × List Item)) : Prop :=
  n.1.items ≠ [] ∧ ItemsOk T M n.1.items ∧ ItemsOk T M n.2 ∧ ∀ x ∈ n.1.out, P x

theorem full_node_sep {α β : Type} {line : α → Text} {P : α → Prop} {shown : α → β} (hN : Clear N T M) (hE : NoEmpty N T M) (hD : NoDash N M) (hL : Tells line P shown)
    {a b : Node α × List (Lr0 × List Item)} (ha : FullOk T M P a) (hb : FullOk T M P b) {r s : Text} (hr : Next r) (hs : Next s)
    (h : showNodeFull N line a.1 a.2 ++ r = showNodeFull N line b.1 b.2 ++ s) : (a.1.id = b.1.id ∧ a.1.items = b.1.items ∧ a.2 = b.2 ∧ a.1.out.map shown = b.1.out.map shown) ∧ r = s := by
  obtain ⟨⟨i, xs, o⟩, cl⟩ := a
  obtain ⟨⟨j, ys, p⟩, cl'⟩ := b
  have gap : ∀ (o : List α) r, Next r → Gap ((if o.isEmpty then [] else '\n' :: showOut line o) ++ r) := by
    intro o r hr
    cases o with
    | nil => exact hr.gap
    | cons x o => exact .inr ⟨_, rfl⟩
  have no : ∀ (y : α) (p : List α) r s, P y → Next r → r ≠ '\n' :: (showOut line (y :: p) ++ s) := by
    rintro y p r s hy (rfl | ⟨u, rfl⟩) h
    · simp at h
    · simp only [showOut, List.cons_append, List.cons.injEq, true_and, List.append_assoc] at h
      exact hL.state y _ u hy h.symm
  simp only [showNodeFull, List.append_assoc, List.cons_append] at h
  obtain ⟨h1, h2⟩ := split_sep '\n' _ _ _ _ (decimal_newline i) (decimal_newline j) (List.append_cancel_left h)
  obtain ⟨⟨h3, h3'⟩, h4⟩ := full_sep hN hE hD ha.1 hb.1 ha.2.1 hb.2.1 ha.2.2.1 hb.2.2.1 (gap o r hr) (gap p s hs) h2
  cases o with
  | nil =>
    cases p with
    | nil => exact ⟨⟨decimal_inj h1, h3, h3', rfl⟩, h4⟩
    | cons y p => exact absurd h4 (no y p r s (hb.2.2.2 y (by simp)) hr)
  | cons x o =>
    cases p with
    | nil => exact absurd h4.symm (no x o s r (ha.2.2.2 x (by simp)) hs)
    | cons y p =>
      obtain ⟨h5, h6⟩ := out_sep hL (x :: o) (y :: p) ha.2.2.2 hb.2.2.2 r s hr.gap hs.gap (List.cons.inj h4).2
      exact ⟨⟨decimal_inj h1, h3, h3', h5⟩, h6⟩

theorem full_next {α : Type} (line : α → Text) (l : List (Node α × List (Lr0 × List Item))) : Next (showNodesFull N line false l) := by
  cases l with
  | nil => exact .inl rfl
  | cons n l => exact .inr ⟨(decimal n.1.id ++ ('\n' :: (showFull N n.1.items n.2 ++ if n.1.out.isEmpty then [] else '\n' :: showOut line n.1.out))) ++ showNodesFull N line false l, by
      simp [showNodesFull, showNodeFull]⟩

theorem full_nodes_sep {α β : Type} {line : α → Text} {P : α → Prop} {shown : α → β} (hN : Clear N T M) (hE : NoEmpty N T M) (hD : NoDash N M) (hL : Tells line P shown) :
    ∀ xs ys : List (Node α × List (Lr0 × List Item)), (∀ x ∈ xs, FullOk T M P x) → (∀ y ∈ ys, FullOk T M P y) → ∀ first, showNodesFull N line first xs = showNodesFull N line first ys →
    xs.map (fun n => (n.1.id, n.1.items, n.2, n.1.out.map shown)) = ys.map (fun n => (n.1.id, n.1.items, n.2, n.1.out.map shown))
  | [], [], _, _, _, _ => rfl
  | [], y :: ys, _, _, first, h => by cases first <;> simp [showNodesFull, showNodeFull, stateWord] at h
  | x :: xs, [], _, _, first, h => by cases first <;> simp [showNodesFull, showNodeFull, stateWord] at h
  | x :: xs, y :: ys, hx, hy, first, h => by
    rw [showNodesFull, showNodesFull] at h
    obtain ⟨⟨h1, h2, h3, h5⟩, h4⟩ := full_node_sep hN hE hD hL (hx x (by simp)) (hy y (by simp)) (full_next line xs) (full_next line ys) (List.append_cancel_left h)
    rw [List.map_cons, List.map_cons, h1, h2, h3, h5, full_nodes_sep hN hE hD hL xs ys (fun x m => hx x (List.mem_cons_of_mem _ m)) (fun y m => hy y (List.mem_cons_of_mem _ m)) false h4]

/-- Two machines have the same text with closures only if they have the same states, items, closures and transitions. -/
theorem machine_full_partial (hN : Clear N T M) (hE : NoEmpty N T M) (hD : NoDash N M) (hS : NoState N T M) (l l' : List (Node (Item × Int) × List (Lr0 × List Item)))
    (h : ∀ n ∈ l, FullOk T M (fun t => Known T M t.1) n) (h' : ∀ n ∈ l', FullOk T M (fun t => Known T M t.1) n) : showMachineFull N l = showMachineFull N l' ↔ l = l' := by
  refine ⟨fun e => ?_, fun e => by rw [e]⟩
  have e := full_nodes_sep hN hE hD (move_tells hN hS) l l' h h' true e
  refine (List.map_inj_right ?_).1 e
  rintro ⟨⟨i, x, o⟩, c⟩ ⟨⟨j, y, p⟩, d⟩ h
  simp only [List.map_id_fun, id_eq, Prod.mk.injEq] at h
  obtain ⟨rfl, rfl, rfl, rfl⟩ := h
  rfl

/-- Two builders have the same text with closures only if they have the same states, items and closures, and actions that show the same. -/
theorem builder_full_partial (hN : Clear N T M) (hE : NoEmpty N T M) (hD : NoDash N M) (l l' : List (Node Act × List (Lr0 × List Item)))
    (h : ∀ n ∈ l, FullOk T M (fun a => Known T M a.item ∧ Known T M a.lhs ∧ KnownAll T M a.rule) n)
    (h' : ∀ n ∈ l', FullOk T M (fun a => Known T M a.item ∧ Known T M a.lhs ∧ KnownAll T M a.rule) n) (e : showBuilderFull N l = showBuilderFull N l') :
    l.map (fun n => (n.1.id, n.1.items, n.2, n.1.out.map Act.shown)) = l'.map (fun n => (n.1.id, n.1.items, n.2, n.1.out.map Act.shown)) :=
  full_nodes_sep hN hE hD (act_tells hN) l l' h h' true e

theorem join_cons : ∀ (l : List Text) (a : Text), ['\n'].intercalate (a :: l) = a ++ l.flatMap fun b => '\n' :: b
  | [], a => by simp
  | b :: l, a => by rw [List.intercalate_cons_cons, join_cons l b]; simp

theorem state_join (l : List (Lr0 × List Item)) : showState N false l = l.flatMap fun x => '\n' :: (showLr0 N x.1 ++ lookText N '(' ')' x.2) := by
  induction l with
  | nil => rfl
  | cons x l ih => rw [showState, ih]; simp

theorem lr1s_join (l : List (Lr0 × List Item)) : showLr1s N false l = l.flatMap fun x => '\n' :: showLr1 N x.1 x.2 := by
  induction l with
  | nil => rfl
  | cons x l ih => rw [showLr1s, ih]; simp

/-- The lines of the text: the items, two dashes if there are any, the items of the closure. -/
theorem full_eq (items closure : List (Lr0 × List Item)) : showFull N items closure = ['\n'].intercalate (items.map (fun x => showLr0 N x.1 ++ lookText N '(' ')' x.2) ++
    ((if items = [] then [] else [['-', '-']]) ++ closure.map fun x => showLr1 N x.1 x.2)) := by
  cases items with
  | nil =>
    cases closure with
    | nil => simp [showFull, showState, showLr1s]
    | cons x l => simp [showFull, showState, showLr1s, join_cons, lr1s_join, List.flatMap_map]
  | cons x l =>
    rw [List.map_cons, List.cons_append, join_cons]
    simp [showFull, showState, state_join, lr1s_join, List.flatMap_map]

namespace Ex

example : String.ofList (showFull names [(⟨.nonterminal 0, [.terminal 0, .nonterminal 1], 1⟩, [.eoi])] [(⟨.nonterminal 1, [.terminal 1], 0⟩, [.eoi]), (⟨.nonterminal 1, [], 0⟩, [.eoi])]) =
    "<E> = id ^ <T> ($)\n--\n<T> = ^ \"a b\" [$]\n<T> = ^ [$]" := by decide +kernel

theorem no_dash : NoDash names ok := by
  rintro n (rfl | rfl) t h <;> exact absurd (List.cons.inj h).1 (by decide)

theorem no_empty : NoEmpty names ok ok := by
  refine written_noEmpty ?_ ?_
  · rintro n (rfl | rfl)
    · exact ⟨.word 'i' ['d'] (by decide) (by decide) (by decide) (by decide), by decide⟩
    · exact ⟨.string ['a', ' ', 'b'] (by decide), by decide⟩
  · rintro n (rfl | rfl)
    · exact ⟨.word '<' ['E', '>'] (by decide) (by decide) (by decide) (by decide), by decide⟩
    · exact ⟨.word '<' ['T', '>'] (by decide) (by decide) (by decide) (by decide), by decide⟩

example (ys : List (Lr0 × List Item)) (h : ys ≠ []) (hy : ItemsOk ok ok ys) (e : showFull names ys [] = showFull names [(⟨.nonterminal 0, [.terminal 0], 1⟩, [.eoi])] []) :
    ys = [(⟨.nonterminal 0, [.terminal 0], 1⟩, [.eoi])] :=
  ((full_text_partial clear no_empty no_dash h (by simp) hy (by simp [ItemsOk, Lr0.Ok, Known, KnownAll, ok]) (by simp [ItemsOk]) (by simp [ItemsOk])).1 e).1

def fulls : List (Node Act × List (Lr0 × List Item)) :=
  [(⟨0, [(⟨.nonterminal 0, [.nonterminal 1], 0⟩, [])], [⟨.shift, .terminal 0, 1, .eoi, []⟩]⟩, [(⟨.nonterminal 1, [.terminal 0], 0⟩, [.eoi])]),
   (⟨1, [(⟨.nonterminal 1, [.terminal 0], 1⟩, [])], []⟩, [])]

example : String.ofList (showBuilderFull names fulls) = "State #0\n<E> = ^ <T>\n--\n<T> = ^ id [$]\n\nShift to 1 on id\n\nState #1\n<T> = id ^\n--" := by decide +kernel

example (l : List (Node Act × List (Lr0 × List Item))) (h : ∀ n ∈ l, FullOk ok ok (fun a => Known ok ok a.item ∧ Known ok ok a.lhs ∧ KnownAll ok ok a.rule) n)
    (e : showBuilderFull names l = showBuilderFull names fulls) : l.map (·.2) = [[(⟨.nonterminal 1, [.terminal 0], 0⟩, [.eoi])], []] := by
  have := congrArg (List.map fun x => x.2.2.1) (builder_full_partial clear no_empty no_dash l fulls h (by simp [fulls, FullOk, ItemsOk, Lr0.Ok, Known, KnownAll, ok]) e)
  simpa [fulls, Function.comp_def] using this

example (l : List (Node (Item × Int) × List (Lr0 × List Item))) (h : ∀ n ∈ l, FullOk ok ok (fun t => Known ok ok t.1) n)
    (e : showMachineFull names l = showMachineFull names [(⟨0, [(⟨.nonterminal 0, [.nonterminal 1], 0⟩, [])], [(.nonterminal 1, 3)]⟩, [])]) :
    l = [(⟨0, [(⟨.nonterminal 0, [.nonterminal 1], 0⟩, [])], [(.nonterminal 1, 3)]⟩, [])] :=
  (machine_full_partial clear no_empty no_dash no_state l _ h (by simp [FullOk, ItemsOk, Lr0.Ok, Known, KnownAll, ok])).1 e

end Ex

end Show
end TameParse

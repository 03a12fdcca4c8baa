import Verif.ShowProps
import Verif.ShowMachine

/-!
# C99: what the text of machines and builders says
-/

namespace TameParse
namespace Show

variable {N : Names} {T M : Int → Prop} {α β : Type}

/-- Behind the items of a state is the end or an empty line. -/
def Gap (r : Text) : Prop := r = [] ∨ ∃ t, r = '\n' :: '\n' :: t

theorem Gap.line {r : Text} (h : Gap r) : Line r := by
  rcases h with h | ⟨t, h⟩
  · exact .inl h
  · exact .inr ⟨_, h⟩

theorem decimal_newline (n : Int) : '\n' ∉ decimal n := by
  unfold decimal
  split
  · simp only [List.mem_cons, not_or]; exact ⟨by decide, digit_ne rfl⟩
  · exact digit_ne rfl

theorem decimal_sep {n m : Int} {r s : Text} (hr : Line r) (hs : Line s) (h : decimal n ++ r = decimal m ++ s) : n = m ∧ r = s := by
  have next : ∀ r, Line r → ∃ t, r ++ ['\n'] = '\n' :: t := by
    rintro r (rfl | ⟨t, rfl⟩)
    · exact ⟨[], rfl⟩
    · exact ⟨t ++ ['\n'], rfl⟩
  obtain ⟨t, ht⟩ := next r hr
  obtain ⟨u, hu⟩ := next s hs
  have e : decimal n ++ '\n' :: t = decimal m ++ '\n' :: u := by rw [← ht, ← hu, ← List.append_assoc, ← List.append_assoc, h]
  have e1 := (split_sep '\n' _ _ _ _ (decimal_newline n) (decimal_newline m) e).1
  rw [e1] at h
  exact ⟨decimal_inj e1, List.append_cancel_left h⟩

theorem state_sep_line (l : List (Lr0 × List Item)) {r : Text} (hr : Line r) : Line (showState N false l ++ r) := by
  rcases l with _ | ⟨⟨i, la⟩, l⟩
  · exact hr
  · exact .inr ⟨_, rfl⟩

theorem state_sep (hN : Clear N T M) : ∀ (xs ys : List (Lr0 × List Item)), (∀ x ∈ xs, x.1.Ok T M ∧ KnownAll T M x.2) →
    (∀ y ∈ ys, y.1.Ok T M ∧ KnownAll T M y.2) → ∀ first r s, Gap r → Gap s → showState N first xs ++ r = showState N first ys ++ s → xs = ys ∧ r = s
  | [], [], _, _, _, _, _, _, _, h => ⟨rfl, h⟩
  | [], (i, la) :: ys, _, hy, first, r, s, hr, _, h => by
    obtain ⟨c, t, hc, _, h2⟩ := rule_ne_nil hN i (hy (i, la) (by simp)).1
    rw [showState, showState, hc] at h
    rcases hr with rfl | ⟨t, rfl⟩ <;> cases first <;> simp at h
    · exact absurd h.1.symm h2
    · exact absurd h.1.symm h2
  | (i, la) :: xs, [], hx, _, first, r, s, _, hs, h => by
    obtain ⟨c, t, hc, _, h2⟩ := rule_ne_nil hN i (hx (i, la) (by simp)).1
    rw [showState, showState, hc] at h
    rcases hs with rfl | ⟨t, rfl⟩ <;> cases first <;> simp at h
    · exact absurd h.1 h2
    · exact absurd h.1 h2
  | (i, la) :: xs, (j, lb) :: ys, hx, hy, first, r, s, hr, hs, h => by
    obtain ⟨a1, a2⟩ := hx (i, la) (by simp)
    obtain ⟨b1, b2⟩ := hy (j, lb) (by simp)
    rw [showState, showState] at h
    simp only [List.append_assoc] at h
    have l1 := state_sep_line (N := N) xs hr.line
    have l2 := state_sep_line (N := N) ys hs.line
    obtain ⟨h1, h2⟩ := lr0_sep hN i j a1 b1 _ _ (paren_end hN la a2 _ l1) (paren_end hN lb b2 _ l2) (List.append_cancel_left h)
    obtain ⟨h3, h4⟩ := lookText_sep hN _ _ (.inr rfl) la lb a2 b2 _ _ l1 l2 h2
    obtain ⟨h5, h6⟩ := state_sep hN xs ys (fun x m => hx x (List.mem_cons_of_mem _ m)) (fun y m => hy y (List.mem_cons_of_mem _ m)) false r s hr hs h4
    exact ⟨by rw [h1, h3, h5], h6⟩

/-- Lines that can be told from each other, from empty lines and from the first line of a state. -/
structure Tells (line : α → Text) (P : α → Prop) (shown : α → β) : Prop where
  sep : ∀ a b r s, P a → P b → Line r → Line s → line a ++ r = line b ++ s → shown a = shown b ∧ r = s
  start : ∀ a, P a → ∃ c t, line a = c :: t ∧ c ≠ '\n'
  state : ∀ a r u, P a → line a ++ r ≠ stateWord ++ u

theorem out_line (line : α → Text) (l : List α) {r : Text} (hr : Line r) : Line (showOut line l ++ r) := by
  cases l with
  | nil => exact hr
  | cons x l => exact .inr ⟨_, rfl⟩

theorem out_sep {line : α → Text} {P : α → Prop} {shown : α → β} (hL : Tells line P shown) : ∀ xs ys : List α, (∀ x ∈ xs, P x) → (∀ y ∈ ys, P y) → ∀ r s, Gap r → Gap s →
    showOut line xs ++ r = showOut line ys ++ s → xs.map shown = ys.map shown ∧ r = s
  | [], [], _, _, _, _, _, _, h => ⟨rfl, h⟩
  | [], y :: ys, _, hy, r, s, hr, _, h => by
    obtain ⟨c, t, hc, h2⟩ := hL.start y (hy y (by simp))
    rw [showOut, showOut, hc] at h
    rcases hr with rfl | ⟨t, rfl⟩ <;> simp at h
    exact absurd h.1.symm h2
  | x :: xs, [], hx, _, r, s, _, hs, h => by
    obtain ⟨c, t, hc, h2⟩ := hL.start x (hx x (by simp))
    rw [showOut, showOut, hc] at h
    rcases hs with rfl | ⟨t, rfl⟩ <;> simp at h
    exact absurd h.1 h2
  | x :: xs, y :: ys, hx, hy, r, s, hr, hs, h => by
    simp only [showOut, List.cons_append, List.append_assoc, List.cons.injEq, true_and] at h
    obtain ⟨h1, h2⟩ := hL.sep x y _ _ (hx x (by simp)) (hy y (by simp)) (out_line line xs hr.line) (out_line line ys hs.line) h
    obtain ⟨h3, h4⟩ := out_sep hL xs ys (fun x m => hx x (List.mem_cons_of_mem _ m)) (fun y m => hy y (List.mem_cons_of_mem _ m)) r s hr hs h2
    exact ⟨by rw [List.map_cons, List.map_cons, h1, h3], h4⟩

/-- A state over known names, with transitions or actions that are `P`. -/
def Node.Ok (T M : Int → Prop) (P : α → Prop) (n : Node α) : Prop := (∀ x ∈ n.items, x.1.Ok T M ∧ KnownAll T M x.2) ∧ ∀ x ∈ n.out, P x

/-- Behind a state is the end or another state. -/
def Next (r : Text) : Prop := r = [] ∨ ∃ u, r = '\n' :: '\n' :: (stateWord ++ u)

theorem Next.gap {r : Text} (h : Next r) : Gap r := by
  rcases h with h | ⟨t, h⟩
  · exact .inl h
  · exact .inr ⟨_, h⟩

theorem node_sep {line : α → Text} {P : α → Prop} {shown : α → β} (hN : Clear N T M) (hL : Tells line P shown) {a b : Node α} (ha : a.Ok T M P) (hb : b.Ok T M P) {r s : Text}
    (hr : Next r) (hs : Next s) (h : showNode N line a ++ r = showNode N line b ++ s) : (a.id = b.id ∧ a.items = b.items ∧ a.out.map shown = b.out.map shown) ∧ r = s := by
  obtain ⟨i, xs, o⟩ := a
  obtain ⟨j, ys, p⟩ := b
  have gap : ∀ (o : List α) r, Next r → Gap ((if o.isEmpty then [] else '\n' :: showOut line o) ++ r) := by
    intro o r hr
    cases o with
    | nil => exact hr.gap
    | cons x o => exact .inr ⟨_, rfl⟩
  have no : ∀ (y : α) (p : List α) r s, P y → Next r → r ≠ '\n' :: (showOut line (y :: p) ++ s) := by
    rintro y p r s hy (rfl | ⟨u, rfl⟩) h
    · simp at h
    · simp only [showOut, List.cons_append, List.cons.injEq, true_and, List.append_assoc] at h
      exact hL.state y _ u hy h.symm
  simp only [showNode, List.append_assoc, List.cons_append] at h
  obtain ⟨h1, h2⟩ := split_sep '\n' _ _ _ _ (decimal_newline i) (decimal_newline j) (List.append_cancel_left h)
  obtain ⟨h3, h4⟩ := state_sep hN xs ys ha.1 hb.1 true _ _ (gap o r hr) (gap p s hs) h2
  cases o with
  | nil =>
    cases p with
    | nil => exact ⟨⟨decimal_inj h1, h3, rfl⟩, h4⟩
    | cons y p => exact absurd h4 (no y p r s (hb.2 y (by simp)) hr)
  | cons x o =>
    cases p with
    | nil => exact absurd h4.symm (no x o s r (ha.2 x (by simp)) hs)
    | cons y p =>
      obtain ⟨h5, h6⟩ := out_sep hL (x :: o) (y :: p) ha.2 hb.2 r s hr.gap hs.gap (List.cons.inj h4).2
      exact ⟨⟨decimal_inj h1, h3, h5⟩, h6⟩

theorem nodes_next (line : α → Text) (l : List (Node α)) : Next (showNodes N line false l) := by
  cases l with
  | nil => exact .inl rfl
  | cons n l => exact .inr ⟨(decimal n.id ++ ('\n' :: (showState N true n.items ++ if n.out.isEmpty then [] else '\n' :: showOut line n.out))) ++ showNodes N line false l, by
      simp [showNodes, showNode]⟩

theorem nodes_sep {line : α → Text} {P : α → Prop} {shown : α → β} (hN : Clear N T M) (hL : Tells line P shown) : ∀ xs ys : List (Node α), (∀ x ∈ xs, x.Ok T M P) → (∀ y ∈ ys, y.Ok T M P) →
    ∀ first, showNodes N line first xs = showNodes N line first ys →
    xs.map (fun n => (n.id, n.items, n.out.map shown)) = ys.map (fun n => (n.id, n.items, n.out.map shown))
  | [], [], _, _, _, _ => rfl
  | [], y :: ys, _, _, first, h => by cases first <;> simp [showNodes, showNode, stateWord] at h
  | x :: xs, [], _, _, first, h => by cases first <;> simp [showNodes, showNode, stateWord] at h
  | x :: xs, y :: ys, hx, hy, first, h => by
    rw [showNodes, showNodes] at h
    obtain ⟨⟨h1, h2, h3⟩, h4⟩ := node_sep hN hL (hx x (by simp)) (hy y (by simp)) (nodes_next line xs) (nodes_next line ys) (List.append_cancel_left h)
    rw [List.map_cons, List.map_cons, h1, h2, h3, nodes_sep hN hL xs ys (fun x m => hx x (List.mem_cons_of_mem _ m)) (fun y m => hy y (List.mem_cons_of_mem _ m)) false h4]

/-- No name in front of an arrow reads like the first line of a state. -/
def NoState (N : Names) (T M : Int → Prop) : Prop :=
  (∀ n, T n → ∀ s u, N.sym n ++ ' ' :: '-' :: s ≠ stateWord ++ u) ∧ ∀ n, M n → ∀ s u, N.nt n ++ ' ' :: '-' :: s ≠ stateWord ++ u

/-- Written names do not. -/
theorem written_state (h1 : ∀ n, T n → Written (N.sym n)) (h2 : ∀ n, M n → Written (N.nt n)) : NoState N T M := by
  have e : Written ['S', 't', 'a', 't', 'e'] := .word _ _ (by decide) (by decide) (by decide) (by decide)
  have key : ∀ w, Written w → ∀ s u, w ++ ' ' :: '-' :: s ≠ stateWord ++ u := by
    intro w hw s u h
    have := (written_sep hw e (' ' :: '-' :: s) (' ' :: '#' :: u) (.inr ⟨_, _, rfl, .inl rfl⟩) (.inr ⟨_, _, rfl, .inl rfl⟩) (by simpa [stateWord] using h)).2
    simp at this
  exact ⟨fun n hn => key _ (h1 n hn), fun n hn => key _ (h2 n hn)⟩

theorem move_tells (hN : Clear N T M) (hS : NoState N T M) : Tells (showMove N) (fun t => Known T M t.1) id where
  sep a b r s ha hb hr hs h := by
    simp only [showMove, List.append_assoc] at h
    obtain ⟨h1, h2⟩ := item_sep hN _ ha _ hb _ _ (.inr ⟨' ', _, rfl, .inl rfl⟩) (.inr ⟨' ', _, rfl, .inl rfl⟩) h
    have h2 : decimal a.2 ++ r = decimal b.2 ++ s := List.append_cancel_left (as := [' ', '-', '>', ' ']) h2
    obtain ⟨h3, h4⟩ := decimal_sep hr hs h2
    exact ⟨Prod.ext h1 h3, h4⟩
  start a ha := by
    obtain ⟨c, t, h, h1, -⟩ := head hN a.1 ha
    exact ⟨c, _, by rw [showMove, h]; rfl, h1.2.2.2.2.2.2.1⟩
  state a r u ha h := by
    obtain ⟨x, n⟩ := a
    simp only [showMove, List.append_assoc, List.cons_append, List.nil_append] at h
    cases x with
    | terminal n => rw [showItem] at h; exact hS.1 n (by simpa [Known] using ha) _ u h
    | nonterminal n => rw [showItem] at h; exact hS.2 n (by simpa [Known] using ha) _ u h
    | _ => exact absurd h.symm (name_lead (w := stateWord) rfl (by decide) _ _ rfl u _)

/-- Two machines have the same text only if they have the same states with the same items, lookahead and transitions. -/
theorem machine_text (hN : Clear N T M) (hS : NoState N T M) (l l' : List (Node (Item × Int))) (h : ∀ n ∈ l, n.Ok T M fun t => Known T M t.1)
    (h' : ∀ n ∈ l', n.Ok T M fun t => Known T M t.1) : showMachine N l = showMachine N l' ↔ l = l' := by
  refine ⟨fun e => ?_, fun e => by rw [e]⟩
  have e := nodes_sep hN (move_tells hN hS) l l' h h' true e
  have inj : ∀ n m : Node (Item × Int), (n.id, n.items, n.out.map id) = (m.id, m.items, m.out.map id) → n = m := by
    rintro ⟨i, x, o⟩ ⟨j, y, p⟩ h
    simpa using h
  exact (List.map_inj_right inj).1 e

/-- What the text of an action shows. -/
def Act.shown (a : Act) : ActType × Item × Option Int × Option (Item × List Item) :=
  (a.type, a.item, if hasState a.type then some a.next else none, if hasRule a.type then some (a.lhs, a.rule) else none)

theorem act_tells (hN : Clear N T M) : Tells (showAct N) (fun a => Known T M a.item ∧ Known T M a.lhs ∧ KnownAll T M a.rule) Act.shown where
  sep a b r s ha hb hr hs h := by
    simp only [showAct, List.append_assoc] at h
    obtain ⟨e1, e2, e3⟩ := name_sep _ _ _ _ _ _ h ⟨_, rfl⟩ ⟨_, rfl⟩
    have e3 := List.append_cancel_left e3
    rw [← e1] at e3
    have e2 : (if hasState a.type then some a.next else none) = if hasState b.type then some b.next else none := by
      rw [← e1]
      split
      · rw [e2 ‹_›]
      · rfl
    by_cases hh : hasRule a.type = true
    · simp only [hh, if_true, List.append_assoc] at e3
      obtain ⟨e4, e5⟩ := item_sep hN _ ha.1 _ hb.1 _ _ (.inr ⟨' ', _, rfl, .inl rfl⟩) (.inr ⟨' ', _, rfl, .inl rfl⟩) e3
      have e5 : showItem N a.lhs ++ ([' ', '=', ' '] ++ (showItems N (-1) 0 true a.rule ++ ')' :: r)) =
          showItem N b.lhs ++ ([' ', '=', ' '] ++ (showItems N (-1) 0 true b.rule ++ ')' :: s)) := by simpa [showRule] using e5
      obtain ⟨e6, e7⟩ := item_sep hN _ ha.2.1 _ hb.2.1 _ _ (.inr ⟨' ', _, rfl, .inl rfl⟩) (.inr ⟨' ', _, rfl, .inl rfl⟩) e5
      have e7 : showItems N (-1) 0 true a.rule ++ ')' :: r = showItems N (-1) 0 true b.rule ++ ')' :: s := by simpa using e7
      obtain ⟨e8, e9, _⟩ := list_sep hN _ ha.2.2 _ hb.2.2 _ _ _ _ _ _ (.inr (.inr (.inl ⟨_, rfl⟩))) (.inr (.inr (.inl ⟨_, rfl⟩))) e7
      exact ⟨by rw [Act.shown, Act.shown, e2, ← e1, e4, e6, e8], (List.cons.inj e9).2⟩
    · simp only [hh, if_false, Bool.false_eq_true, List.nil_append] at e3
      obtain ⟨e4, e5⟩ := item_sep hN _ ha.1 _ hb.1 _ _ hr.end.stop hs.end.stop e3
      exact ⟨by rw [Act.shown, Act.shown, e2, ← e1, e4, if_neg hh, if_neg hh], e5⟩
  start a _ := by
    cases h : a.type <;> exact ⟨_, _, by rw [showAct, h, actName]; rfl, by decide⟩
  state a r u _ h := by
    cases ht : a.type <;> simp [showAct, ht, actName, stateWord] at h

/-- Two builders have the same text only if they have the same states with the same items and lookahead, and actions that show the same. -/
theorem builder_text (hN : Clear N T M) (l l' : List (Node Act)) (h : ∀ n ∈ l, n.Ok T M fun a => Known T M a.item ∧ Known T M a.lhs ∧ KnownAll T M a.rule)
    (h' : ∀ n ∈ l', n.Ok T M fun a => Known T M a.item ∧ Known T M a.lhs ∧ KnownAll T M a.rule) (e : showBuilder N l = showBuilder N l') :
    l.map (fun n => (n.id, n.items, n.out.map Act.shown)) = l'.map (fun n => (n.id, n.items, n.out.map Act.shown)) :=
  nodes_sep hN (act_tells hN) l l' h h' true e

namespace Ex

def nodes : List (Node (Item × Int)) :=
  [⟨0, [(⟨.nonterminal 0, [.terminal 0], 0⟩, [.eoi])], [(.terminal 0, 1), (.nonterminal 0, 2)]⟩, ⟨1, [(⟨.nonterminal 0, [.terminal 0], 1⟩, [.eoi])], []⟩, ⟨2, [], []⟩]

example : String.ofList (showMachine names nodes) = "State #0\n<E> = ^ id ($)\n\nid -> 1\n<E> -> 2\n\nState #1\n<E> = id ^ ($)\n\nState #2\n" := by decide +kernel

theorem no_state : NoState names ok ok := by
  refine written_state ?_ ?_
  · rintro n (rfl | rfl)
    · exact .word 'i' ['d'] (by decide) (by decide) (by decide) (by decide)
    · exact .string ['a', ' ', 'b'] (by decide)
  · rintro n (rfl | rfl)
    · exact .word '<' ['E', '>'] (by decide) (by decide) (by decide) (by decide)
    · exact .word '<' ['T', '>'] (by decide) (by decide) (by decide) (by decide)

theorem nodes_ok : ∀ n ∈ nodes, n.Ok ok ok fun t => Known ok ok t.1 := by
  simp [nodes, Node.Ok, Lr0.Ok, Known, KnownAll, ok]
  rintro a b (⟨rfl, -⟩ | ⟨rfl, -⟩) <;> simp [Known, ok]

example (l : List (Node (Item × Int))) (h : ∀ n ∈ l, n.Ok ok ok fun t => Known ok ok t.1) (e : showMachine names l = showMachine names nodes) : l = nodes :=
  (machine_text clear no_state l nodes h nodes_ok).1 e

def built : List (Node Act) :=
  [⟨0, [(⟨.nonterminal 0, [.terminal 0], 0⟩, [])], [⟨.shift, .terminal 0, 1, .eoi, []⟩]⟩, ⟨1, [(⟨.nonterminal 0, [.terminal 0], 1⟩, [])], [⟨.reduce, .eoi, 0, .nonterminal 0, [.terminal 0]⟩]⟩]

example : String.ofList (showBuilder names built) = "State #0\n<E> = ^ id\n\nShift to 1 on id\n\nState #1\n<E> = id ^\n\nReduce on $ (<E> = id)" := by decide +kernel

example (l : List (Node Act)) (h : ∀ n ∈ l, n.Ok ok ok fun a => Known ok ok a.item ∧ Known ok ok a.lhs ∧ KnownAll ok ok a.rule)
    (e : showBuilder names l = showBuilder names built) : l.map (·.id) = [0, 1] := by
  have := congrArg (List.map Prod.fst) (builder_text clear l built h (by simp [built, Node.Ok, Lr0.Ok, Known, KnownAll, ok]) e)
  simpa [built, Function.comp_def] using this

end Ex

end Show
end TameParse

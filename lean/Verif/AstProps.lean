import Verif.Ast

/-!
# C66: the syntax tree of a generated parser
-/

namespace TameParse
namespace Ast

open Closure TameParse.Parser ParserTables Sound

/-! What a well-formed syntax tree is -/

/-- What nodes are listed for: the items of a rule, or the contents of a list. -/
inductive Part
  | items (xs : List Item)
  | contents (k : EbnfKind) (rs : List (List Item))

/-- The rule that the contents of a list are marked with. -/
def contentRule (k : EbnfKind) (rs : List (List Item)) : List Item :=
  if k = .repeating then Gram.ebnfRule rs else .ebnf k rs :: Gram.ebnfRule rs

/-- The nodes represent the items and stand for the tokens, in order: an object has the number of a rule for its item and a field for each
item of the rule apart from guards; a list has an object for each repetition. -/
inductive Typed (g : Gram) (num : Numbering) : Part → List Node → List Tok → Prop
  | nil : Typed g num (.items []) [] []
  | guard {p : Int} {l xs : List Item} {ns : List Node} {w : List Tok} (h : Typed g num (.items xs) ns w) : Typed g num (.items (.guard p l :: xs)) ns w
  | token {k : Tok} {xs : List Item} {ns : List Node} {w : List Tok} (h : Typed g num (.items xs) ns w) :
      Typed g num (.items (.terminal k.sym :: xs)) (.term (.item (.terminal k.sym)) k :: ns) (k :: w)
  | object {x : Item} {r : List Item} {fs : List Node} {v : List Tok} {xs : List Item} {ns : List Node} {w : List Tok} (hx : isList x = false)
      (hr : r ∈ closRules g x) (hc : Typed g num (.items r) fs v) (h : Typed g num (.items xs) ns w) :
      Typed g num (.items (x :: xs)) (.object (.item x) (num.ruleId ⟨x, r⟩) fs :: ns) (v ++ w)
  | list {k : EbnfKind} {rs : List (List Item)} {cs : List Node} {v : List Tok} {xs : List Item} {ns : List Node} {w : List Tok} (hk : k = .repeating ∨ k = .repeatZero)
      (hc : Typed g num (.contents k rs) cs v) (hne : k = .repeating → cs ≠ []) (h : Typed g num (.items xs) ns w) :
      Typed g num (.items (.ebnf k rs :: xs)) (.list (.ebnf k rs) cs :: ns) (v ++ w)
  | none {k : EbnfKind} {rs : List (List Item)} : Typed g num (.contents k rs) [] []
  | more {k : EbnfKind} {rs : List (List Item)} {cs fs : List Node} {v w : List Tok} (h : Typed g num (.contents k rs) cs v)
      (hf : Typed g num (.items (Gram.ebnfRule rs)) fs w) :
      Typed g num (.contents k rs) (cs ++ [.object (.content (.ebnf k rs)) (num.ruleId ⟨.ebnf k rs, contentRule k rs⟩) fs]) (v ++ w)

/-! What is assumed -/

/-- What the output stage knows is right for the items `ok`, which have only such items in their rules; no `+` list repeats nothing. -/
structure Fits (d : Gen) (g : Gram) (num : Numbering) (ok : Item → Prop) : Prop where
  closed : ∀ x, ok x → ∀ r ∈ closRules g x, ∀ y ∈ r, ok y
  rule : ∀ x, ok x → ∀ r ∈ closRules g x, d.rule (num.ruleId ⟨x, r⟩) = some ⟨x, r⟩
  ruleId : ∀ x, ok x → ∀ r ∈ closRules g x, d.ruleId ⟨x, r⟩ = num.ruleId ⟨x, r⟩
  plus : ∀ rs, ok (.ebnf .repeating rs) → Gram.ebnfRule rs ≠ []

mutual
/-- Whether a guard was accepted at the end of the input: there is a leaf without a token. -/
def atEnd : Tree → Bool
  | .nothing => false
  | .leaf la => la.isNone
  | .node _ _ ts => anyAtEnd ts

@[inherit_doc atEnd]
def anyAtEnd : List Tree → Bool
  | [] => false
  | t :: ts => atEnd t || anyAtEnd ts
end

theorem anyAtEnd_eq (ts : List Tree) : anyAtEnd ts = ts.any atEnd := by
  induction ts with
  | nil => rfl
  | cons t ts ih => simp [anyAtEnd, ih]

/-- The nodes of the items that are not guards. -/
def kept : List Item → List Node → List Node
  | x :: xs, n :: ns => if isGuard x then kept xs ns else n :: kept xs ns
  | _, _ => []

/-! Building -/

theorem bindOk {α β : Type} {a : M α} {x : α} (f : α → M β) (h : a = .ok x) : (a >>= f) = f x := by rw [h]; rfl

theorem buildAll_append {d : Gen} : ∀ {ts us : List Tree} {ns ms : List Node}, buildAll d ts = .ok ns → buildAll d us = .ok ms → buildAll d (ts ++ us) = .ok (ns ++ ms)
  | [], _, ns, _, h, h' => by
    unfold buildAll at h
    cases h
    exact h'
  | t :: ts, us, ns, ms, h, h' => by
    unfold buildAll at h
    cases ht : build d t with
    | error e => rw [ht] at h; cases h
    | ok n =>
      cases hts : buildAll d ts with
      | error e => rw [ht, hts] at h; cases h
      | ok l =>
        rw [ht, hts] at h
        cases h
        show buildAll d (t :: (ts ++ us)) = _
        unfold buildAll
        rw [ht, buildAll_append hts h']
        rfl

theorem buildAll_reverse {d : Gen} : ∀ {ts : List Tree} {ns : List Node}, buildAll d ts = .ok ns → buildAll d ts.reverse = .ok ns.reverse
  | [], _, h => by
    unfold buildAll at h
    cases h
    rfl
  | t :: ts, _, h => by
    unfold buildAll at h
    cases ht : build d t with
    | error e => rw [ht] at h; cases h
    | ok n =>
      cases hts : buildAll d ts with
      | error e => rw [ht, hts] at h; cases h
      | ok l =>
        rw [ht, hts] at h
        cases h
        rw [List.reverse_cons, List.reverse_cons]
        refine buildAll_append (buildAll_reverse hts) ?_
        unfold buildAll
        rw [ht]
        rfl

/-- The nodes are of the classes of the items. -/
theorem Typed.classes {g : Gram} {num : Numbering} {p : Part} {ns : List Node} {w : List Tok} (h : Typed g num p ns w) :
    ∀ xs, p = .items xs → ns.map Node.cls = (xs.filter (fun x => !isGuard x)).map (fun x => some (.item x)) := by
  induction h with
  | nil => rintro _ ⟨⟩; rfl
  | guard _ ih => rintro _ ⟨⟩; simpa [isGuard] using ih _ rfl
  | token _ ih => rintro _ ⟨⟩; simpa [isGuard, Node.cls] using ih _ rfl
  | @object x _ _ _ xs _ _ hx hr _ _ _ ih =>
    rintro _ ⟨⟩
    have : isGuard x = false := by cases x <;> first | rfl | cases hr
    simpa [this, Node.cls] using ih _ rfl
  | list _ _ _ _ _ ih => rintro _ ⟨⟩; simpa [isGuard, Node.cls] using ih _ rfl
  | none => rintro _ ⟨⟩
  | more => rintro _ ⟨⟩

/-- The parameters of the constructor are the nodes of the items that are not guards. -/
theorem fields_ok {x : Item} {size : Nat} {children : List Node} : ∀ (ys : List Item) (ms : List Node) (index : Nat), ms.length = ys.length →
    (∀ j, j < ys.length → children[size - (index + j) - 1]? = ms[j]?) → (kept ys ms).map Node.cls = (ys.filter (fun y => !isGuard y)).map (fun y => some (.item y)) →
    (∀ y, ys.head? = some y → isRepetition x index y = false) → fields x size children index ys = .ok (kept ys ms)
  | [], [], _, _, _, _, _ => rfl
  | y :: ys, m :: ms, index, hl, hc, hk, hr => by
    have hrest : ∀ hk', fields x size children (index + 1) ys = .ok (kept ys ms) := fun hk' =>
      fields_ok ys ms (index + 1) (Nat.succ.inj hl) (fun j hj => by
        have := hc (j + 1) (Nat.succ_lt_succ hj)
        rw [show index + (j + 1) = index + 1 + j by omega] at this
        simpa using this) hk' (fun y' _ => by simp [isRepetition])
    unfold fields kept
    by_cases hg : isGuard y = true
    · rw [hg, Bool.true_or, if_pos rfl, if_pos rfl]
      refine hrest ?_
      simpa [kept, hg] using hk
    · rw [Bool.not_eq_true] at hg
      rw [hg, hr y rfl, Bool.or_self, if_neg (by simp), if_neg (by simp)]
      have hk1 : m.cls = some (.item y) ∧ (kept ys ms).map Node.cls = (ys.filter (fun y => !isGuard y)).map (fun y => some (.item y)) := by
        simpa [kept, hg] using hk
      have h0 := hc 0 (Nat.succ_pos _)
      rw [Nat.add_zero] at h0
      rw [h0]
      show (do let f ← castTo (.item y) m; return f :: (← fields x size children (index + 1) ys)) = _
      rw [show castTo (.item y) m = .ok m by unfold castTo; rw [if_pos hk1.1], hrest hk1.2]
      rfl

theorem Typed.cons {g : Gram} {num : Numbering} {p : Part} {x : Item} {n : Node} {l : List Node} {v w : List Tok} {xs : List Item} {ns : List Node}
    (h : Typed g num p l v) (hp : p = .items [x]) (hl : l = [n]) (h' : Typed g num (.items xs) ns w) (hx : isGuard x = false) : Typed g num (.items (x :: xs)) (n :: ns) (v ++ w) := by
  cases h with
  | nil => cases hp
  | guard => cases hp; cases hx
  | token h => cases hp; cases hl; cases h; exact .token h'
  | object a b c h => cases hp; cases hl; cases h; rw [List.append_nil]; exact .object a b c h'
  | list a b c h => cases hp; cases hl; cases h; rw [List.append_nil]; exact .list a b c h'
  | none => cases hp
  | more => cases hp

theorem Typed.uncons {g : Gram} {num : Numbering} {k : EbnfKind} {rs : List (List Item)} {p : Part} {xs : List Item} {n : Node} {l ns : List Node} {w : List Tok}
    (h : Typed g num p l w) (hp : p = .items (.ebnf k rs :: xs)) (hl : l = n :: ns) (hk : k = .repeating ∨ k = .repeatZero) :
    ∃ cs v v', n = .list (.ebnf k rs) cs ∧ w = v ++ v' ∧ Typed g num (.contents k rs) cs v ∧ (k = .repeating → cs ≠ []) ∧ Typed g num (.items xs) ns v' := by
  cases h with
  | nil => cases hp
  | guard => cases hp
  | token => cases hp
  | object a => cases hp; rcases hk with rfl | rfl <;> cases a
  | list a b c h => cases hp; cases hl; exact ⟨_, _, _, rfl, rfl, b, c, h⟩
  | none => cases hp
  | more => cases hp

theorem children_index {ms : List Node} {n : Nat} (hl : ms.length = n) {j : Nat} (hj : j < n) : ms.reverse[n - j - 1]? = ms[j]? := by
  rw [List.getElem?_reverse (by omega)]
  congr 1
  omega

/-- An item of the rule of a list is not the list itself. -/
theorem sizeOf_ebnfRule {k : EbnfKind} {rs : List (List Item)} {y : Item} (h : y ∈ Gram.ebnfRule rs) : sizeOf y < sizeOf (Item.ebnf k rs) := by
  cases rs with
  | nil => cases h
  | cons r rs =>
    have h1 := List.sizeOf_lt_of_mem (show y ∈ r from h)
    simp
    omega

theorem ebnfRule_head {k : EbnfKind} {rs : List (List Item)} {y : Item} (h : (Gram.ebnfRule rs).head? = some y) : isRepetition (.ebnf k rs) 0 y = false := by
  have h1 := sizeOf_ebnfRule (k := k) (List.mem_of_mem_head? (by rw [h]; rfl))
  unfold isRepetition
  have : (y == Item.ebnf k rs) = false := by
    rw [beq_eq_false_iff_ne]
    rintro rfl
    omega
  rw [this, Bool.and_false]

/-- What a reduction makes of the nodes of a rule. -/
inductive Outcome (num : Numbering) : Item → List Item → List Node → Node → Prop
  | object {x : Item} {r : List Item} {l : List Node} (hx : isList x = false) : Outcome num x r l (.object (.item x) (num.ruleId ⟨x, r⟩) l)
  | empty {rs : List (List Item)} : Outcome num (.ebnf .repeatZero rs) [] [] (.list (.ebnf .repeatZero rs) [])
  | first {rs : List (List Item)} {l : List Node} : Outcome num (.ebnf .repeating rs) (Gram.ebnfRule rs) l
      (.list (.ebnf .repeating rs) [.object (.content (.ebnf .repeating rs)) (num.ruleId ⟨.ebnf .repeating rs, contentRule .repeating rs⟩) l])
  | next {k : EbnfKind} {rs : List (List Item)} {cs l : List Node} (hne : k = .repeating → cs ≠ []) : Outcome num (.ebnf k rs) (.ebnf k rs :: Gram.ebnfRule rs) (.list (.ebnf k rs) cs :: l)
      (.list (.ebnf k rs) (cs ++ [.object (.content (.ebnf k rs)) (num.ruleId ⟨.ebnf k rs, contentRule k rs⟩) l]))

section
variable {d : Gen} {g : Gram} {num : Numbering} {ok : Item → Prop}

/-- A reduction makes a well-formed node. -/
theorem reduceCase_ok (hf : Fits d g num ok) {x : Item} (hx : ok x) {r : List Item} (hr : r ∈ closRules g x) {ms : List Node} (hl : ms.length = r.length) {v : List Tok}
    (ht : Typed g num (.items r) (kept r ms) v) : ∃ n, reduceCase d ⟨x, r⟩ ms.reverse = .ok n ∧ Typed g num (.items [x]) [n] v ∧ Outcome num x r (kept r ms) n := by
  have hfields : (∀ y, r.head? = some y → isRepetition x 0 y = false) → fields x r.length ms.reverse 0 r = .ok (kept r ms) := fun h =>
    fields_ok r ms 0 hl (fun j hj => by rw [Nat.zero_add]; exact children_index hl hj) (ht.classes r rfl) h
  have plain : isList x = false → reduceCase d ⟨x, r⟩ ms.reverse = (do return .object (.item x) (d.ruleId ⟨x, r⟩) (← fields x r.length ms.reverse 0 r)) →
      ∃ n, reduceCase d ⟨x, r⟩ ms.reverse = .ok n ∧ Typed g num (.items [x]) [n] v ∧ Outcome num x r (kept r ms) n := by
    intro hnl he
    rw [hfields (fun y _ => by simp [isRepetition, hnl])] at he
    refine ⟨_, he, ?_⟩
    rw [hf.ruleId x hx r hr]
    refine ⟨?_, .object hnl⟩
    rw [← List.append_nil v]
    exact .object hnl hr ht .nil
  cases x with
  | nonterminal n => exact plain rfl rfl
  | ebnf k rs =>
    cases k with
    | optional => exact plain rfl rfl
    | alternative => exact plain rfl rfl
    | repeating =>
      have hc0 := hf.plus rs hx
      have hr2 : r = Gram.ebnfRule rs ∨ r = .ebnf .repeating rs :: Gram.ebnfRule rs := by simpa [closRules] using hr
      have hid := hf.ruleId _ hx (Gram.ebnfRule rs) (by simp [closRules])
      rcases hr2 with rfl | rfl
      · have h1 := hfields (fun y hy => ebnfRule_head hy)
        cases hrl : Gram.ebnfRule rs with
        | nil => exact absurd hrl hc0
        | cons y ys =>
          have hy : isRepetition (.ebnf .repeating rs) 0 y = false := ebnfRule_head (by rw [hrl]; rfl)
          rw [hrl] at h1 hid ht
          refine ⟨.list (.ebnf .repeating rs) ([] ++ [.object (.content (.ebnf .repeating rs)) (d.ruleId ⟨.ebnf .repeating rs, y :: ys⟩) (kept (y :: ys) ms)]), ?_, ?_, ?_⟩
          · show (do
              let c ← fields (.ebnf .repeating rs) (y :: ys).length ms.reverse 0 (y :: ys)
              let l ← theList (.ebnf .repeating rs) (y :: ys) ms.reverse
              return Node.list (.ebnf .repeating rs) (l ++ [Node.object (.content (.ebnf .repeating rs))
                (d.ruleId ⟨.ebnf .repeating rs, if isRepetition (.ebnf .repeating rs) 0 y then ys else y :: ys⟩) c])) = _
            rw [bindOk _ h1]
            have h5 : theList (.ebnf .repeating rs) (y :: ys) ms.reverse = .ok [] := by
              unfold theList
              dsimp only
              rw [hy, if_neg (by simp)]
            rw [bindOk _ h5, hy, if_neg (by simp)]
            rfl
          · rw [← List.append_nil v, hid]
            refine .list (Or.inl rfl) ?_ (fun _ => by simp) .nil
            have := Typed.more (k := .repeating) (rs := rs) .none (hrl ▸ ht)
            simp only [List.nil_append] at this
            unfold contentRule at this
            rw [if_pos rfl, hrl] at this
            exact this
          · have := Outcome.first (num := num) (rs := rs) (l := kept (y :: ys) ms)
            unfold contentRule at this
            rw [if_pos rfl, hrl] at this
            rw [hid]
            exact this
      · cases ms with
        | nil => cases hl
        | cons m ms =>
          have hkept : kept (.ebnf .repeating rs :: Gram.ebnfRule rs) (m :: ms) = m :: kept (Gram.ebnfRule rs) ms := rfl
          rw [hkept] at ht
          obtain ⟨cs, v1, v2, rfl, rfl, h1, hne, h2⟩ := ht.uncons rfl rfl (Or.inl rfl)
          have hl' : ms.length = (Gram.ebnfRule rs).length := Nat.succ.inj hl
          have h3 : fields (.ebnf .repeating rs) (.ebnf .repeating rs :: Gram.ebnfRule rs : List Item).length (Node.list (.ebnf .repeating rs) cs :: ms).reverse 0
              (.ebnf .repeating rs :: Gram.ebnfRule rs) = .ok (kept (Gram.ebnfRule rs) ms) := by
            show (if isGuard (.ebnf .repeating rs) || isRepetition (.ebnf .repeating rs) 0 (.ebnf .repeating rs) then _ else _) = _
            rw [if_pos (by simp [isRepetition, isList])]
            refine fields_ok _ ms 1 hl' (fun j hj => ?_) (h2.classes _ rfl) (fun y _ => by simp [isRepetition])
            rw [children_index hl (j := 1 + j) (by simp; omega), Nat.add_comm, List.getElem?_cons_succ]
          have h4 : theList (.ebnf .repeating rs) (.ebnf .repeating rs :: Gram.ebnfRule rs) (Node.list (.ebnf .repeating rs) cs :: ms).reverse = .ok cs := by
            unfold theList
            dsimp only
            rw [if_pos (by simp [isRepetition, isList])]
            have h5 := children_index hl (j := 0) (by simp)
            rw [Nat.sub_zero] at h5
            rw [h5]
            show (if Item.ebnf .repeating rs = Item.ebnf .repeating rs then Except.ok cs else _) = _
            rw [if_pos rfl]
          refine ⟨.list (.ebnf .repeating rs) (cs ++ [.object (.content (.ebnf .repeating rs)) (d.ruleId ⟨.ebnf .repeating rs, Gram.ebnfRule rs⟩) (kept (Gram.ebnfRule rs) ms)]), ?_, ?_, ?_⟩
          · show (do
              let c ← fields (.ebnf .repeating rs) (.ebnf .repeating rs :: Gram.ebnfRule rs : List Item).length (Node.list (.ebnf .repeating rs) cs :: ms).reverse 0
                (.ebnf .repeating rs :: Gram.ebnfRule rs)
              let l ← theList (.ebnf .repeating rs) (.ebnf .repeating rs :: Gram.ebnfRule rs) (Node.list (.ebnf .repeating rs) cs :: ms).reverse
              return Node.list (.ebnf .repeating rs) (l ++ [Node.object (.content (.ebnf .repeating rs))
                (d.ruleId ⟨.ebnf .repeating rs, if isRepetition (.ebnf .repeating rs) 0 (.ebnf .repeating rs) then Gram.ebnfRule rs else .ebnf .repeating rs :: Gram.ebnfRule rs⟩) c])) = _
            rw [bindOk _ h3, bindOk _ h4, if_pos (by simp [isRepetition, isList])]
            rfl
          · rw [← List.append_nil (v1 ++ v2), hid]
            refine .list (Or.inl rfl) ?_ (fun _ => by simp) .nil
            have := Typed.more h1 h2
            unfold contentRule at this
            rw [if_pos rfl] at this
            exact this
          · have := Outcome.next (num := num) (rs := rs) (l := kept (Gram.ebnfRule rs) ms) hne
            unfold contentRule at this
            rw [if_pos rfl] at this
            rw [hid]
            exact this
    | repeatZero =>
      have hr2 : r = [] ∨ r = .ebnf .repeatZero rs :: Gram.ebnfRule rs := by simpa [closRules] using hr
      rcases hr2 with rfl | rfl
      · cases ms with
        | cons => cases hl
        | nil =>
          cases ht
          exact ⟨_, rfl, Typed.list (v := []) (w := []) (Or.inr rfl) .none nofun .nil, .empty⟩
      · cases ms with
        | nil => cases hl
        | cons m ms =>
          have hid := hf.ruleId _ hx _ hr
          have hkept : kept (.ebnf .repeatZero rs :: Gram.ebnfRule rs) (m :: ms) = m :: kept (Gram.ebnfRule rs) ms := rfl
          rw [hkept] at ht
          obtain ⟨cs, v1, v2, rfl, rfl, h1, hne, h2⟩ := ht.uncons rfl rfl (Or.inr rfl)
          have hl' : ms.length = (Gram.ebnfRule rs).length := Nat.succ.inj hl
          have h3 : fields (.ebnf .repeatZero rs) (.ebnf .repeatZero rs :: Gram.ebnfRule rs : List Item).length (Node.list (.ebnf .repeatZero rs) cs :: ms).reverse 0
              (.ebnf .repeatZero rs :: Gram.ebnfRule rs) = .ok (kept (Gram.ebnfRule rs) ms) := by
            show (if isGuard (.ebnf .repeatZero rs) || isRepetition (.ebnf .repeatZero rs) 0 (.ebnf .repeatZero rs) then _ else _) = _
            rw [if_pos (by simp [isRepetition, isList])]
            refine fields_ok _ ms 1 hl' (fun j hj => ?_) (h2.classes _ rfl) (fun y _ => by simp [isRepetition])
            rw [children_index hl (j := 1 + j) (by simp; omega), Nat.add_comm, List.getElem?_cons_succ]
          have h4 : theList (.ebnf .repeatZero rs) (.ebnf .repeatZero rs :: Gram.ebnfRule rs) (Node.list (.ebnf .repeatZero rs) cs :: ms).reverse = .ok cs := by
            unfold theList
            dsimp only
            rw [if_pos (by simp [isRepetition, isList])]
            have h5 := children_index hl (j := 0) (by simp)
            rw [Nat.sub_zero] at h5
            rw [h5]
            show (if Item.ebnf .repeatZero rs = Item.ebnf .repeatZero rs then Except.ok cs else _) = _
            rw [if_pos rfl]
          refine ⟨.list (.ebnf .repeatZero rs) (cs ++ [.object (.content (.ebnf .repeatZero rs)) (d.ruleId ⟨.ebnf .repeatZero rs, .ebnf .repeatZero rs :: Gram.ebnfRule rs⟩)
            (kept (Gram.ebnfRule rs) ms)]), ?_, ?_, ?_⟩
          · show (do
              let c ← fields (.ebnf .repeatZero rs) (.ebnf .repeatZero rs :: Gram.ebnfRule rs : List Item).length (Node.list (.ebnf .repeatZero rs) cs :: ms).reverse 0
                (.ebnf .repeatZero rs :: Gram.ebnfRule rs)
              let l ← theList (.ebnf .repeatZero rs) (.ebnf .repeatZero rs :: Gram.ebnfRule rs) (Node.list (.ebnf .repeatZero rs) cs :: ms).reverse
              return Node.list (.ebnf .repeatZero rs) (l ++ [Node.object (.content (.ebnf .repeatZero rs)) (d.ruleId ⟨.ebnf .repeatZero rs, .ebnf .repeatZero rs :: Gram.ebnfRule rs⟩) c])) = _
            rw [bindOk _ h3, bindOk _ h4]
            rfl
          · rw [← List.append_nil (v1 ++ v2), hid]
            refine .list (Or.inr rfl) ?_ (fun h => by cases h) .nil
            exact Typed.more h1 h2
          · rw [hid]
            exact Outcome.next (num := num) (rs := rs) (l := kept (Gram.ebnfRule rs) ms) hne
  | _ => cases hr

/-- The actions of a generated parser make well-formed nodes of every derivation tree, unless a guard was accepted at the end of the input. -/
theorem buildAll_typed (hf : Fits d g num ok) {xs : List Item} {ts : List Tree} {w : List Tok} (h : Forest g num xs ts w) : (∀ x ∈ xs, ok x) →
    (∀ k ∈ w, 0 ≤ k.sym ∧ k.sym < d.terminals) → anyAtEnd ts = false → ∃ ns, buildAll d ts = .ok ns ∧ ns.length = xs.length ∧ Typed g num (.items xs) (kept xs ns) w := by
  induction h with
  | nil => exact fun _ _ _ => ⟨[], rfl, rfl, .nil⟩
  | @token k xs ts w _ ih =>
    intro hx hw he
    obtain ⟨ns, h1, h2, h3⟩ := ih (fun x hx' => hx x (List.mem_cons_of_mem _ hx')) (fun k' hk' => hw k' (List.mem_cons_of_mem _ hk')) (by simpa [anyAtEnd, atEnd] using he)
    refine ⟨.term (.item (.terminal k.sym)) k :: ns, ?_, by simp [h2], .token h3⟩
    unfold buildAll build shift
    dsimp only
    rw [h1, if_pos (hw k (List.mem_cons_self ..))]
    rfl
  | @guard p l la xs ts w _ ih =>
    intro hx hw he
    unfold anyAtEnd at he
    rw [Bool.or_eq_false_iff] at he
    obtain ⟨ns, h1, h2, h3⟩ := ih (fun x hx' => hx x (List.mem_cons_of_mem _ hx')) hw he.2
    cases la with
    | none => exact absurd he.1 (by simp [atEnd])
    | some k =>
      refine ⟨.term (if 0 ≤ k.sym ∧ k.sym < d.terminals then .item (.terminal k.sym) else .plain) k :: ns, ?_, by simp [h2], .guard h3⟩
      unfold buildAll build shift
      rw [h1]
      rfl
  | @node x r us v xs ts w hr hc _ ih1 ih2 =>
    intro hx hw he
    unfold anyAtEnd at he
    rw [Bool.or_eq_false_iff] at he
    have hok := hx x (List.mem_cons_self ..)
    obtain ⟨ms, h1, h2, h3⟩ := ih1 (fun y hy => hf.closed x hok r hr y hy) (fun k hk => hw k (List.mem_append_left _ hk)) (by
      have := he.1
      unfold atEnd at this
      rw [anyAtEnd_eq] at this ⊢
      simpa using this)
    obtain ⟨ns, h4, h5, h6⟩ := ih2 (fun y hy => hx y (List.mem_cons_of_mem _ hy)) (fun k hk => hw k (List.mem_append_right _ hk)) he.2
    obtain ⟨n, h7, h8, -⟩ := reduceCase_ok hf hok hr h2 h3
    have hg : isGuard x = false := by cases x <;> first | rfl | cases hr
    refine ⟨n :: ns, ?_, by simp [h5], ?_⟩
    · unfold buildAll build
      rw [buildAll_reverse h1]
      show (do return (← reduce d (num.ruleId ⟨x, r⟩) ms.reverse) :: (← buildAll d ts)) = _
      unfold reduce
      rw [hf.rule x hok r hr]
      dsimp only
      rw [h7, h4]
      rfl
    · unfold kept
      rw [hg, if_neg (by simp)]
      exact h8.cons rfl rfl h6 hg

/-! The lexemes -/

mutual
/-- The lexemes of a node from left to right. -/
def Node.lexemes : Node → List Tok
  | .null => []
  | .term _ k => [k]
  | .object _ _ fs => lexemesAll fs
  | .list _ cs => lexemesAll cs

@[inherit_doc Node.lexemes]
def lexemesAll : List Node → List Tok
  | [] => []
  | n :: ns => n.lexemes ++ lexemesAll ns
end

theorem lexemesAll_append (a b : List Node) : lexemesAll (a ++ b) = lexemesAll a ++ lexemesAll b := by
  induction a with
  | nil => rfl
  | cons n a ih => simp [lexemesAll, ih]

theorem Typed.lexemes {p : Part} {ns : List Node} {w : List Tok} (h : Typed g num p ns w) : lexemesAll ns = w := by
  induction h with
  | nil => rfl
  | guard _ ih => exact ih
  | token _ ih => simp [lexemesAll, Node.lexemes, ih]
  | object _ _ _ _ ih1 ih2 => simp [lexemesAll, Node.lexemes, ih1, ih2]
  | list _ _ _ _ ih1 ih2 => simp [lexemesAll, Node.lexemes, ih1, ih2]
  | none => rfl
  | more _ _ ih1 ih2 => rw [lexemesAll_append, ih1]; simp [lexemesAll, Node.lexemes, ih2]

/-! The tree is kept -/

/-- The outcome determines the rule and the nodes. -/
theorem Outcome.unique (hf : Fits d g num ok) {x : Item} (hx : ok x) {r r' : List Item} (hr : r ∈ closRules g x) (hr' : r' ∈ closRules g x) {l l' : List Node} {n : Node}
    (h : Outcome num x r l n) (h' : Outcome num x r' l' n) : r = r' ∧ l = l' := by
  have hid : num.ruleId ⟨x, r⟩ = num.ruleId ⟨x, r'⟩ → r = r' := by
    intro he
    have h1 := hf.rule x hx r hr
    have h2 := hf.rule x hx r' hr'
    rw [he, h2] at h1
    exact ((Rule.mk.inj (Option.some.inj h1)).2).symm
  cases h with
  | object a =>
    generalize hn : num.ruleId ⟨x, r⟩ = i at h'
    generalize hm : (.object (.item x) i l : Node) = m at h'
    cases h' with
    | object => cases hm; exact ⟨hid hn, rfl⟩
    | _ => cases hm
  | empty =>
    generalize hm : (.list _ [] : Node) = m at h'
    cases h' with
    | object => cases hm
    | empty => exact ⟨rfl, rfl⟩
    | next => exact absurd (Node.list.inj hm).2 (by simp)
  | first =>
    generalize hm : (.list _ [_] : Node) = m at h'
    cases h' with
    | object => cases hm
    | first => cases hm; exact ⟨rfl, rfl⟩
    | next hne =>
      have := (Node.list.inj hm).2
      rw [show ([_] : List Node) = [] ++ [_] from rfl] at this
      exact absurd (List.append_inj' this rfl).1.symm (hne rfl)
  | @next k rs cs l0 hne =>
    generalize hm : (.list _ (_ ++ [_]) : Node) = m at h'
    cases h' with
    | object => cases hm
    | empty => exact absurd (Node.list.inj hm).2 (by simp)
    | first =>
      have := (Node.list.inj hm).2
      exact absurd (List.append_inj' (this.trans (List.nil_append _).symm) rfl).1 (hne rfl)
    | next =>
      have := List.append_inj' (Node.list.inj hm).2 rfl
      have h2 := (Node.object.inj (List.cons.inj this.2).1).2.2
      exact ⟨rfl, by rw [this.1, h2]⟩

theorem kept_all : ∀ {xs : List Item} {ns : List Node}, ns.length = xs.length → (∀ x ∈ xs, isGuard x = false) → kept xs ns = ns
  | [], [], _, _ => rfl
  | x :: xs, n :: ns, h, hg => by
    unfold kept
    rw [hg x (List.mem_cons_self ..), if_neg (by simp), kept_all (Nat.succ.inj h) (fun y hy => hg y (List.mem_cons_of_mem _ hy))]

theorem noGuard_noEnd {xs : List Item} {ts : List Tree} {w : List Tok} (hf : Fits d g num ok) (hg : ∀ x, ok x → isGuard x = false) (h : Forest g num xs ts w) : (∀ x ∈ xs, ok x) → anyAtEnd ts = false := by
  induction h with
  | nil => exact fun _ => rfl
  | token _ ih =>
    intro hx
    unfold anyAtEnd atEnd
    rw [ih (fun y hy => hx y (List.mem_cons_of_mem _ hy))]
    rfl
  | guard =>
    intro hx
    exact absurd (hg _ (hx _ (List.mem_cons_self ..))) (by simp [isGuard])
  | @node x r us v xs ts w hr _ _ ih1 ih2 =>
    intro hx
    unfold anyAtEnd atEnd
    rw [ih2 (fun y hy => hx y (List.mem_cons_of_mem _ hy)), anyAtEnd_eq, List.any_reverse, ← anyAtEnd_eq, ih1 (hf.closed x (hx x (List.mem_cons_self ..)) r hr)]
    rfl

/-- Without guards, different derivation trees are made into different nodes. -/
theorem buildAll_injective (hf : Fits d g num ok) (hg : ∀ x, ok x → isGuard x = false) {xs : List Item} {ts : List Tree} {w : List Tok} (h : Forest g num xs ts w) :
    ∀ {ts' : List Tree} {w' : List Tok} {ns : List Node}, Forest g num xs ts' w' → (∀ x ∈ xs, ok x) → (∀ k ∈ w, 0 ≤ k.sym ∧ k.sym < d.terminals) →
    (∀ k ∈ w', 0 ≤ k.sym ∧ k.sym < d.terminals) → buildAll d ts = .ok ns → buildAll d ts' = .ok ns → ts = ts' := by
  have split : ∀ {t : Tree} {ts : List Tree} {ns : List Node}, buildAll d (t :: ts) = .ok ns → ∃ n ns', ns = n :: ns' ∧ build d t = .ok n ∧ buildAll d ts = .ok ns' := by
    intro t ts ns hb
    unfold buildAll at hb
    cases ht : build d t with
    | error e => rw [ht] at hb; cases hb
    | ok n =>
      cases hts : buildAll d ts with
      | error e => rw [ht, hts] at hb; cases hb
      | ok l =>
        rw [ht, hts] at hb
        cases hb
        exact ⟨n, l, rfl, rfl, rfl⟩
  induction h with
  | nil =>
    intro ts' w' ns h' _ _ _ _ _
    cases h'
    rfl
  | @token k xs ts w _ ih =>
    intro ts' w' ns h' hx hw hw' hb hb'
    generalize he : (Item.terminal k.sym :: xs) = ys at h'
    cases h' with
    | nil => cases he
    | @token k' xs' ts'' w'' h'' =>
      obtain ⟨he1, rfl⟩ := List.cons.inj he
      obtain ⟨n, ns', rfl, b1, b2⟩ := split hb
      obtain ⟨n2, ns2, he2, b3, b4⟩ := split hb'
      cases he2
      have : k = k' := by
        unfold build shift at b1 b3
        dsimp only at b1 b3
        have := Except.ok.inj (b1.trans b3.symm)
        exact (Node.term.inj this).2
      rw [this, ih h'' (fun y hy => hx y (List.mem_cons_of_mem _ hy)) (fun y hy => hw y (List.mem_cons_of_mem _ hy)) (fun y hy => hw' y (List.mem_cons_of_mem _ hy)) b2 b4]
    | guard => cases he
    | node hr => cases he; cases hr
  | guard =>
    intro _ _ _ _ hx
    exact absurd (hg _ (hx _ (List.mem_cons_self ..))) (by simp [isGuard])
  | @node x r us v xs ts w hr hc _ ih1 ih2 =>
    intro ts' w' ns h' hx hw hw' hb hb'
    have hok := hx x (List.mem_cons_self ..)
    generalize he : x :: xs = ys at h'
    cases h' with
    | nil => cases he
    | token => cases he; cases hr
    | guard => cases he; cases hr
    | @node x' r' us' v' xs' ts'' w'' hr' hc' h'' =>
      obtain ⟨rfl, rfl⟩ := List.cons.inj he
      obtain ⟨n, ns', rfl, b1, b2⟩ := split hb
      obtain ⟨n2, ns2, he2, b3, b4⟩ := split hb'
      cases he2
      have key : ∀ {r : List Item} {us : List Tree} {v : List Tok}, r ∈ closRules g x → Forest g num r us v → (∀ k ∈ v, 0 ≤ k.sym ∧ k.sym < d.terminals) →
          build d (.node (num.ident x) (num.ruleId ⟨x, r⟩) us.reverse) = .ok n → ∃ ms, buildAll d us = .ok ms ∧ Outcome num x r ms n := by
        intro r us v hr hc hv hb
        obtain ⟨ms, h1, h2, h3⟩ := buildAll_typed hf hc (hf.closed x hok r hr) hv (noGuard_noEnd hf hg hc (hf.closed x hok r hr))
        obtain ⟨m, h4, h5, h6⟩ := reduceCase_ok hf hok hr h2 h3
        rw [kept_all h2 (fun y hy => hg y (hf.closed x hok r hr y hy))] at h6
        have : m = n := by
          unfold build at hb
          rw [buildAll_reverse h1] at hb
          have hb' : reduce d (num.ruleId ⟨x, r⟩) ms.reverse = .ok n := hb
          unfold reduce at hb'
          rw [hf.rule x hok r hr] at hb'
          exact Except.ok.inj (h4.symm.trans hb')
        rw [this] at h6
        exact ⟨ms, h1, h6⟩
      obtain ⟨ms, m1, m2⟩ := key hr hc (fun y hy => hw y (List.mem_append_left _ hy)) b1
      obtain ⟨ms', m3, m4⟩ := key hr' hc' (fun y hy => hw' y (List.mem_append_left _ hy)) b3
      obtain ⟨rfl, rfl⟩ := m2.unique hf hok hr hr' m4
      rw [ih1 hc' (hf.closed x hok r hr) (fun y hy => hw y (List.mem_append_left _ hy)) (fun y hy => hw' y (List.mem_append_left _ hy)) m1 m3,
        ih2 h'' (fun y hy => hx y (List.mem_cons_of_mem _ hy)) (fun y hy => hw y (List.mem_append_right _ hy)) (fun y hy => hw' y (List.mem_append_right _ hy)) b2 b4]

/-- C66. When a parser has accepted an input and its stack has the trees of the shifts and reductions, the generated actions have made from them a
well-formed syntax tree for the start symbol: no cast was to a class that the object does not have, and the lexemes of the tree are those
that were read, in order. This holds unless a guard was accepted at the end of the input. -/
theorem generated_tree_partial (hf : Fits d g num ok) {ig : Int → Prop} {strong : Int → Int → Prop} {k0 : Nat} {start : Item} {input : List Tok} {s : PState}
    (h : Accepted g num ig strong k0 start input s) (hs : ok start) (hterm : ∀ n : Int, ok (.terminal n) → 0 ≤ n ∧ n < d.terminals) (hg : isGuard start = false) :
    ∃ st τ w, s.stack = [(st, τ), (k0, .nothing)] ∧ Read ig strong input w ∧
      (atEnd τ = false → ∃ n, build d τ = .ok n ∧ Typed g num (.items [start]) [n] w ∧ n.lexemes = w) := by
  obtain ⟨st, τ, w, h1, -, h3, h4⟩ := h
  refine ⟨st, τ, w, h1, h3, fun he => ?_⟩
  have toks : ∀ {xs : List Item} {ts : List Tree} {w : List Tok}, Forest g num xs ts w → (∀ x ∈ xs, ok x) → ∀ k ∈ w, 0 ≤ k.sym ∧ k.sym < d.terminals := by
    intro xs ts w hF
    induction hF with
    | nil => intro _ k hk; cases hk
    | token _ ih =>
      intro hx k' hk'
      rcases List.mem_cons.1 hk' with rfl | hk'
      · exact hterm _ (hx _ (List.mem_cons_self ..))
      · exact ih (fun y hy => hx y (List.mem_cons_of_mem _ hy)) k' hk'
    | guard _ ih => exact fun hx => ih (fun y hy => hx y (List.mem_cons_of_mem _ hy))
    | @node x r _ _ _ _ _ hr _ _ ih1 ih2 =>
      intro hx k hk
      rcases List.mem_append.1 hk with hk | hk
      · exact ih1 (hf.closed x (hx x (List.mem_cons_self ..)) r hr) k hk
      · exact ih2 (fun y hy => hx y (List.mem_cons_of_mem _ hy)) k hk
  have hx : ∀ x ∈ [start], ok x := by simpa using hs
  obtain ⟨ns, a1, a2, a3⟩ := buildAll_typed hf h4 hx (toks h4 hx) (by simpa [anyAtEnd] using he)
  obtain ⟨n, rfl⟩ : ∃ n, ns = [n] := by
    match ns, a2 with
    | [n], _ => exact ⟨n, rfl⟩
  have hk : kept [start] [n] = [n] := by simp [kept, hg]
  rw [hk] at a3
  refine ⟨n, ?_, a3, by simpa [lexemesAll] using a3.lexemes⟩
  unfold buildAll at a1
  cases hb : build d τ with
  | error e => rw [hb] at a1; cases a1
  | ok m =>
    rw [hb] at a1
    have : [m] = [n] := Except.ok.inj a1
    rw [(List.cons.inj this).1]

/-- A guard that is accepted at the end of the input has the generated `shift` look at the symbol of a lexeme that is not there. -/
theorem guard_at_end (d : Gen) (nonterminal rule : Int) (ts us : List Tree) (hts : ∃ l, buildAll d ts = .ok l) : build d (.node nonterminal rule (ts ++ .leaf none :: us)) = .error .ub := by
  have h : buildAll d (ts ++ .leaf none :: us) = .error .ub := by
    obtain ⟨l, hl⟩ := hts
    induction ts generalizing l with
    | nil => rfl
    | cons t ts ih =>
      unfold buildAll at hl
      cases ht : build d t with
      | error e => rw [ht] at hl; cases hl
      | ok n =>
        cases hts : buildAll d ts with
        | error e => rw [ht, hts] at hl; cases hl
        | ok l' =>
          show buildAll d (t :: (ts ++ .leaf none :: us)) = _
          unfold buildAll
          rw [ht, ih _ hts]
          rfl
  unfold build
  rw [h]
  rfl

end

end Ast
end TameParse

import Verif.SpansProps
import Verif.IgnoreGrammarProps

/-!
# C93: what the position functions return
-/

namespace TameParse
namespace Spans

open AssocMap Closure Lalr TameParse.Parser ParserTables Ast Sound

/-! ### What is expected -/

/-- What an object begins or ends with: a lexeme, an empty list, or an object without members. -/
inductive Edge
  | lexeme
  | list
  | object
deriving DecidableEq

mutual
/-- What an object begins with. -/
def begins : Node → Edge
  | .null => .object
  | .term _ _ => .lexeme
  | .object _ _ fs => (beginsAll fs).getD .object
  | .list _ cs => (beginsAll cs).getD .list

@[inherit_doc begins]
def beginsAll : List Node → Option Edge
  | [] => none
  | n :: _ => some (begins n)
end

mutual
/-- What an object ends with. -/
def ends : Node → Edge
  | .null => .object
  | .term _ _ => .lexeme
  | .object _ _ fs => (endsAll fs).getD .object
  | .list _ cs => (endsAll cs).getD .list

@[inherit_doc ends]
def endsAll : List Node → Option Edge
  | [] => none
  | n :: ns => some ((endsAll ns).getD (ends n))
end

/-- Where the next lexeme begins; (-1, -1, -1) if there is none. -/
def nextAt (p : Places) (next : Option Nat) : Pos := next.elim (-1, -1, -1) p.pos

theorem ahead_eq (p : Places) (next : Option Nat) : p.ahead next = nextAt p next := by
  cases next <;> rfl

/-- Where an object begins that stands for the lexemes `v`, in front of the lexeme `next`: where its first lexeme does, or the next one if it has none, unless it begins
with an empty list. -/
def startAt (p : Places) (e : Edge) (v : List Tok) (next : Option Nat) : Pos :=
  if e = .list then (0, 0, 0) else nextAt p ((v.head?.map (·.text)).or next)

/-- Where an object ends: where its last lexeme does, unless it ends with an empty list or an object without members. -/
def FinalAt (p : Places) (v : List Tok) (next : Option Nat) (f : Pos) : Edge → Prop
  | .lexeme => ∃ k, v.getLast? = some k ∧ f = p.final k.text
  | .list => f = (0, 0, 0)
  | .object => f = nextAt p next

/-- The object stands for the lexemes `v` in front of the lexeme `next`, and these are its positions. -/
structure Placed (p : Places) (n : Node) (s : Span) (v : List Tok) (next : Option Nat) : Prop where
  lexemes : n.lexemes = v
  start : s.start = startAt p (begins n) v next
  final : FinalAt p v next s.final (ends n)
  empty : s.empty = true ↔ ∃ x, n = .list x []

/-! ### Rows of objects -/

/-- Objects that stand for the lexemes one after the other. -/
inductive Row (p : Places) : List Node → List Span → List Tok → Option Nat → Prop
  | nil {next : Option Nat} : Row p [] [] [] next
  | cons {n : Node} {s : Span} {v : List Tok} {ns : List Node} {ss : List Span} {w : List Tok} {next : Option Nat} (h1 : Placed p n s v ((w.head?.map (·.text)).or next))
      (h : Row p ns ss w next) : Row p (n :: ns) (s :: ss) (v ++ w) next

theorem head_or (v w : List Tok) (next : Option Nat) : (((v ++ w).head?.map (·.text)).or next) = (v.head?.map (·.text)).or ((w.head?.map (·.text)).or next) := by
  cases v with
  | nil => simp
  | cons k v => simp

theorem startAt_append (p : Places) (e : Edge) (v w : List Tok) (next : Option Nat) : startAt p e v ((w.head?.map (·.text)).or next) = startAt p e (v ++ w) next := by
  unfold startAt
  rw [head_or]

theorem FinalAt.append {p : Places} {w : List Tok} {next : Option Nat} {f : Pos} {e : Edge} (h : FinalAt p w next f e) (v : List Tok) : FinalAt p (v ++ w) next f e := by
  cases e with
  | lexeme =>
    obtain ⟨k, h1, h2⟩ := h
    exact ⟨k, by rw [List.getLast?_append, h1]; rfl, h2⟩
  | list => exact h
  | object => exact h

theorem Row.lexemes {p : Places} {ns : List Node} {ss : List Span} {w : List Tok} {next : Option Nat} (h : Row p ns ss w next) : lexemesAll ns = w := by
  induction h with
  | nil => rfl
  | cons h1 _ ih => rw [lexemesAll, h1.lexemes, ih]

theorem Row.length {p : Places} {ns : List Node} {ss : List Span} {w : List Tok} {next : Option Nat} (h : Row p ns ss w next) : ns.length = ss.length := by
  induction h with
  | nil => rfl
  | cons _ _ ih => simp [ih]

theorem Row.first {p : Places} {ns : List Node} {ss : List Span} {w : List Tok} {next : Option Nat} (h : Row p ns ss w next) {s : Span} (hs : ss.head? = some s) :
    ∃ e, beginsAll ns = some e ∧ s.start = startAt p e w next := by
  cases h with
  | nil => cases hs
  | @cons n s' v ns ss w next h1 h =>
    cases hs
    exact ⟨_, rfl, by rw [h1.start, startAt_append]⟩

theorem Row.last {p : Places} {ns : List Node} {ss : List Span} {w : List Tok} {next : Option Nat} (h : Row p ns ss w next) {s : Span} (hs : ss.getLast? = some s) :
    ∃ e, endsAll ns = some e ∧ FinalAt p w next s.final e := by
  induction h with
  | nil => cases hs
  | @cons n s' v ns ss w next h1 h ih =>
    cases h with
    | nil =>
      cases hs
      refine ⟨ends n, rfl, ?_⟩
      have := h1.final
      rw [List.append_nil]
      exact this
    | @cons n2 s2 v2 ns2 ss2 w2 next h2 h =>
      rw [List.getLast?_cons_cons] at hs
      obtain ⟨e, he, hf⟩ := ih hs
      refine ⟨e, ?_, hf.append v⟩
      rw [endsAll, he]
      rfl

theorem members_all {x : Item} : ∀ {ys : List Item} {ss : List Span} {index : Nat}, ys.length = ss.length → (∀ y ∈ ys, Ast.isGuard y = false) →
    (∀ y, ys.head? = some y → isRepetition x index y = false) → members x index ys ss = ys.zip ss
  | [], [], _, _, _, _ => rfl
  | y :: ys, s :: ss, index, hl, hg, hr => by
    unfold members
    rw [hg y (List.mem_cons_self ..), hr y rfl, Bool.or_self, if_neg (by simp), members_all (Nat.succ.inj hl) (fun z hz => hg z (List.mem_cons_of_mem _ hz))
      (fun z _ => by simp [isRepetition])]
    rfl

/-- The positions that an object with these members returns. -/
theorem own_row {p : Places} {x : Item} {ys : List Item} {ns : List Node} {ss : List Span} {w : List Tok} {next : Option Nat} (h : Row p ns ss w next) (hl : ys.length = ss.length)
    (hs : ∀ y ∈ ys, sameKind x y = false) : ∃ q, own x (ys.zip ss) (p.ahead next) = .ok q ∧ q.1 = startAt p ((beginsAll ns).getD .object) w next ∧
      FinalAt p w next q.2 ((endsAll ns).getD .object) := by
  have hf : (ys.zip ss).filter (fun m => !sameKind x m.1) = ys.zip ss := by
    rw [List.filter_eq_self]
    intro a ha
    rw [hs _ (List.of_mem_zip ha).1]
    rfl
  unfold own
  rw [hf]
  cases h with
  | nil =>
    have : ys = [] := List.length_eq_zero_iff.1 hl
    subst this
    exact ⟨_, rfl, ahead_eq p next, ahead_eq p next⟩
  | @cons n s v ns ss w next h1 h =>
    match ys, hl with
    | y :: ys, hl =>
      have hrow := Row.cons h1 h
      have hlast : ((y :: ys).zip (s :: ss)).getLast? = some (((y :: ys).zip (s :: ss)).getLast (by simp)) := List.getLast?_eq_some_getLast _
      have hsnd : (s :: ss).getLast? = some (((y :: ys).zip (s :: ss)).getLast (by simp)).2 := by
        have h3 : ((y :: ys).zip (s :: ss)).map Prod.snd = s :: ss := List.map_snd_zip (by rw [hl])
        have h4 := congrArg List.getLast? h3
        rw [List.getLast?_map, hlast] at h4
        exact h4.symm
      obtain ⟨e1, a1, a2⟩ := hrow.first (s := s) rfl
      obtain ⟨e2, b1, b2⟩ := hrow.last hsnd
      refine ⟨(s.start, (((y :: ys).zip (s :: ss)).getLast (by simp)).2.final), ?_, ?_, ?_⟩
      · dsimp only
        rw [hlast]
        rfl
      · rw [a1]; exact a2
      · rw [b1]; exact b2

/-! ### Reductions -/

theorem begins_append {cs : List Node} (h : cs ≠ []) (ds : List Node) : beginsAll (cs ++ ds) = beginsAll cs := by
  cases cs with
  | nil => exact absurd rfl h
  | cons c cs => rfl

theorem ends_append (cs : List Node) (d : Node) : endsAll (cs ++ [d]) = some (ends d) := by
  induction cs with
  | nil => rfl
  | cons c cs ih => rw [List.cons_append, endsAll, ih]; rfl

theorem sameKind_list {x y : Item} (h : isList x = false) : sameKind x y = false := by
  unfold sameKind
  split
  · cases h
  · cases h
  · rfl

section
variable {d : Gen} {g : Gram} {num : Numbering} {ok : Item → Prop} {p : Places}

/-- No list repeats a list of its kind. -/
def Apart (ok : Item → Prop) : Prop := ∀ k rs, ok (.ebnf k rs) → ∀ y ∈ Gram.ebnfRule rs, sameKind (.ebnf k rs) y = false

theorem spanRule_eq {x : Item} {items : List Item} (hg : Ast.isGuard x = false) (hx : isList x = false ∨ items ≠ []) (ss : List Span) (la : Pos) :
    spanRule ⟨x, items⟩ ss la = (do
      let p ← own x (members x 0 items ss) la
      match items, ss with
      | y :: _, s :: _ => if isRepetition x 0 y && !s.empty then return ⟨s.start, p.2, false⟩ else return ⟨p.1, p.2, false⟩
      | _, _ => return ⟨p.1, p.2, false⟩) := by
  cases x with
  | guard => cases hg
  | ebnf k rs =>
    cases k with
    | repeatZero =>
      cases items with
      | nil => rcases hx with h | h <;> [cases h; exact absurd rfl h]
      | cons y ys => rfl
    | _ => rfl
  | _ => rfl

/-- The positions of the object that a reduction makes. -/
theorem reduction_placed (hap : Apart ok) {x : Item} (hx : ok x) {r : List Item} (hgr : ∀ y ∈ r, Ast.isGuard y = false) {ms : List Node} {ss : List Span} (hl : ms.length = r.length)
    {v : List Tok} {next : Option Nat} (hrow : Row p ms ss v next) {n : Node} (ho : Outcome num x r ms n) (hg : Ast.isGuard x = false)
    (hlist : ∀ y cs, n = .list y cs → isList y = true) :
    ∃ s, spanRule ⟨x, r⟩ ss (p.ahead next) = .ok s ∧ Placed p n s v next := by
  have hls := hrow.length
  have hlex := hrow.lexemes
  cases ho with
  | @object _ _ _ hnl =>
    have hm : members x 0 r ss = r.zip ss := members_all (by omega) hgr (fun y _ => by simp [isRepetition, hnl])
    obtain ⟨q, h1, h2, h3⟩ := own_row (x := x) hrow (ys := r) (by omega) (fun y _ => sameKind_list hnl)
    rw [← hm] at h1
    refine ⟨⟨q.1, q.2, false⟩, ?_, ?_, ?_, ?_, ?_⟩
    · rw [spanRule_eq hg (Or.inl hnl), h1]
      show (match r, ss with
        | y :: _, s :: _ => if isRepetition x 0 y && !s.empty then _ else _
        | _, _ => _) = _
      split
      · rw [show isRepetition x 0 _ = false by simp [isRepetition, hnl]]
        rfl
      · rfl
    · exact hlex
    · exact h2
    · exact h3
    · simp
  | empty =>
    cases hrow
    exact ⟨_, rfl, rfl, rfl, rfl, by simp⟩
  | @first rs =>
    have hrep : ∀ y, (Gram.ebnfRule rs).head? = some y → isRepetition (.ebnf .repeating rs) 0 y = false := fun y hy => ebnfRule_head hy
    have hm : members (.ebnf .repeating rs) 0 (Gram.ebnfRule rs) ss = (Gram.ebnfRule rs).zip ss := members_all (by omega) hgr hrep
    obtain ⟨q, h1, h2, h3⟩ := own_row (x := .ebnf .repeating rs) hrow (ys := Gram.ebnfRule rs) (by omega) (hap _ _ hx)
    rw [← hm] at h1
    refine ⟨⟨q.1, q.2, false⟩, ?_, ?_, ?_, ?_, ?_⟩
    · unfold spanRule
      dsimp only
      rw [h1]
      show (match Gram.ebnfRule rs, ss with
          | y :: _, s :: _ => if isRepetition (.ebnf .repeating rs) 0 y && !s.empty then _ else _
          | _, _ => _) = _
      split
      · rename_i heq
        rw [hrep _ (by rw [heq]; rfl)]
        rfl
      · rfl
    · simpa [Node.lexemes, lexemesAll] using hlex
    · exact h2
    · exact h3
    · simp
  | @next k rs cs l hne =>
    cases hrow with
    | @cons n s v ns ss w next h1 h =>
      have hk : isList (.ebnf k rs) = true := hlist _ _ rfl
      have hrep : isRepetition (.ebnf k rs) 0 (.ebnf k rs) = true := by simp [isRepetition, hk]
      have hl2 : (Gram.ebnfRule rs).length = ss.length := by simpa using hl.symm.trans hls
      have hm : members (.ebnf k rs) 0 (.ebnf k rs :: Gram.ebnfRule rs) (s :: ss) = (Gram.ebnfRule rs).zip ss := by
        unfold members
        rw [hrep, Bool.or_true, if_pos rfl]
        exact members_all hl2 (fun y hy => hgr y (List.mem_cons_of_mem _ hy)) (fun y _ => by simp [isRepetition])
      obtain ⟨q, q1, q2, q3⟩ := own_row (x := .ebnf k rs) h (ys := Gram.ebnfRule rs) hl2 (hap _ _ hx)
      rw [← hm] at q1
      have hrule : spanRule ⟨.ebnf k rs, .ebnf k rs :: Gram.ebnfRule rs⟩ (s :: ss) (p.ahead next) = .ok ⟨if s.empty then q.1 else s.start, q.2, false⟩ := by
        rw [spanRule_eq hg (Or.inr (by simp)), q1]
        show (if isRepetition (.ebnf k rs) 0 (.ebnf k rs) && !s.empty then _ else _) = _
        rw [hrep]
        cases s.empty <;> rfl
      refine ⟨_, hrule, ?_, ?_, ?_, ?_⟩
      · rw [Node.lexemes, lexemesAll_append, ← h1.lexemes, Node.lexemes, ← h.lexemes]
        simp [lexemesAll, Node.lexemes]
      · by_cases he : s.empty = true
        · obtain ⟨x', hx'⟩ := h1.empty.1 he
          cases hx'
          have hv : v = [] := by rw [← h1.lexemes]; rfl
          rw [hv, if_pos he]
          exact q2
        · have hcs : cs ≠ [] := by
            rintro rfl
            exact he (h1.empty.2 ⟨_, rfl⟩)
          rw [if_neg he]
          have := h1.start
          rw [startAt_append] at this
          rw [begins, begins_append hcs]
          exact this
      · rw [ends, ends_append]
        exact q3.append v
      · simp

theorem Typed.isList {q : Part} {l : List Node} {v : List Tok} (h : Typed g num q l v) {x y : Item} {cs : List Node} (hq : q = .items [x]) (hl : l = [.list y cs]) : isList y = true := by
  cases h with
  | nil => cases hl
  | guard h => cases hq; cases h; cases hl
  | token => cases hl
  | object => cases hl
  | list hk => cases hl; rcases hk with rfl | rfl <;> rfl
  | none => cases hl
  | more => cases hq

/-! ### Trees -/

theorem eraseAll_map (ts : List Noted) : eraseAll ts = ts.map Noted.erase := by
  induction ts with
  | nil => rfl
  | cons t ts ih => rw [eraseAll, ih]; rfl

theorem spans_append : ∀ {ts us : List Noted} {ns ms : List Span}, spans d p ts = .ok ns → spans d p us = .ok ms → spans d p (ts ++ us) = .ok (ns ++ ms)
  | [], _, _, _, h, h' => by
    unfold spans at h
    cases h
    exact h'
  | t :: ts, us, ns, ms, h, h' => by
    unfold spans at h
    obtain ⟨s, hs, h⟩ := bind_ok h
    obtain ⟨l, hl, h⟩ := bind_ok h
    cases h
    rw [List.cons_append]
    unfold spans
    rw [hs, spans_append hl h']
    rfl

theorem spans_reverse : ∀ {ts : List Noted} {ns : List Span}, spans d p ts = .ok ns → spans d p ts.reverse = .ok ns.reverse
  | [], _, h => by
    unfold spans at h
    cases h
    rfl
  | t :: ts, _, h => by
    unfold spans at h
    obtain ⟨s, hs, h⟩ := bind_ok h
    obtain ⟨l, hl, h⟩ := bind_ok h
    cases h
    rw [List.reverse_cons, List.reverse_cons]
    refine spans_append (spans_reverse hl) ?_
    unfold spans
    rw [hs]
    rfl

/-- The first token of trees without guards. -/
theorem firstOf_forest (hf : Fits d g num ok) (hg : ∀ x, ok x → Ast.isGuard x = false) {xs : List Item} {us : List Tree} {w : List Tok} (h : Forest g num xs us w) :
    ∀ {ts : List Noted}, us = ts.map Noted.erase → (∀ x ∈ xs, ok x) → firstOf ts.reverse = w.head?.map (·.text) := by
  induction h with
  | nil =>
    intro ts ht _
    cases ts with
    | nil => rfl
    | cons => cases ht
  | @token k xs us w _ ih =>
    intro ts ht hx
    match ts, ht with
    | t :: ts, ht =>
      obtain ⟨h1, h2⟩ := List.cons.inj ht
      rw [List.reverse_cons, firstOf_append]
      cases t with
      | leaf la =>
        cases h1
        rfl
      | _ => cases h1
  | guard =>
    intro ts _ hx
    exact absurd (hg _ (hx _ (List.mem_cons_self ..))) (by simp [Ast.isGuard])
  | @node x r us v xs ts' w hr hc _ ih1 ih2 =>
    intro ts ht hx
    match ts, ht with
    | t :: ts, ht =>
      obtain ⟨h1, h2⟩ := List.cons.inj ht
      cases t with
      | node a b cs la =>
        simp only [Noted.erase, Tree.node.injEq] at h1
        rw [List.reverse_cons, firstOf_append, ih2 h2 (fun y hy => hx y (List.mem_cons_of_mem _ hy))]
        have h3 := ih1 (ts := cs.reverse) (by rw [List.map_reverse, ← eraseAll_map, ← h1.2.2, List.reverse_reverse]) (hf.closed x (hx x (List.mem_cons_self ..)) r hr)
        rw [List.reverse_reverse] at h3
        rw [firstOf, firstOf, Option.none_or, first, h3]
        cases v with
        | nil => simp
        | cons k v => simp
      | _ => cases h1

/-- The positions of the objects that are made of trees. -/
theorem row (hf : Fits d g num ok) (hap : Apart ok) (hg : ∀ x, ok x → Ast.isGuard x = false) {xs : List Item} {us : List Tree} {w : List Tok} (h : Forest g num xs us w) :
    ∀ {ts : List Noted} {next : Option Nat}, us = ts.map Noted.erase → AllTimely ts.reverse next → (∀ x ∈ xs, ok x) → (∀ k ∈ w, 0 ≤ k.sym ∧ k.sym < d.terminals) →
      ∃ ns ss, buildAll d us = .ok ns ∧ spans d p ts = .ok ss ∧ Row p ns ss w next := by
  induction h with
  | nil =>
    intro ts next ht _ _ _
    cases ts with
    | nil => exact ⟨[], [], rfl, rfl, .nil⟩
    | cons => cases ht
  | @token k xs us w _ ih =>
    intro ts next ht hti hx hw
    match ts, ht with
    | t :: ts, ht =>
      obtain ⟨h1, h2⟩ := List.cons.inj ht
      rw [List.reverse_cons, allTimely_append] at hti
      obtain ⟨ns, ss, a1, a2, a3⟩ := ih h2 hti.1 (fun y hy => hx y (List.mem_cons_of_mem _ hy)) (fun y hy => hw y (List.mem_cons_of_mem _ hy))
      cases t with
      | leaf la =>
        cases h1
        refine ⟨.term (.item (.terminal k.sym)) k :: ns, ⟨p.pos k.text, p.final k.text, false⟩ :: ss, ?_, ?_, Row.cons (v := [k]) ⟨rfl, rfl, ⟨k, rfl, rfl⟩, by simp⟩ a3⟩
        · unfold buildAll Ast.build shift
          dsimp only
          rw [a1, if_pos (hw k (List.mem_cons_self ..))]
          rfl
        · unfold spans span
          rw [a2]
          rfl
      | _ => cases h1
  | guard =>
    intro ts next _ _ hx
    exact absurd (hg _ (hx _ (List.mem_cons_self ..))) (by simp [Ast.isGuard])
  | @node x r us v xs ts' w hr hc hrest ih1 ih2 =>
    intro ts next ht hti hx hw
    have hok := hx x (List.mem_cons_self ..)
    match ts, ht with
    | t :: ts, ht =>
      obtain ⟨h1, h2⟩ := List.cons.inj ht
      cases t with
      | node a b cs la =>
        simp only [Noted.erase, Tree.node.injEq] at h1
        rw [List.reverse_cons, allTimely_append, firstOf_forest hf hg hrest h2 (fun y hy => hx y (List.mem_cons_of_mem _ hy))] at hti
        obtain ⟨ns, ss, a1, a2, a3⟩ := ih2 h2 hti.1 (fun y hy => hx y (List.mem_cons_of_mem _ hy)) (fun y hy => hw y (List.mem_append_right _ hy))
        have h3 := hti.2
        rw [AllTimely, Timely] at h3
        obtain ⟨⟨hla, hcs⟩, -⟩ := h3
        obtain ⟨ms, sm, b1, b2, b3⟩ := ih1 (ts := cs.reverse) (next := (w.head?.map (·.text)).or next) (by rw [List.map_reverse, ← eraseAll_map, ← h1.2.2, List.reverse_reverse])
          (by rwa [List.reverse_reverse]) (hf.closed x hok r hr) (fun y hy => hw y (List.mem_append_left _ hy))
        obtain ⟨ms', c1, c2, c3⟩ := buildAll_typed hf hc (hf.closed x hok r hr) (fun y hy => hw y (List.mem_append_left _ hy))
          (noGuard_noEnd hf hg hc (hf.closed x hok r hr))
        have : ms' = ms := Except.ok.inj (c1.symm.trans b1)
        subst this
        have hk := kept_all c2 (fun y hy => hg y (hf.closed x hok r hr y hy))
        obtain ⟨n, e1, e2, e3⟩ := reduceCase_ok hf hok hr c2 c3
        rw [hk] at e3
        obtain ⟨s, s1, s2⟩ := reduction_placed hap hok (fun y hy => hg y (hf.closed x hok r hr y hy)) c2 b3 e3 (hg x hok) (fun y cs hn => Typed.isList e2 rfl (by rw [hn]))
        refine ⟨n :: ns, s :: ss, ?_, ?_, .cons s2 a3⟩
        · unfold buildAll Ast.build
          rw [buildAll_reverse b1]
          show (do return (← reduce d (num.ruleId ⟨x, r⟩) ms'.reverse) :: (← buildAll d ts')) = _
          unfold reduce
          rw [hf.rule x hok r hr]
          dsimp only
          rw [e1, a1]
          rfl
        · have b4 := spans_reverse b2
          rw [List.reverse_reverse] at b4
          unfold spans span
          rw [b4, a2]
          show (do
            let s ← (match d.rule b with | none => (.error .ub : M Span) | some r => spanRule r sm.reverse.reverse (p.ahead la))
            return s :: ss) = _
          rw [← h1.2.1, hf.rule x hok r hr, List.reverse_reverse, hla]
          dsimp only
          rw [s1]
          rfl
      | _ => cases h1

/-! ### Every part of a tree -/

/-- The parts of a tree. -/
inductive Within : Noted → Noted → Prop
  | self (t : Noted) : Within t t
  | child {t t' : Noted} {n r : Int} {cs : List Noted} {la : Option Nat} (h : t' ∈ cs) (hw : Within t t') : Within t (.node n r cs la)

theorem forest_split {xs : List Item} {l : List Tree} {w : List Tok} (h : Forest g num xs l w) : ∀ {ts us : List Tree}, l = ts ++ us →
    ∃ xa xb wa wb, xs = xa ++ xb ∧ w = wa ++ wb ∧ Forest g num xa ts wa ∧ Forest g num xb us wb := by
  induction h with
  | nil =>
    intro ts us he
    obtain ⟨rfl, rfl⟩ := List.append_eq_nil_iff.1 he.symm
    exact ⟨[], [], [], [], rfl, rfl, .nil, .nil⟩
  | @token k xs l w h ih =>
    intro ts us he
    cases ts with
    | nil => subst he; exact ⟨[], _, [], _, rfl, rfl, .nil, .token h⟩
    | cons t ts =>
      obtain ⟨rfl, he2⟩ := List.cons.inj he
      obtain ⟨xa, xb, wa, wb, rfl, rfl, h1, h2⟩ := ih he2
      exact ⟨_ :: xa, xb, k :: wa, wb, rfl, rfl, .token h1, h2⟩
  | @guard q l' la xs l w h ih =>
    intro ts us he
    cases ts with
    | nil => subst he; exact ⟨[], _, [], _, rfl, rfl, .nil, .guard h⟩
    | cons t ts =>
      obtain ⟨rfl, he2⟩ := List.cons.inj he
      obtain ⟨xa, xb, wa, wb, rfl, rfl, h1, h2⟩ := ih he2
      exact ⟨_ :: xa, xb, wa, wb, rfl, rfl, .guard h1, h2⟩
  | @node x r us' v xs l w hr hc h ih1 ih2 =>
    intro ts us he
    cases ts with
    | nil => subst he; exact ⟨[], _, [], _, rfl, rfl, .nil, .node hr hc h⟩
    | cons t ts =>
      obtain ⟨rfl, he2⟩ := List.cons.inj he
      obtain ⟨xa, xb, wa, wb, rfl, rfl, h1, h2⟩ := ih2 he2
      exact ⟨_ :: xa, xb, v ++ wa, wb, rfl, by rw [List.append_assoc], .node hr hc h1, h2⟩

theorem forest_length {xs : List Item} {l : List Tree} {w : List Tok} (h : Forest g num xs l w) : xs.length = l.length := by
  induction h with
  | nil => rfl
  | token _ ih => simp [ih]
  | guard _ ih => simp [ih]
  | node _ _ _ _ ih => simp [ih]

/-- The positions of the object that is made of a tree, and of those that are made of its parts. -/
theorem parts (hf : Fits d g num ok) (hap : Apart ok) (hg : ∀ x, ok x → Ast.isGuard x = false) {t' t : Noted} (hw : Within t' t) :
    ∀ {x : Item} {w : List Tok} {next : Option Nat}, Forest g num [x] [t.erase] w → Timely t next → ok x → (∀ k ∈ w, 0 ≤ k.sym ∧ k.sym < d.terminals) →
      ∃ pre v post n s, w = pre ++ v ++ post ∧ Ast.build d t'.erase = .ok n ∧ span d p t' = .ok s ∧ Placed p n s v ((post.head?.map (·.text)).or next) := by
  induction hw with
  | self =>
    intro x w next hF hti hx hw
    obtain ⟨ns, ss, h1, h2, h3⟩ := row (p := p) (ts := [t']) (next := next) hf hap hg hF rfl (by rw [List.reverse_singleton, AllTimely]; exact ⟨hti, trivial⟩) (by simpa using hx) hw
    unfold buildAll at h1
    obtain ⟨n, hn, h1⟩ := bind_ok h1
    cases h1
    unfold spans at h2
    obtain ⟨s, hs, h2⟩ := bind_ok h2
    cases h2
    cases h3 with
    | @cons _ _ v _ _ w' _ h4 h5 =>
      cases h5
      exact ⟨[], v, [], n, s, by simp, hn, hs, h4⟩
  | @child t1 a b cs la hmem _ ih =>
    intro x w next hF hti hx hw
    have hF' := hF
    generalize hl : [(Noted.node a b cs la).erase] = l at hF
    generalize hxs : [x] = xs at hF
    cases hF with
    | nil => cases hl
    | token => cases hl
    | guard => cases hl
    | @node x' r us v xs ts w' hr hc hrest =>
      obtain ⟨rfl, rfl⟩ := List.cons.inj hxs
      obtain ⟨h1, rfl⟩ := List.cons.inj hl
      cases hrest
      simp only [Noted.erase, Tree.node.injEq] at h1
      have hus : us = cs.reverse.map Noted.erase := by rw [List.map_reverse, ← eraseAll_map, h1.2.2, List.reverse_reverse]
      obtain ⟨A, B, hAB⟩ := List.append_of_mem (List.mem_reverse.2 hmem)
      rw [hAB, List.map_append, List.map_cons] at hus
      obtain ⟨xa, xb, wa, wb, rfl, rfl, f1, f2⟩ := forest_split hc hus
      obtain ⟨xc, xd, wc, wd, rfl, rfl, f3, f4⟩ := forest_split (ts := [t1.erase]) f2 rfl
      have hclosed := hf.closed x hx _ hr
      rw [Timely] at hti
      have hti2 := hti.2
      rw [show cs = (A ++ t1 :: B).reverse by rw [← hAB, List.reverse_reverse], List.reverse_append, List.reverse_cons, List.append_assoc, allTimely_append,
        firstOf_forest hf hg f4 rfl (fun y hy => hclosed y (by simp [hy]))] at hti2
      have hti3 := hti2.2
      rw [List.singleton_append, AllTimely] at hti3
      obtain ⟨y, rfl⟩ : ∃ y, xc = [y] := by
        exact List.length_eq_one_iff.1 (forest_length f3)
      obtain ⟨pre, v, post, n, s, g1, g2, g3, g4⟩ := ih f3 hti3.1 (hclosed y (by simp)) (fun k hk => hw k (by simp [hk]))
      refine ⟨wa ++ pre, v, post ++ wd, n, s, by rw [g1]; simp, g2, g3, ?_⟩
      rw [head_or]
      exact g4

end

/-! ### Parsers -/

section
variable {g : Gram} {num : Numbering} {m : Mach} {k0 : Nat} {start : Item} {occ : Item → Prop} {ig : Int → Prop} {strong : Int → Int → Prop} {t : Tables}

theorem parseNoted_ready (ha : Auto g m k0 start) (ht : Tab g num m occ ig strong t) {igb : Int → Bool} (higb : ∀ n, ig n ↔ igb n = true) (hon : OnlyIgnored t igb) {input : List Tok} :
    ∀ (fuel : Nat) {s s' : NState}, Inv g num m k0 ig strong input s.erase → Ready s (upcoming igb s.input) → parseNoted t fuel s = .ok (true, s') →
      Ready s' (upcoming igb s'.input)
  | 0, _, _, _, _, h => by cases h
  | fuel + 1, s, s', hi, hr, h => by
    unfold parseNoted at h
    obtain ⟨⟨r1, r2⟩, hq, h⟩ := bind_ok h
    have hgood := process_inv ha ht hi (map_ok (step_erase t fuel s) hq)
    have hrd := stepNoted_ready ha ht higb hon hi hr hq
    cases r1 with
    | more => exact parseNoted_ready ha ht higb hon fuel hgood (hrd nofun) h
    | accept => cases h; exact hrd nofun
    | reject => cases h

end

section
variable {first initial : Item → List Item} {g : Gram} {okI : Item → Prop} {okR : Rule → Prop} {rid : Rule → Nat} {clos : LItem → List Item → Set1}
  {own : LItem → Set1} {lt : Key → Key → Bool} {languages : List Item} {m m' : Mach} {st : Stage} {states : List (List LrAction)} {num : Numbering}
  {sort : List TableAction → List TableAction} {sortWeak : List (Int × Int) → List (Int × Int)} {occ : Item → Prop}

/-- C93. When a generated parser has accepted an input, every object that it has made for a symbol stands for some of the lexemes, one after the other, and its
`pos` is that of the first of them, or of the next one if there are none; its `final_pos` is that of the last of them. This holds unless it begins or ends with an
empty list, or ends with an object without members, and then the position is (0, 0, 0) or that of the next lexeme, which is (-1, -1, -1) at the end of the input. The
grammar has no guards and no lists directly in lists of the same kind. -/
theorem positions_partial (h : Made first initial g okI okR rid clos own lt languages m m' st states num sort sortWeak occ) {d : Gen} {ok : Item → Prop}
    (hf : Ast.Fits d g num ok) (hterm : ∀ n : Int, ok (.terminal n) → 0 ≤ n ∧ n < d.terminals) (hg : ∀ x, ok x → Ast.isGuard x = false) (hap : Apart ok)
    {k0 : Nat} {start : Item} (hk : k0 < (Lalr.initials languages).states.length)
    (hS : kern m k0 = [startItem start]) (hs : ok start) {input : List Tok} {pf : Nat} {s' : NState}
    (hp : parseNoted (ParserTables.build num sort sortWeak states (some st.weak.strongToWeak)) pf (startNoted k0 input) = .ok (true, s')) (p : Places) :
    parse (ParserTables.build num sort sortWeak states (some st.weak.strongToWeak)) pf (Parser.start k0 input) = .ok (true, s'.erase) ∧
    ∃ st' τ w, s'.stack = [(st', τ), (k0, .nothing)] ∧ Read (fun n => .terminal n ∈ st.ignored) (StrongOf st.weak) input w ∧
      ∀ part, Within part τ → ∃ before v after n s, w = before ++ v ++ after ∧ Ast.build d part.erase = .ok n ∧ span d p part = .ok s ∧ n.lexemes = v ∧
        s.start = startAt p (begins n) v (after.head?.map (·.text)) ∧ FinalAt p v (after.head?.map (·.text)) s.final (ends n) := by
  have hparse := map_ok (parse_erase (ParserTables.build num sort sortWeak states (some st.weak.strongToWeak)) pf (startNoted k0 input)) hp
  refine ⟨hparse, ?_⟩
  obtain ⟨_, _, h1⟩ := h.machine
  obtain ⟨_, h2⟩ := h.lookaheads
  have hauto := auto_of_build h.ridInj h.univ h.closOk h.starts h1 hk hS
  have hig := Ignores.onlyIgnored (grammar_ignores h.ridInj h.univ h.noEog h.starts h.firsts h.inits h.closOk h.selfOk h1 h2 h.actions h.length h.ignored h.weak h.sortOk h.fits h.eog)
  have hready := parseNoted_ready hauto h.tab (igb := fun n => decide (.terminal n ∈ st.ignored)) (fun n => by simp) hig pf (s := startNoted k0 input) (input := input)
    ⟨[], [], rfl, .nil, .base⟩ ⟨⟨k0, rfl⟩, by simp [startNoted, AllTimely, Timely]⟩ hp
  obtain ⟨st', τ, w, a1, a2, a3, a4⟩ := h.sound hk hS hparse
  have hin : s'.input = [] := a2
  obtain ⟨τ', hst, hτ⟩ : ∃ τ', s'.stack = [(st', τ'), (k0, .nothing)] ∧ τ'.erase = τ := by
    have a1' : s'.stack.map (fun e => (e.1, e.2.erase)) = [(st', τ), (k0, .nothing)] := a1
    obtain ⟨⟨k, hb⟩, -⟩ := hready
    have hlen := congrArg List.length a1'
    rw [List.length_map] at hlen
    obtain ⟨e1, e2, hl⟩ := List.length_eq_two.1 hlen
    rw [hl] at hb a1'
    cases hb
    simp only [List.map_cons, List.map_nil, List.cons.injEq, Prod.mk.injEq, and_true] at a1'
    refine ⟨e1.2, ?_, a1'.1.2⟩
    rw [hl, ← a1'.1.1, ← a1'.2.1]
  subst hτ
  refine ⟨st', τ', w, hst, a3, ?_⟩
  have htime : Timely τ' none := by
    have := hready.2
    rw [hin, hst] at this
    exact this.1
  have toks : ∀ {xs : List Item} {ts : List Tree} {w : List Tok}, Forest g num xs ts w → (∀ x ∈ xs, ok x) → ∀ k ∈ w, 0 ≤ k.sym ∧ k.sym < d.terminals := by
    intro xs ts w hF
    induction hF with
    | nil => intro _ k hk; cases hk
    | token _ ih =>
      intro hx k' hk'
      rcases List.mem_cons.1 hk' with rfl | hk'
      · exact hterm _ (hx _ (List.mem_cons_self ..))
      · exact ih (fun y hy => hx y (List.mem_cons_of_mem _ hy)) k' hk'
    | guard _ ih => exact fun hx => ih (fun y hy => hx y (List.mem_cons_of_mem _ hy))
    | @node x r _ _ _ _ _ hr _ _ ih1 ih2 =>
      intro hx k hk
      rcases List.mem_append.1 hk with hk | hk
      · exact ih1 (hf.closed x (hx x (List.mem_cons_self ..)) r hr) k hk
      · exact ih2 (fun y hy => hx y (List.mem_cons_of_mem _ hy)) k hk
  intro part hpart
  obtain ⟨pre, v, post, n, s, b1, b2, b3, b4⟩ := parts (p := p) hf hap hg hpart a4 htime hs (toks a4 (by simpa using hs))
  rw [Option.or_none] at b4
  exact ⟨pre, v, post, n, s, b1, b2, b3, b4.lexemes, b4.start, b4.final⟩

end

end Spans
end TameParse

import Verif.Show
/-
What the text of items, rules, item sets and actions says about them (formatter.cpp 61-197, 229-336, 338-399, 464-519).
-/
namespace TameParse
namespace Show

/-- What may follow an item. -/
def Stop (r : Text) : Prop := r = [] ∨ ∃ c t, r = c :: t ∧ (c = ' ' ∨ c = ']' ∨ c = ',' ∨ c = ')' ∨ c = '\n')

/-- What may follow the items of a rule. -/
def End (r : Text) : Prop :=
  r = [] ∨ (∃ t, r = ']' :: t) ∨ (∃ t, r = ')' :: t) ∨ (∃ t, r = ' ' :: ')' :: t) ∨ (∃ t, r = ' ' :: '|' :: t) ∨ (∃ t, r = '\n' :: t) ∨
    (∃ c t, r = ' ' :: '(' :: c :: t ∧ c ≠ ' ') ∨
    (∃ t, r = ' ' :: '[' :: t ∧ (∀ u, t ≠ '=' :: u) ∧ ∀ u, t ≠ ['e', 'm', 'p', 't', 'y', ']'] ++ u)

/-- The characters no name may begin with. -/
def special : List Char := ['[', '$', '%', '(', ')', '|', ']', '^', ' ', ',', '=', '\n']

/-- Names that can be told from each other and from the rest of the text. -/
structure Clear (N : Names) (T M : Int → Prop) : Prop where
  symHead : ∀ n, T n → ∃ c t, N.sym n = c :: t ∧ c ∉ special
  ntHead : ∀ n, M n → ∃ c t, N.nt n = c :: t ∧ c ∉ special
  symSep : ∀ n m, T n → T m → ∀ r s, Stop r → Stop s → N.sym n ++ r = N.sym m ++ s → n = m ∧ r = s
  ntSep : ∀ n m, M n → M m → ∀ r s, Stop r → Stop s → N.nt n ++ r = N.nt m ++ s → n = m ∧ r = s
  apart : ∀ n m, T n → M m → ∀ r s, Stop r → Stop s → N.sym n ++ r ≠ N.nt m ++ s

variable {N : Names} {T M : Int → Prop}

mutual
/-- Items over known names, guards without a priority, one rule in all but alternatives. -/
def Known (T M : Int → Prop) : Item → Prop
  | .empty => True
  | .eoi => True
  | .eog => True
  | .terminal n => T n
  | .nonterminal n => M n
  | .guard p r => p = -1 ∧ KnownAll T M r
  | .ebnf k rs => (k = .alternative ∨ rs.length = 1) ∧ KnownRules T M rs
def KnownAll (T M : Int → Prop) : List Item → Prop
  | [] => True
  | x :: xs => Known T M x ∧ KnownAll T M xs
def KnownRules (T M : Int → Prop) : List (List Item) → Prop
  | [] => True
  | r :: rs => KnownAll T M r ∧ KnownRules T M rs
end

theorem End.stop {r : Text} (h : End r) : Stop r := by
  rcases h with h | ⟨t, h⟩ | ⟨t, h⟩ | ⟨t, h⟩ | ⟨t, h⟩ | ⟨t, h⟩ | ⟨c, t, h, _⟩ | ⟨t, h, _⟩
  · exact .inl h
  all_goals exact .inr ⟨_, _, h, by simp⟩

/-- An item begins with a character that begins nothing else. -/
theorem head (hN : Clear N T M) : ∀ x, Known T M x → ∃ c t, showItem N x = c :: t ∧
    (c ≠ ')' ∧ c ≠ '|' ∧ c ≠ ']' ∧ c ≠ '^' ∧ c ≠ ' ' ∧ c ≠ ',' ∧ c ≠ '\n' ∧ c ≠ '=') ∧ (c = '(' → ∃ u, t = ' ' :: u) ∧
    (c = '[' → (∃ u, t = '=' :: u) ∨ ∃ u, t = ['e', 'm', 'p', 't', 'y', ']'] ++ u) := by
  have name : ∀ c : Char, c ∉ special → (c ≠ ')' ∧ c ≠ '|' ∧ c ≠ ']' ∧ c ≠ '^' ∧ c ≠ ' ' ∧ c ≠ ',' ∧ c ≠ '\n' ∧ c ≠ '=') ∧ c ≠ '(' ∧ c ≠ '[' := by
    intro c hc
    simp only [special, List.mem_cons, List.not_mem_nil, or_false, not_or] at hc
    obtain ⟨h1, _, _, h4, h5, h6, h7, h8, h9, h10, h11, h12⟩ := hc
    exact ⟨⟨h5, h6, h7, h8, h9, h10, h12, h11⟩, h4, h1⟩
  intro x hx
  cases x with
  | empty => exact ⟨'[', ['e', 'm', 'p', 't', 'y', ']'], by rw [showItem], by decide, fun e => absurd e (by decide), fun _ => .inr ⟨[], rfl⟩⟩
  | eoi => exact ⟨_, _, by rw [showItem], by decide, fun e => absurd e (by decide), fun e => absurd e (by decide)⟩
  | eog => exact ⟨_, _, by rw [showItem], by decide, fun e => absurd e (by decide), fun e => absurd e (by decide)⟩
  | terminal n =>
    obtain ⟨c, t, h, hc⟩ := hN.symHead n (by simpa [Known] using hx)
    obtain ⟨h1, h2, h3⟩ := name c hc
    exact ⟨c, t, by rw [showItem, h], h1, fun e => absurd e h2, fun e => absurd e h3⟩
  | nonterminal n =>
    obtain ⟨c, t, h, hc⟩ := hN.ntHead n (by simpa [Known] using hx)
    obtain ⟨h1, h2, h3⟩ := name c hc
    exact ⟨c, t, by rw [showItem, h], h1, fun e => absurd e h2, fun e => absurd e h3⟩
  | guard p r => exact ⟨'[', _, by rw [showItem]; rfl, by decide, fun e => absurd e (by decide), fun _ => .inl ⟨_, rfl⟩⟩
  | ebnf k rs =>
    cases k
    case alternative =>
      refine ⟨'(', _, by rw [showItem], by decide, fun _ => ?_, fun e => absurd e (by decide)⟩
      cases rs <;> rw [showAlts] <;> exact ⟨_, rfl⟩
    all_goals
      refine ⟨'(', ' ' :: _, by rw [showItem] <;> first | rfl | simp, by decide, fun _ => ⟨_, rfl⟩, fun e => absurd e (by decide)⟩

theorem End.not_dot {r : Text} (h : End r) {t : Text} : r ≠ ' ' :: '^' :: t := by
  rintro rfl
  rcases h with h | ⟨_, h⟩ | ⟨_, h⟩ | ⟨_, h⟩ | ⟨_, h⟩ | ⟨_, h⟩ | ⟨_, _, h, _⟩ | ⟨_, h, _⟩ <;> simp_all

theorem End.not_item {r : Text} (h : End r) (hN : Clear N T M) (y : Item) (hy : Known T M y) (s : Text) : r ≠ ' ' :: (showItem N y ++ s) := by
  obtain ⟨c, t, hc, ⟨h1, h2, h3, h4, h5, h6, h7, h8⟩, hp, hb⟩ := head hN y hy
  rw [hc]
  rintro rfl
  rcases h with h | ⟨_, h⟩ | ⟨_, h⟩ | ⟨_, h⟩ | ⟨_, h⟩ | ⟨_, h⟩ | ⟨d, u, h, hd⟩ | ⟨u, h, hd, hd'⟩ <;>
    simp only [List.cons_append, List.cons.injEq, reduceCtorEq, Char.reduceEq, false_and, true_and] at h
  · exact h1 h.1
  · exact h2 h.1
  · obtain ⟨v, rfl⟩ := hp h.1
    simp only [List.cons_append, List.cons.injEq] at h
    exact hd h.2.1.symm
  · rcases hb h.1 with ⟨v, rfl⟩ | ⟨v, rfl⟩
    · exact hd _ h.2.symm
    · exact hd' (v ++ s) (by rw [← h.2]; simp)

theorem End.not_cons {r : Text} (h : End r) {c : Char} {t : Text} (h1 : c ≠ ']') (h2 : c ≠ ')') (h3 : c ≠ ' ') (h4 : c ≠ '\n') : r ≠ c :: t := by
  rintro rfl
  rcases h with h | ⟨_, h⟩ | ⟨_, h⟩ | ⟨_, h⟩ | ⟨_, h⟩ | ⟨_, h⟩ | ⟨_, _, h, _⟩ | ⟨_, h, _⟩ <;> simp_all

theorem rest_stop (dot pos : Int) (xs : List Item) {r : Text} (h : End r) : Stop (showItems N dot pos false xs ++ r) := by
  cases xs with
  | nil =>
    rw [showItems]
    split
    · exact .inr ⟨' ', _, rfl, .inl rfl⟩
    · exact h.stop
  | cons x xs => rw [showItems]; exact .inr ⟨' ', _, rfl, .inl rfl⟩

theorem alts_end (rs : List (List Item)) (r : Text) : End (showAlts N false rs ++ ([' ', ')'] ++ r)) := by
  cases rs with
  | nil => rw [showAlts]; exact .inr (.inr (.inr (.inl ⟨_, rfl⟩)))
  | cons x xs => rw [showAlts]; exact .inr (.inr (.inr (.inr (.inl ⟨_, rfl⟩))))

/-- The end of a list is not the start of another item. -/
theorem nil_cons (hN : Clear N T M) (y : Item) (hy : Known T M y) (dot dot' pos : Int) (first : Bool) (ys : List Item) (r s : Text) (hr : End r) :
    showItems N dot pos first [] ++ r ≠ showItems N dot' pos first (y :: ys) ++ s := by
  obtain ⟨c, t, hc, ⟨h1, h2, h3, h4, h5, h6, h7, h8⟩, _⟩ := head hN y hy
  have ni : ∀ w, r ≠ ' ' :: c :: (t ++ w) := fun w e => hr.not_item hN y hy w (by rw [hc]; simpa using e)
  rw [showItems, showItems, hc]
  intro h
  by_cases hd : dot = pos <;> by_cases hd' : dot' = pos <;> cases first <;>
    simp only [hd, hd', if_true, if_false, List.nil_append, List.cons_append, List.append_assoc, Bool.false_eq_true, List.cons.injEq, true_and] at h
  all_goals first
    | exact ni _ h
    | exact h4 h.1.symm
    | exact hr.not_dot h
    | exact hr.not_cons (by decide) (by decide) (by decide) (by decide) h
    | exact hr.not_cons h3 h1 h5 h7 h

theorem items_paren (hN : Clear N T M) (y : List Item) (hy : KnownAll T M y) (e t : Text) : showItems N (-1) 0 true y ++ (' ' :: e) ≠ ')' :: t := by
  cases y with
  | nil => rw [showItems]; simp
  | cons z zs =>
    rw [KnownAll] at hy
    obtain ⟨c, u, hc, ⟨h1, _⟩, _⟩ := head hN z hy.1
    rw [showItems, hc]
    simp [h1]

/-- What follows the first rule of an EBNF item. -/
def after (N : Names) (k : EbnfKind) (tail : List (List Item)) : Text :=
  match k with
  | .alternative => showAlts N false tail ++ [' ', ')']
  | k => [' ', ')'] ++ mark k

theorem ebnf_text (k : EbnfKind) (q : List Item) (tail : List (List Item)) :
    showItem N (.ebnf k (q :: tail)) = '(' :: ' ' :: (showItems N (-1) 0 true q ++ after N k tail) := by
  cases k <;> simp [showItem, showAlts, showFirst, after]

theorem ebnf_none : showItem N (.ebnf .alternative []) = ['(', ' ', ')'] := by simp [showItem, showAlts]

theorem after_end (k : EbnfKind) (tail : List (List Item)) (r : Text) : End (after N k tail ++ r) := by
  cases k
  case alternative => simpa [after] using alts_end (N := N) tail r
  all_goals exact .inr (.inr (.inr (.inl ⟨_, rfl⟩)))

theorem after_space (k : EbnfKind) (tail : List (List Item)) (r : Text) : ∃ e, after N k tail ++ r = ' ' :: e := by
  cases k
  case alternative => cases tail <;> simp [after, showAlts]
  all_goals exact ⟨_, rfl⟩

/-- An alternative is not another EBNF item. -/
theorem after_other {k : EbnfKind} (hk : k ≠ .alternative) (tail tail' : List (List Item)) (r s : Text) (hr : Stop r) :
    after N .alternative tail ++ r ≠ after N k tail' ++ s := by
  cases tail with
  | nil =>
    rcases hr with rfl | ⟨c, t, rfl, hc⟩
    · cases k <;> simp_all [after, showAlts, mark]
    · rcases hc with rfl | rfl | rfl | rfl | rfl <;> cases k <;> simp_all [after, showAlts, mark]
  | cons q qs => cases k <;> simp_all [after, showAlts, mark]

/-- An EBNF item of the known ones has a rule or is the alternative without one. -/
theorem known_ebnf {k : EbnfKind} {rs : List (List Item)} (h : k = .alternative ∨ rs.length = 1) (hk : k ≠ .alternative) : ∃ q, rs = [q] := by
  rcases h with h | h
  · exact absurd h hk
  · exact List.length_eq_one_iff.1 h

/-- The first character of what is not a name. -/
def lead : Item → Option Char
  | .empty => some '['
  | .eoi => some '$'
  | .eog => some '%'
  | .guard _ _ => some '['
  | .ebnf _ _ => some '('
  | _ => none

theorem lead_text (x : Item) (c : Char) (h : lead x = some c) : ∃ t, showItem N x = c :: t := by
  cases x <;> simp only [lead, Option.some.injEq, reduceCtorEq] at h <;> subst h
  case ebnf k rs => cases k <;> exact ⟨_, by rw [showItem] <;> first | rfl | simp⟩
  all_goals exact ⟨_, by rw [showItem] <;> rfl⟩

theorem lead_special (x : Item) (c : Char) (h : lead x = some c) : c ∈ special := by
  cases x <;> simp only [lead, Option.some.injEq, reduceCtorEq] at h <;> subst h <;> decide

theorem name_lead {w t : Text} {c : Char} (hw : w = c :: t) (hc : c ∉ special) (y : Item) (d : Char) (hy : lead y = some d) (r s : Text) :
    w ++ r ≠ showItem N y ++ s := by
  obtain ⟨u, hu⟩ := lead_text (N := N) y d hy
  rw [hw, hu]
  intro h
  simp only [List.cons_append, List.cons.injEq] at h
  exact hc (h.1 ▸ lead_special y d hy)

/-- Items with different first characters. -/
theorem lead_ne {x y : Item} {c d : Char} (hx : lead x = some c) (hy : lead y = some d) (hcd : c ≠ d) (r s : Text) :
    showItem N x ++ r ≠ showItem N y ++ s := by
  obtain ⟨t, ht⟩ := lead_text (N := N) x c hx
  obtain ⟨u, hu⟩ := lead_text (N := N) y d hy
  rw [ht, hu]
  intro h
  simp only [List.cons_append, List.cons.injEq] at h
  exact hcd h.1

/-- The items without items inside. -/
theorem simple_sep (hN : Clear N T M) (x y : Item) (hx : Known T M x) (hy : Known T M y) (hs' : (∀ p r, x ≠ .guard p r) ∧ ∀ k rs, x ≠ .ebnf k rs)
    (r s : Text) (hr : Stop r) (hs : Stop s) (h : showItem N x ++ r = showItem N y ++ s) : x = y ∧ r = s := by
  cases x with
  | guard p q => exact absurd rfl (hs'.1 p q)
  | ebnf k rs => exact absurd rfl (hs'.2 k rs)
  | terminal n =>
    rw [Known] at hx
    obtain ⟨c, t, hc, hc'⟩ := hN.symHead n hx
    have hc : showItem N (.terminal n) = c :: t := by rw [showItem, hc]
    cases y with
    | terminal m =>
      rw [Known] at hy
      rw [showItem, showItem] at h
      obtain ⟨h1, h2⟩ := hN.symSep n m hx hy r s hr hs h
      exact ⟨by rw [h1], h2⟩
    | nonterminal m => rw [Known] at hy; rw [showItem, showItem] at h; exact absurd h (hN.apart n m hx hy r s hr hs)
    | _ => exact absurd h (name_lead hc hc' _ _ rfl r s)
  | nonterminal n =>
    rw [Known] at hx
    obtain ⟨c, t, hc, hc'⟩ := hN.ntHead n hx
    have hc : showItem N (.nonterminal n) = c :: t := by rw [showItem, hc]
    cases y with
    | nonterminal m =>
      rw [Known] at hy
      rw [showItem, showItem] at h
      obtain ⟨h1, h2⟩ := hN.ntSep n m hx hy r s hr hs h
      exact ⟨by rw [h1], h2⟩
    | terminal m => rw [Known] at hy; rw [showItem, showItem] at h; exact absurd h.symm (hN.apart m n hy hx s r hs hr)
    | _ => exact absurd h (name_lead hc hc' _ _ rfl r s)
  | _ =>
    cases y with
    | terminal m =>
      rw [Known] at hy
      obtain ⟨c, t, hc, hc'⟩ := hN.symHead m hy
      have hc : showItem N (.terminal m) = c :: t := by rw [showItem, hc]
      exact absurd h.symm (name_lead hc hc' _ _ rfl s r)
    | nonterminal m =>
      rw [Known] at hy
      obtain ⟨c, t, hc, hc'⟩ := hN.ntHead m hy
      have hc : showItem N (.nonterminal m) = c :: t := by rw [showItem, hc]
      exact absurd h.symm (name_lead hc hc' _ _ rfl s r)
    | _ => first
      | exact absurd h (lead_ne rfl rfl (by decide) r s)
      | exact ⟨rfl, List.append_cancel_left h⟩
      | (rw [showItem, showItem] at h; simp at h)

mutual
theorem item_sep (hN : Clear N T M) : ∀ x, Known T M x → ∀ y, Known T M y → ∀ r s, Stop r → Stop s →
    showItem N x ++ r = showItem N y ++ s → x = y ∧ r = s
  | .guard p q, hx, y, hy, r, s, hr, hs, h => by
    cases y with
    | guard p' q' =>
      rw [Known] at hx hy
      rw [showItem, showItem] at h
      simp only [List.append_assoc, List.append_cancel_left_eq] at h
      obtain ⟨h1, h2, _⟩ := list_sep hN q hx.2 q' hy.2 _ _ _ _ _ _ (.inr (.inl ⟨_, rfl⟩)) (.inr (.inl ⟨_, rfl⟩)) h
      exact ⟨by rw [hx.1, hy.1, h1], by simpa using h2⟩
    | ebnf k rs => exact absurd h (lead_ne rfl rfl (by decide) r s)
    | _ =>
      obtain ⟨h1, h2⟩ := simple_sep hN _ _ hy hx ⟨by intros; simp, by intros; simp⟩ s r hs hr h.symm
      exact ⟨h1.symm, h2.symm⟩
  | .ebnf k rs, hx, y, hy, r, s, hr, hs, h => by
    cases y with
    | guard p' q' => exact absurd h (lead_ne rfl rfl (by decide) r s)
    | ebnf k' rs' =>
      rw [Known] at hx hy
      match rs, rs' with
      | [], [] =>
        have e1 : k = .alternative := by simpa using hx.1
        have e2 : k' = .alternative := by simpa using hy.1
        subst e1 e2
        exact ⟨rfl, List.append_cancel_left h⟩
      | [], q' :: tail' =>
        have e1 : k = .alternative := by simpa using hx.1
        subst e1
        rw [KnownRules] at hy
        rw [ebnf_none, ebnf_text] at h
        simp only [List.cons_append, List.nil_append, List.append_assoc, List.cons.injEq, true_and] at h
        obtain ⟨e, he⟩ := after_space (N := N) k' tail' s
        rw [he] at h
        exact absurd h.symm (items_paren hN q' hy.2.1 _ _)
      | q :: tail, [] =>
        have e1 : k' = .alternative := by simpa using hy.1
        subst e1
        rw [KnownRules] at hx
        rw [ebnf_none, ebnf_text] at h
        simp only [List.cons_append, List.nil_append, List.append_assoc, List.cons.injEq, true_and] at h
        obtain ⟨e, he⟩ := after_space (N := N) k tail r
        rw [he] at h
        exact absurd h (items_paren hN q hx.2.1 _ _)
      | q :: tail, q' :: tail' =>
        rw [KnownRules] at hx hy
        rw [ebnf_text, ebnf_text] at h
        simp only [List.cons_append, List.append_assoc, List.cons.injEq, true_and] at h
        obtain ⟨h1, h2, _⟩ := list_sep hN q hx.2.1 q' hy.2.1 _ _ _ _ _ _ (after_end k tail r) (after_end k' tail' s) h
        by_cases hk : k = .alternative
        · subst hk
          by_cases hk' : k' = .alternative
          · subst hk'
            simp only [after, List.append_assoc] at h2
            obtain ⟨h3, h4⟩ := alts_sep hN tail hx.2.2 tail' hy.2.2 false r s h2
            exact ⟨by rw [h1, h3], h4⟩
          · exact absurd h2 (after_other hk' _ _ _ _ hr)
        · by_cases hk' : k' = .alternative
          · subst hk'
            exact absurd h2.symm (after_other hk _ _ _ _ hs)
          · have t1 : tail = [] := by simpa [hk] using hx.1
            have t2 : tail' = [] := by simpa [hk'] using hy.1
            subst t1 t2 h1
            cases k <;> cases k' <;> simp_all [after, mark]
    | _ =>
      obtain ⟨h1, h2⟩ := simple_sep hN _ _ hy hx ⟨by intros; simp, by intros; simp⟩ s r hs hr h.symm
      exact ⟨h1.symm, h2.symm⟩
  | .empty, hx, y, hy, r, s, hr, hs, h => simple_sep hN _ y hx hy ⟨by intros; simp, by intros; simp⟩ r s hr hs h
  | .eoi, hx, y, hy, r, s, hr, hs, h => simple_sep hN _ y hx hy ⟨by intros; simp, by intros; simp⟩ r s hr hs h
  | .eog, hx, y, hy, r, s, hr, hs, h => simple_sep hN _ y hx hy ⟨by intros; simp, by intros; simp⟩ r s hr hs h
  | .terminal _, hx, y, hy, r, s, hr, hs, h => simple_sep hN _ y hx hy ⟨by intros; simp, by intros; simp⟩ r s hr hs h
  | .nonterminal _, hx, y, hy, r, s, hr, hs, h => simple_sep hN _ y hx hy ⟨by intros; simp, by intros; simp⟩ r s hr hs h

theorem list_sep (hN : Clear N T M) : ∀ xs, KnownAll T M xs → ∀ ys, KnownAll T M ys → ∀ (dot dot' pos : Int) (first : Bool) (r s : Text),
    End r → End s → showItems N dot pos first xs ++ r = showItems N dot' pos first ys ++ s →
    xs = ys ∧ r = s ∧ ∀ p, pos ≤ p → p ≤ pos + xs.length → (dot = p ↔ dot' = p)
  | [], _, [], _, dot, dot', pos, first, r, s, hr, hs, h => by
    rw [showItems, showItems] at h
    by_cases hd : dot = pos <;> by_cases hd' : dot' = pos <;> cases first <;>
      simp only [hd, hd', if_true, if_false, List.nil_append, List.cons_append, Bool.false_eq_true, List.cons.injEq, true_and] at h
    all_goals first
      | (refine ⟨rfl, h, ?_⟩; intro p h1 h2; simp only [List.length_nil] at h2; omega)
      | exact absurd h.symm hs.not_dot
      | exact absurd h hr.not_dot
      | exact absurd h.symm (hs.not_cons (by decide) (by decide) (by decide) (by decide))
      | exact absurd h (hr.not_cons (by decide) (by decide) (by decide) (by decide))
  | [], _, y :: ys, hy, dot, dot', pos, first, r, s, hr, _, h => by
    rw [KnownAll] at hy
    exact absurd h (nil_cons hN y hy.1 _ _ _ _ _ _ _ hr)
  | x :: xs, hx, [], _, dot, dot', pos, first, r, s, _, hs, h => by
    rw [KnownAll] at hx
    exact absurd h.symm (nil_cons hN x hx.1 _ _ _ _ _ _ _ hs)
  | x :: xs, hx, y :: ys, hy, dot, dot', pos, first, r, s, hr, hs, h => by
    rw [KnownAll] at hx hy
    have key : (dot = pos ↔ dot' = pos) ∧ showItem N x ++ (showItems N dot (pos + 1) false xs ++ r) =
        showItem N y ++ (showItems N dot' (pos + 1) false ys ++ s) := by
      obtain ⟨c, t, hc, ⟨_, _, _, h4, _⟩, _⟩ := head hN x hx.1
      obtain ⟨d, u, hd0, ⟨_, _, _, h4', _⟩, _⟩ := head hN y hy.1
      rw [showItems, showItems] at h
      by_cases hd : dot = pos <;> by_cases hd' : dot' = pos <;> cases first <;>
        simp only [hd, hd', hc, hd0, if_true, if_false, List.nil_append, List.cons_append, List.append_assoc, Bool.false_eq_true,
          List.cons.injEq, true_and] at h ⊢
      all_goals first
        | exact h
        | exact absurd h.1 h4
        | exact absurd h.1.symm h4'
    obtain ⟨hd, h⟩ := key
    obtain ⟨hxy, hrest⟩ := item_sep hN x hx.1 y hy.1 _ _ (rest_stop _ _ _ hr) (rest_stop _ _ _ hs) h
    obtain ⟨hxs, hrs, hp⟩ := list_sep hN xs hx.2 ys hy.2 _ _ _ _ _ _ hr hs hrest
    refine ⟨by rw [hxy, hxs], hrs, fun p h1 h2 => ?_⟩
    rcases Int.lt_or_eq_of_le h1 with h3 | rfl
    · exact hp p (by omega) (by simp only [List.length_cons] at h2; omega)
    · exact hd

theorem alts_sep (hN : Clear N T M) : ∀ xs, KnownRules T M xs → ∀ ys, KnownRules T M ys → ∀ (first : Bool) (r s : Text),
    showAlts N first xs ++ ([' ', ')'] ++ r) = showAlts N first ys ++ ([' ', ')'] ++ s) → xs = ys ∧ r = s
  | [], _, [], _, first, r, s, h => by
    rw [showAlts] at h
    exact ⟨rfl, by simpa using h⟩
  | [], _, y :: ys, hy, first, r, s, h => by
    rw [KnownRules] at hy
    rw [showAlts, showAlts] at h
    cases first <;> simp only [List.nil_append, List.cons_append, List.append_assoc, Bool.false_eq_true, if_true, if_false, List.cons.injEq,
      true_and] at h
    · exact absurd h.1 (by decide)
    · obtain ⟨e, he⟩ := after_space (N := N) .alternative ys s
      simp only [after, List.append_assoc, List.cons_append, List.nil_append] at he
      rw [he] at h
      exact absurd h.symm (items_paren hN y hy.1 _ _)
  | x :: xs, hx, [], _, first, r, s, h => by
    rw [KnownRules] at hx
    rw [showAlts, showAlts] at h
    cases first <;> simp only [List.nil_append, List.cons_append, List.append_assoc, Bool.false_eq_true, if_true, if_false, List.cons.injEq,
      true_and] at h
    · exact absurd h.1 (by decide)
    · obtain ⟨e, he⟩ := after_space (N := N) .alternative xs r
      simp only [after, List.append_assoc, List.cons_append, List.nil_append] at he
      rw [he] at h
      exact absurd h (items_paren hN x hx.1 _ _)
  | x :: xs, hx, y :: ys, hy, first, r, s, h => by
    rw [KnownRules] at hx hy
    rw [showAlts, showAlts] at h
    have key : showItems N (-1) 0 true x ++ (showAlts N false xs ++ ([' ', ')'] ++ r)) =
        showItems N (-1) 0 true y ++ (showAlts N false ys ++ ([' ', ')'] ++ s)) := by
      cases first <;> simpa using h
    obtain ⟨h1, h2, _⟩ := list_sep hN x hx.1 y hy.1 _ _ _ _ _ _ (alts_end xs r) (alts_end ys s) key
    obtain ⟨h3, h4⟩ := alts_sep hN xs hx.2 ys hy.2 false r s h2
    exact ⟨by rw [h1, h3], h4⟩
end

/-! ### The properties -/

/-- Two items with the same text are the same item. -/
theorem item_text (hN : Clear N T M) (x y : Item) (hx : Known T M x) (hy : Known T M y) : showItem N x = showItem N y ↔ x = y :=
  ⟨fun h => (item_sep hN x hx y hy [] [] (.inl rfl) (.inl rfl) (by simpa using h)).1, fun h => by rw [h]⟩

/-- Two LR(0) items with the same text have the same rule, and the dot at the same place wherever a dot can be. -/
theorem rule_text_partial (hN : Clear N T M) (lhs lhs' : Item) (r r' : List Item) (dot dot' : Int) (h1 : Known T M lhs) (h1' : Known T M lhs')
    (h2 : KnownAll T M r) (h2' : KnownAll T M r') :
    showRule N lhs r dot = showRule N lhs' r' dot' ↔
      lhs = lhs' ∧ r = r' ∧ ∀ p : Int, 0 ≤ p → p ≤ r.length → (dot = p ↔ dot' = p) := by
  constructor
  · intro h
    rw [showRule, showRule] at h
    obtain ⟨ha, hb⟩ := item_sep hN lhs h1 lhs' h1' _ _ (.inr ⟨' ', _, rfl, .inl rfl⟩) (.inr ⟨' ', _, rfl, .inl rfl⟩) h
    have hb : showItems N dot 0 true r = showItems N dot' 0 true r' := by simpa using hb
    obtain ⟨hc, _, hd⟩ := list_sep hN r h2 r' h2' dot dot' 0 true [] [] (.inl rfl) (.inl rfl) (by simpa using hb)
    exact ⟨ha, hc, fun p h3 h4 => hd p h3 (by omega)⟩
  · rintro ⟨rfl, rfl, h⟩
    have key : ∀ (xs : List Item) (pos : Int) (first : Bool), (∀ p : Int, pos ≤ p → p ≤ pos + xs.length → (dot = p ↔ dot' = p)) →
        showItems N dot pos first xs = showItems N dot' pos first xs := by
      intro xs
      induction xs with
      | nil => intro pos first h; rw [showItems, showItems]; simp [h pos (by omega) (by simp)]
      | cons x xs ih =>
        intro pos first h
        rw [showItems, showItems, ih (pos + 1) false fun p h3 h4 => h p (by omega) (by simp only [List.length_cons]; omega)]
        simp [h pos (by omega) (by simp only [List.length_cons]; omega)]
    rw [showRule, showRule, key r 0 true fun p h3 h4 => h p h3 (by omega)]

theorem set_sep (hN : Clear N T M) : ∀ xs, KnownAll T M xs → ∀ ys, KnownAll T M ys → ∀ first, showSet N first xs = showSet N first ys → xs = ys := by
  have stop : ∀ zs, Stop (showSet N false zs) := by
    intro zs
    cases zs with
    | nil => exact .inr ⟨')', [], rfl, by simp⟩
    | cons z zs => exact .inr ⟨',', _, rfl, by simp⟩
  have no : ∀ z zs, Known T M z → ∀ first, showSet N first [] ≠ showSet N first (z :: zs) := by
    intro z zs hz first h
    obtain ⟨c, t, hc, ⟨h1, _⟩, _⟩ := head hN z hz
    rw [showSet, showSet, hc] at h
    cases first <;> simp at h
    exact h1 h.1.symm
  intro xs
  induction xs with
  | nil =>
    intro _ ys hy first h
    cases ys with
    | nil => rfl
    | cons y ys => rw [KnownAll] at hy; exact absurd h (no y ys hy.1 first)
  | cons x xs ih =>
    intro hx ys hy first h
    rw [KnownAll] at hx
    cases ys with
    | nil => exact absurd h.symm (no x xs hx.1 first)
    | cons y ys =>
      rw [KnownAll] at hy
      rw [showSet, showSet] at h
      obtain ⟨h1, h2⟩ := item_sep hN x hx.1 y hy.1 _ _ (stop xs) (stop ys) (List.append_cancel_left h)
      rw [h1, ih hx.2 ys hy.2 false h2]

/-- Two item sets with the same text have the same items. -/
theorem set_text (hN : Clear N T M) (xs ys : List Item) (hx : KnownAll T M xs) (hy : KnownAll T M ys) :
    showItemSet N xs = showItemSet N ys ↔ xs = ys :=
  ⟨fun h => set_sep hN xs hx ys hy true (by simpa [showItemSet] using h), fun h => by rw [h]⟩

theorem split_sep (q : Char) : ∀ (b b' r s : Text), q ∉ b → q ∉ b' → b ++ q :: r = b' ++ q :: s → b = b' ∧ r = s
  | [], [], r, s, _, _, h => by simpa using h
  | [], c :: b', r, s, _, h2, h => by simp at h h2; exact absurd h.1 h2.1
  | c :: b, [], r, s, h1, _, h => by simp at h h1; exact absurd h.1.symm h1.1
  | c :: b, c' :: b', r, s, h1, h2, h => by
    simp only [List.cons_append, List.cons.injEq] at h
    obtain ⟨h3, h4⟩ := split_sep q b b' r s (fun m => h1 (List.mem_cons_of_mem _ m)) (fun m => h2 (List.mem_cons_of_mem _ m)) h.2
    exact ⟨by rw [h.1, h3], h4⟩

theorem digit_ne {n : Nat} {c : Char} (h : c.isDigit = false) : c ∉ Nat.toDigits 10 n := fun m => by
  have := Nat.isDigit_of_mem_toDigits (b := 10) (by decide) (by decide) m
  simp [h] at this

theorem digits_inj {a b : Nat} (h : Nat.toDigits 10 a = Nat.toDigits 10 b) : a = b := by
  have := congrArg (fun l => Nat.ofDigitChars 10 l 0) h
  simpa [Nat.ofDigitChars_ten_toDigits] using this

theorem decimal_space (n : Int) : ' ' ∉ decimal n := by
  unfold decimal
  split
  · simp only [List.mem_cons, not_or]; exact ⟨by decide, digit_ne rfl⟩
  · exact digit_ne rfl

theorem decimal_inj {a b : Int} (h : decimal a = decimal b) : a = b := by
  unfold decimal at h
  split at h <;> split at h
  · have := digits_inj (List.cons.inj h).2; omega
  · have : '-' ∈ Nat.toDigits 10 b.natAbs := by rw [← h]; simp
    exact absurd this (digit_ne rfl)
  · have : '-' ∈ Nat.toDigits 10 a.natAbs := by rw [h]; simp
    exact absurd this (digit_ne rfl)
  · have := digits_inj h; omega

theorem name_sep (t t' : ActType) (n m : Int) (r s : Text) (h : actName n t ++ r = actName m t' ++ s) (hr : ∃ u, r = 'o' :: u) (hs : ∃ u, s = 'o' :: u) :
    t = t' ∧ (hasState t = true → n = m) ∧ r = s := by
  obtain ⟨u, rfl⟩ := hr
  obtain ⟨v, rfl⟩ := hs
  cases t <;> cases t' <;> simp [actName] at h <;> simp [hasState]
  all_goals first
    | exact h
    | (obtain ⟨h1, h2⟩ := split_sep ' ' _ _ _ _ (decimal_space n) (decimal_space m) h
       exact ⟨decimal_inj h1, by simpa using h2⟩)

/-- Two actions with the same text are of the same type and for the same item; they have the same state if the text shows states for their
type, and the same rule if it shows rules. -/
theorem action_text_partial (hN : Clear N T M) (a b : Act) (h1 : Known T M a.item) (h1' : Known T M b.item) (h2 : Known T M a.lhs)
    (h2' : Known T M b.lhs) (h3 : KnownAll T M a.rule) (h3' : KnownAll T M b.rule) (h : showAct N a = showAct N b) :
    a.type = b.type ∧ a.item = b.item ∧ (a.type ∈ [.goto, .shift, .shiftstrong] → a.next = b.next) ∧
      (a.type ∈ [.reduce, .weakreduce, .accept, .guard] → a.lhs = b.lhs ∧ a.rule = b.rule) := by
  have hs : ∀ t : ActType, t ∈ [.goto, .shift, .shiftstrong] → hasState t = true := by intro t ht; cases t <;> simp_all [hasState]
  have hru : ∀ t : ActType, t ∈ [.reduce, .weakreduce, .accept, .guard] → hasRule t = true := by intro t ht; cases t <;> simp_all [hasRule]
  rw [showAct, showAct] at h
  obtain ⟨e1, e2, e3⟩ := name_sep _ _ _ _ _ _ h ⟨_, rfl⟩ ⟨_, rfl⟩
  have e3 := List.append_cancel_left e3
  rw [← e1] at e3
  by_cases hr : hasRule a.type = true
  · simp only [hr, if_true] at e3
    obtain ⟨e4, e5⟩ := item_sep hN _ h1 _ h1' _ _ (.inr ⟨' ', _, rfl, .inl rfl⟩) (.inr ⟨' ', _, rfl, .inl rfl⟩) e3
    have e5 : showItem N a.lhs ++ ([' ', '=', ' '] ++ (showItems N (-1) 0 true a.rule ++ [')'])) =
        showItem N b.lhs ++ ([' ', '=', ' '] ++ (showItems N (-1) 0 true b.rule ++ [')'])) := by simpa [showRule] using e5
    obtain ⟨e6, e7⟩ := item_sep hN _ h2 _ h2' _ _ (.inr ⟨' ', _, rfl, .inl rfl⟩) (.inr ⟨' ', _, rfl, .inl rfl⟩) e5
    have e7 : showItems N (-1) 0 true a.rule ++ [')'] = showItems N (-1) 0 true b.rule ++ [')'] := by simpa using e7
    obtain ⟨e8, _⟩ := list_sep hN _ h3 _ h3' _ _ _ _ _ _ (.inr (.inr (.inl ⟨_, rfl⟩))) (.inr (.inr (.inl ⟨_, rfl⟩))) e7
    exact ⟨e1, e4, fun h => e2 (hs _ h), fun _ => ⟨e6, e8⟩⟩
  · simp only [hr, if_false, Bool.false_eq_true] at e3
    obtain ⟨e4, _⟩ := item_sep hN _ h1 _ h1' _ _ (.inl rfl) (.inl rfl) e3
    exact ⟨e1, e4, fun h => e2 (hs _ h), fun h => absurd (hru _ h) hr⟩

/-- Names as definitions write them (definition.tp 20-33): identifiers and nonterminals, strings without a quotation mark inside, characters. -/
inductive Written : Text → Prop
  | word (c : Char) (t : Text) : c ∉ special → c ≠ '"' → c ≠ '\'' → (∀ d ∈ c :: t, d ≠ ' ' ∧ d ≠ ']' ∧ d ≠ ',' ∧ d ≠ ')' ∧ d ≠ '\n') → Written (c :: t)
  | string (b : Text) : '"' ∉ b → Written ('"' :: (b ++ ['"']))
  | character (c : Char) : Written ['\'', c, '\'']
  | escaped (c : Char) : Written ['\'', '\\', c, '\'']

theorem word_sep : ∀ (b b' r s : Text), (∀ d ∈ b, d ≠ ' ' ∧ d ≠ ']' ∧ d ≠ ',' ∧ d ≠ ')' ∧ d ≠ '\n') → (∀ d ∈ b', d ≠ ' ' ∧ d ≠ ']' ∧ d ≠ ',' ∧ d ≠ ')' ∧ d ≠ '\n') →
    Stop r → Stop s → b ++ r = b' ++ s → b = b' ∧ r = s
  | [], [], r, s, _, _, _, _, h => ⟨rfl, by simpa using h⟩
  | [], c :: b', r, s, _, h2, hr, _, h => by
    have hc := h2 c (by simp)
    rcases hr with rfl | ⟨d, t, rfl, hd⟩ <;> simp at h
    obtain ⟨rfl, _⟩ := h
    rcases hd with e | e | e | e | e <;> simp_all
  | c :: b, [], r, s, h1, _, _, hs, h => by
    have hc := h1 c (by simp)
    rcases hs with rfl | ⟨d, t, rfl, hd⟩ <;> simp at h
    obtain ⟨rfl, _⟩ := h
    rcases hd with e | e | e | e | e <;> simp_all
  | c :: b, c' :: b', r, s, h1, h2, hr, hs, h => by
    simp only [List.cons_append, List.cons.injEq] at h
    obtain ⟨h3, h4⟩ := word_sep b b' r s (fun d m => h1 d (List.mem_cons_of_mem _ m)) (fun d m => h2 d (List.mem_cons_of_mem _ m)) hr hs h.2
    exact ⟨by rw [h.1, h3], h4⟩

theorem quote_stop {r : Text} (h : Stop ('\'' :: r)) : False := by
  rcases h with h | ⟨c, t, h, hc⟩
  · cases h
  · cases h; rcases hc with e | e | e | e | e <;> exact absurd e (by decide)

theorem written_sep {w w' : Text} (hw : Written w) (hw' : Written w') (r s : Text) (hr : Stop r) (hs : Stop s) (h : w ++ r = w' ++ s) :
    w = w' ∧ r = s := by
  cases hw with
  | word c t h1 h2 h3 h4 =>
    cases hw' with
    | word c' t' _ _ _ h4' => exact word_sep _ _ r s h4 h4' hr hs h
    | string b _ => exact absurd (List.cons.inj h).1 h2
    | character d => exact absurd (List.cons.inj h).1 h3
    | escaped d => exact absurd (List.cons.inj h).1 h3
  | string b hb =>
    cases hw' with
    | word c' t' _ h2 _ _ => exact absurd (List.cons.inj h).1.symm h2
    | string b' hb' =>
      obtain ⟨h1, h2⟩ := split_sep '"' b b' r s hb hb' (by simpa using h)
      exact ⟨by rw [h1], h2⟩
    | character d => exact absurd (List.cons.inj h).1 (by decide)
    | escaped d => exact absurd (List.cons.inj h).1 (by decide)
  | character c =>
    cases hw' with
    | word c' t' _ _ h3 _ => exact absurd (List.cons.inj h).1.symm h3
    | string b' hb' => exact absurd (List.cons.inj h).1 (by decide)
    | character d => simp at h; exact ⟨by rw [h.1], h.2⟩
    | escaped d => simp at h; obtain ⟨_, _, rfl⟩ := h; exact (quote_stop hr).elim
  | escaped c =>
    cases hw' with
    | word c' t' _ _ h3 _ => exact absurd (List.cons.inj h).1.symm h3
    | string b' hb' => exact absurd (List.cons.inj h).1 (by decide)
    | character d => simp at h; obtain ⟨_, _, rfl⟩ := h; exact (quote_stop hs).elim
    | escaped d => simp at h; exact ⟨by rw [h.1], h.2⟩

theorem written_head {w : Text} (hw : Written w) : ∃ c t, w = c :: t ∧ c ∉ special := by
  cases hw with
  | word c t h1 => exact ⟨c, t, rfl, h1⟩
  | string b _ => exact ⟨_, _, rfl, by decide⟩
  | character c => exact ⟨_, _, rfl, by decide⟩
  | escaped c => exact ⟨_, _, rfl, by decide⟩

/-- Names as definitions write them, no two of them the same, are clear. -/
theorem written_clear (h1 : ∀ n, T n → Written (N.sym n)) (h2 : ∀ n, M n → Written (N.nt n)) (h3 : ∀ n m, T n → T m → N.sym n = N.sym m → n = m)
    (h4 : ∀ n m, M n → M m → N.nt n = N.nt m → n = m) (h5 : ∀ n m, T n → M m → N.sym n ≠ N.nt m) : Clear N T M where
  symHead n hn := written_head (h1 n hn)
  ntHead n hn := written_head (h2 n hn)
  symSep n m hn hm r s hr hs h := by
    obtain ⟨e1, e2⟩ := written_sep (h1 n hn) (h1 m hm) r s hr hs h
    exact ⟨h3 n m hn hm e1, e2⟩
  ntSep n m hn hm r s hr hs h := by
    obtain ⟨e1, e2⟩ := written_sep (h2 n hn) (h2 m hm) r s hr hs h
    exact ⟨h4 n m hn hm e1, e2⟩
  apart n m hn hm r s hr hs h := h5 n m hn hm (written_sep (h1 n hn) (h2 m hm) r s hr hs h).1

/-! ### LR items, states and conflicts -/

/-- An LR(0) item over known names with the dot in the rule. -/
def Lr0.Ok (T M : Int → Prop) (i : Lr0) : Prop := Known T M i.lhs ∧ KnownAll T M i.rule ∧ 0 ≤ i.offset ∧ i.offset ≤ i.rule.length

theorem lr0_sep (hN : Clear N T M) (i j : Lr0) (hi : i.Ok T M) (hj : j.Ok T M) (r s : Text) (hr : End r) (hs : End s)
    (h : showLr0 N i ++ r = showLr0 N j ++ s) : i = j ∧ r = s := by
  obtain ⟨l, x, d⟩ := i
  obtain ⟨l', x', d'⟩ := j
  obtain ⟨h1, h2, h3, h4⟩ := hi
  obtain ⟨h1', h2', h3', h4'⟩ := hj
  simp only [showLr0, showRule, List.append_assoc] at h
  obtain ⟨e1, e2⟩ := item_sep hN l h1 l' h1' _ _ (.inr ⟨' ', _, rfl, .inl rfl⟩) (.inr ⟨' ', _, rfl, .inl rfl⟩) h
  have e2 : showItems N d 0 true x ++ r = showItems N d' 0 true x' ++ s := by simpa using e2
  obtain ⟨e3, e4, e5⟩ := list_sep hN x h2 x' h2' _ _ _ _ _ _ hr hs e2
  have e6 := (e5 d h3 (by simpa using h4)).1 rfl
  exact ⟨by rw [e1, e3, e6], e4⟩

/-- Two LR(0) items with the dot in the rule have the same text only if they are the same. -/
theorem lr0_text (hN : Clear N T M) (i j : Lr0) (hi : i.Ok T M) (hj : j.Ok T M) : showLr0 N i = showLr0 N j ↔ i = j :=
  ⟨fun h => (lr0_sep hN i j hi hj [] [] (.inl rfl) (.inl rfl) (by simpa using h)).1, fun h => by rw [h]⟩

theorem look_sep (hN : Clear N T M) (close : Char) (hclose : close = ']' ∨ close = ')') : ∀ xs, KnownAll T M xs → ∀ ys, KnownAll T M ys →
    ∀ (first : Bool) (r s : Text), showLook N close first xs ++ r = showLook N close first ys ++ s → xs = ys ∧ r = s := by
  have stop : ∀ zs r, Stop (showLook N close false zs ++ r) := by
    intro zs r
    cases zs with
    | nil => exact .inr ⟨close, _, rfl, by rcases hclose with rfl | rfl <;> simp⟩
    | cons z zs => exact .inr ⟨',', _, rfl, by simp⟩
  have no : ∀ z zs, Known T M z → ∀ first r s, showLook N close first [] ++ r ≠ showLook N close first (z :: zs) ++ s := by
    intro z zs hz first r s h
    obtain ⟨c, t, hc, ⟨h1, _, h2, _⟩, _⟩ := head hN z hz
    rw [showLook, showLook, hc] at h
    cases first <;> simp only [List.cons_append, List.nil_append, List.cons.injEq, Bool.false_eq_true, if_true, if_false] at h
    · rcases hclose with rfl | rfl <;> exact absurd h.1 (by decide)
    · rcases hclose with rfl | rfl
      · exact h2 h.1.symm
      · exact h1 h.1.symm
  intro xs
  induction xs with
  | nil =>
    intro _ ys hy first r s h
    cases ys with
    | nil => exact ⟨rfl, List.append_cancel_left h⟩
    | cons y ys => rw [KnownAll] at hy; exact absurd h (no y ys hy.1 first r s)
  | cons x xs ih =>
    intro hx ys hy first r s h
    rw [KnownAll] at hx
    cases ys with
    | nil => exact absurd h.symm (no x xs hx.1 first s r)
    | cons y ys =>
      rw [KnownAll] at hy
      rw [showLook, showLook] at h
      simp only [List.append_assoc] at h
      obtain ⟨h1, h2⟩ := item_sep hN x hx.1 y hy.1 _ _ (stop xs r) (stop ys s) (List.append_cancel_left h)
      obtain ⟨h3, h4⟩ := ih hx.2 ys hy.2 false r s h2
      exact ⟨by rw [h1, h3], h4⟩

/-- Behind the lookahead of an item is the end or a new line. -/
def Line (r : Text) : Prop := r = [] ∨ ∃ t, r = '\n' :: t

theorem Line.end {r : Text} (h : Line r) : End r := by
  rcases h with h | h
  · exact .inl h
  · exact .inr (.inr (.inr (.inr (.inr (.inl h)))))

theorem Line.space {r t : Text} (h : Line r) : r ≠ ' ' :: t := by
  rintro rfl
  rcases h with h | ⟨_, h⟩ <;> simp at h

theorem lookText_sep (hN : Clear N T M) (opening close : Char) (hclose : close = ']' ∨ close = ')') (xs ys : List Item) (hx : KnownAll T M xs)
    (hy : KnownAll T M ys) (r s : Text) (hr : Line r) (hs : Line s) (h : lookText N opening close xs ++ r = lookText N opening close ys ++ s) :
    xs = ys ∧ r = s := by
  cases xs with
  | nil =>
    cases ys with
    | nil => exact ⟨rfl, h⟩
    | cons y ys => exact absurd h hr.space
  | cons x xs =>
    cases ys with
    | nil => exact absurd h.symm hs.space
    | cons y ys =>
      simp only [lookText, List.cons_append, List.nil_append, List.cons.injEq, true_and] at h
      exact look_sep hN close hclose _ hx _ hy true r s h

theorem paren_end (hN : Clear N T M) (la : List Item) (h : KnownAll T M la) (r : Text) (hr : Line r) : End (lookText N '(' ')' la ++ r) := by
  cases la with
  | nil => exact hr.end
  | cons x xs =>
    rw [KnownAll] at h
    obtain ⟨c, t, hc, ⟨_, _, _, _, h5, _⟩, _⟩ := head hN x h.1
    exact .inr (.inr (.inr (.inr (.inr (.inr (.inl ⟨c, t ++ showLook N ')' false xs ++ r, by simp [lookText, showLook, hc], h5⟩))))))

/-- No name is `empty`. -/
def NoEmpty (N : Names) (T M : Int → Prop) : Prop :=
  (∀ n, T n → ∀ s u, Stop s → N.sym n ++ s ≠ ['e', 'm', 'p', 't', 'y', ']'] ++ u) ∧ ∀ n, M n → ∀ s u, Stop s → N.nt n ++ s ≠ ['e', 'm', 'p', 't', 'y', ']'] ++ u

theorem square_end (hN : Clear N T M) (hE : NoEmpty N T M) (la : List Item) (h : KnownAll T M la) (r : Text) (hr : Line r) :
    End (lookText N '[' ']' la ++ r) := by
  cases la with
  | nil => exact hr.end
  | cons x xs =>
    rw [KnownAll] at h
    obtain ⟨c, t, hc, ⟨_, _, _, _, _, _, _, h8⟩, _⟩ := head hN x h.1
    have stop : Stop (showLook N ']' false xs ++ r) := by
      cases xs with
      | nil => exact .inr ⟨']', _, rfl, by simp⟩
      | cons z zs => exact .inr ⟨',', _, rfl, by simp⟩
    refine .inr (.inr (.inr (.inr (.inr (.inr (.inr ⟨showItem N x ++ (showLook N ']' false xs ++ r), by simp [lookText, showLook], ?_, ?_⟩))))))
    · intro u e
      rw [hc] at e
      exact h8 (List.cons.inj e).1
    · intro u e
      cases x with
      | terminal n => rw [showItem] at e; exact hE.1 n (by simpa [Known] using h.1) _ u stop e
      | nonterminal n => rw [showItem] at e; exact hE.2 n (by simpa [Known] using h.1) _ u stop e
      | _ => exact absurd e.symm (name_lead rfl (by decide) _ _ rfl u _)

/-- Two LR(1) items have the same text only if they are the same, as long as nothing is called `empty`. -/
theorem lr1_text_partial (hN : Clear N T M) (hE : NoEmpty N T M) (i j : Lr0) (hi : i.Ok T M) (hj : j.Ok T M) (xs ys : List Item) (hx : KnownAll T M xs)
    (hy : KnownAll T M ys) : showLr1 N i xs = showLr1 N j ys ↔ i = j ∧ xs = ys := by
  constructor
  · intro h
    rw [showLr1, showLr1] at h
    obtain ⟨h1, h2⟩ := lr0_sep hN i j hi hj _ _ (by simpa using square_end hN hE xs hx [] (.inl rfl)) (by simpa using square_end hN hE ys hy [] (.inl rfl)) h
    exact ⟨h1, (lookText_sep hN _ _ (.inl rfl) xs ys hx hy [] [] (.inl rfl) (.inl rfl) (by simpa using h2)).1⟩
  · rintro ⟨rfl, rfl⟩; rfl

theorem rule_ne_nil (hN : Clear N T M) (i : Lr0) (hi : i.Ok T M) : ∃ c t, showLr0 N i = c :: t ∧ c ≠ ' ' ∧ c ≠ '\n' := by
  obtain ⟨c, t, hc, ⟨_, _, _, _, h5, _, h7, _⟩, _⟩ := head hN i.lhs hi.1
  exact ⟨c, _, by rw [showLr0, showRule, hc]; rfl, h5, h7⟩

theorem state_line (l : List (Lr0 × List Item)) : Line (showState N false l) := by
  rcases l with _ | ⟨⟨i, la⟩, l⟩
  · exact .inl rfl
  · exact .inr ⟨_, rfl⟩

/-- Two states have the same text only if they have the same items with the same lookahead. -/
theorem state_text (hN : Clear N T M) : ∀ (xs ys : List (Lr0 × List Item)), (∀ x ∈ xs, x.1.Ok T M ∧ KnownAll T M x.2) →
    (∀ y ∈ ys, y.1.Ok T M ∧ KnownAll T M y.2) → ∀ first, showState N first xs = showState N first ys → xs = ys
  | [], [], _, _, _, _ => rfl
  | [], (i, la) :: ys, _, hy, first, h => by
    obtain ⟨c, t, hc, _⟩ := rule_ne_nil hN i (hy (i, la) (by simp)).1
    rw [showState, showState, hc] at h
    cases first <;> simp at h
  | (i, la) :: xs, [], hx, _, first, h => by
    obtain ⟨c, t, hc, _⟩ := rule_ne_nil hN i (hx (i, la) (by simp)).1
    rw [showState, showState, hc] at h
    cases first <;> simp at h
  | (i, la) :: xs, (j, lb) :: ys, hx, hy, first, h => by
    obtain ⟨a1, a2⟩ := hx (i, la) (by simp)
    obtain ⟨b1, b2⟩ := hy (j, lb) (by simp)
    rw [showState, showState] at h
    obtain ⟨h1, h2⟩ := lr0_sep hN i j a1 b1 _ _ (paren_end hN la a2 _ (state_line xs)) (paren_end hN lb b2 _ (state_line ys)) (List.append_cancel_left h)
    obtain ⟨h3, h4⟩ := lookText_sep hN _ _ (.inr rfl) la lb a2 b2 _ _ (state_line xs) (state_line ys) h2
    rw [h1, h3, state_text hN xs ys (fun x m => hx x (List.mem_cons_of_mem _ m)) (fun y m => hy y (List.mem_cons_of_mem _ m)) false h4]

theorem reduce_line (l : List Lr0) : Line (showReduce N l) := by
  cases l with
  | nil => exact .inl rfl
  | cons i l => exact .inr ⟨_, rfl⟩

theorem reduce_sep (hN : Clear N T M) : ∀ (xs ys : List Lr0), (∀ x ∈ xs, x.Ok T M) → (∀ y ∈ ys, y.Ok T M) → showReduce N xs = showReduce N ys → xs = ys
  | [], [], _, _, _ => rfl
  | [], _ :: _, _, _, h => by simp [showReduce] at h
  | _ :: _, [], _, _, h => by simp [showReduce] at h
  | i :: xs, j :: ys, hx, hy, h => by
    simp only [showReduce, List.cons_append, List.nil_append, List.cons.injEq, true_and] at h
    obtain ⟨h1, h2⟩ := lr0_sep hN i j (hx i (by simp)) (hy j (by simp)) _ _ (reduce_line xs).end (reduce_line ys).end h
    rw [h1, reduce_sep hN xs ys (fun x m => hx x (List.mem_cons_of_mem _ m)) (fun y m => hy y (List.mem_cons_of_mem _ m)) h2]

theorem shift_line (l : List Lr0) (first : Bool) (r : Text) (hr : Line r) : Line (showShift N first l ++ r) := by
  cases l with
  | nil => exact hr
  | cons i l => exact .inr ⟨_, rfl⟩

/-- The items that are shifted, up to the line behind them. -/
theorem shift_sep (hN : Clear N T M) : ∀ (xs ys : List Lr0), (∀ x ∈ xs, x.Ok T M) → (∀ y ∈ ys, y.Ok T M) → ∀ r s,
    showShift N false xs ++ ('\n' :: ' ' :: ' ' :: 'O' :: r) = showShift N false ys ++ ('\n' :: ' ' :: ' ' :: 'O' :: s) → xs = ys ∧ r = s
  | [], [], _, _, r, s, h => by simpa [showShift] using h
  | [], _ :: _, _, _, r, s, h => by simp [showShift] at h
  | _ :: _, [], _, _, r, s, h => by simp [showShift] at h
  | i :: xs, j :: ys, hx, hy, r, s, h => by
    simp only [showShift, List.cons_append, List.nil_append, List.append_assoc, List.cons.injEq, true_and, Bool.false_eq_true, if_false] at h
    obtain ⟨h1, h2⟩ := lr0_sep hN i j (hx i (by simp)) (hy j (by simp)) _ _ (shift_line xs false _ (.inr ⟨_, rfl⟩)).end
      (shift_line ys false _ (.inr ⟨_, rfl⟩)).end h
    obtain ⟨h3, h4⟩ := shift_sep hN xs ys (fun x m => hx x (List.mem_cons_of_mem _ m)) (fun y m => hy y (List.mem_cons_of_mem _ m)) r s h2
    exact ⟨by rw [h1, h3], h4⟩

/-- Two conflicts have the same text only if they are the same. -/
theorem conflict_text (hN : Clear N T M) (a b : Conf) (h1 : Known T M a.token) (h1' : Known T M b.token) (h2 : ∀ i ∈ a.shift, i.Ok T M)
    (h2' : ∀ i ∈ b.shift, i.Ok T M) (h3 : ∀ i ∈ a.reduce, i.Ok T M) (h3' : ∀ i ∈ b.reduce, i.Ok T M) : showConf N a = showConf N b ↔ a = b := by
  refine ⟨fun h => ?_, fun h => by rw [h]⟩
  obtain ⟨st, tok, sh, re⟩ := a
  obtain ⟨st', tok', sh', re'⟩ := b
  have line : ∀ c : Conf, ∃ t, confLine c = '\n' :: t := by
    intro c; unfold confLine; split <;> exact ⟨_, rfl⟩
  have tail : ∀ c : Conf, Line (showShift N true c.shift ++ (confLine c ++ showReduce N c.reduce)) := by
    intro c
    obtain ⟨t, ht⟩ := line c
    exact shift_line _ _ _ (.inr ⟨t ++ showReduce N c.reduce, by rw [ht]; rfl⟩)
  have t1 := tail ⟨st, tok, sh, re⟩
  have t2 := tail ⟨st', tok', sh', re'⟩
  have key : ∀ r s : Text, ' ' :: 'i' :: 'n' :: ' ' :: 's' :: 't' :: 'a' :: 't' :: 'e' :: ' ' :: (decimal st ++ (' ' :: 'o' :: 'n' :: ' ' :: (showItem N tok ++ r))) =
      ' ' :: 'i' :: 'n' :: ' ' :: 's' :: 't' :: 'a' :: 't' :: 'e' :: ' ' :: (decimal st' ++ (' ' :: 'o' :: 'n' :: ' ' :: (showItem N tok' ++ s))) →
      Line r → Line s → st = st' ∧ tok = tok' ∧ r = s := by
    intro r s h hr hs
    simp only [List.cons.injEq, true_and] at h
    obtain ⟨e1, e2⟩ := split_sep ' ' _ _ _ _ (decimal_space st) (decimal_space st') h
    simp only [List.cons.injEq, true_and] at e2
    obtain ⟨e3, e4⟩ := item_sep hN tok h1 tok' h1' _ _ hr.end.stop hs.end.stop e2
    exact ⟨decimal_inj e1, e3, e4⟩
  rw [showConf, showConf] at h
  cases sh with
  | nil =>
    cases sh' with
    | nil =>
      simp only [confKind, confLine, List.isEmpty_nil, if_true] at h t1 t2
      obtain ⟨e1, e2, e3⟩ := key _ _ (List.append_cancel_left h) t1 t2
      simp only [showShift, List.nil_append, List.append_cancel_left_eq] at e3
      rw [e1, e2, reduce_sep hN re re' h3 h3' e3]
    | cons j sh' => simp [confKind] at h
  | cons i sh =>
    cases sh' with
    | nil => simp [confKind] at h
    | cons j sh' =>
      simp only [confKind, confLine, List.isEmpty_cons, Bool.false_eq_true, if_false] at h t1 t2
      obtain ⟨e1, e2, e3⟩ := key _ _ (List.append_cancel_left h) t1 t2
      have e3 : showShift N false (i :: sh) ++ ('\n' :: ' ' :: ' ' :: 'O' :: (['r', ' ', 'r', 'e', 'd', 'u', 'c', 'e', ':'] ++ showReduce N re)) =
          showShift N false (j :: sh') ++ ('\n' :: ' ' :: ' ' :: 'O' :: (['r', ' ', 'r', 'e', 'd', 'u', 'c', 'e', ':'] ++ showReduce N re')) := by
        simpa [showShift] using e3
      obtain ⟨e4, e5⟩ := shift_sep hN _ _ h2 h2' _ _ e3
      have e4 : i :: sh = j :: sh' := e4
      rw [e1, e2, e4, reduce_sep hN re re' h3 h3' (List.append_cancel_left e5)]

/-- Written names other than `empty`. -/
theorem written_noEmpty (h1 : ∀ n, T n → Written (N.sym n) ∧ N.sym n ≠ ['e', 'm', 'p', 't', 'y'])
    (h2 : ∀ n, M n → Written (N.nt n) ∧ N.nt n ≠ ['e', 'm', 'p', 't', 'y']) : NoEmpty N T M := by
  have e : Written ['e', 'm', 'p', 't', 'y'] := .word _ _ (by decide) (by decide) (by decide) (by decide)
  have key : ∀ w, Written w → w ≠ ['e', 'm', 'p', 't', 'y'] → ∀ s u, Stop s → w ++ s ≠ ['e', 'm', 'p', 't', 'y', ']'] ++ u := by
    intro w hw hne s u hs h
    exact hne (written_sep hw e s (']' :: u) hs (.inr ⟨_, _, rfl, by simp⟩) (by simpa using h)).1
  exact ⟨fun n hn => key _ (h1 n hn).1 (h1 n hn).2, fun n hn => key _ (h2 n hn).1 (h2 n hn).2⟩

/-- With a terminal called `empty`, an LR(1) item with that lookahead looks like one without lookahead whose rule has the empty item. -/
theorem lr1_violated : ∃ (N : Names) (T M : Int → Prop) (i j : Lr0) (xs ys : List Item), Clear N T M ∧ i.Ok T M ∧ j.Ok T M ∧ KnownAll T M xs ∧ KnownAll T M ys ∧
    i ≠ j ∧ showLr1 N i xs = showLr1 N j ys := by
  refine ⟨⟨fun _ => ['e', 'm', 'p', 't', 'y'], fun _ => ['<', 'E', '>']⟩, (· = 0), (· = 0), ⟨.nonterminal 0, [], 0⟩, ⟨.nonterminal 0, [.empty], 0⟩, [.terminal 0], [],
    ?_, ?_, ?_, ?_, ?_, by simp, ?_⟩
  · refine written_clear (fun _ _ => ?_) (fun _ _ => ?_) ?_ ?_ ?_
    · exact .word _ _ (by decide) (by decide) (by decide) (by decide)
    · exact .word _ _ (by decide) (by decide) (by decide) (by decide)
    · rintro n m rfl rfl _; rfl
    · rintro n m rfl rfl _; rfl
    · intro _ _ _ _; simp
  · simp [Lr0.Ok, Known, KnownAll]
  · simp [Lr0.Ok, Known, KnownAll]
  · simp [Known, KnownAll]
  · simp [KnownAll]
  · simp [showLr1, showLr0, showRule, showItem, showItems, lookText, showLook]

/-- The text of a guard does not show its priority, whatever the names. -/
theorem priority_violated (N : Names) : ∃ x y : Item, x ≠ y ∧ showItem N x = showItem N y :=
  ⟨.guard 1 [.eoi], .guard 2 [.eoi], by simp, by simp [showItem]⟩

/-- The text of a divert action does not show the state it goes to. -/
theorem divert_violated (N : Names) : ∃ a b : Act, a.type = .divert ∧ b.type = .divert ∧ a.next ≠ b.next ∧ showAct N a = showAct N b :=
  ⟨⟨.divert, .eoi, 1, .eoi, []⟩, ⟨.divert, .eoi, 2, .eoi, []⟩, rfl, rfl, by decide, by simp [showAct, actName, hasRule]⟩

namespace Ex

def names : Names where
  sym n := if n = 0 then "id".toList else "\"a b\"".toList
  nt n := if n = 0 then "<E>".toList else "<T>".toList

def ok (n : Int) : Prop := n = 0 ∨ n = 1

theorem clear : Clear names ok ok := by
  refine written_clear ?_ ?_ ?_ ?_ ?_
  · rintro n (rfl | rfl)
    · exact .word 'i' ['d'] (by decide) (by decide) (by decide) (by decide)
    · exact .string ['a', ' ', 'b'] (by decide)
  · rintro n (rfl | rfl)
    · exact .word '<' ['E', '>'] (by decide) (by decide) (by decide) (by decide)
    · exact .word '<' ['T', '>'] (by decide) (by decide) (by decide) (by decide)
  all_goals rintro n m (rfl | rfl) (rfl | rfl) <;> decide

/-- `( id <T> | "a b" )` -/
def item : Item := .ebnf .alternative [[.terminal 0, .nonterminal 1], [.terminal 1]]

example : String.ofList (showItem names item) = "( id <T> | \"a b\" )" := by decide +kernel
example : String.ofList (showRule names (.nonterminal 0) [item, .terminal 0] 1) = "<E> = ( id <T> | \"a b\" ) ^ id" := by decide +kernel
example : String.ofList (showRule names (.nonterminal 0) [.ebnf .repeating [[.terminal 0]], .guard (-1) [.terminal 1, .eog]] 2) =
    "<E> = ( id )+ [=> \"a b\" %] ^" := by decide +kernel
example : String.ofList (showItemSet names [.terminal 0, .eoi]) = "(id, $)" := by decide +kernel
example : String.ofList (showAct names ⟨.shift, .terminal 0, 12, .eoi, []⟩) = "Shift to 12 on id" := by decide +kernel
example : String.ofList (showAct names ⟨.reduce, .eoi, 3, .nonterminal 0, [.terminal 0]⟩) = "Reduce on $ (<E> = id)" := by decide +kernel

example : String.ofList (showLr1 names ⟨.nonterminal 0, [.terminal 0, .nonterminal 1], 1⟩ [.eoi, .terminal 1]) = "<E> = id ^ <T> [$, \"a b\"]" := by decide +kernel
example : String.ofList (showState names true [(⟨.nonterminal 0, [.terminal 0], 1⟩, [.eoi]), (⟨.nonterminal 1, [.terminal 0, .terminal 1], 1⟩, [])]) =
    "<E> = id ^ ($)\n<T> = id ^ \"a b\"" := by decide +kernel
example : String.ofList (showConf names ⟨7, .terminal 1, [⟨.nonterminal 1, [.terminal 0, .terminal 1], 1⟩], [⟨.nonterminal 0, [.terminal 0], 1⟩]⟩) =
    "Shift/reduce conflict in state 7 on \"a b\"\n  Shift:\n    <T> = id ^ \"a b\"\n  Or reduce:\n    <E> = id ^" := by decide +kernel

theorem known : Known ok ok item := by simp [item, Known, KnownAll, KnownRules, ok]

example (y : Item) (hy : Known ok ok y) (h : String.ofList (showItem names y) = "( id <T> | \"a b\" )") : y = item :=
  (item_text clear y item hy known).1 (String.ofList_injective (h.trans (by decide +kernel)))

end Ex

end Show
end TameParse

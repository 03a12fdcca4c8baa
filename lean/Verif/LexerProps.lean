import Verif.Lexer
import Verif.PositionProps
/-
C15, C16, C17: what the lexer delivers.
-/
namespace TameParse
namespace LexMachine

/-! ### Specification -/

/-- The state after reading a string. -/
def runs (m : LexMachine) : Nat → List Int → Option Nat
  | q, [] => some q
  | q, x :: w => match m.run q x with
    | none => none
    | some q' => runs m q' w

/-- Started in `q`, the machine accepts the string with the given accept symbol. -/
def Accepts (m : LexMachine) (q : Nat) (w : List Int) (s : Int) : Prop := ∃ q', m.runs q w = some q' ∧ m.accept q' = s ∧ 0 ≤ s

/-- `w`, tagged `s`, is the longest non-empty prefix of `rest` that the machine accepts. -/
def Longest (m : LexMachine) (q : Nat) (rest w : List Int) (s : Int) : Prop :=
  w ≠ [] ∧ w <+: rest ∧ m.Accepts q w s ∧ ∀ w', w' <+: rest → w.length < w'.length → ∀ s', ¬ m.Accepts q w' s'

end LexMachine

/-- The input that a stream has still to split into lexemes. -/
def LexStream.rest (st : LexStream) : List Int := st.buffer ++ st.stream

namespace LexMachine

/-- Reading lexemes one after the other, possibly choosing another initial state before each of them. -/
inductive LexRun (m : LexMachine) : LexStream → List Lexeme → LexStream → Prop
  | nil (st) : LexRun m st [] st
  | cons {st st' st'' : LexStream} {l ls} (initial : Option Nat) :
      m.next (match initial with | none => st | some q => st.setInitial q) = some (some l, st') → LexRun m st' ls st'' →
      LexRun m st (l :: ls) st''

/-! ### Proofs -/

theorem runs_append (m : LexMachine) (q : Nat) (u w : List Int) :
    m.runs q (u ++ w) = (m.runs q u).bind (fun q' => m.runs q' w) := by
  induction u generalizing q with
  | nil => rfl
  | cons x u ih =>
    simp only [List.cons_append, runs]
    cases m.run q x with
    | none => rfl
    | some q' => exact ih q'

theorem runs_none_mono {m : LexMachine} {q : Nat} {R : List Int} {j k : Nat} (hjk : j ≤ k) (h : m.runs q (R.take j) = none) :
    m.runs q (R.take k) = none := by
  have e : R.take k = R.take j ++ (R.drop j).take (k - j) := by
    have := List.take_add (l := R) (i := j) (j := k - j)
    rw [show j + (k - j) = k by omega] at this
    exact this
  rw [e, runs_append, h]
  rfl

/-- The best prefix among the first `n`: what `acceptPos` and `acceptSymbol` hold. -/
def Best (m : LexMachine) (q : Nat) (R : List Int) (n : Nat) (ap as : Int) : Prop :=
  (ap = -1 ∧ as = -1 ∧ ∀ k, 1 ≤ k → k ≤ n → ∀ s, ¬ m.Accepts q (R.take k) s) ∨
  (∃ k : Nat, ap = k ∧ 1 ≤ k ∧ k ≤ n ∧ m.Accepts q (R.take k) as ∧ ∀ k', k < k' → k' ≤ n → ∀ s, ¬ m.Accepts q (R.take k') s)

theorem best_ext {m : LexMachine} {q : Nat} {R : List Int} {n n' : Nat} {ap as : Int} (h : m.Best q R n ap as) (hn : n ≤ n')
    (hno : ∀ k, n < k → k ≤ n' → ∀ s, ¬ m.Accepts q (R.take k) s) : m.Best q R n' ap as := by
  rcases h with ⟨h1, h2, h3⟩ | ⟨k, h1, h2, h3, h4, h5⟩
  · refine .inl ⟨h1, h2, fun k hk hk' => ?_⟩
    by_cases hkn : k ≤ n
    · exact h3 k hk hkn
    · exact hno k (by omega) hk'
  · refine .inr ⟨k, h1, h2, by omega, h4, fun k' hk hk' => ?_⟩
    by_cases hkn : k' ≤ n
    · exact h5 k' hk hkn
    · exact hno k' (by omega) hk'

theorem scanLoop_spec (m : LexMachine) (q0 : Nat) (R : List Int) : ∀ (fuel : Nat) (stream buffer : List Int) (pos state : Nat)
    (ap as : Int), buffer ++ stream = R → endOfInput ∉ stream → pos ≤ buffer.length → R.length + 1 ≤ fuel + pos →
    m.runs q0 (R.take pos) = some state → m.Best q0 R pos ap as → (pos = 0 ∨ buffer ≠ []) →
    ∃ sc, m.scanLoop fuel stream buffer pos state ap as = some sc ∧ sc.buffer ++ sc.stream = R ∧ endOfInput ∉ sc.stream ∧
      (sc.buffer = [] → R = []) ∧ (∀ k : Nat, sc.acceptPos = k → k ≤ sc.buffer.length) ∧
      m.Best q0 R R.length sc.acceptPos sc.acceptSymbol := by
  intro fuel
  induction fuel with
  | zero =>
    intro stream buffer pos state ap as hR _ hp hf
    have : R.length = buffer.length + stream.length := by rw [← hR]; simp
    omega
  | succ f ih =>
    intro stream buffer pos state ap as hR hE hp hf hrun hbest hne
    have hbound : ∀ k : Nat, ap = k → k ≤ pos := by
      intro k hk
      rcases hbest with ⟨h1, _⟩ | ⟨j, h1, _, h3, _⟩
      · omega
      · omega
    unfold scanLoop
    -- the step after the buffer has been filled
    have step : ∀ (stream buffer : List Int), buffer ++ stream = R → endOfInput ∉ stream → pos < buffer.length →
        ∃ sc, (match buffer[pos]? with
          | none => none
          | some cur => match m.run state cur with
            | none => some (Scan.mk stream buffer ap as)
            | some q => if m.accept q ≥ 0 then scanLoop m f stream buffer (pos + 1) q ((pos : Int) + 1) (m.accept q)
              else scanLoop m f stream buffer (pos + 1) q ap as) = some sc ∧ sc.buffer ++ sc.stream = R ∧ endOfInput ∉ sc.stream ∧
          (sc.buffer = [] → R = []) ∧ (∀ k : Nat, sc.acceptPos = k → k ≤ sc.buffer.length) ∧
          m.Best q0 R R.length sc.acceptPos sc.acceptSymbol := by
      intro stream buffer hR hE hp
      have hb : buffer ≠ [] := by intro e; rw [e] at hp; simp at hp
      rw [List.getElem?_eq_getElem hp]
      simp only
      have hRp : R[pos]? = some buffer[pos] := by rw [← hR, List.getElem?_append_left hp, List.getElem?_eq_getElem hp]
      have htake : R.take (pos + 1) = R.take pos ++ [buffer[pos]] := by rw [List.take_add_one, hRp]; rfl
      have hnext : m.runs q0 (R.take (pos + 1)) = m.run state buffer[pos] := by
        rw [htake, runs_append, hrun]
        simp only [Option.bind_some, runs]
        cases m.run state buffer[pos] <;> rfl
      have hlen : buffer.length ≤ R.length := by rw [← hR]; simp
      cases hr : m.run state buffer[pos] with
      | none =>
        rw [hr] at hnext
        refine ⟨_, rfl, hR, hE, fun e => absurd e hb, fun k hk => ?_, best_ext hbest (by omega) ?_⟩
        · have := hbound k hk; simp only; omega
        · intro k hk _ s hacc
          obtain ⟨q', h1, _⟩ := hacc
          rw [runs_none_mono (by omega) hnext] at h1
          simp at h1
      | some q =>
        rw [hr] at hnext
        simp only
        by_cases ha : m.accept q ≥ 0
        · rw [if_pos ha]
          refine ih stream buffer (pos + 1) q _ _ hR hE (by omega) (by omega) hnext ?_ (.inr hb)
          exact .inr ⟨pos + 1, by simp, by omega, by omega, ⟨q, hnext, rfl, ha⟩, fun k' h1 h2 => by omega⟩
        · rw [if_neg ha]
          refine ih stream buffer (pos + 1) q _ _ hR hE (by omega) (by omega) hnext (best_ext hbest (by omega) ?_) (.inr hb)
          intro k h1 h2 s hacc
          have : k = pos + 1 := by omega
          subst this
          obtain ⟨q', h3, h4, h5⟩ := hacc
          rw [hnext] at h3
          have := Option.some.inj h3
          subst this
          omega
    by_cases hpe : pos = buffer.length
    · have hfill : fill stream buffer pos = fill stream buffer pos := rfl
      conv at hfill => rhs; unfold fill; rw [if_pos hpe]
      cases stream with
      | nil =>
        simp only at hfill
        rw [hfill]
        simp only [if_true]
        have hRb : R = buffer := by rw [← hR]; simp
        refine ⟨_, rfl, by simpa using hR, by simp, fun e => ?_, fun k hk => ?_, ?_⟩
        · simp only at e; rw [hRb, e]
        · have := hbound k hk; simp only; omega
        · rw [hRb, ← hpe]; rw [← hRb]; exact hbest
      | cons x rest =>
        have hx : x ≠ endOfInput := fun e => hE (by simp [e])
        simp only [if_neg hx] at hfill
        rw [hfill]
        simp only [if_false, Bool.false_eq_true]
        exact step rest (buffer ++ [x]) (by rw [← hR]; simp) (fun h => hE (by simp [h])) (by simp; omega)
    · have hfill : fill stream buffer pos = (stream, buffer, false) := by simp only [fill, if_neg hpe]
      rw [hfill]
      simp only [if_false, Bool.false_eq_true]
      exact step stream buffer hR hE (by omega)

/-- What one call of `operator>>` does. -/
theorem next_spec (m : LexMachine) (st : LexStream) (hE : endOfInput ∉ st.stream) :
    ∃ r st', m.next st = some (r, st') ∧ endOfInput ∉ st'.stream ∧
      (r = none ∧ st.rest = [] ∧ st'.rest = [] ∨
       ∃ l, r = some l ∧ l.content ++ st'.rest = st.rest ∧ l.content ≠ [] ∧ l.pos = st.tracker.pos ∧
        st'.tracker = st.tracker.updateAll l.content ∧
        (m.Longest st.initial st.rest l.content l.matched ∨
          l.matched = -1 ∧ l.content.length = 1 ∧ ∀ w s, w ≠ [] → w <+: st.rest → ¬ m.Accepts st.initial w s) ∧
        st'.initial = if m.newline ≠ 0 ∧ (∃ x ∈ ([0x0a, 0x0b, 0x0c, 0x0d, 0x85, 0x2028, 0x2029] : List Int), l.content.getLast? = some x) then m.newline else 0) := by
  obtain ⟨sc, h1, h2, h3, h4, h5, h6⟩ := scanLoop_spec m st.initial st.rest (st.buffer.length + st.stream.length + 1) st.stream st.buffer 0
    st.initial (-1) (-1) rfl hE (by omega) (by simp [LexStream.rest]) rfl
    (.inl ⟨rfl, rfl, fun k _ _ => by omega⟩) (.inl rfl)
  simp only [next, h1]
  by_cases hb : sc.buffer = []
  · rw [if_pos hb]
    have hR := h4 hb
    refine ⟨_, _, rfl, h3, .inl ⟨rfl, hR, ?_⟩⟩
    simp only [LexStream.rest]
    rw [h2, hR]
  · rw [if_neg hb]
    have hblen : 1 ≤ sc.buffer.length := by
      cases hbb : sc.buffer with
      | nil => exact absurd hbb hb
      | cons => simp
    -- the accepted length
    obtain ⟨k, hk, hk1, hk2, hkm⟩ : ∃ k, k = (if sc.acceptPos ≤ 0 then 1 else sc.acceptPos.toNat) ∧ 1 ≤ k ∧ k ≤ sc.buffer.length ∧
        (m.Longest st.initial st.rest (st.rest.take k) sc.acceptSymbol ∨
          sc.acceptSymbol = -1 ∧ k = 1 ∧ ∀ w s, w ≠ [] → w <+: st.rest → ¬ m.Accepts st.initial w s) := by
      have hpre : ∀ w : List Int, w <+: st.rest → w = st.rest.take w.length ∧ w.length ≤ st.rest.length := by
        intro w hw
        exact ⟨List.prefix_iff_eq_take.1 hw, hw.length_le⟩
      rcases h6 with ⟨e1, e2, e3⟩ | ⟨k, e1, e2, e3, e4, e5⟩
      · refine ⟨1, by rw [if_pos (by omega)], by omega, hblen, .inr ⟨e2, rfl, fun w s hw hwp => ?_⟩⟩
        obtain ⟨p1, p2⟩ := hpre w hwp
        rw [p1]
        exact e3 _ (by have := List.length_pos_iff.2 hw; omega) p2 s
      · refine ⟨k, by rw [if_neg (by omega)]; omega, e2, h5 k e1, .inl ⟨?_, List.take_prefix k _, e4, ?_⟩⟩
        · intro e
          have := congrArg List.length e
          simp at this
          have hh : st.rest.length = 0 ↔ st.rest = [] := List.length_eq_zero_iff
          rcases this with h | h
          · omega
          · have := hh.2 h; omega
        · intro w' hw' hlt s'
          obtain ⟨p1, p2⟩ := hpre w' hw'
          rw [List.length_take] at hlt
          rw [p1]
          exact e5 _ (by omega) p2 s'
    rw [← hk, if_neg (by omega)]
    have htake : sc.buffer.take k = st.rest.take k := by
      rw [← h2, List.take_append_of_le_length hk2]
    have hlast : sc.buffer[k - 1]? = some sc.buffer[k - 1] := List.getElem?_eq_getElem (by omega)
    rw [hlast]
    have hgl : (sc.buffer.take k).getLast? = some sc.buffer[k - 1] := by
      rw [List.getLast?_eq_getElem?, List.length_take, Nat.min_eq_left hk2, List.getElem?_take]
      rw [if_pos (by omega)]
      exact hlast
    refine ⟨_, _, rfl, h3, .inr ⟨_, rfl, ?_, ?_, rfl, rfl, ?_, ?_⟩⟩
    · simp only [LexStream.rest]
      rw [← List.append_assoc, List.take_append_drop]
      exact h2
    · intro e
      have := congrArg List.length e
      rw [List.length_take, List.length_nil] at this
      omega
    · simp only
      rw [htake]
      rcases hkm with h | ⟨e1, e2, e3⟩
      · exact .inl h
      · refine .inr ⟨e1, ?_, e3⟩
        rw [← htake, List.length_take]
        omega
    · simp only [hgl]
      by_cases hn : m.newline ≠ 0
      · rw [if_pos hn]
        rw [show newlineChars = [0x0a, 0x0b, 0x0c, 0x0d, 0x85, 0x2028, 0x2029] from rfl]
        by_cases hc : ([0x0a, 0x0b, 0x0c, 0x0d, 0x85, 0x2028, 0x2029] : List Int).contains sc.buffer[k - 1] = true
        · rw [if_pos hc, if_pos ⟨hn, _, by simpa using hc, rfl⟩]
        · rw [if_neg hc, if_neg]
          rintro ⟨_, x, hx, he⟩
          have := Option.some.inj he
          subst this
          exact hc (by simpa using hx)
      · rw [if_neg hn, if_neg (fun h => hn h.1)]

/-- C16: every lexeme is the longest accepted non-empty prefix of the remaining input, tagged with the accept symbol of the
state it leads to; if there is none, it is one character tagged -1. -/
theorem lexing_longest_match (m : LexMachine) (st st' : LexStream) (l : Lexeme) (hE : endOfInput ∉ st.stream)
    (h : m.next st = some (some l, st')) :
    m.Longest st.initial st.rest l.content l.matched ∨
      l.matched = -1 ∧ l.content.length = 1 ∧ l.content <+: st.rest ∧
        ∀ w s, w ≠ [] → w <+: st.rest → ¬ m.Accepts st.initial w s := by
  obtain ⟨r, st'', h1, _, h3⟩ := next_spec m st hE
  rw [h] at h1
  have := Option.some.inj h1
  obtain ⟨rfl, rfl⟩ := Prod.mk.inj this
  rcases h3 with ⟨h, _⟩ | ⟨l', h, h4, _, _, _, h8, _⟩
  · simp at h
  · have := Option.some.inj h
    subst this
    rcases h8 with h8 | ⟨e1, e2, e3⟩
    · exact .inl h8
    · exact .inr ⟨e1, e2, ⟨_, h4⟩, e3⟩

/-- C16, the tag: the accept table gives the smallest symbol of the state's actions, -1 if it has none. -/
theorem accept_priority (as : List Action) :
    (as = [] ∧ fillAccept as = -1) ∨ (∃ a ∈ as, a.symbol = fillAccept as ∧ ∀ b ∈ as, fillAccept as ≤ b.symbol) := by
  cases as with
  | nil => exact .inl ⟨rfl, rfl⟩
  | cons a r =>
    right
    have key : ∀ (l : List Action) (h : Action), ∃ c, l.foldl (fun (highest : Action) b => if highest.symbol > b.symbol then b else highest) h = c ∧
        (c = h ∨ c ∈ l) ∧ c.symbol ≤ h.symbol ∧ ∀ b ∈ l, c.symbol ≤ b.symbol := by
      intro l
      induction l with
      | nil => intro h; exact ⟨h, rfl, .inl rfl, by omega, by simp⟩
      | cons b l ih =>
        intro h
        obtain ⟨c, h1, h2, h3, h4⟩ := ih (if h.symbol > b.symbol then b else h)
        have hle : (if h.symbol > b.symbol then b else h).symbol ≤ h.symbol ∧ (if h.symbol > b.symbol then b else h).symbol ≤ b.symbol := by
          split <;> constructor <;> omega
        refine ⟨c, h1, ?_, by omega, ?_⟩
        · rcases h2 with h2 | h2
          · rw [h2]
            split
            · right; simp
            · left; rfl
          · right; simp [h2]
        · intro d hd
          rcases List.mem_cons.1 hd with rfl | hd
          · omega
          · exact h4 d hd
    obtain ⟨c, h1, h2, _, h4⟩ := key (a :: r) a
    refine ⟨c, ?_, ?_, ?_⟩
    · rcases h2 with rfl | h2
      · simp
      · exact h2
    · simp only [fillAccept]; rw [h1]
    · intro b hb
      simp only [fillAccept]; rw [h1]; exact h4 b hb

theorem setInitial_rest (st : LexStream) (i : Option Nat) :
    (match i with | none => st | some q => st.setInitial q).rest = st.rest ∧
    (match i with | none => st | some q => st.setInitial q).stream = st.stream ∧
    (match i with | none => st | some q => st.setInitial q).tracker = st.tracker := by
  cases i <;> exact ⟨rfl, rfl, rfl⟩

theorem lexRun_spec {m : LexMachine} {st st' : LexStream} {ls : List Lexeme} (h : LexRun m st ls st') (hE : endOfInput ∉ st.stream) :
    (ls.map Lexeme.content).flatten ++ st'.rest = st.rest ∧ (∀ l ∈ ls, l.content ≠ []) ∧ endOfInput ∉ st'.stream ∧
    (∀ a l b, ls = a ++ l :: b → l.pos = (st.tracker.updateAll (a.map Lexeme.content).flatten).pos) := by
  induction h with
  | nil st => exact ⟨rfl, by simp, hE, by simp⟩
  | @cons st st1 st2 l ls i hn _ ih =>
    obtain ⟨e1, e2, e3⟩ := setInitial_rest st i
    obtain ⟨r, st'', h1, h2, h3⟩ := next_spec m _ (by rw [e2]; exact hE)
    rw [hn] at h1
    obtain ⟨rfl, rfl⟩ := Prod.mk.inj (Option.some.inj h1)
    rcases h3 with ⟨h, _⟩ | ⟨l', h, h4, h5, h6, h7, _, _⟩
    · simp at h
    · have := Option.some.inj h
      subst this
      obtain ⟨i1, i2, i3, i4⟩ := ih h2
      rw [e1] at h4
      rw [e3] at h6 h7
      refine ⟨?_, ?_, i3, ?_⟩
      · rw [List.map_cons, List.flatten_cons, List.append_assoc, i1, h4]
      · intro k hk
        rcases List.mem_cons.1 hk with rfl | hk
        · exact h5
        · exact i2 k hk
      · intro a k b hab
        cases a with
        | nil =>
          simp only [List.nil_append, List.cons.injEq] at hab
          rw [← hab.1, h6]; rfl
        | cons c a =>
          simp only [List.cons_append, List.cons.injEq] at hab
          obtain ⟨rfl, hab⟩ := hab
          rw [i4 a k b hab, h7, List.map_cons, List.flatten_cons, Tracker.updateAll_append]

/-- C15: whatever lexemes are read, and whatever initial states are chosen, their contents followed by the remaining input are
the input, and no lexeme is empty. -/
theorem lexing_lossless {m : LexMachine} {st st' : LexStream} {ls : List Lexeme} (h : LexRun m st ls st') (hE : endOfInput ∉ st.stream) :
    (ls.map Lexeme.content).flatten ++ st'.rest = st.rest ∧ (∀ l ∈ ls, l.content ≠ []) :=
  ⟨(lexRun_spec h hE).1, (lexRun_spec h hE).2.1⟩

/-- C15: reading lexemes always goes on to the end of the input, where NULL is returned; the lexemes read are the input. -/
theorem lexing_reaches_end (m : LexMachine) (st : LexStream) (hE : endOfInput ∉ st.stream) :
    ∃ ls st' st'', LexRun m st ls st' ∧ m.next st' = some (none, st'') ∧ (ls.map Lexeme.content).flatten = st.rest := by
  have : ∀ n (st : LexStream), st.rest.length ≤ n → endOfInput ∉ st.stream →
      ∃ ls st' st'', LexRun m st ls st' ∧ m.next st' = some (none, st'') ∧ (ls.map Lexeme.content).flatten = st.rest := by
    intro n
    induction n with
    | zero =>
      intro st hlen hE
      obtain ⟨r, st', h1, _, h3⟩ := next_spec m st hE
      have hr : st.rest = [] := List.length_eq_zero_iff.1 (by omega)
      rcases h3 with ⟨rfl, _⟩ | ⟨l, _, h4, h5, _⟩
      · exact ⟨[], st, st', .nil st, h1, by simp [hr]⟩
      · rw [hr] at h4
        exact absurd (List.append_eq_nil_iff.1 h4).1 h5
    | succ n ih =>
      intro st hlen hE
      obtain ⟨r, st', h1, h2, h3⟩ := next_spec m st hE
      rcases h3 with ⟨rfl, hr, _⟩ | ⟨l, rfl, h4, h5, _⟩
      · exact ⟨[], st, st', .nil st, h1, by simp [hr]⟩
      · have hl : st'.rest.length ≤ n := by
          have := congrArg List.length h4
          rw [List.length_append] at this
          have := List.length_pos_iff.2 h5
          omega
        obtain ⟨ls, st1, st2, i1, i2, i3⟩ := ih st' hl h2
        exact ⟨l :: ls, st1, st2, .cons none h1 i1, i2, by simp [i3, h4]⟩
  exact this _ st (Nat.le_refl _) hE

/-- C17: the position of a lexeme is the position a fresh tracker reaches on the input before it. -/
theorem lexeme_positions (m : LexMachine) (input : List Int) (q0 : Nat) (hE : endOfInput ∉ input) {ls : List Lexeme} {st' : LexStream}
    (h : LexRun m (LexStream.new input q0) ls st') (a : List Lexeme) (l : Lexeme) (b : List Lexeme) (hls : ls = a ++ l :: b) :
    ∃ before after, input = before ++ l.content ++ after ∧ l.pos = (Tracker.new.updateAll before).pos ∧
      before = (a.map Lexeme.content).flatten := by
  obtain ⟨h1, _, _, h4⟩ := lexRun_spec h hE
  refine ⟨_, (b.map Lexeme.content).flatten ++ st'.rest, ?_, h4 a l b hls, rfl⟩
  have : (LexStream.new input q0).rest = input := rfl
  rw [this, hls] at h1
  rw [← h1]
  simp

/-- A machine for `a+` (symbol 1) and `ab` (symbol 2): state 1 after `a`, 2 after `aa…`, 3 after `ab`. -/
def sample : LexMachine :=
  ⟨fun q x => if x = 97 then (if q = 0 then some 1 else if q = 1 ∨ q = 2 then some 2 else none)
      else if x = 98 ∧ q = 1 then some 3 else none,
   fun q => if q = 1 ∨ q = 2 then 1 else if q = 3 then 2 else -1, 0⟩

-- "aabab?" is split into "aa", "b" (an error), "ab", "?" (an error)
example : ∃ s4, LexRun sample (LexStream.new [97, 97, 98, 97, 98, 63] 0)
    [⟨[97, 97], ⟨0, 0, 0⟩, 1⟩, ⟨[98], ⟨2, 0, 2⟩, -1⟩, ⟨[97, 98], ⟨3, 0, 3⟩, 2⟩, ⟨[63], ⟨5, 0, 5⟩, -1⟩] s4 ∧
    sample.next s4 = some (none, s4) :=
  ⟨⟨[], ⟨⟨6, 0, 6⟩, false⟩, [], 0⟩, .cons none rfl (.cons none rfl (.cons none rfl (.cons none rfl (.nil _)))), rfl⟩

example : sample.Longest 0 [97, 97, 98] [97, 97] 1 := by
  refine ⟨by simp, ⟨[98], rfl⟩, ⟨2, rfl, rfl, by decide⟩, ?_⟩
  rintro w' ⟨t, ht⟩ hlen s' ⟨q, h1, _⟩
  have hl := congrArg List.length ht
  simp at hl hlen
  have : t = [] := List.length_eq_zero_iff.1 (by omega)
  subst this
  simp at ht
  subst ht
  simp [runs, sample] at h1

/-- C15 is violated for `char` streams: the byte 0xFD reads as `end_of_input`, so the lexer reports the end in the middle of the
input, for every machine; the byte is in no lexeme. -/
theorem lexing_lossless_char_violated (m : LexMachine) (q0 : Nat) :
    charSymbol 0xFD = endOfInput ∧
    ∃ st', m.next (LexStream.new ([0xFD, 0x61].map charSymbol) q0) = some (none, st') ∧ st'.stream = [0x61] := by
  refine ⟨by decide, ?_⟩
  have : ([0xFD, 0x61].map charSymbol) = [endOfInput, 0x61] := by decide
  rw [this]
  exact ⟨⟨[0x61], Tracker.new, [], q0⟩, by simp [next, LexStream.new, scanLoop, fill], rfl⟩

/-- The bytes below 0x80 are read as themselves, and no other byte than 0xFD reads as the end of the input. -/
theorem char_symbols (c : Fin 256) : (c.val < 128 → charSymbol c = c.val) ∧ (charSymbol c = endOfInput ↔ c.val = 0xFD) := by
  unfold charSymbol endOfInput
  have := c.isLt
  constructor
  · intro h; rw [if_pos h]
  · split <;> omega

/-- `character_lexer`: one lexeme for each symbol, tagged with it, at its position. -/
theorem character_lexer_correct (input : List Int) (t : Tracker) (hE : endOfInput ∉ input) :
    (∀ x rest, input = x :: rest → charLexNext (input, t) = (some ⟨[x], t.pos, x⟩, (rest, t.updateAll [x]))) ∧
    (input = [] → charLexNext (input, t) = (none, (input, t))) := by
  constructor
  · rintro x rest rfl
    have : x ≠ endOfInput := fun e => hE (by simp [e])
    simp [charLexNext, this, Tracker.updateAll]
  · rintro rfl
    rfl

example : charLexNext ([10, 97], Tracker.new) = (some ⟨[10], ⟨0, 0, 0⟩, 10⟩, ([97], ⟨⟨1, 1, 0⟩, false⟩)) := by decide

end LexMachine
end TameParse

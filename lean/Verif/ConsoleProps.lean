import Verif.Console
import Verif.ShowProps

/-!
# C101: what the messages of the console say
-/

namespace TameParse
namespace Console

open Show (decimal decimal_inj digit_ne split_sep)

/-! ### Which reports are written -/

/-- What goes to `wcerr`: all but messages and information, and no warnings if these are suppressed. -/
def Shown (o : Options) (r : Report) : Bool :=
  match r.sev with
  | .message | .info => false
  | .warning => !o.suppress
  | .detail | .error | .fatal | .bug => true

/-- What goes to `wcout`. -/
def Told (o : Options) (r : Report) : Bool :=
  match r.sev with
  | .message | .info => o.verbose && !o.suppress
  | _ => false

theorem report_eq (o : Options) (s : Out) (r : Report) : report o s r =
    ⟨s.err ++ (if Shown o r then message o.codes r else []), s.out ++ (if Told o r then message o.codes r else []), Tool.report o.suppress s.exit ⟨r.sev, String.ofList r.id⟩⟩ := by
  obtain ⟨sev, id, d, f, l, c⟩ := r
  obtain ⟨su, v, co⟩ := o
  obtain ⟨e, ou, x⟩ := s
  cases sev <;> cases su <;> cases v <;> simp [report, Shown, Told, Tool.report, Tool.Sev.code]

theorem foldl_eq (o : Options) (log : List Report) : ∀ s : Out, log.foldl (report o) s =
    ⟨s.err ++ (log.filter (Shown o)).flatMap (message o.codes), s.out ++ (log.filter (Told o)).flatMap (message o.codes),
      (log.map fun r => (⟨r.sev, String.ofList r.id⟩ : Tool.Report)).foldl (Tool.report o.suppress) s.exit⟩ := by
  induction log with
  | nil => intro s; simp
  | cons r log ih =>
    intro s
    rw [List.foldl_cons, ih, report_eq]
    cases h1 : Shown o r <;> cases h2 : Told o r <;> simp [h1, h2]

/-- C101. Each report that is not suppressed is written once, in the order of the reports; and the exit code is that of C78. -/
theorem run_eq (o : Options) (log : List Report) : (run o log).err = (log.filter (Shown o)).flatMap (message o.codes) ∧
    (run o log).out = (log.filter (Told o)).flatMap (message o.codes) ∧ (run o log).exit = Tool.exitCode o.suppress (log.map fun r => ⟨r.sev, String.ofList r.id⟩) := by
  unfold run
  rw [foldl_eq]
  exact ⟨by simp, by simp, rfl⟩

/-! ### What a message says -/

/-- No colon with a space after it. -/
def Whole (f : Text) : Prop := ∀ a b, f ≠ a ++ ':' :: ' ' :: b

theorem Whole.tail {c : Char} {f : Text} (h : Whole (c :: f)) : Whole f := fun a b e => h (c :: a) b (by rw [e]; rfl)

theorem split_first : ∀ (p q r s : Text), Whole p → Whole q → p ++ ':' :: ' ' :: r = q ++ ':' :: ' ' :: s → p = q ∧ r = s
  | [], [], r, s, _, _, h => ⟨rfl, by simpa using h⟩
  | [], [c], r, s, _, _, h => by simp at h
  | [], c :: d :: q, r, s, _, hq, h => by
    simp only [List.nil_append, List.cons_append, List.cons.injEq] at h
    obtain ⟨rfl, rfl, -⟩ := h
    exact absurd rfl (hq [] q)
  | [c], [], r, s, _, _, h => by simp at h
  | c :: d :: p, [], r, s, hp, _, h => by
    simp only [List.nil_append, List.cons_append, List.cons.injEq] at h
    obtain ⟨rfl, rfl, -⟩ := h
    exact absurd rfl (hp [] p)
  | c :: p, d :: q, r, s, hp, hq, h => by
    simp only [List.cons_append, List.cons.injEq] at h
    obtain ⟨h1, h2⟩ := split_first p q r s hp.tail hq.tail h.2
    exact ⟨by rw [h.1, h1], h2⟩

theorem Whole.append {f x : Text} (h : Whole f) (hx : ' ' ∉ x) : Whole (f ++ x) := by
  intro a b e
  rcases List.append_eq_append_iff.1 e with ⟨a', rfl, h2⟩ | ⟨c', rfl, h2⟩
  · exact hx (by rw [h2]; simp)
  · match c', h2 with
    | [], h2 => exact hx (by rw [List.nil_append] at h2; rw [← h2]; simp)
    | [c], h2 =>
      simp only [List.cons_append, List.nil_append, List.cons.injEq] at h2
      exact hx (by rw [← h2.2]; simp)
    | c :: d :: c', h2 =>
      simp only [List.cons_append, List.cons.injEq] at h2
      obtain ⟨rfl, rfl, -⟩ := h2
      exact h a c' rfl

/-- A line or a column without the colon. -/
def number (n : Int) : Text := if 0 ≤ n then decimal (n + 1) else []

theorem decimal_ne {n : Int} {c : Char} (h : c.isDigit = false) (hc : c ≠ '-') : c ∉ decimal n := by
  unfold decimal
  split
  · simp only [List.mem_cons, not_or]; exact ⟨hc, digit_ne h⟩
  · exact digit_ne h

theorem number_ne {n : Int} {c : Char} (h : c.isDigit = false) (hc : c ≠ '-') : c ∉ number n := by
  unfold number
  split
  · exact decimal_ne h hc
  · simp

theorem decimal_ne_nil (n : Int) : decimal n ≠ [] := by
  unfold decimal
  split
  · simp
  · exact Nat.toDigits_ne_nil

theorem number_inj {a b : Int} (h : number a = number b) : max a (-1) = max b (-1) := by
  unfold number at h
  split at h <;> split at h
  · have := decimal_inj h; omega
  · exact absurd h (decimal_ne_nil _)
  · exact absurd h.symm (decimal_ne_nil _)
  · omega

theorem place_eq (n : Int) : place n = number n ++ [':'] := by
  unfold place number
  split <;> rfl

/-- What follows the colons and a space. -/
def rest (codes : Bool) (r : Report) : Text :=
  ((severity r.sev).tail ++ ((if codes then [' ', '['] ++ r.id ++ [']'] else []) ++ ([' '] ++ r.description)))

theorem message_eq {codes : Bool} {r : Report} (hs : severity r.sev ≠ []) :
    message codes r = (r.filename ++ (':' :: number r.line ++ ':' :: number r.column)) ++ ':' :: ' ' :: rest codes r ++ ['\n'] := by
  obtain ⟨sev, id, d, f, l, c⟩ := r
  cases sev <;> first | exact absurd rfl hs | (cases f <;> simp [message, rest, severity, place_eq])

theorem rest_inj {codes : Bool} {r r' : Report} (hs : severity r.sev ≠ []) (hs' : severity r'.sev ≠ []) (hi : codes = true → ']' ∉ r.id ∧ ']' ∉ r'.id) (h : rest codes r = rest codes r') :
    r.sev = r'.sev ∧ (codes = true → r.id = r'.id) ∧ r.description = r'.description := by
  obtain ⟨sev, id, d, f, l, c⟩ := r
  obtain ⟨sev', id', d', f', l', c'⟩ := r'
  have key : sev = sev' := by
    cases sev <;> first | exact absurd rfl hs | (cases sev' <;> first | exact absurd rfl hs' | rfl | (simp [rest, severity] at h))
  subst key
  refine ⟨rfl, ?_⟩
  have h := List.append_cancel_left h
  cases codes with
  | false => exact ⟨(fun h => nomatch h), by simpa using h⟩
  | true =>
    have h : id ++ ']' :: (' ' :: d) = id' ++ ']' :: (' ' :: d') := by simpa using h
    obtain ⟨h1, h2⟩ := split_sep ']' _ _ _ _ (hi rfl).1 (hi rfl).2 h
    exact ⟨fun _ => h1, (List.cons.inj h2).2⟩

/-- The reports that go to `wcerr`. -/
def Serious (r : Report) : Prop := r.sev ≠ .message ∧ r.sev ≠ .info

theorem Serious.text {r : Report} (h : Serious r) : severity r.sev ≠ [] := by
  obtain ⟨sev, id, d, f, l, c⟩ := r
  cases sev <;> first | exact absurd rfl h.1 | exact absurd rfl h.2 | simp [severity]

/-- What a report says: all but the identifier, which is shown only if the option for it is set, and how far lines and columns are below zero. -/
def said (codes : Bool) (r : Report) : Text × Int × Int × Tool.Sev × Text × Text :=
  (r.filename, max r.line (-1), max r.column (-1), r.sev, if codes then r.id else [], r.description)

/-- What the text of a report must not have in it for it to be read again: a colon before a space in the name of the file, newlines, and a closing bracket in the identifier. -/
structure Legible (r : Report) : Prop where
  file : Whole r.filename
  id : ']' ∉ r.id
  lines : '\n' ∉ r.filename ∧ '\n' ∉ r.id ∧ '\n' ∉ r.description

theorem place_max {a b : Int} (h : max a (-1) = max b (-1)) : place a = place b := by
  unfold place
  by_cases ha : 0 ≤ a
  · rw [show a = b by omega]
  · rw [if_neg ha, if_neg (by omega)]

/-- The text of a warning, an error or a detail says which file, which line and column, which severity and what the description is. -/
theorem message_iff_partial {codes : Bool} {r r' : Report} (hs : Serious r) (hs' : Serious r') (hr : Legible r) (hr' : Legible r') :
    message codes r = message codes r' ↔ said codes r = said codes r' := by
  constructor
  · intro h
    rw [message_eq hs.text, message_eq hs'.text] at h
    have h := List.append_cancel_right h
    have hx : ∀ r : Report, ' ' ∉ (':' :: number r.line ++ ':' :: number r.column) := fun r => by
      simp only [List.mem_append, List.mem_cons, not_or]
      exact ⟨⟨by decide, number_ne rfl (by decide)⟩, by decide, number_ne rfl (by decide)⟩
    obtain ⟨h1, h2⟩ := split_first _ _ _ _ (hr.file.append (hx r)) (hr'.file.append (hx r')) h
    obtain ⟨h3, h4, h5⟩ := rest_inj hs.text hs'.text (fun _ => ⟨hr.id, hr'.id⟩) h2
    have hc : ∀ n : Int, ':' ∉ (number n).reverse := fun n => by rw [List.mem_reverse]; exact number_ne rfl (by decide)
    have h1 := congrArg List.reverse h1
    simp only [List.reverse_append, List.reverse_cons, List.append_assoc, List.cons_append, List.nil_append] at h1
    obtain ⟨e1, h1⟩ := split_sep ':' _ _ _ _ (hc _) (hc _) h1
    obtain ⟨e2, h1⟩ := split_sep ':' _ _ _ _ (hc _) (hc _) h1
    unfold said
    rw [List.reverse_inj.1 h1, number_inj (List.reverse_inj.1 e2), number_inj (List.reverse_inj.1 e1), h3, h5]
    cases codes with
    | false => rfl
    | true => rw [h4 rfl]
  · intro h
    simp only [said, Prod.mk.injEq] at h
    obtain ⟨h1, h2, h3, h4, h5, h6⟩ := h
    unfold message
    rw [h1, place_max h2, place_max h3, h4, h6]
    cases codes with
    | false => rfl
    | true => rw [show r.id = r'.id from h5]

theorem message_line {codes : Bool} {r : Report} (hs : Serious r) (h : Legible r) : ∃ b, message codes r = b ++ ['\n'] ∧ '\n' ∉ b := by
  refine ⟨_, message_eq hs.text, ?_⟩
  obtain ⟨h1, h2, h3⟩ := h.lines
  have hn : ∀ n, '\n' ∉ number n := fun n => number_ne rfl (by decide)
  have hv : '\n' ∉ (severity r.sev).tail := by
    cases r.sev <;> simp [severity]
  cases codes <;> simp [rest, h1, h2, h3, hn, hv]

theorem log_inj {codes : Bool} : ∀ l l' : List Report, (∀ r ∈ l, Serious r ∧ Legible r) → (∀ r ∈ l', Serious r ∧ Legible r) → l.flatMap (message codes) = l'.flatMap (message codes) →
    l.map (said codes) = l'.map (said codes)
  | [], [], _, _, _ => rfl
  | [], r :: l', _, h', h => by
    obtain ⟨b, hb, -⟩ := message_line (codes := codes) (h' r (by simp)).1 (h' r (by simp)).2
    simp [hb] at h
  | r :: l, [], h', _, h => by
    obtain ⟨b, hb, -⟩ := message_line (codes := codes) (h' r (by simp)).1 (h' r (by simp)).2
    simp [hb] at h
  | r :: l, r' :: l', h1, h2, h => by
    obtain ⟨b, hb, hn⟩ := message_line (codes := codes) (h1 r (by simp)).1 (h1 r (by simp)).2
    obtain ⟨b', hb', hn'⟩ := message_line (codes := codes) (h2 r' (by simp)).1 (h2 r' (by simp)).2
    rw [List.flatMap_cons, List.flatMap_cons, hb, hb', List.append_assoc, List.append_assoc] at h
    obtain ⟨e1, e2⟩ := split_sep '\n' _ _ _ _ hn hn' h
    have e3 : message codes r = message codes r' := by rw [hb, hb', e1]
    rw [List.map_cons, List.map_cons, (message_iff_partial (h1 r (by simp)).1 (h2 r' (by simp)).1 (h1 r (by simp)).2 (h2 r' (by simp)).2).1 e3,
      log_inj l l' (fun r hr => h1 r (List.mem_cons_of_mem _ hr)) (fun r hr => h2 r (List.mem_cons_of_mem _ hr)) e2]

theorem Shown.serious {o : Options} {r : Report} (h : Shown o r = true) : Serious r := by
  unfold Shown at h
  constructor <;> intro e <;> rw [e] at h <;> cases h

/-- From what is written to `wcerr` one can read all that the reports say that are not suppressed, in their order. -/
theorem err_read_partial {o : Options} {log log' : List Report} (h : ∀ r ∈ log, Legible r) (h' : ∀ r ∈ log', Legible r) (he : (run o log).err = (run o log').err) :
    (log.filter (Shown o)).map (said o.codes) = (log'.filter (Shown o)).map (said o.codes) := by
  rw [(run_eq o log).1, (run_eq o log').1] at he
  refine log_inj _ _ (fun r hr => ?_) (fun r hr => ?_) he
  · obtain ⟨h1, h2⟩ := List.mem_filter.1 hr
    exact ⟨Shown.serious h2, h r h1⟩
  · obtain ⟨h1, h2⟩ := List.mem_filter.1 hr
    exact ⟨Shown.serious h2, h' r h1⟩

/-- Nothing is written just if every report is suppressed; an error never is. -/
theorem err_empty (o : Options) (log : List Report) : (run o log).err = [] ↔ ∀ r ∈ log, r.sev = .message ∨ r.sev = .info ∨ (r.sev = .warning ∧ o.suppress = true) := by
  rw [(run_eq o log).1, List.flatMap_eq_nil_iff]
  have hm : ∀ r, message o.codes r ≠ [] := fun r => by simp [message]
  have hs : ∀ r : Report, Shown o r = false ↔ r.sev = .message ∨ r.sev = .info ∨ (r.sev = .warning ∧ o.suppress = true) := by
    rintro ⟨sev, id, d, f, l, c⟩
    cases sev <;> simp [Shown]
  constructor
  · intro h r hr
    refine (hs r).1 ?_
    cases e : Shown o r with
    | false => rfl
    | true => exact absurd (h r (List.mem_filter.2 ⟨hr, e⟩)) (hm r)
  · intro h r hr
    obtain ⟨h1, h2⟩ := List.mem_filter.1 hr
    rw [(hs r).2 (h r h1)] at h2
    cases h2

/-! ### What does not hold -/

/-- The details of a warning that is suppressed are written, as a comment says (std_console.cpp 72): they look like details of what was reported before. -/
theorem detail_violated {o : Options} (ho : o.suppress = true) {log ds : List Report} {w : Report} (hw : w.sev = .warning) (hd : ∀ d ∈ ds, d.sev = .detail) :
    (run o (log ++ w :: ds)).err = (run o log).err ++ ds.flatMap (message o.codes) := by
  rw [(run_eq ..).1, (run_eq ..).1, List.filter_append, List.flatMap_append, List.filter_cons_of_neg (by simp [Shown, hw, ho])]
  rw [List.filter_eq_self (l := ds) |>.2 (fun d h => by simp [Shown, hd d h])]

/-- A name of a file with a colon and a space can be taken for a name, a position, a severity and a description: each message is also that of an error in another file. -/
theorem file_violated {r : Report} (hs : Serious r) (id d : Text) : ∃ f, f ≠ r.filename ∧
    message false ⟨.error, id, d, f, -1, -1⟩ = message false { r with description := r.description ++ ([':', ':', ':', ' ', 'e', 'r', 'r', 'o', 'r', ':', ' '] ++ d) } := by
  refine ⟨(r.filename ++ (':' :: number r.line ++ ':' :: number r.column)) ++ ':' :: ' ' :: rest false r, ?_, ?_⟩
  · intro h
    have := congrArg List.length h
    simp at this
  · rw [message_eq (show severity Tool.Sev.error ≠ [] by simp [severity]), message_eq (r := { r with description := r.description ++ ([':', ':', ':', ' ', 'e', 'r', 'r', 'o', 'r', ':', ' '] ++ d) }) hs.text]
    simp [rest, severity, number]

/-- A message can look like an error, if the streams are not told apart. -/
theorem severity_violated (r : Report) :
    message false { r with sev := .message, description := ['e', 'r', 'r', 'o', 'r', ':', ' '] ++ r.description } = message false { r with sev := .error } := by
  simp [message, severity]

/-! ### An example -/

/-- An error at line 3, column 1 of `C:x`, with a detail after it. -/
def sample : List Report := [⟨.error, ['E'], ['n', 'o'], ['C', ':', 'x'], 2, 0⟩, ⟨.detail, ['D'], ['a', ':', ' ', 'b'], ['C', ':', 'x'], -1, -1⟩, ⟨.info, ['I'], ['i'], [], 0, 0⟩]

example : run ⟨false, true, true⟩ sample = ⟨['C', ':', 'x', ':', '3', ':', '1', ':', ' ', 'e', 'r', 'r', 'o', 'r', ':', ' ', '[', 'E', ']', ' ', 'n', 'o', '\n',
    'C', ':', 'x', ':', ':', ':', ' ', ' ', ' ', ' ', ' ', '[', 'D', ']', ' ', 'a', ':', ' ', 'b', '\n'], [':', '1', ':', '1', ':', ' ', '[', 'I', ']', ' ', 'i', '\n'], 4⟩ := by
  simp [run, sample, report, message, place, severity, Tool.Sev.code, Show.decimal, Nat.toDigits, Nat.toDigitsCore, Nat.digitChar]

/-- Names with drives can be read again. -/
example : ∀ r ∈ sample, Legible r := by
  have hw : Whole ['C', ':', 'x'] := by
    intro a b h
    have : ' ' ∈ ['C', ':', 'x'] := by rw [h]; simp
    exact absurd this (by decide)
  have hn : Whole [] := by
    intro a b h
    simp at h
  intro r hr
  simp only [sample, List.mem_cons, List.not_mem_nil, or_false] at hr
  rcases hr with rfl | rfl | rfl
  · exact ⟨hw, by decide, by decide⟩
  · exact ⟨hw, by decide, by decide⟩
  · exact ⟨hn, by decide, by decide⟩

end Console
end TameParse

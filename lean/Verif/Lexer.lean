import Verif.Position
import Verif.Ndfa
/-
Model of the lexer: symbol streams, `dfa_lexer_base` and its `dfa_stream`, and `character_lexer`.

Sources: /repo/TameParse/Dfa/basic_lexer.h 81-103 (`stream_stream`), 157-191 (accept table), 212-335 (`dfa_stream`),
character_lexer.cpp 42-58, lexeme.h 40-75.

Simplifications:
* a symbol stream is the list of symbols it has still to deliver; at the end it answers `end_of_input` for ever;
* the state machine is a function from state and symbol to the next state, `none` for a negative state
  (Verif/StateMachine.lean models the tables); the accept table is a function with values in `Int`;
* a NULL lexeme is `none` in the first component of a result. An access outside the buffer is the outcome `none` for the
  whole operation (proved not to happen).
-/
namespace TameParse

/-- `symbol_set::end_of_input` (symbol_set.h 60). -/
def endOfInput : Int := -3

/-- `lexeme` (lexeme.h 40-75). -/
structure Lexeme where
  content : List Int
  pos : Pos
  matched : Int
deriving DecidableEq, Repr

/-- What a `dfa_stream` is built on: `run_unsafe`, `m_Accept` and the template argument `newlineState`. -/
structure LexMachine where
  run : Nat → Int → Option Nat
  accept : Nat → Int
  newline : Nat

/-- The members of `dfa_stream` (basic_lexer.h 215-233): the symbols left in `m_Stream`, `m_Position`, `m_Buffer`,
`m_InitialState`. -/
structure LexStream where
  stream : List Int
  tracker : Tracker
  buffer : List Int
  initial : Nat

namespace LexStream

/-- The constructor (basic_lexer.h 239-244) with `firstState`. -/
def new (input : List Int) (firstState : Nat) : LexStream := ⟨input, Tracker.new, [], firstState⟩

/-- `set_initial_state` (basic_lexer.h 255-257). -/
def setInitial (st : LexStream) (q : Nat) : LexStream := { st with initial := q }

end LexStream

namespace LexMachine

/-- Reading a symbol into the buffer when the position is at its end (basic_lexer.h 270-283). The flag is `atEof`. -/
def fill (stream buffer : List Int) (pos : Nat) : List Int × List Int × Bool :=
  if pos = buffer.length then
    match stream with
    | [] => ([], buffer, true)
    | x :: rest => if x = endOfInput then (rest, buffer, true) else (rest, buffer ++ [x], false)
  else (stream, buffer, false)

/-- The variables of `operator>>` after its loop. -/
structure Scan where
  stream : List Int
  buffer : List Int
  acceptPos : Int
  acceptSymbol : Int

/-- The loop of `dfa_stream::operator>>` (basic_lexer.h 268-302). The first argument bounds the number of rounds. -/
def scanLoop (m : LexMachine) : Nat → List Int → List Int → Nat → Nat → Int → Int → Option Scan
  | 0, _, _, _, _, _, _ => none
  | fuel + 1, stream, buffer, pos, state, acceptPos, acceptSymbol =>
    let r := fill stream buffer pos
    if r.2.2 then some ⟨r.1, r.2.1, acceptPos, acceptSymbol⟩
    else
      match r.2.1[pos]? with
      | none => none
      | some cur =>
        match m.run state cur with
        | none => some ⟨r.1, r.2.1, acceptPos, acceptSymbol⟩
        | some q =>
          if m.accept q ≥ 0 then scanLoop m fuel r.1 r.2.1 (pos + 1) q ((pos : Int) + 1) (m.accept q)
          else scanLoop m fuel r.1 r.2.1 (pos + 1) q acceptPos acceptSymbol

/-- The newline characters tested at basic_lexer.h 321. -/
def newlineChars : List Int := [0x0a, 0x0b, 0x0c, 0x0d, 0x85, 0x2028, 0x2029]

/-- `dfa_stream::operator>>` (basic_lexer.h 260-334): the lexeme, or NULL, and the new state of the stream. -/
def next (m : LexMachine) (st : LexStream) : Option (Option Lexeme × LexStream) :=
  match m.scanLoop (st.buffer.length + st.stream.length + 1) st.stream st.buffer 0 st.initial (-1) (-1) with
  | none => none
  | some sc =>
    if sc.buffer = [] then some (none, { st with stream := sc.stream, buffer := sc.buffer })
    else
      let acceptPos : Nat := if sc.acceptPos ≤ 0 then 1 else sc.acceptPos.toNat
      if acceptPos > sc.buffer.length then none
      else
        let content := sc.buffer.take acceptPos
        match sc.buffer[acceptPos - 1]? with
        | none => none
        | some lastChar =>
          let initial := if m.newline ≠ 0 then (if newlineChars.contains lastChar then m.newline else 0) else 0
          some (some ⟨content, st.tracker.pos, sc.acceptSymbol⟩,
            ⟨sc.stream, st.tracker.updateAll content, sc.buffer.drop acceptPos, initial⟩)

end LexMachine

/-- `fill_accept` (basic_lexer.h 157-174) with `accept_action::operator<` (accept_action.cpp 67-69). -/
def fillAccept : List Action → Int
  | [] => -1
  | a :: r => ((a :: r).foldl (fun (highest : Action) b => if highest.symbol > b.symbol then b else highest) a).symbol

/-- `stream_stream::operator>>` (basic_lexer.h 92-102) for a stream of signed 8-bit `char`s (the default on the usual
platforms): the byte is sign-extended by the conversion to `unsigned` and back to `int`. -/
def charSymbol (c : Fin 256) : Int := if c.val < 128 then c.val else (c.val : Int) - 256

/-- `character_lexer::lstream::operator>>` (character_lexer.cpp 42-58). -/
def charLexNext (st : List Int × Tracker) : Option Lexeme × (List Int × Tracker) :=
  match st.1 with
  | [] => (none, st)
  | x :: rest => if x ≠ endOfInput then (some ⟨[x], st.2.pos, x⟩, (rest, st.2.update x)) else (none, (rest, st.2))

end TameParse

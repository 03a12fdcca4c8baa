/-
Model of `dfa::position` and `dfa::position_tracker`, and of `lexeme::final_pos`.

Sources: /repo/TameParse/Dfa/position.h 35-203, lexeme.cpp 64-70.

Simplification: the counters are `Nat` (the C++ `int`s do not overflow for texts below 2^31 characters).
-/
namespace TameParse

/-- `position` (position.h 35-123). -/
structure Pos where
  offset : Nat
  line : Nat
  column : Nat
deriving DecidableEq, Repr

namespace Pos

/-- `position()` (position.h 47-51). -/
def zero : Pos := ⟨0, 0, 0⟩

/-- `increment` (position.h 75-78). -/
def increment (p : Pos) : Pos := { p with offset := p.offset + 1, column := p.column + 1 }

/-- `increment_offset` (position.h 81-83). -/
def incrementOffset (p : Pos) : Pos := { p with offset := p.offset + 1 }

/-- `newline` (position.h 86-89). -/
def newline (p : Pos) : Pos := { p with column := 0, line := p.line + 1 }

/-- `operator<` (position.h 103-111). -/
def lt (a b : Pos) : Bool :=
  if a.line < b.line then true
  else if a.line > b.line then false
  else if a.column < b.column then true
  else if a.column > b.column then false
  else decide (a.offset < b.offset)

end Pos

/-- `position_tracker` (position.h 128-134). -/
structure Tracker where
  pos : Pos
  seenReturn : Bool
deriving DecidableEq, Repr

namespace Tracker

/-- `position_tracker()` (position.h 138-141). -/
def new : Tracker := ⟨Pos.zero, false⟩

/-- `position_tracker(const position&)` (position.h 146-149). -/
def ofPos (p : Pos) : Tracker := ⟨p, false⟩

/-- `update_position(int)` (position.h 161-196). -/
def update (t : Tracker) (x : Int) : Tracker :=
  if x = 0x0a then
    if !t.seenReturn then ⟨t.pos.increment.newline, false⟩ else ⟨t.pos.incrementOffset, false⟩
  else if x = 0x0d then ⟨t.pos.newline, true⟩
  else if x = 0x0b ∨ x = 0x0c ∨ x = 0x85 ∨ x = 0x2028 ∨ x = 0x2029 then ⟨t.pos.newline, false⟩
  else ⟨t.pos.increment, false⟩

/-- `update_position(begin, end)` (position.h 199-203). -/
def updateAll (t : Tracker) (w : List Int) : Tracker := w.foldl update t

end Tracker

/-- `lexeme::final_pos` (lexeme.cpp 64-70) of a lexeme at `p` with contents `w`. -/
def finalPos (p : Pos) (w : List Int) : Pos := ((Tracker.ofPos p).updateAll w).pos

end TameParse

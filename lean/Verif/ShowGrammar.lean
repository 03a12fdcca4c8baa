import Verif.Show

/-!
# C99: the text of a whole grammar

Source: /repo/TameParse/Language/formatter.cpp 199-227.

Simplification: `rules_for_nonterminal` (grammar.cpp 91-100) and `max_item_identifier` (grammar.h 127) are parameters; `endl` is the newline.
-/

namespace TameParse
namespace Show

/-- The rules of a nonterminal, a line each (formatter.cpp 218-222). -/
def showRules (N : Names) (rs : List (Item × List Item)) : Text := rs.flatMap fun r => showRule N r.1 r.2 (-1) ++ ['\n']

/-- The loop over the identifiers (formatter.cpp 207-223): `count` of them are left, `id` is the next; `added` is `addedNewline`. -/
def grammarFrom (N : Names) (rules : Nat → List (Item × List Item)) : Nat → Nat → Bool → Text
  | 0, _, _ => []
  | count + 1, id, added => (if added then [] else ['\n']) ++ (showRules N (rules id) ++ grammarFrom N rules count (id + 1) (rules id).isEmpty)

/-- `to_string(const grammar&, …)` (formatter.cpp 200-227). -/
def showGrammar (N : Names) (rules : Nat → List (Item × List Item)) (max : Nat) : Text := grammarFrom N rules max 0 true

end Show
end TameParse

import Verif.Spec.Grammar

/-!
# Specification: unfinished sources

What can still become of a source when more is written after it.
-/

namespace LatexAst.Spec

/-- The closing brackets. -/
def closers : List Char := ['}', ']', ')']

/-- The number of opening brackets in a source (escaped or not). -/
def openers (s : Str) : Nat := s.countP fun c => decide (c ∈ ['{', '[', '('])

end LatexAst.Spec

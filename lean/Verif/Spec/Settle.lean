import Verif.Model.Conv2

/-!
# Specification: printing and reading again, repeatedly
-/

namespace LatexAst.Spec

/-- The length of a source, round and square brackets counted twice. -/
def weight (s : Str) : Nat := s.length + s.countP (fun c => c ∈ ['(', ')', '[', ']'])

/-- `f`, repeated `n` times; `none` if it does not get that far. -/
def repeated (f : Str → Option Str) : Nat → Str → Option Str
  | 0, s => some s
  | n + 1, s => (repeated f n s).bind f

end LatexAst.Spec

namespace LatexAst.Ast1

/-- One round: read the source and print what has been read. `none` if the source is refused. -/
def tidy (s : Str) : Option Str :=
  match fromStr s with
  | .ok d => some (displayChunks d)
  | .error _ => none

end LatexAst.Ast1

namespace LatexAst.Ast2

/-- The same at stage 2. -/
def tidy (s : Str) : Option Str :=
  match fromStr s with
  | .ok d => some (displayChunks d)
  | .error _ => none

end LatexAst.Ast2

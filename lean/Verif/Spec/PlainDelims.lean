import Verif.Spec.Depth
import Verif.Spec.MathsRule

/-!
# Specification: maths delimiters without arguments
-/

namespace LatexAst.Ast2
open Spec

/-- No command `\(`, `\)`, `\[` or `\]`, at any level, has arguments. -/
def PlainDelims (cs : List Chunk) : Prop :=
  ∀ k lv, LevelAt cs k lv → ∀ l label args, Chunk.mk l (.command (.mk label args)) ∈ lv → Ast3.IsDelimiter label → args = []

end LatexAst.Ast2

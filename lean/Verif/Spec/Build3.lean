import Verif.Spec.Join3
import Verif.Spec.Calm

/-!
# Specification: what stage-3 documents may be built of
-/

namespace LatexAst.Ast3
open Spec

/-- The chunks can stand in a document that survives saving and loading: the document whose body is `\,` and these chunks survives. (After `\,`,
which takes no arguments, everything may stand that may stand anywhere.) -/
def InDocument (cs : List Chunk) : Prop := Survives { fragment [] with body := .mk 0 (.command (.mk chars!"," [])) :: cs }

/-- The arguments are as those of a command may be: there are only blanks between them, what is in them can stand in a document, and has, at stage 2,
no bracket of the same kind. -/
def GoodArgs (args : List (Str × Scope)) : Prop :=
  ∀ prec inner sv, (prec, Scope.mk inner sv) ∈ args → Blank prec ∧ InDocument inner ∧ Ast2.NoBracketOf sv (spelled inner)

/-- The name of an environment: read as a stage-1 document and printed it is the same, and has no curly brackets. -/
def GoodName (label : Str) : Prop :=
  ∃ lab, Ast1.fromStr label = .ok lab ∧ Ast1.displayChunks lab = label ∧ Ast1.NoGroupOf .curly lab ∧ Ast1.NoCloserOf .curly lab

end LatexAst.Ast3

import Verif.Props.Sharp
import Verif.Model.Conv3

/-!
# C77 at stages 2 and 3: what comments do there
-/

namespace LatexAst.Ast2
open Spec

theorem C77 (s : Str) : fromStr s = fromStr (keepBackslashes s) := by
  unfold fromStr
  rw [Ast1.C77 s]

theorem C77_none (s : Str) (h : NoBackslashInComments s) : fromStr s = fromStr (stripComments s) := by
  unfold fromStr
  rw [Ast1.C77_none s h]

end LatexAst.Ast2

namespace LatexAst.Ast3
open Spec

theorem C77 (s : Str) : fromStr s = fromStr (keepBackslashes s) := by
  unfold fromStr
  rw [Ast2.C77 s]

/-- Two sources that differ in comments only, none of which has a backslash, are the same document at stage 3, or are refused
alike. -/
theorem C77_none (s s' : Str) (h : NoBackslashInComments s) (h' : NoBackslashInComments s') (he : stripComments s = stripComments s') :
    fromStr s = fromStr s' := by
  unfold fromStr
  rw [Ast2.C77_none s h, Ast2.C77_none s' h', he]

/-- Two such sources. -/
example : NoBackslashInComments chars!"\\begin{document}%a}\n$x$\\end{document}" ∧ NoBackslashInComments chars!"\\begin{document}\n$x$\\end{document}%$" ∧
    stripComments chars!"\\begin{document}%a}\n$x$\\end{document}" = stripComments chars!"\\begin{document}\n$x$\\end{document}%$" := by
  refine ⟨by simp [NoBackslashInComments, NoBackslashInComment], by simp [NoBackslashInComments, NoBackslashInComment], by decide +kernel⟩

end LatexAst.Ast3

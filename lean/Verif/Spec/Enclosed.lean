import Verif.Spec.FinalBlanks
import Verif.Spec.LeadingBlanks

/-!
# Specification: enclosing a source in an environment
-/

namespace LatexAst.Spec

/-- The source `s` in an environment `x`, on lines of its own. -/
def enclosed (x s : Str) : Str := chars!"\\begin{" ++ (x ++ (chars!"}\n" ++ (s ++ (chars!"\n\\end{" ++ (x ++ chars!"}")))))

/-- A name for an environment. -/
def EnvironmentName (x : Str) : Prop := x ≠ [] ∧ Sanitised x ∧ '\n' ∉ x

/-- Put after a `\begin{x}`, the source adds no argument to it: apart from comments and blanks it does not begin with an opening
bracket, escaped or not, nor with an escaped blank. -/
def StartsClosed (s : Str) : Prop :=
  ∀ w c r, Blank w → keepBackslashes s = w ++ c :: r → isWhitespace c = false →
    c ∉ ['{', '[', '('] ∧ ∀ c' r', c = '\\' → r = c' :: r' → c' ∉ ['{', '[', '('] ∧ isWhitespace c' = false

end LatexAst.Spec

namespace LatexAst.Ast1
open Spec

/-- A line end before (`Led`) and after (`Blanked`). -/
def OnLines (d d' : List Chunk) : Prop := ∃ d1, Led ['\n'] d d1 ∧ Blanked ['\n'] d1 d'

end LatexAst.Ast1

namespace LatexAst.Ast2
open Spec

/-- A line end before (`Led`) and after (`Blanked`). -/
def OnLines (d d' : List Chunk) : Prop := ∃ d1, Led ['\n'] d d1 ∧ Blanked ['\n'] d1 d'

end LatexAst.Ast2

namespace LatexAst.Ast3
open Spec

/-- A line end before and after: at the beginning, only texts and paragraph breaks have changed, and print with the line end before
them; the rest is one line further down, and prints with the line end after it. -/
def OnLines (d d' : List Chunk) : Prop :=
  ∃ a a' rest, OnlyText a ∧ OnlyText a' ∧ displayChunks a' = '\n' :: displayChunks a ∧ d = a ++ rest ∧
    displayChunks d' = displayChunks (a' ++ moved 1 rest) ++ ['\n']

end LatexAst.Ast3

import Verif.Spec.WellFormed
import Verif.Model.Ast3

/-!
# Specification: blanks at the end of a source
-/

namespace LatexAst.Spec

/-- A line end followed by blanks. -/
def FinalBlanks (w : Str) : Prop := ∃ r, w = '\n' :: r ∧ Blank r

/-- The source does not end with a backslash that escapes what comes next. (A backslash in a comment at the end does so, too.) -/
def EndsClosed (s : Str) : Prop := NoDangling (keepBackslashes s)

end LatexAst.Spec

namespace LatexAst.Ast1
open Spec

/-- `Blanked w d d'`: the document `d'` is `d` with the blanks `w` at the end: the last text has become longer, or a new text holds
the blanks. (Blanks at the end after a letter command are numbered with the line on which they end.) -/
inductive Blanked (w : Str) : List Chunk → List Chunk → Prop
  /-- a new text -/
  | added {cs l} : (∀ init l' t, cs ≠ init ++ [.mk l' (.text t)]) → Blanked w cs (cs ++ [.mk l (.text w)])
  /-- the last text has become longer -/
  | longer {cs l t} : Blanked w (cs ++ [.mk l (.text t)]) (cs ++ [.mk l (.text (t ++ w))])
  /-- the blanks at the end have become longer -/
  | blanks {cs l k l'} : Blank k → Blanked w (cs ++ [.mk l (.text k)]) (cs ++ [.mk l' (.text (k ++ w))])

end LatexAst.Ast1

namespace LatexAst.Ast2
open Spec

/-- The same at stage 2. -/
inductive Blanked (w : Str) : List Chunk → List Chunk → Prop
  /-- a new text -/
  | added {cs l} : (∀ init l' t, cs ≠ init ++ [.mk l' (.text t)]) → Blanked w cs (cs ++ [.mk l (.text w)])
  /-- the last text has become longer -/
  | longer {cs l t} : Blanked w (cs ++ [.mk l (.text t)]) (cs ++ [.mk l (.text (t ++ w))])
  /-- the blanks at the end have become longer -/
  | blanks {cs l k l'} : Blank k → Blanked w (cs ++ [.mk l (.text k)]) (cs ++ [.mk l' (.text (k ++ w))])

end LatexAst.Ast2

namespace LatexAst.Ast3
open Spec

/-- At stage 3: the text of the last section (the preamble, if there is no document environment) has got the blanks at its end, and
nothing else has changed. -/
def Blanked (w : Str) (d d' : Document) : Prop :=
  ∃ cs, (d' = { d with preamable := cs } ∧ displayChunks cs = displayChunks d.preamable ++ w) ∨
    (d' = { d with trailing := cs } ∧ displayChunks cs = displayChunks d.trailing ++ w)

end LatexAst.Ast3

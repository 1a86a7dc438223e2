import Verif.Spec.Atoms
import Verif.Spec.Written
import Verif.Spec.Nesting

/-!
# Specification: stage-2 documents that can go to stage 1 and back
-/

namespace LatexAst.Ast2

/-- There is no `\begin` or `\end` command in the document, at any depth. -/
def NoBeginOrEnd (e : Document) : Prop :=
  ∀ label args, Within e (.command (.mk label args)) → label ≠ chars!"begin" ∧ label ≠ chars!"end"

/-- The labels of all environments, read as source text, print as themselves. -/
def LabelsReadable (e : Document) : Prop :=
  ∀ label args content pb pe, Within e (.environment (.mk label args content pb pe)) → ReadableLabel label

/-- No text follows a text, at any depth. -/
def TextsApart (e : Document) : Prop :=
  ∀ lv, Level e lv → ∀ pre l t l' t' post, lv ≠ pre ++ .mk l (.text t) :: .mk l' (.text t') :: post

/-- In every environment, everything is below the lines that its `\begin` is printed on. -/
def BelowBegin (e : Document) : Prop :=
  ∀ label args content pb pe, Within e (.environment (.mk label args content pb pe)) →
    ∀ c ∈ content, (pb ++ label ++ displayArgs args).count '\n' < c.lineNo

end LatexAst.Ast2

import Verif.Spec.Again3

/-!
# Specification: a stage-3 document going to stage 2 and back
-/

namespace LatexAst.Ast3
open Spec

/-- No text follows a text. -/
def Apart (xs : List Ast2.Chunk) : Prop := ∀ a l t l' t' b, xs ≠ a ++ .mk l (.text t) :: .mk l' (.text t') :: b

/-- What follows the document environment is one text, cut up; or at stage 2 no text follows a text in it. (Of what follows the
document environment, and only of that, texts that come to stand next to each other are put together on the way.) -/
def Document.Trails (f : Document) : Prop :=
  (Cut false (f.trailing.map Chunk.variant) ∧ '$' ∉ displayChunks f.trailing) ∨ ∀ xs, Unfolds f.trailing xs → Apart xs

/-- The class and the options are those that the `\documentclass` commands in the preamble name. -/
def Document.Named (f : Document) : Prop :=
  f.documentclass = (classNames (classArgs (Ast3.spelled f.preamable))).head? ∧
    ReadsLists (optionLists (classArgs (Ast3.spelled f.preamable))) f.documentoptions

/-- `P` holds of the preamble, of each argument of the document environment, of the body, and of what follows. -/
def Document.Sections (P : List Chunk → Prop) (f : Document) : Prop :=
  P f.preamable ∧ (∀ x ∈ f.bodyArgs, P x.2.chunks) ∧ P f.body ∧ P f.trailing

end LatexAst.Ast3

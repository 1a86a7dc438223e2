import Verif.Spec.Tree

/-!
# Specification: what it means for a document to be valid

Declarative counterparts of the `Validate` implementations (they mention neither the traversal order
nor the early exits).
-/

namespace LatexAst

/-- Two newlines with nothing but whitespace between them. -/
def Spec.ParagraphGap (s : Str) : Prop :=
  ∃ a w b, s = a ++ '\n' :: (w ++ '\n' :: b) ∧ Spec.Blank w

namespace Ast1
/-- The node itself respects the documented rule: no special character in a text, nor in a label
unless the label is one byte long (`\%`, `\{`, ...). -/
def NodeOk : ChunkVariant → Prop
  | .text s => Spec.Sanitised s
  | .command (.mk label _) => Spec.utf8Length label ≠ 1 → Spec.Sanitised label
  | .scope _ => True

/-- Every chunk's line number is `n` plus the number of newlines printed before it. -/
def NumberedFrom (n : Nat) (d : List Chunk) : Prop :=
  ∀ pre c post, d = pre ++ c :: post → c.lineNo = n + (displayChunks pre).count '\n'

/-- A valid stage-1 document. -/
def Valid (d : Document) : Prop := NumberedFrom 1 d ∧ ∀ v, Within d v → NodeOk v
end Ast1

namespace Ast2
/-- As in stage 1; moreover `\begin` and `\end` may not be plain commands, and an environment's label
has no special character. -/
def NodeOk : ChunkVariant → Prop
  | .text s => Spec.Sanitised s
  | .command (.mk label _) => label ≠ chars!"begin" ∧ label ≠ chars!"end" ∧
      (Spec.utf8Length label ≠ 1 → Spec.Sanitised label)
  | .scope _ => True
  | .environment (.mk label _ _ _ _) => Spec.Sanitised label

/-- Every chunk's line number is `n` plus the number of newlines printed before it. -/
def NumberedFrom (n : Nat) (d : List Chunk) : Prop :=
  ∀ pre c post, d = pre ++ c :: post → c.lineNo = n + (displayChunks pre).count '\n'

/-- A valid stage-2 document. -/
def Valid (d : Document) : Prop := NumberedFrom 1 d ∧ ∀ v, Within d v → NodeOk v
end Ast2

namespace Ast3
/-- As in stage 2; moreover a text contains no paragraph gap and a paragraph break is whitespace with
at least two newlines. -/
def NodeOk : ChunkVariant → Prop
  | .text s => Spec.Sanitised s ∧ ¬ Spec.ParagraphGap s
  | .paragraphBreak s => Spec.Blank s ∧ 2 ≤ s.count '\n'
  | .command (.mk label _) => label ≠ chars!"begin" ∧ label ≠ chars!"end" ∧
      (Spec.utf8Length label ≠ 1 → Spec.Sanitised label)
  | .scope _ => True
  | .environment (.mk label _ _ _ _) => Spec.Sanitised label
  | .mathsBlock _ => True

/-- Every chunk's line number is `n` plus the number of newlines printed before it. -/
def NumberedFrom (n : Nat) (d : List Chunk) : Prop :=
  ∀ pre c post, d = pre ++ c :: post → c.lineNo = n + (displayChunks pre).count '\n'

/-- A valid section (preamable, body or trailing) of a stage-3 document. -/
def ValidSection (d : List Chunk) : Prop := NumberedFrom 1 d ∧ ∀ v, Within d v → NodeOk v
end Ast3

end LatexAst

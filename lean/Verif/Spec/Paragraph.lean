import Verif.Spec.Valid

/-!
# Specification: splitting a text into paragraphs
-/

namespace LatexAst.Ast3
open Spec

/-- A paragraph break as it is cut out of a text: it starts at a newline, is blank, and contains at least
two newlines. -/
def IsBreak (b : Str) : Prop := (∃ r, b = '\n' :: r) ∧ Blank b ∧ 2 ≤ b.count '\n'

/-- A piece of text between breaks. -/
def IsParagraph (t : Str) : Prop := t ≠ [] ∧ ¬ ParagraphGap t

/-- The string ends in blanks that contain a newline. -/
def EndsInNewline (t : Str) : Prop := ∃ a w, t = a ++ '\n' :: w ∧ Blank w

/-- The string starts with a character that is not whitespace. -/
def StartsDark (t : Str) : Prop := ∃ c r, t = c :: r ∧ isWhitespace c = false

/-- A text cut into paragraphs: texts and breaks alternate, a text after a break starts with a
character that is not whitespace, and a text before a break does not end in a newline and blanks (so breaks
are as long as they can be). The first argument says whether a break precedes. -/
inductive Cut : Bool → List ChunkVariant → Prop
  | nil {b} : Cut b []
  | last {b t} : IsParagraph t → (b = true → StartsDark t) → Cut b [.text t]
  | text {b t s r} : IsParagraph t → (b = true → StartsDark t) → ¬ EndsInNewline t → IsBreak s →
      Cut true r → Cut b (.text t :: .paragraphBreak s :: r)
  | break {s r} : IsBreak s → Cut true r → Cut false (.paragraphBreak s :: r)

end LatexAst.Ast3

namespace LatexAst.Ast3

/-- How many lines too low a break is numbered: none, if it has two newlines. -/
def breakDelay (b : Str) : Nat := if 3 ≤ b.count '\n' then b.count '\n' - 1 else 0

/-- The pieces of a text that starts on line `n`, numbered: each by the line on which it starts, except for the
delay of long breaks. -/
inductive PiecesFrom : Nat → List Chunk → Prop
  | nil {n} : PiecesFrom n []
  | text {n t r} : PiecesFrom (n + t.count '\n') r → PiecesFrom n (.mk n (.text t) :: r)
  | break {n b r} : PiecesFrom (n + b.count '\n') r → PiecesFrom n (.mk (n + breakDelay b) (.paragraphBreak b) :: r)

/-- `Split cs out`: `out` is `cs` with every text cut into paragraphs. -/
inductive Split : List Chunk → List Chunk → Prop
  | nil : Split [] []
  | text {n t cs pieces out} : Cut false (pieces.map Chunk.variant) → displayChunks pieces = t → PiecesFrom n pieces →
      Split cs out → Split (.mk n (.text t) :: cs) (pieces ++ out)
  | other {c cs out} : (∀ t, c.variant ≠ .text t) → Split cs out → Split (c :: cs) (c :: out)

end LatexAst.Ast3

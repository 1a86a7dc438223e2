import Verif.Spec.Settle
import Verif.Spec.DocumentRule

/-!
# Specification: dollar signs slide to the right, delimiters of brackets are dropped
-/

namespace LatexAst.Spec

/-- One small change of a text. -/
inductive Slide : Str → Str → Prop
  /-- a character that is no dollar sign moves from somewhere behind a dollar sign to right before it -/
  | moved {c u x v} : c ≠ '$' → Slide (u ++ '$' :: (x ++ c :: v)) (u ++ c :: '$' :: (x ++ v))
  /-- one of `\(`, `\)`, `\[`, `\]` is dropped -/
  | dropped {d u v} : d ∈ ['(', ')', '[', ']'] → Slide (u ++ '\\' :: d :: v) (u ++ v)

/-- Any number of small changes. -/
inductive Slides : Str → Str → Prop
  | none {s} : Slides s s
  | one {s t r} : Slide s t → Slides t r → Slides s r

/-- The positions of the dollar signs added up, the first position being `n`. -/
def farness : Nat → Str → Nat
  | _, [] => 0
  | n, c :: s => (if c = '$' then n else 0) + farness (n + 1) s

/-- `t` is lighter than `s`, or as heavy with its dollar signs further to the right. -/
def Ahead (t s : Str) : Prop := weight t < weight s ∨ (weight t = weight s ∧ farness 0 s < farness 0 t)

end LatexAst.Spec

namespace LatexAst.Ast3

/-- The text of the sections of a stage-2 document: what precedes the first document environment, the last document
environment with the blanks of its `\begin` after its `\end` too (an empty one if there is none), and what follows the
first one apart from document environments. -/
def sectionsText (e : List Ast2.Chunk) : Str :=
  Ast2.displayChunks (preambleOf e) ++
  (match (bodiesOf e).getLast? with
    | some (.mk _ (.environment (.mk _ args content blanks _))) =>
      chars!"\\begin" ++ blanks ++ chars!"{document}" ++ Ast2.displayArgs args ++ Ast2.displayChunks content ++
        chars!"\\end" ++ blanks ++ chars!"{document}"
    | _ => chars!"\\begin{document}\\end{document}") ++
  Ast2.displayChunks (trailingOf e)

/-- One round: read the source and print what has been read. `none` if the source is refused. -/
def tidy (s : Str) : Option Str :=
  match fromStr s with
  | .ok d => some d.display
  | .error _ => none

/-- The source has one document environment, and there are the same blanks after its `\begin` as after its `\end`. -/
def Steady (s : Str) : Prop :=
  ∀ e, Ast2.fromStr s = .ok e → ∃ pre l args content blanks post,
    e = pre ++ .mk l (.environment (.mk chars!"document" args content blanks blanks)) :: post ∧
    ∀ c ∈ pre ++ post, isBody c = false

end LatexAst.Ast3

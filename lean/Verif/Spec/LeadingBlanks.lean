import Verif.Spec.Grammar
import Verif.Spec.Moved
import Verif.Spec.Conversion

/-!
# Specification: blanks at the beginning of a source
-/

namespace LatexAst.Ast1
open Spec

/-- `Led w d d'`: the document `d'` is `d` with the blanks `w` before it: the first text has become longer, or a new text holds the
blanks; all the rest is as many lines further down as `w` has line ends. -/
inductive Led (w : Str) : List Chunk → List Chunk → Prop
  /-- a new text -/
  | added {cs} : (∀ l t r, cs ≠ .mk l (.text t) :: r) → Led w cs (.mk 1 (.text w) :: cs.map (Chunk.shift (w.count '\n')))
  /-- the first text has become longer -/
  | longer {t cs} : Led w (.mk 1 (.text t) :: cs) (.mk 1 (.text (w ++ t)) :: cs.map (Chunk.shift (w.count '\n')))

end LatexAst.Ast1

namespace LatexAst.Ast2
open Spec

/-- The same at stage 2. -/
inductive Led (w : Str) : List Chunk → List Chunk → Prop
  /-- a new text -/
  | added {cs} : (∀ l t r, cs ≠ .mk l (.text t) :: r) → Led w cs (.mk 1 (.text w) :: cs.map (Chunk.shift (w.count '\n')))
  /-- the first text has become longer -/
  | longer {t cs} : Led w (.mk 1 (.text t) :: cs) (.mk 1 (.text (w ++ t)) :: cs.map (Chunk.shift (w.count '\n')))

end LatexAst.Ast2

namespace LatexAst

/-- The same failure, `k` lines further down, or on the same line (stages 2 and 3 report some problems on a line counted from inside
the document). -/
inductive SameOrDown (k : Nat) : Fail → Fail → Prop
  | same {f} : SameOrDown k f f
  | down {l t} : SameOrDown k (.err ⟨l, t⟩) (.err ⟨l + k, t⟩)

end LatexAst

namespace LatexAst.Ast3
open Spec

/-- Only texts and paragraph breaks. -/
def OnlyText (cs : List Chunk) : Prop := ∀ l v, .mk l v ∈ cs → (∃ t, v = .text t) ∨ ∃ t, v = .paragraphBreak t

/-- At stage 3: the texts and paragraph breaks at the beginning of the preamble print with the blanks before them; the rest of the
preamble and what follows the document environment is further down; nothing else has changed. -/
def Led (w : Str) (d d' : Document) : Prop :=
  ∃ a a' rest, OnlyText a ∧ OnlyText a' ∧ displayChunks a' = w ++ displayChunks a ∧ d.preamable = a ++ rest ∧
    d' = { d with preamable := a' ++ moved (w.count '\n') rest, trailing := moved (w.count '\n') d.trailing }

end LatexAst.Ast3

import Verif.Spec.KeepsText
import Verif.Spec.Paragraph
import Verif.Spec.Lines

/-!
# Specification: on which line a stage-3 chunk is

`Stands cs at c`: the stage-3 chunk `c`, which begins right after the characters `at` of the printed stage-2 chunks `cs`, has the
line number that it should have, and is what it should be at this place.
-/

namespace LatexAst.Ast3
open Spec

/-- What a stage-2 scope, command or environment becomes: the same, with other contents; or, if it is `\(` or `\[`, bracket maths. -/
def TurnsInto : Ast2.ChunkVariant → ChunkVariant → Prop
  | .scope (.mk _ sv), .scope (.mk _ sv') => sv' = sv
  | .command (.mk label _), .command (.mk label' _) => label' = label
  | .command (.mk label _), .mathsBlock (.mk .brackets k _) => label = openLabel k
  | .environment (.mk label args _ pb pe), .environment (.mk label' args' _ pb' pe') =>
    label' = label ∧ displayArgs args' = Ast2.displayArgs args ∧ pb' = pb ∧ pe' = pe
  | _, _ => False

/-- The line of a chunk that begins after `at`. -/
inductive Stands (cs : List Ast2.Chunk) : Str → Chunk → Prop
  /-- a scope, command, environment or bracket maths keeps the line of the stage-2 chunk -/
  | node {pre l v post w} : cs = pre ++ .mk l v :: post → TurnsInto v w → Stands cs (Ast2.displayChunks pre) (.mk l w)
  /-- a piece of a text is on the line of the text, plus the newlines before the piece -/
  | text {pre l x t y post} : cs = pre ++ .mk l (.text (x ++ (t ++ y))) :: post → t ≠ [] →
      Stands cs (Ast2.displayChunks pre ++ x) (.mk (l + x.count '\n') (.text t))
  /-- a paragraph break too, but one with three or more newlines is numbered with its last line but one -/
  | break {pre l x b y post} : cs = pre ++ .mk l (.text (x ++ (b ++ y))) :: post → b ≠ [] →
      Stands cs (Ast2.displayChunks pre ++ x) (.mk (l + x.count '\n' + breakDelay b) (.paragraphBreak b))
  /-- and so is a dollar formula inside one text -/
  | formula {pre l x y post k content} :
      cs = pre ++ .mk l (.text (x ++ ((ChunkVariant.mathsBlock (.mk .dollars k content)).display ++ y))) :: post →
      Stands cs (Ast2.displayChunks pre ++ x) (.mk (l + x.count '\n') (.mathsBlock (.mk .dollars k content)))
  /-- but a dollar formula that begins in an earlier chunk has the line of the text in which it is closed -/
  | across {pre l x y post at' k content} : cs = pre ++ .mk l (.text (x ++ '$' :: y)) :: post →
      at'.length < (Ast2.displayChunks pre).length →
      at' ++ (ChunkVariant.mathsBlock (.mk .dollars k content)).display = Ast2.displayChunks pre ++ (x ++ ['$']) →
      Stands cs at' (.mk l (.mathsBlock (.mk .dollars k content)))

/-- How many lines too low a chunk is numbered, when its source is parsed (a dollar formula apart). -/
def delay : ChunkVariant → Nat
  | .paragraphBreak b => breakDelay b
  | .command (.mk label _) => if label = ['\n'] then 1 else 0
  | .environment (.mk label args _ pb _) => (pb ++ label ++ displayArgs args).count '\n'
  | _ => 0

/-- The stage-2 chunks end with a blank text with a newline, after a letter command or an environment (see C84: such a text is numbered
with its last line). -/
def FinalBlank (cs : List Ast2.Chunk) : Prop :=
  ∃ init l t, cs = init ++ [.mk l (.text t)] ∧ Blank t ∧ Ast2.EndsWithCommand init ∧ '\n' ∈ t

end LatexAst.Ast3

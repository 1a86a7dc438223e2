import Verif.Spec.Load3

/-!
# Specification: formulas whose lines can be counted
-/

namespace LatexAst.Ast2

/-- By how many lines stage 2 numbers a chunk (other than a text) later than where it begins (C84): one for the command `\`+newline, and for an
environment as many as there are newlines up to the end of its arguments. -/
def ChunkVariant.late : ChunkVariant → Nat
  | .command (.mk label _) => if label = ['\n'] then 1 else 0
  | .environment (.mk label args _ pb _) => (pb ++ label ++ displayArgs args).count '\n'
  | _ => 0

/-- The chunks that are not texts. -/
def nodesOnly : List Chunk → List Chunk
  | [] => []
  | .mk _ (.text _) :: cs => nodesOnly cs
  | c :: cs => c :: nodesOnly cs

/-- From each of the chunks to the end there is at most one newline, apart from those by which the chunk is numbered late. -/
def ShortFrom (cs : List Chunk) : Prop :=
  ∀ pre c post, cs = pre ++ c :: post → (displayChunks (c :: post)).count '\n' ≤ c.variant.late + 1

end LatexAst.Ast2

namespace LatexAst.Ast3

/-- In every formula in dollar signs, at any depth, there is at most one newline from each command, scope or environment directly in it
to the last of them (apart from those by which stage 2 numbers it late). -/
def Calm (cs : List Chunk) : Prop :=
  ∀ k content, Within cs (.mathsBlock (.mk .dollars k content)) → Ast2.ShortFrom (Ast2.nodesOnly (spelled content))

/-- The same for a document. -/
def Document.Calm (f : Document) : Prop :=
  Ast3.Calm f.preamable ∧ (∀ x ∈ f.bodyArgs, Ast3.Calm x.2.chunks) ∧ Ast3.Calm f.body ∧ Ast3.Calm f.trailing

end LatexAst.Ast3

import Verif.Model.Ast3

/-!
# Specification: stage-3 chunks, further down

The content of a scope, an argument, an environment or a dollar formula is numbered on its own; the content of
bracket maths is numbered with its surroundings. So moving chunks down moves the content of bracket maths along.
-/

namespace LatexAst.Ast3

mutual
/-- The chunk, `k` lines further down. -/
def Chunk.moved (k : Nat) : Chunk → Chunk
  | .mk l v => .mk (l + k) (v.moved k)
/-- See above. -/
def ChunkVariant.moved (k : Nat) : ChunkVariant → ChunkVariant
  | .mathsBlock m => .mathsBlock (m.moved k)
  | .text t => .text t
  | .paragraphBreak t => .paragraphBreak t
  | .command c => .command c
  | .scope s => .scope s
  | .environment e => .environment e
/-- See above. -/
def MathsBlock.moved (k : Nat) : MathsBlock → MathsBlock
  | .mk .brackets t content => .mk .brackets t (moved k content)
  | .mk .dollars t content => .mk .dollars t content
/-- The chunks, `k` lines further down. -/
def moved (k : Nat) : List Chunk → List Chunk
  | [] => []
  | c :: cs => c.moved k :: moved k cs
end

/-- The line of the last bracket maths (`\( .. \)` or `\[ .. \]`) of the sequence; `b` if there is none. -/
def lastBracket (b : Nat) : List Chunk → Nat
  | [] => b
  | .mk l (.mathsBlock (.mk .brackets _ _)) :: cs => lastBracket l cs
  | _ :: cs => lastBracket b cs

end LatexAst.Ast3

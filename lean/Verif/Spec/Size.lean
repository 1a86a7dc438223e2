import Verif.Model.Ast3

/-!
# Specification: the number of nodes of a syntax tree

Every chunk and every argument is a node.
-/

namespace LatexAst.Ast1
mutual
/-- The nodes of a chunk. -/
def Chunk.nodes : Chunk → Nat
  | .mk _ (.text _) => 1
  | .mk _ (.command (.mk _ args)) => 1 + argNodes args
  | .mk _ (.scope (.mk inner _)) => 1 + nodes inner
/-- The nodes of a sequence of chunks. -/
def nodes : List Chunk → Nat
  | [] => 0
  | c :: cs => c.nodes + nodes cs
/-- The nodes of a list of arguments. -/
def argNodes : List (Str × Scope) → Nat
  | [] => 0
  | (_, .mk inner _) :: r => 1 + nodes inner + argNodes r
end
end LatexAst.Ast1

namespace LatexAst.Ast2
mutual
/-- The nodes of a chunk. -/
def Chunk.nodes : Chunk → Nat
  | .mk _ (.text _) => 1
  | .mk _ (.command (.mk _ args)) => 1 + argNodes args
  | .mk _ (.scope (.mk inner _)) => 1 + nodes inner
  | .mk _ (.environment (.mk _ args content _ _)) => 1 + argNodes args + nodes content
/-- The nodes of a sequence of chunks. -/
def nodes : List Chunk → Nat
  | [] => 0
  | c :: cs => c.nodes + nodes cs
/-- The nodes of a list of arguments. -/
def argNodes : List (Str × Scope) → Nat
  | [] => 0
  | (_, .mk inner _) :: r => 1 + nodes inner + argNodes r
end
end LatexAst.Ast2

namespace LatexAst.Ast3
mutual
/-- The nodes of a chunk. -/
def Chunk.nodes : Chunk → Nat
  | .mk _ (.text _) => 1
  | .mk _ (.paragraphBreak _) => 1
  | .mk _ (.mathsBlock (.mk _ _ content)) => 1 + nodes content
  | .mk _ (.command (.mk _ args)) => 1 + argNodes args
  | .mk _ (.scope (.mk inner _)) => 1 + nodes inner
  | .mk _ (.environment (.mk _ args content _ _)) => 1 + argNodes args + nodes content
/-- The nodes of a sequence of chunks. -/
def nodes : List Chunk → Nat
  | [] => 0
  | c :: cs => c.nodes + nodes cs
/-- The nodes of a list of arguments. -/
def argNodes : List (Str × Scope) → Nat
  | [] => 0
  | (_, .mk inner _) :: r => 1 + nodes inner + argNodes r
end

/-- The nodes of a document: of its three sections, and of the arguments of its body. -/
def Document.nodes (f : Document) : Nat :=
  Ast3.nodes f.preamable + argNodes f.bodyArgs + Ast3.nodes f.body + Ast3.nodes f.trailing

end LatexAst.Ast3

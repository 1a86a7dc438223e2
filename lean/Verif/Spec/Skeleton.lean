import Verif.Spec.Maths

/-!
# Specification: the texts and the nodes of a level, each in order
-/

namespace LatexAst.Spec

mutual
/-- A scope, command or environment: what it is, and the text and the nodes of each level in it. Which of the nodes come
before which of the texts is left out. -/
inductive Node where
  | scope (variant : ScopeVariant) (text : Str) (outline : List Node)
  | command (label : Str) (args : List NodeArg)
  | environment (label : Str) (args : List NodeArg) (text : Str) (outline : List Node) (precBegin precEnd : Str)
/-- An argument, with what precedes it. -/
inductive NodeArg where
  | mk (prec : Str) (variant : ScopeVariant) (text : Str) (outline : List Node)
end

/-- The text without its dollar signs. -/
def noDollars (s : Str) : Str := s.filter fun c => c ≠ '$'

end LatexAst.Spec

namespace LatexAst.Ast2
open Spec

/-- The texts of a level put together, without dollar signs. -/
def plain : List Chunk → Str
  | [] => []
  | .mk _ (.text t) :: cs => noDollars t ++ plain cs
  | _ :: cs => plain cs

mutual
/-- The nodes of a chunk. `\(`, `\)`, `\[` and `\]` do not count. -/
def ChunkVariant.outline : ChunkVariant → List Node
  | .text _ => []
  | .scope s => s.outline
  | .command c => c.outline
  | .environment e => e.outline
def Scope.outline : Scope → List Node
  | .mk cs v => [.scope v (plain cs) (outline cs)]
def Command.outline : Command → List Node
  | .mk label args => if label ∈ [chars!"(", chars!")", chars!"[", chars!"]"] then [] else [.command label (outlineArgs args)]
def Environment.outline : Environment → List Node
  | .mk label args content pb pe => [.environment label (outlineArgs args) (plain content) (outline content) pb pe]
def Scope.outlineArg (prec : Str) : Scope → NodeArg
  | .mk cs v => .mk prec v (plain cs) (outline cs)
def outlineArgs : List (Str × Scope) → List NodeArg
  | [] => []
  | (p, s) :: r => s.outlineArg p :: outlineArgs r
/-- The nodes of a level, in order. -/
def outline : List Chunk → List Node
  | [] => []
  | .mk _ v :: cs => v.outline ++ outline cs
end

end LatexAst.Ast2

namespace LatexAst.Ast3
open Spec

mutual
/-- The texts and paragraph breaks of a level put together, without dollar signs; those in formulas belong to the level. -/
def plain : List Chunk → Str
  | [] => []
  | .mk _ v :: cs => v.plain ++ plain cs
def ChunkVariant.plain : ChunkVariant → Str
  | .text t => noDollars t
  | .paragraphBreak b => noDollars b
  | .mathsBlock m => m.plain
  | _ => []
def MathsBlock.plain : MathsBlock → Str
  | .mk _ _ content => Ast3.plain content
end

mutual
/-- The nodes of a chunk; of a formula, those in it. -/
def ChunkVariant.outline : ChunkVariant → List Node
  | .text _ => []
  | .paragraphBreak _ => []
  | .scope s => s.outline
  | .command c => c.outline
  | .environment e => e.outline
  | .mathsBlock m => m.outline
def MathsBlock.outline : MathsBlock → List Node
  | .mk _ _ content => Ast3.outline content
def Scope.outline : Scope → List Node
  | .mk cs v => [.scope v (plain cs) (outline cs)]
def Command.outline : Command → List Node
  | .mk label args => [.command label (outlineArgs args)]
def Environment.outline : Environment → List Node
  | .mk label args content pb pe => [.environment label (outlineArgs args) (plain content) (outline content) pb pe]
def Scope.outlineArg (prec : Str) : Scope → NodeArg
  | .mk cs v => .mk prec v (plain cs) (outline cs)
def outlineArgs : List (Str × Scope) → List NodeArg
  | [] => []
  | (p, s) :: r => s.outlineArg p :: outlineArgs r
/-- The nodes of a level, in order. -/
def outline : List Chunk → List Node
  | [] => []
  | .mk _ v :: cs => v.outline ++ outline cs
end

end LatexAst.Ast3

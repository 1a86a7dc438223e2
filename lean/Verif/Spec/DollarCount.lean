import Verif.Spec.Maths

/-!
# Specification: counting dollar signs level by level

Scopes, arguments and environments are levels of their own; formulas are not.
-/

namespace LatexAst.Ast2

/-- How many dollar signs the texts of a sequence have, without what is within scopes, arguments and environments. -/
def ownDollars : List Chunk → Nat
  | [] => 0
  | .mk _ (.text t) :: r => t.count '$' + ownDollars r
  | _ :: r => ownDollars r

mutual
/-- Within the chunks of a sequence every level has an even number of dollar signs. -/
def evenWithin : List Chunk → Prop
  | [] => True
  | .mk _ v :: r => v.evenWithin ∧ evenWithin r
/-- Within one chunk. -/
def ChunkVariant.evenWithin : ChunkVariant → Prop
  | .text _ => True
  | .command c => c.evenWithin
  | .scope s => s.evenLevels
  | .environment e => e.evenWithin
/-- Within the arguments of a command, unless it is `\(`, `\)`, `\[` or `\]`. -/
def Command.evenWithin : Command → Prop
  | .mk label args => Ast3.IsDelimiter label ∨ evenArgs args
/-- Within an environment and its arguments. -/
def Environment.evenWithin : Environment → Prop
  | .mk _ args cs _ _ => evenArgs args ∧ (2 ∣ ownDollars cs ∧ LatexAst.Ast2.evenWithin cs)
/-- In a scope. -/
def Scope.evenLevels : Scope → Prop
  | .mk cs _ => 2 ∣ ownDollars cs ∧ LatexAst.Ast2.evenWithin cs
/-- In arguments. -/
def evenArgs : List (Str × Scope) → Prop
  | [] => True
  | (_, s) :: r => s.evenLevels ∧ evenArgs r
end

/-- Every level of a sequence has an even number of dollar signs: its own, and every one within its chunks. -/
def evenLevels (cs : List Chunk) : Prop := 2 ∣ ownDollars cs ∧ evenWithin cs

end LatexAst.Ast2

namespace LatexAst.Ast3

/-- How many dollar signs mark a formula. -/
def marksOf : MathsVariant → MathsType → Nat
  | .brackets, _ => 0
  | .dollars, .inline => 2
  | .dollars, .outline => 4

mutual
/-- How many dollar signs mark the formulas of a level: those of a sequence and those directly within these. -/
def markDollars : List Chunk → Nat
  | [] => 0
  | .mk _ v :: r => v.markDollars + markDollars r
/-- Of one chunk. -/
def ChunkVariant.markDollars : ChunkVariant → Nat
  | .mathsBlock m => m.markDollars
  | _ => 0
/-- Of a formula. -/
def MathsBlock.markDollars : MathsBlock → Nat
  | .mk v t cs => marksOf v t + LatexAst.Ast3.markDollars cs
end

end LatexAst.Ast3

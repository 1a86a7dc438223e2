import Verif.Model.Ast3

/-!
# Specification: formulas directly within formulas

A formula is directly within another one if there is no scope, command or environment in between.
-/

namespace LatexAst.Ast3

/-- The three ways to mark maths in a source: `\(..\)`, `\[..\]` and dollar signs. -/
inductive MathsMark where
  | round
  | square
  | dollar
deriving DecidableEq

/-- How a maths block is marked: `$..$` and `$$..$$` are the same mark. -/
def markFor : MathsVariant → MathsType → MathsMark
  | .brackets, .inline => .round
  | .brackets, .outline => .square
  | .dollars, _ => .dollar

mutual
/-- `fresh around cs`: if the formulas directly around `cs` have the marks `around`, then within `cs` no formula has the mark
of a formula directly around it. -/
def fresh (around : List MathsMark) : List Chunk → Prop
  | [] => True
  | .mk _ v :: r => v.fresh around ∧ fresh around r
/-- The same for one chunk. -/
def ChunkVariant.fresh (around : List MathsMark) : ChunkVariant → Prop
  | .text _ => True
  | .paragraphBreak _ => True
  | .mathsBlock m => m.fresh around
  | .command c => c.fresh
  | .scope s => s.fresh
  | .environment e => e.fresh
/-- A formula. -/
def MathsBlock.fresh (around : List MathsMark) : MathsBlock → Prop
  | .mk v t cs => markFor v t ∉ around ∧ LatexAst.Ast3.fresh (markFor v t :: around) cs
/-- Arguments start afresh. -/
def Command.fresh : Command → Prop
  | .mk _ args => freshArgs args
/-- A scope starts afresh. -/
def Scope.fresh : Scope → Prop
  | .mk cs _ => LatexAst.Ast3.fresh [] cs
/-- An environment and its arguments start afresh. -/
def Environment.fresh : Environment → Prop
  | .mk _ args cs _ _ => freshArgs args ∧ LatexAst.Ast3.fresh [] cs
/-- The arguments. -/
def freshArgs : List (Str × Scope) → Prop
  | [] => True
  | (_, s) :: r => s.fresh ∧ freshArgs r
end

mutual
/-- How many formulas are directly within each other, counting those that are not within a scope, command or environment. -/
def directDepth : List Chunk → Nat
  | [] => 0
  | .mk _ v :: r => max v.directDepth (directDepth r)
/-- The same for one chunk. -/
def ChunkVariant.directDepth : ChunkVariant → Nat
  | .mathsBlock m => m.directDepth
  | _ => 0
/-- A formula is one deeper than its content. -/
def MathsBlock.directDepth : MathsBlock → Nat
  | .mk _ _ cs => LatexAst.Ast3.directDepth cs + 1
end

mutual
/-- Every run of formulas directly within each other, wherever it is, has at most `n` members. -/
def shallow (n : Nat) : List Chunk → Prop
  | [] => True
  | .mk l v :: r => directDepth [.mk l v] ≤ n ∧ v.shallow n ∧ shallow n r
/-- The same within one chunk. -/
def ChunkVariant.shallow (n : Nat) : ChunkVariant → Prop
  | .text _ => True
  | .paragraphBreak _ => True
  | .mathsBlock m => m.shallow n
  | .command c => c.shallow n
  | .scope s => s.shallow n
  | .environment e => e.shallow n
/-- Within a formula. -/
def MathsBlock.shallow (n : Nat) : MathsBlock → Prop
  | .mk _ _ cs => LatexAst.Ast3.shallow n cs
/-- Within the arguments of a command. -/
def Command.shallow (n : Nat) : Command → Prop
  | .mk _ args => shallowArgs n args
/-- Within a scope. -/
def Scope.shallow (n : Nat) : Scope → Prop
  | .mk cs _ => LatexAst.Ast3.shallow n cs
/-- Within an environment and its arguments. -/
def Environment.shallow (n : Nat) : Environment → Prop
  | .mk _ args cs _ _ => shallowArgs n args ∧ LatexAst.Ast3.shallow n cs
/-- Within arguments. -/
def shallowArgs (n : Nat) : List (Str × Scope) → Prop
  | [] => True
  | (_, s) :: r => s.shallow n ∧ shallowArgs n r
end

end LatexAst.Ast3
